import Verif.Model.TaskQueue
import Verif.Model.Sync
/-
Workers with the real queues: /repo/redGrapes/dispatch/thread/worker.cpp (`work_loop`, `gather_task`, `init_dependencies`),
/repo/redGrapes/scheduler/default_scheduler.cpp (`emplace_task`, `activate_task`, `steal_ready_task`, `steal_new_task`, `steal_task`),
/repo/redGrapes/task/queue.hpp (`push`, `pop`), and the top level of moodycamel::ConcurrentQueue (cq.h, see `Model/TaskQueue`: `try_dequeue`, `add_producer`).
Every worker has two queues with the sub-queues of `Model/TaskQueue` and the condition variable of `Model/Sync`.

Simplified: the table from threads to their sub-queues (cq.h:3388-3510) always finds the sub-queue of the calling thread, if it has one; initialising and executing a task are steps without effect on this state -
what they enqueue is enqueued by other threads of the model; workers are not stopped; which BUSY workers are probed first is left open, but each worker is probed once (C43).
-/
namespace RG.RQ

open RG.MQ (CPc PPc)

/-! ### One queue -/

/-- Where a consumer is in `try_dequeue`, cq.h:1125-1156. -/
inductive DPc
  | out
  /-- before the load of `producerListTail`, line 1132 -/
  | scan
  /-- in the loop, lines 1132-1141: `rest` sub-queues left, `n` not empty ones found, the best with its size; before line 1739 -/
  | size (rest : List Nat) (n : Nat) (best : Option (Nat × Nat))
  /-- before line 1740, for `p` with the tail `t` -/
  | sizeH (p : Nat) (rest : List Nat) (n : Nat) (best : Option (Nat × Nat)) (t : Nat)
  /-- in `best->dequeue`, line 1146 -/
  | first (p : Nat)
  /-- before the load in line 1149; `b` is `best` -/
  | scan2 (b : Nat)
  /-- in the loop, lines 1149-1153 -/
  | next (b : Nat) (rest : List Nat)
  /-- in `ptr->dequeue`, line 1150 -/
  | other (b p : Nat) (rest : List Nat)
  /-- about to return -/
  | ret (r : Option Nat)
  deriving DecidableEq

/-- the sub-queue in whose `dequeue` it is -/
def DPc.sub : DPc → Option Nat
  | .first p => some p
  | .other _ p _ => some p
  | _ => none

/-- what follows when the `dequeue` of a sub-queue has returned nothing -/
def DPc.miss : DPc → DPc
  | .first p => .scan2 p
  | .other b _ rest => .next b rest
  | d => d

structure Queue where
  q : MQ.State
  /-- the sub-queues from `producerListTail` on; their `next` pointers do not change -/
  list : List Nat
  con : Nat → DPc
  /-- ghost: no other thread has been inside `pop` during the latest `pop` of the owner of the queue -/
  clean : Prop

/-- thread `c` calls `pop`; `w` is the worker to which the queue belongs -/
def Queue.call (u : Queue) (w c : Nat) : Queue :=
  { u with
    con := upd u.con c .scan
    clean := (c = w → ∀ c', c' ≠ w → u.con c' = .out) ∧ (c ≠ w → u.clean ∧ u.con w = .out) }

/-- thread `c` returns from `pop` -/
def Queue.leave (u : Queue) (c : Nat) : Queue := { u with con := upd u.con c .out }

/-- cq.h:1737-1742 `size_approx` -/
def sizeApprox (tail head : Nat) : Nat := if head < tail then tail - head else 0

/-- cq.h:1133-1140 -/
def better (p sz : Nat) : Option (Nat × Nat) → Option (Nat × Nat)
  | none => some (p, sz)
  | some (b, bs) => if bs < sz then some (p, sz) else some (b, bs)

/-- One step of `try_dequeue` of thread `c`. -/
inductive QStep (B c : Nat) : Queue → Queue → Prop
  /-- line 1132 -/
  | scan {u} (h : u.con c = .scan) : QStep B c u { u with con := upd u.con c (.size u.list 0 none) }
  | sizeT {u p rest n best} (h : u.con c = .size (p :: rest) n best) (hn : n < 3) :
      QStep B c u { u with con := upd u.con c (.sizeH p rest n best (u.q.subs p).tail) }
  | sizeH {u p rest n best t} (h : u.con c = .sizeH p rest n best t) :
      QStep B c u { u with con := upd u.con c (
        if 0 < sizeApprox t (u.q.subs p).head then .size rest (n + 1) (better p (sizeApprox t (u.q.subs p).head) best)
        else .size rest n best) }
  /-- lines 1145, 1155 -/
  | empty {u rest best} (h : u.con c = .size rest 0 best) (hr : rest = []) : QStep B c u { u with con := upd u.con c (.ret none) }
  /-- line 1146 -/
  | first {u rest n p sz q'} (h : u.con c = .size rest (n + 1) (some (p, sz))) (hr : rest = [] ∨ 3 ≤ n + 1)
      (hs : MQ.Step B p u.q q') (hc : (u.q.subs p).cons c = .out) (hc' : (q'.subs p).cons c = .start) :
      QStep B c u { u with q := q', con := upd u.con c (.first p) }
  /-- inside `dequeue` of the sub-queue -/
  | inner {u p q'} (h : (u.con c).sub = some p) (hs : MQ.Step B p u.q q') (hc : (u.q.subs p).cons c ≠ (q'.subs p).cons c)
      (hc' : (q'.subs p).cons c ≠ .out) : QStep B c u { u with q := q' }
  /-- lines 1146-1148, 1150-1152 -/
  | found {u p q' i x} (h : (u.con c).sub = some p) (hs : MQ.Step B p u.q q') (hc : (u.q.subs p).cons c = .ret (some (i, x)))
      (hc' : (q'.subs p).cons c = .out) : QStep B c u { u with q := q', con := upd u.con c (.ret (some x)) }
  | miss {u p q'} (h : (u.con c).sub = some p) (hs : MQ.Step B p u.q q') (hc : (u.q.subs p).cons c = .ret none)
      (hc' : (q'.subs p).cons c = .out) : QStep B c u { u with q := q', con := upd u.con c (u.con c).miss }
  /-- line 1149 -/
  | scan2 {u b} (h : u.con c = .scan2 b) : QStep B c u { u with con := upd u.con c (.next b u.list) }
  | skip {u b rest} (h : u.con c = .next b (b :: rest)) : QStep B c u { u with con := upd u.con c (.next b rest) }
  /-- line 1150 -/
  | other {u b p rest q'} (h : u.con c = .next b (p :: rest)) (hb : p ≠ b)
      (hs : MQ.Step B p u.q q') (hc : (u.q.subs p).cons c = .out) (hc' : (q'.subs p).cons c = .start) :
      QStep B c u { u with q := q', con := upd u.con c (.other b p rest) }
  | last {u b} (h : u.con c = .next b []) : QStep B c u { u with con := upd u.con c (.ret none) }

/-! ### Workers -/

/-- Where a worker is in `work_loop`, worker.cpp:138-155. `k` tells the queue: `true` ready queue, `false` emplacement queue. -/
inductive Pc
  /-- before the state is set to AVAILABLE, line 143 -/
  | top
  /-- before `cv.wait()`, line 146 -/
  | enter
  | waiting
  /-- in `pop` of the own queue, line 167 or 206 -/
  | pop (k : Bool)
  /-- initialising a task, lines 210-213 -/
  | initing (t : Nat)
  /-- before the state is set to AVAILABLE, line 183 -/
  | avail
  /-- in `steal_ready_task` or `steal_new_task`; these workers have been probed -/
  | probe (k : Bool) (seen : List Nat)
  /-- in `pop` of worker `v`, default_scheduler.cpp:102, 133 -/
  | look (k : Bool) (v : Nat) (seen : List Nat)
  /-- in `pop` of its own queue, default_scheduler.cpp:106, 137 -/
  | lookOwn (k : Bool) (seen : List Nat)
  /-- initialising a stolen task, default_scheduler.cpp:170-173 -/
  | initStolen (t : Nat)
  /-- before the state is set to BUSY, default_scheduler.cpp:164, 175 -/
  | got (t : Nat)
  /-- before the state is set to BUSY, worker.cpp:150 -/
  | start (t : Nat)
  | executing (t : Nat)
  deriving DecidableEq

/-- the queue in whose `pop` worker `w` is -/
def Pc.inPop (w : Nat) : Pc → Option (Nat × Bool)
  | .pop k => some (w, k)
  | .look k v _ => some (v, k)
  | .lookOwn k _ => some (w, k)
  | _ => none

/-- Where a thread is in `emplace_task` (default_scheduler.cpp:33-38, worker.hpp:93-97) or `activate_task` (default_scheduler.cpp:86-88). -/
inductive JPc
  | out
  /-- in `push` -/
  | push (w : Nat) (k : Bool)
  /-- before the state is set to BUSY, default_scheduler.cpp:87 -/
  | mark (w : Nat)
  /-- before `wake()` -/
  | pushed (w : Nat)
  /-- in `wake()` -/
  | inCv (w : Nat)
  deriving DecidableEq

structure State where
  cv : Nat → Cv.State
  pc : Nat → Pc
  qs : Nat → Bool → Queue
  /-- the state of the worker: BUSY -/
  busy : Nat → Bool
  ps : Nat → JPc
  /-- ghost: one of the latest `pop`s of the worker in its own queue found nothing, and no other thread was inside `pop` of this queue meanwhile -/
  sure : Nat → Bool → Prop

def upd2 {α} (f : Nat → Bool → α) (w : Nat) (k : Bool) (v : α) : Nat → Bool → α := fun w' k' => if w' = w ∧ k' = k then v else f w' k'

/-- Nothing has been enqueued yet; all workers are about to enter their loop. -/
structure Init (C : Nat) (s : State) : Prop where
  cv : ∀ w, s.cv w = Cv.init
  pc : ∀ w, s.pc w = .top
  q : ∀ w k, MQ.Init C (s.qs w k).q
  list : ∀ w k, (s.qs w k).list = []
  con : ∀ w k c, (s.qs w k).con c = .out
  ps : ∀ j, s.ps j = .out

/-- worker `w`, now at `pc'`, calls `pop` of queue `k` of worker `v` -/
def State.call (s : State) (w v : Nat) (k : Bool) (pc' : Pc) : State :=
  { s with pc := upd s.pc w pc', qs := upd2 s.qs v k ((s.qs v k).call v w) }

/-- worker `w` has returned from `pop` of queue `k` of worker `v` and is now at `pc'` -/
def State.leave (s : State) (w v : Nat) (k : Bool) (pc' : Pc) : State :=
  { s with pc := upd s.pc w pc', qs := upd2 s.qs v k ((s.qs v k).leave w) }

/-- `leave` after the worker has found its own queue empty; `late`: in `steal_task` -/
def State.leaveOwn (s : State) (w : Nat) (k : Bool) (late : Prop) (pc' : Pc) : State :=
  { s.leave w w k pc' with sure := upd2 s.sure w k ((s.qs w k).clean ∨ late ∧ s.sure w k) }

/-- Steps of the worker threads `w < n`. -/
inductive WStep (B n w : Nat) : State → State → Prop
  /-- worker.cpp:143 -/
  | avail1 {s} (h : s.pc w = .top) : WStep B n w s { s with pc := upd s.pc w .enter, busy := upd s.busy w false }
  | enter {s cv'} (h : s.pc w = .enter) (hc : Cv.Step (.waitCall 0) (s.cv w) cv') :
      WStep B n w s { s with pc := upd s.pc w .waiting, cv := upd s.cv w cv' }
  | wait {s cv'} (hc : Cv.Step (.wait 0) (s.cv w) cv') : WStep B n w s { s with cv := upd s.cv w cv' }
  /-- `wait()` has returned; worker.cpp:167 -/
  | woken {s} (h : s.pc w = .waiting) (hc : (s.cv w).ws 0 = .out) : WStep B n w s (s.call w w true (.pop true))
  /-- inside `pop` -/
  | pop {s v k u} (h : (s.pc w).inPop w = some (v, k)) (hs : QStep B w (s.qs v k) u) : WStep B n w s { s with qs := upd2 s.qs v k u }
  /-- worker.cpp:168 -/
  | popReady {s t} (h : s.pc w = .pop true) (hr : (s.qs w true).con w = .ret (some t)) : WStep B n w s (s.leave w w true (.start t))
  /-- worker.cpp:177, 206: the next call of `pop` -/
  | noReady {s} (h : s.pc w = .pop true) (hr : (s.qs w true).con w = .ret none) :
      WStep B n w s ((s.leaveOwn w true False (.pop false)).call w w false (.pop false))
  /-- worker.cpp:206 -/
  | popNew {s t} (h : s.pc w = .pop false) (hr : (s.qs w false).con w = .ret (some t)) : WStep B n w s (s.leave w w false (.initing t))
  | noNew {s} (h : s.pc w = .pop false) (hr : (s.qs w false).con w = .ret none) : WStep B n w s (s.leaveOwn w false False .avail)
  /-- worker.cpp:213-214, 178-179 -/
  | initReady {s t} (h : s.pc w = .initing t) : WStep B n w s { s with pc := upd s.pc w (.start t) }
  /-- worker.cpp:215-218, 177, 206 -/
  | initBlocked {s t} (h : s.pc w = .initing t) : WStep B n w s (s.call w w false (.pop false))
  /-- worker.cpp:183 -/
  | avail2 {s} (h : s.pc w = .avail) : WStep B n w s { s with pc := upd s.pc w (.probe true []), busy := upd s.busy w false }
  /-- default_scheduler.cpp:102, 133 for a BUSY worker `v` -/
  | probe {s k v seen} (h : s.pc w = .probe k seen) (hv : v < n) (hn : v ∉ seen) (hb : s.busy v = true) :
      WStep B n w s (s.call w v k (.look k v (v :: seen)))
  | probeNot {s k v seen} (h : s.pc w = .probe k seen) (hv : v < n) (hn : v ∉ seen) (hb : s.busy v = false) :
      WStep B n w s { s with pc := upd s.pc w (.probe k (v :: seen)) }
  /-- all workers have been probed: default_scheduler.cpp:168 or 182 -/
  | probed {s k seen} (h : s.pc w = .probe k seen) (hall : ∀ v, v < n → v ∈ seen) :
      WStep B n w s { s with pc := upd s.pc w (if k then .probe false [] else .top) }
  /-- default_scheduler.cpp:103, 134 -/
  | stolen {s k v seen t} (h : s.pc w = .look k v seen) (hr : (s.qs v k).con w = .ret (some t)) :
      WStep B n w s (s.leave w v k (if k then .got t else .initStolen t))
  /-- default_scheduler.cpp:106, 137; `v` may be `w` -/
  | notStolen {s k v seen} (h : s.pc w = .look k v seen) (hr : (s.qs v k).con w = .ret none) :
      WStep B n w s ((if v = w then s.leaveOwn w k True (.lookOwn k seen) else s.leave w v k (.lookOwn k seen)).call w w k (.lookOwn k seen))
  /-- default_scheduler.cpp:107, 138 -/
  | own {s k seen t} (h : s.pc w = .lookOwn k seen) (hr : (s.qs w k).con w = .ret (some t)) :
      WStep B n w s (s.leave w w k (if k then .got t else .initStolen t))
  | notOwn {s k seen} (h : s.pc w = .lookOwn k seen) (hr : (s.qs w k).con w = .ret none) :
      WStep B n w s (s.leaveOwn w k True (.probe k seen))
  /-- default_scheduler.cpp:170-175 -/
  | stolenReady {s t} (h : s.pc w = .initStolen t) : WStep B n w s { s with pc := upd s.pc w (.got t) }
  /-- default_scheduler.cpp:173, 182 -/
  | stolenBlocked {s t} (h : s.pc w = .initStolen t) : WStep B n w s { s with pc := upd s.pc w .top }
  /-- default_scheduler.cpp:164, 175 -/
  | busy1 {s t} (h : s.pc w = .got t) : WStep B n w s { s with pc := upd s.pc w (.start t), busy := upd s.busy w true }
  /-- worker.cpp:150 -/
  | busy2 {s t} (h : s.pc w = .start t) : WStep B n w s { s with pc := upd s.pc w (.executing t), busy := upd s.busy w true }
  /-- worker.cpp:148, 167: the next call of `gather_task` -/
  | executed {s t} (h : s.pc w = .executing t) : WStep B n w s (s.call w w true (.pop true))

/-- A spurious wake-up of worker `w`. -/
inductive Spurious (w : Nat) : State → State → Prop
  | mk {s cv'} (hc : Cv.Step (.spurious 0) (s.cv w) cv') : Spurious w s { s with cv := upd s.cv w cv' }

/-- Steps of a thread `j` that enqueues tasks, after it has begun to do so. -/
inductive PStep (B j : Nat) : State → State → Prop
  | push {s w k q'} (h : s.ps j = .push w k) (hs : MQ.Step B j (s.qs w k).q q') (hc : (q'.subs j).prod ≠ ((s.qs w k).q.subs j).prod)
      (hc' : (q'.subs j).prod ≠ .out) : PStep B j s { s with qs := upd2 s.qs w k { s.qs w k with q := q' } }
  /-- the end of `push` -/
  | pushed {s w k q'} (h : s.ps j = .push w k) (hs : MQ.Step B j (s.qs w k).q q') (hc : (q'.subs j).prod ≠ ((s.qs w k).q.subs j).prod)
      (hc' : (q'.subs j).prod = .out) :
      PStep B j s { s with qs := upd2 s.qs w k { s.qs w k with q := q' }, ps := upd s.ps j (if k then .mark w else .pushed w) }
  /-- default_scheduler.cpp:87 -/
  | mark {s w} (h : s.ps j = .mark w) : PStep B j s { s with ps := upd s.ps j (.pushed w), busy := upd s.busy w true }
  /-- worker.hpp:96, default_scheduler.cpp:88 -/
  | wake {s w cv'} (h : s.ps j = .pushed w) (hc : Cv.Step (.notifyCall j) (s.cv w) cv') :
      PStep B j s { s with ps := upd s.ps j (.inCv w), cv := upd s.cv w cv' }
  | notify {s w cv'} (h : s.ps j = .inCv w) (hc : Cv.Step (.notify j) (s.cv w) cv') : PStep B j s { s with cv := upd s.cv w cv' }
  | wakeDone {s w} (h : s.ps j = .inCv w) (hc : (s.cv w).ns j = .out) : PStep B j s { s with ps := upd s.ps j .out }

/-- A thread `j` begins to enqueue a task at worker `w`, or to wake it for another reason. -/
inductive Begin (B n j : Nat) : State → State → Prop
  /-- cq.h:1373-1377, 3246-3259: a sub-queue is added for a thread that has none -/
  | push {s w q'} (k : Bool) (hw : w < n) (h : s.ps j = .out) (hs : MQ.Step B j (s.qs w k).q q') (hc : ((s.qs w k).q.subs j).prod = .out)
      (hc' : (q'.subs j).prod ≠ .out) :
      Begin B n j s { s with
        ps := upd s.ps j (.push w k)
        qs := upd2 s.qs w k { s.qs w k with q := q', list := if j ∈ (s.qs w k).list then (s.qs w k).list else j :: (s.qs w k).list } }
  | noise {s w cv'} (hw : w < n) (h : s.ps j = .out) (hc : Cv.Step (.notifyCall j) (s.cv w) cv') :
      Begin B n j s { s with ps := upd s.ps j (.inCv w), cv := upd s.cv w cv' }

inductive Step (B n : Nat) : State → State → Prop
  | worker {s s'} (w) (hw : w < n) (h : WStep B n w s s') : Step B n s s'
  | spurious {s s'} (w) (h : Spurious w s s') : Step B n s s'
  | producer {s s'} (j) (h : PStep B j s s') : Step B n s s'
  | begin {s s'} (j) (h : Begin B n j s s') : Step B n s s'

inductive Reach (B C n : Nat) : State → Prop
  | init {s} (h : Init C s) : Reach B C n s
  | step {s s'} : Reach B C n s → Step B n s s' → Reach B C n s'

end RG.RQ
