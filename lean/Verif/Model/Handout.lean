import Verif.Model.Bitfield
import Verif.Model.Sync
/-
How workers get tasks: /repo/redGrapes/dispatch/thread/worker.cpp: gather_task, init_dependencies;
/repo/redGrapes/scheduler/default_scheduler.cpp: emplace_task, activate_task, steal_new_task,
steal_ready_task, steal_task.

Two views: one call of `gather_task` against arbitrary other threads (`gather`), and all workers together
as a transition system (`Step`).
-/
namespace RG.Handout

open RG.Bf

/-! ### one call of `gather_task` -/

/-- What other threads do meanwhile, moment by moment. A queue is the list of its elements; the element
returned by `pop` is the head, which means no restriction since the lists may be permuted at any moment. -/
structure Env where
  /-- words of the worker states -/
  σ : Nat → Nat → Size
  /-- ready queue of each worker -/
  ready : Nat → Nat → List Nat
  /-- emplacement queue of each worker -/
  new : Nat → Nat → List Nat
  /-- whether `get_pre_event().notify(true)` for this task, at this moment, returns true -/
  isReady : Nat → Nat → Bool

/-- The callback of `steal_ready_task` and `steal_new_task`, default_scheduler.cpp:98-110, 127-139: look
into the queue of worker `idx`, then into the own queue. Result: the worker it was taken from, the
task. -/
def lookInto (q : Nat → Nat → List Nat) (w : Nat) (t idx : Nat) : Option (Nat × Nat) :=
  match q t idx with
  | x :: _ => some (idx, x)
  | [] =>
    match q t w with
    | x :: _ => some (w, x)
    | [] => none

/-- default_scheduler.cpp:95-119 and 124-148 from moment `t0` on: probe the BUSY workers. -/
def steal (e : Env) (q : Nat → Nat → List Nat) (n w t0 : Nat) : Probe (Nat × Nat) :=
  probe (fun t => e.σ (t0 + t)) (fun t => lookInto q w (t0 + t)) n false w true

/-- Result of a call: the returned task, the tasks that were initialised on the way, the end. -/
structure Gather where
  res : Option Nat
  inits : List Nat
  time : Nat
  /-- the bound for the number of rounds of the loop of stage 2 was hit -/
  stuck : Bool

/-- default_scheduler.cpp:152-183 `steal_task`. -/
def stealTask (e : Env) (n w t : Nat) : Gather :=
  let r := steal e e.ready n w t
  match r.res with
  | some (_, x) => ⟨some x, [], t + r.time, r.stuck⟩
  | none =>
    let t' := t + r.time
    let r' := steal e e.new n w t'
    match r'.res with
    | some (_, x) =>
      ⟨if e.isReady (t' + r'.time) x then some x else none, [x], t' + r'.time + 1, r.stuck || r'.stuck⟩
    | none => ⟨none, [], t' + r'.time, r.stuck || r'.stuck⟩

/-- worker.cpp:176-183 (stage 2) with `init_dependencies`, worker.cpp:203-224, then stage 3,
worker.cpp:185-199. The loop of stage 2 has no bound in the code, here it has `fuel`. -/
def stage2 (e : Env) (n w : Nat) : Nat → Nat → Gather
  | 0, t => ⟨none, [], t, true⟩
  | fuel + 1, t =>
    match e.new t w with
    | x :: _ =>
      if e.isReady (t + 1) x then ⟨some x, [x], t + 2, false⟩
      else
        let r := stage2 e n w fuel (t + 2)
        { r with inits := x :: r.inits }
    | [] =>
      -- moment `t + 1`: the worker state is set to AVAILABLE, worker.cpp:187
      stealTask e n w (t + 2)

/-- worker.cpp:157-201 `gather_task` of worker `w`, one of `n`. -/
def gather (e : Env) (n w fuel : Nat) : Gather :=
  match e.ready 0 w with
  | x :: _ => ⟨some x, [], 1, false⟩
  | [] => stage2 e n w fuel 1

/-! ### all workers -/

/-- Where a worker is in `work_loop` / `gather_task`. -/
inductive Pc
  /-- not in `gather_task`, or in its stage 1 -/
  | top
  /-- stage 2, before `emplacement_queue.pop()` -/
  | own
  /-- holds a new task, before `init_graph()` and `notify(true)`, worker.cpp:210-213 -/
  | initOwn (t : Nat)
  /-- probing for ready tasks -/
  | stealReady
  /-- probing for new tasks -/
  | stealNew
  /-- holds a new task of another worker, default_scheduler.cpp:168-171 -/
  | initStolen (t : Nat)
  /-- in `execute_task`, worker.cpp:151 -/
  | exec (t : Nat)
  deriving DecidableEq

structure State where
  ready : Nat → List Nat
  new : Nat → List Nat
  pc : Nat → Pc
  /-- ghost: all calls of `emplace_task`, `activate_task`, in order -/
  emplaced : List Nat
  activated : List Nat
  /-- ghost: the tasks whose `init_graph` was called, in order -/
  inited : List Nat
  /-- ghost: the tasks found ready by the initialising worker (`notify(true)` returned true) -/
  claimed : List Nat
  /-- ghost: calls of `execute_task` -/
  executed : List Nat

def init : State := ⟨fun _ => [], fun _ => [], fun _ => .top, [], [], [], [], []⟩

/-- Steps of `n` workers and any other threads. Which workers are probed during stealing is left open
(the code looks at those whose state is BUSY), so that there are more executions than in the code. -/
inductive Step (n : Nat) : State → State → Prop
  /-- default_scheduler.cpp:33-38 -/
  | emplace {s w t} (hw : w < n) :
      Step n s { s with new := upd s.new w (s.new w ++ [t]), emplaced := s.emplaced ++ [t] }
  /-- default_scheduler.cpp:69-86, for a worker chosen by `activate_task` (C45) -/
  | activate {s w t} (hw : w < n) :
      Step n s { s with ready := upd s.ready w (s.ready w ++ [t]), activated := s.activated ++ [t] }
  /-- worker.cpp:168-169 -/
  | popReady {s w t l} (hw : w < n) (h : s.pc w = .top) (hq : (s.ready w).Perm (t :: l)) :
      Step n s { s with ready := upd s.ready w l, pc := upd s.pc w (.exec t),
                        executed := s.executed ++ [t] }
  | readyEmpty {s w} (hw : w < n) (h : s.pc w = .top) (hq : s.ready w = []) :
      Step n s { s with pc := upd s.pc w .own }
  /-- worker.cpp:206 -/
  | popNew {s w t l} (hw : w < n) (h : s.pc w = .own) (hq : (s.new w).Perm (t :: l)) :
      Step n s { s with new := upd s.new w l, pc := upd s.pc w (.initOwn t) }
  /-- worker.cpp:210-214, 181-182: the task is ready -/
  | initReady {s w t} (hw : w < n) (h : s.pc w = .initOwn t) :
      Step n s { s with pc := upd s.pc w (.exec t), inited := s.inited ++ [t],
                        claimed := s.claimed ++ [t], executed := s.executed ++ [t] }
  /-- worker.cpp:210-218, 180: it is not, next round -/
  | initBlocked {s w t} (hw : w < n) (h : s.pc w = .initOwn t) :
      Step n s { s with pc := upd s.pc w .own, inited := s.inited ++ [t] }
  | newEmpty {s w} (hw : w < n) (h : s.pc w = .own) (hq : s.new w = []) :
      Step n s { s with pc := upd s.pc w .stealReady }
  /-- default_scheduler.cpp:131-136: from worker `v`, possibly `w` itself -/
  | stealReady {s w v t l} (hw : w < n) (hv : v < n) (h : s.pc w = .stealReady)
      (hq : (s.ready v).Perm (t :: l)) :
      Step n s { s with ready := upd s.ready v l, pc := upd s.pc w (.exec t),
                        executed := s.executed ++ [t] }
  | noReady {s w} (hw : w < n) (h : s.pc w = .stealReady) :
      Step n s { s with pc := upd s.pc w .stealNew }
  /-- default_scheduler.cpp:102-107 -/
  | stealNew {s w v t l} (hw : w < n) (hv : v < n) (h : s.pc w = .stealNew)
      (hq : (s.new v).Perm (t :: l)) :
      Step n s { s with new := upd s.new v l, pc := upd s.pc w (.initStolen t) }
  | noNew {s w} (hw : w < n) (h : s.pc w = .stealNew) : Step n s { s with pc := upd s.pc w .top }
  /-- default_scheduler.cpp:168-177 -/
  | stolenReady {s w t} (hw : w < n) (h : s.pc w = .initStolen t) :
      Step n s { s with pc := upd s.pc w (.exec t), inited := s.inited ++ [t],
                        claimed := s.claimed ++ [t], executed := s.executed ++ [t] }
  /-- default_scheduler.cpp:168-171, 181 -/
  | stolenBlocked {s w t} (hw : w < n) (h : s.pc w = .initStolen t) :
      Step n s { s with pc := upd s.pc w .top, inited := s.inited ++ [t] }
  /-- `execute_task` has returned -/
  | executed {s w t} (hw : w < n) (h : s.pc w = .exec t) : Step n s { s with pc := upd s.pc w .top }

inductive Reach (n : Nat) : State → Prop
  | init : Reach n init
  | step {s s'} : Reach n s → Step n s s' → Reach n s'

end RG.Handout
