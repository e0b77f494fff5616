import Verif.Model.Sync
/-
/repo/redGrapes/redGrapes.cpp: `Context::barrier`, `Context::finalize`;
/repo/redGrapes/task/task_space.cpp: `empty`, `free_task`;
/repo/redGrapes/dispatch/thread/worker_pool.cpp: `WorkerPool::stop`;
/repo/redGrapes/scheduler/default_scheduler.cpp: `wake`, `wake_all`.
-/
namespace RG

/-! ### waiting in `barrier()` -/
namespace Barrier

/-- Program counter of the thread in `Context::barrier`, redGrapes.cpp:136-142. -/
inductive Pc
  /-- before evaluating the loop condition, redGrapes.cpp:140 -/
  | check
  /-- in `idle()`, redGrapes.cpp:141, default_scheduler.cpp:18-29 -/
  | idle
  | done
  /-- `idle()` has thrown `std::bad_function_call` -/
  | threw
  deriving DecidableEq

/-- Program counter of a thread in `TaskSpace::free_task`, task_space.cpp:50-68. -/
inductive FPc
  | out
  /-- has decremented the counter to `c`, task_space.cpp:53; before line 66 -/
  | freed (c : Nat)
  /-- before `wake(0)` in `wake_all`, default_scheduler.cpp:206-207 -/
  | waking
  /-- in `cv.notify()`, default_scheduler.cpp:195 -/
  | inCv
  deriving DecidableEq

structure State where
  /-- the condition variable of the scheduler, waker id 0 -/
  cv : Cv.State
  pc : Pc
  fs : Nat → FPc
  /-- `task_count` of the root space, task_space.hpp:26 -/
  count : Nat

structure Cfg where
  /-- number of tasks of the root space at the beginning -/
  n0 : Nat
  /-- the thread-local function object `Context::idle` of the calling thread is set; the library sets it
  in the thread which creates the context only (redGrapes.cpp:29, 35-38), not in worker threads -/
  idleSet : Bool

def init (cfg : Cfg) : State := ⟨Cv.init, .check, fun _ => .out, cfg.n0⟩

/-- task_space.cpp:46-47, 53, 66: the `unsigned long` counter is stored in an `unsigned` (32 bits). -/
def isZero (c : Nat) : Bool := c % 2 ^ 32 == 0

/-- One step; the label says whether it is a step of the thread in `barrier()`. -/
inductive Step (cfg : Cfg) : Bool → State → State → Prop
  /-- redGrapes.cpp:140 -/
  | empty {s} (h : s.pc = .check) (hc : isZero s.count = true) : Step cfg true s { s with pc := .done }
  /-- redGrapes.cpp:140-141 -/
  | idle {s cv'} (h : s.pc = .check) (hc : isZero s.count = false) (hd : cfg.idleSet = true)
      (hw : Cv.Step (.waitCall 0) s.cv cv') : Step cfg true s { s with pc := .idle, cv := cv' }
  /-- redGrapes.cpp:141: calling an empty `std::function` -/
  | noIdle {s} (h : s.pc = .check) (hc : isZero s.count = false) (hd : cfg.idleSet = false) :
      Step cfg true s { s with pc := .threw }
  /-- `cv.wait()` has returned -/
  | back {s} (h : s.pc = .idle) (hw : s.cv.ws 0 = .out) : Step cfg true s { s with pc := .check }
  /-- steps inside of `cv.wait()` -/
  | wait {s cv'} (hw : Cv.Step (.wait 0) s.cv cv') : Step cfg true s { s with cv := cv' }
  | spurious {s cv'} (hw : Cv.Step (.spurious 0) s.cv cv') : Step cfg false s { s with cv := cv' }
  /-- task_space.cpp:76, by another thread -/
  | submit {s} : Step cfg false s { s with count := s.count + 1 }
  /-- task_space.cpp:53 -/
  | free {s j} (h : s.fs j = .out) (hn : s.cv.ns j = .out) (hc : 0 < s.count) :
      Step cfg false s { s with fs := upd s.fs j (.freed (s.count - 1)), count := s.count - 1 }
  /-- task_space.cpp:66-67 -/
  | last {s j c} (h : s.fs j = .freed c) (hc : isZero c = true) :
      Step cfg false s { s with fs := upd s.fs j .waking }
  | notLast {s j c} (h : s.fs j = .freed c) (hc : isZero c = false) :
      Step cfg false s { s with fs := upd s.fs j .out }
  /-- default_scheduler.cpp:206-207 with `i = 0` -/
  | wake {s j cv'} (h : s.fs j = .waking) (hn : Cv.Step (.notifyCall j) s.cv cv') :
      Step cfg false s { s with fs := upd s.fs j .inCv, cv := cv' }
  | notify {s j cv'} (hn : Cv.Step (.notify j) s.cv cv') : Step cfg false s { s with cv := cv' }
  /-- the main thread has been woken; the rest of `wake_all` does not concern it -/
  | woken {s j} (h : s.fs j = .inCv) (hn : s.cv.ns j = .out) :
      Step cfg false s { s with fs := upd s.fs j .out }
  /-- the main thread is woken for another reason, e.g. by an event -/
  | noise {s j cv'} (h : s.fs j = .out) (hn : Cv.Step (.notifyCall j) s.cv cv') :
      Step cfg false s { s with cv := cv' }

inductive Reach (cfg : Cfg) : State → Prop
  | init : Reach cfg (init cfg)
  | step {s s' l} : Reach cfg s → Step cfg l s s' → Reach cfg s'

/-- Executions of `n` steps in which only the thread in `barrier()` runs. -/
inductive Solo (cfg : Cfg) : Nat → State → State → Prop
  | refl {s} : Solo cfg 0 s s
  | step {n s s' s''} : Step cfg true s s' → Solo cfg n s' s'' → Solo cfg (n + 1) s s''

/-- All calls of `free_task` and `CondVar::notify` have returned. -/
def Quiet (s : State) : Prop := ∀ j, s.fs j = .out ∧ s.cv.ns j = .out

end Barrier

/-! ### stopping the workers -/
namespace Pool

/-- Program counter of the thread in `WorkerPool::stop`, worker_pool.cpp:66-72, called by `finalize`
(redGrapes.cpp:148). -/
inductive MPc
  /-- before `worker->stop()` for worker `k`, worker_pool.cpp:68-69 -/
  | stop (k : Nat)
  /-- in `thread.join()` for worker `k`, worker.cpp:69 -/
  | join (k : Nat)
  /-- `workers.clear()` done (worker_pool.cpp:71), the scheduler and the root space may be destroyed
  (redGrapes.cpp:150-151) -/
  | cleared
  deriving DecidableEq

structure State where
  ws : Nat → Work.State
  main : MPc

def init : State := ⟨fun _ => Work.init, .stop 0⟩

/-- One step of the pool with `n` workers. The call of `wake()` which follows the store of the stop flag
(worker.cpp:63) is done by the same producer of the worker that has set the flag; simplification: the
stopping thread may be seen in `join()` before this call has returned, which only allows more
executions. -/
inductive Step (n : Nat) : State → State → Prop
  /-- worker.cpp:62, 68 -/
  | setStop {s k j} (hk : k < n) (h : s.main = .stop k) (hp : (s.ws k).ps j = .out)
      (hc : (s.ws k).cv.ns j = .out) :
      Step n s { ws := upd s.ws k { s.ws k with stop := true, ps := upd (s.ws k).ps j .pushed }
                 main := .join k }
  /-- worker.cpp:69 -/
  | joined {s k} (hk : k < n) (h : s.main = .join k) (hp : (s.ws k).pc = .stopped) :
      Step n s { s with main := .stop (k + 1) }
  /-- worker_pool.cpp:71 -/
  | clear {s} (h : s.main = .stop n) : Step n s { s with main := .cleared }
  /-- a step of a worker thread -/
  | worker {s k w} (hk : k < n) (h : Work.WStep (s.ws k) w) : Step n s { s with ws := upd s.ws k w }
  /-- a step of other threads (or other workers) at worker `k`; they do not stop it -/
  | other {s k w} (hk : k < n) (h : Work.EStep (s.ws k) w) (hs : w.stop = (s.ws k).stop) :
      Step n s { s with ws := upd s.ws k w }

inductive Reach (n : Nat) : State → Prop
  | init : Reach n init
  | step {s s'} : Reach n s → Step n s s' → Reach n s'

/-- Executions in which only worker `k` runs and finds nothing to steal. -/
inductive Drain (k n : Nat) : Nat → State → State → Prop
  | refl {s} : Drain k n 0 s s
  | step {m s s' w} : Work.WStep (s.ws k) w → ((s.ws k).pc = .stealing → w.pc = .top) →
      Drain k n m { s with ws := upd s.ws k w } s' → Drain k n (m + 1) s s'

end Pool

/-! ### waker ids -/
namespace Wake

/-- scheduler.hpp:30 `WakerId` is `int16_t`. -/
abbrev WakerId := BitVec 16

/-- who is woken -/
inductive Target
  | main
  | worker (w : Nat)
  deriving DecidableEq

/-- worker.hpp:78-81 `get_waker_id`: the `unsigned` worker id plus one, converted to `int16_t`. -/
def wakerId (w : Nat) : WakerId := BitVec.ofNat 16 ((BitVec.ofNat 32 w + 1).toNat)

/-- default_scheduler.cpp:192-200 `wake`, with `n` workers -/
def wake (n : Nat) (id : WakerId) : Option Target :=
  if id = 0 then some .main
  else if 0 < id.toInt ∧ id.toInt.toNat ≤ n then some (.worker (id.toInt.toNat - 1))
  else none

/-- default_scheduler.cpp:204-208 `wake_all`, at most `fuel` rounds; the loop variable is a `uint16_t`.
First component: the calls of `wake` that reach a thread; second: whether the loop has ended. -/
def wakeAllFrom (n : Nat) (i : BitVec 16) : Nat → List Target × Bool
  | 0 => ([], false)
  | fuel + 1 =>
    if i.toNat ≤ n then
      let r := wakeAllFrom n (i + 1) fuel
      ((wake n i).toList ++ r.1, r.2)
    else ([], true)

def wakeAll (n fuel : Nat) : List Target × Bool := wakeAllFrom n 0 fuel

end Wake

end RG
