import Verif.Model.System
import Verif.Model.Shutdown
/-
A whole program: the runtime of Model/System together with the main thread, which calls `barrier()` and `finalize()`.

/repo/redGrapes/redGrapes.cpp:136-154 (barrier, finalize), task/task_space.cpp:44-68 (empty, free_task),
scheduler/default_scheduler.cpp:18-29, 192-208 (idle, wake, wake_all), dispatch/thread/worker_pool.cpp:66-72 (stop),
dispatch/thread/worker.cpp:59-70, 138-155 (stop, work_loop).

Space 0 is the root space.

Simplifications, in addition to those of Model/System:
* the test of `m_stop` (worker.cpp:141) and the call of `cv.wait()` (146) are one step (the call itself changes nothing
  that other threads can see);
* the main thread does not wait for single results in `run` (C40, C57); this would use the same condition variable in
  the same way;
* tasks are submitted to the root space before `barrier()` has returned in `finalize()`, by any thread; what happens
  after the end of `finalize()` is treated in C69.
-/
namespace RG.Prog

open RG.Graph (Cfg)

/-- Program counter of the main thread. -/
inductive MPc
  /-- the code of the user -/
  | run
  /-- in `barrier()`, called by `finalize()` if `fin`; before the loop condition, redGrapes.cpp:140 -/
  | check (fin : Bool)
  /-- in `idle()`, redGrapes.cpp:141, default_scheduler.cpp:28 -/
  | idle (fin : Bool)
  /-- worker_pool.cpp:68: before `worker->stop()` of worker `k`, if there is one -/
  | stop (k : Nat)
  /-- worker.cpp:63: before `wake()` for worker `k` -/
  | wake (k : Nat)
  /-- worker.cpp:69: before the return of `thread.join()` for worker `k` -/
  | join (k : Nat)
  /-- worker_pool.cpp:71, redGrapes.cpp:150-153: workers, scheduler and root space have been destroyed -/
  | cleared
  deriving DecidableEq

/-- `finalize()` has left its `barrier()`. -/
def MPc.closing : MPc → Bool
  | .stop _ => true
  | .wake _ => true
  | .join _ => true
  | .cleared => true
  | _ => false

structure State where
  y : Sys.State
  mpc : MPc
  /-- the condition variable of the scheduler; the main thread is waiter 0 -/
  mcv : Cv.State
  /-- number of calls of `mcv.notify()` so far -/
  mnn : Nat
  /-- threads in `free_task` that have taken the last task from the root space and have not called `wake(0)` yet -/
  mwk : Nat
  /-- `m_stop` of the workers -/
  stop : Nat → Bool
  /-- the thread of the worker has ended -/
  gone : Nat → Bool

def init : State := ⟨Sys.init, .run, Cv.init, 0, 0, fun _ => false, fun _ => false⟩

/-- task_space.cpp:53, 66: the number of tasks in the root space has been decremented to 0 -/
def freedLast (y y' : Sys.State) : Bool :=
  decide (y'.x.g.tasks 0 < y.x.g.tasks 0) && Barrier.isZero (y'.x.g.tasks 0)

inductive Lbl
  /-- a step of the runtime -/
  | sys
  /-- the user calls `barrier()` or `finalize()` -/
  | call
  /-- the main thread continues, a worker ends, or a thread wakes the main thread -/
  | own
  /-- the main thread wakes up for another reason -/
  | noise
  deriving DecidableEq

inductive Step (cfg : Cfg) (N : Nat) : Lbl → State → State → Prop
  /-- a step of Model/System. A worker at the beginning of its loop that has been told to stop does not wait
  (worker.cpp:141). -/
  | sys {s y'} (h : Sys.Step cfg N s.y y')
      (hst : ∀ w, s.stop w = true → s.y.pc w = .top → y'.pc w = .top)
      (hn : y'.x.g.n ≠ s.y.x.g.n → cfg.space s.y.x.g.n = 0 → s.mpc.closing = false) :
      Step cfg N .sys s { s with y := y', mwk := s.mwk + if freedLast s.y y' = true then 1 else 0 }
  /-- redGrapes.cpp:136, 144-146 -/
  | call {s fin} (h : s.mpc = .run) : Step cfg N .call s { s with mpc := .check fin }
  /-- redGrapes.cpp:140 with task_space.cpp:46-47: the root space is empty -/
  | empty {s fin} (h : s.mpc = .check fin) (hc : Barrier.isZero (s.y.x.g.tasks 0) = true) :
      Step cfg N .own s { s with mpc := if fin = true then .stop 0 else .run }
  /-- redGrapes.cpp:140-141 -/
  | idle {s fin cv'} (h : s.mpc = .check fin) (hc : Barrier.isZero (s.y.x.g.tasks 0) = false)
      (hw : Cv.Step (.waitCall 0) s.mcv cv') : Step cfg N .own s { s with mpc := .idle fin, mcv := cv' }
  /-- inside of `cv.wait()` -/
  | wait {s cv'} (hw : Cv.Step (.wait 0) s.mcv cv') : Step cfg N .own s { s with mcv := cv' }
  /-- `cv.wait()` has returned -/
  | back {s fin} (h : s.mpc = .idle fin) (hw : s.mcv.ws 0 = .out) : Step cfg N .own s { s with mpc := .check fin }
  /-- task_space.cpp:67, default_scheduler.cpp:194-195 -/
  | wakeMain {s cv'} (h : 0 < s.mwk) (hc : Cv.Step (.notifyCall s.mnn) s.mcv cv') :
      Step cfg N .own s { s with mwk := s.mwk - 1, mnn := s.mnn + 1, mcv := cv' }
  /-- inside of `cv.notify()` -/
  | notify {s j cv'} (hc : Cv.Step (.notify j) s.mcv cv') : Step cfg N .own s { s with mcv := cv' }
  | spurious {s cv'} (hc : Cv.Step (.spurious 0) s.mcv cv') : Step cfg N .noise s { s with mcv := cv' }
  /-- the main thread is woken for another reason -/
  | noise {s cv'} (hc : Cv.Step (.notifyCall s.mnn) s.mcv cv') :
      Step cfg N .noise s { s with mnn := s.mnn + 1, mcv := cv' }
  /-- worker.cpp:62 -/
  | setStop {s k} (h : s.mpc = .stop k) (hk : k < N) :
      Step cfg N .own s { s with stop := upd s.stop k true, mpc := .wake k }
  /-- worker.cpp:63 -/
  | wakeWorker {s k cv'} (h : s.mpc = .wake k) (hc : Cv.Step (.notifyCall (s.y.nn k)) (s.y.cv k) cv') :
      Step cfg N .own s { s with
        y := { s.y with nn := upd s.y.nn k (s.y.nn k + 1), cv := upd s.y.cv k cv' }, mpc := .join k }
  /-- worker.cpp:141, 154: the worker leaves its loop -/
  | exit {s w} (hw : w < N) (h : s.y.pc w = .top) (hs : s.stop w = true) (hg : s.gone w = false) :
      Step cfg N .own s { s with gone := upd s.gone w true }
  /-- worker.cpp:69 -/
  | joined {s k} (h : s.mpc = .join k) (hg : s.gone k = true) : Step cfg N .own s { s with mpc := .stop (k + 1) }
  /-- worker_pool.cpp:71, redGrapes.cpp:150-153 -/
  | clear {s k} (h : s.mpc = .stop k) (hk : k = N) : Step cfg N .own s { s with mpc := .cleared }

inductive Reach (cfg : Cfg) (N : Nat) : State → Prop
  | init : Reach cfg N init
  | step {s s' l} : Reach cfg N s → Step cfg N l s s' → Reach cfg N s'

inductive Steps (cfg : Cfg) (N : Nat) (s : State) : State → Prop
  | refl : Steps cfg N s s
  | step {s' s'' l} : Steps cfg N s s' → Step cfg N l s' s'' → Steps cfg N s s''

/-- Steps of the main thread in `barrier()` and `finalize()`, of the workers, and of other threads that complete what
they have begun: no new request of the user. -/
def Work (cfg : Cfg) (N : Nat) (s s' : State) : Prop :=
  s' ≠ s ∧ (Step cfg N .own s s' ∨ (Step cfg N .sys s s' ∧ Sys.Work cfg N s.y s'.y))

/-- Steps that do not end a future either. -/
def OwnWork (cfg : Cfg) (N : Nat) (s s' : State) : Prop :=
  Work cfg N s s' ∧ ∀ t, s.y.x.g.fut t = .held → s'.y.x.g.fut t = .held

end RG.Prog
