import Verif.Util
/-
Exceptions in the bodies of tasks.

The library contains no `catch` at all. An exception that leaves the body of a task passes `FunTask::run_result` (task.hpp:110-113),
`ResultTask::run` (task.hpp:76-80, 94-98), `TaskBase::operator()` (task_base.hpp:37-71), `Context::execute_task` (execute.cpp:27-51) and `Worker::work_loop`
(worker.cpp:138-155), or the entry function of a context of boost (task_base.hpp:42-61), and ends the program with `std::terminate`.

Exceptions that are thrown and caught inside of a body are the subject here. The C++ runtime keeps, *for every thread*, the stack of exceptions that
are being handled and the number of exceptions that are in flight (Itanium C++ ABI, `__cxa_eh_globals`). A task that waits
(redGrapes.cpp:157-170, task_base.hpp:73-93) switches the stack but not these, and it may be resumed by another thread (execute.cpp:27-51).
Simplified: the stack of a thread shrinks when `throw;` is executed, not a moment later when the unwinder leaves the `catch` block.

Each task has a ghost record of the exceptions that it is handling according to the language; each thread has what the runtime keeps.
-/
namespace RG.EH

/-- What the C++ runtime keeps for a thread. -/
structure Thread where
  /-- `caughtExceptions`, the last one first -/
  caught : List Nat
  /-- `uncaughtExceptions`, an unsigned counter; the model does not wrap around -/
  unc : Int
  /-- the task that the thread executes -/
  task : Option Nat

inductive Status
  | fresh | running (th : Nat) | waiting | done
  deriving DecidableEq

/-- What the language says about a task. -/
structure Task where
  status : Status
  /-- the exceptions that are being handled by enclosing `catch` blocks of the body, innermost first -/
  handling : List Nat
  /-- exceptions that were thrown and not caught yet (destructors run meanwhile), the last one first -/
  flying : List Nat

/-- What a body can observe; `got` is what happens, `want` is what the language says. -/
inductive Obs
  /-- `throw;` -/
  | rethrow (task : Nat) (got want : Option Nat)
  /-- the end of a `catch` block: the exception that is destroyed -/
  | leave (task : Nat) (got want : Option Nat)
  /-- `std::uncaught_exceptions()` -/
  | uncaught (task : Nat) (got want : Int)
  /-- `std::current_exception()` -/
  | current (task : Nat) (got want : Option Nat)
  deriving DecidableEq

/-- The observation is what the language says. -/
def Obs.ok : Obs → Prop
  | .rethrow _ g w => g = w
  | .leave _ g w => g = w
  | .uncaught _ g w => g = w
  | .current _ g w => g = w

structure State where
  thr : Nat → Thread
  tsk : Nat → Task
  obs : List Obs
  /-- `std::terminate` was called -/
  term : Bool

def init : State := ⟨fun _ => ⟨[], 0, none⟩, fun _ => ⟨.fresh, [], []⟩, [], false⟩

/-- What a step does to the task and its thread. -/
def State.put (s : State) (i : Nat) (T : Task) (th : Nat) (H : Thread) (o : List Obs) : State :=
  { s with tsk := upd s.tsk i T, thr := upd s.thr th H, obs := o ++ s.obs }

/-- One step. `calm`: no task waits inside of a `catch` block or while an exception is in flight (i.e. in a destructor that is called by
it). -/
inductive Step (calm : Bool) : State → State → Prop
  /-- execute.cpp:27-37, task_base.hpp:37-71: a worker begins to execute a task, -/
  | start {s i th} (ht : s.term = false) (hi : (s.tsk i).status = .fresh) (hh : (s.thr th).task = none) :
      Step calm s (s.put i { s.tsk i with status := .running th } th { s.thr th with task := some i } [])
  /-- task_base.hpp:62-63: or resumes it -/
  | resume {s i th} (ht : s.term = false) (hi : (s.tsk i).status = .waiting) (hh : (s.thr th).task = none) :
      Step calm s (s.put i { s.tsk i with status := .running th } th { s.thr th with task := some i } [])
  /-- redGrapes.cpp:157-163, task_base.hpp:73-93: the task waits; the worker goes on with something else -/
  | wait {s i th} (ht : s.term = false) (hi : (s.tsk i).status = .running th)
      (hc : calm = true → (s.tsk i).handling = [] ∧ (s.tsk i).flying = []) :
      Step calm s (s.put i { s.tsk i with status := .waiting } th { s.thr th with task := none } [])
  /-- the body ends -/
  | finish {s i th} (ht : s.term = false) (hi : (s.tsk i).status = .running th)
      (hd : (s.tsk i).handling = []) (hf : (s.tsk i).flying = []) :
      Step calm s (s.put i { s.tsk i with status := .done } th { s.thr th with task := none } [])
  /-- `throw e` -/
  | throw {s i th e} (ht : s.term = false) (hi : (s.tsk i).status = .running th) :
      Step calm s (s.put i { s.tsk i with flying := e :: (s.tsk i).flying } th
        { s.thr th with unc := (s.thr th).unc + 1 } [])
  /-- a `catch` block of the body is entered, `__cxa_begin_catch` -/
  | catch {s i th e es} (ht : s.term = false) (hi : (s.tsk i).status = .running th)
      (hf : (s.tsk i).flying = e :: es) :
      Step calm s (s.put i { s.tsk i with flying := es, handling := e :: (s.tsk i).handling } th
        { s.thr th with unc := (s.thr th).unc - 1, caught := e :: (s.thr th).caught } [])
  /-- the end of a `catch` block, `__cxa_end_catch` -/
  | leave {s i th e es} (ht : s.term = false) (hi : (s.tsk i).status = .running th)
      (hd : (s.tsk i).handling = e :: es) :
      Step calm s (s.put i { s.tsk i with handling := es } th { s.thr th with caught := (s.thr th).caught.tail }
        [.leave i (s.thr th).caught.head? (some e)])
  /-- `throw;`, `__cxa_rethrow`: what is rethrown is the last exception of the thread. The `catch` block is left by it. -/
  | rethrow {s i th e es g gs} (ht : s.term = false) (hi : (s.tsk i).status = .running th)
      (hd : (s.tsk i).handling = e :: es) (hg : (s.thr th).caught = g :: gs) :
      Step calm s (s.put i { s.tsk i with handling := es, flying := g :: (s.tsk i).flying } th
        { s.thr th with caught := gs, unc := (s.thr th).unc + 1 } [.rethrow i (some g) (some e)])
  /-- `throw;` if the thread handles no exception: `std::terminate` -/
  | rethrowNone {s i th e es} (ht : s.term = false) (hi : (s.tsk i).status = .running th)
      (hd : (s.tsk i).handling = e :: es) (hg : (s.thr th).caught = []) :
      Step calm s { s.put i (s.tsk i) th (s.thr th) [.rethrow i none (some e)] with term := true }
  /-- `std::uncaught_exceptions()`, with which destructors find out why they are called -/
  | uncaught {s i th} (ht : s.term = false) (hi : (s.tsk i).status = .running th) :
      Step calm s (s.put i (s.tsk i) th (s.thr th) [.uncaught i (s.thr th).unc (s.tsk i).flying.length])
  /-- `std::current_exception()` -/
  | current {s i th} (ht : s.term = false) (hi : (s.tsk i).status = .running th) :
      Step calm s (s.put i (s.tsk i) th (s.thr th) [.current i (s.thr th).caught.head? (s.tsk i).handling.head?])
  /-- no `catch` block of the body takes the exception: it leaves the body, and there is no handler for it in the library -/
  | escape {s i th e es} (ht : s.term = false) (hi : (s.tsk i).status = .running th)
      (hf : (s.tsk i).flying = e :: es) : Step calm s { s with term := true }

inductive Steps (calm : Bool) : State → State → Prop
  | refl {s} : Steps calm s s
  | tail {s s' s''} : Steps calm s s' → Step calm s' s'' → Steps calm s s''

def Reach (calm : Bool) (s : State) : Prop := Steps calm init s

end RG.EH
