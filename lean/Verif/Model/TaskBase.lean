/-
Running and pausing a task body: /repo/redGrapes/task/task_base.hpp, redGrapes.cpp (yield),
dispatch/thread/execute.cpp.

A body is abstracted to the waits it performs, in order. A wait is a pair `(e, k)`: the body calls
`redGrapes::yield(e)` (this is also what `Future::get` does), and the check `event->is_reached()`
fails `k` times before it succeeds. The numbers `k` are inputs (chosen by the environment). When
`run()` is called several times, each run has its own list of waits. The order of events between
different tasks is the subject of `Model/Graph.lean`; here only one task is looked at.
-/
namespace RG.TB

/-- event, number of failing checks -/
abbrev Wait := Nat × Nat

structure State where
  /-- task_base.hpp:25 -/
  stackSwitching : Bool
  /-- task_base.hpp:95 `event` -/
  event : Option Nat
  /-- task_base.hpp:101 `resume_cont`: the waits that are still to be performed on the suspended
  stack -/
  cont : Option (List Wait)
  /-- how often `run()` was entered, i.e. the body was executed from its beginning -/
  runs : Nat
  /-- how often `run()` reached its end (which notifies the result-set event, task.hpp:76-80) -/
  completed : Nat
  /-- the post event was notified (execute.cpp:48) -/
  finished : Bool
  deriving DecidableEq, Repr

/-- task_base.hpp:31-33. -/
def State.init (ss : Bool) : State := ⟨ss, none, none, 0, 0, false⟩

/-- redGrapes.cpp:159-163 with task_base.hpp:73-93 without stack switching: each failing check calls
`current_task->yield(event)`, which stores the event, reports an error and returns, so the loop
spins. Value of `event` when the body has returned. -/
def spin : Option Nat → List Wait → Option Nat
  | ev, [] => ev
  | ev, (e, k) :: rest => spin (if k = 0 then ev else some e) rest

/-- redGrapes.cpp:159-163 with task_base.hpp:73-88 with stack switching: run until the next failing
check; this stores the event and switches back to the worker. `none`: the body has returned. -/
def toNextYield : List Wait → Option (Nat × List Wait)
  | [] => none
  | (_, 0) :: rest => toNextYield rest
  | (e, k + 1) :: rest => some (e, (e, k) :: rest)

/-- task_base.hpp:50-51 / 63: continue on the task's own stack. -/
def resume (s : State) (w : List Wait) : State :=
  match toNextYield w with
  | none => { s with event := none, cont := some [], completed := s.completed + 1 }
  | some (e, w') => { s with event := some e, cont := some w' }

/-- task_base.hpp:37-71 `operator()`; `body n` are the waits of the n-th call of `run()`. -/
def call (body : Nat → List Wait) (s : State) : State :=
  if s.stackSwitching then
    match s.cont with
    | none => resume { s with runs := s.runs + 1 } (body s.runs)
    | some w => resume s w
  else
    { s with runs := s.runs + 1, completed := s.completed + 1, event := spin s.event (body s.runs) }

/-- execute.cpp:37-48: if an event is returned the task is paused on it and will be activated again
once the event is reached, otherwise it is finished. -/
def execute (body : Nat → List Wait) (s : State) : State :=
  let s' := call body s
  if s'.event.isSome then s' else { s' with finished := true }

/-- The state after `n` activations; a finished task is not activated any more. -/
def activations (body : Nat → List Wait) (ss : Bool) : Nat → State
  | 0 => State.init ss
  | n + 1 =>
    let s := activations body ss n
    if s.finished then s else execute body s

end RG.TB
