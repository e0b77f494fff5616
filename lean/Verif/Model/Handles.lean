/-
Task builders and futures as handles:
/repo/redGrapes/task/task_builder.hpp, /repo/redGrapes/task/future.hpp

Objects are numbered in the order of their construction. `none` in the list of objects is a
destroyed object.
-/
namespace RG.Handles

/-! ### TaskBuilder -/

structure BState where
  /-- for each builder object: destroyed (`none`), empty (`some none`) or holding a task;
  task_builder.hpp:64 -/
  objs : List (Option (Option Nat))
  /-- number of constructed tasks; the next one gets this number -/
  created : Nat
  /-- tasks handed to `TaskSpace::submit`, in order -/
  submitted : List Nat
  deriving DecidableEq, Repr

def BState.init : BState := ⟨[], 0, []⟩

inductive BOp
  /-- task_builder.hpp:66-93: construct a builder (and its task) -/
  | construct
  /-- task_builder.hpp:95-109: construct a builder from another one -/
  | move (src : Nat)
  /-- task_builder.hpp:123-132 (and 134-137) -/
  | submit (b : Nat)
  /-- task_builder.hpp:111-115 -/
  | destroy (b : Nat)
  deriving DecidableEq, Repr

/-- One operation on a builder. `none`: the operation is not available (the object does not exist
any more) or dereferences a null pointer (submitting an empty builder). -/
def bstep (s : BState) : BOp → Option BState
  | .construct => some ⟨s.objs ++ [some (some s.created)], s.created + 1, s.submitted⟩
  | .move src =>
    match s.objs[src]? with
    | some (some t) => some ⟨(s.objs.set src (some none)) ++ [some t], s.created, s.submitted⟩
    | _ => none
  | .submit b =>
    match s.objs[b]? with
    | some (some (some t)) => some ⟨s.objs.set b (some none), s.created, s.submitted ++ [t]⟩
    | _ => none
  | .destroy b =>
    match s.objs[b]? with
    | some (some (some t)) => some ⟨s.objs.set b none, s.created, s.submitted ++ [t]⟩
    | some (some none) => some ⟨s.objs.set b none, s.created, s.submitted⟩
    | _ => none

/-- a sequence of operations -/
def brun (s : BState) : List BOp → Option BState
  | [] => some s
  | o :: os => (bstep s o).bind fun s' => brun s' os

/-! ### Future -/

/-- future.hpp:74-75: task and `taken`. -/
structure Fut where
  task : Nat
  taken : Bool
  deriving DecidableEq, Repr

structure FState where
  objs : List (Option Fut)
  created : Nat
  /-- notifications of result-get events, in order -/
  released : List Nat
  deriving DecidableEq, Repr

def FState.init : FState := ⟨[], 0, []⟩

inductive FOp
  /-- future.hpp:28-30, called by `TaskBuilder::submit` (task_builder.hpp:131), once per task
  (see C50) -/
  | construct
  /-- future.hpp:32-36 -/
  | move (src : Nat)
  /-- future.hpp:53-64, and 106-114 for `void` -/
  | get (f : Nat)
  /-- future.hpp:38-45 -/
  | destroy (f : Nat)
  deriving DecidableEq, Repr

/-- One operation on a future; `none` if the object does not exist (any more). `get` does not look
at `taken`. -/
def fstep (s : FState) : FOp → Option FState
  | .construct => some ⟨s.objs ++ [some ⟨s.created, false⟩], s.created + 1, s.released⟩
  | .move src =>
    match s.objs[src]? with
    | some (some x) =>
      some ⟨(s.objs.set src (some ⟨x.task, true⟩)) ++ [some x], s.created, s.released⟩
    | _ => none
  | .get f =>
    match s.objs[f]? with
    | some (some x) =>
      some ⟨s.objs.set f (some ⟨x.task, true⟩), s.created, s.released ++ [x.task]⟩
    | _ => none
  | .destroy f =>
    match s.objs[f]? with
    | some (some x) =>
      some ⟨s.objs.set f none, s.created,
        if x.taken then s.released else s.released ++ [x.task]⟩
    | _ => none

/-! ### Handing over the result -/

/-- The worker that runs the task and the thread that calls `get`. Positions of the worker:
0 the body is running, 1 the result was stored (task.hpp:78), 2 the result-set event was notified
(task.hpp:79). Positions of the reader: 0 waiting (future.hpp:56, redGrapes.cpp:157-170), 1 the event
was seen reached, 2 the result was moved out (future.hpp:59). -/
structure RState where
  worker : Nat
  reader : Nat
  /-- state counter of the result-set event (event.hpp:94), initially 1 -/
  setState : Nat
  /-- `result_data`; `none` is the default-constructed value -/
  data : Option Nat
  /-- what the reader got -/
  got : Option (Option Nat)
  deriving DecidableEq, Repr

def RState.init : RState := ⟨0, 0, 1, none, none⟩

inductive RStep (v : Nat) : RState → RState → Prop
  | store {s} : s.worker = 0 → RStep v s { s with worker := 1, data := some v }
  | notify {s} : s.worker = 1 → RStep v s { s with worker := 2, setState := s.setState - 1 }
  | notReached {s} : s.reader = 0 → s.setState ≠ 0 → RStep v s s
  | reached {s} : s.reader = 0 → s.setState = 0 → RStep v s { s with reader := 1 }
  | take {s} : s.reader = 1 → RStep v s { s with reader := 2, got := some s.data, data := none }

inductive RReach (v : Nat) : RState → Prop
  | init : RReach v RState.init
  | step {s s'} : RReach v s → RStep v s s' → RReach v s'

end RG.Handles
