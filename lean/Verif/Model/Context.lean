/-
Context of a running task: task spaces, backtrace, distribution of new tasks, identifiers.
/repo/redGrapes/redGrapes.{hpp,cpp}, task/task_space.cpp, resource/resource.{hpp,cpp},
task/property/id.hpp
-/
namespace RG.Ctx

/-! ### task spaces and backtrace

Only creation is modelled here, tasks are not freed (for a parent freed before its children see
`Model/Graph.lean`). `depth` is a natural number (C++: unsigned). -/

/-- task_space.hpp: the fields `depth` and `parent`. -/
structure Space where
  depth : Nat
  parent : Option Nat
  deriving DecidableEq, Repr

/-- the fields `space` and `children` of a task (property/graph.hpp:93, 98) -/
structure TaskRec where
  space : Nat
  children : Option Nat
  deriving DecidableEq, Repr

structure State where
  spaces : List Space
  tasks : List TaskRec
  deriving DecidableEq, Repr

/-- redGrapes.cpp:123 with task_space.cpp:23-26: only the root space (number 0) exists. -/
def State.init : State := ⟨[⟨0, none⟩], []⟩

/-- task_space.cpp:29: `parent->space->depth + 1`. -/
def depthOf (s : State) (t : Nat) : Option Nat := do
  let r ← s.tasks[t]?
  let sp ← s.spaces[r.space]?
  return sp.depth

/-- redGrapes.cpp:44-62 `current_task_space`; `cur` is `current_task`. The child space is created at
the first call. `none`: invalid pointer. -/
def currentTaskSpace (s : State) (cur : Option Nat) : Option (State × Nat) :=
  match cur with
  | none => some (s, 0)
  | some t => do
    let r ← s.tasks[t]?
    match r.children with
    | some c => return (s, c)
    | none =>
      let d ← depthOf s t
      let c := s.spaces.length
      return (⟨s.spaces ++ [⟨d + 1, some t⟩], s.tasks.set t { r with children := some c }⟩, c)

/-- redGrapes.cpp:64-70 `scope_depth`. -/
def scopeDepth (s : State) (cur : Option Nat) : Option (State × Nat) := do
  let (s', c) ← currentTaskSpace s cur
  let sp ← s'.spaces[c]?
  return (s', sp.depth)

/-- redGrapes.hpp:177-193 with task_builder.hpp:66-93 and task_space.cpp:73: a task emplaced while
`cur` is running is put into the current task space. Its number is the number of tasks so far. -/
def emplace (s : State) (cur : Option Nat) : Option State := do
  let (s', c) ← currentTaskSpace s cur
  return { s' with tasks := s'.tasks ++ [⟨c, none⟩] }

/-- redGrapes.cpp:90-91: the loop, with a bound on the number of iterations; `none` means an invalid
pointer or that the bound was exceeded. -/
def backtraceLoop (s : State) : Nat → Option Nat → Option (List Nat)
  | _, none => some []
  | 0, some _ => none
  | fuel + 1, some t => do
    let r ← s.tasks[t]?
    let sp ← s.spaces[r.space]?
    let rest ← backtraceLoop s fuel sp.parent
    return t :: rest

/-- redGrapes.cpp:87-94 `backtrace`. The bound is the number of tasks. -/
def backtrace (s : State) (cur : Option Nat) : Option (List Nat) :=
  backtraceLoop s s.tasks.length cur

/-! ### distribution of new tasks -/

/-- redGrapes.hpp:180-188: the arena (worker) chosen for the next task of this thread, and the
thread-local counter (unsigned, 32 bits) afterwards. -/
def nextArena (nWorkers : Nat) (next : BitVec 32) : Nat × BitVec 32 :=
  (next.toNat % nWorkers, next + 1)

/-- default_scheduler.cpp:36: the worker whose emplacement queue gets the task. -/
def emplaceWorker (nWorkers arena : Nat) : Nat := arena % nWorkers

/-- The workers that get the tasks number 0 … k-1 submitted by one thread. -/
def assigned (nWorkers : Nat) : Nat → BitVec 32 → List Nat
  | 0, _ => []
  | k + 1, next =>
    emplaceWorker nWorkers (nextArena nWorkers next).1 :: assigned nWorkers k (nextArena nWorkers next).2

/-! ### identifiers -/

/-- A resource handle: the shared pointer and the identifier stored in the object it points to
(resource.hpp: `std::shared_ptr<ResourceBase> base`). -/
structure Handle where
  ptr : Nat
  id : BitVec 32
  deriving DecidableEq, Repr

structure IdState where
  handles : List Handle
  /-- number of resource objects so far -/
  objects : Nat
  /-- resource.cpp:19 `id_counter` (property/id.hpp:26-30 is used in the same way for tasks) -/
  counter : BitVec 32
  deriving DecidableEq, Repr

def IdState.init : IdState := ⟨[], 0, 0⟩

inductive IdOp
  /-- resource.cpp:17-28: some thread creates a resource; the `fetch_add` is one atomic step -/
  | create
  /-- a handle is copied -/
  | copy (h : Nat)
  deriving DecidableEq, Repr

def idStep (s : IdState) : IdOp → Option IdState
  | .create => some ⟨s.handles ++ [⟨s.objects, s.counter⟩], s.objects + 1, s.counter + 1⟩
  | .copy h => (s.handles[h]?).map fun x => { s with handles := s.handles ++ [x] }

def idRun (s : IdState) : List IdOp → Option IdState
  | [] => some s
  | o :: os => (idStep s o).bind fun s' => idRun s' os

end RG.Ctx
