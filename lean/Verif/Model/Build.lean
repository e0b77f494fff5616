import Verif.Props.Alloc
/-
Building tasks and resources if something fails: not enough memory, a hook or a constructor that throws, a property that cannot be computed.

/repo/redGrapes/redGrapes.hpp:177-193, task/task_builder.hpp:66-132, memory/chunked_bump_alloc.hpp:82-122, memory/allocator.hpp:61-71, 103-117,
task/property/id.hpp:61-64, task/task_space.cpp:70-87.

The runtime is what building a task can change: the counters, the number of blocks in use and lost, and the tasks that have been handed to the scheduler.
That the scheduler may reject a task is the subject of C63.
-/
namespace RG.BD
open RG.Alloc

/-- The answer to a request for memory. -/
inductive Mem
  | block
  | null
  /-- the call does not return -/
  | hang
  deriving DecidableEq

/-- chunked_bump_alloc.hpp:82-122. Requests above the capacity of a chunk are answered by a null block (114-121). The loop 93-109 ends if the rounded size fits into a fresh chunk; otherwise
each turn appends a chunk and fails again (C34; see `C100_allocate_is_the_machine`). -/
def allocate (cfg : Cfg) (size : Size) : Mem :=
  if roundup size ≤ cfg.capacity then
    if (roundup size).toNat ≤ usable cfg then .block else .hang
  else .null

/-- What building a task consists of, as far as it can fail. -/
structure Plan where
  /-- `sizeof(FunTask<Impl>)`: it contains copies of the callable and the arguments -/
  size : Size
  /-- the accesses that the hooks of the arguments add (task_builder.hpp:35-40, 84-85); `none`: a hook throws -/
  hooks : List (Option Nat)
  /-- copying the callable and the arguments into the task (92) does not throw -/
  copies : Bool
  /-- the calls on the builder that follow, e.g. `.resources({...})`, `.label(...)`; `none`: the evaluation of the arguments of the call, or the call, throws -/
  calls : List (Option Nat)
  deriving DecidableEq

/-- A task: its properties, as a list. -/
structure Built where
  id : Nat
  props : List Nat
  deriving DecidableEq

structure Runtime where
  /-- `next_worker`, `current_arena` -/
  nextWorker : Nat
  nextId : Nat
  /-- blocks of memory in use by tasks -/
  blocks : Nat
  /-- blocks that nobody refers to and that are not freed any more -/
  lost : Nat
  /-- tasks passed to `TaskSpace::submit`, the last one first -/
  submitted : List Built
  deriving DecidableEq

/-- What becomes of a statement. -/
inductive Out
  | ok (r : Runtime)
  /-- an exception that the caller can catch -/
  | thrown (r : Runtime)
  | hang
  /-- undefined behaviour -/
  | ub
  deriving DecidableEq

/-- A sequence of steps, each of which adds a property or throws: the properties, and whether all steps were done. -/
def run (ps : List Nat) : List (Option Nat) → List Nat × Bool
  | [] => (ps, true)
  | none :: _ => (ps, false)
  | some p :: l => run (ps ++ [p]) l

/-- task_builder.hpp:66-93: the constructor; `inl`: it throws. A constructor that throws does not run the destructor (111-115), so that the block is not
used and not freed. -/
def construct (cfg : Cfg) (r : Runtime) (p : Plan) : Option ((Runtime ⊕ (Runtime × Built))) :=
  match allocate cfg p.size with
  | .hang => none
  -- 75-76
  | .null => some (.inl r)
  | .block =>
    let r1 := { r with blocks := r.blocks + 1 }
    let h := run [] p.hooks
    -- 84-85
    if h.2 = false then some (.inl { r1 with lost := r.lost + 1 })
    else
      -- 89, id.hpp:61-64
      let r2 := { r1 with nextId := r.nextId + 1 }
      -- 92
      if p.copies then some (.inr (r2, ⟨r.nextId, h.1⟩)) else some (.inl { r2 with lost := r.lost + 1 })

/-- task_builder.hpp:123-132 with task_space.cpp:70-87 -/
def submit (r : Runtime) (t : Built) : Runtime := { r with submitted := t :: r.submitted }

/-- The statement `emplace_task(f, args...).call(...).call(...);`: redGrapes.hpp:177-193, then the calls on the builder. At the end of the statement, *or when one of the calls throws*, the
builder is destroyed, which submits the task (task_builder.hpp:111-115). -/
def statement (cfg : Cfg) (r : Runtime) (p : Plan) : Out :=
  let r0 := { r with nextWorker := r.nextWorker + 1 }
  match construct cfg r0 p with
  | none => .hang
  | some (.inl r1) => .thrown r1
  | some (.inr (r1, t)) =>
    let c := run t.props p.calls
    let r2 := submit r1 { t with props := c.1 }
    if c.2 then .ok r2 else .thrown r2

/-- allocator.hpp:61-71, 103-117: `alloc_shared` for resources and containers (ioresource.hpp:98, fieldresource.hpp:242, resource.hpp:314, 326). The null block is not checked, the object is constructed at address 0.
`size` is that of the object with the counters of the shared pointer. -/
def allocShared (cfg : Cfg) (r : Runtime) (size : Size) : Out :=
  match allocate cfg size with
  | .hang => .hang
  | .null => .ub
  | .block => .ok { r with blocks := r.blocks + 1 }

/-- The properties that a task is meant to have, if nothing throws. -/
def Plan.intended (p : Plan) : List Nat := (p.hooks ++ p.calls).filterMap id

/-- Nothing throws. -/
def Plan.fine (p : Plan) : Prop := none ∉ p.hooks ∧ p.copies = true ∧ none ∉ p.calls

end RG.BD
