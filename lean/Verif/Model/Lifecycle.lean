/-
The life cycle of the runtime: `init`, `finalize`, and the objects whose memory comes from the arenas of
the worker pool.

/repo/redGrapes/redGrapes.cpp (init, barrier, finalize), redGrapes.hpp (emplace_task),
dispatch/thread/worker_pool.{hpp,cpp} (emplace_workers, stop, get_alloc), memory/allocator.cpp,
resource/resource.{hpp,cpp} (creation of resources and accesses).

One thread calls the functions of the library one after the other; all tasks are finished when `finalize`
stops the workers (C60, C61 are about this). The allocators only count their blocks (C33-C35 are about
what they do inside). Reference counting of the shared pointers is not modelled: an object is dropped when
its last reference goes away. Outcomes that are undefined behaviour in C++ are errors.
-/
namespace RG.Life

inductive Err
  /-- `%` with 0 on the right -/
  | divByZero
  /-- access through a null pointer -/
  | nullPtr
  /-- element of a vector that does not exist -/
  | outOfRange
  /-- access to memory that has been given back to the system -/
  | freedMemory
  /-- the workers are destroyed while their threads are running -/
  | workersRunning
  deriving DecidableEq, Repr

/-- A block of memory: from which worker pool (`gen`: how many were created before) and which of its
allocators it comes. -/
structure Blk where
  gen : Nat
  arena : Nat
  deriving DecidableEq, Repr

/-- worker_pool.hpp:106-111 -/
structure Pool where
  gen : Nat
  /-- number of elements of `workers` -/
  size : Nat
  /-- `allocs`: how many blocks each allocator has handed out -/
  allocs : List Nat
  deriving DecidableEq, Repr

/-- An object of the user: a resource (resource.hpp:44-63 `ResourceBase`) or an access
(resource.hpp:252-302). -/
structure Obj where
  /-- identifier of the resource -/
  id : Nat
  /-- allocator of the list of users, resource.cpp:26 -/
  arena : Nat
  /-- memory that is given back when the object is dropped -/
  blocks : List Blk
  deriving DecidableEq, Repr

/-- redGrapes.hpp:86-102, the members of `Context`; a static object, zero before `init`. -/
structure State where
  nWorkers : Nat
  pool : Option Pool
  /-- `root_space` is not null -/
  root : Bool
  /-- number of worker pools created so far -/
  gens : Nat
  /-- resource.cpp:19 `id_counter` -/
  ids : Nat
  /-- all objects so far, `none` after they have been dropped -/
  objs : List (Option Obj)
  deriving DecidableEq, Repr

def State.init : State := ⟨0, none, false, 0, 0, []⟩

inductive Op
  | init (n : Nat)
  | finalize
  | barrier
  /-- `i`: the static counter of resource.hpp:308 (one per access policy) -/
  | newResource (i : Nat)
  /-- object `r` is a resource -/
  | makeAccess (r : Nat)
  /-- a task that uses resource `r` is registered, and the list of users needs another chunk -/
  | pushUser (r : Nat)
  | drop (o : Nat)
  | emplaceTask (next : Nat)
  deriving DecidableEq, Repr

/-- allocator.cpp:17-20, the constructor: `worker_id % n_workers` -/
def allocator (s : State) (hint : Nat) : Except Err Nat :=
  if s.nWorkers = 0 then .error .divByZero else .ok (hint % s.nWorkers)

/-- allocator.cpp:22-25 `allocate` with worker_pool.hpp:61-65 `get_alloc` -/
def allocate (s : State) (arena : Nat) : Except Err (State × Blk) :=
  match s.pool with
  | none => .error .nullPtr
  | some p =>
    match p.allocs[arena]? with
    | none => .error .outOfRange
    | some c => .ok ({ s with pool := some { p with allocs := p.allocs.set arena (c + 1) } }, ⟨p.gen, arena⟩)

/-- allocator.cpp:27-30 `deallocate`; the allocator object itself lies in the memory that is given back,
so this must be memory of the current pool -/
def deallocate (s : State) (b : Blk) : Except Err State :=
  match s.pool with
  | none => .error .nullPtr
  | some p =>
    if b.gen ≠ p.gen then .error .freedMemory
    else match p.allocs[b.arena]? with
      | none => .error .outOfRange
      | some c => .ok { s with pool := some { p with allocs := p.allocs.set b.arena (c - 1) } }

def deallocateAll (s : State) : List Blk → Except Err State
  | [] => .ok s
  | b :: bs => (deallocate s b).bind fun s' => deallocateAll s' bs

/-- access to an object that has not been dropped: its memory must still exist -/
def touch (s : State) (o : Nat) : Except Err Obj :=
  match s.objs[o]?, s.pool with
  | some (some x), some p => if x.blocks.all (fun b => b.gen == p.gen) then .ok x else .error .freedMemory
  | _, _ => .error .nullPtr

/-- resource.cpp:30-33 `get_arena_id` -/
def arenaId (s : State) (id : Nat) : Except Err Nat :=
  match s.pool with
  | none => .error .nullPtr
  | some p => if p.size = 0 then .error .divByZero else .ok (id % p.size)

/-- redGrapes.cpp:115-127 with worker_pool.cpp:31-54: the previous pool is destroyed with its allocators.
The memory of the worker objects is not counted. -/
def doInit (s : State) (n : Nat) : Except Err State :=
  match s.pool with
  | some p =>
    if p.size ≠ 0 then .error .workersRunning
    else .ok { s with nWorkers := n, pool := some ⟨s.gens, n, List.replicate n 0⟩, root := true,
                      gens := s.gens + 1 }
  | none => .ok { s with nWorkers := n, pool := some ⟨s.gens, n, List.replicate n 0⟩, root := true,
                         gens := s.gens + 1 }

/-- redGrapes.cpp:136-142, no tasks are left -/
def doBarrier (s : State) : Except Err State :=
  if s.root then .ok s else .error .nullPtr

/-- redGrapes.cpp:144-154 with worker_pool.cpp:66-72 -/
def doFinalize (s : State) : Except Err State :=
  (doBarrier s).bind fun s =>
    match s.pool with
    | none => .error .nullPtr
    | some p => .ok { s with pool := some { p with size := 0 }, root := false }

/-- resource.hpp:306-315 with resource.cpp:17-28 -/
def newResource (s : State) (i : Nat) : Except Err State := do
  let a ← allocator s i
  let (s, b) ← allocate s a
  let r ← arenaId s s.ids
  let l ← allocator s r
  return { s with ids := s.ids + 1, objs := s.objs ++ [some ⟨s.ids, l, [b]⟩] }

/-- resource.hpp:324-328 -/
def makeAccess (s : State) (r : Nat) : Except Err State := do
  let x ← touch s r
  let i ← arenaId s x.id
  let a ← allocator s i
  let (s, b) ← allocate s a
  return { s with objs := s.objs ++ [some ⟨x.id, a, [b]⟩] }

/-- chunked_list.hpp:518-569 `push` in task_space.cpp:83, with a new chunk -/
def pushUser (s : State) (r : Nat) : Except Err State := do
  let x ← touch s r
  let (s, b) ← allocate s x.arena
  return { s with objs := s.objs.set r (some { x with blocks := b :: x.blocks }) }

/-- the last reference to an object goes away -/
def dropObj (s : State) (o : Nat) : Except Err State := do
  let x ← touch s o
  let s ← deallocateAll s x.blocks
  return { s with objs := s.objs.set o none }

/-- worker_pool.hpp:62-66 `get_worker` -/
def getWorker (s : State) (i : Nat) : Except Err Unit :=
  match s.pool with
  | none => .error .nullPtr
  | some p => if i < p.size then .ok () else .error .outOfRange

/-- redGrapes.hpp:178-193 with default_scheduler.cpp:36-38: which worker gets the task; `task` objects are part of
Model/Graph -/
def emplaceTask (s : State) (next : Nat) : Except Err State := do
  let i ← arenaId s next
  getWorker s i
  return s

def step (s : State) : Op → Except Err State
  | .init n => doInit s n
  | .finalize => doFinalize s
  | .barrier => doBarrier s
  | .newResource i => newResource s i
  | .makeAccess r => makeAccess s r
  | .pushUser r => pushUser s r
  | .drop o => dropObj s o
  | .emplaceTask n => emplaceTask s n

def run (s : State) : List Op → Except Err State
  | [] => .ok s
  | o :: os => (step s o).bind fun s' => run s' os

end RG.Life
