import Verif.Model.Context
/-
Where threads run and where memory is: /repo/redGrapes/dispatch/thread/worker_pool.cpp:31-54 (`emplace_workers`), worker.cpp:92-94 and 105-136 (`cpubind`, `membind`),
memory/hwloc_alloc.hpp:54-75 (`HwlocAlloc::allocate`), memory/allocator.cpp:13-25, redGrapes.hpp:175-195 (`emplace_task`), task/task_builder.hpp:70-81,
scheduler/default_scheduler.cpp:33-38.

Processing units are numbered as by hwloc. hwloc and the operating system are trusted to bind threads and memory as requested (if they refuse, the library only
prints a message). Of a thread of the program the calls are modelled in which memory is requested through `memory::Allocator()` or a task is created.
-/
namespace RG.Placement

/-- The machine and the pool. -/
structure Cfg where
  workers : Nat
  pus : Nat

/-- worker_pool.cpp:43-46: the processing unit to whose memory arena `a` is bound -/
def arenaPu (c : Cfg) (a : Nat) : Nat := a % c.pus

/-- worker.cpp:107-108, 122-123: the processing unit on which worker `w` runs -/
def workerPu (c : Cfg) (w : Nat) : Nat := w % c.pus

/-- The thread-local variables of a thread. -/
structure Thread where
  /-- `Context::current_arena` -/
  arena : Nat
  /-- `Context::next_worker` -/
  next : BitVec 32

/-- worker.cpp:94 -/
def Thread.worker (w : Nat) : Thread := ⟨w, 0⟩

/-- The thread that calls `init`: worker_pool.cpp:48, in a loop over the workers. -/
def Thread.main (c : Cfg) : Thread := ⟨(c.workers - 1) % c.pus, 0⟩

/-- What a thread does. -/
inductive Op
  /-- `redGrapes::emplace_task` -/
  | emplace
  /-- memory is taken through `memory::Allocator()`: lists of events and accesses, blocks for the user -/
  | alloc

inductive Event
  /-- a task whose object is in arena `mem` is given to worker `worker` -/
  | task (mem worker : Nat)
  /-- a block in arena `mem` -/
  | block (mem : Nat)
  deriving DecidableEq, Repr

/-- allocator.cpp:13-20: the arena of `Allocator()` -/
def allocator (c : Cfg) (t : Thread) : Nat := t.arena % c.workers

def step (c : Cfg) (t : Thread) : Op → Event × Thread
  -- redGrapes.hpp:180-188: `current_arena` is changed and keeps the new value; task_builder.hpp:71-81; default_scheduler.cpp:36
  | .emplace =>
    let t' : Thread := ⟨(Ctx.nextArena c.workers t.next).1, (Ctx.nextArena c.workers t.next).2⟩
    (.task (allocator c t') (Ctx.emplaceWorker c.workers t'.arena), t')
  | .alloc => (.block (allocator c t), t)

def run (c : Cfg) : Thread → List Op → List Event
  | _, [] => []
  | t, o :: os => (step c t o).1 :: run c (step c t o).2 os

end RG.Placement
