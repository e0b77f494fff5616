/-
CUDA event pool: /repo/redGrapes/dispatch/cuda/event_pool.hpp

Events are opaque numbers. `cudaEventCreate` is trusted to return an event that it has not
returned before: `created` counts its calls and the next event is this number. The mutex
(lines 46, 63) makes `alloc` and `free` atomic, so an execution is a sequence of operations.
-/
namespace RG.Cuda

structure Pool where
  /-- event_pool.hpp:69 `unused_cuda_events`; the last element of the vector is the head here -/
  unused : List Nat
  /-- number of calls of `cudaEventCreate` so far -/
  created : Nat
  deriving DecidableEq, Repr

/-- event_pool.hpp:27-29. -/
def Pool.init : Pool := ⟨[], 0⟩

/-- event_pool.hpp:44-59 `alloc`. -/
def alloc (p : Pool) : Pool × Nat :=
  match p.unused with
  | [] => (⟨[], p.created + 1⟩, p.created)
  | e :: es => (⟨es, p.created⟩, e)

/-- event_pool.hpp:61-65 `free`. -/
def free (p : Pool) (e : Nat) : Pool := ⟨e :: p.unused, p.created⟩

end RG.Cuda
