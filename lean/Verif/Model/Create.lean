import Verif.Util
/-
Creation of resources by several threads: /repo/redGrapes/resource/resource.hpp:306-315 (`Resource::Resource`), resource.cpp:17-33 (`generateID`, `ResourceBase`,
`get_arena_id`), memory/allocator.cpp:17-20.

`static unsigned i` in the constructor (one variable per access policy, policies are numbered here) is no atomic variable: `i++` is a load and a store. Sequentially
consistent interleaving; that the accesses race is a property of the states (`Race`).
-/
namespace RG.Create

inductive Pc
  | idle
  /-- resource.hpp:313, before the load -/
  | enter (p : Nat)
  /-- between load and store of `i++` -/
  | loaded (p : Nat) (v : BitVec 32)
  /-- 314, before `generateID` -/
  | stored (p : Nat) (v : BitVec 32)
  deriving DecidableEq

structure Resource where
  pol : Nat
  /-- `worker_id` of resource.hpp:313 -/
  cnt : BitVec 32
  /-- `id` -/
  id : BitVec 32
  deriving DecidableEq

structure State where
  /-- the static variables -/
  i : Nat → BitVec 32
  /-- resource.cpp:19 `id_counter` -/
  next : BitVec 32
  pcs : Nat → Pc
  created : List Resource

def init : State := ⟨fun _ => 0, 0, fun _ => .idle, []⟩

/-- `ok s p`: when a thread may begin to create a resource of policy `p` -/
inductive Step (ok : State → Nat → Prop) : State → State → Prop
  | enter {s t p} (h : s.pcs t = .idle) (ho : ok s p) : Step ok s { s with pcs := upd s.pcs t (.enter p) }
  | load {s t p} (h : s.pcs t = .enter p) : Step ok s { s with pcs := upd s.pcs t (.loaded p (s.i p)) }
  | store {s t p v} (h : s.pcs t = .loaded p v) : Step ok s { s with i := upd s.i p (v + 1), pcs := upd s.pcs t (.stored p v) }
  /-- resource.cpp:20 `fetch_add`, 23-28 -/
  | construct {s t p v} (h : s.pcs t = .stored p v) :
      Step ok s { s with next := s.next + 1, pcs := upd s.pcs t .idle, created := s.created ++ [⟨p, v, s.next⟩] }

inductive Reach (ok : State → Nat → Prop) : State → Prop
  | init : Reach ok init
  | step {s s'} (h : Reach ok s) (hs : Step ok s s') : Reach ok s'

/-- Threads create resources whenever they want to. -/
def free : State → Nat → Prop := fun _ _ => True

/-- Two threads are about to access the same variable, one of them writes. -/
def Race (s : State) : Prop := ∃ t u p v, t ≠ u ∧ s.pcs t = .loaded p v ∧ (s.pcs u = .enter p ∨ ∃ w, s.pcs u = .loaded p w)

/-- allocator.cpp:18: the arena of the object of a resource -/
def objectArena (workers : Nat) (r : Resource) : Nat := r.cnt.toNat % workers

/-- resource.cpp:26, 32: the arena of its list of users; also that of its accesses, resource.hpp:326 -/
def usersArena (workers : Nat) (r : Resource) : Nat := r.id.toNat % workers % workers

end RG.Create
