import Verif.Util
/-
Life time of the chunks of a list: /repo/redGrapes/util/atomic_list.hpp, with the reference counts of `std::shared_ptr`.

`Model/AtomicList` is about the order of the chunks; there they are never deallocated. Here every `std::shared_ptr` is a
cell, and every chunk has a count of references. A chunk is destroyed when its count becomes zero; then its member `prev` is
destroyed, which may destroy another chunk, and so on (each of these is a step).

Line 243 (`c = c->prev`) is a plain copy of a shared pointer, in libstdc++: read the pointer, increment the count, release
the old pointer. Lines 79, 81, 83, 257, 299-302 and 315 use the atomic functions (one step each; the release of the value
that is replaced is a step of its own).

Simplifications: the increment of the count for the argument of `atomic_store` and of the compare-and-swap belongs to their
step. The pointer to the chunk and the pointer to the count are read together in line 243 (a torn read is possible in the
code). Chunk numbers are not reused.
-/
namespace RG.SP

/-- the shared pointers that are local to a thread -/
inductive Reg
  /-- an iterator, 200-203; a thread may have any number of them -/
  | it (k : Nat)
  /-- 79 `p` -/
  | p
  /-- 291, 309 `new_head` -/
  | nw
  /-- 294, 313 `old_head`, `expected` -/
  | old
  /-- a value that has been replaced and whose count is still to be decremented -/
  | drop
  deriving DecidableEq

/-- a `std::shared_ptr` -/
inductive Cell
  /-- 93 -/
  | head
  /-- 48, of chunk `x` -/
  | prev (x : Nat)
  | reg (t : Nat) (r : Reg)
  deriving DecidableEq

inductive Pc
  | idle
  /-- 299 -/
  | appLoad
  /-- 300 -/
  | appStore
  /-- 301-302 -/
  | appCas
  /-- 315 -/
  | firstCas
  /-- 305, 316: the end of the life of `old_head` and `new_head` -/
  | appEnd
  | appEnd2
  /-- 79; `adv`: called from `operator++` (242), otherwise from `optimize` (235) -/
  | skLoad (k : Nat) (adv : Bool)
  /-- 80 -/
  | skTest (k : Nat) (adv : Bool)
  /-- 81 -/
  | skNext (k : Nat) (adv : Bool)
  /-- 83 -/
  | skStore (k : Nat) (adv : Bool)
  /-- 84: the end of the life of `p` -/
  | skEnd (k : Nat) (adv : Bool)
  /-- 243 -/
  | adv (k : Nat)
  /-- 243, the pointer has been read, the count has not been incremented -/
  | advCopy (k : Nat) (q : Option Nat)
  deriving DecidableEq

structure State where
  cell : Cell → Option Nat
  /-- the counts of references -/
  rc : Nat → Nat
  /-- the chunk has been destroyed and its memory given back -/
  freed : Nat → Bool
  /-- 47 -/
  deleted : Nat → Bool
  /-- number of chunks that have been created -/
  n : Nat
  pc : Nat → Pc
  /-- memory of a destroyed chunk has been accessed -/
  fault : Bool
  /-- ghost: destructor calls, the latest first -/
  log : List Nat
  /-- ghost: the number of successful appends -/
  len : Nat
  /-- ghost: how many chunks had been appended before this one -/
  rank : Nat → Option Nat

def init : State where
  cell _ := none
  rc _ := 0
  freed _ := false
  deleted _ := false
  n := 0
  pc _ := .idle
  fault := false
  log := []
  len := 0
  rank _ := none

def addRef (rc : Nat → Nat) : Option Nat → Nat → Nat
  | none => rc
  | some x => upd rc x (rc x + 1)

/-- an access to the memory of chunk `x`, if there is one -/
def State.touch (s : State) : Option Nat → State
  | none => s
  | some x => { s with fault := s.fault || s.freed x }

/-- `dst` becomes empty; thread `t` will release its old value -/
def State.clear (s : State) (t : Nat) (dst : Cell) : State :=
  { s with cell := upd (upd s.cell (.reg t .drop) (s.cell dst)) dst none }

/-- `dst` becomes a copy of a shared pointer with value `v`; thread `t` will release its old value -/
def State.assign (s : State) (t : Nat) (dst : Cell) (v : Option Nat) : State :=
  let s' := (s.touch v).clear t dst
  { s' with cell := upd s'.cell dst v, rc := addRef s.rc v }

/-- The destructor of a shared pointer to `x`: if it was the last one, then the chunk is destroyed (61-64), and then its
member `prev`. -/
def State.release (s : State) (t x : Nat) : State :=
  let s' := s.touch (some x)
  if s.rc x ≤ 1 then
    { s' with
      rc := upd s.rc x 0
      freed := upd s.freed x true
      log := x :: s.log
      cell := upd (upd s.cell (.reg t .drop) (s.cell (.prev x))) (.prev x) none }
  else { s' with rc := upd s.rc x (s.rc x - 1), cell := upd s.cell (.reg t .drop) none }

/-- 159-179: `allocate_shared`: a new chunk, owned by `new_head` -/
def State.create (s : State) (t : Nat) : State :=
  { s with
    cell := upd s.cell (.reg t .nw) (some s.n)
    rc := upd s.rc s.n 1
    n := s.n + 1 }

def State.goto (s : State) (t : Nat) (p : Pc) : State := { s with pc := upd s.pc t p }

/-- What a thread does next, if it is not in the middle of something. -/
inductive Act
  /-- continue -/
  | go
  /-- `allocate_item` -/
  | append
  /-- `try_allocate_first_item` -/
  | first
  /-- 256-259 `it_k = rbegin()` -/
  | rbegin (k : Nat)
  /-- copy of iterator `j` of thread `u` -/
  | copy (k u j : Nat)
  /-- 282-285 -/
  | erase (k : Nat)
  /-- 219-227 -/
  | deref (k : Nat)
  /-- 238-247 -/
  | next (k : Nat)
  /-- 232-236 -/
  | optimize (k : Nat)
  /-- the iterator goes out of scope -/
  | fin (k : Nat)
  deriving DecidableEq

/-- The members of the chunk that iterator `k` of thread `t` points to. -/
def State.at' (s : State) (t k : Nat) : Option Nat := s.cell (.reg t (.it k))

/-- the value of the shared pointer `prev` of a chunk -/
def State.prevOf (s : State) : Option Nat → Option Nat
  | none => none
  | some x => s.cell (.prev x)

/-- A step of thread `t`; `plain`: line 243 is a plain copy as in the code, not an atomic load. -/
def step (plain : Bool) (t : Nat) (a : Act) (s : State) : Option State :=
  match s.cell (.reg t .drop) with
  | some x => if a = .go then some (s.release t x) else none
  | none =>
    match s.pc t, a with
    | .idle, .append => some ((s.create t).goto t .appLoad)
    | .idle, .first => some ((s.create t).goto t .firstCas)
    | .idle, .rbegin k => some (s.assign t (.reg t (.it k)) (s.cell .head))
    | .idle, .copy k u j =>
      if u = t ∨ s.pc u = .idle then some (s.assign t (.reg t (.it k)) (s.at' u j)) else none
    | .idle, .erase k =>
      match s.at' t k with
      | some x => some { s.touch (some x) with deleted := upd s.deleted x true }
      | none => none
    | .idle, .deref k => some (s.touch (s.at' t k))
    | .idle, .next k => if s.at' t k = none then some s else some (s.goto t (.skLoad k true))
    | .idle, .optimize k => if s.at' t k = none then some s else some (s.goto t (.skLoad k false))
    | .idle, .fin k => some (s.clear t (.reg t (.it k)))
    | .appLoad, .go => some ((s.assign t (.reg t .old) (s.cell .head)).goto t .appStore)
    | .appStore, .go =>
      match s.cell (.reg t .nw) with
      | some y => some (((s.touch (some y)).assign t (.prev y) (s.cell (.reg t .old))).goto t .appCas)
      | none => none
    | .appCas, .go =>
      if s.cell .head = s.cell (.reg t .old) then
        match s.cell (.reg t .nw) with
        | some y => some { (s.assign t .head (some y)).goto t .appEnd with
            len := s.len + 1, rank := upd s.rank y (some s.len) }
        | none => none
      else some ((s.assign t (.reg t .old) (s.cell .head)).goto t .appLoad)
    | .firstCas, .go =>
      if s.cell .head = none then
        match s.cell (.reg t .nw) with
        | some y => some { (s.assign t .head (some y)).goto t .appEnd with
            len := s.len + 1, rank := upd s.rank y (some s.len) }
        | none => none
      else some ((s.assign t (.reg t .old) (s.cell .head)).goto t .appEnd)
    | .appEnd, .go => some ((s.clear t (.reg t .old)).goto t .appEnd2)
    | .appEnd2, .go => some ((s.clear t (.reg t .nw)).goto t .idle)
    | .skLoad k adv, .go =>
      some (((s.touch (s.at' t k)).assign t (.reg t .p) (s.prevOf (s.at' t k))).goto t (.skTest k adv))
    | .skTest k adv, .go =>
      match s.cell (.reg t .p) with
      | some q => some ((s.touch (some q)).goto t (if s.deleted q then .skNext k adv else .skStore k adv))
      | none => some (s.goto t (.skStore k adv))
    | .skNext k adv, .go =>
      some (((s.touch (s.cell (.reg t .p))).assign t (.reg t .p) (s.prevOf (s.cell (.reg t .p)))).goto t (.skTest k adv))
    | .skStore k adv, .go =>
      match s.at' t k with
      | some c => some (((s.touch (some c)).assign t (.prev c) (s.cell (.reg t .p))).goto t (.skEnd k adv))
      | none => none
    | .skEnd k adv, .go => some ((s.clear t (.reg t .p)).goto t (if adv then .adv k else .idle))
    | .adv k, .go =>
      if plain then some ((s.touch (s.at' t k)).goto t (.advCopy k (s.prevOf (s.at' t k))))
      else some (((s.touch (s.at' t k)).assign t (.reg t (.it k)) (s.prevOf (s.at' t k))).goto t .idle)
    | .advCopy k q, .go => some ((s.assign t (.reg t (.it k)) q).goto t .idle)
    | _, _ => none

/-- The states that are reached by any number of threads; `ok` restricts the steps. -/
inductive Reach (plain : Bool) (ok : State → Nat → Act → Prop) : State → Prop
  | init : Reach plain ok init
  | step {s s' t a} (h : Reach plain ok s) (hs : step plain t a s = some s') (ho : ok s t a) : Reach plain ok s'

/-- every interleaving -/
def anyOrder (_ : State) (_ : Nat) (_ : Act) : Prop := True

/-- The executions without a data race on `prev`: a thread does not store to the member `prev` of a chunk (lines 83 and
300) while another thread is in the middle of copying it (line 243). -/
def noRace (s : State) (t : Nat) (_ : Act) : Prop :=
  ∀ u k q c, u ≠ t → s.pc u = .advCopy k q → s.at' u k = some c → s.cell (.reg t .drop) = none →
    ¬ (s.pc t = .appStore ∧ s.cell (.reg t .nw) = some c) ∧ ∀ j b, ¬ (s.pc t = .skStore j b ∧ s.at' t j = some c)

/-- execution of a list of steps -/
def run (plain : Bool) : List (Nat × Act) → State → Option State
  | [], s => some s
  | (t, a) :: l, s => (step plain t a s).bind (run plain l)

end RG.SP
