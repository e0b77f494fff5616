import Verif.Util
/-
The references that the elements of a list hold, and the memory in which the elements are.

`ChunkedList<T>` never constructs its elements. The constructor of a slot leaves the storage alone
(chunked_list.hpp:95-97, 138-144), `push` *assigns* to it (chunked_list.hpp:157-170), and the destructor of a chunk destroys
all slots that were not destroyed before, also those that were never assigned (chunked_list.hpp:146-149, 220-234, 256-260).
For elements with reference counts (`ResourceAccess`, `ResourceUsageEntry`, `EventPtr`: they contain a `std::shared_ptr`) an assignment
drops what the storage referred to before, and a destruction drops what it refers to. Whether this is harmless
depends on what is in memory that was not used before.

Here the memory is modelled from the pages of the operating system (hwloc_alloc.hpp) through the bump allocator
(bump_allocator.cpp, chunked_bump_alloc.hpp) up to the slots of the lists and the counts of references in the objects.

Simplifications: an address stands for a word that can hold one pointer, an element is one such pointer (`0` is the null pointer). Every operation is
one step; the races inside of the operations are the subject of C29, C33, C35 and C95. Allocation may use any page, not only the last one of
an arena. The control blocks of the lists are not represented, they lie in front of the slots in the same block.
-/
namespace RG.LR

/-- Variants. The code is `⟨true, false⟩`. -/
structure Cfg where
  /-- the operating system hands out pages that are zero, as `mmap` does (hwloc_alloc.hpp:58-63; the code that would clear the memory, 76-92, comes after the `return` and is never executed) -/
  zero : Bool
  /-- a bump allocator without allocations is reset, as the comment in bump_allocator.hpp:55-58 demands; `reset()`
  (bump_allocator.cpp:52-56) is never called -/
  reset : Bool

/-- A chunk of the bump allocator, bump_allocator.hpp:62-70. -/
structure Page where
  /-- `lower_limit` -/
  lo : Nat
  /-- `upper_limit` -/
  hi : Nat
  /-- `next_addr` -/
  next : Nat
  /-- `count` -/
  cnt : Nat
  deriving DecidableEq

/-- A slot that has been assigned, chunked_list.hpp:84-149. -/
structure Slot where
  /-- ghost: the object whose reference was pushed -/
  obj : Nat
  /-- `iter_offset == 0`, chunked_list.hpp:113-124: the element was not removed -/
  live : Bool
  /-- ghost: how many iterators are at this slot -/
  held : Nat
  /-- `refcount`, chunked_list.hpp:126-136 -/
  rc : Int
  deriving DecidableEq

/-- A block of memory that was handed out and not given back. -/
structure Block where
  page : Nat
  base : Nat
  len : Nat
  /-- whether it is a chunk of a list; if not, it belongs to somebody else (a task, a resource, …) -/
  list : Bool
  /-- the slots of the chunk that have been assigned; the others are as after chunked_list.hpp:138-144 -/
  slots : List Slot
  deriving DecidableEq

structure State where
  mem : Nat → Nat
  pages : Nat → Option Page
  blocks : List Block
  /-- the count of strong references of an object (in the control block of its `shared_ptr`) -/
  cnt : Nat → Nat
  /-- the object was created; it is destroyed if its count is `0` -/
  made : Nat → Bool
  /-- ghost: the references that are held by others than lists -/
  ext : Nat → Nat
  /-- a reference of an object was dropped that was destroyed already: undefined behaviour -/
  ub : Bool

def init : State :=
  { mem := fun _ => 0, pages := fun _ => none, blocks := [], cnt := fun _ => 0, made := fun _ => false
    ext := fun _ => 0, ub := false }

/-- `full()`, bump_allocator.cpp:47-50 -/
def Page.full (p : Page) : Bool := p.next ≤ p.lo

/-- A `shared_ptr` with value `v` is destroyed or overwritten. -/
def drop (s : State) (v : Nat) : State :=
  if v = 0 then s
  else if s.cnt v = 0 then { s with ub := true }
  else { s with cnt := upd s.cnt v (s.cnt v - 1) }

/-- the same for several of them -/
def dropAll (s : State) (vs : List Nat) : State := vs.foldl drop s

/-- `BumpAllocator::deallocate` (bump_allocator.cpp:70-74) for page `p`, and the release of the page when nothing is in it and nothing more fits
into it (chunked_bump_alloc.hpp:142-150). -/
def dealloc (cfg : Cfg) (s : State) (p : Nat) : State :=
  match s.pages p with
  | none => s
  | some P =>
    if P.cnt = 1 ∧ P.full = true then { s with pages := upd s.pages p none }
    else if P.cnt = 1 ∧ cfg.reset = true then { s with pages := upd s.pages p (some { P with next := P.hi, cnt := 0 }) }
    else { s with pages := upd s.pages p (some { P with cnt := P.cnt - 1 }) }

/-- `storage.value = value`, chunked_list.hpp:162, where the storage is at address `a`: `shared_ptr::operator=` takes a new reference and
drops the one that was there before. -/
def assign (s : State) (a o : Nat) : State :=
  let s1 := drop { s with cnt := upd s.cnt o (s.cnt o + 1) } (s.mem a)
  { s1 with mem := upd s1.mem a o }

/-- The destructor of slot `i` of a chunk, chunked_list.hpp:146-149, `release<false>` in 220-234: the value is destroyed if `refcount` is `0`,
whether or not the slot was assigned. -/
def slotValue (s : State) (b : Block) (i : Nat) : Option Nat :=
  match b.slots[i]? with
  | some x => if x.rc = 0 then some (s.mem (b.base + i)) else none
  | none => some (s.mem (b.base + i))

/-- The references that `~Chunk` drops, chunked_list.hpp:256-260. -/
def chunkValues (s : State) (b : Block) : List Nat := (List.range b.len).filterMap (slotValue s b)

/-- Two ranges of addresses do not overlap. -/
def Apart (lo hi lo' hi' : Nat) : Prop := hi ≤ lo' ∨ hi' ≤ lo

inductive Step (cfg : Cfg) : State → State → Prop
  /-- hwloc_alloc.hpp:54-74 with atomic_list.hpp:159-180, bump_allocator.cpp:20-32: a page with `n` words; `f` is what is in it if it is not
  zero -/
  | map {s p lo n} {f : Nat → Nat} (hp : s.pages p = none) (hlo : 0 < lo)
      (ha : ∀ q Q, s.pages q = some Q → Apart lo (lo + n) Q.lo Q.hi) :
      Step cfg s { s with
        pages := upd s.pages p (some ⟨lo, lo + n, lo + n, 0⟩)
        mem := fun a => if lo ≤ a ∧ a < lo + n then (if cfg.zero then 0 else f a) else s.mem a }
  /-- bump_allocator.cpp:58-68: there is enough space; the block is used for the chunk of a list (chunked_list.hpp:250-254) or for something
  else -/
  | alloc {s p P n list} (hp : s.pages p = some P) (hn : 0 < n) (hf : P.lo + n ≤ P.next) :
      Step cfg s { s with
        pages := upd s.pages p (some { P with next := P.next - n, cnt := P.cnt + 1 })
        blocks := ⟨p, P.next - n, n, list, []⟩ :: s.blocks }
  /-- bump_allocator.cpp:58-68: there is not enough space, but `next_addr` was decremented -/
  | allocFail {s p P n} (hp : s.pages p = some P) (hn : 0 < n) (hf : ¬ P.lo + n ≤ P.next) :
      Step cfg s { s with pages := upd s.pages p (some { P with next := P.next - n }) }
  /-- somebody who is not a list writes to the memory they have got -/
  | write {s l b r i v} (hb : s.blocks = l ++ b :: r) (hk : b.list = false) (hi : i < b.len) :
      Step cfg s { s with mem := upd s.mem (b.base + i) v }
  /-- … and gives it back -/
  | free {s l b r} (hb : s.blocks = l ++ b :: r) (hk : b.list = false) :
      Step cfg s (dealloc cfg { s with blocks := l ++ r } b.page)
  /-- an object is created, and somebody has a reference -/
  | create {s o} (ho : 0 < o) (hm : s.made o = false) :
      Step cfg s { s with made := upd s.made o true, cnt := upd s.cnt o 1, ext := upd s.ext o 1 }
  /-- a reference is copied -/
  | copy {s o} (he : 0 < s.ext o) :
      Step cfg s { s with cnt := upd s.cnt o (s.cnt o + 1), ext := upd s.ext o (s.ext o + 1) }
  /-- a reference is dropped -/
  | drop {s o} (he : 0 < s.ext o) : Step cfg s { drop s o with ext := upd s.ext o (s.ext o - 1) }
  /-- chunked_list.hpp:518-570, 157-170: a reference to `o`, which the caller has, is pushed -/
  | push {s l b r o} (hb : s.blocks = l ++ b :: r) (hk : b.list = true) (hc : b.slots.length < b.len) (he : 0 < s.ext o) :
      Step cfg s { assign s (b.base + b.slots.length) o with
        blocks := l ++ { b with slots := b.slots ++ [⟨o, true, 0, 0⟩] } :: r }
  /-- chunked_list.hpp:179-213: an iterator comes to an element -/
  | acquire {s l b r u x v} (hb : s.blocks = l ++ b :: r) (hk : b.list = true) (hx : b.slots = u ++ x :: v)
      (hl : x.live = true) :
      Step cfg s { s with
        blocks := l ++ { b with slots := u ++ { x with held := x.held + 1, rc := x.rc + 1 } :: v } :: r }
  /-- the value at an iterator is copied -/
  | read {s l b r u x v} (hb : s.blocks = l ++ b :: r) (hk : b.list = true) (hx : b.slots = u ++ x :: v)
      (hh : 0 < x.held) :
      Step cfg s { s with
        cnt := upd s.cnt (s.mem (b.base + u.length)) (s.cnt (s.mem (b.base + u.length)) + 1)
        ext := upd s.ext (s.mem (b.base + u.length)) (s.ext (s.mem (b.base + u.length)) + 1) }
  /-- chunked_list.hpp:220-234: an iterator leaves an element; the last one destroys it -/
  | release {s l b r u x v} (hb : s.blocks = l ++ b :: r) (hk : b.list = true) (hx : b.slots = u ++ x :: v)
      (hh : 0 < x.held) :
      Step cfg s { (if x.rc = 0 then LR.drop s (s.mem (b.base + u.length)) else s) with
        blocks := l ++ { b with slots := u ++ { x with held := x.held - 1, rc := x.rc - 1 } :: v } :: r }
  /-- chunked_list.hpp:572-602: an element is removed through an iterator at it -/
  | remove {s l b r u x v} (hb : s.blocks = l ++ b :: r) (hk : b.list = true) (hx : b.slots = u ++ x :: v)
      (hl : x.live = true) (hh : 0 < x.held) :
      Step cfg s { (if x.rc = 0 then LR.drop s (s.mem (b.base + u.length)) else s) with
        blocks := l ++ { b with slots := u ++ { x with live := false, rc := x.rc - 1 } :: v } :: r }
  /-- chunked_list.hpp:256-260: a chunk is destroyed (because the list is, or because all its elements were removed); nobody refers to
  it any more -/
  | destroy {s l b r} (hb : s.blocks = l ++ b :: r) (hk : b.list = true) (hh : ∀ x ∈ b.slots, x.held = 0) :
      Step cfg s (dealloc cfg { dropAll s (chunkValues s b) with blocks := l ++ r } b.page)

inductive Steps (cfg : Cfg) : State → State → Prop
  | refl {s} : Steps cfg s s
  | tail {s s' s''} : Steps cfg s s' → Step cfg s' s'' → Steps cfg s s''

/-- The states of executions. -/
def Reach (cfg : Cfg) (s : State) : Prop := Steps cfg init s

/-- The code, with pages that are zero. -/
def code : Cfg := ⟨true, false⟩

/-! ### what one can observe -/

/-- The element keeps a reference: it was not removed, or an iterator is still there. -/
def Slot.keeps (x : Slot) : Bool := x.live || decide (0 < x.held)

/-- How many elements of lists keep a reference to `o`. -/
def refs (s : State) (o : Nat) : Nat :=
  (s.blocks.map fun b => b.slots.countP fun x => x.keeps && decide (x.obj = o)).sum

/-- `o` exists: it was created and is not destroyed. -/
def Alive (s : State) (o : Nat) : Prop := s.made o = true ∧ 0 < s.cnt o

end RG.LR
