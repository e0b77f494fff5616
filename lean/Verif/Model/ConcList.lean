import Verif.Model.AtomicList
/-
The chunked list used by any number of threads: /repo/redGrapes/util/chunked_list.hpp on top of the machine for
/repo/redGrapes/util/atomic_list.hpp in `Verif.Model.AtomicList`.

Every access to shared memory is a step. A slot is a pair of a chunk and an index in the chunk; `N` is
`T_chunk_size`. A thread here is one operation in progress: a thread of the program that removes elements during its own
iteration, as `erase` does, is two threads.

Simplifications: reference counts are in `Verif.Model.Item`; here an iterator that has read `iter_offset = 0` may
succeed even if the element is removed before the second read (line 187), which includes what happens
when the reference count is negative. `iter_offset` (uint16_t) is unbounded.
-/
namespace RG.CoL

/-- chunk and index -/
abbrev Slot := Nat × Nat

inductive Pc
  | idle
  /-- 524: value `v` is to be pushed -/
  | pLoad (v : Nat)
  /-- 532: chunk `c` was the head -/
  | pNext (v c : Nat)
  /-- 534 -/
  | pAdd (v c : Nat)
  /-- 540: slot `i` of chunk `c` has been reserved -/
  | pAsg (v c i : Nat)
  /-- 548: chunk `c` has overflown, inside `allocate_item` -/
  | pAlloc (v c : Nat)
  /-- 567: inside `try_allocate_first_item` -/
  | pFirst (v : Nat)
  /-- 581-586: before the offset of the preceding slot is read -/
  | rRead (x : Slot)
  /-- 582/586: before the offset is written -/
  | rWrite (x : Slot) (d : Nat)
  /-- 514 -/
  | rFree (x : Slot)
  /-- 515 -/
  | rDel (c : Nat)
  /-- 272: an iterator has arrived at chunk `c` -/
  | iLast (c : Nat)
  /-- 181: before the offset of slot `p` is read -/
  | iAt (c p : Nat)
  /-- 187: the offset was 0 -/
  | iCand (c p : Nat)
  /-- the iterator points to this element -/
  | iOn (c p : Nat)
  /-- 389, 479: inside `++chunk` -/
  | iHop (c : Nat)
  /-- the iterator has reached the end -/
  | iEnd
  deriving DecidableEq

structure State where
  /-- 495 -/
  al : AL.State
  /-- 246: `next_item - first_item` -/
  nxt : Nat → Nat
  /-- 124 -/
  off : Slot → Nat
  /-- 111: `none` if nothing has been assigned -/
  val : Slot → Option Nat
  /-- 248 -/
  freed : Nat → Nat
  pcs : Nat → Pc
  /-- ghost: the slots and values of the completed assignments, the latest first -/
  log : List (Slot × Nat)
  /-- ghost: how many threads have taken the branch in 543 for this chunk -/
  allocs : Nat → Nat
  /-- ghost: `remove` has been called for this slot -/
  removed : Slot → Bool
  /-- ghost: this slot has been counted in `freed_items` -/
  fre : Slot → Bool
  /-- ghost: a `remove` of the element in the next slot has read the offset of this slot before its value was assigned -/
  hid : Slot → Bool
  /-- ghost: the slots that were assigned when the iteration of this thread began; if it began at a slot, only those up
  to this one -/
  snap : Nat → Slot → Bool
  /-- ghost: the slots the iteration of this thread has visited -/
  seen : Nat → List Slot
  /-- ghost: the iteration of this thread began at a chunk without any reserved slot -/
  empt : Nat → Bool

def init : State where
  al := AL.init
  nxt _ := 0
  off _ := 1
  val _ := none
  freed _ := 0
  pcs _ := .idle
  log := []
  allocs _ := 0
  removed _ := false
  fre _ := false
  hid _ := false
  snap _ _ := false
  seen _ := []
  empt _ := false

/-- where an iterator is that has not acquired an element -/
def pos : Pc → Option Slot
  | .iAt c p | .iCand c p => some (c, p)
  | _ => none

/-- the element an iterator points to -/
def on : Pc → Option Slot
  | .iOn c p => some (c, p)
  | _ => none

/-- the thread is iterating -/
def isIter : Pc → Bool
  | .iLast _ | .iAt _ _ | .iCand _ _ | .iOn _ _ | .iHop _ | .iEnd => true
  | _ => false

/-- an iterator is on its way to the next element -/
def moving : Pc → Bool
  | .iLast _ | .iAt _ _ | .iCand _ _ | .iHop _ => true
  | _ => false

/-- the value a push stores -/
def pushed : Pc → Option Nat
  | .pLoad v | .pNext v _ | .pAdd v _ | .pAsg v _ _ | .pAlloc v _ | .pFirst v => some v
  | _ => none

/-- the thread is inside of `push` -/
def pushing : Pc → Bool
  | .pLoad _ | .pNext _ _ | .pAdd _ _ | .pAsg _ _ _ | .pAlloc _ _ | .pFirst _ => true
  | _ => false

/-- the thread is inside of `remove` -/
def removing : Pc → Bool
  | .rRead _ | .rWrite _ _ | .rFree _ | .rDel _ => true
  | _ => false

/-- after a step inside of `++chunk`: 272 or the end -/
def arrive (c : Nat) : AL.Pc → Pc
  | .at q => .iLast q
  | .atEnd => .iEnd
  | _ => .iHop c

/-- slot `x` is slot `y` or was reserved before it, in the same or in an earlier chunk -/
def before (l : AL.State) (y x : Slot) : Bool :=
  if x.1 = y.1 then decide (x.2 ≤ y.2)
  else match l.rank x.1, l.rank y.1 with
    | some r, some q => decide (r < q)
    | _, _ => false

/-- A step of thread `t`. -/
inductive Step (N : Nat) (t : Nat) : State → State → Prop
  /-- 518 `push` -/
  | push {s} (v : Nat) (h : s.pcs t = .idle) : Step N t s { s with pcs := upd s.pcs t (.pLoad v) }
  /-- 524 -/
  | load {s v c} (h : s.pcs t = .pLoad v) (hh : s.al.head = some c) :
      Step N t s { s with pcs := upd s.pcs t (.pNext v c) }
  /-- 567 -/
  | loadNull {s v n a} (h : s.pcs t = .pLoad v) (hh : s.al.head = none) (ha : AL.Step t s.al a)
      (hp : a.pcs t = .firstCas n) : Step N t s { s with al := a, pcs := upd s.pcs t (.pFirst v) }
  /-- 315 of atomic_list.hpp -/
  | first {s v a} (h : s.pcs t = .pFirst v) (ha : AL.Step t s.al a) (hm : a.pcs t ≠ s.al.pcs t) :
      Step N t s { s with al := a, pcs := upd s.pcs t (if a.pcs t = .idle then .pLoad v else .pFirst v) }
  /-- 532 -/
  | full {s v c} (h : s.pcs t = .pNext v c) (hn : N < s.nxt c) : Step N t s { s with pcs := upd s.pcs t (.pLoad v) }
  | room {s v c} (h : s.pcs t = .pNext v c) (hn : s.nxt c ≤ N) : Step N t s { s with pcs := upd s.pcs t (.pAdd v c) }
  /-- 534, 536 -/
  | slot {s v c} (h : s.pcs t = .pAdd v c) (hn : s.nxt c < N) :
      Step N t s { s with nxt := upd s.nxt c (s.nxt c + 1), pcs := upd s.pcs t (.pAsg v c (s.nxt c)) }
  /-- 534, 543, 548 -/
  | over {s v c n a} (h : s.pcs t = .pAdd v c) (hn : s.nxt c = N) (ha : AL.Step t s.al a) (hp : a.pcs t = .appLoad n) :
      Step N t s { s with
        al := a, nxt := upd s.nxt c (s.nxt c + 1), allocs := upd s.allocs c (s.allocs c + 1)
        pcs := upd s.pcs t (.pAlloc v c) }
  /-- 534, 550 -/
  | late {s v c} (h : s.pcs t = .pAdd v c) (hn : N < s.nxt c) :
      Step N t s { s with nxt := upd s.nxt c (s.nxt c + 1), pcs := upd s.pcs t (.pLoad v) }
  /-- 548: a step of `append_item` -/
  | alloc {s v c a} (h : s.pcs t = .pAlloc v c) (ha : AL.Step t s.al a) (hm : a.pcs t ≠ s.al.pcs t) :
      Step N t s { s with al := a, pcs := upd s.pcs t (if a.pcs t = .idle then .pLoad v else .pAlloc v c) }
  /-- 540, 162, 167 -/
  | assign {s v c i} (h : s.pcs t = .pAsg v c i) :
      Step N t s { s with
        val := upd s.val (c, i) (some v), off := upd s.off (c, i) 0, log := ((c, i), v) :: s.log
        pcs := upd s.pcs t .idle }
  /-- 572 `remove`, once for every element -/
  | remove {s x} (h : s.pcs t = .idle) (hv : s.val x ≠ none) (hr : s.removed x = false) :
      Step N t s { s with removed := upd s.removed x true, pcs := upd s.pcs t (.rRead x) }
  /-- 581-582 -/
  | readFirst {s c} (h : s.pcs t = .rRead (c, 0)) : Step N t s { s with pcs := upd s.pcs t (.rWrite (c, 0) 1) }
  /-- 586 -/
  | readPred {s c i} (h : s.pcs t = .rRead (c, i + 1)) :
      Step N t s { s with
        hid := if s.val (c, i) = none then upd s.hid (c, i) true else s.hid
        pcs := upd s.pcs t (.rWrite (c, i + 1) (s.off (c, i) + 1)) }
  /-- 582, 586 -/
  | write {s x d} (h : s.pcs t = .rWrite x d) :
      Step N t s { s with off := upd s.off x d, pcs := upd s.pcs t (.rFree x) }
  /-- 514 -/
  | free {s x} (h : s.pcs t = .rFree x) :
      Step N t s { s with
        fre := upd s.fre x true, freed := upd s.freed x.1 (s.freed x.1 + 1)
        pcs := upd s.pcs t (if s.freed x.1 = N - 1 then .rDel x.1 else .idle) }
  /-- 515 -/
  | del {s c r} (h : s.pcs t = .rDel c) (hr : s.al.rank c = some r) :
      Step N t s { s with al := { s.al with deleted := upd s.al.deleted c true }, pcs := upd s.pcs t .idle }
  /-- 611-613 `rbegin` -/
  | begin {s c a} (h : s.pcs t = .idle) (ha : AL.Step t s.al a) (hp : a.pcs t = .at c) (hl : a.start t = s.al.len) :
      Step N t s { s with
        al := a, snap := upd s.snap t (fun x => (s.val x).isSome), seen := upd s.seen t []
        empt := upd s.empt t (decide (s.nxt c = 0)), pcs := upd s.pcs t (.iLast c) }
  | beginNull {s a} (h : s.pcs t = .idle) (ha : AL.Step t s.al a) (hp : a.pcs t = .atEnd) :
      Step N t s { s with
        al := a, snap := upd s.snap t (fun x => (s.val x).isSome), seen := upd s.seen t []
        empt := upd s.empt t false, pcs := upd s.pcs t .iEnd }
  /-- 397-407: an iterator is copied that points to the slot of a value, e.g. `task_entry` in graph.cpp:55, which was
  returned by `push` (541) -/
  | copy {s c p r a} (h : s.pcs t = .idle) (hv : s.val (c, p) ≠ none) (ha : AL.Step t s.al a) (hp : a.pcs t = .at c)
      (hr : s.al.rank c = some r) (hl : a.start t = r + 1) :
      Step N t s { s with
        al := a, snap := upd s.snap t (fun x => (s.val x).isSome && before s.al (c, p) x), seen := upd s.seen t []
        empt := upd s.empt t false, pcs := upd s.pcs t (.iAt c p) }
  /-- 269-278 `get_last_item` -/
  | last {s c} (h : s.pcs t = .iLast c) (hn : 0 < s.nxt c) :
      Step N t s { s with pcs := upd s.pcs t (.iAt c (min (s.nxt c - 1) (N - 1))) }
  /-- 272, 369 -/
  | lastNone {s c} (h : s.pcs t = .iLast c) (hn : s.nxt c = 0) : Step N t s { s with pcs := upd s.pcs t .iEnd }
  /-- 181-184 -/
  | read {s c p} (h : s.pcs t = .iAt c p) (ho : s.off (c, p) = 0) : Step N t s { s with pcs := upd s.pcs t (.iCand c p) }
  /-- 181 or 187, 384 -/
  | jump {s c p} (h : pos (s.pcs t) = some (c, p)) (ho : 0 < s.off (c, p)) (hp : s.off (c, p) ≤ p) :
      Step N t s { s with pcs := upd s.pcs t (.iAt c (p - s.off (c, p))) }
  /-- 181 or 187, 384, 387-389 -/
  | jumpOut {s c p a} (h : pos (s.pcs t) = some (c, p)) (ho : p < s.off (c, p)) (ha : AL.Step t s.al a)
      (hp : a.pcs t = .skipLoad c) : Step N t s { s with al := a, pcs := upd s.pcs t (.iHop c) }
  /-- 187, 343 -/
  | visit {s c p} (h : s.pcs t = .iCand c p) :
      Step N t s { s with seen := upd s.seen t ((c, p) :: s.seen t), pcs := upd s.pcs t (.iOn c p) }
  /-- 471-476 `operator++` -/
  | next {s c p} (h : s.pcs t = .iOn c (p + 1)) : Step N t s { s with pcs := upd s.pcs t (.iAt c p) }
  /-- 479 -/
  | nextOut {s c a} (h : s.pcs t = .iOn c 0) (ha : AL.Step t s.al a) (hp : a.pcs t = .skipLoad c) :
      Step N t s { s with al := a, pcs := upd s.pcs t (.iHop c) }
  /-- 389, 479: a step of `++chunk` -/
  | hop {s c a} (h : s.pcs t = .iHop c) (ha : AL.Step t s.al a) (hm : a.pcs t ≠ s.al.pcs t) :
      Step N t s { s with al := a, pcs := upd s.pcs t (arrive c (a.pcs t)) }
  /-- the iterator goes out of scope -/
  | stop {s a} (h : (on (s.pcs t)).isSome ∨ s.pcs t = .iEnd) (ha : AL.Step t s.al a) (hp : a.pcs t = .idle) :
      Step N t s { s with al := a, pcs := upd s.pcs t .idle }

inductive Reach (N : Nat) : State → Prop
  | init : Reach N init
  | step {s s' t} : Reach N s → Step N t s s' → Reach N s'

end RG.CoL
