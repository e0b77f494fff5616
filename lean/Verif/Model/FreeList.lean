import Verif.Util
/-
The pool of blocks of a queue of tasks: /repo/share/thirdParty/cameron314/concurrentqueue/include/moodycamel/concurrentqueue.h (below: cq.h).
`requisition_block` (cq.h:3096-3114) takes a block from the initial pool (cq.h:3056-3065), otherwise from the lock-free `FreeList` (cq.h:1437-1545), otherwise from the heap.
`add_block_to_free_list` (cq.h:3067-3078) destroys a block of the heap (`RECYCLE_ALLOCATED_BLOCKS` is false, cq.h:388) and appends one of the initial pool to the free list.

Any number of threads; every atomic access is one step; memory is sequentially consistent.
Blocks are numbers: those less than `P` (`initialBlockPoolSize`) belong to the initial pool, the others are addresses the heap may return.
Simplified: there are less than 2^31 threads, so that the number of references in `freeListRefs` does not reach the bit `SHOULD_BE_ON_FREELIST` (cq.h:1518-1519);
allocation does not fail; `initialBlockPoolIndex` does not overflow.
-/
namespace RG.FL

/-- cq.h:1442 `freeListRefs`: the number of references (bits 0 to 30) and the flag `SHOULD_BE_ON_FREELIST` (bit 31) -/
structure Refs where
  cnt : Nat
  flag : Bool
deriving DecidableEq

/-- Where a thread is. `k` is what to do after `add_knowing_refcount_is_zero`: `none`: return from `add`; `some h`: next iteration of the loop in `try_get`, with `head = h`. -/
inductive Pc
  | out
  /-- before line 3058 -/
  | idx0
  /-- before line 3062 -/
  | idx1
  /-- before line 1478 or 1483 -/
  | gLoad
  /-- before line 1481, `head = n` -/
  | gRefs (n : Nat)
  /-- before the compare-and-exchange in line 1482 -/
  | gInc (n : Nat) (r : Refs)
  /-- before line 1489 -/
  | gNext (n : Nat)
  /-- before line 1490 -/
  | gCas (n : Nat) (nx : Option Nat)
  /-- before line 1493, the assertion -/
  | gAss (n : Nat)
  /-- before line 1496 -/
  | gSub (n : Nat)
  /-- before line 1503; `prevHead = n`, `head = h` -/
  | gDec (n : Nat) (h : Option Nat)
  /-- before line 1466 -/
  | aSet (n : Nat)
  /-- before line 1526 -/
  | kLoad (n : Nat) (k : Option (Option Nat))
  /-- before line 1528 -/
  | kNext (n : Nat) (h : Option Nat) (k : Option (Option Nat))
  /-- before line 1529 -/
  | kRefs (n : Nat) (h : Option Nat) (k : Option (Option Nat))
  /-- before line 1530 -/
  | kCas (n : Nat) (h : Option Nat) (k : Option (Option Nat))
  /-- before line 1532 -/
  | kFail (n : Nat) (h : Option Nat) (k : Option (Option Nat))
  /-- before line 3109 -/
  | heap
  /-- before line 3073 -/
  | destroy (n : Nat)
  /-- `requisition_block` returns `n` -/
  | ret (n : Nat)
  /-- an assertion failed, or the counter or the flag in `freeListRefs` overflowed -/
  | fault
deriving DecidableEq

/-- ghost: where a block is; `taken c`, `given c`, `ak c`: on its way from, to the pool, or into the list, by thread `c` -/
inductive St
  | unused
  | held
  | taken (c : Nat)
  | given (c : Nat)
  | listed
  | pending
  | ak (c : Nat)
deriving DecidableEq

structure State where
  /-- `initialBlockPoolIndex` -/
  idx : Nat
  /-- `freeListHead` -/
  head : Option Nat
  /-- `freeListNext` -/
  next : Nat → Option Nat
  refs : Nat → Refs
  /-- blocks `≥ P`: allocated on the heap -/
  alive : Nat → Bool
  pc : Nat → Pc
  /-- blocks that have been returned by `requisition_block` and not yet given back -/
  own : Nat → Bool
  /-- ghost: the nodes of the list -/
  list : List Nat
  /-- ghost: the threads that have a reference to the node -/
  rs : Nat → List Nat
  /-- ghost -/
  st : Nat → St

/-- A new queue: cq.h:813-832, 3040-3054, 1440, 1452. -/
def init : State where
  idx := 0
  head := none
  next _ := none
  refs _ := ⟨0, false⟩
  alive _ := false
  pc _ := .out
  own _ := false
  list := []
  rs _ := []
  st _ := .unused

/-- lines 1479, 1509, 3104-3109: the loop of `try_get` with `head = h` -/
def loop : Option Nat → Pc
  | none => .heap
  | some n => .gRefs n

/-- what follows after `add_knowing_refcount_is_zero` -/
def cont : Option (Option Nat) → Pc
  | none => .out
  | some h => loop h

/-- One step of thread `c`. -/
inductive Step (P : Nat) (c : Nat) : State → State → Prop
  /-- a call of `requisition_block` -/
  | requisition {s} (h : s.pc c = .out) : Step P c s { s with pc := upd s.pc c .idx0 }
  /-- line 3058 -/
  | ldIdx {s} (h : s.pc c = .idx0) : Step P c s { s with pc := upd s.pc c (if P ≤ s.idx then .gLoad else .idx1) }
  /-- lines 3062-3064 -/
  | incIdx {s} (h : s.pc c = .idx1) :
      Step P c s { s with
        idx := s.idx + 1
        pc := upd s.pc c (if s.idx < P then .ret s.idx else .gLoad)
        st := if s.idx < P then upd s.st s.idx (.taken c) else s.st }
  /-- line 1478 or 1483 -/
  | ldHead {s} (h : s.pc c = .gLoad) : Step P c s { s with pc := upd s.pc c (loop s.head) }
  /-- lines 1481-1482 -/
  | ldRefs {s n} (h : s.pc c = .gRefs n) :
      Step P c s { s with pc := upd s.pc c (if (s.refs n).cnt = 0 then .gLoad else .gInc n (s.refs n)) }
  /-- line 1482 -/
  | casInc {s n r} (h : s.pc c = .gInc n r) (hr : s.refs n = r) :
      Step P c s { s with
        pc := upd s.pc c (.gNext n)
        refs := upd s.refs n ⟨(s.refs n).cnt + 1, (s.refs n).flag⟩
        rs := upd s.rs n (c :: s.rs n) }
  | casIncFail {s n r} (h : s.pc c = .gInc n r) (hr : s.refs n ≠ r) : Step P c s { s with pc := upd s.pc c .gLoad }
  /-- line 1489 -/
  | ldNext {s n} (h : s.pc c = .gNext n) : Step P c s { s with pc := upd s.pc c (.gCas n (s.next n)) }
  /-- line 1490 -/
  | casHead {s n nx} (h : s.pc c = .gCas n nx) (hh : s.head = some n) :
      Step P c s { s with
        head := nx
        pc := upd s.pc c (.gAss n)
        list := s.list.tail
        st := upd s.st n (.taken c) }
  | casHeadFail {s n nx} (h : s.pc c = .gCas n nx) (hh : s.head ≠ some n) :
      Step P c s { s with pc := upd s.pc c (.gDec n s.head) }
  /-- line 1493 -/
  | assertion {s n} (h : s.pc c = .gAss n) :
      Step P c s { s with pc := upd s.pc c (if (s.refs n).flag then .fault else .gSub n) }
  /-- lines 1496-1497 -/
  | sub {s n} (h : s.pc c = .gSub n) :
      Step P c s { s with
        pc := upd s.pc c (if (s.refs n).cnt < 2 then .fault else .ret n)
        refs := upd s.refs n ⟨(s.refs n).cnt - 2, (s.refs n).flag⟩
        rs := upd s.rs n ((s.rs n).erase c) }
  /-- lines 1503-1506 -/
  | dec {s n hd} (h : s.pc c = .gDec n hd) :
      Step P c s { s with
        pc := upd s.pc c (if (s.refs n).cnt < 1 then .fault else if s.refs n = ⟨1, true⟩ then .kLoad n (some hd) else loop hd)
        refs := upd s.refs n ⟨(s.refs n).cnt - 1, (s.refs n).flag⟩
        rs := upd s.rs n ((s.rs n).erase c)
        st := if s.refs n = ⟨1, true⟩ then upd s.st n (.ak c) else s.st }
  /-- line 3109: the heap returns a block that is not allocated; its constructor (lines 1440, 1562) sets the references to 0 -/
  | alloc {s} (h : s.pc c = .heap) (n) (hn : P ≤ n) (ha : s.alive n = false) :
      Step P c s { s with
        pc := upd s.pc c (.ret n)
        alive := upd s.alive n true
        refs := upd s.refs n ⟨0, false⟩
        next := upd s.next n none
        st := upd s.st n (.taken c) }
  | ret {s n} (h : s.pc c = .ret n) :
      Step P c s { s with
        pc := upd s.pc c .out
        own := upd s.own n true
        st := upd s.st n .held }
  /-- a call of `add_block_to_free_list` with a block in use; line 3072 -/
  | give {s} (h : s.pc c = .out) (n) (ho : s.own n = true) :
      Step P c s { s with
        pc := upd s.pc c (if P ≤ n then .destroy n else .aSet n)
        own := upd s.own n false
        st := upd s.st n (.given c) }
  /-- line 3073 -/
  | destroy {s n} (h : s.pc c = .destroy n) :
      Step P c s { s with
        pc := upd s.pc c .out
        alive := upd s.alive n false
        st := upd s.st n .unused }
  /-- line 1466 -/
  | add {s n} (h : s.pc c = .aSet n) :
      Step P c s { s with
        pc := upd s.pc c (if (s.refs n).flag then .fault else if (s.refs n).cnt = 0 then .kLoad n none else .out)
        refs := upd s.refs n ⟨(s.refs n).cnt, true⟩
        st := upd s.st n (if (s.refs n).cnt = 0 then .ak c else .pending) }
  /-- line 1526 -/
  | kLoad {s n k} (h : s.pc c = .kLoad n k) : Step P c s { s with pc := upd s.pc c (.kNext n s.head k) }
  /-- line 1528 -/
  | kNext {s n hd k} (h : s.pc c = .kNext n hd k) :
      Step P c s { s with
        pc := upd s.pc c (.kRefs n hd k)
        next := upd s.next n hd }
  /-- line 1529 -/
  | kRefs {s n hd k} (h : s.pc c = .kRefs n hd k) :
      Step P c s { s with
        pc := upd s.pc c (.kCas n hd k)
        refs := upd s.refs n ⟨1, false⟩ }
  /-- line 1530 -/
  | kCas {s n hd k} (h : s.pc c = .kCas n hd k) (hh : s.head = hd) :
      Step P c s { s with
        head := some n
        pc := upd s.pc c (cont k)
        list := n :: s.list
        st := upd s.st n .listed }
  | kCasFail {s n hd k} (h : s.pc c = .kCas n hd k) (hh : s.head ≠ hd) :
      Step P c s { s with pc := upd s.pc c (.kFail n s.head k) }
  /-- lines 1532-1536 -/
  | kFail {s n hd k} (h : s.pc c = .kFail n hd k) :
      Step P c s { s with
        pc := upd s.pc c (if (s.refs n).cnt = 0 ∨ (s.refs n).flag then .fault else if (s.refs n).cnt = 1 then .kNext n hd k else cont k)
        refs := upd s.refs n ⟨(s.refs n).cnt - 1, true⟩
        st := if (s.refs n).cnt = 1 then s.st else upd s.st n .pending }

inductive Reach (P : Nat) : State → Prop
  | init : Reach P init
  | step {s s'} (c) (h : Reach P s) (hs : Step P c s s') : Reach P s'

end RG.FL
