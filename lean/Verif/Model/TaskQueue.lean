import Verif.Util
/-
The queues of tasks: /repo/redGrapes/task/queue.hpp:114-145 (`task::Queue`) is a `moodycamel::ConcurrentQueue<Task*>` with default traits,
/repo/share/thirdParty/cameron314/concurrentqueue/include/moodycamel/concurrentqueue.h (below: cq.h). `push` calls `enqueue` without token (cq.h:995-999, 1373-1377):
every thread that pushes has a sub-queue of its own (class `ImplicitProducer`, cq.h:2421-3032). `pop` calls `try_dequeue` (cq.h:1125-1156), which takes an element from one of the sub-queues.

This file: the sub-queues, which share a pool of blocks, and any number of consumers. Every atomic access that another thread can observe is one step; memory is sequentially consistent.
Simplified: indices are natural numbers (`index_t` is `std::size_t`; `circular_less_than`, cq.h:477-483, is `<` as long as they are less than 2^63 apart);
memory allocation does not fail (otherwise `enqueue` returns false, which `push` ignores); the pool of blocks gives any block that is not in use (initial pool, free list or heap, cq.h:3096-3114); `T = Task*`, whose constructor and assignment do not throw.
-/
namespace RG.MQ

/-- cq.h:2882-2883: an index that is not the begin of a block (blocks have at least 2 elements) -/
def invalidBase : Nat := 1

/-- cq.h:2885-2889 `BlockIndexEntry` -/
structure Entry where
  /-- index of the first element of the block -/
  key : Nat
  value : Option Nat

/-- cq.h:2891-2898 `BlockIndexHeader`; `index` does not change after the header has been published -/
structure Hdr where
  capacity : Nat
  tail : Nat
  index : Nat → Nat
  /-- ghost: the number of blocks entered up to the position `tail` -/
  nb : Nat
  /-- ghost: the k-th block has the position `(base + k) % capacity` -/
  base : Nat

/-- cq.h:1559-1685 `Block` -/
structure Blk where
  slots : Nat → Option Nat
  /-- `elementsCompletelyDequeued` -/
  done : Nat
  /-- ghost: the sub-queue and the number of the block in it; `none`: in the pool -/
  owner : Option (Nat × Nat)

/-- Where a consumer is in `ImplicitProducer::dequeue`, cq.h:2550-2619. -/
inductive CPc
  | out
  /-- before line 2554 -/
  | start
  /-- before line 2555 -/
  | over (t : Nat)
  /-- before the load of `dequeueOptimisticCount` in line 2556 -/
  | opt (t o : Nat)
  /-- before line 2559 -/
  | inc (o : Nat)
  /-- before line 2560 -/
  | chk (m o : Nat)
  /-- before line 2614 -/
  | ovr (m : Nat)
  /-- before line 2562 -/
  | clm (m : Nat)
  /-- before line 2954, `blockIndex.load` -/
  | hdr (i : Nat)
  /-- before line 2955, `tail.load` -/
  | itl (i h : Nat)
  /-- before line 2956, `key.load` -/
  | key (i h T : Nat)
  /-- before line 2568, `entry->value.load` -/
  | val (i e : Nat)
  /-- before line 2596 -/
  | rd (i e b : Nat)
  /-- before line 2599, `set_empty` -/
  | emp (i e b x : Nat)
  /-- before line 2605 -/
  | nul (i e b x : Nat)
  /-- before line 2607, `add_block_to_free_list` -/
  | fre (i b x : Nat)
  /-- about to return; the element with its index (ghost), or nothing -/
  | ret (r : Option (Nat × Nat))
  /-- a null pointer or a destroyed element has been used -/
  | fault (i : Nat)
  deriving DecidableEq

/-- Where the thread that owns the sub-queue is in `ImplicitProducer::enqueue`, cq.h:2486-2548; `x` is the element. -/
inductive PPc
  | out
  /-- before line 2493 -/
  | head (x : Nat)
  /-- before `insert_block_index_entry`, line 2503, 2901-2915 -/
  | idx (x : Nat)
  /-- before `new_block_index`, line 2921, 2966-3008 -/
  | grow (x : Nat)
  /-- before the store of the key, line 2912 or 2929; `e` entry, `T` its position -/
  | skey (x e T : Nat)
  /-- before the store of the tail of the index, line 2913 or 2930 -/
  | stl (x e T : Nat)
  /-- before `requisition_block`, line 2508 -/
  | blk (x e : Nat)
  /-- before `reset_empty`, line 2517 -/
  | rst (x e b : Nat)
  /-- before the store of the block, line 2533 -/
  | sval (x e b : Nat)
  /-- before line 2544 -/
  | wr (x : Nat)
  /-- before line 2546 -/
  | pub (x : Nat)
  /-- the assertion in line 2494 has failed -/
  | fault
  deriving DecidableEq

/-- ghost: what has become of the k-th increment of `dequeueOptimisticCount` -/
inductive Fate
  | und
  /-- second test failed, before the increment of `dequeueOvercommit` -/
  | failP
  | failD
  /-- second test passed -/
  | pass
  | got
  deriving DecidableEq

/-- cq.h:1698-1760 `ProducerBase` and `ImplicitProducer` -/
structure Sub where
  tail : Nat
  head : Nat
  /-- `dequeueOptimisticCount` -/
  opt : Nat
  /-- `dequeueOvercommit` -/
  over : Nat
  tailBlock : Nat
  hdrs : Nat → Hdr
  /-- `blockIndex` -/
  cur : Nat
  entries : Nat → Entry
  /-- number of entries allocated so far -/
  nEnt : Nat
  prod : PPc
  cons : Nat → CPc
  /-- ghost: what has been enqueued -/
  ins : List Nat
  /-- ghost: what has been returned, with indices -/
  outs : List (Nat × Nat)
  fate : Nat → Fate
  /-- ghost: this element has been dequeued completely -/
  fin : Nat → Bool
  /-- ghost: entry and block for the k-th block -/
  ent : Nat → Nat
  blkOf : Nat → Nat
  /-- ghost: number of blocks whose entry has been given its value -/
  ns : Nat

abbrev Mem := Nat → Blk

/-- cq.h:2423-2429 with `new_block_index`; `C` is IMPLICIT_INITIAL_INDEX_SIZE. The values of new entries are not initialised. -/
def Sub.init (C : Nat) (garbage : Nat → Option Nat) : Sub where
  tail := 0
  head := 0
  opt := 0
  over := 0
  tailBlock := 0
  hdrs := fun _ => ⟨C, C - 1, id, 0, 0⟩
  cur := 0
  entries := fun e => ⟨invalidBase, garbage e⟩
  nEnt := C
  prod := .out
  cons := fun _ => .out
  ins := []
  outs := []
  fate := fun _ => .und
  fin := fun _ => false
  ent := fun _ => 0
  blkOf := fun _ => 0
  ns := 0

/-- cq.h:2948-2964 `get_block_index_index_for_index`: the position, from the position `T` of the tail and its key `base` -/
def position (B cap T base i : Nat) : Nat :=
  (((T : Int) + ((i - i % B : Nat) - (base : Int)).tdiv (B : Int)) % (cap : Int)).toNat

/-- cq.h:2966-3008 `new_block_index` for `prev ≠ nullptr`: the entries from the oldest to the newest one, then new ones -/
def Hdr.grow (h : Hdr) (nEnt : Nat) : Hdr where
  capacity := 2 * h.capacity
  tail := h.capacity - 1
  index := fun j => if j < h.capacity then h.index ((h.tail + 1 + j) % h.capacity) else nEnt + (j - h.capacity)
  nb := h.nb
  base := h.capacity + 2 * h.capacity * h.nb - h.nb

/-- `s` with consumer `c` at `pc` -/
def Sub.at (s : Sub) (c : Nat) (pc : CPc) : Sub := { s with cons := upd s.cons c pc }

/-- One step in the sub-queue `p`; `B` is BLOCK_SIZE. -/
inductive SStep (B p : Nat) : Sub → Mem → Sub → Mem → Prop
  /- consumers -/
  | call {s m} (c) (h : s.cons c = .out) : SStep B p s m (s.at c .start) m
  | ldTail {s m} (c) (h : s.cons c = .start) : SStep B p s m (s.at c (.over s.tail)) m
  | ldOver {s m} (c) {t} (h : s.cons c = .over t) : SStep B p s m (s.at c (.opt t s.over)) m
  /-- line 2556 -/
  | ldOpt {s m} (c) {t o} (h : s.cons c = .opt t o) :
      SStep B p s m (s.at c (if s.opt - o < t then .inc o else .ret none)) m
  /-- line 2559 -/
  | inc {s m} (c) {o} (h : s.cons c = .inc o) : SStep B p s m { s with cons := upd s.cons c (.chk s.opt o), opt := s.opt + 1 } m
  /-- lines 2560-2561 -/
  | chkOk {s m} (c) {k o} (h : s.cons c = .chk k o) (ht : k - o < s.tail) :
      SStep B p s m { s with cons := upd s.cons c (.clm k), fate := upd s.fate k .pass } m
  | chkNo {s m} (c) {k o} (h : s.cons c = .chk k o) (ht : ¬k - o < s.tail) :
      SStep B p s m { s with cons := upd s.cons c (.ovr k), fate := upd s.fate k .failP } m
  /-- line 2614 -/
  | overcommit {s m} (c) {k} (h : s.cons c = .ovr k) :
      SStep B p s m { s with cons := upd s.cons c (.ret none), over := s.over + 1, fate := upd s.fate k .failD } m
  /-- line 2562 -/
  | claim {s m} (c) {k} (h : s.cons c = .clm k) :
      SStep B p s m { s with cons := upd s.cons c (.hdr s.head), head := s.head + 1, fate := upd s.fate k .got } m
  /-- line 2954 -/
  | ldHdr {s m} (c) {i} (h : s.cons c = .hdr i) : SStep B p s m (s.at c (.itl i s.cur)) m
  /-- line 2955 -/
  | ldIdxTail {s m} (c) {i hd} (h : s.cons c = .itl i hd) : SStep B p s m (s.at c (.key i hd (s.hdrs hd).tail)) m
  /-- lines 2956-2962 -/
  | ldKey {s m} (c) {i hd T} (h : s.cons c = .key i hd T) :
      SStep B p s m (s.at c (
        if (s.entries ((s.hdrs hd).index T)).key = invalidBase then .fault i
        else .val i ((s.hdrs hd).index (position B (s.hdrs hd).capacity T (s.entries ((s.hdrs hd).index T)).key i)))) m
  /-- line 2568 -/
  | ldVal {s m} (c) {i e} (h : s.cons c = .val i e) :
      SStep B p s m (s.at c (match (s.entries e).value with | none => .fault i | some b => .rd i e b)) m
  /-- lines 2596-2597; the element is destroyed -/
  | read {s m} (c) {i e b} (h : s.cons c = .rd i e b) :
      SStep B p s m (s.at c (match (m b).slots (i % B) with | none => .fault i | some x => .emp i e b x))
        (upd m b { m b with slots := upd (m b).slots (i % B) none })
  /-- line 2599, `set_empty`, lines 1605-1610 -/
  | setEmpty {s m} (c) {i e b x} (h : s.cons c = .emp i e b x) :
      SStep B p s m
        { s with cons := upd s.cons c (if (m b).done = B - 1 then .nul i e b x else .ret (some (i, x))), fin := upd s.fin i true }
        (upd m b { m b with done := (m b).done + 1 })
  /-- line 2605 -/
  | null {s m} (c) {i e b x} (h : s.cons c = .nul i e b x) :
      SStep B p s m { s with cons := upd s.cons c (.fre i b x), entries := upd s.entries e { s.entries e with value := none } } m
  /-- line 2607, lines 3067-3078 -/
  | free {s m} (c) {i b x} (h : s.cons c = .fre i b x) :
      SStep B p s m (s.at c (.ret (some (i, x)))) (upd m b { m b with owner := none })
  | retSome {s m} (c) {i x} (h : s.cons c = .ret (some (i, x))) :
      SStep B p s m { s with cons := upd s.cons c .out, outs := s.outs ++ [(i, x)] } m
  | retNone {s m} (c) (h : s.cons c = .ret none) : SStep B p s m (s.at c .out) m
  /- the producer -/
  /-- lines 2489-2491 -/
  | enqueue {s m} (x) (h : s.prod = .out) :
      SStep B p s m { s with prod := if s.tail % B = 0 then .head x else .wr x } m
  /-- lines 2493-2497; with `head ≤ tail` the test in line 2495 is false -/
  | ldHead {s m x} (h : s.prod = .head x) :
      SStep B p s m { s with prod := if s.tail < s.head then .fault else .idx x } m
  /-- lines 2903-2910: the next entry can be used -/
  | idxOk {s m x} (h : s.prod = .idx x)
      (he : (s.entries ((s.hdrs s.cur).index (((s.hdrs s.cur).tail + 1) % (s.hdrs s.cur).capacity))).key = invalidBase ∨
        (s.entries ((s.hdrs s.cur).index (((s.hdrs s.cur).tail + 1) % (s.hdrs s.cur).capacity))).value = none) :
      SStep B p s m { s with
        prod := .skey x ((s.hdrs s.cur).index (((s.hdrs s.cur).tail + 1) % (s.hdrs s.cur).capacity))
          (((s.hdrs s.cur).tail + 1) % (s.hdrs s.cur).capacity) } m
  | idxFull {s m x} (h : s.prod = .idx x)
      (he : (s.entries ((s.hdrs s.cur).index (((s.hdrs s.cur).tail + 1) % (s.hdrs s.cur).capacity))).key ≠ invalidBase)
      (hv : (s.entries ((s.hdrs s.cur).index (((s.hdrs s.cur).tail + 1) % (s.hdrs s.cur).capacity))).value ≠ none) :
      SStep B p s m { s with prod := .grow x } m
  /-- lines 2921-2928: a new index; its next entry is a new one -/
  | grow {s m x} (h : s.prod = .grow x) (garbage : Nat → Option Nat) :
      SStep B p s m { s with
        hdrs := upd s.hdrs (s.cur + 1) ((s.hdrs s.cur).grow s.nEnt)
        cur := s.cur + 1
        entries := fun e => if s.nEnt ≤ e then ⟨invalidBase, garbage e⟩ else s.entries e
        nEnt := s.nEnt + (s.hdrs s.cur).capacity
        prod := .skey x s.nEnt (s.hdrs s.cur).capacity } m
  | storeKey {s m x e T} (h : s.prod = .skey x e T) :
      SStep B p s m { s with
        entries := upd s.entries e { s.entries e with key := s.tail }
        prod := .stl x e T } m
  | storeTail {s m x e T} (h : s.prod = .stl x e T) :
      SStep B p s m { s with
        hdrs := upd s.hdrs s.cur { s.hdrs s.cur with tail := T, nb := (s.hdrs s.cur).nb + 1 }
        ent := upd s.ent (s.hdrs s.cur).nb e
        prod := .blk x e } m
  /-- line 2508: any block of the pool -/
  | requisition {s m x e} (h : s.prod = .blk x e) (b) (hb : (m b).owner = none) :
      SStep B p s m { s with blkOf := upd s.blkOf s.ns b, prod := .rst x e b } (upd m b { m b with owner := some (p, s.ns) })
  | resetEmpty {s m x e b} (h : s.prod = .rst x e b) :
      SStep B p s m { s with prod := .sval x e b } (upd m b { m b with done := 0 })
  | storeVal {s m x e b} (h : s.prod = .sval x e b) :
      SStep B p s m { s with
        entries := upd s.entries e { s.entries e with value := some b }
        tailBlock := b
        ns := s.ns + 1
        prod := .wr x } m
  /-- line 2544 -/
  | write {s m x} (h : s.prod = .wr x) :
      SStep B p s m { s with prod := .pub x }
        (upd m s.tailBlock { m s.tailBlock with slots := upd (m s.tailBlock).slots (s.tail % B) (some x) })
  /-- line 2546 -/
  | publish {s m x} (h : s.prod = .pub x) :
      SStep B p s m { s with tail := s.tail + 1, ins := s.ins ++ [x], prod := .out } m

/-- all sub-queues of a queue, and the blocks -/
structure State where
  subs : Nat → Sub
  mem : Mem

/-- A queue whose sub-queues have not been used; the contents of the blocks do not matter. -/
structure Init (C : Nat) (s : State) : Prop where
  subs : ∀ p, ∃ g, s.subs p = Sub.init C g
  mem : ∀ b, (s.mem b).owner = none

inductive Step (B : Nat) : Nat → State → State → Prop
  | mk {s p u m} (h : SStep B p (s.subs p) s.mem u m) : Step B p s ⟨upd s.subs p u, m⟩

inductive Reach (B C : Nat) : State → Prop
  | init {s} (h : Init C s) : Reach B C s
  | step {s s' p} : Reach B C s → Step B p s s' → Reach B C s'

inductive Steps (B : Nat) : State → State → Prop
  | refl {s} : Steps B s s
  | step {s s' s'' p} : Steps B s s' → Step B p s' s'' → Steps B s s''

end RG.MQ
