import Verif.Model.TaskQueue
/-
The queue of tasks with the memory orders that are written in its code (cq.h, see Model/TaskQueue): the threads do not agree on one sequence of all accesses.

An atomic object has a modification order, the list of all values it has had (`CMem.hist`, newest first). A thread knows what happens before its next step (`CMem.vw`, a vector clock: how many steps of every
thread). A load may return any value that is not hidden by a newer one that the thread knows. A load with acquire order adds to the thread's knowledge what was released with the value;
a read-modify-write operation uses the newest value and passes on what was released with it (release sequence). Reads and writes of plain objects are checked for data races: the other access must be known.
This is the memory of C++ with the following simplifications, all of which allow more executions than C++:
what a thread has read with relaxed order does not restrict its later loads (read-read coherence), and the fence in line 2557 does nothing.
Loads are executed in program order with respect to later stores (C++ forbids in a note that values come out of thin air; RC11 forbids the cycles).
New values are put at the end of the modification order: for read-modify-write operations there is no other place, for stores see `C92_stores_last`.

Sub-queues, their threads, indices and blocks as in Model/TaskQueue. The sub-queue `p` is pushed to by the thread `prod p`; the thread that executes `pop` number `c` in it is called `cons p c`.
That some of these are the same thread would only add knowledge (`Step.learn`). Giving a block to the pool and getting it from there synchronizes: `add_block_to_free_list`, `try_get`, lines 1437-1545, use release and acquire order,
and all operations on the head of the list are read-modify-write operations.
-/
namespace RG.WQ
open RG.MQ (Sub Blk Fate CPc PPc Hdr Entry invalidBase position)

inductive Tid
  | prod (p : Nat)
  | cons (p c : Nat)
  deriving DecidableEq

/-- a vector clock: how many steps of every thread are known -/
abbrev VC := Tid → Nat

def VC.bot : VC := fun _ => 0

def VC.join (v w : VC) : VC := fun t => max (v t) (w t)

def VC.le (v w : VC) : Prop := ∀ t, v t ≤ w t

/-- the atomic objects -/
inductive Loc
  /-- `tailIndex`, line 1753 -/
  | tail (p : Nat)
  /-- `headIndex` -/
  | head (p : Nat)
  /-- `dequeueOptimisticCount` -/
  | opt (p : Nat)
  /-- `dequeueOvercommit` -/
  | over (p : Nat)
  /-- `blockIndex`, line 3012 -/
  | cur (p : Nat)
  /-- `BlockIndexHeader::tail`, line 2894 -/
  | htl (p h : Nat)
  /-- `BlockIndexEntry::key` -/
  | key (p e : Nat)
  /-- `BlockIndexEntry::value` -/
  | val (p e : Nat)
  /-- `Block::elementsCompletelyDequeued`, line 1675 -/
  | done (b : Nat)
  deriving DecidableEq

/-- a value of an atomic object, with the thread that has written it, the step in which it did so, and what is passed to a thread that reads it with acquire order -/
structure Msg where
  val : Option Nat
  tid : Tid
  time : Nat
  view : VC
  /-- ghost: for `htl`, the number of blocks entered -/
  no : Nat

structure CMem where
  hist : Loc → List Msg
  vw : Tid → VC

/-- A load by a thread that knows `v` may return `m`: nothing newer is known. -/
def Sees (v : VC) (l : List Msg) (m : Msg) : Prop :=
  ∃ new old, l = new ++ m :: old ∧ ∀ m', m' ∈ new → v m'.tid < m'.time

/-- what thread `t` knows, with its next step -/
def CMem.now (c : CMem) (t : Tid) : VC := upd (c.vw t) t (c.vw t t + 1)

/-- a step of `t` that does not touch atomic objects, or loads with relaxed order -/
def CMem.tick (c : CMem) (t : Tid) : CMem := { c with vw := upd c.vw t (c.now t) }

/-- `t` has loaded `m` with acquire order -/
def CMem.acq (c : CMem) (t : Tid) (m : Msg) : CMem := { c with vw := upd c.vw t ((c.now t).join m.view) }

/-- `t` stores `v` with relaxed order -/
def CMem.store (c : CMem) (t : Tid) (l : Loc) (v : Option Nat) : CMem where
  hist := upd c.hist l (⟨v, t, c.now t t, VC.bot, 0⟩ :: c.hist l)
  vw := upd c.vw t (c.now t)

/-- `t` stores `v` with release order -/
def CMem.storeRel (c : CMem) (t : Tid) (l : Loc) (v : Option Nat) (no : Nat) : CMem where
  hist := upd c.hist l (⟨v, t, c.now t t, c.now t, no⟩ :: c.hist l)
  vw := upd c.vw t (c.now t)

/-- what was released with the newest value -/
def CMem.top (c : CMem) (l : Loc) : VC := match c.hist l with | [] => VC.bot | m :: _ => m.view

/-- `t` changes the newest value to `v`, relaxed -/
def CMem.rmw (c : CMem) (t : Tid) (l : Loc) (v : Option Nat) : CMem where
  hist := upd c.hist l (⟨v, t, c.now t t, c.top l, 0⟩ :: c.hist l)
  vw := upd c.vw t (c.now t)

/-- with release order -/
def CMem.rmwRel (c : CMem) (t : Tid) (l : Loc) (v : Option Nat) : CMem where
  hist := upd c.hist l (⟨v, t, c.now t t, (c.now t).join (c.top l), 0⟩ :: c.hist l)
  vw := upd c.vw t (c.now t)

/-- with acquire and release order -/
def CMem.rmwAcqRel (c : CMem) (t : Tid) (l : Loc) (v : Option Nat) : CMem where
  hist := upd c.hist l (⟨v, t, c.now t t, (c.now t).join (c.top l), 0⟩ :: c.hist l)
  vw := upd c.vw t ((c.now t).join (c.top l))

structure State where
  /-- the newest values of all objects, and where the threads are -/
  subs : Nat → Sub
  mem : MQ.Mem
  c : CMem
  /-- what is passed on with a block that is given to the pool -/
  pool : Nat → VC
  /-- the last write of a place for an element, and the reads since; plain objects -/
  wr : Nat → Nat → Tid × Nat
  rds : Nat → Nat → List (Tid × Nat)
  /-- when the plain members of a header have been written -/
  hdrW : Nat → Nat → Nat
  /-- the header or an element has been read although the thread does not know that it has been written -/
  raceR : Bool
  /-- an element has been written although the thread does not know that the place has been written or read before -/
  raceW : Bool
  /-- ghost: the value of `tailIndex` with which the second test of a ticket was passed -/
  tv : Nat → Nat → Nat
  /-- ghost: what the pushing thread knew when it called `push` for this element, and when it published it -/
  pushV : Nat → Nat → VC
  pubV : Nat → Nat → VC
  /-- ghost: when the key for a block was stored -/
  keyT : Nat → Nat → Nat
  /-- ghost: the store whose value was loaded in line 2907 -/
  seen : Nat → Tid × Nat

/-- `s` where the sub-queue `p` is `u` and the atomic objects are `c` -/
def State.go (s : State) (p : Nat) (u : Sub) (c : CMem) : State := { s with subs := upd s.subs p u, c := c }

/-- the read of a plain object, written in step `w`, by a thread that knows `v` is a data race -/
def unk (v : VC) (w : Tid × Nat) : Bool := v w.1 < w.2

/-- a header is created: its atomic objects and those of its entries -/
def newHdr (hist : Loc → List Msg) (p h T nb nEnt time : Nat) (garbage : Nat → Option Nat) : Loc → List Msg
  | .htl q h' => if q = p ∧ h' = h then [⟨some T, .prod p, time, VC.bot, nb⟩] else hist (.htl q h')
  | .key q e => if q = p ∧ nEnt ≤ e then [⟨some invalidBase, .prod p, time, VC.bot, 0⟩] else hist (.key q e)
  | .val q e => if q = p ∧ nEnt ≤ e then [⟨garbage e, .prod p, time, VC.bot, 0⟩] else hist (.val q e)
  | l => hist l

/-- the header `h` of `p` is created and then stored with release order, lines 2966-3008 -/
def CMem.grow (c : CMem) (p h T nb nEnt : Nat) (garbage : Nat → Option Nat) : CMem :=
  { c with hist := newHdr c.hist p h T nb nEnt (c.now (.prod p) (.prod p)) garbage }.storeRel (.prod p) (.cur p) (some h) 0

/-- One step in the sub-queue `p`. The lines are those of the same step in Model/TaskQueue, `MQ.SStep`. `fix`: a variant of the code in which `set_empty`, line 1607, has the order `acq_rel`. -/
inductive SStep (B : Nat) (fix : Bool) (p : Nat) : State → State → Prop
  /- consumers -/
  | call {s} (c) (h : (s.subs p).cons c = .out) :
      SStep B fix p s (s.go p ((s.subs p).at c .start) (s.c.tick (.cons p c)))
  /-- line 2554, relaxed -/
  | ldTail {s} (c) {m t} (h : (s.subs p).cons c = .start) (hm : Sees (s.c.vw (.cons p c)) (s.c.hist (.tail p)) m) (hv : m.val = some t) :
      SStep B fix p s (s.go p ((s.subs p).at c (.over t)) (s.c.tick (.cons p c)))
  /-- line 2555, relaxed -/
  | ldOver {s} (c) {t m o} (h : (s.subs p).cons c = .over t) (hm : Sees (s.c.vw (.cons p c)) (s.c.hist (.over p)) m) (hv : m.val = some o) :
      SStep B fix p s (s.go p ((s.subs p).at c (.opt t o)) (s.c.tick (.cons p c)))
  /-- line 2556, relaxed -/
  | ldOpt {s} (c) {t o m k} (h : (s.subs p).cons c = .opt t o) (hm : Sees (s.c.vw (.cons p c)) (s.c.hist (.opt p)) m) (hv : m.val = some k) :
      SStep B fix p s (s.go p ((s.subs p).at c (if k - o < t then .inc o else .ret none)) (s.c.tick (.cons p c)))
  /-- line 2559, relaxed -/
  | inc {s} (c) {o} (h : (s.subs p).cons c = .inc o) :
      SStep B fix p s (s.go p { s.subs p with cons := upd (s.subs p).cons c (.chk (s.subs p).opt o), opt := (s.subs p).opt + 1 }
        (s.c.rmw (.cons p c) (.opt p) (some ((s.subs p).opt + 1))))
  /-- lines 2560-2561, acquire -/
  | chkOk {s} (c) {k o m t} (h : (s.subs p).cons c = .chk k o) (hm : Sees (s.c.vw (.cons p c)) (s.c.hist (.tail p)) m) (hv : m.val = some t) (ht : k - o < t) :
      SStep B fix p s { s.go p { s.subs p with cons := upd (s.subs p).cons c (.clm k), fate := upd (s.subs p).fate k .pass } (s.c.acq (.cons p c) m) with
        tv := upd s.tv p (upd (s.tv p) k t) }
  | chkNo {s} (c) {k o m t} (h : (s.subs p).cons c = .chk k o) (hm : Sees (s.c.vw (.cons p c)) (s.c.hist (.tail p)) m) (hv : m.val = some t) (ht : ¬k - o < t) :
      SStep B fix p s (s.go p { s.subs p with cons := upd (s.subs p).cons c (.ovr k), fate := upd (s.subs p).fate k .failP } (s.c.acq (.cons p c) m))
  /-- line 2614, release -/
  | overcommit {s} (c) {k} (h : (s.subs p).cons c = .ovr k) :
      SStep B fix p s (s.go p { s.subs p with cons := upd (s.subs p).cons c (.ret none), over := (s.subs p).over + 1, fate := upd (s.subs p).fate k .failD }
        (s.c.rmwRel (.cons p c) (.over p) (some ((s.subs p).over + 1))))
  /-- line 2562, acquire and release -/
  | claim {s} (c) {k} (h : (s.subs p).cons c = .clm k) :
      SStep B fix p s (s.go p { s.subs p with cons := upd (s.subs p).cons c (.hdr (s.subs p).head), head := (s.subs p).head + 1, fate := upd (s.subs p).fate k .got }
        (s.c.rmwAcqRel (.cons p c) (.head p) (some ((s.subs p).head + 1))))
  /-- line 2954, acquire -/
  | ldHdr {s} (c) {i m h} (hc : (s.subs p).cons c = .hdr i) (hm : Sees (s.c.vw (.cons p c)) (s.c.hist (.cur p)) m) (hv : m.val = some h) :
      SStep B fix p s (s.go p ((s.subs p).at c (.itl i h)) (s.c.acq (.cons p c) m))
  /-- line 2955, acquire; from here on the plain members of the header are read -/
  | ldIdxTail {s} (c) {i h m T} (hc : (s.subs p).cons c = .itl i h) (hm : Sees (s.c.vw (.cons p c)) (s.c.hist (.htl p h)) m) (hv : m.val = some T) :
      SStep B fix p s { s.go p ((s.subs p).at c (.key i h T)) (s.c.acq (.cons p c) m) with
        raceR := s.raceR || unk (s.c.vw (.cons p c)) (.prod p, s.hdrW p h) }
  /-- lines 2956-2962, relaxed -/
  | ldKey {s} (c) {i h T m k} (hc : (s.subs p).cons c = .key i h T) (hm : Sees (s.c.vw (.cons p c)) (s.c.hist (.key p (((s.subs p).hdrs h).index T))) m) (hv : m.val = some k) :
      SStep B fix p s (s.go p ((s.subs p).at c (
        if k = invalidBase then .fault i else .val i (((s.subs p).hdrs h).index (position B ((s.subs p).hdrs h).capacity T k i)))) (s.c.tick (.cons p c)))
  /-- line 2568, relaxed -/
  | ldVal {s} (c) {i e m} (hc : (s.subs p).cons c = .val i e) (hm : Sees (s.c.vw (.cons p c)) (s.c.hist (.val p e)) m) :
      SStep B fix p s (s.go p ((s.subs p).at c (match m.val with | none => .fault i | some b => .rd i e b)) (s.c.tick (.cons p c)))
  /-- lines 2596-2597, plain -/
  | read {s} (c) {i e b} (hc : (s.subs p).cons c = .rd i e b) :
      SStep B fix p s { s.go p ((s.subs p).at c (match (s.mem b).slots (i % B) with | none => .fault i | some x => .emp i e b x)) (s.c.tick (.cons p c)) with
        mem := upd s.mem b { s.mem b with slots := upd (s.mem b).slots (i % B) none }
        rds := upd s.rds b (upd (s.rds b) (i % B) ((.cons p c, s.c.now (.cons p c) (.cons p c)) :: s.rds b (i % B)))
        raceR := s.raceR || unk (s.c.vw (.cons p c)) (s.wr b (i % B)) }
  /-- line 2599, `set_empty`, release -/
  | setEmpty {s} (c) {i e b x} (hc : (s.subs p).cons c = .emp i e b x) :
      SStep B fix p s { s.go p { s.subs p with
          cons := upd (s.subs p).cons c (if (s.mem b).done = B - 1 then .nul i e b x else .ret (some (i, x))), fin := upd (s.subs p).fin i true }
          (if fix then s.c.rmwAcqRel (.cons p c) (.done b) (some ((s.mem b).done + 1)) else s.c.rmwRel (.cons p c) (.done b) (some ((s.mem b).done + 1))) with
        mem := upd s.mem b { s.mem b with done := (s.mem b).done + 1 } }
  /-- line 2605, relaxed -/
  | null {s} (c) {i e b x} (hc : (s.subs p).cons c = .nul i e b x) :
      SStep B fix p s (s.go p { s.subs p with
        cons := upd (s.subs p).cons c (.fre i b x), entries := upd (s.subs p).entries e { (s.subs p).entries e with value := none } } (s.c.store (.cons p c) (.val p e) none))
  /-- line 2607 -/
  | free {s} (c) {i b x} (hc : (s.subs p).cons c = .fre i b x) :
      SStep B fix p s { s.go p ((s.subs p).at c (.ret (some (i, x)))) (s.c.tick (.cons p c)) with
        mem := upd s.mem b { s.mem b with owner := none }
        pool := upd s.pool b (s.c.now (.cons p c)) }
  | retSome {s} (c) {i x} (hc : (s.subs p).cons c = .ret (some (i, x))) :
      SStep B fix p s (s.go p { s.subs p with cons := upd (s.subs p).cons c .out, outs := (s.subs p).outs ++ [(i, x)] } (s.c.tick (.cons p c)))
  | retNone {s} (c) (hc : (s.subs p).cons c = .ret none) : SStep B fix p s (s.go p ((s.subs p).at c .out) (s.c.tick (.cons p c)))
  /- the producer; it reads only the newest values of objects that nobody else writes -/
  /-- lines 2489-2491 -/
  | enqueue {s} (x) (h : (s.subs p).prod = .out) :
      SStep B fix p s { s.go p { s.subs p with prod := if (s.subs p).tail % B = 0 then .head x else .wr x } (s.c.tick (.prod p)) with
        pushV := upd s.pushV p (upd (s.pushV p) (s.subs p).tail (s.c.vw (.prod p))) }
  /-- lines 2493-2497, relaxed -/
  | ldHead {s x m t} (h : (s.subs p).prod = .head x) (hm : Sees (s.c.vw (.prod p)) (s.c.hist (.head p)) m) (hv : m.val = some t) :
      SStep B fix p s (s.go p { s.subs p with prod := if (s.subs p).tail < t then .fault else .idx x } (s.c.tick (.prod p)))
  /-- lines 2903-2910: the next entry can be used; the value is loaded with relaxed order -/
  | idxOk {s x m} (h : (s.subs p).prod = .idx x)
      (hm : Sees (s.c.vw (.prod p)) (s.c.hist (.val p (((s.subs p).hdrs (s.subs p).cur).index ((((s.subs p).hdrs (s.subs p).cur).tail + 1) % ((s.subs p).hdrs (s.subs p).cur).capacity)))) m)
      (he : ((s.subs p).entries (((s.subs p).hdrs (s.subs p).cur).index ((((s.subs p).hdrs (s.subs p).cur).tail + 1) % ((s.subs p).hdrs (s.subs p).cur).capacity))).key = invalidBase ∨
        m.val = none) :
      SStep B fix p s { s.go p { s.subs p with
        prod := .skey x (((s.subs p).hdrs (s.subs p).cur).index ((((s.subs p).hdrs (s.subs p).cur).tail + 1) % ((s.subs p).hdrs (s.subs p).cur).capacity))
          ((((s.subs p).hdrs (s.subs p).cur).tail + 1) % ((s.subs p).hdrs (s.subs p).cur).capacity) } (s.c.tick (.prod p)) with
        seen := upd s.seen p (m.tid, m.time) }
  | idxFull {s x m} (h : (s.subs p).prod = .idx x)
      (hm : Sees (s.c.vw (.prod p)) (s.c.hist (.val p (((s.subs p).hdrs (s.subs p).cur).index ((((s.subs p).hdrs (s.subs p).cur).tail + 1) % ((s.subs p).hdrs (s.subs p).cur).capacity)))) m)
      (he : ((s.subs p).entries (((s.subs p).hdrs (s.subs p).cur).index ((((s.subs p).hdrs (s.subs p).cur).tail + 1) % ((s.subs p).hdrs (s.subs p).cur).capacity))).key ≠ invalidBase)
      (hv : m.val ≠ none) :
      SStep B fix p s (s.go p { s.subs p with prod := .grow x } (s.c.tick (.prod p)))
  /-- lines 2921-2928: everything is relaxed or plain except for the store of the new header, line 3002, release -/
  | grow {s x} (h : (s.subs p).prod = .grow x) (garbage : Nat → Option Nat) :
      SStep B fix p s { s.go p { s.subs p with
          hdrs := upd (s.subs p).hdrs ((s.subs p).cur + 1) (((s.subs p).hdrs (s.subs p).cur).grow (s.subs p).nEnt)
          cur := (s.subs p).cur + 1
          entries := fun e => if (s.subs p).nEnt ≤ e then ⟨invalidBase, garbage e⟩ else (s.subs p).entries e
          nEnt := (s.subs p).nEnt + ((s.subs p).hdrs (s.subs p).cur).capacity
          prod := .skey x (s.subs p).nEnt ((s.subs p).hdrs (s.subs p).cur).capacity }
          (s.c.grow p ((s.subs p).cur + 1) (((s.subs p).hdrs (s.subs p).cur).capacity - 1) ((s.subs p).hdrs (s.subs p).cur).nb (s.subs p).nEnt garbage) with
        hdrW := upd s.hdrW p (upd (s.hdrW p) ((s.subs p).cur + 1) (s.c.now (.prod p) (.prod p))) }
  /-- line 2912 or 2929, relaxed -/
  | storeKey {s x e T} (h : (s.subs p).prod = .skey x e T) :
      SStep B fix p s { s.go p { s.subs p with
          entries := upd (s.subs p).entries e { (s.subs p).entries e with key := (s.subs p).tail }
          prod := .stl x e T } (s.c.store (.prod p) (.key p e) (some (s.subs p).tail)) with
        keyT := upd s.keyT p (upd (s.keyT p) ((s.subs p).hdrs (s.subs p).cur).nb (s.c.now (.prod p) (.prod p))) }
  /-- line 2913 or 2930, release -/
  | storeTail {s x e T} (h : (s.subs p).prod = .stl x e T) :
      SStep B fix p s (s.go p { s.subs p with
        hdrs := upd (s.subs p).hdrs (s.subs p).cur { (s.subs p).hdrs (s.subs p).cur with tail := T, nb := ((s.subs p).hdrs (s.subs p).cur).nb + 1 }
        ent := upd (s.subs p).ent ((s.subs p).hdrs (s.subs p).cur).nb e
        prod := .blk x e } (s.c.storeRel (.prod p) (.htl p (s.subs p).cur) (some T) (((s.subs p).hdrs (s.subs p).cur).nb + 1)))
  /-- line 2508 -/
  | requisition {s x e} (h : (s.subs p).prod = .blk x e) (b) (hb : (s.mem b).owner = none) :
      SStep B fix p s { s.go p { s.subs p with blkOf := upd (s.subs p).blkOf (s.subs p).ns b, prod := .rst x e b }
          { s.c with vw := upd s.c.vw (.prod p) ((s.c.now (.prod p)).join (s.pool b)) } with
        mem := upd s.mem b { s.mem b with owner := some (p, (s.subs p).ns) } }
  /-- line 2517, relaxed -/
  | resetEmpty {s x e b} (h : (s.subs p).prod = .rst x e b) :
      SStep B fix p s { s.go p { s.subs p with prod := .sval x e b } (s.c.store (.prod p) (.done b) (some 0)) with
        mem := upd s.mem b { s.mem b with done := 0 } }
  /-- line 2533, relaxed -/
  | storeVal {s x e b} (h : (s.subs p).prod = .sval x e b) :
      SStep B fix p s (s.go p { s.subs p with
        entries := upd (s.subs p).entries e { (s.subs p).entries e with value := some b }
        tailBlock := b
        ns := (s.subs p).ns + 1
        prod := .wr x } (s.c.store (.prod p) (.val p e) (some b)))
  /-- line 2544, plain -/
  | write {s x} (h : (s.subs p).prod = .wr x) :
      SStep B fix p s { s.go p { s.subs p with prod := .pub x } (s.c.tick (.prod p)) with
        mem := upd s.mem (s.subs p).tailBlock { s.mem (s.subs p).tailBlock with slots := upd (s.mem (s.subs p).tailBlock).slots ((s.subs p).tail % B) (some x) }
        wr := upd s.wr (s.subs p).tailBlock (upd (s.wr (s.subs p).tailBlock) ((s.subs p).tail % B) (.prod p, s.c.now (.prod p) (.prod p)))
        rds := upd s.rds (s.subs p).tailBlock (upd (s.rds (s.subs p).tailBlock) ((s.subs p).tail % B) [])
        raceW := s.raceW || unk (s.c.vw (.prod p)) (s.wr (s.subs p).tailBlock ((s.subs p).tail % B)) ||
          (s.rds (s.subs p).tailBlock ((s.subs p).tail % B)).any (unk (s.c.vw (.prod p))) }
  /-- line 2546, release -/
  | publish {s x} (h : (s.subs p).prod = .pub x) :
      SStep B fix p s { s.go p { s.subs p with tail := (s.subs p).tail + 1, ins := (s.subs p).ins ++ [x], prod := .out }
          (s.c.storeRel (.prod p) (.tail p) (some ((s.subs p).tail + 1)) 0) with
        pubV := upd s.pubV p (upd (s.pubV p) (s.subs p).tail (s.c.now (.prod p))) }

inductive Step (B : Nat) (fix : Bool) : State → State → Prop
  | mk {s s'} (p) (h : SStep B fix p s s') : Step B fix s s'
  /-- the threads synchronize in some other way, or are the same -/
  | learn {s} (t t' : Tid) : Step B fix s { s with c := { s.c with vw := upd s.c.vw t ((s.c.vw t).join (s.c.vw t')) } }

/-- the values at the begin, known to everybody -/
def hist0 (C : Nat) (garbage : Nat → Nat → Option Nat) (done : Nat → Nat) : Loc → List Msg
  | .htl p _ => [⟨some (C - 1), .prod p, 0, VC.bot, 0⟩]
  | .key p _ => [⟨some invalidBase, .prod p, 0, VC.bot, 0⟩]
  | .val p e => [⟨garbage p e, .prod p, 0, VC.bot, 0⟩]
  | .done b => [⟨some (done b), .prod 0, 0, VC.bot, 0⟩]
  | .tail p | .head p | .opt p | .over p | .cur p => [⟨some 0, .prod p, 0, VC.bot, 0⟩]

/-- A queue whose sub-queues have not been used. -/
structure Init (C : Nat) (s : State) : Prop where
  subs : ∃ g d, (∀ p, s.subs p = Sub.init C (g p)) ∧ s.c.hist = hist0 C g d ∧ ∀ b, d b = (s.mem b).done
  mem : ∀ b, (s.mem b).owner = none
  vw : ∀ t t', s.c.vw t t' = 0
  pool : ∀ b, s.pool b = VC.bot
  wr : ∀ b j, (s.wr b j).2 = 0
  rds : ∀ b j, s.rds b j = []
  hdrW : ∀ p h, s.hdrW p h = 0
  keyT : ∀ p n, s.keyT p n = 0
  race : s.raceR = false ∧ s.raceW = false

inductive Reach (B C : Nat) (fix : Bool) : State → Prop
  | init {s} (h : Init C s) : Reach B C fix s
  | step {s s'} : Reach B C fix s → Step B fix s s' → Reach B C fix s'

inductive Steps (B : Nat) (fix : Bool) : State → State → Prop
  | refl {s} : Steps B fix s s
  | step {s s' s''} : Steps B fix s s' → Step B fix s' s'' → Steps B fix s s''

/-- One thread pops, `c = 0` in every sub-queue. -/
inductive Solo (B C : Nat) (fix : Bool) : State → Prop
  | init {s} (h : Init C s) : Solo B C fix s
  | step {s s'} (h : Solo B C fix s) (hs : Step B fix s s') (ho : ∀ p c, c ≠ 0 → (s'.subs p).cons c = .out) : Solo B C fix s'

/-- Continuation of such an execution. -/
inductive SoloSteps (B : Nat) (fix : Bool) : State → State → Prop
  | refl {s} : SoloSteps B fix s s
  | step {s s' s''} (h : SoloSteps B fix s s') (hs : Step B fix s' s'') (ho : ∀ p c, c ≠ 0 → (s''.subs p).cons c = .out) : SoloSteps B fix s s''

end RG.WQ
