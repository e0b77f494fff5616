import Verif.Lemmas.FreeList2
/-
C90: the pool of blocks of a queue of tasks.
-/
namespace RG.FL

/-- the block a thread works on, in any function of the pool -/
def touches : Pc → Option Nat
  | .gRefs n => some n
  | .gInc n _ => some n
  | .gNext n => some n
  | .gCas n _ => some n
  | .gAss n => some n
  | .gSub n => some n
  | .gDec n _ => some n
  | .aSet n => some n
  | .kLoad n _ => some n
  | .kNext n _ _ => some n
  | .kRefs n _ _ => some n
  | .kCas n _ _ => some n
  | .kFail n _ _ => some n
  | .destroy n => some n
  | .ret n => some n
  | _ => none

/-- the list behind `freeListHead`: `l` are the nodes met by following `freeListNext` -/
inductive Follow (next : Nat → Option Nat) : Option Nat → List Nat → Prop
  | nil : Follow next none []
  | cons {n l} (h : Follow next (next n) l) : Follow next (some n) (n :: l)

theorem Chain.follow {next h l} (hc : Chain next h l) : Follow next h l := by
  induction l generalizing h with
  | nil => cases hc; exact .nil
  | cons n l ih => obtain ⟨rfl, h2⟩ := hc; exact .cons (ih h2)

/-- three threads: 0 gets both blocks and gives them back; 1 begins to take block 1 and stops before the exchange of the head;
2 takes block 1 and block 0 and gives block 1 back: the ABA situation -/
def aba : List (Nat × Act) :=
  [(0, .requisition), (0, .go), (0, .go), (0, .go), (0, .requisition), (0, .go), (0, .go), (0, .go),
   (0, .give 0), (0, .go), (0, .go), (0, .go), (0, .go), (0, .go), (0, .give 1), (0, .go), (0, .go), (0, .go), (0, .go), (0, .go),
   (1, .requisition), (1, .go), (1, .go), (1, .go), (1, .go), (1, .go),
   (2, .requisition), (2, .go), (2, .go), (2, .go), (2, .go), (2, .go), (2, .go), (2, .go), (2, .go), (2, .go),
   (2, .requisition), (2, .go), (2, .go), (2, .go), (2, .go), (2, .go), (2, .go), (2, .go), (2, .go), (2, .go),
   (2, .give 1), (2, .go)]

/-- then thread 1 goes on: the exchange fails, and it inserts block 1 -/
def aba' : List (Nat × Act) := aba ++ [(1, .go), (1, .go), (1, .go), (1, .go), (1, .go), (1, .go)]

/-- C90. A block returned by `requisition_block` is not in use, and no other thread is getting it or giving it back. -/
theorem C90_given_once {P s} (h : Reach P s) {c n} (hc : s.pc c = .ret n) :
    s.own n = false ∧ ∀ d, s.pc d = .ret n ∨ s.pc d = .aSet n ∨ s.pc d = .destroy n → d = c := by
  have I := h.inv
  have ht := I.thr c
  rw [hc] at ht
  have hst : s.st n = .taken c := ht
  refine ⟨?_, ?_⟩
  · have := I.own n
    rw [hst] at this
    cases ho : s.own n
    · rfl
    · exact nomatch this.1 ho
  · intro d hd
    have ht' := I.thr d
    rcases hd with hd | hd | hd <;> rw [hd] at ht' <;> simp only [TOk, hst] at ht'
    · exact (St.taken.inj ht').symm
    · exact nomatch ht'.2
    · exact nomatch ht'.2

example : (final 2 (aba.take 2)).pc 0 = .idx1 ∧ (final 2 (aba.take 35)).pc 2 = .ret 1 ∧ (final 2 (aba.take 35)).own 1 = false := by decide +kernel

/-- C90. The pool refines a set of blocks: a call of `requisition_block` that returns adds a block that was not in the set,
a call of `add_block_to_free_list` removes one; no other step changes the set. -/
theorem C90_refines_set {P s s' c} (h : Reach P s) (hs : Step P c s s') :
    s'.own = s.own ∨
    (∃ n, s.pc c = .ret n ∧ s.own n = false ∧ s'.own = upd s.own n true) ∨
    (∃ n, s.pc c = .out ∧ s.own n = true ∧ s'.own = upd s.own n false) := by
  cases hs with
  | @ret n hc => exact .inr (.inl ⟨n, hc, (C90_given_once h hc).1, rfl⟩)
  | give hc n ho => exact .inr (.inr ⟨n, hc, ho, rfl⟩)
  | _ => exact .inl rfl

example : (final 2 (aba.take 35)).own 1 = false ∧ (final 2 (aba.take 36)).own 1 = true ∧ (final 2 aba).own 1 = false := by decide +kernel

/-- C90. The assertion in `try_get` holds, and neither the counter nor the flag in `freeListRefs` overflows. -/
theorem C90_no_fault {P s} (h : Reach P s) (c) : s.pc c ≠ .fault := by
  intro hc
  have ht := h.inv.thr c
  rw [hc] at ht
  exact ht

/-- C90. Nothing is lost: the list behind `freeListHead` ends and has no node twice; a block that has left the initial pool is in use,
in the list, or a thread is working on it. -/
theorem C90_nothing_lost {P s} (h : Reach P s) :
    ∃ l, Follow s.next s.head l ∧ l.Nodup ∧ (∀ n, n ∈ l → n < P ∧ n < s.idx ∧ s.own n = false) ∧
      ∀ n, n < P → n < s.idx → s.own n = true ∨ n ∈ l ∨ ∃ c, touches (s.pc c) = some n := by
  have I := h.inv
  refine ⟨s.list, I.chain.follow, I.lnodup, ?_, ?_⟩
  · intro n hn
    have hst := (I.mem n).1 hn
    have hP : n < P := Nat.lt_of_not_le fun hP => (I.small n hP).1 hst
    refine ⟨hP, ?_, ?_⟩
    · have := I.idx n hP
      rw [hst] at this
      exact Nat.lt_of_not_le fun h => nomatch this.2 h
    · have := I.own n
      rw [hst] at this
      cases ho : s.own n
      · rfl
      · exact nomatch this.1 ho
  · intro n hP hi
    have hn := I.node n
    cases hst : s.st n <;> rw [hst] at hn
    · have := (I.idx n hP).1 hst; omega
    · exact .inl ((I.own n).2 hst)
    · right; right; simp only [NOk] at hn
      rcases hn with ⟨h, _⟩ | ⟨h | h, _⟩ <;> exact ⟨_, by rw [h]; rfl⟩
    · right; right
      rcases hn with ⟨h | h, _⟩ <;> exact ⟨_, by rw [h]; rfl⟩
    · exact .inr (.inl ((I.mem n).2 hst))
    · right; right
      obtain ⟨h1, h2⟩ := hn
      cases hr : s.rs n with
      | nil => exact absurd hr h2
      | cons d l =>
        have := (I.rs n d).1 (by rw [hr]; exact List.mem_cons_self ..)
        refine ⟨d, ?_⟩
        cases hd : s.pc d <;> rw [hd] at this <;> simp only [ref] at this <;> cases this <;> rfl
    · right; right; simp only [NOk] at hn
      rcases hn with ⟨⟨_, h⟩ | ⟨_, _, h⟩ | ⟨_, _, h⟩, _⟩ | ⟨⟨_, _, h⟩ | ⟨_, _, h⟩, _⟩ <;> exact ⟨_, by rw [h]; rfl⟩

example : (final 2 aba).head = none ∧ (final 2 aba).own 1 = false ∧ touches ((final 2 aba).pc 1) = some 1 ∧
    (final 2 aba').head = some 1 ∧ (final 2 aba').own 1 = false ∧ (final 2 aba').own 0 = true := by decide +kernel

/-- C90. When no call is under way, the list behind `freeListHead` are the blocks of the initial pool that have been given back, each of them once,
and the blocks of the heap are those in use. -/
theorem C90_all_reusable {P s} (h : Reach P s) (hq : ∀ c, s.pc c = .out) :
    (∃ l, Follow s.next s.head l ∧ l.Nodup ∧ ∀ n, n ∈ l ↔ n < P ∧ n < s.idx ∧ s.own n = false) ∧
      ∀ n, P ≤ n → s.alive n = s.own n := by
  have I := h.inv
  obtain ⟨l, h1, h2, h3, h4⟩ := C90_nothing_lost h
  refine ⟨⟨l, h1, h2, fun n => ⟨h3 n, fun ⟨ha, hb, hc⟩ => ?_⟩⟩, fun n hP => ?_⟩
  · rcases h4 n ha hb with h | h | ⟨c, h⟩
    · rw [hc] at h; exact nomatch h
    · exact h
    · rw [hq] at h; exact nomatch h
  · have e1 := I.alive n hP
    have e2 := I.own n
    have e3 := I.small n hP
    have hn := I.node n
    cases hst : s.st n <;> rw [hst] at hn e1 e2 e3 <;> simp only [NOk, hq] at hn <;> try simp at hn
    · have := e1.2 rfl
      rw [this]
      cases ho : s.own n
      · rfl
      · exact nomatch e2.1 ho
    · rw [e2.2 rfl]
      cases ha : s.alive n
      · exact nomatch e1.1 ha
      · rfl
    · exact absurd rfl e3.1
    · exact absurd rfl e3.2

/-- no call is under way -/
def quiet : List (Nat × Act) :=
  [(0, .requisition), (0, .go), (0, .go), (0, .go), (0, .requisition), (0, .go), (0, .go), (0, .alloc 7), (0, .go),
   (0, .give 0), (0, .go), (0, .go), (0, .go), (0, .go), (0, .go)]

example : (final 1 quiet).pc 0 = .out ∧ (final 1 quiet).pc 1 = .out ∧ (final 1 quiet).head = some 0 ∧ (final 1 quiet).own 0 = false ∧
    (final 1 quiet).own 7 = true ∧ (final 1 quiet).alive 7 = true := by decide +kernel

/-- C90. The pool accesses no destroyed block: the block a thread works on belongs to the initial pool, whose blocks live as long as the queue, or is allocated. -/
theorem C90_no_use_after_free {P s} (h : Reach P s) {c n} (hc : touches (s.pc c) = some n ∨ s.own n = true) : n < P ∨ s.alive n = true := by
  have I := h.inv
  by_cases hP : n < P
  · exact .inl hP
  right
  have hP : P ≤ n := Nat.le_of_not_lt hP
  have ha := I.alive n hP
  cases hal : s.alive n
  case true => rfl
  have hst := ha.1 hal
  rcases hc with hc | hc
  · have ht := I.thr c
    cases hpc : s.pc c <;> rw [hpc] at ht hc <;> simp only [touches, TOk] at ht hc <;> grind
  · have := (I.own n).1 hc
    rw [hst] at this
    exact nomatch this

example : touches ((final 1 (quiet.take 8)).pc 0) = some 7 ∧ (final 1 (quiet.take 8)).alive 7 = true ∧ (final 1 (quiet.take 7)).alive 7 = false := by decide +kernel

/-- The steps of a thread within the pool are determined, except for the address the heap returns. -/
theorem go_complete {P c s s'} (hs : Step P c s s') (h1 : s.pc c ≠ .out) (h2 : s.pc c ≠ .heap) : go P c s = some s' := by
  cases hs with
  | requisition h => exact absurd h h1
  | give h => exact absurd h h1
  | alloc h => exact absurd h h2
  | casInc h hh => simp only [go, h]; rw [if_pos hh]
  | casIncFail h hh => simp only [go, h]; rw [if_neg hh]
  | casHead h hh => simp only [go, h]; rw [if_pos hh]
  | casHeadFail h hh => simp only [go, h]; rw [if_neg hh]
  | kCas h hh => simp only [go, h]; rw [if_pos hh]
  | kCasFail h hh => simp only [go, h]; rw [if_neg hh]
  | _ h => simp only [go, h]

/-- C90. Blocks are reused: if the initial pool is exhausted, a block has been given back and no other call is under way,
`requisition_block` returns, after 8 steps, the block that is first in the list. (Nothing else can happen: the steps of a thread are determined.) -/
theorem C90_reused {P s n c} (h : Reach P s) (hq : ∀ d, s.pc d = .out) (hi : P ≤ s.idx) (hh : s.head = some n) :
    ∃ s', run P ((c, .requisition) :: List.replicate 8 (c, .go)) s = some s' ∧ s'.pc c = .ret n ∧ n < P ∧ s.own n = false := by
  have I := h.inv
  have hst : s.st n = .listed := by
    rw [← I.mem]
    have := I.chain
    rw [hh] at this
    cases hl : s.list with
    | nil => rw [hl] at this; exact nomatch this
    | cons m l => rw [hl] at this; cases this.1; exact List.mem_cons_self ..
  have hrs : s.rs n = [] := by
    cases hr : s.rs n with
    | nil => rfl
    | cons d l =>
      have := (I.rs n d).1 (by rw [hr]; exact List.mem_cons_self ..)
      rw [hq] at this
      exact nomatch this
  have hn := I.node n
  rw [hst] at hn
  simp only [NOk, hrs, List.length_nil, Nat.zero_add] at hn
  refine ⟨_, by simp [run, ex, go, hq, List.replicate, hi, hh, loop, hn]; rfl, by simp, ?_, ?_⟩
  · exact Nat.lt_of_not_le fun hP => (I.small n hP).1 hst
  · have := I.own n
    rw [hst] at this
    cases ho : s.own n
    · rfl
    · exact nomatch this.1 ho

example : (run 1 ((1, .requisition) :: List.replicate 8 (1, .go)) (final 1 quiet)).map (fun s => s.pc 1) = some (.ret 0) := by decide +kernel

/-- C90. Not more: among several threads, a call can go to the heap although a block has been given back, even one the same call has just put into the list. -/
theorem C90_heap_beside_free_block : ∃ s, Reach 2 s ∧ s.pc 1 = .heap ∧ s.head = some 1 ∧ s.own 1 = false :=
  ⟨final 2 aba', final_reach 2 aba', by decide +kernel⟩

end RG.FL
