import Verif.Lemmas.ConcIter
/-
Properties C27 (concurrent pushes) and C28 (iteration during pushes and removals) of the chunked list.
-/
namespace RG.CoL

variable {N : Nat} {s s' : State}

inductive Steps (N : Nat) (s : State) : State → Prop
  | refl : Steps N s s
  | step {s' s'' t} : Steps N s s' → Step N t s' s'' → Steps N s s''

theorem Steps.reach (h : Reach N s) (hs : Steps N s s') : Reach N s' := by
  induction hs with
  | refl => exact h
  | step _ h2 ih => exact ih.step h2

/-! ### C27 -/

/-- **C27** A thread that is about to store its value does so in a slot of a chunk that has been appended, inside of
the chunk, which holds no value yet and which no other thread is about to write. -/
theorem C27_slots_do_not_collide (h : Reach N s) {t v c i : Nat} (ht : s.pcs t = .pAsg v c i) :
    i < N ∧ s.al.rank c ≠ none ∧ s.val (c, i) = none ∧ ∀ u w, s.pcs u = .pAsg w c i → u = t := by
  have hB := invB h
  obtain ⟨h1, h2, h3⟩ := hB.asg t v c i ht
  exact ⟨h1, hB.ranked t c (by rw [ht]; rfl), h3, fun u w hu => hB.asgU u t w v c i hu ht⟩

/-- **C27** The values stored so far are in pairwise different slots, and each slot still holds its value. -/
theorem C27_values_kept (h : Reach N s) :
    (s.log.map Prod.fst).Nodup ∧ ∀ x v, (x, v) ∈ s.log → s.val x = some v :=
  ⟨(invB h).nodup, fun x v hx => ((invB h).log x v).1 hx⟩

/-- **C27** For every chunk that is full exactly one thread has been chosen to allocate the next chunk, for other chunks
none. -/
theorem C27_one_allocator_per_chunk (h : Reach N s) (c : Nat) : s.allocs c = if N < s.nxt c then 1 else 0 :=
  (invB h).allocs c

/-- **C27** At most one thread at a time is allocating the next chunk, always for the newest chunk. If the newest chunk
has overflown, there is such a thread: the threads that wait for the next chunk do not wait in vain. All older
chunks are full. -/
theorem C27_allocation (h : Reach N s) :
    (∀ t u v w c d, s.pcs t = .pAlloc v c → s.pcs u = .pAlloc w d → t = u ∧ s.al.head = some c) ∧
    (∀ c, s.al.head = some c → N < s.nxt c → ∃ t v, s.pcs t = .pAlloc v c) ∧
    (∀ c, s.al.rank c ≠ none → s.al.head ≠ some c → N < s.nxt c) := by
  have hB := invB h
  refine ⟨?_, hB.ex, hB.old⟩
  intro t u v w c d h1 h2
  have h3 := (hB.alc t v c h1).1
  have h4 := (hB.alc u w d h2).1
  rw [h3] at h4
  cases h4
  exact ⟨hB.alcU t u v w c h1 h2, h3⟩

/-- **C27** Every reserved slot holds a value, or some thread is about to store one. -/
theorem C27_no_slot_lost (h : Reach N s) {c i : Nat} (hi : i < s.nxt c) (hN : i < N) :
    s.val (c, i) ≠ none ∨ ∃ t v, s.pcs t = .pAsg v c i := by
  cases hv : s.val (c, i) with
  | some v => exact .inl (by simp)
  | none => exact .inr ((invB h).reserved c i hi hN hv)

/-! ### C28 -/

/-- **C28**, part: an iteration that has reached the end has visited every element that was in the list when it began,
except for those removed meanwhile and those whose value was assigned only after a removal of the
element in the following slot had looked at their slot; provided that the newest chunk had a reserved slot when the
iteration began. -/
theorem C28_iteration_complete_partial (hN : 0 < N) (h : Reach N s) {t : Nat} (ht : s.pcs t = .iEnd)
    (he : s.empt t = false) {x : Slot} (hx : s.snap t x = true) (hr : s.removed x = false) (hh : s.hid x = false) :
    x ∈ s.seen t := by
  have hD := invD hN h t
  have hA := invA h
  have hit : isIter (s.pcs t) = true := by rw [ht]; rfl
  obtain ⟨hv, r, h1, h2⟩ := hD.snapOk hit x hx
  have hend := hD.ended ht he
  have hdel : s.al.deleted x.1 = false := by
    cases hd : s.al.deleted x.1 with
    | false => rfl
    | true =>
      have hlt := ((invB h).valLt x.1 x.2 hv).1
      have := (invC hN h).freRem x ((invC hN h).del x.1 (.inr hd) x.2 hlt)
      rw [hr] at this; cases this
  have hvis := (AL.C30_iteration_complete hA.al hend).2 x.1 r h1 h2 hdel
  rcases hD.old hit x hx hvis (by rw [hend]; simp [AL.cur]) with h3 | h3 | h3
  · exact h3
  · rw [hr] at h3; cases h3
  · rw [hh] at h3; cases h3

/-- **C28**, part: without removals, only the first condition is left. -/
theorem C28_no_removals_partial (hN : 0 < N) (h : Reach N s) {t : Nat} (ht : s.pcs t = .iEnd)
    (he : s.empt t = false) (hr : ∀ x, s.removed x = false) {x : Slot} (hx : s.snap t x = true) : x ∈ s.seen t := by
  refine C28_iteration_complete_partial hN h ht he hx (hr x) ?_
  suffices ∀ x, s.hid x = true → ∃ y, s.removed y = true by
    cases hh : s.hid x with
    | false => rfl
    | true => obtain ⟨y, hy⟩ := this x hh; rw [hr] at hy; cases hy
  clear hr hx ht he
  induction h with
  | init => intro x hx; cases hx
  | @step s s' t h hs ih =>
    have hm := mono (invA h) hs
    have hC := invC hN h
    intro y hy
    by_cases hy' : s.hid y = true
    · obtain ⟨z, hz⟩ := ih y hy'
      exact ⟨z, hm.removed z hz⟩
    · cases hs with
      | readPred h' => exact ⟨_, (hC.rem t _ (rm_read h')).1⟩
      | _ => exact absurd hy hy'

/-- **C28** is false: an element in slot 0 whose value is assigned while the element in slot 1 is being removed is
skipped by an iteration that begins afterwards, although it is never removed. -/
theorem C28_skips_live_element_false :
    ¬ ∀ (N : Nat) (s : State) (t : Nat) (x : Slot), 0 < N → Reach N s → s.pcs t = .iEnd → s.empt t = false →
      s.snap t x = true → s.removed x = false → x ∈ s.seen t := by
  intro h
  have hr := Steps.reach (N := 2) .init (.step (.step (.step (.step (.step (.step (.step (.step (.step (.step (.step (.step (.step (.step (.step (.step (.step (.step (.step (.step (.step (.step (.step .refl
    (.push (t := 0) 7 rfl)) (.loadNull (t := 0) rfl rfl (.allocFirst rfl) rfl)) (.first (t := 0) rfl (.firstOk rfl rfl) (by decide)))
    (.load (t := 0) rfl rfl)) (.room (t := 0) rfl (by decide))) (.slot (t := 0) rfl (by decide)))
    (.push (t := 1) 8 rfl)) (.load (t := 1) rfl rfl)) (.room (t := 1) rfl (by decide))) (.slot (t := 1) rfl (by decide))) (.assign (t := 1) rfl))
    (.remove (t := 2) (x := (0, 1)) rfl (by decide) rfl)) (.readPred (t := 2) rfl)) (.write (t := 2) rfl)) (.free (t := 2) rfl))
    (.assign (t := 0) rfl))
    (.begin (t := 3) rfl (.rbegin rfl rfl) rfl rfl)) (.last (t := 3) rfl (by decide))) (.jumpOut (t := 3) rfl (by decide) (.next rfl) rfl))
    (.hop (t := 3) rfl (.skipLoad rfl) (by decide))) (.hop (t := 3) rfl (.testNull rfl) (by decide))) (.hop (t := 3) rfl (.skipStore rfl) (by decide)))
    (.hop (t := 3) rfl (.advanceEnd rfl rfl) (by decide)))
  have := h 2 _ 3 (0, 0) (by decide) hr rfl rfl rfl rfl
  revert this
  decide +kernel

/-- **C28** is false: an iteration that begins between the allocation of a chunk and the first push into it finds
nothing; nothing is removed at all. -/
theorem C28_finds_nothing_false :
    ¬ ∀ (N : Nat) (s : State) (t : Nat) (x : Slot), 0 < N → Reach N s → s.pcs t = .iEnd →
      s.snap t x = true → (∀ y, s.removed y = false) → x ∈ s.seen t := by
  intro h
  have hr := Steps.reach (N := 1) .init (.step (.step (.step (.step (.step (.step (.step (.step (.step (.step (.step (.step (.step (.step (.step (.step .refl
    (.push (t := 0) 7 rfl)) (.loadNull (t := 0) rfl rfl (.allocFirst rfl) rfl)) (.first (t := 0) rfl (.firstOk rfl rfl) (by decide)))
    (.load (t := 0) rfl rfl)) (.room (t := 0) rfl (by decide))) (.slot (t := 0) rfl (by decide))) (.assign (t := 0) rfl))
    (.push (t := 1) 8 rfl)) (.load (t := 1) rfl rfl)) (.room (t := 1) rfl (by decide))) (.over (t := 1) rfl rfl (.alloc rfl) rfl))
    (.alloc (t := 1) rfl (.load rfl) (by decide))) (.alloc (t := 1) rfl (.store rfl) (by decide))) (.alloc (t := 1) rfl (.casOk rfl rfl) (by decide)))
    (.begin (t := 2) rfl (.rbegin rfl rfl) rfl rfl)) (.lastNone (t := 2) rfl rfl))
  have := h 1 _ 2 (0, 0) (by decide) hr rfl rfl (fun _ => rfl)
  revert this
  decide +kernel

/-! ### Example

An iteration that visits an element of chunk 0 while the other element of chunk 0 is removed and chunk 1 is in use. -/

example : ∃ s, Reach 1 s ∧ s.pcs 2 = .iEnd ∧ s.empt 2 = false ∧ s.snap 2 (0, 0) = true ∧ s.removed (0, 0) = false ∧
    s.hid (0, 0) = false ∧ s.seen 2 = [(0, 0)] ∧ s.allocs 0 = 1 ∧ s.nxt 1 = 1 ∧ s.removed (1, 0) = true ∧
    s.log = [((1, 0), 8), ((0, 0), 7)] := by
  refine ⟨_, Steps.reach (N := 1) .init (.step (.step (.step (.step (.step (.step (.step (.step (.step (.step (.step (.step (.step (.step (.step (.step (.step (.step (.step (.step (.step (.step (.step (.step (.step (.step (.step (.step (.step (.step (.step (.step (.step (.step (.step (.step (.step (.step .refl
    (.push (t := 0) 7 rfl)) (.loadNull (t := 0) rfl rfl (.allocFirst rfl) rfl)) (.first (t := 0) rfl (.firstOk rfl rfl) (by decide)))
    (.load (t := 0) rfl rfl)) (.room (t := 0) rfl (by decide))) (.slot (t := 0) rfl (by decide))) (.assign (t := 0) rfl))
    (.push (t := 1) 8 rfl)) (.load (t := 1) rfl rfl)) (.room (t := 1) rfl (by decide))) (.over (t := 1) rfl rfl (.alloc rfl) rfl))
    (.alloc (t := 1) rfl (.load rfl) (by decide))) (.alloc (t := 1) rfl (.store rfl) (by decide))) (.alloc (t := 1) rfl (.casOk rfl rfl) (by decide)))
    (.load (t := 1) rfl rfl)) (.room (t := 1) rfl (by decide))) (.slot (t := 1) rfl (by decide))) (.assign (t := 1) rfl))
    (.remove (t := 3) (x := (1, 0)) rfl (by decide) rfl))
    (.begin (t := 2) rfl (.rbegin rfl rfl) rfl rfl)) (.last (t := 2) rfl (by decide))) (.read (t := 2) rfl rfl))
    (.readFirst (t := 3) rfl)) (.write (t := 3) rfl)) (.free (t := 3) rfl))
    (.jumpOut (t := 2) rfl (by decide) (.next rfl) rfl))
    (.hop (t := 2) rfl (.skipLoad rfl) (by decide))) (.hop (t := 2) rfl (.testNot rfl rfl) (by decide))) (.hop (t := 2) rfl (.skipStore rfl) (by decide)))
    (.hop (t := 2) rfl (.advance rfl rfl) (by decide))) (.last (t := 2) rfl (by decide))) (.read (t := 2) rfl rfl)) (.visit (t := 2) rfl))
    (.nextOut (t := 2) rfl (.next rfl) rfl))
    (.hop (t := 2) rfl (.skipLoad rfl) (by decide))) (.hop (t := 2) rfl (.testNull rfl) (by decide))) (.hop (t := 2) rfl (.skipStore rfl) (by decide)))
    (.hop (t := 2) rfl (.advanceEnd rfl rfl) (by decide))), ?_⟩
  refine ⟨rfl, rfl, rfl, rfl, rfl, rfl, rfl, rfl, rfl, rfl⟩

end RG.CoL
