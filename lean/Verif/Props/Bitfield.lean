import Verif.Model.Bitfield
/-
Properties C41 - C45: worker states and activation.
-/
namespace RG.Bf

/-! ### bits -/

theorem getLsbD_one_shl (k i : Nat) : (1#64 <<< k).getLsbD i = (decide (i < 64) && decide (i = k)) := by
  rw [BitVec.getLsbD_shiftLeft, BitVec.getLsbD_one]
  by_cases h1 : i < 64 <;> by_cases h2 : i = k
  · subst h2; simp [h1]
  · by_cases h3 : i < k
    · simp [h1, h2, h3]
    · have : ¬ i - k = 0 := by omega
      simp [h1, h2, this]
  · simp [h1]
  · simp [h1]

theorem and_bit_ne_zero (x : Size) (k : Nat) (hk : k < 64) :
    ((x &&& (1#64 <<< k)) != 0) = x.getLsbD k := by
  cases h : x.getLsbD k
  · have : x &&& (1#64 <<< k) = 0 := by
      apply BitVec.eq_of_getLsbD_eq
      intro i hi
      rw [BitVec.getLsbD_and, getLsbD_one_shl]
      by_cases e : i = k
      · subst e; simp [h]
      · simp [e]
    simp [this]
  · have : x &&& (1#64 <<< k) ≠ 0 := by
      intro e
      have := congrArg (fun y => y.getLsbD k) e
      simp only [BitVec.getLsbD_and, getLsbD_one_shl, h, hk] at this
      simp at this
    simpa using this

theorem get_eq (w : Nat → Size) (idx : Nat) : get w idx = (w (idx / 64)).getLsbD (idx % 64) :=
  and_bit_ne_zero _ _ (Nat.mod_lt _ (by decide))

theorem setRet_eq (w : Nat → Size) (idx : Nat) :
    setRet w idx = (decide (idx % 64 < 32) && get w idx) := by
  unfold setRet
  rw [bit, and_bit_ne_zero _ _ (Nat.mod_lt _ (by decide)), get_eq]
  have : idx % 64 < 64 := Nat.mod_lt _ (by decide)
  simp [BitVec.getLsbD_setWidth, this]

/-! ### C41 -/

/-- C41, effect: setting an element changes exactly this element. -/
theorem C41_set_changes_exactly (w : Nat → Size) (idx : Nat) (v : Bool) (i : Nat) :
    get (setWords w idx v) i = if i = idx then v else get w i := by
  rw [get_eq, get_eq]
  have hk : idx % 64 < 64 := Nat.mod_lt _ (by decide)
  have hi : i % 64 < 64 := Nat.mod_lt _ (by decide)
  unfold setWords
  by_cases hj : i / 64 = idx / 64
  · rw [if_pos hj]
    by_cases hii : i = idx
    · subst hii
      cases v
      · simp only [Bool.false_eq_true, if_false, bit, BitVec.getLsbD_and, BitVec.getLsbD_not,
          getLsbD_one_shl]
        simp [hk]
      · simp only [if_true, bit, BitVec.getLsbD_or, getLsbD_one_shl]
        simp [hk]
    · have : i % 64 ≠ idx % 64 := by
        intro e
        have h1 := Nat.div_add_mod i 64
        have h2 := Nat.div_add_mod idx 64
        omega
      rw [if_neg hii]
      cases v
      · simp only [Bool.false_eq_true, if_false, bit, BitVec.getLsbD_and, BitVec.getLsbD_not,
          getLsbD_one_shl]
        simp [this, hi]
      · simp only [if_true, bit, BitVec.getLsbD_or, getLsbD_one_shl]
        simp [this]
  · rw [if_neg hj, if_neg (by intro e; exact hj (by rw [e]))]

/-- C41, returned value (partial): it is the previous value for the elements in the lower half of each
64-bit word, i.e. for all elements of bitfields with at most 32 elements. Missing: the upper half, for
which it is false (`C41_upper_half_false`). -/
theorem C41_set_returns_previous_partial (w : Nat → Size) (idx : Nat) (h : idx % 64 < 32) :
    setRet w idx = get w idx := by
  rw [setRet_eq]
  simp [h]

/-- C41 is false for the upper half of each word: whatever the previous value was, `false` is
returned. -/
theorem C41_upper_half_false (w : Nat → Size) (idx : Nat) (h : 32 ≤ idx % 64) :
    setRet w idx = false := by
  rw [setRet_eq]
  have : ¬ idx % 64 < 32 := by omega
  simp [this]

/-- 40 workers, all available: claiming worker 39 reports that it was busy. -/
example : get (fun _ => 0xFFFFFFFFFF) 39 = true ∧ setRet (fun _ => 0xFFFFFFFFFF) 39 = false ∧
    setRet (fun _ => 0xFFFFFFFFFF) 3 = true := by decide

/-! ### first set bit -/

theorem lowest_bit (v : Size) (h : v ≠ 0) :
    ∃ k, k < 64 ∧ v.getLsbD k = true ∧ (∀ i, i < k → v.getLsbD i = false) ∧
      v &&& -v = 1#64 <<< k := by
  have hex : ∃ k, k < 64 ∧ v.getLsbD k = true := by
    refine Classical.byContradiction fun hn => h ?_
    apply BitVec.eq_of_getLsbD_eq
    intro i hi
    cases hb : v.getLsbD i
    · simp
    · exact absurd ⟨i, hi, hb⟩ hn
  have hmin : ∃ k, (k < 64 ∧ v.getLsbD k = true) ∧ ∀ i, i < k → ¬ (i < 64 ∧ v.getLsbD i = true) := by
    obtain ⟨k, hk⟩ := hex
    induction k using Nat.strongRecOn with
    | _ k ih =>
      by_cases hl : ∃ i, i < k ∧ i < 64 ∧ v.getLsbD i = true
      · obtain ⟨i, h1, h2⟩ := hl
        exact ih i h1 h2
      · exact ⟨k, hk, fun i h1 h2 => hl ⟨i, h1, h2⟩⟩
  obtain ⟨k, ⟨hk1, hk2⟩, hk3⟩ := hmin
  have hlow : ∀ i, i < k → v.getLsbD i = false := by
    intro i hi
    cases hb : v.getLsbD i
    · rfl
    · exact absurd ⟨by omega, hb⟩ (hk3 i hi)
  refine ⟨k, hk1, hk2, hlow, ?_⟩
  apply BitVec.eq_of_getLsbD_eq
  intro i hi
  rw [BitVec.getLsbD_and, BitVec.getLsbD_neg, getLsbD_one_shl]
  rcases Nat.lt_trichotomy i k with hlt | heq | hgt
  · have : ¬ i = k := by omega
    simp [hlow i hlt, this]
  · subst heq
    have : ¬ ∃ j, j < i ∧ v.getLsbD j = true := by
      rintro ⟨j, h1, h2⟩
      rw [hlow j h1] at h2; cases h2
    simp only [hi, hk2, decide_true, Bool.true_and]
    rw [decide_eq_false this]
    rfl
  · have he : ∃ j, j < i ∧ v.getLsbD j = true := ⟨k, hgt, hk2⟩
    have : ¬ i = k := by omega
    simp only [hi, decide_true, Bool.true_and, this, decide_false]
    rw [decide_eq_true he]
    cases v.getLsbD i <;> rfl

theorem firstOne_table : ∀ k : Fin 64, firstOne (1#64 <<< k.val) = k.val := by decide +kernel

theorem firstOne_low (v : Size) : firstOne v = firstOne (v &&& -v) ∨ v = 0 := by
  by_cases h : v = 0
  · exact .inr h
  · left
    obtain ⟨k, hk, _, _, e⟩ := lowest_bit v h
    have hv : (v &&& -v) &&& -(v &&& -v) = v &&& -v := by
      have hne : v &&& -v ≠ 0 := by
        rw [e]; intro h0
        have := congrArg (fun y => y.getLsbD k) h0
        simp only [getLsbD_one_shl, hk] at this
        simp at this
      obtain ⟨k', hk', hb, hl, e'⟩ := lowest_bit (v &&& -v) hne
      have : k' = k := by
        rw [e, getLsbD_one_shl] at hb
        simpa [hk'] using hb
      rw [e', e, this]
    unfold firstOne
    simp only [hv]

/-- `first_one_idx` returns the index of the lowest set bit. -/
theorem firstOne_spec (v : Size) (h : v ≠ 0) :
    firstOne v < 64 ∧ v.getLsbD (firstOne v) = true ∧ ∀ i, i < firstOne v → v.getLsbD i = false := by
  obtain ⟨k, hk, h1, h2, e⟩ := lowest_bit v h
  have : firstOne v = k := by
    rcases firstOne_low v with h3 | h3
    · rw [h3, e]
      exact firstOne_table ⟨k, hk⟩
    · exact absurd h3 h
  rw [this]
  exact ⟨hk, h1, h2⟩

/-! ### one word -/

/-- Number of set bits. -/
def pop (m : Size) : Nat := ((List.range 64).filter fun k => m.getLsbD k).length

theorem pop_le (m : Size) : pop m ≤ 64 := by
  unfold pop
  have := List.length_filter_le (fun k => m.getLsbD k) (List.range 64)
  simpa using this

theorem getLsbD_clear (m : Size) (k i : Nat) :
    (m &&& ~~~ (1#64 <<< k)).getLsbD i = (m.getLsbD i && !decide (i = k)) := by
  rw [BitVec.getLsbD_and, BitVec.getLsbD_not, getLsbD_one_shl]
  by_cases h : i < 64
  · simp [h]
  · have : m.getLsbD i = false := BitVec.getLsbD_of_ge m i (by omega)
    simp [this]

theorem pop_clear {m : Size} {k : Nat} (hk : k < 64) (h : m.getLsbD k = true) :
    pop (m &&& ~~~ (1#64 <<< k)) + 1 = pop m := by
  unfold pop
  have hmem : k ∈ (List.range 64).filter fun k => m.getLsbD k := by simp [hk, h]
  have hnd : ((List.range 64).filter fun k => m.getLsbD k).Nodup := List.nodup_range.filter _
  have e : ((List.range 64).filter fun i => (m &&& ~~~ (1#64 <<< k)).getLsbD i) =
      ((List.range 64).filter fun k => m.getLsbD k).erase k := by
    rw [hnd.erase_eq_filter, List.filter_filter]
    congr 1
    funext i
    rw [getLsbD_clear]
    by_cases hik : i = k
    · simp [hik]
    · have : (i != k) = true := by simpa using hik
      simp [hik]
  rw [e, List.length_erase_of_mem hmem]
  have := List.length_pos_of_mem hmem
  omega

/-- the value of bit `k` of word `j` at moment `t` -/
def bitAt (σ : Nat → Nat → Size) (t j k : Nat) : Bool := (σ t j).getLsbD k

theorem field_bit (x : Size) (v : Bool) (k : Nat) (hk : k < 64) :
    (if v then x else ~~~ x).getLsbD k = (x.getLsbD k == v) := by
  cases v
  · simp [hk]
  · simp

/-- What a search in one word does. -/
structure ChunkSpec {τ : Type} (σ : Nat → Nat → Size) (f : Nat → Nat → Option τ) (v : Bool) (j t : Nat)
    (mask : Size) (r : Probe τ) : Prop where
  ok : r.stuck = false
  later : t ≤ r.time
  /-- offered indices belong to the mask and have been seen with the expected value -/
  sound : ∀ o ∈ r.offers, ∃ k, k < 64 ∧ mask.getLsbD k = true ∧ o.2 = j * 64 + k ∧
    bitAt σ o.1 j k = v ∧ t ≤ o.1 ∧ o.1 < r.time
  /-- in ascending order of time -/
  nodup : (r.offers.map Prod.snd).Nodup
  /-- a search without result has offered everything that kept the value, and was declined -/
  complete : r.res = none → ∀ k, k < 64 → mask.getLsbD k = true →
    (∀ u, t ≤ u → u < r.time → bitAt σ u j k = v) → ∃ o ∈ r.offers, o.2 = j * 64 + k
  declined : r.res = none → ∀ o ∈ r.offers, f (o.1 + 1) o.2 = none
  result : ∀ x, r.res = some x → ∃ o ∈ r.offers, f (o.1 + 1) o.2 = some x
  early : ∀ o ∈ r.offers, o.1 + 1 < r.time

theorem probeChunk_spec {τ : Type} (σ : Nat → Nat → Size) (f : Nat → Nat → Option τ) (v : Bool)
    (j : Nat) : ∀ fuel t mask, pop mask < fuel →
      ChunkSpec σ f v j t mask (probeChunk σ f v j fuel t mask) := by
  intro fuel
  induction fuel with
  | zero => intro t mask h; omega
  | succ fuel ih =>
    intro t mask hfuel
    rw [probeChunk]
    simp only
    by_cases hm : (if v then σ t j else ~~~ (σ t j)) &&& mask = 0
    · rw [if_pos hm]
      refine ⟨rfl, by simp, by simp, by simp, ?_, by simp, by simp, by simp⟩
      intro _ k hk hmask hkeep
      exfalso
      have := congrArg (fun y => y.getLsbD k) hm
      simp only [BitVec.getLsbD_and, hmask, Bool.and_true] at this
      rw [field_bit _ _ _ hk] at this
      have hb := hkeep t (Nat.le_refl _) (by simp)
      unfold bitAt at hb
      rw [hb] at this
      simp at this
    · rw [if_neg hm]
      obtain ⟨hk64, hbit, _⟩ := firstOne_spec _ hm
      generalize hk : firstOne ((if v then σ t j else ~~~ (σ t j)) &&& mask) = k at hk64 hbit
      rw [BitVec.getLsbD_and, field_bit _ _ _ hk64, Bool.and_eq_true, beq_iff_eq] at hbit
      obtain ⟨hval, hmaskk⟩ := hbit
      rw [if_pos hk64]
      cases hf : f (t + 1) (j * 64 + k) with
      | some x =>
        refine ⟨rfl, by simp, ?_, by simp, by simp, by simp, ?_, by simp⟩
        · intro o ho
          simp only [List.mem_singleton] at ho
          subst ho
          exact ⟨k, hk64, hmaskk, rfl, hval, Nat.le_refl _, by simp⟩
        · intro y hy
          cases hy
          exact ⟨_, List.mem_singleton.2 rfl, hf⟩
      | none =>
        have hp := pop_clear hk64 hmaskk
        have hr := ih (t + 2) (mask &&& ~~~ (1#64 <<< k)) (by omega)
        have hlater := hr.later
        refine ⟨hr.ok, by simp only; omega, ?_, ?_, ?_, ?_, ?_, ?_⟩
        · intro o ho
          rcases List.mem_cons.1 ho with rfl | ho
          · exact ⟨k, hk64, hmaskk, rfl, hval, Nat.le_refl _, by simp only; omega⟩
          · obtain ⟨i, i1, i2, i3, i4, i5, i6⟩ := hr.sound o ho
            rw [getLsbD_clear, Bool.and_eq_true] at i2
            exact ⟨i, i1, i2.1, i3, i4, by omega, i6⟩
        · rw [List.map_cons, List.nodup_cons]
          refine ⟨?_, hr.nodup⟩
          intro hmem
          obtain ⟨o, ho, e⟩ := List.mem_map.1 hmem
          obtain ⟨i, i1, i2, i3, _⟩ := hr.sound o ho
          rw [getLsbD_clear, Bool.and_eq_true] at i2
          simp only at e
          have : i = k := by omega
          simp [this] at i2
        · intro hnone i hi hmi hkeep
          by_cases hik : i = k
          · subst hik
            exact ⟨_, List.mem_cons_self, rfl⟩
          · obtain ⟨o, ho, e⟩ := hr.complete hnone i hi (by rw [getLsbD_clear]; simp [hmi, hik])
              (fun u hu hu' => hkeep u (by omega) hu')
            exact ⟨o, List.mem_cons_of_mem _ ho, e⟩
        · intro hnone o ho
          rcases List.mem_cons.1 ho with rfl | ho
          · exact hf
          · exact hr.declined hnone o ho
        · intro x hx
          obtain ⟨o, ho, e⟩ := hr.result x hx
          exact ⟨o, List.mem_cons_of_mem _ ho, e⟩
        · intro o ho
          rcases List.mem_cons.1 ho with rfl | ho
          · simp only; omega
          · exact hr.early o ho

/-! ### several words -/

/-- The elements of a plan entry. -/
def entryHas (e : Nat × Size) (idx : Nat) : Prop := idx / 64 = e.1 ∧ e.2.getLsbD (idx % 64) = true

/-- What a search over several words does. -/
structure ListSpec {τ : Type} (σ : Nat → Nat → Size) (f : Nat → Nat → Option τ) (v : Bool)
    (l : List (Nat × Size)) (t : Nat) (r : Probe τ) : Prop where
  ok : r.stuck = false
  later : t ≤ r.time
  sound : ∀ o ∈ r.offers, (∃ e ∈ l, entryHas e o.2) ∧ get (σ o.1) o.2 = v ∧ t ≤ o.1 ∧ o.1 < r.time
  nodup : (l.Pairwise fun a b => ∀ i, entryHas a i → ¬ entryHas b i) →
    (r.offers.map Prod.snd).Nodup
  complete : r.res = none → ∀ e ∈ l, ∀ i, entryHas e i →
    (∀ u, t ≤ u → u < r.time → get (σ u) i = v) → ∃ o ∈ r.offers, o.2 = i
  declined : r.res = none → ∀ o ∈ r.offers, f (o.1 + 1) o.2 = none
  result : ∀ x, r.res = some x → ∃ o ∈ r.offers, f (o.1 + 1) o.2 = some x
  early : ∀ o ∈ r.offers, o.1 + 1 < r.time

theorem idx_div (j k : Nat) (hk : k < 64) : (j * 64 + k) / 64 = j ∧ (j * 64 + k) % 64 = k := by omega

theorem probeList_spec {τ : Type} (σ : Nat → Nat → Size) (f : Nat → Nat → Option τ) (v : Bool)
    (l : List (Nat × Size)) : ∀ t, ListSpec σ f v l t (probeList σ f v l t) := by
  induction l with
  | nil => intro t; exact ⟨rfl, Nat.le_refl _, by simp [probeList], by simp [probeList],
      by simp, by simp [probeList], by simp [probeList], by simp [probeList]⟩
  | cons e l ih =>
    intro t
    obtain ⟨j, mask⟩ := e
    have hc := probeChunk_spec σ f v j 65 t mask (by have := pop_le mask; omega)
    have hsound : ∀ o ∈ (probeChunk σ f v j 65 t mask).offers, entryHas (j, mask) o.2 ∧
        get (σ o.1) o.2 = v ∧ t ≤ o.1 ∧ o.1 < (probeChunk σ f v j 65 t mask).time := by
      intro o ho
      obtain ⟨k, h1, h2, h3, h4, h5, h6⟩ := hc.sound o ho
      obtain ⟨d1, d2⟩ := idx_div j k h1
      refine ⟨⟨by rw [h3, d1], by rw [h3, d2]; exact h2⟩, ?_, h5, h6⟩
      rw [get_eq, h3, d1, d2]
      exact h4
    rw [probeList]
    simp only
    cases hres : (probeChunk σ f v j 65 t mask).res with
    | some x =>
      refine ⟨hc.ok, hc.later, ?_, fun _ => hc.nodup, by simp, by simp, ?_, hc.early⟩
      · intro o ho
        obtain ⟨h1, h2⟩ := hsound o ho
        exact ⟨⟨_, List.mem_cons_self, h1⟩, h2⟩
      · intro y hy
        cases hy
        exact hc.result x hres
    | none =>
      have hl := ih (probeChunk σ f v j 65 t mask).time
      have l1 := hc.later
      have l2 := hl.later
      refine ⟨?_, ?_, ?_, ?_, ?_, ?_, ?_, ?_⟩
      · simp only [hc.ok, hl.ok, Bool.or_self]
      · simp only; omega
      · intro o ho
        rcases List.mem_append.1 ho with ho | ho
        · obtain ⟨h1, h2, h3, h4⟩ := hsound o ho
          exact ⟨⟨_, List.mem_cons_self, h1⟩, h2, h3, by simp only; omega⟩
        · obtain ⟨⟨e, he, h1⟩, h2, h3, h4⟩ := hl.sound o ho
          exact ⟨⟨e, List.mem_cons_of_mem _ he, h1⟩, h2, by omega, h4⟩
      · intro hp
        rw [List.pairwise_cons] at hp
        rw [List.map_append, List.nodup_append]
        refine ⟨hc.nodup, hl.nodup hp.2, ?_⟩
        intro a ha b hb hab
        obtain ⟨o, ho, rfl⟩ := List.mem_map.1 ha
        obtain ⟨o', ho', rfl⟩ := List.mem_map.1 hb
        obtain ⟨h1, _⟩ := hsound o ho
        obtain ⟨⟨e, he, h2⟩, _⟩ := hl.sound o' ho'
        exact hp.1 e he _ h1 (by rw [hab]; exact h2)
      · intro hnone e he i hi hkeep
        simp only at hnone hkeep
        rcases List.mem_cons.1 he with rfl | he
        · obtain ⟨o, ho, e⟩ := hc.complete hres (i % 64) (Nat.mod_lt _ (by decide)) hi.2
            (fun u hu hu' => by
              have := hkeep u hu (by omega)
              rw [get_eq, hi.1] at this
              exact this)
          refine ⟨o, List.mem_append_left _ ho, ?_⟩
          have := hi.1
          simp only at this
          omega
        · obtain ⟨o, ho, e⟩ := hl.complete hnone e he i hi
            (fun u hu hu' => hkeep u (by omega) hu')
          exact ⟨o, List.mem_append_right _ ho, e⟩
      · intro hnone o ho
        rcases List.mem_append.1 ho with ho | ho
        · exact hc.declined hres o ho
        · exact hl.declined hnone o ho
      · intro x hx
        obtain ⟨o, ho, e⟩ := hl.result x hx
        exact ⟨o, List.mem_append_right _ ho, e⟩
      · intro o ho
        rcases List.mem_append.1 ho with ho | ho
        · have := hc.early o ho
          simp only; omega
        · exact hl.early o ho

/-! ### the plan -/

theorem getLsbD_lowMask (r i : Nat) (hr : r < 64) :
    ((1#64 <<< r) - 1).getLsbD i = decide (i < r) := by
  have : (1#64 <<< r) - 1 = BitVec.ofNat 64 (2 ^ r - 1) := by
    apply BitVec.eq_of_toNat_eq
    have h1 : 2 ^ r < 2 ^ 64 := Nat.pow_lt_pow_right (by decide) hr
    have h2 : 0 < 2 ^ r := Nat.two_pow_pos r
    have h3 : (1#64 <<< r).toNat = 2 ^ r := by
      rw [BitVec.toNat_shiftLeft]
      simp only [BitVec.toNat_ofNat, Nat.shiftLeft_eq]
      rw [Nat.mod_eq_of_lt (by decide : 1 < 2 ^ 64), Nat.one_mul, Nat.mod_eq_of_lt h1]
    have h4 : (1 : Size).toNat = 1 := rfl
    rw [BitVec.toNat_sub_of_le (by rw [BitVec.le_def, h3, h4]; exact h2), h3, h4, BitVec.toNat_ofNat,
      Nat.mod_eq_of_lt (by omega)]
  rw [this, BitVec.getLsbD_ofNat, Nat.testBit_two_pow_sub_one]
  by_cases h : i < r
  · have : i < 64 := by omega
    simp [h, this]
  · simp [h]

theorem getLsbD_rangeMask (size j : Nat) (m : Size) (k : Nat) (hj : j < nWords size) (hk : k < 64) :
    (rangeMask size j m).getLsbD k = (m.getLsbD k && decide (j * 64 + k < size)) := by
  unfold rangeMask
  unfold nWords at *
  split
  · rename_i h
    rw [BitVec.getLsbD_and, getLsbD_lowMask _ _ (Nat.mod_lt _ (by decide))]
    congr 1
    rw [decide_eq_decide]
    omega
  · rename_i h
    have : j * 64 + k < size := by omega
    simp [this]

theorem getLsbD_high (s k : Nat) (hk : k < 64) :
    (BitVec.allOnes 64 <<< s).getLsbD k = decide (s ≤ k) := by
  rw [BitVec.getLsbD_shiftLeft, BitVec.getLsbD_allOnes]
  have : k - s < 64 := by omega
  by_cases h : k < s
  · have : ¬ s ≤ k := by omega
    simp [h, this]
  · have : s ≤ k := by omega
    simp [h, hk, this]
    omega

/-- The elements of the first entry: those in the word of `start` before it. -/
theorem plan_second {size start : Nat} (ex : Bool) (hs : start < size) (idx : Nat) :
    entryHas (plan size start ex).head! idx ↔ idx / 64 = start / 64 ∧ idx < start := by
  have hj : start / 64 < nWords size := by unfold nWords; omega
  have hk : idx % 64 < 64 := Nat.mod_lt _ (by decide)
  have : (plan size start ex).head! = (start / 64,
      if ex then rangeMask size (start / 64) (~~~ (BitVec.allOnes 64 <<< (start % 64))) &&&
        ~~~ (1#64 <<< (start % 64))
      else rangeMask size (start / 64) (~~~ (BitVec.allOnes 64 <<< (start % 64)))) := rfl
  rw [this]
  unfold entryHas
  simp only
  constructor
  · rintro ⟨h1, h2⟩
    refine ⟨h1, ?_⟩
    have h3 : (rangeMask size (start / 64) (~~~ (BitVec.allOnes 64 <<< (start % 64)))).getLsbD
        (idx % 64) = true := by
      cases ex
      · exact h2
      · simp only [if_true] at h2
        rw [BitVec.getLsbD_and, Bool.and_eq_true] at h2
        exact h2.1
    rw [getLsbD_rangeMask _ _ _ _ hj hk, BitVec.getLsbD_not, getLsbD_high _ _ hk, Bool.and_eq_true,
      Bool.and_eq_true] at h3
    have h4 := h3.1.2
    simp only [Bool.not_eq_true', decide_eq_false_iff_not] at h4
    omega
  · rintro ⟨h1, h2⟩
    refine ⟨h1, ?_⟩
    have h3 : (rangeMask size (start / 64) (~~~ (BitVec.allOnes 64 <<< (start % 64)))).getLsbD
        (idx % 64) = true := by
      rw [getLsbD_rangeMask _ _ _ _ hj hk, BitVec.getLsbD_not, getLsbD_high _ _ hk]
      have a1 : ¬ start % 64 ≤ idx % 64 := by omega
      have a2 : start / 64 * 64 + idx % 64 < size := by omega
      simp [hk, a1, a2]
    cases ex
    · exact h3
    · simp only [if_true]
      rw [getLsbD_clear, h3]
      have : ¬ idx % 64 = start % 64 := by omega
      simp [this]

theorem plan_eq (size start : Nat) (ex : Bool) :
    plan size start ex = (plan size start ex).head! ::
      (start / 64, rangeMask size (start / 64) (BitVec.allOnes 64 <<< (start % 64))) ::
      (List.range' 1 (nWords size - 1)).map fun b =>
        ((start / 64 + b) % nWords size,
          rangeMask size ((start / 64 + b) % nWords size) (BitVec.allOnes 64)) := rfl

theorem plan_first {size start : Nat} (hs : start < size) (idx : Nat) :
    entryHas (start / 64, rangeMask size (start / 64) (BitVec.allOnes 64 <<< (start % 64))) idx ↔
      idx / 64 = start / 64 ∧ start ≤ idx ∧ idx < size := by
  have hj : start / 64 < nWords size := by unfold nWords; omega
  have hk : idx % 64 < 64 := Nat.mod_lt _ (by decide)
  unfold entryHas
  simp only
  rw [getLsbD_rangeMask _ _ _ _ hj hk, getLsbD_high _ _ hk, Bool.and_eq_true, decide_eq_true_eq,
    decide_eq_true_eq]
  omega

theorem plan_other {size j : Nat} (hj : j < nWords size) (idx : Nat) :
    entryHas (j, rangeMask size j (BitVec.allOnes 64)) idx ↔ idx / 64 = j ∧ idx < size := by
  have hk : idx % 64 < 64 := Nat.mod_lt _ (by decide)
  unfold entryHas
  simp only
  rw [getLsbD_rangeMask _ _ _ _ hj hk, BitVec.getLsbD_allOnes, Bool.and_eq_true, decide_eq_true_eq,
    decide_eq_true_eq]
  omega

theorem add_mod_cases {s b n : Nat} (hs : s < n) (hb : b < n) :
    ((s + b) % n = s + b ∧ s + b < n) ∨ ((s + b) % n = s + b - n ∧ n ≤ s + b) := by
  by_cases h : s + b < n
  · exact .inl ⟨Nat.mod_eq_of_lt h, h⟩
  · right
    refine ⟨?_, by omega⟩
    rw [Nat.mod_eq_sub_mod (by omega), Nat.mod_eq_of_lt (by omega)]

/-- Every index in range is in exactly one entry of the plan, and no other index is. -/
theorem plan_covers {size start : Nat} (ex : Bool) (hs : start < size) (idx : Nat) :
    (∃ e ∈ plan size start ex, entryHas e idx) ↔ idx < size := by
  have hj : start / 64 < nWords size := by unfold nWords; omega
  rw [plan_eq]
  constructor
  · rintro ⟨e, he, h⟩
    rcases List.mem_cons.1 he with rfl | he
    · have := (plan_second ex hs idx).1 h; omega
    rcases List.mem_cons.1 he with rfl | he
    · exact ((plan_first hs idx).1 h).2.2
    · obtain ⟨b, hb, rfl⟩ := List.mem_map.1 he
      exact ((plan_other (Nat.mod_lt _ (by omega)) idx).1 h).2
  · intro hi
    by_cases h1 : idx / 64 = start / 64
    · by_cases h2 : idx < start
      · exact ⟨_, List.mem_cons_self, (plan_second ex hs idx).2 ⟨h1, h2⟩⟩
      · exact ⟨_, List.mem_cons_of_mem _ List.mem_cons_self,
          (plan_first hs idx).2 ⟨h1, by omega, hi⟩⟩
    · have hn : idx / 64 < nWords size := by unfold nWords; omega
      refine ⟨(idx / 64, rangeMask size (idx / 64) (BitVec.allOnes 64)), ?_, (plan_other hn idx).2 ⟨rfl, hi⟩⟩
      refine List.mem_cons_of_mem _ (List.mem_cons_of_mem _ (List.mem_map.2 ?_))
      -- the distance from the start word
      by_cases hlt : start / 64 < idx / 64
      · refine ⟨idx / 64 - start / 64, by rw [List.mem_range'_1]; omega, ?_⟩
        rw [show start / 64 + (idx / 64 - start / 64) = idx / 64 by omega, Nat.mod_eq_of_lt hn]
      · refine ⟨idx / 64 + nWords size - start / 64, by rw [List.mem_range'_1]; omega, ?_⟩
        rw [show start / 64 + (idx / 64 + nWords size - start / 64) = idx / 64 + nWords size by omega,
          Nat.add_mod_right, Nat.mod_eq_of_lt hn]

theorem plan_disjoint {size start : Nat} (ex : Bool) (hs : start < size) :
    (plan size start ex).Pairwise fun a b => ∀ i, entryHas a i → ¬ entryHas b i := by
  have hj : start / 64 < nWords size := by unfold nWords; omega
  have hpos : 0 < nWords size := by omega
  have hrest : ∀ e ∈ (List.range' 1 (nWords size - 1)).map (fun b =>
      ((start / 64 + b) % nWords size,
        rangeMask size ((start / 64 + b) % nWords size) (BitVec.allOnes 64))), ∀ i,
      entryHas e i → i / 64 ≠ start / 64 := by
    intro e he i h
    obtain ⟨b, hb, rfl⟩ := List.mem_map.1 he
    have h1 := ((plan_other (Nat.mod_lt _ hpos) i).1 h).1
    rw [List.mem_range'_1] at hb
    have := add_mod_cases (s := start / 64) (b := b) hj (by omega)
    omega
  rw [plan_eq, List.pairwise_cons, List.pairwise_cons]
  refine ⟨?_, ?_, ?_⟩
  · intro e he i h1 h2
    have h3 := (plan_second ex hs i).1 h1
    rcases List.mem_cons.1 he with rfl | he
    · have := (plan_first hs i).1 h2; omega
    · exact hrest e he i h2 h3.1
  · intro e he i h1 h2
    have h3 := (plan_first hs i).1 h1
    exact hrest e he i h2 h3.1
  · rw [List.pairwise_map]
    have hlt : (List.range' 1 (nWords size - 1)).Pairwise (· < ·) := List.pairwise_lt_range'
    refine List.Pairwise.imp_of_mem ?_ hlt
    intro a b ha hb hab i h1 h2
    have e1 := ((plan_other (Nat.mod_lt _ hpos) i).1 h1).1
    have e2 := ((plan_other (Nat.mod_lt _ hpos) i).1 h2).1
    rw [List.mem_range'_1] at ha hb
    have c1 := add_mod_cases (s := start / 64) (b := a) hj (by omega)
    have c2 := add_mod_cases (s := start / 64) (b := b) hj (by omega)
    omega

/-! ### C42 -/

/-- C42: for every size, start position, expected value and whatever the other threads write during
the search (`σ`) and the callback answers (`f`):
the search ends; only indices in range that were seen with the expected value are offered, none of
them twice; if it returns nothing then every index that kept the expected value during the search was
offered, and the callback declined all offers; if it returns something, this is what the callback
returned for an offered index. -/
theorem C42_probe {τ : Type} (σ : Nat → Nat → Size) (f : Nat → Nat → Option τ) (size start : Nat)
    (v ex : Bool) (hs : start < size) :
    let r := probe σ f size v start ex
    r.stuck = false ∧
    (∀ o ∈ r.offers, o.2 < size ∧ get (σ o.1) o.2 = v) ∧
    (r.offers.map Prod.snd).Nodup ∧
    (r.res = none → ∀ i, i < size → (∀ u, u < r.time → get (σ u) i = v) → ∃ o ∈ r.offers, o.2 = i) ∧
    (r.res = none → ∀ o ∈ r.offers, f (o.1 + 1) o.2 = none) ∧
    (∀ x, r.res = some x → ∃ o ∈ r.offers, f (o.1 + 1) o.2 = some x) := by
  intro r
  have h := probeList_spec σ f v (plan size start ex) 0
  refine ⟨h.ok, ?_, h.nodup (plan_disjoint ex hs), ?_, h.declined, h.result⟩
  · intro o ho
    obtain ⟨he, h2, _⟩ := h.sound o ho
    exact ⟨(plan_covers ex hs o.2).1 he, h2⟩
  · intro hnone i hi hkeep
    obtain ⟨e, he, hei⟩ := (plan_covers ex hs i).2 hi
    exact h.complete hnone e he i hei (fun u _ hu => hkeep u hu)

/-- 70 workers, the search starts at 65; workers 3, 66 and 69 are available; the callback accepts 69 only -/
example :
    let r := probe (fun _ j => if j = 0 then 8 else 0b100100) (fun _ i => if i = 69 then some i else none)
      70 true 65 true
    r.res = some 69 ∧ r.offers.map Prod.snd = [66, 69] ∧ 65 < 70 := by decide

/-! ### C43 -/

/-- C43 (partial): the indices in the word of the start position are offered before all others.
Missing: within this word the order is the wrong way round (`C43_order_false`), and the start position
is offered although it is to be excluded (`C43_start_offered_false`). -/
theorem C43_start_word_first_partial {τ : Type} (σ : Nat → Nat → Size) (f : Nat → Nat → Option τ)
    (size start : Nat) (v ex : Bool) (hs : start < size) :
    ∃ a b : List (Nat × Nat), (probe σ f size v start ex).offers = a ++ b ∧
      (∀ o ∈ a, o.2 / 64 = start / 64) ∧ (∀ o ∈ b, o.2 / 64 ≠ start / 64) := by
  have hj : start / 64 < nWords size := by unfold nWords; omega
  -- the offers of a list of entries of the start word / of other words
  have hrest : ∀ (t : Nat), ∀ o ∈ (probeList σ f v ((List.range' 1 (nWords size - 1)).map (fun b =>
        ((start / 64 + b) % nWords size,
          rangeMask size ((start / 64 + b) % nWords size) (BitVec.allOnes 64)))) t).offers,
      o.2 / 64 ≠ start / 64 := by
    intro t o ho
    obtain ⟨⟨e, he, h1⟩, _⟩ := (probeList_spec σ f v _ t).sound o ho
    obtain ⟨b, hb, rfl⟩ := List.mem_map.1 he
    have h2 := ((plan_other (Nat.mod_lt _ (by omega)) _).1 h1).1
    rw [List.mem_range'_1] at hb
    have := add_mod_cases (s := start / 64) (b := b) hj (by omega)
    omega
  have hword : ∀ mask t, ∀ o ∈ (probeChunk σ f v (start / 64) 65 t mask).offers,
      o.2 / 64 = start / 64 := by
    intro mask t o ho
    have hc := probeChunk_spec σ f v (start / 64) 65 t mask (by have := pop_le mask; omega)
    obtain ⟨k, h1, _, h3, _⟩ := hc.sound o ho
    rw [h3]; omega
  have hhead : (plan size start ex).head! = (start / 64, (plan size start ex).head!.2) := by
    cases ex <;> rfl
  unfold probe
  rw [plan_eq, hhead, probeList]
  simp only
  split
  · exact ⟨_, [], (List.append_nil _).symm, hword _ _, by simp⟩
  · rw [probeList]
    simp only
    split
    · refine ⟨_ ++ _, [], (List.append_nil _).symm, ?_, by simp⟩
      intro o ho
      rcases List.mem_append.1 ho with ho | ho
      · exact hword _ _ o ho
      · exact hword _ _ o ho
    · refine ⟨_ ++ _, _, (List.append_assoc _ _ _).symm, ?_, hrest _⟩
      intro o ho
      rcases List.mem_append.1 ho with ho | ho
      · exact hword _ _ o ho
      · exact hword _ _ o ho

/-- C43 is false: 4 workers, all available, search from 1: the preceding worker 0 is offered first. -/
theorem C43_order_false :
    (probe (τ := Nat) (fun _ _ => 0xF) (fun _ _ => none) 4 true 1 true).offers.map Prod.snd =
      [0, 1, 2, 3] := by decide

/-- C43 is false: with `exclude_start` the start position is offered; moreover this is so whenever
the start position keeps the value and the callback declines everything. -/
theorem C43_start_offered_false {τ : Type} (σ : Nat → Nat → Size) (size start : Nat) (v : Bool)
    (hs : start < size) (hkeep : ∀ u, get (σ u) start = v) :
    ∃ o ∈ (probe (τ := τ) σ (fun _ _ => none) size v start true).offers, o.2 = start := by
  obtain ⟨_, _, _, h, _, h'⟩ := C42_probe (τ := τ) σ (fun _ _ => none) size start v true hs
  have hnone : (probe (τ := τ) σ (fun _ _ => none) size v start true).res = none := by
    cases hr : (probe (τ := τ) σ (fun _ _ => none) size v start true).res with
    | none => rfl
    | some x =>
      obtain ⟨_, _, e⟩ := h' x hr
      cases e
  exact h hnone start hs (fun u _ => hkeep u)

example : (2 : Nat) < 4 ∧ ∀ u : Nat, get ((fun _ _ => 0xF : Nat → Nat → Size) u) 2 = true :=
  ⟨by decide, fun _ => by show get (fun _ => 0xF) 2 = true; decide⟩

/-! ### C44 -/

/-- C44, one call (partial: at most 32 workers): whatever the other threads do, the result is a worker
in range that was available at the moment of the claim; and if some worker is available whenever it is
looked at, then some worker is returned. Missing: more than 32 workers, see `C44_not_claimed_false`. -/
theorem C44_find_free_partial (σ : Nat → Nat → Size) (size start : Nat) (hs : start < size)
    (h32 : size ≤ 32) :
    let r := findFree σ size start
    r.stuck = false ∧
    (∀ w, r.res = some w → w < size ∧ ∃ t, t < r.time ∧ get (σ t) w = true ∧ claim (σ t) w = true) ∧
    (∀ w, w < size → (∀ t, t ≤ r.time → get (σ t) w = true) → r.res ≠ none) := by
  intro r
  obtain ⟨h1, h2, h3, h4, h5, h6⟩ := C42_probe σ
    (fun t idx => if claim (σ t) idx then some idx else none) size start true true hs
  have hearly := (probeList_spec σ (fun t idx => if claim (σ t) idx then some idx else none) true
    (plan size start true) 0).early
  have hclaim : ∀ t w, w < size → claim (σ t) w = get (σ t) w := by
    intro t w hw
    unfold claim
    rw [C41_set_returns_previous_partial _ _ (by omega)]
    cases get (σ t) w <;> rfl
  refine ⟨h1, ?_, ?_⟩
  · intro w hw
    obtain ⟨o, ho, e⟩ := h6 w hw
    split at e
    · rename_i hcl
      cases e
      have hlt := (h2 o ho).1
      refine ⟨hlt, o.1 + 1, hearly o ho, ?_, hcl⟩
      rw [← hclaim _ _ hlt]; exact hcl
    · cases e
  · intro w hw hkeep hnone
    obtain ⟨o, ho, e⟩ := h4 hnone w hw (fun u hu => hkeep u (Nat.le_of_lt hu))
    have hd := h5 hnone o ho
    simp only [e, hclaim _ _ hw] at hd
    have := hearly o ho
    rw [hkeep (o.1 + 1) (by exact Nat.le_of_lt this)] at hd
    simp at hd

/-- worker 2 of 4 is available -/
example : (findFree (fun _ _ => 4) 4 0).res = some 2 ∧ 0 < 4 ∧ 4 ≤ 32 := by decide

/-- Operations on the worker states, in the order of their atomic updates: `avail w` (a worker
announces itself), `claimed w ok` (an activator tries to claim it; `ok` is what it is told). -/
inductive Op
  | avail (w : Nat)
  | claimed (w : Nat) (ok : Bool)
  deriving DecidableEq

/-- Words after a history, and whether the reported results are those of the code. -/
def run (w : Nat → Size) : List Op → (Nat → Size) × Prop
  | [] => (w, True)
  | .avail i :: l =>
    let r := run (setWords w i true) l
    (r.1, r.2)
  | .claimed i ok :: l =>
    let r := run (setWords w i false) l
    (r.1, ok = claim w i ∧ r.2)

/-- If worker `i` is busy, the next successful claim comes after it has announced itself. -/
theorem claim_needs_avail {i : Nat} : ∀ (l : List Op) (w : Nat → Size),
    get w i = false → (run w l).2 → ∀ a b, l = a ++ .claimed i true :: b → .avail i ∈ a := by
  intro l
  induction l with
  | nil => intro w _ _ a b h; cases a <;> cases h
  | cons op l ih =>
    intro w hw hv a b h
    cases a with
    | nil =>
      exfalso
      cases h
      have hc := hv.1
      unfold claim at hc
      rw [setRet_eq, hw] at hc
      simp at hc
    | cons x a =>
      cases h
      cases op with
      | avail j =>
        by_cases hj : j = i
        · subst hj; exact List.mem_cons_self
        · refine List.mem_cons_of_mem _ (ih _ ?_ hv a b rfl)
          rw [C41_set_changes_exactly, if_neg (fun e => hj e.symm)]; exact hw
      | claimed j ok =>
        refine List.mem_cons_of_mem _ (ih _ ?_ hv.2 a b rfl)
        rw [C41_set_changes_exactly]
        split
        · rfl
        · exact hw

/-- C44, concurrent calls: in any history of atomic updates, between two successful claims of the same
worker this worker has announced itself as available again. -/
theorem C44_unique_claim (w : Nat → Size) (l a m b : List Op) (i : Nat) (hv : (run w l).2)
    (hl : l = a ++ .claimed i true :: m ++ .claimed i true :: b) : .avail i ∈ m := by
  subst hl
  induction a generalizing w with
  | nil =>
    refine claim_needs_avail _ (setWords w i false) ?_ hv.2 m b rfl
    rw [C41_set_changes_exactly, if_pos rfl]
  | cons op a ih =>
    cases op with
    | avail j => exact ih _ hv
    | claimed j ok => exact ih _ hv.2

example : (run (fun _ => 0) [.avail 1, .claimed 1 true, .avail 1, .claimed 1 true]).2 := by
  refine ⟨?_, ?_, trivial⟩ <;> decide

/-- C44 is false for more than 32 workers: worker 39 is the only available one (of 40); the call marks
it busy without claiming it, and reports that no worker is free. -/
theorem C44_not_claimed_false :
    get (fun _ => 0x8000000000) 39 = true ∧
    (findFree (fun _ _ => 0x8000000000) 40 0).res = none ∧
    ((findFree (fun _ _ => 0x8000000000) 40 0).offers.map Prod.snd) = [39] ∧
    get (setWords (fun _ => 0x8000000000) 39 false) 39 = false := by decide

/-! ### C45 -/

/-- C45 (partial): if a free worker was found, or the activation happens on a worker thread, the task
is enqueued at an existing worker. Missing: activation by other threads while no worker is free, see
`C45_off_worker_false`. -/
theorem C45_enqueued_partial (nWorkers : Nat) (hn : 0 < nWorkers) (found current : Option Nat)
    (next : BitVec 32) (hf : ∀ w, found = some w → w < nWorkers)
    (hc : found ≠ none ∨ current ≠ none) :
    ∃ w next', activate nWorkers found current next = .enqueued w next' ∧ w < nWorkers := by
  unfold activate
  cases found with
  | some w => exact ⟨w, next, rfl, hf w rfl⟩
  | none =>
    cases current with
    | none => simp at hc
    | some cw =>
      simp only
      split
      · exact ⟨_, _, rfl, Nat.mod_lt _ hn⟩
      · exact ⟨_, _, rfl, Nat.mod_lt _ hn⟩

/-- C45, emplacement: a new task is given to an existing worker. -/
theorem C45_emplaced (nWorkers arena : Nat) (hn : 0 < nWorkers) : emplaceTo nWorkers arena < nWorkers :=
  Nat.mod_lt _ hn

/-- C45, together with the search: on a worker thread of a pool of at most 32 workers the chosen worker
exists whatever the states are. -/
theorem C45_activate_on_worker_partial (σ : Nat → Nat → Size) (nWorkers cw : Nat) (next : BitVec 32)
    (hcw : cw < nWorkers) (h32 : nWorkers ≤ 32) :
    ∃ w next', activate nWorkers (findFree σ nWorkers cw).res (some cw) next = .enqueued w next' ∧
      w < nWorkers :=
  C45_enqueued_partial nWorkers (by omega) _ _ next
    (fun w hw => ((C44_find_free_partial σ nWorkers cw hcw h32).2.1 w hw).1) (.inr (by simp))

example : ∃ w next', activate 4 (findFree (fun _ _ => 0) 4 2).res (some 2) 6 = .enqueued w next' ∧
    w < 4 := ⟨3, 8, by decide, by decide⟩

/-- C45 is false: a thread that is not a worker and activates a task while no worker is free
dereferences a null pointer. -/
theorem C45_off_worker_false (nWorkers : Nat) (next : BitVec 32) (hn : 0 < nWorkers)
    (h32 : nWorkers ≤ 32) (σ : Nat → Nat → Size) (hbusy : ∀ t w, w < nWorkers → get (σ t) w = false) :
    activate nWorkers (findFree σ nWorkers 0).res none next = .ub := by
  have h := (C44_find_free_partial σ nWorkers 0 hn h32).2.1
  cases hr : (findFree σ nWorkers 0).res with
  | none => rfl
  | some w =>
    obtain ⟨hw, t, _, ht, _⟩ := h w hr
    rw [hbusy t w hw] at ht
    cases ht

example : ∀ t w : Nat, w < 4 → get ((fun _ _ => 0 : Nat → Nat → Size) t) w = false := by
  intro t w _
  simp [get]

end RG.Bf
