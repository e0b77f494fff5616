import Verif.Model.Alloc
/-
Property C32: rounding of request sizes.
-/
namespace RG.Alloc

/-- bit `i` of `t` is set iff one of the bits `i … i+w-1` of `s` is set -/
def Window (s t : Size) (w : Nat) : Prop :=
  ∀ i, t.getLsbD i = true ↔ ∃ j, i ≤ j ∧ j < i + w ∧ s.getLsbD j = true

theorem window_one (s : Size) : Window s s 1 := by
  intro i
  constructor
  · intro h; exact ⟨i, Nat.le_refl _, by omega, h⟩
  · rintro ⟨j, h1, h2, h⟩
    have : j = i := by omega
    exact this ▸ h

theorem window_smear {s t : Size} {w : Nat} (h : Window s t w) : Window s (smear t w) (w + w) := by
  intro i
  rw [smear, BitVec.getLsbD_or, BitVec.getLsbD_ushiftRight, Bool.or_eq_true, h i, h (w + i)]
  constructor
  · rintro (⟨j, h1, h2, h3⟩ | ⟨j, h1, h2, h3⟩)
    · exact ⟨j, h1, by omega, h3⟩
    · exact ⟨j, by omega, by omega, h3⟩
  · rintro ⟨j, h1, h2, h3⟩
    by_cases hj : j < i + w
    · exact .inl ⟨j, h1, hj, h3⟩
    · exact .inr ⟨j, by omega, by omega, h3⟩

theorem window_all (s : Size) :
    Window s (smear (smear (smear (smear (smear (smear s 0x1) 0x2) 0x4) 0x8) 0x10) 0x20) 64 :=
  window_smear (window_smear (window_smear (window_smear (window_smear (window_smear
    (window_one s))))))

/-- After smearing, exactly the bits up to the highest set bit are set. -/
theorem smear_toNat (s : Size) (hs : s.toNat ≠ 0) :
    (smear (smear (smear (smear (smear (smear s 0x1) 0x2) 0x4) 0x8) 0x10) 0x20).toNat =
      2 ^ (s.toNat.log2 + 1) - 1 := by
  have hw := window_all s
  apply Nat.eq_of_testBit_eq
  intro i
  rw [Nat.testBit_two_pow_sub_one]
  have hbit : ∀ j, s.getLsbD j = true → j ≤ s.toNat.log2 := by
    intro j hj
    rw [← BitVec.testBit_toNat] at hj
    have := Nat.ge_two_pow_of_testBit hj
    exact (Nat.le_log2 hs).2 this
  have htop : s.getLsbD s.toNat.log2 = true := by
    rw [← BitVec.testBit_toNat]
    exact Nat.testBit_log2 hs
  have hlog : s.toNat.log2 < 64 := by
    have := s.isLt
    exact (Nat.log2_lt hs).2 this
  rw [BitVec.testBit_toNat]
  have := hw i
  by_cases hi : i < s.toNat.log2 + 1
  · rw [decide_eq_true hi]
    exact this.2 ⟨s.toNat.log2, by omega, by omega, htop⟩
  · rw [decide_eq_false hi]
    cases hb : (smear (smear (smear (smear (smear (smear s 0x1) 0x2) 0x4) 0x8) 0x10) 0x20).getLsbD i
    · rfl
    · obtain ⟨j, h1, _, h3⟩ := this.1 hb
      have := hbit j h3
      omega

/-- C32: for every request of 1 … 2^63 bytes the rounded size is the least power of two that is not
smaller than the request. -/
theorem C32_least_power_of_two (n : Size) (h1 : 1 ≤ n.toNat) (h2 : n.toNat ≤ 2 ^ 63) :
    ∃ k, (roundup n).toNat = 2 ^ k ∧ n.toNat ≤ 2 ^ k ∧ ∀ j, n.toNat ≤ 2 ^ j → k ≤ j := by
  have hsub : (n - 1).toNat = n.toNat - 1 := by
    rw [BitVec.toNat_sub]
    have : (1 : Size).toNat = 1 := rfl
    rw [this]
    have := n.isLt
    omega
  unfold roundup
  by_cases h0 : (n - 1).toNat = 0
  · have hn : n = 1 := by
      apply BitVec.eq_of_toNat_eq
      rw [hsub] at h0
      have : (1 : Size).toNat = 1 := rfl
      omega
    subst hn
    exact ⟨0, by decide, by decide, fun j _ => Nat.zero_le j⟩
  · have hs := smear_toNat (n - 1) h0
    have hlt : (n - 1).toNat.log2 < 63 := (Nat.log2_lt h0).2 (by omega)
    have hpow : 2 ^ ((n - 1).toNat.log2 + 1) ≤ 2 ^ 63 := Nat.pow_le_pow_right (by omega) (by omega)
    have hpos : 0 < 2 ^ ((n - 1).toNat.log2 + 1) := Nat.two_pow_pos _
    refine ⟨(n - 1).toNat.log2 + 1, ?_, ?_, ?_⟩
    · rw [BitVec.toNat_add, hs]
      have : (1 : Size).toNat = 1 := rfl
      rw [this]
      omega
    · have : (n - 1).toNat < 2 ^ ((n - 1).toNat.log2 + 1) := Nat.lt_log2_self
      omega
    · intro j hj
      have h3 : 2 ^ (n - 1).toNat.log2 ≤ (n - 1).toNat := Nat.log2_self_le h0
      have : 2 ^ (n - 1).toNat.log2 < 2 ^ j := by omega
      exact (Nat.pow_lt_pow_iff_right (by omega)).1 this

/-- C32: so the rounded size is never smaller than the request and less than twice as large. -/
theorem C32_bounds (n : Size) (h1 : 1 ≤ n.toNat) (h2 : n.toNat ≤ 2 ^ 63) :
    n.toNat ≤ (roundup n).toNat ∧ (roundup n).toNat < 2 * n.toNat := by
  obtain ⟨k, e, hle, hmin⟩ := C32_least_power_of_two n h1 h2
  rw [e]
  refine ⟨hle, ?_⟩
  cases k with
  | zero => omega
  | succ k =>
    rcases Nat.lt_or_ge (2 ^ k) n.toNat with h | h
    · rw [Nat.pow_succ]; omega
    · have := hmin k h; omega

/-- Outside of the range of C32: a request of more than 2^63 bytes is rounded to 0. -/
theorem roundup_huge (n : Size) (h : 2 ^ 63 < n.toNat) : roundup n = 0 := by
  have hsub : (n - 1).toNat = n.toNat - 1 := by
    rw [BitVec.toNat_sub]
    have : (1 : Size).toNat = 1 := rfl
    rw [this]
    have := n.isLt
    omega
  have hs := smear_toNat (n - 1) (by omega)
  have hlog : (n - 1).toNat.log2 = 63 := by
    have h1 : (n - 1).toNat.log2 < 64 := (Nat.log2_lt (by omega)).2 (n - 1).isLt
    have h2 : 63 ≤ (n - 1).toNat.log2 := (Nat.le_log2 (by omega)).2 (by omega)
    omega
  rw [hlog] at hs
  unfold roundup
  apply BitVec.eq_of_toNat_eq
  rw [BitVec.toNat_add, hs]
  decide

/-! concrete cases -/
example : roundup 40000 = 65536 := by decide +kernel
example : roundup 64 = 64 := by decide +kernel
example : 1 ≤ (40000 : Size).toNat ∧ (40000 : Size).toNat ≤ 2 ^ 63 := by decide
example : roundup 0 = 0 := by decide +kernel

end RG.Alloc
