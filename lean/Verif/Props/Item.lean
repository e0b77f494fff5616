import Verif.Model.Item
/-
Property C29: elements are destroyed exactly once and never while in use.
-/
set_option linter.unusedVariables false
namespace RG.Item

variable {g : Guard} {n : Nat} {s s' : State}

/-- `refcount` includes this iterator -/
def counts : Pc → Bool
  | .loadOff2 _ | .dec _ | .hold true => true
  | _ => false

theorem cnt_upd {f : Nat → Pc} {t : Nat} {v : Pc} (ht : t < n) :
    (cnt n counts (upd f t v) : Int) + (if counts (f t) then 1 else 0) = cnt n counts f + (if counts v then 1 else 0) := by
  have := cnt_update n counts f t v ht
  unfold upd
  split at this <;> split at this <;> simp_all <;> omega

structure Inv (n : Nat) (s : State) : Prop where
  ref : s.ref = cnt n counts s.pcs - (if s.rpc = .done then 1 else 0) - s.bad
  gone : s.gone = true ↔ s.rpc ≠ .idle
  /-- no iterator that is not counted has appeared, or there is no counted one any more -/
  bad : (s.bad = 0 ∧ ∀ t, t < n → s.pcs t ≠ .hold false ∧ s.pcs t ≠ .dec true) ∨
    (s.rpc = .done ∧ ∀ t, t < n → s.pcs t ≠ .hold true)
  destroyed : 0 < s.dtors → s.rpc = .done ∧ ∀ t, t < n → s.pcs t ≠ .hold true
  neg : ∀ t old, t < n → s.pcs t = .loadOff2 old → old < 0 → s.rpc = .done

theorem none_hold {f : Nat → Pc} (h : cnt n counts f = 0) : ∀ t, t < n → f t ≠ .hold true := by
  intro t ht e
  have := cnt_eq_zero.1 h t ht
  rw [e] at this
  cases this

set_option maxHeartbeats 2000000 in
theorem inv (h : Reach g n s) : Inv n s := by
  induction h with
  | init =>
    constructor
    · have : cnt n counts init.pcs = 0 := cnt_eq_zero.2 (by intro t _; rfl)
      rw [this]; simp [init]
    all_goals simp [init]
  | @step s s' hr hs ih =>
    obtain ⟨h1, h2, h3, h4, h5⟩ := ih
    have hcu := fun (t : Nat) (v : Pc) (ht : t < n) => cnt_upd (f := s.pcs) (v := v) ht
    have hz := none_hold (n := n) (f := s.pcs)
    have hneg : s.ref < 0 → s.rpc = .done ∧ ∀ t, t < n → s.pcs t ≠ .hold true := by
      intro hneg
      rcases h3 with h3 | h3
      · by_cases hd : s.rpc = .done
        · rw [if_pos hd] at h1
          exact ⟨hd, hz (by omega)⟩
        · rw [if_neg hd] at h1; omega
      · exact h3
    cases hs with
    | begin ht h hg =>
      rename_i t
      have := hcu t .loadOff ht
      rw [h] at this
      simp only [counts, Bool.false_eq_true, if_false] at this
      constructor <;> dsimp only
      · omega
      · exact h2
      all_goals (clear h1 hcu this hz; grind [upd])
    | loadOff ht h =>
      rename_i t
      have := hcu t (if s.gone then .idle else .loadRef) ht
      rw [h] at this
      have e : counts (if s.gone then Pc.idle else .loadRef) = false := by split <;> rfl
      rw [e] at this
      simp only [counts, Bool.false_eq_true, if_false] at this
      constructor <;> dsimp only
      · omega
      · exact h2
      all_goals (clear h1 hcu this hz; grind [upd])
    | loadRef ht h hr =>
      rename_i t
      have := hcu t .add ht
      rw [h] at this
      simp only [counts, Bool.false_eq_true, if_false] at this
      constructor <;> dsimp only
      · omega
      · exact h2
      all_goals (clear h1 hcu this hz; grind [upd])
    | loadRefNeg ht h hr hg =>
      rename_i t
      have := hcu t (.hold false) ht
      rw [h] at this
      simp only [counts, Bool.false_eq_true, if_false] at this
      constructor <;> dsimp only
      · omega
      · exact h2
      all_goals (clear h1 hcu this hz; grind [upd])
    | add ht h =>
      rename_i t
      have := hcu t (.loadOff2 s.ref) ht
      rw [h] at this
      simp only [counts, Bool.false_eq_true, if_false, if_true] at this
      constructor <;> dsimp only
      · omega
      · exact h2
      all_goals (clear h1 hcu this hz; grind [upd])
    | loadOff2 ht h ho =>
      rename_i t old
      have := hcu t (if s.gone then .dec false else .hold true) ht
      rw [h] at this
      have e : counts (if s.gone then Pc.dec false else .hold true) = true := by split <;> rfl
      rw [e] at this
      simp only [counts, if_true] at this
      constructor <;> dsimp only
      · omega
      · exact h2
      all_goals (clear h1 hcu this hz; grind [upd])
    | loadOff2Neg ht h ho =>
      rename_i t old
      have := hcu t (.dec (!s.gone)) ht
      rw [h] at this
      simp only [counts, if_true] at this
      constructor <;> dsimp only
      · omega
      · exact h2
      all_goals (clear h1 hcu this hz; grind [upd])
    | dec ht h =>
      rename_i t got
      have := hcu t (if got then .hold false else .idle) ht
      rw [h] at this
      have e : counts (if got then Pc.hold false else .idle) = false := by split <;> rfl
      rw [e] at this
      simp only [counts, if_true, Bool.false_eq_true, if_false] at this
      constructor <;> dsimp only
      · omega
      · exact h2
      all_goals (clear h1 hcu this hz; grind [upd])
    | release ht h =>
      rename_i t counted
      have := hcu t .idle ht
      rw [h] at this
      have hz' := none_hold (n := n) (f := upd s.pcs t .idle)
      cases counted with
      | true =>
        simp only [counts, if_true, Bool.false_eq_true, if_false] at this
        constructor <;> dsimp only [State.release]
        · have e : ∀ x : Nat, (if (true : Bool) = true then s.bad else x) = s.bad := fun _ => rfl
          rw [e]
          show s.ref - 1 = (cnt n counts (upd s.pcs t Pc.idle) : Int) - (if s.rpc = Rpc.done then 1 else 0) - s.bad
          omega
        · exact h2
        · simp only [if_true]; clear h1 hcu this hz hz'; grind [upd]
        · rcases h3 with h3 | h3
          · by_cases hd : s.rpc = .done
            · rw [if_pos hd] at h1
              by_cases h0 : s.ref = 0
              · intro _; exact ⟨hd, hz' (by omega)⟩
              · rw [if_neg h0]; grind [upd]
            · rw [if_neg hd] at h1
              rw [if_neg (by omega)]
              grind [upd]
          · exact absurd h (h3.2 t ht)
        · grind [upd]
      | false =>
        simp only [counts, Bool.false_eq_true, if_false] at this
        have h3' : s.rpc = .done ∧ ∀ t, t < n → s.pcs t ≠ .hold true := by grind
        constructor <;> dsimp only [State.release]
        · have e : ∀ x : Nat, (if (false : Bool) = true then s.bad else x) = x := fun _ => rfl
          rw [e]
          show s.ref - 1 = (cnt n counts (upd s.pcs t Pc.idle) : Int) - (if s.rpc = Rpc.done then 1 else 0) - (s.bad + 1 : Nat)
          omega
        · exact h2
        all_goals (clear h1 hcu this hz; grind [upd])
    | store h hg =>
      constructor <;> dsimp only
      · rw [h1, h]; simp
      · simp
      all_goals grind
    | remove h =>
      have h3' : s.bad = 0 := by grind
      constructor <;> dsimp only [State.release]
      · rw [h1, h]; simp; omega
      · rw [h2, h]; simp
      · grind
      · rw [h] at h1
        by_cases h0 : s.ref = 0
        · intro _; exact ⟨rfl, hz (by simp at h1; omega)⟩
        · grind
      · grind

/-- **C29**, all interleavings: nothing is destroyed before it has been removed. -/
theorem C29_not_before_removal (h : Reach g n s) (hd : 0 < s.dtors) : s.rpc = .done := ((inv h).destroyed hd).1

/-- **C29**, all interleavings: an iterator that is included in the reference count does not read a destroyed value. What
is missing: there are iterators that are not included, `C29_reads_destroyed_false`. -/
theorem C29_counted_iterator_safe_partial (h : Reach g n s) {t : Nat} (ht : t < n) (hh : s.pcs t = .hold true) :
    s.dtors = 0 := by
  rcases Nat.eq_zero_or_pos s.dtors with h0 | h0
  · exact h0
  · exact absurd hh (((inv h).destroyed h0).2 t ht)

/-! ### If no iterator loads a negative count -/

structure InvN (n : Nat) (s : State) : Prop where
  nobad : s.bad = 0 ∧ ∀ t, t < n → s.pcs t ≠ .hold false ∧ s.pcs t ≠ .dec true
  once : s.dtors ≤ 1
  err : s.err = false

theorem invN (hg : g ≠ .free) (hl : g = .locked → ∀ s, Reach g n s → ∀ t, t < n → s.pcs t = .loadRef → s.rpc = .idle)
    (h : Reach g n s) : InvN n s := by
  induction h with
  | init => exact ⟨by simp [init], by simp [init], rfl⟩
  | @step s s' hr hs ih =>
    obtain ⟨h1, h2, h3, h4, h5⟩ := inv hr
    obtain ⟨h6, h7, h8⟩ := ih
    have hl := fun hgl => hl hgl s hr
    have hneg : s.ref < 0 → s.rpc = .done := by
      intro hn
      by_cases hd : s.rpc = .done
      · exact hd
      · rw [if_neg hd] at h1; omega
    have hc : ∀ t, t < n → s.pcs t = .hold true → 0 ≤ s.ref := by
      intro t ht h
      have := cnt_pos (p := counts) (f := s.pcs) ht (by rw [h]; rfl)
      rw [h1]; split <;> omega
    have hpos : s.rpc = .stored → 0 ≤ s.ref := by
      intro h; rw [h1, h]; simp; omega
    have hgg : g = .noStale ∨ g = .locked := by cases g <;> simp_all
    have hb : ∀ t b, t < n → s.pcs t = .hold b → b = true := by
      intro t b ht h; cases b
      · exact absurd h (h6.2 t ht).1
      · rfl
    constructor
    · clear h7 h8
      cases hs <;> first | exact h6 | grind [upd, State.release]
    · clear h1
      cases hs <;> first | exact h7 | grind [upd, State.release]
    · cases hs <;> first | exact h8 | grind [upd, State.release]

/-! ### If `acquire` and `remove` exclude each other -/

structure InvL (n : Nat) (s : State) : Prop where
  /-- nobody is in `acquire` beyond the first load once the removal has begun -/
  excl : s.rpc ≠ .idle → ∀ t, t < n → s.pcs t = .idle ∨ (s.pcs t = .loadOff ∧ s.rpc = .done) ∨ s.pcs t = .hold true ∨
    s.pcs t = .hold false

theorem invL (h : Reach .locked n s) : InvL n s := by
  induction h with
  | init => exact ⟨by simp [init]⟩
  | @step s s' hr hs ih =>
    obtain ⟨h1, h2, h3, h4, h5⟩ := inv hr
    obtain ⟨h6⟩ := ih
    have hrp : s.rpc = .idle ∨ s.rpc = .stored ∨ s.rpc = .done := by cases s.rpc <;> simp
    clear h1 h3 h4 h5
    constructor
    cases hs with
    | store h hg =>
      intro _ t ht
      have := hg rfl t ht
      revert this
      dsimp only
      cases s.pcs t with
      | hold b => cases b <;> simp [inAcq]
      | _ => simp [inAcq]
    | _ => grind [upd, State.release]

theorem locked_idle : ∀ s, Reach .locked n s → ∀ t, t < n → s.pcs t = .loadRef → s.rpc = .idle := by
  intro s h t ht hp
  have := (invL h).excl
  grind

/-- **C29** If no iterator loads a negative count after a zero offset (in particular if `acquire` and `remove` exclude each
other, as the users of a resource do with a mutex), the value is destroyed at most once, after its removal, no iterator is
at a destroyed value, and no exception is thrown. -/
theorem C29_not_in_use_partial (hg : g ≠ .free) (h : Reach g n s) :
    s.dtors ≤ 1 ∧ s.err = false ∧ (0 < s.dtors → s.rpc = .done ∧ ∀ t, t < n → ∀ b, s.pcs t ≠ .hold b) := by
  have hl : g = .locked → ∀ s, Reach g n s → ∀ t, t < n → s.pcs t = .loadRef → s.rpc = .idle := by
    rintro rfl; exact locked_idle
  have hN := invN hg hl h
  refine ⟨hN.once, hN.err, fun hd => ⟨((inv h).destroyed hd).1, ?_⟩⟩
  intro t ht b
  cases b with
  | true => exact ((inv h).destroyed hd).2 t ht
  | false => exact (hN.nobad.2 t ht).1

/-- what is left to be destroyed is in use -/
theorem invD (h : Reach .locked n s) : s.rpc = .done → s.dtors = 0 → ∃ t, t < n ∧ s.pcs t = .hold true := by
  suffices hs : s.rpc = .done → s.dtors = 0 → 0 ≤ s.ref by
    intro h1 h2
    have h3 := hs h1 h2
    have hi := (inv h).ref
    rw [h1] at hi
    simp only [if_true] at hi
    have hp : 0 < cnt n counts s.pcs := by omega
    rcases Classical.em (∃ t, t < n ∧ counts (s.pcs t) = true) with ⟨t, ht, hc⟩ | hne
    · refine ⟨t, ht, ?_⟩
      have := (invL h).excl (by rw [h1]; simp) t ht
      rcases this with h | ⟨h, -⟩ | h | h
      · rw [h] at hc; cases hc
      · rw [h] at hc; cases hc
      · exact h
      · rw [h] at hc; cases hc
    · have : cnt n counts s.pcs = 0 := by
        rw [cnt_eq_zero]
        intro t ht
        cases hc : counts (s.pcs t) with
        | false => rfl
        | true => exact absurd ⟨t, ht, hc⟩ hne
      omega
  induction h with
  | init => simp [init]
  | @step s s' hr hs ih =>
    have hL := (invL hr).excl
    have hN := invN (by simp) (fun _ => locked_idle) hr
    obtain ⟨h1, h2, h3, h4, h5⟩ := inv hr
    have hpos : s.rpc ≠ .done → 0 ≤ s.ref := by
      intro h; rw [h1, if_neg h, hN.nobad.1]; simp
    cases hs <;> grind [upd, State.release]

/-- **C29** If `acquire` and `remove` exclude each other, a removed element that no iterator is at has been destroyed
exactly once. -/
theorem C29_destroyed_once_partial (h : Reach .locked n s) (hr : s.rpc = .done)
    (hq : ∀ t, t < n → ∀ b, s.pcs t ≠ .hold b) : s.dtors = 1 := by
  have h1 := (C29_not_in_use_partial (by simp) h).1
  rcases Nat.eq_zero_or_pos s.dtors with h0 | h0
  · obtain ⟨t, ht, hh⟩ := invD h hr h0
    exact absurd hh (hq t ht true)
  · omega

/-! ### Without exclusion the property is false -/

theorem Steps.reach {s s' : State} (h : Reach g n s) (hs : Steps g n s s') : Reach g n s' := by
  induction hs with
  | refl => exact h
  | step _ h2 ih => exact ih.step h2

/-- **C29** is false: an iterator loads offset zero, then the element is removed and destroyed, then the iterator loads the
negative count: `acquire` returns zero, and the owner of the iterator reads the destroyed value. -/
theorem C29_reads_destroyed_false : ∃ s, Reach .free 1 s ∧ s.pcs 0 = .hold false ∧ s.dtors = 1 :=
  ⟨_, .step (.step (.step (.step (.step .init (.begin (t := 0) (by decide) rfl (by simp))) (.loadOff (t := 0) (by decide) rfl))
    (.store rfl (by simp))) (.remove rfl)) (.loadRefNeg (t := 0) (by decide) rfl (by decide) (by decide)), rfl, rfl⟩

/-- **C29** is false: the value is destroyed twice; the second time by an iterator that was not counted, while another one
has the count incremented. -/
theorem C29_destroyed_twice_false : ∃ s, Reach .free 2 s ∧ s.dtors = 2 :=
  ⟨_, .step (.step (.step (.step (.step (.step (.step (.step (.step (.step .init
    (.begin (t := 0) (by decide) rfl (by simp))) (.loadOff (t := 0) (by decide) rfl))
    (.begin (t := 1) (by decide) rfl (by simp))) (.loadOff (t := 1) (by decide) rfl)) (.loadRef (t := 1) (by decide) rfl (by decide)))
    (.store rfl (by simp))) (.remove rfl)) (.loadRefNeg (t := 0) (by decide) rfl (by decide) (by decide)))
    (.add (t := 1) (by decide) rfl)) (.release (t := 0) (by decide) rfl), rfl⟩

/-- once an element is gone and its count is negative nothing changes any more -/
theorem stuck {s : State} (hg : s.gone = true) (hr : s.ref < 0) (hd : s.rpc = .done)
    (hq : ∀ t, t < n → s.pcs t = .idle ∨ s.pcs t = .loadOff) (hs : Steps g n s s') :
    s'.dtors = s.dtors ∧ s'.gone = true ∧ s'.ref < 0 ∧ s'.rpc = .done ∧
      ∀ t, t < n → s'.pcs t = .idle ∨ s'.pcs t = .loadOff := by
  induction hs with
  | refl => exact ⟨rfl, hg, hr, hd, hq⟩
  | @step s1 s2 _ h2 ih =>
    obtain ⟨i1, i2, i3, i4, i5⟩ := ih
    cases h2 <;> grind [upd]

/-- **C29** is false: an iterator that finds the element removed gives its count back without destroying the value, although
it was the last one: the value is never destroyed. This happens without the stale load. -/
theorem C29_leaked_false : ∃ s, Reach .noStale 1 s ∧ s.rpc = .done ∧ (∀ t, t < 1 → s.pcs t = .idle) ∧ s.dtors = 0 ∧
    ∀ s', Steps .free 1 s s' → s'.dtors = 0 := by
  refine ⟨_, .step (.step (.step (.step (.step (.step (.step (.step .init
    (.begin (t := 0) (by decide) rfl (by simp))) (.loadOff (t := 0) (by decide) rfl)) (.loadRef (t := 0) (by decide) rfl (by decide)))
    (.add (t := 0) (by decide) rfl)) (.store rfl (by simp))) (.remove rfl)) (.loadOff2 (t := 0) (by decide) rfl (by decide)))
    (.dec (t := 0) (by decide) rfl), rfl, ?_, rfl, ?_⟩
  · intro t ht
    have : t = 0 := by omega
    subst this; rfl
  · intro s' hs
    have := stuck (by rfl) (by decide) rfl ?_ hs
    · rw [this.1]; rfl
    · intro t ht
      have : t = 0 := by omega
      subst this; exact .inl rfl

/-- the hypotheses of `C29_destroyed_once_partial`: two iterators, one is at the element when it is removed -/
example : ∃ s, Reach .locked 2 s ∧ s.rpc = .done ∧ s.dtors = 1 ∧ ∀ t, t < 2 → ∀ b, s.pcs t ≠ .hold b := by
  refine ⟨_, .step (.step (.step (.step (.step (.step (.step (.step .init
    (.begin (t := 0) (by decide) rfl (by simp [init]))) (.loadOff (t := 0) (by decide) rfl)) (.loadRef (t := 0) (by decide) rfl (by decide)))
    (.add (t := 0) (by decide) rfl)) (.loadOff2 (t := 0) (by decide) rfl (by decide))) (.store rfl ?_)) (.remove rfl))
    (.release (t := 0) (by decide) rfl), rfl, rfl, ?_⟩
  · intro _ t ht
    match t, ht with
    | 0, _ => rfl
    | 1, _ => rfl
  · intro t ht b
    match t, ht with
    | 0, _ => simp [upd]
    | 1, _ => simp [upd, State.release, init]

end RG.Item
