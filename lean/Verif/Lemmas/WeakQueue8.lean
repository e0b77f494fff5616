import Verif.Lemmas.WeakQueue7
/-
Lemmas for C92: with `acq_rel` in `set_empty` nobody writes where another thread may still read.
-/
set_option linter.unusedVariables false
namespace RG.WQ
open RG.MQ

variable {B C p : Nat} {g : Prop} {fix : Bool} {s s' : State}

/-- whoever holds the block knows the newest value of its counter and, under the condition `g`, of all accesses -/
structure Know (B : Nat) (g : Prop) (s : State) (b : Nat) (v : VC) : Prop where
  top : ∃ m l, s.c.hist (.done b) = m :: l ∧ m.time ≤ v m.tid
  acc : g → ∀ j, j < B → Acc s b j v

structure FInv (B : Nat) (g : Prop) (s : State) : Prop where
  has : ∀ b v, Has s b v → Know B g s b v
  fresh : g → ∀ p i, (s.subs p).tail ≤ i → (s.mem ((s.subs p).blkOf (i / B))).owner = some (p, i / B) →
    Acc s ((s.subs p).blkOf (i / B)) (i % B) (s.c.vw (.prod p))
  rd : ∀ p i, i < (s.subs p).tail → (s.subs p).fin i = false → ∀ r, r ∈ s.rds ((s.subs p).blkOf (i / B)) (i % B) →
    ∃ c, r.1 = .cons p c ∧ (∃ e b x, (s.subs p).cons c = .emp i e b x) ∧ r.2 ≤ s.c.vw (.cons p c) (.cons p c)
  pub : ∀ p x, (s.subs p).prod = .pub x → s.rds (s.subs p).tailBlock ((s.subs p).tail % B) = []
  finT : ∀ p i, (s.subs p).fin i = true → (s.mem ((s.subs p).blkOf (i / B))).owner = some (p, i / B) →
    Acc s ((s.subs p).blkOf (i / B)) (i % B) (s.c.top (.done ((s.subs p).blkOf (i / B))))

theorem cons_ne {α} {n : α} {l : List α} (h : l = n :: l) : False := by
  have := congrArg List.length h
  simp at this

theorem divmod_eq {i i' : Nat} (h1 : i / B = i' / B) (h2 : i % B = i' % B) : i = i' := by
  rw [← Nat.div_add_mod' i B, ← Nat.div_add_mod' i' B, h1, h2]

theorem own_inj {a b c d : Nat} (h : some (a, b) = some (c, d)) : a = c ∧ b = d := by
  simpa using h

/-- what a consumer holds that is about to read or has read -/
theorem Inv.at_rd (hB : 0 < B) (h : Inv B s) {c i e b : Nat} (hc : (s.subs p).cons c = .rd i e b ∨ ∃ x, (s.subs p).cons c = .emp i e b x) :
    b = (s.subs p).blkOf (i / B) ∧ (s.mem b).owner = some (p, i / B) ∧ (s.subs p).fin i = false ∧ i < (s.subs p).tail ∧ i / B < (s.subs p).ns := by
  have hh : ((s.subs p).cons c).hold = some i := by
    rcases hc with hc | ⟨x, hc⟩ <;> rw [hc] <;> rfl
  have h2 := h.hold_lt hB hh
  have h4 := (h.q.b p).pc c
  simp only [State.q] at h4
  have h5 : b = (s.subs p).blkOf (i / B) := by
    rcases hc with hc | ⟨x, hc⟩ <;> rw [hc] at h4
    · exact h4.2
    · exact h4.2.1
  refine ⟨h5, ?_, h2.2.1, h2.1, h2.2.2⟩
  rw [h5]
  exact h.owner_of hB h2.1 h2.2.1

/-- The data of a block that is held do not change. -/
theorem SStep.has_same (hB : 0 < B) (h : Inv B s) (h' : Inv B s') (hs : SStep B fix p s s') {b : Nat} {v v' : VC} (h1 : Has s b v) (h2 : Has s' b v') :
    (∀ j, s'.wr b j = s.wr b j ∧ s'.rds b j = s.rds b j) ∧ s'.c.hist (.done b) = s.c.hist (.done b) := by
  constructor
  · intro j
    rcases hs.acc b j with e | ⟨c, i, e, hc, -⟩ | ⟨x, hp, rfl, -⟩
    · exact e
    · have h3 := h.at_rd hB (.inl hc)
      exact (h1.absurd hB h.q h3.2.1 h3.2.2.1 h3.2.2.2.2).elim
    · have h3 := h.tailBlock_owner hB (.inr hp)
      have h4 := (h.q.b p).prod
      simp only [State.q] at h4
      rw [hp] at h4
      exact (h1.absurd hB h.q h3.2 (tail_not_fin (h.q.t p) (h.q.k p) (Nat.le_refl _)) ((Nat.div_lt_iff_lt_mul hB).2 h4.2.1)).elim
  · rcases hs.doneH b with e | ⟨c, i, e, x, m, hc, -⟩ | ⟨x, e, hp, hp', hns, hm⟩
    · exact e
    · have h3 := h.at_rd hB (.inr ⟨x, hc⟩)
      exact (h1.absurd hB h.q h3.2.1 h3.2.2.1 h3.2.2.2.2).elim
    · exfalso
      have h3 := (h'.q.b p).prod
      simp only [State.q] at h3
      rw [hp'] at h3
      obtain ⟨h4, h5, h6, h7, h8, h9⟩ := h3
      rcases h2.owner h'.q with e1 | ⟨q, n, e1, e2⟩
      · rw [e1] at h8; cases h8
      · rw [e1] at h8
        obtain ⟨rfl, h8⟩ := own_inj h8
        subst h8
        rcases e2 with e2 | ⟨_, x', e', e2⟩
        · have h10 := e2 0 hB
          have := fin_lt_tail (h'.q.t q) (h'.q.k q) _ h10
          simp only [State.q] at this
          omega
        · rw [hp'] at e2; cases e2

theorem SStep.fresh (hB : 0 < B) (h : Inv B s) (hf : FInv B g s) (hs : SStep B fix p s s') (hx : g) {q i : Nat} (h1 : (s'.subs q).tail ≤ i)
    (h2 : (s'.mem ((s'.subs q).blkOf (i / B))).owner = some (q, i / B)) : Acc s' ((s'.subs q).blkOf (i / B)) (i % B) (s'.c.vw (.prod q)) := by
  have ht : (s.subs q).tail ≤ (s'.subs q).tail := by
    by_cases e : q = p
    · subst e; exact hs.tail_mono
    · rw [hs.subs_other e]
  rcases hs.own_pre h2 rfl with ⟨h3, h4⟩ | ⟨h3, rfl, h5, h6, h7, h8, h9⟩
  · have h5 := hf.fresh hx q i (by omega) (by rw [h4]; exact h3)
    rw [h4] at h5
    rcases hs.acc ((s'.subs q).blkOf (i / B)) (i % B) with ⟨e1, e2⟩ | ⟨c, i', e, hc, hj, e1, e2, -⟩ | ⟨x, hp, e1, e2, e3, e4, e5⟩
    · exact (h5.mono (hs.vw_le _)).same e1 e2
    · have h6 := h.at_rd hB (.inl hc)
      rw [h6.2.1] at h3
      obtain ⟨rfl, h3⟩ := own_inj h3
      have : i = i' := divmod_eq (by omega) hj
      omega
    · have h6 := (h.tailBlock_owner hB (.inr hp)).2
      rw [← e1, h3] at h6
      obtain ⟨rfl, h6⟩ := own_inj h6
      unfold Acc
      rw [e3, e4, e5]
      exact ⟨Nat.le_refl _, by simp⟩
  · have h10 := (hf.has _ _ (.pool h3)).acc hx (i % B) (Nat.mod_lt _ hB)
    exact (h10.mono h9).same (by rw [h7]) (by rw [h8])

theorem SStep.rd (hB : 0 < B) (h : Inv B s) (h' : Inv B s') (hf : FInv B g s) (hs : SStep B fix p s s') {q i : Nat} (h1 : i < (s'.subs q).tail) (h2 : (s'.subs q).fin i = false)
    {r : Tid × Nat} (hr : r ∈ s'.rds ((s'.subs q).blkOf (i / B)) (i % B)) :
    ∃ c, r.1 = .cons q c ∧ (∃ e b x, (s'.subs q).cons c = .emp i e b x) ∧ r.2 ≤ s'.c.vw (.cons q c) (.cons q c) := by
  have hfin : (s.subs q).fin i = false := by
    by_cases e : q = p
    · subst e; exact fin_false_of (fun i hi => hs.fin_mono hi) h2
    · rw [hs.subs_other e] at h2; exact h2
  have htail : i < (s.subs q).tail ∨ (q = p ∧ i = (s.subs p).tail ∧ (∃ x, (s.subs p).prod = .pub x) ∧ (s'.subs p).blkOf = (s.subs p).blkOf ∧ s'.rds = s.rds) := by
    by_cases e : q = p
    · subst e
      rcases hs.tail_pre h1 with h3 | h3
      · exact .inl h3
      · exact .inr ⟨rfl, h3⟩
    · rw [hs.subs_other e] at h1; exact .inl h1
  have hold : i < (s.subs q).tail → r ∈ s.rds ((s.subs q).blkOf (i / B)) (i % B) →
      ∃ c, r.1 = .cons q c ∧ (∃ e b x, (s'.subs q).cons c = .emp i e b x) ∧ r.2 ≤ s'.c.vw (.cons q c) (.cons q c) := by
    intro h3 h4
    obtain ⟨c, e1, ⟨e, b, x, e2⟩, e3⟩ := hf.rd q i h3 hfin r h4
    refine ⟨c, e1, ⟨e, b, x, ?_⟩, Nat.le_trans e3 (hs.vw_le _ _)⟩
    by_cases e : q = p
    · subst e
      rcases hs.emp_stays e2 with h5 | h5
      · exact h5
      · rw [h5] at h2; cases h2
    · rw [hs.subs_other e]; exact e2
  rcases htail with h3 | ⟨rfl, rfl, ⟨x, hp⟩, h4, h5⟩
  · have hown' := h'.owner_of hB h1 h2
    rcases hs.own_pre hown' rfl with ⟨h4, h5⟩ | ⟨h4, rfl, h5, -⟩
    · rw [h5] at hold
      rcases hs.acc ((s'.subs q).blkOf (i / B)) (i % B) with ⟨e1, e2⟩ | ⟨c, i', e, hc, hj, e1, e2, e3, e4⟩ | ⟨x, hp, e1, e2, e3, e4, e5⟩
      · rw [e2] at hr; exact hold h3 hr
      · have h6 := h.at_rd hB (.inl hc)
        rw [h6.2.1] at h4
        obtain ⟨rfl, h4⟩ := own_inj h4
        have : i = i' := divmod_eq (by omega) hj
        subst this
        rw [e2] at hr
        rcases List.mem_cons.1 hr with rfl | hr
        · refine ⟨c, rfl, ?_, by rw [e3]⟩
          rcases e4 with e4 | ⟨x, e4⟩
          · have h7 := (h'.q.b p).pc c
            simp only [State.q] at h7
            rw [e4] at h7
            exact h7.elim
          · exact ⟨_, _, _, e4⟩
        · exact hold h3 hr
      · rw [e4] at hr; cases hr
    · have := (h.q.b q).blk_lt hB (i := i) (by simp only [State.q]; exact h3)
      simp only [State.q] at this
      omega
  · rw [h4, h5, ← (h.tailBlock_owner hB (.inl hp)).1, hf.pub q x hp] at hr
    cases hr

theorem SStep.pub' (hB : 0 < B) (h : Inv B s) (hf : FInv B g s) (hs : SStep B fix p s s') {q x : Nat} (h1 : (s'.subs q).prod = .pub x) :
    s'.rds (s'.subs q).tailBlock ((s'.subs q).tail % B) = [] := by
  have key : (s.subs q).prod = .pub x → s'.rds (s.subs q).tailBlock ((s.subs q).tail % B) = [] := by
    intro h2
    have h3 := hf.pub q x h2
    have h4 := h.tailBlock_owner hB (.inl h2)
    rcases hs.acc (s.subs q).tailBlock ((s.subs q).tail % B) with ⟨e1, e2⟩ | ⟨c, i', e, hc, hj, e1, e2, e3, e4⟩ | ⟨x, hp, e1, e2, e3, e4, e5⟩
    · rw [e2]; exact h3
    · have h6 := h.at_rd hB (.inl hc)
      have h7 := h4.2
      rw [h6.2.1] at h7
      obtain ⟨rfl, h7⟩ := own_inj h7
      have := divmod_eq (B := B) (i := (s.subs _).tail) (i' := i') (by omega) hj
      omega
    · exact e4
  by_cases e : q = p
  · subst e
    rcases hs.pub_pre h1 with ⟨h2, h3, h4⟩ | h2
    · rw [h3, h4]; exact key h2
    · exact h2
  · rw [hs.subs_other e] at h1 ⊢; exact key h1

theorem top_le_of_cons {c c' : CMem} {l : Loc} {m : Msg} (h : c'.hist l = m :: c.hist l) (h2 : (c.top l).le m.view) : (c.top l).le (c'.top l) := by
  have : c'.top l = m.view := by simp only [CMem.top, h]
  rw [this]; exact h2

theorem SStep.finT (hB : 0 < B) (h : Inv B s) (hf : FInv B g s) (hs : SStep B fix p s s') {q i : Nat} (h1 : (s'.subs q).fin i = true)
    (h2 : (s'.mem ((s'.subs q).blkOf (i / B))).owner = some (q, i / B)) :
    Acc s' ((s'.subs q).blkOf (i / B)) (i % B) (s'.c.top (.done ((s'.subs q).blkOf (i / B)))) := by
  have hfin : (s.subs q).fin i = true ∨ (q = p ∧ ∃ c e b x, (s.subs p).cons c = .emp i e b x ∧ s'.wr = s.wr ∧ s'.rds = s.rds ∧ (s'.subs p).blkOf = (s.subs p).blkOf ∧
      s'.c.top (.done b) = (s.c.now (.cons p c)).join (s.c.top (.done b))) := by
    by_cases e : q = p
    · subst e
      rcases hs.fin_pre h1 with h3 | h3
      · exact .inl h3
      · exact .inr ⟨rfl, h3⟩
    · rw [hs.subs_other e] at h1; exact .inl h1
  rcases hfin with h3 | ⟨rfl, c, e, b, x, hc, e1, e2, e3, e4⟩
  · have hlt := fin_lt_tail (h.q.t q) (h.q.k q) i h3
    have hn := (h.q.b q).blk_lt hB hlt
    simp only [State.q] at hlt hn
    rcases hs.own_pre h2 rfl with ⟨h4, h5⟩ | ⟨h4, rfl, h5, -⟩
    · have h6 := hf.finT q i h3 (by rw [h5]; exact h4)
      rw [h5] at h6
      have hacc : Acc s' ((s'.subs q).blkOf (i / B)) (i % B) (s.c.top (.done ((s'.subs q).blkOf (i / B)))) := by
        rcases hs.acc ((s'.subs q).blkOf (i / B)) (i % B) with ⟨e1, e2⟩ | ⟨c, i', e, hc, hj, e1, e2, -⟩ | ⟨x, hp, e1, e2, e3, e4, e5⟩
        · exact h6.same e1 e2
        · have h7 := h.at_rd hB (.inl hc)
          rw [h7.2.1] at h4
          obtain ⟨rfl, h4⟩ := own_inj h4
          have : i = i' := divmod_eq (by omega) hj
          subst this
          rw [h3] at h7
          exact absurd h7.2.2.1 (by simp)
        · have h7 := (h.tailBlock_owner hB (.inr hp)).2
          rw [← e1, h4] at h7
          obtain ⟨rfl, h7⟩ := own_inj h7
          have := divmod_eq (B := B) (i := i) (i' := (s.subs _).tail) (by omega) e2
          omega
      refine hacc.mono ?_
      rcases hs.doneH ((s'.subs q).blkOf (i / B)) with e | ⟨c, i', e, x, m, hc, e1, e2, -⟩ | ⟨x, e, hp, -⟩
      · simp only [CMem.top, e]; exact VC.le_refl _
      · exact top_le_of_cons e1 (by rw [e2]; exact VC.le_join_right _ _)
      · have h7 := (h.q.b p).prod
        simp only [State.q] at h7
        rw [hp] at h7
        obtain ⟨-, -, -, -, h8⟩ := h7
        rw [h4] at h8
        obtain ⟨rfl, h8⟩ := own_inj h8
        omega
    · omega
  · have h3 := h.at_rd hB (.inr ⟨x, hc⟩)
    rw [e3, ← h3.1, e4]
    have hh : ((s.subs q).cons c).hold = some i := by rw [hc]; rfl
    have hpub := (h.c q).hold c i hh
    have hslot := (h.p q).slot i h3.2.2.2.1 h3.2.2.1
    rw [← h3.1] at hslot
    refine Acc.mono (v := s.c.vw (.cons q c)) ?_ (VC.le_trans (s.c.le_now _) (VC.le_join_left _ _))
    unfold Acc
    rw [e1, e2]
    refine ⟨?_, fun r hr => ?_⟩
    · rw [hslot.1]; exact Nat.le_trans hslot.2 (hpub _)
    · rw [h3.1] at hr
      obtain ⟨c', e5, ⟨e', b', x', e6⟩, e7⟩ := hf.rd q i h3.2.2.2.1 h3.2.2.1 r hr
      have : c' = c := (h.q.k q).holdU c' c i (by simp only [State.q]; rw [e6]; rfl) (by simp only [State.q]; exact hh)
      subst this
      rw [e5]; exact e7

/-- the last consumer takes the block -/
theorem SStep.taken {c i e b x : Nat} (hs : SStep B fix p s s') (h1 : (s.subs p).cons c = .emp i e b x) (h2 : (s'.subs p).cons c = .nul i e b x) :
    (∃ m l, s'.c.hist (.done b) = m :: l ∧ m.time ≤ s'.c.vw (.cons p c) m.tid) ∧ (fix = true → s'.c.top (.done b) = s'.c.vw (.cons p c)) := by
  cases hs
  case setEmpty c' i' e' b' x' hcc =>
    by_cases e1 : c = c'
    · subst e1
      rw [hcc] at h1
      cases h1
      cases fix <;> simp only [Bool.false_eq_true, if_true, if_false, CMem.rmwAcqRel, CMem.rmwRel, State.go, CMem.top, upd_same]
      · exact ⟨⟨_, _, rfl, Nat.le_refl _⟩, fun h => absurd h (by simp)⟩
      · exact ⟨⟨_, _, rfl, VC.le_join_left (s.c.now (.cons p c)) _ (.cons p c)⟩, fun _ => trivial⟩
    · simp only [State.go, upd_same] at h2
      rw [upd_ne _ _ e1, h1] at h2
      cases h2
  all_goals
    exfalso
    simp only [State.go, upd_same, Sub.at] at h2
    revert h2
    first
    | (rw [h1]; intro h2; cases h2; done)
    | (unfold upd
       split
       · first
         | (intro h2; cases h2; done)
         | (subst_vars; simp_all; done)
         | (split <;> (intro h2; cases h2))
       · rw [h1]; intro h2; cases h2)

theorem SStep.finv (hB : 2 ≤ B) (h : Inv B s) (hf : FInv B g s) (hs : SStep B fix p s s')
    (hg : g → ∀ c i e b x, (s.subs p).cons c = .emp i e b x → (s'.subs p).cons c = .nul i e b x → (s'.c.top (.done b)).le (s'.c.vw (.cons p c))) : FInv B g s' := by
  have hB0 : 0 < B := by omega
  have h' : Inv B s' := (Step.mk p hs).inv hB h
  have hfinT := fun q i h1 h2 => hs.finT hB0 h hf (q := q) (i := i) h1 h2
  refine ⟨?_, fun hx q i => hs.fresh hB0 h hf hx, fun q i h1 h2 r => hs.rd hB0 h h' hf h1 h2, fun q x => hs.pub' hB0 h hf, hfinT⟩
  intro b v' hh
  rcases hs.has_pre hh with ⟨v, h1, h2⟩ | ⟨c, i, e, x, h1, h2, rfl⟩
  · obtain ⟨h3, h4⟩ := hs.has_same hB0 h h' h1 hh
    obtain ⟨⟨m, l, e1, e2⟩, h6⟩ := hf.has b v h1
    refine ⟨⟨m, l, by rw [h4]; exact e1, Nat.le_trans e2 (h2 _)⟩, fun hx j hj => ((h6 hx j hj).mono h2).same (h3 j).1 (h3 j).2⟩
  · obtain ⟨h3, h4⟩ := hs.taken h1 h2
    refine ⟨h3, fun hx j hj => ?_⟩
    have h5 := (h'.q.b p).pc c
    simp only [State.q] at h5
    rw [h2] at h5
    have hb : (s'.subs p).blkOf (i / B) = b := by
      have h6 := h.at_rd hB0 (.inr ⟨x, h1⟩)
      have h7 : (s'.subs p).blkOf (i / B) = (s.subs p).blkOf (i / B) := by
        cases hs <;> simp only [State.go, upd_same, Sub.at]
        case requisition => rw [upd_ne _ _ (by omega)]
      rw [h7, ← h6.1]
    have h6 := hfinT p (i / B * B + j) (h5.1 j hj) (by
      rw [Nat.mul_comm, Nat.mul_add_div hB0, Nat.div_eq_of_lt hj, Nat.add_zero, hb]; exact h5.2.1)
    rw [Nat.mul_comm, Nat.mul_add_div hB0, Nat.div_eq_of_lt hj, Nat.add_zero, hb, Nat.mul_add_mod, Nat.mod_eq_of_lt hj] at h6
    exact h6.mono (hg hx c i e b x h1 h2)

theorem FInv.learn (hf : FInv B g s) (t t' : Tid) : FInv B g { s with c := { s.c with vw := upd s.c.vw t ((s.c.vw t).join (s.c.vw t')) } } := by
  have hv : ∀ w, (s.c.vw w).le (upd s.c.vw t ((s.c.vw t).join (s.c.vw t')) w) := by
    intro w
    by_cases e : w = t
    · subst e; rw [upd_same]; exact VC.le_join_left _ _
    · rw [upd_ne _ _ e]; exact VC.le_refl _
  have hmono : ∀ {b v v'}, Know B g s b v → VC.le v v' → Know B g { s with c := { s.c with vw := upd s.c.vw t ((s.c.vw t).join (s.c.vw t')) } } b v' := by
    rintro b v v' ⟨⟨m, l, e1, e2⟩, h2⟩ hvv
    exact ⟨⟨m, l, e1, Nat.le_trans e2 (hvv _)⟩, fun hx j hj => ((h2 hx j hj).mono hvv).same rfl rfl⟩
  refine ⟨?_, fun hx q i h1 h2 => ((hf.fresh hx q i h1 h2).mono (hv _)).same rfl rfl, ?_, hf.pub, hf.finT⟩
  · intro b v hh
    cases hh with
    | pool h1 => exact hmono (hf.has b _ (.pool h1)) (VC.le_refl _)
    | nul h1 => exact hmono (hf.has b _ (.nul h1)) (hv _)
    | fre h1 => exact hmono (hf.has b _ (.fre h1)) (hv _)
    | rst h1 => exact hmono (hf.has b _ (.rst h1)) (hv _)
  · intro q i h1 h2 r hr
    obtain ⟨c, e1, e2, e3⟩ := hf.rd q i h1 h2 r hr
    exact ⟨c, e1, e2, Nat.le_trans e3 (hv _ _)⟩

theorem FInv.init (h : Init C s) : FInv B g s := by
  obtain ⟨g, d, hg, hh, hd⟩ := h.subs
  refine ⟨?_, fun hx q i h1 h2 => ?_, ?_, ?_, ?_⟩
  · intro b v hv
    cases hv with
    | pool h1 =>
      refine ⟨⟨_, [], by rw [hh]; rfl, Nat.zero_le _⟩, fun _ j _ => ?_⟩
      unfold Acc
      rw [h.wr, h.rds]
      exact ⟨Nat.zero_le _, by simp⟩
    | nul h1 => rw [hg] at h1; cases h1
    | fre h1 => rw [hg] at h1; cases h1
    | rst h1 => rw [hg] at h1; cases h1
  · rw [h.mem] at h2; cases h2
  · intro q i h1; rw [hg] at h1; exact absurd h1 (Nat.not_lt_zero i)
  · intro q x h1; rw [hg] at h1; cases h1
  · intro q i h1 h2; rw [h.mem] at h2; cases h2

theorem Reach.finv (hB : 2 ≤ B) (hC : 0 < C) (h : Reach B C fix s) : FInv B (fix = true) s := by
  induction h with
  | init h => exact FInv.init h
  | step h hs ih =>
    cases hs with
    | learn t t' => exact ih.learn t t'
    | mk p hs => exact hs.finv hB (h.inv hB hC) ih (fun hx c i e b x h1 h2 => by rw [(hs.taken h1 h2).2 hx]; exact VC.le_refl _)

/-- A write of an element is no race if the thread that holds a block knows of all accesses. -/
theorem SStep.raceW (hB : 0 < B) (hi : Inv B s) (hf : FInv B True s) (hs : SStep B fix p s s') (ih : s.raceW = false) : s'.raceW = false := by
  cases hs
  case write x hp =>
    obtain ⟨h1, h2⟩ := hi.tailBlock_owner hB (.inr hp)
    have h3 := hf.fresh trivial p (s.subs p).tail (Nat.le_refl _) (by rw [← h1]; exact h2)
    rw [← h1] at h3
    simp only [ih, Bool.false_or, Bool.or_eq_false_iff, unk, decide_eq_false_iff_not, List.any_eq_false, decide_eq_true_eq, State.go]
    exact ⟨Nat.not_lt.2 h3.1, fun r hr => Nat.not_lt.2 (h3.2 r hr)⟩
  all_goals exact ih

/-- With `fix` no write of an element is a race. -/
theorem Reach.raceW (hB : 2 ≤ B) (hC : 0 < C) (h : Reach B C true s) : s.raceW = false := by
  have hB0 : 0 < B := by omega
  induction h with
  | init h => exact h.race.2
  | step h hs ih =>
    cases hs with
    | learn t t' => exact ih
    | mk p hs =>
      exact hs.raceW hB0 (h.inv hB hC) (by simpa using h.finv hB hC) ih

/-! ### One thread that pops -/

/-- What is released with the counter of a block that is in use is known to the thread that pops. -/
def SInv (s : State) : Prop := ∀ b q n, (s.mem b).owner = some (q, n) → (∃ x e, (s.subs q).prod = .rst x e b) ∨ (s.c.top (.done b)).le (s.c.vw (.cons q 0))

theorem Solo.reach (h : Solo B C fix s) : Reach B C fix s := by
  induction h with
  | init h => exact .init h
  | step _ hs _ ih => exact .step ih hs

theorem Solo.out (h : Solo B C fix s) (p : Nat) {c : Nat} (hc : c ≠ 0) : (s.subs p).cons c = .out := by
  cases h with
  | init h => obtain ⟨g, d, hg, -⟩ := h.subs; rw [hg]; rfl
  | step _ _ ho => exact ho p c hc

/-- the step after which a block is in use -/
theorem SStep.own_pre' (hs : SStep B fix p s s') {q n b : Nat} (h1 : (s'.mem b).owner = some (q, n)) :
    (s.mem b).owner = some (q, n) ∨ ∃ x e, (s'.subs q).prod = .rst x e b := by
  cases hs
  case requisition x e hp b' hb =>
    simp only [State.go] at h1
    by_cases e1 : b = b'
    · subst e1
      rw [upd_same] at h1
      cases h1
      exact .inr ⟨x, e, by simp only [State.go, upd_same]⟩
    · rw [upd_ne _ _ e1] at h1; exact .inl h1
  case free c i b' x hcc =>
    simp only [State.go] at h1
    by_cases e1 : b = b'
    · subst e1; rw [upd_same] at h1; cases h1
    · rw [upd_ne _ _ e1] at h1; exact .inl h1
  all_goals
    simp only [State.go] at h1
    left
    first
    | exact h1
    | (revert h1; unfold upd; split <;> (intro h1; simp_all; done))

theorem SStep.sinv (hB : 0 < B) (h : Inv B s) (hS : SInv s) (hout : ∀ c, c ≠ 0 → (s.subs p).cons c = .out) (hs : SStep B fix p s s') : SInv s' := by
  intro b q n ho
  have hv := hs.vw_le
  rcases hs.own_pre' ho with h1 | h1
  · rcases hs.doneH b with e | ⟨c, i, e, x, m, hc, e1, e2, -, e3⟩ | ⟨x, e, hp, hp', hns, hm⟩
    · rcases hS b q n h1 with ⟨x, e', h2⟩ | h2
      · by_cases e3 : q = p
        · subst e3
          cases hs
          case resetEmpty x' e'' b' hp =>
            rw [h2] at hp
            cases hp
            right
            simp only [State.go, CMem.store, CMem.top, upd_same]
            exact VC.bot_le _
          all_goals
            left
            first
            | exact ⟨x, e', by simp only [State.go, upd_same, Sub.at]; exact h2⟩
            | (simp_all; done)
        · left; rw [hs.subs_other e3]; exact ⟨x, e', h2⟩
      · right
        simp only [CMem.top, e]
        exact VC.le_trans h2 (hv _)
    · have h3 := h.at_rd hB (.inr ⟨x, hc⟩)
      rw [h3.2.1] at h1
      obtain ⟨rfl, h1⟩ := own_inj h1
      have hc0 : c = 0 := by
        by_contra h4
        rw [hout c h4] at hc
        cases hc
      subst hc0
      rcases hS b p (i / B) h3.2.1 with ⟨x', e', h2⟩ | h2
      · have h4 := (h.q.b p).prod
        simp only [State.q] at h4
        rw [h2] at h4
        have h5 := h4.2.2.2.2
        rw [h3.2.1] at h5
        obtain ⟨-, h5⟩ := own_inj h5
        omega
      · right
        have h6 : s'.c.top (.done b) = m.view := by simp only [CMem.top, e1]
        rw [h6, e2]
        refine VC.join_le ?_ (VC.le_trans h2 (hv _))
        exact e3
    · right
      cases hs
      case resetEmpty x' e'' b' hp'' =>
        rw [hp''] at hp
        cases hp
        simp only [State.go, CMem.store, CMem.top, upd_same]
        exact VC.bot_le _
      all_goals (simp only [State.go, upd_same, Sub.at] at hp'; simp_all; done)
  · exact .inl h1

theorem Solo.inv (hB : 2 ≤ B) (hC : 0 < C) (h : Solo B C fix s) : SInv s ∧ FInv B True s ∧ s.raceW = false := by
  have hB0 : 0 < B := by omega
  induction h with
  | init h => exact ⟨fun b q n ho => (by rw [h.mem] at ho; cases ho), FInv.init h, h.race.2⟩
  | @step s s' h hs ho ih =>
    have hi := h.reach.inv hB hC
    cases hs with
    | learn t t' =>
      refine ⟨?_, ih.2.1.learn t t', ih.2.2⟩
      intro b q n ho'
      rcases ih.1 b q n ho' with h1 | h1
      · exact .inl h1
      · refine .inr (VC.le_trans h1 ?_)
        show (s.c.vw (.cons q 0)).le (upd s.c.vw t ((s.c.vw t).join (s.c.vw t')) (.cons q 0))
        by_cases e : Tid.cons q 0 = t
        · subst e; rw [upd_same]; exact VC.le_join_left _ _
        · rw [upd_ne _ _ e]; exact VC.le_refl _
    | mk p hs =>
      have h1 := hs.sinv hB0 hi ih.1 (fun c hc => h.out p hc)
      refine ⟨h1, hs.finv hB hi ih.2.1 ?_, hs.raceW hB0 hi ih.2.1 ih.2.2⟩
      intro _ c i e b x hc hc'
      have hc0 : c = 0 := by
        by_contra h4
        rw [h.out p h4] at hc
        cases hc
      subst hc0
      have hi' := (Step.mk p hs).inv hB hi
      have h2 := (hi'.q.b p).pc 0
      simp only [State.q] at h2
      rw [hc'] at h2
      rcases h1 b p (i / B) h2.2.1 with ⟨x', e', h3⟩ | h3
      · have h4 := (hi'.q.b p).prod
        simp only [State.q] at h4
        rw [h3] at h4
        have h5 := h4.2.2.2.2
        rw [h2.2.1] at h5
        obtain ⟨-, h5⟩ := own_inj h5
        have h6 := fin_lt_tail (hi'.q.t p) (hi'.q.k p) _ (h2.1 0 hB0)
        simp only [State.q] at h6
        have h7 := h4.2.1
        rw [← h5] at h7
        omega
      · exact h3

end RG.WQ
