import Verif.Lemmas.WeakQueue8
/-
Lemmas for C92: a thread that stores to an atomic object knows or has read the newest value, so that the new value is the newest in every execution.
-/
set_option linter.unusedVariables false
namespace RG.WQ
open RG.MQ

variable {B C p : Nat} {fix : Bool} {s s' : State}

/-- the entry of the block index that the producer is about to use -/
def entryOf : PPc → Option Nat
  | .skey _ e _ | .stl _ e _ | .blk _ e | .rst _ e _ | .sval _ e _ => some e
  | _ => none

structure OInv (p : Nat) (s : State) : Prop where
  keyM : ∀ e m, m ∈ s.c.hist (.key p e) → m.tid = .prod p ∧ m.time ≤ s.c.vw (.prod p) (.prod p)
  kinv : ∀ e, ((s.subs p).entries e).key = invalidBase → ∃ m l, s.c.hist (.val p e) = m :: l ∧ m.tid = .prod p ∧ m.time ≤ s.c.vw (.prod p) (.prod p)
  nul : ∀ c i e b x, (s.subs p).cons c = .nul i e b x → ∃ m l, s.c.hist (.val p e) = m :: l ∧ m.time ≤ s.c.vw (.cons p c) m.tid
  ent : ∀ e, entryOf (s.subs p).prod = some e → ∃ m l, s.c.hist (.val p e) = m :: l ∧ (m.time ≤ s.c.vw (.prod p) m.tid ∨ (m.tid, m.time) = s.seen p)

theorem OInv.frame {q : Nat} (h : OInv q s) (h1 : s'.subs q = s.subs q) (h2 : ∀ e, s'.c.hist (.key q e) = s.c.hist (.key q e)) (h3 : ∀ e, s'.c.hist (.val q e) = s.c.hist (.val q e))
    (h4 : ∀ t, (s.c.vw t).le (s'.c.vw t)) (h5 : s'.seen q = s.seen q) : OInv q s' := by
  refine ⟨?_, ?_, ?_, ?_⟩ <;> (try rw [h1])
  · intro e m hm; rw [h2] at hm; exact ⟨(h.keyM e m hm).1, Nat.le_trans (h.keyM e m hm).2 (h4 _ _)⟩
  · intro e he
    obtain ⟨m, l, e1, e2, e3⟩ := h.kinv e he
    exact ⟨m, l, by rw [h3]; exact e1, e2, Nat.le_trans e3 (h4 _ _)⟩
  · intro c i e b x hc
    obtain ⟨m, l, e1, e2⟩ := h.nul c i e b x hc
    exact ⟨m, l, by rw [h3]; exact e1, Nat.le_trans e2 (h4 _ _)⟩
  · intro e he
    obtain ⟨m, l, e1, e2⟩ := h.ent e he
    refine ⟨m, l, by rw [h3]; exact e1, ?_⟩
    rcases e2 with e2 | e2
    · exact .inl (Nat.le_trans e2 (h4 _ _))
    · exact .inr (by rw [h5]; exact e2)

/-- The steps that change the value of an entry. -/
theorem SStep.valH (hs : SStep B fix p s s') (e : Nat) : s'.c.hist (.val p e) = s.c.hist (.val p e) ∨
    (∃ c i b x, (s.subs p).cons c = .nul i e b x ∧ (s'.subs p).cons c = .fre i b x) ∨
    (∃ x m, (s.subs p).prod = .grow x ∧ (s.subs p).nEnt ≤ e ∧ s'.c.hist (.val p e) = [m] ∧ m.tid = .prod p ∧ m.time ≤ s'.c.vw (.prod p) (.prod p)) ∨
    ∃ x b m, (s.subs p).prod = .sval x e b ∧ (s'.subs p).prod = .wr x ∧ s'.c.hist (.val p e) = m :: s.c.hist (.val p e) ∧ m.tid = .prod p ∧ m.time ≤ s'.c.vw (.prod p) (.prod p) := by
  cases hs
  case null c i e' b x hcc =>
    by_cases e1 : e = e'
    · subst e1; exact .inr (.inl ⟨c, i, b, x, hcc, by simp only [State.go, upd_same]⟩)
    · left; simp only [State.go, CMem.store]; exact upd_ne _ _ (by simpa using e1)
  case grow x hp g =>
    by_cases e1 : (s.subs p).nEnt ≤ e
    · refine .inr (.inr (.inl ⟨x, ⟨g e, .prod p, s.c.now (.prod p) (.prod p), VC.bot, 0⟩, hp, e1, ?_, rfl, ?_⟩))
      · simp only [State.go, CMem.grow, CMem.storeRel]; rw [upd_ne _ _ (by simp)]; simp only [newHdr]; exact if_pos ⟨trivial, e1⟩
      · simp only [State.go, CMem.grow, CMem.storeRel, upd_same]; exact Nat.le_refl _
    · left; simp only [State.go, CMem.grow, CMem.storeRel]; rw [upd_ne _ _ (by simp)]; simp only [newHdr]; exact if_neg (fun h => e1 h.2)
  case storeVal x e' b hp =>
    by_cases e1 : e = e'
    · subst e1
      exact .inr (.inr (.inr ⟨x, b, _, hp, by simp only [State.go, upd_same], by simp only [State.go, CMem.store]; rw [upd_same], rfl, by simp only [State.go, CMem.store, upd_same]; exact Nat.le_refl _⟩))
    · left; simp only [State.go, CMem.store]; exact upd_ne _ _ (by simpa using e1)
  case setEmpty c i e' b x hcc =>
    left
    cases fix <;> simp only [Bool.false_eq_true, if_true, if_false, CMem.rmwAcqRel, CMem.rmwRel, State.go] <;> exact upd_ne _ _ (by simp)
  all_goals
    left
    first
    | rfl
    | (simp only [State.go, CMem.store, CMem.storeRel, CMem.rmw, CMem.rmwRel, CMem.rmwAcqRel, CMem.grow]; rw [upd_ne _ _ (by simp)]; done)

theorem SStep.keyH (hs : SStep B fix p s s') {e : Nat} {m : Msg} (hm : m ∈ s'.c.hist (.key p e)) : m ∈ s.c.hist (.key p e) ∨ (m.tid = .prod p ∧ m.time ≤ s'.c.vw (.prod p) (.prod p)) := by
  cases hs
  case storeKey x e' T hp =>
    simp only [State.go, CMem.store, upd_same] at hm ⊢
    by_cases e1 : e = e'
    · subst e1
      rw [upd_same] at hm
      rcases List.mem_cons.1 hm with rfl | hm
      · exact .inr ⟨rfl, Nat.le_refl _⟩
      · exact .inl hm
    · rw [upd_ne _ _ (by simpa using e1)] at hm; exact .inl hm
  case grow x hp g =>
    simp only [State.go, CMem.grow, CMem.storeRel, upd_same] at hm ⊢
    rw [upd_ne _ _ (by simp)] at hm
    simp only [newHdr] at hm
    split at hm
    · rw [List.mem_singleton] at hm; subst hm; exact .inr ⟨rfl, Nat.le_refl _⟩
    · exact .inl hm
  case setEmpty c i e' b x hcc =>
    left
    revert hm
    cases fix <;> simp only [Bool.false_eq_true, if_true, if_false, CMem.rmwAcqRel, CMem.rmwRel, State.go] <;> (rw [upd_ne _ _ (by simp)]; exact id)
  all_goals
    left
    first
    | exact hm
    | (simp only [State.go, CMem.store, CMem.storeRel, CMem.rmw, CMem.rmwRel, CMem.rmwAcqRel, CMem.grow] at hm; rw [upd_ne _ _ (by simp)] at hm; exact hm)

theorem SStep.key_pre (hB : 2 ≤ B) (h : Inv B s) (hs : SStep B fix p s s') {e : Nat} (he : ((s'.subs p).entries e).key = invalidBase) :
    ((s.subs p).entries e).key = invalidBase ∨
    ∃ m, (s.subs p).nEnt ≤ e ∧ s'.c.hist (.val p e) = [m] ∧ m.tid = .prod p ∧ m.time ≤ s'.c.vw (.prod p) (.prod p) := by
  cases hs
  case storeKey x e' T hp =>
    simp only [State.go, upd_same] at he
    by_cases e1 : e = e'
    · subst e1
      rw [upd_same] at he
      simp only at he
      have h1 := (h.q.b p).prod
      simp only [State.q] at h1
      rw [hp] at h1
      have h2 := h1.2.1
      rw [he] at h2
      have := Nat.eq_one_of_mul_eq_one_left h2
      omega
    · rw [upd_ne _ _ e1] at he; exact .inl he
  case grow x hp g =>
    simp only [State.go, upd_same] at he
    by_cases e1 : (s.subs p).nEnt ≤ e
    · exact .inr ⟨⟨g e, .prod p, s.c.now (.prod p) (.prod p), VC.bot, 0⟩, e1, by
        simp only [State.go, CMem.grow, CMem.storeRel]; rw [upd_ne _ _ (by simp)]; simp only [newHdr]; exact if_pos ⟨trivial, e1⟩, rfl, by
        simp only [State.go, CMem.grow, CMem.storeRel, upd_same]; exact Nat.le_refl _⟩
    · rw [if_neg e1] at he; exact .inl he
  all_goals
    left
    simp only [State.go, upd_same, Sub.at] at he
    first
    | exact he
    | (revert he; unfold upd; split <;> (intro he; simp_all; done))

theorem SStep.nul_pre (hs : SStep B fix p s s') {c i e b x : Nat} (hc : (s'.subs p).cons c = .nul i e b x) :
    (s.subs p).cons c = .nul i e b x ∨ ((s.subs p).cons c = .emp i e b x ∧ s'.c.hist (.val p e) = s.c.hist (.val p e)) := by
  have hv := hs.valH e
  cases hs
  case setEmpty c' i' e' b' x' hcc =>
    by_cases e2 : c = c'
    · subst e2
      right
      have hk : s.subs p = s.subs p := rfl
      simp only [State.go, upd_same] at hc
      split at hc
      · cases hc
        refine ⟨hcc, ?_⟩
        cases fix <;> simp only [Bool.false_eq_true, if_true, if_false, CMem.rmwAcqRel, CMem.rmwRel, State.go] <;> exact upd_ne _ _ (by simp)
      · cases hc
    · simp only [State.go, upd_same] at hc
      rw [upd_ne _ _ e2] at hc
      exact .inl hc
  all_goals
    left
    simp only [State.go, upd_same, Sub.at] at hc
    first
    | exact hc
    | (revert hc; unfold upd; split
       · first
         | (intro hc; cases hc; done)
         | (split <;> (intro hc; cases hc))
       · exact id)

theorem SStep.ent_pre (hs : SStep B fix p s s') {e : Nat} (he : entryOf (s'.subs p).prod = some e) :
    (entryOf (s.subs p).prod = some e ∧ s'.seen p = s.seen p) ∨
    (∃ m, Sees (s.c.vw (.prod p)) (s.c.hist (.val p e)) m ∧ (((s.subs p).entries e).key = invalidBase ∨ m.val = none) ∧ s'.seen p = (m.tid, m.time) ∧
      s'.c.hist (.val p e) = s.c.hist (.val p e)) ∨
    ∃ m, s'.c.hist (.val p e) = [m] ∧ m.tid = .prod p ∧ m.time ≤ s'.c.vw (.prod p) (.prod p) := by
  cases hs
  case idxOk x m hp hm hk =>
    right; left
    simp only [State.go, upd_same, entryOf, Option.some.injEq] at he
    subst he
    exact ⟨m, hm, hk, by simp only [State.go, upd_same], rfl⟩
  case grow x hp g =>
    right; right
    simp only [State.go, upd_same, entryOf, Option.some.injEq] at he
    have e1 : (s.subs p).nEnt ≤ e := by omega
    exact ⟨⟨g e, .prod p, s.c.now (.prod p) (.prod p), VC.bot, 0⟩, by
        simp only [State.go, CMem.grow, CMem.storeRel]; rw [upd_ne _ _ (by simp)]; simp only [newHdr]; exact if_pos ⟨trivial, e1⟩, rfl, by
        simp only [State.go, CMem.grow, CMem.storeRel, upd_same]; exact Nat.le_refl _⟩
  all_goals
    left
    simp only [State.go, upd_same, Sub.at] at he
    first
    | exact ⟨he, rfl⟩
    | (refine ⟨?_, rfl⟩; rename_i hp; rw [hp]; exact he)
    | (refine ⟨?_, rfl⟩; rename_i hp _; rw [hp]; exact he)
    | (refine ⟨?_, rfl⟩; rename_i hp _ _; rw [hp]; exact he)
    | (exfalso; revert he; simp [entryOf]; done)
    | (exfalso; revert he; split <;> simp [entryOf])

/-- The producer does not use an entry that a consumer is about to clear. -/
theorem Inv.ent_nul (hB : 2 ≤ B) (h : Inv B s) {e c i b x : Nat} (h1 : entryOf (s.subs p).prod = some e) (h2 : (s.subs p).cons c = .nul i e b x) : False := by
  have hB0 : 0 < B := by omega
  have h3 := (h.q.b p).pc c
  have h4 := (h.q.b p).prod
  have h5 := (h.q.b p).key
  have h6 := fin_lt_tail (h.q.t p) (h.q.k p)
  simp only [State.q] at h3 h4 h5 h6
  rw [h2] at h3
  obtain ⟨hf, ho, hk, hv, -, -⟩ := h3
  have h7 := h6 _ (hf 0 hB0)
  have hns : ∀ {T}, (s.subs p).ns * B = T → T = (s.subs p).tail → (s.subs p).ns < ((s.subs p).hdrs (s.subs p).cur).nb → e = (s.subs p).ent (s.subs p).ns → False := by
    intro T hT hT' hlt he
    have h8 := h5 _ hlt (fun hd => by
      have h9 := hd.full 0 hB0
      have := h6 _ h9
      omega)
    rw [← he, hk] at h8
    omega
  revert h1
  cases hp : (s.subs p).prod <;> rw [hp] at h4 <;> simp only [entryOf, Option.some.injEq, reduceCtorEq, false_implies, imp_false, not_false_eq_true] <;> intro h1 <;> subst h1
  · obtain ⟨-, -, -, h8⟩ := h4
    rcases h8 with h8 | h8
    · rw [h8] at hk
      have := Nat.eq_one_of_mul_eq_one_left hk.symm
      omega
    · rw [h8] at hv; cases hv
  · obtain ⟨-, -, -, h8⟩ := h4
    omega
  · obtain ⟨h8, h9, h10⟩ := h4
    exact hns h9 rfl (by omega) h10
  · obtain ⟨h8, h9, h10, -⟩ := h4
    exact hns h9 rfl (by omega) h10
  · obtain ⟨h8, h9, h10, -⟩ := h4
    exact hns h9 rfl (by omega) h10

theorem SStep.oinv (hB : 2 ≤ B) (h : Inv B s) (ho : OInv p s) (hs : SStep B fix p s s') : OInv p s' := by
  have hB0 : 0 < B := by omega
  have hv := hs.vw_le
  refine ⟨?_, ?_, ?_, ?_⟩
  · intro e m hm
    rcases hs.keyH hm with h1 | h1
    · exact ⟨(ho.keyM e m h1).1, Nat.le_trans (ho.keyM e m h1).2 (hv _ _)⟩
    · exact h1
  · intro e he
    rcases hs.valH e with h1 | ⟨c, i, b, x, h1, -⟩ | ⟨x, m, h1, h2, h3, h4, h5⟩ | ⟨x, b, m, h1, h2, h3, h4, h5⟩
    · rcases hs.key_pre hB h he with h2 | ⟨x, h2, h3⟩
      · obtain ⟨m, l, e1, e2, e3⟩ := ho.kinv e h2
        exact ⟨m, l, by rw [h1]; exact e1, e2, Nat.le_trans e3 (hv _ _)⟩
      · exact ⟨x, [], h3⟩
    · exfalso
      have h3 := (h.q.b p).pc c
      simp only [State.q] at h3
      rw [h1] at h3
      rcases hs.key_pre hB h he with h2 | ⟨m, h2, h4⟩
      · have h5 := h3.2.2.1
        rw [h2] at h5
        have := Nat.eq_one_of_mul_eq_one_left h5.symm
        omega
      · have h5 := h3.2.2.2.2.1
        omega
    · exact ⟨m, _, h3, h4, h5⟩
    · exact ⟨m, _, h3, h4, h5⟩
  · intro c i e b x hc
    rcases hs.nul_pre hc with h1 | ⟨h1, h2⟩
    · rcases hs.valH e with h2 | ⟨c', i', b', x', h2, h3⟩ | ⟨x', m, h2, h3, -⟩ | ⟨x', b', m, h2, -⟩
      · obtain ⟨m, l, e1, e2⟩ := ho.nul c i e b x h1
        exact ⟨m, l, by rw [h2]; exact e1, Nat.le_trans e2 (hv _ _)⟩
      · exfalso
        have h4 := (h.q.b p).pc c
        have h5 := (h.q.b p).pc c'
        have h6 := (h.q.b p).uniq c c' (i / B)
        simp only [State.q] at h4 h5 h6
        rw [h1] at h4
        rw [h2] at h5
        have h7 : i / B * B = i' / B * B := by rw [← h4.2.2.1, ← h5.2.2.1]
        have h8 : i / B = i' / B := Nat.eq_of_mul_eq_mul_right hB0 h7
        have := h6 (by rw [h1]; rfl) (by rw [h2]; simp only [CPc.blkno, h8])
        subst this
        rw [h3] at hc
        cases hc
      · have h4 := (h.q.b p).pc c
        simp only [State.q] at h4
        rw [h1] at h4
        have := h4.2.2.2.2.1
        omega
      · exact (h.ent_nul hB (e := e) (by rw [h2]; rfl) h1).elim
    · have h3 := h.at_rd hB0 (.inr ⟨x, h1⟩)
      have h4 := (h.q.b p).pc c
      simp only [State.q] at h4
      rw [h1] at h4
      obtain ⟨m, l, e1, e2, e3⟩ := (h.p p).valOk (i / B) h3.2.2.2.2 (fun hf => by
        have h5 := hf (i % B) (Nat.mod_lt _ hB0)
        rw [Nat.div_add_mod'] at h5
        rw [h3.2.2.1] at h5
        cases h5)
      refine ⟨m, l, by rw [h2, h4.1]; exact e1, ?_⟩
      rw [e2]
      exact Nat.le_trans (Nat.le_trans (e3 i h3.2.2.2.1 rfl) ((h.c p).hold c i (by rw [h1]; rfl) _)) (hv _ _)
  · intro e he
    rcases hs.ent_pre he with ⟨h1, h2⟩ | ⟨m, h1, h2, h3, h4⟩ | ⟨x, h1, h2⟩
    · rcases hs.valH e with h3 | ⟨c', i', b', x', h3, -⟩ | ⟨x', m, h3, -⟩ | ⟨x', b', m, h3, h4, -⟩
      · obtain ⟨m, l, e1, e2⟩ := ho.ent e h1
        refine ⟨m, l, by rw [h3]; exact e1, ?_⟩
        rcases e2 with e2 | e2
        · exact .inl (Nat.le_trans e2 (hv _ _))
        · exact .inr (by rw [h2]; exact e2)
      · exact (h.ent_nul hB h1 h3).elim
      · rw [h3] at h1; cases h1
      · rw [h4] at he; cases he
    · rcases h2 with h2 | h2
      · obtain ⟨m', l, e1, e2, e3⟩ := ho.kinv e h2
        exact ⟨m', l, by rw [h4]; exact e1, .inl (by rw [e2]; exact Nat.le_trans e3 (hv _ _))⟩
      · obtain ⟨-, l, e1⟩ := h.none_new h1 h2
        exact ⟨m, l, by rw [h4]; exact e1, .inr h3.symm⟩
    · exact ⟨x, [], h1, .inl (by rw [h2.1]; exact h2.2)⟩

theorem Step.oinv (hB : 2 ≤ B) (h : Inv B s) (ho : ∀ p, OInv p s) (hs : Step B fix s s') (q : Nat) : OInv q s' := by
  cases hs with
  | mk p hs =>
    by_cases e : q = p
    · subst e; exact hs.oinv hB h (ho q)
    · exact (ho q).frame (hs.subs_other e) (fun _ => hs.hist_other e rfl) (fun _ => hs.hist_other e rfl) hs.vw_le (hs.ghost_other e).2.2.2.2.2
  | learn t t' =>
    refine (ho q).frame rfl (fun _ => rfl) (fun _ => rfl) (fun w => ?_) rfl
    show (s.c.vw w).le (upd s.c.vw t ((s.c.vw t).join (s.c.vw t')) w)
    by_cases e : w = t
    · subst e; rw [upd_same]; exact VC.le_join_left _ _
    · rw [upd_ne _ _ e]; exact VC.le_refl _

theorem OInv.init (h : Init C s) (p : Nat) : OInv p s := by
  obtain ⟨g, d, hg, hh, hd⟩ := h.subs
  refine ⟨?_, ?_, ?_, ?_⟩
  · intro e m hm
    rw [hh] at hm
    simp only [hist0, List.mem_singleton] at hm
    subst hm
    exact ⟨rfl, Nat.zero_le _⟩
  · intro e _
    rw [hh]
    exact ⟨_, [], rfl, rfl, Nat.zero_le _⟩
  · intro c i e b x hc; rw [hg] at hc; cases hc
  · intro e he; rw [hg] at he; cases he

theorem Reach.oinv (hB : 2 ≤ B) (hC : 0 < C) (h : Reach B C fix s) (p : Nat) : OInv p s := by
  induction h generalizing p with
  | init h => exact OInv.init h p
  | step h hs ih => exact hs.oinv hB (h.inv hB hC) ih p

theorem SStep.stores_last (hB : 2 ≤ B) (h : Inv B s) (ho : OInv p s) {g : Prop} (hf : FInv B g s) (hs : SStep B fix p s s') {l : Loc} {n m : Msg} {old : List Msg}
    (h1 : s'.c.hist l = n :: s.c.hist l) (h2 : s.c.hist l = m :: old) (hl : ∀ q, l ≠ .head q ∧ l ≠ .opt q ∧ l ≠ .over q) (hd : ∀ b, l = .done b → n.val = some 0) :
    m.time ≤ s.c.vw n.tid m.tid ∨ (∃ e x b, l = .val p e ∧ n.tid = .prod p ∧ (s.subs p).prod = .sval x e b ∧ s.seen p = (m.tid, m.time)) := by
  cases hs
  case inc c o hc =>
    exfalso
    simp only [State.go, CMem.rmw] at h1
    rw [upd_ne _ _ (hl p).2.1] at h1
    exact cons_ne h1
  case overcommit c k hc =>
    exfalso
    simp only [State.go, CMem.rmwRel] at h1
    rw [upd_ne _ _ (hl p).2.2] at h1
    exact cons_ne h1
  case claim c k hc =>
    exfalso
    simp only [State.go, CMem.rmwAcqRel] at h1
    rw [upd_ne _ _ (hl p).1] at h1
    exact cons_ne h1
  case setEmpty c i e b x hc =>
    exfalso
    by_cases e1 : l = .done b
    · subst e1
      have h3 := hd b rfl
      cases fix <;> simp only [Bool.false_eq_true, if_true, if_false, CMem.rmwAcqRel, CMem.rmwRel, State.go, upd_same] at h1 <;>
        (rw [← (List.cons.inj h1).1] at h3; simp at h3)
    · cases fix <;> simp only [Bool.false_eq_true, if_true, if_false, CMem.rmwAcqRel, CMem.rmwRel, State.go] at h1 <;>
        (rw [upd_ne _ _ e1] at h1; exact cons_ne h1)
  case null c i e b x hc =>
    simp only [State.go, CMem.store] at h1
    by_cases e1 : l = .val p e
    · subst e1
      rw [upd_same] at h1
      obtain ⟨m', l', e2, e3⟩ := ho.nul c i e b x hc
      rw [h2] at e2
      obtain ⟨rfl, -⟩ := List.cons.inj e2
      rw [← (List.cons.inj h1).1]
      exact .inl e3
    · rw [upd_ne _ _ e1] at h1; exact (cons_ne h1).elim
  case storeKey x e T hp =>
    simp only [State.go, CMem.store] at h1
    by_cases e1 : l = .key p e
    · subst e1
      rw [upd_same] at h1
      have h3 := ho.keyM e m (by rw [h2]; exact List.mem_cons_self)
      rw [← (List.cons.inj h1).1, h3.1]
      exact .inl h3.2
    · rw [upd_ne _ _ e1] at h1; exact (cons_ne h1).elim
  case storeTail x e T hp =>
    simp only [State.go, CMem.storeRel] at h1
    by_cases e1 : l = .htl p (s.subs p).cur
    · subst e1
      rw [upd_same] at h1
      have h3 := (h.p p).htlH _ (Nat.le_refl _) [] m old h2
      rw [← (List.cons.inj h1).1, h3.1]
      exact .inl h3.2.1
    · rw [upd_ne _ _ e1] at h1; exact (cons_ne h1).elim
  case publish x hp =>
    simp only [State.go, CMem.storeRel] at h1
    by_cases e1 : l = .tail p
    · subst e1
      rw [upd_same] at h1
      have h3 := (h.p p).tailH m (by rw [h2]; exact List.mem_cons_self)
      rw [← (List.cons.inj h1).1, h3.1]
      exact .inl h3.2.1
    · rw [upd_ne _ _ e1] at h1; exact (cons_ne h1).elim
  case resetEmpty x e b hp =>
    simp only [State.go, CMem.store] at h1
    by_cases e1 : l = .done b
    · subst e1
      rw [upd_same] at h1
      obtain ⟨m', l', e2, e3⟩ := (hf.has b _ (.rst hp)).top
      rw [h2] at e2
      obtain ⟨rfl, -⟩ := List.cons.inj e2
      rw [← (List.cons.inj h1).1]
      exact .inl e3
    · rw [upd_ne _ _ e1] at h1; exact (cons_ne h1).elim
  case storeVal x e b hp =>
    simp only [State.go, CMem.store] at h1
    by_cases e1 : l = .val p e
    · subst e1
      rw [upd_same] at h1
      obtain ⟨m', l', e2, e3⟩ := ho.ent e (by rw [hp]; rfl)
      rw [h2] at e2
      obtain ⟨rfl, -⟩ := List.cons.inj e2
      rw [← (List.cons.inj h1).1]
      rcases e3 with e3 | e3
      · exact .inl e3
      · exact .inr ⟨e, x, b, rfl, rfl, hp, e3.symm⟩
    · rw [upd_ne _ _ e1] at h1; exact (cons_ne h1).elim
  case grow x hp g =>
    simp only [State.go, CMem.grow, CMem.storeRel] at h1
    by_cases e1 : l = .cur p
    · subst e1
      rw [upd_same] at h1
      have h3 := (h.p p).curH [] m old h2
      rw [← (List.cons.inj h1).1, h3.1]
      exact .inl h3.2.1
    · exfalso
      rw [upd_ne _ _ e1] at h1
      cases l <;> simp only [newHdr] at h1
      all_goals first
        | exact cons_ne h1
        | (split at h1
           · rw [h2] at h1; have := congrArg List.length h1; simp at this
           · exact cons_ne h1)
  all_goals exact (cons_ne h1).elim

end RG.WQ
