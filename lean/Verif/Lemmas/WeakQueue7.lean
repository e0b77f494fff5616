import Verif.Lemmas.WeakQueue6
/-
Lemmas for C92: accesses of the places for elements, and who knows of them when a block changes hands.
-/
set_option linter.unusedVariables false
namespace RG.WQ
open RG.MQ

variable {B C p : Nat} {fix : Bool} {s s' : State}

/-- a thread that knows `v` knows of all accesses of the place since and with the last write -/
def Acc (s : State) (b j : Nat) (v : VC) : Prop := (s.wr b j).2 ≤ v (s.wr b j).1 ∧ ∀ r, r ∈ s.rds b j → r.2 ≤ v r.1

theorem Acc.mono {b j : Nat} {v v' : VC} (h : Acc s b j v) (hv : v.le v') : Acc s b j v' :=
  ⟨Nat.le_trans h.1 (hv _), fun r hr => Nat.le_trans (h.2 r hr) (hv _)⟩

theorem Acc.same {b j : Nat} {v : VC} (h : Acc s b j v) (h1 : s'.wr b j = s.wr b j) (h2 : s'.rds b j = s.rds b j) : Acc s' b j v := by
  unfold Acc
  rw [h1, h2]
  exact h

/-- The step that changes what is known about a place. -/
theorem SStep.acc (hs : SStep B fix p s s') (b j : Nat) : (s'.wr b j = s.wr b j ∧ s'.rds b j = s.rds b j) ∨
    (∃ c i e, (s.subs p).cons c = .rd i e b ∧ j = i % B ∧ s'.wr b j = s.wr b j ∧ s'.rds b j = (.cons p c, s.c.now (.cons p c) (.cons p c)) :: s.rds b j ∧
      s'.c.vw (.cons p c) = s.c.now (.cons p c) ∧ ((s'.subs p).cons c = .fault i ∨ ∃ x, (s'.subs p).cons c = .emp i e b x)) ∨
    ∃ x, (s.subs p).prod = .wr x ∧ b = (s.subs p).tailBlock ∧ j = (s.subs p).tail % B ∧ s'.wr b j = (.prod p, s.c.now (.prod p) (.prod p)) ∧ s'.rds b j = [] ∧
      s'.c.vw (.prod p) = s.c.now (.prod p) := by
  cases hs
  case read c i e b' hcc =>
    by_cases e1 : b = b'
    · subst e1
      by_cases e2 : j = i % B
      · subst e2
        refine .inr (.inl ⟨c, i, e, hcc, rfl, rfl, by simp only [State.go, upd_same], by simp only [State.go, CMem.tick, upd_same], ?_⟩)
        simp only [State.go, upd_same, Sub.at]
        split
        · exact .inl rfl
        · exact .inr ⟨_, rfl⟩
      · left; refine ⟨rfl, ?_⟩; simp only [State.go, upd_same]; rw [upd_ne _ _ e2]
    · left; refine ⟨rfl, ?_⟩; simp only [State.go]; rw [upd_ne _ _ e1]
  case write x hp =>
    by_cases e1 : b = (s.subs p).tailBlock
    · by_cases e2 : j = (s.subs p).tail % B
      · subst e1 e2
        exact .inr (.inr ⟨x, hp, rfl, rfl, by simp only [State.go, upd_same], by simp only [State.go, upd_same], by simp only [State.go, CMem.tick, upd_same]⟩)
      · subst e1; left; simp only [State.go, upd_same]; rw [upd_ne _ _ e2, upd_ne _ _ e2]; exact ⟨rfl, rfl⟩
    · left; simp only [State.go]; rw [upd_ne _ _ e1, upd_ne _ _ e1]; exact ⟨rfl, rfl⟩
  all_goals exact .inl ⟨rfl, rfl⟩

/-- The step that changes the counter of a block. -/
theorem SStep.doneH (hs : SStep B fix p s s') (b : Nat) : s'.c.hist (.done b) = s.c.hist (.done b) ∨
    (∃ c i e x m, (s.subs p).cons c = .emp i e b x ∧ s'.c.hist (.done b) = m :: s.c.hist (.done b) ∧ m.view = (s.c.now (.cons p c)).join (s.c.top (.done b)) ∧ m.val ≠ some 0 ∧
      (s.c.now (.cons p c)).le (s'.c.vw (.cons p c))) ∨
    ∃ x e, (s.subs p).prod = .rst x e b ∧ (s'.subs p).prod = .sval x e b ∧ (s'.subs p).ns = (s.subs p).ns ∧ s'.mem b = { s.mem b with done := 0 } := by
  cases hs
  case setEmpty c i e b' x hcc =>
    by_cases e1 : b = b'
    · subst e1
      cases fix
      · exact .inr (.inl ⟨c, i, e, x, _, hcc, by simp only [Bool.false_eq_true, if_false, State.go, CMem.rmwRel]; rw [upd_same], rfl, by simp,
        by simp only [Bool.false_eq_true, if_false, State.go, CMem.rmwRel, upd_same]; exact VC.le_refl _⟩)
      · exact .inr (.inl ⟨c, i, e, x, _, hcc, by simp only [if_true, State.go, CMem.rmwAcqRel]; rw [upd_same], rfl, by simp,
        by simp only [if_true, State.go, CMem.rmwAcqRel, upd_same]; exact VC.le_join_left _ _⟩)
    · left
      cases fix <;> simp only [Bool.false_eq_true, if_true, if_false, CMem.rmwAcqRel, CMem.rmwRel, State.go] <;> exact upd_ne _ _ (by simpa using e1)
  case resetEmpty x e b' hp =>
    by_cases e1 : b = b'
    · subst e1
      exact .inr (.inr ⟨x, e, hp, by simp only [State.go, upd_same], by simp only [State.go, upd_same], by simp only [State.go, upd_same]⟩)
    · left; simp only [State.go, CMem.store]; exact upd_ne _ _ (by simpa using e1)
  all_goals
    left
    first
    | rfl
    | (simp only [State.go, CMem.store, CMem.storeRel, CMem.rmw, CMem.rmwRel, CMem.rmwAcqRel, CMem.grow]; rw [upd_ne _ _ (by simp)]; done)
    | (simp only [State.go, CMem.store, CMem.storeRel, CMem.rmw, CMem.rmwRel, CMem.rmwAcqRel, CMem.grow]; rw [upd_ne _ _ (by simp)]; rfl)

/-- An element is marked as read. -/
theorem SStep.fin_pre (hs : SStep B fix p s s') {i : Nat} (hi : (s'.subs p).fin i = true) : (s.subs p).fin i = true ∨
    ∃ c e b x, (s.subs p).cons c = .emp i e b x ∧ s'.wr = s.wr ∧ s'.rds = s.rds ∧ (s'.subs p).blkOf = (s.subs p).blkOf ∧
      s'.c.top (.done b) = (s.c.now (.cons p c)).join (s.c.top (.done b)) := by
  cases hs
  case setEmpty c i' e b x hcc =>
    simp only [State.go, upd_same] at hi
    by_cases e1 : i = i'
    · subst e1
      refine .inr ⟨c, e, b, x, hcc, rfl, rfl, by simp only [State.go, upd_same], ?_⟩
      cases fix <;> simp only [Bool.false_eq_true, if_true, if_false, CMem.rmwAcqRel, CMem.rmwRel, State.go] <;> (rw [CMem.top]; simp only [upd_same])
    · rw [upd_ne _ _ e1] at hi; exact .inl hi
  all_goals
    simp only [State.go, upd_same, Sub.at] at hi
    exact .inl hi

theorem SStep.fin_mono (hs : SStep B fix p s s') {i : Nat} (hi : (s.subs p).fin i = true) : (s'.subs p).fin i = true := by
  cases hs
  case setEmpty c i' e b x hcc =>
    simp only [State.go, upd_same]
    by_cases e1 : i = i'
    · subst e1; exact upd_same _ _ _
    · rw [upd_ne _ _ e1]; exact hi
  all_goals
    simp only [State.go, upd_same, Sub.at]
    exact hi

/-- Elements become available when they are published. -/
theorem SStep.tail_pre (hs : SStep B fix p s s') {i : Nat} (hi : i < (s'.subs p).tail) : i < (s.subs p).tail ∨
    (i = (s.subs p).tail ∧ (∃ x, (s.subs p).prod = .pub x) ∧ (s'.subs p).blkOf = (s.subs p).blkOf ∧ s'.rds = s.rds) := by
  cases hs
  case publish x hp =>
    simp only [State.go, upd_same] at hi
    by_cases e : i = (s.subs p).tail
    · exact .inr ⟨e, ⟨x, hp⟩, by simp only [State.go, upd_same], rfl⟩
    · left; omega
  all_goals
    simp only [State.go, upd_same, Sub.at] at hi
    exact .inl hi

theorem SStep.tail_mono (hs : SStep B fix p s s') : (s.subs p).tail ≤ (s'.subs p).tail := by
  cases hs <;> simp only [State.go, upd_same, Sub.at] <;> first | exact Nat.le_refl _ | exact Nat.le_succ _

/-- A consumer that has read stays where it is or marks the element as read. -/
theorem SStep.emp_stays (hs : SStep B fix p s s') {c i e b x : Nat} (hc : (s.subs p).cons c = .emp i e b x) :
    (s'.subs p).cons c = .emp i e b x ∨ (s'.subs p).fin i = true := by
  cases hs
  case setEmpty c' i' e' b' x' hcc =>
    simp only [State.go, upd_same]
    by_cases e1 : c = c'
    · subst e1; rw [hcc] at hc; cases hc; exact .inr (upd_same _ _ _)
    · rw [upd_ne _ _ e1]; exact .inl hc
  all_goals
    simp only [State.go, upd_same, Sub.at]
    first
    | exact .inl hc
    | (rename_i c' _; by_cases e1 : c = c'
       · subst e1; simp_all
       · rw [upd_ne _ _ e1]; exact .inl hc)
    | (left; rw [upd_ne]; exact hc; rintro rfl; simp_all; done)

/-- A block is in use because it was before, or has just been taken. -/
theorem SStep.own_pre (hs : SStep B fix p s s') {q n b : Nat} (h1 : (s'.mem b).owner = some (q, n)) (h2 : (s'.subs q).blkOf n = b) :
    ((s.mem b).owner = some (q, n) ∧ (s.subs q).blkOf n = b) ∨
    ((s.mem b).owner = none ∧ q = p ∧ n = (s.subs p).ns ∧ (∃ x e, (s.subs p).prod = .blk x e) ∧ s'.wr = s.wr ∧ s'.rds = s.rds ∧ (s.pool b).le (s'.c.vw (.prod p))) := by
  cases hs
  case requisition x e hp b' hb =>
    simp only [State.go] at h1 h2
    by_cases e1 : b = b'
    · subst e1
      rw [upd_same] at h1
      cases h1
      exact .inr ⟨hb, rfl, rfl, ⟨x, e, hp⟩, rfl, rfl, by simp only [State.go, upd_same]; exact VC.le_join_right _ _⟩
    · rw [upd_ne _ _ e1] at h1
      refine .inl ⟨h1, ?_⟩
      by_cases e2 : q = p
      · subst e2
        rw [upd_same] at h2
        simp only at h2
        by_cases e3 : n = (s.subs q).ns
        · subst e3; rw [upd_same] at h2; exact absurd h2.symm e1
        · rw [upd_ne _ _ e3] at h2; exact h2
      · rw [upd_ne _ _ e2] at h2; exact h2
  case free c i b' x hcc =>
    simp only [State.go] at h1 h2
    by_cases e1 : b = b'
    · subst e1; rw [upd_same] at h1; cases h1
    · rw [upd_ne _ _ e1] at h1
      refine .inl ⟨h1, ?_⟩
      by_cases e2 : q = p
      · subst e2; rw [upd_same] at h2; exact h2
      · rw [upd_ne _ _ e2] at h2; exact h2
  all_goals
    simp only [State.go] at h1 h2
    left
    constructor
    · first
      | exact h1
      | (revert h1; unfold upd; split <;> (intro h1; simp_all; done))
    · by_cases e2 : q = p
      · subst e2; rw [upd_same] at h2; exact h2
      · rw [upd_ne _ _ e2] at h2; exact h2

/-- An element has been written. -/
theorem SStep.pub_pre (hs : SStep B fix p s s') {x : Nat} (h : (s'.subs p).prod = .pub x) :
    ((s.subs p).prod = .pub x ∧ (s'.subs p).tailBlock = (s.subs p).tailBlock ∧ (s'.subs p).tail = (s.subs p).tail) ∨ s'.rds (s'.subs p).tailBlock ((s'.subs p).tail % B) = [] := by
  cases hs
  case write x' hp => right; simp only [State.go, upd_same]
  all_goals
    simp only [State.go, upd_same, Sub.at] at h ⊢
    first
    | exact .inl ⟨h, rfl, rfl⟩
    | (exact absurd h (by simp))
    | (exfalso; revert h; split <;> simp)
    | exact .inl ⟨h, trivial, trivial⟩
    | exact .inl ⟨h, by trivial⟩

/-! ### Who holds a block -/

/-- `v` is what is known where a block is whose elements have all been read -/
inductive Has (s : State) (b : Nat) : VC → Prop
  | pool (h : (s.mem b).owner = none) : Has s b (s.pool b)
  | nul {p c i e x} (h : (s.subs p).cons c = .nul i e b x) : Has s b (s.c.vw (.cons p c))
  | fre {p c i x} (h : (s.subs p).cons c = .fre i b x) : Has s b (s.c.vw (.cons p c))
  | rst {p x e} (h : (s.subs p).prod = .rst x e b) : Has s b (s.c.vw (.prod p))

theorem Has.owner {b : Nat} {v : VC} (hq : MQ.Inv B s.q) (h : Has s b v) : (s.mem b).owner = none ∨
    ∃ q n, (s.mem b).owner = some (q, n) ∧ (Full B (s.subs q).fin n ∨ (n = (s.subs q).ns ∧ ∃ x e, (s.subs q).prod = .rst x e b)) := by
  cases h with
  | pool h => exact .inl h
  | @nul p c i e x h =>
    have h1 := (hq.b p).pc c
    simp only [State.q] at h1
    rw [h] at h1
    exact .inr ⟨p, i / B, h1.2.1, .inl h1.1⟩
  | @fre p c i x h =>
    have h1 := (hq.b p).pc c
    simp only [State.q] at h1
    rw [h] at h1
    exact .inr ⟨p, i / B, h1.2.1, .inl h1.1⟩
  | @rst p x e h =>
    have h1 := (hq.b p).prod
    simp only [State.q] at h1
    rw [h] at h1
    exact .inr ⟨p, (s.subs p).ns, h1.2.2.2.2, .inr ⟨rfl, x, e, h⟩⟩

/-- a block with an element that has not been read is held by nobody -/
theorem Has.absurd {b : Nat} {v : VC} (hB : 0 < B) (hq : MQ.Inv B s.q) (h : Has s b v) {q i : Nat} (h1 : (s.mem b).owner = some (q, i / B)) (h2 : (s.subs q).fin i = false)
    (h3 : i / B < (s.subs q).ns) : False := by
  rcases h.owner hq with h4 | ⟨q', n, h4, h5⟩
  · rw [h4] at h1; cases h1
  · rw [h4] at h1
    cases h1
    rcases h5 with h5 | h5
    · have := h5 (i % B) (Nat.mod_lt _ hB)
      rw [Nat.div_add_mod'] at this
      rw [this] at h2
      cases h2
    · omega

/-- where the block was before -/
theorem SStep.has_pre (hs : SStep B fix p s s') {b : Nat} {v' : VC} (h : Has s' b v') : (∃ v, Has s b v ∧ v.le v') ∨
    ∃ c i e x, (s.subs p).cons c = .emp i e b x ∧ (s'.subs p).cons c = .nul i e b x ∧ v' = s'.c.vw (.cons p c) := by
  have hv := hs.vw_le
  cases h with
  | pool h =>
    left
    cases hs
    case free c i b' x hcc =>
      simp only [State.go] at h ⊢
      by_cases e1 : b = b'
      · subst e1; rw [upd_same]; exact ⟨_, .fre hcc, s.c.le_now _⟩
      · rw [upd_ne _ _ e1] at h ⊢; exact ⟨_, .pool h, VC.le_refl _⟩
    case requisition x e hp b' hb =>
      simp only [State.go] at h ⊢
      by_cases e1 : b = b'
      · subst e1; rw [upd_same] at h; cases h
      · rw [upd_ne _ _ e1] at h; exact ⟨_, .pool h, VC.le_refl _⟩
    all_goals
      refine ⟨_, .pool ?_, VC.le_refl _⟩
      simp only [State.go] at h
      first
      | exact h
      | (revert h; unfold upd; split <;> (intro h; simp_all; done))
  | @nul q c i e x h =>
    by_cases e1 : q = p
    · subst e1
      cases hs
      case setEmpty c' i' e' b' x' hcc =>
        by_cases e2 : c = c'
        · subst e2
          have h' := h
          simp only [State.go, upd_same] at h
          split at h
          · cases h; exact .inr ⟨c, i, e, x, hcc, h', rfl⟩
          · cases h
        · simp only [State.go, upd_same] at h
          rw [upd_ne _ _ e2] at h
          exact .inl ⟨_, .nul h, hv _⟩
      all_goals
        left
        simp only [State.go, upd_same, Sub.at] at h
        first
        | exact ⟨_, .nul h, hv _⟩
        | (refine ⟨_, .nul (c := c) (i := i) (e := e) (x := x) ?_, hv _⟩
           revert h; unfold upd; split
           · first
             | (intro h; cases h; done)
             | (split <;> (intro h; cases h))
           · exact id)
    · rw [hs.subs_other e1] at h
      exact .inl ⟨_, .nul h, hv _⟩
  | @fre q c i x h =>
    left
    by_cases e1 : q = p
    · subst e1
      cases hs
      case null c' i' e' b' x' hcc =>
        by_cases e2 : c = c'
        · subst e2
          simp only [State.go, upd_same] at h
          cases h
          exact ⟨_, .nul hcc, hv _⟩
        · simp only [State.go, upd_same] at h
          rw [upd_ne _ _ e2] at h
          exact ⟨_, .fre h, hv _⟩
      all_goals
        simp only [State.go, upd_same, Sub.at] at h
        first
        | exact ⟨_, .fre h, hv _⟩
        | (refine ⟨_, .fre (c := c) (i := i) (x := x) ?_, hv _⟩
           revert h; unfold upd; split
           · first
             | (intro h; cases h; done)
             | (split <;> (intro h; cases h))
           · exact id)
    · rw [hs.subs_other e1] at h
      exact ⟨_, .fre h, hv _⟩
  | @rst q x e h =>
    left
    by_cases e1 : q = p
    · subst e1
      cases hs
      case requisition x' e' hp b' hb =>
        simp only [State.go, upd_same] at h ⊢
        cases h
        exact ⟨_, .pool hb, VC.le_join_right _ _⟩
      all_goals
        simp only [State.go, upd_same, Sub.at] at h
        first
        | exact ⟨_, .rst h, hv _⟩
        | (exfalso; cases h; done)
        | (exfalso; revert h; split <;> (intro h; cases h))
    · rw [hs.subs_other e1] at h
      exact ⟨_, .rst h, hv _⟩

end RG.WQ
