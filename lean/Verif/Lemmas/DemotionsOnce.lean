import Verif.Lemmas.Demotions
/-
If any two tasks share at most one resource, then a task is linked at most once to another one.
-/
set_option linter.unusedVariables false
namespace RG.Graph

variable {cfg cfg' cfg0 : Cfg} {s s' s1 : State} {l : Lbl} {p : Nat}

/-- no task names a resource twice, and no two tasks have more than one resource in common -/
structure Cfg.ShareOne (cfg : Cfg) : Prop where
  nodup : ∀ t, (cfg.user t).unique.Nodup
  one : ∀ p t r r', p ≠ t → r ∈ (cfg.user p).unique → r ∈ (cfg.user t).unique →
    r' ∈ (cfg.user p).unique → r' ∈ (cfg.user t).unique → r = r'

theorem Less.shareOne (h : Less cfg cfg') (hs : cfg.ShareOne) : cfg'.ShareOne := by
  constructor
  · intro t; rw [h.unique]; exact hs.nodup t
  · intro p t r r'; rw [h.unique, h.unique]; exact hs.one p t r r'

theorem mem_unique {t i : Nat} {r : Res} (h : (cfg.res t)[i]? = some r) : r ∈ (cfg.user t).unique :=
  List.mem_reverse.1 (List.mem_of_getElem? h)

theorem res_inj (hs : cfg.ShareOne) {t i j : Nat} {r : Res} (h : (cfg.res t)[i]? = some r)
    (h' : (cfg.res t)[j]? = some r) : i = j := by
  have hnd' : (cfg.res t).Nodup := List.pairwise_reverse.2 ((hs.nodup t).imp fun h => Ne.symm h)
  exact (List.getElem?_inj (getElem?_lt_length h) hnd').1 (h.trans h'.symm)

/-- the entries of task `p` are behind the scan of task `t` for entry `i` -/
def past (p : Nat) : Ph → Nat → Prop
  | .initing (.scan k rem), i => i < k ∨ i = k ∧ ∀ e ∈ rem, e.1 ≠ p
  | .initing (.link k q rem), i => i < k ∨ i = k ∧ q.1 ≠ p ∧ ∀ e ∈ rem, e.1 ≠ p
  | .initing (.incr k _ rem), i => i < k ∨ i = k ∧ ∀ e ∈ rem, e.1 ≠ p
  | ph, i => passed ph i

/-- every task is at most once among the followers of another one -/
structure Once (cfg : Cfg) (s : State) : Prop where
  le : ∀ p t, p ≠ t → (s.fol p).count (.pre t) ≤ 1
  past : ∀ p t, p ≠ t → .pre t ∈ s.fol p →
    ∃ i r, (cfg.res t)[i]? = some r ∧ r ∈ (cfg.user p).unique ∧ past p (s.ph t) i

theorem Once.init : Once cfg init := by
  constructor <;> intros <;> simp_all [Graph.init]

theorem Once.less (h : Less cfg cfg') (ho : Once cfg s) : Once cfg' s := by
  refine ⟨ho.le, fun p t hne hm => ?_⟩
  obtain ⟨i, r, h1, h2, h3⟩ := ho.past p t hne hm
  exact ⟨i, r, by rw [h.res]; exact h1, by rw [h.unique]; exact h2, h3⟩

theorem Once.release (ho : Once cfg s) (h : Release cfg p s s') : Once cfg s' := by
  constructor
  · intro q t hne
    by_cases e : q = p
    · subst e
      rw [h.folP]
      exact Nat.le_trans (List.Sublist.count_le _ List.filter_sublist) (ho.le q t hne)
    · rw [h.folNe q e]; exact ho.le q t hne
  · intro q t hne hm
    rw [h.ph]
    exact ho.past q t hne (h.folSub hm)

/-- the scan does not go back -/
theorem past_step (hd : Dom cfg s) (hs : Step cfg l s s') (t i : Nat) (h : past p (s.ph t) i) :
    past p (s'.ph t) i := by
  have key : ∀ {u v w}, s.ph u = w → (past p w i → past p v i) → past p (upd s.ph u v t) i := by
    intro u v w hw hv
    by_cases e : t = u
    · subst e; rw [upd_same]; exact hv (hw ▸ h)
    · rw [upd_ne _ _ e]; exact h
  cases hs with
  | beginSubmit => exact key (hd.ph _ (Nat.le_refl _)) (fun h => h.elim)
  | pushUser h1 => exact key h1 (fun h => h.elim)
  | emplace h1 => exact key h1 (fun h => h.elim)
  | startInit h1 => exact key h1 (fun h => h.elim)
  | lockRes h1 => exact key h1 (fun h => .inl h)
  | scanParent h1 => exact key h1 (fun h => by simp only [past, passed] at h ⊢; omega)
  | scanSkip h1 => exact key h1 (fun h => by simp only [past, passed, List.mem_cons] at h ⊢; grind)
  | scanReached h1 =>
    refine key h1 (fun h => ?_)
    split <;> simp only [past, passed, List.mem_cons] at h ⊢ <;> grind
  | scanLink h1 => exact key h1 (fun h => by simp only [past, passed, List.mem_cons] at h ⊢; grind)
  | link h1 => exact key h1 (fun h => by simp only [past, passed] at h ⊢; grind)
  | incr h1 =>
    refine key h1 (fun h => ?_)
    split <;> simp only [past, passed] at h ⊢ <;> grind
  | scanEnd h1 => exact key h1 (fun h => by simp only [past, passed] at h ⊢; omega)
  | unlock h1 => exact key h1 (fun h => by simp only [past, passed] at h ⊢; omega)
  | resEnd h1 => exact key h1 (fun h => trivial)
  | noParent h1 => exact key h1 (fun h => trivial)
  | parentPush h1 => exact key h1 (fun h => trivial)
  | parentIncr h1 => exact key h1 (fun h => trivial)
  | final h1 => exact key h1 (fun h => trivial)
  | _ => exact h

theorem olderThan_suffix (b : Entry) (l : List Entry) : ∃ l1, l = l1 ++ olderThan b l := by
  induction l with
  | nil => exact ⟨[], rfl⟩
  | cons x l ih =>
    simp only [olderThan]
    split
    · exact ⟨[x], rfl⟩
    · obtain ⟨l1, h⟩ := ih
      exact ⟨x :: l1, by rw [List.cons_append, ← h]⟩

theorem users_res (hi : Core cfg s) {r : Res} {e : Entry} (h : e ∈ s.users r) : (cfg.res e.1)[e.2]? = some r := by
  rw [hi.usersEq] at h
  exact ((hi.histMem r e.1 e.2).1 (List.mem_filter.1 h).1).1

theorem Once.step (h1 : cfg.ShareOne) (hd : Dom cfg s) (hi : Core cfg s) (hor : Ord cfg s) (ho : Once cfg s)
    (hs : Step cfg l s s') : Once cfg s' := by
  have hp := fun p t i => past_step (p := p) hd hs t i
  have same : s'.fol = s.fol → Once cfg s' := by
    intro h
    refine ⟨by rw [h]; exact ho.le, fun p t hne hm => ?_⟩
    rw [h] at hm
    obtain ⟨i, r, a, b, c⟩ := ho.past p t hne hm
    exact ⟨i, r, a, b, hp p t i c⟩
  cases hs with
  | @link _ t k q rem h =>
    obtain ⟨r, hr⟩ := hi.holdR t k (by rw [h]; rfl)
    obtain ⟨-, vis, hv, -⟩ := hor.linkC t k q rem r h hr
    have hq : q ∈ s.users r := (hi.linkI t k q rem r h hr).1
    have hqr := users_res hi hq
    have hrem : q.1 ≠ t → ∀ e ∈ rem, e.1 ≠ q.1 := by
      intro hne e he hee
      have he' := users_res hi ((hi.linkI t k q rem r h hr).2 e he)
      rw [hee] at he'
      have : e.2 = q.2 := res_inj h1 he' hqr
      have heq : e = q := Prod.ext hee this
      subst heq
      have hnd : (olderThan (t, k) (s.users r)).Nodup := by
        obtain ⟨l1, e1⟩ : ∃ l1, s.users r = l1 ++ olderThan (t, k) (s.users r) := olderThan_suffix _ _
        have : (s.users r).Nodup := by rw [hi.usersEq]; exact (hi.histNodup r).filter _
        rw [e1] at this
        exact (List.nodup_append.1 this).2.1
      rw [hv] at hnd
      have := (List.nodup_append.1 hnd).2.1
      exact (List.nodup_cons.1 this).1 he
    have hnot : q.1 ≠ t → .pre t ∉ s.fol q.1 := by
      intro hne hm
      obtain ⟨i, r', a, b, c⟩ := ho.past q.1 t hne hm
      rw [h] at c
      have : r' = r := h1.one q.1 t r' r hne b (mem_unique a) (mem_unique hqr) (mem_unique hr)
      subst this
      have : i = k := res_inj h1 a hr
      subst this
      rcases c with c | c
      · exact Nat.lt_irrefl _ c
      · exact c.2.1 rfl
    constructor
    · intro p u hne
      dsimp only
      by_cases e : p = q.1
      · subst e
        rw [upd_same]
        by_cases eu : u = t
        · subst eu
          rw [List.count_cons_self, List.count_eq_zero.2 (hnot hne)]
          exact Nat.le_refl _
        · rw [List.count_cons_of_ne (by simpa using fun h => eu h.symm)]
          exact ho.le _ u hne
      · rw [upd_ne _ _ e]; exact ho.le p u hne
    · intro p u hne hm
      dsimp only at hm ⊢
      by_cases e : p = q.1 ∧ u = t
      · obtain ⟨rfl, rfl⟩ := e
        refine ⟨k, r, hr, mem_unique hqr, ?_⟩
        rw [upd_same]
        exact .inr ⟨rfl, hrem hne⟩
      · have hm' : .pre u ∈ s.fol p := by
          by_cases e' : p = q.1
          · subst e'
            rw [upd_same] at hm
            rcases List.mem_cons.1 hm with h' | h'
            · cases h'; exact absurd ⟨rfl, rfl⟩ e
            · exact h'
          · rwa [upd_ne _ _ e'] at hm
        obtain ⟨i, r', a, b, c⟩ := ho.past p u hne hm'
        exact ⟨i, r', a, b, hp p u i c⟩
  | @parentPush _ t q h hpq =>
    constructor
    · intro p u hne
      dsimp only
      by_cases e : p = t
      · subst e
        rw [upd_same, List.count_cons_of_ne (by simp)]
        exact ho.le p u hne
      · rw [upd_ne _ _ e]; exact ho.le p u hne
    · intro p u hne hm
      have hm' : .pre u ∈ s.fol p := by
        dsimp only at hm
        by_cases e' : p = t
        · subst e'
          rw [upd_same] at hm
          rcases List.mem_cons.1 hm with h' | h'
          · cases h'
          · exact h'
        · rwa [upd_ne _ _ e'] at hm
      obtain ⟨i, r', a, b, c⟩ := ho.past p u hne hm'
      exact ⟨i, r', a, b, hp p u i c⟩
  | _ => exact same rfl

theorem DReach.once (hw : OnePolicy cfg0) (ht : Tame cfg0) (h1 : cfg0.ShareOne) (h : DReach cfg0 cfg s) :
    Once cfg s := by
  induction h with
  | init => exact .init
  | @step cfg s cfg' s' h hs ih =>
    have hi := h.inv hw ht
    have hl := h.less
    cases hs with
    | step hs => exact ih.step (hl.shareOne h1) hi.dom hi.core hi.ord hs
    | demote hp hrm hup hc =>
      have h1 := hi.demote (hl.policy hw) hp hrm hup
      have hl' := updateProperties_less hrm hup
      rw [(updateProperties_ok hup).2]
      exact (ih.less hl').release (updateGraph_release h1.dom h1.core hp hc)
    | rejected hp hrm hup =>
      rw [C22_rejected_releases_nobody_partial hup]
      exact ih.less (updateProperties_less hrm hup)

end RG.Graph
