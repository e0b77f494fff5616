import Verif.Lemmas.GraphOrder
import Verif.Lemmas.GraphLife
import Verif.Lemmas.GraphAny
/-
Lemmas about the task graph used for the theorems in Props/Graph.lean.
-/
set_option linter.unusedVariables false
namespace RG.Graph

variable {cfg : Cfg} {s s' s1 : State} {l : Lbl}

theorem Steps.reach (h : Steps cfg s s') (hr : Reach cfg s) : Reach cfg s' := by
  induction h with
  | refl => exact hr
  | step _ hs ih => exact .step ih hs

theorem Steps.trans {s2 : State} (h : Steps cfg s s') (h' : Steps cfg s' s2) : Steps cfg s s2 := by
  induction h' with
  | refl => exact h
  | step _ hs ih => exact .step ih hs

theorem Step.n_le (hs : Step cfg l s s') : s.n ≤ s'.n := by
  cases hs <;> first | exact Nat.le_refl _ | exact Nat.le_succ _

/-- elements of the history keep their predecessors -/
theorem Steps.hist_mono (ht : Tame cfg) (h : Steps cfg s1 s) (hr : Reach cfg s1) {r e}
    (he : e ∈ s1.hist r) : e ∈ s.hist r ∧ olderThan e (s.hist r) = olderThan e (s1.hist r) := by
  induction h with
  | refl => exact ⟨he, rfl⟩
  | @step s2 s3 l hss hs ih =>
    have hr2 := Steps.reach hss hr
    have := Graph.hist_mono (Dom.reach hr2) (Core.reach ht hr2) hs ih.1
    refine ⟨?_, by rw [this, ih.2]⟩
    have ih1 := ih.1
    cases hs with
    | @pushUser _ t i r' hp hr' =>
      dsimp only
      by_cases e' : r = r'
      · subst e'; rw [upd_same]; exact .tail _ ih1
      · rw [upd_ne _ _ e']; exact ih1
    | _ => exact ih1

/-- the moment at which the submission of a task began -/
theorem Reach.submission (ht : Tame cfg) (h : Reach cfg s) {t : Nat} (hlt : t < s.n) :
    ∃ s1, Reach cfg s1 ∧ s1.n = t ∧ Steps cfg s1 s ∧
      (cfg.single = true → ∀ c i, c < t → cfg.space c = cfg.space t → s1.ph c ≠ .submitting i) := by
  induction h with
  | init => simp [Graph.init] at hlt
  | @step s0 s' l h hs ih =>
    by_cases hlt' : t < s0.n
    · obtain ⟨s1, h1, h2, h3, h4⟩ := ih hlt'
      exact ⟨s1, h1, h2, .step h3 hs, h4⟩
    · cases hs with
      | beginSubmit hp h1 =>
        have : t = s0.n := by simp only at hlt; omega
        subst this
        exact ⟨s0, h, rfl, .step .refl (.beginSubmit hp h1), h1⟩
      | _ => exact absurd hlt hlt'

/-- entries of a task whose submission returned before the submission of another task began are older -/
theorem submitted_older (ht : Tame cfg) (hr1 : Reach cfg s1) (h : Steps cfg s1 s) {p t i j r}
    (hp : p < s1.n) (hq : ∀ i, s1.ph p ≠ .submitting i) (hlt : s1.n ≤ t)
    (hpr : (cfg.res p)[j]? = some r) (hm : (t, i) ∈ s.hist r) :
    (p, j) ∈ olderThan (t, i) (s.hist r) := by
  have hd1 := Dom.reach hr1
  have hi1 := Core.reach ht hr1
  have hr := h.reach hr1
  have hi := Core.reach ht hr
  have hpm : (p, j) ∈ s1.hist r := by
    refine (hi1.histMem r p j).2 ⟨hpr, ?_⟩
    have := hd1.old p hp
    revert this hq
    cases s1.ph p <;> simp [Pushed]
  obtain ⟨hpm', ho⟩ := h.hist_mono ht hr1 hpm
  have hne : (t, i) ≠ (p, j) := by
    intro e; cases e; omega
  -- the other order is impossible
  have hnot : (t, i) ∉ olderThan (p, j) (s.hist r) := by
    rw [ho]
    intro h'
    have := ((hi1.histMem r t i).1 (olderThan_sub h')).2
    rw [hd1.ph t hlt] at this
    exact this
  obtain ⟨l1, h1, h2⟩ := olderThan_split hpm'
  have hm' := hm
  rw [h1, List.mem_append] at hm'
  rcases hm' with hm' | hm'
  · rw [h1]
    obtain ⟨l2, h3, h4⟩ := olderThan_split hm'
    rw [h3, List.append_assoc, olderThan_append h4, List.cons_append, olderThan_cons_self]
    simp
  · rcases List.mem_cons.1 hm' with e | hm'
    · exact absurd e hne
    · exact absurd hm' hnot

/-- with one submitting thread per space, older entries belong to earlier tasks -/
theorem single_older (ht : Tame cfg) (hsg : cfg.single = true) (hr : Reach cfg s) {e e' : Entry} {r}
    (hsp : cfg.space e.1 = cfg.space e'.1) (h : e ∈ olderThan e' (s.hist r)) (he' : e' ∈ s.hist r) :
    e.1 ≤ e'.1 := by
  apply Nat.le_of_not_lt
  intro hlt
  have hd := Dom.reach hr
  have hi := Core.reach ht hr
  have hem := (hi.histMem r e.1 e.2).1 (olderThan_sub h)
  have hn : e.1 < s.n := hd.lt_ph _ (by intro h'; rw [h'] at hem; exact hem.2)
  obtain ⟨s1, h1, h2, h3, h4⟩ := hr.submission ht hn
  have := submitted_older ht h1 h3 (p := e'.1) (t := e.1) (i := e.2) (j := e'.2) (r := r) (by omega)
    (fun i => h4 hsg e'.1 i hlt hsp.symm) (by omega) ((hi.histMem r e'.1 e'.2).1 he').1 (olderThan_sub h)
  exact not_olderThan_self (hi.histNodup r)
    (by rw [olderThan_of_olderThan (hi.histNodup r) this] at h; exact olderThan_sub h)

/-- a task that has been started is not waiting for any notification -/
theorem started_not_pending (hd : Dom cfg s) (hi : Core cfg s) {t p : Nat} (hx : s.ex t ≠ .none) :
    .pre t ∉ s.pnd p := by
  intro hm
  have h1 := (hi.exI t hx)
  have h2 := hi.preEq t
  have hp : p < s.n := Nat.lt_of_not_le fun h' => by rw [hd.pnd p h'] at hm; cases hm
  have h3 := le_sumTo (f := wpre s.pnd s.ph t) hp
  have h4 : 1 ≤ (s.pnd p).count (.pre t) := List.one_le_count_iff.2 hm
  have h5 : linking (s.ph t) ≠ some p := by rw [h1.1]; simp [linking]
  simp only [wpre, h5, if_false] at h3
  unfold cpre at h2
  omega

/-- The order of the entries of a resource is the order of execution. -/
theorem order_key_of (hw : OnePolicy cfg) (hd : Dom cfg s) (hi : Core cfg s) (ho : Ord cfg s) (r : Res) :
    ∀ (k : Nat) (t i : Nat), (olderThan (t, i) (s.hist r)).length ≤ k → (cfg.res t)[i]? = some r →
      s.ex t ≠ .none → ∀ e ∈ olderThan (t, i) (s.hist r), cfg.space e.1 = cfg.space t →
        ConflictOn cfg r e.1 t → s.post e.1 = 0 := by
  intro k
  induction k with
  | zero =>
    intro t i hk hres hx e he
    rw [List.length_eq_zero_iff.1 (Nat.le_zero.1 hk)] at he
    cases he
  | succ k ih =>
    intro t i hk hres hx e he hsp hc
    have lk : ∀ q, Linked s q t → s.post q = 0 := by
      intro q hq
      rcases hq with h | h
      · exact h
      · exact absurd h (started_not_pending hd hi hx)
    have hcov := ho.cov t i r (by rw [(hi.exI t hx).1]; trivial) hres
    rcases hcov e he hsp hc with h | ⟨q, hq, he', hqs, hqy, hql⟩
    · exact lk _ h
    · have hq0 := lk _ hql
      have hqx : s.ex q.1 ≠ .none := by
        intro h'
        exact hi.runPos q.1 (by rw [h']; simp) hq0
      have hqm := olderThan_sub hq
      have hqr := ((hi.histMem r q.1 q.2).1 hqm).1
      refine ih q.1 q.2 ?_ hqr hqx e he' ?_ ?_
      · have h1 := olderThan_length hq
        rw [← olderThan_of_olderThan (hi.histNodup r) hq] at h1
        have : (olderThan (q.1, q.2) (s.hist r)).length = (olderThan q (s.hist r)).length := rfl
        omega
      · rw [hsp, hqs]
      · exact hc.sync hw hqy

theorem order_key (hw : OnePolicy cfg) (ht : Tame cfg) (hr : Reach cfg s) (r : Res) :
    ∀ (k : Nat) (t i : Nat), (olderThan (t, i) (s.hist r)).length ≤ k → (cfg.res t)[i]? = some r →
      s.ex t ≠ .none → ∀ e ∈ olderThan (t, i) (s.hist r), cfg.space e.1 = cfg.space t →
        ConflictOn cfg r e.1 t → s.post e.1 = 0 :=
  order_key_of hw (Dom.reach hr) (Core.reach ht hr) (Ord.reach ht hr) r

/-- a task waits only for tasks whose accesses conflict with its own -/
theorem pending_serial (hr : Reach cfg s) : ∀ p t, .pre t ∈ s.pnd p → cfg.serial p t = true := by
  induction hr with
  | init => intro p t h; simp [Graph.init] at h
  | @step s s' l hr hs ih =>
    intro p t h
    have h0 := (Any.reach hr).link
    cases hs <;> first | exact ih p t h | (dsimp only [State.decPost, State.decPre, State.decCd] at h; grind [upd, List.mem_of_mem_tail])

end RG.Graph
