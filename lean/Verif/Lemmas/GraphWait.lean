import Verif.Model.GraphWait
import Verif.Props.GraphProgress
/-
Lemmas for C70: the order in which tasks can be completed.
-/
set_option linter.unusedVariables false
namespace RG.Graph

variable {cfg : Cfg}

theorem Descends.trans' {a b c : Nat} (h1 : Descends cfg a b) (h2 : Descends cfg b c) : Descends cfg a c := by
  induction h1 with
  | refl => exact h2
  | child h _ ih => exact .child h (ih h2)

/-- the ancestors of a task form a chain -/
theorem Descends.chain {u a b : Nat} (h1 : Descends cfg u a) (h2 : Descends cfg u b) :
    Descends cfg a b ∨ Descends cfg b a := by
  induction h1 with
  | refl => exact .inl h2
  | @child c q p h h' ih =>
    cases h2 with
    | refl => exact .inr (.child h h')
    | @child _ q' _ hq h2 =>
      rw [h] at hq
      cases hq
      exact ih h2

/-- `u` belongs to the descendants of `a`, `t` to the ones of its later sibling `b` -/
def Left (cfg : Cfg) (u t : Nat) : Prop :=
  ∃ a b, a < b ∧ cfg.parentOf a = cfg.parentOf b ∧ Descends cfg u a ∧ Descends cfg t b

/-- `u` is completed before `t` if the tasks are executed one after the other -/
def Before (cfg : Cfg) (u t : Nat) : Prop :=
  (u ≠ t ∧ Descends cfg u t) ∨ Left cfg u t

/-- every parent has a smaller number -/
def Up (cfg : Cfg) (n : Nat) : Prop := ∀ c q, c < n → cfg.parentOf c = some q → q < c

theorem Descends.le {n u a : Nat} (hu : Up cfg n) (h : Descends cfg u a) (hn : u < n) : a ≤ u := by
  induction h with
  | refl => exact Nat.le_refl _
  | @child c q p h _ ih =>
    have := hu c q hn h
    have := ih (by omega)
    omega

/-- a proper descendant descends from a child -/
theorem Descends.viaChild {u a : Nat} (h : Descends cfg u a) (hne : u ≠ a) :
    ∃ c, cfg.parentOf c = some a ∧ Descends cfg u c := by
  induction h with
  | refl => exact absurd rfl hne
  | @child c q p h h' ih =>
    by_cases e : q = p
    · subst e; exact ⟨c, h, .refl⟩
    · obtain ⟨d, h1, h2⟩ := ih e
      exact ⟨d, h1, .child h h2⟩

theorem Descends.up {u a : Nat} (h : Descends cfg u a) (hne : u ≠ a) :
    ∃ q, cfg.parentOf u = some q ∧ Descends cfg q a := by
  cases h with
  | refl => exact absurd rfl hne
  | child h h' => exact ⟨_, h, h'⟩

theorem root_exists {n : Nat} (hu : Up cfg n) : ∀ t, t < n → ∃ a, cfg.parentOf a = none ∧ Descends cfg t a := by
  intro t
  induction t using Nat.strongRecOn with
  | _ t ih =>
    intro htn
    cases h : cfg.parentOf t with
    | none => exact ⟨t, h, .refl⟩
    | some q =>
      have := hu t q htn h
      obtain ⟨a, h1, h2⟩ := ih q this (by omega)
      exact ⟨a, h1, .child h h2⟩

/-- siblings of a proper descendant of `t` are proper descendants of `t` -/
theorem sibling_descends {n a b t : Nat} (hu : Up cfg n) (ha : a < n) (hb : Descends cfg b t) (hne : b ≠ t)
    (hp : cfg.parentOf a = cfg.parentOf b) : a ≠ t ∧ Descends cfg a t := by
  obtain ⟨q, h1, h2⟩ := hb.up hne
  rw [h1] at hp
  have h3 := hu a q ha hp
  have h4 := h2.le hu (by omega)
  exact ⟨by omega, .child hp h2⟩

theorem Before.trans {n u v t : Nat} (hu : Up cfg n) (hv : v < n) (hun : u < n) (htn : t < n)
    (h1 : Before cfg v u) (h2 : Before cfg u t) : Before cfg v t := by
  rcases h1 with ⟨n1, d1⟩ | ⟨a, b, hab, hp, d1, d2⟩
  · rcases h2 with ⟨n2, d2⟩ | ⟨a, b, hab, hp, d2, d3⟩
    · refine .inl ⟨?_, d1.trans' d2⟩
      intro e
      have := d1.le hu hv
      have := d2.le hu hun
      omega
    · exact .inr ⟨a, b, hab, hp, d1.trans' d2, d3⟩
  · have ha : a < n := by have := d1.le hu hv; omega
    have hb : b < n := by have := d2.le hu hun; omega
    rcases h2 with ⟨n2, d3⟩ | ⟨a', b', hab', hp', d3, d4⟩
    · by_cases hbt : Descends cfg t b
      · exact .inr ⟨a, b, hab, hp, d1, hbt⟩
      · rcases d2.chain d3 with h | h
        · have hne : b ≠ t := by rintro rfl; exact hbt .refl
          have h4 := sibling_descends hu ha h hne hp
          refine .inl ⟨?_, d1.trans' h4.2⟩
          have h5 := h4.2.le hu ha
          have h6 := d1.le hu hv
          omega
        · exact absurd h hbt
    · rcases d2.chain d3 with h | h
      · by_cases e : b = a'
        · subst e
          exact .inr ⟨a, b', by omega, hp.trans hp', d1, d4⟩
        · have h4 := sibling_descends hu ha h e hp
          exact .inr ⟨a', b', hab', hp', d1.trans' h4.2, d4⟩
      · by_cases e : a' = b
        · subst e
          exact .inr ⟨a, b', by omega, hp.trans hp', d1, d4⟩
        · have hb' : b' < n := by have := d4.le hu htn; omega
          have h4 := sibling_descends hu hb' h e hp'.symm
          exact .inr ⟨a, b, hab, hp, d1, d4.trans' h4.2⟩

/-- induction along this order -/
theorem before_induction {n : Nat} (hu : Up cfg n) {D : Nat → Prop}
    (h : ∀ t, t < n → (∀ u, u < n → Before cfg u t → D u) → D t) : ∀ t, t < n → D t := by
  -- all descendants of a task, if everything on the left is done
  have sub : ∀ k t, n - t ≤ k → t < n → (∀ u, u < n → Left cfg u t → D u) →
      ∀ v, v < n → Descends cfg v t → D v := by
    intro k
    induction k with
    | zero => intro t hk htn; omega
    | succ k ih =>
      intro t hk htn hl
      have kids : ∀ c, c < n → cfg.parentOf c = some t → ∀ v, v < n → Descends cfg v c → D v := by
        intro c
        induction c using Nat.strongRecOn with
        | _ c ihc =>
          intro hcn hc
          have h1 := hu c t hcn hc
          refine ih c (by omega) hcn ?_
          rintro u hun ⟨a, b, hab, hp, d1, d2⟩
          by_cases e : c = b
          · subst e
            exact ihc a hab (by omega) (hp.trans hc) u hun d1
          · obtain ⟨q, h2, h3⟩ := d2.up e
            rw [hc] at h2
            cases h2
            exact hl u hun ⟨a, b, hab, hp, d1, h3⟩
      intro v hv hd
      by_cases e : v = t
      · subst e
        refine h v hv fun u hun hb => ?_
        rcases hb with ⟨h1, h2⟩ | h1
        · obtain ⟨c, h3, h4⟩ := h2.viaChild h1
          have := h4.le hu hun
          exact kids c (by omega) h3 u hun h4
        · exact hl u hun h1
      · obtain ⟨c, h3, h4⟩ := hd.viaChild e
        have := h4.le hu hv
        exact kids c (by omega) h3 v hv h4
  have roots : ∀ a, a < n → cfg.parentOf a = none → ∀ v, v < n → Descends cfg v a → D v := by
    intro a
    induction a using Nat.strongRecOn with
    | _ a iha =>
      intro han ha
      refine sub _ a (Nat.le_refl _) han ?_
      rintro u hun ⟨a', b, hab, hp, d1, d2⟩
      cases d2 with
      | refl => exact iha a' hab (by omega) (hp.trans ha) u hun d1
      | child h' _ => rw [ha] at h'; cases h'
  intro t htn
  obtain ⟨a, h1, h2⟩ := root_exists hu t htn
  have := h2.le hu htn
  exact roots a (by omega) h1 t htn h2

/-! ### the machine -/

theorem WReach.graph {x : WState} (h : WReach cfg x) : Reach cfg x.g := by
  induction h with
  | init => exact .init
  | step _ hs ih =>
    cases hs with
    | submitOut h | submitIn h | other h => exact .step ih h
    | wait | wake | readOut => exact ih

theorem n_mono {s s' : State} {l : Lbl} (h : Step cfg l s s') : s.n ≤ s'.n := by
  cases h <;> simp [State.decPost, State.decPre, State.decCd]

theorem Up.reach {s : State} (h : Reach cfg s) : Up cfg s.n :=
  fun c q hc hp => ((Dom.reach h).par c q hc hp).1

structure KInv (cfg : Cfg) (x : WState) : Prop where
  know : ∀ t u, u ∈ x.know t → u < x.g.n ∧ t < x.g.n ∧ Before cfg u t
  out : ∀ u, u ∈ x.out → u < x.g.n
  w : ∀ t u, x.w t = some u → u ∈ x.know t ∧ x.g.ex t = .running

theorem ex_running {s s' : State} {l : Lbl} (h : Step cfg l s s') (hn : s'.n = s.n + 1) : s'.ex = s.ex := by
  cases h <;> first | rfl | (simp [State.decPost, State.decPre, State.decCd] at hn)

theorem KInv.reach {x : WState} (h : WReach cfg x) : KInv cfg x := by
  induction h with
  | init => exact ⟨by simp [WState.init], by simp [WState.init], by simp [WState.init]⟩
  | @step x x' hx hs ih =>
    have hu := Up.reach hx.graph
    cases hs with
    | @submitOut l g' ks h hn hp hk =>
      have hu' : Up cfg g'.n := Up.reach (Reach.step hx.graph h)
      refine ⟨?_, ?_, ?_⟩
      · intro t u h1
        dsimp only at h1 ⊢
        rw [hn]
        by_cases e : t = x.g.n
        · subst e
          rw [upd_same] at h1
          have h2 := ih.out u (hk u h1)
          refine ⟨by omega, by omega, .inr ?_⟩
          obtain ⟨a, h3, h4⟩ := root_exists hu u h2
          have := h4.le hu h2
          exact ⟨a, x.g.n, by omega, by rw [h3, hp], h4, .refl⟩
        · rw [upd_ne _ _ e] at h1
          have := ih.know t u h1
          exact ⟨by omega, by omega, this.2.2⟩
      · intro u h1
        dsimp only at h1 ⊢
        rcases List.mem_cons.1 h1 with e | h1
        · omega
        · have := ih.out u h1; omega
      · intro t u h1
        dsimp only at h1 ⊢
        have h2 := ih.w t u h1
        have := ih.know t u h2.1
        rw [upd_ne _ _ (by omega), ex_running h hn]
        exact h2
    | @submitIn l g' ks q h hn hp hw hk =>
      have hu' : Up cfg g'.n := Up.reach (Reach.step hx.graph h)
      have hq : q < x.g.n := by
        have := hu' x.g.n q (by omega) hp
        omega
      have kq : ∀ u, u ∈ x.know q → u < x.g.n ∧ Before cfg u x.g.n := by
        intro u h1
        obtain ⟨h2, h3, h4⟩ := ih.know q u h1
        refine ⟨h2, .inr ?_⟩
        rcases h4 with ⟨n1, d1⟩ | ⟨a, b, hab, hpp, d1, d2⟩
        · obtain ⟨c, h5, h6⟩ := d1.viaChild n1
          have := h6.le hu h2
          exact ⟨c, x.g.n, by omega, by rw [h5, hp], h6, .refl⟩
        · exact ⟨a, b, hab, hpp, d1, .child hp d2⟩
      refine ⟨?_, ?_, ?_⟩
      · intro t u h1
        dsimp only at h1 ⊢
        rw [hn]
        by_cases e : t = x.g.n
        · subst e
          rw [upd_same] at h1
          have h2 := kq u (hk u h1)
          exact ⟨by omega, by omega, h2.2⟩
        · rw [upd_ne _ _ e] at h1
          by_cases e' : t = q
          · subst e'
            rw [upd_same] at h1
            rcases List.mem_cons.1 h1 with e1 | h1
            · subst e1
              exact ⟨by omega, by omega, .inl ⟨by omega, .child hp .refl⟩⟩
            · have := ih.know t u h1
              exact ⟨by omega, by omega, this.2.2⟩
          · rw [upd_ne _ _ e'] at h1
            have := ih.know t u h1
            exact ⟨by omega, by omega, this.2.2⟩
      · intro u h1
        dsimp only at h1 ⊢
        have := ih.out u h1
        omega
      · intro t u h1
        dsimp only at h1 ⊢
        have h2 := ih.w t u h1
        have h3 := ih.know t u h2.1
        have e' : t ≠ q := by rintro rfl; rw [hw] at h1; cases h1
        rw [upd_ne _ _ (by omega), upd_ne _ _ e', ex_running h hn]
        exact h2
    | @other l g' h hn he hx' =>
      refine ⟨?_, ?_, ?_⟩
      · intro t u h1; dsimp only; rw [hn]; exact ih.know t u h1
      · intro u h1; dsimp only; rw [hn]; exact ih.out u h1
      · intro t u h1
        dsimp only at h1 ⊢
        have h2 := ih.w t u h1
        exact ⟨h2.1, he t (by rw [h1]; simp) h2.2⟩
    | @wait t u h hw hu' hc =>
      refine ⟨ih.know, ih.out, ?_⟩
      intro t' u' h1
      dsimp only at h1 ⊢
      by_cases e : t' = t
      · subst e
        rw [upd_same] at h1
        cases h1
        exact ⟨hu', h⟩
      · rw [upd_ne _ _ e] at h1
        exact ih.w t' u' h1
    | @wake t u ks hw hu' hk =>
      refine ⟨?_, ih.out, ?_⟩
      · intro t' v h1
        dsimp only at h1 ⊢
        by_cases e : t' = t
        · subst e
          rw [upd_same] at h1
          rcases List.mem_append.1 h1 with h1 | h1
          · have h2 := ih.know u v (hk v h1)
            have h3 := ih.know t' u (ih.w t' u hw).1
            exact ⟨h2.1, h3.2.1, h2.2.2.trans hu h2.1 h2.2.1 h3.2.1 h3.2.2⟩
          · exact ih.know t' v h1
        · rw [upd_ne _ _ e] at h1
          exact ih.know t' v h1
      · intro t' u' h1
        dsimp only at h1 ⊢
        have e : t' ≠ t := by rintro rfl; rw [upd_same] at h1; cases h1
        rw [upd_ne _ _ e] at h1 ⊢
        exact ih.w t' u' h1
    | @readOut u ks hne hu' he hk =>
      refine ⟨ih.know, ?_, ih.w⟩
      intro v h1
      rcases List.mem_append.1 h1 with h1 | h1
      · exact (ih.know u v (hk v h1)).1
      · exact ih.out v h1

/-! ### concrete executions -/

inductive WAct
  /-- a step of the task graph; if it is a submission then the task captures the futures `ks` -/
  | g (a : Act) (ks : List Nat)
  | wait (t u : Nat)
  | wake (t u : Nat) (ks : List Nat)

def wexec (cfg : Cfg) (x : WState) : WAct → Option WState
  | .g a ks =>
    match exec cfg x.g a with
    | none => none
    | some g' =>
      if g'.n = x.g.n + 1 then
        match cfg.parentOf x.g.n with
        | none =>
          if ∀ u ∈ ks, u ∈ x.out then some ⟨g', x.w, upd x.know x.g.n ks, x.g.n :: x.out⟩ else none
        | some q =>
          if x.w q = none ∧ ∀ u ∈ ks, u ∈ x.know q then
            some ⟨g', x.w, upd (upd x.know q (x.g.n :: x.know q)) x.g.n ks, x.out⟩
          else none
      else if g'.n = x.g.n ∧ (∀ t, t < x.g.n → x.w t ≠ none → x.g.ex t = .running → g'.ex t = .running) ∧
          (g'.nExt = x.g.nExt ∨ x.w (g'.owner x.g.nExt) = none) then
        some ⟨g', x.w, x.know, x.out⟩
      else none
  | .wait t u =>
    if x.g.ex t = .running ∧ x.w t = none ∧ u ∈ x.know t ∧
        ∀ c, c < x.g.n → cfg.parentOf c = some t → isSubmitting (x.g.ph c) = false then
      some ⟨x.g, upd x.w t (some u), x.know, x.out⟩
    else none
  | .wake t u ks =>
    if x.w t = some u ∧ x.g.ex u = .ended ∧ ∀ v ∈ ks, v ∈ x.know u then
      some ⟨x.g, upd x.w t none, upd x.know t (ks ++ x.know t), x.out⟩
    else none

theorem wexec_step {x x' : WState} (hr : WReach cfg x) {a : WAct} (h : wexec cfg x a = some x') :
    WStep cfg x x' := by
  cases a with
  | g a ks =>
    simp only [wexec] at h
    split at h
    · cases h
    · rename_i g' hg
      obtain ⟨l, hs⟩ := exec_step hg
      split at h
      · rename_i hn
        split at h
        · rename_i hp
          split at h
          · rename_i hk
            cases h
            exact .submitOut hs hn hp hk
          · cases h
        · rename_i q hp
          split at h
          · rename_i hk
            cases h
            exact .submitIn hs hn hp hk.1 hk.2
          · cases h
      · split at h
        · rename_i hk
          cases h
          refine .other hs hk.1 (fun t h1 h2 => hk.2.1 t ?_ h1 h2) hk.2.2
          apply Nat.lt_of_not_le
          intro h'
          rw [(Dom.reach hr.graph).ex t h'] at h2
          cases h2
        · cases h
  | wait t u =>
    simp only [wexec] at h
    split at h
    · rename_i hk
      cases h
      exact .wait hk.1 hk.2.1 hk.2.2.1 fun c i hc hp => isSubmitting_false (hk.2.2.2 c hc hp) i
    · cases h
  | wake t u ks =>
    simp only [wexec] at h
    split at h
    · rename_i hk
      cases h
      exact .wake hk.1 hk.2.1 hk.2.2
    · cases h

/-- execute what is possible -/
def wrun (cfg : Cfg) (x : WState) : List WAct → WState
  | [] => x
  | a :: as => wrun cfg ((wexec cfg x a).getD x) as

theorem wrun_reach (as : List WAct) {x : WState} (h : WReach cfg x) : WReach cfg (wrun cfg x as) := by
  induction as generalizing x with
  | nil => exact h
  | cons a as ih =>
    apply ih
    cases he : wexec cfg x a with
    | none => exact h
    | some x' => exact .step h (wexec_step h he)

/-- steps of the task graph without captured futures -/
def plain (as : List Act) : List WAct := as.map fun a => .g a []

end RG.Graph
