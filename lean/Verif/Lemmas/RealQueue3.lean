import Verif.Lemmas.RealQueue2
/-
Lemmas for C89: the invariant holds in every execution.
-/
set_option linter.unusedVariables false
namespace RG.RQ

variable {B C n : Nat} {s s' : State}

theorem SInv.cvOut (h : SInv B C n s) {w : Nat} (hp : s.pc w ≠ .waiting) : (s.cv w).ws 0 = .out := by
  by_contra h1
  exact hp (h.inCv w h1)

theorem State.leave_eta {w v : Nat} {k : Bool} {pc' : Pc} : s.leave w v k pc' = { s.leave w v k pc' with sure := s.sure } := rfl

/-- what the owner knows when its `pop` has found nothing -/
theorem SInv.foundNone (h : SInv B C n s) {w : Nat} {k : Bool} (hr : (s.qs w k).con w = .ret none) (hc : (s.qs w k).clean ∨ n = 1) : Hot s w ∨ AllE (s.qs w k) := by
  have hcl : (s.qs w k).clean := hc.elim id fun hn => h.clean1 hn w k (by rw [hr]; simp)
  have := h.qi w k hcl
  unfold QI at this
  rw [hr] at this
  exact this

/-- `pop` of the own queue has found nothing -/
theorem SInv.leaveOwn (h : SInv B C n s) {w : Nat} {k : Bool} {late : Prop} {pc' : Pc} (hr : (s.qs w k).con w = .ret none) (hcv : (s.cv w).ws 0 = .out)
    (hlate : late → past k (s.pc w) ((s.cv w).ws 0))
    (hpast : ∀ k', k' ≠ k → past k' pc' ((s.cv w).ws 0) → past k' (s.pc w) ((s.cv w).ws 0)) : SInv B C n (s.leaveOwn w k late pc') := by
  unfold State.leaveOwn
  refine h.leave hr hcv ?_ ?_
  · intro w' e
    funext k'
    exact upd2_ne _ _ fun h => e h.1
  · intro k' h1 h2
    by_cases e : k' = k
    · subst e
      rw [upd2_same] at h1
      rcases h1 with (h1 | h1) | h1
      · exact h.foundNone hr (.inl h1)
      · exact h.sure w k' (.inl h1.2) (hlate h1.1)
      · exact h.foundNone hr (.inr h1)
    · rw [upd2_ne _ _ fun h => e h.2] at h1
      exact h.sure w k' h1 (hpast k' e h2)

theorem SInv.leave' (h : SInv B C n s) {w v : Nat} {k : Bool} {pc' : Pc} {r : Option Nat} (hr : (s.qs v k).con w = .ret r) (hcv : (s.cv w).ws 0 = .out)
    (hpast : ∀ k', past k' pc' ((s.cv w).ws 0) → past k' (s.pc w) ((s.cv w).ws 0)) : SInv B C n (s.leave w v k pc') := by
  rw [State.leave_eta]
  exact h.leave hr hcv (fun _ _ => rfl) fun k' h1 h2 => h.sure w k' h1 (hpast k' h2)

theorem WStep.inv (hB : 2 ≤ B) (hC : 0 < C) {w : Nat} (hw : w < n) (h : SInv B C n s) (hs : WStep B n w s s') : SInv B C n s' := by
  cases hs with
  | avail1 h1 => exact h.go (by rw [h1]; rfl) (fun h2 => absurd (h.cvOut (by rw [h1]; simp)) h2) (fun k _ => by rw [h1]; trivial)
  | @enter cv' h1 hc =>
    obtain ⟨a, b, c, d⟩ := hc.waitCall_inv
    refine h.sync rfl rfl ?_ ?_ ?_ ?_ ?_ ?_ (fun _ _ _ => Iff.rfl)
    · intro w'
      by_cases e : w' = w
      · subst e; simp only [upd_same]; rw [h1]; rfl
      · simp only [upd_ne _ _ e]
    · intro w' h2
      refine .inl ?_
      unfold Hot at *
      by_cases e : w' = w
      · subst e; simp only [upd_same]; rw [a, b]; exact h2
      · simp only [upd_ne _ _ e]; exact h2
    · intro w' k h2
      by_cases e : w' = w
      · subst e; rw [h1]; trivial
      · simp only [upd_ne _ _ e] at h2; exact h2
    · intro w' h2
      by_cases e : w' = w
      · subst e; simp only [upd_same]
      · simp only [upd_ne _ _ e] at h2 ⊢; exact h.inCv w' h2
    · intro w'
      by_cases e : w' = w
      · subst e; simp only [upd_same]; exact .step (h.cvr w') hc (by intro k hk; simp [Cv.Lbl.waiter?] at hk; omega)
      · simp only [upd_ne _ _ e]; exact h.cvr w'
    · intro w' j h2
      by_cases e : w' = w
      · subst e; simp only [upd_same] at h2; rw [a] at h2; exact h.ns w' j h2
      · simp only [upd_ne _ _ e] at h2; exact h.ns w' j h2
  | @wait cv' hc =>
    obtain ⟨a, b, c⟩ := hc.wait_inv
    have hwt := h.inCv w c
    refine h.sync rfl rfl (fun _ => rfl) ?_ ?_ ?_ ?_ ?_ (fun _ _ _ => Iff.rfl)
    · intro w' h2
      unfold Hot at *
      by_cases e : w' = w
      · subst e
        simp only [upd_same]
        by_cases h3 : cv'.ws 0 = .out
        · exact .inr ⟨hwt, h3⟩
        · rw [a, b h3]; exact .inl h2
      · simp only [upd_ne _ _ e]; exact .inl h2
    · intro w' k h2
      by_cases e : w' = w
      · subst e; rw [hwt]; exact c
      · simp only [upd_ne _ _ e] at h2; exact h2
    · intro w' h2
      by_cases e : w' = w
      · subst e; exact hwt
      · simp only [upd_ne _ _ e] at h2 ⊢; exact h.inCv w' h2
    · intro w'
      by_cases e : w' = w
      · subst e; simp only [upd_same]; exact .step (h.cvr w') hc (by intro k hk; simp [Cv.Lbl.waiter?] at hk; omega)
      · simp only [upd_ne _ _ e]; exact h.cvr w'
    · intro w' j h2
      by_cases e : w' = w
      · subst e; simp only [upd_same] at h2; rw [a] at h2; exact h.ns w' j h2
      · simp only [upd_ne _ _ e] at h2; exact h.ns w' j h2
  | woken h1 hc => exact h.call hw (h.outside (by rw [h1]; rfl)) rfl hc (fun k h2 => h2.elim)
  | pop h1 hs => exact h.pop hB hC hs
  | popReady h1 hr => exact h.leave' hr (h.cvOut (by rw [h1]; simp)) (fun k h2 => h2.elim)
  | noReady h1 hr =>
    have hcv := h.cvOut (w := w) (by rw [h1]; simp)
    refine SInv.call (h.leaveOwn hr hcv (fun h => h.elim) ?_) hw ?_ rfl hcv ?_
    · intro k' h2 h3
      exact absurd h3 h2
    · exact leave_out (pc' := .pop false) h hr
    · intro k h2
      unfold State.leaveOwn State.leave
      simp only [upd_same]
      exact h2
  | popNew h1 hr => exact h.leave' hr (h.cvOut (by rw [h1]; simp)) (fun k h2 => by rw [h1]; exact h2)
  | noNew h1 hr =>
    refine h.leaveOwn hr (h.cvOut (by rw [h1]; simp)) (fun h => h.elim) ?_
    intro k' h2 h3
    rw [h1]
    cases k'
    · exact absurd rfl h2
    · rfl
  | initReady h1 => exact h.go (b := s.busy) (by rw [h1]; rfl) (fun h2 => absurd (h.cvOut (by rw [h1]; simp)) h2) (fun k h2 => h2.elim)
  | initBlocked h1 => exact h.call hw (h.outside (by rw [h1]; rfl)) rfl (h.cvOut (by rw [h1]; simp)) (fun k h2 => by rw [h1]; exact h2)
  | avail2 h1 => exact h.go (by rw [h1]; rfl) (fun h2 => absurd (h.cvOut (by rw [h1]; simp)) h2) (fun k _ => by rw [h1]; trivial)
  | probe h1 hv hn hb => exact h.call hw (h.outside (by rw [h1]; rfl)) rfl (h.cvOut (by rw [h1]; simp)) (fun k h2 => by rw [h1]; trivial)
  | probeNot h1 hv hn hb => exact h.go (b := s.busy) (by rw [h1]; rfl) (fun h2 => absurd (h.cvOut (by rw [h1]; simp)) h2) (fun k _ => by rw [h1]; trivial)
  | probed h1 hall => exact h.go (b := s.busy) (by rw [h1]; rfl) (fun h2 => absurd (h.cvOut (by rw [h1]; simp)) h2) (fun k _ => by rw [h1]; trivial)
  | stolen h1 hr => exact h.leave' hr (h.cvOut (by rw [h1]; simp)) (fun k h2 => by rw [h1]; trivial)
  | @notStolen k v seen h1 hr =>
    have hcv := h.cvOut (w := w) (by rw [h1]; simp)
    split
    · rename_i e
      subst e
      refine SInv.call (h.leaveOwn hr hcv (fun _ => by rw [h1]; trivial) ?_) hw ?_ rfl hcv ?_
      · intro k' _ _; rw [h1]; trivial
      · exact leave_out (pc' := .lookOwn k seen) h hr
      · intro k' _
        unfold State.leaveOwn State.leave
        simp only [upd_same]
        trivial
    · refine SInv.call (h.leave' hr hcv (fun k h2 => by rw [h1]; trivial)) hw ?_ rfl hcv ?_
      · exact leave_out (pc' := .lookOwn k seen) h hr
      · intro k' _
        unfold State.leave
        simp only [upd_same]
        trivial
  | own h1 hr => exact h.leave' hr (h.cvOut (by rw [h1]; simp)) (fun k h2 => by rw [h1]; trivial)
  | notOwn h1 hr =>
    refine h.leaveOwn hr (h.cvOut (by rw [h1]; simp)) (fun _ => by rw [h1]; trivial) ?_
    intro k' _ _; rw [h1]; trivial
  | stolenReady h1 => exact h.go (b := s.busy) (by rw [h1]; rfl) (fun h2 => absurd (h.cvOut (by rw [h1]; simp)) h2) (fun k h2 => h2.elim)
  | stolenBlocked h1 => exact h.go (b := s.busy) (by rw [h1]; rfl) (fun h2 => absurd (h.cvOut (by rw [h1]; simp)) h2) (fun k _ => by rw [h1]; trivial)
  | busy1 h1 => exact h.go (by rw [h1]; rfl) (fun h2 => absurd (h.cvOut (by rw [h1]; simp)) h2) (fun k h2 => h2.elim)
  | busy2 h1 => exact h.go (by rw [h1]; rfl) (fun h2 => absurd (h.cvOut (by rw [h1]; simp)) h2) (fun k h2 => h2.elim)
  | executed h1 => exact h.call hw (h.outside (by rw [h1]; rfl)) rfl (h.cvOut (by rw [h1]; simp)) (fun k h2 => h2.elim)

/-- Steps of the condition variable of worker `w` that belong to the thread `j`. -/
theorem SInv.notifier (h : SInv B C n s) {w j : Nat} {x : JPc} {cv' : Cv.State} {b : Nat → Bool}
    (hot : Hot s w → Hot { s with ps := upd s.ps j x, cv := upd s.cv w cv', busy := b } w)
    (hot' : ∀ w', w' ≠ w → s.ps j ≠ .mark w' ∧ s.ps j ≠ .pushed w')
    (hws : ∀ i, cv'.ws i = .out ↔ (s.cv w).ws i = .out) (hr : Cv.Reach 1 cv') (hns : ∀ j', j' ≠ j → cv'.ns j' = (s.cv w).ns j')
    (hj : cv'.ns j ≠ .out → x = .inCv w) (hj' : ∀ w', w' ≠ w → (s.cv w').ns j = .out)
    (hx : ∀ w k, x ≠ .push w k ∧ s.ps j ≠ .push w k) : SInv B C n { s with ps := upd s.ps j x, cv := upd s.cv w cv', busy := b } := by
  refine h.sync rfl rfl (fun _ => rfl) ?_ ?_ ?_ ?_ ?_ ?_
  · intro w' h2
    refine .inl ?_
    by_cases e : w' = w
    · subst e; exact hot h2
    · unfold Hot at *
      simp only [upd_ne _ _ e]
      rcases h2 with h2 | ⟨j', h2⟩
      · exact .inl h2
      · refine .inr ⟨j', ?_⟩
        by_cases e' : j' = j
        · subst e'
          have h3 := hot' w' e
          rcases h2 with h2 | h2 | h2
          · exact absurd h2 h3.1
          · exact absurd h2 h3.2
          · exact .inr (.inr h2)
        · rw [upd_ne _ _ e']; exact h2
  · intro w' k h2
    by_cases e : w' = w
    · subst e
      simp only [upd_same] at h2
      unfold past at *
      split <;> simp_all
    · simp only [upd_ne _ _ e] at h2; exact h2
  · intro w' h2
    by_cases e : w' = w
    · subst e
      simp only [upd_same] at h2
      exact h.inCv w' fun h3 => h2 ((hws 0).2 h3)
    · simp only [upd_ne _ _ e] at h2; exact h.inCv w' h2
  · intro w'
    by_cases e : w' = w
    · subst e; simp only [upd_same]; exact hr
    · simp only [upd_ne _ _ e]; exact h.cvr w'
  · intro w' j' h2
    by_cases e' : j' = j
    · subst e'
      simp only [upd_same]
      by_cases e : w' = w
      · subst e; simp only [upd_same] at h2; exact hj h2
      · simp only [upd_ne _ _ e] at h2; exact absurd (hj' w' e) h2
    · simp only [upd_ne _ _ e']
      by_cases e : w' = w
      · subst e; simp only [upd_same] at h2; rw [hns j' e'] at h2; exact h.ns w' j' h2
      · simp only [upd_ne _ _ e] at h2; exact h.ns w' j' h2
  · intro w' k' j'
    by_cases e' : j' = j
    · subst e'
      simp only [upd_same]
      exact ⟨fun h1 => absurd h1 (hx w' k').1, fun h1 => absurd h1 (hx w' k').2⟩
    · simp only [upd_ne _ _ e']

theorem SInv.nsOut (h : SInv B C n s) {w j : Nat} (hj : s.ps j ≠ .inCv w) : (s.cv w).ns j = .out := by
  by_contra h1
  exact hj (h.ns w j h1)

theorem upd_id {α : Type} (f : Nat → α) (w : Nat) : upd f w (f w) = f := by
  funext x
  by_cases e : x = w
  · subst e; rw [upd_same]
  · rw [upd_ne _ _ e]

theorem Cv.Step.notify_ns {c c' : Cv.State} {j j' : Nat} (h : Cv.Step (.notify j) c c') (e : j' ≠ j) : c'.ns j' = c.ns j' := by
  cases h <;> exact upd_ne _ _ e

theorem SInv.call_wake (h : SInv B C n s) {w j : Nat} {cv' : Cv.State} (hc : Cv.Step (.notifyCall j) (s.cv w) cv') (hp : s.ps j = .out ∨ s.ps j = .pushed w) :
    SInv B C n { s with ps := upd s.ps j (.inCv w), cv := upd s.cv w cv' } := by
  obtain ⟨a, b, c, d⟩ := hc.notifyCall_inv
  refine h.notifier (b := s.busy) ?_ ?_ ?_ ?_ ?_ ?_ ?_ ?_
  · intro _
    refine .inr ⟨j, .inr (.inr ?_)⟩
    simp only [upd_same]
    rw [a, upd_same]
  · intro w' e
    rcases hp with hp | hp <;> rw [hp]
    · simp
    · simp only [ne_eq, reduceCtorEq, not_false_eq_true, JPc.pushed.injEq, true_and]
      exact fun h => e h.symm
  · intro i; rw [c]
  · exact .step (h.cvr w) hc (by intro k hk; simp [Cv.Lbl.waiter?] at hk)
  · intro j' e; rw [a, upd_ne _ _ e]
  · intro _; rfl
  · intro w' _
    exact h.nsOut (by rcases hp with hp | hp <;> rw [hp] <;> simp)
  · intro w' k
    rcases hp with hp | hp <;> rw [hp] <;> simp

theorem PStep.inv (hB : 2 ≤ B) (hC : 0 < C) {j : Nat} (h : SInv B C n s) (hs : PStep B j s s') : SInv B C n s' := by
  cases hs with
  | @push w k q' h1 hs hc hc' =>
    have hj : j ∈ (s.qs w k).list := by
      by_contra h2
      exact (h.prod w k j).2 h1 ((h.qw w k).reg j h2).2
    have := h.push hB hC (x := .push w k) hs hc hj (fun _ h => h) (.inr h1) (fun h => absurd h hc') (fun _ => rfl)
    rw [← h1, upd_id] at this
    exact this
  | @pushed w k q' h1 hs hc hc' =>
    have hj : j ∈ (s.qs w k).list := by
      by_contra h2
      exact (h.prod w k j).2 h1 ((h.qw w k).reg j h2).2
    refine h.push hB hC (l := (s.qs w k).list) hs hc hj (fun _ h => h) (.inr h1) (fun _ => ?_) (fun h => absurd hc' h)
    cases k
    · exact .inr rfl
    · exact .inl rfl
  | @mark w h1 =>
    have := h.notifier (w := w) (j := j) (x := .pushed w) (cv' := s.cv w) (b := upd s.busy w true) ?_ ?_ (fun _ => Iff.rfl) (h.cvr w) (fun _ _ => rfl) ?_ ?_ ?_
    · rw [upd_id] at this; exact this
    · intro _
      exact .inr ⟨j, .inr (.inl (by simp only [upd_same]))⟩
    · intro w' e
      rw [h1]
      simp only [ne_eq, reduceCtorEq, not_false_eq_true, JPc.mark.injEq, and_true]
      exact fun h => e h.symm
    · intro h2
      exact absurd (h.nsOut (by rw [h1]; simp)) h2
    · intro w' _
      exact h.nsOut (by rw [h1]; simp)
    · intro w' k; rw [h1]; simp
  | wake h1 hc => exact h.call_wake hc (.inr h1)
  | @notify w cv' h1 hc =>
    obtain ⟨a, b, c⟩ := hc.notify_inv
    have := h.notifier (w := w) (j := j) (x := .inCv w) (cv' := cv') (b := s.busy) ?_ ?_ c
      (.step (h.cvr w) hc (by intro k hk; simp [Cv.Lbl.waiter?] at hk)) (fun j' e => Cv.Step.notify_ns hc e) (fun _ => rfl) ?_ ?_
    · rw [← h1, upd_id] at this; exact this
    · rintro (h2 | ⟨j', h2⟩)
      · refine .inl ?_
        simp only [upd_same]
        exact b h2
      · rcases h2 with h2 | h2 | h2
        · refine .inr ⟨j', .inl ?_⟩
          simp only
          rw [upd_ne]
          · exact h2
          · rintro rfl; rw [h1] at h2; cases h2
        · refine .inr ⟨j', .inr (.inl ?_)⟩
          simp only
          rw [upd_ne]
          · exact h2
          · rintro rfl; rw [h1] at h2; cases h2
        · rcases a j' h2 with h3 | h3
          · refine .inr ⟨j', .inr (.inr ?_)⟩
            simp only [upd_same]
            exact h3
          · refine .inl ?_
            simp only [upd_same]
            exact h3
    · intro w' e; rw [h1]; simp
    · intro w' e
      refine h.nsOut ?_
      rw [h1]
      simp only [ne_eq, JPc.inCv.injEq]
      exact fun h => e h.symm
    · intro w' k; rw [h1]; simp
  | @wakeDone w h1 hc =>
    have := h.notifier (w := w) (j := j) (x := .out) (cv' := s.cv w) (b := s.busy) ?_ ?_ (fun _ => Iff.rfl) (h.cvr w) (fun _ _ => rfl)
      (fun h => absurd hc h) ?_ ?_
    · rw [upd_id] at this; exact this
    · rintro (h2 | ⟨j', h2⟩)
      · refine .inl ?_
        simp only [upd_same]
        exact h2
      · refine .inr ⟨j', ?_⟩
        have e : j' ≠ j := by
          rintro rfl
          rw [h1, hc] at h2
          simp at h2
        simp only [upd_same]
        rw [upd_ne _ _ e]
        exact h2
    · intro w' e; rw [h1]; simp
    · intro w' e
      refine h.nsOut ?_
      rw [h1]
      simp only [ne_eq, JPc.inCv.injEq]
      exact fun h => e h.symm
    · intro w' k; rw [h1]; simp

theorem Begin.inv (hB : 2 ≤ B) (hC : 0 < C) {j : Nat} (h : SInv B C n s) (hs : Begin B n j s s') : SInv B C n s' := by
  cases hs with
  | @push w q' k hw h1 hs hc hc' =>
    refine h.push hB hC hs (by rw [hc]; exact hc') ?_ ?_ (.inl h1) (fun h => absurd h hc') (fun _ => rfl)
    · split
      · assumption
      · exact List.mem_cons_self
    · intro p hp
      split
      · exact hp
      · exact List.mem_cons_of_mem _ hp
  | noise hw h1 hc => exact h.call_wake hc (.inl h1)

theorem Spurious.inv {w : Nat} (h : SInv B C n s) (hs : Spurious w s s') : SInv B C n s' := by
  cases hs with
  | @mk cv' hc =>
    obtain ⟨a, b, c, d⟩ := hc.spurious_inv
    have hwt := h.inCv w c
    refine h.sync rfl rfl (fun _ => rfl) ?_ ?_ ?_ ?_ ?_ (fun _ _ _ => Iff.rfl)
    · intro w' h2
      refine .inl ?_
      unfold Hot at *
      by_cases e : w' = w
      · subst e; simp only [upd_same]; rw [a, b]; exact h2
      · simp only [upd_ne _ _ e]; exact h2
    · intro w' k h2
      by_cases e : w' = w
      · subst e; rw [hwt]; exact c
      · simp only [upd_ne _ _ e] at h2; exact h2
    · intro w' h2
      by_cases e : w' = w
      · subst e; exact hwt
      · simp only [upd_ne _ _ e] at h2 ⊢; exact h.inCv w' h2
    · intro w'
      by_cases e : w' = w
      · subst e; simp only [upd_same]; exact .step (h.cvr w') hc (by intro k hk; simp [Cv.Lbl.waiter?] at hk; omega)
      · simp only [upd_ne _ _ e]; exact h.cvr w'
    · intro w' j h2
      by_cases e : w' = w
      · subst e; simp only [upd_same] at h2; rw [a] at h2; exact h.ns w' j h2
      · simp only [upd_ne _ _ e] at h2; exact h.ns w' j h2

theorem Reach.inv (hB : 2 ≤ B) (hC : 0 < C) (h : Reach B C n s) : SInv B C n s := by
  induction h with
  | init h => exact .init h
  | step _ hs ih =>
    cases hs with
    | worker w hw hs => exact hs.inv hB hC hw ih
    | spurious w hs => exact hs.inv ih
    | producer j hs => exact hs.inv hB hC ih
    | begin j hs => exact hs.inv hB hC ih

end RG.RQ
