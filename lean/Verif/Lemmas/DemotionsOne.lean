import Verif.Lemmas.DemotionsOnce
import Verif.Model.System
/-
One worker: while the body of a task is executed no task is initialised.
-/
set_option linter.unusedVariables false
namespace RG.Sys

open RG.Graph (Cfg WState WStep)

variable {cfg cfg' cfg0 : Cfg} {N : Nat} {s s' : State}

/-- a task that is being initialised is held by a worker -/
def Held (N : Nat) (s : State) : Prop :=
  ∀ t, stage (s.x.g.ph t) = .initing → ∃ w, w < N ∧ (s.pc w = .initing t ∨ s.pc w = .initingStolen t)

theorem Held.step (hN : N = 1) (h : Held N s) (hs : Step cfg N s s') : Held N s' := by
  subst hN
  have zero : ∀ {w}, w < 1 → w = 0 := fun h => by omega
  intro t ht
  refine ⟨0, by omega, ?_⟩
  have old : stage (s.x.g.ph t) = .initing → s.pc 0 = .initing t ∨ s.pc 0 = .initingStolen t := by
    intro h'
    obtain ⟨w, hw, h1⟩ := h t h'
    rwa [zero hw] at h1
  cases hs with
  | graph h1 hp => exact old (by rw [← hp.1 t (by simp)]; exact ht)
  | @emplace x' u w hw h1 hp hq hq' =>
    refine old ?_
    by_cases e : t = u
    · subst e; dsimp only at ht; rw [hq'] at ht; cases ht
    · rw [← hp.1 t (by simpa using e)]; exact ht
  | ready h1 hp => exact old (by rw [← hp.1 t (by simp)]; exact ht)
  | unpause h1 hg => exact old (by rw [← hg]; exact ht)
  | activate => exact old ht
  | wake => exact old ht
  | noise => exact old ht
  | notify => exact old ht
  | spurious => exact old ht
  | wait => exact old ht
  | sleep hw h1 => rcases old ht with h2 | h2 <;> rw [← zero hw, h1] at h2 <;> cases h2
  | woken hw h1 => rcases old ht with h2 | h2 <;> rw [← zero hw, h1] at h2 <;> cases h2
  | popReady hw h1 => rcases old ht with h2 | h2 <;> rw [← zero hw, h1] at h2 <;> cases h2
  | noReady hw h1 => rcases old ht with h2 | h2 <;> rw [← zero hw, h1] at h2 <;> cases h2
  | @popNew x' w u hw h1 hq h2 hp hi =>
    obtain rfl := zero hw
    by_cases e : t = u
    · subst e; left; exact upd_same s.pc 0 _
    · rcases old (by rw [← hp.1 t (by simpa using e)]; exact ht) with h3 | h3 <;> rw [h1] at h3 <;> cases h3
  | noNew hw h1 => rcases old ht with h2 | h2 <;> rw [← zero hw, h1] at h2 <;> cases h2
  | @initStep x' w u hw h1 h2 hp hi =>
    obtain rfl := zero hw
    by_cases e : t = u
    · subst e; exact h1
    · exact old (by rw [← hp.1 t (by simpa using e)]; exact ht)
  | @initReady x' w u hw h1 h2 hp hi =>
    obtain rfl := zero hw
    by_cases e : t = u
    · subst e; dsimp only at ht; rw [hi] at ht; cases ht
    · have := old (by rw [← hp.1 t (by simpa using e)]; exact ht)
      rcases h1 with h1 | h1 <;> rw [h1] at this <;> simp at this <;> exact absurd this.symm e
  | @initBlocked x' w u hw h1 h2 hp hi =>
    obtain rfl := zero hw
    by_cases e : t = u
    · subst e; dsimp only at ht; rw [hi] at ht; cases ht
    · have := old (by rw [← hp.1 t (by simpa using e)]; exact ht)
      rw [h1] at this; simp at this; exact absurd this.symm e
  | @stolenBlocked x' w u hw h1 h2 hp hi =>
    obtain rfl := zero hw
    by_cases e : t = u
    · subst e; dsimp only at ht; rw [hi] at ht; cases ht
    · have := old (by rw [← hp.1 t (by simpa using e)]; exact ht)
      rw [h1] at this; simp at this; exact absurd this.symm e
  | stealReady hw hv h1 => rcases old ht with h2 | h2 <;> rw [← zero hw, h1] at h2 <;> cases h2
  | noStealReady hw h1 => rcases old ht with h2 | h2 <;> rw [← zero hw, h1] at h2 <;> cases h2
  | @stealNew x' w v u hw hv h1 hq h2 hp hi =>
    obtain rfl := zero hw
    by_cases e : t = u
    · subst e; right; exact upd_same s.pc 0 _
    · rcases old (by rw [← hp.1 t (by simpa using e)]; exact ht) with h3 | h3 <;> rw [h1] at h3 <;> cases h3
  | noStealNew hw h1 => rcases old ht with h2 | h2 <;> rw [← zero hw, h1] at h2 <;> cases h2
  | start hw h1 h2 hp =>
    rcases old (by rw [← hp.1 t (by simp)]; exact ht) with h3 | h3 <;> rw [← zero hw, h1] at h3 <;> cases h3
  | resume hw h1 => rcases old ht with h2 | h2 <;> rw [← zero hw, h1] at h2 <;> cases h2
  | pause hw h1 h2 hg =>
    rcases old (by rw [← hg]; exact ht) with h3 | h3 <;> rw [← zero hw, h1] at h3 <;> cases h3
  | bodyEnd hw h1 h2 hp =>
    rcases old (by rw [← hp.1 t (by simp)]; exact ht) with h3 | h3 <;> rw [← zero hw, h1] at h3 <;> cases h3

/-- a step of the runtime is at most one step of the task graph -/
theorem wstep_graph {x x' : WState} (h : WStep cfg x x') : x'.g = x.g ∨ ∃ l, Graph.Step cfg l x.g x'.g := by
  cases h with
  | submitOut h => exact .inr ⟨_, h⟩
  | submitIn h => exact .inr ⟨_, h⟩
  | other h => exact .inr ⟨_, h⟩
  | _ => exact .inl rfl

theorem step_graph (h : Step cfg N s s') : s'.x.g = s.x.g ∨ ∃ l, Graph.Step cfg l s.x.g s'.x.g := by
  cases h with
  | graph h => exact wstep_graph h
  | emplace _ h => exact wstep_graph h
  | ready h => exact wstep_graph h
  | unpause h => exact wstep_graph h
  | popNew _ _ _ h => exact wstep_graph h
  | initStep _ _ h => exact wstep_graph h
  | initReady _ _ h => exact wstep_graph h
  | initBlocked _ _ h => exact wstep_graph h
  | stolenBlocked _ _ h => exact wstep_graph h
  | stealNew _ _ _ _ h => exact wstep_graph h
  | start _ _ h => exact wstep_graph h
  | pause _ _ h => exact wstep_graph h
  | bodyEnd _ _ h => exact wstep_graph h
  | _ => exact .inl rfl

/-- with one worker the circumstances of a demotion are always those that `update_graph` needs -/
theorem DStep.graph (hw : Graph.OnePolicy cfg0) (ht : Graph.Tame cfg0) (h1 : cfg0.ShareOne)
    (ih1 : Graph.DReach cfg0 cfg s.x.g) (ih2 : Held 1 s) (hs : DStep 1 cfg s cfg' s') :
    ((cfg' = cfg ∧ s'.x.g = s.x.g) ∨ Graph.DStep cfg s.x.g cfg' s'.x.g) ∧ Held 1 s' := by
  cases hs with
  | step hs =>
    refine ⟨?_, ih2.step rfl hs⟩
    rcases step_graph hs with h2 | ⟨l, h2⟩
    · exact .inl ⟨rfl, h2⟩
    · exact .inr (.step h2)
  | @demote _ g' w p patch ok rel hw' h2 hp hrm hup hpar hrel =>
    obtain rfl : w = 0 := by omega
    have hno : ∀ t, stage (s.x.g.ph t) ≠ .initing := by
      intro t h'
      obtain ⟨w, hw, h3⟩ := ih2 t h'
      obtain rfl : w = 0 := by omega
      rcases h3 with h3 | h3 <;> rw [h2] at h3 <;> cases h3
    cases ok with
    | false =>
      refine ⟨.inr (.rejected hp hrm hup), fun t h' => ?_⟩
      dsimp only at h'
      rw [Graph.C22_rejected_releases_nobody_partial hup] at h'
      exact absurd h' (hno t)
    | true =>
      have hl := Graph.updateProperties_less hrm hup
      refine ⟨.inr (.demote hp hrm hup ⟨?_, ?_, ?_⟩), fun t h' => ?_⟩
      · intro t i j rem h'
        exact hno t (by rw [h']; rfl)
      · intro t _
        have hi := ih1.inv hw ht
        by_cases e : p = t
        · subst e
          have := (Graph.running_facts' hi.dom hi.core hp).2.2.2.2.2
          rw [List.count_eq_zero.2 this]
          exact Nat.zero_le _
        · exact (ih1.once hw ht h1).le p t e
      · intro q hq
        exact hpar q (by rw [← hl.parentOf]; exact hq)
      · dsimp only at h'
        have : g'.ph = s.x.g.ph := by
          obtain ⟨-, rfl⟩ := Graph.updateProperties_ok hup
          exact (Graph.updateLoop_spec cfg' p (s.x.g.fol p) s.x.g).2.2.2.2.2.2.1
        rw [this] at h'
        exact absurd h' (hno t)

theorem DReach.graph (hw : Graph.OnePolicy cfg0) (ht : Graph.Tame cfg0) (h1 : cfg0.ShareOne) (h : DReach 1 cfg0 cfg s) :
    Graph.DReach cfg0 cfg s.x.g ∧ Held 1 s := by
  induction h with
  | init => exact ⟨.init, fun t h => by cases h⟩
  | @step cfg s cfg' s' h hs ih =>
    obtain ⟨h2, h3⟩ := hs.graph hw ht h1 ih.1 ih.2
    refine ⟨?_, h3⟩
    rcases h2 with ⟨rfl, e⟩ | h2
    · rw [e]; exact ih.1
    · exact .step ih.1 h2

end RG.Sys
