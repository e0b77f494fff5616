import Verif.Lemmas.SystemExec
/-
Concrete executions of the runtime in which tasks wait for results, used for examples.
-/
set_option linter.unusedVariables false
namespace RG.Sys

open RG.Graph (Cfg WState WStep)

variable {cfg : Cfg} {N : Nat} {s s' : State}

inductive XAct
  /-- a step of the executor of Lemmas/SystemExec -/
  | s (a : SAct)
  | activate (w t : Nat)
  | popReady (w t : Nat)
  | resume (w t : Nat)
  | pause (w t u : Nat)
  | unpause (t : Nat)

def xexec (cfg : Cfg) (N : Nat) (s : State) : XAct → Option State
  | .s a => exec cfg N s a
  | .activate w t =>
    if w < N ∧ t ∈ s.act then
      some { s with act := s.act.erase t, ready := upd s.ready w (t :: s.ready w), wk := upd s.wk w (s.wk w + 1) }
    else none
  | .popReady w t =>
    if w < N ∧ s.pc w = .popReady ∧ t ∈ s.ready w then
      some { s with pc := upd s.pc w (.run t), ready := upd s.ready w ((s.ready w).erase t) }
    else none
  | .resume w t =>
    if w < N ∧ s.pc w = .run t ∧ s.res t = true then
      some { s with pc := upd s.pc w (.exec t), res := upd s.res t false }
    else none
  | .pause w t u =>
    if w < N ∧ s.pc w = .exec t ∧ s.x.g.ex t = .running ∧ s.x.w t = none ∧ u ∈ s.x.know t ∧ s.x.g.ex u ≠ .ended ∧
        (∀ c, c < s.x.g.n → cfg.parentOf c = some t → s.x.g.ph c = .inited ∨ s.x.g.ph c = .queued) then
      some { s with x := ⟨s.x.g, upd s.x.w t (some u), s.x.know, s.x.out⟩, pc := upd s.pc w .popReady }
    else none
  | .unpause t => match s.x.w t with
    | some u => if s.x.g.ex u = .ended then
        some { s with
          x := ⟨s.x.g, upd s.x.w t none, upd s.x.know t ([] ++ s.x.know t), s.x.out⟩
          act := t :: s.act
          res := upd s.res t true }
      else none
    | none => none

theorem xexec_step {a : XAct} (hr : Reach cfg N s) (h : xexec cfg N s a = some s') : Step cfg N s s' := by
  cases a with
  | s a => exact (exec_step hr h).1
  | activate w t =>
    simp only [xexec] at h
    split at h
    · rename_i h1; cases h; exact .activate h1.1 h1.2
    · cases h
  | popReady w t =>
    simp only [xexec] at h
    split at h
    · rename_i h1; cases h; exact .popReady h1.1 h1.2.1 h1.2.2
    · cases h
  | resume w t =>
    simp only [xexec] at h
    split at h
    · rename_i h1; cases h; exact .resume h1.1 h1.2.1 h1.2.2
    · cases h
  | pause w t u =>
    simp only [xexec] at h
    split at h
    · rename_i h1
      cases h
      obtain ⟨h1, h2, h3, h4, h5, h6, h7⟩ := h1
      refine .pause h1 h2 (.wait h3 h4 h5 fun c i hc hp hs => ?_) rfl h4 h6 rfl
      rcases h7 c hc hp with h | h <;> rw [h] at hs <;> cases hs
    · cases h
  | unpause t =>
    simp only [xexec] at h
    cases hu : s.x.w t with
    | none => rw [hu] at h; cases h
    | some u =>
      rw [hu] at h
      simp only at h
      split at h
      · rename_i he
        cases h
        exact .unpause (.wake (ks := []) hu he (by simp)) rfl (by rw [hu]; simp) rfl
      · cases h

def xrun (cfg : Cfg) (N : Nat) (s : State) : List XAct → State
  | [] => s
  | a :: as => match xexec cfg N s a with
    | some s' => xrun cfg N s' as
    | none => xrun cfg N s as

theorem xrun_reach (as : List XAct) : ∀ {s : State}, Reach cfg N s → Reach cfg N (xrun cfg N s as) := by
  induction as with
  | nil => exact fun h => h
  | cons a as ih =>
    intro s h
    simp only [xrun]
    split
    · rename_i s' hs; exact ih (.step h (xexec_step h hs))
    · exact ih h

end RG.Sys
