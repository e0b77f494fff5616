import Verif.Lemmas.DynamicWorkers
import Verif.Lemmas.DynamicExec
/-
Concrete executions on workers of programs whose tasks depend on the data, used for examples and counterexamples.
-/
set_option linter.unusedVariables false
namespace RG.Dyn
open RG.Graph
open RG.Bodies (workers)

variable {cfg : Cfg} {N : Nat} {M : Type} {P : Prog M} {m0 : M}

inductive WAct
  /-- a step of the runtime system, by the executor of Lemmas/SystemExec -/
  | g (a : Sys.SAct)
  | activate (w t : Nat)
  | popReady (w t : Nat)
  | resume (w t : Nat)
  | pause (w t u : Nat)
  | unpause (t : Nat)
  | act (i : Nat)
  | join (i : Nat)

/-- the body is being executed -/
def onWorker (N : Nat) (s : Sys.State) : Nat → Bool
  | 0 => true
  | t + 1 => decide (∃ w, w < N ∧ s.pc w = .exec t)

theorem onWorker_iff {s : Sys.State} {i : Nat} (h : onWorker N s i = true) : OnWorker N s i := by
  cases i with
  | zero => trivial
  | succ t => exact of_decide_eq_true (p := ∃ w, w < N ∧ s.pc w = .exec t) h

/-- the body waits for task `u` -/
def waitsFor (cfg : Cfg) (t u : Nat) {B : Type} : Pt M B → Bool
  | .join w _ => decide (owner cfg u = t + 1) && w (rank cfg u)
  | _ => false

def wexec (cfg : Cfg) (N : Nat) (P : Prog M) (decl : Nat → P.B → Bool) (x : St (workers cfg N) P) :
    WAct → Option (St (workers cfg N) P)
  | .g a => match Sys.exec cfg N x.sys a with
    | some s' =>
      if (List.range x.sys.x.g.n).all fun t => decide (x.sys.x.g.ex t ≠ .running) || decide (s'.x.g.ex t = .running) ||
          isDone (P.pt (x.loc (t + 1))) then
        if s'.x.g.n = x.sys.x.g.n then some { x with s := s' }
        else if s'.x.g.n = x.sys.x.g.n + 1 then
          match P.pt (x.loc (owner cfg x.sys.x.g.n)) with
          | .spawn d c b => if decl x.sys.x.g.n (x.loc (owner cfg x.sys.x.g.n)) then
              some { x with s := s', loc := upd (upd x.loc (owner cfg x.sys.x.g.n) b) (x.sys.x.g.n + 1) c }
            else none
          | _ => none
        else none
      else none
    | none => none
  | .activate w t =>
    if w < N ∧ t ∈ x.sys.act then
      some { x with s := { x.sys with
        act := x.sys.act.erase t, ready := upd x.sys.ready w (t :: x.sys.ready w), wk := upd x.sys.wk w (x.sys.wk w + 1) } }
    else none
  | .popReady w t =>
    if w < N ∧ x.sys.pc w = .popReady ∧ t ∈ x.sys.ready w then
      some { x with s := { x.sys with
        pc := upd x.sys.pc w (.run t), ready := upd x.sys.ready w ((x.sys.ready w).erase t) } }
    else none
  | .resume w t =>
    if w < N ∧ x.sys.pc w = .run t ∧ x.sys.res t = true then
      some { x with s := { x.sys with pc := upd x.sys.pc w (.exec t), res := upd x.sys.res t false } }
    else none
  | .pause w t u =>
    if w < N ∧ x.sys.pc w = .exec t ∧ u ∈ x.sys.x.know t ∧ x.sys.x.g.ex u ≠ .ended ∧
        (∀ c, c < x.sys.x.g.n → cfg.parentOf c = some t → x.sys.x.g.ph c = .inited ∨ x.sys.x.g.ph c = .queued) ∧
        waitsFor cfg t u (P.pt (x.loc (t + 1))) = true then
      some { x with s := { x.sys with
        x := ⟨x.sys.x.g, upd x.sys.x.w t (some u), x.sys.x.know, x.sys.x.out⟩, pc := upd x.sys.pc w .popReady } }
    else none
  | .unpause t => match x.sys.x.w t with
    | some u => if x.sys.x.g.ex u = .ended then
        some { x with s := { x.sys with
          x := ⟨x.sys.x.g, upd x.sys.x.w t none, upd x.sys.x.know t ([] ++ x.sys.x.know t), x.sys.x.out⟩
          act := t :: x.sys.act
          res := upd x.sys.res t true } }
      else none
    | none => none
  | .act i =>
    if onWorker N x.sys i = true then
      match P.pt (x.loc i) with
      | .act f => some { x with m := (f x.m).2, loc := upd x.loc i (f x.m).1 }
      | _ => none
    else none
  | .join i =>
    if onWorker N x.sys i = true then
      match P.pt (x.loc i) with
      | .join w b =>
        if (List.range x.sys.x.g.n).all fun t => owner cfg t != i || !w (rank cfg t) ||
            decide (x.sys.x.g.ex t = .ended) then
          some { x with loc := upd x.loc i b }
        else none
      | _ => none
    else none

theorem wexec_step {decl : Nat → P.B → Bool} (hd : ∀ n b d c b', decl n b = true → P.pt b = .spawn d c b' → cfg.user n = d)
    {x x' : St (workers cfg N) P} {a : WAct} (hx : Sys.Reach cfg N x.sys) (h : wexec cfg N P decl x a = some x') :
    WStep cfg N P (fun _ _ => True) x x' := by
  have rt : ∀ {s' : Sys.State}, Sys.Step cfg N x.sys s' → s'.x = x.sys.x →
      WStep cfg N P (fun _ _ => True) x { x with s := s' } := by
    intro s' h1 h2
    exact .rt h1 trivial (by rw [h2]) (fun t h3 h4 => by rw [h2] at h4; exact absurd h3 h4)
      (fun t u h3 h4 => by rw [h2, h3] at h4; cases h4)
  cases a with
  | g a =>
    simp only [wexec] at h
    cases hs : Sys.exec cfg N x.sys a with
    | none => rw [hs] at h; cases h
    | some s' =>
      rw [hs] at h
      simp only at h
      obtain ⟨h1, h2⟩ := Sys.exec_step hx hs
      split at h
      · rename_i hal
        split at h
        · rename_i hn
          cases h
          refine .rt h1 trivial hn (fun t h3 h4 => ?_) (fun t u h3 h4 => by rw [h2, h3] at h4; cases h4)
          have htn : t < x.sys.x.g.n := Nat.lt_of_not_le fun h5 => by
            rw [(Dom.reach hx.graph).ex t h5] at h3
            cases h3
          have := List.all_eq_true.1 hal t (List.mem_range.2 htn)
          rw [← isDone_iff]
          simpa [h3, h4] using this
        · split at h
          · rename_i hn
            cases hp : P.pt (x.loc (owner cfg x.sys.x.g.n)) with
            | spawn d c b =>
              rw [hp] at h
              simp only at h
              split at h
              · rename_i hde
                cases h
                exact .submit h1 hn hp (hd _ _ _ _ _ hde hp)
              · cases h
            | _ => rw [hp] at h; cases h
          · cases h
      · cases h
  | activate w t =>
    simp only [wexec] at h
    split at h
    · rename_i h1
      cases h
      exact rt (.activate h1.1 h1.2) rfl
    · cases h
  | popReady w t =>
    simp only [wexec] at h
    split at h
    · rename_i h1
      cases h
      exact rt (.popReady h1.1 h1.2.1 h1.2.2) rfl
    · cases h
  | resume w t =>
    simp only [wexec] at h
    split at h
    · rename_i h1
      cases h
      exact rt (.resume h1.1 h1.2.1 h1.2.2) rfl
    · cases h
  | pause w t u =>
    simp only [wexec] at h
    split at h
    · rename_i h1
      cases h
      obtain ⟨h1, h2, h3, h4, h5, h6⟩ := h1
      obtain ⟨hx1, hx2⟩ := Sys.exec_running hx h1 h2
      refine .rt (.pause h1 h2 (.wait hx1 hx2 h3 fun c i hc hp hs => ?_) rfl hx2 h4 rfl) trivial rfl
        (fun t h7 h8 => absurd h7 h8) (fun t' u' h7 h8 => ?_)
      · rcases h5 c hc hp with h | h <;> rw [h] at hs <;> cases hs
      · by_cases e : t' = t
        · subst e
          have h8 : upd x.sys.x.w t' (some u) t' = some u' := h8
          rw [upd_same] at h8
          cases h8
          cases hp : P.pt (x.loc (t' + 1)) with
          | join v b =>
            rw [hp] at h6
            simp only [waitsFor, Bool.and_eq_true, decide_eq_true_eq] at h6
            exact ⟨v, b, rfl, h6⟩
          | _ => rw [hp] at h6; cases h6
        · have h8 : upd x.sys.x.w t (some u) t' = some u' := h8
          rw [upd_ne _ _ e, h7] at h8
          cases h8
    · cases h
  | unpause t =>
    simp only [wexec] at h
    cases hu : x.sys.x.w t with
    | none => rw [hu] at h; cases h
    | some u =>
      rw [hu] at h
      simp only at h
      split at h
      · rename_i he
        cases h
        refine .rt (.unpause (.wake (ks := []) hu he (by simp)) rfl (by rw [hu]; simp) rfl) trivial rfl
          (fun t h7 h8 => absurd h7 h8) (fun t' u' h7 h8 => ?_)
        have h8 : upd x.sys.x.w t none t' = some u' := h8
        unfold upd at h8
        split at h8
        · cases h8
        · rw [h7] at h8; cases h8
      · cases h
  | act i =>
    simp only [wexec] at h
    split at h
    · rename_i ha
      cases hp : P.pt (x.loc i) with
      | act f =>
        rw [hp] at h
        cases h
        exact .act (onWorker_iff ha) hp
      | _ => rw [hp] at h; cases h
    · cases h
  | join i =>
    simp only [wexec] at h
    split at h
    · rename_i ha
      cases hp : P.pt (x.loc i) with
      | join w b =>
        rw [hp] at h
        simp only at h
        split at h
        · rename_i hal
          cases h
          refine .join (onWorker_iff ha) hp fun t htn ho hwt => ?_
          have := List.all_eq_true.1 hal t (List.mem_range.2 htn)
          simpa [ho, hwt] using this
        · cases h
      | _ => rw [hp] at h; cases h
    · cases h

def wrun (cfg : Cfg) (N : Nat) (P : Prog M) (decl : Nat → P.B → Bool) :
    St (workers cfg N) P → List WAct → St (workers cfg N) P
  | x, [] => x
  | x, a :: as => wrun cfg N P decl ((wexec cfg N P decl x a).getD x) as

def wstart (cfg : Cfg) (N : Nat) (P : Prog M) (m0 : M) : St (workers cfg N) P := ⟨Sys.init, m0, fun _ => P.main⟩

theorem wrun_reach {decl : Nat → P.B → Bool} (hd : ∀ n b d c b', decl n b = true → P.pt b = .spawn d c b' → cfg.user n = d)
    {as : List WAct} : WReach cfg N P m0 (wrun cfg N P decl (wstart cfg N P m0) as) := by
  suffices h : ∀ x, WReach cfg N P m0 x → WReach cfg N P m0 (wrun cfg N P decl x as) from h _ .init
  induction as with
  | nil => exact fun x h => h
  | cons a as ih =>
    intro x h
    simp only [wrun]
    cases hs : wexec cfg N P decl x a with
    | none => simp only [Option.getD_none]; exact ih x h
    | some x' =>
      simp only [Option.getD_some]
      exact ih x' (.step h (wexec_step hd h.sys hs))

end RG.Dyn
