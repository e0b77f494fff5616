import Verif.Lemmas.DynamicFull
import Verif.Lemmas.DynamicWorkersExec
import Verif.Lemmas.FullExec
/-
Concrete executions of whole programs, used for examples and counterexamples.
-/
set_option linter.unusedVariables false
namespace RG.Dyn
open RG.Graph

variable {N : Nat} {M : Type} {P : Prog M} {m0 : M}

inductive CAct
  /-- a step of the runtime system, by the executor of Lemmas/FullExec -/
  | g (a : Full.FAct)
  /-- body `i` submits a task -/
  | spawn (i : Nat)
  | act (i : Nat)
  | join (i : Nat)

def executes (N : Nat) (s : Full.State) (i : Nat) : Bool :=
  onWorker N s.p.y i && (decide (i ≠ 0) || decide (s.p.mpc = .run))

theorem executes_iff {s : Full.State} {i : Nat} (h : executes N s i = true) : Executes N s i := by
  simp only [executes, Bool.and_eq_true, Bool.or_eq_true, decide_eq_true_eq] at h
  refine ⟨onWorker_iff h.1, fun e => ?_⟩
  rcases h.2 with h | h
  · exact absurd e h
  · exact h

/-- the bodies of the program do what the step of the runtime system needs -/
def fits (P : Prog M) (x : FConf P) (s' : Full.State) : Bool :=
  (List.range x.n).all fun t =>
    (decide (x.s.p.y.x.g.ex t ≠ .running) || decide (s'.p.y.x.g.ex t = .running) || isDone (P.pt (x.loc (t + 1)))) &&
    (decide (x.s.p.y.x.w t ≠ none) || match s'.p.y.x.w t with
      | none => true
      | some u => waitsFor x.cfg t u (P.pt (x.loc (t + 1))))

def cexec (N : Nat) (P : Prog M) (x : FConf P) : CAct → Option (FConf P)
  | .g a => match Full.exec x.cfg N x.s a with
    | some s' =>
      if fits P x s' = true ∧ s'.p.y.x.g.n = x.n ∧ x.s.p.mpc = .run ∧ s'.p.mpc = .run then some { x with s := s' }
      else none
    | none => none
  | .spawn i =>
    if executes N x.s i = true then
      match P.pt (x.loc i) with
      | .spawn d c b => match Full.exec (tasks (upd x.user x.n d) (upd x.own x.n i)) N x.s (.sys (.graph .submit)) with
        | some s' =>
          if s'.p.y.x.g.n = x.n + 1 then
            some ⟨upd x.user x.n d, upd x.own x.n i, s', x.m, upd (upd x.loc i b) (x.n + 1) c⟩
          else none
        | none => none
      | _ => none
    else none
  | .act i =>
    if executes N x.s i = true then
      match P.pt (x.loc i) with
      | .act f => some { x with m := (f x.m).2, loc := upd x.loc i (f x.m).1 }
      | _ => none
    else none
  | .join i =>
    if executes N x.s i = true then
      match P.pt (x.loc i) with
      | .join w b =>
        if (List.range x.n).all fun t => x.own t != i || !w (rank x.cfg t) || decide (x.s.p.y.x.g.ex t = .ended) then
          some { x with loc := upd x.loc i b }
        else none
      | _ => none
    else none

theorem cexec_step {x x' : FConf P} {c : CAct} (hx : FReach N false P m0 x) (h : cexec N P x c = some x') :
    FStep N false P (fun _ _ _ => True) x x' := by
  have hfr := hx.full
  have hrs : Sys.Reach x.cfg N x.s.p.y := (Full.C71_pausing_refines hfr).2
  cases c with
  | g a =>
    simp only [cexec] at h
    cases hs : Full.exec x.cfg N x.s a with
    | none => rw [hs] at h; cases h
    | some s' =>
      rw [hs] at h
      simp only at h
      obtain ⟨l, hst⟩ := Full.exec_step hfr hs
      split at h
      · rename_i hc
        obtain ⟨h1, h2, h3, h4⟩ := hc
        cases h
        have h1 := List.all_eq_true.1 h1
        refine .rt hst trivial h2 (fun t h5 h6 => ?_) (fun t u h5 h6 => ?_) ⟨fun _ => h4, fun _ => h3⟩
        · have htn : t < x.n := Nat.lt_of_not_le fun h7 => by
            rw [(Dom.reach hrs.graph).ex t h7] at h5
            cases h5
          have := h1 t (List.mem_range.2 htn)
          rw [← isDone_iff]
          simp only [Bool.and_eq_true, Bool.or_eq_true, decide_eq_true_eq] at this
          rcases this.1 with (h | h) | h
          · exact absurd h5 h
          · exact absurd h h6
          · exact h
        · have hrs' : Sys.Reach x.cfg N s'.p.y := (Full.C71_pausing_refines (.step hfr hst)).2
          have hk := KInv.reach (Sys.Inv.reach hrs').wr
          have htn : t < x.n := Nat.lt_of_not_le fun h7 => by
            have h8 := (hk.w t u h6).2
            rw [(Dom.reach hrs'.graph).ex t (by rw [h2]; exact h7)] at h8
            cases h8
          have := h1 t (List.mem_range.2 htn)
          simp only [Bool.and_eq_true, Bool.or_eq_true, decide_eq_true_eq] at this
          rcases this.2 with h | h
          · exact absurd h5 h
          · rw [h6] at h
            simp only at h
            cases hp : P.pt (x.loc (t + 1)) with
            | join v b =>
              rw [hp] at h
              simp only [waitsFor, Bool.and_eq_true, decide_eq_true_eq] at h
              exact ⟨v, b, rfl, (owner_tasks u).symm.trans h.1, h.2⟩
            | _ => rw [hp] at h; cases h
      · cases h
  | spawn i =>
    simp only [cexec] at h
    split at h
    · rename_i ho
      cases hp : P.pt (x.loc i) with
      | spawn d c b =>
        rw [hp] at h
        simp only at h
        cases hs : Full.exec (tasks (upd x.user x.n d) (upd x.own x.n i)) N x.s (.sys (.graph .submit)) with
        | none => rw [hs] at h; cases h
        | some s' =>
          rw [hs] at h
          simp only at h
          split at h
          · rename_i hn
            cases h
            obtain ⟨l, hst⟩ := Full.exec_step (hfr.agree tasks_agree) hs
            exact .submit (executes_iff ho) hp hst hn
          · cases h
      | _ => rw [hp] at h; cases h
    · cases h
  | act i =>
    simp only [cexec] at h
    split at h
    · rename_i ha
      cases hp : P.pt (x.loc i) with
      | act f =>
        rw [hp] at h
        cases h
        exact .act (executes_iff ha) hp
      | _ => rw [hp] at h; cases h
    · cases h
  | join i =>
    simp only [cexec] at h
    split at h
    · rename_i ha
      cases hp : P.pt (x.loc i) with
      | join w b =>
        rw [hp] at h
        simp only at h
        split at h
        · rename_i hal
          cases h
          refine .join (executes_iff ha) hp fun t htn ho hwt => ?_
          have := List.all_eq_true.1 hal t (List.mem_range.2 htn)
          simpa [ho, hwt] using this
        · cases h
      | _ => rw [hp] at h; cases h
    · cases h

/-- execute a list of actions; an action that is not possible is skipped -/
def crun (N : Nat) (P : Prog M) : FConf P → List CAct → FConf P
  | x, [] => x
  | x, a :: as => crun N P ((cexec N P x a).getD x) as

theorem crun_reach {as : List CAct} : ∀ {x : FConf P}, FReach N false P m0 x → FReach N false P m0 (crun N P x as) := by
  induction as with
  | nil => exact fun h => h
  | cons a as ih =>
    intro x h
    simp only [crun]
    cases hs : cexec N P x a with
    | none => simp only [Option.getD_none]; exact ih h
    | some x' =>
      simp only [Option.getD_some]
      exact ih (.step h (cexec_step h hs))

end RG.Dyn
