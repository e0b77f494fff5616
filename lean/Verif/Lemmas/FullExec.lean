import Verif.Lemmas.SystemExec
/-
Concrete executions of whole programs with the individual steps of pausing.
-/
set_option linter.unusedVariables false
namespace RG.Full

open RG.Graph (Cfg WState WStep)

variable {cfg : Cfg} {N : Nat} {s s' : State}

inductive FAct
  | sys (a : Sys.SAct)
  /-- worker `w`, which executes task `t`: the body begins to wait for the result of task `u` -/
  | yield (w t u : Nat)
  /-- worker `w` continues to pause the task -/
  | pause (w : Nat)
  | begin (u : Nat)
  | visit (u : Nat)

/-- `activate_task` -/
def execHand (p : Prog.State) (t : Nat) : Prog.State × Bool :=
  match p.y.x.w t with
  | none => (p, true)
  | some u =>
    if p.y.x.g.ex u = .ended then
      ({ p with y := { p.y with
          x := ⟨p.y.x.g, upd p.y.x.w t none, upd p.y.x.know t (p.y.x.know t), p.y.x.out⟩
          act := t :: p.y.act, res := upd p.y.res t true } }, false)
    else (p, true)

theorem execHand_hand (p : Prog.State) (t : Nat) : Hand cfg p t (execHand p t).1 (execHand p t).2 := by
  unfold execHand
  split
  · rename_i h; exact .bad fun u h1 => by rw [h] at h1; cases h1
  · rename_i u h
    split
    · rename_i hu
      exact .ok (.wake (ks := []) h hu (by simp)) rfl h hu rfl
    · rename_i hu
      refine .bad fun u' h1 => ?_
      rw [h] at h1
      cases h1
      exact hu

def execNot (s : State) (t : Nat) : State :=
  if s.ppre t = 2 then
    { s with p := (execHand s.p t).1, ppre := upd s.ppre t 1, bad := s.bad || (execHand s.p t).2 }
  else { s with ppre := upd s.ppre t (s.ppre t - 1) }

theorem execNot_notify (s : State) (t : Nat) : Notify cfg s t (execNot s t) := by
  unfold execNot
  split
  · rename_i h; exact .ready h (execHand_hand _ _)
  · rename_i h; exact .not h

def exec (cfg : Cfg) (N : Nat) (s : State) : FAct → Option State
  | .sys a =>
    match Sys.exec cfg N s.p.y a with
    | none => none
    | some y' =>
      if s.bad = false ∧ s.p.mpc = .run ∧ ∀ w, w < N → (s.pz w).isSome = true → y'.pc w = s.p.y.pc w then
        let p' : Prog.State :=
          { s.p with y := y', mwk := s.p.mwk + if Prog.freedLast s.p.y y' = true then 1 else 0 }
        some { s with p := p', rn := fired s.p p' s.rn, ppre := resumed s.p p' s.ppre }
      else none
  | .yield w t u =>
    if s.bad = false ∧ w < N ∧ s.p.y.pc w = .exec t ∧ s.p.y.x.g.ex t = .running ∧ s.p.y.x.w t = none ∧
        s.p.y.x.g.ex u ≠ .ended ∧ u ∈ s.p.y.x.know t ∧
        (∀ c, c < s.p.y.x.g.n → cfg.parentOf c = some t → RG.Graph.isSubmitting (s.p.y.x.g.ph c) = false) then
      some { s with
        p := { s.p with y := { s.p.y with
          x := ⟨s.p.y.x.g, upd s.p.y.x.w t (some u), s.p.y.x.know, s.p.y.x.out⟩, pc := upd s.p.y.pc w .popReady } }
        pz := upd s.pz w (some ⟨t, u, .set⟩)
        ys := s.ys + 1 }
    else none
  | .pause w =>
    if s.bad = false then
      match s.pz w with
      | none => none
      | some ⟨t, u, .set⟩ => some { s with pz := upd s.pz w (some ⟨t, u, .check⟩), ppre := upd s.ppre t 1 }
      | some ⟨t, u, .check⟩ =>
        if s.p.y.x.g.ex u = .ended then some { s with pz := upd s.pz w (some ⟨t, u, .up⟩) }
        else some { s with pz := upd s.pz w (some ⟨t, u, .push⟩) }
      | some ⟨t, u, .push⟩ =>
        some { s with pz := upd s.pz w (some ⟨t, u, .incr⟩), rfol := upd s.rfol u (t :: s.rfol u) }
      | some ⟨t, u, .incr⟩ =>
        some { s with pz := upd s.pz w (some ⟨t, u, .up⟩), ppre := upd s.ppre t (s.ppre t + 1) }
      | some ⟨t, u, .up⟩ =>
        some { s with pz := upd s.pz w (some ⟨t, u, .notify⟩), ppre := upd s.ppre t (s.ppre t + 1) }
      | some ⟨t, u, .notify⟩ => some { execNot s t with pz := upd s.pz w none }
    else none
  | .begin u =>
    if s.bad = false ∧ s.rn u = .begin then some { s with rn := upd s.rn u (.loop (s.rfol u)) } else none
  | .visit u =>
    if s.bad = false then
      match s.rn u with
      | .loop (t :: rem) => some { execNot s t with rn := upd s.rn u (.loop rem) }
      | _ => none
    else none

theorem exec_step {a : FAct} (hr : Reach cfg N false s) (h : exec cfg N s a = some s') :
    ∃ l, Step cfg N false l s s' := by
  have hb := Base.reach hr
  have hp := Prog.Inv.reach hb.pr
  cases a with
  | sys a =>
    simp only [exec] at h
    split at h
    · cases h
    · rename_i y' hy
      obtain ⟨h1, h2⟩ := Sys.exec_step hp.yr hy
      split at h
      · rename_i hc
        cases h
        refine ⟨_, .prog hc.1 (.sys h1 (fun w h3 => ?_) (fun _ _ => by rw [hc.2.1]; rfl)) h2 (fun w z h3 => ?_)
          (fun h => by cases h)⟩
        · rw [hp.noStop (by rw [hc.2.1]; rfl)] at h3; cases h3
        · exact hc.2.2 w (hb.pzI w z h3).1 (by rw [h3]; rfl)
      · cases h
  | yield w t u =>
    simp only [exec] at h
    split at h
    · rename_i hc
      obtain ⟨h1, h2, h3, h4, h5, h6, h7, h8⟩ := hc
      cases h
      exact ⟨_, .yield h1 h2 h3 (.wait h4 h5 h7 fun c i hc hpc => RG.Graph.isSubmitting_false (h8 c hc hpc) i) rfl h5 h6
        rfl⟩
    · cases h
  | pause w =>
    simp only [exec] at h
    split at h
    · rename_i hbad
      split at h
      · cases h
      · rename_i t u hz; cases h; exact ⟨_, .set hbad hz⟩
      · rename_i t u hz
        split at h
        · rename_i hu; cases h; exact ⟨_, .checkReached hbad hz hu⟩
        · rename_i hu; cases h; exact ⟨_, .checkNot hbad hz hu⟩
      · rename_i t u hz; cases h; exact ⟨_, .push hbad hz⟩
      · rename_i t u hz; cases h; exact ⟨_, .incr hbad hz⟩
      · rename_i t u hz; cases h; exact ⟨_, .up hbad hz⟩
      · rename_i t u hz; cases h; exact ⟨_, .notify hbad hz (execNot_notify _ _)⟩
    · cases h
  | begin u =>
    simp only [exec] at h
    split at h
    · rename_i hc; cases h; exact ⟨_, .begin hc.1 hc.2⟩
    · cases h
  | visit u =>
    simp only [exec] at h
    split at h
    · rename_i hbad
      split at h
      · rename_i t rem hz; cases h; exact ⟨_, .visit hbad hz (execNot_notify _ _)⟩
      · cases h
    · cases h

/-- execute a list of actions; an action that is not possible is skipped -/
def run (cfg : Cfg) (N : Nat) : State → List FAct → State
  | s, [] => s
  | s, a :: as => run cfg N ((exec cfg N s a).getD s) as

theorem run_reach {as : List FAct} (h : Reach cfg N false s) : Reach cfg N false (run cfg N s as) := by
  induction as generalizing s with
  | nil => exact h
  | cons a as ih =>
    apply ih
    cases he : exec cfg N s a with
    | none => exact h
    | some s' =>
      obtain ⟨l, hs⟩ := exec_step h he
      exact .step h hs

/-- worker `w` has been woken, finds task `t` in its queue of new tasks, initialises it and starts it -/
def doRun (w t : Nat) : List FAct :=
  [.sys (.sleep w), .sys (.noise w), .sys (.notify w 0), .sys (.wait w), .sys (.wait w), .sys (.woken w),
    .sys (.noReady w), .sys (.popNew w t)] ++ List.replicate 12 (.sys (.init w t)) ++ [.sys (.start w t)]

/-- task `t` is submitted and put into the queue of worker `w` -/
def doSubmit (w t : Nat) : List FAct :=
  [.sys (.graph .submit), .sys (.graph (.sub t)), .sys (.emplace w t)]

/-- the body of task 0 has submitted task 1, waits for its result, and has found that it has not been set; the body of
task 1 has ended -/
def untilEnd (k : Nat) : List FAct :=
  doSubmit 0 0 ++ doRun 0 0 ++ doSubmit 1 1 ++ doRun 1 1 ++ [.yield 0 0 1] ++ List.replicate k (.pause 0) ++
    [.sys (.bodyEnd 1 1), .begin 1]

end RG.Full
