import Verif.Lemmas.Full
/-
Whole programs with the individual steps of pausing: progress.
-/
set_option linter.unusedVariables false
namespace RG.Full

open RG.Graph (Cfg WState WStep sumTo_upd)
open RG.Prog (Lbl pmeasure pmeasure_decreases)

variable {cfg : Cfg} {N : Nat} {a : Bool} {s s' : State} {l : Option Lbl}

def ppcM : PPc → Nat
  | .set => 8
  | .check => 7
  | .push => 6
  | .incr => 4
  | .up => 3
  | .notify => 2

/-- steps that are left until the end of `execute_task` -/
def pzM : Option Pz → Nat
  | none => 0
  | some z => ppcM z.pc

/-- notifications of followers that are left -/
def rnM : RPc → List Nat → Nat
  | .idle, f => 2 + f.length
  | .begin, f => 1 + f.length
  | .loop rem, _ => rem.length

/-- the remaining work -/
def fmeasure (cfg : Cfg) (N : Nat) (s : State) : Nat :=
  16 * pmeasure cfg N s.p + sumTo N (fun w => pzM (s.pz w)) + sumTo s.p.y.x.g.n (fun u => rnM (s.rn u) (s.rfol u))

theorem not_idle_x {y y' : Sys.State} (h : y'.x.w ≠ y.x.w) : ¬ Sys.Idle y y' := by
  intro h'
  cases h' <;> exact h rfl

/-- to begin to wait is work -/
theorem pause_work {p : Prog.State} {x' : WState} {w t u : Nat} (hw : w < N) (h : p.y.pc w = .exec t)
    (hs : WStep cfg p.y.x x') (hg : x'.g = p.y.x.g) (h0 : p.y.x.w t = none) (hu : p.y.x.g.ex u ≠ .ended)
    (hww : x'.w = upd p.y.x.w t (some u)) :
    Prog.Work cfg N p { p with y := { p.y with x := x', pc := upd p.y.pc w .popReady } } := by
  have hne : x'.w ≠ p.y.x.w := by
    intro e
    have := congrFun (hww.symm.trans e) t
    rw [upd_same, h0] at this
    cases this
  refine ⟨fun e => hne ?_, .inr ⟨Prog.pause_step hw h hs hg h0 hu hww, .pause hw h hs hg h0 hu hww, ?_, ?_, ?_, ?_⟩⟩
  · have := congrArg (fun p => p.y.x.w) e
    exact this
  · exact not_idle_x hne
  · dsimp only; rw [hg]
  · dsimp only; rw [hg]
  · exact Sys.WStep_out hs hg hne

/-- to cease to wait is work -/
theorem unpause_work {p : Prog.State} {x' : WState} {t : Nat} (hs : WStep cfg p.y.x x') (hg : x'.g = p.y.x.g)
    (h0 : p.y.x.w t ≠ none) (hww : x'.w = upd p.y.x.w t none) :
    Prog.Work cfg N p { p with y := { p.y with x := x', act := t :: p.y.act, res := upd p.y.res t true } } := by
  have hne : x'.w ≠ p.y.x.w := by
    intro e
    have := congrFun (hww.symm.trans e) t
    rw [upd_same] at this
    exact h0 this.symm
  refine ⟨fun e => hne ?_, .inr ⟨Prog.unpause_step hs hg h0 hww, .unpause hs hg h0 hww, ?_, ?_, ?_, ?_⟩⟩
  · have := congrArg (fun p => p.y.x.w) e
    exact this
  · exact not_idle_x hne
  · dsimp only; rw [hg]
  · dsimp only; rw [hg]
  · exact Sys.WStep_out hs hg hne

theorem Hand.le {p p' : Prog.State} {t : Nat} {b : Bool} (h : Hand cfg p t p' b) (hr : Prog.Reach cfg N p) :
    pmeasure cfg N p' ≤ pmeasure cfg N p := by
  cases h with
  | ok h hg h0 hu hw => exact Nat.le_of_lt (pmeasure_decreases hr (unpause_work h hg (by rw [h0]; simp) hw))
  | bad h => exact Nat.le_refl _

theorem Notify.le {t : Nat} (h : Notify cfg s t s') (hr : Prog.Reach cfg N s.p) :
    pmeasure cfg N s'.p ≤ pmeasure cfg N s.p := by
  cases h with
  | ready h hh => exact hh.le hr
  | not h => exact Nat.le_refl _

theorem fmeasure_decreases (hb : Base cfg N s) (h : Work cfg N a s s') : fmeasure cfg N s' < fmeasure cfg N s := by
  have proto : ∀ {w z z' pp}, s.pz w = some z → ppcM z'.pc < ppcM z.pc →
      fmeasure cfg N { s with pz := upd s.pz w (some z'), ppre := pp } < fmeasure cfg N s := by
    intro w z z' pp h h1
    have h2 := sumTo_upd (fun _ o => pzM o) s.pz (some z') (hb.pzI w z h).1
    simp only [fmeasure]
    rw [h] at h2
    simp only [pzM] at h2 ⊢
    omega
  rcases h with h | ⟨l, h, hw⟩
  · cases h with
    | @yield _ x' w t u hbad hw h hs hg h0 hu hww =>
      have h1 := pmeasure_decreases hb.pr (pause_work hw h hs hg h0 hu hww)
      have h2 := sumTo_upd (fun _ o => pzM o) s.pz (some ⟨t, u, .set⟩) hw
      have h3 : s.pz w = none := by
        cases h3 : s.pz w with
        | none => rfl
        | some z =>
          have := (hb.pzI w z h3).2
          rw [h] at this; cases this
      rw [h3] at h2
      have h4 : sumTo x'.g.n (fun u => rnM (s.rn u) (s.rfol u)) =
          sumTo s.p.y.x.g.n (fun u => rnM (s.rn u) (s.rfol u)) := by rw [hg]
      simp only [fmeasure]
      simp only [pzM, ppcM] at h2 ⊢
      generalize pmeasure cfg N _ = m1 at *
      generalize pmeasure cfg N _ = m2 at *
      omega
    | set hbad h => exact proto h (by simp [ppcM])
    | checkReached hbad h hr => exact proto h (by simp [ppcM])
    | checkNot hbad h hr => exact proto h (by simp [ppcM])
    | @push _ w t u hbad h =>
      have h2 := sumTo_upd (fun _ o => pzM o) s.pz (some ⟨t, u, .incr⟩) (hb.pzI w _ h).1
      have h3 : sumTo s.p.y.x.g.n (fun v => rnM (s.rn v) (upd s.rfol u (t :: s.rfol u) v)) ≤
          sumTo s.p.y.x.g.n (fun v => rnM (s.rn v) (s.rfol v)) + 1 := by
        by_cases hu : u < s.p.y.x.g.n
        · have := sumTo_upd (fun v l => rnM (s.rn v) l) s.rfol (t :: s.rfol u) hu
          have h4 : rnM (s.rn u) (t :: s.rfol u) ≤ rnM (s.rn u) (s.rfol u) + 1 := by
            cases s.rn u <;> simp only [rnM, List.length_cons] <;> omega
          omega
        · rw [sumTo_congr (g := fun v => rnM (s.rn v) (s.rfol v))]
          · omega
          · intro v hv; rw [upd_ne _ _ (by omega)]
      simp only [fmeasure]
      rw [h] at h2
      simp only [pzM, ppcM] at h2 ⊢
      omega
    | incr hbad h => exact proto h (by simp [ppcM])
    | up hbad h => exact proto h (by simp [ppcM])
    | @notify _ s1 w t u hbad h hn =>
      obtain ⟨_, h2, _, h4, h5, _, _⟩ := hn.reach hb.pr
      have h1 := hn.le hb.pr
      have h6 := sumTo_upd (fun _ o => pzM o) s.pz none (hb.pzI w _ h).1
      simp only [fmeasure]
      rw [h2, h4, h5]
      rw [h] at h6
      simp only [pzM, ppcM] at h6 ⊢
      omega
    | @begin _ u hbad h =>
      have hu : u < s.p.y.x.g.n := by
        apply Decidable.byContradiction
        intro h1
        have h2 := (RG.Graph.Dom.reach (Prog.Inv.reach hb.pr).yr.graph).ex u (by omega)
        have := (hb.rnI u).2 (by rw [h2]; simp)
        rw [h] at this; cases this
      have h1 := sumTo_upd (fun v r => rnM r (s.rfol v)) s.rn (.loop (s.rfol u)) hu
      rw [h] at h1
      simp only [fmeasure]
      simp only [rnM] at h1 ⊢
      omega
    | @visit _ s1 u t rem hbad h hn =>
      obtain ⟨_, h2, _, h4, h5, h6, _⟩ := hn.reach hb.pr
      have hu : u < s.p.y.x.g.n := by
        apply Decidable.byContradiction
        intro h1
        have h2 := (RG.Graph.Dom.reach (Prog.Inv.reach hb.pr).yr.graph).ex u (by omega)
        have := (hb.rnI u).2 (by rw [h2]; simp)
        rw [h] at this; cases this
      have h1 := sumTo_upd (fun v r => rnM r (s.rfol v)) s.rn (.loop rem) hu
      have h3 := hn.le hb.pr
      rw [h] at h1
      simp only [fmeasure]
      rw [h2, h5, h6]
      simp only [rnM, List.length_cons] at h1 ⊢
      omega
  · cases h with
    | @prog _ _ p' hbad h hw' hz ha =>
      have h1 := pmeasure_decreases hb.pr hw
      have h2 := hw.n_eq
      have h3 : sumTo s.p.y.x.g.n (fun u => rnM (fired s.p p' s.rn u) (s.rfol u)) ≤
          sumTo s.p.y.x.g.n (fun u => rnM (s.rn u) (s.rfol u)) := by
        apply sumTo_le
        intro u _
        unfold fired
        split
        · rename_i h4
          rw [(hb.rnI u).2 h4.1]
          simp only [rnM]
          omega
        · exact Nat.le_refl _
      simp only [fmeasure] at h1 h2 ⊢
      rw [h2]
      omega

/-- if nothing is left to be done, no worker is about to pause a task, and nothing is left to be done in the terms of
Model/Program -/
theorem stuck_prog (hr : Reach cfg N true s) (hq : ∀ s', ¬ OwnWork cfg N true s s') :
    (∀ w, s.pz w = none) ∧ ∀ p', ¬ Prog.OwnWork cfg N s.p p' := by
  have hb := Base.reach hr
  have hi := Inv.reach hr
  have own : ∀ {s'}, Step cfg N true none s s' → s'.p.y.x.g = s.p.y.x.g → False := by
    intro s' h1 h2
    exact hq s' ⟨.inl h1, by rw [h2]; exact fun _ h => h⟩
  have noty : ∀ t, ∃ s', Notify cfg s t s' := by
    intro t
    by_cases h : s.ppre t = 2
    · by_cases h1 : ∃ u, s.p.y.x.w t = some u ∧ s.p.y.x.g.ex u = .ended
      · obtain ⟨u, h1, h2⟩ := h1
        exact ⟨_, .ready h (.ok (.wake (ks := []) h1 h2 (by simp)) rfl h1 h2 rfl)⟩
      · exact ⟨_, .ready h (.bad fun u h2 h3 => h1 ⟨u, h2, h3⟩)⟩
    · exact ⟨_, .not h⟩
  have hpz : ∀ w, s.pz w = none := by
    intro w
    cases h : s.pz w with
    | none => rfl
    | some z =>
      exfalso
      obtain ⟨t, u, pc⟩ := z
      cases pc with
      | set => exact own (.set hi.ok h) rfl
      | check =>
        by_cases h1 : s.p.y.x.g.ex u = .ended
        · exact own (.checkReached hi.ok h h1) rfl
        · exact own (.checkNot hi.ok h h1) rfl
      | push => exact own (.push hi.ok h) rfl
      | incr => exact own (.incr hi.ok h) rfl
      | up => exact own (.up hi.ok h) rfl
      | notify =>
        obtain ⟨s', h1⟩ := noty t
        exact own (.notify hi.ok h h1) (h1.reach hb.pr).2.1
  refine ⟨hpz, fun p' h => ?_⟩
  -- steps in which no body begins or ceases to wait
  have lift : ∀ {l}, Prog.Step cfg N l s.p p' → p'.y.x.w = s.p.y.x.w → False := by
    intro l h1 h2
    refine hq _ ⟨.inr ⟨l, .prog hi.ok h1 h2 (fun w z h => ?_) (fun _ w z h => ?_), h.1⟩, h.2⟩
    · rw [hpz w] at h; cases h
    · rw [hpz w] at h; cases h
  rcases h.1.2 with h1 | ⟨h1, h2⟩
  · refine lift h1 ?_
    cases h1 <;> rfl
  · rcases h2.1.waits with h3 | ⟨w, t, u, h3, h4, h5, h6, h7, h8, h9, _⟩ | ⟨t, h3, h4, h5, h6⟩
    · exact lift h1 h3
    · exact own (.yield hi.ok h3 h4 h5 h6 h7 h8 h9) h6
    · obtain ⟨u, h7, h8⟩ := Sys.WStep_wake h3 h5 h6
      have h9 := hi.left t u h7 (fun w z h => by rw [hpz w] at h; cases h)
      cases hn : s.rn u with
      | idle => exact (hb.rnI u).1 hn h8
      | begin => exact own (.begin hi.ok hn) rfl
      | loop rem =>
        cases rem with
        | nil => simp [pend, hn] at h9
        | cons c rem =>
          obtain ⟨s', h10⟩ := noty c
          exact own (.visit hi.ok hn h10) (h10.reach hb.pr).2.1

end RG.Full
