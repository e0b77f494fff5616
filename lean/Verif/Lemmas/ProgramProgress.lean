import Verif.Lemmas.Program
/-
Progress of whole programs: the remaining work, and states in which nothing is left to be done.
-/
set_option linter.unusedVariables false
namespace RG.Sys

open RG.Graph (Cfg)

variable {cfg : Cfg} {N : Nat} {s : State}

/-- what a call of `wake()` costs -/
theorem smeasure_noise {w : Nat} {cv' : Cv.State} (hw : w < N)
    (hc : Cv.Step (.notifyCall (s.nn w)) (s.cv w) cv') :
    smeasure cfg N { s with nn := upd s.nn w (s.nn w + 1), cv := upd s.cv w cv' } ≤ smeasure cfg N s + 37 := by
  have h1 := wW_change (N := N) (s := s)
    (s' := { s with nn := upd s.nn w (s.nn w + 1), cv := upd s.cv w cv' }) hw
    (fun v hv => by simp only [wW, upd_ne _ _ hv])
  generalize hcv : s.cv w = c at hc
  cases hc with
  | notifyCall hc =>
    have h2 : sumTo (s.nn w) (fun j => nu (upd c.ns (s.nn w) .cas j)) = sumTo (s.nn w) (fun j => nu (c.ns j)) := by
      apply sumTo_congr
      intro j hj
      rw [upd_ne _ _ (by omega)]
    unfold smeasure
    simp only [wW, upd_same, hcv, sumTo, h2, nu_cas] at h1 ⊢
    omega

end RG.Sys

namespace RG.Prog

open RG.Graph (Cfg NestingOk Finished FutGone sumTo_upd)
open RG.Sys (CvSig Sig looksStop phi nu smeasure)

variable {cfg : Cfg} {N : Nat} {s s' : State} {l : Lbl}

/-- the program counter in the terms of a worker -/
def pcM : MPc → Sys.Pc
  | .idle _ => .waiting
  | _ => .top

/-- steps of the main thread that are left, apart from waiting -/
def potF (N : Nat) : MPc → Nat
  | .run => 0
  | .check fin => if fin = true then 50 * N + 3 else 1
  | .idle fin => if fin = true then 50 * N + 3 else 1
  | .stop k => 50 * (N - k) + 2
  | .wake k => 50 * (N - k) + 1
  | .join k => 50 * (N - k) - 40
  | .cleared => 0

def goneN (b : Bool) : Nat := if b = true then 0 else 1

/-- the remaining work -/
def pmeasure (cfg : Cfg) (N : Nat) (s : State) : Nat :=
  smeasure { cfg with strict := true } N s.y + 40 * s.y.x.g.tasks 0 +
    (phi s.mcv.flag (pcM s.mpc) (s.mcv.ws 0) + sumTo s.mnn (fun j => nu (s.mcv.ns j))) + 38 * s.mwk + potF N s.mpc +
    sumTo N (fun w => goneN (s.gone w))

theorem pmeasure_decreases (hr : Reach cfg N s) (h : Work cfg N s s') : pmeasure cfg N s' < pmeasure cfg N s := by
  have hi := Inv.reach hr
  obtain ⟨hne, h | ⟨h, hw⟩⟩ := h
  · have mcv : ∀ {c' lb}, Cv.Step lb s.mcv c' → (lb = .wait 0 ∨ ∃ j, lb = .notify j) →
        ({ s with mcv := c' } : State) ≠ s → pmeasure cfg N { s with mcv := c' } < pmeasure cfg N s := by
      intro c' lb hc hl hne
      have h1 := Sys.cv_dec (p := pcM s.mpc) (n := s.mnn) hc (fun e => hne (by rw [e])) hl ?_ hi.cvn
      · simp only [pmeasure]
        omega
      · intro h2
        cases h3 : s.mpc with
        | idle fin => rfl
        | _ => exact absurd (hi.cvw (by rw [h3]; simp)) h2
    -- only the program counter changes
    have pcs : ∀ {p}, (phi s.mcv.flag (pcM p) (s.mcv.ws 0) ≤ phi s.mcv.flag (pcM s.mpc) (s.mcv.ws 0)) →
        potF N p < potF N s.mpc → pmeasure cfg N { s with mpc := p } < pmeasure cfg N s := by
      intro p h1 h2
      simp only [pmeasure]
      omega
    cases h with
    | @empty _ fin h hc =>
      refine pcs (Nat.le_of_eq ?_) ?_
      · rw [h]; cases fin <;> rfl
      · rw [h]; cases fin <;> simp [potF]
    | @idle _ fin cv' h hc hw =>
      simp only [pmeasure]
      rw [h]
      generalize hcv : s.mcv = c at hw
      cases hw with
      | waitCall hw =>
        simp only [potF, pcM, upd_same]
        cases hf : c.flag <;> simp only [phi] <;> omega
    | wait hw => exact mcv hw (.inl rfl) hne
    | @back _ fin h hw =>
      simp only [pmeasure]
      rw [h, hw]
      simp only [potF, pcM]
      cases hf : s.mcv.flag <;> simp only [phi] <;> omega
    | @wakeMain _ cv' h hc =>
      simp only [pmeasure]
      generalize hcv : s.mcv = c at hc
      cases hc with
      | notifyCall hc =>
        have h2 : sumTo s.mnn (fun j => nu (upd c.ns s.mnn .cas j)) = sumTo s.mnn (fun j => nu (c.ns j)) := by
          apply sumTo_congr
          intro j hj
          rw [upd_ne _ _ (by omega)]
        simp only [sumTo, h2, upd_same, Sys.nu_cas]
        omega
    | notify hc => exact mcv hc (.inr ⟨_, rfl⟩) hne
    | @setStop _ k h hk =>
      simp only [pmeasure]
      rw [h]
      simp only [potF, pcM]
      omega
    | @wakeWorker _ k cv' h hc =>
      have hk := (hi.stopW k (.inl h)).1
      have h1 := Sys.smeasure_noise (cfg := { cfg with strict := true }) hk hc
      simp only [pmeasure]
      rw [h]
      simp only [potF, pcM]
      omega
    | @exit _ w hw h hs hg =>
      simp only [pmeasure]
      have := sumTo_upd (fun _ b => goneN b) s.gone true hw
      rw [hg] at this
      simp only [goneN, if_true, Bool.false_eq_true, if_false] at this ⊢
      omega
    | @joined _ k h hg =>
      have hk := (hi.stopW k (.inr h)).1
      refine pcs (Nat.le_of_eq ?_) ?_
      · rw [h]; rfl
      · rw [h]; simp only [potF]; omega
    | @clear _ k h hk =>
      refine pcs (Nat.le_of_eq ?_) ?_
      · rw [h]; rfl
      · rw [h]; simp only [potF]; omega
  · cases h with
    | @sys _ y' h hst hn =>
      dsimp only at hw
      have h1 := Sys.smeasure_decreases (.inl rfl) hi.yr.strict (hw.to_strict hi.yr)
      have h2 : y'.x.g.tasks 0 ≤ s.y.x.g.tasks 0 := by
        rcases h.tasks_le 0 with h2 | h2
        · exact h2
        · exact absurd hw.2.2.1 h2.1
      simp only [pmeasure]
      by_cases e : freedLast s.y y' = true
      · rw [if_pos e]
        simp only [freedLast, Bool.and_eq_true, decide_eq_true_eq] at e
        omega
      · rw [if_neg e]
        omega

/-- the tasks of the root space are the ones without parent -/
def Rooted (cfg : Cfg) : Prop := ∀ t, cfg.parentOf t = none → cfg.space t = 0

/-- when the root space is empty, all tasks have finished -/
theorem finished_of_empty (hro : Rooted cfg) (hr : Reach cfg N s) (h : s.y.x.g.tasks 0 = 0) :
    ∀ t, t < s.y.x.g.n → Finished cfg s.y.x.g t := by
  have hi := Inv.reach hr
  have h1 := Sys.C21_workers_barrier hi.yr (sp := 0) (by simp [RG.Graph.State.empty, h])
  intro t ht
  refine (RG.Graph.all_finished (cfg := { cfg with strict := true }) hi.yr.graph ?_ t ht).of_strict
  intro u hu hp
  have := RG.Graph.C21_barrier_waits_for_all_partial (cfg := { cfg with strict := true }) (.inl rfl) hi.yr.graph
    (sp := 0) (by simp [RG.Graph.State.empty, h]) u hu (hro u hp)
  exact this.1

/-- then no worker has anything to do -/
theorem idle_of_empty (hro : Rooted cfg) (hr : Reach cfg N s) (h : s.y.x.g.tasks 0 = 0) {w : Nat} (hw : w < N) :
    s.y.ready w = [] ∧ s.y.new w = [] ∧
    (s.y.pc w = .top ∨ s.y.pc w = .waiting ∨ s.y.pc w = .popReady ∨ s.y.pc w = .popNew ∨ s.y.pc w = .stealReady ∨
      s.y.pc w = .stealNew) := by
  have hi := Inv.reach hr
  have hy := Sys.Inv.reach hi.yr
  have hf := finished_of_empty hro hr h
  have hc := RG.Graph.Core.reach (cfg := { cfg with strict := true }) (.inl rfl) hi.yr.graph
  have hd := RG.Graph.Dom.reach hi.yr.graph
  have hend : ∀ t, t < s.y.x.g.n → s.y.x.g.ex t = .ended := fun t ht => by
    cases hf t ht with
    | mk h _ _ => exact h
  have hph : ∀ t, s.y.x.g.ph t = .inited ∨ s.y.x.g.ph t = .unsub := by
    intro t
    by_cases e : t < s.y.x.g.n
    · exact .inl (hc.exI t (by rw [hend t e]; simp)).1
    · exact .inr (hd.ph t (by omega))
  have hex : ∀ t, s.y.x.g.ex t ≠ .running := by
    intro t
    by_cases e : t < s.y.x.g.n
    · rw [hend t e]; simp
    · intro h1
      have := (hc.exI t (by rw [h1]; simp)).1
      rw [hd.ph t (by omega)] at this
      cases this
  have hres : ∀ t, s.y.res t = false := by
    intro t
    cases h1 : s.y.res t with
    | false => rfl
    | true => exact absurd (hy.resI t h1).1 (hex t)
  have hhand : ∀ t, s.y.x.g.handed t = 0 := by
    intro t
    have h1 := hc.handedEq t
    rw [if_neg] at h1
    · exact h1
    · intro h2
      have h3 := h2.2.1
      by_cases e : t < s.y.x.g.n
      · rw [hend t e] at h3; cases h3
      · have := h2.1
        rw [hd.ph t (by omega)] at this
        cases this
  have hst : ∀ t, Sys.stage (s.y.x.g.ph t) ≠ .queued ∧ Sys.stage (s.y.x.g.ph t) ≠ .initing := by
    intro t
    rcases hph t with h1 | h1 <;> rw [h1] <;> exact ⟨by simp [Sys.stage], by simp [Sys.stage]⟩
  have tok : ∀ t, (s.y.ready w).count t = 0 ∧ Sys.runW t (s.y.pc w) = 0 := by
    intro t
    have h1 := hy.cntTok t
    rw [hhand t, hres t] at h1
    have h2 := le_sumTo (f := fun w => (s.y.ready w).count t) hw
    have h3 := le_sumTo (f := fun w => Sys.runW t (s.y.pc w)) hw
    simp at h1
    omega
  have new0 : ∀ t, (s.y.new w).count t = 0 := by
    intro t
    have h1 := hy.cntNew t
    rw [if_neg (hst t).1] at h1
    have h2 := le_sumTo (f := fun w => (s.y.new w).count t) hw
    omega
  have init0 : ∀ t, Sys.initW t (s.y.pc w) = 0 := by
    intro t
    have h1 := hy.cntInit t
    rw [if_neg (hst t).2] at h1
    have h2 := le_sumTo (f := fun w => Sys.initW t (s.y.pc w)) hw
    omega
  have exec0 : ∀ t, Sys.execW t (s.y.pc w) = 0 := by
    intro t
    have h1 := hy.cntExec t
    rw [if_neg (fun h => hex t h.1)] at h1
    have h2 := le_sumTo (f := fun w => Sys.execW t (s.y.pc w)) hw
    omega
  refine ⟨?_, ?_, ?_⟩
  · cases h1 : s.y.ready w with
    | nil => rfl
    | cons t q => have := (tok t).1; rw [h1] at this; simp at this
  · cases h1 : s.y.new w with
    | nil => rfl
    | cons t q => have := new0 t; rw [h1] at this; simp at this
  · cases h1 : s.y.pc w with
    | initing t => have := init0 t; rw [h1] at this; simp at this
    | initingStolen t => have := init0 t; rw [h1] at this; simp at this
    | run t => have := (tok t).2; rw [h1] at this; simp at this
    | exec t => have := exec0 t; rw [h1] at this; simp at this
    | _ => simp

end RG.Prog
