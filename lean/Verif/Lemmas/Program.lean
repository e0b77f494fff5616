import Verif.Model.Program
import Verif.Props.System
/-
Invariants of whole programs.
-/
set_option linter.unusedVariables false
namespace RG.Graph

variable {cfg : Cfg} {s s' : State} {l : Lbl}

theorem Step.tasks_le (hs : Step cfg l s s') (sp : Nat) :
    s'.tasks sp ≤ s.tasks sp ∨ (s'.n ≠ s.n ∧ cfg.space s.n = sp) := by
  cases hs with
  | beginSubmit hp h1 =>
    dsimp only
    by_cases e : sp = cfg.space s.n
    · exact .inr ⟨by omega, e.symm⟩
    · rw [upd_ne _ _ e]; exact .inl (Nat.le_refl _)
  | @freeCount _ t h =>
    left
    dsimp only
    by_cases e : sp = cfg.space t
    · subst e; rw [upd_same]; omega
    · rw [upd_ne _ _ e]; exact Nat.le_refl _
  | _ => exact .inl (Nat.le_refl _)

/-- the future has been read or dropped -/
def FutGone (s : State) (t : Nat) : Prop := s.fut t = .taken ∨ s.fut t = .done

theorem Step.futGone (ht : NestingOk cfg) (hr : Reach cfg s) (hs : Step cfg l s s') {t : Nat} (h : FutGone s t) :
    FutGone s' t := by
  have h1 := (Life.reach ht hr).futEq t
  unfold FutGone at *
  cases hs with
  | @emplace _ u i h2 h3 =>
    dsimp only
    by_cases e : t = u
    · subst e
      have := h1.2 (.inr ⟨_, h2⟩)
      rw [this] at h
      simp at h
    · rw [upd_ne _ _ e]; exact h
  | @takeFuture _ u h2 =>
    dsimp only
    by_cases e : t = u
    · subst e; simp
    · rw [upd_ne _ _ e]; exact h
  | @countGet _ u h2 =>
    dsimp only [State.decCd]
    by_cases e : t = u
    · subst e; simp
    · rw [upd_ne _ _ e]; exact h
  | _ => exact h

theorem WStep.tasks_le {x x' : WState} (h : WStep cfg x x') (sp : Nat) :
    x'.g.tasks sp ≤ x.g.tasks sp ∨ (x'.g.n ≠ x.g.n ∧ cfg.space x.g.n = sp) := by
  cases h with
  | submitOut h _ _ _ => exact h.tasks_le sp
  | submitIn h _ _ _ _ => exact h.tasks_le sp
  | other h _ _ _ => exact h.tasks_le sp
  | _ => exact .inl (Nat.le_refl _)

theorem WStep.futGone {x x' : WState} (ht : NestingOk cfg) (hr : Reach cfg x.g) (h : WStep cfg x x') {t : Nat}
    (hf : FutGone x.g t) : FutGone x'.g t := by
  cases h with
  | submitOut h _ _ _ => exact h.futGone ht hr hf
  | submitIn h _ _ _ _ => exact h.futGone ht hr hf
  | other h _ _ _ => exact h.futGone ht hr hf
  | _ => exact hf

theorem tasks_le_n (ht : NestingOk cfg) (hr : Reach cfg s) (sp : Nat) : s.tasks sp ≤ s.n := by
  rw [(Life.reach ht hr).tasksEq sp]
  generalize s.n = n
  induction n with
  | zero => exact Nat.le_refl _
  | succ n ih =>
    simp only [sumTo, wtask] at *
    split <;> omega

/-- all tasks have finished if the ones of the root space have -/
theorem all_finished (hr : Reach cfg s) (h : ∀ t, t < s.n → cfg.parentOf t = none → Finished cfg s t) :
    ∀ t, t < s.n → Finished cfg s t := by
  have hu := Up.reach hr
  intro t
  induction t using Nat.strongRecOn with
  | _ t ih =>
    intro ht
    cases hp : cfg.parentOf t with
    | none => exact h t ht hp
    | some q =>
      have hq := hu t q ht hp
      cases ih q hq (by omega) with
      | mk _ _ hc => exact hc t ht hp

end RG.Graph

namespace RG.Sys

open RG.Graph (Cfg WState WStep Ph Ex NestingOk Finished FutGone)

variable {cfg : Cfg} {N : Nat} {s s' : State}

theorem Step.x_step (h : Step cfg N s s') : s'.x = s.x ∨ WStep cfg s.x s'.x := by
  cases h <;> first | exact .inl rfl | exact .inr (by assumption)

theorem Step.tasks_le (h : Step cfg N s s') (sp : Nat) :
    s'.x.g.tasks sp ≤ s.x.g.tasks sp ∨ (s'.x.g.n ≠ s.x.g.n ∧ cfg.space s.x.g.n = sp) := by
  rcases h.x_step with h | h
  · rw [h]; exact .inl (Nat.le_refl _)
  · exact h.tasks_le sp

theorem Step.futGone (hr : Reach cfg N s) (h : Step cfg N s s') {t : Nat} (hf : FutGone s.x.g t) :
    FutGone s'.x.g t := by
  have h' := h.to_strict fun c hc => ((RG.Graph.Core.reach (.inl rfl) (Inv.reach hr.strict).wr.graph).exI c hc).1
  rcases h'.x_step with h | h
  · rw [h]; exact hf
  · exact h.futGone (.inl rfl) hr.graph hf

/-- a worker that has been told to stop, and has been woken, is going to see it -/
def looksStop : Pc → Cv.WPc → Bool
  | .top, _ => false
  | .waiting, .out => true
  | .waiting, _ => false
  | _, _ => true

theorem looksStop_of {p : Pc} (h : p ≠ .top) : looksStop p .out = true := by
  cases p <;> first | rfl | exact absurd rfl h

theorem Inv.step_sigS (hi : Inv cfg N s) (hs : Step cfg N s s') (v : Nat)
    (hv : s.pc v = .top → s'.pc v = .top)
    (h : s.pc v = .top ∨ Sig s v ∨ looksStop (s.pc v) ((s.cv v).ws 0) = true) :
    s'.pc v = .top ∨ Sig s' v ∨ looksStop (s'.pc v) ((s'.cv v).ws 0) = true := by
  by_cases e : s'.pc v = .top
  · exact .inl e
  · right
    have e' : s.pc v ≠ .top := fun h => e (hv h)
    refine hi.sig_step hs looksStop rfl ?_ ?_ (fun _ => rfl) v (h.resolve_left e') ?_
    · intro q hq; cases q <;> first | rfl | exact absurd rfl hq
    · intro p q q' hp; cases p <;> first | rfl | exact absurd rfl hp
    · intro p hp _ _ _
      exact looksStop_of (by rw [← hp]; exact e)

end RG.Sys

namespace RG.Prog

open RG.Graph (Cfg NestingOk Finished FutGone)
open RG.Sys (CvSig Sig looksStop)

variable {cfg : Cfg} {N : Nat} {s s' : State} {l : Lbl}

structure Inv (cfg : Cfg) (N : Nat) (s : State) : Prop where
  yr : Sys.Reach cfg N s.y
  cvr : Cv.Reach 1 s.mcv
  cvn : ∀ j, s.mnn ≤ j → s.mcv.ns j = .out
  cvw : (∀ fin, s.mpc ≠ .idle fin) → s.mcv.ws 0 = .out
  sigM : ∀ fin, s.mpc = .idle fin → s.y.x.g.tasks 0 = 0 → 0 < s.mwk ∨ CvSig s.mcv ∨ s.mcv.ws 0 = .out
  noStop : s.mpc.closing = false → ∀ w, s.stop w = false
  stopW : ∀ k, s.mpc = .wake k ∨ s.mpc = .join k → k < N ∧ s.stop k = true
  goneI : ∀ w, s.gone w = true → s.stop w = true ∧ s.y.pc w = .top
  sigS : ∀ k, s.mpc = .join k →
    s.y.pc k = .top ∨ Sig s.y k ∨ looksStop (s.y.pc k) ((s.y.cv k).ws 0) = true
  joinedI : ∀ k, s.mpc = .stop k ∨ s.mpc = .wake k ∨ s.mpc = .join k → k ≤ N ∧ ∀ w, w < k → s.gone w = true
  clearedI : s.mpc = .cleared → ∀ w, w < N → s.gone w = true
  closed : s.mpc.closing = true → s.y.x.g.n < 2 ^ 32 → s.y.x.g.tasks 0 = 0

theorem isZero_iff {c : Nat} (h : c < 2 ^ 32) : Barrier.isZero c = true ↔ c = 0 := by
  unfold Barrier.isZero
  rw [Nat.mod_eq_of_lt h]
  simp

theorem Inv.init : Inv cfg N init := by
  constructor <;> try (intros; simp_all [Prog.init, MPc.closing, Cv.init]; done)
  · exact .init
  · exact .init

/-- how a step of the condition variable of the main thread changes the signal -/
theorem sigM_cv {c c' : Cv.State} {l : Cv.Lbl} (h : Cv.Step l c c') (h1 : ∀ i, l = .wait i → i = 0)
    (h2 : ∀ i, l ≠ .waitCall i) (h3 : CvSig c ∨ c.ws 0 = .out) : CvSig c' ∨ c'.ws 0 = .out := by
  rcases h3 with h3 | h3
  · rcases Sys.cv_sig h h1 h3 with h4 | h4
    · exact .inl h4
    · exact .inr h4.2.1
  · exact .inr (Sys.cv_out h h2 h3)

theorem Inv.step (hi : Inv cfg N s) (hs : Step cfg N l s s') : Inv cfg N s' := by
  have hyr := hi.yr
  have hyi := Sys.Inv.reach hyr
  -- a step of the condition variable of the main thread
  have mcv : ∀ {c' lb}, Cv.Step lb s.mcv c' → lb = .wait 0 ∨ (∃ j, lb = .notify j) ∨ lb = .spurious 0 →
      Inv cfg N { s with mcv := c' } := by
    intro c' lb hc hl
    have h2 : ∀ i, lb ≠ .waitCall i := by rintro i rfl; rcases hl with h | ⟨j, h⟩ | h <;> cases h
    have h1 : ∀ i, lb = .wait i → i = 0 := by rintro i rfl; rcases hl with h | ⟨j, h⟩ | h <;> cases h; rfl
    refine { hi with cvr := .step hi.cvr hc ?_, cvn := ?_, cvw := ?_, sigM := ?_ }
    · rintro i hli
      rcases hl with rfl | ⟨j, rfl⟩ | rfl <;> simp [Cv.Lbl.waiter?] at hli <;> omega
    · exact fun j hj => Sys.cv_ns hc j (fun i e => by subst e; rcases hl with h | ⟨j, h⟩ | h <;> cases h) (hi.cvn j hj)
    · exact fun h => Sys.cv_out hc h2 (hi.cvw h)
    · intro fin h h0
      rcases hi.sigM fin h h0 with h3 | h3
      · exact .inl h3
      · exact .inr (sigM_cv hc h1 h2 h3)
  have mcvCall : ∀ {c' k}, Cv.Step (.notifyCall s.mnn) s.mcv c' →
      Inv cfg N { s with mnn := s.mnn + 1, mcv := c', mwk := k } := by
    intro c' k hc
    refine { hi with cvr := .step hi.cvr hc (by simp [Cv.Lbl.waiter?]), cvn := ?_, cvw := ?_, sigM := ?_ }
    · exact fun j hj => Sys.cv_ns hc j (fun i e => by cases e; dsimp only at hj; omega)
        (hi.cvn j (by dsimp only at hj; omega))
    · exact fun h => Sys.cv_out hc (by simp) (hi.cvw h)
    · intro fin h h0
      right; left; left
      generalize s.mcv = c at hc
      cases hc with
      | notifyCall => exact ⟨s.mnn, by simp⟩
  cases hs with
  | @sys _ y' h hst hn =>
    have hcl : s.mpc.closing = true → y'.x.g.tasks 0 ≤ s.y.x.g.tasks 0 := by
      intro h1
      rcases h.tasks_le 0 with h2 | h2
      · exact h2
      · rw [hn h2.1 h2.2] at h1; cases h1
    refine { yr := .step hyr h, cvr := hi.cvr, cvn := hi.cvn, cvw := hi.cvw, sigM := ?_, noStop := hi.noStop,
             stopW := hi.stopW, goneI := ?_, sigS := ?_, joinedI := hi.joinedI, clearedI := hi.clearedI, closed := ?_ }
    · intro fin h1 h2
      dsimp only at h1 h2 ⊢
      by_cases e : s.y.x.g.tasks 0 = 0
      · rcases hi.sigM fin h1 e with h3 | h3
        · left; omega
        · exact .inr h3
      · left
        have : freedLast s.y y' = true := by
          simp only [freedLast, h2, Barrier.isZero]
          simp
          omega
        rw [if_pos this]
        omega
    · intro w hw
      obtain ⟨h1, h2⟩ := hi.goneI w hw
      exact ⟨h1, hst w h1 h2⟩
    · intro k hk
      have h1 := hi.stopW k (.inr hk)
      exact hyi.step_sigS h k (hst k h1.2) (hi.sigS k hk)
    · intro h1 h2
      dsimp only at h1 h2 ⊢
      have h3 := hcl h1
      have h4 := hi.closed h1 (Nat.lt_of_le_of_lt h.n_le h2)
      omega
  | @call _ fin h =>
    have h0 := hi.noStop (by rw [h]; rfl)
    refine { hi with cvw := ?_, sigM := ?_, noStop := ?_, stopW := ?_, sigS := ?_, joinedI := ?_, clearedI := ?_, closed := ?_ } <;>
      dsimp only
    · intro _; exact hi.cvw (by rw [h]; simp)
    · intro _ h1; cases h1
    · exact fun _ => h0
    · rintro k (h1 | h1) <;> cases h1
    · rintro k h1; cases h1
    · rintro k (h1 | h1 | h1) <;> cases h1
    · intro h1; cases h1
    · intro h1; cases h1
  | @empty _ fin h hc =>
    have h0 := hi.noStop (by rw [h]; rfl)
    have hw := hi.cvw (by rw [h]; simp)
    cases fin with
    | false =>
      refine { hi with cvw := ?_, sigM := ?_, noStop := ?_, stopW := ?_, sigS := ?_, joinedI := ?_, clearedI := ?_, closed := ?_ } <;>
        dsimp only
      · exact fun _ => hw
      · intro _ h1; cases h1
      · exact fun _ => h0
      · rintro k (h1 | h1) <;> cases h1
      · rintro k h1; cases h1
      · rintro k (h1 | h1 | h1) <;> cases h1
      · intro h1; cases h1
      · intro h1; cases h1
    | true =>
      refine { hi with cvw := ?_, sigM := ?_, noStop := ?_, stopW := ?_, sigS := ?_, joinedI := ?_, clearedI := ?_, closed := ?_ } <;>
        dsimp only
      · exact fun _ => hw
      · intro _ h1; cases h1
      · exact fun _ => h0
      · rintro k (h1 | h1) <;> cases h1
      · rintro k h1; cases h1
      · rintro k (h1 | h1 | h1) <;> cases h1
        exact ⟨by omega, fun w hw => by omega⟩
      · intro h1; cases h1
      · intro _ h2
        refine (isZero_iff ?_).1 hc
        exact Nat.lt_of_le_of_lt (RG.Graph.tasks_le_n (.inl rfl) hyr.graph 0) h2
  | @idle _ fin cv' h hc hw =>
    have h0 := hi.noStop (by rw [h]; rfl)
    refine { hi with cvr := .step hi.cvr hw (by simp [Cv.Lbl.waiter?]), cvn := ?_, cvw := ?_, sigM := ?_, noStop := ?_, stopW := ?_, sigS := ?_, joinedI := ?_, clearedI := ?_, closed := ?_ } <;>
      dsimp only
    · exact fun j hj => Sys.cv_ns hw j (fun i e => by cases e) (hi.cvn j hj)
    · intro h1; exact absurd rfl (h1 fin)
    · intro _ _ h2
      rw [h2] at hc
      cases hc
    · exact fun _ => h0
    · rintro k (h1 | h1) <;> cases h1
    · rintro k h1; cases h1
    · rintro k (h1 | h1 | h1) <;> cases h1
    · intro h1; cases h1
    · intro h1; cases h1
  | wait hw => exact mcv hw (.inl rfl)
  | @back _ fin h hw =>
    have h0 := hi.noStop (by rw [h]; rfl)
    refine { hi with cvw := ?_, sigM := ?_, noStop := ?_, stopW := ?_, sigS := ?_, joinedI := ?_, clearedI := ?_, closed := ?_ } <;>
      dsimp only
    · exact fun _ => hw
    · intro _ h1; cases h1
    · exact fun _ => h0
    · rintro k (h1 | h1) <;> cases h1
    · rintro k h1; cases h1
    · rintro k (h1 | h1 | h1) <;> cases h1
    · intro h1; cases h1
    · intro h1; cases h1
  | wakeMain h hc => exact mcvCall hc
  | notify hc => exact mcv hc (.inr (.inl ⟨_, rfl⟩))
  | spurious hc => exact mcv hc (.inr (.inr rfl))
  | noise hc => exact mcvCall hc
  | @setStop _ k h hk =>
    have hj := hi.joinedI k (.inl h)
    have hw := hi.cvw (by rw [h]; simp)
    have hcl := hi.closed (by rw [h]; rfl)
    refine { hi with cvw := ?_, sigM := ?_, noStop := ?_, stopW := ?_, goneI := ?_, sigS := ?_, joinedI := ?_, clearedI := ?_, closed := ?_ } <;>
      dsimp only
    · exact fun _ => hw
    · intro _ h1; cases h1
    · intro h1; cases h1
    · rintro k' (h1 | h1) <;> cases h1
      exact ⟨hk, upd_same _ _ _⟩
    · intro w h1
      have := hi.goneI w h1
      refine ⟨?_, this.2⟩
      by_cases e : w = k
      · subst e; exact upd_same _ _ _
      · rw [upd_ne _ _ e]; exact this.1
    · rintro k h1; cases h1
    · rintro k' (h1 | h1 | h1) <;> cases h1
      exact hj
    · intro h1; cases h1
    · exact fun _ => hcl
  | @wakeWorker _ k cv' h hc =>
    have hj := hi.joinedI k (.inr (.inl h))
    have hs := hi.stopW k (.inl h)
    have hw := hi.cvw (by rw [h]; simp)
    have hcl := hi.closed (by rw [h]; rfl)
    refine { hi with yr := .step hyr (.noise hs.1 hc), cvw := ?_, sigM := ?_, noStop := ?_, stopW := ?_, sigS := ?_, joinedI := ?_, clearedI := ?_, closed := ?_ } <;>
      dsimp only
    · exact fun _ => hw
    · intro _ h1; cases h1
    · intro h1; cases h1
    · rintro k' (h1 | h1) <;> cases h1
      exact hs
    · rintro k' h1
      cases h1
      right; left; right; left
      dsimp only
      rw [upd_same]
      generalize s.y.cv k = c at hc
      cases hc with
      | notifyCall => exact ⟨s.y.nn k, by simp⟩
    · rintro k' (h1 | h1 | h1) <;> cases h1
      exact hj
    · intro h1; cases h1
    · exact fun _ => hcl
  | @exit _ w hw h hs hg =>
    have mono : ∀ v, s.gone v = true → upd s.gone w true v = true := by
      intro v hv
      by_cases e : v = w
      · subst e; exact upd_same _ _ _
      · rw [upd_ne _ _ e]; exact hv
    refine { hi with goneI := ?_, joinedI := ?_, clearedI := ?_ } <;> dsimp only
    · intro v hv
      by_cases e : v = w
      · subst e; exact ⟨hs, h⟩
      · rw [upd_ne _ _ e] at hv; exact hi.goneI v hv
    · intro k hk
      exact ⟨(hi.joinedI k hk).1, fun v hv => mono v ((hi.joinedI k hk).2 v hv)⟩
    · exact fun h v hv => mono v (hi.clearedI h v hv)
  | @joined _ k h hg =>
    have hj := hi.joinedI k (.inr (.inr h))
    have hs := hi.stopW k (.inr h)
    have hw := hi.cvw (by rw [h]; simp)
    have hcl := hi.closed (by rw [h]; rfl)
    refine { hi with cvw := ?_, sigM := ?_, noStop := ?_, stopW := ?_, sigS := ?_, joinedI := ?_, clearedI := ?_, closed := ?_ } <;>
      dsimp only
    · exact fun _ => hw
    · intro _ h1; cases h1
    · intro h1; cases h1
    · rintro k (h1 | h1) <;> cases h1
    · rintro k h1; cases h1
    · rintro k' (h1 | h1 | h1) <;> cases h1
      refine ⟨hs.1, fun w hw => ?_⟩
      by_cases e : w = k
      · subst e; exact hg
      · exact hj.2 w (by omega)
    · intro h1; cases h1
    · exact fun _ => hcl
  | @clear _ k h hk =>
    subst hk
    have hj := hi.joinedI k (.inl h)
    have hw := hi.cvw (by rw [h]; simp)
    have hcl := hi.closed (by rw [h]; rfl)
    refine { hi with cvw := ?_, sigM := ?_, noStop := ?_, stopW := ?_, sigS := ?_, joinedI := ?_, clearedI := ?_, closed := ?_ } <;>
      dsimp only
    · exact fun _ => hw
    · intro _ h1; cases h1
    · intro h1; cases h1
    · rintro k (h1 | h1) <;> cases h1
    · rintro k h1; cases h1
    · rintro k' (h1 | h1 | h1) <;> cases h1
    · exact fun _ => hj.2
    · exact fun _ => hcl

theorem Inv.reach (hr : Reach cfg N s) : Inv cfg N s := by
  induction hr with
  | init => exact Inv.init
  | step _ hs ih => exact ih.step hs

/-- `n` does not decrease -/
theorem Step.n_le (h : Step cfg N l s s') : s.y.x.g.n ≤ s'.y.x.g.n := by
  cases h <;> first | exact Nat.le_refl _ | exact Sys.Step.n_le (by assumption)

theorem Steps.trans {s1 s2 s3 : State} (h1 : Steps cfg N s1 s2) (h2 : Steps cfg N s2 s3) : Steps cfg N s1 s3 := by
  induction h2 with
  | refl => exact h1
  | step _ hs ih => exact .step ih hs

theorem Steps.reach (h : Steps cfg N s s') (hr : Reach cfg N s) : Reach cfg N s' := by
  induction h with
  | refl => exact hr
  | step _ hs ih => exact .step ih hs

end RG.Prog
