import Verif.Model.Full
import Verif.Props.Program
/-
Whole programs with the individual steps of pausing: invariants, progress.
-/
set_option linter.unusedVariables false
namespace RG.Sys

open RG.Graph (Cfg WState WStep)

variable {cfg : Cfg} {N : Nat} {s s' : State}

/-- a body that has ended has ended for ever -/
theorem Step.ended (h : Step cfg N s s') {u : Nat} (hu : s.x.g.ex u = .ended) : s'.x.g.ex u = .ended := by
  have same : ∀ {x' : WState}, x'.g.ex = s.x.g.ex → x'.g.ex u = .ended := by
    intro x' he; rw [he]; exact hu
  cases h with
  | graph h hp hh he hw hn hx => exact same he
  | emplace hw h hp hq hq' hh he hww => exact same he
  | ready h hp hh he hw => exact same he
  | unpause h hg h0 hw => exact same (by rw [hg])
  | popNew hw h hq hs hp hi hh he hww => exact same he
  | initStep hw h hs hp hi hc hh he hww => exact same he
  | initReady hw h hs hp hi hh he hww => exact same he
  | initBlocked hw h hs hp hi hh he hww => exact same he
  | stolenBlocked hw h hs hp hi hh he hww => exact same he
  | stealNew hw hv h hq hs hp hi hh he hww => exact same he
  | @start x' w t hw h hs hp hh h0 he hww =>
    dsimp only
    rw [he]
    by_cases e : u = t
    · subst e; rw [h0] at hu; cases hu
    · rw [upd_ne _ _ e]; exact hu
  | pause hw h hs hg h0 hu' hww => exact same (by rw [hg])
  | @bodyEnd x' w t hw h hs hp hh h0 he hk hww =>
    dsimp only
    rw [he]
    by_cases e : u = t
    · subst e; rw [upd_same]
    · rw [upd_ne _ _ e]; exact hu
  | _ => exact hu

/-- which steps begin or end the waiting of a body -/
theorem Step.waits (h : Step cfg N s s') :
    s'.x.w = s.x.w ∨
    (∃ w t u, w < N ∧ s.pc w = .exec t ∧ WStep cfg s.x s'.x ∧ s'.x.g = s.x.g ∧ s.x.w t = none ∧ s.x.g.ex u ≠ .ended ∧
      s'.x.w = upd s.x.w t (some u) ∧ s' = { s with x := s'.x, pc := upd s.pc w .popReady }) ∨
    ∃ t, WStep cfg s.x s'.x ∧ s'.x.g = s.x.g ∧ s.x.w t ≠ none ∧ s'.x.w = upd s.x.w t none := by
  cases h with
  | graph h hp hh he hw hn hx => exact .inl hw
  | emplace hw h hp hq hq' hh he hww => exact .inl hww
  | ready h hp hh he hw => exact .inl hw
  | unpause h hg h0 hw => exact .inr (.inr ⟨_, h, hg, h0, hw⟩)
  | popNew hw h hq hs hp hi hh he hww => exact .inl hww
  | initStep hw h hs hp hi hc hh he hww => exact .inl hww
  | initReady hw h hs hp hi hh he hww => exact .inl hww
  | initBlocked hw h hs hp hi hh he hww => exact .inl hww
  | stolenBlocked hw h hs hp hi hh he hww => exact .inl hww
  | stealNew hw hv h hq hs hp hi hh he hww => exact .inl hww
  | start hw h hs hp hh h0 he hww => exact .inl hww
  | pause hw h hs hg h0 hu hww => exact .inr (.inl ⟨_, _, _, hw, h, hs, hg, h0, hu, hww, rfl⟩)
  | bodyEnd hw h hs hp hh h0 he hk hww => exact .inl hww
  | _ => exact .inl rfl

/-- what a body that ceases to wait has waited for -/
theorem WStep_wake {x x' : WState} {t : Nat} (h : WStep cfg x x') (h0 : x.w t ≠ none) (hw : x'.w = upd x.w t none) :
    ∃ u, x.w t = some u ∧ x.g.ex u = .ended := by
  have bad : x'.w = x.w → False := by
    intro e
    apply h0
    rw [← e, hw, upd_same]
  cases h with
  | submitOut h hn hp hk => exact (bad rfl).elim
  | submitIn h hn hp hw hk => exact (bad rfl).elim
  | other h hn he hx => exact (bad rfl).elim
  | @wait t' u h hw' hu hc =>
    exfalso
    have := congrFun hw t'
    dsimp only at this
    rw [upd_same] at this
    by_cases e : t' = t
    · subst e; exact h0 hw'
    · rw [upd_ne _ _ e, hw'] at this; cases this
  | @wake t' u ks hw' hu hk =>
    have := congrFun hw t
    dsimp only at this
    rw [upd_same] at this
    by_cases e : t = t'
    · subst e; exact ⟨u, hw', hu⟩
    · rw [upd_ne _ _ e] at this; exact absurd this h0
  | readOut hne hu he hk => exact (bad rfl).elim

theorem WStep_out {x x' : WState} (h : WStep cfg x x') (hg : x'.g = x.g) (hw : x'.w ≠ x.w) : x'.out = x.out := by
  cases h with
  | submitOut h hn hp hk => dsimp only at hg; rw [hg] at hn; omega
  | submitIn h hn hp hw' hk => rfl
  | other h hn he hx => rfl
  | wait h hw' hu hc => rfl
  | wake hw' hu hk => rfl
  | readOut hne hu he hk => exact absurd rfl hw

end RG.Sys

namespace RG.Prog

open RG.Graph (Cfg WState WStep)

variable {cfg : Cfg} {N : Nat} {s s' : State} {l : Lbl}

theorem Step.ended (h : Step cfg N l s s') {u : Nat} (hu : s.y.x.g.ex u = .ended) : s'.y.x.g.ex u = .ended := by
  cases h with
  | sys h hst hn => exact h.ended hu
  | _ => exact hu

theorem freedLast_same {y y' : Sys.State} (h : y'.x.g = y.x.g) : freedLast y y' = false := by
  simp [freedLast, h]

/-- a step of the runtime that does not change the task graph -/
theorem Step.sys_same {y' : Sys.State} (h : Sys.Step cfg N s.y y') (hg : y'.x.g = s.y.x.g)
    (hst : ∀ w, s.stop w = true → s.y.pc w = .top → y'.pc w = .top) : Step cfg N .sys s { s with y := y' } := by
  have := Step.sys h hst (fun h => absurd (by rw [hg]) h)
  rw [freedLast_same hg] at this
  exact this

theorem pause_step {x' : WState} {w t u : Nat} (hw : w < N) (h : s.y.pc w = .exec t) (hs : WStep cfg s.y.x x')
    (hg : x'.g = s.y.x.g) (h0 : s.y.x.w t = none) (hu : s.y.x.g.ex u ≠ .ended)
    (hww : x'.w = upd s.y.x.w t (some u)) :
    Step cfg N .sys s { s with y := { s.y with x := x', pc := upd s.y.pc w .popReady } } := by
  refine Step.sys_same (.pause hw h hs hg h0 hu hww) hg fun v _ h1 => ?_
  dsimp only
  by_cases e : v = w
  · subst e; rw [h] at h1; cases h1
  · rw [upd_ne _ _ e]; exact h1

theorem unpause_step {x' : WState} {t : Nat} (hs : WStep cfg s.y.x x') (hg : x'.g = s.y.x.g) (h0 : s.y.x.w t ≠ none)
    (hww : x'.w = upd s.y.x.w t none) :
    Step cfg N .sys s { s with y := { s.y with x := x', act := t :: s.y.act, res := upd s.y.res t true } } :=
  Step.sys_same (.unpause hs hg h0 hww) hg fun _ _ h => h

end RG.Prog

namespace RG.Full

open RG.Graph (Cfg WState WStep)
open RG.Prog (Lbl)

variable {cfg : Cfg} {N : Nat} {a : Bool} {s s' : State} {l : Option Lbl}

theorem Hand.reach {p p' : Prog.State} {t : Nat} {b : Bool} (h : Hand cfg p t p' b) (hr : Prog.Reach cfg N p) :
    Prog.Reach cfg N p' := by
  cases h with
  | ok h hg h0 hu hw => exact .step hr (Prog.unpause_step h hg (by rw [h0]; simp) hw)
  | bad h => exact hr

theorem Hand.ex {p p' : Prog.State} {t : Nat} {b : Bool} (h : Hand cfg p t p' b) : p'.y.x.g = p.y.x.g ∧ p'.y.pc = p.y.pc := by
  cases h with
  | ok h hg h0 hu hw => exact ⟨hg, rfl⟩
  | bad h => exact ⟨rfl, rfl⟩

theorem Notify.reach {t : Nat} (h : Notify cfg s t s') (hr : Prog.Reach cfg N s.p) :
    Prog.Reach cfg N s'.p ∧ s'.p.y.x.g = s.p.y.x.g ∧ s'.p.y.pc = s.p.y.pc ∧ s'.rn = s.rn ∧ s'.rfol = s.rfol ∧
      s'.pz = s.pz ∧ s'.ys = s.ys := by
  cases h with
  | ready h hh => exact ⟨hh.reach hr, hh.ex.1, hh.ex.2, rfl, rfl, rfl, rfl⟩
  | not h => exact ⟨hr, rfl, rfl, rfl, rfl, rfl, rfl⟩

/-- the invariants that hold in all interleavings -/
structure Base (cfg : Cfg) (N : Nat) (s : State) : Prop where
  pr : Prog.Reach cfg N s.p
  pzI : ∀ w z, s.pz w = some z → w < N ∧ s.p.y.pc w = .popReady
  rnI : ∀ u, s.rn u = .idle ↔ s.p.y.x.g.ex u ≠ .ended

theorem fired_idle {p p' : Prog.State} {rn : Nat → RPc} (hm : ∀ u, p.y.x.g.ex u = .ended → p'.y.x.g.ex u = .ended)
    (h : ∀ u, rn u = .idle ↔ p.y.x.g.ex u ≠ .ended) (u : Nat) : fired p p' rn u = .idle ↔ p'.y.x.g.ex u ≠ .ended := by
  unfold fired
  split
  · rename_i h1; simp [h1.2]
  · rename_i h1
    rw [h u]
    constructor
    · intro h2 h3; exact h1 ⟨h2, h3⟩
    · intro h2 h3; exact h2 (hm u h3)

theorem Base.step (hi : Base cfg N s) (hs : Step cfg N a l s s') : Base cfg N s' := by
  -- a step of the protocol of worker `w`
  have proto : ∀ {w z z' pp rf}, s.pz w = some z → Base cfg N { s with pz := upd s.pz w (some z'), ppre := pp, rfol := rf } := by
    intro w z z' pp rf h
    refine ⟨hi.pr, fun v y h1 => ?_, hi.rnI⟩
    dsimp only at h1 ⊢
    by_cases e : v = w
    · subst e; exact hi.pzI v z h
    · rw [upd_ne _ _ e] at h1; exact hi.pzI v y h1
  cases hs with
  | @prog _ l p' hb h hw hz ha =>
    refine ⟨.step hi.pr h, fun w z h1 => ?_, fired_idle (fun u => h.ended) hi.rnI⟩
    dsimp only at h1 ⊢
    rw [hz w z h1]
    exact hi.pzI w z h1
  | @yield _ x' w t u hb hw h hs hg h0 hu hww =>
    refine ⟨.step hi.pr (Prog.pause_step hw h hs hg h0 hu hww), fun v z h1 => ?_, fun u => ?_⟩
    · dsimp only at h1 ⊢
      by_cases e : v = w
      · subst e; exact ⟨hw, upd_same _ _ _⟩
      · rw [upd_ne _ _ e] at h1 ⊢; exact hi.pzI v z h1
    · dsimp only; rw [hg]; exact hi.rnI u
  | set hb h => exact proto h
  | checkReached hb h hr => exact proto h
  | checkNot hb h hr => exact proto h
  | push hb h => exact proto h
  | incr hb h => exact proto h
  | up hb h => exact proto h
  | @notify _ s1 w t u hb h hn =>
    obtain ⟨h1, h2, h3, h4, h5, h6, h7⟩ := hn.reach hi.pr
    refine ⟨h1, fun v z h8 => ?_, fun u => ?_⟩
    · dsimp only at h8 ⊢
      rw [h3]
      by_cases e : v = w
      · subst e; rw [upd_same] at h8; cases h8
      · rw [upd_ne _ _ e] at h8; exact hi.pzI v z h8
    · dsimp only; rw [h2, h4]; exact hi.rnI u
  | @begin _ u hb h =>
    refine ⟨hi.pr, hi.pzI, fun v => ?_⟩
    dsimp only
    by_cases e : v = u
    · subst e
      rw [upd_same]
      have := hi.rnI v
      rw [h] at this
      simp only [reduceCtorEq, false_iff] at this ⊢
      exact this
    · rw [upd_ne _ _ e]; exact hi.rnI v
  | @visit _ s1 u t rem hb h hn =>
    obtain ⟨h1, h2, h3, h4, h5, h6, h7⟩ := hn.reach hi.pr
    refine ⟨h1, fun v z h8 => ?_, fun v => ?_⟩
    · dsimp only at h8 ⊢
      rw [h3]
      rw [h6] at h8
      exact hi.pzI v z h8
    · dsimp only; rw [h2]
      by_cases e : v = u
      · subst e
        rw [upd_same]
        have := hi.rnI v
        rw [h] at this
        simp only [reduceCtorEq, false_iff] at this ⊢
        exact this
      · rw [upd_ne _ _ e]; exact hi.rnI v

theorem Base.init : Base cfg N init :=
  ⟨.init, fun w z h => by simp [Full.init] at h, fun u => by
    simp [Full.init, Prog.init, Sys.init, WState.init, RG.Graph.init]⟩

theorem Base.reach (hr : Reach cfg N a s) : Base cfg N s := by
  induction hr with
  | init => exact Base.init
  | step _ hs ih => exact ih.step hs

/-- the followers of a result-set-event that have not been notified -/
def pend (s : State) (u : Nat) : List Nat :=
  match s.rn u with
  | .loop rem => rem
  | _ => s.rfol u

/-- what holds at each point of the protocol -/
def Phase (c pre : Nat) (ended : Prop) : PPc → Prop
  | .set => c = 0
  | .check => pre = 1 ∧ c = 0
  | .push => pre = 1 ∧ c = 0 ∧ ¬ ended
  | .incr => pre = 1 ∧ c = 1 ∧ ¬ ended
  | .up => (pre = 2 ∧ c = 1 ∧ ¬ ended) ∨ (pre = 1 ∧ c = 0 ∧ ended)
  | .notify => (pre = 3 ∧ c = 1 ∧ ¬ ended) ∨ (pre = 2 ∧ c = 0 ∧ ended)

/-- the invariants that hold if no result is set while a worker is between test and end -/
structure Inv (s : State) : Prop where
  pzw : ∀ w z, s.pz w = some z → s.p.y.x.w z.t = some z.u
  uniq : ∀ v w z z', s.pz v = some z → s.pz w = some z' → z.t = z'.t → v = w
  phase : ∀ w z, s.pz w = some z →
    Phase ((pend s z.u).count z.t) (s.ppre z.t) (s.p.y.x.g.ex z.u = .ended) z.pc
  left : ∀ t u, s.p.y.x.w t = some u → (∀ w z, s.pz w = some z → z.t ≠ t) →
    s.ppre t = 2 ∧ (pend s u).count t = 1
  pendI : ∀ t u, (pend s u).count t ≠ 0 → s.p.y.x.w t = some u
  ok : s.bad = false

theorem Inv.init : Inv init := by
  constructor <;> simp [Full.init, Prog.init, Sys.init, WState.init, pend]

theorem Phase.mono {c pre : Nat} {e e' : Prop} {pc : PPc} (h : Phase c pre e pc)
    (he : pc.between = true → (e ↔ e')) : Phase c pre e' pc := by
  cases pc <;> simp only [Phase, PPc.between] at * <;> first | exact h | (have := he trivial; simp_all)

/-- in a state of the protocol -/
theorem Inv.proto (hi : Inv s) {w : Nat} {z z' : Pz} {pp : Nat → Nat} {rf : Nat → List Nat} (h : s.pz w = some z)
    (ht : z'.t = z.t) (hu : z'.u = z.u) (hpp : ∀ t, t ≠ z.t → pp t = s.ppre t)
    (hrf : ∀ u t, t ≠ z.t → (pend { s with rfol := rf } u).count t = (pend s u).count t)
    (hrt : ∀ u, u ≠ z.u → (pend { s with rfol := rf } u).count z.t = (pend s u).count z.t)
    (hph : Phase ((pend { s with rfol := rf } z.u).count z.t) (pp z.t) (s.p.y.x.g.ex z.u = .ended) z'.pc) :
    Inv { s with pz := upd s.pz w (some z'), ppre := pp, rfol := rf } := by
  have pe : ∀ u, pend { s with pz := upd s.pz w (some z'), ppre := pp, rfol := rf } u = pend { s with rfol := rf } u :=
    fun u => rfl
  constructor
  · intro v y h1
    dsimp only at h1 ⊢
    by_cases e : v = w
    · subst e
      rw [upd_same] at h1
      cases h1
      rw [ht, hu]; exact hi.pzw v z h
    · rw [upd_ne _ _ e] at h1; exact hi.pzw v y h1
  · intro v1 v2 y1 y2 h1 h2 he
    dsimp only at h1 h2
    by_cases e1 : v1 = w <;> by_cases e2 : v2 = w
    · rw [e1, e2]
    · subst e1
      rw [upd_same] at h1; cases h1
      rw [upd_ne _ _ e2] at h2
      exact hi.uniq _ _ _ _ h h2 (ht.symm.trans he)
    · subst e2
      rw [upd_same] at h2; cases h2
      rw [upd_ne _ _ e1] at h1
      exact hi.uniq _ _ _ _ h1 h (he.trans ht)
    · rw [upd_ne _ _ e1] at h1
      rw [upd_ne _ _ e2] at h2
      exact hi.uniq _ _ _ _ h1 h2 he
  · intro v y h1
    rw [pe]
    dsimp only at h1 ⊢
    by_cases e : v = w
    · subst e
      rw [upd_same] at h1
      cases h1
      rw [ht, hu]; exact hph
    · rw [upd_ne _ _ e] at h1
      have hne : y.t ≠ z.t := fun h2 => e (hi.uniq _ _ _ _ h1 h h2)
      rw [hrf _ _ hne, hpp _ hne]
      exact hi.phase v y h1
  · intro t u h1 h2
    rw [pe]
    dsimp only at h1 h2 ⊢
    have hne : t ≠ z.t := by
      intro e
      exact h2 w z' (upd_same _ _ _) (by rw [ht, e])
    rw [hrf _ _ hne, hpp _ hne]
    refine hi.left t u h1 fun v y h3 => ?_
    by_cases e : v = w
    · subst e; rw [h] at h3; cases h3; exact fun h => hne h.symm
    · exact h2 v y (by rw [upd_ne _ _ e]; exact h3)
  · intro t u h1
    rw [pe] at h1
    dsimp only
    by_cases e : t = z.t
    · subst e
      by_cases e2 : u = z.u
      · subst e2; exact hi.pzw w z h
      · rw [hrt _ e2] at h1; exact hi.pendI _ _ h1
    · rw [hrf _ _ e] at h1; exact hi.pendI _ _ h1
  · exact hi.ok

/-- a notification that gives the task to a worker -/
theorem Inv.hand {t u : Nat} {p' : Prog.State} {b : Bool} {pz : Nat → Option Pz} {rn : Nat → RPc} (hi : Inv s)
    (hw : s.p.y.x.w t = some u) (hu : s.p.y.x.g.ex u = .ended) (hh : Hand cfg s.p t p' b)
    (hpz : ∀ w z, pz w = some z → s.pz w = some z ∧ z.t ≠ t)
    (hpz' : ∀ w z, s.pz w = some z → z.t ≠ t → pz w = some z)
    (hpd : ∀ v c, c ≠ t → (pend { s with rn := rn } v).count c = (pend s v).count c)
    (hpt : ∀ v, (pend { s with rn := rn } v).count t = 0) :
    Inv { s with p := p', ppre := upd s.ppre t 1, bad := s.bad || b, pz := pz, rn := rn } := by
  cases hh with
  | bad h => exact absurd hu (h u hw)
  | @ok x' u' h hg h0 hu' hww =>
    have pe : ∀ v, pend { s with p := { s.p with y := { s.p.y with x := x', act := t :: s.p.y.act, res := upd s.p.y.res t true } }, ppre := upd s.ppre t 1, bad := s.bad || false, pz := pz, rn := rn } v = pend { s with rn := rn } v :=
      fun v => rfl
    constructor
    · intro w z h1
      dsimp only at h1 ⊢
      obtain ⟨h2, h3⟩ := hpz w z h1
      rw [hww, upd_ne _ _ h3]
      exact hi.pzw w z h2
    · intro v w z z' h1 h2
      exact hi.uniq v w z z' (hpz v z h1).1 (hpz w z' h2).1
    · intro w z h1
      rw [pe]
      dsimp only at h1 ⊢
      obtain ⟨h2, h3⟩ := hpz w z h1
      rw [hpd _ _ h3, upd_ne _ _ h3, hg]
      exact hi.phase w z h2
    · intro c v h1 h2
      rw [pe]
      dsimp only at h1 h2 ⊢
      rw [hww] at h1
      have hne : c ≠ t := by
        rintro rfl
        rw [upd_same] at h1; cases h1
      rw [upd_ne _ _ hne] at h1 ⊢
      rw [hpd _ _ hne]
      refine hi.left c v h1 fun w z h3 => ?_
      intro h4
      exact h2 w z (hpz' w z h3 (by rw [h4]; exact hne)) h4
    · intro c v h1
      rw [pe] at h1
      dsimp only
      have hne : c ≠ t := by
        rintro rfl
        exact h1 (hpt v)
      rw [hww, upd_ne _ _ hne]
      rw [hpd _ _ hne] at h1
      exact hi.pendI c v h1
    · simp [hi.ok]

theorem Inv.step (hb : Base cfg N s) (hi : Inv s) (hs : Step cfg N true l s s') : Inv s' := by
  have same : ∀ {w z}, s.pz w = some z → ∀ u t, t ≠ z.t → (pend { s with rfol := s.rfol } u).count t = (pend s u).count t :=
    fun _ _ _ _ => rfl
  have upn : ∀ {t n} c, c ≠ t → upd s.ppre t n c = s.ppre c := fun c h => upd_ne _ _ h
  cases hs with
  | @prog _ l p' hbad h hw hz ha =>
    have hpre : ∀ t u, s.p.y.x.w t = some u → resumed s.p p' s.ppre t = s.ppre t := by
      intro t u h1
      unfold resumed
      rw [if_neg]
      rintro ⟨h2, _⟩
      have := ((Sys.Inv.reach (Prog.Inv.reach hb.pr).yr).resI t h2).2
      rw [h1] at this; cases this
    have hpe : ∀ u, pend { s with p := p', rn := fired s.p p' s.rn, ppre := resumed s.p p' s.ppre } u = pend s u := by
      intro u
      unfold pend fired
      dsimp only
      split
      · rename_i h1
        split at h1
        · cases h1
        · rw [h1]
      · rename_i h1
        split at h1
        · rename_i h2
          rw [(hb.rnI u).2 h2.1]
        · split
          · rename_i h3; exact absurd h3 (h1 _)
          · rfl
    constructor
    · intro w z h1
      dsimp only at h1 ⊢
      rw [hw]; exact hi.pzw w z h1
    · exact hi.uniq
    · intro w z h1
      rw [hpe]
      dsimp only at h1 ⊢
      rw [hpre _ _ (hi.pzw w z h1)]
      refine (hi.phase w z h1).mono fun h2 => ?_
      rw [ha rfl w z h1 h2]
    · intro t u h1 h2
      rw [hpe]
      dsimp only at h1 h2 ⊢
      rw [hw] at h1
      rw [hpre _ _ h1]
      exact hi.left t u h1 h2
    · intro t u h1
      rw [hpe] at h1
      dsimp only
      rw [hw]
      exact hi.pendI t u h1
    · exact hi.ok
  | @yield _ x' w t u hbad hw h hs hg h0 hu hww =>
    have hpe : ∀ v, pend { s with p := { s.p with y := { s.p.y with x := x', pc := upd s.p.y.pc w .popReady } }, pz := upd s.pz w (some ⟨t, u, .set⟩), ys := s.ys + 1 } v = pend s v := fun v => rfl
    have hno : ∀ v z, s.pz v = some z → z.t ≠ t := by
      intro v z h1 h2
      have := hi.pzw v z h1
      rw [h2, h0] at this; cases this
    have hc0 : ∀ v, (pend s v).count t = 0 := by
      intro v
      apply Decidable.byContradiction
      intro h1
      have := hi.pendI t v h1
      rw [h0] at this; cases this
    constructor
    · intro v z h1
      dsimp only at h1 ⊢
      rw [hww]
      by_cases e : v = w
      · subst e; rw [upd_same] at h1; cases h1; exact upd_same _ _ _
      · rw [upd_ne _ _ e] at h1
        rw [upd_ne _ _ (hno v z h1)]
        exact hi.pzw v z h1
    · intro v1 v2 y1 y2 h1 h2 he
      dsimp only at h1 h2
      by_cases e1 : v1 = w <;> by_cases e2 : v2 = w
      · rw [e1, e2]
      · subst e1
        rw [upd_same] at h1; cases h1
        rw [upd_ne _ _ e2] at h2
        exact absurd he.symm (hno _ _ h2)
      · subst e2
        rw [upd_same] at h2; cases h2
        rw [upd_ne _ _ e1] at h1
        exact absurd he (hno _ _ h1)
      · rw [upd_ne _ _ e1] at h1
        rw [upd_ne _ _ e2] at h2
        exact hi.uniq _ _ _ _ h1 h2 he
    · intro v z h1
      rw [hpe]
      dsimp only at h1 ⊢
      rw [hg]
      by_cases e : v = w
      · subst e; rw [upd_same] at h1; cases h1; exact hc0 _
      · rw [upd_ne _ _ e] at h1; exact hi.phase v z h1
    · intro c v h1 h2
      rw [hpe]
      dsimp only at h1 h2 ⊢
      have hne : c ≠ t := fun e => h2 w ⟨t, u, .set⟩ (upd_same _ _ _) e.symm
      rw [hww, upd_ne _ _ hne] at h1
      refine hi.left c v h1 fun w' z h3 => ?_
      by_cases e : w' = w
      · subst e
        have := (hb.pzI _ _ h3).2
        rw [h] at this; cases this
      · exact h2 w' z (by rw [upd_ne _ _ e]; exact h3)
    · intro c v h1
      rw [hpe] at h1
      dsimp only
      have hne : c ≠ t := by rintro rfl; exact h1 (hc0 v)
      rw [hww, upd_ne _ _ hne]
      exact hi.pendI c v h1
    · exact hi.ok
  | @set _ w t u hbad h =>
    have hp := hi.phase w _ h
    refine hi.proto (rf := s.rfol) h rfl rfl upn (fun _ _ _ => rfl) (fun _ _ => rfl) ?_
    dsimp only at hp ⊢
    rw [upd_same]
    exact ⟨rfl, hp⟩
  | @checkReached _ w t u hbad h hr =>
    have hp := hi.phase w _ h
    refine hi.proto (rf := s.rfol) (pp := s.ppre) h rfl rfl (fun _ _ => rfl) (fun _ _ _ => rfl) (fun _ _ => rfl) ?_
    exact .inr ⟨hp.1, hp.2, hr⟩
  | @checkNot _ w t u hbad h hr =>
    have hp := hi.phase w _ h
    refine hi.proto (rf := s.rfol) (pp := s.ppre) h rfl rfl (fun _ _ => rfl) (fun _ _ _ => rfl) (fun _ _ => rfl) ?_
    exact ⟨hp.1, hp.2, hr⟩
  | @push _ w t u hbad h =>
    have hp := hi.phase w _ h
    have hrn := (hb.rnI u).2 hp.2.2
    have hpe : pend { s with rfol := upd s.rfol u (t :: s.rfol u) } u = t :: pend s u := by
      simp [pend, hrn]
    have hpo : ∀ v, v ≠ u → pend { s with rfol := upd s.rfol u (t :: s.rfol u) } v = pend s v := by
      intro v hv
      simp only [pend, upd_ne _ _ hv]
    refine hi.proto (pp := s.ppre) h rfl rfl (fun _ _ => rfl) (fun v c hc => ?_) (fun v hv => by rw [hpo v hv]) ?_
    · by_cases e : v = u
      · subst e; rw [hpe, List.count_cons_of_ne (fun h => hc h.symm)]
      · rw [hpo v e]
    · dsimp only at hp ⊢
      rw [hpe, List.count_cons_self, hp.2.1]
      exact ⟨hp.1, rfl, hp.2.2⟩
  | @incr _ w t u hbad h =>
    have hp := hi.phase w _ h
    refine hi.proto (rf := s.rfol) h rfl rfl upn (fun _ _ _ => rfl) (fun _ _ => rfl) ?_
    dsimp only [Phase] at hp ⊢
    rw [upd_same]
    exact .inl ⟨by omega, hp.2⟩
  | @up _ w t u hbad h =>
    have hp := hi.phase w _ h
    refine hi.proto (rf := s.rfol) h rfl rfl upn (fun _ _ _ => rfl) (fun _ _ => rfl) ?_
    dsimp only [Phase] at hp ⊢
    rw [upd_same]
    rcases hp with hp | hp
    · exact .inl ⟨by omega, hp.2⟩
    · exact .inr ⟨by omega, hp.2⟩
  | @notify _ s1 w t u hbad h hn =>
    have hp := hi.phase w _ h
    have hwt := hi.pzw w _ h
    dsimp only [Phase] at hp hwt
    have hpt : ∀ v, v ≠ u → (pend s v).count t = 0 := by
      intro v hv
      apply Decidable.byContradiction
      intro h1
      have := hi.pendI t v h1
      rw [hwt] at this
      cases this
      exact hv rfl
    cases hn with
    | ready h2 hh =>
      rcases hp with hp | hp
      · omega
      · refine hi.hand (rn := s.rn) hwt hp.2.2 hh ?_ ?_ (fun _ _ _ => rfl) ?_
        · intro v z h1
          by_cases e : v = w
          · subst e; rw [upd_same] at h1; cases h1
          · rw [upd_ne _ _ e] at h1
            exact ⟨h1, fun h3 => e (hi.uniq _ _ _ _ h1 h h3)⟩
        · intro v z h1 h3
          by_cases e : v = w
          · subst e; rw [h] at h1; cases h1; exact absurd rfl h3
          · rw [upd_ne _ _ e]; exact h1
        · intro v
          by_cases e : v = u
          · subst e; exact hp.2.1
          · exact hpt v e
    | not h2 =>
      rcases hp with hp | hp
      · have hpe : ∀ v, pend { s with ppre := upd s.ppre t (s.ppre t - 1), pz := upd s.pz w none } v = pend s v := fun v => rfl
        have sub : ∀ v z, upd s.pz w none v = some z → s.pz v = some z ∧ z.t ≠ t := by
          intro v z h1
          by_cases e : v = w
          · subst e; rw [upd_same] at h1; cases h1
          · rw [upd_ne _ _ e] at h1
            exact ⟨h1, fun h3 => e (hi.uniq _ _ _ _ h1 h h3)⟩
        constructor
        · intro v z h1; exact hi.pzw v z (sub v z h1).1
        · intro v w' z z' h1 h3; exact hi.uniq v w' z z' (sub v z h1).1 (sub w' z' h3).1
        · intro v z h1
          rw [hpe]
          dsimp only
          rw [upd_ne _ _ (sub v z h1).2]
          exact hi.phase v z (sub v z h1).1
        · intro c v h1 h3
          rw [hpe]
          dsimp only at h1 h3 ⊢
          by_cases e : c = t
          · subst e
            rw [hwt] at h1; cases h1
            rw [upd_same]
            exact ⟨by omega, hp.2.1⟩
          · rw [upd_ne _ _ e]
            refine hi.left c v h1 fun w' z h4 => ?_
            by_cases e' : w' = w
            · subst e'; rw [h] at h4; cases h4; exact fun h => e h.symm
            · exact h3 w' z (by rw [upd_ne _ _ e']; exact h4)
        · exact hi.pendI
        · exact hi.ok
      · omega
  | @begin _ u hbad h =>
    have hpe : ∀ v, pend { s with rn := upd s.rn u (.loop (s.rfol u)) } v = pend s v := by
      intro v
      by_cases e : v = u
      · subst e; simp [pend, h]
      · simp only [pend, upd_ne _ _ e]
    constructor
    · exact hi.pzw
    · exact hi.uniq
    · intro w z h1; rw [hpe]; exact hi.phase w z h1
    · intro t v h1 h2; rw [hpe]; exact hi.left t v h1 h2
    · intro t v h1; rw [hpe] at h1; exact hi.pendI t v h1
    · exact hi.ok
  | @visit _ s1 u t rem hbad h hn =>
    have hpu : pend s u = t :: rem := by simp [pend, h]
    have hwt := hi.pendI t u (by rw [hpu]; simp)
    have hend : s.p.y.x.g.ex u = .ended := by
      apply Decidable.byContradiction
      intro h1
      have := (hb.rnI u).2 h1
      rw [h] at this; cases this
    have hno : ∀ w z, s.pz w = some z → z.t ≠ t := by
      intro w z h1 h2
      have h3 := hi.phase w z h1
      have h4 := hi.pzw w z h1
      rw [h2, hwt] at h4
      cases h4
      rw [h2, hpu, List.count_cons_self] at h3
      cases hz : z.pc <;> rw [hz] at h3 <;> simp only [Phase] at h3 <;> first | omega | (simp_all; done) | (rcases h3 with h3 | h3 <;> simp_all)
    have hl := hi.left t u hwt hno
    rw [hpu, List.count_cons_self] at hl
    have hpo : ∀ v, v ≠ u → pend { s with rn := upd s.rn u (.loop rem) } v = pend s v := by
      intro v e
      simp only [pend, upd_ne _ _ e]
    have hpn : pend { s with rn := upd s.rn u (.loop rem) } u = rem := by simp [pend]
    cases hn with
    | ready h2 hh =>
      refine hi.hand (pz := s.pz) hwt hend hh (fun w z h1 => ⟨h1, hno w z h1⟩) (fun w z h1 _ => h1) (fun v c hc => ?_) fun v => ?_
      · by_cases e : v = u
        · subst e; rw [hpn, hpu, List.count_cons_of_ne (fun h => hc h.symm)]
        · rw [hpo v e]
      · by_cases e : v = u
        · subst e; rw [hpn]; omega
        · rw [hpo v e]
          apply Decidable.byContradiction
          intro h1
          have := hi.pendI t v h1
          rw [hwt] at this
          cases this
          exact e rfl
    | not h2 => exact absurd hl.1 h2

theorem Inv.reach (hr : Reach cfg N true s) : Inv s := by
  induction hr with
  | init => exact Inv.init
  | step hr hs ih => exact ih.step (Base.reach hr) hs

end RG.Full
