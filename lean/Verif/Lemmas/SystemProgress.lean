import Verif.Lemmas.System
import Verif.Props.GraphWait
/-
States of the whole runtime in which nothing is left to be done.
-/
set_option linter.unusedVariables false
namespace RG.Graph

variable {cfg : Cfg} {g : State}

/-- what a step of the initialisation of task `t` changes -/
structure InitStep (cfg : Cfg) (g g' : State) (t : Nat) (v : Ph) : Prop where
  step : ∃ l, Step cfg l g g'
  n : g'.n = g.n
  nExt : g'.nExt = g.nExt
  fut : g'.fut = g.fut
  ex : g'.ex = g.ex
  ph : g'.ph = upd g.ph t v
  ne : v ≠ g.ph t
  old : Sys.stage (g.ph t) = .initing
  next : (Sys.stage v = .initing ∧ g'.handed = g.handed) ∨
    (v = .inited ∧ (g'.handed = g.handed ∨ g'.handed = upd g.handed t (g.handed t + 1)))

theorem upd_self {α} (f : Nat → α) (t : Nat) : upd f t (f t) = f := by
  funext u
  by_cases e : u = t
  · subst e; simp
  · rw [upd_ne _ _ e]

/-- the task that holds a lock can make a step -/
theorem hold_step (hi : Core cfg g) {t i : Nat} (h : holding (g.ph t) = some i) :
    ∃ v g', InitStep cfg g g' t v := by
  obtain ⟨r, hr⟩ := hi.holdR t i h
  rcases h' : g.ph t with _ | j | _ | pc | _ <;> rw [h'] at h <;> try cases h
  cases pc with
  | scan i rem =>
    cases h
    cases rem with
    | nil => exact ⟨_, _, ⟨_, .scanEnd h'⟩, rfl, rfl, rfl, rfl, rfl, by rw [h']; simp, by rw [h']; rfl, .inl ⟨rfl, rfl⟩⟩
    | cons p rem =>
      by_cases h1 : cfg.parentOf t = some p.1
      · exact ⟨_, _, ⟨_, .scanParent h' h1⟩, rfl, rfl, rfl, rfl, rfl, by rw [h']; simp, by rw [h']; rfl, .inl ⟨rfl, rfl⟩⟩
      · by_cases h2 : cfg.space p.1 = cfg.space t ∧ cfg.serial p.1 t = true
        · by_cases h3 : g.post p.1 = 0
          · refine ⟨_, _, ⟨_, .scanReached h' hr h1 h2 h3⟩, rfl, rfl, rfl, rfl, rfl, ?_, by rw [h']; rfl, .inl ⟨?_, rfl⟩⟩
            · rw [h']; split <;> simp
            · split <;> rfl
          · exact ⟨_, _, ⟨_, .scanLink h' h1 h2 h3⟩, rfl, rfl, rfl, rfl, rfl, by rw [h']; simp, by rw [h']; rfl, .inl ⟨rfl, rfl⟩⟩
        · exact ⟨_, _, ⟨_, .scanSkip h' h1 h2⟩, rfl, rfl, rfl, rfl, rfl, by rw [h']; simp, by rw [h']; rfl, .inl ⟨rfl, rfl⟩⟩
  | link i p rem =>
    exact ⟨_, _, ⟨_, .link h'⟩, rfl, rfl, rfl, rfl, rfl, by rw [h']; simp, by rw [h']; rfl, .inl ⟨rfl, rfl⟩⟩
  | incr i p rem =>
    cases h
    refine ⟨_, _, ⟨_, .incr h' hr⟩, rfl, rfl, rfl, rfl, rfl, ?_, by rw [h']; rfl, .inl ⟨?_, rfl⟩⟩
    · rw [h']; split <;> simp
    · split <;> rfl
  | unlock i =>
    cases h
    exact ⟨_, _, ⟨_, .unlock h' hr⟩, rfl, rfl, rfl, rfl, rfl, by rw [h']; simp, by rw [h']; rfl, .inl ⟨rfl, rfl⟩⟩
  | _ => cases h

/-- if tasks are being initialised then one of them can make a step -/
theorem init_step (hi : Core cfg g) {t : Nat} (h : Sys.stage (g.ph t) = .initing) :
    ∃ t' v g', InitStep cfg g g' t' v := by
  rcases h' : g.ph t with _ | j | _ | pc | _ <;> rw [h'] at h <;> try cases h
  cases pc with
  | next i =>
    by_cases h1 : i = (cfg.res t).length
    · exact ⟨_, _, _, ⟨_, .resEnd h' h1⟩, rfl, rfl, rfl, rfl, rfl, by rw [h']; simp, by rw [h']; rfl, .inl ⟨rfl, rfl⟩⟩
    · have h2 := hi.idxNext t i h'
      obtain ⟨r, hr⟩ : ∃ r, (cfg.res t)[i]? = some r :=
        ⟨_, List.getElem?_eq_getElem (Nat.lt_of_le_of_ne h2 h1)⟩
      cases hl : g.lock r with
      | none => exact ⟨_, _, _, ⟨_, .lockRes h' hr hl⟩, rfl, rfl, rfl, rfl, rfl, by rw [h']; simp, by rw [h']; rfl, .inl ⟨rfl, rfl⟩⟩
      | some u =>
        have hu := (hi.lockI r u).1 hl
        have : ∃ j, holding (g.ph u) = some j := by
          revert hu
          rcases g.ph u with _ | j | _ | pc | _ <;> try (intro h; cases h)
          cases pc <;> simp [held, holding]
        obtain ⟨j, hj⟩ := this
        exact ⟨u, hold_step hi hj⟩
  | parent =>
    cases h1 : cfg.parentOf t with
    | none => exact ⟨_, _, _, ⟨_, .noParent h' h1⟩, rfl, rfl, rfl, rfl, rfl, by rw [h']; simp, by rw [h']; rfl, .inl ⟨rfl, rfl⟩⟩
    | some q => exact ⟨_, _, _, ⟨_, .parentPush h' h1⟩, rfl, rfl, rfl, rfl, rfl, by rw [h']; simp, by rw [h']; rfl, .inl ⟨rfl, rfl⟩⟩
  | pincr q => exact ⟨_, _, _, ⟨_, .parentIncr h'⟩, rfl, rfl, rfl, rfl, rfl, by rw [h']; simp, by rw [h']; rfl, .inl ⟨rfl, rfl⟩⟩
  | final =>
    refine ⟨_, _, _, ⟨_, .final h'⟩, rfl, rfl, rfl, rfl, rfl, by rw [h']; simp, by rw [h']; rfl, .inr ⟨rfl, ?_⟩⟩
    dsimp only
    by_cases h1 : g.pre t = 2
    · right; rw [if_pos h1]
    · left; rw [if_neg h1]; exact upd_self _ _
  | scan i rem => exact ⟨t, hold_step hi (i := i) (by rw [h']; rfl)⟩
  | link i p rem => exact ⟨t, hold_step hi (i := i) (by rw [h']; rfl)⟩
  | incr i p rem => exact ⟨t, hold_step hi (i := i) (by rw [h']; rfl)⟩
  | unlock i => exact ⟨t, hold_step hi (i := i) (by rw [h']; rfl)⟩

end RG.Graph

namespace RG.Sys

open RG.Graph (Cfg WState WStep WReach Ph KInv NestingOk upd_self sumTo_upd)

variable {cfg : Cfg} {N : Nat} {s s' : State}

theorem Idle.x (h : Idle s s') : s'.x = s.x := by cases h <;> rfl
theorem Idle.pc (h : Idle s s') : s'.pc = s.pc := by cases h <;> rfl
theorem Idle.wk (h : Idle s s') : s'.wk = s.wk := by cases h <;> rfl
theorem Idle.act (h : Idle s s') : s'.act = s.act := by cases h <;> rfl

theorem samePh_eq {x x' : WState} {e : Option Nat} (h : x'.g.ph = x.g.ph) : SamePh x x' e :=
  ⟨fun t _ => by rw [h], fun t _ _ => by rw [h]⟩

theorem samePh_upd {x x' : WState} {t : Nat} {v : Ph} (h : x'.g.ph = upd x.g.ph t v) : SamePh x x' (some t) :=
  ⟨fun u hu => by rw [h, upd_ne _ _ (fun e => hu (by rw [e]))],
    fun u hu _ => by rw [h, upd_ne _ _ (fun e => hu (by rw [e]))]⟩

theorem samePh_stage {x x' : WState} {t : Nat} {v : Ph} (h : x'.g.ph = upd x.g.ph t v)
    (h1 : stage v = stage (x.g.ph t)) (h2 : stage v ≠ .initing) : SamePh x x' none := by
  constructor
  · intro u _
    rw [h]
    by_cases e : u = t
    · subst e; rw [upd_same]; exact h1
    · rw [upd_ne _ _ e]
  · intro u _ h3
    rw [h]
    by_cases e : u = t
    · subst e; rw [← h1] at h3; exact absurd h3 h2
    · rw [upd_ne _ _ e]

theorem sumTo_zero {n : Nat} {f : Nat → Nat} (h : ∀ i, i < n → f i = 0) : sumTo n f = 0 := by
  apply Classical.byContradiction
  intro h'
  obtain ⟨i, hi, hp⟩ := sumTo_pos (Nat.pos_of_ne_zero h')
  rw [h i hi] at hp
  cases hp

/-- nothing is left to be done -/
structure Stuck (N : Nat) (s : State) : Prop where
  pc : ∀ w, w < N → s.pc w = .waiting ∧ (s.cv w).ws 0 = .asleep
  ready : ∀ w, w < N → s.ready w = []
  new : ∀ w, w < N → s.new w = []
  act : s.act = []
  ph : ∀ t, t < s.x.g.n → s.x.g.ph t = .inited
  handed : ∀ t, s.x.g.handed t = 0
  exec : ∀ t, s.x.g.ex t = .running → s.x.w t ≠ none

theorem cv_free {c : Cv.State} (hr : Cv.Reach 1 c) (hn : ∀ j, c.ns j = .out ∨ c.ns j = .lockM)
    (h1 : c.ws 0 ≠ .pred) (h2 : c.ws 0 ≠ .unlockM) : c.mutex = none := by
  have hi := hr.inv
  cases h : c.mutex with
  | none => rfl
  | some o =>
    cases o with
    | waiter i =>
      rcases (hi.mutW i h).2 with h' | h'
      · exact absurd h' h1
      · exact absurd h' h2
    | notifier j =>
      rcases hi.mutN j h with h' | h' <;> rcases hn j with h'' | h'' <;> rw [h'] at h'' <;> cases h''

theorem cv_progress {c : Cv.State} (hr : Cv.Reach 1 c) :
    (∃ c', Cv.Step (.wait 0) c c' ∧ (c'.ws 0 ≠ c.ws 0)) ∨ (∃ j c', Cv.Step (.notify j) c c' ∧ c'.ns j ≠ c.ns j) ∨
      ((c.ws 0 = .out ∨ c.ws 0 = .asleep) ∧ ∀ j, c.ns j = .out) := by
  have hi := hr.inv
  by_cases hn : ∃ j, c.ns j = .cas ∨ c.ns j = .notifyAll ∨ c.ns j = .unlockM
  · obtain ⟨j, hj | hj | hj⟩ := hn
    · exact .inr (.inl ⟨j, _, .cas hj, by simp [hj]⟩)
    · exact .inr (.inl ⟨j, _, .notifyAll hj, by simp [hj]⟩)
    · exact .inr (.inl ⟨j, _, .nUnlockM hj, by simp [hj]⟩)
  · have hn' : ∀ j, c.ns j = .out ∨ c.ns j = .lockM := by
      intro j
      cases h : c.ns j with
      | out => exact .inl rfl
      | lockM => exact .inr rfl
      | cas => exact absurd ⟨j, .inl h⟩ hn
      | notifyAll => exact absurd ⟨j, .inr (.inl h)⟩ hn
      | unlockM => exact absurd ⟨j, .inr (.inr h)⟩ hn
    cases hw : c.ws 0 with
    | check =>
      cases hf : c.flag with
      | true => exact .inl ⟨_, .timeout hw hf, by simp⟩
      | false => exact .inl ⟨_, .leave hw hf, by simp⟩
    | check2 =>
      cases hf : c.flag with
      | true => exact .inl ⟨_, .check2T hw hf, by simp⟩
      | false => exact .inl ⟨_, .check2F hw hf, by simp⟩
    | pred =>
      cases hf : c.flag with
      | true => exact .inl ⟨_, .sleep hw hf, by simp⟩
      | false => exact .inl ⟨_, .predT hw hf, by simp⟩
    | unlockM => exact .inl ⟨_, .unlockM hw, by simp⟩
    | store => exact .inl ⟨_, .store hw, by simp⟩
    | lockM =>
      have hm := cv_free hr hn' (by rw [hw]; simp) (by rw [hw]; simp)
      exact .inl ⟨_, .lockM hw hm, by simp⟩
    | waking =>
      have hm := cv_free hr hn' (by rw [hw]; simp) (by rw [hw]; simp)
      exact .inl ⟨_, .relock hw hm, by simp⟩
    | out =>
      by_cases h : ∃ j, c.ns j = .lockM
      · obtain ⟨j, hj⟩ := h
        have hm := cv_free hr hn' (by rw [hw]; simp) (by rw [hw]; simp)
        exact .inr (.inl ⟨j, _, .nLockM hj hm, by simp [hj]⟩)
      · exact .inr (.inr ⟨.inl rfl, fun j => (hn' j).resolve_right fun h' => h ⟨j, h'⟩⟩)
    | asleep =>
      by_cases h : ∃ j, c.ns j = .lockM
      · obtain ⟨j, hj⟩ := h
        have hm := cv_free hr hn' (by rw [hw]; simp) (by rw [hw]; simp)
        exact .inr (.inl ⟨j, _, .nLockM hj hm, by simp [hj]⟩)
      · exact .inr (.inr ⟨.inr rfl, fun j => (hn' j).resolve_right fun h' => h ⟨j, h'⟩⟩)

theorem cv_wait_asleep {c c' : Cv.State} (h : Cv.Step (.wait 0) c c') : c.ws 0 ≠ .asleep := by
  cases h <;> simp_all

theorem Idle.inv (h : Idle s s') : s' = s ∨ (∃ w, s'.nn w = s.nn w + 1) ∨
    ∃ w cv', Cv.Step (.spurious 0) (s.cv w) cv' ∧ s'.cv = upd s.cv w cv' := by
  cases h with
  | spin => exact .inl rfl
  | @noise w cv' h => exact .inr (.inl ⟨w, by simp⟩)
  | @spurious w cv' h => exact .inr (.inr ⟨w, cv', h, rfl⟩)

theorem not_idle_cv {w : Nat} {c' : Cv.State} (h1 : c' ≠ s.cv w) (h2 : ¬ Cv.Step (.spurious 0) (s.cv w) c') :
    ¬ Idle s { s with cv := upd s.cv w c' } := by
  intro h
  rcases h.inv with h | ⟨v, h⟩ | ⟨v, cv', h3, h⟩
  · have := congrArg (fun s => s.cv w) h
    dsimp only at this
    rw [upd_same] at this
    exact h1 this
  · dsimp only at h
    omega
  · dsimp only at h
    have h4 := congrFun h w
    rw [upd_same] at h4
    by_cases e : w = v
    · subst e
      rw [upd_same] at h4
      subst h4
      exact h2 h3
    · rw [upd_ne _ _ e] at h4
      exact h1 h4

theorem not_idle_wait {w : Nat} {c' : Cv.State} (hc : Cv.Step (.wait 0) (s.cv w) c') (h : c'.ws 0 ≠ (s.cv w).ws 0) :
    ¬ Idle s { s with cv := upd s.cv w c' } := by
  refine not_idle_cv (fun e => h (by rw [e])) fun h' => ?_
  cases h' with
  | spurious h' => exact cv_wait_asleep hc h'

theorem not_idle_notify {w j : Nat} {c' : Cv.State} (hc : Cv.Step (.notify j) (s.cv w) c')
    (h : c'.ns j ≠ (s.cv w).ns j) : ¬ Idle s { s with cv := upd s.cv w c' } := by
  refine not_idle_cv (fun e => h (by rw [e])) fun h' => ?_
  generalize s.cv w = c at *
  cases h' with
  | spurious h' => exact h rfl

open RG.Graph in
theorem stuck (ht : NestingOk cfg) (hN : 0 < N) (hr : Reach cfg N s) (hq : ∀ s', ¬ OwnWork cfg N s s') :
    Stuck N s := by
  have hi := Inv.reach hr
  have hg := hi.wr.graph
  have hc := Core.reach ht hg
  have hd := Dom.reach hg
  have noX : ∀ {s'}, Step cfg N s s' → s'.x = s.x → ¬ Idle s s' → False := by
    intro s' h1 h2 h3
    exact hq s' ⟨⟨h1, h3, by rw [h2], by rw [h2], by rw [h2]⟩, by rw [h2]; exact fun _ h => h⟩
  have noPc : ∀ {s' : State} (w : Nat), Step cfg N s s' → s'.x = s.x → s'.pc w ≠ s.pc w → False := by
    intro s' w h1 h2 h3
    exact noX h1 h2 fun h => h3 (by rw [h.pc])
  have noG : ∀ {s' : State} {g' : Graph.State} {l}, Step cfg N s s' → Graph.Step cfg l s.x.g g' →
      s'.x = { s.x with g := g' } → g'.n = s.x.g.n → g'.nExt = s.x.g.nExt →
      (∀ t, s.x.g.fut t = .held → g'.fut t = .held) → False := by
    intro s' g' l h1 h2 h3 h4 h5 h6
    refine hq s' ⟨⟨h1, fun h => ?_, by rw [h3]; exact h4, by rw [h3]; exact h5, by rw [h3]⟩, by rw [h3]; exact h6⟩
    have := measure_decreases ht hg h2 h4 h5
    have e := h.x
    rw [h3] at e
    rw [show g' = s.x.g from congrArg WState.g e] at this
    omega
  have other : ∀ {g' : Graph.State} {l}, Graph.Step cfg l s.x.g g' → g'.n = s.x.g.n → g'.nExt = s.x.g.nExt →
      g'.ex = s.x.g.ex → WStep cfg s.x { s.x with g := g' } := by
    intro g' l h1 h2 h3 h4
    exact .other h1 h2 (fun t _ h => by rw [h4]; exact h) (.inl h3)
  -- condition variables
  have cvq : ∀ w, w < N → ((s.cv w).ws 0 = .out ∨ (s.cv w).ws 0 = .asleep) ∧ ∀ j, (s.cv w).ns j = .out := by
    intro w hw
    rcases cv_progress (hi.cvr w) with ⟨c', h1, h2⟩ | ⟨j, c', h1, h2⟩ | h
    · exact (noX (.wait hw h1) rfl (not_idle_wait h1 h2)).elim
    · exact (noX (.notify hw h1) rfl (not_idle_notify h1 h2)).elim
    · exact h
  have wk0 : ∀ w, w < N → s.wk w = 0 := by
    intro w hw
    apply Classical.byContradiction
    intro h
    refine noX (.wake hw (Nat.pos_of_ne_zero h) (.notifyCall (hi.cvn w _ (Nat.le_refl _)))) rfl fun h' => ?_
    have := congrFun h'.wk w
    dsimp only at this
    rw [upd_same] at this
    omega
  have act0 : s.act = [] := by
    cases h : s.act with
    | nil => rfl
    | cons t a =>
      exfalso
      refine noX (.activate (t := t) hN (by rw [h]; simp)) rfl fun h' => ?_
      have := congrFun h'.wk 0
      dsimp only at this
      rw [upd_same] at this
      omega
  -- submissions
  have sub0 : ∀ t i, s.x.g.ph t ≠ .submitting i := by
    intro t i h
    have h0 := hc.idxSub t i h
    by_cases h1 : i = (cfg.res t).length
    · refine noG (.emplace (w := 0) (t := t) hN (other (.emplace h h1) rfl rfl rfl) (samePh_upd rfl) (by rw [h]; rfl)
        (by simp) rfl rfl rfl) (.emplace h h1) rfl rfl rfl ?_
      intro u hu
      dsimp only
      by_cases e : u = t
      · subst e; simp
      · rw [upd_ne _ _ e]; exact hu
    · obtain ⟨r, hr⟩ : ∃ r, (cfg.res t)[i]? = some r :=
        ⟨_, List.getElem?_eq_getElem (Nat.lt_of_le_of_ne h0 h1)⟩
      refine noG (.graph (other (.pushUser h hr) rfl rfl rfl) (samePh_stage rfl (by rw [h]; rfl) (by simp [stage]))
        rfl rfl rfl (fun _ h => absurd rfl h) (fun h => absurd rfl h)) (.pushUser h hr) rfl rfl rfl (fun _ h => h)
  -- workers
  have ini0 : ∀ t, stage (s.x.g.ph t) ≠ .initing := by
    intro t h
    obtain ⟨t', v, g', hs⟩ := init_step hc h
    obtain ⟨l, hstep⟩ := hs.step
    have h1 := hi.cntInit t'
    rw [if_pos hs.old] at h1
    obtain ⟨w, hw, hpos⟩ := sumTo_pos (show 0 < sumTo N fun w => initW t' (s.pc w) by omega)
    have hpc : s.pc w = .initing t' ∨ s.pc w = .initingStolen t' := by
      revert hpos
      cases s.pc w <;> simp
      all_goals (intro h; split at h <;> simp_all)
    have hf : ∀ t, s.x.g.fut t = .held → g'.fut t = .held := fun t h => by rw [hs.fut]; exact h
    have ho := other hstep hs.n hs.nExt hs.ex
    have hv : g'.ph t' = v := by rw [hs.ph]; simp
    rcases hs.next with ⟨h2, h3⟩ | ⟨h2, h3 | h3⟩
    · exact noG (.initStep hw hpc ho (samePh_upd hs.ph) (by rw [hv]; exact h2) (by rw [hv]; exact hs.ne)
        h3 hs.ex rfl) hstep rfl hs.n hs.nExt hf
    · rcases hpc with hpc | hpc
      · exact noG (.initBlocked hw hpc ho (samePh_upd hs.ph) (by rw [hv]; exact h2) h3 hs.ex rfl) hstep rfl
          hs.n hs.nExt hf
      · exact noG (.stolenBlocked hw hpc ho (samePh_upd hs.ph) (by rw [hv]; exact h2) h3 hs.ex rfl) hstep rfl
          hs.n hs.nExt hf
    · exact noG (.initReady hw hpc ho (samePh_upd hs.ph) (by rw [hv]; exact h2) h3 hs.ex rfl) hstep rfl
        hs.n hs.nExt hf
  have pcs : ∀ w, w < N → s.pc w = .waiting ∧ (s.cv w).ws 0 = .asleep := by
    intro w hw
    cases h : s.pc w with
    | top =>
      refine (noPc w (.sleep hw h (.waitCall (hi.cvw w (by rw [h]; simp)))) rfl ?_).elim
      dsimp only; rw [upd_same, h]; simp
    | waiting =>
      refine ⟨rfl, ?_⟩
      rcases (cvq w hw).1 with h1 | h1
      · refine (noPc w (.woken hw h h1) rfl ?_).elim
        dsimp only; rw [upd_same, h]; simp
      · exact h1
    | popReady =>
      cases h1 : s.ready w with
      | nil =>
        refine (noPc w (.noReady hw h h1) rfl ?_).elim
        dsimp only; rw [upd_same, h]; simp
      | cons t q =>
        refine (noPc w (.popReady (t := t) hw h (by rw [h1]; simp)) rfl ?_).elim
        dsimp only; rw [upd_same, h]; simp
    | popNew =>
      cases h1 : s.new w with
      | nil =>
        refine (noPc w (.noNew hw h h1) rfl ?_).elim
        dsimp only; rw [upd_same, h]; simp
      | cons t q =>
        have hm : t ∈ s.new w := by rw [h1]; simp
        have h2 := hi.queued hw hm
        have h3 : s.x.g.ph t = .queued := by
          revert h2
          rcases s.x.g.ph t with _ | j | _ | pc | _ <;> simp [stage]
        exact (noG (.popNew hw h hm (other (.startInit h3) rfl rfl rfl) (samePh_upd rfl) (by simp [stage])
          rfl rfl rfl) (.startInit h3) rfl rfl rfl (fun _ h => h)).elim
    | initing t => exact absurd (hi.initing hw (.inl h)) (ini0 t)
    | initingStolen t => exact absurd (hi.initing hw (.inr h)) (ini0 t)
    | stealReady =>
      refine (noPc w (.noStealReady hw h) rfl ?_).elim
      dsimp only; rw [upd_same, h]; simp
    | stealNew =>
      refine (noPc w (.noStealNew hw h) rfl ?_).elim
      dsimp only; rw [upd_same, h]; simp
    | run t =>
      by_cases h1 : s.res t = true
      · refine (noPc w (.resume hw h h1) rfl ?_).elim
        dsimp only; rw [upd_same, h]; simp
      · have h2 := hi.cntTok t
        rw [if_neg h1] at h2
        have h3 := le_sumTo (f := fun w => runW t (s.pc w)) hw
        simp only [h, runW_run, if_true] at h3
        have h4 : 0 < s.x.g.handed t := by omega
        have h5 := hc.handedEq t
        have h6 : s.x.g.ex t = .none := by
          apply Classical.byContradiction
          intro h7
          rw [if_neg (fun h8 => h7 h8.2.1)] at h5
          omega
        have hst : Graph.Step cfg ⟨[t], false⟩ s.x.g _ := .start h4
        refine (noG (.start hw h (.other hst rfl ?_ (.inl rfl)) (samePh_eq rfl) ?_ h6 rfl rfl) hst rfl rfl rfl
          (fun _ h => h)).elim
        · intro u _ hu
          dsimp only
          by_cases e : u = t
          · subst e; simp
          · rw [upd_ne _ _ e]; exact hu
        · funext u
          dsimp only
          by_cases e : u = t
          · subst e; simp only [upd_same]; omega
          · rw [upd_ne _ _ e, upd_ne _ _ e]
    | exec t =>
      have h1 := hi.cntExec t
      have h2 := le_sumTo (f := fun w => execW t (s.pc w)) hw
      simp only [h, execW_exec, if_true] at h2
      have h3 : s.x.g.ex t = .running ∧ s.x.w t = none ∧ s.res t = false := by
        apply Classical.byContradiction
        intro h3
        rw [if_neg h3] at h1
        omega
      by_cases hk : KidsEnded cfg s.x t
      · have hst : Graph.Step cfg ⟨[t], false⟩ s.x.g _ := .bodyEnd h3.1 (fun c i _ _ => sub0 c i)
          (fun _ c hc' hp => (hc.exI c (by rw [hk c hc' hp]; simp)).1)
        refine (noG (.bodyEnd hw h (.other hst rfl ?_ (.inl rfl)) (samePh_eq rfl) rfl h3.1 rfl hk rfl) hst rfl rfl rfl
          (fun _ h => h)).elim
        intro u h4 h5
        dsimp only [State.decPost]
        rw [upd_ne]
        · exact h5
        · rintro rfl; exact h4 h3.2.1
      · have : ∃ c, c < s.x.g.n ∧ cfg.parentOf c = some t ∧ s.x.g.ex c ≠ .ended := by
          apply Classical.byContradiction
          intro h4
          exact hk fun c h5 h6 => Classical.byContradiction fun h7 => h4 ⟨c, h5, h6, h7⟩
        obtain ⟨c, h4, h5, h6⟩ := this
        refine (hq _ ⟨⟨.pause hw h (.wait h3.1 h3.2.1 (hi.kids c t h4 h5) (fun c i _ _ => sub0 c i)) rfl h3.2.1 h6 rfl,
          fun h7 => ?_, rfl, rfl, rfl⟩, fun _ h => h⟩).elim
        have h8 := congrFun h7.pc w
        dsimp only at h8
        rw [upd_same, h] at h8
        cases h8
  have nosig : ∀ w, w < N → ¬ Sig s w := by
    rintro w hw (h | ⟨j, h⟩ | h)
    · rw [wk0 w hw] at h; cases h
    · rw [(cvq w hw).2 j] at h; cases h
    · exact Cv.C38_no_lost_wakeup (hi.cvr w) h (cvq w hw).2 (pcs w hw).2
  have ready0 : ∀ w, w < N → s.ready w = [] := by
    intro w hw
    apply Classical.byContradiction
    intro h
    rcases hi.sigR w h with h1 | h1
    · exact nosig w hw h1
    · rw [(pcs w hw).1, (pcs w hw).2] at h1; cases h1
  have new0 : ∀ w, w < N → s.new w = [] := by
    intro w hw
    apply Classical.byContradiction
    intro h
    rcases hi.sigN w h with h1 | h1
    · exact nosig w hw h1
    · rw [(pcs w hw).1, (pcs w hw).2] at h1; cases h1
  have hres : ∀ t, s.x.g.handed t = 0 ∧ s.res t = false := by
    intro t
    have h := hi.cntTok t
    rw [act0, sumTo_zero (fun w hw => by rw [ready0 w hw]; rfl), sumTo_zero (fun w hw => by rw [(pcs w hw).1]; rfl)] at h
    simp only [List.count_nil] at h
    by_cases h1 : s.res t = true
    · rw [if_pos h1] at h; omega
    · exact ⟨by omega, by simpa using h1⟩
  refine ⟨pcs, ready0, new0, act0, ?_, fun t => (hres t).1, ?_⟩
  · intro t htn
    rcases h : s.x.g.ph t with _ | j | _ | pc | _
    · exact absurd h (hd.old t htn)
    · exact absurd h (sub0 t j)
    · have h1 := hi.cntNew t
      rw [sumTo_zero (fun w hw => by rw [new0 w hw]; rfl), if_pos (by rw [h]; rfl)] at h1
      cases h1
    · exact absurd (by rw [h]; rfl) (ini0 t)
    · rfl
  · intro t h1 h2
    have h := hi.cntExec t
    rw [sumTo_zero (fun w hw => by rw [(pcs w hw).1]; rfl), if_pos ⟨h1, h2, (hres t).2⟩] at h
    cases h

open RG.Graph in
/-- then the task graph cannot make a step either -/
theorem Stuck.graph (ht : NestingOk cfg) (hr : Reach cfg N s) (hq : ∀ s', ¬ OwnWork cfg N s s') (hs : Stuck N s) :
    ∀ x', ¬ WOwnWork cfg s.x x' := by
  intro x' h
  have hi := Inv.reach hr
  have hg := hi.wr.graph
  have hc := Core.reach ht hg
  have hd := Dom.reach hg
  have hmd := fun h' => wmeasure_decreases ht hi.wr (x' := x') h'
  obtain ⟨⟨hst, h1, h2, h3, h4⟩, h5⟩ := h
  have hne : x' ≠ s.x := by
    rintro rfl
    have := hmd ⟨hst, h1, h2, h3, h4⟩
    omega
  -- the step is a step of the whole machine
  have no : ∀ {s' : State}, Step cfg N s s' → s'.x = x' → False := by
    rintro s' h6 rfl
    exact hq s' ⟨⟨h6, fun h => hne h.x, h1, h2, h4⟩, h5⟩
  have inited : ∀ t, s.x.g.ph t = .unsub ∨ s.x.g.ph t = .inited := by
    intro t
    by_cases htn : t < s.x.g.n
    · exact .inr (hs.ph t htn)
    · exact .inl (hd.ph t (by omega))
  have noPh : ∀ {t p}, s.x.g.ph t = p → p ≠ .unsub → p ≠ .inited → False := by
    intro t p h h' h''
    rcases inited t with h0 | h0 <;> rw [h0] at h <;> subst h
    · exact h' rfl
    · exact h'' rfl
  cases hst with
  | submitOut h hn => dsimp only at h1; omega
  | submitIn h hn => dsimp only at h1; omega
  | @wait t u h hw =>
    have := h3 t hw
    dsimp only at this
    rw [upd_same] at this
    cases this
  | @wake t u ks hw hu hk =>
    exact no (.unpause (t := t) (.wake hw hu hk) rfl (by rw [hw]; simp) rfl) rfl
  | readOut hne' hu he hk =>
    dsimp only at h4
    exact absurd (List.append_left_eq_self.1 h4) hne'
  | @other l g' h hn he hx =>
    have gr : g'.ph = s.x.g.ph → g'.handed = s.x.g.handed → g'.ex = s.x.g.ex → False := by
      intro e1 e2 e3
      exact no (.graph (.other h hn he hx) (samePh_eq e1) e2 e3 rfl (fun _ h => absurd h1 h) (fun h => absurd h2 h)) rfl
    cases h with
    | beginSubmit hp h1' => dsimp only at hn; omega
    | pushUser h => exact noPh h (by simp) (by simp)
    | emplace h => exact noPh h (by simp) (by simp)
    | startInit h => exact noPh h (by simp) (by simp)
    | lockRes h => exact noPh h (by simp) (by simp)
    | scanParent h => exact noPh h (by simp) (by simp)
    | scanSkip h => exact noPh h (by simp) (by simp)
    | scanReached h => exact noPh h (by simp) (by simp)
    | scanLink h => exact noPh h (by simp) (by simp)
    | link h => exact noPh h (by simp) (by simp)
    | incr h => exact noPh h (by simp) (by simp)
    | scanEnd h => exact noPh h (by simp) (by simp)
    | unlock h => exact noPh h (by simp) (by simp)
    | resEnd h => exact noPh h (by simp) (by simp)
    | noParent h => exact noPh h (by simp) (by simp)
    | parentPush h => exact noPh h (by simp) (by simp)
    | parentIncr h => exact noPh h (by simp) (by simp)
    | final h => exact noPh h (by simp) (by simp)
    | @start _ t h => rw [hs.handed t] at h; cases h
    | createEvent h => dsimp only at h2; omega
    | extNotify h => exact gr rfl rfl rfl
    | extFollower h => exact gr rfl rfl rfl
    | @bodyEnd _ t h hc' hst =>
      have := he t (hs.exec t h) h
      simp [State.decPost] at this
    | delete h hr hl => exact gr rfl rfl rfl
    | deleteEnd h hr => exact gr rfl rfl rfl
    | @notifyPre _ p t rem h =>
      by_cases e : s.x.g.pre t = 2
      · refine no (.ready (t := t) (.other (.notifyPre h) hn he hx) (samePh_eq rfl) ?_ rfl rfl) rfl
        dsimp only [State.decPre]
        rw [if_pos e]
      · refine gr rfl ?_ rfl
        dsimp only [State.decPre]
        rw [if_neg e]
        exact upd_self _ _
    | notifyPost h => exact gr rfl rfl rfl
    | notifyEnd h => exact gr rfl rfl rfl
    | countPost h => exact gr rfl rfl rfl
    | @takeFuture _ t h =>
      have := h5 t h
      dsimp only at this
      rw [upd_same] at this
      cases this
    | countGet h => exact gr rfl rfl rfl
    | freeCount h => exact gr rfl rfl rfl
    | free h => exact gr rfl rfl rfl
    | lateRead h => exact gr rfl rfl rfl

/-! ### the remaining work -/

/-- steps of a worker until it sleeps or has got a task -/
def phi : Bool → Pc → Cv.WPc → Nat
  | true, .top, _ => 5
  | true, .waiting, .asleep => 0
  | true, .waiting, .pred => 1
  | true, .waiting, .lockM => 2
  | true, .waiting, .waking => 2
  | true, .waiting, .check2 => 3
  | true, .waiting, .check => 4
  | true, .waiting, .unlockM => 5
  | true, .waiting, .out => 10
  | true, .waiting, .store => 11
  | true, .popReady, _ => 9
  | true, .popNew, _ => 8
  | true, .stealReady, _ => 7
  | true, .stealNew, _ => 6
  | true, .run _, _ => 1
  | true, .exec _, _ => 0
  | true, .initing _, _ => 0
  | true, .initingStolen _, _ => 0
  | false, .top, _ => 23
  | false, .waiting, .asleep => 20
  | false, .waiting, .store => 21
  | false, .waiting, .check => 22
  | false, .waiting, .check2 => 23
  | false, .waiting, .unlockM => 23
  | false, .waiting, .pred => 24
  | false, .waiting, .lockM => 25
  | false, .waiting, .waking => 25
  | false, .waiting, .out => 28
  | false, .popReady, _ => 27
  | false, .popNew, _ => 26
  | false, .stealReady, _ => 25
  | false, .stealNew, _ => 24
  | false, .run _, _ => 21
  | false, .exec _, _ => 20
  | false, .initing _, _ => 20
  | false, .initingStolen _, _ => 20

/-- steps of a call of `notify`, and of what it causes -/
def nu : Cv.NPc → Nat
  | .out => 0
  | .unlockM => 1
  | .notifyAll => 7
  | .lockM => 8
  | .cas => 37

theorem nu_out : nu .out = 0 := rfl
theorem nu_unlockM : nu .unlockM = 1 := rfl
theorem nu_notifyAll : nu .notifyAll = 7 := rfl
theorem nu_lockM : nu .lockM = 8 := rfl
theorem nu_cas : nu .cas = 37 := rfl

/-- a task that waits has to be continued, a task that does not can wait once -/
def veeO (ex : Nat → RG.Graph.Ex) : Option Nat → Nat
  | none => 1
  | some u => if ex u = .ended then 2 else 0

def vee (x : WState) (t : Nat) : Nat := veeO x.g.ex (x.w t)

/-- work of and for one worker -/
def wW (s : State) (w : Nat) : Nat :=
  phi (s.cv w).flag (s.pc w) ((s.cv w).ws 0) + 38 * s.wk w + sumTo (s.nn w) (fun j => nu ((s.cv w).ns j))

/-- work of the task graph -/
def gW (cfg : Cfg) (x : WState) : Nat :=
  (80 * x.g.n + 100) * RG.Graph.measure cfg x.g + 40 * sumTo x.g.n (vee x)

def smeasure (cfg : Cfg) (N : Nat) (s : State) : Nat := gW cfg s.x + 39 * s.act.length + sumTo N (wW s)

theorem smeasure_x {a b c : Nat} (h1 : gW cfg s'.x + a ≤ gW cfg s.x) (h2 : s'.act.length ≤ s.act.length + b)
    (h3 : sumTo N (wW s') ≤ sumTo N (wW s) + c) (h4 : 39 * b + c < a) : smeasure cfg N s' < smeasure cfg N s := by
  unfold smeasure
  omega

theorem smeasure_w (h1 : s'.x = s.x) (h2 : s'.act = s.act) (h3 : sumTo N (wW s') < sumTo N (wW s)) :
    smeasure cfg N s' < smeasure cfg N s := by
  unfold smeasure
  rw [h1, h2]
  omega

theorem phi_le (f : Bool) (p : Pc) (q : Cv.WPc) : phi f p q ≤ 28 := by
  cases f <;> cases p <;> try (simp only [phi]; omega)
  all_goals cases q <;> (simp only [phi]; omega)

theorem wW_change {w : Nat} (hw : w < N) (h : ∀ v, v ≠ w → wW s' v = wW s v) :
    sumTo N (wW s') + wW s w = sumTo N (wW s) + wW s' w :=
  sumTo_change hw fun v _ hv => h v hv

theorem wW_same (h1 : s'.cv = s.cv) (h2 : s'.nn = s.nn) (h3 : s'.wk = s.wk) (h4 : s'.pc = s.pc) :
    sumTo N (wW s') = sumTo N (wW s) := by
  have : wW s' = wW s := by funext v; simp only [wW, h1, h2, h3, h4]
  rw [this]

theorem wW_pc_lt {w : Nat} {p : Pc} (hw : w < N) (h1 : s'.cv = s.cv) (h2 : s'.nn = s.nn) (h3 : s'.wk = s.wk)
    (h4 : s'.pc = upd s.pc w p)
    (h5 : phi (s.cv w).flag p ((s.cv w).ws 0) < phi (s.cv w).flag (s.pc w) ((s.cv w).ws 0)) :
    sumTo N (wW s') < sumTo N (wW s) := by
  have := wW_change (s := s) (s' := s') hw (fun v hv => by simp only [wW, h1, h2, h3, h4, upd_ne _ _ hv])
  simp only [wW, h1, h2, h3, h4, upd_same] at this
  omega

theorem wW_pc_le {w : Nat} {p : Pc} (hw : w < N) (h1 : s'.cv = s.cv) (h2 : s'.nn = s.nn) (h3 : s'.wk = s.wk)
    (h4 : s'.pc = upd s.pc w p) : sumTo N (wW s') ≤ sumTo N (wW s) + 28 := by
  have := wW_change (s := s) (s' := s') hw (fun v hv => by simp only [wW, h1, h2, h3, h4, upd_ne _ _ hv])
  simp only [wW, h1, h2, h3, h4, upd_same] at this
  have := phi_le (s.cv w).flag p ((s.cv w).ws 0)
  omega

theorem wW_pc {w : Nat} {p : Pc} (hw : w < N) (h1 : s'.cv = s.cv) (h2 : s'.nn = s.nn) (h3 : s'.wk = s.wk)
    (h4 : s'.pc = upd s.pc w p) :
    sumTo N (wW s') + phi (s.cv w).flag (s.pc w) ((s.cv w).ws 0) =
      sumTo N (wW s) + phi (s.cv w).flag p ((s.cv w).ws 0) := by
  have := wW_change (s := s) (s' := s') hw (fun v hv => by simp only [wW, h1, h2, h3, h4, upd_ne _ _ hv])
  simp only [wW, h1, h2, h3, h4, upd_same] at this
  omega

theorem wW_wk {w : Nat} (hw : w < N) (h1 : s'.cv = s.cv) (h2 : s'.nn = s.nn)
    (h3 : s'.wk = upd s.wk w (s.wk w + 1)) (h4 : s'.pc = s.pc) : sumTo N (wW s') = sumTo N (wW s) + 38 := by
  have := wW_change (s := s) (s' := s') hw (fun v hv => by simp only [wW, h1, h2, h3, h4, upd_ne _ _ hv])
  simp only [wW, h1, h2, h3, h4, upd_same] at this
  omega

/-- a step of the condition variable of worker `w` -/
theorem wW_cv {w : Nat} {c' : Cv.State} {p : Pc} (hw : w < N) (h1 : s'.cv = upd s.cv w c') (h2 : s'.nn = s.nn)
    (h3 : s'.wk = s.wk) (h4 : s'.pc = upd s.pc w p) :
    sumTo N (wW s') + phi (s.cv w).flag (s.pc w) ((s.cv w).ws 0) + sumTo (s.nn w) (fun j => nu ((s.cv w).ns j)) =
      sumTo N (wW s) + phi c'.flag p (c'.ws 0) + sumTo (s.nn w) (fun j => nu (c'.ns j)) := by
  have := wW_change (s := s) (s' := s') hw (fun v hv => by simp only [wW, h1, h2, h3, h4, upd_ne _ _ hv])
  simp only [wW, h1, h2, h3, h4, upd_same] at this
  omega

/-- the flag of a condition variable is reset -/
theorem phi_flag (f : Bool) (p : Pc) (q : Cv.WPc) : phi false p q ≤ phi f p q + 23 := by
  cases f
  · omega
  · cases p <;> try (simp only [phi]; omega)
    cases q <;> (simp only [phi]; omega)

theorem phi_wakeUp (f : Bool) (p : Pc) (q : Cv.WPc) : phi f p (Cv.wakeUp q) ≤ phi f p q + 5 := by
  cases f <;> cases p <;> try (simp only [phi]; omega)
  all_goals cases q <;> (simp only [phi, Cv.wakeUp]; omega)

theorem phi_out {f : Bool} {p : Pc} {q q' : Cv.WPc} (h : p ≠ .waiting) : phi f p q = phi f p q' := by
  cases f <;> cases p <;> first | rfl | exact absurd rfl h

theorem gdec {n m m' : Nat} (h : m' < m) : (80 * n + 100) * m' + (80 * n + 100) ≤ (80 * n + 100) * m := by
  have := Nat.mul_le_mul_left (80 * n + 100) (show m' + 1 ≤ m from h)
  rw [Nat.mul_add] at this
  omega

theorem vee_same {x x' : WState} (h1 : x'.w = x.w) (h2 : ∀ u, x'.g.ex u = .ended ↔ x.g.ex u = .ended) : vee x' = vee x := by
  funext t
  simp only [vee, h1]
  cases x.w t with
  | none => rfl
  | some u => simp only [veeO, h2 u]

theorem sumTo_le2 {n : Nat} {f g : Nat → Nat} (h : ∀ i, g i ≤ f i + 2) : sumTo n g ≤ sumTo n f + 2 * n := by
  induction n with
  | zero => simp [sumTo]
  | succ n ih =>
    have := h n
    simp only [sumTo]
    omega

open RG.Graph in
/-- steps of the task graph decrease its measure -/
theorem gW_dec (ht : NestingOk cfg) {x x' : WState} (hx : WReach cfg x) (h : WStep cfg x x') (h1 : x'.g.n = x.g.n)
    (h2 : x'.g.nExt = x.g.nExt) (h3 : x'.out = x.out) (h4 : x'.w = x.w) : gW cfg x' + 100 ≤ gW cfg x := by
  have hm : measure cfg x'.g < measure cfg x.g := by
    cases h with
    | submitOut h hn => dsimp only at h1; omega
    | submitIn h hn => dsimp only at h1; omega
    | other h hn => exact measure_decreases ht hx.graph h h1 h2
    | @wait t u h hw =>
      have := congrFun h4 t
      dsimp only at this
      rw [upd_same, hw] at this
      cases this
    | @wake t u ks hw =>
      have := congrFun h4 t
      dsimp only at this
      rw [upd_same, hw] at this
      cases this
    | readOut hne hu he hk =>
      dsimp only at h3
      exact absurd (List.append_left_eq_self.1 h3) hne
  have h5 := gdec (n := x.g.n) hm
  have h6 : sumTo x.g.n (vee x') ≤ sumTo x.g.n (vee x) + 2 * x.g.n := by
    apply sumTo_le2
    intro t
    simp only [vee, h4]
    cases x.w t with
    | none => simp [veeO]
    | some u => simp only [veeO]; split <;> split <;> omega
  simp only [gW, h1]
  omega

/-- steps of the condition variable -/
theorem cv_dec {c c' : Cv.State} {p : Pc} {l : Cv.Lbl} {n : Nat} (h : Cv.Step l c c') (hne : c' ≠ c)
    (hl : l = .wait 0 ∨ ∃ j, l = .notify j) (hp : c.ws 0 ≠ .out → p = .waiting) (hn : ∀ j, n ≤ j → c.ns j = .out) :
    phi c'.flag p (c'.ws 0) + sumTo n (fun j => nu (c'.ns j)) <
      phi c.flag p (c.ws 0) + sumTo n (fun j => nu (c.ns j)) := by
  have lt : ∀ {j}, c.ns j ≠ .out → j < n := by
    intro j h
    apply Classical.byContradiction
    intro h'
    exact h (hn j (by omega))
  have i0 : ∀ {i}, (Cv.Lbl.wait i = .wait 0 ∨ ∃ j, Cv.Lbl.wait i = .notify j) → i = 0 := by
    rintro i (h | ⟨j, h⟩) <;> cases h; rfl
  cases h with
  | waitCall h => rcases hl with h | ⟨j, h⟩ <;> cases h
  | notifyCall h => rcases hl with h | ⟨j, h⟩ <;> cases h
  | spurious h => rcases hl with h | ⟨j, h⟩ <;> cases h
  | again h hf => exact absurd rfl hne
  | timeout h hf => obtain rfl := i0 hl; obtain rfl := hp (by rw [h]; simp); simp [hf, h, phi]
  | leave h hf => obtain rfl := i0 hl; obtain rfl := hp (by rw [h]; simp); simp [hf, h, phi]
  | check2T h hf => obtain rfl := i0 hl; obtain rfl := hp (by rw [h]; simp); simp [hf, h, phi]
  | check2F h hf => obtain rfl := i0 hl; obtain rfl := hp (by rw [h]; simp); simp [hf, h, phi]
  | lockM h hm =>
    obtain rfl := i0 hl; obtain rfl := hp (by rw [h]; simp)
    cases hf : c.flag <;> simp [h, phi]
  | sleep h hf => obtain rfl := i0 hl; obtain rfl := hp (by rw [h]; simp); simp [hf, h, phi]
  | predT h hf => obtain rfl := i0 hl; obtain rfl := hp (by rw [h]; simp); simp [hf, h, phi]
  | unlockM h =>
    obtain rfl := i0 hl; obtain rfl := hp (by rw [h]; simp)
    cases hf : c.flag <;> simp [h, phi]
  | relock h hm =>
    obtain rfl := i0 hl; obtain rfl := hp (by rw [h]; simp)
    cases hf : c.flag <;> simp [h, phi]
  | store h =>
    obtain rfl := i0 hl; obtain rfl := hp (by rw [h]; simp)
    cases hf : c.flag <;> simp [h, phi]
  | @cas _ j h =>
    have h1 := sumTo_upd (fun _ p => nu p) c.ns .lockM (lt (j := j) (by rw [h]; simp))
    have h2 := phi_flag c.flag p (c.ws 0)
    simp only [h, nu_out, nu_unlockM, nu_notifyAll, nu_lockM, nu_cas] at h1
    dsimp only
    omega
  | @nLockM _ j h hm =>
    have h1 := sumTo_upd (fun _ p => nu p) c.ns .notifyAll (lt (j := j) (by rw [h]; simp))
    simp only [h, nu_out, nu_unlockM, nu_notifyAll, nu_lockM, nu_cas] at h1
    dsimp only
    omega
  | @notifyAll _ j h =>
    have h1 := sumTo_upd (fun _ p => nu p) c.ns .unlockM (lt (j := j) (by rw [h]; simp))
    have h2 := phi_wakeUp c.flag p (c.ws 0)
    simp only [h, nu_out, nu_unlockM, nu_notifyAll, nu_lockM, nu_cas] at h1
    dsimp only
    omega
  | @nUnlockM _ j h =>
    have h1 := sumTo_upd (fun _ p => nu p) c.ns .out (lt (j := j) (by rw [h]; simp))
    simp only [h, nu_out, nu_unlockM, nu_notifyAll, nu_lockM, nu_cas] at h1
    dsimp only
    omega

open RG.Graph in
theorem smeasure_decreases (ht : NestingOk cfg) (hr : Reach cfg N s) (h : Work cfg N s s') :
    smeasure cfg N s' < smeasure cfg N s := by
  obtain ⟨hs, hid, hn, hx, ho⟩ := h
  have hi := Inv.reach hr
  have hk := KInv.reach hi.wr
  have cvDec : ∀ {w c' l}, w < N → Cv.Step l (s.cv w) c' → (l = .wait 0 ∨ ∃ j, l = .notify j) → c' ≠ s.cv w →
      smeasure cfg N { s with cv := upd s.cv w c' } < smeasure cfg N s := by
    intro w c' l hw hc hl hne
    refine smeasure_w (s := s) rfl rfl ?_
    have h1 := wW_cv (s := s) (s' := { s with cv := upd s.cv w c' }) hw rfl rfl rfl (upd_self _ _).symm
    have h2 := cv_dec (p := s.pc w) hc hne hl
      (fun h => Classical.byContradiction fun h' => h (hi.cvw w h')) (hi.cvn w)
    dsimp only at h1
    omega
  have spin : ∀ {w c'}, c' = s.cv w → { s with cv := upd s.cv w c' } = s := by
    rintro w c' rfl
    rw [upd_self]
  -- a task that begins or ends to wait
  have vdec : ∀ {x' : WState} {t : Nat} {o : Option Nat}, x'.g = s.x.g → x'.w = upd s.x.w t o → t < s.x.g.n →
      veeO s.x.g.ex o < vee s.x t → gW cfg x' + 40 ≤ gW cfg s.x := by
    intro x' t o h1 h2 h3 h4
    have h5 := sumTo_upd (fun _ o => veeO s.x.g.ex o) s.x.w o h3
    have h6 : vee x' = fun u => veeO s.x.g.ex (upd s.x.w t o u) := by
      funext u
      simp only [vee, h1, h2]
    have h7 : vee s.x = fun u => veeO s.x.g.ex (s.x.w u) := rfl
    simp only [gW, h1, h6]
    rw [h7] at h4 ⊢
    dsimp only at h4
    omega
  cases hs with
  | graph h hp hh he hw =>
    exact smeasure_x (b := 0) (c := 0) (gW_dec ht hi.wr h hn hx ho hw) (Nat.le_refl _)
      (Nat.le_of_eq (wW_same rfl rfl rfl rfl)) (by omega)
  | emplace hw h hp hq hq' hh he hww =>
    exact smeasure_x (b := 0) (c := 38) (gW_dec ht hi.wr h hn hx ho hww) (Nat.le_refl _)
      (Nat.le_of_eq (wW_wk hw rfl rfl rfl rfl)) (by omega)
  | ready h hp hh he hww =>
    exact smeasure_x (b := 1) (c := 0) (gW_dec ht hi.wr h hn hx ho hww) (Nat.le_refl _)
      (Nat.le_of_eq (wW_same rfl rfl rfl rfl)) (by omega)
  | @unpause x' t h hg h0 hww =>
    refine smeasure_x (a := 40) (b := 1) (c := 0) ?_ (Nat.le_refl _)
      (Nat.le_of_eq (wW_same rfl rfl rfl rfl)) (by omega)
    cases hw : s.x.w t with
    | none => exact absurd hw h0
    | some u =>
      refine vdec (t := t) (o := none) hg hww (hk.know t u (hk.w t u hw).1).2.1 ?_
      have hu : s.x.g.ex u = .ended := by
        cases h with
        | submitOut h hn' => dsimp only at hn; omega
        | submitIn h hn' => dsimp only at hn; omega
        | other h hn' =>
          have := congrFun hww t
          dsimp only at this
          rw [upd_same, hw] at this
          cases this
        | @wait t' u' h hw' =>
          have := congrFun hww t'
          dsimp only at this
          by_cases e : t' = t
          · subst e; rw [hw'] at hw; cases hw
          · rw [upd_same, upd_ne _ _ e, hw'] at this; cases this
        | @wake t' u' ks hw' hu' =>
          have := congrFun hww t'
          dsimp only at this
          by_cases e : t' = t
          · subst e; rw [hw'] at hw; cases hw; exact hu'
          · rw [upd_same, upd_ne _ _ e, hw'] at this; cases this
        | readOut hne =>
          have := congrFun hww t
          dsimp only at this
          rw [upd_same, hw] at this
          cases this
      simp only [vee, veeO, hw, hu, if_true]
      omega
  | @activate t w hw h =>
    have h1 := wW_wk (N := N) (s := s)
      (s' := { s with act := s.act.erase t, ready := upd s.ready w (t :: s.ready w), wk := upd s.wk w (s.wk w + 1) })
      hw rfl rfl rfl rfl
    have h2 := List.length_erase_of_mem h
    have h3 := List.length_pos_of_mem h
    unfold smeasure
    dsimp only at h1 ⊢
    omega
  | @wake w cv' hw h hc =>
    refine smeasure_w (s := s) rfl rfl ?_
    have h1 := wW_change (N := N) (s := s)
      (s' := { s with wk := upd s.wk w (s.wk w - 1), nn := upd s.nn w (s.nn w + 1), cv := upd s.cv w cv' }) hw
      (fun v hv => by simp only [wW, upd_ne _ _ hv])
    generalize hcv : s.cv w = c at hc
    cases hc with
    | notifyCall hc =>
      have h2 : sumTo (s.nn w) (fun j => nu (upd c.ns (s.nn w) .cas j)) = sumTo (s.nn w) (fun j => nu (c.ns j)) := by
        apply sumTo_congr
        intro j hj
        rw [upd_ne _ _ (by omega)]
      simp only [wW, upd_same, hcv, sumTo, h2, nu_cas] at h1 ⊢
      omega
  | noise hw hc => exact absurd (.noise hc) hid
  | @notify w j cv' hw hc =>
    by_cases e : cv' = s.cv w
    · rw [spin e] at hid
      exact absurd .spin hid
    · exact cvDec hw hc (.inr ⟨j, rfl⟩) e
  | spurious hw hc => exact absurd (.spurious hc) hid
  | @sleep w cv' hw h hc =>
    refine smeasure_w (s := s) rfl rfl ?_
    have h1 := wW_cv (N := N) (s := s) (s' := { s with pc := upd s.pc w .waiting, cv := upd s.cv w cv' }) hw rfl rfl rfl rfl
    generalize hcv : s.cv w = c at hc h1
    cases hc with
    | waitCall hc =>
      rw [h] at h1
      dsimp only at h1 ⊢
      cases hf : c.flag <;> simp only [upd_same, phi, hf] at h1 <;> omega
  | @wait w cv' hw hc =>
    by_cases e : cv' = s.cv w
    · rw [spin e] at hid
      exact absurd .spin hid
    · exact cvDec hw hc (.inl rfl) e
  | @woken w hw h hc =>
    refine smeasure_w rfl rfl (wW_pc_lt hw rfl rfl rfl rfl ?_)
    rw [h, hc]
    cases (s.cv w).flag <;> simp [phi]
  | @popReady w t hw h hq =>
    refine smeasure_w rfl rfl (wW_pc_lt hw rfl rfl rfl rfl ?_)
    rw [h]
    cases (s.cv w).flag <;> simp [phi]
  | @noReady w hw h hq =>
    refine smeasure_w rfl rfl (wW_pc_lt hw rfl rfl rfl rfl ?_)
    rw [h]
    cases (s.cv w).flag <;> simp [phi]
  | popNew hw h hq hs hp hi' hh he hww =>
    exact smeasure_x (b := 0) (c := 28) (gW_dec ht hi.wr hs hn hx ho hww) (Nat.le_refl _)
      (wW_pc_le hw rfl rfl rfl rfl) (by omega)
  | @noNew w hw h hq =>
    refine smeasure_w rfl rfl (wW_pc_lt hw rfl rfl rfl rfl ?_)
    rw [h]
    cases (s.cv w).flag <;> simp [phi]
  | initStep hw h hs hp hi' hc hh he hww =>
    exact smeasure_x (b := 0) (c := 0) (gW_dec ht hi.wr hs hn hx ho hww) (Nat.le_refl _)
      (Nat.le_of_eq (wW_same rfl rfl rfl rfl)) (by omega)
  | initReady hw h hs hp hi' hh he hww =>
    exact smeasure_x (b := 0) (c := 28) (gW_dec ht hi.wr hs hn hx ho hww) (Nat.le_refl _)
      (wW_pc_le hw rfl rfl rfl rfl) (by omega)
  | initBlocked hw h hs hp hi' hh he hww =>
    exact smeasure_x (b := 0) (c := 28) (gW_dec ht hi.wr hs hn hx ho hww) (Nat.le_refl _)
      (wW_pc_le hw rfl rfl rfl rfl) (by omega)
  | stolenBlocked hw h hs hp hi' hh he hww =>
    exact smeasure_x (b := 0) (c := 28) (gW_dec ht hi.wr hs hn hx ho hww) (Nat.le_refl _)
      (wW_pc_le hw rfl rfl rfl rfl) (by omega)
  | @stealReady w v t hw hv h hq =>
    refine smeasure_w rfl rfl (wW_pc_lt hw rfl rfl rfl rfl ?_)
    rw [h]
    cases (s.cv w).flag <;> simp [phi]
  | @noStealReady w hw h =>
    refine smeasure_w rfl rfl (wW_pc_lt hw rfl rfl rfl rfl ?_)
    rw [h]
    cases (s.cv w).flag <;> simp [phi]
  | stealNew hw hv h hq hs hp hi' hh he hww =>
    exact smeasure_x (b := 0) (c := 28) (gW_dec ht hi.wr hs hn hx ho hww) (Nat.le_refl _)
      (wW_pc_le hw rfl rfl rfl rfl) (by omega)
  | @noStealNew w hw h =>
    refine smeasure_w rfl rfl (wW_pc_lt hw rfl rfl rfl rfl ?_)
    rw [h]
    cases (s.cv w).flag <;> simp [phi]
  | start hw h hs hp hh h0 he hww =>
    exact smeasure_x (b := 0) (c := 28) (gW_dec ht hi.wr hs hn hx ho hww) (Nat.le_refl _)
      (wW_pc_le hw rfl rfl rfl rfl) (by omega)
  | @resume w t hw h hr =>
    refine smeasure_w rfl rfl (wW_pc_lt hw rfl rfl rfl rfl ?_)
    rw [h]
    cases (s.cv w).flag <;> simp [phi]
  | @pause x' w t u hw h hs hg h0 hu hww =>
    refine smeasure_x (a := 40) (b := 0) (c := 28) ?_ (Nat.le_refl _) (wW_pc_le hw rfl rfl rfl rfl) (by omega)
    have htn : t < s.x.g.n := by
      have h1 := hi.cntExec t
      have h2 := le_sumTo (f := fun w => execW t (s.pc w)) hw
      simp only [h, execW_exec, if_true] at h2
      have h3 : s.x.g.ex t = .running := by
        apply Classical.byContradiction
        intro h3
        rw [if_neg (fun h4 => h3 h4.1)] at h1
        omega
      apply Classical.byContradiction
      intro h4
      rw [(Dom.reach hi.wr.graph).ex t (by omega)] at h3
      cases h3
    refine vdec (t := t) (o := some u) hg hww htn ?_
    simp only [vee, veeO, h0, if_neg hu]
    omega
  | bodyEnd hw h hs hp hh h0 he hk' hww =>
    exact smeasure_x (b := 0) (c := 28) (gW_dec ht hi.wr hs hn hx ho hww) (Nat.le_refl _)
      (wW_pc_le hw rfl rfl rfl rfl) (by omega)

end RG.Sys
