import Verif.Model.Demote
import Verif.Props.GraphFalse
/-
Property C22: demotion releases exactly the tasks that no longer conflict.
-/
set_option linter.unusedVariables false
namespace RG.Graph

variable {cfg : Cfg} {s s' : State}

theorem filter_ne_eq {f : Fol} {l : List Fol} (h : f ∉ l) : l.filter (· ≠ f) = l := by
  rw [List.filter_eq_self]
  intro a ha
  simp only [ne_eq, decide_not, Bool.not_eq_eq_eq_not, Bool.not_true, decide_eq_false_iff_not]
  rintro rfl
  exact h ha

/-- number of notifications of follower `f` -/
def hits (cfg : Cfg) (p : Nat) (rem : List Fol) (f : Fol) : Nat :=
  if f ∈ rem ∧ cfg.serial p f.task = false then 1 else 0

theorem notify_fol (s : State) (f : Fol) : (s.notify f).fol = s.fol := by cases f <;> rfl
theorem notify_pnd (s : State) (f : Fol) : (s.notify f).pnd = s.pnd := by cases f <;> rfl

/-- what the loop does to the lists and counters -/
theorem updateLoop_spec (cfg : Cfg) (p : Nat) : ∀ (rem : List Fol) (s : State),
    let s' := updateLoop cfg p rem s
    s'.fol p = (s.fol p).filter (fun f => decide (f ∉ rem) || cfg.serial p f.task) ∧
    (∀ q, q ≠ p → s'.fol q = s.fol q) ∧
    (∀ t, s'.pre t = s.pre t - hits cfg p rem (.pre t)) ∧
    (∀ q, s'.post q = s.post q - hits cfg p rem (.post q)) ∧
    (∀ t, s'.handed t = if hits cfg p rem (.pre t) = 1 ∧ s.pre t = 2 then s.handed t + 1 else s.handed t) ∧
    s'.ex = s.ex ∧ s'.ph = s.ph ∧ s'.n = s.n ∧
    ((∀ q, hits cfg p rem (.post q) = 0) → s'.fl = s.fl) := by
  intro rem s
  induction rem, s using updateLoop.induct cfg p with
  | case1 s =>
    simp only [updateLoop]
    refine ⟨(List.filter_eq_self.2 (by simp)).symm, ?_⟩
    simp [hits]
  | case2 f rem s hs ih =>
    dsimp only at ih ⊢
    rw [updateLoop, if_pos hs]
    obtain ⟨h1, h2, h3, h4, h5, h6⟩ := ih
    have hh : ∀ g, hits cfg p (f :: rem) g = hits cfg p rem g := by
      intro g
      unfold hits
      by_cases hg : g = f
      · subst hg; simp [hs]
      · simp [hg]
    refine ⟨?_, h2, ?_, ?_, ?_, h6.1, h6.2.1, h6.2.2.1, fun h => h6.2.2.2 (fun q => by rw [← hh]; exact h q)⟩
    · rw [h1]
      apply List.filter_congr
      intro g _
      by_cases hg : g = f
      · subst hg; simp [hs]
      · simp [hg]
    · intro t; rw [hh]; exact h3 t
    · intro t; rw [hh]; exact h4 t
    · intro t; rw [hh]; exact h5 t
  | case3 f rem s hs ih =>
    dsimp only at ih ⊢
    rw [updateLoop, if_neg hs]
    obtain ⟨h1, h2, h3, h4, h5, h6, h7, h8, h9⟩ := ih
    have hf : cfg.serial p f.task = false := by simpa using hs
    have hh : ∀ g, hits cfg p (f :: rem) g = if g = f then 1 else hits cfg p (dropAll f rem) g := by
      intro g
      unfold hits
      by_cases hg : g = f
      · subst hg; simp [hf]
      · simp [hg, dropAll]
    have h0 : hits cfg p (dropAll f rem) f = 0 := by simp [hits, dropAll]
    refine ⟨?_, ?_, ?_, ?_, ?_, ?_, ?_, ?_, ?_⟩
    · rw [h1, notify_fol]
      simp only [State.eraseFol, dropAll, upd_same, List.filter_filter]
      apply List.filter_congr
      intro g _
      by_cases hg : g = f
      · subst hg; simp [hf]
      · simp [hg]
    · intro q hq
      rw [h2 q hq, notify_fol]
      simp only [State.eraseFol]
      rw [upd_ne _ _ hq]
    · intro t
      rw [h3, hh]
      by_cases hg : Fol.pre t = f
      · subst hg
        rw [h0]
        simp [State.notify, State.decPre, State.eraseFol]
      · rw [if_neg hg]
        cases f with
        | pre u =>
          have : t ≠ u := by rintro rfl; exact hg rfl
          simp [State.notify, State.decPre, State.eraseFol, upd_ne _ _ this]
        | post u => rfl
    · intro t
      rw [h4, hh]
      by_cases hg : Fol.post t = f
      · subst hg
        rw [h0]
        simp [State.notify, State.decPost, State.eraseFol]
      · rw [if_neg hg]
        cases f with
        | post u =>
          have : t ≠ u := by rintro rfl; exact hg rfl
          simp [State.notify, State.decPost, State.eraseFol, upd_ne _ _ this]
        | pre u => rfl
    · intro t
      rw [h5, hh]
      by_cases hg : Fol.pre t = f
      · subst hg
        rw [h0]
        simp only [State.notify, State.decPre, State.eraseFol, upd_same]
        by_cases h2 : s.pre t = 2 <;> simp [h2]
      · rw [if_neg hg]
        cases f with
        | pre u =>
          have : t ≠ u := by rintro rfl; exact hg rfl
          simp [State.notify, State.decPre, State.eraseFol, upd_ne _ _ this]
        | post u => rfl
    · rw [h6]; cases f <;> rfl
    · rw [h7]; cases f <;> rfl
    · rw [h8]; cases f <;> rfl
    · intro h
      rw [h9]
      · cases f with
        | pre u => rfl
        | post u =>
          have := h u
          rw [hh, if_pos rfl] at this
          cases this
      · intro q
        have := h q
        rw [hh] at this
        split at this
        · cases this
        · exact this

theorem updateProperties_ok {p : Nat} {patch : List Diff} {cfg' : Cfg} {s' : State}
    (hup : updateProperties cfg p patch s = (cfg', s', true)) :
    cfg' = cfg.setUser p ((cfg.user p).applyPatch patch).1 ∧ s' = updateLoop cfg' p (s.fol p) s := by
  unfold updateProperties at hup
  dsimp only at hup
  split at hup <;> cases hup
  exact ⟨rfl, rfl⟩

theorem serial_setUser {p t : Nat} {u : User} (ht : t ≠ p) :
    (cfg.setUser p u).serial p t = u.isSerial (cfg.user t) := by
  simp [Cfg.serial, Cfg.setUser, upd_ne _ _ ht]

/-- facts about a running task -/
theorem running_facts (hn : NestingOk cfg) (hr : Reach cfg s) {p : Nat} (hp : s.ex p = .running) :
    s.post p ≠ 0 ∧ s.pnd p = s.fol p ∧ (∀ q, Fol.post q ∈ s.fol p → cfg.parentOf p = some q ∧ q ≠ p) ∧
      Fol.pre p ∉ s.fol p := by
  have hi := Core.reach hn hr
  have hd := Dom.reach hr
  have hf : s.fl p = .idle := hi.idle_of_body p (by simp [hp])
  have hpn := hi.pndIdle p hf
  have hlt : p < s.n := by
    apply Decidable.byContradiction
    intro h
    rw [hd.ex p (by omega)] at hp
    cases hp
  refine ⟨(hi.flPost p).1 hf, hpn, ?_, ?_⟩
  · intro q hq
    have := hi.tgtPost p q (by rw [hpn]; exact hq)
    exact ⟨this, fun e => by have := (hd.par p q hlt this).1; omega⟩
  · intro h
    exact started_not_pending hd hi (t := p) (p := p) (by simp [hp]) (by rw [hpn]; exact h)

/-- C22: which tasks wait for a task after an accepted demotion: those that waited for it before and
conflict with its remaining accesses. Partial because of the counterexamples below: a task that does
not wait any more is ready only if it has been linked once. -/
theorem C22_waiting_after_partial (hn : NestingOk cfg) (hr : Reach cfg s) {p : Nat} (hp : s.ex p = .running)
    {patch : List Diff} {cfg' : Cfg} {s' : State} (hup : updateProperties cfg p patch s = (cfg', s', true))
    (t : Nat) : Waits s' t p ↔
      Waits s t p ∧ ConflictOnSomeResource (cfg'.user p).access (cfg.user t).access := by
  obtain ⟨hp0, -, hpost, hpre⟩ := running_facts hn hr hp
  obtain ⟨rfl, rfl⟩ := updateProperties_ok hup
  obtain ⟨h1, h2, h3, h4, h5⟩ := updateLoop_spec (cfg.setUser p ((cfg.user p).applyPatch patch).1) p (s.fol p) s
  have hpp : Fol.post p ∉ s.fol p := fun h => (hpost p h).2 rfl
  unfold Waits
  rw [h1, h4, List.mem_filter, ← C07_conflict_iff]
  simp only [hits, hpp, false_and, if_false, Nat.sub_zero]
  by_cases ht : t = p
  · subst ht; simp [hpre]
  · have := serial_setUser (cfg := cfg) (u := ((cfg.user p).applyPatch patch).1) ht
    simp only [Fol.task, this]
    have : (cfg.setUser p ((cfg.user p).applyPatch patch).1).user p = ((cfg.user p).applyPatch patch).1 := by
      simp [Cfg.setUser]
    rw [this]
    grind

/-- C22: a demotion does not change anything for a task that still conflicts with the running task, nor
for one that did not wait for it. -/
theorem C22_others_unchanged (hn : NestingOk cfg) (hr : Reach cfg s) {p : Nat} (hp : s.ex p = .running)
    {patch : List Diff} {cfg' : Cfg} {s' : State} (hup : updateProperties cfg p patch s = (cfg', s', true))
    {t : Nat} (ht : ¬ Waits s t p ∨ ConflictOnSomeResource (cfg'.user p).access (cfg.user t).access) :
    s'.pre t = s.pre t ∧ s'.handed t = s.handed t ∧ s'.ex t = s.ex t ∧
      ∀ q, Fol.pre t ∈ s.fol q → Fol.pre t ∈ s'.fol q := by
  have hw := C22_waiting_after_partial hn hr hp hup t
  obtain ⟨hp0, -, hpost, hpre⟩ := running_facts hn hr hp
  obtain ⟨rfl, rfl⟩ := updateProperties_ok hup
  obtain ⟨h1, h2, h3, h4, h5, h6, -, -, -⟩ := updateLoop_spec (cfg.setUser p ((cfg.user p).applyPatch patch).1) p (s.fol p) s
  have h0 : hits (cfg.setUser p ((cfg.user p).applyPatch patch).1) p (s.fol p) (.pre t) = 0 := by
    unfold hits
    rw [if_neg]
    rintro ⟨ha, hb⟩
    have htp : t ≠ p := by rintro rfl; exact hpre ha
    rcases ht with h | h
    · exact h ⟨ha, hp0⟩
    · rw [← C07_conflict_iff] at h
      simp only [Fol.task, serial_setUser htp] at hb
      simp [Cfg.setUser, hb] at h
  refine ⟨by rw [h3, h0, Nat.sub_zero], by rw [h5, h0]; simp, by rw [h6], ?_⟩
  intro q hq
  by_cases e : q = p
  · subst e
    have hq' : Waits s t q := ⟨hq, hp0⟩
    exact (hw.2 ⟨hq', ht.resolve_left (fun h => h hq')⟩).1
  · rw [h2 q e]; exact hq

theorem sumTo_single {n : Nat} {f : Nat → Nat} {p : Nat} (hp : p < n) (h : ∀ q, q < n → q ≠ p → f q = 0) :
    sumTo n f = f p := by
  have h0 : ∀ m, sumTo m (fun _ => 0) = 0 := by
    intro m
    induction m with
    | zero => rfl
    | succ m ih => simp [sumTo, ih]
  have := sumTo_change (f := fun _ => 0) (g := f) hp (fun u hu hne => h u hu hne)
  rw [h0] at this
  omega

/-- C22: a waiting task that conflicts only because of the removed accesses is released: if it has been
linked to the running task once, and does not wait for another one, it is given to a worker.
Partial: tasks that share several resources with the running task are linked several times, and are
not released (see below). -/
theorem C22_released_partial (hn : NestingOk cfg) (hr : Reach cfg s) {p : Nat} (hp : s.ex p = .running)
    {patch : List Diff} {cfg' : Cfg} {s' : State} (hup : updateProperties cfg p patch s = (cfg', s', true))
    {t : Nat} (hinit : s.ph t = .inited) (honce : (s.fol p).count (.pre t) = 1)
    (hother : ∀ q, q ≠ p → Fol.pre t ∉ s.pnd q)
    (hc : ¬ ConflictOnSomeResource (cfg'.user p).access (cfg.user t).access) :
    s.handed t = 0 ∧ s'.pre t = 1 ∧ s'.handed t = 1 ∧ ∀ q, Fol.pre t ∉ s'.fol q ∨ Fol.pre t ∉ s.pnd q := by
  obtain ⟨hp0, hpn, hpost, hpre⟩ := running_facts hn hr hp
  have hi := Core.reach hn hr
  have hd := Dom.reach hr
  have hmem : Fol.pre t ∈ s.fol p := List.count_pos_iff.1 (by omega)
  have htp : t ≠ p := by rintro rfl; exact hpre hmem
  have hlt : p < s.n := by
    apply Decidable.byContradiction
    intro h
    rw [hd.ex p (by omega)] at hp
    cases hp
  have hex : s.ex t = .none := by
    apply Decidable.byContradiction
    intro h
    exact started_not_pending hd hi h (p := p) (by rw [hpn]; exact hmem)
  have hc2 : s.pre t = 2 := by
    rw [hi.preEq, hex, hinit, cpre, sumTo_single hlt]
    · simp [own, guard, wpre, hpn, honce, hinit, linking]
    · intro q _ hq
      simp [wpre, List.count_eq_zero.2 (hother q hq)]
  have hh : s.handed t = 0 := by rw [hi.handedEq, hc2]; simp
  obtain ⟨rfl, rfl⟩ := updateProperties_ok hup
  obtain ⟨h1, h2, h3, h4, h5, h6, -, -, -⟩ := updateLoop_spec (cfg.setUser p ((cfg.user p).applyPatch patch).1) p (s.fol p) s
  have hser : (cfg.setUser p ((cfg.user p).applyPatch patch).1).serial p (Fol.pre t).task = false := by
    rw [← C07_conflict_iff] at hc
    simp only [Fol.task, serial_setUser htp]
    simpa [Cfg.setUser] using hc
  have h1' : hits (cfg.setUser p ((cfg.user p).applyPatch patch).1) p (s.fol p) (.pre t) = 1 := by
    simp [hits, hmem, hser]
  refine ⟨hh, by rw [h3, h1', hc2], by rw [h5, h1', hc2, hh]; rfl, ?_⟩
  intro q
  by_cases e : q = p
  · subst e
    left
    rw [h1, List.mem_filter]
    simp [hmem, hser]
  · exact .inr (hother q e)

/-- C22: the parent of the running task still waits for it, if the remaining accesses conflict with those
of the parent. Missing: the other case, in which the parent is released too early (see below). -/
theorem C22_parent_waits_partial (hn : NestingOk cfg) (hr : Reach cfg s) {p : Nat} (hp : s.ex p = .running)
    {patch : List Diff} {cfg' : Cfg} {s' : State} (hup : updateProperties cfg p patch s = (cfg', s', true))
    {q : Nat} (hq : cfg.parentOf p = some q)
    (hc : ConflictOnSomeResource (cfg'.user p).access (cfg.user q).access) :
    Fol.post q ∈ s'.fol p ∧ s'.post q = s.post q := by
  obtain ⟨hp0, hpn, hpost, hpre⟩ := running_facts hn hr hp
  have hi := Core.reach hn hr
  have hin : s.ph p = .inited := (hi.exI p (by simp [hp])).1
  have hmem : Fol.post q ∈ s.fol p := by
    rw [← hpn]
    exact (hi.finalI p q hq (.inr hin)).resolve_left hp0
  have hne := (hpost q hmem).2
  obtain ⟨rfl, rfl⟩ := updateProperties_ok hup
  obtain ⟨h1, h2, h3, h4, h5, h6, -, -, -⟩ := updateLoop_spec (cfg.setUser p ((cfg.user p).applyPatch patch).1) p (s.fol p) s
  have hser : (cfg.setUser p ((cfg.user p).applyPatch patch).1).serial p (Fol.post q).task = true := by
    rw [← C07_conflict_iff] at hc
    simp only [Fol.task, serial_setUser hne]
    simpa [Cfg.setUser] using hc
  constructor
  · rw [h1, List.mem_filter]
    exact ⟨hmem, by simp [hser]⟩
  · rw [h4]
    simp [hits, hser]

/-! ### Counterexamples -/

/-- A task that is initialised, in no list of followers and not given to a worker. -/
def Forgotten (t : Nat) (s : State) : Prop :=
  s.ph t = .inited ∧ s.handed t = 0 ∧ s.ex t = .none ∧ (∀ p, Fol.pre t ∉ s.fol p) ∧
    ∀ p rem, s.fl p = .notifying rem → Fol.pre t ∉ rem

theorem Forgotten.step {t : Nat} (h : Forgotten t s) {l : Lbl} (ht : t < s.n) (hs : Step cfg l s s') :
    Forgotten t s' ∧ t < s'.n := by
  obtain ⟨h1, h2, h3, h4, h5⟩ := h
  refine ⟨⟨?_, ?_, ?_, ?_, ?_⟩, ?_⟩
  · cases hs <;> first | exact h1 | (try dsimp only [State.decPost, State.decPre, State.decCd]) <;> grind [upd]
  · cases hs <;> first | exact h2 | (try dsimp only [State.decPost, State.decPre, State.decCd]) <;> grind [upd]
  · cases hs <;> first | exact h3 | (try dsimp only [State.decPost, State.decPre, State.decCd]) <;> grind [upd]
  · cases hs <;> first | exact h4 | (try dsimp only [State.decPost, State.decPre, State.decCd]) <;> grind [upd]
  · cases hs <;> first | exact h5 | (try dsimp only [State.decPost, State.decPre, State.decCd]) <;> grind [upd]
  · cases hs <;> first | exact ht | (try dsimp only [State.decPost, State.decPre, State.decCd]) <;> grind [upd]

theorem Forgotten.steps {t : Nat} (h : Forgotten t s) (ht : t < s.n) (hs : Steps cfg s s') :
    Forgotten t s' := by
  have : Forgotten t s' ∧ t < s'.n := by
    induction hs with
    | refl => exact ⟨h, ht⟩
    | step _ h1 ih => exact ih.1.step ih.2 h1
  exact this.1

/-- task 0 writes two resources, task 1 reads both -/
def dblAcc : Nat → List (Res × Mode)
  | 0 => [(rA, .write), (rB, .write)]
  | 1 => [(rA, .read), (rB, .read)]
  | _ => []

def dbl : Cfg := prog dblAcc (fun _ => 0) (fun _ => none) true true

def dblRun : State :=
  run dbl init (doSubmit 0 ++ doSubmit 1 ++ doInit 0 ++ doInit 1 ++ [.start 0])

def dblPatch : List Diff := [.remove ⟨.io, rA, Mode.write⟩, .remove ⟨.io, rB, Mode.write⟩]

/-- C22 is false: a task that waits for the running task because of two resources is never executed
after the running task has given up both: the demotion removes both links, but decrements the counter of
the waiting task once. -/
theorem C22_linked_twice_never_released_false :
    ∃ (cfg : Cfg) (s s' : State) (cfg' : Cfg) (p t : Nat) (patch : List Diff),
      cfg.WellFormed ∧ NestingOk cfg ∧ Reach cfg s ∧ s.ex p = .running ∧ Waits s t p ∧
      updateProperties cfg p patch s = (cfg', s', true) ∧ (cfg'.user p).access = [] ∧
      ∀ s'', Steps cfg' s' s'' → ¬ Started s'' t := by
  refine ⟨dbl, dblRun, (updateProperties dbl 0 dblPatch dblRun).2.1,
    (updateProperties dbl 0 dblPatch dblRun).1, 0, 1, dblPatch, prog_wellFormed .., .inl rfl, run_init _,
    by decide +kernel, by unfold Waits; decide +kernel, ?_, ?_, ?_⟩
  · have : (updateProperties dbl 0 dblPatch dblRun).2.2 = true := by decide +kernel
    rw [← this]
  · have h1 : (((dbl.user 0).applyPatch dblPatch).1).access.length = 0 := by decide +kernel
    have h2 : ((updateProperties dbl 0 dblPatch dblRun).1.user 0) = ((dbl.user 0).applyPatch dblPatch).1 := by
      unfold updateProperties
      dsimp only
      split <;> simp [Cfg.setUser]
    rw [h2]
    exact List.length_eq_zero_iff.1 h1
  · intro s'' hs
    have hr : Reach dbl dblRun := run_init _
    have ok : updateProperties dbl 0 dblPatch dblRun =
        ((updateProperties dbl 0 dblPatch dblRun).1, (updateProperties dbl 0 dblPatch dblRun).2.1, true) := by
      have : (updateProperties dbl 0 dblPatch dblRun).2.2 = true := by decide +kernel
      rw [← this]
    have hf : Forgotten 1 (updateProperties dbl 0 dblPatch dblRun).2.1 := by
      obtain ⟨e1, e2⟩ := updateProperties_ok ok
      obtain ⟨-, h2, -, -, -, -, -, -, h9⟩ :=
        updateLoop_spec (updateProperties dbl 0 dblPatch dblRun).1 0 (dblRun.fol 0) dblRun
      rw [← e2] at h2 h9
      have hd := Dom.reach hr
      have hi := Core.reach (.inl rfl) hr
      have hn : dblRun.n = 2 := by decide +kernel
      refine ⟨by decide +kernel, by decide +kernel, by decide +kernel, ?_, ?_⟩
      · intro p
        by_cases hp : p = 0
        · subst hp; decide +kernel
        · rw [h2 p hp]
          by_cases hp1 : p = 1
          · subst hp1; decide +kernel
          · rw [hd.fol p (by omega)]; simp
      · intro p rem hrem
        rw [h9] at hrem
        · have : dblRun.fl p = .idle := by
            apply hi.idle_of_body
            by_cases hp : p = 0
            · subst hp; decide +kernel
            · by_cases hp1 : p = 1
              · subst hp1; decide +kernel
              · rw [hd.ex p (by omega)]; simp
          rw [this] at hrem
          cases hrem
        · intro q
          have : dblRun.fol 0 = [.pre 1, .pre 1] := by decide +kernel
          rw [this]
          simp [hits]
    have := hf.steps (by decide +kernel) hs
    exact fun h => h this.2.2.1

/-- the child of `nest` demoted while it runs, its parent has returned -/
def childRun : State :=
  run (nest true) init (doSubmit 0 ++ doInit 0 ++ [.start 0] ++ doSubmit 1 ++ doInit 1 ++ [.start 1, .ret 0])

/-- C22 is false: the demotion of a nested task releases its parent, which finishes although its child
is running. -/
theorem C22_parent_released_false :
    ∃ (cfg : Cfg) (s s' : State) (cfg' : Cfg) (p q : Nat) (patch : List Diff),
      cfg.WellFormed ∧ NestingOk cfg ∧ Reach cfg s ∧ s.ex p = .running ∧ cfg.parentOf p = some q ∧
      s.post q ≠ 0 ∧ updateProperties cfg p patch s = (cfg', s', true) ∧ s'.ex p = .running ∧ s'.post q = 0 := by
  refine ⟨nest true, childRun, (updateProperties (nest true) 1 [.remove ⟨.io, rA, Mode.read⟩] childRun).2.1,
    (updateProperties (nest true) 1 [.remove ⟨.io, rA, Mode.read⟩] childRun).1, 1, 0,
    [.remove ⟨.io, rA, Mode.read⟩], prog_wellFormed .., .inl rfl, run_init _,
    by decide +kernel, by decide +kernel, by decide +kernel, ?_, by decide +kernel, by decide +kernel⟩
  have : (updateProperties (nest true) 1 [.remove ⟨.io, rA, Mode.read⟩] childRun).2.2 = true := by
    decide +kernel
  exact Prod.ext rfl (Prod.ext rfl this)

/-- C22: a patch that is rejected (see C09: most patches that leave an access) releases nobody. -/
theorem C22_rejected_releases_nobody_partial {p : Nat} {patch : List Diff} {cfg' : Cfg} {s' : State}
    (hup : updateProperties cfg p patch s = (cfg', s', false)) : s' = s := by
  unfold updateProperties at hup
  dsimp only at hup
  split at hup <;> cases hup
  rfl

def demotePatch : List Diff := [.remove ⟨.io, rA, Mode.write⟩, .add ⟨.io, rA, Mode.read⟩]

def demoteRun : State :=
  run flat init (doSubmit 0 ++ doSubmit 1 ++ doInit 0 ++ doInit 1 ++ [.start 0])

/-- C22 is false: a task that writes a resource and demotes its access to reading does not release a
task that waits in order to read the resource. -/
theorem C22_demoted_writer_releases_no_reader_false :
    ∃ (cfg : Cfg) (s s' : State) (cfg' : Cfg) (p t : Nat) (patch : List Diff),
      cfg.WellFormed ∧ NestingOk cfg ∧ Reach cfg s ∧ s.ex p = .running ∧ Waits s t p ∧
      updateProperties cfg p patch s = (cfg', s', false) ∧
      ¬ ConflictOnSomeResource (cfg'.user p).access (cfg.user t).access ∧ Waits s' t p := by
  have h0 : (updateProperties flat 0 demotePatch demoteRun).2.2 = false := by decide +kernel
  have hup : updateProperties flat 0 demotePatch demoteRun =
      ((updateProperties flat 0 demotePatch demoteRun).1, (updateProperties flat 0 demotePatch demoteRun).2.1, false) := by
    rw [← h0]
  have hw : Waits demoteRun 1 0 := by unfold Waits; decide +kernel
  refine ⟨flat, demoteRun, _, _, 0, 1, demotePatch, prog_wellFormed .., .inl rfl, run_init _,
    by decide +kernel, hw, hup, ?_, ?_⟩
  · rw [← C07_conflict_iff]
    decide +kernel
  · rw [C22_rejected_releases_nobody_partial hup]; exact hw

/-! ### The hypotheses can be met -/

/-- task 0 writes A and runs, tasks 1 (reads A) waits for it; task 0 gives up A -/
example : ∃ s cfg' s', Reach flat s ∧ s.ex 0 = .running ∧ s.ph 1 = .inited ∧ (s.fol 0).count (.pre 1) = 1 ∧
    updateProperties flat 0 [.remove ⟨.io, rA, Mode.write⟩] s = (cfg', s', true) ∧
    s.handed 1 = 0 ∧ s'.handed 1 = 1 := by
  have h0 : (updateProperties flat 0 [.remove ⟨.io, rA, Mode.write⟩] demoteRun).2.2 = true := by decide +kernel
  refine ⟨demoteRun, (updateProperties flat 0 [.remove ⟨.io, rA, Mode.write⟩] demoteRun).1,
    (updateProperties flat 0 [.remove ⟨.io, rA, Mode.write⟩] demoteRun).2.1, run_init _, by decide +kernel,
    by decide +kernel, by decide +kernel, ?_, by decide +kernel, by decide +kernel⟩
  rw [← h0]

/-- a parent and its child (task 1) both access A and C; C has been created in a deeper scope -/
def deepAcc : Nat → List (Res × Mode)
  | 0 => [(rA, .write), (⟨3, 1⟩, .write)]
  | 1 => [(rA, .read), (⟨3, 1⟩, .read)]
  | _ => []

def deep : Cfg := prog deepAcc nestSpace nestParent true true

def deepRun : State :=
  run deep init (doSubmit 0 ++ doInit 0 ++ [.start 0] ++ doSubmit 1 ++ doInit 1 ++ [.start 1])

/-- the child gives up A only -/
example : ∃ cfg' s', Reach deep deepRun ∧ deepRun.ex 1 = .running ∧ deep.parentOf 1 = some 0 ∧
    updateProperties deep 1 [.remove ⟨.io, rA, Mode.read⟩] deepRun = (cfg', s', true) ∧
    ConflictOnSomeResource (cfg'.user 1).access (deep.user 0).access := by
  have h0 : (updateProperties deep 1 [.remove ⟨.io, rA, Mode.read⟩] deepRun).2.2 = true := by decide +kernel
  refine ⟨(updateProperties deep 1 [.remove ⟨.io, rA, Mode.read⟩] deepRun).1,
    (updateProperties deep 1 [.remove ⟨.io, rA, Mode.read⟩] deepRun).2.1, run_init _, by decide +kernel,
    by decide +kernel, Prod.ext rfl (Prod.ext rfl h0), ?_⟩
  rw [← C07_conflict_iff]
  decide +kernel

/-! ### demotion and initialisation at the same time -/

/-- task 0 writes A, task 1 writes B, task 2 writes both -/
def raceAcc : Nat → List (Res × Mode)
  | 0 => [(rA, .write)]
  | 1 => [(rB, .write)]
  | 2 => [(rA, .write), (rB, .write)]
  | _ => []

def raceCfg : Cfg := prog raceAcc (fun _ => 0) (fun _ => none) true true

/-- tasks 0 and 1 are running; task 2 is being initialised, it has been pushed to the followers of task 0
(event.cpp:74) but its counter has not been incremented (event.cpp:75) -/
def raceRun : State :=
  run raceCfg init (doSubmit 0 ++ doSubmit 1 ++ doSubmit 2 ++ doInit 0 ++ doInit 1 ++ [.start 0, .start 1] ++
    times 4 (.init 2))

def raceDemoted : Cfg × State × Bool := updateProperties raceCfg 0 [.remove ⟨.io, rA, Mode.write⟩] raceRun

theorem raceDemoted_ok : updateProperties raceCfg 0 [.remove ⟨.io, rA, Mode.write⟩] raceRun =
    (raceDemoted.1, raceDemoted.2.1, true) := by
  have : raceDemoted.2.2 = true := by decide +kernel
  rw [← this]
  rfl

/-- C22 is false: if a task gives up its access while another one, which is about to wait for it, is being
initialised, then the other one is started although it has to wait for a third task, which is running. `update_graph`
does not take the lock of the resource, which protects the two statements of `add_follower` from the other
notifications. No assertion of the code fails. -/
theorem C22_demotion_during_init_starts_early_false :
    ∃ (cfg : Cfg) (s s' s'' : State) (cfg' : Cfg) (patch : List Diff),
      cfg.WellFormed ∧ NestingOk cfg ∧ cfg.single = true ∧ Reach cfg s ∧ s.ex 0 = .running ∧
      updateProperties cfg 0 patch s = (cfg', s', true) ∧ Steps cfg' s' s'' ∧ s''.fault = false ∧
      ConflictOnSomeResource (cfg'.user 1).access (cfg'.user 2).access ∧ cfg.space 1 = cfg.space 2 ∧
      s''.ex 1 = .running ∧ s''.ex 2 = .running :=
  ⟨raceCfg, raceRun, raceDemoted.2.1, run raceDemoted.1 raceDemoted.2.1 [.start 2], raceDemoted.1, _,
    prog_wellFormed .., .inl rfl, rfl, run_init _, by decide +kernel, raceDemoted_ok, run_steps _ _, by decide +kernel,
    (C07_conflict_iff _ _).1 (by decide +kernel), rfl, by decide +kernel, by decide +kernel⟩

/-- C22 is false: in the same situation the body of the task is executed twice. -/
theorem C22_demotion_during_init_starts_twice_false :
    ∃ (cfg : Cfg) (s s' s'' : State) (cfg' : Cfg) (patch : List Diff),
      cfg.WellFormed ∧ NestingOk cfg ∧ cfg.single = true ∧ Reach cfg s ∧ s.ex 0 = .running ∧
      updateProperties cfg 0 patch s = (cfg', s', true) ∧ Steps cfg' s' s'' ∧ s''.fault = false ∧
      s''.starts 2 = 2 :=
  ⟨raceCfg, raceRun, raceDemoted.2.1, run raceDemoted.1 raceDemoted.2.1 ([.start 2] ++ doInit 2 ++ [.start 2]),
    raceDemoted.1, _, prog_wellFormed .., .inl rfl, rfl, run_init _, by decide +kernel, raceDemoted_ok, run_steps _ _,
    by decide +kernel, by decide +kernel⟩

end RG.Graph
