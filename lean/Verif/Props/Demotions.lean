import Verif.Lemmas.DemotionsOne
import Verif.Lemmas.DemotionsExec
import Verif.Props.GraphProgress
/-
Property C81: programs whose tasks give up accesses while they run.
-/
set_option linter.unusedVariables false
namespace RG.Graph

variable {cfg cfg' cfg0 : Cfg} {s s' s1 : State}

theorem registered (hw : cfg0.WellFormed) (hl : Less cfg0 cfg) {u : Nat} {ra : RAccess}
    (hm : ra ∈ (cfg.user u).access) : ∃ i : Nat, (cfg.res u)[i]? = some ra.res := by
  obtain ⟨sd, ds, hb⟩ := hw.built u
  have := (C54_registered_iff_accessed sd ds ra.res).2 ⟨ra, hb ▸ hl.access u hm, rfl⟩
  rw [hl.res]
  exact List.mem_iff_getElem?.1 (List.mem_reverse.2 (hb ▸ this))

/-- the entries of two tasks that conflict -/
theorem conflict_entries (hw : cfg0.WellFormed) (hr : DReach cfg0 cfg s) (hi : Inv cfg s) {p t : Nat}
    (hc : (cfg.user p).isSerial (cfg.user t) = true) (hpn : ∀ i, Pushed (s.ph p) i) (hx : Started s t) :
    ∃ r i j, ConflictOn cfg r p t ∧ (cfg.res p)[j]? = some r ∧ (cfg.res t)[i]? = some r ∧
      (p, j) ∈ s.hist r ∧ (t, i) ∈ s.hist r := by
  obtain ⟨r, hcr⟩ := serial_conflictOn (cfg := cfg) hc
  obtain ⟨ty, x, y, h1, h2, h3⟩ := id hcr
  obtain ⟨j, hj⟩ := registered hw hr.less h1
  obtain ⟨i, hi'⟩ := registered hw hr.less h2
  refine ⟨r, i, j, hcr, hj, hi', (hi.core.histMem r p j).2 ⟨hj, hpn j⟩, (hi.core.histMem r t i).2 ⟨hi', ?_⟩⟩
  rw [(hi.core.exI t hx).1]
  trivial

/-- C81: two different tasks of the same space that have both been started, and of which none has completely
finished, do not conflict with the accesses they have at this moment.
Partial: every demotion has to happen in the circumstances `Calm` (without them C22 has counterexamples), and nested
programs are restricted by `NestingOk`. -/
theorem C81_exclusion_partial (hw : cfg0.WellFormed) (ht : NestingOk cfg0) (hr : DReach cfg0 cfg s) {p t : Nat}
    (hne : p ≠ t) (hsp : cfg.space p = cfg.space t) (hp : Started s p) (hx : Started s t)
    (hpf : ¬ Finished cfg s p) (htf : ¬ Finished cfg s t) :
    (cfg.user p).isSerial (cfg.user t) = false := by
  rw [← Bool.not_eq_true]
  intro hc
  have hi := hr.inv hw.policy ht
  have hpol := hr.less.policy hw.policy
  obtain ⟨r, i, j, hcr, hj, hi', m1, m2⟩ := conflict_entries hw hr hi hc
    (by rw [(hi.core.exI p hp).1]; exact fun _ => trivial) hx
  rcases olderThan_total m1 m2 (by intro e; cases e; exact hne rfl) with h | h
  · have := order_key_of hpol hi.dom hi.core hi.ord r _ t i (Nat.le_refl _) hi' hx (p, j) h hsp hcr
    exact hpf (finished_of_inv hi.dom hi.core _ p (Nat.le_refl _) this)
  · have hcr' : ConflictOn cfg r t p := by
      obtain ⟨ty, x, y, h1, h2, h3⟩ := hcr
      exact ⟨ty, y, x, h2, h1, by rw [C01_conflict_symmetric]; exact h3⟩
    have := order_key_of hpol hi.dom hi.core hi.ord r _ p j (Nat.le_refl _) hj hp (t, i) h hsp.symm hcr'
    exact htf (finished_of_inv hi.dom hi.core _ t (Nat.le_refl _) this)

/-- C81: if one thread at a time submits to a space: a task is started before an earlier task of its space has
completely finished only if the two do not conflict any more.
Partial: see `C81_exclusion_partial`. -/
theorem C81_submission_order_partial (hw : cfg0.WellFormed) (ht : NestingOk cfg0) (hs : cfg0.single = true)
    (hr : DReach cfg0 cfg s) {p t : Nat} (hlt : p < t) (hsp : cfg.space p = cfg.space t)
    (hc : (cfg.user p).isSerial (cfg.user t) = true) (hx : Started s t) : Finished cfg s p := by
  have hi := hr.inv hw.policy ht
  have hpol := hr.less.policy hw.policy
  have hsg := hi.one (by rw [hr.less.single]; exact hs)
  have htn : t < s.n := hi.dom.lt_ph t (by rw [(hi.core.exI t hx).1]; simp)
  have hpn : ∀ i, Pushed (s.ph p) i := by
    intro i
    cases h : s.ph p with
    | unsub => exact absurd h (hi.dom.old p (by omega))
    | submitting k =>
      have := hsg.last p k t h htn hsp.symm
      omega
    | _ => trivial
  obtain ⟨r, i, j, hcr, hj, hi', m1, m2⟩ := conflict_entries hw hr hi hc hpn hx
  have hold : (p, j) ∈ olderThan (t, i) (s.hist r) := by
    rcases olderThan_total m1 m2 (by intro e; cases e; omega) with h | h
    · exact h
    · have := hsg.older r (t, i) (p, j) h hsp.symm
      dsimp only at this
      omega
  have := order_key_of hpol hi.dom hi.core hi.ord r _ t i (Nat.le_refl _) hi' hx (p, j) hold hsp hcr
  exact finished_of_inv hi.dom hi.core _ p (Nat.le_refl _) this

/-- C81: a task is started at most once and given to one worker; no assertion of the code fails; the memory of a task
is released at most once, and only after it has finished.
Partial: see `C81_exclusion_partial`. -/
theorem C81_at_most_once_partial (hw : cfg0.WellFormed) (ht : NestingOk cfg0) (hr : DReach cfg0 cfg s) (t : Nat) :
    s.starts t + s.handed t ≤ 1 ∧ s.fault = false ∧ s.frees t ≤ 1 ∧ (s.frees t = 1 → Finished cfg s t) := by
  have hi := hr.inv hw.policy ht
  have h1 := hi.core.startsEq t
  have h2 := hi.core.handedEq t
  have h3 := hi.life.freesEq t
  have h4 := hi.life.memEq t
  have h5 := hi.life.cdEq t
  refine ⟨by grind, hi.core.fault, by grind, fun h => ?_⟩
  apply finished_of_inv hi.dom hi.core _ t (Nat.le_refl _)
  apply Decidable.not_not.1
  intro h6
  have := (hi.core.flPost t).2 h6
  grind

/-- C81: a waiting task that has been linked once to the running task `p`, waits for no other one, and does not
conflict any more with `p` is given to a worker by the demotion, whatever demotions have happened before.
Partial: see `C81_exclusion_partial`. -/
theorem C81_released_partial (hw : cfg0.WellFormed) (ht : NestingOk cfg0) (hr : DReach cfg0 cfg s) {p t : Nat}
    {patch : List Diff} (hp : s.ex p = .running) (hrm : Removes patch)
    (hup : updateProperties cfg p patch s = (cfg', s', true)) (hcalm : Calm cfg' p s)
    (hinit : s.ph t = .inited) (hfol : Fol.pre t ∈ s.fol p) (hother : ∀ q, q ≠ p → Fol.pre t ∉ s.pnd q)
    (hc : (cfg'.user p).isSerial (cfg'.user t) = false) :
    s.handed t = 0 ∧ s'.handed t = 1 ∧ s'.pre t = 1 ∧ Fol.pre t ∉ s'.fol p := by
  have hi := hr.inv hw.policy ht
  have hi' := hi.demote (hr.less.policy hw.policy) hp hrm hup
  obtain ⟨hlt, hf, hp0, hpn, hpost, hpre⟩ := running_facts' hi.dom hi.core hp
  have hrel := updateGraph_release hi'.dom hi'.core hp hcalm
  have hs' : s' = updateGraph cfg' p s := (updateProperties_ok hup).2
  rw [← hs'] at hrel
  have hh : hits cfg' p (s.fol p) (.pre t) = 1 := by
    unfold hits
    rw [if_pos ⟨hfol, hc⟩]
  have hex : s.ex t = .none := by
    apply Decidable.byContradiction
    intro h
    exact started_not_pending hi.dom hi.core h (p := p) (by rw [hpn]; exact hfol)
  have hw1 := release_wpre hi'.dom hi'.core hp hcalm t hh
  have hc2 : s.pre t = 2 := by
    rw [hi.core.preEq, hex, cpre, sumTo_single hlt, hinit]
    · rw [hw1]; rfl
    · intro q _ hq
      simp [wpre, List.count_eq_zero.2 (hother q hq)]
  have h0 : s.handed t = 0 := by rw [hi.core.handedEq, hc2]; simp
  refine ⟨h0, by rw [hrel.handed, hh, hc2, h0]; rfl, by rw [hrel.pre, hh, hc2], ?_⟩
  rw [hrel.folP, List.mem_filter]
  rintro ⟨-, h⟩
  rw [show cfg'.serial p (Fol.pre t).task = (cfg'.user p).isSerial (cfg'.user t) from rfl, hc] at h
  cases h

/-- C81: if no task names a resource twice, and no two tasks have more than one resource in common, then a task is
linked at most once to another one, whatever demotions have happened before: the second condition of `Calm` holds.
Partial: the other two conditions of `Calm` remain. -/
theorem C81_linked_once_partial (hw : cfg0.WellFormed) (ht : NestingOk cfg0) (h1 : cfg0.ShareOne)
    (hr : DReach cfg0 cfg s) {p t : Nat} (hne : p ≠ t) : (s.fol p).count (.pre t) ≤ 1 :=
  (hr.once hw.policy ht h1).le p t hne

/-- C81: a state in which no thread can make a step, except that a body calls `update_properties`, is one in which all
tasks have completely finished.
Partial: see `C81_exclusion_partial`. -/
theorem C81_no_deadlock_partial (hw : cfg0.WellFormed) (ht : NestingOk cfg0) (hs : cfg0.single = true)
    (hnd : ∀ t, (cfg0.user t).unique.Nodup) (hr : DReach cfg0 cfg s) (hq : ∀ s', ¬ OwnWork cfg s s') (t : Nat)
    (htn : t < s.n) : Finished cfg s t ∧ s.fl t = .done := by
  have hi := hr.inv hw.policy ht
  have hqt := quiet_of_stuck_of (fun _ => False) hi.dom hi.core fun l s' h hw =>
    (hq s' ⟨⟨⟨l, h⟩, hw.1, hw.2.1⟩, hw.2.2⟩).elim
  have hd := hqt.done_inv hi.dom hi.core hi.ord (hi.one (by rw [hr.less.single]; exact hs))
    (fun t => not_self_of hi.core hi.ord (by rw [hr.less.unique]; exact hnd t)) t htn
  refine ⟨finished_of_inv hi.dom hi.core _ t (Nat.le_refl _) (Decidable.not_not.1 fun h => ?_), hd⟩
  rw [(hi.core.flPost t).2 h] at hd
  cases hd

/-- C81: from any state on, whatever has been given up, the tasks submitted so far can be completed without further
demotions, and there is no infinite sequence of such steps.
Partial: see `C81_exclusion_partial`. -/
theorem C81_completion_partial (hw : cfg0.WellFormed) (ht : NestingOk cfg0) (hs : cfg0.single = true)
    (hnd : ∀ t, (cfg0.user t).unique.Nodup) (hr : DReach cfg0 cfg s) :
    (∃ s', Steps cfg s s' ∧ s'.n = s.n ∧ s'.nExt = s.nExt ∧ ∀ t, t < s.n → Finished cfg s' t) ∧
      ¬ ∃ f : Nat → State, f 0 = s ∧ ∀ i, Work cfg (f i) (f (i + 1)) := by
  have dec : ∀ {s l s'}, DReach cfg0 cfg s → Step cfg l s s' → s'.n = s.n → s'.nExt = s.nExt →
      measure cfg s' < measure cfg s := by
    intro s l s' hr h h1 h2
    have hi := hr.inv hw.policy ht
    exact measure_decreases_of hi.dom hi.core hi.life h h1 h2
  constructor
  · have h : ∀ k s, DReach cfg0 cfg s → measure cfg s ≤ k →
        ∃ s', Steps cfg s s' ∧ s'.n = s.n ∧ s'.nExt = s.nExt ∧ ∀ t, t < s.n → Finished cfg s' t := by
      intro k
      induction k with
      | zero =>
        intro s hr hk
        refine ⟨s, .refl, rfl, rfl, fun t htn => (C81_no_deadlock_partial hw ht hs hnd hr (fun s' hw => ?_) t htn).1⟩
        obtain ⟨⟨⟨l, h⟩, h1, h2⟩, h3⟩ := hw
        have := dec hr h h1 h2
        omega
      | succ k ih =>
        intro s hr hk
        by_cases hq : ∃ s', OwnWork cfg s s'
        · obtain ⟨s1, ⟨⟨⟨l, h⟩, h1, h2⟩, h3⟩⟩ := hq
          have := dec hr h h1 h2
          obtain ⟨s', h4, h5, h6, h7⟩ := ih s1 (.step hr (.step h)) (by omega)
          refine ⟨s', Steps.trans (.step .refl h) h4, h5.trans h1, h6.trans h2, ?_⟩
          rw [h1] at h7
          exact h7
        · exact ⟨s, .refl, rfl, rfl, fun t htn =>
            (C81_no_deadlock_partial hw ht hs hnd hr (fun s' hw => hq ⟨s', hw⟩) t htn).1⟩
    exact h _ s hr (Nat.le_refl _)
  · rintro ⟨f, h0, h⟩
    have hreach : ∀ i, DReach cfg0 cfg (f i) := by
      intro i
      induction i with
      | zero => rw [h0]; exact hr
      | succ i ih => obtain ⟨⟨l, hs⟩, -, -⟩ := h i; exact .step ih (.step hs)
    have hm : ∀ i, measure cfg (f i) + i ≤ measure cfg (f 0) := by
      intro i
      induction i with
      | zero => exact Nat.le_refl _
      | succ i ih =>
        obtain ⟨⟨l, hs⟩, h1, h2⟩ := h i
        have := dec (hreach i) hs h1 h2
        omega
    have := hm (measure cfg (f 0) + 1)
    omega

/-! ### The hypotheses can be met -/

theorem DReach.steps (hr : DReach cfg0 cfg s) (h : Steps cfg s s') : DReach cfg0 cfg s' := by
  induction h with
  | refl => exact hr
  | step _ h ih => exact .step ih (.step h)

theorem Reach.demotions (h : Reach cfg s) : DReach cfg cfg s := by
  induction h with
  | init => exact .init
  | step _ h ih => exact .step ih (.step h)

/-- task 0 of `flat`, which writes A, gives up A while it runs; task 1, which reads A, is waiting -/
def givenUp : Cfg × State × Bool := updateProperties flat 0 [.remove ⟨.io, rA, Mode.write⟩] demoteRun

theorem givenUp_ok : updateProperties flat 0 [.remove ⟨.io, rA, Mode.write⟩] demoteRun =
    (givenUp.1, givenUp.2.1, true) := by
  have : givenUp.2.2 = true := by decide +kernel
  rw [← this]
  rfl

theorem demoteRun_reach : Reach flat demoteRun := run_init _

theorem givenUp_calm : Calm givenUp.1 0 demoteRun := by
  have hd := Dom.reach demoteRun_reach
  have hn : demoteRun.n = 2 := by decide +kernel
  refine ⟨?_, ?_, ?_⟩
  · intro t i j rem h
    by_cases h0 : t = 0
    · subst h0; rw [show demoteRun.ph 0 = .inited from by decide +kernel] at h; cases h
    by_cases h1 : t = 1
    · subst h1; rw [show demoteRun.ph 1 = .inited from by decide +kernel] at h; cases h
    rw [hd.ph t (by omega)] at h
    cases h
  · intro t _
    have : (demoteRun.fol 0).length = 1 := by decide +kernel
    exact Nat.le_trans List.count_le_length (Nat.le_of_eq this)
  · intro q hq
    have : givenUp.1.parentOf 0 = none := by decide +kernel
    rw [this] at hq
    cases hq

theorem givenUp_reach : DReach flat givenUp.1 givenUp.2.1 :=
  .step demoteRun_reach.demotions (.demote (by decide +kernel)
    (fun d hd => ⟨⟨.io, rA, Mode.write⟩, List.mem_singleton.1 hd⟩) givenUp_ok givenUp_calm)

theorem flat_shareOne : flat.ShareOne where
  nodup t := by
    match t with
    | 0 => decide +kernel
    | 1 => decide +kernel
    | 2 => decide +kernel
    | _ + 3 => exact C54_resources_registers_once 0 [] _
  one p t r r' hne h1 h2 h3 h4 := by
    have e0 : (flat.user 0).unique = [rA] := by decide +kernel
    have e1 : (flat.user 1).unique = [rB, rA] ∨ (flat.user 1).unique = [rA, rB] := by decide +kernel
    have e2 : (flat.user 2).unique = [rB] := by decide +kernel
    have e3 : ∀ t, (flat.user (t + 3)).unique = [rA] := by intro t; exact e0
    have hAB : rA ≠ rB := by decide +kernel
    match p, t with
    | 0, _ => rw [e0] at h1 h3; simp_all
    | 2, _ => rw [e2] at h1 h3; simp_all
    | _ + 3, _ => rw [e3] at h1 h3; simp_all
    | 1, 0 => rw [e0] at h2 h4; simp_all
    | 1, 1 => exact absurd rfl hne
    | 1, 2 => rw [e2] at h2 h4; simp_all
    | 1, _ + 3 => rw [e3] at h2 h4; simp_all

/-- the tasks 0 and 1 of `flat` conflict; after task 0 has given up A both run at the same time -/
example : flat.WellFormed ∧ NestingOk flat ∧ flat.single = true ∧ flat.ShareOne ∧
    (flat.user 0).isSerial (flat.user 1) = true ∧
    ∃ cfg s, DReach flat cfg s ∧ cfg.space 0 = cfg.space 1 ∧ s.ex 0 = .running ∧ s.ex 1 = .running ∧
      ¬ Finished cfg s 0 ∧ ¬ Finished cfg s 1 := by
  refine ⟨prog_wellFormed .., .inl rfl, rfl, flat_shareOne, by decide +kernel, givenUp.1,
    run givenUp.1 givenUp.2.1 [.start 1], givenUp_reach.steps (run_steps _ _), by decide +kernel, by decide +kernel,
    by decide +kernel, ?_, ?_⟩
  · rintro ⟨h, -, -⟩
    rw [show (run givenUp.1 givenUp.2.1 [.start 1]).ex 0 = .running from by decide +kernel] at h
    cases h
  · rintro ⟨h, -, -⟩
    rw [show (run givenUp.1 givenUp.2.1 [.start 1]).ex 1 = .running from by decide +kernel] at h
    cases h

/-- task 2 still waits for task 1, with which it conflicts, and starts after it -/
example : ∃ cfg s, DReach flat cfg s ∧ (cfg.user 1).isSerial (cfg.user 2) = true ∧ s.ex 0 = .running ∧ Started s 2 := by
  refine ⟨givenUp.1, run givenUp.1 givenUp.2.1 ([.start 1] ++ doSubmit 2 ++ doInit 2 ++ [.ret 1] ++ doFlush 1 ++ [.start 2]),
    givenUp_reach.steps (run_steps _ _), by decide +kernel, by decide +kernel, by unfold Started; decide +kernel⟩

/-- the hypotheses of `C81_released_partial` -/
example : ∃ s cfg' s', DReach flat flat s ∧ s.ex 0 = .running ∧
    updateProperties flat 0 [.remove ⟨.io, rA, Mode.write⟩] s = (cfg', s', true) ∧ Calm cfg' 0 s ∧ s.ph 1 = .inited ∧
    Fol.pre 1 ∈ s.fol 0 ∧ (∀ q, q ≠ 0 → Fol.pre 1 ∉ s.pnd q) ∧ (cfg'.user 0).isSerial (cfg'.user 1) = false := by
  refine ⟨demoteRun, givenUp.1, givenUp.2.1, demoteRun_reach.demotions, by decide +kernel, givenUp_ok, givenUp_calm, by decide +kernel,
    by decide +kernel, fun q hq => ?_, by decide +kernel⟩
  match q with
  | 0 => exact absurd rfl hq
  | 1 => decide +kernel
  | q + 2 =>
    have hn : demoteRun.n = 2 := by decide +kernel
    rw [(Dom.reach demoteRun_reach).pnd (q + 2) (by omega)]
    simp

/-! ### A task that is being initialised during a demotion -/

/-- task 0 of `flat` is running; task 1 is being initialised, it has found out that it conflicts with task 0 and that
task 0 has not finished (event.cpp:71), but has not been added to the followers -/
def lateRun : State := run flat init (doSubmit 0 ++ doSubmit 1 ++ doInit 0 ++ [.start 0] ++ times 3 (.init 1))

def lateDemoted : Cfg × State × Bool := updateProperties flat 0 [.remove ⟨.io, rA, Mode.write⟩] lateRun

theorem lateDemoted_ok : updateProperties flat 0 [.remove ⟨.io, rA, Mode.write⟩] lateRun =
    (lateDemoted.1, lateDemoted.2.1, true) := by
  have : lateDemoted.2.2 = true := by decide +kernel
  rw [← this]
  rfl

theorem lateRun_reach : Reach flat lateRun := run_init _

theorem lateDemoted_reach : DReach flat lateDemoted.1 lateDemoted.2.1 := by
  refine .step lateRun_reach.demotions (.demote (by decide +kernel)
    (fun d hd => ⟨⟨.io, rA, Mode.write⟩, List.mem_singleton.1 hd⟩) lateDemoted_ok ⟨?_, ?_, ?_⟩)
  · have hd := Dom.reach lateRun_reach
    have hn : lateRun.n = 2 := by decide +kernel
    intro t i j rem h
    by_cases h0 : t = 0
    · subst h0; rw [show lateRun.ph 0 = .inited from by decide +kernel] at h; cases h
    by_cases h1 : t = 1
    · subst h1; rw [show lateRun.ph 1 = .initing (.link 0 (0, 0) []) from by decide +kernel] at h; cases h
    rw [hd.ph t (by omega)] at h
    cases h
  · intro t _
    have : (lateRun.fol 0).length = 0 := by decide +kernel
    exact Nat.le_trans List.count_le_length (Nat.le_trans (Nat.le_of_eq this) (Nat.zero_le 1))
  · intro q hq
    have : lateDemoted.1.parentOf 0 = none := by decide +kernel
    rw [this] at hq
    cases hq

/-- C81: "a task waits only for tasks it conflicts with" is false after a demotion: a task that was being initialised
during the demotion waits for the running task although the two do not conflict any more. It is not started before
the running task has finished (or demotes its accesses once more). -/
theorem C81_waits_only_for_conflicting_false :
    ∃ (cfg0 cfg : Cfg) (s : State) (p t : Nat), cfg0.WellFormed ∧ NestingOk cfg0 ∧ cfg0.ShareOne ∧ DReach cfg0 cfg s ∧
      s.ex p = .running ∧ s.ph t = .inited ∧ (cfg.user p).isSerial (cfg.user t) = false ∧ Waits s t p ∧
      ∀ s', Steps cfg s s' → s'.post p ≠ 0 → ¬ Started s' t := by
  have hr : DReach flat lateDemoted.1 (run lateDemoted.1 lateDemoted.2.1 (doInit 1)) :=
    lateDemoted_reach.steps (run_steps _ _)
  have hm : Fol.pre 1 ∈ (run lateDemoted.1 lateDemoted.2.1 (doInit 1)).fol 0 := by decide +kernel
  refine ⟨flat, lateDemoted.1, run lateDemoted.1 lateDemoted.2.1 (doInit 1), 0, 1, prog_wellFormed .., .inl rfl,
    flat_shareOne, hr, by decide +kernel, by decide +kernel, by decide +kernel, by unfold Waits; decide +kernel, ?_⟩
  intro s' hs hp hx
  have hi := (hr.steps hs).inv (prog_wellFormed ..).policy (.inl rfl)
  have mono : Fol.pre 1 ∈ s'.fol 0 := by
    clear hi hp hx
    induction hs with
    | refl => exact hm
    | step _ h ih =>
      cases h <;> first | exact ih | skip
      all_goals
        dsimp only
        simp only [upd]
        split
        · rename_i e; rw [← e]; exact .tail _ ih
        · exact ih
  have hf := (hi.core.flPost 0).2 hp
  exact started_not_pending hi.dom hi.core hx (p := 0) (by rw [hi.core.pndIdle 0 hf]; exact mono)

end RG.Graph

namespace RG.Sys
open RG.Graph (Cfg WState NestingOk Started Finished Fol nest rA doSubmit doInit Removes updateProperties Act)

variable {cfg cfg0 : Cfg} {s : State}

/-- C81: with one worker the demotions need no assumption on the interleaving of the threads: as long as the worker
executes the body of a task no task is being initialised. If no two tasks have more than one resource in common, then
all that has been said about demotions holds for every execution.
Partial: with several workers it is false (see C22); a nested task has to keep a conflict with its parent. -/
theorem C81_one_worker_partial (hw : cfg0.WellFormed) (ht : NestingOk cfg0) (h1 : cfg0.ShareOne)
    (hr : DReach 1 cfg0 cfg s) : Graph.DReach cfg0 cfg s.x.g :=
  (hr.graph hw.policy ht h1).1

/-- C81 with one worker: tasks that have been started and not finished do not conflict; a task is started before an
earlier one of its space has finished only if they do not conflict any more; a task is started at most once; no
assertion of the code fails.
Partial: see `C81_one_worker_partial`. -/
theorem C81_one_worker_safe_partial (hw : cfg0.WellFormed) (ht : NestingOk cfg0) (h1 : cfg0.ShareOne)
    (hr : DReach 1 cfg0 cfg s) :
    (∀ p t, p ≠ t → cfg.space p = cfg.space t → Started s.x.g p → Started s.x.g t → ¬ Finished cfg s.x.g p →
      ¬ Finished cfg s.x.g t → (cfg.user p).isSerial (cfg.user t) = false) ∧
    (cfg0.single = true → ∀ p t, p < t → cfg.space p = cfg.space t → (cfg.user p).isSerial (cfg.user t) = true →
      Started s.x.g t → Finished cfg s.x.g p) ∧
    (∀ t, s.x.g.starts t ≤ 1) ∧ s.x.g.fault = false := by
  have h := C81_one_worker_partial hw ht h1 hr
  refine ⟨fun p t a b c d e f => Graph.C81_exclusion_partial hw ht h a b c d e f,
    fun hs p t a b c d => Graph.C81_submission_order_partial hw ht hs h a b c d, fun t => ?_,
    (Graph.C81_at_most_once_partial hw ht h 0).2.1⟩
  have := (Graph.C81_at_most_once_partial hw ht h t).1
  omega

/-- worker 0 takes task `t` from its queue of new tasks, and executes it if it is ready -/
def take1 (t : Nat) : List XAct :=
  ([.noReady 0, .popNew 0 t] ++ List.replicate 12 (.init 0 t) ++ [.start 0 t] : List SAct).map .s

/-- `nest` on one worker: task 0, which writes A, submits task 1 and waits for its result. Meanwhile the worker
initialises task 2, which has to wait for task 0, and executes task 1. Then task 0 goes on. -/
def pausedRun : List XAct :=
  ([.graph .submit, .graph (.sub 0), .emplace 0 0, .sleep 0, .noise 0, .notify 0 0, .wait 0, .wait 0, .woken 0].map .s) ++
  take1 0 ++ ([.graph .submit, .graph (.sub 1), .emplace 0 1, .graph .submit, .graph (.sub 2), .emplace 0 2].map .s) ++
  [.pause 0 0 1] ++ take1 2 ++ take1 1 ++ [.s (.bodyEnd 0 1), .unpause 0, .activate 0 0, .popReady 0 0, .resume 0 0]

def pausedState : State := xrun (nest true) 1 init pausedRun

def pausedDemoted : Cfg × Graph.State × Bool :=
  updateProperties (nest true) 0 [.remove ⟨.io, rA, Mode.write⟩] pausedState.x.g

set_option maxRecDepth 100000 in
theorem pausedState_facts : pausedState.pc 0 = .exec 0 ∧ pausedState.x.g.ex 0 = .running ∧ pausedState.x.g.n = 3 ∧
    pausedState.x.g.ph 2 = .inited ∧ pausedState.x.g.fol 0 = [.pre 2] ∧ pausedDemoted.2.2 = true ∧
    (∀ t, t < 3 → pausedDemoted.2.1.handed t = pausedState.x.g.handed t + [2].count t) ∧
    pausedDemoted.2.1.handed 2 = 1 ∧ pausedDemoted.2.1.ex 0 = .running := by
  decide +kernel

theorem pausedDemoted_reach : DReach 1 (nest true) pausedDemoted.1
    { pausedState with x := { pausedState.x with g := pausedDemoted.2.1 }, act := [2] ++ pausedState.act } := by
  obtain ⟨h1, h2, h3, h4, h5, h6, h7, h8, h9⟩ := pausedState_facts
  have hup : updateProperties (nest true) 0 [.remove ⟨.io, rA, Mode.write⟩] pausedState.x.g =
      (pausedDemoted.1, pausedDemoted.2.1, true) := by rw [← h6]; rfl
  have hr : DReach 1 (nest true) (nest true) pausedState := by
    have : ∀ {s}, Reach (nest true) 1 s → DReach 1 (nest true) (nest true) s := by
      intro s h
      induction h with
      | init => exact .init
      | step _ h ih => exact .step ih (.step h)
    exact this (xrun_reach _ .init)
  refine .step hr (.demote (w := 0) (p := 0) (by omega) h1 h2
    (fun d hd => ⟨⟨.io, rA, Mode.write⟩, List.mem_singleton.1 hd⟩) hup (fun q hq => by cases hq) fun t => ?_)
  by_cases ht : t < 3
  · exact h7 t ht
  · have := (Graph.updateLoop_spec pausedDemoted.1 0 (pausedState.x.g.fol 0) pausedState.x.g).2.2.2.2.1 t
    rw [← (Graph.updateProperties_ok hup).2] at this
    rw [this, h5]
    have e : t ≠ 2 := by omega
    simp [Graph.hits, e, List.count_cons, Ne.symm e]

/-- task 0 gives up A and goes on; task 2, which conflicted with it, has become ready -/
example : (nest true).WellFormed ∧ NestingOk (nest true) ∧ (nest true).ShareOne ∧ (nest true).single = true ∧
    ((nest true).user 0).isSerial ((nest true).user 2) = true ∧
    ∃ cfg s, DReach 1 (nest true) cfg s ∧ s.pc 0 = .exec 0 ∧ s.x.g.ex 0 = .running ∧ s.x.g.handed 2 = 1 ∧ 2 ∈ s.act := by
  obtain ⟨h1, h2, h3, h4, h5, h6, h7, h8, h9⟩ := pausedState_facts
  refine ⟨Graph.prog_wellFormed .., .inl rfl, ⟨fun t => ?_, fun p t r r' hne a b c d => ?_⟩, rfl, by decide +kernel, _, _,
    pausedDemoted_reach, h1, h9, h8, .head _⟩
  · exact C54_resources_registers_once 0 [] _
  · have e : ∀ t, ∀ r ∈ ((nest true).user t).unique, r = rA := by
      intro t r hr
      by_cases h0 : t = 0
      · subst h0; revert r; decide +kernel
      by_cases h1 : t = 1
      · subst h1; revert r; decide +kernel
      by_cases h2 : t = 2
      · subst h2; revert r; decide +kernel
      have : (nest true).user t = (nest true).user 3 := by
        match t with
        | 0 | 1 | 2 => omega
        | t + 3 => rfl
      rw [this] at hr
      revert r
      decide +kernel
    rw [e p r a, e p r' c]

end RG.Sys
