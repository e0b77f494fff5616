import Verif.Lemmas.GraphMain
import Verif.Lemmas.GraphAny
import Verif.Lemmas.GraphEx
/-
Properties of the task graph: C12, C13, C14, C18, C19, C20, C21, C59.

All theorems are about the states that can be reached by any interleaving of the steps of
Model/Graph.lean, for any number of tasks, resources and threads.
-/
set_option linter.unusedVariables false
namespace RG.Graph

/-- What is assumed about the program: the resource users of the tasks were built by the task builder,
and every resource has one access policy (it is a template parameter of the resource). -/
structure Cfg.WellFormed (cfg : Cfg) : Prop where
  built : ∀ t, ∃ sd ds, cfg.user t = declare sd ds
  policy : ∀ t u a b, a ∈ (cfg.user t).access → b ∈ (cfg.user u).access → a.res = b.res → a.ty = b.ty

/-- Assumption on the nesting of tasks: either the body of a task returns only after its children have
been initialised (by waiting for them, or because the workers were fast), or there are no nested tasks. -/
def NestingOk (cfg : Cfg) : Prop := cfg.strict = true ∨ ∀ sp, cfg.parent sp = none

/-- The call of `submit` for the task has returned. -/
def Submitted (s : State) (t : Nat) : Prop := t < s.n ∧ ∀ i, s.ph t ≠ .submitting i

/-- The execution of the task's body has begun. -/
def Started (s : State) (t : Nat) : Prop := s.ex t ≠ .none

/-- A task has completely finished: its body has returned, the events it created have been notified,
and its child tasks have completely finished. -/
inductive Finished (cfg : Cfg) (s : State) : Nat → Prop
  | mk {t} (ended : s.ex t = .ended)
      (events : ∀ k, k < s.nExt → s.owner k = t → s.ext k = .done)
      (children : ∀ c, c < s.n → cfg.parentOf c = some t → Finished cfg s c) : Finished cfg s t

variable {cfg : Cfg} {s s1 s' : State}

theorem finished_of_inv (hd : Dom cfg s) (hi : Core cfg s) :
    ∀ (k t : Nat), s.n - t ≤ k → s.post t = 0 → Finished cfg s t := by
  intro k
  induction k with
  | zero =>
    intro t hk h0
    have := hd.post t (by omega)
    omega
  | succ k ih =>
    intro t hk h0
    have hp := hi.postEq t
    rw [h0] at hp
    refine .mk ?_ ?_ ?_
    · have : body (s.ex t) = 0 := by omega
      revert this
      cases s.ex t <;> simp [body]
    · intro k hk' ho
      have h1 := le_sumTo (f := wext s.owner s.ext t) hk'
      unfold cext at hp
      have : wext s.owner s.ext t k = 0 := by omega
      simp only [wext, ho, true_and] at this
      apply Decidable.not_not.1
      intro h'
      rw [if_pos h'] at this
      cases this
    · intro c hc hpc
      have h1 := (hd.par c t hc hpc).1
      have hended : s.ex t = .ended := by
        have : body (s.ex t) = 0 := by omega
        revert this
        cases s.ex t <;> simp [body]
      have hci := hi.kids c t hc hpc hended
      apply ih c (by omega)
      rcases hi.finalI c t hpc (.inr hci) with h | h
      · exact h
      · exfalso
        have h2 := le_sumTo (f := wpost s.pnd s.ph t) hc
        have h3 : 1 ≤ (s.pnd c).count (.post t) := List.one_le_count_iff.2 h
        unfold cpost at hp
        simp [wpost, hci] at h2
        omega

theorem finished_of_reached (ht : NestingOk cfg) (hr : Reach cfg s) :
    ∀ (k t : Nat), s.n - t ≤ k → s.post t = 0 → Finished cfg s t :=
  finished_of_inv (Dom.reach hr) (Core.reach ht hr)

theorem prog_wellFormed (acc sp pa st si) : (prog acc sp pa st si).WellFormed where
  built t := ⟨0, _, rfl⟩
  policy t u a b ha hb _ := by
    have h : ∀ t, ∀ ra ∈ ((prog acc sp pa st si).user t).access, ra.ty = .io := by
      intro t ra hm
      simp only [prog, declare, List.foldl_cons, List.foldl_nil, Decl.apply, User.resources,
        User.buildUnique, User.empty, List.nil_append, List.mem_map] at hm
      obtain ⟨x, _, rfl⟩ := hm
      rfl
    rw [h t a ha, h u b hb]

theorem run_steps (as : List Act) (s : State) : Steps cfg s (run cfg s as) := by
  have h : ∀ (as : List Act) (s0 s : State), Steps cfg s0 s → Steps cfg s0 (run cfg s as) := by
    intro as
    induction as with
    | nil => exact fun _ _ h => h
    | cons a as ih =>
      intro s0 s h
      apply ih
      cases he : exec cfg s a with
      | none => exact h
      | some s' =>
        obtain ⟨l, hs⟩ := exec_step he
        exact .step h hs
  exact h as s s .refl

/-! ### C12 -/

/-- C12: if the submission of `p` has returned before the submission of `t` begins, both tasks belong
to the same space and conflict, then `t` starts only after `p` has completely finished.
Partial: nested programs are restricted by `NestingOk`, see `C19_parent_finished_before_child_false`. -/
theorem C12_submission_order_partial (hw : cfg.WellFormed) (ht : NestingOk cfg)
    (hr : Reach cfg s1) (h : Steps cfg s1 s) {p t : Nat}
    (hp : Submitted s1 p) (hlt : s1.n ≤ t)
    (hsp : cfg.space p = cfg.space t)
    (hc : (cfg.user p).isSerial (cfg.user t) = true)
    (hx : Started s t) : Finished cfg s p := by
  have hrs := h.reach hr
  have hi := Core.reach ht hrs
  obtain ⟨r, hcr⟩ := serial_conflictOn (cfg := cfg) hc
  obtain ⟨ty, x, y, h1, h2, h3⟩ := id hcr
  have reg : ∀ u ra, ra ∈ (cfg.user u).access → ∃ i : Nat, (cfg.res u)[i]? = some ra.res := by
    intro u ra hm
    obtain ⟨sd, ds, hb⟩ := hw.built u
    have := (C54_registered_iff_accessed sd ds ra.res).2 ⟨ra, hb ▸ hm, rfl⟩
    exact List.mem_iff_getElem?.1 (List.mem_reverse.2 (hb ▸ this))
  obtain ⟨j, hj⟩ := reg p _ h1
  obtain ⟨i, hi'⟩ := reg t _ h2
  have hinit := (hi.exI t hx).1
  have hm : (t, i) ∈ s.hist r := (hi.histMem r t i).2 ⟨hi', by rw [hinit]; trivial⟩
  have hold := submitted_older ht hr h hp.1 hp.2 hlt hj hm
  have := order_key hw.policy ht hrs r _ t i (Nat.le_refl _) hi' hx (p, j) hold hsp hcr
  exact finished_of_reached ht hrs _ p (Nat.le_refl _) this

/-- the hypotheses are satisfiable: task 0 of `flat` is submitted, then task 1, and task 1 starts -/
example : flat.WellFormed ∧ NestingOk flat ∧ flat.space 0 = flat.space 1 ∧
    (flat.user 0).isSerial (flat.user 1) = true ∧
    ∃ s1 s, Reach flat s1 ∧ Steps flat s1 s ∧ Submitted s1 0 ∧ s1.n ≤ 1 ∧ Started s 1 :=
  ⟨prog_wellFormed _ _ _ _ _, .inl rfl, rfl, by decide +kernel,
    run flat init (doSubmit 0),
    run flat (run flat init (doSubmit 0))
      (doInit 0 ++ [.start 0, .ret 0] ++ doFlush 0 ++ doSubmit 1 ++ doInit 1 ++ [.start 1]),
    run_init _, run_steps _ _,
    ⟨by decide +kernel, isSubmitting_false (by decide +kernel)⟩, by decide +kernel,
    by unfold Started; decide +kernel⟩

/-- C12 for programs without nested tasks: no assumption on the schedule. -/
theorem C12_flat_submission_order (hw : cfg.WellFormed) (hflat : ∀ sp, cfg.parent sp = none)
    (hr : Reach cfg s1) (h : Steps cfg s1 s) {p t : Nat}
    (hp : Submitted s1 p) (hlt : s1.n ≤ t)
    (hsp : cfg.space p = cfg.space t)
    (hc : (cfg.user p).isSerial (cfg.user t) = true)
    (hx : Started s t) : Finished cfg s p :=
  C12_submission_order_partial hw (.inr hflat) hr h hp hlt hsp hc hx

/-- C12 if one thread at a time submits to a space: the order is the order of the task numbers. -/
theorem C12_one_submitter_partial (hw : cfg.WellFormed) (ht : NestingOk cfg) (hs : cfg.single = true)
    (hr : Reach cfg s) {p t : Nat} (hlt : p < t)
    (hsp : cfg.space p = cfg.space t)
    (hc : (cfg.user p).isSerial (cfg.user t) = true)
    (hx : Started s t) : Finished cfg s p := by
  have hi := Core.reach ht hr
  have hd := Dom.reach hr
  have hn : t < s.n := hd.lt_ph t (by rw [(hi.exI t hx).1]; simp)
  obtain ⟨s1, h1, h2, h3, h4⟩ := hr.submission ht hn
  exact C12_submission_order_partial hw ht h1 h3 ⟨by omega, fun i => h4 hs p i hlt hsp⟩
    (by omega) hsp hc hx

example : flat.single = true ∧ ∃ s, Reach flat s ∧ Started s 1 ∧ (flat.user 0).isSerial (flat.user 1) = true :=
  ⟨rfl, run flat init (flatFirst ++ [.start 1]), run_init _, by unfold Started; decide +kernel,
    by decide +kernel⟩

/-- C12 for tasks of different spaces: if two tasks of the same space conflict then no descendant of the
later one starts before all descendants of the earlier one have finished. -/
theorem C12_descendants_partial (hw : cfg.WellFormed) (ht : NestingOk cfg) (hs : cfg.single = true)
    (hr : Reach cfg s) {p t p' t' : Nat} (hlt : p < t)
    (hsp : cfg.space p = cfg.space t)
    (hc : (cfg.user p).isSerial (cfg.user t) = true)
    (hp' : Descends cfg p' p) (ht' : Descends cfg t' t) (hn : p' < s.n)
    (hx : Started s t') : Finished cfg s p' := by
  have hd := Dom.reach hr
  have hi := Core.reach ht hr
  have up : ∀ c q, Descends cfg c q → Started s c → Started s q := by
    intro c q h
    induction h with
    | refl => exact fun h => h
    | @child c q p hq _ ih =>
      intro hx
      have hn' : c < s.n := hd.lt_ph c (by rw [(hi.exI c hx).1]; simp)
      exact ih (hd.par c q hn' hq).2
  have down : ∀ c q, Descends cfg c q → Finished cfg s q → c < s.n → Finished cfg s c := by
    intro c q h
    induction h with
    | refl => exact fun h _ => h
    | @child c q p hq _ ih =>
      intro hf hcn
      have := (hd.par c q hcn hq).1
      cases ih hf (by omega) with
      | mk _ _ h => exact h c hcn hq
  exact down p' p hp' (C12_one_submitter_partial hw ht hs hr hlt hsp hc (up t' t ht' hx)) hn

/-- the child of task 0 of `nest`, and the conflicting task 2 -/
example : Descends (nest true) 1 0 ∧ ∃ s, Reach (nest true) s ∧ 1 < s.n ∧ Started s 2 :=
  ⟨.child rfl .refl, run (nest true) init
      (doSubmit 0 ++ doInit 0 ++ [.start 0] ++ doSubmit 1 ++ doInit 1 ++ [.ret 0] ++ doSubmit 2 ++ doInit 2 ++
        [.start 1, .ret 1] ++ doFlush 1 ++ doFlush 0 ++ [.start 2]),
    run_init _, by decide +kernel, by unfold Started; decide +kernel⟩

/-! ### C13 -/

/-- C13: the body of a task is started at most once, it is given to at most one worker, and only after
its initialisation.
Partial: nested programs are restricted by `NestingOk`. -/
theorem C13_started_at_most_once_partial (ht : NestingOk cfg) (hr : Reach cfg s) (t : Nat) :
    s.starts t + s.handed t ≤ 1 ∧ (0 < s.starts t + s.handed t → s.ph t = .inited) := by
  have hi := Core.reach ht hr
  have h1 := hi.startsEq t
  have h2 := hi.handedEq t
  have h3 := hi.exI t
  grind

/-- C13 for programs without nested tasks. -/
theorem C13_flat_started_at_most_once (hflat : ∀ sp, cfg.parent sp = none) (hr : Reach cfg s) (t : Nat) :
    s.starts t ≤ 1 := by
  have := (C13_started_at_most_once_partial (.inr hflat) hr t).1
  omega

example : ∃ s, Reach flat s ∧ s.starts 1 = 1 :=
  ⟨run flat init (flatFirst ++ [.start 1, .start 1]), run_init _, by decide +kernel⟩

/-! ### C14 -/

/-- C14: if a task is a follower of another task, then both belong to the same space and conflict, and some
resource of the waiting task has the other one registered before it. This holds for all programs. -/
theorem C14_waits_only_for_conflicting (hr : Reach cfg s) {p t : Nat} (h : Fol.pre t ∈ s.fol p) :
    cfg.space p = cfg.space t ∧ (cfg.user p).isSerial (cfg.user t) = true ∧
      ∃ r i j, (cfg.res t)[i]? = some r ∧ (p, j) ∈ olderThan (t, i) (s.hist r) := by
  obtain ⟨h1, h2, i, j, r, h3, h4⟩ := (Any.reach hr).fol p t h
  exact ⟨h1, h2, r, i, j, h3, h4⟩

/-- C14: if one thread at a time submits to a space, then a task waits only for tasks submitted before it (or
for itself, if it names a resource twice, see C16). This holds for all programs. -/
theorem C14_waits_only_for_earlier (hs : cfg.single = true) (hr : Reach cfg s) {p t : Nat}
    (h : Fol.pre t ∈ s.fol p) : p ≤ t ∧ ((cfg.user t).unique.Nodup → p < t) := by
  obtain ⟨h1, h2, i, j, r, h3, h4⟩ := (Any.reach hr).fol p t h
  have hle := (AnySingle.reach hs hr).older r (p, j) (t, i) h4 h1
  refine ⟨hle, fun hnd => Nat.lt_of_le_of_ne hle ?_⟩
  intro e
  subst e
  have hh := AnyHist.reach hr
  have h5 := (hh.mem r _ (olderThan_sub h4)).1
  have hnd' : (cfg.res p).Nodup := List.pairwise_reverse.2 (hnd.imp fun h => Ne.symm h)
  have : i = j := (List.getElem?_inj (getElem?_lt_length h3) hnd').1 (h3.trans h5.symm)
  subst this
  exact not_olderThan_self (hh.nodup r) h4

example : ∃ s, Reach flat s ∧ Fol.pre 1 ∈ s.fol 0 ∧ s.fl 0 = .idle :=
  ⟨run flat init flatInit, run_init _, by decide +kernel, by decide +kernel⟩

/-- C14: a task that is initialised is ready as soon as the tasks of the same space that conflict with
it and were submitted earlier have notified their followers. -/
theorem C14_ready_after_conflicting_partial (ht : NestingOk cfg) (hs : cfg.single = true)
    (hr : Reach cfg s) {t : Nat} (hi' : s.ph t = .inited) (hx : ¬ Started s t)
    (hnd : (cfg.user t).unique.Nodup)
    (h : ∀ p, p < t → cfg.space p = cfg.space t → (cfg.user p).isSerial (cfg.user t) = true →
      s.fl p = .counting ∨ s.fl p = .done) : s.handed t = 1 := by
  have hd := Dom.reach hr
  have hi := Core.reach ht hr
  have ho := Ord.reach ht hr
  have hx' : s.ex t = .none := Decidable.not_not.1 hx
  have hz : cpre s.n s.pnd s.ph t = 0 := by
    apply Decidable.not_not.1
    intro hne
    obtain ⟨p, hp, hpos⟩ := sumTo_pos (Nat.pos_of_ne_zero hne)
    have hm : .pre t ∈ s.pnd p := by
      apply List.one_le_count_iff.1
      simp only [wpre] at hpos
      omega
    obtain ⟨h1, r, i, j, h3, h4⟩ := ho.origin p t hm
    have h2 := pending_serial hr p t hm
    have htm : (t, i) ∈ s.hist r := (hi.histMem r t i).2 ⟨h4, by rw [hi']; trivial⟩
    have hle := single_older ht hs hr (e := (p, j)) (e' := (t, i)) h1 h3 htm
    simp only at hle
    rcases Nat.lt_or_eq_of_le hle with hlt | heq
    · rcases h p hlt h1 h2 with h5 | h5
      · rw [hi.pndCnt p h5] at hm; cases hm
      · rw [hi.pndDone p h5] at hm; cases hm
    · subst heq
      have h5 := ((hi.histMem r p j).1 (olderThan_sub h3)).1
      have hnd' : (cfg.res p).Nodup := List.pairwise_reverse.2 (hnd.imp fun h => Ne.symm h)
      have : i = j := (List.getElem?_inj (getElem?_lt_length h4) hnd').1 (h4.trans h5.symm)
      subst this
      exact not_olderThan_self (hi.histNodup r) h3
  have h1 := hi.handedEq t
  have h2 := hi.preEq t
  rw [hx', hi', hz] at h2
  simp [own, guard] at h2
  rw [h1, if_pos ⟨hi', hx', h2⟩]

/-- task 1 is ready when task 0 has notified its followers, in `flatFirst` -/
example : ∃ s, Reach flat s ∧ s.ph 1 = .inited ∧ ¬ Started s 1 ∧ (flat.user 1).unique.Nodup ∧
    ∀ p, p < 1 → s.fl p = .done :=
  ⟨run flat init flatFirst, run_init _, by decide +kernel, by unfold Started; decide +kernel,
    by decide +kernel, fun p hp => by
      have : p = 0 := by omega
      subst this
      decide +kernel⟩

/-! ### C18 -/

/-- C18: as long as an event created by task `t` has not been notified, task `t` is not finished: its
followers are not notified, its memory is not released, and no later conflicting task is started.
Partial: nested programs are restricted by `NestingOk`. -/
theorem C18_waits_for_events_partial (hw : cfg.WellFormed) (ht : NestingOk cfg) (hs : cfg.single = true)
    (hr : Reach cfg s) {k t : Nat} (hk : k < s.nExt) (ho : s.owner k = t) (he : s.ext k ≠ .done) :
    s.fl t = .idle ∧ s.frees t = 0 ∧
      ∀ u, t < u → cfg.space t = cfg.space u → (cfg.user t).isSerial (cfg.user u) = true →
        ¬ Started s u := by
  have hi := Core.reach ht hr
  have hl := Life.reach ht hr
  have hidle : s.fl t = .idle := by
    rw [hi.flPost]
    intro h0
    have hf := finished_of_reached ht hr _ t (Nat.le_refl _) h0
    cases hf with
    | mk _ h2 _ => exact he (h2 k hk ho)
  refine ⟨hidle, ?_, ?_⟩
  · rw [hl.freesEq, if_neg]
    rw [hl.cdEq, hidle]
    simp
  · intro u hlt hsp hc hx
    have hf := C12_one_submitter_partial hw ht hs hr hlt hsp hc hx
    cases hf with
    | mk _ h2 _ => exact he (h2 k hk ho)

/-- the body of task 0 has returned, its event has not been notified -/
example : ∃ s, Reach flat s ∧ 0 < s.nExt ∧ s.owner 0 = 0 ∧ s.ext 0 ≠ .done ∧ s.ex 0 = .ended :=
  ⟨run flat init (flatInit ++ [.start 0, .event 0, .ret 0]), run_init _, by decide +kernel,
    by decide +kernel, by decide +kernel, by decide +kernel⟩

/-- C18: likewise as long as its body has not returned. -/
theorem C18_waits_for_body_partial (hw : cfg.WellFormed) (ht : NestingOk cfg) (hs : cfg.single = true)
    (hr : Reach cfg s) {t : Nat} (he : s.ex t ≠ .ended) :
    s.fl t = .idle ∧ s.frees t = 0 ∧
      ∀ u, t < u → cfg.space t = cfg.space u → (cfg.user t).isSerial (cfg.user u) = true →
        ¬ Started s u := by
  have hi := Core.reach ht hr
  have hl := Life.reach ht hr
  have hidle := hi.idle_of_body t he
  refine ⟨hidle, ?_, ?_⟩
  · rw [hl.freesEq, if_neg]
    rw [hl.cdEq, hidle]
    simp
  · intro u hlt hsp hc hx
    have hf := C12_one_submitter_partial hw ht hs hr hlt hsp hc hx
    cases hf with
    | mk h1 _ _ => exact he h1

/-- the body of task 0 has not returned, the event it created has been notified -/
example : ∃ s, Reach flat s ∧ s.ex 0 ≠ .ended ∧ 0 < s.nExt ∧ s.ext 0 = .done :=
  ⟨run flat init (flatInit ++ [.start 0, .event 0, .notify 0, .follow 0]), run_init _, by decide +kernel,
    by decide +kernel, by decide +kernel⟩

/-! ### C19 -/

/-- C19: a task that has submitted child tasks is not finished before them: as long as a child has not
finished, the followers of the parent are not notified, its memory is not released, and no later
conflicting task is started.
Partial: if the body of the parent returns before its children have been initialised the property is
false, see `C19_parent_finished_before_child_false`. -/
theorem C19_parent_after_children_partial (hw : cfg.WellFormed) (ht : NestingOk cfg) (hs : cfg.single = true)
    (hr : Reach cfg s) {c t : Nat} (hc : c < s.n) (hp : cfg.parentOf c = some t)
    (hf : ¬ Finished cfg s c) :
    s.fl t = .idle ∧ s.frees t = 0 ∧
      ∀ u, t < u → cfg.space t = cfg.space u → (cfg.user t).isSerial (cfg.user u) = true →
        ¬ Started s u := by
  have hi := Core.reach ht hr
  have hl := Life.reach ht hr
  have hidle : s.fl t = .idle := by
    rw [hi.flPost]
    intro h0
    have hf' := finished_of_reached ht hr _ t (Nat.le_refl _) h0
    cases hf' with
    | mk _ _ h2 => exact hf (h2 c hc hp)
  refine ⟨hidle, ?_, ?_⟩
  · rw [hl.freesEq, if_neg]
    rw [hl.cdEq, hidle]
    simp
  · intro u hlt hsp hc' hx
    have hf' := C12_one_submitter_partial hw ht hs hr hlt hsp hc' hx
    cases hf' with
    | mk _ _ h2 => exact hf (h2 c hc hp)

/-- the body of the parent has returned, the child has been initialised but has not started -/
example : NestingOk (nest true) ∧ ∃ s, Reach (nest true) s ∧ 1 < s.n ∧ (nest true).parentOf 1 = some 0 ∧
    s.ex 0 = .ended ∧ s.ex 1 = .none :=
  ⟨.inl rfl, run (nest true) init
      (doSubmit 0 ++ doInit 0 ++ [.start 0] ++ doSubmit 1 ++ doInit 1 ++ [.ret 0] ++ doSubmit 2),
    run_init _, by decide +kernel, rfl, by decide +kernel, by decide +kernel⟩

/-! ### C20 -/

/-- C20: `free_task` is called at most once for a task, and if it has been called then the task has
completely finished and its future has been read or dropped. -/
theorem C20_freed_once_partial (ht : NestingOk cfg) (hr : Reach cfg s) (t : Nat) :
    s.frees t ≤ 1 ∧ (s.mem t ≠ .alive ↔ s.frees t = 1) ∧
      (s.frees t = 1 → Finished cfg s t ∧ s.fut t = .done) := by
  have hd := Dom.reach hr
  have hi := Core.reach ht hr
  have hl := Life.reach ht hr
  have h1 := hl.freesEq t
  have h2 := hl.memEq t
  have h3 := hl.cdEq t
  refine ⟨by grind, by grind, ?_⟩
  intro h
  have h0 : s.cd t = 0 := by grind
  have h4 : s.fl t = .done ∧ s.fut t = .done := by grind
  refine ⟨finished_of_reached ht hr _ t (Nat.le_refl _) ?_, h4.2⟩
  apply Decidable.not_not.1
  intro h'
  rw [(hi.flPost t).2 h'] at h4
  cases h4.1

example : ∃ s, Reach flat s ∧ s.frees 0 = 1 ∧ s.mem 0 = .freed :=
  ⟨run flat init (flatFirst ++ times 2 (.take 0) ++ times 2 (.free 0)), run_init _, by decide +kernel,
    by decide +kernel⟩

/-- C20: when a task has finished (all its followers have been notified) and its future has been read or
dropped, it is released. -/
theorem C20_freed_partial (ht : NestingOk cfg) (hr : Reach cfg s) {t : Nat} (h1 : s.fl t = .done)
    (h2 : s.fut t = .done) : s.frees t = 1 := by
  have hl := Life.reach ht hr
  rw [hl.freesEq, if_pos]
  rw [hl.cdEq, h1, h2]
  rfl

/-- C20: no step accesses the memory of a task that has been released.
Partial: this excludes the read of `waker_id` in event.cpp:160, for which it is false, see
`C20_late_read_false`. -/
theorem C20_no_use_after_free_partial (ht : NestingOk cfg) (hr : Reach cfg s) {l : Lbl}
    (hs : Step cfg l s s') (hl : l.late = false) : ∀ t ∈ l.tasks, s.mem t ≠ .freed := by
  have hd := Dom.reach hr
  have hi := Core.reach ht hr
  have hlf := Life.reach ht hr
  have dead : ∀ t, s.mem t = .freed → s.fl t = .done ∧ s.fut t = .done ∧ s.ex t = .ended ∧
      s.ph t = .inited ∧ s.post t = 0 ∧ s.pre t = 0 := by
    intro t hm
    have h1 := hlf.memEq t
    have h2 := hlf.cdEq t
    have h3 : s.fl t = .done ∧ s.fut t = .done := by grind
    have h4 : s.post t = 0 := by
      apply Decidable.not_not.1
      intro h'
      rw [(hi.flPost t).2 h'] at h3
      cases h3.1
    have h5 : s.ex t = .ended := by
      apply Decidable.not_not.1
      intro h'
      exact hi.runPos t h' h4
    have h6 := hi.exI t (by rw [h5]; simp)
    exact ⟨h3.1, h3.2, h5, h6.1, h4, h6.2⟩
  have user : ∀ t i p rem, s.ph t = .initing (.scan i (p :: rem)) → s.fl p.1 ≠ .done := by
    intro t i p rem hp hf
    obtain ⟨r, hr'⟩ := hi.holdR t i (by rw [hp]; rfl)
    have := hi.user_fl (hi.scanHead t i p rem r hp hr').1
    rw [hf] at this
    cases this
  have h1 := hi.linkFl
  have h2 := hi.incrFl
  have h3 := hi.kids
  have h4 := hd.lt_ph
  have h5 := hi.pincrPos hd
  have h6 := hi.notifyPrePos hd
  have h7 := hi.notifyPostPos hd
  have h8 := hi.firedPos hd
  have h9 := hi.preEq
  have h10 := hi.handedEq
  have h11 := hd.mem
  intro t htm hm
  have hdd := dead t hm
  cases hs <;> grind [notDel]

/-- after task 0 has been freed other tasks make steps -/
example : ∃ s s' l, Reach flat s ∧ s.mem 0 = .freed ∧ Step flat l s s' ∧ l.late = false ∧ l.tasks = [1] :=
  ⟨run flat init (flatFirst ++ times 2 (.take 0) ++ times 2 (.free 0)), _, _, run_init _, by decide +kernel,
    .start (t := 1) (by decide +kernel), rfl, rfl⟩

/-! ### C21 -/

/-- C21: `barrier()` returns when `empty()` of the root space is true; at this moment every task
submitted to the space has completely finished and its future has been read or dropped.
Partial: nested programs are restricted by `NestingOk`. -/
theorem C21_barrier_waits_for_all_partial (ht : NestingOk cfg) (hr : Reach cfg s) {sp : Nat}
    (h : s.empty sp = true) : ∀ t, t < s.n → cfg.space t = sp → Finished cfg s t ∧ s.fut t = .done := by
  intro t htn hsp
  have hl := Life.reach ht hr
  have h1 := hl.tasksEq sp
  simp only [State.empty, beq_iff_eq] at h
  rw [h] at h1
  have h2 := le_sumTo (f := wtask cfg s.mem sp) htn
  have h3 : counts (s.mem t) = false := by
    apply Decidable.not_not.1
    intro h'
    simp only [wtask, hsp, true_and] at h2
    rw [if_pos (by simpa using h')] at h2
    omega
  have h4 : s.mem t ≠ .alive := by intro h'; rw [h'] at h3; cases h3
  have h5 := C20_freed_once_partial ht hr t
  exact h5.2.2 (h5.2.1.1 h4)

/-- one task has been submitted, has finished, and its future has been dropped -/
example : ∃ s, Reach flat s ∧ s.n = 1 ∧ s.empty 0 = true :=
  ⟨run flat init (doSubmit 0 ++ doInit 0 ++ [.start 0, .ret 0] ++ doFlush 0 ++ times 2 (.take 0) ++
      times 2 (.free 0)), run_init _, by decide +kernel, by decide +kernel⟩

/-- C21: `barrier()` does not return while the future of a task is held, or a task has not finished. -/
theorem C21_held_future_blocks_barrier_partial (ht : NestingOk cfg) (hr : Reach cfg s) {t : Nat}
    (htn : t < s.n) (h : s.fut t ≠ .done ∨ ¬ Finished cfg s t) : s.empty (cfg.space t) = false := by
  apply Bool.eq_false_iff.2
  intro he
  have := C21_barrier_waits_for_all_partial ht hr he t htn rfl
  rcases h with h | h
  · exact h this.2
  · exact h this.1

/-- the task has finished, its future is still held -/
example : ∃ s, Reach flat s ∧ 0 < s.n ∧ s.fl 0 = .done ∧ s.fut 0 ≠ .done :=
  ⟨run flat init flatFirst, run_init _, by decide +kernel, by decide +kernel, by decide +kernel⟩

/-- C21: once all tasks of the space have been released, `barrier()` can return. -/
theorem C21_barrier_returns_partial (ht : NestingOk cfg) (hr : Reach cfg s) {sp : Nat}
    (h : ∀ t, t < s.n → cfg.space t = sp → s.mem t = .freed) : s.empty sp = true := by
  have hl := Life.reach ht hr
  simp only [State.empty, beq_iff_eq]
  rw [hl.tasksEq sp]
  apply Decidable.not_not.1
  intro h'
  obtain ⟨t, h1, h2⟩ := sumTo_pos (Nat.pos_of_ne_zero h')
  simp only [wtask] at h2
  split at h2
  · rename_i h3
    rw [h t h1 h3.1] at h3
    cases h3.2
  · omega

/-! ### C59 -/

/-- C59: the assertions of the notification and execution code hold: a counter is never decremented
below 0 (event.cpp:139) and a task is ready when its execution begins (execute.cpp:32). Without `NestingOk` this is false, see
`C59_nested_assertion_fails_false`. -/
theorem C59_assertions_hold (ht : NestingOk cfg) (hr : Reach cfg s) : s.fault = false :=
  (Core.reach ht hr).fault

example : NestingOk (nest true) ∧ ∃ s, Reach (nest true) s ∧ s.ex 2 = .running ∧ s.fl 1 = .done :=
  ⟨.inl rfl, run (nest true) init
      (doSubmit 0 ++ doInit 0 ++ [.start 0] ++ doSubmit 1 ++ doInit 1 ++ [.ret 0] ++ doSubmit 2 ++ doInit 2 ++
        [.start 1, .ret 1] ++ doFlush 1 ++ doFlush 0 ++ [.start 2]),
    run_init _, by decide +kernel, by decide +kernel⟩

end RG.Graph
