import Verif.Props.Graph
/-
Properties of the task graph that do not hold: C16, C17, and the general forms of C12, C13, C19, C20, C21, C59.
Each is refuted by a theorem about the executions of the model; `_partial` theorems say what does hold.
-/
set_option linter.unusedVariables false
namespace RG.Graph

variable {cfg : Cfg} {s s1 s' : State}

/-- Task `t` waits for task `p`: `p` has not finished, and has the pre-event of `t` as a follower. -/
def Waits (s : State) (t p : Nat) : Prop := Fol.pre t ∈ s.fol p ∧ s.post p ≠ 0

/-- tasks that wait for each other are not executed, in any continuation -/
theorem blocked (ht : NestingOk cfg) (B : Nat → Prop) (hr : Reach cfg s1) (h : Steps cfg s1 s)
    (hb : ∀ t, B t → ∃ p, B p ∧ Fol.pre t ∈ s1.pnd p) :
    ∀ t, B t → s.ex t = .none ∧ ∃ p, B p ∧ Fol.pre t ∈ s.pnd p := by
  have notStarted : ∀ s, Reach cfg s → ∀ t p, Fol.pre t ∈ s.pnd p → s.ex t = .none := by
    intro s hr t p hm
    exact Decidable.not_not.1 fun h => started_not_pending (Dom.reach hr) (Core.reach ht hr) h hm
  induction h with
  | refl => exact fun t hB => let ⟨p, h1, h2⟩ := hb t hB; ⟨notStarted _ hr t p h2, p, h1, h2⟩
  | @step s s' l hss hs ih =>
    have hr' := hss.reach hr
    have hi := Core.reach ht hr'
    intro t hB
    obtain ⟨h0, p, h1, h2⟩ := ih t hB
    have hp := hi.idle_of_body p (by rw [(ih p h1).1]; simp)
    have : Fol.pre t ∈ s'.pnd p := by
      clear ih hss
      cases hs <;> first | exact h2 | (try dsimp only [State.decPost, State.decPre, State.decCd]) <;> grind [upd]
    exact ⟨notStarted _ (.step hr' hs) t p this, p, h1, this⟩

/-! ### C16 -/

/-- C16 is false: a task that has been given a resource twice as an argument, with conflicting
accesses, is never executed. -/
theorem C16_repeated_resource_never_starts_false (hw : cfg.WellFormed) (ht : NestingOk cfg)
    (hr : Reach cfg s) {t i j : Nat} {r : Res} {ty : Policy} {x y : Acc ty}
    (hij : i ≠ j) (h1 : (cfg.user t).unique[i]? = some r) (h2 : (cfg.user t).unique[j]? = some r)
    (hx : ⟨ty, r, x⟩ ∈ (cfg.user t).access) (hy : ⟨ty, r, y⟩ ∈ (cfg.user t).access)
    (hc : Acc.isSerial ty x y = true) : ¬ Started s t := by
  have two : ∃ i j : Nat, i ≠ j ∧ (cfg.res t)[i]? = some r ∧ (cfg.res t)[j]? = some r := by
    have l1 := getElem?_lt_length h1
    have l2 := getElem?_lt_length h2
    refine ⟨(cfg.user t).unique.length - 1 - i, (cfg.user t).unique.length - 1 - j, by omega, ?_, ?_⟩
    · unfold Cfg.res
      rw [List.getElem?_reverse (by omega), ← h1]
      congr 1; omega
    · unfold Cfg.res
      rw [List.getElem?_reverse (by omega), ← h2]
      congr 1; omega
  obtain ⟨i, j, hne, hi', hj'⟩ := two
  -- it is enough to look at the states in which the task is running
  have key : ∀ s, Reach cfg s → s.ex t ≠ .running := by
    intro s hr hrun
    have hi := Core.reach ht hr
    have hinit := (hi.exI t (by rw [hrun]; simp)).1
    have hne0 := hi.runPos t (by rw [hrun]; simp)
    have m1 : (t, i) ∈ s.hist r := (hi.histMem r t i).2 ⟨hi', by rw [hinit]; trivial⟩
    have m2 : (t, j) ∈ s.hist r := (hi.histMem r t j).2 ⟨hj', by rw [hinit]; trivial⟩
    have hcc : ConflictOn cfg r t t := ⟨ty, x, y, hx, hy, hc⟩
    rcases olderThan_total m1 m2 (by intro e; cases e; exact hne rfl) with h | h
    · exact hne0 (order_key hw.policy ht hr r _ t j (Nat.le_refl _) hj' (by rw [hrun]; simp) (t, i) h rfl hcc)
    · exact hne0 (order_key hw.policy ht hr r _ t i (Nat.le_refl _) hi' (by rw [hrun]; simp) (t, j) h rfl hcc)
  intro hx
  apply hx
  clear hx
  induction hr with
  | init => rfl
  | @step s s' l hr hs ih =>
    by_cases h' : s'.ex t = .none
    · exact h'
    · exfalso
      have k1 := key s hr
      have k2 := key s' (.step hr hs)
      cases hs <;> first | exact h' ih | (simp only [State.decPost, State.decPre, State.decCd] at h' k2) <;> grind [upd]

/-- a task that gets one resource as two arguments, which it writes -/
def twice : Cfg where
  user _ := declare 0 [.arg ⟨.io, rA, Mode.write⟩, .arg ⟨.io, rA, Mode.write⟩]
  space _ := 0
  parent _ := none
  strict := true
  single := true

/-- the hypotheses are met, and the task can be initialised -/
example : (∀ t, ∃ sd ds, twice.user t = declare sd ds) ∧ NestingOk twice ∧
    (twice.user 0).unique[0]? = some rA ∧ (twice.user 0).unique[1]? = some rA ∧
    ∃ s, Reach twice s ∧ s.ph 0 = .inited :=
  ⟨fun _ => ⟨_, _, rfl⟩, .inl rfl, by decide +kernel, by decide +kernel,
    run twice init (doSubmit 0 ++ doInit 0), run_init _, by decide +kernel⟩

/-- a task that writes one resource and gets another one as two arguments, which it only reads -/
def twiceRead : Cfg :=
  { twice with
    user := fun _ => declare 0 [.arg ⟨.io, rA, Mode.write⟩, .arg ⟨.io, rB, Mode.read⟩, .arg ⟨.io, rB, Mode.read⟩] }

/-- C16 is false even if the accesses to the repeated resource do not conflict: it is sufficient that
the task conflicts with itself because of another resource. -/
theorem C16_repeated_read_false :
    ∃ s1, Reach twiceRead s1 ∧ s1.n = 1 ∧ s1.ph 0 = .inited ∧
      ∀ s, Steps twiceRead s1 s → ¬ Started s 0 := by
  refine ⟨run twiceRead init (doSubmit 0 ++ doInit 0), run_init _, by decide +kernel, by decide +kernel, ?_⟩
  intro s h hx
  exact hx (blocked (.inl rfl) (· = 0) (run_init _) h
    (by rintro t rfl; exact ⟨0, rfl, by decide +kernel⟩) 0 rfl).1

/-- C16 (partial): a task that does not conflict with itself may name a resource several times: it is
ready as soon as its predecessors have notified their followers. -/
theorem C16_nonconflicting_repetition_partial (ht : NestingOk cfg) (hs : cfg.single = true)
    (hr : Reach cfg s) {t : Nat} (hi' : s.ph t = .inited) (hx : ¬ Started s t)
    (hself : (cfg.user t).isSerial (cfg.user t) = false)
    (h : ∀ p, p < t → cfg.space p = cfg.space t → (cfg.user p).isSerial (cfg.user t) = true →
      s.fl p = .counting ∨ s.fl p = .done) : s.handed t = 1 := by
  have hd := Dom.reach hr
  have hi := Core.reach ht hr
  have ho := Ord.reach ht hr
  have hx' : s.ex t = .none := Decidable.not_not.1 hx
  have hz : cpre s.n s.pnd s.ph t = 0 := by
    apply Decidable.not_not.1
    intro hne
    obtain ⟨p, hp, hpos⟩ := sumTo_pos (Nat.pos_of_ne_zero hne)
    have hm : .pre t ∈ s.pnd p := by
      apply List.one_le_count_iff.1
      simp only [wpre] at hpos
      omega
    obtain ⟨h1, r, i, j, h3, h4⟩ := ho.origin p t hm
    have h2 := pending_serial hr p t hm
    have htm : (t, i) ∈ s.hist r := (hi.histMem r t i).2 ⟨h4, by rw [hi']; trivial⟩
    have hle := single_older ht hs hr (e := (p, j)) (e' := (t, i)) h1 h3 htm
    simp only at hle
    rcases Nat.lt_or_eq_of_le hle with hlt | heq
    · rcases h p hlt h1 h2 with h5 | h5
      · rw [hi.pndCnt p h5] at hm; cases hm
      · rw [hi.pndDone p h5] at hm; cases hm
    · subst heq
      rw [Cfg.serial, hself] at h2
      cases h2
  have h1 := hi.handedEq t
  have h2 := hi.preEq t
  rw [hx', hi', hz] at h2
  simp [own, guard] at h2
  rw [h1, if_pos ⟨hi', hx', h2⟩]

/-- a task that gets one resource as two arguments, which it only reads -/
def twiceOk : Cfg :=
  { twice with user := fun _ => declare 0 [.arg ⟨.io, rB, Mode.read⟩, .arg ⟨.io, rB, Mode.read⟩] }

example : (twiceOk.user 0).isSerial (twiceOk.user 0) = false ∧ ¬ (twiceOk.user 0).unique.Nodup ∧
    ∃ s, Reach twiceOk s ∧ s.ph 0 = .inited ∧ ¬ Started s 0 :=
  ⟨by decide +kernel, by decide +kernel, run twiceOk init (doSubmit 0 ++ doInit 0), run_init _,
    by decide +kernel, by unfold Started; decide +kernel⟩

/-! ### C17 -/

/-- two tasks that write both A and B; one names A first, the other one B -/
def crossAcc : Nat → List (Res × Mode)
  | 0 => [(rA, .write), (rB, .write)]
  | _ => [(rB, .write), (rA, .write)]

def cross : Cfg := prog crossAcc (fun _ => 0) (fun _ => none) true false

/-- C17 is false: two tasks submitted by two threads at the same time may wait for each other forever. -/
theorem C17_concurrent_submitters_deadlock_false :
    ∃ s1, Reach cross s1 ∧ s1.n = 2 ∧ s1.ph 0 = .inited ∧ s1.ph 1 = .inited ∧
      Waits s1 0 1 ∧ Waits s1 1 0 ∧
      ∀ s, Steps cross s1 s → ¬ Started s 0 ∧ ¬ Started s 1 := by
  refine ⟨run cross init ([.submit, .submit, .sub 0, .sub 1] ++ times 3 (.sub 0) ++ times 3 (.sub 1) ++
    doInit 0 ++ doInit 1), run_init _, by decide +kernel, by decide +kernel, by decide +kernel,
    ⟨by decide +kernel, by decide +kernel⟩, ⟨by decide +kernel, by decide +kernel⟩, ?_⟩
  intro s h
  have hb := blocked (.inl rfl) (fun t => t = 0 ∨ t = 1) (run_init _) h (by
    rintro t (rfl | rfl)
    · exact ⟨1, .inr rfl, by decide +kernel⟩
    · exact ⟨0, .inl rfl, by decide +kernel⟩)
  exact ⟨fun hx => hx (hb 0 (.inl rfl)).1, fun hx => hx (hb 1 (.inr rfl)).1⟩

theorem Waits.origin (ht : NestingOk cfg) (hr : Reach cfg s) {t p : Nat} (h : Waits s t p) :
    cfg.space p = cfg.space t ∧
    ∃ r i j, (p, j) ∈ olderThan (t, i) (s.hist r) ∧ (cfg.res t)[i]? = some r ∧ (cfg.res p)[j]? = some r ∧
      (t, i) ∈ s.hist r := by
  have hi := Core.reach ht hr
  have ho := Ord.reach ht hr
  have hm := h.1
  rw [← hi.pndIdle p ((hi.flPost p).2 h.2)] at hm
  obtain ⟨h1, r, i, j, h3, h4⟩ := ho.origin p t hm
  refine ⟨h1, r, i, j, h3, h4, ((hi.histMem r p j).1 (olderThan_sub h3)).1, ?_⟩
  refine (hi.histMem r t i).2 ⟨h4, ?_⟩
  have := hi.tgtPre p t hm
  revert this
  cases s.ph t <;> simp [begun, Pushed]

/-- C17 (partial): if tasks are submitted to a space by one thread at a time, and name each resource
once, then a task waits only for tasks with a smaller number; so there is no cyclic wait. -/
theorem C17_one_submitter_no_cycle_partial (ht : NestingOk cfg) (hs : cfg.single = true)
    (hnd : ∀ t, (cfg.user t).unique.Nodup) (hr : Reach cfg s) {t p : Nat} (h : Waits s t p) : p < t := by
  have hi := Core.reach ht hr
  obtain ⟨h1, r, i, j, h3, h4, h5, htm⟩ := h.origin ht hr
  have hle := single_older ht hs hr (e := (p, j)) (e' := (t, i)) h1 h3 htm
  simp only at hle
  rcases Nat.lt_or_eq_of_le hle with hlt | heq
  · exact hlt
  · subst heq
    have hnd' : (cfg.res p).Nodup := List.pairwise_reverse.2 ((hnd p).imp fun h => Ne.symm h)
    have : i = j := (List.getElem?_inj (getElem?_lt_length h4) hnd').1 (h4.trans h5.symm)
    subst this
    exact absurd h3 (not_olderThan_self (hi.histNodup r))

/-- C17 (partial): any number of threads may submit tasks that name one resource each: there is no
cyclic wait. -/
theorem C17_one_resource_no_cycle_partial (ht : NestingOk cfg)
    (h1 : ∀ t, (cfg.user t).unique.length ≤ 1) (hr : Reach cfg s) :
    ∃ rank : Nat → Nat, ∀ t p, Waits s t p → rank p < rank t := by
  have hi := Core.reach ht hr
  refine ⟨fun t => match (cfg.res t)[0]? with
    | some r => (olderThan (t, 0) (s.hist r)).length
    | none => 0, ?_⟩
  intro t p h
  obtain ⟨hsp, r, i, j, h3, h4, h5, htm⟩ := h.origin ht hr
  have len : ∀ t, (cfg.res t).length ≤ 1 := by intro t; simpa [Cfg.res] using h1 t
  have e1 : i = 0 := by have := getElem?_lt_length h4; have := len t; omega
  have e2 : j = 0 := by have := getElem?_lt_length h5; have := len p; omega
  subst e1 e2
  simp only [h4, h5]
  rw [olderThan_of_olderThan (hi.histNodup r) h3]
  exact olderThan_length h3

/-! ### Nested tasks: C12, C13, C19, C20, C21, C59 -/

/-- a parent task returns before its child has been initialised; it finishes; a conflicting successor
starts -/
def earlyReturn : List Act :=
  doSubmit 0 ++ doInit 0 ++ [.start 0] ++ doSubmit 1 ++ [.ret 0] ++ doFlush 0 ++ doSubmit 2 ++ doInit 2 ++
    [.start 2]

/-- C19 is false if the body of the parent may return before its child has been initialised: the parent
is finished and a conflicting successor of it is executed although the child has not been started; later
the child and the successor are executed at the same time, though they conflict. -/
theorem C19_parent_finished_before_child_false :
    (nest false).WellFormed ∧ (nest false).single = true ∧ (nest false).parentOf 1 = some 0 ∧
      (nest false).space 0 = (nest false).space 2 ∧
      ((nest false).user 0).isSerial ((nest false).user 2) = true ∧
      ((nest false).user 1).isSerial ((nest false).user 2) = true ∧
      ∃ s, Reach (nest false) s ∧ s.fl 0 = .done ∧ s.ex 1 = .none ∧ s.ex 2 = .running ∧
        ∃ s', Steps (nest false) s s' ∧ s'.ex 1 = .running ∧ s'.ex 2 = .running :=
  ⟨prog_wellFormed _ _ _ _ _, rfl, rfl, rfl, by decide +kernel, by decide +kernel,
    run (nest false) init earlyReturn, run_init _, by decide +kernel, by decide +kernel, by decide +kernel,
    run (nest false) (run (nest false) init earlyReturn) (doInit 1 ++ [.start 1]), run_steps _ _,
    by decide +kernel, by decide +kernel⟩

/-- C20 is false for such programs: the initialisation of the child accesses its parent after the parent
has been freed (and the read of `waker_id` is not concerned). -/
theorem C20_child_uses_freed_parent_false :
    ∃ s s' l, Reach (nest false) s ∧ Step (nest false) l s s' ∧ l.late = false ∧ 0 ∈ l.tasks ∧
      s.mem 0 = .freed :=
  ⟨run (nest false) init (earlyReturn ++ times 2 (.take 0) ++ times 2 (.free 0) ++ times 6 (.init 1)), _, _,
    run_init _, .parentIncr (t := 1) (q := 0) (by decide +kernel), rfl, by decide, by decide +kernel⟩

/-- C20 is false for such programs: a task is freed while its future is still held, because its
post-event is reached twice. -/
theorem C20_freed_while_future_held_false :
    ∃ s, Reach (nest false) s ∧ s.fut 0 = .held ∧ s.frees 0 = 1 ∧ s.mem 0 = .freed :=
  ⟨run (nest false) init (earlyReturn ++ doInit 1 ++ [.start 1, .ret 1] ++ doFlush 1 ++ doFlush 0 ++
      times 2 (.free 0)), run_init _, by decide +kernel, by decide +kernel, by decide +kernel⟩

/-- C21 is false for such programs: `barrier()` returns while a child task is running. -/
theorem C21_barrier_ignores_child_false :
    ∃ s, Reach (nest false) s ∧ s.empty 0 = true ∧ s.ex 1 = .running ∧ Descends (nest false) 1 0 ∧
      (nest false).space 0 = 0 :=
  ⟨run (nest false) init (doSubmit 0 ++ doInit 0 ++ [.start 0] ++ doSubmit 1 ++ [.ret 0] ++ doFlush 0 ++
      doInit 1 ++ [.start 1] ++ times 2 (.take 0) ++ times 2 (.free 0)),
    run_init _, by decide +kernel, by decide +kernel, .child rfl .refl, rfl⟩

def rC : Res := ⟨3, 0⟩

/-- a parent, its child, two further tasks, and a task that conflicts with all except the child -/
def nestAcc5 : Nat → List (Res × Mode)
  | 0 => [(rA, .write)]
  | 2 => [(rB, .write)]
  | 3 => [(rC, .write)]
  | 4 => [(rA, .write), (rB, .write), (rC, .write)]
  | _ => []

def nest5 : Cfg := prog nestAcc5 nestSpace nestParent false true

/-- the parent returns before its child has been initialised, its post-event is reached twice and
notifies the last task twice, in the middle of its initialisation -/
def doubleNotify : List Act :=
  doSubmit 0 ++ doInit 0 ++ [.start 0] ++ doSubmit 1 ++ doSubmit 2 ++ doSubmit 3 ++ doSubmit 4 ++
    times 6 (.init 4) ++ [.ret 0] ++ doFlush 0 ++ doInit 1 ++ [.start 1, .ret 1] ++ doFlush 1 ++ doFlush 0

/-- C12 is false for such programs: the last task starts although two earlier tasks that it conflicts
with have not even been initialised. -/
theorem C12_nested_order_false :
    nest5.WellFormed ∧ nest5.single = true ∧ (nest5.user 2).isSerial (nest5.user 4) = true ∧
      nest5.space 2 = nest5.space 4 ∧
      ∃ s, Reach nest5 s ∧ s.ex 4 = .running ∧ s.ex 2 = .none ∧ s.ph 2 = .queued :=
  ⟨prog_wellFormed _ _ _ _ _, rfl, by decide +kernel, rfl,
    run nest5 init (doubleNotify ++ [.start 4]), run_init _, by decide +kernel, by decide +kernel,
    by decide +kernel⟩

/-- C13 is false for such programs: the last task is started twice. -/
theorem C13_nested_started_twice_false : ∃ s, Reach nest5 s ∧ s.starts 4 = 2 ∧ s.fault = false :=
  ⟨run nest5 init (doubleNotify ++ [.start 4] ++ doInit 4 ++ [.start 4]), run_init _, by decide +kernel,
    by decide +kernel⟩

/-- C59 is false for such programs: a counter is decremented below 0. -/
theorem C59_nested_assertion_fails_false : ∃ s, Reach nest5 s ∧ s.fault = true :=
  ⟨run nest5 init (doubleNotify ++ [.start 4] ++ doInit 4 ++ [.start 4] ++ doInit 2 ++ [.start 2, .ret 2] ++
    doFlush 2), run_init _, by decide +kernel⟩

/-- C20 is false even without nested tasks: the thread that has activated a task reads the `waker_id` of
the task's event (event.cpp:160) after the task has been executed and freed by others. -/
theorem C20_late_read_false :
    flat.WellFormed ∧ (∀ sp, flat.parent sp = none) ∧ flat.single = true ∧
      ∃ s s' l, Reach flat s ∧ Step flat l s s' ∧ 1 ∈ l.tasks ∧ s.mem 1 = .freed :=
  ⟨prog_wellFormed _ _ _ _ _, fun _ => rfl, rfl,
    run flat init (flatFirst ++ [.start 1, .ret 1] ++ doFlush 1 ++ times 2 (.take 1) ++ times 2 (.free 1)), _,
    _, run_init _, .lateRead (t := 1) (by decide +kernel), by decide, by decide +kernel⟩

/-- a task, its child and its grandchild -/
def deepEventSpace : Nat → Nat
  | 1 => 1
  | 2 => 2
  | _ => 0

def deepEventParent : Nat → Option Nat
  | 1 => some 0
  | 2 => some 1
  | _ => none

def deepEvent : Cfg := prog (fun _ => []) deepEventSpace deepEventParent false true

/-- C18 is false for such programs: task 0 finishes although an event that it has created has not been reached. The
post-event of its child was reached twice. -/
theorem C18_event_ignored_false :
    deepEvent.WellFormed ∧ deepEvent.single = true ∧ ∃ s, Reach deepEvent s ∧ s.fault = false ∧ s.owner 0 = 0 ∧ s.nExt = 1 ∧
      s.ext 0 = .pending ∧ s.post 0 = 0 ∧ s.fl 0 = .done :=
  ⟨prog_wellFormed _ _ _ _ _, rfl, run deepEvent init
      (doSubmit 0 ++ doInit 0 ++ [.start 0, .event 0] ++ doSubmit 1 ++ doInit 1 ++ [.start 1] ++ doSubmit 2 ++
        [.ret 1] ++ doFlush 1 ++ [.ret 0] ++ doInit 2 ++ [.start 2, .ret 2] ++ doFlush 2 ++ doFlush 1 ++ doFlush 0),
    run_init _, by decide +kernel, by decide +kernel, by decide +kernel, by decide +kernel, by decide +kernel,
    by decide +kernel⟩

end RG.Graph
