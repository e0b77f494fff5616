import Verif.Lemmas.GraphWait
/-
C70: task bodies may wait for the results of other tasks.
-/
set_option linter.unusedVariables false
namespace RG.Graph

variable {cfg : Cfg} {x x' : WState}

/-- A step that is not a request of the user: no new task, no new event, no body begins to wait, and no thread
outside of tasks reads a result. -/
def WWork (cfg : Cfg) (x x' : WState) : Prop :=
  WStep cfg x x' ∧ x'.g.n = x.g.n ∧ x'.g.nExt = x.g.nExt ∧ (∀ t, x.w t = none → x'.w t = none) ∧ x'.out = x.out

/-- A step that does not end a future either. -/
def WOwnWork (cfg : Cfg) (x x' : WState) : Prop :=
  WWork cfg x x' ∧ ∀ t, x.g.fut t = .held → x'.g.fut t = .held

/-- C70: task bodies may wait for the results of any tasks whose futures they have got, by submitting the task,
by capturing the future when they were created, or as a part of another result: if no thread can make a step
then all tasks have finished, and no body waits.
Partial: nested programs are restricted by `NestingOk`, and waiting for a future that was passed in another way
can block for ever, see `C70_future_of_later_task_false`. -/
theorem C70_no_deadlock_partial (ht : NestingOk cfg) (hs : cfg.Safe) (hx : WReach cfg x)
    (hq : ∀ x', ¬ WOwnWork cfg x x') (t : Nat) (htn : t < x.g.n) :
    Finished cfg x.g t ∧ x.g.fl t = .done ∧ x.w t = none := by
  have hr := hx.graph
  have hk := KInv.reach hx
  have hi := Core.reach ht hr
  have hu := Up.reach hr
  have hqt := quiet_of_stuck ht (fun t => x.w t ≠ none) hr (by
    intro l s' h hw
    apply Classical.byContradiction
    intro hne
    refine hq ⟨s', x.w, x.know, x.out⟩ ⟨⟨.other h hw.1 ?_ (.inl hw.2.1), hw.1, hw.2.1, fun _ h => h, rfl⟩, hw.2.2⟩
    intro t h1 h2
    apply Classical.byContradiction
    intro h3
    exact hne ⟨t, h1, h2, h3⟩)
  have ended : ∀ u, x.g.fl u = .done → x.g.ex u = .ended := by
    intro u h
    apply Decidable.not_not.1
    intro h'
    rw [hi.idle_of_body u h'] at h
    cases h
  have hd : ∀ t, t < x.g.n → x.g.fl t = .done := by
    apply before_induction (D := fun t => x.g.fl t = .done) hu
    intro t htn ih
    refine hqt.done_of ht hs.single hs.once hr t htn ?_ ?_ ?_
    · intro p hp hlt hsp
      exact ih p hp (.inr ⟨p, t, hlt, by unfold Cfg.parentOf; rw [hsp], .refl, .refl⟩)
    · intro c hc hp
      have := hu c t hc hp
      exact ih c hc (.inl ⟨by omega, .child hp .refl⟩)
    · intro hw
      cases h : x.w t with
      | none => exact hw h
      | some u =>
        have h1 := (hk.w t u h).1
        have h2 := hk.know t u h1
        have h3 := ended u (ih u h2.1 h2.2.2)
        refine hq _ ⟨⟨.wake (ks := []) h h3 (by simp), rfl, rfl, ?_, rfl⟩, fun _ h => h⟩
        intro t' h'
        dsimp only
        by_cases e : t' = t
        · subst e; simp
        · rw [upd_ne _ _ e]; exact h'
  refine ⟨?_, hd t htn, ?_⟩
  · apply finished_of_reached ht hr _ t (Nat.le_refl _)
    apply Decidable.not_not.1
    intro h
    have := hd t htn
    rw [(hi.flPost t).2 h] at this
    cases this
  · cases h : x.w t with
    | none => rfl
    | some u =>
      have h1 := (hk.w t u h).2
      rw [ended t (hd t htn)] at h1
      cases h1

/-- the remaining work, and the number of bodies that wait -/
def wmeasure (cfg : Cfg) (x : WState) : Nat :=
  measure cfg x.g + sumTo x.g.n fun t => if x.w t = none then 0 else 1

theorem wmeasure_decreases (ht : NestingOk cfg) (hx : WReach cfg x) (h : WWork cfg x x') :
    wmeasure cfg x' < wmeasure cfg x := by
  obtain ⟨hs, h1, h2, h3, h4⟩ := h
  have hr := hx.graph
  cases hs with
  | submitOut h hn => dsimp only at h1; omega
  | submitIn h hn => dsimp only at h1; omega
  | other h hn =>
    have := measure_decreases ht hr h h1 h2
    simp only [wmeasure, hn]
    omega
  | @wait t u h hw =>
    have := h3 t hw
    dsimp only at this
    rw [upd_same] at this
    cases this
  | @wake t u ks hw =>
    have hk := KInv.reach hx
    have htn := (hk.know t u (hk.w t u hw).1).2.1
    have := sumTo_upd (fun _ o => if o = none then 0 else 1) x.w (none : Option Nat) htn
    simp only [hw] at this
    simp only [wmeasure]
    simp at this
    omega
  | @readOut u ks hne hu he hk =>
    dsimp only at h4
    exact absurd (List.append_left_eq_self.1 h4) hne

/-- C70: the workers do not run forever: there is no infinite sequence of steps without new requests. -/
theorem C70_work_ends_partial (ht : NestingOk cfg) (hx : WReach cfg x) :
    ¬ ∃ f : Nat → WState, f 0 = x ∧ ∀ i, WWork cfg (f i) (f (i + 1)) := by
  rintro ⟨f, h0, h⟩
  have hreach : ∀ i, WReach cfg (f i) := by
    intro i
    induction i with
    | zero => rw [h0]; exact hx
    | succ i ih => exact .step ih (h i).1
  have hm : ∀ i, wmeasure cfg (f i) + i ≤ wmeasure cfg (f 0) := by
    intro i
    induction i with
    | zero => exact Nat.le_refl _
    | succ i ih =>
      have := wmeasure_decreases ht (hreach i) (h i)
      omega
  have := hm (wmeasure cfg (f 0) + 1)
  omega

theorem WSteps.trans {x1 x2 x3 : WState} (h1 : WSteps cfg x1 x2) (h2 : WSteps cfg x2 x3) : WSteps cfg x1 x3 := by
  induction h2 with
  | refl => exact h1
  | step _ hs ih => exact .step ih hs

/-- C70: from every reachable state on, whichever bodies wait for whatever results they can wait for, all tasks
submitted so far can be completed, and all waits end, without a new request of the user. -/
theorem C70_completion_possible_partial (ht : NestingOk cfg) (hs : cfg.Safe) (hx : WReach cfg x) :
    ∃ x', WSteps cfg x x' ∧ x'.g.n = x.g.n ∧ x'.g.nExt = x.g.nExt ∧
      (∀ t, x.g.fut t = .held → x'.g.fut t = .held) ∧
      ∀ t, t < x.g.n → Finished cfg x'.g t ∧ x'.w t = none := by
  have h : ∀ k x, WReach cfg x → wmeasure cfg x ≤ k →
      ∃ x', WSteps cfg x x' ∧ x'.g.n = x.g.n ∧ x'.g.nExt = x.g.nExt ∧
        (∀ t, x.g.fut t = .held → x'.g.fut t = .held) ∧
        ∀ t, t < x.g.n → Finished cfg x'.g t ∧ x'.w t = none := by
    intro k
    induction k with
    | zero =>
      intro x hx hk
      refine ⟨x, .refl, rfl, rfl, fun _ h => h, fun t htn => ?_⟩
      have := C70_no_deadlock_partial ht hs hx (fun x' hw => by
        have := wmeasure_decreases ht hx hw.1
        omega) t htn
      exact ⟨this.1, this.2.2⟩
    | succ k ih =>
      intro x hx hk
      by_cases hq : ∃ x', WOwnWork cfg x x'
      · obtain ⟨x1, hw, h3⟩ := hq
        have := wmeasure_decreases ht hx hw
        obtain ⟨x', h4, h5, h6, h7, h8⟩ := ih x1 (.step hx hw.1) (by omega)
        refine ⟨x', WSteps.trans (.step .refl hw.1) h4, h5.trans hw.2.1, h6.trans hw.2.2.1,
          fun t ht => h7 t (h3 t ht), ?_⟩
        rw [hw.2.1] at h8
        exact h8
      · refine ⟨x, .refl, rfl, rfl, fun _ h => h, fun t htn => ?_⟩
        have := C70_no_deadlock_partial ht hs hx (fun x' hw => hq ⟨x', hw⟩) t htn
        exact ⟨this.1, this.2.2⟩
  exact h _ x hx (Nat.le_refl _)

/-! Example: task 0 writes A. Task 1 gets the future of task 0 and passes it on to its child, task 2. Task 2
waits for task 0, and task 1 waits for task 2. -/

def passAcc : Nat → List (Res × Mode)
  | 0 => [(rA, .write)]
  | 1 => [(rB, .write)]
  | 2 => [(rB, .write)]
  | _ => []

def passSpace : Nat → Nat
  | 2 => 1
  | _ => 0

def passParent : Nat → Option Nat
  | 1 => some 1
  | _ => none

def pass : Cfg := prog passAcc passSpace passParent true true

/-- both waits have begun, task 0 has not been started -/
def passWaiting : List WAct :=
  plain (doSubmit 0 ++ doInit 0) ++ [.g .submit [0]] ++ plain (times 3 (.sub 1) ++ doInit 1 ++ [.start 1]) ++
    [.g .submit [0]] ++ plain (times 3 (.sub 2) ++ doInit 2 ++ [.start 2]) ++ [.wait 2 0, .wait 1 2]

example : NestingOk pass ∧ pass.Safe ∧ ∃ x, WReach pass x ∧ x.g.n = 3 ∧ x.w 1 = some 2 ∧ x.w 2 = some 0 ∧
    x.g.ex 0 = .none :=
  ⟨.inl rfl, ⟨rfl, fun t => .inl (by
      match t with
      | 0 => decide +kernel
      | 1 => decide +kernel
      | 2 => decide +kernel
      | _ + 3 => exact C54_resources_registers_once 0 [] _)⟩,
    wrun pass WState.init passWaiting, wrun_reach _ .init, by decide +kernel, by decide +kernel,
    by decide +kernel, by decide +kernel⟩

/-- and all tasks have finished -/
example : ∃ x, WReach pass x ∧ x.g.n = 3 ∧ ∀ t, t < 3 → x.g.fl t = .done ∧ x.w t = none :=
  ⟨wrun pass WState.init (passWaiting ++ plain [.start 0, .ret 0] ++ [.wake 2 0 []] ++
      plain ([.ret 2] ++ doFlush 2) ++ [.wake 1 2 []] ++ plain ([.ret 1] ++ doFlush 1 ++ doFlush 0)),
    wrun_reach _ .init, by decide +kernel, by decide +kernel⟩

/-- C70 is false for a future that a body gets in another way, e.g. through a global variable: if the body of a
task waits for a task that was submitted later and conflicts with it, neither of them goes on. -/
theorem C70_future_of_later_task_false :
    flat.WellFormed ∧ flat.Safe ∧ ∃ s1, Reach flat s1 ∧ s1.ex 0 = .running ∧ s1.ph 1 = .inited ∧
      ∀ s, Steps flat s1 s → s.ex 0 = .running → s.ex 1 ≠ .ended := by
  refine ⟨prog_wellFormed _ _ _ _ _, ⟨rfl, fun t => .inl (by
      match t with
      | 0 => decide +kernel
      | 1 => decide +kernel
      | 2 => decide +kernel
      | _ + 3 => exact C54_resources_registers_once 0 [] _)⟩,
    run flat init (flatInit ++ [.start 0]), run_init _, by decide +kernel, by decide +kernel, ?_⟩
  intro s h h0 h1
  have := C12_one_submitter_partial (prog_wellFormed _ _ _ _ _) (.inl rfl) rfl (h.reach (run_init _))
    (p := 0) (t := 1) (by omega) rfl (by decide +kernel) (by unfold Started; rw [h1]; simp)
  cases this with
  | mk h2 _ _ => rw [h0] at h2; cases h2

/-! ### parents that wait for their children -/

/-- The executions in which the body of a task ends only after the bodies of its children have ended, because it
waits for their results. -/
inductive WaitingReach (cfg : Cfg) : State → Prop
  | init : WaitingReach cfg init
  | step {s s' l} : WaitingReach cfg s → Step cfg l s s' →
      (∀ t c, s.ex t = .running → s'.ex t = .ended → c < s.n → cfg.parentOf c = some t → s.ex c = .ended) →
      WaitingReach cfg s'

/-- the same step, if the body of a task ends only after the initialisation of its children -/
theorem Step.to_strict {s s' : State} {l : Lbl} (hs : Step cfg l s s')
    (hb : ∀ t c, s.ex t = .running → s'.ex t = .ended → c < s.n → cfg.parentOf c = some t → s.ph c = .inited) :
    Step { cfg with strict := true } l s s' := by
  cases hs with
  | @bodyEnd _ t h hc hst =>
    exact .bodyEnd h hc fun _ c hc' hp => hb t c h (by simp [State.decPost]) hc' hp
  | beginSubmit hp h1 => exact .beginSubmit hp h1
  | pushUser h hr => exact .pushUser h hr
  | emplace h hr => exact .emplace h hr
  | startInit h => exact .startInit h
  | lockRes h hr hl => exact .lockRes h hr hl
  | scanParent h hp => exact .scanParent h hp
  | scanSkip h hp hs => exact .scanSkip h hp hs
  | scanReached h hr hp hs h0 => exact .scanReached (cfg := { cfg with strict := true }) h hr hp hs h0
  | scanLink h hp hs h0 => exact .scanLink h hp hs h0
  | link h => exact .link h
  | incr h hr => exact .incr (cfg := { cfg with strict := true }) h hr
  | scanEnd h => exact .scanEnd h
  | unlock h hr => exact .unlock h hr
  | resEnd h hr => exact .resEnd h hr
  | noParent h hp => exact .noParent h hp
  | parentPush h hp => exact .parentPush h hp
  | parentIncr h => exact .parentIncr h
  | final h => exact .final h
  | start h => exact .start h
  | createEvent h => exact .createEvent h
  | extNotify h => exact .extNotify h
  | extFollower h => exact .extFollower h
  | delete h hr hl => exact .delete h hr hl
  | deleteEnd h hr => exact .deleteEnd h hr
  | notifyPre h => exact .notifyPre h
  | notifyPost h => exact .notifyPost h
  | notifyEnd h => exact .notifyEnd h
  | countPost h => exact .countPost h
  | takeFuture h => exact .takeFuture h
  | countGet h => exact .countGet h
  | freeCount h => exact .freeCount (cfg := { cfg with strict := true }) h
  | free h => exact .free h
  | lateRead h => exact .lateRead h

/-- they satisfy the assumption on nested tasks -/
theorem WaitingReach.strict {s : State} (h : WaitingReach cfg s) : Reach { cfg with strict := true } s := by
  induction h with
  | init => exact .init
  | @step s s' l _ hs hw ih =>
    have hi := Core.reach (.inl rfl) ih
    refine .step ih (hs.to_strict fun t c h1 h2 h3 h4 => ?_)
    exact (hi.exI c (by rw [hw t c h1 h2 h3 h4]; simp)).1

theorem Finished.of_strict {s : State} {t : Nat} (h : Finished { cfg with strict := true } s t) :
    Finished cfg s t := by
  induction h with
  | mk h1 h2 _ ih => exact .mk h1 h2 ih

theorem WellFormed.strict (h : cfg.WellFormed) : ({ cfg with strict := true } : Cfg).WellFormed := ⟨h.built, h.policy⟩

/-- C12 for programs in which task bodies wait for the results of their children: no assumption on the speed of
the workers. -/
theorem C12_waiting_parents_partial {s : State} (hw : cfg.WellFormed) (hs : cfg.single = true) (hr : WaitingReach cfg s)
    {p t : Nat} (hlt : p < t) (hsp : cfg.space p = cfg.space t)
    (hc : (cfg.user p).isSerial (cfg.user t) = true) (hx : Started s t) : Finished cfg s p :=
  (C12_one_submitter_partial (cfg := { cfg with strict := true }) (WellFormed.strict hw) (.inl rfl) hs hr.strict
    hlt hsp hc hx).of_strict

/-- C13 for such programs. -/
theorem C13_waiting_parents_partial {s : State} (hr : WaitingReach cfg s) (t : Nat) : s.starts t ≤ 1 := by
  have := (C13_started_at_most_once_partial (.inl rfl) hr.strict t).1
  omega

/-- C19 for such programs. -/
theorem C19_waiting_parents_partial {s : State} (hw : cfg.WellFormed) (hs : cfg.single = true) (hr : WaitingReach cfg s)
    {c t : Nat} (hc : c < s.n) (hp : cfg.parentOf c = some t) (hf : ¬ Finished cfg s c) :
    s.fl t = .idle ∧ s.frees t = 0 ∧
      ∀ u, t < u → cfg.space t = cfg.space u → (cfg.user t).isSerial (cfg.user u) = true → ¬ Started s u :=
  C19_parent_after_children_partial (cfg := { cfg with strict := true }) (WellFormed.strict hw) (.inl rfl) hs hr.strict
    hc hp fun h => hf h.of_strict

/-- C20 for such programs. -/
theorem C20_waiting_parents_partial {s : State} (hr : WaitingReach cfg s) (t : Nat) :
    s.frees t ≤ 1 ∧ (s.frees t = 1 → Finished cfg s t ∧ s.fut t = .done) := by
  have h := C20_freed_once_partial (.inl rfl) hr.strict t
  exact ⟨h.1, fun h' => ⟨(h.2.2 h').1.of_strict, (h.2.2 h').2⟩⟩

/-- C21 for such programs. -/
theorem C21_waiting_parents_partial {s : State} (hr : WaitingReach cfg s) {sp : Nat} (h : s.empty sp = true) :
    ∀ t, t < s.n → cfg.space t = sp → Finished cfg s t ∧ s.fut t = .done := by
  intro t htn hsp
  have h' := C21_barrier_waits_for_all_partial (cfg := { cfg with strict := true }) (.inl rfl) hr.strict h t htn hsp
  exact ⟨h'.1.of_strict, h'.2⟩

/-- C59 for such programs. -/
theorem C59_waiting_parents {s : State} (hr : WaitingReach cfg s) : s.fault = false :=
  C59_assertions_hold (.inl rfl) hr.strict

theorem Step.of_strict {s s' : State} {l : Lbl} (h : Step { cfg with strict := true } l s s') : Step cfg l s s' := by
  cases h with
  | bodyEnd h hc hst => exact .bodyEnd h hc fun _ => hst rfl
  | beginSubmit hp h1 => exact .beginSubmit hp h1
  | pushUser h hr => exact .pushUser h hr
  | emplace h hr => exact .emplace h hr
  | startInit h => exact .startInit h
  | lockRes h hr hl => exact .lockRes h hr hl
  | scanParent h hp => exact .scanParent h hp
  | scanSkip h hp hs => exact .scanSkip h hp hs
  | scanReached h hr hp hs h0 => exact .scanReached (cfg := cfg) h hr hp hs h0
  | scanLink h hp hs h0 => exact .scanLink h hp hs h0
  | link h => exact .link h
  | incr h hr => exact .incr (cfg := cfg) h hr
  | scanEnd h => exact .scanEnd h
  | unlock h hr => exact .unlock h hr
  | resEnd h hr => exact .resEnd h hr
  | noParent h hp => exact .noParent h hp
  | parentPush h hp => exact .parentPush h hp
  | parentIncr h => exact .parentIncr h
  | final h => exact .final h
  | start h => exact .start h
  | createEvent h => exact .createEvent h
  | extNotify h => exact .extNotify h
  | extFollower h => exact .extFollower h
  | delete h hr hl => exact .delete h hr hl
  | deleteEnd h hr => exact .deleteEnd h hr
  | notifyPre h => exact .notifyPre h
  | notifyPost h => exact .notifyPost h
  | notifyEnd h => exact .notifyEnd h
  | countPost h => exact .countPost h
  | takeFuture h => exact .takeFuture h
  | countGet h => exact .countGet h
  | freeCount h => exact .freeCount (cfg := cfg) h
  | free h => exact .free h
  | lateRead h => exact .lateRead h

/-- C15 and C70 for such programs: if no thread can make a step, other than ending the body of a task with a child
whose body has not ended, then all tasks have finished. -/
theorem C70_waiting_parents_partial {s : State} (hs : cfg.Safe) (hr : WaitingReach cfg s)
    (hq : ∀ s', OwnWork cfg s s' →
      ∃ t c, s.ex t = .running ∧ s'.ex t = .ended ∧ c < s.n ∧ cfg.parentOf c = some t ∧ s.ex c ≠ .ended)
    (t : Nat) (htn : t < s.n) : Finished cfg s t := by
  have hr' := hr.strict
  have ht : NestingOk { cfg with strict := true } := .inl rfl
  have hi := Core.reach ht hr'
  have hu : Up { cfg with strict := true } s.n := Up.reach hr'
  have hqt := quiet_of_stuck ht (fun t => ∃ c, c < s.n ∧ cfg.parentOf c = some t ∧ s.ex c ≠ .ended) hr' (by
    intro l s' h hw
    obtain ⟨t, c, h1, h2, h3⟩ := hq s' ⟨⟨⟨l, h.of_strict⟩, hw.1, hw.2.1⟩, hw.2.2⟩
    exact ⟨t, ⟨c, h3⟩, h1, by rw [h2]; simp⟩)
  have hd : ∀ t, t < s.n → s.fl t = .done := by
    apply before_induction (D := fun t => s.fl t = .done) hu
    intro t htn ih
    have child : ∀ c, c < s.n → cfg.parentOf c = some t → s.fl c = .done := by
      intro c hc hp
      have := hu c t hc hp
      exact ih c hc (.inl ⟨by omega, .child hp .refl⟩)
    refine hqt.done_of ht hs.single hs.once hr' t htn ?_ child ?_
    · intro p hp hlt hsp
      exact ih p hp (.inr ⟨p, t, hlt, by unfold Cfg.parentOf; rw [hsp], .refl, .refl⟩)
    · rintro ⟨c, hc, hp, he⟩
      have := child c hc hp
      rw [hi.idle_of_body c he] at this
      cases this
  refine (finished_of_reached ht hr' _ t (Nat.le_refl _) ?_).of_strict
  apply Decidable.not_not.1
  intro h
  have := hd t htn
  rw [(hi.flPost t).2 h] at this
  cases this

/-- an execution of `as` in which all bodies end after their children -/
def waits (cfg : Cfg) : State → List Act → Bool
  | _, [] => true
  | s, a :: as =>
    match exec cfg s a with
    | none => waits cfg s as
    | some s' =>
      ((List.range s.n).all fun t => (List.range s.n).all fun c =>
        decide (s.ex t = .running → s'.ex t = .ended → cfg.parentOf c = some t → s.ex c = .ended)) &&
      waits cfg s' as

theorem waits_reach : ∀ (as : List Act) {s : State}, WaitingReach cfg s → waits cfg s as = true →
    WaitingReach cfg (run cfg s as)
  | [], s, h, _ => h
  | a :: as, s, h, hw => by
    unfold waits at hw
    unfold run
    cases he : exec cfg s a with
    | none =>
      rw [he] at hw
      exact waits_reach as h hw
    | some s' =>
      rw [he] at hw
      simp only [Bool.and_eq_true, List.all_eq_true, List.mem_range, decide_eq_true_eq] at hw
      obtain ⟨l, hs⟩ := exec_step he
      refine waits_reach as (.step h hs fun t c h1 h2 hc hp => hw.1 t ?_ c hc h1 h2 hp) hw.2
      apply Nat.lt_of_not_le
      intro h'
      rw [(Dom.reach h.strict).ex t h'] at h1
      cases h1

/-- the parent, its child and the successor have been executed; the program is not restricted -/
example : (nest false).WellFormed ∧ ∃ s, WaitingReach (nest false) s ∧ s.n = 3 ∧ s.ex 1 = .ended ∧ s.ex 2 = .running :=
  ⟨prog_wellFormed _ _ _ _ _, run (nest false) init
      (doSubmit 0 ++ doInit 0 ++ [.start 0] ++ doSubmit 1 ++ doInit 1 ++ [.start 1, .ret 1, .ret 0] ++ doSubmit 2 ++
        doInit 2 ++ doFlush 1 ++ doFlush 0 ++ [.start 2]),
    waits_reach _ .init (by decide +kernel), by decide +kernel, by decide +kernel, by decide +kernel⟩

end RG.Graph
