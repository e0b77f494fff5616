import Verif.Props.GraphFalse
import Verif.Lemmas.GraphMeasure
/-
Property C15: progress of the task graph.
-/
set_option linter.unusedVariables false
namespace RG.Graph

variable {cfg : Cfg} {s s1 s' : State}

/-- A step made by the workers, by a submission that has begun, by the end of a task body or by the
notification of an event; not the begin of a new submission or the creation of a new event. -/
def Work (cfg : Cfg) (s s' : State) : Prop :=
  (∃ l, Step cfg l s s') ∧ s'.n = s.n ∧ s'.nExt = s.nExt

/-- A step that does not end a future either. -/
def OwnWork (cfg : Cfg) (s s' : State) : Prop :=
  Work cfg s s' ∧ ∀ t, s.fut t = .held → s'.fut t = .held

/-- What is assumed about the program: one thread at a time submits to a space, and a task names a
resource once (or does not conflict with itself). -/
structure Cfg.Safe (cfg : Cfg) : Prop where
  single : cfg.single = true
  once : ∀ t, (cfg.user t).unique.Nodup ∨ (cfg.user t).isSerial (cfg.user t) = false

/-- C15: a state in which no thread can make a step is one in which all tasks have completely finished.
Partial: nested programs are restricted by `NestingOk`. -/
theorem C15_no_deadlock_partial (ht : NestingOk cfg) (hs : cfg.Safe) (hr : Reach cfg s)
    (hq : ∀ s', ¬ OwnWork cfg s s') (t : Nat) (htn : t < s.n) :
    Finished cfg s t ∧ s.fl t = .done ∧ (s.fut t ≠ .held → s.mem t = .freed) := by
  have hqt := quiet_of_stuck ht (fun _ => False) hr fun l s' h hw =>
    (hq s' ⟨⟨⟨l, h⟩, hw.1, hw.2.1⟩, hw.2.2⟩).elim
  have hi := Core.reach ht hr
  have hl := Life.reach ht hr
  have hd := hqt.done ht hs.single hs.once hr t htn
  refine ⟨?_, hd, ?_⟩
  · apply finished_of_reached ht hr _ t (Nat.le_refl _)
    apply Decidable.not_not.1
    intro h
    rw [(hi.flPost t).2 h] at hd
    cases hd
  · intro hf
    have h1 := hqt.fut t
    have h2 := (hl.futEq t).1
    have h3 := hqt.inited t htn
    have h4 : s.fut t = .done := by
      cases h : s.fut t with
      | none =>
        rcases h2 h with h' | ⟨i, h'⟩ <;> rw [h3] at h' <;> cases h'
      | held => exact absurd h hf
      | taken => exact absurd h h1
      | done => rfl
    have h5 := hl.cdEq t
    have h6 := hl.memEq t
    rw [hd, h4] at h5
    rcases hqt.mem t with h | h
    · rw [h6] at h
      simp at h5
      exact absurd h5 h
    · exact h

/-- such a state exists: all tasks of `flat` have been executed, in some order, their futures are held -/
example : flat.Safe ∧ ∃ s, Reach flat s ∧ s.n = 3 ∧ ∀ t, t < 3 → s.fl t = .done :=
  ⟨⟨rfl, fun t => .inl (by
      match t with
      | 0 => decide +kernel
      | 1 => decide +kernel
      | 2 => decide +kernel
      | _ + 3 => exact C54_resources_registers_once 0 [] _)⟩,
    run flat init (flatFirst ++ [.start 1, .ret 1] ++ doFlush 1 ++ [.start 2, .ret 2] ++ doFlush 2),
    run_init _, by decide +kernel, by decide +kernel⟩

/-- C15: the workers do not run forever: there is no infinite sequence of steps without new tasks or
events. -/
theorem C15_work_ends_partial (ht : NestingOk cfg) (hr : Reach cfg s) :
    ¬ ∃ f : Nat → State, f 0 = s ∧ ∀ i, Work cfg (f i) (f (i + 1)) := by
  rintro ⟨f, h0, h⟩
  have hreach : ∀ i, Reach cfg (f i) := by
    intro i
    induction i with
    | zero => rw [h0]; exact hr
    | succ i ih => obtain ⟨⟨l, hs⟩, -, -⟩ := h i; exact .step ih hs
  have hm : ∀ i, measure cfg (f i) + i ≤ measure cfg (f 0) := by
    intro i
    induction i with
    | zero => exact Nat.le_refl _
    | succ i ih =>
      obtain ⟨⟨l, hs⟩, h1, h2⟩ := h i
      have := measure_decreases ht (hreach i) hs h1 h2
      omega
  have := hm (measure cfg (f 0) + 1)
  omega

/-- C15: from every reachable state on, whatever has happened before, the tasks submitted so far can
be completed, without any help of the user except that task bodies return and events are notified. -/
theorem C15_completion_possible_partial (ht : NestingOk cfg) (hs : cfg.Safe) (hr : Reach cfg s) :
    ∃ s', Steps cfg s s' ∧ s'.n = s.n ∧ s'.nExt = s.nExt ∧ (∀ t, s.fut t = .held → s'.fut t = .held) ∧
      ∀ t, t < s.n → Finished cfg s' t ∧ s'.fl t = .done := by
  have h : ∀ k s, Reach cfg s → measure cfg s ≤ k →
      ∃ s', Steps cfg s s' ∧ s'.n = s.n ∧ s'.nExt = s.nExt ∧ (∀ t, s.fut t = .held → s'.fut t = .held) ∧
        ∀ t, t < s.n → Finished cfg s' t ∧ s'.fl t = .done := by
    intro k
    induction k with
    | zero =>
      intro s hr hk
      refine ⟨s, .refl, rfl, rfl, fun _ h => h, fun t htn => ?_⟩
      have := C15_no_deadlock_partial ht hs hr (fun s' hw => by
        obtain ⟨⟨⟨l, h⟩, h1, h2⟩, h3⟩ := hw
        have := measure_decreases ht hr h h1 h2
        omega) t htn
      exact ⟨this.1, this.2.1⟩
    | succ k ih =>
      intro s hr hk
      by_cases hq : ∃ s', OwnWork cfg s s'
      · obtain ⟨s1, ⟨⟨⟨l, h⟩, h1, h2⟩, h3⟩⟩ := hq
        have := measure_decreases ht hr h h1 h2
        obtain ⟨s', h4, h5, h6, h7, h8⟩ := ih s1 (.step hr h) (by omega)
        refine ⟨s', Steps.trans (.step .refl h) h4, h5.trans h1, h6.trans h2, fun t ht => h7 t (h3 t ht), ?_⟩
        rw [h1] at h8
        exact h8
      · refine ⟨s, .refl, rfl, rfl, fun _ h => h, fun t htn => ?_⟩
        have := C15_no_deadlock_partial ht hs hr (fun s' hw => hq ⟨s', hw⟩) t htn
        exact ⟨this.1, this.2.1⟩
  exact h _ s hr (Nat.le_refl _)

/-- C15 for programs without nested tasks. -/
theorem C15_flat_completion (hflat : ∀ sp, cfg.parent sp = none) (hs : cfg.Safe) (hr : Reach cfg s) :
    (∃ s', Steps cfg s s' ∧ s'.n = s.n ∧ ∀ t, t < s.n → Finished cfg s' t) ∧
      ¬ ∃ f : Nat → State, f 0 = s ∧ ∀ i, Work cfg (f i) (f (i + 1)) := by
  obtain ⟨s', h1, h2, -, -, h3⟩ := C15_completion_possible_partial (.inr hflat) hs hr
  exact ⟨⟨s', h1, h2, fun t ht => (h3 t ht).1⟩, C15_work_ends_partial (.inr hflat) hr⟩

/-- C21: once the tasks submitted so far have been completed and the user has read or dropped all
futures, `barrier()` returns. -/
theorem C21_barrier_reached_partial (ht : NestingOk cfg) (hs : cfg.Safe) (hr : Reach cfg s)
    (hq : ∀ s', ¬ OwnWork cfg s s') (hf : ∀ t, t < s.n → s.fut t ≠ .held) (sp : Nat) :
    s.empty sp = true :=
  C21_barrier_returns_partial ht hr fun t htn _ => (C15_no_deadlock_partial ht hs hr hq t htn).2.2 (hf t htn)

end RG.Graph
