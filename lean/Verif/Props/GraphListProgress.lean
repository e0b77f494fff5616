import Verif.Lemmas.GraphListProgress
import Verif.Props.GraphList
/-
Property C75: progress of the task graph, when the lists of users and of followers are the lock-free lists.
-/
set_option linter.unusedVariables false
namespace RG.GList

open RG.Graph (Cfg NestingOk Finished Started OwnWork flat nest rA)

variable {cfg : Cfg} {N : Nat} {s s' : State} {g g' : Graph.State}

/-- A step made by the workers, by a submission that has begun, by the end of a task body or by the notification of an
event; not the begin of a new submission, the creation of a new event, or the end of a future. -/
def Own (cfg : Cfg) (N : Nat) (s s' : State) : Prop :=
  Step cfg N true s s' ∧ s'.g.n = s.g.n ∧ s'.g.nExt = s.g.nExt ∧ ∀ t, s.g.fut t = .held → s'.g.fut t = .held

theorem n_mono {g g' : Graph.State} {lb : Graph.Lbl} (h : Graph.Step cfg lb g g') : g.n ≤ g'.n ∧ g.nExt ≤ g'.nExt := by
  cases h <;> (try dsimp only [Graph.State.decPost, Graph.State.decPre, Graph.State.decCd]) <;> omega

theorem steps_mono {g g' : Graph.State} (h : Graph.Steps cfg g g') : g.n ≤ g'.n ∧ g.nExt ≤ g'.nExt := by
  induction h with
  | refl => exact ⟨Nat.le_refl _, Nat.le_refl _⟩
  | step _ h ih => have := n_mono h; omega

theorem fut_gone (hl : Graph.Life cfg g) {lb : Graph.Lbl} (h : Graph.Step cfg lb g g') {t : Nat}
    (h' : g.fut t = .taken ∨ g.fut t = .done) : g'.fut t = .taken ∨ g'.fut t = .done := by
  have h1 := (hl.futEq t).2
  cases h <;> (try dsimp only [Graph.State.decPost, Graph.State.decPre, Graph.State.decCd]) <;>
    first | exact h' | grind [upd]

theorem steps_gone (ht : NestingOk cfg) (hr : Graph.Reach cfg g) (h : Graph.Steps cfg g g') {t : Nat}
    (h' : g.fut t = .taken ∨ g.fut t = .done) : Graph.Reach cfg g' ∧ (g'.fut t = .taken ∨ g'.fut t = .done) := by
  induction h with
  | refl => exact ⟨hr, h'⟩
  | step _ h ih => exact ⟨ih.1.step h, fut_gone (Graph.Life.reach ht ih.1) h ih.2⟩

theorem fut_held {lb : Graph.Lbl} (h : Graph.Step cfg lb g g') {t : Nat} (h' : g.fut t = .held) :
    g'.fut t = .held ∨ g'.fut t = .taken ∨ g'.fut t = .done := by
  cases h <;> (try dsimp only [Graph.State.decPost, Graph.State.decPre, Graph.State.decCd]) <;>
    first | exact .inl h' | grind [upd]

theorem Steps.head {a b : State} (h : Steps cfg N true a b) : a = b ∨ ∃ c, Step cfg N true a c ∧ Steps cfg N true c b := by
  induction h with
  | refl => exact .inl rfl
  | step _ h' ih =>
    rcases ih with rfl | ⟨c, h1, h2⟩
    · exact .inr ⟨_, h', .refl⟩
    · exact .inr ⟨c, h1, h2.step h'⟩

/-- the first step of an execution in which the graph gets on -/
theorem Goes.own (ht : NestingOk cfg) (hN : 0 < N) (hr : Reach cfg N true s) (h : Goes cfg N s) : ∃ s', Own cfg N s s' := by
  have hI := Inv.of ht hN hr
  obtain ⟨s2, h1, ⟨⟨lb, h2⟩, h3, h4⟩, h5⟩ := h
  have hm := Graph.measure_decreases ht hI.reach h2 h3 h4
  rcases h1.head with rfl | ⟨c, st, h6⟩
  · omega
  · have hrc := hr.step st
    have hsim := h6.sim ht hN hrc
    have k := steps_mono hsim
    rcases st.sim ht hN hI with e | ⟨lb', e⟩
    · exact ⟨c, st, by rw [e], by rw [e], fun t ht => by rw [e]; exact ht⟩
    · have k' := n_mono e
      refine ⟨c, st, by omega, by omega, fun t hh => ?_⟩
      rcases fut_held e hh with h | h
      · exact h
      · have := (steps_gone ht (hI.reach.step e) hsim h).2
        rw [h5 t hh] at this
        rcases this with h | h <;> cases h

/-- C75: as long as a submitted task has not completely finished, or its memory has not been released although its future
has been read or dropped, some thread can make a step: it never happens that all threads wait for a lock, for a slot of a
list or for an element of a list. Partial: as for C74. -/
theorem C75_no_deadlock_partial (ht : NestingOk cfg) (hs : cfg.Safe) (hN : 0 < N) (hr : Reach cfg N true s) {t : Nat}
    (htn : t < s.g.n)
    (hx : ¬ Finished cfg s.g t ∨ s.g.fl t ≠ .done ∨ (s.g.fut t ≠ .held ∧ s.g.mem t ≠ .freed)) : ∃ s', Own cfg N s s' := by
  have hI := Inv.of ht hN hr
  apply Classical.byContradiction
  intro hq
  have := Graph.C15_no_deadlock_partial ht hs hI.reach (fun g' hw => hq ((goes ht hN hr hw).own ht hN hr)) t htn
  rcases hx with h | h | ⟨h, h'⟩
  · exact h this.1
  · exact h this.2.1
  · exact h' (this.2.2 h)

/-- C75: from every reachable state on, in whatever state the operations on the lists are, the tasks submitted so far can
be completed, without any help of the user except that task bodies return and events are notified.
Partial: as for C74. -/
theorem C75_completion_possible_partial (ht : NestingOk cfg) (hs : cfg.Safe) (hN : 0 < N) (hr : Reach cfg N true s) :
    ∃ s', Steps cfg N true s s' ∧ s'.g.n = s.g.n ∧ s'.g.nExt = s.g.nExt ∧ (∀ t, s.g.fut t = .held → s'.g.fut t = .held) ∧
      ∀ t, t < s.g.n → Finished cfg s'.g t ∧ s'.g.fl t = .done := by
  have h : ∀ k s, Reach cfg N true s → Graph.measure cfg s.g ≤ k →
      ∃ s', Steps cfg N true s s' ∧ s'.g.n = s.g.n ∧ s'.g.nExt = s.g.nExt ∧ (∀ t, s.g.fut t = .held → s'.g.fut t = .held) ∧
        ∀ t, t < s.g.n → Finished cfg s'.g t ∧ s'.g.fl t = .done := by
    intro k
    induction k with
    | zero =>
      intro s hr hk
      have hI := Inv.of ht hN hr
      refine ⟨s, .refl, rfl, rfl, fun _ h => h, fun t htn => ?_⟩
      have := Graph.C15_no_deadlock_partial ht hs hI.reach (fun s' hw => by
        obtain ⟨⟨⟨l, h⟩, h1, h2⟩, h3⟩ := hw
        have := Graph.measure_decreases ht hI.reach h h1 h2
        omega) t htn
      exact ⟨this.1, this.2.1⟩
    | succ k ih =>
      intro s hr hk
      have hI := Inv.of ht hN hr
      by_cases hq : ∃ g', OwnWork cfg s.g g'
      · obtain ⟨g', hw⟩ := hq
        obtain ⟨s1, h0, ⟨⟨⟨l, h⟩, h1, h2⟩, h3⟩⟩ := goes ht hN hr hw
        have := Graph.measure_decreases ht hI.reach h h1 h2
        obtain ⟨s', h4, h5, h6, h7, h8⟩ := ih s1 (h0.reach hr) (by omega)
        refine ⟨s', h0.trans h4, h5.trans h1, h6.trans h2, fun t ht => h7 t (h3 t ht), ?_⟩
        rw [h1] at h8
        exact h8
      · refine ⟨s, .refl, rfl, rfl, fun _ h => h, fun t htn => ?_⟩
        have := Graph.C15_no_deadlock_partial ht hs hI.reach (fun s' hw => hq ⟨s', hw⟩) t htn
        exact ⟨this.1, this.2.1⟩
  exact h _ s hr (Nat.le_refl _)

/-- C75: as long as `barrier()` does not return although the user has read or dropped all futures, some thread can make a
step. Partial: as for C74. -/
theorem C75_barrier_not_stuck_partial (ht : NestingOk cfg) (hs : cfg.Safe) (hN : 0 < N) (hr : Reach cfg N true s) {sp : Nat}
    (hb : s.g.empty sp = false) (hf : ∀ t, t < s.g.n → s.g.fut t ≠ .held) : ∃ s', Own cfg N s s' := by
  apply Classical.byContradiction
  intro hq
  have : s.g.empty sp = true := Graph.C21_barrier_returns_partial ht (Inv.of ht hN hr).reach fun t htn _ =>
    Decidable.byContradiction fun h => hq (C75_no_deadlock_partial ht hs hN hr htn (.inr (.inr ⟨hf t htn, h⟩)))
  rw [hb] at this; cases this

theorem flat_safe : flat.Safe :=
  ⟨rfl, fun t => .inl (by
      match t with
      | 0 => decide +kernel
      | 1 => decide +kernel
      | 2 => decide +kernel
      | _ + 3 => exact C54_resources_registers_once 0 [] _)⟩

/-- task 0 has locked the mutex of a resource and is about to remove itself from the list, task 1 is inside of its
submission to this list -/
def midway : List Act := doSub 0 ++ doInit 0 ++ [.g (.start 0), .g (.ret 0)] ++ times 2 (.flush 0) ++ .g .submit :: times 3 (.sub 1)

set_option maxRecDepth 100000 in
/-- in the middle of operations on a list: a removal with the mutex locked, and a push -/
example : NestingOk flat ∧ flat.Safe ∧ ∃ s, Reach flat 2 true s ∧ 1 < s.g.n ∧ s.lk rA = some 0 ∧
    CoL.removing ((s.l rA).pcs 0) = true ∧ CoL.pushing ((s.l rA).pcs 2) = true ∧ s.g.fl 0 ≠ .done ∧ s.g.fl 1 ≠ .done :=
  ⟨.inl rfl, flat_safe, run flat 2 true init midway, run_init _, by decide +kernel, by decide +kernel, by decide +kernel,
    by decide +kernel, by decide +kernel, by decide +kernel⟩

set_option maxRecDepth 100000 in
/-- `barrier()` waits, and the only future has been dropped before the task has finished -/
example : ∃ s, Reach flat 2 true s ∧ s.g.n = 1 ∧ s.g.empty 0 = false ∧ s.g.fut 0 ≠ .held ∧ s.g.fl 0 = .idle :=
  ⟨run flat 2 true init (doSub 0 ++ doInit 0 ++ [.g (.take 0)]), run_init _, by decide +kernel, by decide +kernel,
    by decide +kernel, by decide +kernel⟩

end RG.GList
