import Verif.Model.Exceptions
/- C97: Exceptions in the bodies of tasks. -/
namespace RG.EH

/-- the state of a thread is the one of the task that it executes -/
structure Inv (s : State) : Prop where
  run : ∀ i th, (s.tsk i).status = .running th → (s.thr th).task = some i
  back : ∀ i th, (s.thr th).task = some i → (s.tsk i).status = .running th
  same : ∀ i th, (s.tsk i).status = .running th →
    (s.thr th).caught = (s.tsk i).handling ∧ (s.thr th).unc = (s.tsk i).flying.length
  idle : ∀ th, (s.thr th).task = none → (s.thr th).caught = [] ∧ (s.thr th).unc = 0
  calm : ∀ i, (∀ th, (s.tsk i).status ≠ .running th) → (s.tsk i).handling = [] ∧ (s.tsk i).flying = []
  obs : ∀ o ∈ s.obs, o.ok

theorem Inv.init : Inv init :=
  ⟨fun _ _ h => by (cases h), fun _ _ h => by (cases h), fun _ _ h => by (cases h), fun _ _ => ⟨rfl, rfl⟩,
    fun _ _ => ⟨rfl, rfl⟩, fun _ h => by (cases h)⟩

/-- a step of a task on its thread -/
theorem Inv.on {s : State} (h : Inv s) {i th : Nat} (hi : (s.tsk i).status = .running th) {T : Task} {H : Thread}
    {o : List Obs} (h1 : T.status = .running th) (h2 : H.task = some i) (h3 : H.caught = T.handling)
    (h4 : H.unc = T.flying.length) (ho : ∀ x ∈ o, x.ok) : Inv (s.put i T th H o) := by
  have hth := h.run i th hi
  constructor
  · intro j t hj
    by_cases e : j = i
    · subst e; simp only [State.put, upd_same] at hj ⊢; rw [h1] at hj; cases hj; rw [upd_same]; exact h2
    · simp only [State.put, upd_ne _ _ e] at hj ⊢
      have := h.run j t hj
      rw [upd_ne _ _ (by rintro rfl; rw [hth] at this; cases this; exact e rfl)]; exact this
  · intro j t hj
    by_cases e : t = th
    · subst e; simp only [State.put, upd_same] at hj ⊢; rw [h2] at hj; cases hj; rw [upd_same]; exact h1
    · simp only [State.put, upd_ne _ _ e] at hj ⊢
      have := h.back j t hj
      rw [upd_ne _ _ (by rintro rfl; rw [hi] at this; cases this; exact e rfl)]; exact this
  · intro j t hj
    by_cases e : j = i
    · subst e; simp only [State.put, upd_same] at hj ⊢; rw [h1] at hj; cases hj; rw [upd_same]; exact ⟨h3, h4⟩
    · simp only [State.put, upd_ne _ _ e] at hj ⊢
      have := h.run j t hj
      rw [upd_ne _ _ (by rintro rfl; rw [hth] at this; cases this; exact e rfl)]; exact h.same j t hj
  · intro t ht
    by_cases e : t = th
    · subst e; simp only [State.put, upd_same] at ht; rw [h2] at ht; cases ht
    · simp only [State.put, upd_ne _ _ e] at ht ⊢; exact h.idle t ht
  · intro j hj
    by_cases e : j = i
    · subst e; simp only [State.put, upd_same] at hj; exact absurd h1 (hj th)
    · simp only [State.put, upd_ne _ _ e] at hj ⊢; exact h.calm j hj
  · intro x hx
    rcases List.mem_append.1 hx with hx | hx
    · exact ho x hx
    · exact h.obs x hx

/-- a task leaves its thread -/
theorem Inv.off {s : State} (h : Inv s) {i th : Nat} (hi : (s.tsk i).status = .running th) {T : Task}
    (h1 : ∀ t, T.status ≠ .running t) (h2 : T.handling = []) (h3 : T.flying = [])
    (h4 : (s.tsk i).handling = []) (h5 : (s.tsk i).flying = []) :
    Inv (s.put i T th { s.thr th with task := none } []) := by
  have hth := h.run i th hi
  obtain ⟨h6, h7⟩ := h.same i th hi
  rw [h4] at h6; rw [h5] at h7
  constructor
  · intro j t hj
    by_cases e : j = i
    · subst e; simp only [State.put, upd_same] at hj; exact absurd hj (h1 t)
    · simp only [State.put, upd_ne _ _ e] at hj ⊢
      have := h.run j t hj
      rw [upd_ne _ _ (by rintro rfl; rw [hth] at this; cases this; exact e rfl)]; exact this
  · intro j t hj
    by_cases e : t = th
    · subst e; simp only [State.put, upd_same] at hj; cases hj
    · simp only [State.put, upd_ne _ _ e] at hj ⊢
      have := h.back j t hj
      rw [upd_ne _ _ (by rintro rfl; rw [hi] at this; cases this; exact e rfl)]; exact this
  · intro j t hj
    by_cases e : j = i
    · subst e; simp only [State.put, upd_same] at hj; exact absurd hj (h1 t)
    · simp only [State.put, upd_ne _ _ e] at hj ⊢
      have := h.run j t hj
      rw [upd_ne _ _ (by rintro rfl; rw [hth] at this; cases this; exact e rfl)]; exact h.same j t hj
  · intro t ht
    by_cases e : t = th
    · subst e; simp only [State.put, upd_same]; exact ⟨h6, h7⟩
    · simp only [State.put, upd_ne _ _ e] at ht ⊢; exact h.idle t ht
  · intro j hj
    by_cases e : j = i
    · subst e; simp only [State.put, upd_same]; exact ⟨h2, h3⟩
    · simp only [State.put, upd_ne _ _ e] at hj ⊢; exact h.calm j hj
  · exact h.obs

/-- a task comes to a thread -/
theorem Inv.come {s : State} (h : Inv s) {i th : Nat} (hi : ∀ t, (s.tsk i).status ≠ .running t)
    (hh : (s.thr th).task = none) :
    Inv (s.put i { s.tsk i with status := .running th } th { s.thr th with task := some i } []) := by
  obtain ⟨h6, h7⟩ := h.idle th hh
  obtain ⟨h8, h9⟩ := h.calm i hi
  constructor
  · intro j t hj
    by_cases e : j = i
    · subst e; simp only [State.put, upd_same] at hj ⊢; cases hj; rw [upd_same]
    · simp only [State.put, upd_ne _ _ e] at hj ⊢
      have := h.run j t hj
      rw [upd_ne _ _ (by rintro rfl; rw [hh] at this; cases this)]; exact this
  · intro j t hj
    by_cases e : t = th
    · subst e; simp only [State.put, upd_same] at hj ⊢; cases hj; rw [upd_same]
    · simp only [State.put, upd_ne _ _ e] at hj ⊢
      have := h.back j t hj
      rw [upd_ne _ _ (by rintro rfl; exact hi t this)]; exact this
  · intro j t hj
    by_cases e : j = i
    · subst e; simp only [State.put, upd_same] at hj ⊢; cases hj; rw [upd_same]
      dsimp only; rw [h6, h7, h8, h9]; exact ⟨rfl, rfl⟩
    · simp only [State.put, upd_ne _ _ e] at hj ⊢
      have := h.run j t hj
      rw [upd_ne _ _ (by rintro rfl; rw [hh] at this; cases this)]; exact h.same j t hj
  · intro t ht
    by_cases e : t = th
    · subst e; simp only [State.put, upd_same] at ht; cases ht
    · simp only [State.put, upd_ne _ _ e] at ht ⊢; exact h.idle t ht
  · intro j hj
    by_cases e : j = i
    · subst e; simp only [State.put, upd_same] at hj; exact absurd rfl (hj th)
    · simp only [State.put, upd_ne _ _ e] at hj ⊢; exact h.calm j hj
  · exact h.obs

theorem Inv.step {s t : State} (h : Inv s) (hs : Step true s t) : Inv t := by
  cases hs with
  | start ht hi hh => exact h.come (fun t => by rw [hi]; exact Status.noConfusion) hh
  | resume ht hi hh => exact h.come (fun t => by rw [hi]; exact Status.noConfusion) hh
  | wait ht hi hc => exact h.off hi (fun t => Status.noConfusion) (hc rfl).1 (hc rfl).2 (hc rfl).1 (hc rfl).2
  | finish ht hi hd hf => exact h.off hi (fun t => Status.noConfusion) hd hf hd hf
  | @throw i th e ht hi =>
    obtain ⟨h1, h2⟩ := h.same i th hi
    refine h.on hi hi (h.run i th hi) h1 ?_ (fun x hx => by (cases hx))
    simp only [List.length_cons]; rw [h2]; push_cast; rfl
  | @«catch» i th e es ht hi hf =>
    obtain ⟨h1, h2⟩ := h.same i th hi
    refine h.on hi hi (h.run i th hi) (by simp only; rw [h1]) ?_ (fun x hx => by (cases hx))
    simp only; rw [h2, hf]; simp
  | @leave i th e es ht hi hd =>
    obtain ⟨h1, h2⟩ := h.same i th hi
    rw [hd] at h1
    refine h.on hi hi (h.run i th hi) (by simp only; rw [h1]; rfl) h2 ?_
    intro x hx
    rw [List.mem_singleton] at hx; subst hx
    show _ = _; rw [h1]; rfl
  | @rethrow i th e es g gs ht hi hd hg =>
    obtain ⟨h1, h2⟩ := h.same i th hi
    rw [hd, hg] at h1
    cases h1
    refine h.on hi hi (h.run i th hi) rfl ?_ ?_
    · simp only [List.length_cons]; rw [h2]; push_cast; rfl
    · intro x hx
      rw [List.mem_singleton] at hx; subst hx; rfl
  | @rethrowNone i th e es ht hi hd hg =>
    obtain ⟨h1, h2⟩ := h.same i th hi
    rw [hd, hg] at h1; cases h1
  | @uncaught i th ht hi =>
    obtain ⟨h1, h2⟩ := h.same i th hi
    refine h.on hi hi (h.run i th hi) h1 h2 ?_
    intro x hx
    rw [List.mem_singleton] at hx; subst hx; exact h2
  | @current i th ht hi =>
    obtain ⟨h1, h2⟩ := h.same i th hi
    refine h.on hi hi (h.run i th hi) h1 h2 ?_
    intro x hx
    rw [List.mem_singleton] at hx; subst hx
    show _ = _; rw [h1]
  | escape ht hi hf => exact ⟨h.run, h.back, h.same, h.idle, h.calm, h.obs⟩

theorem Inv.reach {s : State} (h : Reach true s) : Inv s := by
  suffices ∀ s0, Inv s0 → Steps true s0 s → Inv s from this _ Inv.init h
  clear h
  intro s0 h0 hs
  induction hs with
  | refl => exact h0
  | tail _ h2 ih => exact ih.step h2

/-- C97: if no task waits inside of a `catch` block or while an exception is in flight, then exceptions behave in the bodies of tasks as the language
says, on any number of workers and in any schedule: `throw;` rethrows the exception that is being handled, the end of a `catch` block
destroys this exception, and `std::current_exception` and `std::uncaught_exceptions` tell about the task that asks.
Missing: tasks that wait there (see `C97_wrong_exception_false`, `C97_terminates_false`, `C97_uncaught_false`). -/
theorem C97_as_the_language_says_partial {s : State} (h : Reach true s) : ∀ o ∈ s.obs, o.ok := (Inv.reach h).obs

/-- C97: … and then the program is terminated only by an exception that leaves the body of a task, not by `throw;` in a handler. -/
theorem C97_terminates_only_by_escape_partial {s t : State} (h : Reach true s) (hs : Step true s t)
    (h0 : s.term = false) (h1 : t.term = true) : ∃ i th e es, (s.tsk i).status = .running th ∧
      (s.tsk i).flying = e :: es ∧ t.tsk = s.tsk := by
  have I := Inv.reach h
  cases hs with
  | @rethrowNone i th e es ht hi hd hg =>
    obtain ⟨h1, _⟩ := I.same i th hi
    rw [hd, hg] at h1; cases h1
  | @escape i th e es ht hi hf => exact ⟨i, th, e, es, hi, hf, rfl⟩
  | start | resume | wait | finish | throw | «catch» | leave | rethrow | uncaught | current =>
    exact absurd (h0.symm.trans h1) (by decide)

/-- an execution without waiting in handlers: task 0 throws, catches and rethrows on worker 0 while task 1 handles another exception on worker 1;
task 0 has been waiting before, and moved from worker 1 to worker 0 -/
example : ∃ s, Reach true s ∧ s.obs = [.rethrow 0 (some 7) (some 7)] ∧ (s.thr 1).caught = [8] := by
  refine ⟨_, .tail (.tail (.tail (.tail (.tail (.tail (.tail (.tail (.tail .refl
    (.start (i := 0) (th := 1) rfl rfl rfl))
    (.wait (i := 0) (th := 1) rfl rfl (fun _ => ⟨rfl, rfl⟩)))
    (.start (i := 1) (th := 1) rfl rfl rfl))
    (.throw (i := 1) (th := 1) (e := 8) rfl rfl))
    (.catch (i := 1) (th := 1) (e := 8) rfl rfl rfl))
    (.resume (i := 0) (th := 0) rfl rfl rfl))
    (.throw (i := 0) (th := 0) (e := 7) rfl rfl))
    (.catch (i := 0) (th := 0) (e := 7) rfl rfl rfl))
    (.rethrow (i := 0) (th := 0) (e := 7) (g := 7) rfl rfl rfl rfl), ?_⟩
  exact ⟨by decide +kernel, by decide +kernel⟩

/-- C97: false for tasks that wait in a `catch` block. Two tasks on one worker: the first one handles exception 7 and waits, the second one handles
exception 8 and waits, the first one continues with `throw;`, and throws exception 8. -/
theorem C97_wrong_exception_false : ∃ s, Reach false s ∧ .rethrow 0 (some 8) (some 7) ∈ s.obs := by
  refine ⟨_, .tail (.tail (.tail (.tail (.tail (.tail (.tail (.tail (.tail (.tail .refl
    (.start (i := 0) (th := 0) rfl rfl rfl))
    (.throw (i := 0) (th := 0) (e := 7) rfl rfl))
    (.catch (i := 0) (th := 0) (e := 7) rfl rfl rfl))
    (.wait (i := 0) (th := 0) rfl rfl (fun h => by cases h)))
    (.start (i := 1) (th := 0) rfl rfl rfl))
    (.throw (i := 1) (th := 0) (e := 8) rfl rfl))
    (.catch (i := 1) (th := 0) (e := 8) rfl rfl rfl))
    (.wait (i := 1) (th := 0) rfl rfl (fun h => by cases h)))
    (.resume (i := 0) (th := 0) rfl rfl rfl))
    (.rethrow (i := 0) (th := 0) (e := 7) (g := 8) rfl rfl rfl rfl), ?_⟩
  decide +kernel

/-- C97: false for tasks that wait in a `catch` block. One task, two workers: the task handles exception 7 and waits, is resumed by the other worker, and
the program is terminated by `throw;`. -/
theorem C97_terminates_false : ∃ s, Reach false s ∧ s.term = true ∧ s.obs = [.rethrow 0 none (some 7)] ∧
    (s.tsk 0).flying = [] := by
  refine ⟨_, .tail (.tail (.tail (.tail (.tail (.tail .refl
    (.start (i := 0) (th := 0) rfl rfl rfl))
    (.throw (i := 0) (th := 0) (e := 7) rfl rfl))
    (.catch (i := 0) (th := 0) (e := 7) rfl rfl rfl))
    (.wait (i := 0) (th := 0) rfl rfl (fun h => by cases h)))
    (.resume (i := 0) (th := 1) rfl rfl rfl))
    (.rethrowNone (i := 0) (th := 1) (e := 7) rfl rfl rfl rfl), ?_⟩
  refine ⟨by decide +kernel, by decide +kernel, by decide +kernel⟩

/-- C97: false for tasks that wait while an exception is in flight (in a destructor): afterwards another task on the same worker, which
has nothing to do with it, is told that an exception is in flight. -/
theorem C97_uncaught_false : ∃ s, Reach false s ∧ .uncaught 1 1 0 ∈ s.obs := by
  refine ⟨_, .tail (.tail (.tail (.tail (.tail .refl
    (.start (i := 0) (th := 0) rfl rfl rfl))
    (.throw (i := 0) (th := 0) (e := 7) rfl rfl))
    (.wait (i := 0) (th := 0) rfl rfl (fun h => by cases h)))
    (.start (i := 1) (th := 0) rfl rfl rfl))
    (.uncaught (i := 1) (th := 0) rfl rfl), ?_⟩
  decide +kernel

theorem no_step {c : Bool} {s t : State} (h : s.term = true) : ¬ Step c s t := by
  intro hs
  cases hs <;> simp_all

/-- C97: an exception of a task is not handed to whoever asks for its result. If it leaves the body then the program is terminated, whatever the other
tasks do: no further step is possible. -/
theorem C97_exception_not_in_future_false : ∃ s, Reach true s ∧ s.term = true ∧ (s.tsk 1).status = .running 1 ∧
    ∀ t, ¬ Step true s t := by
  refine ⟨_, .tail (.tail (.tail (.tail .refl
    (.start (i := 1) (th := 1) rfl rfl rfl))
    (.start (i := 0) (th := 0) rfl rfl rfl))
    (.throw (i := 0) (th := 0) (e := 7) rfl rfl))
    (.escape (i := 0) (th := 0) (e := 7) rfl rfl rfl), ?_⟩
  refine ⟨rfl, by decide +kernel, ?_⟩
  exact fun t => no_step rfl

end RG.EH
