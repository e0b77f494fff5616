import Verif.Model.BindArgs
/- C99: the callable and the arguments of a task. -/
namespace RG.BA

theorem captureArgs_eq (m : Mem) (rs : List Ref) : captureArgs m rs = (m, rs.map fun r => (r.lv, m r.loc)) := by
  induction rs with
  | nil => rfl
  | cons r rs ih =>
    have h : construct m { r with lv := true } = (m, m r.loc) := rfl
    simp only [captureArgs, h, ih, List.map_cons]

theorem map_forward (rs : List Ref) : rs.map Ref.forward = rs := by
  induction rs with
  | nil => rfl
  | cons r rs ih => rw [List.map_cons, ih]; rfl

theorem emplaceTask_eq (m : Mem) (f : Ref) (args : List Ref) : emplaceTask m f args =
    (m.set f.loc none, ⟨m f.loc, args.map fun r => (r.lv, m.set f.loc none r.loc)⟩) := by
  simp only [emplaceTask, contextEmplace, taskBuilder, map_forward, bindArgs, captureArgs_eq]
  rfl

/-- tasks that did not start have the captures that were made at their creation; what bodies have got is what the tasks were created with -/
structure Inv (s : State) : Prop where
  fresh : ∀ (i : Nat) (T : Task), s.tasks[i]? = some T → T.started = false → T.clo.f = T.wantF ∧
    ((∀ r ∈ T.actual, r.loc ≠ T.callee.loc) → T.clo.args = (T.actual.map Ref.lv).zip T.wantArgs)
  seen : ∀ e ∈ s.seen, ∃ T, s.tasks[e.task]? = some T ∧ T.started = true ∧ e.f = T.wantF ∧
    ((∀ r ∈ T.actual, r.loc ≠ T.callee.loc) → e.args = (T.actual.map Ref.lv).zip T.wantArgs)
  once : s.seen.Pairwise fun a b => a.task ≠ b.task

theorem set_none {m : Mem} {l : Loc} {v : Option Nat} {k : Loc} (h : k ≠ l) : m.set l v k = m k := if_neg h

theorem Inv.step {s t : State} (h : Inv s) (hs : Step s t) : Inv t := by
  cases hs with
  | write => exact ⟨h.fresh, h.seen, h.once⟩
  | @submit f args =>
    refine ⟨?_, ?_, h.once⟩
    · intro i T hi hst
      dsimp only at hi
      rcases Nat.lt_or_ge i s.tasks.length with hl | hl
      · rw [List.getElem?_append_left hl] at hi; exact h.fresh i T hi hst
      · rw [List.getElem?_append_right hl] at hi
        have : i - s.tasks.length = 0 := by
          have := (List.getElem?_eq_some_iff.1 hi).1; simpa using this
        rw [this] at hi
        cases hi
        rw [emplaceTask_eq]
        refine ⟨rfl, fun ha => ?_⟩
        show args.map _ = (args.map Ref.lv).zip (args.map fun r => s.mem r.loc)
        dsimp only at ha
        clear this hst hl
        induction args with
        | nil => rfl
        | cons r rs ih =>
          simp only [List.map_cons, List.zip_cons_cons]
          rw [set_none (ha r List.mem_cons_self), ih fun x hx => ha x (List.mem_cons_of_mem _ hx)]
    · intro e he
      obtain ⟨T, h1, h2⟩ := h.seen e he
      refine ⟨T, ?_, h2⟩
      dsimp only
      rw [List.getElem?_append_left (List.getElem?_eq_some_iff.1 h1).1]; exact h1
  | @start i T hi hst =>
    have hl := (List.getElem?_eq_some_iff.1 hi).1
    refine ⟨?_, ?_, ?_⟩
    · intro j U hj hu
      dsimp only at hj
      by_cases e : j = i
      · subst e; rw [List.getElem?_set_self hl] at hj; cases hj; cases hu
      · rw [List.getElem?_set_ne (fun x => e x.symm)] at hj; exact h.fresh j U hj hu
    · intro e he
      rcases List.mem_cons.1 he with rfl | he
      · exact ⟨_, List.getElem?_set_self hl, rfl, h.fresh i T hi hst⟩
      · obtain ⟨U, h1, h2, h3⟩ := h.seen e he
        refine ⟨U, ?_, h2, h3⟩
        dsimp only
        rw [List.getElem?_set_ne]
        · exact h1
        · rintro rfl; rw [hi] at h1; cases h1; rw [hst] at h2; cases h2
    · refine List.pairwise_cons.2 ⟨?_, h.once⟩
      intro e he hc
      obtain ⟨U, h1, h2, _⟩ := h.seen e he
      dsimp only at hc
      rw [← hc, hi] at h1; cases h1; rw [hst] at h2; cases h2
  | @body i T f args hi hst =>
    have hl := (List.getElem?_eq_some_iff.1 hi).1
    refine ⟨?_, ?_, h.once⟩
    · intro j U hj hu
      dsimp only at hj
      by_cases e : j = i
      · subst e; rw [List.getElem?_set_self hl] at hj; cases hj
        exact absurd (hst.symm.trans hu) (by decide)
      · rw [List.getElem?_set_ne (fun x => e x.symm)] at hj; exact h.fresh j U hj hu
    · intro e he
      obtain ⟨U, h1, h2, h3⟩ := h.seen e he
      dsimp only
      by_cases ei : e.task = i
      · rw [ei, hi] at h1; cases h1
        exact ⟨{ T with clo := ⟨f, args⟩ }, by rw [ei]; exact List.getElem?_set_self hl, hst, h3⟩
      · exact ⟨U, by rw [List.getElem?_set_ne (fun x => ei x.symm)]; exact h1, h2, h3⟩

theorem Inv.reach {s : State} (h : Reach s) : Inv s := by
  obtain ⟨m, h⟩ := h
  induction h with
  | refl => exact ⟨by simp, by simp, by simp⟩
  | tail _ h2 ih => exact ih.step h2

/-- C99: the body of a task is called with the callable and the values of the arguments at the time of `emplace_task`, whatever the submitting thread does to its objects afterwards, whatever
other tasks do to their parameters, and whenever the task is executed; arguments that were passed as lvalues are given as
lvalues, the others as rvalues. (`wantF` and `wantArgs` are the values of the expressions when the task was created, see `Step.submit`.)
Missing: an object that is passed as the callable and as an argument (see `C99_callable_as_argument_false`). -/
theorem C99_values_of_submission_partial {s : State} (h : Reach s) {e : Seen} (he : e ∈ s.seen) :
    ∃ T, s.tasks[e.task]? = some T ∧ e.f = T.wantF ∧
      ((∀ r ∈ T.actual, r.loc ≠ T.callee.loc) → e.args = (T.actual.map Ref.lv).zip T.wantArgs) := by
  obtain ⟨T, h1, _, h2⟩ := (Inv.reach h).seen e he
  exact ⟨T, h1, h2⟩

/-- C99: the record of a task is that of the call that has created it, and it does not change. -/
theorem C99_record {s t : State} (hs : Step s t) {i : Nat} {T : Task} (hi : t.tasks[i]? = some T) :
    (∃ U, s.tasks[i]? = some U ∧ U.callee = T.callee ∧ U.actual = T.actual ∧ U.wantF = T.wantF ∧ U.wantArgs = T.wantArgs) ∨
      (T.wantF = s.mem T.callee.loc ∧ T.wantArgs = T.actual.map fun r => s.mem r.loc) := by
  cases hs with
  | write => exact .inl ⟨T, hi, rfl, rfl, rfl, rfl⟩
  | @submit f args =>
    dsimp only at hi
    rcases Nat.lt_or_ge i s.tasks.length with hl | hl
    · rw [List.getElem?_append_left hl] at hi; exact .inl ⟨T, hi, rfl, rfl, rfl, rfl⟩
    · rw [List.getElem?_append_right hl] at hi
      have : i - s.tasks.length = 0 := by
        have := (List.getElem?_eq_some_iff.1 hi).1; simpa using this
      rw [this] at hi
      cases hi
      exact .inr ⟨rfl, rfl⟩
  | @start j U hj hst =>
    dsimp only at hi
    by_cases e : i = j
    · subst e; rw [List.getElem?_set_self (List.getElem?_eq_some_iff.1 hj).1] at hi; cases hi
      exact .inl ⟨U, hj, rfl, rfl, rfl, rfl⟩
    · rw [List.getElem?_set_ne (fun x => e x.symm)] at hi; exact .inl ⟨T, hi, rfl, rfl, rfl, rfl⟩
  | @body j U f args hj hst =>
    dsimp only at hi
    by_cases e : i = j
    · subst e; rw [List.getElem?_set_self (List.getElem?_eq_some_iff.1 hj).1] at hi; cases hi
      exact .inl ⟨U, hj, rfl, rfl, rfl, rfl⟩
    · rw [List.getElem?_set_ne (fun x => e x.symm)] at hi; exact .inl ⟨T, hi, rfl, rfl, rfl, rfl⟩

/-- C99: `emplace_task` leaves the objects that are passed as arguments as they are, even those passed with `std::move`; only the callable is moved from. Missing: the callable, if
it is an lvalue (see `C99_callable_moved_false`). -/
theorem C99_caller_keeps_arguments_partial (m : Mem) (f : Ref) (args : List Ref) {l : Loc} (h : l ≠ f.loc) :
    (emplaceTask m f args).1 l = m l := by
  rw [emplaceTask_eq]; exact set_none h

/-- C99: bodies get no access to the objects of the submitting thread: no step of a task changes them, and no step of a task changes what another task was created with. -/
theorem C99_isolated {s t : State} (hs : Step s t) (hlen : t.tasks.length = s.tasks.length) (hm : t.seen ≠ s.seen ∨ t.tasks ≠ s.tasks) :
    t.mem = s.mem ∧ ∃ i : Nat, ∀ j : Nat, j ≠ i → t.tasks[j]? = s.tasks[j]? := by
  cases hs with
  | write => rcases hm with h | h <;> exact absurd rfl h
  | submit => simp at hlen
  | @start i T hi hst => exact ⟨rfl, i, fun j hj => by dsimp only; rw [List.getElem?_set_ne (fun x => hj x.symm)]⟩
  | @body i T f args hi hst => exact ⟨rfl, i, fun j hj => by dsimp only; rw [List.getElem?_set_ne (fun x => hj x.symm)]⟩

/-- C99: a body is called with its arguments once. -/
theorem C99_once {s : State} (h : Reach s) : s.seen.Pairwise fun a b => a.task ≠ b.task := (Inv.reach h).once

/-- the program `int x = 1; emplace_task(f, x); x = 2; emplace_task(f', std::move(x));` whose tasks are executed in the opposite order -/
example : ∃ s, Reach s ∧ s.seen = [⟨0, some 7, [(true, some 1)]⟩, ⟨1, some 8, [(false, some 2)]⟩] ∧ s.mem (.var 0) = some 2 := by
  let m : Mem := fun l => if l = .temp 0 then some 7 else if l = .temp 1 then some 8 else some 1
  refine ⟨_, ⟨m, .tail (.tail (.tail (.tail (.tail (.tail .refl
    (.submit (f := ⟨.temp 0, false⟩) (args := [⟨.var 0, true⟩])))
    (.write (l := .var 0) (v := some 2)))
    (.submit (f := ⟨.temp 1, false⟩) (args := [⟨.var 0, false⟩])))
    (.start (i := 1) rfl rfl))
    (.body (i := 1) (f := some 8) (args := [(false, none)]) rfl rfl))
    (.start (i := 0) rfl rfl)⟩, ?_⟩
  exact ⟨by decide +kernel, by decide +kernel⟩

/-- C99 is false for a callable that is an lvalue: `emplace_task(f); emplace_task(f);` with a variable `f`. The first call moves from `f`,
and the second task gets a callable that was moved from (an empty `std::function`, or a lambda with empty captures). -/
theorem C99_callable_moved_false : ∃ s, Reach s ∧ (∃ T, s.tasks[1]? = some T ∧ T.callee = ⟨.var 0, true⟩) ∧
    (∃ T, s.tasks[0]? = some T ∧ T.callee = ⟨.var 0, true⟩ ∧ T.wantF = some 7) ∧
    s.seen = [⟨1, none, []⟩, ⟨0, some 7, []⟩] ∧ s.mem (.var 0) = none := by
  refine ⟨_, ⟨fun _ => some 7, .tail (.tail (.tail (.tail .refl
    (.submit (f := ⟨.var 0, true⟩) (args := [])))
    (.submit (f := ⟨.var 0, true⟩) (args := [])))
    (.start (i := 0) rfl rfl))
    (.start (i := 1) rfl rfl)⟩, ?_⟩
  exact ⟨⟨_, rfl, rfl⟩, ⟨_, rfl, rfl, rfl⟩, by decide +kernel, by decide +kernel⟩

/-- C99 is false for an object that is the callable and an argument, `emplace_task(f, f)`: the callable is moved before the argument is copied. -/
theorem C99_callable_as_argument_false : ∃ s, Reach s ∧ (∃ T, s.tasks[0]? = some T ∧ T.wantArgs = [some 7]) ∧
    s.seen = [⟨0, some 7, [(true, none)]⟩] := by
  refine ⟨_, ⟨fun _ => some 7, .tail (.tail .refl
    (.submit (f := ⟨.var 0, true⟩) (args := [⟨.var 0, true⟩])))
    (.start (i := 0) rfl rfl)⟩, ?_⟩
  exact ⟨⟨_, rfl, by decide +kernel⟩, by decide +kernel⟩

end RG.BA
