import Verif.Model.SmallExamples
import Verif.Props.Examples
import Verif.Props.System
import Verif.Props.Context
import Verif.Props.ResourceUser
/-
C103: The introductory programs (examples/1_resources.cpp to 7_event.cpp) print what they are meant to print, except 5_access_demotion.cpp.
-/
namespace RG.Small
open RG.Graph RG.Dyn

/-! ### 1_resources.cpp -/

/-- C103: 1_resources.cpp, for every area: the four lines are 1, 1, 1, 0. -/
theorem C103_resources (a b c : Res) (hbc : b ≠ c) (lo hi : Size) (u : User) (hu : user1 a b lo hi = some u) :
    u.isSerial u = true ∧ u.isSerial (user2 b) = true ∧ u.isSerial (user3 b c) = true ∧ (user2 b).isSerial (user3 b c) = false := by
  simp only [user1, Option.map_eq_some_iff] at hu
  obtain ⟨g, -, rfl⟩ := hu
  have hw : ∀ x : Bool, (AGuard.io b true).toAccess.isSerial (AGuard.io b x).toAccess = true := by
    intro x
    cases x <;> simp [AGuard.toAccess, RAccess.isSerial] <;> decide
  have hr : (AGuard.io b false).toAccess.isSerial (AGuard.io b false).toAccess = false := by
    simp [AGuard.toAccess, RAccess.isSerial]
    decide
  have hc : (AGuard.io b false).toAccess.isSerial (AGuard.io c true).toAccess = false := by
    simp [AGuard.toAccess, RAccess.isSerial, hbc]
  simp [User.isSerial, user2, user3, User.ofList, User.addAccess, User.empty, hw, hr, hc]

/-- indices 0 to 10 -/
example : (user1 ⟨0, 0⟩ ⟨1, 0⟩ 0 10).isSome = true := by decide +kernel

/-! ### 2_functors.cpp -/

/-- C103: 2_functors.cpp, for any function and argument: the line contains `f x`. -/
theorem C103_functors [EvalOrder] (f : Nat → Nat) (y : Nat) {N : Nat} (hN : 0 < N) {m0 : Dyn.Mem}
    {x : FConf (program (fun _ => none) (functors f y) [])} (hx : FReach N false (program (fun _ => none) (functors f y) []) m0 x) :
    Delivers N (fun _ => none) (functors f y) [] (fun out _ => out = f y) x := by
  refine delivers (n := 1) ?_ (by decide) (fun g hg => by cases hg) (fun m => rfl) hN hx
  exact (Busy.call (Δ := []) rfl List.nodup_nil (.ret _) (.fut (by decide) fun v => .all (.ret v))).quiet

/-! ### 3_functors_with_resources.cpp -/

theorem futures_run {env : List AGuard} {rs : List Nat} {m : Objs} {k : List Nat → GCode} (l : List Nat) :
    (futures l k).run env rs m = (k (l.map fun j => rs.getD j 0)).run env rs m := by
  induction l generalizing k with
  | nil => rfl
  | cons j l ih =>
    simp only [futures, GCode.run]
    exact ih

theorem futures_busy {Γ : List GTy} {k n : Nat} {l : List Nat} (hl : ∀ j ∈ l, j < k) {c : List Nat → GCode} (hc : ∀ vs, Busy (c vs) Γ k n) :
    Busy (futures l c) Γ k n := by
  induction l generalizing c with
  | nil => exact hc []
  | cons j l ih => exact .fut (hl j (.head _)) fun v => ih (fun i hi => hl i (.tail _ hi)) fun vs => hc _

theorem round_busy {va vb : Nat} {enc : Nat → Nat → Nat} {c : GCode} {k n : Nat} (hc : Busy c (env.map AGuard.ty) (k + 4) n) :
    Busy (round va vb enc c) (env.map AGuard.ty) k (n + 4) := by
  refine .call (n := n + 3) (Δ := [⟨⟨0, 0⟩, none, true⟩]) rfl (by decide) (.put rfl rfl rfl fun _ => .ret 0) ?_
  refine .call (n := n + 2) (Δ := [⟨⟨0, 0⟩, none, false⟩]) rfl (by decide) (.get rfl rfl fun _ => .ret _) ?_
  refine .call (n := n + 1) (Δ := [⟨⟨1, 0⟩, none, true⟩]) rfl (by decide) (.put rfl rfl rfl fun _ => .ret 0) ?_
  exact .call (n := n) (Δ := [⟨⟨0, 0⟩, none, false⟩, ⟨⟨1, 0⟩, none, false⟩]) rfl (by decide) (.get rfl rfl fun _ => .get rfl rfl fun _ => .ret _) hc

theorem rounds_busy {va vb : Nat → Nat} {enc : Nat → Nat → Nat} {c : GCode} (l : List Nat) {k n : Nat}
    (hc : Busy c (env.map AGuard.ty) (k + 4 * l.length) n) :
    Busy (each l (fun i k => round (va i) (vb i) enc k) c) (env.map AGuard.ty) k (n + 4 * l.length) := by
  induction l generalizing k with
  | nil => exact hc
  | cons i l ih =>
    have := round_busy (va := va i) (vb := vb i) (enc := enc) (k := k) (ih (k := k + 4) (by
      rw [List.length_cons] at hc
      rw [show k + 4 + 4 * l.length = k + 4 * (l.length + 1) by omega]
      exact hc))
    rw [List.length_cons, show n + 4 * (l.length + 1) = n + 4 * l.length + 4 by omega]
    exact this

theorem round_run {va vb : Nat} {enc : Nat → Nat → Nat} {c : GCode} {rs : List Nat} {m : Objs} :
    ∃ m', (round va vb enc c).run env rs m = c.run env (rs ++ [0, va, 0, enc va vb]) m' := by
  refine ⟨(m.set (⟨0, 0⟩, []) va).set (⟨1, 0⟩, []) vb, ?_⟩
  simp [round, GCode.run, env, AGuard.elem, Objs.set]

theorem rounds_run {va vb : Nat → Nat} {enc : Nat → Nat → Nat} {c : GCode} (l : List Nat) {rs : List Nat} {m : Objs} :
    ∃ m', (each l (fun i k => round (va i) (vb i) enc k) c).run env rs m =
      c.run env (rs ++ l.flatMap fun i => [0, va i, 0, enc (va i) (vb i)]) m' := by
  induction l generalizing rs m with
  | nil => exact ⟨m, by simp [each]⟩
  | cons i l ih =>
    obtain ⟨m1, h1⟩ := round_run (va := va i) (vb := vb i) (enc := enc) (rs := rs) (m := m)
      (c := each l (fun i k => round (va i) (vb i) enc k) c)
    obtain ⟨m2, h2⟩ := ih (rs := rs ++ [0, va i, 0, enc (va i) (vb i)]) (m := m1)
    refine ⟨m2, h1.trans (h2.trans ?_)⟩
    rw [List.flatMap_cons, List.append_assoc]

theorem map_getD (l : List Nat) : (List.range l.length).map (fun j => l.getD j 0) = l := by
  refine List.ext_getElem (by simp) fun i h1 h2 => ?_
  simp [List.getD, h2]

/-- C103: 3_functors_with_resources.cpp, for any number of rounds and any values: the tasks that read print the values written in their own round, and the
program ends, on any number of workers and in any schedule, although the tasks for `a` and `b` run at the same time. -/
theorem C103_functors_with_resources [EvalOrder] (va vb : Nat → Nat) (enc : Nat → Nat → Nat) (n : Nat) (hn : 4 * n < 2 ^ 32) (fin : List Nat → Nat)
    {N : Nat} (hN : 0 < N) {m0 : Dyn.Mem} {x : FConf (program (fun _ => none) (withResources va vb enc n fin) env)}
    (hx : FReach N false (program (fun _ => none) (withResources va vb enc n fin) env) m0 x) :
    Delivers N (fun _ => none) (withResources va vb enc n fin) env (fun out _ =>
      out = fin ((List.range n).flatMap fun i => [0, va i, 0, enc (va i) (vb i)])) x := by
  refine delivers (n := 4 * n) ?_ hn ?_ (fun m => ?_) hN hx
  · have := rounds_busy (va := va) (vb := vb) (enc := enc) (List.range n) (k := 0) (n := 0)
      (c := futures (List.range (4 * n)) fun vs => .all (.ret (fin vs)))
      (futures_busy (fun j hj => by simpa using hj) fun vs => .all (.ret _))
    rw [List.length_range, Nat.zero_add] at this
    exact this.quiet
  · intro g hg
    simp only [env, List.mem_cons, List.not_mem_nil, or_false] at hg
    rcases hg with rfl | rfl | rfl | rfl <;> exact ⟨rfl, rfl⟩
  · obtain ⟨m', h⟩ := rounds_run (va := va) (vb := vb) (enc := enc) (List.range n) (rs := []) (m := m)
      (c := futures (List.range (4 * n)) fun vs => .all (.ret (fin vs)))
    unfold withResources
    rw [h, futures_run, List.nil_append]
    have hl : 4 * n = ((List.range n).flatMap fun i => [0, va i, 0, enc (va i) (vb i)]).length := by
      simp [List.length_flatMap]
      omega
    rw [hl, map_getD]
    rfl

/-- the source: one round, 4 and 7 -/
example : ((List.range 1).flatMap fun i => [0, (fun _ => 4) i, 0, (fun x y => 10 * x + y) 4 7]) = [0, 4, 0, 47] := by decide

/-! ### 4_refinements.cpp and 6_resource_scope.cpp -/

/-- C103: 4_refinements.cpp: the task "Parent Task" (0) creates two tasks. `backtrace` lists the parent in the parent, and the child and the
parent in "Child Task 2" (2), whenever it is called. -/
theorem C103_refinements {s : Ctx.State} (h : Ctx.Run s [none, some 0, some 0]) :
    Ctx.backtrace s (some 0) = some [0] ∧ Ctx.backtrace s (some 2) = some [2, 0] := by
  constructor
  · obtain ⟨l, s', h1, h2, -⟩ := Ctx.C49_backtrace_is_ancestry h (some 0) (fun t ht => by cases ht; decide)
    obtain ⟨e, h3⟩ | ⟨e, h3⟩ := h2
    cases e
    cases h3
    exact h1
  · obtain ⟨l, s', h1, h2, -⟩ := Ctx.C49_backtrace_is_ancestry h (some 2) (fun t ht => by cases ht; decide)
    obtain ⟨e, h3⟩ | ⟨e, h3⟩ := h2
    cases e
    obtain ⟨e, h3⟩ | ⟨e, h3⟩ := h3
    cases e
    cases h3
    exact h1

/-- C103: 6_resource_scope.cpp: the depth is 1 in the task, 2 in the task that it creates, and 1 again afterwards. -/
theorem C103_scope {s : Ctx.State} (h : Ctx.Run s [none, some 0]) :
    (∃ s', Ctx.scopeDepth s (some 0) = some (s', 1)) ∧ ∃ s', Ctx.scopeDepth s (some 1) = some (s', 2) := by
  constructor
  · obtain ⟨l, s', -, h2, h1⟩ := Ctx.C49_backtrace_is_ancestry h (some 0) (fun t ht => by cases ht; decide)
    obtain ⟨e, h3⟩ | ⟨e, h3⟩ := h2
    cases e
    cases h3
    exact ⟨s', h1⟩
  · obtain ⟨l, s', -, h2, h1⟩ := Ctx.C49_backtrace_is_ancestry h (some 1) (fun t ht => by cases ht; decide)
    obtain ⟨e, h3⟩ | ⟨e, h3⟩ := h2
    cases e
    obtain ⟨e, h3⟩ | ⟨e, h3⟩ := h3
    cases e
    cases h3
    exact ⟨s', h1⟩

example : ∃ s, Ctx.Run s [none, some 0, some 0] :=
  ⟨_, .emplace (.emplace (.emplace .init rfl) rfl) rfl⟩

/-! ### 5_access_demotion.cpp -/

/-- C103: 5_access_demotion.cpp: the call of `update_properties`, which is what the program is about, throws an exception whichever resource
of the main program `a` is (C09). Nothing catches it, so that the program is terminated (C97) instead of printing "f1 done". -/
theorem C103_access_demotion_false (a : Res) (ha : a.scope = 0) : ((writer a).applyPatch (demotion a)).2 = false := by
  rw [Bool.eq_false_iff]
  intro h
  have := (C09_accepts_iff_partial _ _).1 h (AGuard.io a false).toAccess (by
    simp [User.applyPatch, demotion, Diff.apply, User.addAccess])
  simp [AGuard.toAccess, ha] at this

/-! ### 7_event.cpp -/

/-- 22-41: all tasks write the resource `r` -/
def eventCfg (r : Res) : Cfg := prog (fun _ => [(r, Mode.write)]) (fun _ => 0) (fun _ => none) false true

theorem event_safe (r : Res) : (eventCfg r).Safe :=
  ⟨rfl, fun t => .inl (by simp [eventCfg, prog, declare, Decl.apply, User.resources, User.buildUnique, User.empty])⟩

theorem event_serial (r : Res) : ((eventCfg r).user 0).isSerial ((eventCfg r).user 1) = true := by
  simp [eventCfg, prog, declare, Decl.apply, User.resources, User.buildUnique, User.empty, User.isSerial, RAccess.isSerial]
  decide

/-- C103: 7_event.cpp: task 2 is not started before the event that task 1 has created is notified; and when nothing
can happen any more, the tasks have finished. -/
theorem C103_event (r : Res) {N : Nat} (hN : 0 < N) {s : Sys.State} (hr : Sys.Reach (eventCfg r) N s) :
    (∀ k, k < s.x.g.nExt → s.x.g.owner k = 0 → s.x.g.ext k ≠ .done → ¬ Started s.x.g 1) ∧
    ((∀ s', ¬ Sys.OwnWork (eventCfg r) N s s') → ∀ t, t < s.x.g.n → Finished (eventCfg r) s.x.g t) := by
  refine ⟨fun k hk ho he => ?_, fun hq t ht => ?_⟩
  · exact (Sys.C18_workers_wait_for_events (prog_wellFormed _ _ _ _ _) rfl hr hk ho he).2.2 1 (by decide) rfl (event_serial r)
  · exact ((Sys.C71_no_deadlock hN (event_safe r) hr hq).1 t ht).1

/-- a worker executes task 1, which has created its event -/
example (r : Res) : ∃ s k, Sys.Reach (eventCfg r) 1 s ∧ k < s.x.g.nExt ∧ s.x.g.owner k = 0 ∧ s.x.g.ext k ≠ .done := by
  obtain ⟨s1, h1, hn1, hx1, _⟩ := Sys.submit_out (cfg := eventCfg r) (N := 1) (s := Sys.init) rfl .init (fun c i hc => by cases hc)
  have hr1 := h1.reach .init
  obtain ⟨s2, h2, hn2, he2, _, hf⟩ := Sys.C71_completion_possible (by omega) (event_safe r) hr1
  obtain ⟨s3, w, h3, h4, hw, hp⟩ := Sys.exec_between h2 (t := 0) (by rw [hx1]; rfl) (by
    cases (hf 0 (by rw [hn1]; decide)).1 with
    | mk h _ _ => rw [h]; simp)
  have hr3 := h3.reach hr1
  have hex := Sys.exec_running hr3 hw hp
  refine ⟨_, s3.x.g.nExt, .step hr3 (.graph (.other (.createEvent (t := 0) hex.1) rfl (fun t _ h => h) (.inr ?_)) ⟨fun t _ => rfl, fun t _ _ => rfl⟩ rfl rfl rfl
    (fun q h => absurd rfl h) (fun _ => ⟨w, hw, ?_⟩)), Nat.lt_succ_self _, upd_same _ _ _, ?_⟩
  · dsimp only
    rw [upd_same]
    exact hex.2
  · dsimp only
    rw [upd_same]
    exact hp
  · dsimp only
    rw [upd_same]
    simp

end RG.Small
