import Verif.Lemmas.DynamicFullExec
import Verif.Lemmas.DynamicCount
import Verif.Props.Guards
/-
C84: total correctness of whole programs, from the beginning of the main program to the return of `finalize()`.
-/
set_option linter.unusedVariables false
namespace RG.Dyn
open RG.Graph

variable {N : Nat} {a : Bool} {M : Type} {P : Prog M} {m0 : M}

/-- C84: every execution with the individual steps of pausing, with `barrier()` and `finalize()`, is one of C80: all that
was proved there holds for it. -/
theorem C84_refines {x : FConf P} (hr : FReach N a P m0 x) (hn : x.n < 2 ^ 32) : PReach N P m0 x.conf := hr.proj hn

/-- C84: a state in which no worker and no other thread can make a step is one in which all tasks have completely
finished, no body is paused, and `finalize()` has returned, or the main thread waits in `barrier()` or `finalize()` for a
task whose future the user still holds. Missing: executions in which a result is set while a worker is about to pause a
body that waits for it, see `C84_two_workers_false`. -/
theorem C84_no_deadlock_partial (hS : Structured P) (ho : Orderly P) (hN : 0 < N) {x : FConf P}
    (hr : FReach N true P m0 x) (hn : x.n < 2 ^ 32)
    (hq : ∀ x', ¬ FStep N true P (fun c => Full.OwnWork c N true) x x') :
    (x.s.p.mpc = .cleared ∨ ∃ fin, x.s.p.mpc = .idle fin ∧ ∃ t, t < x.n ∧ x.own t = 0 ∧ x.s.p.y.x.g.fut t = .held) ∧
    (∀ t, t < x.n → Finished x.cfg x.s.p.y.x.g t ∧ x.s.p.y.x.w t = none) ∧ ∀ w, x.s.pz w = none :=
  full_no_deadlock hS hN ho hr hn hq

/-- C84: there are no infinite executions, in any interleaving, if bodies can not run forever by themselves (`Next`),
except for idle steps: tests of the condition that a worker waits for, and wake-ups for no reason. -/
theorem C84_ends (hw : WellFounded (Next P)) {x : FConf P} (hr : FReach N a P m0 x) :
    ¬ ∃ f : Nat → FConf P, f 0 = x ∧ ∀ i, FStep N a P (fun c => Full.Work c N a) (f i) (f (i + 1)) :=
  full_no_infinite hw hr

theorem freach_work {x y : FConf P} (hr : FReach N a P m0 x)
    (h : Relation.ReflTransGen (FStep N a P fun c => Full.Work c N a) x y) : FReach N a P m0 y := by
  induction h with
  | refl => exact hr
  | tail _ hs ih => exact .step ih hs.any

/-- C84: from every state on, the execution can be continued to one in which no thread can make a step. -/
theorem C84_comes_to_rest (hw : WellFounded (Next P)) {x : FConf P} (hr : FReach N a P m0 x) :
    ∃ y, Relation.ReflTransGen (FStep N a P fun c => Full.Work c N a) x y ∧
      ∀ x', ¬ FStep N a P (fun c => Full.Work c N a) y x' := by
  apply Classical.byContradiction
  intro hno
  have go : ∀ y : { y // Relation.ReflTransGen (FStep N a P fun c => Full.Work c N a) x y },
      ∃ z : { y // Relation.ReflTransGen (FStep N a P fun c => Full.Work c N a) x y },
        FStep N a P (fun c => Full.Work c N a) y.1 z.1 := by
    intro y
    apply Classical.byContradiction
    intro h
    exact hno ⟨y.1, y.2, fun z hz => h ⟨⟨z, y.2.tail hz⟩, hz⟩⟩
  let F : Nat → { y // Relation.ReflTransGen (FStep N a P fun c => Full.Work c N a) x y } :=
    fun i => Nat.rec ⟨x, .refl⟩ (fun _ y => Classical.choose (go y)) i
  have hF : ∀ i, FStep N a P (fun c => Full.Work c N a) (F i).1 (F (i + 1)).1 := fun i => Classical.choose_spec (go (F i))
  exact C84_ends hw hr ⟨fun i => (F i).1, rfl, hF⟩

/-- a future that is held can end -/
theorem take_step {x : FConf P} (hr : FReach N true P m0 x) {t : Nat} (h : x.s.p.y.x.g.fut t = .held) :
    ∃ x', FStep N true P (fun c => Full.Work c N true) x x' := by
  have hfi := Full.Inv.reach hr.full
  have hg : Graph.Step x.cfg ⟨[t], false⟩ x.s.p.y.x.g _ := .takeFuture h
  have hsys : Sys.Step x.cfg N x.s.p.y _ := .graph (.other hg rfl (fun _ _ h => h) (.inl rfl)) (Sys.samePh_eq rfl) rfl
    rfl rfl (fun _ h => absurd rfl h) (fun h => absurd rfl h)
  have hpr : Prog.Step x.cfg N .sys x.s.p _ := .sys hsys (fun _ _ h => h) fun h => absurd rfl h
  have hst : Full.Step x.cfg N true (some .sys) x.s _ := .prog hfi.ok hpr rfl (fun _ _ _ => rfl) (fun _ _ _ _ _ => rfl)
  have hne : ∀ {y' : Sys.State}, y'.x.g.fut = upd x.s.p.y.x.g.fut t .taken → ¬ Sys.Idle x.s.p.y y' := by
    intro y' h1 h2
    rw [h2.x] at h1
    have := congrFun h1 t
    rw [upd_same, h] at this
    cases this
  refine ⟨_, .rt hst (.inr ⟨_, hst, ?_, .inr ⟨hpr, hsys, hne rfl, rfl, rfl, rfl⟩⟩) rfl (fun _ h1 h2 => absurd h1 h2)
    (fun t u h1 h2 => ?_) Iff.rfl⟩
  · intro e
    exact hne (y' := x.s.p.y) (by
      have := congrArg (fun p : Prog.State => p.y.x.g.fut) e
      exact this.symm) .spin
  · have h2 : x.s.p.y.x.w t = some u := h2
    rw [h1] at h2
    cases h2

section
variable {V : Type} {op : Mode → V → V → V} {P : Prog (Place → V)} {m0 : Place → V}

/-- C84: when `finalize()` has waited for the tasks, the memory is what the sequential program computes: on any number of
workers, and in all interleavings of the individual steps of pausing (if a body is continued twice, C71, the execution
ends there). -/
theorem C84_like_sequential (hP : Disciplined op P) (hop : ∀ o v a b, op o (op o v a) b = op o (op o v b) a)
    {x : FConf P} (hr : FReach N a P m0 x) (hn : x.n < 2 ^ 32) (hc : x.s.p.mpc.closing = true) :
    Seq P P.main m0 x.m := by
  have h1 := (Prog.C73_stopped_after_all_tasks rooted_tasks (Full.Base.reach hr.full).pr hn hc).1
  refine C80_like_sequential hP hop (hr.proj hn) (fun t ht => ?_) ?_
  · cases (h1 t ht).1 with
    | mk h _ _ => exact h
  · rcases hr.atMain with h | ⟨h | h, _⟩ | ⟨_, h⟩
    · rw [h] at hc; cases hc
    · rw [h] at hc; cases hc
    · rw [h] at hc; cases hc
    · exact h

/-- What the user gets: the execution ends. When nothing more can happen (all futures have been read or dropped), then
`finalize()` has returned, the threads of the workers have ended, all tasks have finished, and the memory is `m`. -/
structure Total (N : Nat) (a : Bool) (m : Place → V) (x : FConf P) : Prop where
  ends : ¬ ∃ f : Nat → FConf P, f 0 = x ∧ ∀ i, FStep N a P (fun c => Full.Work c N a) (f i) (f (i + 1))
  result : (∀ x', ¬ FStep N a P (fun c => Full.Work c N a) x x') → x.n < 2 ^ 32 →
    x.s.p.mpc = .cleared ∧ (∀ w, w < N → x.s.p.gone w = true) ∧ (∀ t, t < x.n → Finished x.cfg x.s.p.y.x.g t) ∧ x.m = m

theorem FStep.weaken_work {x x' : FConf P} (h : FStep N true P (fun c => Full.Work c N true) x x') :
    FStep N a P (fun c => Full.Work c N a) x x' := by
  cases h with
  | rt h hk hn hret hw hm => exact .rt h.weaken hk.weaken hn hret hw hm
  | barrier h hf hp => exact .barrier h.weaken hf hp
  | back h hk hm hm' hp => exact .back h.weaken hk.weaken hm hm' hp
  | finalize h hf hp => exact .finalize h.weaken hf hp
  | submit ho hp h hn => exact .submit ho hp h.weaken hn
  | act h hp => exact .act h hp
  | join h hp hc => exact .join h hp hc

theorem total_of (hP : Disciplined op P) (hop : ∀ o v a b, op o (op o v a) b = op o (op o v b) a)
    (hw : WellFounded (Next P)) (hN : 0 < N) {m : Place → V} (hm : Seq P P.main m0 m) {x : FConf P}
    (hr : FReach N a P m0 x) (hr' : FReach N true P m0 x) : Total N a m x := by
  refine ⟨C84_ends hw hr, fun hq hn => ?_⟩
  have hq' : ∀ x', ¬ FStep N true P (fun c => Full.Work c N true) x x' := fun x' h => hq x' h.weaken_work
  obtain ⟨h1, h2, h3⟩ := C84_no_deadlock_partial hP.structured hP.orderly hN hr' hn
    fun x' h => hq' x' (h.mono fun _ _ _ h => h.1)
  rcases h1 with h1 | ⟨fin, -, t, -, -, h4⟩
  · exact ⟨h1, (Prog.Inv.reach (Full.Base.reach hr'.full).pr).clearedI h1, fun t ht => (h2 t ht).1,
      (C84_like_sequential hP hop hr hn (by rw [h1]; rfl)).det hm⟩
  · obtain ⟨x', h5⟩ := take_step hr' h4
    exact absurd h5 (hq' x')

/-- C84: total correctness. There is one result `m`, the one of the sequential program, such that every execution ends
with it: `finalize()` returns, the workers have ended, all tasks have finished. This holds
* on one worker, in all interleavings of the steps of pausing bodies;
* on any number of workers, if bodies of tasks do not wait (only the main program does);
* on any number of workers for all programs, in those executions in which no result is set while a worker is about to
  pause a body that waits for it. Missing: the others, see `C84_two_workers_false`. -/
theorem C84_total_partial (hP : Disciplined op P) (hop : ∀ o v a b, op o (op o v a) b = op o (op o v b) a)
    (hw : WellFounded (Next P)) (m0 : Place → V) : ∃ m, Seq P P.main m0 m ∧
      (∀ x, FReach 1 false P m0 x → Total 1 false m x) ∧
      (Leaves P → ∀ N, 0 < N → ∀ x, FReach N false P m0 x → Total N false m x) ∧
      ∀ N, 0 < N → ∀ x, FReach N true P m0 x → Total N true m x := by
  obtain ⟨m, h1, -⟩ := C80_total hP hop hw m0
  exact ⟨m, h1, fun x hr => total_of hP hop hw Nat.one_pos h1 hr hr.one,
    fun hL N hN x hr => total_of hP hop hw hN h1 hr (hr.leaves hL).1, fun N hN x hr => total_of hP hop hw hN h1 hr hr⟩

end

variable {ι : Type} {tbl : ι → User} {c : Code ι}

/-- C84: checked programs (`Code.Fits`, `Code.Waits`), with the result of the program in which tasks are function calls.
Partial as `C84_total_partial`. -/
theorem C84_checked_programs_partial (ht : TableOk tbl) (hf : c.Fits tbl [] none 0) (hj : c.Waits) (m0 : Mem) :
    (∀ x, FReach 1 false (code tbl c) m0 x → Total 1 false (c.run m0) x) ∧
    (c.Flat → ∀ N, 0 < N → ∀ x, FReach N false (code tbl c) m0 x → Total N false (c.run m0) x) ∧
    ∀ N, 0 < N → ∀ x, FReach N true (code tbl c) m0 x → Total N true (c.run m0) x := by
  obtain ⟨m, h1, h2⟩ := C84_total_partial (code_disciplined ht hf hj) natOp_comm code_next m0
  cases h1.det (seq_code c m0)
  exact ⟨h2.1, fun hF => h2.2.1 hF.leaves, h2.2.2⟩

/-- C84: programs that access the data through guards, if the compiler accepts them, and the bodies wait for the tasks
that they have submitted before they use what these may use and before they return. The result is the one of the program
in which `emplace_task` is a function call. Partial as `C84_total_partial`. -/
theorem C84_guards_partial [EvalOrder] {kind : Res → Option Nat} {main : GCode} {env : List AGuard}
    (ht : main.Typed false (env.map AGuard.ty) 0) (hg : ∀ g ∈ env, g.Good kind)
    (hj : main.Joins (env.map AGuard.ty) 0 fun _ => none) (m0 : Mem) :
    ∃ m : Mem, (m (.own [] 0), fun r pos => m (.shared r pos)) = main.run env [] (fun r pos => m0 (.shared r pos)) ∧
      (∀ x, FReach 1 false (program kind main env) m0 x → Total 1 false m x) ∧
      (main.Flat → ∀ N, 0 < N → ∀ x, FReach N false (program kind main env) m0 x → Total N false m x) ∧
      ∀ N, 0 < N → ∀ x, FReach N true (program kind main env) m0 x → Total N true m x := by
  have hs : Scope kind (env.map AGuard.ty) env := ⟨rfl, hg⟩
  have h3 := steps_run (m := m0) (p := []) main ht hs (rs := []) rfl (by simp)
  have h4 := C84_checked_programs_partial args_ok (typed_fits (d := none) main ht hs fun a h => by cases h)
    (typed_joined main (p := []) ht hs hj fun j d h => by cases h) m0
  exact ⟨_, Prod.ext h3.value h3.objs, h4.1, fun hF => h4.2.1 hF.steps, h4.2.2⟩

/-- C84: a program does not submit more tasks than can be counted in its text. With it the assumption of the theorems
above that there are less than 2^32 tasks can be checked before the program is executed. -/
theorem C84_task_count {k : Nat} (hk : Few P P.main k) {x : FConf P} (hr : FReach N a P m0 x) : x.n ≤ k := by
  obtain ⟨f, -, h⟩ := hr.count hk
  omega

/-- C84: the same for checked programs and for those that use guards, with a recursive count -/
theorem C84_task_count_code {k : Nat} {m0 : Mem} : (c.AtMost k → ∀ x, FReach N a (code tbl c) m0 x → x.n ≤ k) ∧
    ∀ [EvalOrder] {kind} {main : GCode} {env}, main.AtMost k → ∀ x, FReach N a (program kind main env) m0 x → x.n ≤ k :=
  ⟨fun h x hr => C84_task_count (h.few (tbl := tbl)) hr,
    fun {_ kind main env} h x hr => C84_task_count (h.steps (kind := kind)).few hr⟩

/-! ### Two workers -/

/-- The task submits another one and waits for it. -/
def hangCode : Code := .call 0 (.call 0 (.put aPlace 1 .ret) (.all .ret)) (.all .ret)

def hangActs : List CAct :=
  [.spawn 0] ++ (([.sys (.graph (.sub 0)), .sys (.emplace 0 0)] : List Full.FAct) ++ Full.doRun 0 0).map .g ++
  [.spawn 1] ++ (([.sys (.graph (.sub 1)), .sys (.emplace 1 1)] : List Full.FAct) ++ Full.doRun 1 1).map .g ++
  [.g (.yield 0 0 1), .g (.pause 0), .g (.pause 0), .act 2, .g (.sys (.bodyEnd 1 1)), .g (.begin 1), .g (.pause 0),
    .g (.pause 0), .g (.pause 0), .g (.pause 0)]

def hang : FConf (code (users dynAcc) hangCode) := crun 2 _ (FConf.start _ fun _ => 0) hangActs

set_option maxRecDepth 100000 in
theorem hang_facts : hang.s.p.y.x.w 0 = some 1 ∧ hang.s.p.y.x.g.ex 1 = .ended ∧ hang.s.rn 1 = .loop [] ∧
    hang.s.pz 0 = none ∧ hang.s.pz 1 = none ∧ hang.s.p.y.x.g.n = 2 ∧ hang.s.rn 0 = .idle ∧ hang.s.rfol 0 = [] ∧
    hang.m aPlace = 1 ∧ hang.s.bad = false := by
  decide +kernel

theorem hang_reach : FReach 2 false (code (users dynAcc) hangCode) (fun _ => 0) hang := crun_reach .init

theorem hang_fits : hangCode.Fits (users dynAcc) [] none 0 := by
  have no : ∀ {p : Nat → Prop} (a : Nat), none = some a → p a := fun a h => by cases h
  refine ⟨no, ⟨?_, ⟨?_, trivial⟩, trivial⟩, trivial⟩
  · rintro a ⟨⟩
    decide +kernel
  · rintro a ⟨⟩
    exact uses dynAcc (by decide)

theorem hang_waits : hangCode.Waits := by
  have no : ∀ {p : Nat → Code → Prop} (j : Nat) (d : Code), none = some d → p j d := fun j d h => by cases h
  have nl : ∀ (j : Nat), (none : Option Code) = none := fun _ => rfl
  exact ⟨⟨⟨no, nl⟩, nl⟩, nl⟩

theorem FStep.lost {K : Cfg → Full.State → Full.State → Prop} {x x' : FConf P} (hr : FReach N a P m0 x)
    (hl : Full.Lost x.s) (h : FStep N a P K x x') : Full.Lost x'.s := by
  cases h with
  | rt h => exact hl.step (Full.Base.reach hr.full) h
  | barrier h => exact hl.step (Full.Base.reach hr.full) h
  | back h => exact hl.step (Full.Base.reach hr.full) h
  | finalize h => exact hl.step (Full.Base.reach hr.full) h
  | submit ho hp h hn => exact hl.step (Full.Base.reach (hr.full.agree tasks_agree)) h
  | act => exact hl
  | join => exact hl

/-- C84 is false on two workers if nothing is assumed about the interleaving of the steps of pausing: there is a program
that satisfies all the conditions, a task that submits another one and waits for it, and an execution of it after which
`finalize()` never stops the workers, whatever happens. -/
theorem C84_two_workers_false : Disciplined Bodies.natOp (code (users dynAcc) hangCode) ∧
    WellFounded (Next (code (users dynAcc) hangCode)) ∧ hangCode.AtMost 2 ∧
    ∃ x, FReach 2 false (code (users dynAcc) hangCode) (fun _ => 0) x ∧
      ∀ y, Relation.ReflTransGen (FStep 2 false (code (users dynAcc) hangCode) fun _ _ _ => True) x y →
        y.s.p.mpc.closing = false := by
  have hm : hangCode.AtMost 2 := ⟨1, 0, ⟨0, 0, trivial, trivial, by decide⟩, trivial, by decide⟩
  refine ⟨code_disciplined dyn_ok hang_fits hang_waits, code_next, hm, ?_⟩
  have h0 := hang_reach
  have hf := hang_facts
  generalize hang = x at h0 hf
  obtain ⟨h1, h2, h3, h4, h5, h6, h7, h8, -, -⟩ := hf
  have hl := Full.lost_of h0.full ⟨h1, h2, h3, h4, h5, h6, h7, h8⟩
  refine ⟨x, h0, fun y hy => ?_⟩
  have key : FReach 2 false (code (users dynAcc) hangCode) (fun _ => 0) y ∧ Full.Lost y.s := by
    induction hy with
    | refl => exact ⟨h0, hl⟩
    | tail _ hs ih => exact ⟨.step ih.1 hs, hs.lost ih.1 ih.2⟩
  obtain ⟨hr, hl⟩ := key
  have hn : y.n < 2 ^ 32 := Nat.lt_of_le_of_lt (C84_task_count_code.1 hm y hr) (by decide)
  have hrs := (Prog.Inv.reach (Full.Base.reach hr.full).pr).yr
  have h5 := ((KInv.reach (Sys.Inv.reach hrs).wr).w 0 1 hl.w).2
  cases hc : y.s.p.mpc.closing with
  | false => rfl
  | true =>
    have h4 := (Prog.C73_stopped_after_all_tasks rooted_tasks (Full.Base.reach hr.full).pr hn hc).1 0 ?_
    · cases h4.1 with
      | mk h6 _ _ => rw [h5] at h6; cases h6
    · apply Decidable.byContradiction
      intro h6
      rw [(Dom.reach hrs.graph).ex 0 (by omega)] at h5
      cases h5

/-! ### Examples -/

theorem dyn_atMost : dynCode.AtMost 4 := by
  refine ⟨0, 3, trivial, ⟨1, 1, fun v => ?_, ⟨0, 0, fun _ => trivial, fun _ => trivial, by decide⟩, by decide⟩, by decide⟩
  dsimp only
  split
  · exact ⟨0, 0, trivial, trivial, by decide⟩
  · trivial

set_option maxRecDepth 100000 in
/-- the hypotheses hold for `dynCode`, whose tasks depend on the data and wait for each other. On one worker, and on any
number of them (without the race), it comes to its end: `finalize()` returns, and the result is 8. -/
example (N : Nat) (a : Bool) (hN : 0 < N) (ha : N = 1 ∨ a = true) :
    ∃ x, FReach N a (code (users dynAcc) dynCode) (fun _ => 0) x ∧ x.n ≤ 4 ∧ x.s.p.mpc = .cleared ∧
      (∀ w, w < N → x.s.p.gone w = true) ∧ x.m (.own [] 0) = 8 := by
  obtain ⟨y, h1, h2⟩ := C84_comes_to_rest code_next (FReach.init (N := N) (a := a) (P := code (users dynAcc) dynCode)
    (m0 := fun _ => 0))
  have hr := freach_work .init h1
  have hn := C84_task_count_code.1 dyn_atMost y hr
  have ht := C84_checked_programs_partial dyn_ok dyn_fits dyn_joined fun _ => 0
  have h3 : Total N a (dynCode.run fun _ => 0) y := by
    cases a with
    | true => exact ht.2.2 N hN y hr
    | false =>
      rcases ha with rfl | h
      · exact ht.1 y hr
      · cases h
  obtain ⟨h4, h5, -, h6⟩ := h3.result h2 (Nat.lt_of_le_of_lt hn (by decide))
  refine ⟨y, hr, hn, h4, h5, ?_⟩
  rw [h6]
  decide +kernel

/-- Two tasks, one of which uses what the other has written; the main program waits for both. -/
def flatCode : Code :=
  .call 0 (.put aPlace 2 .ret) <| .call 1 (.get aPlace fun v => .put bPlace (v + 3) .ret) <| .all <|
  .get bPlace fun v => .put (.own [] 0) v .ret

theorem flat_fits : flatCode.Fits (users dynAcc) [] none 0 := by
  have no : ∀ {p : Nat → Prop} (a : Nat), none = some a → p a := fun a h => by cases h
  refine ⟨no, ⟨?_, trivial⟩, no, ⟨?_, fun v => ⟨?_, trivial⟩⟩, no, fun v => ⟨no, trivial⟩⟩
  · rintro a ⟨⟩
    exact uses dynAcc (by decide)
  · rintro a ⟨⟩
    exact .inl (uses dynAcc (by decide))
  · rintro a ⟨⟩
    exact uses dynAcc (by decide)

theorem flat_waits : flatCode.Waits := by
  have no : ∀ {p : Nat → Code → Prop} (j : Nat) (d : Code), none = some d → p j d := fun j d h => by cases h
  have nl : ∀ (j : Nat), (none : Option Code) = none := fun _ => rfl
  exact ⟨⟨no, nl⟩, ⟨no, fun v => ⟨no, nl⟩⟩, no, fun v => ⟨no, nl⟩⟩

set_option maxRecDepth 100000 in
/-- those of the second case of `C84_total_partial`: only the main program waits. Every execution ends, on any number of
workers and with all interleavings, with the result 5. -/
example (N : Nat) (hN : 0 < N) : flatCode.Flat ∧ ∃ x, FReach N false (code (users dynAcc) flatCode) (fun _ => 0) x ∧
    (∀ x', ¬ FStep N false (code (users dynAcc) flatCode) (fun c => Full.Work c N false) x x') ∧
    x.s.p.mpc = .cleared ∧ x.m (.own [] 0) = 5 := by
  have hF : flatCode.Flat := ⟨trivial, fun _ => trivial, fun _ => trivial⟩
  have hm : flatCode.AtMost 2 :=
    ⟨0, 1, trivial, ⟨0, 0, fun _ => trivial, fun _ => trivial, by decide⟩, by decide⟩
  obtain ⟨y, h1, h2⟩ := C84_comes_to_rest code_next (FReach.init (N := N) (a := false)
    (P := code (users dynAcc) flatCode) (m0 := fun _ => 0))
  have hr := freach_work .init h1
  have hn := C84_task_count_code.1 hm y hr
  obtain ⟨h4, -, -, h6⟩ := ((C84_checked_programs_partial dyn_ok flat_fits flat_waits fun _ => 0).2.1 hF N hN y hr).result
    h2 (Nat.lt_of_le_of_lt hn (by decide))
  refine ⟨hF, y, hr, h2, h4, ?_⟩
  rw [h6]
  decide +kernel

theorem ex_atMost : exMain.AtMost 5 := by
  refine ⟨⟨⟨0, 4, ?_, ⟨0, 3, ?_, ⟨1, 1, ?_, fun _ s => ?_, by decide⟩, by decide⟩, by decide⟩, trivial⟩, trivial⟩
  · exact fun _ _ => trivial
  · exact fun _ _ => trivial
  · exact ⟨⟨0, 0, fun _ _ => trivial, fun _ _ => trivial, by decide⟩, trivial⟩
  · dsimp only
    split
    · trivial
    · trivial
    · exact ⟨0, 0, fun _ => trivial, fun _ => trivial, by decide⟩

set_option maxRecDepth 100000 in
/-- those of `C84_guards_partial` hold for `exMain`, with the result 8 -/
example [EvalOrder] : exMain.Typed false (exEnv.map AGuard.ty) 0 ∧ (∀ g ∈ exEnv, g.Good exKind) ∧
    (exMain.Joins (exEnv.map AGuard.ty) 0 fun _ => none) ∧
    ∃ x, FReach 1 false (program exKind exMain exEnv) (fun _ => 0) x ∧ x.s.p.mpc = .cleared ∧ x.m (.own [] 0) = 8 := by
  refine ⟨ex_typed, ex_good, ex_joins, ?_⟩
  obtain ⟨y, h1, h2⟩ := C84_comes_to_rest code_next (FReach.init (N := 1) (a := false)
    (P := program exKind exMain exEnv) (m0 := fun _ => 0))
  have hr := freach_work .init h1
  have hn := (C84_task_count_code (c := (.ret : Code)) (tbl := users dynAcc)).2 ex_atMost y hr
  obtain ⟨m, h3, h4, -⟩ := C84_guards_partial ex_typed ex_good ex_joins fun _ => 0
  obtain ⟨h5, -, -, h6⟩ := (h4 y hr).result h2 (Nat.lt_of_le_of_lt hn (by decide))
  refine ⟨y, hr, h5, ?_⟩
  rw [h6, show m (.own [] 0) = _ from congrArg Prod.fst h3]
  decide +kernel

end RG.Dyn
