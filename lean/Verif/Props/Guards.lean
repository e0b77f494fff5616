import Verif.Lemmas.Guards
/-
C83: Programs whose tasks access the data through the guards that they get as arguments.
-/
set_option linter.unusedVariables false
namespace RG.Dyn
open RG.Graph

section
variable [EvalOrder] {kind : Res → Option Nat} {main : GCode} {env : List AGuard}

/-- the program as one of Model/Dynamic.lean; `env`: the resources of the main program -/
def program (kind : Res → Option Nat) (main : GCode) (env : List AGuard) : Prog Mem :=
  code (argsUser kind) (main.steps kind [] 0 env)

/-- C83: "compile time checked memory access". If the compiler accepts a program (which does not take the pointers to
whole objects out of guards), then bodies only do what their tasks have declared, although nobody has written the
accesses down: reads and writes go to elements that the accesses of the task cover. The accesses of a task include the
ones of the tasks that it submits, and all of its accesses can be met: it does not wait for itself. Nothing is assumed
about the order in which bodies do something or wait. -/
theorem C83_accesses_are_declared (ht : main.Typed false (env.map AGuard.ty) 0) (hg : ∀ g ∈ env, g.Good kind) :
    Honest Bodies.natOp (program kind main env) ∧ Covered (program kind main env) ∧ Orderly (program kind main env) := by
  have hf := typed_fits (kind := kind) (p := []) (d := none) main ht ⟨rfl, hg⟩ fun a h => by cases h
  refine ⟨code_honest hf, fun p d k b d' c1 b' hoc hb => ?_, ?_⟩
  · obtain ⟨a, e, hf⟩ := occ_fits hf hoc
    cases b <;> cases hb
    cases a <;> cases e
    exact hf.1 _ rfl
  · exact
      { built := fun d h => by obtain ⟨a, rfl⟩ := code_declares h; exact args_ok.built a
        policy := fun d d' h h' => by
          obtain ⟨a, rfl⟩ := code_declares h
          obtain ⟨b, rfl⟩ := code_declares h'
          exact args_ok.policy a b
        once := fun d h => by obtain ⟨a, rfl⟩ := code_declares h; exact args_ok.once a }

/-- C83: Programs that the compiler accepts, and whose bodies wait for the tasks that they have submitted before they use
what these may use and before they return: on any number of workers, every execution ends. When nothing more can happen,
all tasks have finished, and the result of the main program and all objects are what the program computes if
`emplace_task` is replaced by a function call. -/
theorem C83_total (ht : main.Typed false (env.map AGuard.ty) 0) (hg : ∀ g ∈ env, g.Good kind)
    (hj : main.Joins (env.map AGuard.ty) 0 fun _ => none) {N : Nat} (hN : 0 < N) {m0 : Mem}
    {x : Conf (program kind main env)} (hr : PReach N (program kind main env) m0 x) :
    (¬ ∃ f : Nat → Conf (program kind main env), f 0 = x ∧
      ∀ i, PStep N (program kind main env) (fun c => Sys.Work c N) (f i) (f (i + 1))) ∧
    ((∀ x', ¬ PStep N (program kind main env) (fun c => Sys.OwnWork c N) x x') →
      (∀ t, t < x.n → Finished x.cfg x.s.x.g t) ∧
      (x.m (.own [] 0), fun r pos => x.m (.shared r pos)) = main.run env [] fun r pos => m0 (.shared r pos)) := by
  have hs : Scope kind (env.map AGuard.ty) env := ⟨rfl, hg⟩
  obtain ⟨h1, h2⟩ := C80_checked_programs args_ok (typed_fits (d := none) main ht hs fun a h => by cases h)
    (typed_joined main (p := []) ht hs hj fun j d h => by cases h) hN hr
  refine ⟨h1, fun hq => ⟨(h2 hq).1, ?_⟩⟩
  have h3 := steps_run (m := m0) (p := []) main ht hs (rs := []) rfl (by simp)
  rw [← (h2 hq).2] at h3
  exact Prod.ext h3.value h3.objs

/-! ### Examples -/

/-- two resources: a field with one dimension and a number -/
def exKind (r : Res) : Option Nat := if r = rA then some 1 else none

def exEnv : List AGuard := [.field (Guard.fresh (dim := 1) rA), .io rB true]

/-- Writes the position to an element of the part of the field that it has got. -/
def fillPart (lo hi : Size) : GCode :=
  .put 0 [lo] lo.toNat fun _ => .put 0 [hi] 100 fun ok => .ret (if ok then 1 else 0)

/-- Adds up two elements in a task of its own, and writes the sum to the number. -/
def sumUp : GCode :=
  .narrow 0 .read
    (.call [2] none (.get 0 [0] fun v => .get 0 [5] fun w => .ret (v.getD 0 + w.getD 0)) <|
      .fut 0 fun s => .put 1 [] s fun _ => .ret 0)
    (.ret 0)

/-- Two tasks fill disjoint parts of the field, a third one adds up; the main program passes another part of the field
to one more task if the sum is not 0. -/
def exMain : GCode :=
  .narrow 0 (.area [0] [5])
    (.narrow 0 (.area [5] [9])
      (.call [2] none (fillPart 0 5) <| .call [3] none (fillPart 5 8) <| .call [0, 1] none sumUp <|
        .fut 2 fun _ => .get 1 [] fun s =>
          match s with
          | some 0 | none => .all (.ret 0)
          | some s => .call [2, 0] (some []) (.put 0 [4] s fun _ => .ret 3) <| .all <| .fut 3 fun r => .ret (s + r))
      (.ret 0))
    (.ret 0)

theorem ex_good : ∀ g ∈ exEnv, g.Good exKind := by
  intro g hg
  simp only [exEnv, List.mem_cons, List.not_mem_nil, or_false] at hg
  rcases hg with rfl | rfl <;> decide

theorem ex_typed : exMain.Typed false (exEnv.map AGuard.ty) 0 := by
  have rest : ∀ s : Option Nat, GCode.Typed false
      (match s with
          | some 0 | none => .all (.ret 0)
          | some s => .call [2, 0] (some []) (.put 0 [4] s fun _ => .ret 3) <| .all <| .fut 3 fun r => .ret (s + r))
      (exEnv.map AGuard.ty ++ [⟨rA, some 1, true⟩, ⟨rA, some 1, true⟩]) 3 := by
    intro s
    split <;> simp [GCode.Typed, exEnv, AGuard.ty, GTy.Fits, Guard.fresh]
  simp [exMain, GCode.Typed, fillPart, sumUp, exEnv, AGuard.ty, GTy.Fits, GTy.narrow, Guard.fresh] at rest ⊢
  exact ⟨by decide, rest⟩

theorem ex_joins : exMain.Joins (exEnv.map AGuard.ty) 0 fun _ => none := by
  have hAB : rA ≠ rB := by decide
  have rest : ∀ (s : Option Nat) (o : Nat → Option (List GTy)), GCode.Joins
      (match s with
          | some 0 | none => .all (.ret 0)
          | some s => .call [2, 0] (some []) (.put 0 [4] s fun _ => .ret 3) <| .all <| .fut 3 fun r => .ret (s + r))
      (exEnv.map AGuard.ty ++ [⟨rA, some 1, true⟩, ⟨rA, some 1, true⟩]) 3 o := by
    intro s o
    split <;> simp [GCode.Joins]
  refine ⟨fun τ τ' h1 h2 => ?_, fun _ => rfl⟩
  cases h1
  cases h2
  refine ⟨fun τ τ' h1 h2 => ?_, fun _ => rfl⟩
  cases h1
  cases h2
  refine ⟨⟨by simp, fun _ => ⟨by simp, fun _ _ => rfl⟩⟩, ⟨by simp, fun _ => ⟨by simp, fun _ _ => rfl⟩⟩, ⟨?_, fun _ => rfl⟩,
    fun v => ⟨?_, fun s => rest s _⟩⟩
  · intro τ τ' h1 h2
    refine ⟨⟨by simp, fun v => ⟨by simp, fun w _ => rfl⟩⟩, fun v => ⟨?_, fun b j => ?_⟩⟩
    · intro σ hσ j Δ hΔ
      by_cases hj : j = 0 <;> simp [hj, upd] at hΔ
    · by_cases hj : j = 0 <;> simp [hj, upd]
  · rintro τ h j Δ hΔ σ hσ he
    cases h
    have : j = 0 ∨ j = 1 := by
      by_cases h2 : j = 2
      · simp [h2] at hΔ
      · by_cases h0 : j = 0 <;> by_cases h1 : j = 1 <;> simp_all [upd]
    rcases this with rfl | rfl
    all_goals
      cases hΔ
      cases List.mem_singleton.1 hσ
      exact absurd he hAB

set_option maxRecDepth 100000 in
/-- the hypotheses of the theorems hold for `exMain`: on any number of workers it comes to its end with the result 8 -/
example (N : Nat) (hN : 0 < N) : exMain.Typed false (exEnv.map AGuard.ty) 0 ∧ (∀ g ∈ exEnv, g.Good exKind) ∧
    (exMain.Joins (exEnv.map AGuard.ty) 0 fun _ => none) ∧
    ∃ x : Conf (program exKind exMain exEnv), PReach N (program exKind exMain exEnv) (fun _ => 0) x ∧
      (∀ x', ¬ PStep N (program exKind exMain exEnv) (fun c => Sys.OwnWork c N) x x') ∧ x.m (.own [] 0) = 8 := by
  refine ⟨ex_typed, ex_good, ex_joins, ?_⟩
  obtain ⟨y, h1, h2⟩ := C80_comes_to_rest code_next (PReach.init (N := N) (P := program exKind exMain exEnv))
  refine ⟨y, preach_own .init h1, h2, ?_⟩
  have := ((C83_total ex_typed ex_good ex_joins hN (preach_own .init h1)).2 h2).2
  rw [show y.m (.own [] 0) = _ from congrArg Prod.fst this]
  decide +kernel

end

/-- the usual orders of compilers -/
def leftToRight : EvalOrder := ⟨fun _ l => l, fun _ _ => .refl _⟩

def rightToLeft : EvalOrder := ⟨fun _ l => l.reverse, fun _ l => l.reverse_perm⟩

/-- the order is visible in the list of accesses -/
example : (Args.user ⟨0, leftToRight.order [1] exEnv, none⟩).unique = [rA, rB] ∧
    (Args.user ⟨0, rightToLeft.order [1] exEnv, none⟩).unique = [rB, rA] := by decide +kernel

attribute [local instance] leftToRight

/-! The pointer to the whole field: two tasks get disjoint parts of it, and both write to its first element. -/

def rawMain : GCode :=
  .narrow 0 (.area [0] [1])
    (.narrow 0 (.area [1] [2])
      (.call [2] none (.poke 0 [0] 1 (.ret 0)) <| .call [3] none (.poke 0 [0] 2 (.ret 0)) <| .all <|
        .get 0 [0] fun v => .ret (v.getD 0))
      (.ret 0))
    (.ret 0)

/-- the parts of the two tasks -/
def rawPart (t : Nat) : Guard 1 := ⟨rA, true, fun _ => if t = 0 then ⟨0, 1⟩ else ⟨1, 2⟩⟩

def rawCfg : Cfg where
  user t := Args.user ⟨0, [.field (rawPart t)], none⟩
  space _ := 0
  parent _ := none
  strict := true
  single := true

/-- the body at `b` submits a task with the accesses of task `n` -/
def rawDecl (n : Nat) : Code { a : Args // a.Good exKind } → Bool
  | .call ⟨⟨d, [.field (dim := 1) g], none⟩, _⟩ _ _ =>
    d == 0 && g.res == rA && g.isWrite && decide (g.area 0 = (rawPart n).area 0)
  | _ => false

theorem raw_decl {n : Nat} {b : Code { a : Args // a.Good exKind }} (h : rawDecl n b = true) :
    ∃ a c k, b = .call a c k ∧ argsUser exKind a = rawCfg.user n := by
  unfold rawDecl at h
  split at h
  · rename_i d g hg c k
    simp only [Bool.and_eq_true, beq_iff_eq, decide_eq_true_eq] at h
    obtain ⟨⟨⟨rfl, h2⟩, h3⟩, h4⟩ := h
    refine ⟨_, _, _, rfl, ?_⟩
    have : g = rawPart n := by
      obtain ⟨r, w, A⟩ := g
      simp only at h2 h3 h4
      subst h2 h3
      unfold rawPart
      congr 1
      funext d
      rw [show d = 0 from Subsingleton.elim _ _]
      exact h4
    subst this
    rfl
  · cases h

def rawActs : List (Act Graph.Act) :=
  gs (doSubmit 0 ++ doSubmit 1 ++ doInit 0 ++ doInit 1 ++ [.start 0, .start 1]) ++ [.act 2, .act 2, .act 1, .act 1] ++
    gs [.ret 0, .ret 1] ++ [.join 0, .act 0, .act 0]

def raw : St (Bodies.graph rawCfg) (program exKind rawMain exEnv) :=
  run rawCfg (program exKind rawMain exEnv) (Bodies.graphExc _) rawDecl false (start _ _ fun _ => 0) rawActs

theorem raw_reach : Reach rawCfg (Bodies.graph rawCfg) (program exKind rawMain exEnv) false (fun _ => 0) raw :=
  run_reach (by simp) fun n b d c b' h hp => by
    obtain ⟨a, c1, k, rfl, h2⟩ := raw_decl h
    cases hp
    exact h2.symm

set_option maxRecDepth 100000 in
/-- C83 is false with the pointer to the whole object, which guards give away (`operator->` of field guards, the public
member `obj`): the compiler accepts the program, its main program waits for its tasks, but the tasks with disjoint parts
of a field run at the same time, and the result is not the one of the sequential program. -/
theorem C83_raw_pointer_false : rawMain.Typed true (exEnv.map AGuard.ty) 0 ∧ (∀ g ∈ exEnv, g.Good exKind) ∧
    (rawMain.Joins (exEnv.map AGuard.ty) 0 fun _ => none) ∧ rawCfg.WellFormed ∧
    (rawMain.run exEnv [] fun _ _ => 0).1 = 2 ∧
    ∃ x : St (Bodies.graph rawCfg) (program exKind rawMain exEnv),
      Reach rawCfg (Bodies.graph rawCfg) (program exKind rawMain exEnv) false (fun _ => 0) x ∧
      State.n x.s = 2 ∧ (∀ t, t < 2 → State.ex x.s t = .ended) ∧
      (program exKind rawMain exEnv).pt (x.loc 0) = .done ∧ x.m (.own [] 0) = 1 := by
  refine ⟨?_, ex_good, ?_, ?_, by decide +kernel, raw, raw_reach, by decide +kernel, by decide +kernel,
    isDone_iff.1 (by decide +kernel), by decide +kernel⟩
  · simp [rawMain, GCode.Typed, exEnv, AGuard.ty, GTy.Fits, GTy.narrow, Guard.fresh]
  · simp [rawMain, GCode.Joins]
  · exact
      { built := fun t => ⟨_, _, Args.user_eq ⟨0, [.field (rawPart t)], none⟩⟩
        policy := fun t u a b ha hb _ => by
          have h : ∀ t, ∀ ra ∈ (rawCfg.user t).access, ra.ty = fieldPolicy 1 := by
            intro t ra hm
            unfold rawCfg at hm
            rw [Args.access_eq] at hm
            cases List.mem_singleton.1 hm
            rfl
          rw [h t a ha, h u b hb] }

end RG.Dyn
