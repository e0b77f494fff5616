import Verif.Lemmas.GraphListFol
import Verif.Lemmas.GraphListExec
import Verif.Props.GraphProgress
/-
Property C74: the guarantees of the task graph, when the lists of users and of followers are the lock-free lists.

All theorems are about the states that can be reached by any interleaving of the accesses to shared memory of the lists
and of the other steps (Model/GraphList), for any number of tasks, resources and threads and any size of the chunks.
-/
set_option linter.unusedVariables false
namespace RG.GList

open RG.Graph (Cfg Entry IPc Ph Fol Fl NestingOk Submitted Started Finished Descends prog prog_wellFormed rA rB flat nest)

variable {cfg : Cfg} {N : Nat} {s s1 s' : State}

theorem Steps.sim (ht : NestingOk cfg) (hN : 0 < N) (hr : Reach cfg N true s1) (h : Steps cfg N true s1 s) :
    Graph.Steps cfg s1.g s.g := by
  induction h with
  | refl => exact .refl
  | step h1 h2 ih =>
    rcases Step.sim ht hN (Inv.of ht hN (h1.reach hr)) h2 with e | ⟨lb, e⟩
    · rw [e]; exact ih
    · exact .step ih e

/-- C74: if tasks are registered with a resource by one thread at a time, then everything that can be observed with
the lock-free lists could also be observed if every operation on a list were one step.
Partial: see `C74_conflicting_tasks_run_together_false`; nested programs are restricted by `NestingOk`. -/
theorem C74_like_atomic_lists_partial (ht : NestingOk cfg) (hN : 0 < N) (hr : Reach cfg N true s1)
    (h : Steps cfg N true s1 s) : Graph.Reach cfg s1.g ∧ Graph.Steps cfg s1.g s.g :=
  ⟨(Inv.of ht hN hr).reach, h.sim ht hN hr⟩

/-- C74: the order of conflicting tasks. If the submission of `p` has returned before the submission of `t` begins, both
tasks belong to the same space and conflict, then `t` starts only after `p` has completely finished. -/
theorem C74_submission_order_partial (hw : cfg.WellFormed) (ht : NestingOk cfg) (hN : 0 < N)
    (hr : Reach cfg N true s1) (h : Steps cfg N true s1 s) {p t : Nat}
    (hp : Submitted s1.g p) (hlt : s1.g.n ≤ t) (hsp : cfg.space p = cfg.space t)
    (hc : (cfg.user p).isSerial (cfg.user t) = true) (hx : Started s.g t) : Finished cfg s.g p :=
  Graph.C12_submission_order_partial hw ht (Inv.of ht hN hr).reach (h.sim ht hN hr) hp hlt hsp hc hx

/-- C74: the body of a task is started at most once, and only after its initialisation. -/
theorem C74_started_at_most_once_partial (ht : NestingOk cfg) (hN : 0 < N) (hr : Reach cfg N true s) (t : Nat) :
    s.g.starts t + s.g.handed t ≤ 1 ∧ (0 < s.g.starts t + s.g.handed t → s.g.ph t = .inited) :=
  Graph.C13_started_at_most_once_partial ht (Inv.of ht hN hr).reach t

/-- C74: a task that has been initialised is ready as soon as the earlier conflicting tasks have notified their
followers: no notification is lost in the list of followers. -/
theorem C74_ready_after_conflicting_partial (ht : NestingOk cfg) (hN : 0 < N) (hs : cfg.single = true)
    (hr : Reach cfg N true s) {t : Nat} (hi : s.g.ph t = .inited) (hx : ¬ Started s.g t)
    (hnd : (cfg.user t).unique.Nodup)
    (h : ∀ p, p < t → cfg.space p = cfg.space t → (cfg.user p).isSerial (cfg.user t) = true →
      s.g.fl p = .counting ∨ s.g.fl p = .done) : s.g.handed t = 1 :=
  Graph.C14_ready_after_conflicting_partial ht hs (Inv.of ht hN hr).reach hi hx hnd h

/-- C74: a task is not finished before its children. -/
theorem C74_parent_after_children_partial (hw : cfg.WellFormed) (ht : NestingOk cfg) (hN : 0 < N) (hs : cfg.single = true)
    (hr : Reach cfg N true s) {c t : Nat} (hc : c < s.g.n) (hp : cfg.parentOf c = some t) (hf : ¬ Finished cfg s.g c) :
    s.g.fl t = .idle ∧ s.g.frees t = 0 ∧
      ∀ u, t < u → cfg.space t = cfg.space u → (cfg.user t).isSerial (cfg.user u) = true → ¬ Started s.g u :=
  Graph.C19_parent_after_children_partial hw ht hs (Inv.of ht hN hr).reach hc hp hf

/-- C74: `barrier()` returns only after all tasks have finished. -/
theorem C74_barrier_waits_for_all_partial (ht : NestingOk cfg) (hN : 0 < N) (hr : Reach cfg N true s) {sp : Nat}
    (h : s.g.empty sp = true) : ∀ t, t < s.g.n → cfg.space t = sp → Finished cfg s.g t ∧ s.g.fut t = .done :=
  Graph.C21_barrier_waits_for_all_partial ht (Inv.of ht hN hr).reach h

/-- C74: a task found in the list of users has not been released, nor a task whose event is found in a list of
followers. `x` is the slot the iterator points to. -/
theorem C74_found_tasks_alive_partial (ht : NestingOk cfg) (hN : 0 < N) (hr : Reach cfg N true s) :
    (∀ {t i rem r x p}, s.g.ph t = .initing (.scan i rem) → (cfg.res t)[i]? = some r →
      CoL.on ((s.l r).pcs 0) = some x → (s.l r).val x = some p → s.g.mem p ≠ .freed) ∧
    ∀ {p rem x F}, s.g.fl p = .notifying rem → CoL.on ((s.f p).pcs 0) = some x →
      (s.f p).val x = some (code F) → ∀ t, F = .pre t ∨ F = .post t → s.g.mem t ≠ .freed := by
  have hI := Inv.of ht hN hr
  have hi := Graph.Core.reach ht hI.reach
  refine ⟨?_, ?_⟩
  · intro t i rem r x p h h1 h2 h3
    have h4 := hI.scan_head ht h h1 h2 h3
    by_cases hq : cfg.parentOf t = some p
    · have hl := Graph.Life.reach ht hI.reach
      have := hi.scanHead t i _ _ r h4 h1
      have hf := hi.user_fl this.1
      intro hm
      have h1 := hl.memEq p
      have h2 := hl.cdEq p
      have : s.g.fl p = .done := by grind
      simp only [entry] at hf
      rw [this] at hf; cases hf
    · by_cases hc : cfg.space p = cfg.space t ∧ cfg.serial p t = true
      · by_cases h0 : s.g.post p = 0
        · exact Graph.C20_no_use_after_free_partial ht hI.reach (.scanReached h4 h1 hq hc h0) rfl p (by simp [entry])
        · exact Graph.C20_no_use_after_free_partial ht hI.reach (.scanLink h4 hq hc h0) rfl p (by simp [entry])
      · exact Graph.C20_no_use_after_free_partial ht hI.reach (.scanSkip h4 hq hc) rfl p (by simp [entry])
  · intro p rem x F h h1 h2 t hF
    have h4 := (hI.fl p).head h h1 h2
    rcases hF with rfl | rfl
    · exact Graph.C20_no_use_after_free_partial ht hI.reach (.notifyPre h4) rfl t (by simp)
    · exact Graph.C20_no_use_after_free_partial ht hI.reach (.notifyPost h4) rfl t (by simp)

/-! ### Examples -/

def doSub (t : Nat) : List Act := .g .submit :: times 15 (.sub t)
def doInit (t : Nat) : List Act := times 40 (.init t)
def doRun (t : Nat) : List Act := [.g (.start t), .g (.ret t)] ++ times 40 (.flush t)

/-- the first two tasks of `flat` (the second one waits for the first one) have been submitted and initialised,
with chunks of two elements -/
def flat2 : List Act := doSub 0 ++ doSub 1 ++ doInit 0 ++ doInit 1

set_option maxRecDepth 100000 in
/-- task 1 was initialised before task 0 has finished, and it is started -/
example : flat.WellFormed ∧ NestingOk flat ∧ flat.space 0 = flat.space 1 ∧ (flat.user 0).isSerial (flat.user 1) = true ∧
    ∃ s1 s2 s, Reach flat 2 true s1 ∧ Steps flat 2 true s1 s2 ∧ Steps flat 2 true s1 s ∧ Submitted s1.g 0 ∧ s1.g.n ≤ 1 ∧
      s2.g.ph 1 = .inited ∧ s2.g.ex 0 = .none ∧ Started s.g 1 := by
  refine ⟨prog_wellFormed _ _ _ _ _, .inl rfl, rfl, by decide +kernel,
    run flat 2 true init (doSub 0),
    run flat 2 true (run flat 2 true init (doSub 0)) (doSub 1 ++ doInit 0 ++ doInit 1),
    run flat 2 true (run flat 2 true init (doSub 0)) (doSub 1 ++ doInit 0 ++ doInit 1 ++ doRun 0 ++ [.g (.start 1)]),
    run_init _, (run_steps _ (run_small _) .refl).1, (run_steps _ (run_small _) .refl).1,
    ⟨by decide +kernel, Graph.isSubmitting_false (by decide +kernel)⟩, by decide +kernel, by decide +kernel,
    by decide +kernel, by unfold Started; decide +kernel⟩

set_option maxRecDepth 100000 in
/-- task 1 is ready when task 0 has notified its followers -/
example : ∃ s, Reach flat 2 true s ∧ s.g.ph 1 = .inited ∧ ¬ Started s.g 1 ∧ (flat.user 1).unique.Nodup ∧ s.g.fl 0 = .done :=
  ⟨run flat 2 true init (flat2 ++ doRun 0), run_init _, by decide +kernel, by unfold Started; decide +kernel,
    by decide +kernel, by decide +kernel⟩

set_option maxRecDepth 100000 in
/-- the body of the parent has returned, the child has been initialised but has not started -/
example : ∃ s, Reach (nest true) 2 true s ∧ 1 < s.g.n ∧ (nest true).parentOf 1 = some 0 ∧ s.g.ex 0 = .ended ∧ s.g.ex 1 = .none :=
  ⟨run (nest true) 2 true init (doSub 0 ++ doInit 0 ++ [.g (.start 0)] ++ doSub 1 ++ doInit 1 ++ [.g (.ret 0)]),
    run_init _, by decide +kernel, rfl, by decide +kernel, by decide +kernel⟩

set_option maxRecDepth 100000 in
/-- a task has been submitted, has finished, and its future has been dropped -/
example : ∃ s, Reach flat 2 true s ∧ s.g.n = 1 ∧ s.g.empty 0 = true :=
  ⟨run flat 2 true init (doSub 0 ++ doInit 0 ++ doRun 0 ++ times 2 (.g (.take 0)) ++ times 2 (.g (.free 0))),
    run_init _, by decide +kernel, by decide +kernel⟩

set_option maxRecDepth 100000 in
/-- the initialisation of task 1 has found task 0 in the list of users; task 0 has found its follower -/
example :
    (∃ s rem x, Reach flat 2 true s ∧ s.g.ph 1 = .initing (.scan 0 rem) ∧ (flat.res 1)[0]? = some rA ∧
      CoL.on ((s.l rA).pcs 0) = some x ∧ (s.l rA).val x = some 0) ∧
    ∃ s rem x, Reach flat 2 true s ∧ s.g.fl 0 = .notifying rem ∧ CoL.on ((s.f 0).pcs 0) = some x ∧
      (s.f 0).val x = some (code (.pre 1)) := by
  refine ⟨⟨run flat 2 true init (doSub 0 ++ doSub 1 ++ doInit 0 ++ times 7 (.init 1)), [(0, 0)], (0, 0), run_init _, ?_⟩,
    run flat 2 true init (flat2 ++ [.g (.start 0), .g (.ret 0)] ++ times 8 (.flush 0)), [.pre 1], (0, 0), run_init _, ?_⟩
  · decide +kernel
  · decide +kernel

/-! ### Several threads register tasks with a resource -/

/-- a task, its child (task 2) and further tasks in the root space; all of them write the same resource -/
def lost : Cfg :=
  prog (fun _ => [(rA, .write)]) (fun t => if t = 2 then 1 else 0) (fun sp => if sp = 1 then some 0 else none) true true

/-- Task 0 runs. Its body submits task 2, which is executed, while another thread is inside of the submission of task 1:
a slot has been reserved, but the pointer has not been stored. When task 2 is removed from the list, the iteration
offset of its slot is computed from the one of the reserved slot, so that task 1 is never found. -/
def lostRun1 : List Act :=
  doSub 0 ++ doInit 0 ++ [.g (.start 0)] ++ .g .submit :: times 4 (.sub 1) ++
    doSub 2 ++ doInit 2 ++ doRun 2 ++ times 15 (.sub 1)

/-- The next task is submitted, both are initialised and started when task 0 has finished. -/
def lostRun2 : List Act :=
  doInit 1 ++ doSub 3 ++ doInit 3 ++ [.g (.ret 0)] ++ times 40 (.flush 0) ++ [.g (.start 1), .g (.start 3)]

set_option maxRecDepth 100000 in
/-- C74: if tasks are registered with a resource by two threads at the same time, two conflicting tasks of the same space
run at the same time, although one of them was submitted after the submission of the other one had returned. One thread
at a time submits to each space, and the body of the parent returns after its child has been initialised. -/
theorem C74_conflicting_tasks_run_together_false :
    ∃ cfg N s1 s, cfg.WellFormed ∧ NestingOk cfg ∧ cfg.single = true ∧ 0 < N ∧ Reach cfg N false s1 ∧
      Steps cfg N false s1 s ∧ Submitted s1.g 1 ∧ s1.g.n ≤ 3 ∧ cfg.space 1 = cfg.space 3 ∧
      (cfg.user 1).isSerial (cfg.user 3) = true ∧ s.g.ex 1 = .running ∧ s.g.ex 3 = .running ∧ s.g.fault = false := by
  refine ⟨lost, 8, run lost 8 false init lostRun1, run lost 8 false (run lost 8 false init lostRun1) lostRun2,
    prog_wellFormed _ _ _ _ _, .inl rfl, rfl, by decide, run_init _, (run_steps _ (run_small _) .refl).1,
    ⟨by decide +kernel, Graph.isSubmitting_false (by decide +kernel)⟩, by decide +kernel, rfl, by decide +kernel,
    by decide +kernel, by decide +kernel, by decide +kernel⟩

end RG.GList
