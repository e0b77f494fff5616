import Verif.Model.Placement
/-
C106: workers are spread over the processing units, and memory is near the worker that uses it.
-/
namespace RG.Placement

/-- The worker of the last task that was created, if any. -/
def lastWorker : List Event → Option Nat
  | [] => none
  | .task _ w :: l => some ((lastWorker l).getD w)
  | .block _ :: l => lastWorker l

/-! ### Helpers -/

theorem count_mod (n p : Nat) (hp : p < n) (k : Nat) : ((List.range k).filter fun w => w % n = p).length = k / n + if p < k % n then 1 else 0 := by
  have hn : 0 < n := by omega
  induction k with
  | zero => simp
  | succ k ih =>
    rw [List.range_succ, List.filter_append, List.length_append, ih]
    have hm := Nat.mod_lt k hn
    have hs := Nat.div_add_mod k n
    have hdiv : (k + 1) / n = k / n + (if k % n + 1 = n then 1 else 0) := by
      split
      · rename_i hh
        have : k + 1 = n * (k / n + 1) := by rw [Nat.mul_add]; omega
        rw [this, Nat.mul_div_cancel_left _ hn]
      · have : k + 1 = (k % n + 1) + n * (k / n) := by omega
        rw [this, Nat.add_mul_div_left _ _ hn, Nat.div_eq_of_lt (by omega)]; simp
    have hmod : (k + 1) % n = if k % n + 1 = n then 0 else k % n + 1 := by
      rw [Nat.add_mod]
      rcases Nat.lt_or_ge 1 n with h | h
      · rw [Nat.mod_eq_of_lt h]
        split
        · rename_i hh; rw [hh]; exact Nat.mod_self n
        · exact Nat.mod_eq_of_lt (by omega)
      · have : n = 1 := by omega
        subst this
        simp [Nat.mod_one]
    have hone : ((List.filter (fun w => decide (w % n = p)) [k]).length) = if k % n = p then 1 else 0 := by
      by_cases h : k % n = p <;> simp [h]
    rw [hone, hdiv, hmod]
    split <;> split <;> split <;> (try split) <;> omega

theorem run_blocks (c : Cfg) : ∀ (os : List Op) (t : Thread) (pre post : List Event) (a : Nat), run c t os = pre ++ .block a :: post →
    a = (lastWorker pre).getD (t.arena % c.workers)
  | [], t, pre, post, a, h => by cases pre <;> cases h
  | o :: os, t, pre, post, a, h => by
    cases pre with
    | nil =>
      cases o with
      | emplace => cases h
      | alloc =>
        simp only [run, step, List.nil_append, List.cons.injEq, Event.block.injEq] at h
        exact h.1.symm
    | cons e pre =>
      simp only [run, List.cons_append, List.cons.injEq] at h
      have ih := run_blocks c os _ pre post a h.2
      cases o with
      | alloc =>
        have he : e = .block (allocator c t) := h.1.symm
        subst he
        exact ih
      | emplace =>
        have he : e = .task (allocator c (step c t .emplace).2) (Ctx.emplaceWorker c.workers (step c t .emplace).2.arena) := h.1.symm
        subst he
        rw [ih]
        cases hl : lastWorker pre with
        | none => simp [lastWorker, hl, Ctx.emplaceWorker]
        | some w => simp [lastWorker, hl]

/-! ### Properties -/

/-- C106: The workers are spread evenly over the processing units: the numbers of workers of two units differ by at most one, and as long as there are at least as many
units as workers, no two workers share one. -/
theorem C106_workers_spread (c : Cfg) (p q : Nat) (hp : p < c.pus) (hq : q < c.pus) :
    ((List.range c.workers).filter fun w => workerPu c w = p).length ≤ ((List.range c.workers).filter fun w => workerPu c w = q).length + 1 ∧
    (∀ w, workerPu c w < c.pus) ∧
    (c.workers ≤ c.pus → ∀ v w, v < c.workers → w < c.workers → workerPu c v = workerPu c w → v = w) := by
  refine ⟨?_, fun w => Nat.mod_lt _ (by omega), ?_⟩
  · have a : ((List.range c.workers).filter fun w => workerPu c w = p).length = _ := count_mod c.pus p hp c.workers
    have b : ((List.range c.workers).filter fun w => workerPu c w = q).length = _ := count_mod c.pus q hq c.workers
    rw [a, b]
    split <;> split <;> omega
  · intro h v w hv hw e
    simp only [workerPu] at e
    rwa [Nat.mod_eq_of_lt (by omega), Nat.mod_eq_of_lt (by omega)] at e

/-- C106: Whatever a thread does, the object of every task that it creates is in memory of the processing unit of the worker that gets the task; the worker and the
arena exist. -/
theorem C106_tasks_local (c : Cfg) (hc : 0 < c.workers) (t : Thread) (os : List Op) (a w : Nat) (h : Event.task a w ∈ run c t os) :
    arenaPu c a = workerPu c w ∧ a < c.workers ∧ w < c.workers := by
  induction os generalizing t with
  | nil => cases h
  | cons o os ih =>
    rcases List.mem_cons.mp h with h | h
    · cases o with
      | emplace =>
        simp only [step, Event.task.injEq, allocator, Ctx.emplaceWorker] at h
        rw [h.1, h.2]
        exact ⟨rfl, Nat.mod_lt _ hc, Nat.mod_lt _ hc⟩
      | alloc => cases h
    · exact ih _ h

/-- C106: Other memory is taken from the arena of the worker that got the last task created by this thread, and from the arena the thread began with only as long as
it has not created a task. -/
theorem C106_blocks (c : Cfg) (t : Thread) (os : List Op) (pre post : List Event) (a : Nat) (h : run c t os = pre ++ .block a :: post) :
    a = (lastWorker pre).getD (t.arena % c.workers) := run_blocks c os t pre post a h

/-- C106, the part that holds for other memory: a worker gets it from its own processing unit as long as it has not created a task. Missing: afterwards, see
`C106_blocks_local_false`. -/
theorem C106_blocks_local_partial (c : Cfg) (w : Nat) (hw : w < c.workers) (os : List Op) (pre post : List Event) (a : Nat)
    (h : run c (.worker w) os = pre ++ .block a :: post) (hn : lastWorker pre = none) : arenaPu c a = workerPu c w := by
  have := C106_blocks c _ os pre post a h
  rw [hn] at this
  simp only [Option.getD_none, Thread.worker, Nat.mod_eq_of_lt hw] at this
  rw [this]
  rfl

/-- C106 is false for other memory: `emplace_task` changes `current_arena` and does not restore it. Every worker that does not run on unit 0 gets memory of unit 0
once a task on it has created its first task. -/
theorem C106_blocks_local_false (c : Cfg) (w : Nat) (hw : w < c.workers) (hp : workerPu c w ≠ 0) (k : Nat) :
    ∀ a, Event.block a ∈ run c (.worker w) (.emplace :: List.replicate k .alloc) → arenaPu c a = 0 ∧ arenaPu c a ≠ workerPu c w := by
  have key : ∀ (k : Nat) (a : Nat), Event.block a ∈ run c ⟨0, 1⟩ (List.replicate k .alloc) → a = 0 := by
    intro k
    induction k with
    | zero => intro a h; cases h
    | succ k ih =>
      intro a h
      rw [List.replicate_succ] at h
      rcases List.mem_cons.mp h with h | h
      · simp only [step, allocator, Event.block.injEq, Nat.zero_mod] at h
        exact h
      · exact ih a h
  intro a h
  rcases List.mem_cons.mp h with h | h
  · cases h
  · have e : (step c (.worker w) .emplace).2 = ⟨0, 1⟩ := by
      simp only [step, Ctx.nextArena, Thread.worker]
      congr 1
    rw [e] at h
    have := key k a h
    subst this
    have e0 : arenaPu c 0 = 0 := Nat.zero_mod _
    rw [e0]
    exact ⟨rfl, fun h => hp h.symm⟩

/-! ### Examples -/

example : run ⟨4, 2⟩ (.worker 3) [.alloc, .emplace, .alloc, .emplace, .alloc] = [.block 3, .task 0 0, .block 0, .task 1 1, .block 1] := by decide
example : (run ⟨4, 2⟩ (.main ⟨4, 2⟩) [.alloc, .emplace]) = [.block 1, .task 0 0] := by decide
example : workerPu ⟨4, 2⟩ 3 ≠ 0 ∧ 3 < (⟨4, 2⟩ : Cfg).workers := by decide
example : (List.range 5).map (workerPu ⟨5, 2⟩) = [0, 1, 0, 1, 0] := by decide

end RG.Placement
