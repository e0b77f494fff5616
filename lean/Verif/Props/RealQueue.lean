import Verif.Lemmas.RealQueue4
import Verif.Props.TaskQueue
/-
Property C89: with the real queues, a worker goes to sleep beside a task only if another worker has looked into the same queue at the same time.
-/
set_option linter.unusedVariables false
namespace RG.RQ

variable {B C n : Nat} {s s' : State}

/-- something has been pushed into the queue `k` of worker `w` that no `pop` has taken -/
def Waits (s : State) (w : Nat) (k : Bool) : Prop := ∃ p, ((s.qs w k).q.subs p).head < ((s.qs w k).q.subs p).tail

/-- somebody is about to wake worker `w` -/
def WillWake (s : State) (w : Nat) : Prop :=
  ∃ j, s.ps j = .mark w ∨ s.ps j = .pushed w ∨ (s.cv w).ns j = .cas ∨ (s.cv w).ns j = .lockM ∨ (s.cv w).ns j = .notifyAll

theorem sleeps_beside (hB : 2 ≤ B) (hC : 0 < C) (h : Reach B C n s) {w : Nat} {k : Bool} (hw : (s.cv w).ws 0 = .asleep) (hs : s.sure w k ∨ n = 1)
    (ht : Waits s w k) : WillWake s w := by
  have hi := h.inv hB hC
  have hne : (s.cv w).ws 0 ≠ .out := by rw [hw]; decide
  rcases hi.sure w k hs (by rw [hi.inCv w hne]; exact hne) with h1 | h1
  · rcases h1 with h1 | ⟨j, h1 | h1 | h1⟩
    · obtain ⟨⟨j, hj⟩, _⟩ := Cv.C38_blocked_waiter_will_be_woken (hi.cvr w) h1 hw
      exact ⟨j, .inr (.inr (.inr hj))⟩
    · exact ⟨j, .inl h1⟩
    · exact ⟨j, .inr (.inl h1)⟩
    · exact ⟨j, .inr (.inr (.inl h1))⟩
  · obtain ⟨p, hp⟩ := ht
    have := h1 p
    unfold E at this
    omega

/-- Partial: a worker that sleeps although there is a task in one of its queues is about to be woken, if nobody else was inside `pop` of this queue while the worker last found it empty.
Missing: without this condition it is false (`C89_no_stranded_task_false`). -/
theorem C89_no_stranded_task_partial (hB : 2 ≤ B) (hC : 0 < C) (h : Reach B C n s) {w : Nat} {k : Bool} (hw : (s.cv w).ws 0 = .asleep) (hs : s.sure w k)
    (ht : Waits s w k) : WillWake s w := sleeps_beside hB hC h hw (.inl hs) ht

/-- With one worker there is no condition. -/
theorem C89_single_worker_no_stranded_task (hB : 2 ≤ B) (hC : 0 < C) (h : Reach B C 1 s) {w : Nat} {k : Bool} (hw : (s.cv w).ws 0 = .asleep)
    (ht : Waits s w k) : WillWake s w := sleeps_beside hB hC h hw (.inr rfl) ht

/-- With one worker: when it sleeps and all calls of `emplace_task` and `activate_task` have returned, then everything that has been pushed into its queues, by any thread, has been taken out, every task once. -/
theorem C89_single_worker_all_taken (hB : 2 ≤ B) (hC : 0 < C) (h : Reach B C 1 s) (hw : (s.cv 0).ws 0 = .asleep) (hq : ∀ j, s.ps j = .out) (k : Bool) (p : Nat) :
    (((s.qs 0 k).q.subs p).outs.map Prod.snd).Perm ((s.qs 0 k).q.subs p).ins := by
  have hi := h.inv hB hC
  have hqi := ((hi.qw 0 k).reach.inv hB hC)
  have hpc := hi.inCv 0 (by rw [hw]; decide)
  have hout : ∀ c, ((s.qs 0 k).q.subs p).cons c = .out := by
    intro c
    by_contra h1
    have h2 := (hi.qw 0 k).link p c h1
    have h3 : (s.qs 0 k).con c ≠ .out := by intro h3; rw [h3] at h2; cases h2
    have h4 := hi.con 0 k c h3
    have : c = 0 := by omega
    subst this
    rw [hpc] at h4
    cases h4.1
  have hno : ¬WillWake s 0 := by
    rintro ⟨j, hj⟩
    have hns : (s.cv 0).ns j = .out := hi.nsOut (by rw [hq]; simp)
    rw [hq, hns] at hj
    simp at hj
  have he : ((s.qs 0 k).q.subs p).head = ((s.qs 0 k).q.subs p).tail := by
    have h1 := (hqi.t p).head_le
    by_contra h2
    exact hno (C89_single_worker_no_stranded_task hB hC h (k := k) hw ⟨p, by omega⟩)
  have h1 := MQ.outs_perm (hqi.b p) (hqi.k p) (hqi.t p) hout
  rw [he, ← (hqi.b p).len, List.take_length] at h1
  exact h1.2

/-- The worker sleeps, a task has been pushed, `wake()` not called yet. -/
def asleepRun : List Act := [.w 6 0, .j 10 0 false 7]

example : ∃ s, Reach 32 32 2 s ∧ (s.cv 0).ws 0 = .asleep ∧ s.sure 0 false ∧ Waits s 0 false := by
  obtain ⟨s, hs⟩ : ∃ s, run 32 2 asleepRun (State.init 32) = some s := Option.isSome_iff_exists.1 (by decide +kernel)
  have h1 : ((run 32 2 asleepRun (State.init 32)).map fun s => ((s.cv 0).ws 0, decide (((s.qs 0 false).q.subs 0).head < ((s.qs 0 false).q.subs 0).tail))) =
    some (.asleep, true) := by decide +kernel
  have h2 : ((run 32 2 asleepRun (State.init 32)).map fun s => s.sure 0 false) = some True := rfl
  rw [hs] at h1 h2
  simp only [Option.map_some, Option.some.injEq, Prod.mk.injEq, decide_eq_true_eq] at h1 h2
  exact ⟨s, (run_ok hs (State.init_ok 32 32 2)).1, h1.1, by rw [h2]; trivial, 0, h1.2⟩

example : ∃ s, Reach 32 32 1 s ∧ (s.cv 0).ws 0 = .asleep ∧ Waits s 0 false := by
  obtain ⟨s, hs⟩ : ∃ s, run 32 1 asleepRun (State.init 32) = some s := Option.isSome_iff_exists.1 (by decide +kernel)
  have h1 : ((run 32 1 asleepRun (State.init 32)).map fun s => ((s.cv 0).ws 0, decide (((s.qs 0 false).q.subs 0).head < ((s.qs 0 false).q.subs 0).tail))) =
    some (.asleep, true) := by decide +kernel
  rw [hs] at h1
  simp only [Option.map_some, Option.some.injEq, Prod.mk.injEq, decide_eq_true_eq] at h1
  exact ⟨s, (run_ok hs (State.init_ok 32 32 1)).1, h1.1, 0, h1.2⟩

/-- Two tasks are emplaced and executed, then the worker sleeps. -/
def servedRun : List Act := [.j 16 0 false 7, .w 28 0, .j 9 0 false 8, .w 24 0, .w 38 0]

example : ∃ s, Reach 32 32 1 s ∧ (s.cv 0).ws 0 = .asleep ∧ (∀ j, s.ps j = .out) ∧ ((s.qs 0 false).q.subs 0).ins = [7, 8] := by
  obtain ⟨s, hs⟩ : ∃ s, run 32 1 servedRun (State.init 32) = some s := Option.isSome_iff_exists.1 (by decide +kernel)
  have h1 : ((run 32 1 servedRun (State.init 32)).map fun s => ((s.cv 0).ws 0, s.ps 0, ((s.qs 0 false).q.subs 0).ins)) =
    some (.asleep, .out, [7, 8]) := by decide +kernel
  rw [hs] at h1
  simp only [Option.map_some, Option.some.injEq, Prod.mk.injEq] at h1
  have h2 := run_ok hs (State.init_ok 32 32 1)
  exact ⟨s, h2.1, h1.1, fun j => if e : j = 0 then by rw [e]; exact h1.2.1 else h2.2 j e, h1.2.2⟩

/-- No `pop` of any worker - neither of the worker itself nor of one that steals - returns a task twice or one that was not pushed. -/
theorem C89_taken_at_most_once (hB : 2 ≤ B) (hC : 0 < C) (h : Reach B C n s) (w : Nat) (k : Bool) (p : Nat) :
    (((s.qs w k).q.subs p).outs.map Prod.snd).Subperm ((s.qs w k).q.subs p).ins :=
  MQ.C88_returned_at_most_once hB hC ((h.inv hB hC).qw w k).reach p

/-! ### two workers -/

/-- Steps of the workers, wake-ups without reason, and calls under way; nobody begins to push or to wake. -/
inductive Undisturbed (B n : Nat) : State → State → Prop
  | refl {a : State} : Undisturbed B n a a
  | worker {a b c : State} (w : Nat) (hw : w < n) : Undisturbed B n a b → WStep B n w b c → Undisturbed B n a c
  | spurious {a b c : State} (w : Nat) : Undisturbed B n a b → Spurious w b c → Undisturbed B n a c
  | producer {a b c : State} (j : Nat) : Undisturbed B n a b → PStep B j b c → Undisturbed B n a c

/-- The worker has been told to wait. -/
def Stuck (s : State) (w : Nat) : Prop := s.pc w = .waiting ∧ (s.cv w).flag = true ∧ ((s.cv w).ws 0 = .asleep ∨ (s.cv w).ws 0 = .waking ∨ (s.cv w).ws 0 = .pred)

theorem stuck_forever (h : ∀ w, w < n → Stuck s w) (hp : ∀ j, s.ps j = .out) (ha : Undisturbed B n s s') :
    s'.qs = s.qs ∧ s'.ps = s.ps ∧ ∀ w, w < n → Stuck s' w := by
  induction ha with
  | refl => exact ⟨rfl, rfl, h⟩
  | @worker s1 s2 w hw _ hs ih =>
    obtain ⟨h1, h2, h3⟩ := ih
    obtain ⟨a, b, c⟩ := h3 w hw
    cases hs with
    | @wait cv' hc =>
      refine ⟨h1, h2, fun w' hw' => ?_⟩
      by_cases e : w' = w
      · subst e
        refine ⟨a, ?_⟩
        simp only [upd_same]
        cases hc <;> simp_all
      · have := h3 w' hw'
        unfold Stuck at *
        simp only [upd_ne _ _ e]
        exact this
    | woken _ hc => rw [hc] at c; simp at c
    | pop h4 => rw [a] at h4; cases h4
    | avail1 h4 | enter h4 | popReady h4 | noReady h4 | popNew h4 | noNew h4 | initReady h4 | initBlocked h4 | avail2 h4 | probe h4 | probeNot h4 | probed h4
      | stolen h4 | notStolen h4 | own h4 | notOwn h4 | stolenReady h4 | stolenBlocked h4 | busy1 h4 | busy2 h4 | executed h4 => rw [a] at h4; cases h4
  | @spurious s1 s2 w _ hs ih =>
    obtain ⟨h1, h2, h3⟩ := ih
    cases hs with
    | mk hc =>
      refine ⟨h1, h2, fun w' hw' => ?_⟩
      have h4 := h3 w' hw'
      unfold Stuck at *
      by_cases e : w' = w
      · subst e
        simp only [upd_same]
        cases hc
        simp_all
      · simp only [upd_ne _ _ e]
        exact h4
  | @producer s1 s2 j _ hs ih =>
    obtain ⟨h1, h2, h3⟩ := ih
    have hj : s1.ps j = .out := by rw [h2]; exact hp j
    cases hs with
    | push h4 | pushed h4 | mark h4 | wake h4 | notify h4 | wakeDone h4 => rw [hj] at h4; cases h4

/-- Two workers W (0) and B (1), one thread that emplaces tasks. -/
def strandedRun : List Act := [
  .j 16 0 false 7, .w 28 0, -- W executes 7
  .j 16 1 false 8, .w 28 1, -- B executes 8
  .w 19 1, -- B has finished and is about to look for a new task at other workers
  .j 9 0 false 9,
  .w 8 1, -- B has passed the first test (cq.h:2556)
  .w 24 0, -- W executes 9
  .w 2 1, -- B has not passed the second test, before it increments `dequeueOvercommit` (cq.h:2614)
  .w 42 0, -- W finds nothing and sleeps
  .j 9 0 false 10, -- 10 is pushed and W woken
  .w 34 0, -- W does not find it and sleeps
  .w 19 1] -- B goes on; W is not BUSY any more; B sleeps

/-- False in general: with two workers, a task can remain in the queue of a worker while all workers sleep and nobody is going to wake them.
B looks for tasks to steal in the queue of W and is delayed between the increments of `dequeueOptimisticCount` and `dequeueOvercommit`; meanwhile the task 10 is pushed, W is woken, and its `pop` fails.
Whatever happens then - other than that another task is emplaced or activated, or the worker is woken for another reason - nobody takes the task: `barrier()` does not return. -/
theorem C89_no_stranded_task_false :
    ∃ s, Reach 32 32 2 s ∧ (∀ w, w < 2 → (s.cv w).ws 0 = .asleep) ∧ (∀ j, s.ps j = .out) ∧ Waits s 0 false ∧
      ((s.qs 0 false).q.subs 0).ins = [7, 9, 10] ∧ ((s.qs 0 false).q.subs 0).outs.map Prod.snd = [7, 9] ∧
      ∀ s', Undisturbed 32 2 s s' → s'.qs = s.qs ∧ ∀ w, w < 2 → s'.pc w = .waiting := by
  obtain ⟨s, hs⟩ : ∃ s, run 32 2 strandedRun (State.init 32) = some s := Option.isSome_iff_exists.1 (by decide +kernel)
  have h1 : ((run 32 2 strandedRun (State.init 32)).map fun s => ((s.cv 0).ws 0, (s.cv 1).ws 0, (s.cv 0).flag, (s.cv 1).flag, s.ps 0)) =
    some (.asleep, .asleep, true, true, .out) := by decide +kernel
  have h2 : ((run 32 2 strandedRun (State.init 32)).map fun s => (((s.qs 0 false).q.subs 0).ins, ((s.qs 0 false).q.subs 0).outs.map Prod.snd,
    decide (((s.qs 0 false).q.subs 0).head < ((s.qs 0 false).q.subs 0).tail))) = some ([7, 9, 10], [7, 9], true) := by decide +kernel
  rw [hs] at h1 h2
  simp only [Option.map_some, Option.some.injEq, Prod.mk.injEq, decide_eq_true_eq] at h1 h2
  obtain ⟨a0, a1, f0, f1, p0⟩ := h1
  obtain ⟨hr, hp⟩ := run_ok hs (State.init_ok 32 32 2)
  have hi := hr.inv (by omega) (by omega)
  have hps : ∀ j, s.ps j = .out := fun j => if e : j = 0 then by rw [e]; exact p0 else hp j e
  have hst : ∀ w, w < 2 → (s.cv w).ws 0 = .asleep ∧ (s.cv w).flag = true := by
    intro w hw
    have : w = 0 ∨ w = 1 := by omega
    rcases this with e | e <;> subst e
    · exact ⟨a0, f0⟩
    · exact ⟨a1, f1⟩
  refine ⟨s, hr, fun w hw => (hst w hw).1, hps, ⟨0, h2.2.2⟩, h2.1, h2.2.1, fun s' ha => ?_⟩
  have := stuck_forever (fun w hw => ⟨hi.inCv w (by rw [(hst w hw).1]; decide), (hst w hw).2, .inl (hst w hw).1⟩) hps ha
  exact ⟨this.1, fun w hw => (this.2.2 w hw).1⟩

end RG.RQ
