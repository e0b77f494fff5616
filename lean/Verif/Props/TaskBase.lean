import Verif.Model.TaskBase
/-
Property C24: waiting inside a task does not re-run its body.
-/
namespace RG.TB

/-- Spec: total number of failing checks of a body. -/
def fails (w : List Wait) : Nat := (w.map Prod.snd).sum

theorem toNextYield_none {w : List Wait} (h : toNextYield w = none) : fails w = 0 := by
  induction w with
  | nil => rfl
  | cons a as ih =>
    obtain ⟨e, k⟩ := a
    cases k with
    | zero => simpa [fails] using ih (by simpa [toNextYield] using h)
    | succ k => simp [toNextYield] at h

theorem toNextYield_some {w w' : List Wait} {e : Nat} (h : toNextYield w = some (e, w')) :
    fails w = fails w' + 1 ∧ (∃ k, (e, k) ∈ w ∧ 0 < k) := by
  induction w with
  | nil => simp [toNextYield] at h
  | cons a as ih =>
    obtain ⟨e', k⟩ := a
    cases k with
    | zero =>
      obtain ⟨h1, k, h2, h3⟩ := ih (by simpa [toNextYield] using h)
      exact ⟨by simpa [fails] using h1, k, by simp [h2], h3⟩
    | succ k =>
      simp only [toNextYield, Option.some.injEq, Prod.mk.injEq] at h
      obtain ⟨rfl, rfl⟩ := h
      refine ⟨?_, k + 1, by simp, by omega⟩
      simp only [fails, List.map_cons, List.sum_cons]; omega

/-- State of a task with stack switching after `n` activations: either it is still waiting with
`fails (body 0) - n` failing checks to go, or it is finished. -/
theorem ss_inv (body : Nat → List Wait) (n : Nat) :
    let s := activations body true (n + 1)
    s.stackSwitching = true ∧ s.runs = 1 ∧
    ((s.finished = false ∧ s.completed = 0 ∧ s.event.isSome ∧ n < fails (body 0) ∧
        ∃ w, s.cont = some w ∧ fails w + (n + 1) = fails (body 0)) ∨
     (s.finished = true ∧ s.completed = 1 ∧ fails (body 0) ≤ n)) := by
  induction n with
  | zero =>
    simp only [activations, State.init, Bool.false_eq_true, if_false, execute, call, if_true,
      resume]
    cases h : toNextYield (body 0) with
    | none =>
      have := toNextYield_none h
      simp [this]
    | some r =>
      obtain ⟨e, w⟩ := r
      have := (toNextYield_some h).1
      simp; omega
  | succ n ih =>
    obtain ⟨h1, h2, h3⟩ := ih
    rw [activations]
    rcases h3 with ⟨hf, hc, he, hlt, w, hw, hsum⟩ | ⟨hf, hc, hle⟩
    · simp only [hf, Bool.false_eq_true, if_false, execute, call, h1, if_true, hw, resume]
      cases h : toNextYield w with
      | none =>
        have := toNextYield_none h
        simp [h2, hc]; omega
      | some r =>
        obtain ⟨e, w'⟩ := r
        have := (toNextYield_some h).1
        simp [h2, hc]; omega
    · simp only [hf, if_true]
      exact ⟨h1, h2, .inr ⟨trivial, hc, by omega⟩⟩

theorem spin_none_of_no_fail (w : List Wait) (h : fails w = 0) (ev : Option Nat) :
    spin ev w = ev := by
  induction w generalizing ev with
  | nil => rfl
  | cons a as ih =>
    obtain ⟨e, k⟩ := a
    simp only [fails, List.map_cons, List.sum_cons] at h
    have hk : k = 0 := by omega
    rw [spin, if_pos hk]
    exact ih (by unfold fails; omega) ev

theorem spin_isSome (w : List Wait) (ev : Option Nat) (h : ev.isSome ∨ 0 < fails w) :
    (spin ev w).isSome := by
  induction w generalizing ev with
  | nil => rcases h with h | h; · exact h
           · simp [fails] at h
  | cons a as ih =>
    obtain ⟨e, k⟩ := a
    rw [spin]
    apply ih
    split
    · rcases h with h | h
      · exact .inl h
      · right; simp only [fails, List.map_cons, List.sum_cons] at h; unfold fails; omega
    · simp

/-- C24 (the part that holds): if the task was built with stack switching, or if every event it
waits for has been reached when it asks, then the body is executed once, its end is reached once
and the task finishes: after as many activations as there are failing checks, plus one.
Missing: waiting without stack switching for an event that is not reached, where the statement is
false, see `C24_false_without_stack_switching`. -/
theorem C24_body_runs_once_partial (body : Nat → List Wait) (ss : Bool)
    (h : ss = true ∨ fails (body 0) = 0) (n : Nat) (hn : fails (body 0) + 1 ≤ n) :
    let s := activations body ss n
    s.runs = 1 ∧ s.completed = 1 ∧ s.finished = true := by
  obtain ⟨m, rfl⟩ : ∃ m, n = m + 1 := ⟨n - 1, by omega⟩
  by_cases hss : ss = true
  · subst hss
    obtain ⟨_, h2, h3⟩ := ss_inv body m
    rcases h3 with ⟨_, _, _, hlt, _⟩ | ⟨hf, hc, _⟩
    · omega
    · exact ⟨h2, hc, hf⟩
  · have hss : ss = false := by simpa using hss
    have h0 : fails (body 0) = 0 := by rcases h with h | h; · exact absurd h (by simp [hss])
                                       · exact h
    subst hss
    clear hn h
    induction m with
    | zero => simp [activations, execute, call, State.init, spin_none_of_no_fail _ h0]
    | succ m ih => rw [activations]; simp only at ih ⊢; rw [if_pos ih.2.2]; exact ih

/-- C24: with stack switching the body is never executed a second time, at any point of time, and
as long as the task is not finished it is paused. -/
theorem C24_never_reruns_with_stack_switching (body : Nat → List Wait) (n : Nat) :
    (activations body true n).runs ≤ 1 ∧
    ((activations body true (n + 1)).finished = false →
      (activations body true (n + 1)).event.isSome) := by
  constructor
  · cases n with
    | zero => simp [activations, State.init]
    | succ n => exact Nat.le_of_eq (ss_inv body n).2.1
  · intro hf
    rcases (ss_inv body n).2.2 with ⟨_, _, he, _⟩ | ⟨ht, _⟩
    · exact he
    · rw [ht] at hf; cases hf

/-- C24 is false of the code: a task without stack switching that waits for an event which is not
reached at once executes its whole body again at every activation and never finishes. -/
theorem C24_false_without_stack_switching (body : Nat → List Wait) (h : 0 < fails (body 0))
    (n : Nat) :
    (activations body false n).runs = n ∧ (activations body false n).completed = n ∧
      (activations body false n).finished = false := by
  suffices hs : (activations body false n).stackSwitching = false ∧
      (activations body false n).runs = n ∧ (activations body false n).completed = n ∧
      (activations body false n).finished = false ∧
      (0 < n → (activations body false n).event.isSome) from ⟨hs.2.1, hs.2.2.1, hs.2.2.2.1⟩
  induction n with
  | zero => simp [activations, State.init]
  | succ n ih =>
    obtain ⟨h0, h1, h2, h3, h4⟩ := ih
    rw [activations]
    simp only [h3, Bool.false_eq_true, if_false, execute, call, h0, h1, h2]
    have hsome : (spin (activations body false n).event (body n)).isSome := by
      apply spin_isSome
      cases n with
      | zero => exact .inr h
      | succ n => exact .inl (h4 (by omega))
    rw [if_pos hsome]
    exact ⟨rfl, rfl, rfl, rfl, fun _ => hsome⟩

/-! concrete cases: two waits, the first of which finds its event not reached twice -/
def sample : Nat → List Wait := fun _ => [(4, 2), (5, 0)]

example : fails (sample 0) + 1 ≤ 3 := by decide
example : activations sample true 3 = ⟨true, none, some [], 1, 1, true⟩ := by decide
example : (activations sample true 2).finished = false := by decide
example : 0 < fails (sample 0) := by decide
example : fails ((fun _ => [(4, 0)] : Nat → List Wait) 0) = 0 := by decide

end RG.TB
