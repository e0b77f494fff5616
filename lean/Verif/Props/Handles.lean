import Verif.Model.Handles
/-
Properties C50 and C51: builders submit their task once, futures release their result once.
-/
set_option linter.unusedSimpArgs false

namespace RG.Handles

/-- number of live builders that hold task `t` -/
def holders (objs : List (Option (Option Nat))) (t : Nat) : Nat := objs.count (some (some t))

theorem count_set {α} [BEq α] [LawfulBEq α] {l : List α} {i : Nat} {a b x : α}
    (h : l[i]? = some a) :
    (l.set i b).count x + (if a == x then 1 else 0) = l.count x + (if b == x then 1 else 0) := by
  induction l generalizing i with
  | nil => simp at h
  | cons y ys ih =>
    cases i with
    | zero =>
      simp only [List.getElem?_cons_zero, Option.some.injEq] at h
      subst h
      simp only [List.set_cons_zero, List.count_cons]
      omega
    | succ i =>
      simp only [List.getElem?_cons_succ] at h
      have := ih h
      simp only [List.set_cons_succ, List.count_cons]
      omega

/-- The books of all builders: each created task is held by exactly one builder or was submitted,
exactly once; tasks not created yet appear nowhere. -/
def BInv (s : BState) : Prop :=
  ∀ t, holders s.objs t + s.submitted.count t = if t < s.created then 1 else 0

theorem binv_step {s s' : BState} {o : BOp} (hi : BInv s) (h : bstep s o = some s') : BInv s' := by
  intro t
  have ht := hi t
  unfold holders at *
  cases o with
  | construct =>
    simp only [bstep, Option.some.injEq] at h
    subst h
    simp only [List.count_append, List.count_cons, List.count_nil, beq_iff_eq,
      Option.some.injEq]
    by_cases h1 : s.created = t
    · subst h1; simp at ht ⊢; omega
    · simp only [h1, if_false]
      have : (t < s.created + 1) ↔ t < s.created := by omega
      simp only [this]; omega
  | move src =>
    simp only [bstep] at h
    split at h
    · rename_i x hx
      cases h
      have := count_set (b := some none) (x := some (some t)) hx
      simp only [List.count_append, List.count_cons, List.count_nil]
      simp only [beq_iff_eq, Option.some.injEq, reduceCtorEq, if_false] at this ⊢
      omega
    · cases h
  | submit b =>
    simp only [bstep] at h
    split at h
    · rename_i x hx
      cases h
      have := count_set (b := some none) (x := some (some t)) hx
      simp only [List.count_append, List.count_cons, List.count_nil]
      simp only [beq_iff_eq, Option.some.injEq, reduceCtorEq, if_false] at this ⊢
      omega
    · cases h
  | destroy b =>
    simp only [bstep] at h
    split at h
    · rename_i x hx
      cases h
      have := count_set (b := none) (x := some (some t)) hx
      simp only [List.count_append, List.count_cons, List.count_nil]
      simp only [beq_iff_eq, Option.some.injEq, reduceCtorEq, if_false] at this ⊢
      omega
    · rename_i hx
      cases h
      have := count_set (b := none) (x := some (some t)) hx
      simp only [beq_iff_eq, Option.some.injEq, reduceCtorEq, if_false] at this ⊢
      omega
    · cases h

theorem binv_run {s s' : BState} {os : List BOp} (hi : BInv s) (h : brun s os = some s') :
    BInv s' := by
  induction os generalizing s with
  | nil => simp only [brun, Option.some.injEq] at h; exact h ▸ hi
  | cons o os ih =>
    simp only [brun] at h
    cases hb : bstep s o with
    | none => rw [hb] at h; cases h
    | some s1 => rw [hb] at h; exact ih (binv_step hi hb) h

/-- C50: whatever is done with builders, once all of them are destroyed every task that was built
has been submitted exactly once (and nothing else was submitted). -/
theorem C50_submitted_exactly_once (os : List BOp) (s : BState)
    (h : brun BState.init os = some s) (hd : ∀ x ∈ s.objs, x = none) (t : Nat) :
    s.submitted.count t = if t < s.created then 1 else 0 := by
  have hi : BInv s := binv_run (by intro t; simp [BState.init, holders]) h
  have h0 : holders s.objs t = 0 := by
    unfold holders
    rw [List.count_eq_zero]
    intro hm
    exact absurd (hd _ hm) (by simp)
  have := hi t
  omega

/-- C50: at no time a task has been submitted twice, and a task that was not submitted yet is held
by exactly one builder (which will submit it). -/
theorem C50_never_lost_never_twice (os : List BOp) (s : BState)
    (h : brun BState.init os = some s) (t : Nat) (ht : t < s.created) :
    (s.submitted.count t = 1 ∧ holders s.objs t = 0) ∨
    (s.submitted.count t = 0 ∧ holders s.objs t = 1) := by
  have hi : BInv s := binv_run (by intro t; simp [BState.init, holders]) h
  have := hi t
  rw [if_pos ht] at this
  omega

/-! concrete case: a builder is moved, the new one submitted; a second one is just dropped -/
def bsample : List BOp :=
  [.construct, .move 0, .construct, .submit 1, .destroy 0, .destroy 2, .destroy 1]

example : brun BState.init bsample = some ⟨[none, none, none], 2, [0, 1]⟩ := by decide
example : brun BState.init [.construct, .move 0] = some ⟨[some none, some (some 0)], 1, []⟩ := by
  decide

/-! ### futures -/

/-- Spec: allowed use of futures: `get` is called at most once per result, i.e. not on a future that
was already read or moved from. -/
def allowed (s : FState) : FOp → Prop
  | .get f => ∀ x, s.objs[f]? = some (some x) → x.taken = false
  | _ => True

/-- Spec: states reached by allowed operations. -/
inductive FRun : FState → Prop
  | init : FRun FState.init
  | step {s s' o} : FRun s → allowed s o → fstep s o = some s' → FRun s'

/-- number of live futures that still owe a notification for task `t` -/
def owing (objs : List (Option Fut)) (t : Nat) : Nat := objs.count (some ⟨t, false⟩)

theorem finv {s : FState} (h : FRun s) :
    ∀ t, owing s.objs t + s.released.count t = if t < s.created then 1 else 0 := by
  induction h with
  | init => intro t; simp [FState.init, owing]
  | @step s s' o _ ha hs ih =>
    intro t
    have ht := ih t
    unfold owing at *
    cases o with
    | construct =>
      simp only [fstep, Option.some.injEq] at hs
      subst hs
      simp only [List.count_append, List.count_cons, List.count_nil, beq_iff_eq,
        Option.some.injEq, Fut.mk.injEq, and_true]
      by_cases h1 : s.created = t
      · subst h1; simp at ht ⊢; omega
      · simp only [h1, if_false]
        have : (t < s.created + 1) ↔ t < s.created := by omega
        simp only [this]; omega
    | move src =>
      simp only [fstep] at hs
      split at hs
      · rename_i x hx
        cases hs
        have := count_set (b := some (⟨x.task, true⟩ : Fut)) (x := some ⟨t, false⟩) hx
        obtain ⟨a, k⟩ := x
        simp only [List.count_append, List.count_cons, List.count_nil]
        cases k <;>
          simp only [beq_iff_eq, Option.some.injEq, Fut.mk.injEq, reduceCtorEq, and_false, and_true,
            Bool.true_eq_false, if_false] at this ⊢ <;> omega
      · cases hs
    | get f =>
      simp only [fstep] at hs
      split at hs
      · rename_i x hx
        cases hs
        have hk := ha x hx
        have := count_set (b := some (⟨x.task, true⟩ : Fut)) (x := some ⟨t, false⟩) hx
        obtain ⟨a, k⟩ := x
        simp only at hk
        subst hk
        simp only [List.count_append, List.count_cons, List.count_nil]
        simp only [beq_iff_eq, Option.some.injEq, Fut.mk.injEq, reduceCtorEq, and_false, and_true,
            Bool.true_eq_false, if_false] at this ⊢
        omega
      · cases hs
    | destroy f =>
      simp only [fstep] at hs
      split at hs
      · rename_i x hx
        cases hs
        have := count_set (b := none) (x := some (⟨t, false⟩ : Fut)) hx
        obtain ⟨a, k⟩ := x
        cases k
        · simp only [Bool.false_eq_true, if_false, List.count_append, List.count_cons,
            List.count_nil]
          simp only [beq_iff_eq, Option.some.injEq, Fut.mk.injEq, reduceCtorEq, and_false, and_true,
            Bool.true_eq_false, if_false] at this ⊢
          omega
        · simp only [beq_iff_eq, Option.some.injEq, Fut.mk.injEq, reduceCtorEq, and_false, and_true,
            Bool.true_eq_false, if_false, if_true] at this ⊢
          omega
      · cases hs

/-- C51: once all futures are destroyed, each task was told exactly once that its result is no
longer needed. -/
theorem C51_released_exactly_once {s : FState} (h : FRun s) (hd : ∀ x ∈ s.objs, x = none)
    (t : Nat) : s.released.count t = if t < s.created then 1 else 0 := by
  have h0 : owing s.objs t = 0 := by
    unfold owing
    rw [List.count_eq_zero]
    intro hm
    exact absurd (hd _ hm) (by simp)
  have := finv h t
  omega

/-- C51: at no time a result is released twice; and it is not released while an unread future for
it exists. -/
theorem C51_not_before_taken {s : FState} (h : FRun s) (t : Nat) :
    s.released.count t ≤ 1 ∧ (some ⟨t, false⟩ ∈ s.objs → s.released.count t = 0) := by
  have := finv h t
  refine ⟨by split at this <;> omega, fun hm => ?_⟩
  have : 0 < owing s.objs t := List.count_pos_iff.2 hm
  split at * <;> omega

/-- The restriction in `FRun` is needed: the code does not guard against reading a future twice;
the second `get` tells the task a second time. -/
theorem C51_reading_twice_releases_twice :
    ∃ s1 s2 s3, fstep FState.init .construct = some s1 ∧ fstep s1 (.get 0) = some s2 ∧
      fstep s2 (.get 0) = some s3 ∧ s3.released.count 0 = 2 :=
  ⟨_, _, _, rfl, rfl, rfl, by decide⟩

/-! ### result hand-over -/

theorem rinv {v : Nat} {s : RState} (h : RReach v s) :
    (s.worker = 0 ∧ s.setState = 1 ∧ s.data = none ∧ s.reader = 0 ∧ s.got = none) ∨
    (s.worker = 1 ∧ s.setState = 1 ∧ s.data = some v ∧ s.reader = 0 ∧ s.got = none) ∨
    (s.worker = 2 ∧ s.setState = 0 ∧
      ((s.data = some v ∧ (s.reader = 0 ∨ s.reader = 1) ∧ s.got = none) ∨
       (s.reader = 2 ∧ s.got = some (some v)))) := by
  induction h with
  | init => left; simp [RState.init]
  | step _ hs ih =>
    cases hs with
    | store h => rcases ih with ih | ih | ih <;> simp_all
    | notify h => rcases ih with ih | ih | ih <;> simp_all
    | notReached h1 h2 => exact ih
    | reached h1 h2 => rcases ih with ih | ih | ⟨a, b, ih | ih⟩ <;> simp_all
    | take h => rcases ih with ih | ih | ⟨a, b, ih | ih⟩ <;> simp_all

/-- C51: `get` returns the value computed by the task body, never the value from before. -/
theorem C51_get_returns_result {v : Nat} {s : RState} (h : RReach v s) (x : Option Nat)
    (hx : s.got = some x) : x = some v ∧ s.worker = 2 := by
  rcases rinv h with ih | ih | ⟨a, b, ih | ih⟩ <;> simp_all

/-! concrete cases -/
example : FRun ⟨[none, none], 1, [0]⟩ :=
  .step (o := .destroy 0) (s := ⟨[some ⟨0, true⟩, none], 1, [0]⟩)
    (.step (o := .destroy 1) (s := ⟨[some ⟨0, true⟩, some ⟨0, true⟩], 1, [0]⟩)
      (.step (o := .get 1) (s := ⟨[some ⟨0, true⟩, some ⟨0, false⟩], 1, []⟩)
        (.step (o := .move 0) (s := ⟨[some ⟨0, false⟩], 1, []⟩)
          (.step (o := .construct) (s := ⟨[], 0, []⟩) .init trivial rfl) trivial rfl)
        (by intro x hx; cases hx; rfl) rfl) trivial rfl) trivial rfl

example : RReach 7 ⟨2, 2, 0, none, some (some 7)⟩ :=
  .step (.step (.step (.step .init (.store rfl)) (.notify rfl)) (.reached rfl rfl)) (.take rfl)

end RG.Handles
