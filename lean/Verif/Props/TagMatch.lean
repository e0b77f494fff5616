import Verif.Model.TagMatch
/-
Properties C47, C55: the tag-matching scheduler. Specification in terms of sets of tag numbers.
-/
namespace RG.Tag

/-- Spec: the tag numbers in a tag set. -/
def Has {n : Nat} (b : BitVec n) (tag : Nat) : Prop := b.getLsbD tag = true

/-- Spec: a registered scheduler supports all required tags. -/
def Supports {n : Nat} (x : Sub n) (required : BitVec n) : Prop :=
  ∀ tag, Has required tag → Has x.supported tag

theorem and_eq_iff {n : Nat} (a r : BitVec n) :
    a &&& r = r ↔ ∀ tag, Has r tag → Has a tag := by
  constructor
  · intro h tag hr
    have := congrArg (fun b => b.getLsbD tag) h
    simp only [BitVec.getLsbD_and] at this
    unfold Has at *
    rw [hr] at this
    simpa using this
  · intro h
    apply BitVec.eq_of_getLsbD_eq
    intro i _
    have := h i
    unfold Has at this
    rw [BitVec.getLsbD_and]
    cases hr : r.getLsbD i
    · simp
    · simp [this hr]

theorem getMatching_some {n : Nat} (m : TagMatch n) (required : BitVec n) (s : Nat) :
    getMatching m required = some s ↔
      ∃ before x after, m = before ++ x :: after ∧ x.s = s ∧ Supports x required ∧
        ∀ y ∈ before, ¬ Supports y required := by
  induction m with
  | nil => simp [getMatching]
  | cons a as ih =>
    rw [getMatching]
    by_cases h : a.supported &&& required = required
    · simp only [h, if_true, Option.some.injEq]
      constructor
      · intro e; exact ⟨[], a, as, rfl, e, (and_eq_iff _ _).1 h, by simp⟩
      · rintro ⟨before, x, after, e, hs, hx, hb⟩
        cases before with
        | nil => simp only [List.nil_append, List.cons.injEq] at e; rw [e.1]; exact hs
        | cons b bs =>
          simp only [List.cons_append, List.cons.injEq] at e
          exact absurd ((and_eq_iff _ _).1 h) (e.1 ▸ hb b (by simp))
    · rw [if_neg h, ih]
      constructor
      · rintro ⟨before, x, after, e, hs, hx, hb⟩
        refine ⟨a :: before, x, after, by simp [e], hs, hx, ?_⟩
        intro y hy
        rcases List.mem_cons.1 hy with rfl | hy
        · exact fun hc => h ((and_eq_iff _ _).2 hc)
        · exact hb y hy
      · rintro ⟨before, x, after, e, hs, hx, hb⟩
        cases before with
        | nil =>
          simp only [List.nil_append, List.cons.injEq] at e
          exact absurd ((and_eq_iff _ _).2 hx) (e.1 ▸ h)
        | cons b bs =>
          simp only [List.cons_append, List.cons.injEq] at e
          exact ⟨bs, x, after, e.2, hs, hx, fun y hy => hb y (by simp [hy])⟩

theorem getMatching_none {n : Nat} (m : TagMatch n) (required : BitVec n) :
    getMatching m required = none ↔ ∀ x ∈ m, ¬ Supports x required := by
  induction m with
  | nil => simp [getMatching]
  | cons a as ih =>
    rw [getMatching]
    by_cases h : a.supported &&& required = required
    · simp only [h, if_true, reduceCtorEq, false_iff]
      intro hc
      exact hc a (by simp) ((and_eq_iff _ _).1 h)
    · rw [if_neg h, ih]
      constructor
      · intro hh x hx
        rcases List.mem_cons.1 hx with rfl | hx
        · exact fun hc => h ((and_eq_iff _ _).2 hc)
        · exact hh x hx
      · intro hh x hx; exact hh x (by simp [hx])

/-- C47: a task goes to the first registered scheduler that supports all of its tags. -/
theorem C47_first_supporting {n : Nat} (m : TagMatch n) (required : BitVec n) (s : Nat) :
    emplace m required = .emplacedAt s ↔
      ∃ before x after, m = before ++ x :: after ∧ x.s = s ∧ Supports x required ∧
        ∀ y ∈ before, ¬ Supports y required := by
  rw [← getMatching_some]
  unfold emplace
  cases getMatching m required <;> simp

/-- C47: an error is reported exactly if no registered scheduler supports all tags. -/
theorem C47_error_iff_none {n : Nat} (m : TagMatch n) (required : BitVec n) :
    emplace m required = .throws ↔ ∀ x ∈ m, ¬ Supports x required := by
  rw [← getMatching_none]
  unfold emplace
  cases getMatching m required <;> simp

/-- C47: activating a task addresses the same scheduler as emplacing it. -/
theorem C47_activate_same {n : Nat} (m : TagMatch n) (required : BitVec n) :
    (∀ s, activate m required = .activatedAt s ↔ emplace m required = .emplacedAt s) ∧
    (activate m required = .throws ↔ emplace m required = .throws) := by
  unfold activate emplace
  cases getMatching m required <;> simp

theorem setTag_some {n : Nat} {b b' : BitVec n} {tag : Nat} (h : setTag b tag = some b') :
    tag < n ∧ ∀ t, Has b' t ↔ (Has b t ∨ t = tag) := by
  unfold setTag at h
  split at h
  · rename_i hlt
    cases h
    refine ⟨hlt, fun t => ?_⟩
    unfold Has
    rw [BitVec.getLsbD_or, BitVec.getLsbD_shiftLeft, BitVec.getLsbD_one]
    simp only [Bool.or_eq_true, Bool.and_eq_true, decide_eq_true_eq, Bool.not_eq_true',
      decide_eq_false_iff_not, Nat.not_lt]
    constructor
    · rintro (h | h)
      · exact .inl h
      · exact .inr (by omega)
    · rintro (h | h)
      · exact .inl h
      · exact .inr (by omega)
  · cases h

theorem foldlM_setTag {n : Nat} (tags : List Nat) (b : BitVec n) :
    (∀ b', tags.foldlM setTag b = some b' →
      (∀ t ∈ tags, t < n) ∧ ∀ t, Has b' t ↔ (Has b t ∨ t ∈ tags)) ∧
    (tags.foldlM setTag b = none → ∃ t ∈ tags, n ≤ t) := by
  induction tags generalizing b with
  | nil => simp
  | cons a as ih =>
    rw [List.foldlM_cons]
    cases h : setTag b a with
    | none =>
      simp only [Option.bind_eq_bind, Option.bind_none, reduceCtorEq, false_implies, implies_true,
        true_and, forall_const]
      refine ⟨a, by simp, ?_⟩
      unfold setTag at h
      split at h
      · cases h
      · omega
    | some c =>
      simp only [Option.bind_eq_bind, Option.bind_some]
      obtain ⟨h1, h2⟩ := setTag_some h
      obtain ⟨i1, i2⟩ := ih c
      constructor
      · intro b' hb
        obtain ⟨j1, j2⟩ := i1 b' hb
        refine ⟨?_, fun t => ?_⟩
        · intro t ht
          rcases List.mem_cons.1 ht with rfl | ht
          · exact h1
          · exact j1 t ht
        · rw [j2, h2, List.mem_cons, or_assoc]
      · intro hn
        obtain ⟨t, ht, hnt⟩ := i2 hn
        exact ⟨t, by simp [ht], hnt⟩

/-- C47: registering a scheduler with a list of tag numbers makes it support exactly these tags
(and puts it behind those already registered); this fails exactly if a number is out of range. -/
theorem C47_registration {n : Nat} (m : TagMatch n) (tags : List Nat) (s : Nat) :
    (∀ m', addList m tags s = some m' →
      ∃ x, m' = m ++ [x] ∧ x.s = s ∧ ∀ t, Has x.supported t ↔ t ∈ tags) ∧
    (addList m tags s = none ↔ ∃ t ∈ tags, n ≤ t) := by
  obtain ⟨h1, h2⟩ := foldlM_setTag tags (0#n)
  constructor
  · intro m' h
    unfold addList tagSet at h
    cases hb : tags.foldlM setTag (0#n) with
    | none => rw [hb] at h; cases h
    | some b =>
      rw [hb] at h
      simp only [Option.map_some, Option.some.injEq] at h
      refine ⟨⟨b, s⟩, h.symm, rfl, fun t => ?_⟩
      rw [(h1 b hb).2]
      simp [Has]
  · unfold addList tagSet
    cases hb : tags.foldlM setTag (0#n) with
    | none => simpa using h2 hb
    | some b =>
      simp only [Option.map_some, reduceCtorEq, false_iff, not_exists, not_and, Nat.not_le]
      exact (h1 b hb).1

/-- C55 is false of the code: called through the scheduler interface, the tag-matching scheduler
does not ask the responsible sub-scheduler for the dependency type but always answers `false`. -/
theorem C55_false_dependency_type_ignored :
    ∃ (m : TagMatch 64) (required : BitVec 64) (sub : Nat → Bool),
      (∃ x ∈ m, Supports x required ∧ sub x.s = true) ∧ m.length = 1 ∧
      virtualDependencyType sub m required = some false := by
  refine ⟨[⟨5#64, 0⟩], 1#64, fun _ => true, ⟨⟨5#64, 0⟩, by simp, ?_, rfl⟩, rfl, rfl⟩
  rw [Supports, ← and_eq_iff]
  decide

/-- C55, the part that holds: the answer through the interface agrees with the responsible
sub-scheduler as long as that one treats dependencies in the default way. Missing: schedulers with
their own notion of dependency (see `C55_false_dependency_type_ignored`). -/
theorem C55_dependency_type_partial {n : Nat} (m : TagMatch n) (required : BitVec n)
    (sub : Nat → Bool) (s : Nat) (hs : emplace m required = .emplacedAt s)
    (hdef : sub s = false) :
    virtualDependencyType sub m required = ownDependencyType sub m required := by
  unfold emplace at hs
  unfold virtualDependencyType ownDependencyType baseDependencyType
  cases h : getMatching m required with
  | none => rw [h] at hs; cases hs
  | some x => rw [h] at hs; cases hs; simp [hdef]

/-! concrete cases -/

/-- two schedulers: number 7 supports tags {0}, number 8 supports tags {0, 3} -/
def sample : TagMatch 64 := [⟨1#64, 7⟩, ⟨9#64, 8⟩]

example : addList (n := 64) [⟨1#64, 7⟩] [0, 3] 8 = some sample := by decide +kernel
example : emplace sample (1#64) = .emplacedAt 7 := by decide
example : emplace sample (8#64) = .emplacedAt 8 := by decide
example : emplace sample (2#64) = .throws := by decide
example : addList (n := 64) [] [64] 0 = none := by decide +kernel
example : emplace sample (8#64) = .emplacedAt 8 ∧ (fun _ : Nat => false) 8 = false := by decide

end RG.Tag
