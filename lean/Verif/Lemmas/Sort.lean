/-
Lemmas for C77: a sequence of events can be sorted, if the events that are not in order can be exchanged.
-/
set_option linter.unusedVariables false
namespace RG.Dyn

variable {E M K : Type} [DecidableEq K] {ap : E → M → M → Prop} {key : E → K}

/-- the events happen one after the other -/
inductive Runs (ap : E → M → M → Prop) : List E → M → M → Prop
  | nil {m} : Runs ap [] m m
  | cons {e l m m1 m2} (h : ap e m m1) (h' : Runs ap l m1 m2) : Runs ap (e :: l) m m2

theorem runs_append {l1 l2 : List E} {m m2 : M} :
    Runs ap (l1 ++ l2) m m2 ↔ ∃ m1, Runs ap l1 m m1 ∧ Runs ap l2 m1 m2 := by
  induction l1 generalizing m with
  | nil =>
    constructor
    · intro h; exact ⟨m, .nil, h⟩
    · rintro ⟨m1, h1, h2⟩; cases h1; exact h2
  | cons e l ih =>
    constructor
    · intro h
      cases h with
      | cons h h' =>
        obtain ⟨m1, h1, h2⟩ := ih.1 h'
        exact ⟨m1, .cons h h1, h2⟩
    · rintro ⟨m1, h1, h2⟩
      cases h1 with
      | cons h h' => exact .cons h (ih.2 ⟨m1, h', h2⟩)

theorem runs_concat {l : List E} {e : E} {m m1 m2 : M} (h1 : Runs ap l m m1) (h2 : ap e m1 m2) :
    Runs ap (l ++ [e]) m m2 := runs_append.2 ⟨m1, h1, .cons h2 .nil⟩

/-- two events that happen in this order can be exchanged -/
def Swap (ap : E → M → M → Prop) (e f : E) : Prop :=
  ∀ m m1 m2, ap e m m1 → ap f m1 m2 → ∃ m3, ap f m m3 ∧ ap e m3 m2

/-- an event can be moved to the front -/
theorem move {e : E} {l : List E} (h : ∀ f ∈ l, Swap ap f e) {m m1 m2 : M} (h1 : Runs ap l m m1) (h2 : ap e m1 m2) :
    Runs ap (e :: l) m m2 := by
  induction l generalizing m with
  | nil => cases h1; exact .cons h2 .nil
  | cons f l ih =>
    cases h1 with
    | @cons _ _ _ m' _ hf h1 =>
      have h3 := ih (fun g hg => h g (List.mem_cons_of_mem _ hg)) h1
      cases h3 with
      | cons he h3 =>
        obtain ⟨m3, h4, h5⟩ := h f (List.mem_cons_self ..) _ _ _ hf he
        exact .cons h4 (.cons h5 h3)

/-- the events with one key -/
def block (key : E → K) (tr : List E) (a : K) : List E := tr.filter fun e => decide (key e = a)

/-- the events key by key -/
def sorted (key : E → K) (order : List K) (tr : List E) : List E := order.flatMap (block key tr)

theorem block_concat_same {tr : List E} {e : E} : block key (tr ++ [e]) (key e) = block key tr (key e) ++ [e] := by
  simp [block]

theorem block_concat_ne {tr : List E} {e : E} {a : K} (h : key e ≠ a) : block key (tr ++ [e]) a = block key tr a := by
  simp [block, h]

theorem mem_block {tr : List E} {a : K} {f : E} : f ∈ block key tr a ↔ f ∈ tr ∧ key f = a := by
  simp [block]

theorem sorted_concat_ne {order : List K} {tr : List E} {e : E} (h : key e ∉ order) :
    sorted key order (tr ++ [e]) = sorted key order tr := by
  induction order with
  | nil => rfl
  | cons a l ih =>
    simp only [List.mem_cons, not_or] at h
    have := ih h.2
    simp only [sorted, List.flatMap_cons] at this ⊢
    rw [this, block_concat_ne h.1]

/-- one more event -/
theorem sorted_insert {R : K → K → Prop} {order : List K} (hp : order.Pairwise R)
    (hn : order.Nodup) {tr : List E} {e : E} (he : key e ∈ order)
    (hi : ∀ f ∈ tr, R (key e) (key f) → Swap ap f e) {m m1 m2 : M}
    (h1 : Runs ap (sorted key order tr) m m1) (h2 : ap e m1 m2) :
    Runs ap (sorted key order (tr ++ [e])) m m2 := by
  obtain ⟨l1, l2, rfl⟩ := List.append_of_mem he
  have hn' := List.nodup_append.1 hn
  have hn1 : key e ∉ l1 := fun h => hn'.2.2 _ h _ (List.mem_cons_self ..) rfl
  have hn2 : key e ∉ l2 := (List.nodup_cons.1 hn'.2.1).1
  have hp2 := (List.pairwise_cons.1 (List.pairwise_append.1 hp).2.1).1
  have s1 : ∀ tr, sorted key (l1 ++ key e :: l2) tr =
      sorted key l1 tr ++ (block key tr (key e) ++ sorted key l2 tr) := by
    intro tr
    simp [sorted]
  rw [s1] at h1 ⊢
  rw [sorted_concat_ne hn1, sorted_concat_ne hn2, block_concat_same]
  obtain ⟨n1, h3, h4⟩ := runs_append.1 h1
  obtain ⟨n2, h5, h6⟩ := runs_append.1 h4
  refine runs_append.2 ⟨n1, h3, ?_⟩
  rw [List.append_assoc]
  refine runs_append.2 ⟨n2, h5, ?_⟩
  refine move (fun f hf => ?_) h6 h2
  obtain ⟨a, ha, hfa⟩ := List.mem_flatMap.1 hf
  obtain ⟨hft, rfl⟩ := mem_block.1 hfa
  exact hi f hft (hp2 _ ha)

/-- the events of an execution can be sorted -/
theorem runs_sorted {R : K → K → Prop} {order : List K} (hp : order.Pairwise R)
    (hn : order.Nodup) (l : List E) (tr : List E) (hk : ∀ e ∈ l, key e ∈ order)
    (hi : (tr ++ l).Pairwise fun f e => R (key e) (key f) → Swap ap f e) {m m1 m2 : M}
    (h1 : Runs ap (sorted key order tr) m m1) (h2 : Runs ap l m1 m2) :
    Runs ap (sorted key order (tr ++ l)) m m2 := by
  induction l generalizing tr m1 with
  | nil =>
    cases h2
    rw [List.append_nil]
    exact h1
  | cons e l ih =>
    cases h2 with
    | cons he h2 =>
      have e1 : tr ++ e :: l = (tr ++ [e]) ++ l := by simp
      rw [e1] at hi ⊢
      have hi2 := (List.pairwise_append.1 (List.pairwise_append.1 hi).1).2.2
      exact ih (tr ++ [e]) (fun f hf => hk f (List.mem_cons_of_mem _ hf)) hi
        (sorted_insert hp hn (hk e (List.mem_cons_self ..)) (fun f hf => hi2 f hf e (by simp)) h1 he) h2

end RG.Dyn
