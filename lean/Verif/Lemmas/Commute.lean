import Verif.Model.Bodies
/-
Lemmas for C76: a sequence of actions of different phases can be sorted, if the actions that are not in the order of
the sequential program are independent.
-/
set_option linter.unusedVariables false
namespace RG.Bodies

variable {M : Type} {next : Nat × Nat → M → Option M}

/-- an action of a phase, or the observation that it is complete -/
inductive Ev
  | act (a : Nat × Nat)
  | stop (a : Nat × Nat)
  deriving DecidableEq

def Ev.key : Ev → Nat × Nat
  | .act a => a
  | .stop a => a

def ap (next : Nat × Nat → M → Option M) : Ev → M → Option M
  | .act a, m => next a m
  | .stop a, m => match next a m with
    | none => some m
    | some _ => none

def runs (next : Nat × Nat → M → Option M) : List Ev → M → Option M
  | [], m => some m
  | e :: l, m => match ap next e m with
    | none => none
    | some m' => runs next l m'

theorem Indep.symm {a b : Nat × Nat} (h : Indep next a b) : Indep next b a :=
  fun m m' => ⟨(h m m').2, (h m m').1⟩

theorem runs_append {l1 l2 : List Ev} {m m2 : M} :
    runs next (l1 ++ l2) m = some m2 ↔ ∃ m1, runs next l1 m = some m1 ∧ runs next l2 m1 = some m2 := by
  induction l1 generalizing m with
  | nil => simp [runs]
  | cons e l ih =>
    simp only [List.cons_append, runs]
    cases h : ap next e m with
    | none => simp
    | some m' => simpa using ih

theorem ap_stop {a : Nat × Nat} {m m' : M} : ap next (.stop a) m = some m' ↔ next a m = none ∧ m' = m := by
  simp only [ap]
  cases h : next a m with
  | none => simp [eq_comm]
  | some _ => simp

theorem swap {e f : Ev} (h : Indep next e.key f.key) {m m1 m2 : M} (h1 : ap next e m = some m1)
    (h2 : ap next f m1 = some m2) : ∃ m3, ap next f m = some m3 ∧ ap next e m3 = some m2 := by
  cases e with
  | act a =>
    obtain ⟨h3, h4⟩ := (h m m1).1 h1
    cases f with
    | act b => exact h4 m2 h2
    | stop b =>
      obtain ⟨h5, rfl⟩ := ap_stop.1 h2
      exact ⟨m, ap_stop.2 ⟨h3.2 h5, rfl⟩, h1⟩
  | stop a =>
    obtain ⟨h3, rfl⟩ := ap_stop.1 h1
    cases f with
    | act b =>
      have h5 := ((h m1 m2).2 h2).1
      exact ⟨m2, h2, ap_stop.2 ⟨h5.1 h3, rfl⟩⟩
    | stop b =>
      obtain ⟨h5, rfl⟩ := ap_stop.1 h2
      exact ⟨m2, h2, h1⟩

/-- an event can be moved to the front of independent ones -/
theorem move {e : Ev} {l : List Ev} (h : ∀ f ∈ l, Indep next f.key e.key) {m m1 m2 : M}
    (h1 : runs next l m = some m1) (h2 : ap next e m1 = some m2) : runs next (e :: l) m = some m2 := by
  induction l generalizing m with
  | nil =>
    simp only [runs, Option.some.injEq] at h1
    subst h1
    simp [runs, h2]
  | cons f l ih =>
    simp only [runs] at h1
    cases hf : ap next f m with
    | none => rw [hf] at h1; cases h1
    | some m' =>
      rw [hf] at h1
      have h3 := ih (fun g hg => h g (List.mem_cons_of_mem _ hg)) h1
      simp only [runs] at h3
      cases he : ap next e m' with
      | none => rw [he] at h3; cases h3
      | some m'' =>
        rw [he] at h3
        obtain ⟨m3, h4, h5⟩ := swap (h f (List.mem_cons_self ..)) hf he
        simp only [runs, h4, h5]
        exact h3

/-- the events of one phase -/
def block (tr : List Ev) (a : Nat × Nat) : List Ev := tr.filter fun e => decide (e.key = a)

/-- the events phase by phase -/
def sorted (order : List (Nat × Nat)) (tr : List Ev) : List Ev := order.flatMap (block tr)

theorem block_concat_same {tr : List Ev} {e : Ev} : block (tr ++ [e]) e.key = block tr e.key ++ [e] := by
  simp [block]

theorem block_concat_ne {tr : List Ev} {e : Ev} {a : Nat × Nat} (h : e.key ≠ a) :
    block (tr ++ [e]) a = block tr a := by
  simp [block, h]

theorem mem_block {tr : List Ev} {a : Nat × Nat} {f : Ev} : f ∈ block tr a ↔ f ∈ tr ∧ f.key = a := by
  simp [block]

theorem sorted_concat_ne {order : List (Nat × Nat)} {tr : List Ev} {e : Ev} (h : e.key ∉ order) :
    sorted order (tr ++ [e]) = sorted order tr := by
  induction order with
  | nil => rfl
  | cons a l ih =>
    simp only [List.mem_cons, not_or] at h
    have := ih h.2
    simp only [sorted, List.flatMap_cons] at this ⊢
    rw [this, block_concat_ne h.1]

/-- one more event -/
theorem sorted_insert {R : Nat × Nat → Nat × Nat → Prop} {order : List (Nat × Nat)} (hp : order.Pairwise R)
    (hn : order.Nodup) {tr : List Ev} {e : Ev} (he : e.key ∈ order)
    (hi : ∀ f ∈ tr, R e.key f.key → Indep next f.key e.key) {m m1 m2 : M}
    (h1 : runs next (sorted order tr) m = some m1) (h2 : ap next e m1 = some m2) :
    runs next (sorted order (tr ++ [e])) m = some m2 := by
  obtain ⟨l1, l2, rfl⟩ := List.append_of_mem he
  have hn' := List.nodup_append.1 hn
  have hn1 : e.key ∉ l1 := fun h => hn'.2.2 _ h _ (List.mem_cons_self ..) rfl
  have hn2 : e.key ∉ l2 := (List.nodup_cons.1 hn'.2.1).1
  have hp2 := (List.pairwise_cons.1 (List.pairwise_append.1 hp).2.1).1
  have s1 : ∀ tr, sorted (l1 ++ e.key :: l2) tr = sorted l1 tr ++ (block tr e.key ++ sorted l2 tr) := by
    intro tr
    simp [sorted]
  rw [s1] at h1 ⊢
  rw [sorted_concat_ne hn1, sorted_concat_ne hn2, block_concat_same]
  obtain ⟨n1, h3, h4⟩ := runs_append.1 h1
  obtain ⟨n2, h5, h6⟩ := runs_append.1 h4
  refine runs_append.2 ⟨n1, h3, ?_⟩
  rw [List.append_assoc]
  refine runs_append.2 ⟨n2, h5, ?_⟩
  refine move (fun f hf => ?_) h6 h2
  obtain ⟨a, ha, hfa⟩ := List.mem_flatMap.1 hf
  obtain ⟨hft, rfl⟩ := mem_block.1 hfa
  exact hi f hft (hp2 _ ha)

/-- the events of an execution can be sorted -/
theorem runs_sorted {R : Nat × Nat → Nat × Nat → Prop} {order : List (Nat × Nat)} (hp : order.Pairwise R)
    (hn : order.Nodup) (l : List Ev) (tr : List Ev) (hk : ∀ e ∈ l, e.key ∈ order)
    (hi : (tr ++ l).Pairwise fun f e => R e.key f.key → Indep next f.key e.key) {m m1 m2 : M}
    (h1 : runs next (sorted order tr) m = some m1) (h2 : runs next l m1 = some m2) :
    runs next (sorted order (tr ++ l)) m = some m2 := by
  induction l generalizing tr m1 with
  | nil =>
    simp only [runs, Option.some.injEq] at h2
    subst h2
    rw [List.append_nil]
    exact h1
  | cons e l ih =>
    simp only [runs] at h2
    cases he : ap next e m1 with
    | none => rw [he] at h2; cases h2
    | some m' =>
      rw [he] at h2
      have e1 : tr ++ e :: l = (tr ++ [e]) ++ l := by simp
      rw [e1] at hi ⊢
      have hi2 := (List.pairwise_append.1 (List.pairwise_append.1 hi).1).2.2
      exact ih (tr ++ [e]) (fun f hf => hk f (List.mem_cons_of_mem _ hf)) hi
        (sorted_insert hp hn (hk e (List.mem_cons_self ..)) (fun f hf => hi2 f hf e (by simp)) h1 he) h2

/-- a complete block is an execution of the phase -/
theorem run_block {a : Nat × Nat} {j : Nat} {m m' : M}
    (h : runs next (List.replicate j (.act a) ++ [.stop a]) m = some m') : Run next a m m' := by
  induction j generalizing m with
  | zero =>
    simp only [List.replicate_zero, List.nil_append, runs] at h
    cases hs : ap next (.stop a) m with
    | none => rw [hs] at h; cases h
    | some m1 =>
      rw [hs] at h
      obtain ⟨h1, rfl⟩ := ap_stop.1 hs
      simp only [Option.some.injEq] at h
      subst h
      exact .done h1
  | succ j ih =>
    simp only [List.replicate_succ, List.cons_append, runs] at h
    cases hs : ap next (.act a) m with
    | none => rw [hs] at h; cases h
    | some m1 => rw [hs] at h; exact .step hs (ih h)

theorem exec_sorted {order : List (Nat × Nat)} {tr : List Ev}
    (hb : ∀ a ∈ order, ∃ j, block tr a = List.replicate j (.act a) ++ [.stop a]) {m m' : M}
    (h : runs next (sorted order tr) m = some m') : Exec next order m m' := by
  induction order generalizing m with
  | nil =>
    simp only [sorted, List.flatMap_nil, runs, Option.some.injEq] at h
    subst h
    exact .nil
  | cons a l ih =>
    have e1 : sorted (a :: l) tr = block tr a ++ sorted l tr := by simp [sorted]
    rw [e1] at h
    obtain ⟨m1, h1, h2⟩ := runs_append.1 h
    obtain ⟨j, hj⟩ := hb a (List.mem_cons_self ..)
    rw [hj] at h1
    exact .cons (run_block h1) (ih (fun b hb' => hb b (List.mem_cons_of_mem _ hb')) h2)

theorem Run.det {a : Nat × Nat} {m m1 m2 : M} (h1 : Run next a m m1) (h2 : Run next a m m2) : m1 = m2 := by
  induction h1 with
  | done h =>
    cases h2 with
    | done => rfl
    | step h' => rw [h] at h'; cases h'
  | step h _ ih =>
    cases h2 with
    | done h' => rw [h] at h'; cases h'
    | step h' h3 => rw [h] at h'; cases h'; exact ih h3

theorem Exec.det {l : List (Nat × Nat)} {m m1 m2 : M} (h1 : Exec next l m m1) (h2 : Exec next l m m2) : m1 = m2 := by
  induction h1 with
  | nil => cases h2; rfl
  | cons h _ ih =>
    cases h2 with
    | cons h' h3 =>
      cases h.det h'
      exact ih h3

end RG.Bodies
