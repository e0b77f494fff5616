import Verif.Model.Counter
/-
Property C25: the counters of unfinished predecessors and children.
-/
namespace RG.Counter

/-- The number of things that an event really waits for, after a history (`none` if more was finished
than was added); it begins with 1, the event's own. -/
def pending (l : List Op) : Option Nat :=
  l.foldl (fun k o => match k, o with
    | none, _ => none
    | some k, .add => some (k + 1)
    | some 0, .done => none
    | some (k + 1), .done => some k) (some 1)

theorem pending_append (l : List Op) (o : Op) : pending (l ++ [o]) =
    match pending l, o with
    | none, _ => none
    | some k, .add => some (k + 1)
    | some 0, .done => none
    | some (k + 1), .done => some k := by
  simp only [pending, List.foldl_append, List.foldl_cons, List.foldl_nil]

theorem one_toNat : (1 : Cnt).toNat = 1 := rfl
theorem zero_toNat : (0 : Cnt).toNat = 0 := rfl

/-- C25 (partial): whatever the history, the counter is the real number modulo 65536. -/
theorem C25_counter_modulo_partial (l : List Op) (k : Nat) (h : pending l = some k) :
    (run l).toNat = k % 65536 := by
  have key : ∀ (r : List Op) (k : Nat), pending r.reverse = some k → (run r.reverse).toNat = k % 65536 := by
    intro r
    induction r with
    | nil =>
      intro k h
      cases h
      rfl
    | cons o r ih =>
      intro k h
      rw [List.reverse_cons] at h ⊢
      rw [pending_append] at h
      have hrun : run (r.reverse ++ [o]) = apply (run r.reverse) o := by
        simp [run, List.foldl_append]
      rw [hrun]
      cases hp : pending r.reverse with
      | none => rw [hp] at h; cases o <;> cases h
      | some m =>
        rw [hp] at h
        have hm := ih m hp
        cases o with
        | add =>
          cases h
          simp only [apply, up, BitVec.toNat_add, hm, one_toNat]
          omega
        | done =>
          cases m with
          | zero => cases h
          | succ m =>
            cases h
            simp only [apply, down, BitVec.toNat_sub, hm, one_toNat]
            omega
  have := key l.reverse k (by rw [List.reverse_reverse]; exact h)
  rwa [List.reverse_reverse] at this

/-- C25 (partial): as long as there are less than 65536 of them, the event is reached exactly if nothing
is left, ready exactly if only its own is left; a notification activates the task, or finishes the
event, exactly if it is the last but one, or the last. -/
theorem C25_exact_below_65536_partial (l : List Op) (k : Nat) (h : pending l = some k) (hk : k < 65536) :
    (reached (run l) = true ↔ k = 0) ∧ (ready (run l) = true ↔ k = 1) ∧
      (activates (run l) = true ↔ k = 2) ∧ (reaches (run l) = true ↔ k = 1) := by
  have hm := C25_counter_modulo_partial l k h
  rw [Nat.mod_eq_of_lt hk] at hm
  refine ⟨?_, ?_, ?_, ?_⟩
  · rw [reached, beq_iff_eq, ← BitVec.toNat_inj, hm]; rfl
  · rw [ready, beq_iff_eq, ← BitVec.toNat_inj, hm]; rfl
  · simp only [activates, newState, hm, beq_iff_eq]; omega
  · simp only [reaches, newState, hm, beq_iff_eq]; omega

/-- two predecessors are added and the first one is done -/
example : pending [.add, .add, .done] = some 2 ∧ activates (run [.add, .add, .done]) = true := by decide

theorem pending_adds (n : Nat) : pending (List.replicate n .add) = some (n + 1) := by
  induction n with
  | zero => rfl
  | succ n ih => rw [List.replicate_succ', pending_append, ih]

/-- C25 is false: for every number of predecessors that is one less than a multiple of 65536 the event
counts as reached although none of them is done, and for a multiple it counts as ready. -/
theorem C25_wraps_around_false (m : Nat) :
    pending (List.replicate (65536 * m + 65535) .add) = some (65536 * (m + 1)) ∧
      reached (run (List.replicate (65536 * m + 65535) .add)) = true ∧
      pending (List.replicate (65536 * (m + 1)) .add) = some (65536 * (m + 1) + 1) ∧
      ready (run (List.replicate (65536 * (m + 1)) .add)) = true := by
  have h1 := pending_adds (65536 * m + 65535)
  have h2 := pending_adds (65536 * (m + 1))
  have e1 : 65536 * m + 65535 + 1 = 65536 * (m + 1) := by omega
  refine ⟨h1.trans (by rw [e1]), ?_, h2, ?_⟩
  · rw [reached, beq_iff_eq, ← BitVec.toNat_inj, C25_counter_modulo_partial _ _ h1]
    rw [zero_toNat]
    omega
  · rw [ready, beq_iff_eq, ← BitVec.toNat_inj, C25_counter_modulo_partial _ _ h2]
    rw [one_toNat]
    omega

/-- C25 is false: a task with 65537 unfinished predecessors (all counted, and the event's own) is activated
by the notification of the first one of them. -/
theorem C25_activated_too_early_false :
    pending (List.replicate 65537 .add) = some 65538 ∧ activates (run (List.replicate 65537 .add)) = true := by
  refine ⟨pending_adds _, ?_⟩
  simp only [activates, newState, C25_counter_modulo_partial _ _ (pending_adds 65537)]
  decide

end RG.Counter
