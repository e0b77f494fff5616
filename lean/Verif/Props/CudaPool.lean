import Verif.Model.CudaPool
import Mathlib.Data.List.Perm.Subperm
/-
Property C52: the event pool. The specification is the set of events in use, kept by the caller.
-/
namespace RG.Cuda

/-- Spec: executions. `Run p used` means: after some sequence of operations the pool is `p` and the
events handed out and not given back are `used`. Only events in use are given back. -/
inductive Run : Pool → List Nat → Prop
  | init : Run Pool.init []
  | alloc {p used} : Run p used → Run (alloc p).1 ((alloc p).2 :: used)
  | free {p used e} : Run p used → e ∈ used → Run (free p e) (used.erase e)

theorem run_inv {p : Pool} {used : List Nat} (h : Run p used) :
    (p.unused ++ used).Nodup ∧ (∀ e ∈ p.unused ++ used, e < p.created) ∧
      (p.unused ++ used).length = p.created := by
  induction h with
  | init => simp [Pool.init]
  | @alloc p used _ ih =>
    obtain ⟨h1, h2, h3⟩ := ih
    unfold alloc
    cases hu : p.unused with
    | nil =>
      rw [hu] at h1 h2 h3
      simp only [List.nil_append] at h1 h2 h3 ⊢
      refine ⟨List.nodup_cons.2 ⟨fun hc => ?_, h1⟩, ?_, by simp [h3]⟩
      · exact absurd (h2 _ hc) (Nat.lt_irrefl _)
      · intro e he
        rcases List.mem_cons.1 he with rfl | he
        · exact Nat.lt_succ_self _
        · exact Nat.lt_succ_of_lt (h2 e he)
    | cons a as =>
      rw [hu] at h1 h2 h3
      have hp : (as ++ a :: used).Perm (a :: as ++ used) := by
        simp
      exact ⟨hp.nodup_iff.2 h1, fun e he => h2 e (hp.mem_iff.1 he), by rw [hp.length_eq]; exact h3⟩
  | @free p used e _ he ih =>
    obtain ⟨h1, h2, h3⟩ := ih
    have hp : (e :: p.unused ++ used.erase e).Perm (p.unused ++ used) := by
      have := List.perm_cons_erase he
      refine List.Perm.trans ?_ (List.Perm.append_left p.unused this.symm)
      simpa using (List.perm_middle (a := e) (l₁ := p.unused) (l₂ := used.erase e)).symm
    exact ⟨hp.nodup_iff.2 h1, fun x hx => h2 x (hp.mem_iff.1 hx), by
      rw [show (free p e).unused = e :: p.unused from rfl, hp.length_eq]; exact h3⟩

/-- C52: an event that is still in use is not given out again. -/
theorem C52_not_in_use {p : Pool} {used : List Nat} (h : Run p used) : (alloc p).2 ∉ used := by
  have := (run_inv (.alloc h)).1
  exact (List.nodup_cons.1 (List.nodup_append.1 this).2.1).1

/-- C52: a new event is created only if every event created so far is in use. -/
theorem C52_reuse_before_create {p : Pool} {used : List Nat} (h : Run p used)
    (hc : (alloc p).1.created ≠ p.created) : ∀ e, e < p.created → e ∈ used := by
  obtain ⟨h1, h2, h3⟩ := run_inv h
  cases hu : p.unused with
  | cons a as => simp [alloc, hu] at hc
  | nil =>
    rw [hu] at h1 h2 h3
    simp only [List.nil_append] at h1 h2 h3
    intro e he
    -- `used` are `created` many different numbers below `created`
    have hsub : used ⊆ List.range p.created := fun x hx => List.mem_range.2 (h2 x hx)
    have := (List.subperm_of_subset h1 hsub).perm_of_length_le (by simp [h3])
    exact this.mem_iff.2 (List.mem_range.2 he)

/-! concrete case: two events handed out, one given back and handed out again, then a third one -/
example : Run ⟨[], 3⟩ [2, 0, 1] :=
  .alloc (p := ⟨[], 2⟩) (.alloc (p := ⟨[0], 2⟩)
    (.free (p := ⟨[], 2⟩) (used := [1, 0]) (e := 0) (.alloc (.alloc .init)) (by decide)))
example : (alloc ⟨[], 2⟩).1.created ≠ 2 := by decide

end RG.Cuda
