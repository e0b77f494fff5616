import Verif.Lemmas.GraphWait
import Verif.Props.Access
import Verif.Props.ResourceUser
/-
Lemmas for C72: how two tasks are related, and how accesses are covered by the accesses of ancestors.
-/
set_option linter.unusedVariables false
namespace RG.Graph

variable {cfg : Cfg}

/-- Two tasks are ancestor and descendant, or they descend from different siblings. -/
theorem related {n : Nat} (hu : Up cfg n) {u : Nat} (hun : u < n) : ∀ t, t < n →
    Descends cfg t u ∨ Descends cfg u t ∨ Left cfg t u ∨ Left cfg u t := by
  intro t
  induction t using Nat.strongRecOn with
  | _ t ih =>
    intro htn
    cases h : cfg.parentOf t with
    | none =>
      obtain ⟨b, h1, h2⟩ := root_exists hu u hun
      rcases Nat.lt_trichotomy t b with h3 | h3 | h3
      · exact .inr (.inr (.inl ⟨t, b, h3, by rw [h, h1], .refl, h2⟩))
      · subst h3; exact .inr (.inl h2)
      · exact .inr (.inr (.inr ⟨b, t, h3, by rw [h, h1], h2, .refl⟩))
    | some q =>
      have hq := hu t q htn h
      rcases ih q hq (by omega) with h1 | h1 | ⟨a, b, h1, h2, h3, h4⟩ | ⟨a, b, h1, h2, h3, h4⟩
      · exact .inl (.child h h1)
      · by_cases e : u = q
        · subst e; exact .inl (.child h .refl)
        · obtain ⟨c, h2, h3⟩ := h1.viaChild e
          rcases Nat.lt_trichotomy t c with h4 | h4 | h4
          · exact .inr (.inr (.inl ⟨t, c, h4, by rw [h, h2], .refl, h3⟩))
          · subst h4; exact .inr (.inl h3)
          · exact .inr (.inr (.inr ⟨c, t, h4, by rw [h, h2], h3, .refl⟩))
      · exact .inr (.inr (.inl ⟨a, b, h1, h2, .child h h3, h4⟩))
      · exact .inr (.inr (.inr ⟨a, b, h1, h2, h3, .child h h4⟩))

/-- an access is covered by an access of an ancestor, if the resource is visible there -/
theorem covered_up {n : Nat} (hu : Up cfg n)
    (hcov : ∀ c q, c < n → cfg.parentOf c = some q → (cfg.user q).isSuperset (cfg.user c) = true)
    {t p : Nat} (h : Descends cfg t p) (htn : t < n) {P : Policy} {r : Res} {x : Acc P}
    (hx : (⟨P, r, x⟩ : RAccess) ∈ (cfg.user t).access)
    (hv : ∀ a, a ≠ t → Descends cfg t a → Descends cfg a p → r.scope.toNat ≤ (cfg.user a).scope.toNat) :
    ∃ x' : Acc P, (⟨P, r, x'⟩ : RAccess) ∈ (cfg.user p).access ∧ Acc.isSuperset P x' x = true := by
  induction h generalizing x with
  | refl => exact ⟨x, hx, C04_superset_refl P x⟩
  | @child c q p hq hd ih =>
    have hcv := (C08_superset_iff _ _).1 (hcov c q htn hq) _ hx
    rcases hcv with h1 | ⟨P', r', x1, y1, h1, h2, h3⟩
    · have h3 := hu c q htn hq
      have := hv q (by omega) (.child hq .refl) hd
      dsimp only at h1
      omega
    · cases h2
      have hlt := hu c q htn hq
      obtain ⟨x2, h4, h5⟩ := ih (by omega) h1 fun a _ h6 h7 =>
        hv a (by have := h6.le hu (by omega); omega) (.child hq h6) h7
      exact ⟨x2, h4, C04_superset_trans P _ _ _ h5 h3⟩

end RG.Graph
