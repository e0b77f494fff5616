import Verif.Model.Properties
import Verif.Props.ResourceUser
/-
Lemmas for C87.
-/
namespace RG.TaskProps

/-! ### Builders of patches -/

/-- the subobjects refer to their own object -/
def Own {P : Type} (h : List (Option (PBuilder P))) : Prop :=
  ∀ b (o : PBuilder P), h[b]? = some (some o) → o.target = b

theorem Own.append {P : Type} {h : List (Option (PBuilder P))} (ho : Own h) (p : P) : Own (h ++ [some ⟨p, h.length⟩]) := by
  intro b o hb
  by_cases e : b < h.length
  · rw [List.getElem?_append_left e] at hb; exact ho b o hb
  · rw [List.getElem?_append_right (by omega)] at hb
    by_cases e' : b - h.length = 0
    · rw [e'] at hb
      cases hb
      show h.length = b
      omega
    · obtain ⟨n, hn⟩ : ∃ n, b - h.length = n + 1 := ⟨b - h.length - 1, by omega⟩
      rw [hn] at hb
      simp at hb

theorem Own.set {P : Type} {h : List (Option (PBuilder P))} (ho : Own h) (b : Nat) (x : Option (PBuilder P))
    (hx : ∀ o, x = some o → o.target = b) : Own (h.set b x) := by
  intro c o hc
  rw [List.getElem?_set] at hc
  by_cases e : b = c
  · subst e
    by_cases hl : b < h.length
    · simp only [hl, if_true] at hc
      exact hx o (Option.some.inj hc)
    · simp [hl] at hc
  · rw [if_neg e] at hc
    exact ho c o hc

/-! ### Calls of a builder -/

/-- the accesses that a call adds -/
def Call.accesses : Call → List RAccess
  | .resources l => l
  | .addResource a => [a]
  | _ => []

theorem addAccess_foldl (l : List RAccess) (u : User) : (l.foldl User.addAccess u).access = u.access ++ l := by
  induction l generalizing u with
  | nil => simp
  | cons a l ih => rw [List.foldl_cons, ih]; simp [User.addAccess]

theorem addAccess_scope (l : List RAccess) (u : User) : (l.foldl User.addAccess u).scope = u.scope := by
  induction l generalizing u with
  | nil => rfl
  | cons a l ih => rw [List.foldl_cons, ih]; rfl

theorem calls_access (cs : List Call) (p : Props) :
    (cs.foldl Call.apply p).user.access = p.user.access ++ cs.flatMap Call.accesses := by
  induction cs generalizing p with
  | nil => simp
  | cons c cs ih =>
    rw [List.foldl_cons, ih, List.flatMap_cons, ← List.append_assoc]
    congr 1
    cases c <;> simp [Call.apply, Call.accesses, User.resources, User.buildUnique, User.addAccess]

theorem calls_scope (cs : List Call) (p : Props) : (cs.foldl Call.apply p).user.scope = p.user.scope := by
  induction cs generalizing p with
  | nil => rfl
  | cons c cs ih => rw [List.foldl_cons, ih]; cases c <;> rfl

theorem build_access (depth : BitVec 32) (args : List RAccess) (cs : List Call) :
    (build depth args cs).user.access = args ++ cs.flatMap Call.accesses := by
  unfold build
  rw [calls_access]
  simp [Props.start, addAccess_foldl, User.empty]

theorem build_scope (depth : BitVec 32) (args : List RAccess) (cs : List Call) :
    (build depth args cs).user.scope = depth.setWidth 8 := by
  unfold build
  rw [calls_scope]
  simp [Props.start, addAccess_scope, User.empty]

end RG.TaskProps
