import Verif.Lemmas.Dynamic
import Verif.Lemmas.BodiesExec
/-
Concrete executions of programs whose tasks depend on the data, used for examples and counterexamples.
-/
set_option linter.unusedVariables false
namespace RG.Dyn
open RG.Graph
open RG.Bodies (Runtime Exc)

variable {cfg : Cfg} {R : Runtime} {M : Type} {P : Prog M} {m0 : M} {A : Type}

inductive Act (A : Type)
  /-- a step of the runtime system -/
  | g (a : A)
  | act (i : Nat)
  | join (i : Nat)

def isDone {B : Type} : Pt M B → Bool
  | .done => true
  | _ => false

theorem isDone_iff {B : Type} {p : Pt M B} : isDone p = true ↔ p = .done := by
  cases p <;> simp [isDone]

/-- no task belongs to body `i` -/
def childless (cfg : Cfg) (g : State) (i : Nat) : Bool := (List.range g.n).all fun t => owner cfg t != i

/-- the body is running -/
def isActive (g : State) : Nat → Bool
  | 0 => true
  | t + 1 => decide (g.ex t = .running)

/-- `decl n b` tells whether the body at `b` submits a task with the accesses of task `n` -/
def exec (cfg : Cfg) (P : Prog M) (E : Exc R A) (decl : Nat → P.B → Bool) (x : St R P) : Act A → Option (St R P)
  | .g a => match E.ex x.s a with
    | some s' =>
      if (E.cand x.s a).all fun t => decide ((R.g x.s).ex t ≠ .running) || decide ((R.g s').ex t = .running) ||
          isDone (P.pt (x.loc (t + 1))) then
        if (R.g s').n = (R.g x.s).n then some { x with s := s' }
        else if (R.g s').n = (R.g x.s).n + 1 then
          match P.pt (x.loc (owner cfg (R.g x.s).n)) with
          | .spawn d c b => if decl (R.g x.s).n (x.loc (owner cfg (R.g x.s).n)) then
              some { x with s := s', loc := upd (upd x.loc (owner cfg (R.g x.s).n) b) ((R.g x.s).n + 1) c }
            else none
          | _ => none
        else none
      else none
    | none => none
  | .act i =>
    if isActive (R.g x.s) i = true then
      match P.pt (x.loc i) with
      | .act f => some { x with m := (f x.m).2, loc := upd x.loc i (f x.m).1 }
      | _ => none
    else none
  | .join i =>
    if isActive (R.g x.s) i = true then
      match P.pt (x.loc i) with
      | .join w b =>
        if (List.range (R.g x.s).n).all fun t => owner cfg t != i || !w (rank cfg t) ||
            (decide ((R.g x.s).ex t ≠ .none) && isDone (P.pt (x.loc (t + 1)))) then
          some { x with loc := upd x.loc i b }
        else none
      | _ => none
    else none

theorem active_of {g : State} {i : Nat} (h : isActive g i = true) : Active g i := by
  cases i with
  | zero => trivial
  | succ t => exact of_decide_eq_true (p := g.ex t = .running) h

/-- how a step is computed, if `ok` implies that an action is possible -/
theorem exec_step {E : Exc R A} {decl : Nat → P.B → Bool} {careful : Bool}
    (hd : ∀ n b d c b', decl n b = true → P.pt b = .spawn d c b' → cfg.user n = d)
    {x x' : St R P} {a : Act A} (hx : E.J x.s)
    (hm : ∀ i, a = .act i → careful = true → MayAct cfg P (R.g x.s) x.loc i)
    (h : exec cfg P E decl x a = some x') : Step cfg R P careful x x' ∧ E.J x'.s := by
  cases a with
  | g a =>
    simp only [exec] at h
    cases hs : E.ex x.s a with
    | none => rw [hs] at h; cases h
    | some s' =>
      rw [hs] at h
      simp only at h
      split at h
      · rename_i hal
        have hret : ∀ t, (R.g x.s).ex t = .running → (R.g s').ex t ≠ .running → P.pt (x.loc (t + 1)) = .done := by
          intro t h3 h4
          have := List.all_eq_true.1 hal t (E.ends _ _ _ t hx hs h3 h4)
          rw [← isDone_iff]
          simpa [h3, h4] using this
        obtain ⟨h1, h2⟩ := E.step _ _ _ hx hs
        split at h
        · rename_i hn
          cases h
          exact ⟨.rt h1 hn hret, h2⟩
        · split at h
          · rename_i hn
            cases hp : P.pt (x.loc (owner cfg (R.g x.s).n)) with
            | spawn d c b =>
              rw [hp] at h
              simp only at h
              split at h
              · rename_i hde
                cases h
                exact ⟨.submit h1 hn hret hp (hd _ _ _ _ _ hde hp), h2⟩
              · cases h
            | _ => rw [hp] at h; cases h
          · cases h
      · cases h
  | act i =>
    simp only [exec] at h
    split at h
    · rename_i ha
      cases hp : P.pt (x.loc i) with
      | act f =>
        rw [hp] at h
        cases h
        exact ⟨.act (active_of ha) hp (hm i rfl), hx⟩
      | _ => rw [hp] at h; cases h
    · cases h
  | join i =>
    simp only [exec] at h
    split at h
    · rename_i ha
      cases hp : P.pt (x.loc i) with
      | join w b =>
        rw [hp] at h
        simp only at h
        split at h
        · rename_i hal
          cases h
          refine ⟨.join (active_of ha) hp fun t htn ho hwt => ?_, hx⟩
          have := List.all_eq_true.1 hal t (List.mem_range.2 htn)
          simpa [ho, hwt, isDone_iff] using this
        · cases h
      | _ => rw [hp] at h; cases h
    · cases h

/-- with `careful`, a body acts only as long as it has not submitted tasks -/
def run (cfg : Cfg) (P : Prog M) (E : Exc R A) (decl : Nat → P.B → Bool) (careful : Bool) :
    St R P → List (Act A) → St R P
  | x, [] => x
  | x, a :: as => run cfg P E decl careful
      (if (match a with
        | .act i => !careful || childless cfg (R.g x.s) i
        | _ => true) = true then (exec cfg P E decl x a).getD x else x) as

/-- the beginning -/
def start (R : Runtime) (P : Prog M) (m0 : M) : St R P := ⟨R.init, m0, fun _ => P.main⟩

theorem childless_below {g : State} {i d : Nat} (hu : Up cfg g.n) (h : childless cfg g i = true) (hd : d < g.n) :
    ¬ Below cfg d i := by
  have hc : ∀ t, t < g.n → owner cfg t ≠ i := by
    intro t ht
    simpa using List.all_eq_true.1 h t (List.mem_range.2 ht)
  intro hb
  cases i with
  | zero =>
    obtain ⟨r, h1, h2⟩ := root_exists hu d hd
    have := h2.le hu hd
    exact hc r (by omega) (by rw [owner, h1])
  | succ t =>
    obtain ⟨h1, h2⟩ := hb
    obtain ⟨c, h3, h4⟩ := h2.viaChild h1
    have := h4.le hu hd
    exact hc c (by omega) (by rw [owner, h3])

theorem run_reach {E : Exc R A} {decl : Nat → P.B → Bool} {careful : Bool} (hR : careful = true → Bodies.Sound cfg R)
    (hd : ∀ n b d c b', decl n b = true → P.pt b = .spawn d c b' → cfg.user n = d) {as : List (Act A)} :
    Reach cfg R P careful m0 (run cfg P E decl careful (start R P m0) as) := by
  suffices h : ∀ x, Reach cfg R P careful m0 x → E.J x.s → Reach cfg R P careful m0 (run cfg P E decl careful x as) from
    h _ .init E.init
  induction as with
  | nil => exact fun x h _ => h
  | cons a as ih =>
    intro x h hJ
    simp only [run]
    generalize hc : (match a with
        | .act i => !careful || childless cfg (R.g x.s) i
        | _ => true) = ok
    cases ok with
    | false => simp only [Bool.false_eq_true, if_false]; exact ih x h hJ
    | true =>
      simp only [if_true]
      cases hs : exec cfg P E decl x a with
      | none => simp only [Option.getD_none]; exact ih x h hJ
      | some x' =>
        simp only [Option.getD_some]
        have hm : ∀ i, a = .act i → careful = true → MayAct cfg P (R.g x.s) x.loc i := by
          rintro i rfl hcf d hdn hb
          simp only [hcf, Bool.not_true, Bool.false_or] at hc
          exact absurd hb (childless_below (Up.reach ((hR hcf).reach h.rt)) hc hdn)
        obtain ⟨h1, h2⟩ := exec_step (careful := careful) hd hJ hm hs
        exact ih x' (.step h h1) h2

/-- actions of the runtime system -/
def gs (as : List A) : List (Act A) := as.map .g

end RG.Dyn
