import Verif.Lemmas.Bodies
import Verif.Lemmas.GraphExec
/-
Concrete executions of programs with task bodies, used for examples and counterexamples. The steps of the runtime
system are given by a function.
-/
set_option linter.unusedVariables false
namespace RG.Bodies
open RG.Graph

variable {cfg : Cfg} {R : Runtime} {M : Type} {P : Prog M} {m0 : M} {A : Type}

inductive Act (A : Type)
  /-- a step of the runtime system -/
  | g (a : A)
  | begin (t : Nat)
  | act (t : Nat)
  | stop (t : Nat)

/-- How the steps of the runtime system are computed: `J` is an invariant, `cand` are the tasks whose bodies may end. -/
structure Exc (R : Runtime) (A : Type) where
  ex : R.S → A → Option R.S
  cand : R.S → A → List Nat
  J : R.S → Prop
  init : J R.init
  step : ∀ s a s', J s → ex s a = some s' → R.step s s' ∧ J s'
  ends : ∀ s a s' t, J s → ex s a = some s' → (R.g s).ex t = .running → (R.g s').ex t ≠ .running → t ∈ cand s a

/-- the step of the runtime system is possible for the bodies -/
def allowed (cfg : Cfg) (P : Prog M) (cand : List Nat) (cur : Nat → Nat) (on : Nat → Bool) (g g' : State) : Bool :=
  (cand.all fun t => decide (g.ex t ≠ .running) || decide (g'.ex t = .running) ||
    (cur t == P.len t && !on t)) &&
  (g'.n == g.n || match cfg.parentOf g.n with
    | none => true
    | some q => cur q == P.after g.n && !on q)

/-- `chk t` tells whether the next phase of task `t` may begin -/
def exec (cfg : Cfg) (P : Prog M) (E : Exc R A) (chk : State → Nat → Nat → Bool) (x : St R M) :
    Act A → Option (St R M)
  | .g a => match E.ex x.s a with
    | some s' => if allowed cfg P (E.cand x.s a) x.cur x.on (R.g x.s) (R.g s') then some { x with s := s' } else none
    | none => none
  | .begin t => if (R.g x.s).ex t = .running ∧ x.on t = false ∧ x.cur t < P.len t ∧ chk (R.g x.s) t (x.cur t) = true then
      some { x with on := upd x.on t true } else none
  | .act t => if (R.g x.s).ex t = .running ∧ x.on t = true then
      match P.next (t, x.cur t) x.m with
      | some m' => some { x with m := m' }
      | none => none
    else none
  | .stop t => if (R.g x.s).ex t = .running ∧ x.on t = true then
      match P.next (t, x.cur t) x.m with
      | some m' => none
      | none => some { x with cur := upd x.cur t (x.cur t + 1), on := upd x.on t false }
    else none

theorem exec_step {E : Exc R A} {chk : State → Nat → Nat → Bool}
    (hm : ∀ g t k, chk g t k = true → MayBegin cfg P g t k) {x x' : St R M} {a : Act A} (hx : E.J x.s)
    (h : exec cfg P E chk x a = some x') : Step cfg R P x x' ∧ E.J x'.s := by
  cases a with
  | g a =>
    simp only [exec] at h
    cases hs : E.ex x.s a with
    | none => rw [hs] at h; cases h
    | some s' =>
      rw [hs] at h
      simp only at h
      split at h
      · rename_i hal
        cases h
        simp only [allowed, Bool.and_eq_true, List.all_eq_true] at hal
        obtain ⟨h1, h2⟩ := E.step _ _ _ hx hs
        refine ⟨.rt h1 ?_ ?_, h2⟩
        · intro t h3 h4
          have := hal.1 t (E.ends _ _ _ t hx hs h3 h4)
          simpa [h3, h4] using this
        · intro q h3 h4
          have := hal.2
          rw [h4] at this
          simpa [h3] using this
      · cases h
  | begin t =>
    simp only [exec] at h
    split at h
    · rename_i hh
      cases h
      exact ⟨.begin hh.1 hh.2.1 hh.2.2.1 (hm _ _ _ hh.2.2.2), hx⟩
    · cases h
  | act t =>
    simp only [exec] at h
    split at h
    · rename_i hh
      cases hn : P.next (t, x.cur t) x.m with
      | none => rw [hn] at h; cases h
      | some m' => rw [hn] at h; cases h; exact ⟨.act hh.1 hh.2 hn, hx⟩
    · cases h
  | stop t =>
    simp only [exec] at h
    split at h
    · rename_i hh
      cases hn : P.next (t, x.cur t) x.m with
      | some m' => rw [hn] at h; cases h
      | none => rw [hn] at h; cases h; exact ⟨.stop hh.1 hh.2 hn, hx⟩
    · cases h

def run (cfg : Cfg) (P : Prog M) (E : Exc R A) (chk : State → Nat → Nat → Bool) : St R M → List (Act A) → St R M
  | x, [] => x
  | x, a :: as => run cfg P E chk ((exec cfg P E chk x a).getD x) as

/-- the beginning -/
def start (R : Runtime) (m0 : M) : St R M := ⟨R.init, m0, fun _ => 0, fun _ => false⟩

theorem run_reach {E : Exc R A} {chk : State → Nat → Nat → Bool}
    (hm : ∀ g t k, chk g t k = true → MayBegin cfg P g t k) {as : List (Act A)} :
    Reach cfg R P m0 (run cfg P E chk (start R m0) as) := by
  suffices h : ∀ x, Reach cfg R P m0 x → E.J x.s → Reach cfg R P m0 (run cfg P E chk x as) from h _ .init E.init
  induction as with
  | nil => exact fun x h _ => h
  | cons a as ih =>
    intro x h hJ
    cases hs : exec cfg P E chk x a with
    | none => simp only [run, hs, Option.getD_none]; exact ih x h hJ
    | some x' =>
      obtain ⟨h1, h2⟩ := exec_step hm hJ hs
      simp only [run, hs, Option.getD_some]
      exact ih x' (.step h h1) h2

/-- if the machine implements Model/Graph -/
def Sound.exc (hR : Sound cfg R) (ex : R.S → A → Option R.S)
    (he : ∀ s a s', R.Reach s → ex s a = some s' → R.step s s') : Exc R A where
  ex := ex
  cand s _ := List.range (R.g s).n
  J := R.Reach
  init := .init
  step s a s' h h' := ⟨he s a s' h h', .step h (he s a s' h h')⟩
  ends s a s' t h _ h3 _ := List.mem_range.2 (Nat.lt_of_not_le fun h5 => by
    rw [(Dom.reach (hR.reach h)).ex t h5] at h3
    cases h3)

/-- all actions of the body of task `t`: `k` phases with one action each -/
def doBody (t k : Nat) : List (Act A) := (List.replicate k [.begin t, .act t, .stop t]).flatten

/-- actions of the runtime system -/
def gs (as : List A) : List (Act A) := as.map .g

/-! Model/Graph, with and without waiting for children -/

theorem exec_ends {s s' : State} {a : Graph.Act} {t : Nat} (h : Graph.exec cfg s a = some s')
    (h1 : s.ex t = .running) (h2 : s'.ex t ≠ .running) : a = .ret t := by
  have same : ∀ {s' : State}, s'.ex = s.ex → s'.ex t ≠ .running → False := by
    intro s' e h2
    rw [e] at h2
    exact h2 h1
  cases a with
  | init u =>
    simp only [Graph.exec, Graph.execInit] at h
    repeat' split at h
    all_goals first | (cases h; done) | (cases h; exact (same rfl h2).elim)
  | start u =>
    simp only [Graph.exec] at h
    split at h
    · cases h
      by_cases e : t = u
      · subst e; simp at h2
      · simp only [upd_ne _ _ e] at h2; exact absurd h1 h2
    · cases h
  | ret u =>
    simp only [Graph.exec] at h
    split at h
    · cases h
      by_cases e : t = u
      · rw [e]
      · simp only [State.decPost, upd_ne _ _ e] at h2; exact absurd h1 h2
    · cases h
  | _ =>
    simp only [Graph.exec] at h
    repeat' split at h
    all_goals first | (cases h; done) | (cases h; exact (same rfl h2).elim)

def graphExc (cfg : Cfg) : Exc (graph cfg) Graph.Act :=
  graph_sound.exc (fun s a => Graph.exec cfg s a) fun _ _ _ _ h => Graph.exec_step h

theorem waiting_sound : Sound cfg (waiting cfg) := ⟨rfl, fun _ _ _ h => .inr h.1⟩

/-- no body ends before its children -/
def waits (cfg : Cfg) (s s' : State) : Bool :=
  (List.range s.n).all fun t => decide (s.ex t ≠ .running) || decide (s'.ex t ≠ .ended) ||
    (List.range s.n).all fun c => cfg.parentOf c != some t || decide (s.ex c = .ended)

def waitExec (cfg : Cfg) (s : State) (a : Graph.Act) : Option State :=
  match Graph.exec cfg s a with
  | some s' => if waits cfg s s' then some s' else none
  | none => none

theorem waiting_exec (s : State) (a : Graph.Act) (s' : State) (hs : (waiting cfg).Reach s)
    (h : waitExec cfg s a = some s') : (waiting cfg).step s s' := by
  unfold waitExec at h
  split at h
  · rename_i s1 h1
    split at h
    · rename_i h2
      cases h
      refine ⟨Graph.exec_step h1, fun t c h3 h4 h5 h6 => ?_⟩
      simp only [waits, List.all_eq_true, List.mem_range] at h2
      have h7 : t < s.n := Nat.lt_of_not_le fun h8 => by
        have h9 := (Dom.reach (waiting_sound.reach hs)).ex t h8
        dsimp only [waiting] at h9
        rw [h9] at h3
        cases h3
      have h8 := h2 t h7
      simp only [h3, h4, Bool.or_eq_true, decide_eq_true_eq, ne_eq, not_true_eq_false, false_or,
        List.all_eq_true, List.mem_range] at h8
      have h9 := h8 c h5
      simpa [h6] using h9
    · cases h
  · cases h

def waitExc (cfg : Cfg) : Exc (waiting cfg) Graph.Act := waiting_sound.exc (fun s a => waitExec cfg s a) waiting_exec

end RG.Bodies
