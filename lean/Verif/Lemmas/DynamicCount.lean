import Verif.Lemmas.DynamicFull
import Verif.Model.Guards
/-
Helpers for C84: how many tasks a program submits, and whether bodies of tasks wait, both from the text of the program.
-/
set_option linter.unusedVariables false
namespace RG.Dyn
open RG.Graph

variable {N : Nat} {a : Bool} {M : Type} {P : Prog M} {m0 : M}

/-- The body and the tasks in it submit at most `n` tasks, whatever they read. -/
inductive Few (P : Prog M) : P.B → Nat → Prop
  | act {b f n} : P.pt b = .act f → (∀ m, Few P (f m).1 n) → Few P b n
  | spawn {b d c b' n n1 n2} : P.pt b = .spawn d c b' → Few P c n1 → Few P b' n2 → n1 + n2 + 1 ≤ n → Few P b n
  | join {b w b' n} : P.pt b = .join w b' → Few P b' n → Few P b n
  | done {b n} : P.pt b = .done → Few P b n

theorem FReach.count {k : Nat} (hk : Few P P.main k) {x : FConf P} (h : FReach N a P m0 x) :
    ∃ f : Nat → Nat, (∀ i, i ≤ x.n → Few P (x.loc i) (f i)) ∧ sumTo (x.n + 1) f + x.n ≤ k := by
  induction h with
  | init => exact ⟨fun _ => k, fun i _ => hk, by
      show sumTo 1 (fun _ => k) + 0 ≤ k
      simp [sumTo]⟩
  | @step x x' hx hs ih =>
    obtain ⟨f, h1, h2⟩ := ih
    have hrs : Sys.Reach x.cfg N x.s.p.y := (Prog.Inv.reach (Full.Base.reach hx.full).pr).yr
    have le : ∀ {i}, Executes N x.s i → i ≤ x.n := fun h => OnWorker.le hrs h.1
    have loc : ∀ {i b} {s' : Full.State} {m : M}, s'.p.y.x.g.n = x.n → Few P b (f i) →
        ∃ f : Nat → Nat, (∀ j, j ≤ FConf.n (⟨x.user, x.own, s', m, upd x.loc i b⟩ : FConf P) →
          Few P (upd x.loc i b j) (f j)) ∧ sumTo (FConf.n (⟨x.user, x.own, s', m, upd x.loc i b⟩ : FConf P) + 1) f +
          FConf.n (⟨x.user, x.own, s', m, upd x.loc i b⟩ : FConf P) ≤ k := by
      intro i b s' m hn hb
      rw [show FConf.n (⟨x.user, x.own, s', m, upd x.loc i b⟩ : FConf P) = x.n from hn]
      refine ⟨f, fun j hj => ?_, h2⟩
      by_cases e : j = i
      · subst e; rw [upd_same]; exact hb
      · rw [upd_ne _ _ e]; exact h1 j hj
    have rt : ∀ {s' : Full.State}, s'.p.y.x.g.n = x.n → ∃ f : Nat → Nat,
        (∀ j, j ≤ FConf.n ({ x with s := s' } : FConf P) → Few P (x.loc j) (f j)) ∧
        sumTo (FConf.n ({ x with s := s' } : FConf P) + 1) f + FConf.n ({ x with s := s' } : FConf P) ≤ k := by
      intro s' hn
      rw [show FConf.n ({ x with s := s' } : FConf P) = x.n from hn]
      exact ⟨f, h1, h2⟩
    have call : ∀ {s' : Full.State}, Full.Step x.cfg N a (some .call) x.s s' → s'.p.y.x.g.n = x.n := by
      intro s' h
      cases h with
      | prog _ h => cases h; rfl
    cases hs with
    | rt h hk hn => exact rt hn
    | barrier h => exact rt (call h)
    | finalize h => exact rt (call h)
    | @back s' l w b h hk hm hm' hp =>
      have hn : s'.p.y.x.g.n = x.n := by
        apply Classical.byContradiction
        intro hn
        rcases h.prog_of with ⟨h3, _, h4⟩ | ⟨l', _, h3⟩
        · exact hm (h4 ▸ hm')
        · exact hm (h3.mpc_submit hn ▸ hm')
      have hb := h1 0 (Nat.zero_le _)
      refine loc hn ?_
      cases hb with
      | act h => rw [hp] at h; cases h
      | spawn h => rw [hp] at h; cases h
      | join h h' => rw [hp] at h; cases h; exact h'
      | done h => rw [hp] at h; cases h
    | @submit i s' l d c b ho hp h hn =>
      have hi := le ho
      have hb := h1 i hi
      have key : ∃ n1 n2, Few P c n1 ∧ Few P b n2 ∧ n1 + n2 + 1 ≤ f i := by
        cases hb with
        | act h => rw [hp] at h; cases h
        | spawn h h3 h4 h5 => rw [hp] at h; cases h; exact ⟨_, _, h3, h4, h5⟩
        | join h h' => rw [hp] at h; cases h
        | done h => rw [hp] at h; cases h
      obtain ⟨n1, n2, h3, h4, h5⟩ := key
      refine ⟨upd (upd f i n2) (x.n + 1) n1, fun j hj => ?_, ?_⟩
      · have hj : j ≤ x.n + 1 := by rw [← hn]; exact hj
        dsimp only
        by_cases e : j = x.n + 1
        · subst e; rw [upd_same, upd_same]; exact h3
        · rw [upd_ne _ _ e, upd_ne _ _ e]
          by_cases e' : j = i
          · subst e'; rw [upd_same, upd_same]; exact h4
          · rw [upd_ne _ _ e', upd_ne _ _ e']; exact h1 j (by omega)
      · show sumTo (s'.p.y.x.g.n + 1) _ + s'.p.y.x.g.n ≤ k
        rw [hn]
        rw [show sumTo (x.n + 1 + 1) (upd (upd f i n2) (x.n + 1) n1) =
          sumTo (x.n + 1) (upd (upd f i n2) (x.n + 1) n1) + upd (upd f i n2) (x.n + 1) n1 (x.n + 1) from rfl]
        rw [upd_same, sumTo_congr (g := upd f i n2) fun t ht => upd_ne _ _ (by omega)]
        have h6 := sumTo_change (f := f) (g := upd f i n2) (t := i) (n := x.n + 1) (by omega) fun u _ hu => upd_ne _ _ hu
        rw [upd_same] at h6
        omega
    | @act i g h hp =>
      have hb := h1 i (le h)
      refine loc rfl ?_
      cases hb with
      | act h h' => rw [hp] at h; cases h; exact h' _
      | spawn h => rw [hp] at h; cases h
      | join h h' => rw [hp] at h; cases h
      | done h => rw [hp] at h; cases h
    | @join i w b h hp hc =>
      have hb := h1 i (le h)
      refine loc rfl ?_
      cases hb with
      | act h h' => rw [hp] at h; cases h
      | spawn h => rw [hp] at h; cases h
      | join h h' => rw [hp] at h; cases h; exact h'
      | done h => rw [hp] at h; cases h

variable {ι : Type} {tbl : ι → User}

/-- The code and the tasks in it submit at most `n` tasks. -/
def Code.AtMost : Code ι → Nat → Prop
  | .get _ k, n => ∀ v, (k v).AtMost n
  | .put _ _ k, n => k.AtMost n
  | .add _ _ k, n => k.AtMost n
  | .call _ c k, n => ∃ n1 n2, c.AtMost n1 ∧ k.AtMost n2 ∧ n1 + n2 + 1 ≤ n
  | .wait _ k, n => k.AtMost n
  | .ret, _ => True

theorem Code.AtMost.few {c0 : Code ι} : ∀ {c : Code ι} {n : Nat}, c.AtMost n → Few (code tbl c0) c n
  | .get x k, n, h => Few.act (P := code tbl c0) (b := (.get x k : Code ι)) rfl fun m => (h (m x)).few
  | .put x v k, n, h => Few.act (P := code tbl c0) (b := (.put x v k : Code ι)) rfl fun m => Code.AtMost.few (c := k) h
  | .add x v k, n, h => Few.act (P := code tbl c0) (b := (.add x v k : Code ι)) rfl fun m => Code.AtMost.few (c := k) h
  | .call a c k, n, ⟨n1, n2, h1, h2, h3⟩ =>
    Few.spawn (P := code tbl c0) (b := (.call a c k : Code ι)) rfl h1.few h2.few h3
  | .wait w k, n, h => Few.join (P := code tbl c0) (b := (.wait w k : Code ι)) rfl (Code.AtMost.few (c := k) h)
  | .ret, n, _ => Few.done (P := code tbl c0) (b := (.ret : Code ι)) rfl

/-- The code does not wait, and neither do the tasks in it. -/
def Code.NoWait : Code ι → Prop
  | .get _ k => ∀ v, (k v).NoWait
  | .put _ _ k => k.NoWait
  | .add _ _ k => k.NoWait
  | .call _ c k => c.NoWait ∧ k.NoWait
  | .wait _ _ => False
  | .ret => True

/-- The tasks in the code do not wait. -/
def Code.Flat : Code ι → Prop
  | .get _ k => ∀ v, (k v).Flat
  | .put _ _ k => k.Flat
  | .add _ _ k => k.Flat
  | .call _ c k => c.NoWait ∧ k.Flat
  | .wait _ k => k.Flat
  | .ret => True

theorem Code.NoWait.flat : ∀ {c : Code ι}, c.NoWait → c.Flat
  | .get _ k, h => fun v => (h v).flat
  | .put _ _ k, h => Code.NoWait.flat (c := k) h
  | .add _ _ k, h => Code.NoWait.flat (c := k) h
  | .call _ _ k, h => ⟨h.1, h.2.flat⟩
  | .ret, _ => trivial

theorem Code.from_closed {c0 : Code ι} {q : Code ι → Prop} (hg : ∀ x k, q (.get x k) → ∀ v, q (k v))
    (hp : ∀ x v k, q (.put x v k) → q k) (ha : ∀ x v k, q (.add x v k) → q k)
    (hc : ∀ a c k, q (.call a c k) → q c ∧ q k) (hw : ∀ w k, q (.wait w k) → q k)
    {b b' : (code tbl c0).B} (h : From (code tbl c0) b b') (hb : q b) : q b' := by
  induction h with
  | refl => exact hb
  | @act b1 f m h h1 ih =>
    match b1, h1, ih with
    | .get x k, h1, ih => cases h1; exact hg x k ih _
    | .put x v k, h1, ih => cases h1; exact hp x v k ih
    | .add x v k, h1, ih => cases h1; exact ha x v k ih
  | @next b1 d c b2 h h1 ih =>
    match b1, h1, ih with
    | .call a c k, h1, ih => cases h1; exact (hc _ _ _ ih).2
  | @child b1 d c b2 h h1 ih =>
    match b1, h1, ih with
    | .call a c k, h1, ih => cases h1; exact (hc _ _ _ ih).1
  | @join b1 w b2 h h1 ih =>
    match b1, h1, ih with
    | .wait w k, h1, ih => cases h1; exact hw _ _ ih

theorem Code.Flat.leaves {c : Code ι} (h : c.Flat) : Leaves (code tbl c) := by
  intro b d c1 b1 h1 h2 b2 w b3 h3 h4
  have h5 : Code.Flat (ι := ι) b := Code.from_closed (fun _ _ h => h) (fun _ _ _ h => h) (fun _ _ _ h => h)
    (fun _ _ _ h => ⟨h.1.flat, h.2⟩) (fun _ _ h => h) h1 h
  have h6 : Code.NoWait (ι := ι) c1 := by
    match b, h2, h5 with
    | .call a c k, h2, h5 => cases h2; exact h5.1
  have h7 : Code.NoWait (ι := ι) b2 := Code.from_closed (fun _ _ h => h) (fun _ _ _ h => h) (fun _ _ _ h => h)
    (fun _ _ _ h => h) (fun _ _ h => h.elim) h3 h6
  match b2, h4, h7 with
  | .wait w k, h4, h7 => exact h7

/-- The code and the tasks in it submit at most `n` tasks. -/
def GCode.AtMost : GCode → Nat → Prop
  | .get _ _ c, n => ∀ v, (c v).AtMost n
  | .put _ _ _ c, n => ∀ v, (c v).AtMost n
  | .poke _ _ _ c, n => c.AtMost n
  | .narrow _ _ c e, n => c.AtMost n ∧ e.AtMost n
  | .call _ _ c k, n => ∃ n1 n2, c.AtMost n1 ∧ k.AtMost n2 ∧ n1 + n2 + 1 ≤ n
  | .fut _ c, n => ∀ v, (c v).AtMost n
  | .all c, n => c.AtMost n
  | .ret _, _ => True

/-- The code does not wait, and neither do the tasks in it. -/
def GCode.NoWait : GCode → Prop
  | .get _ _ c => ∀ v, (c v).NoWait
  | .put _ _ _ c => ∀ v, (c v).NoWait
  | .poke _ _ _ c => c.NoWait
  | .narrow _ _ c e => c.NoWait ∧ e.NoWait
  | .call _ _ c k => c.NoWait ∧ k.NoWait
  | .fut _ _ => False
  | .all _ => False
  | .ret _ => True

/-- The tasks in the code do not wait. -/
def GCode.Flat : GCode → Prop
  | .get _ _ c => ∀ v, (c v).Flat
  | .put _ _ _ c => ∀ v, (c v).Flat
  | .poke _ _ _ c => c.Flat
  | .narrow _ _ c e => c.Flat ∧ e.Flat
  | .call _ _ c k => c.NoWait ∧ k.Flat
  | .fut _ c => ∀ v, (c v).Flat
  | .all c => c.Flat
  | .ret _ => True

theorem Code.AtMost.mono : ∀ {c : Code ι} {n n' : Nat}, n ≤ n' → c.AtMost n → c.AtMost n'
  | .get _ k, _, _, hn, h => fun v => (h v).mono hn
  | .put _ _ k, _, _, hn, h => Code.AtMost.mono (c := k) hn h
  | .add _ _ k, _, _, hn, h => Code.AtMost.mono (c := k) hn h
  | .call _ _ k, _, _, hn, ⟨n1, n2, h1, h2, h3⟩ => ⟨n1, n2, h1, h2, by omega⟩
  | .wait _ k, _, _, hn, h => Code.AtMost.mono (c := k) hn h
  | .ret, _, _, _, _ => trivial

variable [EvalOrder] {kind : Res → Option Nat}

theorem GCode.AtMost.steps : ∀ {c : GCode} {n : Nat} {p : List Nat} {k : Nat} {env : List AGuard}, c.AtMost n →
    (c.steps kind p k env).AtMost n
  | .get i pos c, n, p, k, env, h => by
    unfold GCode.steps
    split
    · exact fun v => (h (some v)).steps
    · exact (h none).steps
  | .put i pos v c, n, p, k, env, h => by
    unfold GCode.steps
    split
    · exact (h true).steps
    · exact (h false).steps
  | .poke i pos v c, n, p, k, env, h => by
    unfold GCode.steps
    split
    · exact GCode.AtMost.steps (c := c) h
    · exact GCode.AtMost.steps (c := c) h
  | .narrow i nr c e, n, p, k, env, h => by
    unfold GCode.steps
    split
    · exact h.1.steps
    · exact h.2.steps
  | .call args extra c c', n, p, k, env, ⟨n1, n2, h1, h2, h3⟩ => by
    unfold GCode.steps
    split
    · exact ⟨n1, n2, h1.steps, h2.steps, h3⟩
    · exact h2.steps.mono (by omega)
  | .fut j c, n, p, k, env, h => fun v => (h v).steps
  | .all c, n, p, k, env, h => GCode.AtMost.steps (c := c) h
  | .ret v, n, p, k, env, _ => trivial

theorem GCode.NoWait.steps : ∀ {c : GCode} {p : List Nat} {k : Nat} {env : List AGuard}, c.NoWait →
    (c.steps kind p k env).NoWait
  | .get i pos c, p, k, env, h => by
    unfold GCode.steps
    split
    · exact fun v => (h (some v)).steps
    · exact (h none).steps
  | .put i pos v c, p, k, env, h => by
    unfold GCode.steps
    split
    · exact (h true).steps
    · exact (h false).steps
  | .poke i pos v c, p, k, env, h => by
    unfold GCode.steps
    split
    · exact GCode.NoWait.steps (c := c) h
    · exact GCode.NoWait.steps (c := c) h
  | .narrow i nr c e, p, k, env, h => by
    unfold GCode.steps
    split
    · exact h.1.steps
    · exact h.2.steps
  | .call args extra c c', p, k, env, h => by
    unfold GCode.steps
    split
    · exact ⟨h.1.steps, h.2.steps⟩
    · exact h.2.steps
  | .ret v, p, k, env, _ => trivial

theorem GCode.Flat.steps : ∀ {c : GCode} {p : List Nat} {k : Nat} {env : List AGuard}, c.Flat →
    (c.steps kind p k env).Flat
  | .get i pos c, p, k, env, h => by
    unfold GCode.steps
    split
    · exact fun v => (h (some v)).steps
    · exact (h none).steps
  | .put i pos v c, p, k, env, h => by
    unfold GCode.steps
    split
    · exact (h true).steps
    · exact (h false).steps
  | .poke i pos v c, p, k, env, h => by
    unfold GCode.steps
    split
    · exact GCode.Flat.steps (c := c) h
    · exact GCode.Flat.steps (c := c) h
  | .narrow i nr c e, p, k, env, h => by
    unfold GCode.steps
    split
    · exact h.1.steps
    · exact h.2.steps
  | .call args extra c c', p, k, env, h => by
    unfold GCode.steps
    split
    · exact ⟨h.1.steps, h.2.steps⟩
    · exact h.2.steps
  | .fut j c, p, k, env, h => fun v => (h v).steps
  | .all c, p, k, env, h => GCode.Flat.steps (c := c) h
  | .ret v, p, k, env, _ => trivial

end RG.Dyn
