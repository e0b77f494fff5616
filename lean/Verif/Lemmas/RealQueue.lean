import Verif.Model.RealQueue
import Verif.Lemmas.TaskQueue6
import Verif.Props.Waiting
/-
Lemmas for C89: one queue with its owner.
-/
set_option linter.unusedVariables false
namespace RG.MQ

variable {B p : Nat} {s s' : Sub} {m m' : Mem}

/-- A step of a consumer. -/
theorem SStep.of_cons (hs : SStep B p s m s' m') {c : Nat} (hc : s'.cons c ≠ s.cons c) :
    s'.tail = s.tail ∧ s'.prod = s.prod ∧ (∀ c', c' ≠ c → s'.cons c' = s.cons c') ∧ s.head ≤ s'.head := by
  have key : ∀ c0 pc, s'.cons = upd s.cons c0 pc → s'.tail = s.tail → s'.prod = s.prod → s.head ≤ s'.head →
      s'.tail = s.tail ∧ s'.prod = s.prod ∧ (∀ c', c' ≠ c → s'.cons c' = s.cons c') ∧ s.head ≤ s'.head := by
    intro c0 pc h1 h2 h3 h4
    have e : c = c0 := by
      by_contra e
      rw [h1, upd_ne _ _ e] at hc
      exact hc rfl
    subst e
    exact ⟨h2, h3, fun c' h' => by rw [h1, upd_ne _ _ h'], h4⟩
  cases hs <;> first | exact absurd rfl hc | exact key _ _ rfl rfl rfl (Nat.le_refl _) | exact key _ _ rfl rfl rfl (Nat.le_succ _)

/-- A step of the producer. -/
theorem SStep.of_prod (hs : SStep B p s m s' m') (hc : s'.prod ≠ s.prod) :
    s'.head = s.head ∧ s'.cons = s.cons ∧ (s'.tail = s.tail ∨ s'.tail = s.tail + 1 ∧ s'.prod = .out) := by
  cases hs <;> first | exact absurd rfl hc | exact ⟨rfl, rfl, .inl rfl⟩ | exact ⟨rfl, rfl, .inr ⟨rfl, rfl⟩⟩

/-- A step of consumer `c` in the sub-queue `p`. -/
theorem Step.of_cons {q q' : State} (hs : Step B p q q') {c : Nat} (hc : (q'.subs p).cons c ≠ (q.subs p).cons c) :
    (∀ p', (q'.subs p').tail = (q.subs p').tail ∧ (q'.subs p').prod = (q.subs p').prod ∧ (∀ c', c' ≠ c → (q'.subs p').cons c' = (q.subs p').cons c') ∧
      (q.subs p').head ≤ (q'.subs p').head) ∧ ∀ p', p' ≠ p → q'.subs p' = q.subs p' := by
  cases hs with
  | mk hs =>
    simp only [upd_same] at hc ⊢
    have h1 := hs.of_cons hc
    refine ⟨fun p' => ?_, fun p' e => upd_ne _ _ e⟩
    by_cases e : p' = p
    · subst e; rw [upd_same]; exact h1
    · rw [upd_ne _ _ e]; exact ⟨rfl, rfl, fun _ _ => rfl, Nat.le_refl _⟩

/-- A step of the producer `p`. -/
theorem Step.of_prod {q q' : State} (hs : Step B p q q') (hc : (q'.subs p).prod ≠ (q.subs p).prod) :
    ((q'.subs p).tail = (q.subs p).tail ∨ (q'.subs p).tail = (q.subs p).tail + 1 ∧ (q'.subs p).prod = .out) ∧
    (∀ p', (q'.subs p').head = (q.subs p').head ∧ (q'.subs p').cons = (q.subs p').cons) ∧ ∀ p', p' ≠ p → q'.subs p' = q.subs p' := by
  cases hs with
  | mk hs =>
    simp only [upd_same] at hc ⊢
    have h1 := hs.of_prod hc
    refine ⟨h1.2.2, fun p' => ?_, fun p' e => upd_ne _ _ e⟩
    by_cases e : p' = p
    · subst e; rw [upd_same]; exact ⟨h1.1, h1.2.1⟩
    · rw [upd_ne _ _ e]; exact ⟨rfl, rfl⟩

end RG.MQ

namespace RG.RQ

variable {B C n : Nat}

/-- nothing is left in this sub-queue -/
def E (u : Queue) (p : Nat) : Prop := (u.q.subs p).head = (u.q.subs p).tail

def AllE (u : Queue) : Prop := ∀ p, E u p

/-- what is known while the owner `w` is inside `pop`, nobody else having been -/
def QI (hot : Prop) (u : Queue) (w : Nat) : Prop :=
  match u.con w with
  | .size rest n best => (n = 0 ∧ best = none ∧ (hot ∨ ∀ p, p ∉ rest → E u p)) ∨
      (0 < n ∧ ∀ b sz, best = some (b, sz) → (u.q.subs b).head < (u.q.subs b).tail)
  | .sizeH p rest n best t => t ≤ (u.q.subs p).tail ∧ (hot ∨ t = (u.q.subs p).tail) ∧
      ((n = 0 ∧ best = none ∧ (hot ∨ ∀ p', p' ≠ p → p' ∉ rest → E u p')) ∨
        (0 < n ∧ ∀ b sz, best = some (b, sz) → (u.q.subs b).head < (u.q.subs b).tail))
  | .first p => ∃ T H O, MQ.Alone T H O (u.q.subs p) w ∧ H < T
  | .scan2 _ => False
  | .next _ _ => False
  | .other _ _ _ => False
  | .ret none => hot ∨ AllE u
  | _ => True

structure QW (B C : Nat) (u : Queue) : Prop where
  reach : MQ.Reach B C u.q
  link : ∀ p c, (u.q.subs p).cons c ≠ .out → (u.con c).sub = some p
  reg : ∀ p, p ∉ u.list → (u.q.subs p).tail = 0 ∧ (u.q.subs p).prod = .out

theorem QStep.frame {c : Nat} {u u' : Queue} (hs : QStep B c u u') :
    u'.list = u.list ∧ u'.clean = u.clean ∧ (∀ c', c' ≠ c → u'.con c' = u.con c') ∧ u.con c ≠ .out ∧ u'.con c ≠ .out ∧ (∀ r, u.con c ≠ .ret r) := by
  cases hs with
  | scan h => exact ⟨rfl, rfl, fun c' e => upd_ne _ _ e, by rw [h]; simp, by simp only [upd_same]; simp, by rw [h]; simp⟩
  | sizeT h hn => exact ⟨rfl, rfl, fun c' e => upd_ne _ _ e, by rw [h]; simp, by simp only [upd_same]; simp, by rw [h]; simp⟩
  | sizeH h => exact ⟨rfl, rfl, fun c' e => upd_ne _ _ e, by rw [h]; simp, by simp only [upd_same]; split <;> simp, by rw [h]; simp⟩
  | empty h => exact ⟨rfl, rfl, fun c' e => upd_ne _ _ e, by rw [h]; simp, by simp only [upd_same]; simp, by rw [h]; simp⟩
  | first h => exact ⟨rfl, rfl, fun c' e => upd_ne _ _ e, by rw [h]; simp, by simp only [upd_same]; simp, by rw [h]; simp⟩
  | inner h =>
    refine ⟨rfl, rfl, fun c' e => rfl, ?_, ?_, ?_⟩ <;> intro e <;> (try intro e') <;> simp_all [DPc.sub]
  | found h =>
    refine ⟨rfl, rfl, fun c' e => upd_ne _ _ e, ?_, by simp only [upd_same]; simp, ?_⟩ <;> intro e <;> (try intro e') <;> simp_all [DPc.sub]
  | miss h =>
    refine ⟨rfl, rfl, fun c' e => upd_ne _ _ e, ?_, ?_, ?_⟩
    · intro e; simp_all [DPc.sub]
    · simp only [upd_same]
      cases e : u.con c <;> simp_all [DPc.sub, DPc.miss]
    · intro r e; simp_all [DPc.sub]
  | scan2 h => exact ⟨rfl, rfl, fun c' e => upd_ne _ _ e, by rw [h]; simp, by simp only [upd_same]; simp, by rw [h]; simp⟩
  | skip h => exact ⟨rfl, rfl, fun c' e => upd_ne _ _ e, by rw [h]; simp, by simp only [upd_same]; simp, by rw [h]; simp⟩
  | other h => exact ⟨rfl, rfl, fun c' e => upd_ne _ _ e, by rw [h]; simp, by simp only [upd_same]; simp, by rw [h]; simp⟩
  | last h => exact ⟨rfl, rfl, fun c' e => upd_ne _ _ e, by rw [h]; simp, by simp only [upd_same]; simp, by rw [h]; simp⟩

/-- The effect on the sub-queues: none, or one step of consumer `c`. -/
theorem QStep.core {c : Nat} {u u' : Queue} (hs : QStep B c u u') :
    u'.q = u.q ∨ ∃ p, MQ.Step B p u.q u'.q ∧ (u'.q.subs p).cons c ≠ (u.q.subs p).cons c := by
  cases hs with
  | @first _ _ p _ _ h hr hs hc hc' => exact .inr ⟨p, hs, by rw [hc, hc']; simp⟩
  | @inner p _ h hs hc hc' => exact .inr ⟨p, hs, Ne.symm hc⟩
  | @found p _ _ _ h hs hc hc' => exact .inr ⟨p, hs, by rw [hc, hc']; simp⟩
  | @miss p _ h hs hc hc' => exact .inr ⟨p, hs, by rw [hc, hc']; simp⟩
  | @other _ p _ _ h hb hs hc hc' => exact .inr ⟨p, hs, by rw [hc, hc']; simp⟩
  | _ => exact .inl rfl

theorem QStep.subs {c : Nat} {u u' : Queue} (hs : QStep B c u u') (p : Nat) :
    (u'.q.subs p).tail = (u.q.subs p).tail ∧ (u'.q.subs p).prod = (u.q.subs p).prod ∧ (∀ c', c' ≠ c → (u'.q.subs p).cons c' = (u.q.subs p).cons c') ∧
      (u.q.subs p).head ≤ (u'.q.subs p).head := by
  rcases hs.core with h | ⟨p', h1, h2⟩
  · rw [h]; exact ⟨rfl, rfl, fun _ _ => rfl, Nat.le_refl _⟩
  · exact (h1.of_cons h2).1 p

theorem QStep.reach {c : Nat} {u u' : Queue} (h : MQ.Reach B C u.q) (hs : QStep B c u u') : MQ.Reach B C u'.q := by
  rcases hs.core with h' | ⟨p', h1, h2⟩
  · rw [h']; exact h
  · exact .step h h1

theorem QStep.qw {c : Nat} {u u' : Queue} (h : QW B C u) (hs : QStep B c u u') : QW B C u' where
  reach := hs.reach h.reach
  reg := by
    intro p hp
    rw [hs.frame.1] at hp
    rw [(hs.subs p).1, (hs.subs p).2.1]
    exact h.reg p hp
  link := by
    intro p c' hp
    by_cases e : c' = c
    · subst e
      -- the sub-queue in which it is
      have same : ∀ p', u'.q.subs p' = u.q.subs p' → (u.q.subs p').cons c' ≠ .out → (u.con c').sub = some p' := fun p' e h' => h.link p' c' h'
      have none_ : ∀ {d : DPc}, u.con c' = d → d.sub = none → ∀ p', (u.q.subs p').cons c' = .out := by
        intro d h1 h2 p'
        by_contra h3
        have := h.link p' c' h3
        rw [h1, h2] at this
        cases this
      cases hs with
      | scan h1 => exact absurd (none_ h1 rfl p) hp
      | sizeT h1 => exact absurd (none_ h1 rfl p) hp
      | sizeH h1 => exact absurd (none_ h1 rfl p) hp
      | empty h1 => exact absurd (none_ h1 rfl p) hp
      | @first _ _ p0 _ _ h1 hr hs hc hc' =>
        simp only [upd_same]
        by_cases e : p = p0
        · rw [e]; rfl
        · have h2 := (hs.of_cons (c := c') (by rw [hc, hc']; simp)).2 p e
          simp only [h2] at hp
          exact absurd (none_ h1 rfl p) hp
      | @inner p0 _ h1 hs hc hc' =>
        by_cases e : p = p0
        · rw [e]; exact h1
        · have h2 := (hs.of_cons (Ne.symm hc)).2 p e
          simp only [h2] at hp
          have := h.link p c' hp
          rw [h1] at this
          exact absurd (Option.some.inj this).symm e
      | @found p0 _ _ _ h1 hs hc hc' =>
        exfalso
        by_cases e : p = p0
        · subst e; exact hp hc'
        · have h2 := (hs.of_cons (c := c') (by rw [hc, hc']; simp)).2 p e
          simp only [h2] at hp
          have := h.link p c' hp
          rw [h1] at this
          exact absurd (Option.some.inj this).symm e
      | @miss p0 _ h1 hs hc hc' =>
        exfalso
        by_cases e : p = p0
        · subst e; exact hp hc'
        · have h2 := (hs.of_cons (c := c') (by rw [hc, hc']; simp)).2 p e
          simp only [h2] at hp
          have := h.link p c' hp
          rw [h1] at this
          exact absurd (Option.some.inj this).symm e
      | scan2 h1 => exact absurd (none_ h1 rfl p) hp
      | skip h1 => exact absurd (none_ h1 rfl p) hp
      | @other _ p0 _ _ h1 hb hs hc hc' =>
        simp only [upd_same]
        by_cases e : p = p0
        · rw [e]; rfl
        · have h2 := (hs.of_cons (c := c') (by rw [hc, hc']; simp)).2 p e
          simp only [h2] at hp
          exact absurd (none_ h1 rfl p) hp
      | last h1 => exact absurd (none_ h1 rfl p) hp
    · rw [hs.frame.2.2.1 c' e]
      rw [(hs.subs p).2.2.1 c' e] at hp
      exact h.link p c' hp

theorem QStep.allE (hB : 2 ≤ B) (hC : 0 < C) {c : Nat} {u u' : Queue} (h : QW B C u) (hs : QStep B c u u') {p : Nat} (he : E u p) : E u' p := by
  have h1 := hs.subs p
  have h2 := (((hs.reach h.reach).inv hB hC).t p).head_le
  unfold E at *
  omega

theorem QI.mono {hot hot' : Prop} {u : Queue} {w : Nat} (h : QI hot u w) (hh : hot → hot') : QI hot' u w := by
  unfold QI at *
  split
  case h_1 h' => rw [h'] at h; exact h.imp (fun h => ⟨h.1, h.2.1, h.2.2.imp hh id⟩) id
  case h_2 h' => rw [h'] at h; exact ⟨h.1, h.2.1.imp hh id, h.2.2.imp (fun h => ⟨h.1, h.2.1, h.2.2.imp hh id⟩) id⟩
  case h_3 h' => rw [h'] at h; exact h
  case h_4 h' => rw [h'] at h; exact h
  case h_5 h' => rw [h'] at h; exact h
  case h_6 h' => rw [h'] at h; exact h
  case h_7 h' => rw [h'] at h; exact h.imp hh id
  case h_8 => trivial

theorem QStep.qi (hB : 2 ≤ B) (hC : 0 < C) {hot : Prop} {w c : Nat} {u u' : Queue} (h : QW B C u) (hcl : u.con w ≠ .out → ∀ c', c' ≠ w → u.con c' = .out)
    (hq : QI hot u w) (hs : QStep B c u u') : QI hot u' w := by
  by_cases e : c = w
  · subst e
    have hin := hs.frame.2.2.2.1
    have others : ∀ p c', c' ≠ c → (u.q.subs p).cons c' = .out := by
      intro p c' hc'
      by_contra h1
      have := h.link p c' h1
      rw [hcl hin c' hc'] at this
      cases this
    have others' : ∀ p c', c' ≠ c → (u'.q.subs p).cons c' = .out := by
      intro p c' hc'
      rw [(hs.subs p).2.2.1 c' hc']
      exact others p c' hc'
    cases hs with
    | scan h1 =>
      unfold QI
      simp only [upd_same]
      refine .inl ⟨trivial, trivial, .inr fun p hp => ?_⟩
      have h2 := (h.reg p hp).1
      have h3 := ((h.reach.inv hB hC).t p).head_le
      unfold E
      simp only
      omega
    | @sizeT p rest k best h1 hn =>
      unfold QI at hq ⊢
      rw [h1] at hq
      simp only [upd_same] at hq ⊢
      refine ⟨Nat.le_refl _, .inr trivial, ?_⟩
      refine hq.imp (fun h => ⟨h.1, h.2.1, h.2.2.imp id fun h p' e hp' => h p' ?_⟩) id
      simp [e, hp']
    | @sizeH p rest k best t h1 =>
      unfold QI at hq ⊢
      rw [h1] at hq
      simp only [upd_same] at hq ⊢
      obtain ⟨h2, h3, h4⟩ := hq
      by_cases hlt : (u.q.subs p).head < t
      · have hsz : sizeApprox t (u.q.subs p).head = t - (u.q.subs p).head := by simp [sizeApprox, hlt]
        rw [if_pos (by rw [hsz]; omega)]
        refine .inr ⟨by omega, fun b sz hb => ?_⟩
        rcases h4 with ⟨_, h4, _⟩ | ⟨_, h4⟩
        · subst h4
          simp only [better, Option.some.injEq, Prod.mk.injEq] at hb
          rw [← hb.1]; omega
        · cases best with
          | none =>
            simp only [better, Option.some.injEq, Prod.mk.injEq] at hb
            rw [← hb.1]; omega
          | some r =>
            obtain ⟨b0, s0⟩ := r
            simp only [better] at hb
            split at hb
            · simp only [Option.some.injEq, Prod.mk.injEq] at hb
              rw [← hb.1]; omega
            · exact h4 b sz hb
      · rw [if_neg (by simp [sizeApprox, hlt])]
        refine h4.imp (fun h => ⟨h.1, h.2.1, ?_⟩) id
        rcases h3 with h3 | h3
        · exact .inl h3
        · refine h.2.2.imp id fun h5 p' hp' => ?_
          by_cases e : p' = p
          · subst e
            have := ((‹QW B C u›.reach.inv hB hC).t p').head_le
            unfold E
            simp only
            omega
          · exact h5 p' e hp'
    | empty h1 hr =>
      unfold QI at hq ⊢
      rw [h1] at hq
      simp only [upd_same] at hq ⊢
      subst hr
      rcases hq with hq | hq
      · exact hq.2.2.imp id fun h p => h p (by simp)
      · omega
    | @first rest k p sz q' h1 hr hs hc hc' =>
      unfold QI at hq ⊢
      rw [h1] at hq
      simp only [upd_same] at hq ⊢
      rcases hq with hq | hq
      · omega
      have h2 := hq.2 p sz rfl
      have h3 := hs.of_cons (c := c) (by rw [hc, hc']; simp)
      cases hs with
      | mk hs =>
        simp only [upd_same] at hc' h3 ⊢
        rename_i v m'
        have hne : ∀ c', (u.q.subs p).cons c' = .out := by
          intro c'
          by_cases e : c' = c
          · rw [e]; exact hc
          · exact others p c' e
        have h4 := MQ.counts_quiet ((h.reach.inv hB hC).t p) (h.reach.qinv hB hC p) (fun c' => by rw [hne c']; rfl)
        refine ⟨(u.q.subs p).tail, (u.q.subs p).head, (u.q.subs p).over, ?_, h2⟩
        have hv : v.opt = (u.q.subs p).opt ∧ v.over = (u.q.subs p).over ∧ v.head = (u.q.subs p).head ∧ v.tail = (u.q.subs p).tail := by
          clear h3
          cases hs <;> first | exact ⟨rfl, rfl, rfl, rfl⟩ | (exfalso; simp_all)
        unfold MQ.Alone
        rw [hc']
        refine ⟨by omega, ?_⟩
        simp only
        omega
    | @inner p q' h1 hs hc hc' =>
      have hf : u.con c = .first p := by
        cases hu : u.con c <;> rw [hu] at h1 <;> simp only [DPc.sub, Option.some.injEq] at h1 <;> try contradiction
        · rw [h1]
        · unfold QI at hq; rw [hu] at hq; exact hq.elim
      unfold QI at hq ⊢
      rw [hf] at hq
      simp only [hf] at hq ⊢
      obtain ⟨T, H, O, h2, h3⟩ := hq
      refine ⟨T, H, O, ?_, h3⟩
      have ho := others p
      have ho' := others' p
      cases hs with
      | mk hs =>
        simp only [upd_same] at hc' ho' ⊢
        exact hs.alone h2 ho ho' hc'
    | found h1 hs hc hc' => unfold QI; simp only [upd_same]
    | @miss p q' h1 hs hc hc' =>
      exfalso
      have hf : u.con c = .first p := by
        cases hu : u.con c <;> rw [hu] at h1 <;> simp only [DPc.sub, Option.some.injEq] at h1 <;> try contradiction
        · rw [h1]
        · unfold QI at hq; rw [hu] at hq; exact hq.elim
      unfold QI at hq
      rw [hf] at hq
      obtain ⟨T, H, O, h2, h3⟩ := hq
      unfold MQ.Alone at h2
      rw [hc] at h2
      have := h2.2
      simp only at this
      omega
    | scan2 h1 => unfold QI at hq; rw [h1] at hq; exact hq.elim
    | skip h1 => unfold QI at hq; rw [h1] at hq; exact hq.elim
    | other h1 => unfold QI at hq; rw [h1] at hq; exact hq.elim
    | last h1 => unfold QI at hq; rw [h1] at hq; exact hq.elim
  · have h1 : u.con w = .out := by
      by_contra h1
      exact hs.frame.2.2.2.1 (hcl h1 c e)
    unfold QI
    rw [hs.frame.2.2.1 w (Ne.symm e), h1]
    trivial

/-! ### pushing -/

theorem QW.push {j : Nat} {u : Queue} {q' : MQ.State} {l : List Nat} (h : QW B C u) (hs : MQ.Step B j u.q q') (hc : (q'.subs j).prod ≠ (u.q.subs j).prod)
    (hj : j ∈ l) (hl : ∀ p, p ∈ u.list → p ∈ l) : QW B C { u with q := q', list := l } where
  reach := .step h.reach hs
  link := by
    intro p c hp
    simp only at hp
    rw [((hs.of_prod hc).2.1 p).2] at hp
    exact h.link p c hp
  reg := by
    intro p hp
    have e : p ≠ j := by rintro rfl; exact hp hj
    simp only
    rw [(hs.of_prod hc).2.2 p e]
    exact h.reg p fun h1 => hp (hl p h1)

theorem E.push {j : Nat} {u : Queue} {q' : MQ.State} {l : List Nat} {hot : Prop} (hs : MQ.Step B j u.q q') (hc : (q'.subs j).prod ≠ (u.q.subs j).prod)
    (hp : (q'.subs j).prod = .out → hot) : hot ∨ ∀ p, E u p → E { u with q := q', list := l } p := by
  have h1 := hs.of_prod hc
  rcases h1.1 with h2 | h2
  · refine .inr fun p he => ?_
    unfold E at *
    simp only
    rw [(h1.2.1 p).1]
    by_cases e : p = j
    · subst e; rw [h2]; exact he
    · rw [h1.2.2 p e]; exact he
  · exact .inl (hp h2.2)

theorem QI.push (hB : 2 ≤ B) (hC : 0 < C) {j w : Nat} {u : Queue} {q' : MQ.State} {l : List Nat} {hot : Prop} (h : QW B C u)
    (hcl : u.con w ≠ .out → ∀ c', c' ≠ w → u.con c' = .out) (hs : MQ.Step B j u.q q') (hc : (q'.subs j).prod ≠ (u.q.subs j).prod)
    (hp : (q'.subs j).prod = .out → hot) (hq : QI hot u w) : QI hot { u with q := q', list := l } w := by
  have h1 := hs.of_prod hc
  have he := E.push (l := l) hs hc hp
  have tl : ∀ p, (u.q.subs p).tail ≤ (q'.subs p).tail := by
    intro p
    by_cases e : p = j
    · subst e; rcases h1.1 with h | h <;> omega
    · rw [h1.2.2 p e]
  have tl' : ∀ p, hot ∨ (q'.subs p).tail = (u.q.subs p).tail := by
    intro p
    by_cases e : p = j
    · subst e; exact h1.1.elim .inr fun h => .inl (hp h.2)
    · rw [h1.2.2 p e]; exact .inr rfl
  have lt : ∀ p, (u.q.subs p).head < (u.q.subs p).tail → (q'.subs p).head < (q'.subs p).tail := by
    intro p h
    have := tl p
    rw [(h1.2.1 p).1]
    omega
  unfold QI at *
  simp only
  split
  case h_1 h' =>
    rw [h'] at hq
    refine hq.imp (fun h => ⟨h.1, h.2.1, ?_⟩) (fun h => ⟨h.1, fun b sz hb => lt b (h.2 b sz hb)⟩)
    rcases he with he | he
    · exact .inl he
    · exact h.2.2.imp id fun h p hp => he p (h p hp)
  case h_2 p _ _ _ t h' =>
    rw [h'] at hq
    refine ⟨Nat.le_trans hq.1 (tl p), ?_, hq.2.2.imp (fun h => ⟨h.1, h.2.1, ?_⟩) (fun h => ⟨h.1, fun b sz hb => lt b (h.2 b sz hb)⟩)⟩
    · rcases tl' p with h | h
      · exact .inl h
      · rw [h]; exact hq.2.1
    · rcases he with he | he
      · exact .inl he
      · exact h.2.2.imp id fun h p e hp => he p (h p e hp)
  case h_3 p h' =>
    rw [h'] at hq
    obtain ⟨T, H, O, h2, h3⟩ := hq
    refine ⟨T, H, O, ?_, h3⟩
    by_cases e : p = j
    · subst e
      have hin : (q'.subs p).cons w ≠ .out := by
        intro h4
        rw [(h1.2.1 p).2] at h4
        unfold MQ.Alone at h2
        rw [h4] at h2
        exact h2.2
      have ho : ∀ c', c' ≠ w → (u.q.subs p).cons c' = .out := by
        intro c' hc'
        by_contra h4
        have := h.link p c' h4
        rw [hcl (by rw [h']; simp) c' hc'] at this
        cases this
      have ho' : ∀ c', c' ≠ w → (q'.subs p).cons c' = .out := by
        intro c' hc'
        rw [(h1.2.1 p).2]
        exact ho c' hc'
      cases hs with
      | mk hs =>
        simp only [upd_same] at hin ho' ⊢
        exact hs.alone h2 ho ho' hin
    · rw [h1.2.2 p e]; exact h2
  case h_4 h' => rw [h'] at hq; exact hq
  case h_5 h' => rw [h'] at hq; exact hq
  case h_6 h' => rw [h'] at hq; exact hq
  case h_7 h' =>
    rw [h'] at hq
    rcases he with he | he
    · exact .inl he
    · exact hq.imp id fun h p => he p (h p)
  case h_8 => trivial

end RG.RQ
