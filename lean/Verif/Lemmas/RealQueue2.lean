import Verif.Lemmas.RealQueue
/-
Lemmas for C89: all workers.
-/
set_option linter.unusedVariables false
namespace RG.RQ

variable {B C n : Nat} {s s' : State}

@[simp] theorem upd2_same {α} (f : Nat → Bool → α) (w : Nat) (k : Bool) (v : α) : upd2 f w k v w k = v := by simp [upd2]

theorem upd2_ne {α} (f : Nat → Bool → α) {w w' : Nat} {k k' : Bool} (v : α) (h : ¬(w' = w ∧ k' = k)) : upd2 f w k v w' k' = f w' k' := by simp [upd2, h]

/-- a wake-up of worker `w` is pending or will be given -/
def Hot (s : State) (w : Nat) : Prop := (s.cv w).pend = true ∨ ∃ j, s.ps j = .mark w ∨ s.ps j = .pushed w ∨ (s.cv w).ns j = .cas

/-- the worker has looked into its queue `k` since it was last woken -/
def past (k : Bool) (pc : Pc) (ws : Cv.WPc) : Prop :=
  match pc with
  | .pop true => False
  | .got _ => False
  | .start _ => False
  | .executing _ => False
  | .waiting => ws ≠ .out
  | .pop false => k = true
  | .initing _ => k = true
  | _ => True

structure SInv (B C n : Nat) (s : State) : Prop where
  qw : ∀ w k, QW B C (s.qs w k)
  con : ∀ v k c, (s.qs v k).con c ≠ .out → (s.pc c).inPop c = some (v, k) ∧ c < n
  clean : ∀ w k, (s.qs w k).clean → (s.qs w k).con w ≠ .out → ∀ c, c ≠ w → (s.qs w k).con c = .out
  clean1 : n = 1 → ∀ w k, (s.qs w k).con w ≠ .out → (s.qs w k).clean
  qi : ∀ w k, (s.qs w k).clean → QI (Hot s w) (s.qs w k) w
  sure : ∀ w k, (s.sure w k ∨ n = 1) → past k (s.pc w) ((s.cv w).ws 0) → Hot s w ∨ AllE (s.qs w k)
  inCv : ∀ w, (s.cv w).ws 0 ≠ .out → s.pc w = .waiting
  cvr : ∀ w, Cv.Reach 1 (s.cv w)
  ns : ∀ w j, (s.cv w).ns j ≠ .out → s.ps j = .inCv w
  prod : ∀ w k j, ((s.qs w k).q.subs j).prod ≠ .out ↔ s.ps j = .push w k

theorem SInv.init (h : Init C s) : SInv B C n s where
  qw := by
    intro w k
    refine ⟨.init (h.q w k), ?_, ?_⟩
    · intro p c hp
      obtain ⟨g, hg⟩ := (h.q w k).subs p
      rw [hg] at hp
      exact absurd rfl hp
    · intro p _
      obtain ⟨g, hg⟩ := (h.q w k).subs p
      rw [hg]
      exact ⟨rfl, rfl⟩
  con := fun v k c hc => absurd (h.con v k c) hc
  clean := fun w k _ hc => absurd (h.con w k w) hc
  clean1 := fun _ w k hc => absurd (h.con w k w) hc
  qi := by
    intro w k _
    unfold QI
    rw [h.con]
    trivial
  sure := by
    intro w k _ _
    refine .inr fun p => ?_
    obtain ⟨g, hg⟩ := (h.q w k).subs p
    unfold E
    rw [hg]
    rfl
  inCv := fun w hw => by rw [h.cv] at hw; exact absurd rfl hw
  cvr := fun w => by rw [h.cv]; exact .init
  ns := fun w j hj => by rw [h.cv] at hj; exact absurd rfl hj
  prod := by
    intro w k j
    obtain ⟨g, hg⟩ := (h.q w k).subs j
    rw [hg, h.ps]
    exact ⟨fun h => absurd rfl h, fun h => by cases h⟩

theorem SInv.outside (h : SInv B C n s) {w : Nat} (hp : (s.pc w).inPop w = none) : ∀ v k, (s.qs v k).con w = .out := by
  intro v k
  by_contra h1
  have := (h.con v k w h1).1
  rw [hp] at this
  cases this

/-- The worker goes on, without a change of anything but its position and the states of the workers. -/
theorem SInv.go (h : SInv B C n s) {w : Nat} {pc' : Pc} {b : Nat → Bool} (hp : (s.pc w).inPop w = none) (hcv : (s.cv w).ws 0 ≠ .out → pc' = .waiting)
    (hpast : ∀ k, past k pc' ((s.cv w).ws 0) → past k (s.pc w) ((s.cv w).ws 0)) : SInv B C n { s with pc := upd s.pc w pc', busy := b } where
  qw := h.qw
  con := by
    intro v k c hc
    have e : c ≠ w := by rintro rfl; exact hc (h.outside hp v k)
    simp only
    rw [upd_ne _ _ e]
    exact h.con v k c hc
  clean := h.clean
  clean1 := h.clean1
  qi := h.qi
  sure := by
    intro w' k h1 h2
    simp only at h2
    by_cases e : w' = w
    · subst e; rw [upd_same] at h2; exact h.sure w' k h1 (hpast k h2)
    · rw [upd_ne _ _ e] at h2; exact h.sure w' k h1 h2
  inCv := by
    intro w' h1
    simp only
    by_cases e : w' = w
    · subst e; rw [upd_same]; exact hcv h1
    · rw [upd_ne _ _ e]; exact h.inCv w' h1
  cvr := h.cvr
  ns := h.ns
  prod := h.prod

theorem SInv.call (h : SInv B C n s) {w v : Nat} {k : Bool} {pc' : Pc} (hw : w < n) (ho : ∀ v k, (s.qs v k).con w = .out) (hin : pc'.inPop w = some (v, k))
    (hcv : (s.cv w).ws 0 = .out) (hpast : ∀ k, past k pc' ((s.cv w).ws 0) → past k (s.pc w) ((s.cv w).ws 0)) : SInv B C n (s.call w v k pc') where
  qw := by
    intro w' k'
    unfold State.call
    simp only
    by_cases e : w' = v ∧ k' = k
    · obtain ⟨rfl, rfl⟩ := e
      rw [upd2_same]
      refine ⟨(h.qw w' k').reach, ?_, (h.qw w' k').reg⟩
      intro p c hc
      have h1 := (h.qw w' k').link p c hc
      simp only [Queue.call]
      rw [upd_ne]
      · exact h1
      · rintro rfl; rw [ho] at h1; cases h1
    · rw [upd2_ne _ _ e]; exact h.qw w' k'
  con := by
    intro v' k' c hc
    unfold State.call at hc ⊢
    simp only at hc ⊢
    by_cases e : v' = v ∧ k' = k
    · obtain ⟨rfl, rfl⟩ := e
      rw [upd2_same] at hc
      simp only [Queue.call] at hc
      by_cases e' : c = w
      · subst e'; rw [upd_same]; exact ⟨hin, hw⟩
      · rw [upd_ne _ _ e'] at hc ⊢; exact h.con v' k' c hc
    · rw [upd2_ne _ _ e] at hc
      have e' : c ≠ w := by rintro rfl; exact hc (ho v' k')
      rw [upd_ne _ _ e']
      exact h.con v' k' c hc
  clean := by
    intro w' k' h1 h2 c h3
    unfold State.call at *
    simp only at *
    by_cases e : w' = v ∧ k' = k
    · obtain ⟨rfl, rfl⟩ := e
      rw [upd2_same] at *
      simp only [Queue.call] at *
      by_cases e' : w = w'
      · subst e'
        rw [upd_ne _ _ h3]
        exact h1.1 rfl c h3
      · rw [upd_ne _ _ (Ne.symm e')] at h2
        exact absurd (h1.2 e').2 h2
    · rw [upd2_ne _ _ e] at *
      exact h.clean w' k' h1 h2 c h3
  clean1 := by
    intro hn w' k' h1
    unfold State.call at *
    simp only at *
    by_cases e : w' = v ∧ k' = k
    · obtain ⟨rfl, rfl⟩ := e
      rw [upd2_same] at *
      simp only [Queue.call] at *
      have out : ∀ c, c ≠ w → (s.qs w' k').con c = .out := by
        intro c hc
        by_contra h2
        have := (h.con w' k' c h2).2
        omega
      by_cases e' : w = w'
      · subst e'
        exact ⟨fun _ c hc => out c hc, fun e => absurd rfl e⟩
      · rw [upd_ne _ _ (Ne.symm e')] at h1
        exact absurd (out w' (Ne.symm e')) h1
    · rw [upd2_ne _ _ e] at *
      exact h.clean1 hn w' k' h1
  qi := by
    intro w' k' h1
    show QI (Hot s w') ((s.call w v k pc').qs w' k') w'
    unfold State.call at *
    simp only at *
    by_cases e : w' = v ∧ k' = k
    · obtain ⟨rfl, rfl⟩ := e
      rw [upd2_same] at *
      simp only [Queue.call] at *
      by_cases e' : w = w'
      · subst e'
        unfold QI
        simp only [upd_same]
      · have h2 := h1.2 e'
        unfold QI
        simp only
        rw [upd_ne _ _ (Ne.symm e'), h2.2]
        trivial
    · rw [upd2_ne _ _ e] at *
      exact h.qi w' k' h1
  sure := by
    intro w' k' h1 h2
    have h3 : Hot s w' ∨ AllE (s.qs w' k') := by
      apply h.sure w' k' h1
      unfold State.call at h2
      simp only at h2
      by_cases e : w' = w
      · subst e; rw [upd_same] at h2; exact hpast k' h2
      · rw [upd_ne _ _ e] at h2; exact h2
    refine h3.imp id fun h3 => ?_
    unfold State.call
    simp only
    by_cases e : w' = v ∧ k' = k
    · obtain ⟨rfl, rfl⟩ := e
      rw [upd2_same]
      exact h3
    · rw [upd2_ne _ _ e]; exact h3
  inCv := by
    intro w' h1
    unfold State.call at *
    simp only at *
    by_cases e : w' = w
    · subst e; exact absurd hcv h1
    · rw [upd_ne _ _ e]; exact h.inCv w' h1
  cvr := h.cvr
  ns := h.ns
  prod := by
    intro w' k' j
    refine Iff.trans ?_ (h.prod w' k' j)
    unfold State.call
    simp only
    by_cases e : w' = v ∧ k' = k
    · obtain ⟨rfl, rfl⟩ := e
      rw [upd2_same]
      rfl
    · rw [upd2_ne _ _ e]

theorem SInv.leave (h : SInv B C n s) {w v : Nat} {k : Bool} {pc' : Pc} {f : Nat → Bool → Prop} {r : Option Nat} (hr : (s.qs v k).con w = .ret r)
    (hcv : (s.cv w).ws 0 = .out) (hf : ∀ w', w' ≠ w → f w' = s.sure w')
    (hsure : ∀ k', (f w k' ∨ n = 1) → past k' pc' ((s.cv w).ws 0) → Hot s w ∨ AllE (s.qs w k')) :
    SInv B C n { s.leave w v k pc' with sure := f } where
  qw := by
    intro w' k'
    unfold State.leave
    simp only
    by_cases e : w' = v ∧ k' = k
    · obtain ⟨rfl, rfl⟩ := e
      rw [upd2_same]
      refine ⟨(h.qw w' k').reach, ?_, (h.qw w' k').reg⟩
      intro p c hc
      have h1 := (h.qw w' k').link p c hc
      simp only [Queue.leave]
      rw [upd_ne]
      · exact h1
      · rintro rfl; rw [hr] at h1; cases h1
    · rw [upd2_ne _ _ e]; exact h.qw w' k'
  con := by
    intro v' k' c hc
    unfold State.leave at hc ⊢
    simp only at hc ⊢
    have hin := (h.con v k w (by rw [hr]; simp)).1
    by_cases e : v' = v ∧ k' = k
    · obtain ⟨rfl, rfl⟩ := e
      rw [upd2_same] at hc
      simp only [Queue.leave] at hc
      by_cases e' : c = w
      · subst e'; rw [upd_same] at hc; exact absurd rfl hc
      · rw [upd_ne _ _ e'] at hc ⊢; exact h.con v' k' c hc
    · rw [upd2_ne _ _ e] at hc
      have e' : c ≠ w := by
        rintro rfl
        have := (h.con v' k' c hc).1
        rw [hin] at this
        simp only [Option.some.injEq, Prod.mk.injEq] at this
        exact e ⟨this.1.symm, this.2.symm⟩
      rw [upd_ne _ _ e']
      exact h.con v' k' c hc
  clean := by
    intro w' k' h1 h2 c h3
    unfold State.leave at *
    simp only at *
    by_cases e : w' = v ∧ k' = k
    · obtain ⟨rfl, rfl⟩ := e
      rw [upd2_same] at *
      simp only [Queue.leave] at *
      by_cases e' : w' = w
      · subst e'; rw [upd_same] at h2; exact absurd rfl h2
      · rw [upd_ne _ _ e'] at h2
        have := h.clean w' k' h1 h2 w (Ne.symm e')
        rw [hr] at this
        cases this
    · rw [upd2_ne _ _ e] at *
      exact h.clean w' k' h1 h2 c h3
  clean1 := by
    intro hn w' k' h1
    unfold State.leave at *
    simp only at *
    by_cases e : w' = v ∧ k' = k
    · obtain ⟨rfl, rfl⟩ := e
      rw [upd2_same] at *
      simp only [Queue.leave] at *
      by_cases e' : w' = w
      · subst e'; rw [upd_same] at h1; exact absurd rfl h1
      · rw [upd_ne _ _ e'] at h1
        exact h.clean1 hn w' k' h1
    · rw [upd2_ne _ _ e] at *
      exact h.clean1 hn w' k' h1
  qi := by
    intro w' k' h1
    show QI (Hot s w') ((s.leave w v k pc').qs w' k') w'
    unfold State.leave at *
    simp only at *
    by_cases e : w' = v ∧ k' = k
    · obtain ⟨rfl, rfl⟩ := e
      rw [upd2_same] at *
      simp only [Queue.leave] at *
      unfold QI
      simp only
      by_cases e' : w' = w
      · subst e'; rw [upd_same]; trivial
      · rw [upd_ne _ _ e']
        have : (s.qs w' k').con w' = .out := by
          by_contra h2
          have := h.clean w' k' h1 h2 w (Ne.symm e')
          rw [hr] at this
          cases this
        rw [this]
        trivial
    · rw [upd2_ne _ _ e] at *
      exact h.qi w' k' h1
  sure := by
    intro w' k' h1 h2
    have h3 : Hot s w' ∨ AllE (s.qs w' k') := by
      unfold State.leave at h2
      simp only at h1 h2
      by_cases e : w' = w
      · subst e; rw [upd_same] at h2; exact hsure k' h1 h2
      · rw [upd_ne _ _ e] at h2
        rw [hf w' e] at h1
        exact h.sure w' k' h1 h2
    refine h3.imp id fun h3 => ?_
    unfold State.leave
    simp only
    by_cases e : w' = v ∧ k' = k
    · obtain ⟨rfl, rfl⟩ := e
      rw [upd2_same]
      exact h3
    · rw [upd2_ne _ _ e]; exact h3
  inCv := by
    intro w' h1
    unfold State.leave at *
    simp only at *
    by_cases e : w' = w
    · subst e; exact absurd hcv h1
    · rw [upd_ne _ _ e]; exact h.inCv w' h1
  cvr := h.cvr
  ns := h.ns
  prod := by
    intro w' k' j
    refine Iff.trans ?_ (h.prod w' k' j)
    unfold State.leave
    simp only
    by_cases e : w' = v ∧ k' = k
    · obtain ⟨rfl, rfl⟩ := e
      rw [upd2_same]
      rfl
    · rw [upd2_ne _ _ e]

theorem leave_out (h : SInv B C n s) {w v : Nat} {k : Bool} {pc' : Pc} {r : Option Nat} (hr : (s.qs v k).con w = .ret r) :
    ∀ v' k', ((s.leave w v k pc').qs v' k').con w = .out := by
  intro v' k'
  unfold State.leave
  simp only
  by_cases e : v' = v ∧ k' = k
  · obtain ⟨rfl, rfl⟩ := e
    rw [upd2_same]
    simp only [Queue.leave, upd_same]
  · rw [upd2_ne _ _ e]
    by_contra h1
    have h2 := (h.con v' k' w h1).1
    have h3 := (h.con v k w (by rw [hr]; simp)).1
    rw [h3] at h2
    simp only [Option.some.injEq, Prod.mk.injEq] at h2
    exact e ⟨h2.1.symm, h2.2.symm⟩

/-- Steps that do not concern the queues. -/
theorem SInv.sync (h : SInv B C n s) (hq : s'.qs = s.qs) (hs : s'.sure = s.sure) (hpop : ∀ w, (s'.pc w).inPop w = (s.pc w).inPop w)
    (hot : ∀ w, Hot s w → Hot s' w ∨ (s'.pc w = .waiting ∧ (s'.cv w).ws 0 = .out))
    (hpast : ∀ w k, past k (s'.pc w) ((s'.cv w).ws 0) → past k (s.pc w) ((s.cv w).ws 0))
    (inCv : ∀ w, (s'.cv w).ws 0 ≠ .out → s'.pc w = .waiting) (cvr : ∀ w, Cv.Reach 1 (s'.cv w))
    (ns : ∀ w j, (s'.cv w).ns j ≠ .out → s'.ps j = .inCv w) (hps : ∀ w k j, s'.ps j = .push w k ↔ s.ps j = .push w k) : SInv B C n s' where
  qw := by rw [hq]; exact h.qw
  con := by
    intro v k c hc
    rw [hpop]
    rw [hq] at hc
    exact h.con v k c hc
  clean := by rw [hq]; exact h.clean
  clean1 := by rw [hq]; exact h.clean1
  qi := by
    intro w k h1
    rw [hq] at h1 ⊢
    by_cases h2 : s'.pc w = .waiting
    · have : (s.qs w k).con w = .out := h.outside (by rw [← hpop, h2]; rfl) w k
      unfold QI
      rw [this]
      trivial
    · refine (h.qi w k h1).mono fun h3 => (hot w h3).resolve_right fun h4 => h2 h4.1
  sure := by
    intro w k h1 h2
    rw [hs] at h1
    rw [hq]
    rcases h.sure w k h1 (hpast w k h2) with h3 | h3
    · refine .inl ((hot w h3).resolve_right fun h4 => ?_)
      rw [h4.1] at h2
      exact h2 h4.2
    · exact .inr h3
  inCv := inCv
  cvr := cvr
  ns := ns
  prod := by
    intro w k j
    rw [hq, hps]
    exact h.prod w k j

/-- A step inside `pop`. -/
theorem SInv.pop (hB : 2 ≤ B) (hC : 0 < C) (h : SInv B C n s) {w v : Nat} {k : Bool} {u : Queue} (hs : QStep B w (s.qs v k) u) :
    SInv B C n { s with qs := upd2 s.qs v k u } := by
  have key : ∀ {P : Nat → Bool → Queue → Prop}, (∀ w' k', P w' k' (s.qs w' k')) → P v k u → ∀ w' k', P w' k' (upd2 s.qs v k u w' k') := by
    intro P h1 h2 w' k'
    by_cases e : w' = v ∧ k' = k
    · obtain ⟨rfl, rfl⟩ := e
      rw [upd2_same]
      exact h2
    · rw [upd2_ne _ _ e]; exact h1 w' k'
  have f := hs.frame
  have fc : ∀ c, u.con c ≠ .out → (s.qs v k).con c ≠ .out := by
    intro c hc
    by_cases e : c = w
    · subst e; exact f.2.2.2.1
    · rw [f.2.2.1 c e] at hc; exact hc
  refine ⟨?_, ?_, ?_, ?_, ?_, ?_, h.inCv, h.cvr, h.ns, ?_⟩
  · exact key (P := fun _ _ u => QW B C u) h.qw (hs.qw (h.qw v k))
  · exact key (P := fun v k u => ∀ c, u.con c ≠ .out → (s.pc c).inPop c = some (v, k) ∧ c < n) h.con fun c hc => h.con v k c (fc c hc)
  · refine key (P := fun w k u => u.clean → u.con w ≠ .out → ∀ c, c ≠ w → u.con c = .out) h.clean fun h1 h2 c h3 => ?_
    rw [f.2.1] at h1
    have := h.clean v k h1 (fc v h2) c h3
    by_contra h4
    exact fc c h4 this
  · intro hn
    refine key (P := fun w k u => u.con w ≠ .out → u.clean) (h.clean1 hn) fun h1 => ?_
    rw [f.2.1]
    exact h.clean1 hn v k (fc v h1)
  · refine key (P := fun w k u => u.clean → QI (Hot s w) u w) h.qi fun h1 => ?_
    rw [f.2.1] at h1
    exact hs.qi hB hC (h.qw v k) (h.clean v k h1) (h.qi v k h1)
  · refine key (P := fun w k u => (s.sure w k ∨ n = 1) → past k (s.pc w) ((s.cv w).ws 0) → Hot s w ∨ AllE u) h.sure fun h1 h2 => ?_
    exact (h.sure v k h1 h2).imp id fun h3 p => hs.allE hB hC (h.qw v k) (h3 p)
  · refine key (P := fun w k u => ∀ j, (u.q.subs j).prod ≠ .out ↔ s.ps j = .push w k) h.prod fun j => ?_
    rw [(hs.subs j).2.1]
    exact h.prod v k j

/-- A step inside `push`. -/
theorem SInv.push (hB : 2 ≤ B) (hC : 0 < C) (h : SInv B C n s) {j w : Nat} {k : Bool} {q' : MQ.State} {l : List Nat} {x : JPc}
    (hs : MQ.Step B j (s.qs w k).q q') (hc : (q'.subs j).prod ≠ ((s.qs w k).q.subs j).prod) (hj : j ∈ l) (hl : ∀ p, p ∈ (s.qs w k).list → p ∈ l)
    (hps : s.ps j = .out ∨ s.ps j = .push w k) (hx : (q'.subs j).prod = .out → x = .mark w ∨ x = .pushed w)
    (hx' : (q'.subs j).prod ≠ .out → x = .push w k) :
    SInv B C n { s with qs := upd2 s.qs w k { s.qs w k with q := q', list := l }, ps := upd s.ps j x } := by
  have key : ∀ {P : Nat → Bool → Queue → Prop}, (∀ w' k', ¬(w' = w ∧ k' = k) → P w' k' (s.qs w' k')) → P w k { s.qs w k with q := q', list := l } →
      ∀ w' k', P w' k' (upd2 s.qs w k { s.qs w k with q := q', list := l } w' k') := by
    intro P h1 h2 w' k'
    by_cases e : w' = w ∧ k' = k
    · obtain ⟨rfl, rfl⟩ := e
      rw [upd2_same]
      exact h2
    · rw [upd2_ne _ _ e]; exact h1 w' k' e
  have hot : ∀ w', Hot s w' → Hot { s with qs := upd2 s.qs w k { s.qs w k with q := q', list := l }, ps := upd s.ps j x } w' := by
    rintro w' (h1 | ⟨j', h1⟩)
    · exact .inl h1
    · refine .inr ⟨j', ?_⟩
      simp only
      by_cases e : j' = j
      · subst e
        rcases h1 with h1 | h1 | h1
        · rcases hps with h2 | h2 <;> rw [h2] at h1 <;> cases h1
        · rcases hps with h2 | h2 <;> rw [h2] at h1 <;> cases h1
        · exact .inr (.inr h1)
      · rw [upd_ne _ _ e]; exact h1
  have hot' : (q'.subs j).prod = .out → Hot { s with qs := upd2 s.qs w k { s.qs w k with q := q', list := l }, ps := upd s.ps j x } w := by
    intro h1
    refine .inr ⟨j, ?_⟩
    simp only [upd_same]
    rcases hx h1 with h2 | h2
    · exact .inl h2
    · exact .inr (.inl h2)
  refine ⟨?_, ?_, ?_, ?_, ?_, ?_, h.inCv, h.cvr, ?_, ?_⟩
  · exact key (P := fun _ _ u => QW B C u) (fun w' k' _ => h.qw w' k') ((h.qw w k).push hs hc hj hl)
  · exact key (P := fun v k u => ∀ c, u.con c ≠ .out → (s.pc c).inPop c = some (v, k) ∧ c < n) (fun w' k' _ => h.con w' k') (h.con w k)
  · exact key (P := fun w k u => u.clean → u.con w ≠ .out → ∀ c, c ≠ w → u.con c = .out) (fun w' k' _ => h.clean w' k') (h.clean w k)
  · intro hn
    exact key (P := fun w k u => u.con w ≠ .out → u.clean) (fun w' k' _ => h.clean1 hn w' k') (h.clean1 hn w k)
  · refine key (P := fun w' k' u => u.clean → QI (Hot { s with qs := upd2 s.qs w k { s.qs w k with q := q', list := l }, ps := upd s.ps j x } w') u w')
      (fun w' k' _ h1 => (h.qi w' k' h1).mono (hot w')) fun h1 => ?_
    exact QI.push hB hC (h.qw w k) (h.clean w k h1) hs hc hot' ((h.qi w k h1).mono (hot w))
  · refine key (P := fun w' k' u => (s.sure w' k' ∨ n = 1) → past k' (s.pc w') ((s.cv w').ws 0) →
      Hot { s with qs := upd2 s.qs w k { s.qs w k with q := q', list := l }, ps := upd s.ps j x } w' ∨ AllE u)
      (fun w' k' _ h1 h2 => (h.sure w' k' h1 h2).imp (hot w') id) fun h1 h2 => ?_
    rcases h.sure w k h1 h2 with h3 | h3
    · exact .inl (hot w h3)
    · exact (E.push (l := l) hs hc hot').imp id fun h4 p => h4 p (h3 p)
  · intro w' j' h1
    simp only at h1 ⊢
    have h2 := h.ns w' j' h1
    rw [upd_ne]
    · exact h2
    · rintro rfl
      rcases hps with h3 | h3 <;> rw [h3] at h2 <;> cases h2
  · have hd := hs.of_prod hc
    refine key (P := fun w k u => ∀ j', (u.q.subs j').prod ≠ .out ↔ upd s.ps j x j' = .push w k) ?_ ?_
    · intro w' k' e j'
      by_cases e' : j' = j
      · subst e'
        rw [upd_same]
        have h1 : ((s.qs w' k').q.subs j').prod = .out := by
          by_contra h1
          rw [← ne_eq, h.prod] at h1
          rcases hps with h2 | h2 <;> rw [h2] at h1
          · cases h1
          · simp only [JPc.push.injEq] at h1
            exact e ⟨h1.1.symm, h1.2.symm⟩
        rw [h1]
        refine ⟨fun h => absurd rfl h, fun h2 => ?_⟩
        by_cases h3 : (q'.subs j').prod = .out
        · rcases hx h3 with h4 | h4 <;> rw [h4] at h2 <;> cases h2
        · rw [hx' h3] at h2
          simp only [JPc.push.injEq] at h2
          exact absurd ⟨h2.1.symm, h2.2.symm⟩ e
      · rw [upd_ne _ _ e']; exact h.prod w' k' j'
    · intro j'
      by_cases e' : j' = j
      · subst e'
        rw [upd_same]
        refine ⟨hx', fun h2 h3 => ?_⟩
        rcases hx h3 with h4 | h4 <;> rw [h4] at h2 <;> cases h2
      · rw [upd_ne _ _ e']
        simp only
        rw [hd.2.2 j' e']
        exact h.prod w k j'

end RG.RQ
