import Verif.Lemmas.Commute
import Verif.Lemmas.Race
/-
Lemmas for C76: the order in which the sequential program executes the phases.
-/
set_option linter.unusedVariables false
namespace RG.Bodies
open RG.Graph

variable {cfg : Cfg} {M : Type} {P : Prog M} {n : Nat}

/-- The sequential program executes phase `a` before phase `b`. -/
def Pre (cfg : Cfg) (P : Prog M) (a b : Nat × Nat) : Prop :=
  (a.1 = b.1 ∧ a.2 < b.2) ∨ Left cfg a.1 b.1 ∨
    (∃ c, cfg.parentOf c = some a.1 ∧ Descends cfg b.1 c ∧ a.2 < P.after c) ∨
    (∃ c, cfg.parentOf c = some b.1 ∧ Descends cfg a.1 c ∧ P.after c ≤ b.2)

/-- no task descends from two siblings -/
theorem apart (hu : Up cfg n) {a b c : Nat} (ha : Descends cfg c a) (hb : Descends cfg c b) (hc : c < n)
    (hne : a ≠ b) (hpar : cfg.parentOf a = cfg.parentOf b) : False := by
  have han : a < n := Nat.lt_of_le_of_lt (ha.le hu hc) hc
  have hbn : b < n := Nat.lt_of_le_of_lt (hb.le hu hc) hc
  rcases ha.chain hb with h | h
  · obtain ⟨q', e1, e2⟩ := h.up hne
    rw [e1] at hpar
    have e3 := hu b q' hbn hpar.symm
    have e4 := e2.le hu (by have := hu a q' han e1; omega)
    omega
  · obtain ⟨q', e1, e2⟩ := h.up (Ne.symm hne)
    rw [e1] at hpar
    have e3 := hu a q' han hpar
    have e4 := e2.le hu (by have := hu b q' hbn e1; omega)
    omega

theorem Pre.irrefl (hu : Up cfg n) {a : Nat × Nat} (ha : a.1 < n) : ¬ Pre cfg P a a := by
  rintro (⟨_, h⟩ | ⟨p, q, h1, h2, h3, h4⟩ | ⟨c, h1, h2, _⟩ | ⟨c, h1, h2, _⟩)
  · omega
  · exact apart hu h3 h4 ha (by omega) h2
  · have h3 := h2.le hu ha
    have := hu c _ (by omega) h1
    omega
  · have h3 := h2.le hu ha
    have := hu c _ (by omega) h1
    omega

theorem mem_inline (hu : Up cfg n) (hl : ∀ c q, c < n → cfg.parentOf c = some q → P.after c ≤ P.len q) :
    ∀ d t, n - t ≤ d → t < n → ∀ a, a ∈ inline cfg P n d t ↔ a.1 < n ∧ Descends cfg a.1 t ∧ a.2 < P.len a.1 := by
  intro d
  induction d with
  | zero => intro t h1 h2; omega
  | succ d ih =>
    intro t hd ht a
    simp only [inline, List.mem_flatMap, List.mem_range, List.mem_append, children, List.mem_filter,
      Bool.and_eq_true, decide_eq_true_eq, beq_iff_eq]
    constructor
    · rintro ⟨k, hk, ⟨c, ⟨hc, hp, rfl⟩, hm⟩ | hm⟩
      · have := hu c t hc hp
        obtain ⟨h1, h2, h3⟩ := (ih c (by omega) hc a).1 hm
        exact ⟨h1, h2.trans' (.child hp .refl), h3⟩
      · split at hm
        · simp only [List.mem_singleton] at hm
          subst hm
          exact ⟨ht, .refl, by assumption⟩
        · cases hm
    · rintro ⟨h1, h2, h3⟩
      by_cases e : t = a.1
      · subst e
        refine ⟨a.2, by omega, .inr ?_⟩
        rw [if_pos h3]
        simp
      · obtain ⟨c, h4, h5⟩ := h2.viaChild (Ne.symm e)
        have hc : c < n := Nat.lt_of_le_of_lt (h5.le hu h1) h1
        have := hu c t hc h4
        have := hl c t hc h4
        exact ⟨P.after c, by omega, .inl ⟨c, ⟨hc, h4, rfl⟩, (ih c (by omega) hc a).2 ⟨h1, h5, h3⟩⟩⟩

theorem mem_program (hu : Up cfg n) (hl : ∀ c q, c < n → cfg.parentOf c = some q → P.after c ≤ P.len q)
    (a : Nat × Nat) : a ∈ program cfg P n ↔ a.1 < n ∧ a.2 < P.len a.1 := by
  simp only [program, List.mem_flatMap, List.mem_filter, List.mem_range, decide_eq_true_eq]
  constructor
  · rintro ⟨t, ⟨h1, h2⟩, h3⟩
    obtain ⟨h4, _, h5⟩ := (mem_inline hu hl n t (by omega) h1 a).1 h3
    exact ⟨h4, h5⟩
  · rintro ⟨h1, h2⟩
    obtain ⟨b, h3, h4⟩ := root_exists hu a.1 h1
    have hb : b < n := Nat.lt_of_le_of_lt (h4.le hu h1) h1
    exact ⟨b, ⟨hb, h3⟩, (mem_inline hu hl n b (by omega) hb a).2 ⟨h1, h4, h2⟩⟩

theorem pairwise_inline (hu : Up cfg n) (hl : ∀ c q, c < n → cfg.parentOf c = some q → P.after c ≤ P.len q)
    (hm : ∀ c c' q, c < n → c' < n → cfg.parentOf c = some q → cfg.parentOf c' = some q → P.after c < P.after c' →
      c < c') :
    ∀ d t, n - t ≤ d → t < n → (inline cfg P n d t).Pairwise (Pre cfg P) := by
  intro d
  induction d with
  | zero => intro t h1 h2; omega
  | succ d ih =>
    intro t hd ht
    have mem : ∀ k c, c ∈ children cfg P n t k ↔ c < n ∧ cfg.parentOf c = some t ∧ P.after c = k := by
      intro k c
      simp [children]
    have sub : ∀ k a, a ∈ (children cfg P n t k).flatMap (inline cfg P n d) →
        ∃ c, c < n ∧ cfg.parentOf c = some t ∧ P.after c = k ∧ Descends cfg a.1 c := by
      intro k a ha
      obtain ⟨c, hc, ha⟩ := List.mem_flatMap.1 ha
      obtain ⟨h1, h2, h3⟩ := (mem k c).1 hc
      have := hu c t h1 h2
      exact ⟨c, h1, h2, h3, ((mem_inline hu hl d c (by omega) h1 a).1 ha).2.1⟩
    have own : ∀ (k : Nat) (a : Nat × Nat), a ∈ (if k < P.len t then [(t, k)] else []) → a = (t, k) := by
      intro k a ha
      split at ha
      · simpa using ha
      · cases ha
    refine List.pairwise_flatMap.2 ⟨fun k _ => ?_, ?_⟩
    · refine List.pairwise_append.2 ⟨List.pairwise_flatMap.2 ⟨fun c hc => ?_, ?_⟩, ?_, ?_⟩
      · obtain ⟨h1, h2, _⟩ := (mem k c).1 hc
        have := hu c t h1 h2
        exact ih c (by omega) h1
      · have hp : (children cfg P n t k).Pairwise (· < ·) := List.Pairwise.filter _ List.pairwise_lt_range
        refine (List.Pairwise.and_mem.1 hp).imp ?_
        rintro c c' ⟨h1, h2, h3⟩ a ha b hb
        obtain ⟨h4, h5, _⟩ := (mem k c).1 h1
        obtain ⟨h6, h7, _⟩ := (mem k c').1 h2
        have := hu c t h4 h5
        have := hu c' t h6 h7
        exact .inr (.inl ⟨c, c', h3, by rw [h5, h7], ((mem_inline hu hl d c (by omega) h4 a).1 ha).2.1,
          ((mem_inline hu hl d c' (by omega) h6 b).1 hb).2.1⟩)
      · split <;> simp
      · intro a ha b hb
        obtain ⟨c, h1, h2, h3, h4⟩ := sub k a ha
        rw [own k b hb]
        exact .inr (.inr (.inr ⟨c, h2, h4, by dsimp only; omega⟩))
    · refine List.pairwise_lt_range.imp ?_
      intro k k' hkk a ha b hb
      rcases List.mem_append.1 ha with ha | ha
      · obtain ⟨c, h1, h2, h3, h4⟩ := sub k a ha
        rcases List.mem_append.1 hb with hb | hb
        · obtain ⟨c', h1', h2', h3', h4'⟩ := sub k' b hb
          exact .inr (.inl ⟨c, c', hm c c' t h1 h1' h2 h2' (by omega), by rw [h2, h2'], h4, h4'⟩)
        · rw [own k' b hb]
          exact .inr (.inr (.inr ⟨c, h2, h4, by dsimp only; omega⟩))
      · rw [own k a ha]
        rcases List.mem_append.1 hb with hb | hb
        · obtain ⟨c', h1', h2', h3', h4'⟩ := sub k' b hb
          exact .inr (.inr (.inl ⟨c', h2', h4', by dsimp only; omega⟩))
        · rw [own k' b hb]
          exact .inl ⟨rfl, hkk⟩

theorem pairwise_program (hu : Up cfg n) (hl : ∀ c q, c < n → cfg.parentOf c = some q → P.after c ≤ P.len q)
    (hm : ∀ c c' q, c < n → c' < n → cfg.parentOf c = some q → cfg.parentOf c' = some q → P.after c < P.after c' →
      c < c') : (program cfg P n).Pairwise (Pre cfg P) := by
  refine List.pairwise_flatMap.2 ⟨fun t ht => ?_, ?_⟩
  · simp only [List.mem_filter, List.mem_range, decide_eq_true_eq] at ht
    exact pairwise_inline hu hl hm n t (by omega) ht.1
  · have hp : ((List.range n).filter fun t => decide (cfg.parentOf t = none)).Pairwise (· < ·) :=
      List.Pairwise.filter _ List.pairwise_lt_range
    refine (List.Pairwise.and_mem.1 hp).imp ?_
    rintro t t' ⟨h1, h2, h3⟩ a ha b hb
    simp only [List.mem_filter, List.mem_range, decide_eq_true_eq] at h1 h2
    exact .inr (.inl ⟨t, t', h3, by rw [h1.2, h2.2], ((mem_inline hu hl n t (by omega) h1.1 a).1 ha).2.1,
      ((mem_inline hu hl n t' (by omega) h2.1 b).1 hb).2.1⟩)

theorem nodup_program (hu : Up cfg n) (hl : ∀ c q, c < n → cfg.parentOf c = some q → P.after c ≤ P.len q)
    (hm : ∀ c c' q, c < n → c' < n → cfg.parentOf c = some q → cfg.parentOf c' = some q → P.after c < P.after c' →
      c < c') : (program cfg P n).Nodup := by
  refine (List.Pairwise.and_mem.1 (pairwise_program hu hl hm)).imp ?_
  rintro a b ⟨h1, _, h2⟩ rfl
  exact Pre.irrefl hu ((mem_program hu hl a).1 h1).1 h2

end RG.Bodies
