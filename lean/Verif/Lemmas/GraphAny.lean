import Verif.Lemmas.GraphOrder
/-
Facts about the task graph that hold for all programs, also for those that violate `NestingOk`.
-/
set_option linter.unusedVariables false
namespace RG.Graph

theorem olderThan_sub_cons {x e a : Entry} {l : List Entry} (h : a ∈ olderThan e l) :
    a ∈ olderThan e (x :: l) := by
  by_cases hx : x = e
  · subst hx; rw [olderThan_cons_self]; exact olderThan_sub h
  · rw [olderThan_cons_ne hx]; exact h

theorem olderThan_sublist {e a : Entry} {l l' : List Entry} (hs : l'.Sublist l) (h : a ∈ olderThan e l') :
    a ∈ olderThan e l := by
  induction hs with
  | slnil => exact h
  | cons x hs ih => exact olderThan_sub_cons (ih h)
  | @cons_cons l₁ l₂ x hs ih =>
    by_cases hx : x = e
    · subst hx; rw [olderThan_cons_self] at h ⊢; exact hs.subset h
    · rw [olderThan_cons_ne hx] at h ⊢; exact ih h

/-- task `p` is one that task `t` may have to wait for, because of entry `i` of `t` -/
def Cause (cfg : Cfg) (s : State) (t i : Nat) (p : Entry) : Prop :=
  ∃ r, (cfg.res t)[i]? = some r ∧ p ∈ olderThan (t, i) (s.hist r)

structure Any (cfg : Cfg) (s : State) : Prop where
  users : ∀ r, (s.users r).Sublist (s.hist r)
  scan : ∀ t i rem, s.ph t = .initing (.scan i rem) → ∀ e ∈ rem, Cause cfg s t i e
  link : ∀ t i p rem, s.ph t = .initing (.link i p rem) →
    (∀ e ∈ p :: rem, Cause cfg s t i e) ∧ cfg.space p.1 = cfg.space t ∧ cfg.serial p.1 t = true
  incr : ∀ t i p rem, s.ph t = .initing (.incr i p rem) → ∀ e ∈ rem, Cause cfg s t i e
  fol : ∀ p t, .pre t ∈ s.fol p → cfg.space p = cfg.space t ∧ cfg.serial p t = true ∧
    ∃ i j, Cause cfg s t i (p, j)

variable {cfg : Cfg} {s s' : State} {l : Lbl}

theorem Cause.mono {t i : Nat} {p : Entry} (h : Cause cfg s t i p) (hs : Step cfg l s s') :
    Cause cfg s' t i p := by
  obtain ⟨r, h1, h2⟩ := h
  refine ⟨r, h1, ?_⟩
  cases hs with
  | @pushUser _ u j r' _ _ =>
    dsimp only
    by_cases e : r = r'
    · subst e; rw [upd_same]; exact olderThan_sub_cons h2
    · rw [upd_ne _ _ e]; exact h2
  | _ => exact h2

theorem Any.step (h : Any cfg s) (hs : Step cfg l s s') : Any cfg s' := by
  have cm : ∀ {t i p}, Cause cfg s t i p → Cause cfg s' t i p := fun h => h.mono hs
  constructor
  · intro r
    have := h.users r
    cases hs with
    | @pushUser _ u j r' _ _ =>
      dsimp only
      by_cases e : r = r'
      · subst e; rw [upd_same, upd_same]; exact this.cons_cons _
      · rw [upd_ne _ _ e, upd_ne _ _ e]; exact this
    | @delete _ t i r' _ _ _ =>
      dsimp only
      by_cases e : r = r'
      · subst e; rw [upd_same]; exact List.erase_sublist.trans this
      · rw [upd_ne _ _ e]; exact this
    | _ => exact this
  · intro t i rem hp e he
    apply cm
    have h1 := h.scan
    have h2 := h.incr
    cases hs with
    | @lockRes _ u j r h3 h4 h5 =>
      dsimp only at hp
      by_cases e' : t = u
      · subst e'
        rw [upd_same] at hp
        cases hp
        exact ⟨r, h4, olderThan_sublist (h.users r) he⟩
      · rw [upd_ne _ _ e'] at hp; exact h1 _ _ _ hp e he
    | _ => first | exact h1 _ _ _ hp e he | (dsimp only [State.decPost, State.decPre, State.decCd] at hp; grind [upd])
  · intro t i p rem hp
    have key : (∀ e ∈ p :: rem, Cause cfg s t i e) ∧ cfg.space p.1 = cfg.space t ∧ cfg.serial p.1 t = true := by
      have h1 := h.scan
      have h2 := h.link
      cases hs with
      | _ => first | exact h2 _ _ _ _ hp | (dsimp only [State.decPost, State.decPre, State.decCd] at hp; grind [upd])
    exact ⟨fun e he => cm (key.1 e he), key.2⟩
  · intro t i p rem hp e he
    apply cm
    have h1 := h.link
    have h2 := h.incr
    cases hs with
    | @link _ u j q rem' h3 =>
      dsimp only at hp
      by_cases e' : t = u
      · subst e'
        rw [upd_same] at hp
        cases hp
        exact (h1 _ _ _ _ h3).1 e (.tail _ he)
      · rw [upd_ne _ _ e'] at hp; exact h2 _ _ _ _ hp e he
    | _ => first | exact h2 _ _ _ _ hp e he | (dsimp only [State.decPost, State.decPre, State.decCd] at hp; grind [upd])
  · intro p t hp
    have key : cfg.space p = cfg.space t ∧ cfg.serial p t = true ∧ ∃ i j, Cause cfg s t i (p, j) := by
      have h1 := h.fol
      cases hs with
      | @link _ u j q rem h3 =>
        dsimp only at hp
        by_cases e : p = q.1
        · subst e
          rw [upd_same] at hp
          rcases List.mem_cons.1 hp with hp | hp
          · cases hp
            have := h.link _ _ _ _ h3
            exact ⟨this.2.1, this.2.2, j, q.2, this.1 _ (.head _)⟩
          · exact h1 _ _ hp
        · rw [upd_ne _ _ e] at hp; exact h1 _ _ hp
      | @parentPush _ u q h3 h4 =>
        dsimp only at hp
        by_cases e : p = u
        · subst e
          rw [upd_same] at hp
          rcases List.mem_cons.1 hp with hp | hp
          · cases hp
          · exact h1 _ _ hp
        · rw [upd_ne _ _ e] at hp; exact h1 _ _ hp
      | _ => exact h1 _ _ hp
    obtain ⟨k1, k2, i, j, k3⟩ := key
    exact ⟨k1, k2, i, j, cm k3⟩

theorem Any.reach (h : Reach cfg s) : Any cfg s := by
  induction h with
  | init =>
    constructor
    · intro r; exact .slnil
    all_goals intros; simp_all [init]
  | step _ hs ih => exact ih.step hs

/-- with one submitting thread per space -/
structure AnySingle (cfg : Cfg) (s : State) : Prop where
  last : ∀ t i u, s.ph t = .submitting i → u < s.n → cfg.space u = cfg.space t → u ≤ t
  lt : ∀ r e, e ∈ s.hist r → e.1 < s.n
  older : ∀ r e e', e ∈ olderThan e' (s.hist r) → cfg.space e.1 = cfg.space e'.1 → e.1 ≤ e'.1

theorem AnySingle.init : AnySingle cfg init := by
  constructor <;> intros <;> simp_all [Graph.init, olderThan]

theorem AnySingle.step (hsg : cfg.single = true) (hd : Dom cfg s) (ih : AnySingle cfg s) (hs : Step cfg l s s') :
    AnySingle cfg s' := by
    constructor
    · intro t i u hp hu hsp
      have h1 := ih.last
      cases hs with
      | @beginSubmit _ hq h2 =>
        dsimp only at hp hu
        by_cases e : t = s.n
        · subst e; omega
        · rw [upd_ne _ _ e] at hp
          have htn : t < s.n := hd.lt_ph t (by rw [hp]; simp)
          by_cases eu : u = s.n
          · subst eu; exact absurd hp (h2 hsg t i htn hsp.symm)
          · exact h1 t i u hp (by omega) hsp
      | @pushUser _ v j r h2 h3 =>
        dsimp only at hp hu
        by_cases e : t = v
        · subst e; exact h1 t _ u h2 hu hsp
        · rw [upd_ne _ _ e] at hp; exact h1 t i u hp hu hsp
      | _ =>
        first
        | exact h1 t i u hp hu hsp
        | (dsimp only [State.decPost, State.decPre, State.decCd] at hp hu; grind [upd])
    · intro r e he
      have h1 := ih.lt
      have h2 := hd.lt_ph
      cases hs with
      | @pushUser _ v j r' h3 h4 =>
        dsimp only at he ⊢
        by_cases e' : r = r'
        · subst e'
          rw [upd_same] at he
          rcases List.mem_cons.1 he with he | he
          · subst he; exact h2 _ (by rw [h3]; simp)
          · exact h1 _ _ he
        · rw [upd_ne _ _ e'] at he; exact h1 _ _ he
      | beginSubmit => exact Nat.lt_succ_of_lt (h1 _ _ he)
      | _ => exact h1 _ _ he
    · intro r e e' he hsp
      have h1 := ih.older
      cases hs with
      | @pushUser _ v j r' h3 h4 =>
        dsimp only at he
        by_cases er : r = r'
        · subst er
          rw [upd_same] at he
          by_cases ev : (v, j) = e'
          · subst ev
            rw [olderThan_cons_self] at he
            exact ih.last v j e.1 h3 (ih.lt _ _ he) hsp
          · rw [olderThan_cons_ne ev] at he; exact h1 _ _ _ he hsp
        · rw [upd_ne _ _ er] at he; exact h1 _ _ _ he hsp
      | _ => exact h1 _ _ _ he hsp

theorem AnySingle.reach (hsg : cfg.single = true) (h : Reach cfg s) : AnySingle cfg s := by
  induction h with
  | init => exact .init
  | step hr hs ih => exact ih.step hsg (Dom.reach hr) hs

structure AnyHist (cfg : Cfg) (s : State) : Prop where
  mem : ∀ r e, e ∈ s.hist r → (cfg.res e.1)[e.2]? = some r ∧ Pushed (s.ph e.1) e.2
  nodup : ∀ r, (s.hist r).Nodup

theorem AnyHist.reach (h : Reach cfg s) : AnyHist cfg s := by
  induction h with
  | init => constructor <;> intros <;> simp_all [init]
  | @step s s' l hr hs ih =>
    have hd := Dom.reach hr
    constructor
    · intro r e he
      have h1 := ih.mem
      cases hs with
      | @pushUser _ v j r' h3 h4 =>
        dsimp only at he ⊢
        have key : e ∈ s.hist r → (cfg.res e.1)[e.2]? = some r ∧
            Pushed (upd s.ph v (.submitting (j + 1)) e.1) e.2 := by
          intro he
          refine ⟨(h1 r e he).1, ?_⟩
          have := (h1 r e he).2
          by_cases ev : e.1 = v
          · rw [ev, upd_same]; rw [ev, h3] at this; simp only [Pushed] at this ⊢; omega
          · rw [upd_ne _ _ ev]; exact this
        by_cases e' : r = r'
        · subst e'
          rw [upd_same] at he
          rcases List.mem_cons.1 he with he | he
          · subst he; exact ⟨h4, by simp [Pushed]⟩
          · exact key he
        · rw [upd_ne _ _ e'] at he; exact key he
      | @beginSubmit _ h3 h4 =>
        dsimp only at he ⊢
        have h5 := h1 r e he
        by_cases ev : e.1 = s.n
        · rw [ev, hd.ph s.n (Nat.le_refl _)] at h5; exact h5.2.elim
        · rw [upd_ne _ _ ev]; exact h5
      | _ =>
        have h5 := h1 r e he
        first
        | exact h5
        | (refine ⟨h5.1, ?_⟩
           have h6 := h5.2
           dsimp only [State.decPost, State.decPre, State.decCd]
           first
           | exact h6
           | (rename_i u _ _; by_cases ev : e.1 = u
              · rw [ev, upd_same]; split <;> trivial
              · rw [upd_ne _ _ ev]; exact h6)
           | grind [upd, Pushed])
    · intro r
      have h1 := ih.nodup
      cases hs with
      | @pushUser _ v j r' h3 h4 =>
        dsimp only
        by_cases e' : r = r'
        · subst e'
          rw [upd_same]
          refine List.nodup_cons.2 ⟨?_, h1 r⟩
          intro h
          have := (ih.mem r _ h).2
          rw [h3] at this
          simp [Pushed] at this
        · rw [upd_ne _ _ e']; exact h1 r
      | _ => exact h1 r

end RG.Graph
