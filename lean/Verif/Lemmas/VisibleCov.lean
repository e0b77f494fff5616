import Verif.Lemmas.Visible
/-
Happens-before in the task graph: the tasks that conflict with an earlier one.
-/
set_option linter.unusedVariables false
namespace RG.Vis
open RG.Graph
open RG.Dyn (owner)

variable {cfg : Cfg} {x x' : V}

/-! ### generic versions of the lemmas of Lemmas/GraphOrder -/

section
variable {s : State} {L : Nat → Prop}

theorem gcov_end (hd : Dom cfg s) (hi : Core cfg s) {t i r pc} (hp : s.ph t = .initing pc)
    (hr : (cfg.res t)[i]? = some r) {vis} (h : olderThan (t, i) (s.users r) = vis)
    (hv : ∀ e ∈ vis, cfg.space e.1 = cfg.space t → cfg.serial e.1 t = true → L e.1)
    (hg : ∀ e ∈ s.hist r, notDel (s.fl e.1) e.2 = false → L e.1) :
    ∀ e ∈ olderThan (t, i) (s.hist r), cfg.space e.1 = cfg.space t → ConflictOn cfg r e.1 t → L e.1 := by
  intro e he h1 h2
  rw [hi.older_users hd (hi.own_entry hd hp hr)] at h
  by_cases hn : notDel (s.fl e.1) e.2 = true
  · exact hv e (h ▸ List.mem_filter.2 ⟨he, hn⟩) h1 h2.serial
  · exact hg e (olderThan_sub he) (by simpa using hn)

theorem gcov_sync (hd : Dom cfg s) (hi : Core cfg s) {t i r pc} (hp : s.ph t = .initing pc)
    (hr : (cfg.res t)[i]? = some r) {vis rem : List Entry} {p : Entry}
    (h : olderThan (t, i) (s.users r) = vis ++ p :: rem)
    (hv : ∀ e ∈ vis, cfg.space e.1 = cfg.space t → cfg.serial e.1 t = true → L e.1)
    (hg : ∀ e ∈ s.hist r, notDel (s.fl e.1) e.2 = false → L e.1)
    (h1 : cfg.space p.1 = cfg.space t) (h2 : L p.1)
    (hsy : cfg.sync p.1 r = true) :
    ∀ e ∈ olderThan (t, i) (s.hist r), cfg.space e.1 = cfg.space t → ConflictOn cfg r e.1 t →
      L e.1 ∨ ∃ q ∈ olderThan (t, i) (s.hist r), e ∈ olderThan q (s.hist r) ∧
        cfg.space q.1 = cfg.space t ∧ cfg.sync q.1 r = true ∧ L q.1 := by
  intro e he h3 h4
  have hn' := hi.histNodup r
  have hu := hi.older_users hd (hi.own_entry hd hp hr)
  rw [h] at hu
  have hpm : p ∈ olderThan (t, i) (s.hist r) := (List.mem_filter.1 (hu ▸ (by simp : p ∈ vis ++ p :: rem))).1
  by_cases hn : notDel (s.fl e.1) e.2 = true
  · have hm : e ∈ vis ++ p :: rem := hu ▸ List.mem_filter.2 ⟨he, hn⟩
    rcases List.mem_append.1 hm with hm | hm
    · exact .inl (hv e hm h3 h4.serial)
    · rcases List.mem_cons.1 hm with hm | hm
      · subst hm; exact .inl h2
      · refine .inr ⟨p, hpm, ?_, h1, hsy, h2⟩
        exact hi.suffix_older hd hp hr h hm
  · exact .inl (hg e (olderThan_sub he) (by simpa using hn))

theorem gcov_parent (hd : Dom cfg s) (hi : Core cfg s) (ho : Ord cfg s) {t i r rem vis} {p : Entry}
    (hp : s.ph t = .initing (.scan i (p :: rem)))
    (hr : (cfg.res t)[i]? = some r) (hpar : cfg.parentOf t = some p.1)
    (h : olderThan (t, i) (s.users r) = vis ++ p :: rem)
    (hv : ∀ e ∈ vis, cfg.space e.1 = cfg.space t → cfg.serial e.1 t = true → L e.1)
    (hg : ∀ e ∈ s.hist r, notDel (s.fl e.1) e.2 = false → L e.1) :
    ∀ e ∈ olderThan (t, i) (s.hist r), cfg.space e.1 = cfg.space t → ConflictOn cfg r e.1 t → L e.1 := by
  intro e he h3 h4
  have hn' := hi.histNodup r
  have hu := hi.older_users hd (hi.own_entry hd hp hr)
  rw [h] at hu
  by_cases hn : notDel (s.fl e.1) e.2 = true
  · have hm : e ∈ vis ++ p :: rem := hu ▸ List.mem_filter.2 ⟨he, hn⟩
    rcases List.mem_append.1 hm with hm | hm
    · exact hv e hm h3 h4.serial
    · have hpe : cfg.parentOf e.1 = some p.1 := by
        rw [← hpar]; unfold Cfg.parentOf; rw [h3]
      rcases List.mem_cons.1 hm with hm | hm
      · subst hm
        have h1 : e.1 < s.n := hd.scanP t _ _ _ hp
        have := (hd.par e.1 e.1 h1 hpe).1
        omega
      · exfalso
        refine ho.parOlder r e p hpe ?_
        exact hi.suffix_older hd hp hr h hm
  · exact hg e (olderThan_sub he) (by simpa using hn)

end

/-! ### what is known about earlier tasks -/

/-- `t` is going to be notified by `p`, or `p` has finished and its effects are known to `t` -/
def KL (cfg : Cfg) (x : V) (p t : Nat) : Prop :=
  .pre t ∈ x.g.pnd p ∨ (x.g.post p = 0 ∧ ∀ e, pay cfg x p e → x.k.know (.init t) e ∨ x.k.loc (.pre t) e)

def KCvd (cfg : Cfg) (x : V) (t : Nat) (e : Entry) : Prop :=
  cfg.space e.1 = cfg.space t → cfg.serial e.1 t = true → KL cfg x e.1 t

def KCov (cfg : Cfg) (x : V) (t i : Nat) (r : Res) : Prop :=
  ∀ e ∈ olderThan (t, i) (x.g.hist r), cfg.space e.1 = cfg.space t → ConflictOn cfg r e.1 t →
    KL cfg x e.1 t ∨ ∃ q ∈ olderThan (t, i) (x.g.hist r), e ∈ olderThan q (x.g.hist r) ∧
      cfg.space q.1 = cfg.space t ∧ cfg.sync q.1 r = true ∧ KL cfg x q.1 t

structure KOrd (cfg : Cfg) (x : V) : Prop where
  scanC : ∀ t i rem r, x.g.ph t = .initing (.scan i rem) → (cfg.res t)[i]? = some r →
    ∃ vis, olderThan (t, i) (x.g.users r) = vis ++ rem ∧ ∀ e ∈ vis, KCvd cfg x t e
  linkC : ∀ t i p rem r, x.g.ph t = .initing (.link i p rem) → (cfg.res t)[i]? = some r →
    cfg.space p.1 = cfg.space t ∧
    ∃ vis, olderThan (t, i) (x.g.users r) = vis ++ p :: rem ∧ ∀ e ∈ vis, KCvd cfg x t e
  incrC : ∀ t i p rem r, x.g.ph t = .initing (.incr i p rem) → (cfg.res t)[i]? = some r →
    cfg.space p.1 = cfg.space t ∧
    ∃ vis, olderThan (t, i) (x.g.users r) = vis ++ p :: rem ∧ ∀ e ∈ vis, KCvd cfg x t e
  cov : ∀ t i r, passed (x.g.ph t) i → (cfg.res t)[i]? = some r → KCov cfg x t i r

/-- all invariants -/
structure All (cfg : Cfg) (x : V) : Prop where
  dom : Dom cfg x.g
  core : Core cfg x.g
  ord : Ord cfg x.g
  life : Life cfg x.g
  base : Base cfg x
  pay : Pay cfg x

theorem KL.mono {p t : Nat} (ha : All cfg x) (h : Step cfg x x') (hl : KL cfg x p t) : KL cfg x' p t := by
  by_cases hm' : .pre t ∈ x'.g.pnd p
  · exact .inl hm'
  refine .inr ?_
  rcases hl with hm | ⟨h0, hk⟩
  · obtain ⟨⟨rem, h1⟩, _, h2⟩ := h.pnd ha.core hm hm'
    have h0 := post_of_fl ha.core (t := p) (by rw [h1]; simp)
    exact ⟨h.post0 ha.dom ha.core h0, fun e he =>
      .inr (h2 t rfl e (done_flush ha.dom ha.core ha.base ha.pay h0 (h.frozen ha.dom ha.core h0 he)))⟩
  · refine ⟨h.post0 ha.dom ha.core h0, fun e he => ?_⟩
    rcases hk e (h.frozen ha.dom ha.core h0 he) with h1 | h1
    · exact .inl (h.know h1)
    · exact .inr (h.loc ha.core ha.base.lockK (by simp) h1)

theorem KCvd.mono {t e} (ha : All cfg x) (h : Step cfg x x') (hc : KCvd cfg x t e) : KCvd cfg x' t e :=
  fun h1 h2 => (hc h1 h2).mono ha h

theorem hist_step {r : Res} {e : Entry} (ha : All cfg x) (h : Step cfg x x') (he : e ∈ x.g.hist r) :
    olderThan e (x'.g.hist r) = olderThan e (x.g.hist r) := by
  rcases h.g with h | ⟨l, h⟩
  · rw [h]
  · exact hist_mono ha.dom ha.core h he

theorem users_step {r : Res} {t i : Nat} (ha : All cfg x) (h : Step cfg x x')
    (hl : x.g.lock r = some t) (hm : (t, i) ∈ x.g.users r) :
    olderThan (t, i) (x'.g.users r) = olderThan (t, i) (x.g.users r) := by
  rcases h.g with h | ⟨l, h⟩
  · rw [h]
  · exact users_mono ha.dom ha.core h hl hm

theorem KCov.mono {t i r} (ha : All cfg x) (h : Step cfg x x')
    (hm : (t, i) ∈ x.g.hist r) (hc : KCov cfg x t i r) : KCov cfg x' t i r := by
  intro e he h1 h2
  rw [hist_step ha h hm] at he ⊢
  rcases hc e he h1 h2 with h3 | ⟨q, hq, h3, h4, h5, h6⟩
  · exact .inl (h3.mono ha h)
  · refine .inr ⟨q, hq, ?_, h4, h5, h6.mono ha h⟩
    rw [hist_step ha h (olderThan_sub hq)]
    exact h3

/-- the entries that have been deleted -/
theorem gone_known (ha : All cfg x) {t r} (hl : x.g.lock r = some t) :
    ∀ e ∈ x.g.hist r, notDel (x.g.fl e.1) e.2 = false → KL cfg x e.1 t := by
  intro e he hn
  have h1 := ((ha.core.histMem r e.1 e.2).1 he).1
  exact .inr ⟨ha.core.gone hn, fun a h => .inl (ha.base.lockK r t hl a (ha.pay.del r e.1 e.2 h1 hn a h))⟩

/-- the load of the state of a finished task -/
theorem reached_known (ha : All cfg x) (h : Step cfg x x') {p t : Nat} (h0 : x.g.post p = 0)
    (hk : ∀ e, x.k.loc (.post p) e → x'.k.know (.init t) e) : KL cfg x' p t :=
  .inr ⟨h.post0 ha.dom ha.core h0, fun e he =>
    .inl (hk e (done_loc ha.dom ha.core ha.base ha.pay h0 (h.frozen ha.dom ha.core h0 he)))⟩

theorem KOrd.step_scanC (ha : All cfg x) (ho : KOrd cfg x) (h : Step cfg x x') :
    ∀ t i rem r, x'.g.ph t = .initing (.scan i rem) → (cfg.res t)[i]? = some r →
    ∃ vis, olderThan (t, i) (x'.g.users r) = vis ++ rem ∧ ∀ e ∈ vis, KCvd cfg x' t e := by
  intro t i rem r hp hr
  have hd := ha.dom
  have hi := ha.core
  have old : ∀ rem', x.g.ph t = .initing (.scan i rem') →
      ∃ vis, olderThan (t, i) (x'.g.users r) = vis ++ rem' ∧ ∀ e ∈ vis, KCvd cfg x' t e := by
    intro rem' hp'
    obtain ⟨vis, h1, h2⟩ := ho.scanC t i rem' r hp' hr
    refine ⟨vis, ?_, fun e he => (h2 e he).mono ha h⟩
    rw [users_step ha h (hi.lockScan t i rem' r hp' hr) (hi.own_entry hd hp' hr), h1]
  have adv : ∀ p, x.g.ph t = .initing (.scan i (p :: rem)) → KCvd cfg x' t p →
      ∃ vis, olderThan (t, i) (x'.g.users r) = vis ++ rem ∧ ∀ e ∈ vis, KCvd cfg x' t e := by
    intro p hp' hc
    obtain ⟨vis, h1, h2⟩ := old _ hp'
    refine ⟨vis ++ [p], by simp [h1], ?_⟩
    intro e he
    rcases List.mem_append.1 he with he | he
    · exact h2 e he
    · rw [List.mem_singleton.1 he]; exact hc
  have key : x.g.ph t = .initing (.scan i rem) ∨ (∃ p, x.g.ph t = .initing (.scan i (p :: rem)) ∧ KCvd cfg x' t p)
      ∨ (∃ p, x.g.ph t = .initing (.incr i p rem)) ∨ rem = olderThan (t, i) (x'.g.users r) := by
    have hst := h
    clear old adv
    cases h with
    | @graph a s' h hb hr' =>
      have hdo := does h
      clear h
      revert hdo hst
      generalize sync cfg x.g a = l
      intro hst hdo
      cases hdo with
      | @scanSkip u j p rem' h1 h2 h3 =>
        rcases upd_eq hp with ⟨e, hv⟩ | ⟨e, hv⟩
        · subst e; cases hv
          exact .inr (.inl ⟨p, h1, fun h4 h5 => absurd ⟨h4, h5⟩ h3⟩)
        · exact .inl hv
      | @scanReached u j p rem' r' h1 h2 h3 h4 h5 =>
        rcases upd_eq hp with ⟨e, hv⟩ | ⟨e, hv⟩
        · subst e
          split at hv
          · cases hv
          · cases hv
            exact .inr (.inl ⟨p, h1, fun _ _ => reached_known ha hst h5 (fun e he => .inr ⟨rfl, he⟩)⟩)
        · exact .inl hv
      | @incr u j p rem' r' h1 h2 =>
        rcases upd_eq hp with ⟨e, hv⟩ | ⟨e, hv⟩
        · subst e
          split at hv
          · cases hv
          · cases hv
            exact .inr (.inr (.inl ⟨p, h1⟩))
        · exact .inl hv
      | @lockRes u j r' h1 h2 h3 =>
        rcases upd_eq hp with ⟨e, hv⟩ | ⟨e, hv⟩
        · subst e; cases hv
          rw [hr] at h2; cases h2
          exact .inr (.inr (.inr rfl))
        · exact .inl hv
      | _ =>
        first
        | exact .inl hp
        | (rcases upd_eq hp with ⟨e, hv⟩ | ⟨e, hv⟩
           · cases hv
           · exact .inl hv)
    | _ => exact .inl hp
  rcases key with h' | ⟨p, h', h''⟩ | ⟨p, h'⟩ | h'
  · exact old _ h'
  · exact adv p h' h''
  · obtain ⟨h1, vis, h3, h4⟩ := ho.incrC t i p rem r h' hr
    refine ⟨vis ++ [p], ?_, ?_⟩
    · rw [users_step ha h (hi.lockIncr t i p rem r h' hr) (hi.own_entry hd h' hr), h3]
      simp
    · intro e he
      rcases List.mem_append.1 he with he | he
      · exact (h4 e he).mono ha h
      · rw [List.mem_singleton.1 he]
        exact fun _ _ => KL.mono ha h (.inl (hi.incrFl t i p rem h').2)
  · exact ⟨[], by rw [h']; rfl, by simp⟩

theorem KOrd.step_linkC (ha : All cfg x) (ho : KOrd cfg x) (h : Step cfg x x') :
    ∀ t i p rem r, x'.g.ph t = .initing (.link i p rem) → (cfg.res t)[i]? = some r →
    cfg.space p.1 = cfg.space t ∧
    ∃ vis, olderThan (t, i) (x'.g.users r) = vis ++ p :: rem ∧ ∀ e ∈ vis, KCvd cfg x' t e := by
  intro t i p rem r hp hr
  have hd := ha.dom
  have hi := ha.core
  have key : x.g.ph t = .initing (.link i p rem) ∨ (x.g.ph t = .initing (.scan i (p :: rem)) ∧
      cfg.space p.1 = cfg.space t) := by
    rcases h.g with e | ⟨l, hs⟩
    · rw [e] at hp; exact .inl hp
    · revert hs hp
      generalize x'.g = s'
      intro hp hs
      cases hs with
      | @scanLink _ u j p rem' h1 h2 h3 h4 =>
        rcases upd_eq hp with ⟨e, hv⟩ | ⟨e, hv⟩
        · subst e; cases hv
          exact .inr ⟨h1, h3.1⟩
        · exact .inl hv
      | _ =>
        first
        | exact .inl hp
        | (rcases upd_eq hp with ⟨e, hv⟩ | ⟨e, hv⟩
           · first | cases hv | (split at hv <;> cases hv)
           · exact .inl hv)
  rcases key with h' | ⟨h', h1⟩
  · obtain ⟨h1, vis, h3, h4⟩ := ho.linkC t i p rem r h' hr
    refine ⟨h1, vis, ?_, fun e he => (h4 e he).mono ha h⟩
    rw [users_step ha h (hi.lockLink t i p rem r h' hr) (hi.own_entry hd h' hr), h3]
  · obtain ⟨vis, h3, h4⟩ := ho.scanC t i _ r h' hr
    refine ⟨h1, vis, ?_, fun e he => (h4 e he).mono ha h⟩
    rw [users_step ha h (hi.lockScan t i _ r h' hr) (hi.own_entry hd h' hr), h3]

theorem KOrd.step_incrC (ha : All cfg x) (ho : KOrd cfg x) (h : Step cfg x x') :
    ∀ t i p rem r, x'.g.ph t = .initing (.incr i p rem) → (cfg.res t)[i]? = some r →
    cfg.space p.1 = cfg.space t ∧
    ∃ vis, olderThan (t, i) (x'.g.users r) = vis ++ p :: rem ∧ ∀ e ∈ vis, KCvd cfg x' t e := by
  intro t i p rem r hp hr
  have hd := ha.dom
  have hi := ha.core
  have key : x.g.ph t = .initing (.incr i p rem) ∨ x.g.ph t = .initing (.link i p rem) := by
    rcases h.g with e | ⟨l, hs⟩
    · rw [e] at hp; exact .inl hp
    · revert hs hp
      generalize x'.g = s'
      intro hp hs
      cases hs with
      | @link _ u j p rem' h1 =>
        rcases upd_eq hp with ⟨e, hv⟩ | ⟨e, hv⟩
        · subst e; cases hv
          exact .inr h1
        · exact .inl hv
      | _ =>
        first
        | exact .inl hp
        | (rcases upd_eq hp with ⟨e, hv⟩ | ⟨e, hv⟩
           · first | cases hv | (split at hv <;> cases hv)
           · exact .inl hv)
  rcases key with h' | h'
  · obtain ⟨h1, vis, h3, h4⟩ := ho.incrC t i p rem r h' hr
    refine ⟨h1, vis, ?_, fun e he => (h4 e he).mono ha h⟩
    rw [users_step ha h (hi.lockIncr t i p rem r h' hr) (hi.own_entry hd h' hr), h3]
  · obtain ⟨h1, vis, h3, h4⟩ := ho.linkC t i p rem r h' hr
    refine ⟨h1, vis, ?_, fun e he => (h4 e he).mono ha h⟩
    rw [users_step ha h (hi.lockLink t i p rem r h' hr) (hi.own_entry hd h' hr), h3]

theorem KOrd.step_cov (ha : All cfg x) (ho : KOrd cfg x) (h : Step cfg x x') :
    ∀ t i r, passed (x'.g.ph t) i → (cfg.res t)[i]? = some r → KCov cfg x' t i r := by
  intro t i r hp hr
  have hd := ha.dom
  have hi := ha.core
  have hst := h
  -- it is enough to show this in the state before, except that more is known in the state afterwards
  suffices hh : Pushed (x.g.ph t) i ∧ (KCov cfg x t i r ∨
      ∀ e ∈ olderThan (t, i) (x.g.hist r), cfg.space e.1 = cfg.space t → ConflictOn cfg r e.1 t →
        KL cfg x' e.1 t ∨ ∃ q ∈ olderThan (t, i) (x.g.hist r), e ∈ olderThan q (x.g.hist r) ∧
          cfg.space q.1 = cfg.space t ∧ cfg.sync q.1 r = true ∧ KL cfg x' q.1 t) by
    have hm := (hi.histMem r t i).2 ⟨hr, hh.1⟩
    rcases hh.2 with h1 | h1
    · exact h1.mono ha h hm
    · intro e he h2 h3
      rw [hist_step ha h hm] at he ⊢
      rcases h1 e he h2 h3 with h3 | ⟨q, hq, h3, h4, h5, h6⟩
      · exact .inl h3
      · refine .inr ⟨q, hq, ?_, h4, h5, h6⟩
        rw [hist_step ha h (olderThan_sub hq)]
        exact h3
  have old : passed (x.g.ph t) i → Pushed (x.g.ph t) i ∧ (KCov cfg x t i r ∨
      ∀ e ∈ olderThan (t, i) (x.g.hist r), cfg.space e.1 = cfg.space t → ConflictOn cfg r e.1 t →
        KL cfg x' e.1 t ∨ ∃ q ∈ olderThan (t, i) (x.g.hist r), e ∈ olderThan q (x.g.hist r) ∧
          cfg.space q.1 = cfg.space t ∧ cfg.sync q.1 r = true ∧ KL cfg x' q.1 t) := fun h =>
    ⟨passed_pushed h i, .inl (ho.cov t i r h hr)⟩
  cases h with
  | @graph a s' h hb hr' =>
    have hdo := does h
    clear h
    revert hdo hst old
    generalize sync cfg x.g a = l
    intro hst old hdo
    have same : ∀ {u v w}, passed (upd x.g.ph u v t) i → x.g.ph u = w → (passed v i → passed w i) →
        passed (x.g.ph t) i := by
      intro u v w h1 h2 h3
      by_cases e : t = u
      · subst e
        rw [upd_same] at h1
        rw [h2]; exact h3 h1
      · rwa [upd_ne _ _ e] at h1
    cases hdo with
    | beginSubmit h1 => exact old (same hp (hd.ph _ (Nat.le_refl _)) (fun h => h))
    | pushUser h1 => exact old (same hp h1 (fun h => h))
    | emplace h1 => exact old (same hp h1 (fun h => h))
    | startInit h1 => exact old (same hp h1 (fun h => by simp [passed] at h))
    | lockRes h1 => exact old (same hp h1 (fun h => h))
    | @scanParent u j p rem h1 h2 =>
      by_cases e : t = u ∧ i = j
      · obtain ⟨rfl, rfl⟩ := e
        obtain ⟨vis, h6, h7⟩ := ho.scanC t i _ r h1 hr
        refine ⟨by rw [h1]; trivial, .inl fun e he h8 h9 => .inl ?_⟩
        exact gcov_parent hd hi ha.ord (L := fun p => KL cfg x p t) h1 hr h2 h6 h7
          (gone_known ha (hi.lockScan t i _ r h1 hr)) e he h8 h9
      · by_cases e' : t = u
        · subst e'
          dsimp only at hp
          rw [upd_same] at hp
          have : i < j := by simp only [passed] at hp; omega
          exact old (by rw [h1]; exact this)
        · dsimp only at hp
          rw [upd_ne _ _ e'] at hp
          exact old hp
    | scanSkip h1 => exact old (same hp h1 (fun h => h))
    | @scanReached u j p rem r' h1 h2 h3 h4 h5 =>
      by_cases e' : t = u
      · subst e'
        dsimp only at hp
        rw [upd_same] at hp
        split at hp
        · rename_i hsy
          by_cases e : i = j
          · subst e
            rw [hr] at h2; cases h2
            obtain ⟨vis, h6, h7⟩ := ho.scanC t i _ r h1 hr
            refine ⟨by rw [h1]; trivial, .inr ?_⟩
            exact gcov_sync hd hi (L := fun p => KL cfg _ p t) h1 hr h6
              (fun e he => (h7 e he).mono ha hst)
              (fun e he hn => (gone_known ha (hi.lockScan t i _ r h1 hr) e he hn).mono ha hst)
              h4.1 (reached_known ha hst h5 (fun e he => .inr ⟨rfl, he⟩)) hsy
          · have : i < j := by simp only [passed] at hp; omega
            exact old (by rw [h1]; exact this)
        · exact old (by rw [h1]; exact hp)
      · dsimp only at hp
        rw [upd_ne _ _ e'] at hp
        exact old hp
    | scanLink h1 => exact old (same hp h1 (fun h => h))
    | link h1 => exact old (same hp h1 (fun h => h))
    | @incr u j p rem r' h1 h2 =>
      by_cases e' : t = u
      · subst e'
        dsimp only at hp
        rw [upd_same] at hp
        split at hp
        · rename_i hsy
          by_cases e : i = j
          · subst e
            rw [hr] at h2; cases h2
            obtain ⟨h4, vis, h6, h7⟩ := ho.incrC t i _ _ r h1 hr
            refine ⟨by rw [h1]; trivial, .inl ?_⟩
            exact gcov_sync hd hi (L := fun p => KL cfg x p t) h1 hr h6 h7
              (gone_known ha (hi.lockIncr t i _ _ r h1 hr)) h4 (.inl (hi.incrFl t i p rem h1).2) hsy
          · have : i < j := by simp only [passed] at hp; omega
            exact old (by rw [h1]; exact this)
        · exact old (by rw [h1]; exact hp)
      · dsimp only at hp
        rw [upd_ne _ _ e'] at hp
        exact old hp
    | @scanEnd u j h1 =>
      by_cases e : t = u ∧ i = j
      · obtain ⟨rfl, rfl⟩ := e
        obtain ⟨vis, h6, h7⟩ := ho.scanC t i _ r h1 hr
        refine ⟨by rw [h1]; trivial, .inl fun e he h8 h9 => .inl ?_⟩
        exact gcov_end hd hi (L := fun p => KL cfg x p t) h1 hr (by simpa using h6) h7
          (gone_known ha (hi.lockScan t i _ r h1 hr)) e he h8 h9
      · by_cases e' : t = u
        · subst e'
          dsimp only at hp
          rw [upd_same] at hp
          have : i < j := by simp only [passed] at hp; omega
          exact old (by rw [h1]; exact this)
        · dsimp only at hp
          rw [upd_ne _ _ e'] at hp
          exact old hp
    | unlock h1 => exact old (same hp h1 (fun h => by simp only [passed] at h ⊢; omega))
    | @resEnd u j h1 h2 =>
      by_cases e' : t = u
      · subst e'
        have := getElem?_lt_length hr
        exact old (by rw [h1]; simp only [passed]; omega)
      · dsimp only at hp
        rw [upd_ne _ _ e'] at hp
        exact old hp
    | noParent h1 => exact old (same hp h1 (fun h => h))
    | parentPush h1 => exact old (same hp h1 (fun h => h))
    | parentIncr h1 => exact old (same hp h1 (fun h => h))
    | final h1 => exact old (same hp h1 (fun h => h))
    | _ => exact old hp
  | _ => exact old hp

/-! ### all of them -/

theorem Pay.init : Pay cfg init := by
  constructor <;> simp [Vis.init, Graph.init, notDel, counts]

theorem KOrd.init : KOrd cfg init := by
  constructor <;> simp [Vis.init, Graph.init, passed]

theorem all_reach (ht : Tame cfg) (h : Reach cfg x) : All cfg x ∧ KOrd cfg x := by
  induction h with
  | init =>
    exact ⟨⟨Dom.reach .init, Core.reach ht .init, Ord.reach ht .init, Life.reach ht .init, Base.init, Pay.init⟩, KOrd.init⟩
  | @step x x' hr hs ih =>
    obtain ⟨ha, ho⟩ := ih
    have hr' := (Reach.step hr hs).g
    have hd := ha.dom
    have hi := ha.core
    have hl := ha.life
    have hb := ha.base
    have hp := ha.pay
    have hi' := Core.reach ht hr'
    exact ⟨⟨Dom.reach hr', hi', Ord.reach ht hr', Life.reach ht hr', hb.step hd hi hs,
      ⟨hp.step_child hd hi hi' hb hs, hp.step_del hd hi hb hs, hp.step_cd hd hi hb hs, hp.step_free hd hi hl hb hs,
       hp.step_count hd hi hl hb hs⟩⟩,
      ⟨ho.step_scanC ha hs, ho.step_linkC ha hs, ho.step_incrC ha hs, ho.step_cov ha hs⟩⟩

/-! ### results -/

/-- a body that has been started knows what happened before its submission -/
theorem sub_known (ha : All cfg x) {t : Nat} (hx : x.g.ex t ≠ .none) {e : Ev} (h : x.k.know (.sub t) e) :
    x.k.know (.body (t + 1)) e := by
  have h1 := (ha.core.exI t hx).1
  exact ha.base.started t hx e (ha.base.initedI t h1 e (ha.base.begunI t (by rw [h1]; rfl) e h))

/-- the descendants know what a body has known when it was started -/
theorem pre_down (ha : All cfg x) {t d : Nat} (h : Descends cfg d t) (hn : d < x.g.n) (hx : x.g.ex d ≠ .none) {e : Ev}
    (he : x.k.loc (.pre t) e) : x.k.know (.body (d + 1)) e ∧ (d ≠ t → x.k.know (.sub d) e) := by
  induction h with
  | refl => exact ⟨ha.base.started _ hx e he, fun h => absurd rfl h⟩
  | @child c q p hp h' ih =>
    have h1 := ha.dom.par c q hn hp
    have h2 : x.k.know (.sub c) e := by
      by_cases hq : q = p
      · subst hq; exact ha.base.kid c q hn hp e he
      · have h3 := (ih (Nat.lt_trans h1.1 hn) h1.2 he).2 hq
        have h4 := (ha.core.exI q h1.2).1
        exact ha.base.kid c q hn hp e (ha.base.initedI q h4 e (ha.base.begunI q (by rw [h4]; rfl) e h3))
    exact ⟨sub_known ha hx h2, fun _ => h2⟩

theorem known_key (hw : OnePolicy cfg) (ha : All cfg x) (ho : KOrd cfg x) (r : Res) :
    ∀ (k : Nat) (t i : Nat), (olderThan (t, i) (x.g.hist r)).length ≤ k → (cfg.res t)[i]? = some r →
      x.g.ex t ≠ .none → ∀ e ∈ olderThan (t, i) (x.g.hist r), cfg.space e.1 = cfg.space t →
        ConflictOn cfg r e.1 t → ∀ a, pay cfg x e.1 a → x.k.loc (.pre t) a := by
  intro k
  induction k with
  | zero =>
    intro t i hk hr hx e he
    have : olderThan (t, i) (x.g.hist r) = [] := List.length_eq_zero_iff.1 (Nat.le_zero.1 hk)
    rw [this] at he; cases he
  | succ k ih =>
    intro t i hk hr hx e he hsp hc a hpa
    have hph := (ha.core.exI t hx).1
    have done : ∀ p, KL cfg x p t → x.g.post p = 0 ∧ ∀ a, pay cfg x p a → x.k.loc (.pre t) a := by
      intro p hl
      rcases hl with hl | ⟨h0, hl⟩
      · exact absurd hl (started_not_pending ha.dom ha.core hx)
      · refine ⟨h0, fun a h => ?_⟩
        rcases hl a h with h | h
        · exact ha.base.initedI t hph a h
        · exact h
    rcases ho.cov t i r (by rw [hph]; trivial) hr e he hsp hc with hl | ⟨q, hq, heq, hqsp, hqs, hl⟩
    · exact (done _ hl).2 a hpa
    · obtain ⟨hq0, hq1⟩ := done _ hl
      have hqm := (ha.core.histMem r q.1 q.2).1 (olderThan_sub hq)
      have hlen : (olderThan q (x.g.hist r)).length ≤ k := by
        have h1 := olderThan_of_olderThan (ha.core.histNodup r) hq
        have h2 := olderThan_length hq
        rw [h1]
        omega
      have hqx : x.g.ex q.1 ≠ .none := by rw [ended_of ha.core hq0]; simp
      have h3 := ih q.1 q.2 hlen hqm.1 hqx e heq (by rw [hsp, hqsp]) (hc.sync hw hqs) a hpa
      have hqn : q.1 < x.g.n := Nat.lt_of_not_le fun h' => hqx (ha.dom.ex _ h')
      exact hq1 a ⟨q.1, hqn, .refl, .inl (ha.base.started q.1 hqx a h3)⟩

end RG.Vis
