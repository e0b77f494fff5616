import Verif.Lemmas.GraphCore
import Verif.Props.ResourceUser
/-
Invariants of the task graph, part 3: which dependencies the scan of the users of a resource adds.
-/
set_option linter.unusedVariables false
namespace RG.Graph

/-! ### positions in a list -/

theorem olderThan_cons_ne {x b : Entry} {l : List Entry} (h : x ≠ b) :
    olderThan b (x :: l) = olderThan b l := by
  simp [olderThan, h]

theorem olderThan_cons_self {b : Entry} {l : List Entry} : olderThan b (b :: l) = l := by
  simp [olderThan]

theorem olderThan_append {b : Entry} {l1 l2 : List Entry} (h : b ∉ l1) :
    olderThan b (l1 ++ l2) = olderThan b l2 := by
  induction l1 with
  | nil => rfl
  | cons a l1 ih =>
    rw [List.cons_append, olderThan_cons_ne (by rintro rfl; exact h (.head _)),
      ih (fun h' => h (.tail _ h'))]

theorem olderThan_filter {b : Entry} {l : List Entry} {f : Entry → Bool} (h : f b = true) :
    olderThan b (l.filter f) = (olderThan b l).filter f := by
  induction l with
  | nil => rfl
  | cons a l ih =>
    by_cases e : a = b
    · subst e
      rw [List.filter_cons_of_pos h, olderThan_cons_self, olderThan_cons_self]
    · rw [olderThan_cons_ne e]
      by_cases ha : f a = true
      · rw [List.filter_cons_of_pos ha, olderThan_cons_ne e, ih]
      · rw [List.filter_cons_of_neg ha, ih]

theorem olderThan_split {b : Entry} {l : List Entry} (h : b ∈ l) :
    ∃ l1, l = l1 ++ b :: olderThan b l ∧ b ∉ l1 := by
  induction l with
  | nil => cases h
  | cons a l ih =>
    by_cases e : a = b
    · subst e
      exact ⟨[], by rw [olderThan_cons_self]; rfl, List.not_mem_nil⟩
    · rcases List.mem_cons.1 h with h | h
      · exact absurd h.symm e
      · obtain ⟨l1, h1, h2⟩ := ih h
        refine ⟨a :: l1, ?_, ?_⟩
        · rw [olderThan_cons_ne e, List.cons_append, ← h1]
        · intro h'
          rcases List.mem_cons.1 h' with h' | h'
          · exact e h'.symm
          · exact h2 h'

theorem olderThan_length {b : Entry} {l : List Entry} (h : b ∈ l) :
    (olderThan b l).length < l.length := by
  obtain ⟨l1, h1, h2⟩ := olderThan_split h
  have := congrArg List.length h1
  simp at this
  omega

/-- in a list without duplicates, "older" is transitive -/
theorem olderThan_of_olderThan {b c : Entry} {l : List Entry} (hn : l.Nodup) (h : c ∈ olderThan b l) :
    olderThan c l = olderThan c (olderThan b l) := by
  have hb : b ∈ l := by
    apply Decidable.not_not.1
    intro hb
    have : olderThan b l = [] := by
      have := olderThan_append (b := b) (l1 := l) (l2 := []) hb
      simpa [olderThan] using this
    rw [this] at h; cases h
  obtain ⟨l1, h1, h2⟩ := olderThan_split hb
  have hn' := hn
  rw [h1, List.nodup_append] at hn'
  have hc1 : c ∉ l1 := fun h' => hn'.2.2 c h' c (.tail _ h) rfl
  have hcb : b ≠ c := by
    intro e
    subst e
    exact (List.nodup_cons.1 hn'.2.1).1 h
  conv => lhs; rw [h1]
  rw [olderThan_append hc1, olderThan_cons_ne hcb]

theorem olderThan_total {a b : Entry} {l : List Entry} (ha : a ∈ l) (hb : b ∈ l) (hne : a ≠ b) :
    a ∈ olderThan b l ∨ b ∈ olderThan a l := by
  induction l with
  | nil => cases ha
  | cons x l ih => simp only [olderThan]; grind

theorem not_olderThan_self {b : Entry} {l : List Entry} (hn : l.Nodup) : b ∉ olderThan b l := by
  intro h
  obtain ⟨l1, h1, h2⟩ := olderThan_split (olderThan_sub h)
  rw [h1, List.nodup_append] at hn
  exact (List.nodup_cons.1 hn.2.1).1 h

/-! ### dependencies -/

variable {cfg : Cfg} {s s' : State} {l : Lbl}

/-- the accesses of two tasks to one resource conflict -/
def ConflictOn (cfg : Cfg) (r : Res) (p t : Nat) : Prop :=
  ∃ ty x y, ⟨ty, r, x⟩ ∈ (cfg.user p).access ∧ ⟨ty, r, y⟩ ∈ (cfg.user t).access ∧
    Acc.isSerial ty x y = true

theorem ConflictOn.serial {r p t} (h : ConflictOn cfg r p t) : cfg.serial p t = true := by
  obtain ⟨ty, x, y, h1, h2, h3⟩ := h
  exact (C07_conflict_iff _ _).2 ⟨ty, r, x, y, h1, h2, h3⟩

theorem serial_conflictOn {p t} (h : cfg.serial p t = true) : ∃ r, ConflictOn cfg r p t := by
  obtain ⟨ty, r, x, y, h1, h2, h3⟩ := (C07_conflict_iff _ _).1 h
  exact ⟨r, ty, x, y, h1, h2, h3⟩

/-- one resource is always accessed with the same access policy -/
def OnePolicy (cfg : Cfg) : Prop :=
  ∀ t u a b, a ∈ (cfg.user t).access → b ∈ (cfg.user u).access → a.res = b.res → a.ty = b.ty

theorem ConflictOn.sync {r p t q} (hw : OnePolicy cfg) (h : ConflictOn cfg r p t)
    (hq : cfg.sync q r = true) : ConflictOn cfg r p q := by
  obtain ⟨ty, x, y, h1, h2, h3⟩ := h
  simp only [Cfg.sync, User.hasSync, List.any_eq_true, List.mem_reverse, Bool.and_eq_true,
    beq_iff_eq] at hq
  obtain ⟨⟨ty', r', z⟩, hm, hr, hsy⟩ := hq
  simp only at hr
  subst hr
  have := hw q p _ _ hm h1 rfl
  simp only at this
  subst this
  exact ⟨ty', x, z, h1, hm, C02_sync_conflicts_with_all _ _ _ _ hsy h3⟩

/-- task `p` has finished, or `t` is going to be notified by it -/
def Linked (s : State) (p t : Nat) : Prop := s.post p = 0 ∨ .pre t ∈ s.pnd p

theorem Linked.mono {p t : Nat} (hd : Dom cfg s) (hi : Core cfg s) (hs : Step cfg l s s')
    (h : Linked s p t) : Linked s' p t := by
  unfold Linked at *
  have h1 := hi.pincrPos hd
  have h2 := hi.runPos
  have h3 := hi.flPost
  cases hs <;> first | exact h | (try dsimp only [State.decPost, State.decPre, State.decCd]) <;>
    grind [upd]

/-- the part of the history before an element never changes -/
theorem hist_mono {r : Res} {e : Entry} (hd : Dom cfg s) (hi : Core cfg s) (hs : Step cfg l s s')
    (h : e ∈ s.hist r) : olderThan e (s'.hist r) = olderThan e (s.hist r) := by
  cases hs with
  | @pushUser _ t i r' hp hr =>
    dsimp only
    by_cases er : r = r'
    · subst er
      rw [upd_same, olderThan_cons_ne]
      intro e'
      subst e'
      have := (hi.histMem r t i).1 h
      rw [hp] at this
      simp [Pushed] at this
    · rw [upd_ne _ _ er]
  | _ => rfl

/-- while a resource is locked for task `t`, the part of the users before its entry does not change -/
theorem users_mono {r : Res} {t i : Nat} (hd : Dom cfg s) (hi : Core cfg s) (hs : Step cfg l s s')
    (hl : s.lock r = some t) (h : (t, i) ∈ s.users r) :
    olderThan (t, i) (s'.users r) = olderThan (t, i) (s.users r) := by
  cases hs with
  | @pushUser _ t' i' r' hp hr =>
    dsimp only
    by_cases er : r = r'
    · subst er
      rw [upd_same, olderThan_cons_ne]
      intro e'
      cases e'
      rw [hi.usersEq, List.mem_filter] at h
      have := (hi.histMem r t i).1 h.1
      rw [hp] at this
      simp [Pushed] at this
    · rw [upd_ne _ _ er]
  | @delete _ t' i' r' hf hr hl' =>
    dsimp only
    by_cases er : r = r'
    · subst er
      rw [hl] at hl'; cases hl'
    · rw [upd_ne _ _ er]
  | _ => rfl

/-- entry `e` needs no further attention of task `t` -/
def Cvd (cfg : Cfg) (s : State) (t : Nat) (e : Entry) : Prop :=
  cfg.space e.1 = cfg.space t → cfg.serial e.1 t = true → Linked s e.1 t

/-- the dependencies of task `t` that stem from the users of its resource `r` -/
def Cov (cfg : Cfg) (s : State) (t i : Nat) (r : Res) : Prop :=
  ∀ e ∈ olderThan (t, i) (s.hist r), cfg.space e.1 = cfg.space t → ConflictOn cfg r e.1 t →
    Linked s e.1 t ∨ ∃ q ∈ olderThan (t, i) (s.hist r), e ∈ olderThan q (s.hist r) ∧
      cfg.space q.1 = cfg.space t ∧ cfg.sync q.1 r = true ∧ Linked s q.1 t

/-- the scan for entry `i` has been completed -/
def passed : Ph → Nat → Prop
  | .initing (.next k), i => i < k
  | .initing (.scan k _), i => i < k
  | .initing (.link k _ _), i => i < k
  | .initing (.incr k _ _), i => i < k
  | .initing (.unlock k), i => i ≤ k
  | .initing .parent, _ => True
  | .initing (.pincr _), _ => True
  | .initing .final, _ => True
  | .inited, _ => True
  | _, _ => False

structure Ord (cfg : Cfg) (s : State) : Prop where
  parOlder : ∀ r (e p : Entry), cfg.parentOf e.1 = some p.1 → e ∉ olderThan p (s.hist r)
  scanC : ∀ t i rem r, s.ph t = .initing (.scan i rem) → (cfg.res t)[i]? = some r →
    ∃ vis, olderThan (t, i) (s.users r) = vis ++ rem ∧ ∀ e ∈ vis, Cvd cfg s t e
  linkC : ∀ t i p rem r, s.ph t = .initing (.link i p rem) → (cfg.res t)[i]? = some r →
    cfg.space p.1 = cfg.space t ∧
    ∃ vis, olderThan (t, i) (s.users r) = vis ++ p :: rem ∧ ∀ e ∈ vis, Cvd cfg s t e
  incrC : ∀ t i p rem r, s.ph t = .initing (.incr i p rem) → (cfg.res t)[i]? = some r →
    cfg.space p.1 = cfg.space t ∧
    ∃ vis, olderThan (t, i) (s.users r) = vis ++ p :: rem ∧ ∀ e ∈ vis, Cvd cfg s t e
  cov : ∀ t i r, passed (s.ph t) i → (cfg.res t)[i]? = some r → Cov cfg s t i r
  origin : ∀ p t, .pre t ∈ s.pnd p → cfg.space p = cfg.space t ∧
    ∃ r i j, (p, j) ∈ olderThan (t, i) (s.hist r) ∧ (cfg.res t)[i]? = some r

theorem Cvd.mono {t e} (hd : Dom cfg s) (hi : Core cfg s) (hs : Step cfg l s s') (h : Cvd cfg s t e) :
    Cvd cfg s' t e := fun h1 h2 => (h h1 h2).mono hd hi hs

theorem Cov.mono {t i r} (hd : Dom cfg s) (hi : Core cfg s) (hs : Step cfg l s s')
    (hm : (t, i) ∈ s.hist r) (h : Cov cfg s t i r) : Cov cfg s' t i r := by
  intro e he h1 h2
  rw [hist_mono hd hi hs hm] at he ⊢
  rcases h e he h1 h2 with h3 | ⟨q, hq, h3, h4, h5, h6⟩
  · exact .inl (h3.mono hd hi hs)
  · refine .inr ⟨q, hq, ?_, h4, h5, h6.mono hd hi hs⟩
    rw [hist_mono hd hi hs (olderThan_sub hq)]
    exact h3

/-- an entry of the task that is being initialised is in the list -/
theorem Core.own_entry (hd : Dom cfg s) (hi : Core cfg s) {t i r pc} (hp : s.ph t = .initing pc)
    (hr : (cfg.res t)[i]? = some r) : (t, i) ∈ s.users r := by
  rw [hi.usersEq, List.mem_filter]
  refine ⟨(hi.histMem r t i).2 ⟨hr, by rw [hp]; trivial⟩, ?_⟩
  simp only
  rw [hi.idle_of_ph t (by rw [hp]; simp)]
  rfl

theorem Core.older_users (hd : Dom cfg s) (hi : Core cfg s) {t i r} (h : (t, i) ∈ s.users r) :
    olderThan (t, i) (s.users r) =
      (olderThan (t, i) (s.hist r)).filter fun e => notDel (s.fl e.1) e.2 := by
  have h' := hi.user_fl h
  rw [hi.usersEq, olderThan_filter h']

/-- an entry that is not in the list any more belongs to a finished task -/
theorem Core.gone (hi : Core cfg s) {e : Entry} (h : notDel (s.fl e.1) e.2 = false) : s.post e.1 = 0 := by
  apply Decidable.not_not.1
  intro h'
  rw [(hi.flPost e.1).2 h'] at h
  cases h

/-- all entries have been visited -/
theorem cov_end (hd : Dom cfg s) (hi : Core cfg s) {t i r pc} (hp : s.ph t = .initing pc)
    (hr : (cfg.res t)[i]? = some r) {vis} (h : olderThan (t, i) (s.users r) = vis)
    (hv : ∀ e ∈ vis, Cvd cfg s t e) : Cov cfg s t i r := by
  intro e he h1 h2
  rw [hi.older_users hd (hi.own_entry hd hp hr)] at h
  by_cases hn : notDel (s.fl e.1) e.2 = true
  · exact .inl (hv e (h ▸ List.mem_filter.2 ⟨he, hn⟩) h1 h2.serial)
  · exact .inl (.inl (hi.gone (by simpa using hn)))

theorem Core.suffix_older (hd : Dom cfg s) (hi : Core cfg s) {t i r pc} (hp : s.ph t = .initing pc)
    (hr : (cfg.res t)[i]? = some r) {vis rem : List Entry} {p e : Entry}
    (h : olderThan (t, i) (s.users r) = vis ++ p :: rem) (hm : e ∈ rem) :
    e ∈ olderThan p (s.hist r) := by
  have hn' := hi.histNodup r
  have hu := hi.older_users hd (hi.own_entry hd hp hr)
  rw [h] at hu
  have hpf := hu ▸ (by simp : p ∈ vis ++ p :: rem)
  rw [List.mem_filter] at hpf
  rw [olderThan_of_olderThan hn' hpf.1]
  have hnd : (vis ++ p :: rem).Nodup := by
    rw [hu]
    apply List.Pairwise.filter
    obtain ⟨l1, h5, _⟩ := olderThan_split
      ((hi.histMem r t i).2 ⟨hr, by rw [hp]; trivial⟩ : (t, i) ∈ s.hist r)
    rw [h5, List.nodup_append] at hn'
    exact (List.nodup_cons.1 hn'.2.1).2
  have hpv : p ∉ vis := by
    intro h'
    rw [List.nodup_append] at hnd
    exact hnd.2.2 p h' p (.head _) rfl
  have h6 := olderThan_filter (b := p) (l := olderThan (t, i) (s.hist r))
    (f := fun e => notDel (s.fl e.1) e.2) hpf.2
  rw [← hu, olderThan_append hpv, olderThan_cons_self] at h6
  rw [h6] at hm
  exact (List.mem_filter.1 hm).1

/-- the loop was left at a synchronizing predecessor -/
theorem cov_sync (hd : Dom cfg s) (hi : Core cfg s) {t i r pc} (hp : s.ph t = .initing pc)
    (hr : (cfg.res t)[i]? = some r) {vis rem : List Entry} {p : Entry}
    (h : olderThan (t, i) (s.users r) = vis ++ p :: rem)
    (hv : ∀ e ∈ vis, Cvd cfg s t e) (h1 : cfg.space p.1 = cfg.space t) (h2 : Linked s p.1 t)
    (hsy : cfg.sync p.1 r = true) : Cov cfg s t i r := by
  intro e he h3 h4
  have hn' := hi.histNodup r
  have hu := hi.older_users hd (hi.own_entry hd hp hr)
  rw [h] at hu
  have hpm : p ∈ olderThan (t, i) (s.hist r) := (List.mem_filter.1 (hu ▸ (by simp : p ∈ vis ++ p :: rem))).1
  by_cases hn : notDel (s.fl e.1) e.2 = true
  · have hm : e ∈ vis ++ p :: rem := hu ▸ List.mem_filter.2 ⟨he, hn⟩
    rcases List.mem_append.1 hm with hm | hm
    · exact .inl (hv e hm h3 h4.serial)
    · rcases List.mem_cons.1 hm with hm | hm
      · subst hm; exact .inl h2
      · refine .inr ⟨p, hpm, ?_, h1, hsy, h2⟩
        exact hi.suffix_older hd hp hr h hm
  · exact .inl (.inl (hi.gone (by simpa using hn)))

/-- the loop was left at the parent -/
theorem cov_parent (hd : Dom cfg s) (hi : Core cfg s) (ho : Ord cfg s) {t i r rem} {p : Entry}
    (hp : s.ph t = .initing (.scan i (p :: rem)))
    (hr : (cfg.res t)[i]? = some r) (hpar : cfg.parentOf t = some p.1) : Cov cfg s t i r := by
  obtain ⟨vis, h, hv⟩ := ho.scanC t i _ r hp hr
  intro e he h3 h4
  have hn' := hi.histNodup r
  have hu := hi.older_users hd (hi.own_entry hd hp hr)
  rw [h] at hu
  have hpm : p ∈ olderThan (t, i) (s.hist r) := (List.mem_filter.1 (hu ▸ (by simp : p ∈ vis ++ p :: rem))).1
  by_cases hn : notDel (s.fl e.1) e.2 = true
  · have hm : e ∈ vis ++ p :: rem := hu ▸ List.mem_filter.2 ⟨he, hn⟩
    rcases List.mem_append.1 hm with hm | hm
    · exact .inl (hv e hm h3 h4.serial)
    · have hpe : cfg.parentOf e.1 = some p.1 := by
        rw [← hpar]; unfold Cfg.parentOf; rw [h3]
      rcases List.mem_cons.1 hm with hm | hm
      · subst hm
        have h1 : e.1 < s.n := hd.scanP t _ _ _ hp
        have := (hd.par e.1 e.1 h1 hpe).1
        omega
      · exfalso
        refine ho.parOlder r e p hpe ?_
        exact hi.suffix_older hd hp hr h hm
  · exact .inl (.inl (hi.gone (by simpa using hn)))


theorem Ord.step_parOlder (hd : Dom cfg s) (hi : Core cfg s) (ho : Ord cfg s) (hs : Step cfg l s s') :
    ∀ r (e p : Entry), cfg.parentOf e.1 = some p.1 → e ∉ olderThan p (s'.hist r) := by
  have h := ho.parOlder
  cases hs with
  | @pushUser _ t i r hp hr =>
    intro r' e p hpe
    dsimp only
    by_cases er : r' = r
    · subst er
      rw [upd_same]
      by_cases ep : (t, i) = p
      · subst ep
        rw [olderThan_cons_self]
        intro he
        have h1 := (hi.histMem r' e.1 e.2).1 he
        have h2 : e.1 < s.n := by
          apply hd.lt_ph
          intro h3
          rw [h3] at h1
          exact h1.2
        have h3 := (hi.exI t (hd.par e.1 t h2 hpe).2).1
        rw [hp] at h3; cases h3
      · rw [olderThan_cons_ne ep]
        exact h r' e p hpe
    · rw [upd_ne _ _ er]
      exact h r' e p hpe
  | _ => exact h

theorem Ord.step_scanC (hd : Dom cfg s) (hi : Core cfg s) (ho : Ord cfg s) (hs : Step cfg l s s') :
    ∀ t i rem r, s'.ph t = .initing (.scan i rem) → (cfg.res t)[i]? = some r →
    ∃ vis, olderThan (t, i) (s'.users r) = vis ++ rem ∧ ∀ e ∈ vis, Cvd cfg s' t e := by
  intro t i rem r hp hr
  -- what stays the same if the task was scanning before
  have old : ∀ rem', s.ph t = .initing (.scan i rem') →
      ∃ vis, olderThan (t, i) (s'.users r) = vis ++ rem' ∧ ∀ e ∈ vis, Cvd cfg s' t e := by
    intro rem' hp'
    obtain ⟨vis, h1, h2⟩ := ho.scanC t i rem' r hp' hr
    refine ⟨vis, ?_, fun e he => (h2 e he).mono hd hi hs⟩
    rw [users_mono hd hi hs (hi.lockScan t i rem' r hp' hr) (hi.own_entry hd hp' hr), h1]
  have adv : ∀ p, s.ph t = .initing (.scan i (p :: rem)) → Cvd cfg s' t p →
      ∃ vis, olderThan (t, i) (s'.users r) = vis ++ rem ∧ ∀ e ∈ vis, Cvd cfg s' t e := by
    intro p hp' hc
    obtain ⟨vis, h1, h2⟩ := old _ hp'
    refine ⟨vis ++ [p], by simp [h1], ?_⟩
    intro e he
    rcases List.mem_append.1 he with he | he
    · exact h2 e he
    · rw [List.mem_singleton.1 he]; exact hc
  have key : s.ph t = .initing (.scan i rem) ∨ (∃ p, s.ph t = .initing (.scan i (p :: rem)) ∧ Cvd cfg s' t p)
      ∨ (∃ p, s.ph t = .initing (.incr i p rem)) ∨ rem = olderThan (t, i) (s'.users r) := by
    cases hs with
    | @scanSkip _ u j p rem' h1 h2 h3 =>
      rcases upd_eq hp with ⟨e, hv⟩ | ⟨e, hv⟩
      · subst e; cases hv
        exact .inr (.inl ⟨p, h1, fun h4 h5 => absurd ⟨h4, h5⟩ h3⟩)
      · exact .inl hv
    | @scanReached _ u j p rem' r' h1 h2 h3 h4 h5 =>
      rcases upd_eq hp with ⟨e, hv⟩ | ⟨e, hv⟩
      · subst e
        split at hv
        · cases hv
        · cases hv
          exact .inr (.inl ⟨p, h1, fun _ _ => .inl h5⟩)
      · exact .inl hv
    | @incr _ u j p rem' r' h1 h2 =>
      rcases upd_eq hp with ⟨e, hv⟩ | ⟨e, hv⟩
      · subst e
        split at hv
        · cases hv
        · cases hv
          exact .inr (.inr (.inl ⟨p, h1⟩))
      · exact .inl hv
    | @lockRes _ u j r' h1 h2 h3 =>
      rcases upd_eq hp with ⟨e, hv⟩ | ⟨e, hv⟩
      · subst e; cases hv
        rw [hr] at h2; cases h2
        exact .inr (.inr (.inr rfl))
      · exact .inl hv
    | _ =>
      first
      | exact .inl hp
      | (rcases upd_eq hp with ⟨e, hv⟩ | ⟨e, hv⟩
         · cases hv
         · exact .inl hv)
  rcases key with h | ⟨p, h, h'⟩ | ⟨p, h⟩ | h
  · exact old _ h
  · exact adv p h h'
  · obtain ⟨h1, vis, h3, h4⟩ := ho.incrC t i p rem r h hr
    refine ⟨vis ++ [p], ?_, ?_⟩
    · rw [users_mono hd hi hs (hi.lockIncr t i p rem r h hr) (hi.own_entry hd h hr), h3]
      simp
    · intro e he
      rcases List.mem_append.1 he with he | he
      · exact (h4 e he).mono hd hi hs
      · rw [List.mem_singleton.1 he]
        exact fun _ _ => Linked.mono hd hi hs (.inr (hi.incrFl t i p rem h).2)
  · exact ⟨[], by rw [h]; rfl, by simp⟩

theorem Ord.step_linkC (hd : Dom cfg s) (hi : Core cfg s) (ho : Ord cfg s) (hs : Step cfg l s s') :
    ∀ t i p rem r, s'.ph t = .initing (.link i p rem) → (cfg.res t)[i]? = some r →
    cfg.space p.1 = cfg.space t ∧
    ∃ vis, olderThan (t, i) (s'.users r) = vis ++ p :: rem ∧ ∀ e ∈ vis, Cvd cfg s' t e := by
  intro t i p rem r hp hr
  have key : s.ph t = .initing (.link i p rem) ∨ (s.ph t = .initing (.scan i (p :: rem)) ∧
      cfg.space p.1 = cfg.space t) := by
    cases hs with
    | @scanLink _ u j p rem' h1 h2 h3 h4 =>
      rcases upd_eq hp with ⟨e, hv⟩ | ⟨e, hv⟩
      · subst e; cases hv
        exact .inr ⟨h1, h3.1⟩
      · exact .inl hv
    | _ =>
      first
      | exact .inl hp
      | (rcases upd_eq hp with ⟨e, hv⟩ | ⟨e, hv⟩
         · first | cases hv | (split at hv <;> cases hv)
         · exact .inl hv)
  rcases key with h | ⟨h, h1⟩
  · obtain ⟨h1, vis, h3, h4⟩ := ho.linkC t i p rem r h hr
    refine ⟨h1, vis, ?_, fun e he => (h4 e he).mono hd hi hs⟩
    rw [users_mono hd hi hs (hi.lockLink t i p rem r h hr) (hi.own_entry hd h hr), h3]
  · obtain ⟨vis, h3, h4⟩ := ho.scanC t i _ r h hr
    refine ⟨h1, vis, ?_, fun e he => (h4 e he).mono hd hi hs⟩
    rw [users_mono hd hi hs (hi.lockScan t i _ r h hr) (hi.own_entry hd h hr), h3]

theorem Ord.step_incrC (hd : Dom cfg s) (hi : Core cfg s) (ho : Ord cfg s) (hs : Step cfg l s s') :
    ∀ t i p rem r, s'.ph t = .initing (.incr i p rem) → (cfg.res t)[i]? = some r →
    cfg.space p.1 = cfg.space t ∧
    ∃ vis, olderThan (t, i) (s'.users r) = vis ++ p :: rem ∧ ∀ e ∈ vis, Cvd cfg s' t e := by
  intro t i p rem r hp hr
  have key : s.ph t = .initing (.incr i p rem) ∨ s.ph t = .initing (.link i p rem) := by
    cases hs with
    | @link _ u j p rem' h1 =>
      rcases upd_eq hp with ⟨e, hv⟩ | ⟨e, hv⟩
      · subst e; cases hv
        exact .inr h1
      · exact .inl hv
    | _ =>
      first
      | exact .inl hp
      | (rcases upd_eq hp with ⟨e, hv⟩ | ⟨e, hv⟩
         · first | cases hv | (split at hv <;> cases hv)
         · exact .inl hv)
  rcases key with h | h
  · obtain ⟨h1, vis, h3, h4⟩ := ho.incrC t i p rem r h hr
    refine ⟨h1, vis, ?_, fun e he => (h4 e he).mono hd hi hs⟩
    rw [users_mono hd hi hs (hi.lockIncr t i p rem r h hr) (hi.own_entry hd h hr), h3]
  · obtain ⟨h1, vis, h3, h4⟩ := ho.linkC t i p rem r h hr
    refine ⟨h1, vis, ?_, fun e he => (h4 e he).mono hd hi hs⟩
    rw [users_mono hd hi hs (hi.lockLink t i p rem r h hr) (hi.own_entry hd h hr), h3]

theorem passed_pushed {p : Ph} {i : Nat} (h : passed p i) (j : Nat) : Pushed p j := by
  unfold passed at h
  split at h <;> trivial

theorem Ord.step_cov (hd : Dom cfg s) (hi : Core cfg s) (ho : Ord cfg s) (hs : Step cfg l s s') :
    ∀ t i r, passed (s'.ph t) i → (cfg.res t)[i]? = some r → Cov cfg s' t i r := by
  intro t i r hp hr
  -- it is enough to show this in the state before
  suffices h : Pushed (s.ph t) i ∧ Cov cfg s t i r from
    h.2.mono hd hi hs ((hi.histMem r t i).2 ⟨hr, h.1⟩)
  have old : passed (s.ph t) i → Pushed (s.ph t) i ∧ Cov cfg s t i r := fun h =>
    ⟨passed_pushed h i, ho.cov t i r h hr⟩
  have same : ∀ {u v w}, passed (upd s.ph u v t) i → s.ph u = w → (passed v i → passed w i) →
      Pushed (s.ph t) i ∧ Cov cfg s t i r := by
    intro u v w h1 h2 h3
    apply old
    by_cases e : t = u
    · subst e
      rw [upd_same] at h1
      rw [h2]; exact h3 h1
    · rwa [upd_ne _ _ e] at h1
  cases hs with
  | beginSubmit h1 h2 => exact same hp (hd.ph _ (Nat.le_refl _)) (fun h => h)
  | pushUser h1 => exact same hp h1 (fun h => h)
  | emplace h1 => exact same hp h1 (fun h => h)
  | startInit h1 => exact same hp h1 (fun h => by simp [passed] at h)
  | lockRes h1 => exact same hp h1 (fun h => h)
  | @scanParent _ u j p rem h1 h2 =>
    by_cases e : t = u ∧ i = j
    · obtain ⟨rfl, rfl⟩ := e
      exact ⟨by rw [h1]; trivial, cov_parent hd hi ho h1 hr h2⟩
    · by_cases e' : t = u
      · subst e'
        dsimp only at hp
        rw [upd_same] at hp
        have : i < j := by simp only [passed] at hp; omega
        exact old (by rw [h1]; exact this)
      · dsimp only at hp
        rw [upd_ne _ _ e'] at hp
        exact old hp
  | scanSkip h1 => exact same hp h1 (fun h => h)
  | @scanReached _ u j p rem r' h1 h2 h3 h4 h5 =>
    by_cases e' : t = u
    · subst e'
      dsimp only at hp
      rw [upd_same] at hp
      split at hp
      · rename_i hsy
        by_cases e : i = j
        · subst e
          rw [hr] at h2; cases h2
          obtain ⟨vis, h6, h7⟩ := ho.scanC t i _ r h1 hr
          exact ⟨by rw [h1]; trivial, cov_sync hd hi h1 hr h6 h7 h4.1 (.inl h5) hsy⟩
        · have : i < j := by simp only [passed] at hp; omega
          exact old (by rw [h1]; exact this)
      · exact old (by rw [h1]; exact hp)
    · dsimp only at hp
      rw [upd_ne _ _ e'] at hp
      exact old hp
  | scanLink h1 => exact same hp h1 (fun h => h)
  | link h1 => exact same hp h1 (fun h => h)
  | @incr _ u j p rem r' h1 h2 =>
    by_cases e' : t = u
    · subst e'
      dsimp only at hp
      rw [upd_same] at hp
      split at hp
      · rename_i hsy
        by_cases e : i = j
        · subst e
          rw [hr] at h2; cases h2
          obtain ⟨h4, vis, h6, h7⟩ := ho.incrC t i _ _ r h1 hr
          exact ⟨by rw [h1]; trivial,
            cov_sync hd hi h1 hr h6 h7 h4 (.inr (hi.incrFl t i p rem h1).2) hsy⟩
        · have : i < j := by simp only [passed] at hp; omega
          exact old (by rw [h1]; exact this)
      · exact old (by rw [h1]; exact hp)
    · dsimp only at hp
      rw [upd_ne _ _ e'] at hp
      exact old hp
  | @scanEnd _ u j h1 =>
    by_cases e : t = u ∧ i = j
    · obtain ⟨rfl, rfl⟩ := e
      obtain ⟨vis, h6, h7⟩ := ho.scanC t i _ r h1 hr
      exact ⟨by rw [h1]; trivial, cov_end hd hi h1 hr (by simpa using h6) h7⟩
    · by_cases e' : t = u
      · subst e'
        dsimp only at hp
        rw [upd_same] at hp
        have : i < j := by simp only [passed] at hp; omega
        exact old (by rw [h1]; exact this)
      · dsimp only at hp
        rw [upd_ne _ _ e'] at hp
        exact old hp
  | unlock h1 => exact same hp h1 (fun h => by simp only [passed] at h ⊢; omega)
  | @resEnd _ u j h1 h2 =>
    by_cases e' : t = u
    · subst e'
      have := getElem?_lt_length hr
      exact old (by rw [h1]; simp only [passed]; omega)
    · dsimp only at hp
      rw [upd_ne _ _ e'] at hp
      exact old hp
  | noParent h1 => exact same hp h1 (fun h => h)
  | parentPush h1 => exact same hp h1 (fun h => h)
  | parentIncr h1 => exact same hp h1 (fun h => h)
  | final h1 => exact same hp h1 (fun h => h)
  | _ => exact old hp

theorem Ord.step_origin (hd : Dom cfg s) (hi : Core cfg s) (ho : Ord cfg s) (hs : Step cfg l s s') :
    ∀ p t, .pre t ∈ s'.pnd p → cfg.space p = cfg.space t ∧
      ∃ r i j, (p, j) ∈ olderThan (t, i) (s'.hist r) ∧ (cfg.res t)[i]? = some r := by
  intro p t hm
  have old : .pre t ∈ s.pnd p → cfg.space p = cfg.space t ∧
      ∃ r i j, (p, j) ∈ olderThan (t, i) (s'.hist r) ∧ (cfg.res t)[i]? = some r := by
    intro h
    obtain ⟨h1, r, i, j, h3, h4⟩ := ho.origin p t h
    refine ⟨h1, r, i, j, ?_, h4⟩
    rw [hist_mono hd hi hs]
    · exact h3
    · refine (hi.histMem r t i).2 ⟨h4, ?_⟩
      have := hi.tgtPre p t h
      revert this
      cases s.ph t <;> simp [begun, Pushed]
  cases hs with
  | @link _ u i q rem h1 =>
    by_cases e : .pre t ∈ s.pnd p
    · exact old e
    · dsimp only at hm ⊢
      by_cases e1 : p = q.1
      · subst e1
        rw [upd_same] at hm
        rcases List.mem_cons.1 hm with h | h
        · cases h
          obtain ⟨r, hr⟩ := hi.holdR t i (by rw [h1]; rfl)
          obtain ⟨h2, vis, h4, h5⟩ := ho.linkC t i q rem r h1 hr
          refine ⟨h2, r, i, q.2, ?_, hr⟩
          rw [hi.older_users hd (hi.own_entry hd h1 hr)] at h4
          have : q ∈ vis ++ q :: rem := by simp
          rw [← h4, List.mem_filter] at this
          exact this.1
        · exact absurd h e
      · rw [upd_ne _ _ e1] at hm
        exact absurd hm e
  | @parentPush _ u q h1 h2 =>
    apply old
    dsimp only at hm
    by_cases e1 : p = u
    · subst e1
      rw [upd_same] at hm
      rcases List.mem_cons.1 hm with h | h
      · cases h
      · exact h
    · rwa [upd_ne _ _ e1] at hm
  | notifyPre h1 =>
    apply old
    dsimp only [State.decPre] at hm
    grind [upd, List.mem_of_mem_tail]
  | notifyPost h1 =>
    apply old
    dsimp only [State.decPost] at hm
    grind [upd, List.mem_of_mem_tail]
  | _ => exact old hm

theorem Ord.step (hd : Dom cfg s) (hi : Core cfg s) (ho : Ord cfg s) (hs : Step cfg l s s') :
    Ord cfg s' :=
  ⟨ho.step_parOlder hd hi hs, ho.step_scanC hd hi hs, ho.step_linkC hd hi hs, ho.step_incrC hd hi hs,
   ho.step_cov hd hi hs, ho.step_origin hd hi hs⟩

theorem Ord.init : Ord cfg init := by
  constructor <;> simp [Graph.init, olderThan, passed]

theorem Ord.reach (ht : Tame cfg) (h : Reach cfg s) : Ord cfg s := by
  induction h with
  | init => exact Ord.init
  | step h hs ih => exact ih.step (Dom.reach h) (Core.reach ht h) hs

end RG.Graph
