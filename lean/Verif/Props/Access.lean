import Verif.Model.Access
/-
Properties C01-C05: laws of the conflict, superset and synchronisation tests of every access
policy that can be composed from the library's building blocks and from policies of the user.
-/
namespace RG

/-! ### C01 conflicts are symmetric -/

theorem Mode.isSerial_comm (a b : Mode) : a.isSerial b = b.isSerial a := by
  cases a <;> cases b <;> rfl

theorem Area.isSerial_comm (a b : Area) : a.isSerial b = b.isSerial a := by
  simp only [Area.isSerial, GE.ge]
  rw [Bool.or_comm]

/-- C01: whether two accesses conflict does not depend on the order in which they are compared,
for every composed policy. -/
theorem C01_conflict_symmetric (p : Policy) (a b : Acc p) :
    Acc.isSerial p a b = Acc.isSerial p b a := by
  induction p with
  | io => exact Mode.isSerial_comm a b
  | area => exact Area.isSerial_comm a b
  | custom c => exact c.serial_comm a b
  | array p n op ih => cases op <;> simp [Acc.isSerial, ih (a _) (b _)]
  | combine p q op ihp ihq =>
    cases op <;> simp [Acc.isSerial, ihp a.1 b.1, ihq a.2 b.2]

/-- a write to a 2-dimensional area against a read of an overlapping one: a real conflict -/
example :
    let a : Acc (fieldPolicy 2) := (Mode.write, fun _ => (⟨0, 5⟩ : Area))
    let b : Acc (fieldPolicy 2) := (Mode.read, fun _ => (⟨4, 9⟩ : Area))
    Acc.isSerial _ a b = true ∧ Acc.isSerial _ b a = true := by decide

/-! ### C02 synchronizing accesses -/

theorem Mode.sync_serial (m q : Mode) (h : m.isSync = true) : q.isSerial m = true := by
  cases m <;> cases q <;> simp_all [Mode.isSync, Mode.isSerial]

theorem Area.sync_serial (p q t : Area) (hs : p.isSync = true) (h : q.isSerial t = true) :
    q.isSerial p = true := by
  obtain ⟨pl, ph⟩ := p
  simp only [Area.isSync, Bool.and_eq_true, beq_iff_eq] at hs
  obtain ⟨h1, h2⟩ := hs
  subst h1; subst h2
  simp only [Area.isSerial, Bool.not_eq_true', Bool.or_eq_false_iff, decide_eq_false_iff_not,
    GE.ge, sizeMax, BitVec.le_def, BitVec.toNat_allOnes] at *
  have := t.hi.isLt
  have h0 : (0 : Size).toNat = 0 := rfl
  omega

/-- C02: an access `q` that conflicts with some access `t` also conflicts with every
synchronizing access `p`; so nothing older than a synchronizing predecessor has to be looked at. -/
theorem C02_sync_conflicts_with_all (p : Policy) (s q t : Acc p)
    (hs : Acc.isSync p s = true) (h : Acc.isSerial p q t = true) :
    Acc.isSerial p q s = true := by
  induction p with
  | io => exact Mode.sync_serial s q hs
  | area => exact Area.sync_serial s q t hs h
  | custom c => exact c.sync_serial s q t hs h
  | array p n op ih =>
    simp only [Acc.isSync, List.all_eq_true, List.mem_finRange, true_implies] at hs
    cases op with
    | and =>
      simp only [Acc.isSerial, List.all_eq_true, List.mem_finRange, true_implies] at *
      exact fun i => ih _ _ _ (hs i) (h i)
    | or =>
      simp only [Acc.isSerial, List.any_eq_true, List.mem_finRange, true_and] at *
      obtain ⟨i, hi⟩ := h
      exact ⟨i, ih _ _ _ (hs i) hi⟩
  | combine p1 p2 op ih1 ih2 =>
    simp only [Acc.isSync, Bool.and_eq_true] at hs
    cases op with
    | and =>
      simp only [Acc.isSerial, Bool.and_eq_true] at *
      exact ⟨ih1 _ _ _ hs.1 h.1, ih2 _ _ _ hs.2 h.2⟩
    | or =>
      simp only [Acc.isSerial, Bool.or_eq_true] at *
      exact h.imp (ih1 _ _ _ hs.1) (ih2 _ _ _ hs.2)

/-- a write to a whole field is synchronizing, and two smaller accesses conflict -/
example :
    let s : Acc (fieldPolicy 1) := (Mode.write, fun _ => Area.dflt)
    let q : Acc (fieldPolicy 1) := (Mode.read, fun _ => (⟨3, 7⟩ : Area))
    let t : Acc (fieldPolicy 1) := (Mode.write, fun _ => (⟨6, 9⟩ : Area))
    Acc.isSync _ s = true ∧ Acc.isSerial _ q t = true := by decide

/-! ### C03 superset accesses conflict at least as much -/

theorem Mode.superset_serial (p c q : Mode) (h : p.isSuperset c = true)
    (hq : q.isSerial c = true) : q.isSerial p = true := by
  cases p <;> cases c <;> cases q <;> simp_all [Mode.isSuperset, Mode.isSerial]

theorem Area.superset_serial (p c q : Area) (h : p.isSuperset c = true)
    (hq : q.isSerial c = true) : q.isSerial p = true := by
  simp only [Area.isSuperset, Area.isSerial, Bool.not_eq_true', Bool.or_eq_false_iff,
    decide_eq_false_iff_not, GE.ge, BitVec.le_def, Bool.and_eq_true, decide_eq_true_eq] at *
  omega

/-- C03: an access that conflicts with `c` conflicts with every superset `p` of `c`. -/
theorem C03_superset_conflicts (p : Policy) (s c q : Acc p)
    (hs : Acc.isSuperset p s c = true) (h : Acc.isSerial p q c = true) :
    Acc.isSerial p q s = true := by
  induction p with
  | io => exact Mode.superset_serial s c q hs h
  | area => exact Area.superset_serial s c q hs h
  | custom p => exact p.superset_serial s c q hs h
  | array p n op ih =>
    simp only [Acc.isSuperset, List.all_eq_true, List.mem_finRange, true_implies] at hs
    cases op with
    | and =>
      simp only [Acc.isSerial, List.all_eq_true, List.mem_finRange, true_implies] at *
      exact fun i => ih _ _ _ (hs i) (h i)
    | or =>
      simp only [Acc.isSerial, List.any_eq_true, List.mem_finRange, true_and] at *
      obtain ⟨i, hi⟩ := h
      exact ⟨i, ih _ _ _ (hs i) hi⟩
  | combine p1 p2 op ih1 ih2 =>
    simp only [Acc.isSuperset, Bool.and_eq_true] at hs
    cases op with
    | and =>
      simp only [Acc.isSerial, Bool.and_eq_true] at *
      exact ⟨ih1 _ _ _ hs.1 h.1, ih2 _ _ _ hs.2 h.2⟩
    | or =>
      simp only [Acc.isSerial, Bool.or_eq_true] at *
      exact h.imp (ih1 _ _ _ hs.1) (ih2 _ _ _ hs.2)

example :
    let s : Acc (fieldPolicy 1) := (Mode.write, fun _ => (⟨0, 10⟩ : Area))
    let c : Acc (fieldPolicy 1) := (Mode.read, fun _ => (⟨3, 7⟩ : Area))
    let q : Acc (fieldPolicy 1) := (Mode.write, fun _ => (⟨6, 9⟩ : Area))
    Acc.isSuperset _ s c = true ∧ Acc.isSerial _ q c = true := by decide

/-! ### C04 superset is a preorder, `operator==` is equality -/

theorem Mode.isSuperset_refl (a : Mode) : a.isSuperset a = true := by cases a <;> rfl

theorem Mode.isSuperset_trans (a b c : Mode) (h1 : a.isSuperset b = true)
    (h2 : b.isSuperset c = true) : a.isSuperset c = true := by
  cases a <;> cases b <;> cases c <;> simp_all [Mode.isSuperset]

theorem Area.isSuperset_refl (a : Area) : a.isSuperset a = true := by
  simp [Area.isSuperset]

theorem Area.isSuperset_trans (a b c : Area) (h1 : a.isSuperset b = true)
    (h2 : b.isSuperset c = true) : a.isSuperset c = true := by
  simp only [Area.isSuperset, GE.ge, BitVec.le_def, Bool.and_eq_true, decide_eq_true_eq] at *
  omega

theorem Area.eq_iff (a b : Area) : a.eq b = true ↔ a = b := by
  cases a; cases b; simp [Area.eq]

/-- C04: the superset test is reflexive, -/
theorem C04_superset_refl (p : Policy) (a : Acc p) : Acc.isSuperset p a a = true := by
  induction p with
  | io => exact Mode.isSuperset_refl a
  | area => exact Area.isSuperset_refl a
  | custom c => exact c.superset_refl a
  | array p n op ih =>
    simp only [Acc.isSuperset, List.all_eq_true]
    exact fun i _ => ih _
  | combine p1 p2 op ih1 ih2 =>
    simp only [Acc.isSuperset, Bool.and_eq_true]
    exact ⟨ih1 _, ih2 _⟩

/-- C04: transitive, -/
theorem C04_superset_trans (p : Policy) (a b c : Acc p) (h1 : Acc.isSuperset p a b = true)
    (h2 : Acc.isSuperset p b c = true) : Acc.isSuperset p a c = true := by
  induction p with
  | io => exact Mode.isSuperset_trans a b c h1 h2
  | area => exact Area.isSuperset_trans a b c h1 h2
  | custom p => exact p.superset_trans a b c h1 h2
  | array p n op ih =>
    simp only [Acc.isSuperset, List.all_eq_true] at *
    exact fun i hi => ih _ _ _ (h1 i hi) (h2 i hi)
  | combine p1 p2 op ih1 ih2 =>
    simp only [Acc.isSuperset, Bool.and_eq_true] at *
    exact ⟨ih1 _ _ _ h1.1 h2.1, ih2 _ _ _ h1.2 h2.2⟩

/-- C04: `operator==` holds exactly for accesses with equal contents, -/
theorem C04_eq_iff_same_contents (p : Policy) (a b : Acc p) : Acc.eq p a b = true ↔ a = b := by
  induction p with
  | io => exact beq_iff_eq (α := Mode)
  | area => exact Area.eq_iff a b
  | custom c => exact c.eq_iff a b
  | array p n op ih =>
    simp only [Acc.eq, List.all_eq_true, List.mem_finRange, true_implies]
    constructor
    · exact fun h => funext fun i => (ih _ _).1 (h i)
    · rintro rfl i; exact (ih _ _).2 rfl
  | combine p1 p2 op ih1 ih2 =>
    simp only [Acc.eq, Bool.and_eq_true, ih1, ih2]
    constructor
    · rintro ⟨h1, h2⟩; exact Prod.ext h1 h2
    · rintro rfl; exact ⟨rfl, rfl⟩

theorem Mode.isSuperset_antisymm (a b : Mode) (h1 : a.isSuperset b = true)
    (h2 : b.isSuperset a = true) : a = b := by
  cases a <;> cases b <;> simp_all [Mode.isSuperset]

theorem Area.isSuperset_antisymm (a b : Area) (h1 : a.isSuperset b = true)
    (h2 : b.isSuperset a = true) : a = b := by
  obtain ⟨al, ah⟩ := a; obtain ⟨bl, bh⟩ := b
  simp only [Area.isSuperset, GE.ge, BitVec.le_def, Bool.and_eq_true, decide_eq_true_eq] at *
  simp only [Area.mk.injEq, ← BitVec.toNat_inj]
  omega

/-- C04: and accesses that are supersets of each other are equal (and conversely). -/
theorem C04_superset_antisymm (p : Policy) (a b : Acc p) :
    (Acc.isSuperset p a b = true ∧ Acc.isSuperset p b a = true) ↔ Acc.eq p a b = true := by
  rw [C04_eq_iff_same_contents]
  constructor
  · rintro ⟨h1, h2⟩
    induction p with
    | io => exact Mode.isSuperset_antisymm a b h1 h2
    | area => exact Area.isSuperset_antisymm a b h1 h2
    | custom c => exact c.superset_antisymm a b h1 h2
    | array p n op ih =>
      simp only [Acc.isSuperset, List.all_eq_true, List.mem_finRange, true_implies] at *
      exact funext fun i => ih _ _ (h1 i) (h2 i)
    | combine p1 p2 op ih1 ih2 =>
      simp only [Acc.isSuperset, Bool.and_eq_true] at *
      exact Prod.ext (ih1 _ _ h1.1 h2.1) (ih2 _ _ h1.2 h2.2)
  · rintro rfl; exact ⟨C04_superset_refl p a, C04_superset_refl p a⟩

/-- a proper three-element chain -/
example :
    let a : Acc (fieldPolicy 1) := (Mode.write, fun _ => (⟨0, 10⟩ : Area))
    let b : Acc (fieldPolicy 1) := (Mode.read, fun _ => (⟨0, 9⟩ : Area))
    let c : Acc (fieldPolicy 1) := (Mode.read, fun _ => (⟨3, 7⟩ : Area))
    Acc.isSuperset _ a b = true ∧ Acc.isSuperset _ b c = true ∧ Acc.isSuperset _ c b = false := by
  decide

/-! ### C05 the default access is the strongest -/

/-- C05: a default-constructed access is synchronizing, -/
theorem C05_default_sync (p : Policy) : Acc.isSync p (Acc.dflt p) = true := by
  induction p with
  | io => rfl
  | area => rfl
  | custom c => exact c.dflt_sync
  | array p n op ih => simp [Acc.isSync, Acc.dflt, ih]
  | combine p1 p2 op ih1 ih2 => simp [Acc.isSync, Acc.dflt, ih1, ih2]

/-- C05: and a superset of every access. -/
theorem C05_default_superset (p : Policy) (a : Acc p) :
    Acc.isSuperset p (Acc.dflt p) a = true := by
  induction p with
  | io => rfl
  | area =>
    obtain ⟨al, ah⟩ := a
    have := ah.isLt
    have h0 : (0 : Size).toNat = 0 := rfl
    simp only [Acc.isSuperset, Acc.dflt, Area.isSuperset, Area.dflt, sizeMax, GE.ge,
      BitVec.le_def, Bool.and_eq_true, decide_eq_true_eq, BitVec.toNat_allOnes]
    omega
  | custom c => exact c.dflt_superset a
  | array p n op ih =>
    simp only [Acc.isSuperset, List.all_eq_true]
    exact fun i _ => ih _
  | combine p1 p2 op ih1 ih2 =>
    simp only [Acc.isSuperset, Bool.and_eq_true]
    exact ⟨ih1 _, ih2 _⟩

/-- the default access is not the only superset: the statement is not vacuous for a proper subset -/
example :
    let c : Acc (fieldPolicy 2) := (Mode.read, fun _ => (⟨3, 7⟩ : Area))
    Acc.isSuperset _ (Acc.dflt (fieldPolicy 2)) c = true ∧
      Acc.isSuperset _ c (Acc.dflt (fieldPolicy 2)) = false := by decide

end RG
