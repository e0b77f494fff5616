import Verif.Props.ResourceUser
import Verif.Model.FieldGuard
/-
Properties C06, C10, C11: field accesses and field guards, specified by sets of element positions.
-/
namespace RG

/-- Spec: the positions of the half-open box given by `area`. -/
def InBox {dim : Nat} (area : Fin dim → Area) (pos : Index dim) : Prop :=
  ∀ d, (area d).lo.toNat ≤ (pos d).toNat ∧ (pos d).toNat < (area d).hi.toNat

/-- Spec: two tasks may use these modes on the same element at the same time. -/
def Compatible (a b : Mode) : Prop := a = b ∧ a ≠ .write

theorem Mode.not_serial_iff (a b : Mode) : a.isSerial b = false ↔ Compatible a b := by
  cases a <;> cases b <;> simp [Mode.isSerial, Compatible]

theorem Area.isSerial_iff (a b : Area) :
    a.isSerial b = true ↔ b.lo.toNat < a.hi.toNat ∧ a.lo.toNat < b.hi.toNat := by
  simp only [Area.isSerial, Bool.not_eq_true', Bool.or_eq_false_iff,
    decide_eq_false_iff_not, GE.ge, BitVec.le_def]
  omega

/-- the field access with a mode and one area per dimension -/
abbrev fieldAcc {dim : Nat} (m : Mode) (area : Fin dim → Area) : Acc (fieldPolicy dim) :=
  ((m, area) : Mode × (Fin dim → Area))

theorem fieldAcc_serial {dim : Nat} (m m' : Mode) (A B : Fin dim → Area) :
    Acc.isSerial (fieldPolicy dim) (fieldAcc m A) (fieldAcc m' B) = true ↔
      m.isSerial m' = true ∧ ∀ d, (A d).isSerial (B d) = true := by
  simp only [Acc.isSerial, Bool.and_eq_true, List.all_eq_true, List.mem_finRange, true_implies]

/-! ### C06 -/

/-- C06: if two accesses to a field do not conflict, no position lies in both areas unless both
use the same non-write mode. Holds for every dimension and all bounds (also inverted ones). -/
theorem C06_no_conflict_no_shared_element {dim : Nat} (m m' : Mode) (A B : Fin dim → Area)
    (h : Acc.isSerial (fieldPolicy dim) (fieldAcc m A) (fieldAcc m' B) = false)
    (pos : Index dim) (hA : InBox A pos) (hB : InBox B pos) : Compatible m m' := by
  rw [← Mode.not_serial_iff]
  cases hm : m.isSerial m' with
  | false => rfl
  | true =>
    exfalso
    rw [← Bool.not_eq_true] at h
    apply h
    rw [fieldAcc_serial]
    refine ⟨hm, fun d => ?_⟩
    rw [Area.isSerial_iff]
    have h1 := hA d; have h2 := hB d
    omega

/-- C06, converse: if two accesses with non-empty areas conflict then some position lies in both
areas and the modes are not compatible. -/
theorem C06_conflict_is_real {dim : Nat} (m m' : Mode) (A B : Fin dim → Area)
    (hA : ∃ pos, InBox A pos) (hB : ∃ pos, InBox B pos)
    (h : Acc.isSerial (fieldPolicy dim) (fieldAcc m A) (fieldAcc m' B) = true) :
    (∃ pos, InBox A pos ∧ InBox B pos) ∧ ¬ Compatible m m' := by
  rw [fieldAcc_serial] at h
  obtain ⟨hm, hd⟩ := h
  constructor
  · obtain ⟨a, ha⟩ := hA; obtain ⟨b, hb⟩ := hB
    refine ⟨fun d => if (A d).lo.toNat ≤ (B d).lo.toNat then (B d).lo else (A d).lo, ?_, ?_⟩
    all_goals
      intro d
      have h1 := ha d; have h2 := hb d
      have h3 := (Area.isSerial_iff _ _).1 (hd d)
      dsimp only
      split <;> constructor <;> omega
  · rw [← Mode.not_serial_iff, hm]; simp

/-- a conflicting and a non-conflicting pair of non-empty two-dimensional areas -/
example :
    let A : Fin 2 → Area := fun _ => ⟨0, 5⟩
    let B : Fin 2 → Area := fun _ => ⟨4, 9⟩
    let C : Fin 2 → Area := fun d => if d = 0 then ⟨5, 9⟩ else ⟨0, 5⟩
    Acc.isSerial (fieldPolicy 2) (fieldAcc .write A) (fieldAcc .read B) = true ∧
    Acc.isSerial (fieldPolicy 2) (fieldAcc .write A) (fieldAcc .write C) = false := by decide

/-! ### C10 -/

theorem Guard.contains_iff {dim : Nat} (g : Guard dim) (pos : Index dim) :
    g.contains pos = true ↔ InBox g.area pos := by
  simp only [Guard.contains, List.all_eq_true, List.mem_finRange, true_implies,
    Bool.not_eq_true', Bool.or_eq_false_iff, decide_eq_false_iff_not, GE.ge, BitVec.le_def,
    BitVec.lt_def, InBox]
  exact forall_congr' fun d => by omega

theorem Guard.makeArea_eq_some {dim : Nat} (g : Guard dim) (b e : Index dim)
    (a : Fin dim → Area) : g.makeArea b e = some a ↔
      a = (fun d => ⟨b d, e d⟩) ∧
      ∀ d, (g.area d).lo.toNat ≤ (b d).toNat ∧ (e d).toNat ≤ (g.area d).hi.toNat := by
  simp only [Guard.makeArea]
  split
  · rename_i h
    simp only [List.all_eq_true, List.mem_finRange, true_implies, Area.isSuperset,
      Bool.and_eq_true, decide_eq_true_eq, GE.ge, BitVec.le_def] at h
    simp only [Option.some.injEq]
    constructor
    · rintro rfl; exact ⟨rfl, h⟩
    · rintro ⟨rfl, -⟩; rfl
  · rename_i h
    simp only [List.all_eq_true, List.mem_finRange, true_implies, Area.isSuperset,
      Bool.and_eq_true, decide_eq_true_eq, GE.ge, BitVec.le_def] at h
    simp only [reduceCtorEq, false_iff, not_and]
    exact fun _ => h

theorem Guard.toAccess_superset {dim : Nat} (g g' : Guard dim) (hr : g.res = g'.res)
    (hw : g'.isWrite = true → g.isWrite = true)
    (ha : ∀ d, (g.area d).isSuperset (g'.area d) = true) :
    g.toAccess.isSuperset g'.toAccess = true := by
  rw [RAccess.isSuperset_iff]
  refine ⟨fieldPolicy dim, g.res, _, _, rfl, by rw [hr]; rfl, ?_⟩
  simp only [Acc.isSuperset, Bool.and_eq_true, List.all_eq_true]
  refine ⟨?_, fun d _ => ha d⟩
  cases h1 : g'.isWrite <;> cases h2 : g.isWrite <;> simp_all [Mode.isSuperset]

theorem Guard.subArea_spec {dim : Nat} (g g' : Guard dim) (b e : Index dim)
    (h : g.subArea b e = some g') :
    g'.res = g.res ∧ g'.isWrite = g.isWrite ∧
      (∀ d, (g.area d).isSuperset (g'.area d) = true) ∧
      (∀ pos, InBox g'.area pos → InBox g.area pos) := by
  simp only [Guard.subArea, Option.map_eq_some_iff] at h
  obtain ⟨a, ha, rfl⟩ := h
  obtain ⟨rfl, hs⟩ := (Guard.makeArea_eq_some g b e a).1 ha
  refine ⟨rfl, rfl, fun d => ?_, fun pos hp d => ?_⟩
  · simpa [Area.isSuperset, BitVec.le_def] using hs d
  · have := hp d; have := hs d
    simp only at *
    omega

theorem Guard.derive_spec {dim : Nat} (g g' : Guard dim) (r : Guard.Restr dim)
    (h : g.derive r = some g') :
    g'.res = g.res ∧ (g'.isWrite = true → g.isWrite = true) ∧
      (∀ d, (g.area d).isSuperset (g'.area d) = true) ∧
      (∀ pos, InBox g'.area pos → InBox g.area pos) := by
  cases r with
  | area b e =>
    obtain ⟨h1, h2, h3, h4⟩ := Guard.subArea_spec g g' b e h
    exact ⟨h1, fun h => h2 ▸ h, h3, h4⟩
  | «at» pos =>
    obtain ⟨h1, h2, h3, h4⟩ := Guard.subArea_spec g g' _ _ h
    exact ⟨h1, fun h => h2 ▸ h, h3, h4⟩
  | read =>
    simp only [Guard.derive, Option.some.injEq] at h
    subst h
    exact ⟨rfl, by simp [Guard.read], fun d => Area.isSuperset_refl _, fun pos h => h⟩

/-- C10: a guard derived from `g` by any chain of `area()`, `at()`, `read()` calls belongs to the
same resource, contains only positions that `g` contains, is not a write guard if `g` is none,
and its access is covered by the access of `g` (so a child task may use it). -/
theorem C10_derived_guard_is_restricted {dim : Nat} (g g' : Guard dim)
    (chain : List (Guard.Restr dim)) (h : g.deriveAll chain = some g') :
    g'.res = g.res ∧ (g'.isWrite = true → g.isWrite = true) ∧
      (∀ pos, g'.contains pos = true → g.contains pos = true) ∧
      g.toAccess.isSuperset g'.toAccess = true := by
  suffices hs : g'.res = g.res ∧ (g'.isWrite = true → g.isWrite = true) ∧
      (∀ d, (g.area d).isSuperset (g'.area d) = true) ∧
      (∀ pos, InBox g'.area pos → InBox g.area pos) by
    refine ⟨hs.1, hs.2.1, fun pos hp => ?_, Guard.toAccess_superset g g' hs.1.symm hs.2.1 hs.2.2.1⟩
    rw [Guard.contains_iff] at *
    exact hs.2.2.2 pos hp
  induction chain generalizing g with
  | nil =>
    simp only [Guard.deriveAll, Option.some.injEq] at h
    subst h
    exact ⟨rfl, id, fun d => Area.isSuperset_refl _, fun pos h => h⟩
  | cons r rs ih =>
    simp only [Guard.deriveAll, Option.bind_eq_some_iff] at h
    obtain ⟨g1, h1, h2⟩ := h
    obtain ⟨a1, a2, a3, a4⟩ := Guard.derive_spec g g1 r h1
    obtain ⟨b1, b2, b3, b4⟩ := ih g1 h2
    exact ⟨b1.trans a1, fun h => a2 (b2 h), fun d => Area.isSuperset_trans _ _ _ (a3 d) (b3 d),
      fun pos h => a4 pos (b4 pos h)⟩

/-- C10: `area(begin, end)` throws exactly if the requested bounds exceed the current ones in some
dimension. -/
theorem C10_area_throws_iff {dim : Nat} (g : Guard dim) (b e : Index dim) :
    g.subArea b e = none ↔
      ∃ d, (b d).toNat < (g.area d).lo.toNat ∨ (g.area d).hi.toNat < (e d).toNat := by
  have h := Guard.makeArea_eq_some g b e
  cases hm : g.makeArea b e with
  | none =>
    simp only [Guard.subArea, hm, Option.map_none, true_iff]
    have h1 := h (fun d => ⟨b d, e d⟩)
    simp only [hm, reduceCtorEq, true_and, false_iff] at h1
    rw [Classical.not_forall] at h1
    obtain ⟨d, hd⟩ := h1
    exact ⟨d, by omega⟩
  | some a =>
    have h1 := (h a).1 hm
    simp only [Guard.subArea, hm, Option.map_some, reduceCtorEq, false_iff, not_exists]
    intro d
    have := h1.2 d
    omega

/-- C10: a non-empty area is granted exactly if all of its positions are in the current area. -/
theorem C10_area_granted_iff_inside {dim : Nat} (g : Guard dim) (b e : Index dim)
    (hne : ∀ d, (b d).toNat < (e d).toNat) :
    (∃ g', g.subArea b e = some g') ↔
      ∀ pos, InBox (fun d => ⟨b d, e d⟩) pos → g.contains pos = true := by
  have hnone := C10_area_throws_iff g b e
  constructor
  · rintro ⟨g', hg⟩ pos hp
    rw [Guard.contains_iff]
    have h4 := (Guard.subArea_spec g g' b e hg).2.2.2
    apply h4
    simp only [Guard.subArea, Option.map_eq_some_iff] at hg
    obtain ⟨a, ha, rfl⟩ := hg
    rw [((Guard.makeArea_eq_some g b e a).1 ha).1]
    exact hp
  · intro h
    cases hs : g.subArea b e with
    | some g' => exact ⟨g', rfl⟩
    | none =>
      exfalso
      obtain ⟨d, hd⟩ := hnone.1 hs
      rcases hd with hd | hd
      · have hp : InBox (fun d => (⟨b d, e d⟩ : Area)) b := fun i => ⟨Nat.le_refl _, hne i⟩
        have := ((Guard.contains_iff g b).1 (h b hp)) d
        omega
      · have hlt : ∀ i, (e i - 1).toNat = (e i).toNat - 1 := by
          intro i
          have h1 := hne i
          have h2 := (e i).isLt
          rw [BitVec.toNat_sub]
          have : (1 : Size).toNat = 1 := rfl
          omega
        have hp : InBox (fun d => (⟨b d, e d⟩ : Area)) (fun i => e i - 1) := by
          intro i
          have := hlt i; have := hne i
          simp only
          omega
        have h3 := ((Guard.contains_iff g _).1 (h _ hp)) d
        have := hlt d; have := hne d
        simp only at h3
        omega

/-- C10: `at(pos)` (for positions below the largest `size_t`) yields a guard of exactly this
position and throws exactly if the position is outside. -/
theorem C10_at_single_position {dim : Nat} (g : Guard dim) (pos : Index dim)
    (hpos : ∀ d, (pos d).toNat + 1 < 2 ^ 64) :
    (g.at' pos = none ↔ g.contains pos = false) ∧
      ∀ g', g.at' pos = some g' → ∀ q, g'.contains q = true ↔ q = pos := by
  have hs : ∀ d, (pos d + 1).toNat = (pos d).toNat + 1 := by
    intro d
    have := hpos d
    rw [BitVec.toNat_add]
    have : (1 : Size).toNat = 1 := rfl
    omega
  constructor
  · rw [← Bool.not_eq_true, Guard.contains_iff]
    unfold Guard.at'
    rw [C10_area_throws_iff, InBox, Classical.not_forall]
    refine exists_congr fun d => ?_
    have := hs d
    omega
  · intro g' hg q
    simp only [Guard.at', Guard.subArea, Option.map_eq_some_iff] at hg
    obtain ⟨a, ha, rfl⟩ := hg
    obtain ⟨rfl, -⟩ := (Guard.makeArea_eq_some g _ _ a).1 ha
    rw [Guard.contains_iff]
    constructor
    · intro h
      funext d
      have h1 := h d
      have h2 := hs d
      simp only at h1
      apply BitVec.eq_of_toNat_eq
      omega
    · rintro rfl d
      have := hs d
      simp only
      omega

/-- C10: a derived guard is a write guard exactly if the original one is and `read()` was not among
the calls. -/
theorem C10_read_only_after_read {dim : Nat} (g g' : Guard dim) (rs : List (Guard.Restr dim))
    (h : g.deriveAll rs = some g') : g'.isWrite = true ↔ g.isWrite = true ∧ Guard.Restr.read ∉ rs := by
  induction rs generalizing g with
  | nil => simp only [Guard.deriveAll, Option.some.injEq] at h; subst h; simp
  | cons r rs ih =>
    simp only [Guard.deriveAll, Option.bind_eq_some_iff] at h
    obtain ⟨g1, h1, h2⟩ := h
    rw [ih g1 h2]
    cases r with
    | area b e =>
      simp only [Guard.derive, Guard.subArea, Option.map_eq_some_iff] at h1
      obtain ⟨a, _, rfl⟩ := h1
      simp
    | «at» pos =>
      simp only [Guard.derive, Guard.at', Guard.subArea, Option.map_eq_some_iff] at h1
      obtain ⟨a, _, rfl⟩ := h1
      simp
    | read =>
      simp only [Guard.derive, Option.some.injEq] at h1
      subst h1
      simp [Guard.read]

/-- C10: a fresh field resource is a write guard of all positions (below the largest `size_t`). -/
theorem C10_fresh_covers_everything {dim : Nat} (res : Res) (pos : Index dim)
    (hpos : ∀ d, (pos d).toNat + 1 < 2 ^ 64) :
    (Guard.fresh res : Guard dim).contains pos = true ∧
      (Guard.fresh res : Guard dim).isWrite = true := by
  refine ⟨?_, rfl⟩
  rw [Guard.contains_iff]
  intro d
  have := hpos d
  have h0 : (Area.dflt.lo).toNat = 0 := rfl
  have h1 : (Area.dflt.hi).toNat = 2 ^ 64 - 1 := rfl
  simp only [Guard.fresh]
  omega

/-- a chain that succeeds, and one that throws -/
example :
    let g : Guard 1 := Guard.fresh ⟨1, 0⟩
    (g.deriveAll [.area (fun _ => 2) (fun _ => 9), .read, .at (fun _ => 8)]).isSome = true ∧
    (g.deriveAll [.area (fun _ => 2) (fun _ => 9), .read, .at (fun _ => 9)]).isSome = false := by
  decide

/-- at the largest index `at()` wraps: nothing is thrown and the guard contains no position, in
particular not the requested one -/
example :
    let g : Guard 1 := Guard.fresh ⟨1, 0⟩
    (g.at' (fun _ => sizeMax)).map (fun g' => g'.contains (fun _ => sizeMax)) = some false := by
  decide

/-! ### C11 -/

/-- C11: access to a position outside the guard's area always throws. -/
theorem C11_outside_throws {dim : Nat} (g : Guard dim) (c : Guard.Extents dim) (pos : Index dim)
    (h : ¬ InBox g.area pos) : g.get c pos = .throws := by
  rw [← Guard.contains_iff] at h
  simp [Guard.get, h]

/-- C11 (partial): if the guard's area lies inside the container, access to a position of the area
touches exactly the element at this position.
Missing: areas that exceed the container, for which the access is undefined (next theorem). -/
theorem C11_inside_touches_exactly_partial {dim : Nat} (g : Guard dim) (c : Guard.Extents dim)
    (pos : Index dim) (h : InBox g.area pos) (hc : ∀ d, (g.area d).hi.toNat ≤ c.ext d) :
    g.get c pos = .element fun d => (pos d).toNat := by
  have h' := h
  rw [← Guard.contains_iff] at h'
  simp only [Guard.get, h', if_true]
  rw [if_pos]
  simp only [List.all_eq_true, List.mem_finRange, true_implies, decide_eq_true_eq]
  intro d
  have := h d; have := hc d
  omega

/-- C11, negation: the guard of a fresh field resource does not reject a position beyond the
container; the access is out of bounds. -/
theorem C11_false_out_of_bounds :
    ∃ (c : Guard.Extents 1) (pos : Index 1),
      (Guard.fresh ⟨1, 0⟩ : Guard 1).get c pos = .ub :=
  ⟨⟨fun _ => 10⟩, fun _ => 20, by rfl⟩

/-- C11: two guards of the same field, held by two tasks that do not conflict, never give access
to the same element unless both are read guards. -/
theorem C11_no_shared_element {dim : Nat} (t1 t2 : User) (g1 g2 : Guard dim)
    (hres : g1.res = g2.res)
    (h1 : g1.toAccess ∈ t1.access) (h2 : g2.toAccess ∈ t2.access)
    (hno : t1.isSerial t2 = false) (c : Guard.Extents dim) (p1 p2 : Index dim)
    (x : Fin dim → Nat) (ht1 : g1.get c p1 = .element x) (ht2 : g2.get c p2 = .element x) :
    g1.isWrite = false ∧ g2.isWrite = false := by
  have key : ∀ (g : Guard dim) (p : Index dim), g.get c p = .element x →
      InBox g.area p ∧ ∀ d, (p d).toNat = x d := by
    intro g p h
    simp only [Guard.get] at h
    split at h
    · rename_i hc
      split at h
      · rw [Guard.contains_iff] at hc
        refine ⟨hc, fun d => ?_⟩
        simp only [Guard.Touch.element.injEq] at h
        rw [← h]
      · cases h
    · cases h
  obtain ⟨hb1, hx1⟩ := key g1 p1 ht1
  obtain ⟨hb2, hx2⟩ := key g2 p2 ht2
  have hp : p1 = p2 := by
    funext d; apply BitVec.eq_of_toNat_eq; rw [hx1, hx2]
  subst hp
  have hns : Acc.isSerial (fieldPolicy dim)
      (fieldAcc (if g1.isWrite then Mode.write else Mode.read) g1.area)
      (fieldAcc (if g2.isWrite then Mode.write else Mode.read) g2.area) = false := by
    rw [← Bool.not_eq_true] at hno ⊢
    intro hs
    apply hno
    rw [C07_conflict_iff]
    refine ⟨fieldPolicy dim, g1.res, _, _, h1, ?_, hs⟩
    rw [hres]; exact h2
  have hc := C06_no_conflict_no_shared_element _ _ _ _ hns p1 hb1 hb2
  cases hw1 : g1.isWrite <;> cases hw2 : g2.isWrite <;> simp_all [Compatible]

/-- a write guard and a read guard on disjoint parts: not conflicting, both usable -/
example :
    let g : Guard 1 := Guard.fresh ⟨1, 0⟩
    let c : Guard.Extents 1 := ⟨fun _ => 10⟩
    ∃ g1 g2, g.subArea (fun _ => 0) (fun _ => 5) = some g1 ∧
      g.read.subArea (fun _ => 5) (fun _ => 10) = some g2 ∧
      (User.ofList 0 [g1.toAccess]).isSerial (User.ofList 0 [g2.toAccess]) = false ∧
      g1.get c (fun _ => 4) = .element (fun _ => 4) ∧ g1.get c (fun _ => 5) = .throws ∧
      g2.get c (fun _ => 5) = .element (fun _ => 5) :=
  ⟨⟨⟨1, 0⟩, true, fun _ => ⟨0, 5⟩⟩, ⟨⟨1, 0⟩, false, fun _ => ⟨5, 10⟩⟩, by rfl, by rfl, by decide,
    by rfl, by rfl, by rfl⟩

end RG
