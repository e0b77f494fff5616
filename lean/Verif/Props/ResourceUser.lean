import Verif.Props.Access
import Verif.Model.ResourceUser
/-
Properties C01 (for tasks), C07, C08, C09, C54: resource users.
-/
namespace RG

/-- Spec: "task `a` and task `b` access one and the same resource in a conflicting way". -/
def ConflictOnSomeResource (a b : List RAccess) : Prop :=
  ∃ (p : Policy) (r : Res) (x y : Acc p),
    (⟨p, r, x⟩ : RAccess) ∈ a ∧ (⟨p, r, y⟩ : RAccess) ∈ b ∧ Acc.isSerial p x y = true

theorem RAccess.isSerial_iff (a b : RAccess) :
    a.isSerial b = true ↔
      ∃ (p : Policy) (r : Res) (x y : Acc p), a = ⟨p, r, x⟩ ∧ b = ⟨p, r, y⟩ ∧
        Acc.isSerial p x y = true := by
  obtain ⟨pa, ra, xa⟩ := a
  obtain ⟨pb, rb, xb⟩ := b
  simp only [RAccess.isSerial]
  constructor
  · intro h
    by_cases hp : pa = pb
    · subst hp
      simp only [dite_true, Bool.and_eq_true, beq_iff_eq] at h
      obtain ⟨hr, hs⟩ := h
      subst hr
      exact ⟨pa, ra, xa, xb, rfl, rfl, hs⟩
    · simp [hp] at h
  · rintro ⟨p, r, x, y, h1, h2, hs⟩
    cases h1; cases h2
    simpa using hs

theorem RAccess.isSuperset_iff (a b : RAccess) :
    a.isSuperset b = true ↔
      ∃ (p : Policy) (r : Res) (x y : Acc p), a = ⟨p, r, x⟩ ∧ b = ⟨p, r, y⟩ ∧
        Acc.isSuperset p x y = true := by
  obtain ⟨pa, ra, xa⟩ := a
  obtain ⟨pb, rb, xb⟩ := b
  simp only [RAccess.isSuperset]
  constructor
  · intro h
    by_cases hp : pa = pb
    · subst hp
      simp only [dite_true, Bool.and_eq_true, beq_iff_eq] at h
      obtain ⟨hr, hs⟩ := h
      subst hr
      exact ⟨pa, ra, xa, xb, rfl, rfl, hs⟩
    · simp [hp] at h
  · rintro ⟨p, r, x, y, h1, h2, hs⟩
    cases h1; cases h2
    simpa using hs

theorem RAccess.eq_iff (a b : RAccess) : a.eq b = true ↔ a = b := by
  obtain ⟨pa, ra, xa⟩ := a
  obtain ⟨pb, rb, xb⟩ := b
  simp only [RAccess.eq]
  constructor
  · intro h
    by_cases hp : pa = pb
    · subst hp
      simp only [dite_true, Bool.and_eq_true, beq_iff_eq, C04_eq_iff_same_contents] at h
      obtain ⟨rfl, rfl⟩ := h
      rfl
    · simp [hp] at h
  · intro h
    cases h
    simp [C04_eq_iff_same_contents]

/-! ### C07 -/

/-- C07: two tasks are considered conflicting exactly if they access one resource in a
conflicting way. -/
theorem C07_conflict_iff (a b : User) :
    a.isSerial b = true ↔ ConflictOnSomeResource a.access b.access := by
  simp only [User.isSerial, List.any_eq_true, List.mem_reverse, RAccess.isSerial_iff,
    ConflictOnSomeResource]
  constructor
  · rintro ⟨ra, hra, rb, hrb, p, r, x, y, rfl, rfl, h⟩
    exact ⟨p, r, x, y, hra, hrb, h⟩
  · rintro ⟨p, r, x, y, hra, hrb, h⟩
    exact ⟨_, hra, _, hrb, p, r, x, y, rfl, rfl, h⟩

/-- C07: order and repetition of the accesses in the lists do not matter, nor does the scope. -/
theorem C07_order_irrelevant (a a' b b' : User)
    (ha : ∀ ra, ra ∈ a.access ↔ ra ∈ a'.access) (hb : ∀ rb, rb ∈ b.access ↔ rb ∈ b'.access) :
    a.isSerial b = a'.isSerial b' := by
  rw [Bool.eq_iff_iff, C07_conflict_iff, C07_conflict_iff]
  simp only [ConflictOnSomeResource, ha, hb]

/-- C07: tasks which have no resource in common do not conflict. -/
theorem C07_disjoint_resources (a b : User)
    (h : ∀ ra ∈ a.access, ∀ rb ∈ b.access, ra.res ≠ rb.res) : a.isSerial b = false := by
  rw [Bool.eq_false_iff]
  intro hs
  obtain ⟨p, r, x, y, h1, h2, -⟩ := (C07_conflict_iff a b).1 hs
  exact h _ h1 _ h2 rfl

/-- C01 for whole tasks. -/
theorem C01_task_conflict_symmetric (a b : User) : a.isSerial b = b.isSerial a := by
  rw [Bool.eq_iff_iff, C07_conflict_iff, C07_conflict_iff]
  constructor <;>
  · rintro ⟨p, r, x, y, h1, h2, h⟩
    exact ⟨p, r, y, x, h2, h1, by rw [C01_conflict_symmetric]; exact h⟩

section examples
private def rA : Res := ⟨1, 0⟩
private def rB : Res := ⟨2, 0⟩
private def rd (r : Res) : RAccess := ⟨.io, r, Mode.read⟩
private def wr (r : Res) : RAccess := ⟨.io, r, Mode.write⟩

/-- conflicting and non-conflicting tasks both exist -/
example : (User.ofList 0 [rd rA, wr rB]).isSerial (User.ofList 0 [rd rB]) = true ∧
    (User.ofList 0 [rd rA, wr rB]).isSerial (User.ofList 0 [rd rA]) = false := by decide
end examples

/-! ### C08 -/

/-- Spec: "every access of `sub` is covered by an access of `sup` to the same resource, or
concerns a resource that was created in a scope below depth `d`". -/
def Covers (sup sub : List RAccess) (d : Nat) : Prop :=
  ∀ ra ∈ sub, d < ra.res.scope.toNat ∨
    ∃ (p : Policy) (r : Res) (x y : Acc p),
      (⟨p, r, x⟩ : RAccess) ∈ sup ∧ ra = ⟨p, r, y⟩ ∧ Acc.isSuperset p x y = true

/-- C08: what the superset test of tasks decides. -/
theorem C08_superset_iff (u a : User) :
    u.isSuperset a = true ↔ Covers u.access a.access u.scope.toNat := by
  simp only [User.isSuperset, List.all_eq_true, List.mem_reverse, Bool.or_eq_true,
    List.any_eq_true, RAccess.isSuperset_iff, Covers, Bool.not_eq_true', decide_eq_false_iff_not,
    BitVec.le_def]
  refine forall_congr' fun ra => imp_congr_right fun _ => ?_
  rw [or_comm]
  have h8 : (u.scope.setWidth 32).toNat = u.scope.toNat := by
    have := u.scope.isLt
    simp only [BitVec.toNat_setWidth]; omega
  refine or_congr (by rw [h8]; omega) ?_
  constructor
  · rintro ⟨r0, h0, p, r, x, y, rfl, rfl, h⟩
    exact ⟨p, r, x, y, h0, rfl, h⟩
  · rintro ⟨p, r, x, y, h0, rfl, h⟩
    exact ⟨_, h0, p, r, x, y, rfl, rfl, h⟩

/-- C08 (partial): a parent task created at nesting depth `d < 256` whose accesses are accepted as
a superset of its child's accesses conflicts with every task `q` that conflicts with the child on
a resource created at depth at most `d`.
Missing: depths from 256 on, where the property is false (next theorem). -/
theorem C08_parent_represents_child_partial (d : BitVec 32) (hd : d.toNat < 256)
    (pl : List RAccess) (c q : User)
    (hsup : (User.ofList d pl).isSuperset c = true)
    (p : Policy) (r : Res) (x y : Acc p)
    (hc : (⟨p, r, x⟩ : RAccess) ∈ c.access) (hq : (⟨p, r, y⟩ : RAccess) ∈ q.access)
    (hconf : Acc.isSerial p x y = true) (hscope : r.scope.toNat ≤ d.toNat) :
    q.isSerial (User.ofList d pl) = true := by
  have hs : (User.ofList d pl).scope = d.setWidth 8 := by
    have : ∀ (l : List RAccess) (u : User), (l.foldl User.addAccess u).scope = u.scope := by
      intro l
      induction l with
      | nil => intro u; rfl
      | cons a l ih => intro u; rw [List.foldl_cons, ih]; rfl
    exact this _ _
  rw [C08_superset_iff] at hsup
  rcases hsup _ hc with h | ⟨p', r', x', y', hm, he, h⟩
  · rw [hs] at h
    simp only [BitVec.toNat_setWidth] at h
    omega
  · cases he
    rw [C07_conflict_iff]
    refine ⟨p, r, y, x', hq, hm, ?_⟩
    exact C03_superset_conflicts p x' x y h (by rw [C01_conflict_symmetric]; exact hconf)

/-- The hypotheses are met by a parent writing a field and a child reading a part of it. -/
example :
    let r : Res := ⟨1, 0⟩
    let pw : RAccess := ⟨fieldPolicy 1, r, ((Mode.write, fun _ => (⟨0, 10⟩ : Area)) : Acc (fieldPolicy 1))⟩
    let x : Acc (fieldPolicy 1) := (Mode.read, fun _ => (⟨3, 7⟩ : Area))
    let y : Acc (fieldPolicy 1) := (Mode.write, fun _ => (⟨6, 20⟩ : Area))
    (User.ofList 3 [pw]).isSuperset (User.ofList 4 [⟨_, r, x⟩]) = true ∧
      Acc.isSerial _ x y = true := by decide

/-- C08, negation at nesting depth 256: the depth is stored in 8 bits, so a parent at depth 256
without any access is accepted as a superset of a child that writes a resource created at depth 1,
and it does not conflict with a task that conflicts with the child. -/
theorem C08_false_at_depth_256 :
    ∃ (d : BitVec 32) (pl : List RAccess) (c q : User) (p : Policy) (r : Res) (x y : Acc p),
      d.toNat = 256 ∧ (User.ofList d pl).isSuperset c = true ∧
      (⟨p, r, x⟩ : RAccess) ∈ c.access ∧ (⟨p, r, y⟩ : RAccess) ∈ q.access ∧
      Acc.isSerial p x y = true ∧ r.scope.toNat ≤ d.toNat ∧
      q.isSerial (User.ofList d pl) = false :=
  ⟨256, [], User.ofList 257 [⟨.io, ⟨1, 1⟩, Mode.write⟩], User.ofList 256 [⟨.io, ⟨1, 1⟩, Mode.write⟩],
    .io, ⟨1, 1⟩, Mode.write, Mode.write, by decide, by decide, by simp [User.ofList, User.addAccess, User.empty],
    by simp [User.ofList, User.addAccess, User.empty], by decide, by decide, by decide⟩

/-! ### C09 -/

/-- Spec: what `update_properties` is documented to accept: the new accesses are a subset of the
previous ones. -/
def ShouldAccept (u : User) (patch : List Diff) : Prop :=
  Covers u.access (patch.foldl Diff.apply u).access u.scope.toNat

theorem User.copy_superset_iff (u a : User) :
    u.copy.isSuperset a = true ↔ ∀ ra ∈ a.access, u.scope.toNat < ra.res.scope.toNat := by
  rw [C08_superset_iff]
  simp [Covers, User.copy]

/-- C09: exactly which patches the code accepts: those after which only resources are left that
were created below the task's own scope (in particular those that leave nothing). -/
theorem C09_accepts_iff_partial (u : User) (patch : List Diff) :
    (u.applyPatch patch).2 = true ↔
      ∀ ra ∈ (u.applyPatch patch).1.access, u.scope.toNat < ra.res.scope.toNat :=
  User.copy_superset_iff u _

/-- C09 (partial): whatever is accepted is a subset of the accesses before.
Missing: the converse, which is false (next theorem). -/
theorem C09_accepted_is_subset_partial (u : User) (patch : List Diff)
    (h : (u.applyPatch patch).2 = true) : ShouldAccept u patch := by
  intro ra hra
  exact Or.inl ((C09_accepts_iff_partial u patch).1 h ra hra)

/-- C09, negation: a task that writes a resource and demotes the access to a read (the documented
use) gets an exception, although the new access list is a subset of the old one; and the access
list stays modified after the exception. -/
theorem C09_false_demotion_rejected :
    ∃ (u : User) (patch : List Diff), ShouldAccept u patch ∧ (u.applyPatch patch).2 = false ∧
      (u.applyPatch patch).1.access ≠ u.access := by
  refine ⟨User.ofList 0 [⟨.io, ⟨1, 0⟩, Mode.write⟩],
    [.remove ⟨.io, ⟨1, 0⟩, Mode.write⟩, .add ⟨.io, ⟨1, 0⟩, Mode.read⟩], ?_, by decide, ?_⟩
  · have h : (User.ofList 0 [⟨.io, ⟨1, 0⟩, Mode.write⟩]).isSuperset
        ([Diff.remove ⟨.io, ⟨1, 0⟩, Mode.write⟩, .add ⟨.io, ⟨1, 0⟩, Mode.read⟩].foldl Diff.apply
          (User.ofList 0 [⟨.io, ⟨1, 0⟩, Mode.write⟩])) = true := by decide
    exact (C08_superset_iff _ _).1 h
  · intro h
    have h2 : (⟨.io, ⟨1, 0⟩, Mode.read⟩ : RAccess) ∈
        (User.ofList 0 [⟨.io, ⟨1, 0⟩, Mode.write⟩]).access := by
      rw [← h]
      simp [User.applyPatch, Diff.apply, User.addAccess]
    simp only [User.ofList, User.addAccess, User.empty, List.foldl_cons, List.foldl_nil,
      List.nil_append, List.mem_singleton] at h2
    have h3 := congrArg RAccess.isSync h2
    revert h3
    decide

/-- C09: what a patch does to the accesses: a removal takes out exactly the accesses that are equal to
the named one, and an addition adds exactly the named one; all others stay, in their order. -/
theorem C09_patch_effect (u : User) (ra : RAccess) :
    (((Diff.remove ra).apply u).access.Sublist u.access ∧
      ∀ x, x ∈ ((Diff.remove ra).apply u).access ↔ x ∈ u.access ∧ x ≠ ra) ∧
    ((Diff.add ra).apply u).access = u.access ++ [ra] := by
  refine ⟨⟨?_, fun x => ?_⟩, rfl⟩
  · exact List.filter_sublist
  · simp only [Diff.apply, User.rmAccess, List.mem_filter, Bool.not_eq_true', ← Bool.not_eq_true,
      RAccess.eq_iff]

/-- C09: if a patch names an access for removal and does not add it again, the task does not have this
access afterwards; accesses not named in the patch stay. -/
theorem C09_removed_is_gone (u : User) (patch : List Diff) (x : RAccess) :
    (Diff.remove x ∈ patch → Diff.add x ∉ patch → x ∉ (u.applyPatch patch).1.access) ∧
    (Diff.remove x ∉ patch → Diff.add x ∉ patch →
      (x ∈ (u.applyPatch patch).1.access ↔ x ∈ u.access)) := by
  simp only [User.applyPatch]
  have keep : ∀ (patch : List Diff) (u : User), Diff.remove x ∉ patch → Diff.add x ∉ patch →
      (x ∈ (patch.foldl Diff.apply u).access ↔ x ∈ u.access) := by
    intro patch
    induction patch with
    | nil => intro u _ _; rfl
    | cons d ds ih =>
      intro u h1 h2
      simp only [List.mem_cons, not_or] at h1 h2
      rw [List.foldl_cons, ih _ h1.2 h2.2]
      cases d with
      | add ra =>
        rw [(C09_patch_effect u ra).2]
        have : x ≠ ra := fun e => h2.1 (by rw [e])
        simp [this]
      | remove ra =>
        rw [(C09_patch_effect u ra).1.2]
        have : x ≠ ra := fun e => h1.1 (by rw [e])
        simp [this]
  have gone : ∀ (patch : List Diff) (u : User), Diff.add x ∉ patch → x ∉ u.access →
      x ∉ (patch.foldl Diff.apply u).access := by
    intro patch
    induction patch with
    | nil => intro u _ h; exact h
    | cons d ds ih =>
      intro u h2 h
      simp only [List.mem_cons, not_or] at h2
      rw [List.foldl_cons]
      refine ih _ h2.2 ?_
      cases d with
      | add ra =>
        rw [(C09_patch_effect u ra).2]
        have : x ≠ ra := fun e => h2.1 (by rw [e])
        simp [this, h]
      | remove ra =>
        rw [(C09_patch_effect u ra).1.2]
        exact fun hh => h hh.1
  refine ⟨?_, keep patch u⟩
  induction patch generalizing u with
  | nil => intro h; cases h
  | cons d ds ih =>
    intro h1 h2
    simp only [List.mem_cons, not_or] at h2
    rw [List.foldl_cons]
    by_cases hd : d = Diff.remove x
    · subst hd
      exact gone ds _ h2.2 (fun hh => ((C09_patch_effect u x).1.2 x).1 hh |>.2 rfl)
    · exact ih _ ((List.mem_cons.1 h1).resolve_left (fun e => hd e.symm)) h2.2

/-- removing a read access keeps a write access to the same resource, and the other way round -/
example :
    let u := User.ofList 0 [⟨.io, ⟨1, 0⟩, Mode.write⟩, ⟨.io, ⟨1, 0⟩, Mode.read⟩, ⟨.io, ⟨2, 0⟩, Mode.read⟩]
    ((u.applyPatch [.remove ⟨.io, ⟨1, 0⟩, Mode.read⟩]).1.access.length = 2) := by decide

/-- a patch that is accepted: dropping the only access -/
example : ((User.ofList 0 [⟨.io, ⟨1, 0⟩, Mode.write⟩]).applyPatch
    [.remove ⟨.io, ⟨1, 0⟩, Mode.write⟩]).2 = true := by decide

/-! ### C54 -/

/-- How a task's accesses are declared: an argument that converts to an access
(`add_resource`, task/property/resource.hpp:46-50) or a call of `resources({...})` (37-44). -/
inductive Decl
  | arg (ra : RAccess)
  | resources (l : List RAccess)

/-- The effect of one declaration. -/
def Decl.apply (u : User) : Decl → User
  | .arg ra => u.addAccess ra
  | .resources l => u.resources l

/-- The resource user of a task after its declarations. -/
def declare (scopeDepth : BitVec 32) (ds : List Decl) : User :=
  ds.foldl Decl.apply (User.empty scopeDepth)

theorem count_rebuild (L : List RAccess) (un : List Res) (r : Res) :
    (L.foldl (fun un ra => (un.filter fun r => !(r == ra.res)) ++ [ra.res]) un).count r =
      if r ∈ L.map RAccess.res then 1 else un.count r := by
  induction L generalizing un with
  | nil => simp
  | cons a L ih =>
    rw [List.foldl_cons, ih]
    by_cases h1 : r ∈ L.map RAccess.res
    · simp [h1]
    · by_cases h2 : r = a.res
      · subst h2
        have : (List.filter (fun r => !(r == a.res)) un).count a.res = 0 := by
          rw [List.count_eq_zero]; simp
        simp [h1, List.count_append, this]
      · have h3 : ¬ r ∈ List.map RAccess.res (a :: L) := by simp_all
        have h4 : (List.filter (fun r => !(r == a.res)) un).count r = un.count r := by
          apply List.count_filter; simp [h2]
        have h5 : ([a.res] : List Res).count r = 0 := by
          rw [List.count_eq_zero]; simpa using h2
        rw [if_neg h1, if_neg h3, List.count_append, h4, h5, Nat.add_zero]

theorem User.buildUnique_count (u : User) (r : Res) :
    u.buildUnique.unique.count r =
      if r ∈ u.access.map RAccess.res then 1 else u.unique.count r := by
  simp only [User.buildUnique]
  rw [count_rebuild]
  simp

/-- C54: a task is registered with exactly the resources it declared accesses to. -/
theorem C54_registered_iff_accessed (sd : BitVec 32) (ds : List Decl) (r : Res) :
    r ∈ (declare sd ds).unique ↔ ∃ ra ∈ (declare sd ds).access, ra.res = r := by
  suffices h : ∀ (ds : List Decl) (u : User),
      (r ∈ u.unique ↔ ∃ ra ∈ u.access, ra.res = r) →
      (r ∈ (ds.foldl Decl.apply u).unique ↔ ∃ ra ∈ (ds.foldl Decl.apply u).access, ra.res = r) from
    h ds _ (by simp [User.empty])
  intro ds
  induction ds with
  | nil => exact fun u h => h
  | cons d ds ih =>
    intro u h
    rw [List.foldl_cons]
    apply ih
    cases d with
    | arg ra =>
      simp only [Decl.apply, User.addAccess, List.mem_append, List.mem_singleton, h]
      constructor
      · rintro (⟨x, hx, rfl⟩ | rfl)
        · exact ⟨x, Or.inl hx, rfl⟩
        · exact ⟨ra, Or.inr rfl, rfl⟩
      · rintro ⟨x, hx | rfl, rfl⟩
        · exact Or.inl ⟨x, hx, rfl⟩
        · exact Or.inr rfl
    | resources l =>
      have hc := User.buildUnique_count { u with access := u.access ++ l } r
      have hacc : (Decl.apply u (.resources l)).access = u.access ++ l := rfl
      rw [hacc]
      have hun : (Decl.apply u (.resources l)).unique =
        ({ u with access := u.access ++ l } : User).buildUnique.unique := rfl
      rw [hun, ← List.count_pos_iff, hc]
      by_cases hm : r ∈ List.map RAccess.res (u.access ++ l)
      · simp only [hm, if_true]
        have := List.mem_map.1 hm
        simpa using this
      · simp only [hm, if_false, List.count_pos_iff, h]
        have h1 : ¬ ∃ ra ∈ u.access, ra.res = r := by
          rintro ⟨x, hx, rfl⟩; apply hm; simp; exact Or.inl ⟨x, hx, rfl⟩
        have h2 : ¬ ∃ ra ∈ u.access ++ l, ra.res = r := by
          rintro ⟨x, hx, rfl⟩; exact hm (List.mem_map_of_mem hx)
        exact iff_of_false h1 h2

/-- C54: if the last declaration is a `resources({...})` call, the task is registered exactly once
with each of its resources, whatever was declared before. -/
theorem C54_resources_registers_once (sd : BitVec 32) (ds : List Decl) (l : List RAccess) :
    (declare sd (ds ++ [.resources l])).unique.Nodup := by
  rw [List.nodup_iff_count]
  intro r
  by_cases hm : r ∈ (declare sd (ds ++ [.resources l])).unique
  · obtain ⟨ra, hra, rfl⟩ := (C54_registered_iff_accessed sd _ r).1 hm
    simp only [declare, List.foldl_append, List.foldl_cons, List.foldl_nil] at hra ⊢
    have hun : (Decl.apply (declare sd ds) (.resources l)).unique =
      ({ declare sd ds with access := (declare sd ds).access ++ l } : User).buildUnique.unique := rfl
    simp only [declare] at hun
    rw [hun, User.buildUnique_count]
    have hin : ra.res ∈ List.map RAccess.res
        ({ declare sd ds with access := (declare sd ds).access ++ l } : User).access :=
      List.mem_map_of_mem hra
    simp only [declare] at hin
    rw [if_pos hin]
    exact Nat.le_refl 1
  · rw [List.count_eq_zero.2 hm]; omega

theorem declare_args (sd : BitVec 32) (l : List RAccess) :
    (declare sd (l.map .arg)).unique = l.map RAccess.res ∧
      (declare sd (l.map .arg)).access = l := by
  suffices h : ∀ (l : List RAccess) (u : User),
      ((l.map Decl.arg).foldl Decl.apply u).unique = u.unique ++ l.map RAccess.res ∧
      ((l.map Decl.arg).foldl Decl.apply u).access = u.access ++ l by
    have h0 := h l (User.empty sd)
    rw [show (User.empty sd).unique = [] from rfl, show (User.empty sd).access = [] from rfl] at h0
    simpa [declare] using h0
  intro l
  induction l with
  | nil => simp
  | cons a l ih =>
    intro u
    have := ih (u.addAccess a)
    simp only [List.map_cons, List.foldl_cons, Decl.apply]
    rw [this.1, this.2]
    simp [User.addAccess]

/-- C54: a task that declares its accesses as arguments is registered once per argument; so it is
registered twice with a resource that occurs in two arguments (see C16 for the consequence). -/
theorem C54_args_register_per_argument (sd : BitVec 32) (l : List RAccess) (r : Res) :
    (declare sd (l.map .arg)).unique.count r = (l.map RAccess.res).count r := by
  rw [(declare_args sd l).1]

example : (declare 0 [.arg ⟨.io, ⟨1, 0⟩, Mode.read⟩, .arg ⟨.io, ⟨1, 0⟩, Mode.write⟩]).unique.length = 2 ∧
    (declare 0 [.arg ⟨.io, ⟨1, 0⟩, Mode.read⟩,
      .resources [⟨.io, ⟨1, 0⟩, Mode.write⟩, ⟨.io, ⟨2, 0⟩, Mode.write⟩]]).unique.length = 2 := by decide

end RG
