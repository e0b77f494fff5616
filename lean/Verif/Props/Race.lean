import Verif.Lemmas.Race
import Verif.Props.GraphWait
/-
C72: tasks that conflict are not executed at the same time, wherever they are in the tree of tasks.
-/
set_option linter.unusedVariables false
namespace RG.Graph

variable {cfg : Cfg} {s : State}

/-- task_space.cpp:78-79: the accesses of every task are covered by the ones of its parent, except for resources
that were created inside of the parent. -/
def Covered (cfg : Cfg) (s : State) : Prop :=
  ∀ c q, c < s.n → cfg.parentOf c = some q → (cfg.user q).isSuperset (cfg.user c) = true

/-- redGrapes.cpp:74-89, task.hpp `children`: there is one root space, and every task has at most one space for
its children. -/
def OneSpace (cfg : Cfg) : Prop := ∀ a b, cfg.parentOf a = cfg.parentOf b → cfg.space a = cfg.space b

/-- The accesses of `t` and `u` to resource `r` conflict. -/
def ConflictAt (cfg : Cfg) (t u : Nat) (r : Res) : Prop :=
  ∃ (P : Policy) (x y : Acc P), (⟨P, r, x⟩ : RAccess) ∈ (cfg.user t).access ∧
    (⟨P, r, y⟩ : RAccess) ∈ (cfg.user u).access ∧ Acc.isSerial P x y = true

/-- The resource was created outside of the tasks that are ancestors of only one of `t` and `u`: their nesting
depth is not less than the one of the resource. -/
def Shared (cfg : Cfg) (t u : Nat) (r : Res) : Prop :=
  ∀ a, a ≠ t → a ≠ u → (Descends cfg t a ∧ ¬ Descends cfg u a) ∨ (Descends cfg u a ∧ ¬ Descends cfg t a) →
    r.scope.toNat ≤ (cfg.user a).scope.toNat

theorem ConflictAt.symm {t u : Nat} {r : Res} (h : ConflictAt cfg t u r) : ConflictAt cfg u t r := by
  obtain ⟨P, x, y, h1, h2, h3⟩ := h
  exact ⟨P, y, x, h2, h1, by rw [C01_conflict_symmetric]; exact h3⟩

theorem Shared.symm {t u : Nat} {r : Res} (h : Shared cfg t u r) : Shared cfg u t r :=
  fun a h1 h2 ha => h a h2 h1 ha.symm

/-- the two siblings conflict -/
theorem Left.conflict {t u : Nat} {r : Res} {n : Nat} (hu : Up cfg n)
    (hcov : ∀ c q, c < n → cfg.parentOf c = some q → (cfg.user q).isSuperset (cfg.user c) = true)
    (htn : t < n) (hun : u < n) (h : Left cfg t u) (hc : ConflictAt cfg t u r) (hv : Shared cfg t u r) :
    ∃ p q, p < q ∧ cfg.parentOf p = cfg.parentOf q ∧ Descends cfg t p ∧ Descends cfg u q ∧
      (cfg.user p).isSerial (cfg.user q) = true := by
  obtain ⟨p, q, hlt, hp, h1, h2⟩ := h
  obtain ⟨P, x, y, hx, hy, hxy⟩ := hc
  have hpn : p < n := Nat.lt_of_le_of_lt (h1.le hu htn) htn
  have hqn : q < n := Nat.lt_of_le_of_lt (h2.le hu hun) hun
  -- no task descends from both siblings
  have apart : ∀ a b c, Descends cfg c a → Descends cfg c b → a < n → b < n → a ≠ b →
      cfg.parentOf a = cfg.parentOf b → False := by
    intro a b c ha hb han hbn hne hpar
    rcases ha.chain hb with h | h
    · obtain ⟨q', e1, e2⟩ := h.up hne
      rw [e1] at hpar
      have e3 := hu b q' hbn hpar.symm
      have e4 := e2.le hu (by have := hu a q' han e1; omega)
      omega
    · obtain ⟨q', e1, e2⟩ := h.up (Ne.symm hne)
      rw [e1] at hpar
      have e3 := hu a q' han hpar
      have e4 := e2.le hu (by have := hu b q' hbn e1; omega)
      omega
  obtain ⟨x', hx', hsx⟩ := covered_up hu hcov h1 htn hx fun a h0 h3 h4 => by
    have h5 : ¬ Descends cfg u a := fun h5 => apart p q u (h5.trans' h4) h2 hpn hqn (by omega) hp
    exact hv a h0 (fun e => h5 (by rw [e]; exact .refl)) (.inl ⟨h3, h5⟩)
  obtain ⟨y', hy', hsy⟩ := covered_up hu hcov h2 hun hy fun a h0 h3 h4 => by
    have h5 : ¬ Descends cfg t a := fun h5 => apart p q t h1 (h5.trans' h4) hpn hqn (by omega) hp
    exact hv a (fun e => h5 (by rw [e]; exact .refl)) h0 (.inr ⟨h3, h5⟩)
  refine ⟨p, q, hlt, hp, h1, h2, (C07_conflict_iff _ _).2 ⟨P, r, x', y', hx', hy', ?_⟩⟩
  have h3 := C03_superset_conflicts P y' y x hsy hxy
  rw [C01_conflict_symmetric] at h3 ⊢
  exact C03_superset_conflicts P x' x y' hsx h3

/-- C72: two tasks whose accesses to a resource conflict are never executed at the same time, unless one of them is
an ancestor of the other: when both have been started, one of them has finished with all its descendants.
Partial: nested programs are restricted by `NestingOk`. -/
theorem C72_no_race_partial (hw : cfg.WellFormed) (ht : NestingOk cfg) (hs : cfg.single = true) (ho : OneSpace cfg)
    (hr : Reach cfg s) (hcov : Covered cfg s) {t u : Nat} {r : Res} (hc : ConflictAt cfg t u r)
    (hv : Shared cfg t u r) (hxt : Started s t) (hxu : Started s u) :
    Descends cfg t u ∨ Descends cfg u t ∨ Finished cfg s t ∨ Finished cfg s u := by
  have hd := Dom.reach hr
  have hi := Core.reach ht hr
  have hu := Up.reach hr
  have lt : ∀ t, Started s t → t < s.n := fun t h => hd.lt_ph t (by rw [(hi.exI t h).1]; simp)
  rcases related hu (lt u hxu) t (lt t hxt) with h | h | h | h
  · exact .inl h
  · exact .inr (.inl h)
  · obtain ⟨p, q, h1, h2, h3, h4, h5⟩ := h.conflict hu hcov (lt t hxt) (lt u hxu) hc hv
    exact .inr (.inr (.inl (C12_descendants_partial hw ht hs hr h1 (ho _ _ h2) h5 h3 h4 (lt t hxt) hxu)))
  · obtain ⟨p, q, h1, h2, h3, h4, h5⟩ := h.conflict hu hcov (lt u hxu) (lt t hxt) hc.symm hv.symm
    exact .inr (.inr (.inr (C12_descendants_partial hw ht hs hr h1 (ho _ _ h2) h5 h3 h4 (lt u hxu) hxt)))

/-- C72: the bodies of such tasks do not overlap. -/
theorem C72_bodies_do_not_overlap_partial (hw : cfg.WellFormed) (ht : NestingOk cfg) (hs : cfg.single = true)
    (ho : OneSpace cfg) (hr : Reach cfg s) (hcov : Covered cfg s) {t u : Nat} {r : Res} (hc : ConflictAt cfg t u r)
    (hv : Shared cfg t u r) (hnt : ¬ Descends cfg t u) (hnu : ¬ Descends cfg u t) (hxt : s.ex t = .running) :
    s.ex u ≠ .running := by
  intro hxu
  rcases C72_no_race_partial hw ht hs ho hr hcov hc hv (by unfold Started; rw [hxt]; simp)
    (by unfold Started; rw [hxu]; simp) with h | h | h | h
  · exact hnt h
  · exact hnu h
  · cases h with
    | mk h _ _ => rw [hxt] at h; cases h
  · cases h with
    | mk h _ _ => rw [hxu] at h; cases h

/-- C72 for programs in which task bodies wait for the results of their children: no assumption on the workers. -/
theorem C72_waiting_parents (hw : cfg.WellFormed) (hs : cfg.single = true) (ho : OneSpace cfg)
    (hr : WaitingReach cfg s) (hcov : Covered cfg s) {t u : Nat} {r : Res} (hc : ConflictAt cfg t u r)
    (hv : Shared cfg t u r) (hnt : ¬ Descends cfg t u) (hnu : ¬ Descends cfg u t) (hxt : s.ex t = .running) :
    s.ex u ≠ .running := by
  have desc : ∀ {a b}, Descends { cfg with strict := true } a b ↔ Descends cfg a b := by
    intro a b
    constructor
    · intro h
      induction h with
      | refl => exact .refl
      | child h _ ih => exact .child h ih
    · intro h
      induction h with
      | refl => exact .refl
      | child h _ ih => exact .child h ih
  refine C72_bodies_do_not_overlap_partial (cfg := { cfg with strict := true }) (WellFormed.strict hw) (.inl rfl) hs ho
    hr.strict hcov hc ?_ (fun h => hnt (desc.1 h)) (fun h => hnu (desc.1 h)) hxt
  intro a h1 h2 ha
  refine hv a h1 h2 ?_
  rcases ha with ⟨h1, h2⟩ | ⟨h1, h2⟩
  · exact .inl ⟨desc.1 h1, fun h => h2 (desc.2 h)⟩
  · exact .inr ⟨desc.1 h1, fun h => h2 (desc.2 h)⟩

/-- A resource that was created outside of all tasks is shared by all of them. -/
theorem shared_of_root {t u : Nat} {r : Res} (h : r.scope = 0) : Shared cfg t u r := by
  intro a _ _ _
  rw [h]
  simp

/-! Example: task 0 writes A, task 1, its child, reads A, and task 2 writes A. Tasks 1 and 2 are in different
spaces. -/

theorem nest_covered (b : Bool) (s : State) : Covered (nest b) s := by
  intro c q _ h
  match c, h with
  | 1, h =>
    cases h
    cases b <;> decide +kernel
  | 0, h => cases h
  | c + 2, h => cases h

theorem nest_oneSpace (b : Bool) : OneSpace (nest b) := by
  intro x y h
  match x, y with
  | 1, 1 => rfl
  | 1, 0 => cases h
  | 1, _ + 2 => cases h
  | 0, 1 => cases h
  | _ + 2, 1 => cases h
  | 0, 0 => rfl
  | 0, _ + 2 => rfl
  | _ + 2, 0 => rfl
  | _ + 2, _ + 2 => rfl

theorem nest_conflict (b : Bool) : ConflictAt (nest b) 1 2 rA :=
  ⟨.io, .read, .write, List.mem_singleton.2 rfl, List.mem_singleton.2 rfl, rfl⟩

theorem nest_desc (b : Bool) : ¬ Descends (nest b) 1 2 ∧ ¬ Descends (nest b) 2 1 := by
  constructor
  · intro h
    cases h with
    | child h1 h2 =>
      cases h1
      cases h2 with
      | child h1 _ => cases h1
  · intro h
    cases h with
    | child h1 _ => cases h1

example : ∃ s, Reach (nest true) s ∧ (nest true).WellFormed ∧ NestingOk (nest true) ∧ (nest true).single = true ∧
    OneSpace (nest true) ∧ Covered (nest true) s ∧ ConflictAt (nest true) 1 2 rA ∧ Shared (nest true) 1 2 rA ∧
    Started s 1 ∧ Started s 2 :=
  ⟨run (nest true) init
      (doSubmit 0 ++ doInit 0 ++ [.start 0] ++ doSubmit 1 ++ doInit 1 ++ [.ret 0] ++ doSubmit 2 ++ doInit 2 ++
        [.start 1, .ret 1] ++ doFlush 1 ++ doFlush 0 ++ [.start 2]),
    run_init _, prog_wellFormed _ _ _ _ _, .inl rfl, rfl, nest_oneSpace _, nest_covered _ _, nest_conflict _,
    shared_of_root rfl, by unfold Started; decide +kernel, by unfold Started; decide +kernel⟩

/-- the child is running while its parent is not, and the other task is not started -/
example : ∃ s, WaitingReach (nest false) s ∧ Covered (nest false) s ∧ ConflictAt (nest false) 1 2 rA ∧
    Shared (nest false) 1 2 rA ∧ ¬ Descends (nest false) 1 2 ∧ ¬ Descends (nest false) 2 1 ∧ s.ph 2 = .inited ∧
    s.ex 1 = .running :=
  ⟨run (nest false) init
      (doSubmit 0 ++ doInit 0 ++ [.start 0] ++ doSubmit 1 ++ doInit 1 ++ [.start 1] ++ doSubmit 2 ++ doInit 2),
    waits_reach _ .init (by decide +kernel), nest_covered _ _, nest_conflict _, shared_of_root rfl,
    (nest_desc _).1, (nest_desc _).2, by decide +kernel, by decide +kernel⟩

/-- C72 is false for programs whose task bodies return before their children are initialised: task 1, the child of
task 0, reads A while task 2 writes it. -/
theorem C72_early_return_false :
    (nest false).WellFormed ∧ (nest false).single = true ∧ OneSpace (nest false) ∧ ConflictAt (nest false) 1 2 rA ∧
      Shared (nest false) 1 2 rA ∧ ¬ Descends (nest false) 1 2 ∧ ¬ Descends (nest false) 2 1 ∧
      ∃ s, Reach (nest false) s ∧ Covered (nest false) s ∧ s.ex 1 = .running ∧ s.ex 2 = .running :=
  ⟨prog_wellFormed _ _ _ _ _, rfl, nest_oneSpace _, nest_conflict _, shared_of_root rfl, (nest_desc _).1,
    (nest_desc _).2, run (nest false) init
      (doSubmit 0 ++ doInit 0 ++ [.start 0] ++ doSubmit 1 ++ [.ret 0] ++ doFlush 0 ++ doSubmit 2 ++ doInit 2 ++
        [.start 2] ++ doInit 1 ++ [.start 1]),
    run_init _, nest_covered _ _, by decide +kernel, by decide +kernel⟩

end RG.Graph
