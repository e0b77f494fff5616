import Verif.Model.Policies
import Verif.Props.Graph
/-
Property C101: access policies written by users.
-/
namespace RG.Pols

/-! ### Compositions -/

theorem pair_documented {p q : Pol} (hp : p.Documented) (hq : q.Documented) (op : Op) : (p.pair q op).Documented where
  comm a b := by
    have h1 := hp.comm a.1 b.1
    have h2 := hq.comm a.2 b.2
    cases op <;> simp [Pol.pair, h1, h2]
  refl a := by simp [Pol.pair, hp.refl, hq.refl]
  superset s c x h1 h2 := by
    simp only [Pol.pair, Bool.and_eq_true] at h1
    cases op with
    | and =>
      simp only [Pol.pair, Bool.and_eq_true] at h2 ⊢
      exact ⟨hp.superset _ _ _ h1.1 h2.1, hq.superset _ _ _ h1.2 h2.2⟩
    | or =>
      simp only [Pol.pair, Bool.or_eq_true] at h2 ⊢
      exact h2.imp (hp.superset _ _ _ h1.1) (hq.superset _ _ _ h1.2)

theorem array_documented {p : Pol} (hp : p.Documented) (n : Nat) (op : Op) : (p.array n op).Documented where
  comm a b := by
    have h1 : ∀ i, p.serial (a i) (b i) = p.serial (b i) (a i) := fun i => hp.comm _ _
    cases op <;> simp [Pol.array, h1]
  refl a := by simp [Pol.array, hp.refl]
  superset s c x h1 h2 := by
    simp only [Pol.array, List.all_eq_true, List.mem_finRange, true_implies] at h1
    cases op with
    | and =>
      simp only [Pol.array, List.all_eq_true, List.mem_finRange, true_implies] at h2 ⊢
      exact fun i => hp.superset _ _ _ (h1 i) (h2 i)
    | or =>
      simp only [Pol.array, List.any_eq_true, List.mem_finRange, true_and] at h2 ⊢
      obtain ⟨i, hi⟩ := h2
      exact ⟨i, hp.superset _ _ _ (h1 i) hi⟩

theorem pair_sync {p q : Pol} (hp : p.SyncLaw) (hq : q.SyncLaw) (op : Op) : (p.pair q op).SyncLaw := by
  intro s x t h1 h2
  simp only [Pol.pair, Bool.and_eq_true] at h1
  cases op with
  | and =>
    simp only [Pol.pair, Bool.and_eq_true] at h2 ⊢
    exact ⟨hp _ _ _ h1.1 h2.1, hq _ _ _ h1.2 h2.2⟩
  | or =>
    simp only [Pol.pair, Bool.or_eq_true] at h2 ⊢
    exact h2.imp (hp _ _ _ h1.1) (hq _ _ _ h1.2)

theorem array_sync {p : Pol} (hp : p.SyncLaw) (n : Nat) (op : Op) : (p.array n op).SyncLaw := by
  intro s x t h1 h2
  simp only [Pol.array, List.all_eq_true, List.mem_finRange, true_implies] at h1
  cases op with
  | and =>
    simp only [Pol.array, List.all_eq_true, List.mem_finRange, true_implies] at h2 ⊢
    exact fun i => hp _ _ _ (h1 i) (h2 i)
  | or =>
    simp only [Pol.array, List.any_eq_true, List.mem_finRange, true_and] at h2 ⊢
    obtain ⟨i, hi⟩ := h2
    exact ⟨i, hp _ _ _ (h1 i) hi⟩

/-- C101: Policies written by users can be combined with each other and with those of the library, in pairs and arrays: if
the parts keep what is documented, the whole does; if moreover each part keeps the law of synchronizing accesses, so does
the whole. The policies of the library have both. -/
theorem C101_compose {p q : Pol} (hp : p.Documented) (hq : q.Documented) (op : Op) (n : Nat) (P : Policy) :
    ((p.pair q op).Documented ∧ (p.array n op).Documented) ∧
    (p.SyncLaw → q.SyncLaw → (p.pair q op).SyncLaw ∧ (p.array n op).SyncLaw) ∧
    (Pol.lib P).Documented ∧ (Pol.lib P).SyncLaw :=
  ⟨⟨pair_documented hp hq op, array_documented hp n op⟩, fun h1 h2 => ⟨pair_sync h1 h2 op, array_sync h1 n op⟩,
    ⟨fun a b => C01_conflict_symmetric P a b, C04_superset_refl P, fun s c x => C03_superset_conflicts P s c x⟩,
    fun s x t => C02_sync_conflicts_with_all P s x t⟩

/-- a policy of the user with two values: exclusive or not -/
def exclusive : Pol := ⟨Bool, fun a b => a || b, fun a => a, fun a b => a || !b⟩

example : exclusive.Documented ∧ exclusive.SyncLaw := by
  refine ⟨⟨?_, ?_, ?_⟩, ?_⟩ <;> simp only [exclusive, Pol.SyncLaw] <;> decide

/-- beside the modes of the library -/
example : (exclusive.pair (.lib .io) .or).serial (false, Mode.read) (false, Mode.read) = false ∧
    (exclusive.pair (.lib .io) .or).serial (true, Mode.read) (false, Mode.read) = true ∧
    (exclusive.pair (.lib .io) .or).sync (true, Mode.read) = false := by decide

/-! ### The order of conflicting tasks -/

section
variable {R : Type} [DecidableEq R] {pol : R → Pol} {prog : Nat → Tsk pol} {s : State}

theorem serial_iff {a b : Tsk pol} : serial a b = true ↔
    ∃ (r : R) (x y : (pol r).Val), ⟨r, x⟩ ∈ a ∧ ⟨r, y⟩ ∈ b ∧ (pol r).serial x y = true := by
  simp only [serial, List.any_eq_true]
  constructor
  · rintro ⟨⟨r, x⟩, hx, ⟨r', y⟩, hy, h⟩
    unfold serialA at h
    split at h
    · rename_i e
      dsimp only at e
      subst e
      exact ⟨r, x, y, hx, hy, h⟩
    · cases h
  · rintro ⟨r, x, y, hx, hy, h⟩
    exact ⟨_, hx, _, hy, by simpa [serialA] using h⟩

theorem hasSync_iff {a : Tsk pol} {r : R} : hasSync a r = true ↔ ∃ z : (pol r).Val, ⟨r, z⟩ ∈ a ∧ (pol r).sync z = true := by
  simp only [hasSync, List.any_eq_true, Bool.and_eq_true, decide_eq_true_eq]
  constructor
  · rintro ⟨⟨r', z⟩, hz, e, h⟩
    dsimp only at e
    subst e
    exact ⟨z, hz, h⟩
  · rintro ⟨z, hz, h⟩
    exact ⟨_, hz, rfl, h⟩

theorem uses_iff {a : Tsk pol} {r : R} : uses a r = true ↔ ∃ z : (pol r).Val, ⟨r, z⟩ ∈ a := by
  simp only [uses, List.any_eq_true, decide_eq_true_eq]
  constructor
  · rintro ⟨⟨r', z⟩, hz, e⟩
    dsimp only at e
    subst e
    exact ⟨z, hz⟩
  · rintro ⟨z, hz⟩
    exact ⟨_, hz, rfl⟩

theorem mem_resources {a : Tsk pol} {r : R} : r ∈ resources a ↔ ∃ z : (pol r).Val, ⟨r, z⟩ ∈ a := by
  simp only [resources, List.mem_eraseDups, List.mem_map]
  constructor
  · rintro ⟨⟨r', z⟩, hz, e⟩
    dsimp only at e
    subst e
    exact ⟨z, hz⟩
  · rintro ⟨z, hz⟩
    exact ⟨_, hz, rfl⟩

theorem scan_sub {t : Nat} {r : R} {l : List Nat} : ∀ d ∈ scan prog t r l, d ∈ l ∧ serial (prog d) (prog t) = true := by
  induction l with
  | nil => intro d h; cases h
  | cons p l ih =>
    intro d h
    unfold scan at h
    split at h
    · rename_i h1
      split at h
      · cases List.mem_singleton.1 h
        exact ⟨.head _, h1⟩
      · rcases List.mem_cons.1 h with rfl | h
        · exact ⟨.head _, h1⟩
        · exact ⟨.tail _ (ih d h).1, (ih d h).2⟩
    · exact ⟨.tail _ (ih d h).1, (ih d h).2⟩

/-- a conflicting user is found, or the search has ended at a later one that is synchronizing -/
theorem scan_finds {t i : Nat} {r : R} {l : List Nat} (hl : l.Pairwise (· > ·)) (hi : i ∈ l)
    (h : serial (prog i) (prog t) = true) :
    i ∈ scan prog t r l ∨ ∃ d ∈ scan prog t r l, i < d ∧ hasSync (prog d) r = true := by
  induction l with
  | nil => cases hi
  | cons p l ih =>
    have hl' := List.pairwise_cons.1 hl
    unfold scan
    rcases List.mem_cons.1 hi with rfl | hi
    · rw [if_pos h]
      split <;> exact .inl (.head _)
    · have hp := hl'.1 i hi
      have := ih hl'.2 hi
      split
      · split
        · rename_i h2
          exact .inr ⟨p, .head _, hp, h2⟩
        · exact this.imp (.tail _) fun ⟨d, h1, h2⟩ => ⟨d, .tail _ h1, h2⟩
      · exact this

theorem users_desc (r : R) : (users prog s r).Pairwise (· > ·) := by
  refine List.Pairwise.filter _ ?_
  rw [List.pairwise_reverse]
  exact List.pairwise_lt_range

theorem mem_users {r : R} {i : Nat} : i ∈ users prog s r ↔ i < s.n ∧ uses (prog i) r = true ∧ s.done i = false := by
  simp [users]

structure Inv (prog : Nat → Tsk pol) (s : State) : Prop where
  lt : ∀ t, ∀ d ∈ s.deps t, d < t ∧ t < s.n ∧ serial (prog d) (prog t) = true
  started : ∀ t, s.started t = true → t < s.n ∧ ∀ d ∈ s.deps t, s.done d = true
  done : ∀ t, s.done t = true → s.started t = true

theorem Reach.inv (h : Reach prog s) : Inv prog s := by
  induction h with
  | init => exact ⟨(fun _ _ h => by cases h), (fun _ h => by cases h), (fun _ h => by cases h)⟩
  | @step s s' _ hs ih =>
    cases hs with
    | submit =>
      refine ⟨fun t d hd => ?_, fun t ht => ?_, ih.done⟩
      · dsimp only at hd ⊢
        by_cases e : t = s.n
        · subst e
          rw [upd_same, List.mem_flatMap] at hd
          obtain ⟨r, -, hd⟩ := hd
          obtain ⟨h1, h2⟩ := scan_sub d hd
          exact ⟨(mem_users.1 h1).1, Nat.lt_succ_self _, h2⟩
        · rw [upd_ne _ _ e] at hd
          obtain ⟨h1, h2, h3⟩ := ih.lt t d hd
          exact ⟨h1, Nat.lt_succ_of_lt h2, h3⟩
      · obtain ⟨h1, h2⟩ := ih.started t ht
        refine ⟨Nat.lt_succ_of_lt h1, fun d hd => ?_⟩
        dsimp only at hd
        rw [upd_ne _ _ (by omega)] at hd
        exact h2 d hd
    | @start t h h1 h2 =>
      refine ⟨ih.lt, fun t' ht => ?_, fun t' ht => ?_⟩
      · by_cases e : t' = t
        · subst e
          exact ⟨h, h2⟩
        · dsimp only at ht
          rw [upd_ne _ _ e] at ht
          exact ih.started t' ht
      · by_cases e : t' = t
        · subst e
          exact upd_same _ _ _
        · dsimp only
          rw [upd_ne _ _ e]
          exact ih.done t' ht
    | @finish t h h1 =>
      refine ⟨ih.lt, fun t' ht => ?_, fun t' ht => ?_⟩
      · obtain ⟨h2, h3⟩ := ih.started t' ht
        refine ⟨h2, fun d hd => ?_⟩
        by_cases e : d = t
        · subst e
          exact upd_same _ _ _
        · dsimp only
          rw [upd_ne _ _ e]
          exact h3 d hd
      · by_cases e : t' = t
        · subst e
          exact h
        · dsimp only at ht
          rw [upd_ne _ _ e] at ht
          exact ih.done t' ht

/-- an earlier task that conflicts has ended, or is waited for, or conflicts with a later one that is waited for -/
theorem Reach.covered (hp : ∀ r, (pol r).SyncLaw) (h : Reach prog s) {i j : Nat} (hij : i < j) (hj : j < s.n)
    (hc : serial (prog i) (prog j) = true) :
    s.done i = true ∨ i ∈ s.deps j ∨ ∃ d ∈ s.deps j, i < d ∧ serial (prog i) (prog d) = true := by
  induction h with
  | init => exact absurd hj (Nat.not_lt_zero _)
  | @step s s' hr hs ih =>
    cases hs with
    | submit =>
      by_cases e : j = s.n
      · subst e
        dsimp only
        rw [upd_same]
        cases hd : s.done i with
        | true => exact .inl rfl
        | false =>
          obtain ⟨r, x, y, hx, hy, hxy⟩ := serial_iff.1 hc
          have hu : i ∈ users prog s r := mem_users.2 ⟨hij, uses_iff.2 ⟨x, hx⟩, hd⟩
          have hm := mem_resources.2 ⟨y, hy⟩
          refine .inr ?_
          rcases scan_finds (r := r) (users_desc r) hu hc with h1 | ⟨d, h1, h2, h3⟩
          · exact .inl (List.mem_flatMap.2 ⟨r, hm, h1⟩)
          · obtain ⟨z, hz, hs⟩ := hasSync_iff.1 h3
            exact .inr ⟨d, List.mem_flatMap.2 ⟨r, hm, h1⟩, h2, serial_iff.2 ⟨r, x, z, hx, hz, hp r z x y hs hxy⟩⟩
      · have hj' : j < s.n := by
          have : j < s.n + 1 := hj
          omega
        dsimp only
        rw [upd_ne _ _ e]
        exact ih hj'
    | start => exact ih hj
    | @finish t h1 h2 =>
      refine (ih hj).imp_left fun h3 => ?_
      by_cases e : i = t
      · subst e
        exact upd_same _ _ _
      · dsimp only
        rw [upd_ne _ _ e]
        exact h3

theorem Reach.order (hp : ∀ r, (pol r).SyncLaw) (h : Reach prog s) {i j : Nat} (hij : i < j)
    (hc : serial (prog i) (prog j) = true) (hj : s.started j = true) : s.done i = true := by
  induction j using Nat.strongRecOn with
  | ind j ih =>
    obtain ⟨h1, h2⟩ := h.inv.started j hj
    rcases h.covered hp hij h1 hc with h3 | h3 | ⟨d, h3, h4, h5⟩
    · exact h3
    · exact h2 i h3
    · exact ih d (h.inv.lt j d h3).1 h4 h5 (h.inv.done d (h2 d h3))

end

theorem with_law {p : Pol} (hp : p.SyncLaw) : ∀ r, (with' p r).SyncLaw
  | (true, _) => hp
  | (false, _) => fun s x t => C02_sync_conflicts_with_all .io s x t

/-- the program that shows that the law is needed: the access `q`; the synchronizing one `z` together with a write to another
resource; the access `t` with a read of that resource -/
def witness (p : Pol) (q z t : p.Val) : Nat → Tsk (with' p)
  | 0 => [⟨(true, 0), q⟩]
  | 1 => [⟨(true, 0), z⟩, ⟨(false, 0), Mode.write⟩]
  | 2 => [⟨(true, 0), t⟩, ⟨(false, 0), Mode.read⟩]
  | _ => []

/-- C101: Exactly which policies keep tasks in order: those with the law of synchronizing accesses. If everything
that conflicts with some access conflicts with each access for which `is_synchronizing` is true, then in every program (with any
number of resources of this policy and of the library's, and tasks with any lists of accesses) no task begins
before the earlier tasks have ended with which it conflicts. If the law does not hold, there is a program with three tasks
where this goes wrong. Neither symmetry of `is_serial` nor anything about `is_superset_of` is needed. -/
theorem C101_order_iff (p : Pol) : KeepsOrder p ↔ p.SyncLaw := by
  constructor
  · intro h z q t hz hqt
    cases hn : p.serial q z with
    | true => rfl
    | false =>
      let prog := witness p q z t
      have h01 : serial (prog 0) (prog 1) = false := by
        refine Bool.eq_false_iff.2 fun h' => ?_
        obtain ⟨r, x, y, hx, hy, hxy⟩ := serial_iff.1 h'
        cases List.mem_singleton.1 hx
        rcases List.mem_cons.1 hy with e | e
        · cases e
          exact Bool.noConfusion (hn.symm.trans hxy)
        · cases List.mem_singleton.1 e
      have h02 : serial (prog 0) (prog 2) = true :=
        serial_iff.2 ⟨(true, 0), q, t, .head _, .head _, hqt⟩
      have h12 : serial (prog 1) (prog 2) = true := by
        refine serial_iff.2 ⟨(false, 0), Mode.write, Mode.read, ?_, ?_, rfl⟩ <;> simp [prog, witness]
      have y1 : hasSync (prog 1) (true, 0) = true := hasSync_iff.2 ⟨z, by simp [prog, witness], hz⟩
      have y2 : hasSync (prog 1) (false, 0) = true := hasSync_iff.2 ⟨Mode.write, by simp [prog, witness], rfl⟩
      have r0 : resources (prog 0) = [(true, 0)] := rfl
      have r1 : resources (prog 1) = [(true, 0), (false, 0)] := rfl
      have r2 : resources (prog 2) = [(true, 0), (false, 0)] := rfl
      -- the tasks are submitted
      let s1 : State := ⟨1, upd init.deps 0 [], init.started, init.done⟩
      let s2 : State := ⟨2, upd s1.deps 1 [], init.started, init.done⟩
      let s3 : State := ⟨3, upd s2.deps 2 [1, 1], init.started, init.done⟩
      have u0 : ∀ r, users prog init r = [] := fun r => rfl
      have R1 : Reach prog s1 := by
        have := Reach.step (prog := prog) .init .submit
        rw [show init.n = 0 from rfl, r0] at this
        simpa only [u0, scan, List.flatMap_cons, List.flatMap_nil, List.append_nil] using this
      have R2 : Reach prog s2 := by
        have := R1.step .submit
        have e1 : users prog s1 (true, 0) = [0] := by simp [users, s1, uses, prog, witness, init]
        have e2 : users prog s1 (false, 0) = [] := by simp [users, s1, uses, prog, witness, init]
        simpa [s1, r1, scan, e1, e2, h01, s2] using this
      have R3 : Reach prog s3 := by
        have := R2.step .submit
        have e1 : users prog s2 (true, 0) = [1, 0] := by
          simp [users, s2, uses, prog, witness, init, List.range_succ]
        have e2 : users prog s2 (false, 0) = [1] := by
          simp [users, s2, uses, prog, witness, init, List.range_succ]
        simpa [s2, r2, scan, e1, e2, h12, y1, y2, s3] using this
      -- the second one is executed, and the third one begins
      have d1 : s3.deps 1 = [] := by simp [s3, s2, upd]
      have d2 : s3.deps 2 = [1, 1] := by simp [s3, upd]
      have R4 := R3.step (.start (t := 1) (by decide) rfl (by rw [d1]; intro d hd; cases hd))
      have R5 := R4.step (.finish (t := 1) (upd_same s3.started 1 true) rfl)
      have R6 := R5.step (.start (t := 2) (by decide) (upd_ne (i := 1) (j := 2) s3.started true (by decide)) (by
        intro d hd
        have : d ∈ s3.deps 2 := hd
        rw [d2] at this
        have : d = 1 := by simpa using this
        subst this
        exact upd_same s3.done 1 true))
      have := h prog _ R6 0 2 (by decide) h02 (upd_same (upd s3.started 1 true) 2 true)
      have h0 : (upd s3.done 1 true) 0 = false := upd_ne (i := 1) (j := 0) _ _ (by decide)
      exact Bool.noConfusion (this.symm.trans h0)
  · intro hp prog s hr i j hij hc hj
    exact hr.order (with_law hp) hij hc hj

/-- C101: Only tasks that conflict are waited for, and no policy, whatever it answers, leads to a deadlock: as long as a
task has not ended, one of the tasks that have been submitted can begin, or is running and can end. -/
theorem C101_progress {R : Type} [DecidableEq R] {pol : R → Pol} {prog : Nat → Tsk pol} {s : State} (h : Reach prog s) :
    (∀ t, ∀ d ∈ s.deps t, d < t ∧ serial (prog d) (prog t) = true) ∧
    ((∃ t, t < s.n ∧ s.done t = false) → ∃ t, t < s.n ∧ s.done t = false ∧
      ((s.started t = true ∧ Step prog s { s with done := upd s.done t true }) ∨ Step prog s { s with started := upd s.started t true })) := by
  refine ⟨fun t d hd => ⟨(h.inv.lt t d hd).1, (h.inv.lt t d hd).2.2⟩, ?_⟩
  rintro ⟨t, ht, hd⟩
  induction t using Nat.strongRecOn with
  | ind t ih =>
    cases hs : s.started t with
    | true => exact ⟨t, ht, hd, .inl ⟨hs, .finish hs hd⟩⟩
    | false =>
      by_cases hw : ∀ d ∈ s.deps t, s.done d = true
      · exact ⟨t, ht, hd, .inr (.start ht hs hw)⟩
      · have : ∃ d ∈ s.deps t, s.done d = false := by
          refine Classical.byContradiction fun hn => hw fun d hd => ?_
          cases e : s.done d with
          | true => rfl
          | false => exact absurd ⟨d, hd, e⟩ hn
        obtain ⟨d, h1, h2⟩ := this
        obtain ⟨h3, h4, -⟩ := h.inv.lt t d h1
        exact ih d h3 (Nat.lt_trans h3 h4) h2

/-- Several steps. -/
inductive Steps {R : Type} [DecidableEq R] {pol : R → Pol} (prog : Nat → Tsk pol) : State → State → Prop
  | refl {s} : Steps prog s s
  | step {s s' s''} : Steps prog s s' → Step prog s' s'' → Steps prog s s''

/-- C101: In every state all tasks submitted so far can be brought to an end, with any policy. -/
theorem C101_all_can_end {R : Type} [DecidableEq R] {pol : R → Pol} {prog : Nat → Tsk pol} {s : State} (h : Reach prog s) :
    ∃ s', Steps prog s s' ∧ s'.n = s.n ∧ ∀ t, t < s.n → s'.done t = true := by
  have key : ∀ k, k ≤ s.n → ∃ s', Steps prog s s' ∧ s'.n = s.n ∧ s'.deps = s.deps ∧ ∀ t, t < k → s'.done t = true := by
    intro k
    induction k with
    | zero => intro _; exact ⟨s, .refl, rfl, rfl, fun t ht => absurd ht (Nat.not_lt_zero t)⟩
    | succ k ih =>
      intro hk
      obtain ⟨s', h1, h2, h3, h4⟩ := ih (by omega)
      have hend : ∀ s'' : State, Steps prog s s'' → s''.n = s.n → s''.deps = s.deps → (∀ t, t < k → s''.done t = true) → s''.started k = true →
          ∃ s', Steps prog s s' ∧ s'.n = s.n ∧ s'.deps = s.deps ∧ ∀ t, t < k + 1 → s'.done t = true := by
        intro s'' g1 g2 g3 g4 g5
        cases hd : s''.done k with
        | true =>
          refine ⟨s'', g1, g2, g3, fun t ht => ?_⟩
          by_cases e : t = k
          · rw [e]; exact hd
          · exact g4 t (by omega)
        | false =>
          refine ⟨_, .step g1 (.finish g5 hd), g2, g3, fun t ht => ?_⟩
          by_cases e : t = k
          · rw [e]; exact upd_same _ _ _
          · exact (upd_ne _ _ (fun h => e h)).trans (g4 t (by omega))
      cases hs : s'.started k with
      | true => exact hend s' h1 h2 h3 h4 hs
      | false =>
        refine hend _ (.step h1 (.start (t := k) (by omega) hs ?_)) h2 h3 h4 (upd_same _ _ _)
        intro d hd
        rw [h3] at hd
        exact h4 d (h.inv.lt k d hd).1
  obtain ⟨s', h1, h2, -, h4⟩ := key s.n (Nat.le_refl _)
  exact ⟨s', h1, h2, h4⟩

/-- a state with two tasks that conflict -/
example : ∃ s, Reach (R := Unit) (pol := fun _ => exclusive) (fun _ => [⟨(), true⟩]) s ∧ s.n = 2 ∧ s.done 1 = false ∧ s.deps 1 = [0] :=
  ⟨_, .step (.step .init .submit) .submit, rfl, rfl, by decide⟩

/-- A policy for objects with parts: reading or writing part `c`. `is_synchronizing` is copied from io.hpp:42-45. -/
def parts : Pol where
  Val := Mode × Nat
  serial a b := a.2 == b.2 && a.1.isSerial b.1
  sync a := a.1.isSync
  superset a b := a.2 == b.2 && a.1.isSuperset b.1

/-- C101: The documentation of the concept (resource.hpp:215-231) is not enough: a policy can have everything it asks for, and
tasks that write the same part of an object run at the same time. -/
theorem C101_documented_false : ∃ p : Pol, p.Documented ∧ ¬ KeepsOrder p := by
  refine ⟨parts, ⟨?_, ?_, ?_⟩, fun h => ?_⟩
  · rintro ⟨m, c⟩ ⟨m', c'⟩
    simp only [parts, Mode.isSerial_comm m m', Bool.beq_comm (a := c)]
  · rintro ⟨m, c⟩
    simp [parts, Mode.isSuperset_refl]
  · rintro ⟨m, c⟩ ⟨m', c'⟩ ⟨m'', c''⟩
    simp only [parts, Bool.and_eq_true, beq_iff_eq]
    rintro ⟨rfl, h1⟩ ⟨rfl, h2⟩
    exact ⟨rfl, Mode.superset_serial _ _ _ h1 h2⟩
  · have := (C101_order_iff parts).1 h (.write, 1) (.write, 2) (.read, 2) rfl rfl
    simp [parts] at this

/-- the same policy with the right answer (no access concerns all parts) -/
example : KeepsOrder { parts with sync := fun _ => false } := by
  refine (C101_order_iff _).2 ?_
  rintro z q t h
  cases h

/-! ### All theorems about tasks hold for tasks with such policies -/

section
variable {p : Pol} {vals : List p.Val}

theorem serialTop_comm (hc : ∀ a b, p.serial a b = p.serial b a) (a b : Option p.Val) :
    p.serialTop vals a b = p.serialTop vals b a := by
  cases a <;> cases b <;> simp [Pol.serialTop]
  exact hc _ _

theorem serialTop_top {a b : Option p.Val} (hb : ∀ v, b = some v → v ∈ vals) (h : p.serialTop vals a b = true) : p.serialTop vals a none = true := by
  rcases a with _ | a <;> rcases b with _ | b
  · exact h
  · simp only [Pol.serialTop, List.any_eq_true] at h ⊢
    obtain ⟨x, hx, hxb⟩ := h
    exact ⟨b, hb b rfl, x, hx, hxb⟩
  · exact h
  · simp only [Pol.serialTop, List.any_eq_true] at h ⊢
    exact ⟨b, hb b rfl, h⟩

theorem serialTop_sync (hc : ∀ a b, p.serial a b = p.serial b a) (hs : p.SyncLaw) {a b : Option p.Val} {z : p.Val}
    (hb : ∀ v, b = some v → v ∈ vals) (hy : p.sync z = true)
    (h : p.serialTop vals a b = true) : p.serialTop vals a (some z) = true := by
  have h := serialTop_top hb h
  rcases a with _ | a
  · simp only [Pol.serialTop, List.any_eq_true] at h ⊢
    obtain ⟨x, hx, y, hy', hxy⟩ := h
    exact ⟨x, hx, (hc _ _).trans (hs z x y hy hxy)⟩
  · simp only [Pol.serialTop, List.any_eq_true] at h
    obtain ⟨x, hx, hxy⟩ := h
    exact hs z a x hy hxy

theorem vals_mem {i : Nat} {v : p.Val} (h : vals[i]? = some v) : v ∈ vals := List.mem_of_getElem? h

/-- The values `vals` of a policy and one more, the strongest one. -/
def Pol.toCustom (p : Pol) (hc : ∀ a b, p.serial a b = p.serial b a) (hs : p.SyncLaw) (vals : List p.Val) : Custom where
  n := vals.length + 1
  serial i j := p.serialTop vals vals[i.1]? vals[j.1]?
  sync i := (vals[i.1]?.map p.sync).getD true
  superset i j := i == j || i == Fin.last _
  eq i j := i == j
  dflt := Fin.last _
  serial_comm _ _ := serialTop_comm hc _ _
  sync_serial s q t h1 h2 := by
    cases e : vals[s.1]? with
    | none => exact serialTop_top (fun v => vals_mem) h2
    | some z =>
      rw [e] at h1
      exact serialTop_sync hc hs (fun v => vals_mem) h1 h2
  superset_serial s c q h1 h2 := by
    simp only [Bool.or_eq_true, beq_iff_eq] at h1
    rcases h1 with rfl | rfl
    · exact h2
    · have e : vals[(Fin.last vals.length).1]? = none := by simp
      rw [e]
      exact serialTop_top (fun v => vals_mem) h2
  superset_refl a := by simp
  superset_trans a b c h1 h2 := by
    simp only [Bool.or_eq_true, beq_iff_eq] at *
    rcases h1 with rfl | rfl
    · exact h2
    · exact .inr rfl
  superset_antisymm a b h1 h2 := by
    simp only [Bool.or_eq_true, beq_iff_eq] at *
    rcases h1 with rfl | rfl
    · rfl
    · rcases h2 with h | h
      · exact h.symm
      · exact h.symm
  eq_iff a b := by simp
  dflt_sync := by simp
  dflt_superset a := by simp

end

section
variable {pol : Res → Pol} (prog : Nat → Tsk pol) (n : Nat)

/-- the values of a resource in a program -/
def valsOf (r : Res) : List (pol r).Val :=
  ((List.range n).flatMap prog).filterMap fun x => if h : x.1 = r then some (h ▸ x.2) else none

theorem mem_valsOf {t : Nat} (ht : t < n) {r : Res} {v : (pol r).Val} (h : ⟨r, v⟩ ∈ prog t) : v ∈ valsOf prog n r := by
  refine List.mem_filterMap.2 ⟨⟨r, v⟩, List.mem_flatMap.2 ⟨t, List.mem_range.2 ht, h⟩, ?_⟩
  simp

/-- the number of a value -/
noncomputable def code (r : Res) (v : (pol r).Val) : Fin ((valsOf prog n r).length + 1) :=
  open Classical in if h : ∃ i : Fin ((valsOf prog n r).length + 1), (valsOf prog n r)[i.1]? = some v then choose h else Fin.last _

theorem code_spec {t : Nat} (ht : t < n) {r : Res} {v : (pol r).Val} (h : ⟨r, v⟩ ∈ prog t) :
    (valsOf prog n r)[(code prog n r v).1]? = some v := by
  obtain ⟨i, hi, e⟩ := List.mem_iff_getElem.1 (mem_valsOf prog n ht h)
  have hex : ∃ i : Fin ((valsOf prog n r).length + 1), (valsOf prog n r)[i.1]? = some v :=
    ⟨⟨i, by omega⟩, by rw [← e]; exact List.getElem?_eq_getElem hi⟩
  unfold code
  rw [dif_pos hex]
  exact Classical.choose_spec hex

/-- the access with a policy of Model/Access -/
noncomputable def coded (hc : ∀ r a b, (pol r).serial a b = (pol r).serial b a) (hs : ∀ r, (pol r).SyncLaw) (x : Access pol) :
    RAccess where
  ty := .custom ((pol x.1).toCustom (hc x.1) (hs x.1) (valsOf prog n x.1))
  res := x.1
  acc := code prog n x.1 x.2

/-- the task with the policies of Model/Access -/
noncomputable def user (hc : ∀ r a b, (pol r).serial a b = (pol r).serial b a) (hs : ∀ r, (pol r).SyncLaw) (sd : BitVec 32)
    (t : Nat) : User :=
  declare sd [.resources ((prog t).map (coded prog n hc hs))]

variable {prog n}

theorem user_access {hc : ∀ r a b, (pol r).serial a b = (pol r).serial b a} {hs : ∀ r, (pol r).SyncLaw} {sd : BitVec 32}
    {t : Nat} : (user prog n hc hs sd t).access = (prog t).map (coded prog n hc hs) := by
  simp [user, declare, Decl.apply, User.resources, User.buildUnique, User.empty]

theorem user_serial {hc : ∀ r a b, (pol r).serial a b = (pol r).serial b a} {hs : ∀ r, (pol r).SyncLaw} {sd : BitVec 32}
    {i j : Nat} (hi : i < n) (hj : j < n) :
    (user prog n hc hs sd i).isSerial (user prog n hc hs sd j) = serial (prog i) (prog j) := by
  rw [Bool.eq_iff_iff, C07_conflict_iff, serial_iff]
  constructor
  · rintro ⟨P, r, x, y, hx, hy, h⟩
    rw [user_access, List.mem_map] at hx hy
    obtain ⟨⟨r1, v⟩, hv, e1⟩ := hx
    obtain ⟨⟨r2, w⟩, hw, e2⟩ := hy
    cases e1
    have er : r2 = r1 := congrArg RAccess.res e2
    subst er
    have ey : y = code prog n r2 w := by
      have := (RAccess.mk.inj e2).2.2
      exact (eq_of_heq this).symm
    subst ey
    refine ⟨r2, v, w, hv, hw, ?_⟩
    have h' : (pol r2).serialTop (valsOf prog n r2) (valsOf prog n r2)[(code prog n r2 v).1]?
      (valsOf prog n r2)[(code prog n r2 w).1]? = true := h
    rw [code_spec prog n hi hv, code_spec prog n hj hw] at h'
    exact h'
  · rintro ⟨r, v, w, hv, hw, h⟩
    refine ⟨(coded prog n hc hs ⟨r, v⟩).ty, r, (coded prog n hc hs ⟨r, v⟩).acc, (coded prog n hc hs ⟨r, w⟩).acc, ?_, ?_, ?_⟩
    · rw [user_access]
      exact List.mem_map.2 ⟨_, hv, rfl⟩
    · rw [user_access]
      exact List.mem_map.2 ⟨_, hw, rfl⟩
    · change (pol r).serialTop (valsOf prog n r) (valsOf prog n r)[(code prog n r v).1]?
        (valsOf prog n r)[(code prog n r w).1]? = true
      rw [code_spec prog n hi hv, code_spec prog n hj hw]
      exact h

theorem user_sync {hc : ∀ r a b, (pol r).serial a b = (pol r).serial b a} {hs : ∀ r, (pol r).SyncLaw} {sd : BitVec 32}
    {i : Nat} (hi : i < n) (r : Res) : (user prog n hc hs sd i).hasSync r = hasSync (prog i) r := by
  rw [Bool.eq_iff_iff, hasSync_iff]
  simp only [User.hasSync, List.any_eq_true, List.mem_reverse, Bool.and_eq_true, beq_iff_eq, user_access, List.mem_map]
  constructor
  · rintro ⟨ra, ⟨⟨r1, v⟩, hv, rfl⟩, e, h⟩
    change r1 = r at e
    subst e
    refine ⟨v, hv, ?_⟩
    have h' : ((valsOf prog n r1)[(code prog n r1 v).1]?.map (pol r1).sync).getD true = true := h
    rw [code_spec prog n hi hv] at h'
    exact h'
  · rintro ⟨v, hv, h⟩
    refine ⟨_, ⟨⟨r, v⟩, hv, rfl⟩, rfl, ?_⟩
    change ((valsOf prog n r)[(code prog n r v).1]?.map (pol r).sync).getD true = true
    rw [code_spec prog n hi hv]
    exact h

end

/-- C101: Everything that is proved about tasks (their order, deadlocks, results, memory) holds for tasks that access
resources with policies of the user: for any policies with the two laws and any program with `n` tasks, there are tasks of the model
(Model/ResourceUser, with the same resources in the lists `access_list` and `unique_resources`) between which there are the
same conflicts, and which are synchronizing for the same resources. Nothing else of the policies is used when tasks are
initialised, graph.cpp:37-97. -/
theorem C101_same_tasks (pol : Res → Pol) (hc : ∀ r a b, (pol r).serial a b = (pol r).serial b a)
    (hs : ∀ r, (pol r).SyncLaw) (n : Nat) (prog : Nat → Tsk pol) (sd : BitVec 32) : ∃ u : Nat → User,
    (∀ i j, i < n → j < n → (u i).isSerial (u j) = serial (prog i) (prog j)) ∧
    (∀ i r, i < n → (u i).hasSync r = hasSync (prog i) r) ∧
    (∀ i, (u i).access.map RAccess.res = (prog i).map fun x => x.1) ∧
    (∀ i, (u i).unique.Nodup ∧ ∀ r, r ∈ (u i).unique ↔ r ∈ resources (prog i)) ∧
    ∀ cfg : Graph.Cfg, cfg.user = u → cfg.WellFormed := by
  refine ⟨user prog n hc hs sd, fun i j hi hj => user_serial hi hj, fun i r hi => user_sync hi r, fun i => ?_, fun i => ⟨?_, fun r => ?_⟩,
    fun cfg e => ⟨fun t => ?_, fun t v a b ha hb hr => ?_⟩⟩
  · rw [user_access, List.map_map]
    rfl
  · exact C54_resources_registers_once sd [] _
  · rw [user, C54_registered_iff_accessed, mem_resources]
    change (∃ ra ∈ (user prog n hc hs sd i).access, ra.res = r) ↔ _
    rw [user_access]
    constructor
    · rintro ⟨ra, hm, e⟩
      obtain ⟨⟨r1, v⟩, hv, rfl⟩ := List.mem_map.1 hm
      change r1 = r at e
      subst e
      exact ⟨v, hv⟩
    · rintro ⟨v, hv⟩
      exact ⟨_, List.mem_map.2 ⟨_, hv, rfl⟩, rfl⟩
  · rw [e]
    exact ⟨sd, _, rfl⟩
  · rw [e, user_access] at ha hb
    obtain ⟨⟨r1, v1⟩, -, rfl⟩ := List.mem_map.1 ha
    obtain ⟨⟨r2, v2⟩, -, rfl⟩ := List.mem_map.1 hb
    change r1 = r2 at hr
    subst hr
    rfl

/-- C101: For example the order of tasks with all steps of the code (C12): tasks of one space that conflict according to the
policies of the user are executed one after the other, for every schedule and number of workers.
Partial: as C12, programs with nested tasks are restricted by `NestingOk`. -/
theorem C101_submission_order_partial (pol : Res → Pol) (hc : ∀ r a b, (pol r).serial a b = (pol r).serial b a)
    (hs : ∀ r, (pol r).SyncLaw) (n : Nat) (prog : Nat → Tsk pol) (sd : BitVec 32) : ∃ u : Nat → User,
    (∀ i j, i < n → j < n → (u i).isSerial (u j) = serial (prog i) (prog j)) ∧
    ∀ cfg : Graph.Cfg, cfg.user = u → Graph.NestingOk cfg → cfg.single = true →
      ∀ s, Graph.Reach cfg s → ∀ p t, p < t → t < n → cfg.space p = cfg.space t → serial (prog p) (prog t) = true →
        Graph.Started s t → Graph.Finished cfg s p := by
  obtain ⟨u, h1, -, -, -, h2⟩ := C101_same_tasks pol hc hs n prog sd
  refine ⟨u, h1, fun cfg e hn h3 s hr p t hlt ht hsp hser hx => ?_⟩
  exact Graph.C12_one_submitter_partial (h2 cfg e) hn h3 hr hlt hsp (by rw [e, h1 p t (Nat.lt_trans hlt ht) ht]; exact hser) hx

/-- a policy with three values: 0 and 1 are compatible with themselves only, 2 conflicts with everything -/
example : ∃ p : Pol, (∀ a b, p.serial a b = p.serial b a) ∧ p.SyncLaw ∧ ∃ a b c, p.serial a b = true ∧ p.serial a a = false ∧
    p.sync c = true :=
  ⟨⟨Fin 3, fun a b => a != b || a == 2, fun a => a == 2, fun a b => a == 2 || a == b⟩, by decide, by unfold Pol.SyncLaw; decide,
    0, 1, 2, by decide, by decide, by decide⟩

end RG.Pols
