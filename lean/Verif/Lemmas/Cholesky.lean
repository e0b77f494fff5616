import Verif.Lemmas.Examples
import Mathlib.Tactic.Ring
import Mathlib.Tactic.Linarith
/-
Lemmas for examples/cholesky.cpp in Model/Examples.
-/
namespace RG.Dyn.Chol
open RG.Graph

/-! ### The tasks as assignments -/

/-- the tiles -/
abbrev Tiles : Type := Nat → Nat → Nat

def setTile (T : Tiles) (i j v : Nat) : Tiles := fun i' j' => if i' = i ∧ j' = j then v else T i' j'

theorem setTile_same (T : Tiles) (i j v : Nat) : setTile T i j v i j = v := by simp [setTile]

theorem setTile_ne {T : Tiles} {i j v i' j' : Nat} (h : ¬ (i' = i ∧ j' = j)) : setTile T i j v i' j' = T i' j' := by
  simp [setTile, h]

def apply (K : Kernels) (T : Tiles) : CTask → Tiles
  | .gemm i j k => setTile T i j (K.gemm (T i k) (T j k) (T i j))
  | .syrk j i => setTile T j j (K.syrk (T j i) (T j j))
  | .potrf j => setTile T j j (K.potrf (T j j))
  | .trsm i j => setTile T i j (K.trsm (T j j) (T i j))

/-- the arguments are tiles of the matrix, and different ones -/
def Valid (n : Nat) : CTask → Prop
  | .gemm i j k => i < n ∧ j < n ∧ k < n ∧ k < j ∧ j < i
  | .syrk j i => j < n ∧ i < j
  | .potrf j => j < n
  | .trsm i j => i < n ∧ j < i

theorem at_lt {n i j : Nat} (hi : i < n) (hj : j < n) : at' n i j < n * n := by
  unfold at'
  have : (j + 1) * n ≤ n * n := Nat.mul_le_mul_right _ hj
  rw [Nat.succ_mul] at this
  omega

theorem at_inj {n i j i' j' : Nat} (hi : i < n) (hi' : i' < n) : at' n i j = at' n i' j' ↔ i = i' ∧ j = j' := by
  unfold at'
  constructor
  · intro h
    have h1 := congrArg (· % n) h
    have h2 := congrArg (· / n) h
    simp only [Nat.mul_add_mod_self_right, Nat.mod_eq_of_lt hi, Nat.mod_eq_of_lt hi'] at h1
    subst h1
    have : 0 < n := by omega
    have h3 : j * n = j' * n := by omega
    exact ⟨rfl, Nat.eq_of_mul_eq_mul_right this h3⟩
  · rintro ⟨rfl, rfl⟩
    rfl

/-- the tiles in the memory -/
def tilesOf (n : Nat) (m : Objs) : Tiles := fun i j => m (tileRes (at' n i j)) []

/-- the same tiles, as far as they belong to the matrix -/
def Same (n : Nat) (T T' : Tiles) : Prop := ∀ i j, i < n → j < n → T i j = T' i j

theorem Same.refl (n : Nat) (T : Tiles) : Same n T T := fun _ _ _ _ => rfl

theorem same_set {n i j v : Nat} {m : Objs} (hi : i < n) :
    Same n (tilesOf n (m.set (tileRes (at' n i j), []) v)) (setTile (tilesOf n m) i j v) := by
  intro i' j' h1 h2
  unfold tilesOf setTile
  by_cases h : i' = i ∧ j' = j
  · obtain ⟨rfl, rfl⟩ := h
    simp [set_same]
  · rw [if_neg h, set_ne]
    intro e
    have := congrArg Res.addr (Prod.mk.inj e).1
    exact h ((at_inj h1 hi).1 this)

theorem Same.apply {n : Nat} {K : Kernels} {T T' : Tiles} (h : Same n T T') {t : CTask} (ht : Valid n t) :
    Same n (apply K T t) (apply K T' t) := by
  intro i' j' h1 h2
  cases t with
  | gemm i j k =>
    obtain ⟨h3, h4, h5, -⟩ := ht
    simp only [Chol.apply, setTile, h i k h3 h5, h j k h4 h5, h i j h3 h4, h i' j' h1 h2]
  | syrk j i =>
    obtain ⟨h3, h4⟩ := ht
    simp only [Chol.apply, setTile, h j i h3 (by omega), h j j h3 h3, h i' j' h1 h2]
  | potrf j => simp only [Chol.apply, setTile, h j j ht ht, h i' j' h1 h2]
  | trsm i j =>
    obtain ⟨h3, h4⟩ := ht
    simp only [Chol.apply, setTile, h j j (by omega) (by omega), h i j h3 (by omega), h i' j' h1 h2]

theorem Same.foldl {n : Nat} {K : Kernels} {l : List CTask} (hl : ∀ t ∈ l, Valid n t) {T T' : Tiles} (h : Same n T T') :
    Same n (l.foldl (Chol.apply K) T) (l.foldl (Chol.apply K) T') := by
  induction l generalizing T T' with
  | nil => exact h
  | cons t l ih => exact ih (fun t ht => hl t (.tail _ ht)) (h.apply (hl t (.head _)))

theorem env_get {n i j : Nat} {ext : List AGuard} (hi : i < n) (hj : j < n) :
    (env n ++ ext)[at' n i j]? = some (.io (tileRes (at' n i j)) true) := by
  have := at_lt hi hj
  rw [List.getElem?_append_left (by simpa [env] using this)]
  simp [env, this]

theorem env_length (n : Nat) : (env n).length = n * n := by simp [env]

theorem ext_get {n : Nat} {ext : List AGuard} {g : AGuard} : (env n ++ ext ++ [g])[n * n + ext.length]? = some g := by
  rw [← env_length n, ← List.length_append, List.getElem?_append_right (Nat.le_refl _), Nat.sub_self]
  rfl

theorem submit_run {K : Kernels} {n : Nat} {l : List CTask} (hl : ∀ t ∈ l, Valid n t) {ext : List AGuard} {rs : List Nat}
    {m : Objs} {c : GCode} : ∃ ext' rs' m', (submit K n l (n * n + ext.length) c).run (env n ++ ext) rs m =
      c.run (env n ++ ext') rs' m' ∧ Same n (tilesOf n m') (l.foldl (apply K) (tilesOf n m)) := by
  induction l generalizing ext rs m with
  | nil => exact ⟨ext, rs, m, rfl, .refl _ _⟩
  | cons t l ih =>
    have hv := hl t (.head _)
    have hl' : ∀ t ∈ l, Valid n t := fun t ht => hl t (.tail _ ht)
    have next : ∀ {ext1 : List AGuard} {rs1 : List Nat} {m1 : Objs} {e : Nat}, e = n * n + ext1.length →
        Same n (tilesOf n m1) (apply K (tilesOf n m) t) →
        ∃ ext' rs' m', (submit K n l e c).run (env n ++ ext1) rs1 m1 = c.run (env n ++ ext') rs' m' ∧
          Same n (tilesOf n m') ((t :: l).foldl (apply K) (tilesOf n m)) := by
      rintro ext1 rs1 m1 e rfl h
      obtain ⟨ext', rs', m', h1, h2⟩ := ih hl' (ext := ext1) (rs := rs1) (m := m1)
      exact ⟨ext', rs', m', h1, fun i j hi hj => (h2 i j hi hj).trans (h.foldl hl' i j hi hj)⟩
    cases t with
    | gemm i j k =>
      obtain ⟨h1, h2, h3, h4, h5⟩ := hv
      simp only [submit, GCode.run, env_get h1 h3, Option.bind_some, AGuard.narrow]
      rw [List.append_assoc (env n) ext]
      simp only [env_get h2 h3, Option.bind_some]
      rw [← List.append_assoc (env n) ext]
      have e1 : (env n ++ ext ++ [AGuard.io (tileRes (at' n i k)) false] ++ [AGuard.io (tileRes (at' n j k)) false])[n * n + ext.length]? =
          some (AGuard.io (tileRes (at' n i k)) false) := by
        rw [List.getElem?_append_left (by simp [env_length])]
        exact ext_get
      have e2 : (env n ++ ext ++ [AGuard.io (tileRes (at' n i k)) false] ++ [AGuard.io (tileRes (at' n j k)) false])[n * n + ext.length + 1]? =
          some (AGuard.io (tileRes (at' n j k)) false) := by
        have := ext_get (n := n) (ext := ext ++ [AGuard.io (tileRes (at' n i k)) false]) (g := AGuard.io (tileRes (at' n j k)) false)
        simpa [Nat.add_assoc] using this
      have e3 : (env n ++ ext ++ [AGuard.io (tileRes (at' n i k)) false] ++ [AGuard.io (tileRes (at' n j k)) false])[at' n i j]? =
          some (.io (tileRes (at' n i j)) true) := by
        simp only [List.append_assoc]
        exact env_get h1 h2
      simp only [List.filterMap_cons, e1, e2, e3, List.filterMap_nil, List.getElem?_cons_zero, List.getElem?_cons_succ, Option.bind_some,
        AGuard.elem, Option.getD_some]
      rw [List.append_assoc (env n), List.append_assoc (env n)]
      refine next (by simp only [List.length_append, List.length_cons, List.length_nil]; omega) ?_
      exact same_set (m := m) (j := j) h1
    | syrk j i =>
      obtain ⟨h1, h2⟩ := hv
      have h3 : i < n := by omega
      have e3 : (env n ++ ext ++ [AGuard.io (tileRes (at' n j i)) false])[at' n j j]? =
          some (.io (tileRes (at' n j j)) true) := by
        simp only [List.append_assoc]
        exact env_get h1 h1
      simp only [submit, GCode.run, env_get h1 h3, Option.bind_some, AGuard.narrow, List.filterMap_cons, ext_get, e3,
        List.filterMap_nil, List.getElem?_cons_zero, List.getElem?_cons_succ, AGuard.elem, Option.getD_some]
      rw [List.append_assoc (env n)]
      refine next (by simp only [List.length_append, List.length_cons, List.length_nil]; omega) ?_
      exact same_set (m := m) (j := j) h1
    | potrf j =>
      have h1 : j < n := hv
      simp only [submit, GCode.run, env_get h1 h1, Option.bind_some, List.filterMap_cons,
        List.filterMap_nil, List.getElem?_cons_zero, AGuard.elem, Option.getD_some]
      refine next rfl ?_
      exact same_set (m := m) (j := j) h1
    | trsm i j =>
      obtain ⟨h1, h2⟩ := hv
      have h3 : j < n := by omega
      have e3 : (env n ++ ext ++ [AGuard.io (tileRes (at' n j j)) false])[at' n i j]? =
          some (.io (tileRes (at' n i j)) true) := by
        simp only [List.append_assoc]
        exact env_get h1 h3
      simp only [submit, GCode.run, env_get h3 h3, Option.bind_some, AGuard.narrow, List.filterMap_cons, ext_get, e3,
        List.filterMap_nil, List.getElem?_cons_zero, List.getElem?_cons_succ, AGuard.elem, Option.getD_some]
      rw [List.append_assoc (env n)]
      refine next (by simp only [List.length_append, List.length_cons, List.length_nil]; omega) ?_
      exact same_set (m := m) (j := j) h1

theorem tasks_valid {n : Nat} : ∀ t ∈ tasks n, Valid n t := by
  intro t ht
  simp only [tasks, List.mem_flatMap, List.mem_range, column, List.mem_append, List.mem_map, List.mem_singleton] at ht
  obtain ⟨j, hj, ((⟨k, hk, i, hi, rfl⟩ | ⟨i, hi, rfl⟩) | rfl) | ⟨i, hi, rfl⟩⟩ := ht
  · exact ⟨by omega, by omega, by omega, by omega, by omega⟩
  · exact ⟨by omega, by omega⟩
  · exact hj
  · exact ⟨by omega, by omega⟩

theorem column_length {n j : Nat} (h : j < n) : (column n j).length = j * (n - (j + 1)) + n := by
  have : ((List.range j).flatMap fun k => (List.range (n - (j + 1))).map fun i => CTask.gemm (j + 1 + i) j k).length =
      j * (n - (j + 1)) := by simp
  simp only [column, List.length_append, this, List.length_map, List.length_range, List.length_cons, List.length_nil]
  omega

theorem tasks_length (n : Nat) : 6 * (tasks n).length = n * (n + 1) * (n + 2) := by
  have key : ∀ c, c ≤ n → (6 * (((List.range c).flatMap (column n)).length : Int)) =
      3 * ((n : Int) - 1) * c * (c - 1) - (c - 1) * c * (2 * c - 1) + 6 * n * c := by
    intro c
    induction c with
    | zero => intro _; simp
    | succ c ih =>
      intro h
      obtain ⟨d, rfl⟩ : ∃ d, n = c + 1 + d := ⟨n - (c + 1), by omega⟩
      have ih := ih (by omega)
      rw [List.range_succ, List.flatMap_append, List.length_append, List.flatMap_singleton, column_length (by omega),
        Nat.add_sub_cancel_left]
      push_cast at ih ⊢
      rw [mul_add, ih]
      ring
  have := key n (Nat.le_refl n)
  zify
  unfold tasks
  rw [this]
  ring

theorem print_run {n : Nat} {ext : List AGuard} {rs : List Nat} {m : Objs} {l : List (Nat × Nat)}
    (hl : ∀ p ∈ l, p.1 < n ∧ p.2 < n) {k : List Nat → GCode} :
    (print (l.map fun p => at' n p.1 p.2) k).run (env n ++ ext) rs m =
      (k (l.map fun p => tilesOf n m p.1 p.2)).run (env n ++ ext) rs m := by
  induction l generalizing k with
  | nil => rfl
  | cons p l ih =>
    obtain ⟨h1, h2⟩ := hl p (.head _)
    simp only [List.map_cons, print, GCode.run, env_get h1 h2, Option.bind_some, AGuard.elem]
    rw [ih fun q hq => hl q (.tail _ hq)]
    rfl

theorem fill_run {n : Nat} (a : Nat → Nat → Nat) {rs : List Nat} {m : Objs} {c : GCode} :
    ∃ m', (fill n a c).run (env n) rs m = c.run (env n) rs m' ∧ Same n (tilesOf n m') a := by
  refine ⟨(grid n n).foldl (fun m p => m.set (tileRes (at' n p.1 p.2), []) (a p.1 p.2)) m, ?_, ?_⟩
  · refine each_run' fun p hp k m => ?_
    obtain ⟨h1, h2⟩ := mem_grid.1 hp
    have := env_get (ext := []) h1 h2
    rw [List.append_nil] at this
    simp only [GCode.run, this, Option.bind_some, AGuard.elem]
  · intro i j hi hj
    refine foldl_set (p := fun p : Nat × Nat => (tileRes (at' n p.1 p.2), [])) (f := fun _ p => a p.1 p.2)
      (a := (i, j)) (fun _ _ _ _ _ _ => rfl) (mem_grid.2 ⟨hi, hj⟩) ?_
    intro p hp e
    obtain ⟨h1, h2⟩ := mem_grid.1 hp
    have := (at_inj h1 hi).1 (congrArg Res.addr (Prod.mk.inj e).1)
    rw [this.1, this.2]

/-- The tiles after the program, and what is printed. -/
theorem main_run (K : Kernels) (n : Nat) (a : Nat → Nat → Nat) (enc : List Nat → List Nat → Nat) (m : Objs) :
    ∃ m', (main K n a enc).run (env n) [] m =
        (enc ((grid n n).map fun p => a p.1 p.2) ((grid n n).map fun p => tilesOf n m' p.1 p.2), m') ∧
      Same n (tilesOf n m') ((tasks n).foldl (apply K) a) := by
  obtain ⟨m1, h1, h2⟩ := fill_run (n := n) a (rs := []) (m := m)
    (c := print ((grid n n).map fun p => at' n p.1 p.2) fun v => submit K n (tasks n) (n * n) <| .all <|
      print ((grid n n).map fun p => at' n p.1 p.2) fun v' => .ret (enc v v'))
  obtain ⟨ext, rs, m2, h3, h4⟩ := submit_run (K := K) tasks_valid (ext := []) (rs := []) (m := m1)
    (c := .all <| print ((grid n n).map fun p => at' n p.1 p.2) fun v' => .ret (enc ((grid n n).map fun p => a p.1 p.2) v'))
  have hg : ∀ p ∈ grid n n, p.1 < n ∧ p.2 < n := fun p hp => mem_grid.1 hp
  refine ⟨m2, ?_, fun i j hi hj => (h4 i j hi hj).trans (h2.foldl tasks_valid i j hi hj)⟩
  unfold main
  rw [h1]
  have := print_run (n := n) (ext := []) (rs := []) (m := m1) hg (k := fun v => submit K n (tasks n) (n * n) <| .all <|
      print ((grid n n).map fun p => at' n p.1 p.2) fun v' => .ret (enc v v'))
  rw [List.append_nil] at this
  rw [this, List.map_congr_left (g := fun p => a p.1 p.2) fun p hp => h2 _ _ (hg p hp).1 (hg p hp).2]
  simp only [List.append_nil, List.length_nil, Nat.add_zero] at h3
  rw [h3]
  simp only [GCode.run]
  rw [print_run hg]
  rfl

/-! ### The values of the tiles -/

/-- a loop over the rows below row `j` -/
theorem rows_foldl {j : Nat} {f : Tiles → Nat → Nat} (hf : ∀ T i v i', j < i → i ≠ i' → f (setTile T i j v) i' = f T i') :
    ∀ (c : Nat) (T : Tiles) (i' j' : Nat),
      (List.range c).foldl (fun T i => setTile T (j + 1 + i) j (f T (j + 1 + i))) T i' j' =
        if j' = j ∧ j < i' ∧ i' < j + 1 + c then f T i' else T i' j' := by
  intro c
  induction c with
  | zero =>
    intro T i' j'
    rw [if_neg (by omega)]
    rfl
  | succ c ih =>
    have hg : ∀ (T : Tiles) (d i' : Nat), j + 1 + d ≤ i' →
        f ((List.range d).foldl (fun T i => setTile T (j + 1 + i) j (f T (j + 1 + i))) T) i' = f T i' := by
      intro T d
      induction d with
      | zero => intro i' _; rfl
      | succ d ihd =>
        intro i' h
        rw [List.range_succ, List.foldl_append]
        simp only [List.foldl_cons, List.foldl_nil]
        rw [hf _ _ _ _ (by omega) (by omega), ihd _ (by omega)]
    intro T i' j'
    rw [List.range_succ, List.foldl_append]
    simp only [List.foldl_cons, List.foldl_nil]
    rw [hg _ _ _ (Nat.le_refl _)]
    by_cases h : i' = j + 1 + c ∧ j' = j
    · obtain ⟨rfl, rfl⟩ := h
      rw [setTile_same, if_pos (by omega)]
    · rw [setTile_ne h, ih]
      by_cases h1 : j' = j ∧ j < i' ∧ i' < j + 1 + c
      · rw [if_pos h1, if_pos (by omega)]
      · rw [if_neg h1, if_neg (by omega)]

variable {K : Kernels} {n : Nat}

theorem gemms {j : Nat} : ∀ (c : Nat), c ≤ j → ∀ (T : Tiles) (i' j' : Nat),
    (((List.range c).flatMap fun k => (List.range (n - (j + 1))).map fun i => CTask.gemm (j + 1 + i) j k).foldl (apply K) T) i' j' =
      if j' = j ∧ j < i' ∧ i' < n then (List.range c).foldl (fun v k => K.gemm (T i' k) (T j k) v) (T i' j) else T i' j' := by
  intro c
  induction c with
  | zero =>
    intro _ T i' j'
    simp only [List.range_zero, List.flatMap_nil, List.foldl_nil]
    split
    · rename_i h; rw [h.1]
    · rfl
  | succ c ih =>
    intro hc T i' j'
    rw [List.range_succ, List.flatMap_append, List.foldl_append, List.flatMap_singleton, List.foldl_map]
    have := rows_foldl (j := j) (f := fun T i => K.gemm (T i c) (T j c) (T i j)) (by
      intro T i v i' h1 h2
      rw [setTile_ne (by omega), setTile_ne (by omega), setTile_ne (by omega)]) (n - (j + 1))
      (((List.range c).flatMap fun k => (List.range (n - (j + 1))).map fun i => CTask.gemm (j + 1 + i) j k).foldl (apply K) T) i' j'
    simp only [apply]
    rw [this]
    have ih := ih (by omega) T
    by_cases h : j' = j ∧ j < i' ∧ i' < n
    · obtain ⟨rfl, h1, h2⟩ := h
      rw [if_pos (by omega), if_pos ⟨rfl, h1, h2⟩, ih, ih, ih, if_neg (by omega), if_neg (by omega), if_pos ⟨rfl, h1, h2⟩,
        List.foldl_append]
      rfl
    · rw [if_neg (by omega), if_neg h, ih, if_neg h]

theorem syrks {j : Nat} : ∀ (c : Nat), c ≤ j → ∀ (T : Tiles) (i' j' : Nat),
    (((List.range c).map fun i => CTask.syrk j i).foldl (apply K) T) i' j' =
      if i' = j ∧ j' = j then (List.range c).foldl (fun v k => K.syrk (T j k) v) (T j j) else T i' j' := by
  intro c
  induction c with
  | zero =>
    intro _ T i' j'
    simp only [List.range_zero, List.map_nil, List.foldl_nil]
    split
    · rename_i h; rw [h.1, h.2]
    · rfl
  | succ c ih =>
    intro hc T i' j'
    have ih := ih (by omega) T
    rw [List.range_succ, List.map_append, List.foldl_append, List.map_singleton, List.foldl_append]
    simp only [List.foldl_cons, List.foldl_nil, apply]
    by_cases h : i' = j ∧ j' = j
    · obtain ⟨rfl, rfl⟩ := h
      rw [setTile_same, if_pos ⟨rfl, rfl⟩, ih, ih, if_neg (by omega), if_pos ⟨rfl, rfl⟩]
    · rw [setTile_ne h, if_neg h, ih, if_neg h]

/-- What the tasks for column `j` assign, from the tiles `T` before them to the tiles `T'`. -/
theorem column_apply {j : Nat} (T : Tiles) : ∃ T', (column n j).foldl (apply K) T = T' ∧
    (∀ i' j', ¬ (j' = j ∧ j ≤ i' ∧ (i' < n ∨ i' = j)) → T' i' j' = T i' j') ∧
    T' j j = K.potrf ((List.range j).foldl (fun v k => K.syrk (T j k) v) (T j j)) ∧
    ∀ i, j < i → i < n → T' i j = K.trsm (T' j j) ((List.range j).foldl (fun v k => K.gemm (T i k) (T j k) v) (T i j)) := by
  refine ⟨_, rfl, ?_⟩
  unfold column
  rw [List.foldl_append, List.foldl_append, List.foldl_append]
  have h1 := gemms (K := K) (n := n) j (Nat.le_refl j) T
  generalize ((List.range j).flatMap fun k => (List.range (n - (j + 1))).map fun i => CTask.gemm (j + 1 + i) j k).foldl (apply K) T = T1 at h1
  have h2 := syrks (K := K) j (Nat.le_refl j) T1
  generalize ((List.range j).map fun i => CTask.syrk j i).foldl (apply K) T1 = T2 at h2
  simp only [List.foldl_cons, List.foldl_nil]
  have h3 : ∀ i' j', apply K T2 (.potrf j) i' j' = if i' = j ∧ j' = j then K.potrf (T2 j j) else T2 i' j' := fun _ _ => rfl
  generalize apply K T2 (.potrf j) = T3 at h3
  rw [List.foldl_map]
  have h4 := rows_foldl (j := j) (f := fun T i => K.trsm (T j j) (T i j)) (by
      intro T i v i' h1 h2
      rw [setTile_ne (by omega), setTile_ne (by omega)]) (n - (j + 1)) T3
  simp only [apply]
  generalize (List.range (n - (j + 1))).foldl (fun T i => setTile T (j + 1 + i) j (K.trsm (T j j) (T (j + 1 + i) j))) T3 = T4 at h4
  have hj : T4 j j = K.potrf ((List.range j).foldl (fun v k => K.syrk (T j k) v) (T j j)) := by
    rw [h4, if_neg (by omega), h3, if_pos ⟨rfl, rfl⟩, h2, if_pos ⟨rfl, rfl⟩, h1, if_neg (by omega)]
    congr 2
    funext v k
    rw [h1, if_neg (by omega)]
  refine ⟨?_, hj, ?_⟩
  · intro i' j' h
    rw [h4, if_neg (by omega), h3, if_neg (by omega), h2, if_neg (by omega), h1, if_neg (by omega)]
  · intro i h5 h6
    have : T4 j j = T3 j j := by rw [h4, if_neg (by omega)]
    rw [this, h4, if_pos (by omega), h3 i j, if_neg (by omega), h2, if_neg (by omega), h1, if_pos ⟨rfl, h5, h6⟩]

/-- The equations between the tiles `T` afterwards and the tiles `a` at the beginning, for the columns before `c`. -/
structure Eqs (K : Kernels) (n c : Nat) (a T : Tiles) : Prop where
  diag : ∀ j, j < c → T j j = K.potrf ((List.range j).foldl (fun v k => K.syrk (T j k) v) (a j j))
  below : ∀ i j, j < c → j < i → i < n →
    T i j = K.trsm (T j j) ((List.range j).foldl (fun v k => K.gemm (T i k) (T j k) v) (a i j))
  above : ∀ i j, i < j → T i j = a i j

theorem columns_apply (a : Tiles) : ∀ c, c ≤ n → Eqs K n c a (((List.range c).flatMap (column n)).foldl (apply K) a) ∧
    ∀ i j, c ≤ j → (((List.range c).flatMap (column n)).foldl (apply K) a) i j = a i j := by
  intro c
  induction c with
  | zero => exact fun _ => ⟨⟨fun j h => by omega, fun i j h => by omega, fun _ _ _ => rfl⟩, fun _ _ _ => rfl⟩
  | succ c ih =>
    intro hc
    obtain ⟨h1, h2⟩ := ih (by omega)
    rw [List.range_succ, List.flatMap_append, List.foldl_append, List.flatMap_singleton]
    generalize ((List.range c).flatMap (column n)).foldl (apply K) a = T at h1 h2
    obtain ⟨T', e, h3, h4, h5⟩ := column_apply (K := K) (n := n) (j := c) T
    rw [e]
    have old : ∀ i j, j < c → T' i j = T i j := fun i j h => h3 i j (by omega)
    have sy : ∀ j, j ≤ c → (fun v k => K.syrk (T' j k) v) = fun v k => K.syrk (T' j k) v := fun _ _ => rfl
    have cong : ∀ {f g : Nat → Nat → Nat} {j v : Nat}, (∀ v k, k < j → f v k = g v k) →
        (List.range j).foldl f v = (List.range j).foldl g v := by
      intro f g j v h
      exact List.foldl_ext _ _ _ fun v k hk => h v k (List.mem_range.1 hk)
    refine ⟨⟨fun j hj => ?_, fun i j hj hi hn => ?_, fun i j h => ?_⟩, fun i j h => ?_⟩
    · by_cases h : j = c
      · subst h
        rw [h4, h2 _ _ (Nat.le_refl _)]
        congr 1
        exact cong fun v k hk => by rw [old _ _ hk]
      · rw [old _ _ (by omega), h1.diag j (by omega)]
        congr 1
        exact cong fun v k hk => by rw [old _ _ (by omega)]
    · by_cases h : j = c
      · subst h
        rw [h5 i hi hn, h2 _ _ (Nat.le_refl _)]
        congr 1
        exact cong fun v k hk => by rw [old _ _ hk, old _ _ hk]
      · rw [old i j (by omega), h1.below i j (by omega) hi hn, old j j (by omega)]
        congr 1
        exact cong fun v k hk => by rw [old _ _ (by omega), old _ _ (by omega)]
    · rw [h3 i j (by omega), h1.above i j h]
    · rw [h3 i j (by omega), h2 i j (by omega)]

theorem Eqs.same {a T T' : Tiles} (h : Eqs K n n a T) (hs : Same n T' T) :
    (∀ j, j < n → T' j j = K.potrf ((List.range j).foldl (fun v k => K.syrk (T' j k) v) (a j j))) ∧
    (∀ i j, j < i → i < n → T' i j = K.trsm (T' j j) ((List.range j).foldl (fun v k => K.gemm (T' i k) (T' j k) v) (a i j))) ∧
    ∀ i j, i < j → j < n → T' i j = a i j := by
  have cong : ∀ {f g : Nat → Nat → Nat} {j v : Nat}, (∀ v k, k < j → f v k = g v k) →
      (List.range j).foldl f v = (List.range j).foldl g v := by
    intro f g j v h
    exact List.foldl_ext _ _ _ fun v k hk => h v k (List.mem_range.1 hk)
  refine ⟨fun j hj => ?_, fun i j hj hi => ?_, fun i j h1 h2 => ?_⟩
  · rw [hs j j hj hj, h.diag j hj]
    congr 1
    exact cong fun v k hk => by rw [hs _ _ hj (by omega)]
  · rw [hs i j hi (by omega), hs j j (by omega) (by omega), h.below i j (by omega) hj hi]
    congr 1
    exact cong fun v k hk => by rw [hs _ _ hi (by omega), hs _ _ (by omega) (by omega)]
  · rw [hs i j (by omega) h2, h.above i j h1]

/-! ### What the compiler checks -/

/-- the type of a tile -/
def tileTy (i : Nat) (w : Bool) : GTy := ⟨tileRes i, none, w⟩

theorem ty_get {n i j : Nat} {ext : List GTy} (hi : i < n) (hj : j < n) :
    ((env n).map AGuard.ty ++ ext)[at' n i j]? = some (tileTy (at' n i j) true) := by
  have := at_lt hi hj
  rw [List.getElem?_append_left (by simpa [env] using this)]
  simp [env, this, AGuard.ty, tileTy]

theorem ty_ext {n : Nat} {ext : List GTy} {g : GTy} : ((env n).map AGuard.ty ++ ext ++ [g])[n * n + ext.length]? = some g := by
  rw [← env_length n, ← List.length_map (f := AGuard.ty), ← List.length_append, List.getElem?_append_right (Nat.le_refl _),
    Nat.sub_self]
  rfl

theorem tileRes_ne {i j i' j' : Nat} (hi : i < n) (hi' : i' < n) (h : ¬ (i = i' ∧ j = j')) :
    tileRes (at' n i j) ≠ tileRes (at' n i' j') := by
  intro e
  exact h ((at_inj hi hi').1 (congrArg Res.addr e))

theorem submit_busy {l : List CTask} (hl : ∀ t ∈ l, Valid n t) {ext : List GTy} {t N : Nat} {c : GCode}
    (hc : ∀ ext t, Busy c ((env n).map AGuard.ty ++ ext) t N) :
    Busy (submit K n l (n * n + ext.length) c) ((env n).map AGuard.ty ++ ext) t (N + l.length) := by
  induction l generalizing ext t with
  | nil => exact hc _ _
  | cons a l ih =>
    have hv := hl a (.head _)
    have ih := fun {ext t} => ih (fun t ht => hl t (.tail _ ht)) (ext := ext) (t := t)
    cases a with
    | gemm i j k =>
      obtain ⟨h1, h2, h3, h4, h5⟩ := hv
      refine .narrow (ty_get h1 h3) (τ' := tileTy (at' n i k) false) rfl ?_
      rw [List.append_assoc]
      refine .narrow (ty_get h2 h3) (τ' := tileTy (at' n j k) false) rfl ?_
      rw [← List.append_assoc ((env n).map AGuard.ty) ext]
      have e1 : ((env n).map AGuard.ty ++ ext ++ [tileTy (at' n i k) false] ++ [tileTy (at' n j k) false])[n * n + ext.length]? =
          some (tileTy (at' n i k) false) := by
        rw [List.getElem?_append_left (by simp [env_length])]
        exact ty_ext
      have e2 : ((env n).map AGuard.ty ++ ext ++ [tileTy (at' n i k) false] ++ [tileTy (at' n j k) false])[n * n + ext.length + 1]? =
          some (tileTy (at' n j k) false) := by
        have := ty_ext (n := n) (ext := ext ++ [tileTy (at' n i k) false]) (g := tileTy (at' n j k) false)
        simpa [Nat.add_assoc] using this
      have e3 : ((env n).map AGuard.ty ++ ext ++ [tileTy (at' n i k) false] ++ [tileTy (at' n j k) false])[at' n i j]? =
          some (tileTy (at' n i j) true) := by
        simp only [List.append_assoc]
        exact ty_get h1 h2
      refine .call (n := N + l.length) (Δ := [tileTy (at' n i k) false, tileTy (at' n j k) false, tileTy (at' n i j) true]) ?_ ?_ ?_ ?_
      · simp only [List.map_cons, List.map_nil, e1, e2, e3]
      · simp only [List.map_cons, List.map_nil, tileTy, List.nodup_cons, List.mem_cons, List.not_mem_nil, or_false, not_or,
          not_false_iff, List.nodup_nil, and_true]
        exact ⟨⟨tileRes_ne h1 h2 (by omega), tileRes_ne h1 h1 (by omega)⟩, tileRes_ne h2 h1 (by omega)⟩
      · exact .get rfl rfl fun _ => .get rfl rfl fun _ => .get rfl rfl fun _ => .put rfl rfl rfl fun _ => .ret 0
      · have := ih (ext := ext ++ [tileTy (at' n i k) false] ++ [tileTy (at' n j k) false]) (t := t + 1)
        simpa only [List.length_append, List.length_cons, List.length_nil, List.append_assoc, Nat.add_assoc, Nat.reduceAdd] using this
    | syrk j i =>
      obtain ⟨h1, h2⟩ := hv
      refine .narrow (ty_get h1 (by omega)) (τ' := tileTy (at' n j i) false) rfl ?_
      have e3 : ((env n).map AGuard.ty ++ ext ++ [tileTy (at' n j i) false])[at' n j j]? = some (tileTy (at' n j j) true) := by
        simp only [List.append_assoc]
        exact ty_get h1 h1
      refine .call (n := N + l.length) (Δ := [tileTy (at' n j i) false, tileTy (at' n j j) true]) ?_ ?_ ?_ ?_
      · simp only [List.map_cons, List.map_nil, ty_ext, e3]
      · simp only [List.map_cons, List.map_nil, tileTy, List.nodup_cons, List.mem_cons, List.not_mem_nil, or_false,
          not_false_iff, List.nodup_nil, and_true]
        exact tileRes_ne h1 h1 (by omega)
      · exact .get rfl rfl fun _ => .get rfl rfl fun _ => .put rfl rfl rfl fun _ => .ret 0
      · have := ih (ext := ext ++ [tileTy (at' n j i) false]) (t := t + 1)
        simpa only [List.length_append, List.length_cons, List.length_nil, List.append_assoc, Nat.add_assoc, Nat.reduceAdd] using this
    | potrf j =>
      have h1 : j < n := hv
      refine .call (n := N + l.length) (Δ := [tileTy (at' n j j) true]) ?_ (by simp) ?_ ih
      · simp only [List.map_cons, List.map_nil, ty_get h1 h1]
      · exact .get rfl rfl fun _ => .put rfl rfl rfl fun _ => .ret 0
    | trsm i j =>
      obtain ⟨h1, h2⟩ := hv
      refine .narrow (ty_get (i := j) (j := j) (by omega) (by omega)) (τ' := tileTy (at' n j j) false) rfl ?_
      have e3 : ((env n).map AGuard.ty ++ ext ++ [tileTy (at' n j j) false])[at' n i j]? = some (tileTy (at' n i j) true) := by
        simp only [List.append_assoc]
        exact ty_get h1 (by omega)
      refine .call (n := N + l.length) (Δ := [tileTy (at' n j j) false, tileTy (at' n i j) true]) ?_ ?_ ?_ ?_
      · simp only [List.map_cons, List.map_nil, ty_ext, e3]
      · simp only [List.map_cons, List.map_nil, tileTy, List.nodup_cons, List.mem_cons, List.not_mem_nil, or_false,
          not_false_iff, List.nodup_nil, and_true]
        exact tileRes_ne (by omega) h1 (by omega)
      · exact .get rfl rfl fun _ => .get rfl rfl fun _ => .put rfl rfl rfl fun _ => .ret 0
      · have := ih (ext := ext ++ [tileTy (at' n j j) false]) (t := t + 1)
        simpa only [List.length_append, List.length_cons, List.length_nil, List.append_assoc, Nat.add_assoc, Nat.reduceAdd] using this

theorem print_quiet {l : List (Nat × Nat)} (hl : ∀ p ∈ l, p.1 < n ∧ p.2 < n) {k : List Nat → GCode} {ext : List GTy} {t N : Nat}
    (hk : ∀ vs, Quiet (k vs) ((env n).map AGuard.ty ++ ext) t N) :
    Quiet (print (l.map fun p => at' n p.1 p.2) k) ((env n).map AGuard.ty ++ ext) t N := by
  induction l generalizing k with
  | nil => exact hk []
  | cons p l ih =>
    obtain ⟨h1, h2⟩ := hl p (.head _)
    exact .get (ty_get h1 h2) rfl fun v => ih (fun q hq => hl q (.tail _ hq)) fun vs => hk _

theorem main_quiet (K : Kernels) (n : Nat) (a : Nat → Nat → Nat) (enc : List Nat → List Nat → Nat) :
    Quiet (main K n a enc) ((env n).map AGuard.ty) 0 (tasks n).length := by
  have hg : ∀ p ∈ grid n n, p.1 < n ∧ p.2 < n := fun p hp => mem_grid.1 hp
  refine .each ?_ fun p hp c hc => ?_
  · have := print_quiet (n := n) hg (ext := []) (t := 0) (N := (tasks n).length)
      (k := fun v => submit K n (tasks n) (n * n) <| .all <|
        print ((grid n n).map fun p => at' n p.1 p.2) fun v' => .ret (enc v v')) fun vs => by
        have := submit_busy (K := K) (n := n) tasks_valid (ext := []) (t := 0) (N := 0)
          (c := .all <| print ((grid n n).map fun p => at' n p.1 p.2) fun v' => .ret (enc vs v'))
          fun ext t => .all (print_quiet hg fun vs => .ret _)
        simp only [Nat.zero_add, List.length_nil, Nat.add_zero] at this
        exact this.quiet
    rw [List.append_nil] at this
    exact this
  · obtain ⟨h1, h2⟩ := mem_grid.1 hp
    have := ty_get (ext := []) h1 h2
    rw [List.append_nil] at this
    exact .put this rfl rfl fun _ => hc

end RG.Dyn.Chol
