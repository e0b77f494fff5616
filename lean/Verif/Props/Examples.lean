import Verif.Props.DynamicFull
import Verif.Lemmas.Life2
import Verif.Lemmas.Cholesky
import Verif.Lemmas.RandomGraph
import Mathlib.Algebra.Star.Basic
import Mathlib.Algebra.Star.BigOperators
import Mathlib.Algebra.Star.Rat
import Mathlib.Algebra.BigOperators.Group.Finset.Basic
import Mathlib.Algebra.BigOperators.Ring.Finset
import Mathlib.Data.Rat.Denumerable
import Mathlib.Tactic.NoncommRing
/-
C93: The programs that come with the library (examples/game_of_life.cpp, examples/cholesky.cpp, test/random_graph.cpp)
compute what they are meant to compute.
-/
set_option linter.unusedVariables false
namespace RG.Dyn
open RG.Graph

/-- What the user of a program gets on `N` workers, from every state `x` that it can reach: the execution ends, and when
nothing more can happen, then `finalize()` has returned, the workers have ended, all tasks have finished, and `R` holds
for the result of the main program and the objects of the resources. -/
structure Delivers [EvalOrder] (N : Nat) (kind : Res → Option Nat) (main : GCode) (env : List AGuard) (R : Nat → Objs → Prop)
    (x : FConf (program kind main env)) : Prop where
  ends : ¬ ∃ f : Nat → FConf (program kind main env), f 0 = x ∧
    ∀ i, FStep N false (program kind main env) (fun c => Full.Work c N false) (f i) (f (i + 1))
  result : (∀ x', ¬ FStep N false (program kind main env) (fun c => Full.Work c N false) x x') →
    x.s.p.mpc = .cleared ∧ (∀ w, w < N → x.s.p.gone w = true) ∧ (∀ t, t < x.n → Finished x.cfg x.s.p.y.x.g t) ∧
      R (x.m (.own [] 0)) fun r pos => x.m (.shared r pos)

theorem delivers [EvalOrder] {kind : Res → Option Nat} {main : GCode} {env : List AGuard} {n : Nat}
    (hq : Quiet main (env.map AGuard.ty) 0 n) (hn : n < 2 ^ 32) (hg : ∀ g ∈ env, g.Good kind) {R : Nat → Objs → Prop}
    (hR : ∀ m, R (main.run env [] m).1 (main.run env [] m).2) {N : Nat} (hN : 0 < N) {m0 : Mem}
    {x : FConf (program kind main env)} (hx : FReach N false (program kind main env) m0 x) : Delivers N kind main env R x := by
  obtain ⟨m, h1, -, h2, -⟩ := C84_guards_partial hq.typed hg hq.joins m0
  have h3 := h2 hq.flat N hN x hx
  refine ⟨h3.ends, fun hs => ?_⟩
  obtain ⟨h4, h5, h6, rfl⟩ := h3.result hs (Nat.lt_of_le_of_lt ((C84_task_count_code (tbl := argsUser kind) (c := .ret) (m0 := m0)).2 hq.atMost x hx) hn)
  refine ⟨h4, h5, h6, ?_⟩
  have := hR fun r pos => m0 (.shared r pos)
  rw [← h1] at this
  exact this

/-! ### The game of life -/

/-- C93: examples/game_of_life.cpp computes the generations of Conway's game of life on a torus. For every size of the
board and of the chunks, every number of buffers (at least two) and of generations, every initial board, every number of
workers and every schedule: the program ends, the buffer that was written last contains the last generation, and the
pictures on the console are the generations in their order (without the last row and column, see `shown`). The tasks of
one generation run at the same time, and those of the next one do not wait for all of them; no lock or barrier is used. -/
theorem C93_game_of_life [EvalOrder] (L : Life) (hc : 0 < L.cx ∧ 0 < L.cy) (ht : 0 < L.tx ∧ 0 < L.ty) (hb : 1 < L.nb)
    (hs : L.tx * L.cx + L.cx + 4 < 2 ^ 64 ∧ L.ty * L.cy + L.cy + 4 < 2 ^ 64)
    (hn : L.gens * (L.tx * L.ty + 2) + 1 < 2 ^ 32) (b0 : Nat → Nat → Bool) (enc fin : List Nat → Nat) {N : Nat} (hN : 0 < N)
    {m0 : Mem} {x : FConf (program (fun _ => some 2) (L.main b0 enc fin) L.env)}
    (hx : FReach N false (program (fun _ => some 2) (L.main b0 enc fin) L.env) m0 x) :
    Delivers N (fun _ => some 2) (L.main b0 enc fin) L.env (fun out m =>
      (∀ i j, i < L.tx * L.cx → j < L.ty * L.cy → m (Life.buf (L.gens % L.nb)) (Life.pos (i + 1) (j + 1)) =
        if Life.generation (L.tx * L.cx) (L.ty * L.cy) (fun i j => b0 (i + 1) (j + 1)) L.gens i j then 1 else 0) ∧
      out = fin ((List.range L.gens).map fun g => enc ((grid (L.tx * L.cx - 1) (L.ty * L.cy - 1)).map fun p =>
        if Life.generation (L.tx * L.cx) (L.ty * L.cy) (fun i j => b0 (i + 1) (j + 1)) g p.1 p.2 then 1 else 0))) x := by
  have hL : Life.Ok L := ⟨hc.1, hc.2, ht.1, ht.2, hb, hs.1, hs.2⟩
  refine delivers (Life.main_busy hL b0 enc fin).quiet (by rw [Life.starts_length]; exact hn) ?_ ?_ hN hx
  · intro g hg
    simp only [Life.env, List.mem_map] at hg
    obtain ⟨i, -, rfl⟩ := hg
    exact ⟨rfl, rfl⟩
  · intro m
    obtain ⟨m', h1, h2⟩ := Life.main_run hL b0 enc fin m
    rw [h1]
    exact ⟨fun i j hi hj => h2 i j hi hj, rfl⟩

/-- a board of 4 x 4 in four chunks: a blinker turns, and comes back after two generations -/
def smallLife : Life := ⟨2, 2, 2, 2, 3, 4⟩

def blinker (x y : Nat) : Bool := (y == 2) && (x == 1 || x == 2 || x == 3)

example : (0 < smallLife.cx ∧ 0 < smallLife.cy) ∧ (0 < smallLife.tx ∧ 0 < smallLife.ty) ∧ 1 < smallLife.nb ∧
    (smallLife.tx * smallLife.cx + smallLife.cx + 4 < 2 ^ 64 ∧ smallLife.ty * smallLife.cy + smallLife.cy + 4 < 2 ^ 64) ∧
    smallLife.gens * (smallLife.tx * smallLife.ty + 2) + 1 < 2 ^ 32 := by decide

example : ((List.range 4).map fun x => (List.range 4).map fun y =>
      Life.generation 4 4 (fun i j => blinker (i + 1) (j + 1)) 1 x y) =
    [[false, false, false, false], [true, true, true, false], [false, false, false, false], [false, false, false, false]] := by
  decide +kernel

/-- the sizes of the source: 35, 36, 61, 79 -/
example : let L : Life := ⟨4, 4, 32 / 4, 32 / 4, 4, 500⟩; L.gens * (L.tx * L.ty + 2) + 1 < 2 ^ 32 := by decide

/-! ### The Cholesky decomposition -/

/-- C93: examples/cholesky.cpp, for any functions in the place of those of the BLAS and LAPACK (rounding included), every
matrix of n x n tiles, every number of workers and every schedule: the program ends, and every tile has been computed by
exactly the calls of the algorithm, applied to final values of other tiles, in the order of the loops. The result
does not depend on the schedule. The tiles above the diagonal are not changed. -/
theorem C93_cholesky_tiles [EvalOrder] (K : Kernels) (n : Nat) (hn : n * (n + 1) * (n + 2) < 6 * 2 ^ 32) (a : Nat → Nat → Nat)
    (enc : List Nat → List Nat → Nat) {N : Nat} (hN : 0 < N) {m0 : Mem}
    {x : FConf (program (fun _ => none) (Chol.main K n a enc) (Chol.env n))}
    (hx : FReach N false (program (fun _ => none) (Chol.main K n a enc) (Chol.env n)) m0 x) :
    Delivers N (fun _ => none) (Chol.main K n a enc) (Chol.env n) (fun out m => ∃ T : Nat → Nat → Nat,
      (∀ i j, T i j = m ⟨j * n + i, 0⟩ []) ∧
      (∀ j, j < n → T j j = K.potrf ((List.range j).foldl (fun v k => K.syrk (T j k) v) (a j j))) ∧
      (∀ i j, j < i → i < n →
        T i j = K.trsm (T j j) ((List.range j).foldl (fun v k => K.gemm (T i k) (T j k) v) (a i j))) ∧
      (∀ i j, i < j → j < n → T i j = a i j) ∧
      out = enc ((grid n n).map fun p => a p.1 p.2) ((grid n n).map fun p => T p.1 p.2)) x := by
  refine delivers (Chol.main_quiet K n a enc) ?_ ?_ ?_ hN hx
  · have := Chol.tasks_length n
    omega
  · intro g hg
    simp only [Chol.env, List.mem_map] at hg
    obtain ⟨i, -, rfl⟩ := hg
    exact ⟨rfl, rfl⟩
  · intro m
    obtain ⟨m', h1, h2⟩ := Chol.main_run K n a enc m
    rw [h1]
    obtain ⟨h3, h4, h5⟩ := Chol.Eqs.same (Chol.columns_apply (K := K) a n (Nat.le_refl n)).1 h2
    exact ⟨_, fun _ _ => rfl, h3, h4, h5, rfl⟩

section
variable {R : Type} [Ring R] [StarRing R]

/-- What the BLAS and LAPACK promise, without rounding. Tiles are elements of a ring `R` (of square matrices), `star` is
the transposition. `val x`: the matrix in tile `x`; `sym x`: the symmetric matrix whose lower triangle is in `x`; `low x`:
the lower triangular matrix in `x`. -/
structure Exact (K : Kernels) (val sym low : Nat → R) : Prop where
  gemm : ∀ a b c, val (K.gemm a b c) = val c - val a * star (val b)
  syrk : ∀ a c, sym (K.syrk a c) = sym c - val a * star (val a)
  /-- a positive definite matrix (these are the products `M * star M` with an invertible `M`) -/
  potrf : ∀ x, (∃ M : R, IsUnit M ∧ sym x = M * star M) →
    IsUnit (low (K.potrf x)) ∧ low (K.potrf x) * star (low (K.potrf x)) = sym x
  trsm : ∀ l b, IsUnit (low l) → val (K.trsm l b) * star (low l) = val b

theorem foldl_sub {val : Nat → R} {f : Nat → Nat → Nat} {g : Nat → R} {j v : Nat}
    (h : ∀ v k, k < j → val (f v k) = val v - g k) :
    val ((List.range j).foldl f v) = val v - ∑ k ∈ Finset.range j, g k := by
  induction j with
  | zero => simp
  | succ j ih =>
    rw [List.range_succ, List.foldl_append, List.foldl_cons, List.foldl_nil, h _ _ (Nat.lt_succ_self j),
      ih fun v k hk => h v k (by omega), Finset.sum_range_succ]
    noncomm_ring

/-- The algebra: the equations of `C93_cholesky_tiles` describe a factorization. -/
theorem factor {K : Kernels} {val sym low : Nat → R} (hK : Exact K val sym low) {n : Nat} {a T : Nat → Nat → Nat}
    (h1 : ∀ j, j < n → T j j = K.potrf ((List.range j).foldl (fun v k => K.syrk (T j k) v) (a j j)))
    (h2 : ∀ i j, j < i → i < n →
        T i j = K.trsm (T j j) ((List.range j).foldl (fun v k => K.gemm (T i k) (T j k) v) (a i j)))
    {M : Nat → Nat → R} (hM : ∀ j, j < n → IsUnit (M j j))
    (hd : ∀ j, j < n → sym (a j j) = ∑ k ∈ Finset.range (j + 1), M j k * star (M j k))
    (hb : ∀ i j, j < i → i < n → val (a i j) = ∑ k ∈ Finset.range (j + 1), M i k * star (M j k)) (j : Nat) :
    j < n → IsUnit (low (T j j)) ∧ low (T j j) * star (low (T j j)) = M j j * star (M j j) ∧
      (∀ i, j < i → i < n → val (T i j) * star (low (T j j)) = M i j * star (M j j)) ∧
      ∀ i i', j < i → i < n → j < i' → i' < n → val (T i j) * star (val (T i' j)) = M i j * star (M i' j) := by
  induction j using Nat.strong_induction_on with
  | _ j ih =>
    intro hj
    have hs : sym ((List.range j).foldl (fun v k => K.syrk (T j k) v) (a j j)) = M j j * star (M j j) := by
      rw [foldl_sub (val := sym) (g := fun k => M j k * star (M j k)), hd j hj, Finset.sum_range_succ]
      · noncomm_ring
      · intro v k hk
        rw [hK.syrk, (ih k hk (by omega)).2.2.2 j j hk hj hk hj]
    obtain ⟨h3, h4⟩ := hK.potrf _ ⟨M j j, hM j hj, hs⟩
    rw [← h1 j hj] at h3 h4
    rw [hs] at h4
    have h5 : ∀ i, j < i → i < n → val (T i j) * star (low (T j j)) = M i j * star (M j j) := by
      intro i h5 h6
      have h7 := hK.trsm (T j j) ((List.range j).foldl (fun v k => K.gemm (T i k) (T j k) v) (a i j)) h3
      rw [← h2 i j h5 h6] at h7
      rw [h7, foldl_sub (val := val) (g := fun k => M i k * star (M j k)), hb i j h5 h6, Finset.sum_range_succ]
      · noncomm_ring
      · intro v k hk
        rw [hK.gemm, (ih k hk (by omega)).2.2.2 i j (by omega) h6 hk hj]
    refine ⟨h3, h4, h5, fun i i' h6 h7 h8 h9 => ?_⟩
    obtain ⟨u, hu⟩ := h3
    obtain ⟨w, hw⟩ := hM j hj
    rw [← hu, ← hw] at h4
    have h10 := h5 i h6 h7
    have h11 := h5 i' h8 h9
    rw [← hu, ← hw] at h10 h11
    -- `U = w⁻¹ u` is orthogonal
    have e1 : val (T i j) = M i j * (star (w : R) * star ((u⁻¹ : Rˣ) : R)) := by
      rw [← mul_assoc, ← h10, mul_assoc, ← star_mul, Units.inv_mul, star_one, mul_one]
    have e2 : star (val (T i' j)) = ((u⁻¹ : Rˣ) : R) * (w : R) * star (M i' j) := by
      have : val (T i' j) = M i' j * (star (w : R) * star ((u⁻¹ : Rˣ) : R)) := by
        rw [← mul_assoc, ← h11, mul_assoc, ← star_mul, Units.inv_mul, star_one, mul_one]
      rw [this, star_mul, star_mul, star_star, star_star]
    have e3 : star (w : R) * star ((u⁻¹ : Rˣ) : R) * (((u⁻¹ : Rˣ) : R) * (w : R)) = 1 := by
      have e4 : ((w⁻¹ : Rˣ) : R) * (u : R) * (star (u : R) * star ((w⁻¹ : Rˣ) : R)) = 1 := by
        rw [mul_assoc, ← mul_assoc (u : R), h4, mul_assoc (w : R), ← star_mul, Units.inv_mul, star_one, mul_one, Units.inv_mul]
      have e5 : (star (u : R) * star ((w⁻¹ : Rˣ) : R)) = (((w⁻¹ * u)⁻¹ : Rˣ) : R) := by
        rw [← Units.val_mul] at e4
        exact (Units.inv_eq_of_mul_eq_one_right e4).symm ▸ rfl
      have e6 : star (w : R) * star ((u⁻¹ : Rˣ) : R) = ((w⁻¹ * u : Rˣ) : R) := by
        have e7 : (star (w : R) * star ((u⁻¹ : Rˣ) : R)) = star (((w⁻¹ * u)⁻¹ : Rˣ) : R) := by
          rw [mul_inv_rev, inv_inv, Units.val_mul, star_mul]
        rw [e7, ← e5, star_mul, star_star, star_star, Units.val_mul]
      rw [e6, ← Units.val_mul, ← Units.val_mul]
      simp
    rw [e1, e2, mul_assoc (M i j), ← mul_assoc (star (w : R) * _), e3, one_mul]

/-- C93: With functions that do what the BLAS and LAPACK promise (without rounding), the program computes a Cholesky
decomposition: if the matrix is positive definite (it is `M * star M` for a block-wise lower triangular `M` whose diagonal
is invertible), then the lower triangle of the tiles is, at the end, the lower triangle of a matrix `C` with
`C * star C = A` and an invertible diagonal. For every number of tiles, of workers and every schedule. -/
theorem C93_cholesky [EvalOrder] (K : Kernels) {val sym low : Nat → R} (hK : Exact K val sym low) (n : Nat)
    (hn : n * (n + 1) * (n + 2) < 6 * 2 ^ 32) (a : Nat → Nat → Nat) (enc : List Nat → List Nat → Nat)
    (M : Nat → Nat → R) (hM : ∀ j, j < n → IsUnit (M j j))
    (hd : ∀ j, j < n → sym (a j j) = ∑ k ∈ Finset.range (j + 1), M j k * star (M j k))
    (hb : ∀ i j, j < i → i < n → val (a i j) = ∑ k ∈ Finset.range (j + 1), M i k * star (M j k)) {N : Nat} (hN : 0 < N)
    {m0 : Mem} {x : FConf (program (fun _ => none) (Chol.main K n a enc) (Chol.env n))}
    (hx : FReach N false (program (fun _ => none) (Chol.main K n a enc) (Chol.env n)) m0 x) :
    Delivers N (fun _ => none) (Chol.main K n a enc) (Chol.env n) (fun out m => ∃ C : Nat → Nat → R,
      (∀ j, j < n → C j j = low (m ⟨j * n + j, 0⟩ []) ∧ IsUnit (C j j)) ∧
      (∀ i j, j < i → i < n → C i j = val (m ⟨j * n + i, 0⟩ [])) ∧
      (∀ j, j < n → ∑ k ∈ Finset.range (j + 1), C j k * star (C j k) = sym (a j j)) ∧
      ∀ i j, j < i → i < n → ∑ k ∈ Finset.range (j + 1), C i k * star (C j k) = val (a i j)) x := by
  have h := C93_cholesky_tiles K n hn a enc hN hx
  refine ⟨h.ends, fun hq => ?_⟩
  obtain ⟨h1, h2, h3, T, h4, h5, h6, -, -⟩ := h.result hq
  have hf := factor hK h5 h6 hM hd hb
  obtain ⟨C, c1, c2⟩ : ∃ C : Nat → Nat → R, (∀ j, C j j = low (T j j)) ∧ ∀ i j, i ≠ j → C i j = val (T i j) :=
    ⟨fun i j => if i = j then low (T i j) else val (T i j), fun j => if_pos rfl, fun i j h => if_neg h⟩
  refine ⟨h1, h2, h3, C, ?_, ?_, ?_, ?_⟩
  · intro j hj
    exact ⟨(c1 j).trans (congrArg low (h4 j j)), c1 j ▸ (hf j hj).1⟩
  · intro i j h7 h8
    exact (c2 i j (by omega)).trans (congrArg val (h4 i j))
  · intro j hj
    rw [hd j hj, Finset.sum_range_succ, Finset.sum_range_succ]
    congr 1
    · refine Finset.sum_congr rfl fun k hk => ?_
      have hk := Finset.mem_range.1 hk
      rw [c2 j k (by omega)]
      exact (hf k (by omega)).2.2.2 j j hk hj hk hj
    · rw [c1]
      exact (hf j hj).2.1
  · intro i j h7 h8
    rw [hb i j h7 h8, Finset.sum_range_succ, Finset.sum_range_succ]
    congr 1
    · refine Finset.sum_congr rfl fun k hk => ?_
      have hk := Finset.mem_range.1 hk
      rw [c2 i k (by omega), c2 j k (by omega)]
      exact (hf k (by omega)).2.2.2 i j (by omega) h8 hk (by omega)
    · rw [c2 i j (by omega), c1]
      exact (hf j (by omega)).2.2.1 i h7 h8

end

/-! An example: tiles of one rational number. -/

noncomputable section

def ratOf (x : Nat) : ℚ := (Denumerable.eqv ℚ).symm x

def ratTile (q : ℚ) : Nat := Denumerable.eqv ℚ q

def ratKernels : Kernels where
  gemm a b c := ratTile (ratOf c - ratOf a * ratOf b)
  syrk a c := ratTile (ratOf c - ratOf a * ratOf a)
  potrf x := open Classical in
    if h : ∃ M : ℚ, IsUnit M ∧ ratOf x = M * star M then ratTile h.choose else 0
  trsm l b := ratTile (ratOf b / ratOf l)

theorem ratOf_encode (q : ℚ) : ratOf (ratTile q) = q := (Denumerable.eqv ℚ).symm_apply_apply q

theorem rat_exact : Exact ratKernels ratOf ratOf ratOf where
  gemm a b c := by simp [ratKernels, ratOf_encode]
  syrk a c := by simp [ratKernels, ratOf_encode]
  potrf x h := by
    simp only [ratKernels, h, dif_pos, ratOf_encode]
    exact ⟨h.choose_spec.1, h.choose_spec.2.symm⟩
  trsm l b h := by
    simp only [ratKernels, ratOf_encode, star_trivial]
    exact div_mul_cancel₀ _ h.ne_zero

/-- the matrix ((4, 2), (2, 5)) -/
def ratMatrix (i j : Nat) : Nat := ratTile (if i = 0 ∧ j = 0 then (4 : ℚ) else if i = 1 ∧ j = 1 then 5 else 2)

def ratFactor (i j : Nat) : ℚ := if i = 1 ∧ j = 0 then 1 else 2

example : (∀ j, j < 2 → IsUnit (ratFactor j j)) ∧
    (∀ j, j < 2 → ratOf (ratMatrix j j) = ∑ k ∈ Finset.range (j + 1), ratFactor j k * star (ratFactor j k)) ∧
    ∀ i j, j < i → i < 2 → ratOf (ratMatrix i j) = ∑ k ∈ Finset.range (j + 1), ratFactor i k * star (ratFactor j k) := by
  refine ⟨fun j hj => ?_, fun j hj => ?_, fun i j h1 h2 => ?_⟩
  · have : j = 0 ∨ j = 1 := by omega
    rcases this with rfl | rfl <;> simp [ratFactor]
  · have : j = 0 ∨ j = 1 := by omega
    rcases this with rfl | rfl <;> simp [ratFactor, ratMatrix, ratOf_encode, Finset.sum_range_succ] <;> norm_num
  · have : i = 1 ∧ j = 0 := by omega
    rcases this with ⟨rfl, rfl⟩
    simp [ratFactor, ratMatrix, ratOf_encode]

end

/-! ### The test with random tasks -/

/-- C93: test/random_graph.cpp passes: for every number of resources, every list of tasks (each with some different
resources), every function in the place of `hash`, every number of workers and every schedule, the program ends, and the
resources contain the expected values. -/
theorem C93_random_graph [EvalOrder] (hash : Nat → Nat → Nat) (n : Nat) (pat : List (List Nat))
    (hp : ∀ l ∈ pat, l.Nodup ∧ ∀ r ∈ l, r < n) (hn : pat.length < 2 ^ 32) {N : Nat} (hN : 0 < N) {m0 : Mem}
    {x : FConf (program (fun _ => none) (RandomGraph.main hash n pat) (RandomGraph.env n))}
    (hx : FReach N false (program (fun _ => none) (RandomGraph.main hash n pat) (RandomGraph.env n)) m0 x) :
    Delivers N (fun _ => none) (RandomGraph.main hash n pat) (RandomGraph.env n) (fun passed m =>
      passed = 1 ∧ ∀ r, r < n → m ⟨r, 0⟩ [] =
        pat.zipIdx.foldl (fun v p => if r ∈ p.1 then hash p.2 v else v) 0) x := by
  have he : ∀ (r : Nat) (l : List (List Nat)) (t v : Nat), RandomGraph.expected hash r l t v =
      (l.zipIdx t).foldl (fun v p => if r ∈ p.1 then hash p.2 v else v) v := by
    intro r l
    induction l with
    | nil => intro t v; rfl
    | cons a l ih =>
      intro t v
      rw [RandomGraph.expected, ih, List.zipIdx_cons, List.foldl_cons]
  refine delivers (RandomGraph.main_quiet hp) hn ?_ ?_ hN hx
  · intro g hg
    simp only [RandomGraph.env, List.mem_map] at hg
    obtain ⟨i, -, rfl⟩ := hg
    exact ⟨rfl, rfl⟩
  · intro m
    obtain ⟨m', h1, h2⟩ := RandomGraph.main_run (hash := hash) hp m
    rw [h1]
    exact ⟨rfl, fun r hr => (h2 r hr).trans (he r pat 0 0)⟩

example : ∀ l ∈ [[0, 1], [1, 2], [], [2, 0, 1]], l.Nodup ∧ ∀ r ∈ l, r < 3 := by decide

/-- C93: The function `hash` of the test, random_graph.cpp:27-35, only adds the number of the task to the value (the state
of SHA-256 is a local variable that is dropped). So the test does not see the order in which tasks access a resource: in
every order `l` of the tasks, the values are the expected ones. -/
theorem C93_random_graph_blind (pat : List (List Nat)) (l : List (List Nat × Nat)) (hl : l.Perm pat.zipIdx) (r : Nat) :
    l.foldl (fun v p => if r ∈ p.1 then v + p.2 else v) 0 =
      pat.zipIdx.foldl (fun v p => if r ∈ p.1 then (fun t v => v + t) p.2 v else v) 0 := by
  have : RightCommutative (fun (v : Nat) (p : List Nat × Nat) => if r ∈ p.1 then v + p.2 else v) := ⟨by
    intro v p q
    by_cases h1 : r ∈ p.1 <;> by_cases h2 : r ∈ q.1 <;> simp [h1, h2] <;> omega⟩
  exact hl.foldl_eq 0

/-- with a function that does not commute it is seen -/
example : [([0], 1), ([0], 0)].foldl (fun v p => if 0 ∈ p.1 then 2 * v + p.2 else v) 0 ≠
    [[0], [0]].zipIdx.foldl (fun v p => if 0 ∈ p.1 then 2 * v + p.2 else v) 0 := by decide

/-! ### The ring of ranks -/

/-- C93: In examples/mpi.cpp every rank is meant to receive from the rank that sends to it. For the rank 0 this is false
as soon as there are two ranks: it receives from rank -1. (It is not waited for by rank `size - 1`, which sends to it.) -/
theorem C93_mpi_ring_false (size : Int) (h : 2 ≤ size) :
    mpiDst (size - 1) size = 0 ∧ mpiSrc 0 size = -1 ∧ mpiSrc 0 size ≠ size - 1 := by
  have e : mpiSrc 0 size = -1 := by
    unfold mpiSrc
    rw [show (0 : Int) - 1 = -1 by rfl, Int.neg_tmod, Int.tmod_eq_of_lt (by omega) (by omega)]
  refine ⟨by unfold mpiDst; rw [show size - 1 + 1 = size by omega, Int.tmod_self], e, by omega⟩

/-- C93: It is true for the other ranks. Missing: rank 0. -/
theorem C93_mpi_ring_partial (size rank src : Int) (h : 0 ≤ src ∧ src < size) (hr : 1 ≤ rank ∧ rank < size) :
    mpiDst src size = rank ↔ mpiSrc rank size = src := by
  unfold mpiDst mpiSrc
  rw [Int.tmod_eq_of_lt (a := rank - 1) (by omega) (by omega)]
  by_cases e : src + 1 = size
  · rw [e, Int.tmod_self]
    omega
  · rw [Int.tmod_eq_of_lt (by omega) (by omega)]
    omega

example : mpiDst 2 4 = 3 ∧ mpiSrc 3 4 = 2 ∧ mpiSrc 0 4 = -1 := by decide

end RG.Dyn
