import Verif.Model.Guards
/-
Programs that come with the library, in the language of Model/Guards: /repo/examples/game_of_life.cpp,
/repo/examples/cholesky.cpp and /repo/test/random_graph.cpp, and the ring of ranks in /repo/examples/mpi.cpp.

Sizes, numbers of tasks and data, which are constants (or random) in the sources, are parameters here.

Simplifications: `finalize()` begins with a `barrier()` (redGrapes.cpp:144-146); here the main programs call `barrier()`
before it, and do what follows it in the source. What is written to the console is the result of the main program. An exception ends the main program
(after the tasks that have been submitted). Each tile of the matrix is one value.
-/
namespace RG.Dyn
open RG.Graph

/-- a loop -/
def each {α : Type} (l : List α) (f : α → GCode → GCode) (k : GCode) : GCode := l.foldr f k

/-- read several elements through guard `i` -/
def reads (i : Nat) : List (List Size) → (List Nat → GCode) → GCode
  | [], k => k []
  | p :: l, k => .get i p fun v => reads i l fun vs => k (v.getD 0 :: vs)

/-- an exception in the main program -/
def abort : GCode := .all (.ret 0)

/-- the pairs of two nested loops -/
def grid (a b : Nat) : List (Nat × Nat) := (List.range a).flatMap fun x => (List.range b).map fun y => (x, y)

/-! ### examples/game_of_life.cpp -/

structure Life where
  /-- 36: `chunk_size` -/
  cx : Nat
  cy : Nat
  /-- 35: `size` is `(tx * cx, ty * cy)` -/
  tx : Nat
  ty : Nat
  /-- 61: the number of buffers -/
  nb : Nat
  /-- 79 -/
  gens : Nat

namespace Life
variable (L : Life)

def sx : Nat := L.tx * L.cx
def sy : Nat := L.ty * L.cy

/-- an index -/
def pos (x y : Nat) : List Size := [BitVec.ofNat 64 x, BitVec.ofNat 64 y]

/-- 28-32: `DEAD`, `ALIVE` -/
def cell (b : Bool) : Nat := if b then 1 else 0

/-- 67-77: initialization with random values -/
def fill (b0 : Nat → Nat → Bool) : GCode :=
  each (grid (L.sx + 2) (L.sy + 2)) (fun p k => .put 0 (pos p.1 p.2) (cell (b0 p.1 p.2)) fun _ => k) (.ret 0)

/-- an assignment between elements of the guard number 0 -/
def copy (src dst : List Size) (k : GCode) : GCode := .get 0 src fun v => .put 0 dst (v.getD 0) fun _ => k

/-- 84-99: copy borders -/
def borders : GCode :=
  each (List.range (L.sx + 2)) (fun x k => copy (pos x L.sy) (pos x 0) (copy (pos x 1) (pos x (L.sy + 1)) k)) <|
  each (List.range (L.sy + 2)) (fun y k => copy (pos L.sx y) (pos 0 y) (copy (pos 1 y) (pos (L.sx + 1) y) k)) (.ret 0)

/-- 105-112: the elements that are printed -/
def shown : List (List Size) := (grid (L.sx - 1) (L.sy - 1)).map fun p => pos (p.1 + 1) (p.2 + 1)

/-- 102-116: print the buffer; `enc` is the text -/
def print (enc : List Nat → Nat) : GCode := reads 0 L.shown fun vs => .ret (enc vs)

/-- 38-48 `next_state` for the element `(x, y)` of the guard number 1. The function gets a pointer to this element; here
the neighbours are read through the guard. `neighbours[i][j]` is the element `(x + j, y + i)`, fieldresource.hpp:67-70. -/
def nextState (x y : Nat) (k : Nat → GCode) : GCode :=
  reads 1 [pos (x - 1) (y - 1), pos x (y - 1), pos (x + 1) (y - 1), pos (x - 1) y, pos (x + 1) y,
      pos (x - 1) (y + 1), pos x (y + 1), pos (x + 1) (y + 1)] fun vs =>
    if vs.sum < 2 ∨ 3 < vs.sum then k 0
    else if vs.sum = 3 then k 1
    else .get 1 (pos x y) fun v => k (v.getD 0)

/-- 122-128: the task for the chunk that begins at `(x, y)` -/
def tile (x y : Nat) : GCode :=
  each (grid L.cx L.cy)
    (fun p k => nextState (x + p.1) (y + p.2) fun v => .put 0 (pos (x + p.1) (y + p.2)) v fun _ => k) (.ret 0)

/-- 119-130: calculate next step. `e`: the number of guards in scope; `k` gets the new one. -/
def tiles (cur next : Nat) : List (Nat × Nat) → Nat → (Nat → GCode) → GCode
  | [], e, k => k e
  | (x, y) :: l, e, k =>
    .narrow next (.area (pos x y) (pos (x + L.cx) (y + L.cy)))
      (.narrow cur .read
        (.narrow (e + 1) (.area (pos (x - 1) (y - 1)) (pos (x + L.cx + 2) (y + L.cy + 2)))
          (.call [e, e + 2] none (L.tile x y) (tiles cur next l (e + 3) k)) abort) abort) abort

/-- 119-120: where the chunks begin -/
def starts : List (Nat × Nat) := (grid L.tx L.ty).map fun p => (1 + p.1 * L.cx, 1 + p.2 * L.cy)

/-- 79-133: the loop over the generations. `t`: the number of tasks that have been submitted, `fr`: what has been
printed; `fin`: the text on the console. -/
def loop (enc fin : List Nat → Nat) : Nat → Nat → Nat → Nat → List Nat → GCode
  | 0, _, _, _, fr => .all (.ret (fin fr))
  | g + 1, cur, e, t, fr =>
    .call [cur] none L.borders <|
    .narrow cur .read
      (.call [e] none (L.print enc) <| .fut (t + 1) fun v =>
        L.tiles cur ((cur + 1) % L.nb) L.starts (e + 1) fun e' =>
          loop enc fin g ((cur + 1) % L.nb) e' (t + 2 + L.starts.length) (fr ++ [v])) abort

/-- 50-140 `main` -/
def main (b0 : Nat → Nat → Bool) (enc fin : List Nat → Nat) : GCode :=
  .call [0] none (L.fill b0) (L.loop enc fin L.gens 0 L.nb 1 [])

/-- 57-62: the buffers -/
def buf (i : Nat) : Res := ⟨i, 0⟩

def env : List AGuard := (List.range L.nb).map fun i => .field (Guard.fresh (dim := 2) (buf i))

/-- The number of neighbours of a cell that are alive, on a torus of size `(sx, sy)`. -/
def neighbours (sx sy : Nat) (b : Nat → Nat → Bool) (x y : Nat) : Nat :=
  ([(0, 0), (1, 0), (2, 0), (0, 1), (2, 1), (0, 2), (1, 2), (2, 2)].filter fun d : Nat × Nat =>
    b ((x + d.1 + sx - 1) % sx) ((y + d.2 + sy - 1) % sy)).length

/-- The rule of Conway: a cell is alive in the next generation if it has three neighbours, or if it is alive and has two. -/
def next (sx sy : Nat) (b : Nat → Nat → Bool) (x y : Nat) : Bool :=
  neighbours sx sy b x y == 3 || (b x y && neighbours sx sy b x y == 2)

/-- The generation number `n`. -/
def generation (sx sy : Nat) (b : Nat → Nat → Bool) : Nat → Nat → Nat → Bool
  | 0 => b
  | n + 1 => next sx sy (generation sx sy b n)

end Life

/-! ### examples/cholesky.cpp -/

/-- The functions of the BLAS and LAPACK that the example calls, as functions of the contents of tiles. -/
structure Kernels where
  /-- 95-109 `cblas_dgemm`: `c - a * b^t` -/
  gemm : Nat → Nat → Nat → Nat
  /-- 124-134 `cblas_dsyrk`: `c - a * a^t` -/
  syrk : Nat → Nat → Nat
  /-- 146 `LAPACKE_dpotrf` -/
  potrf : Nat → Nat
  /-- 157-169 `cblas_dtrsm`: `b * (a^t)^-1` -/
  trsm : Nat → Nat → Nat

inductive CTask
  /-- 90-113: `A[i,j] = A[i,j] - A[i,k] * A[j,k]^t` -/
  | gemm (i j k : Nat)
  /-- 119-138: `A[j,j] = A[j,j] - A[j,i] * A[j,i]^t` -/
  | syrk (j i : Nat)
  /-- 141-148: factorization of `A[j,j]` -/
  | potrf (j : Nat)
  /-- 152-173: `A[i,j] = A[i,j] * (A[j,j]^t)^-1` -/
  | trsm (i j : Nat)

namespace Chol

/-- 86-174: the tasks for column `j` of `n` -/
def column (n j : Nat) : List CTask :=
  ((List.range j).flatMap fun k => (List.range (n - (j + 1))).map fun i => .gemm (j + 1 + i) j k) ++
  (List.range j).map (fun i => .syrk j i) ++ [.potrf j] ++
  (List.range (n - (j + 1))).map fun i => .trsm (j + 1 + i) j

/-- 84: all tasks, in the order in which they are submitted -/
def tasks (n : Nat) : List CTask := (List.range n).flatMap (column n)

/-- the index of tile `(i, j)` in the vector -/
def at' (n i j : Nat) : Nat := j * n + i

/-- the submission of a task; `e`: the number of guards in scope -/
def submit (K : Kernels) (n : Nat) : List CTask → Nat → GCode → GCode
  | [], _, c => c
  | .gemm i j k :: l, e, c =>
    .narrow (at' n i k) .read
      (.narrow (at' n j k) .read
        (.call [e, e + 1, at' n i j] none
          (.get 0 [] fun a => .get 1 [] fun b => .get 2 [] fun c =>
            .put 2 [] (K.gemm (a.getD 0) (b.getD 0) (c.getD 0)) fun _ => .ret 0)
          (submit K n l (e + 2) c)) abort) abort
  | .syrk j i :: l, e, c =>
    .narrow (at' n j i) .read
      (.call [e, at' n j j] none
        (.get 0 [] fun a => .get 1 [] fun c => .put 1 [] (K.syrk (a.getD 0) (c.getD 0)) fun _ => .ret 0)
        (submit K n l (e + 1) c)) abort
  | .potrf j :: l, e, c =>
    .call [at' n j j] none (.get 0 [] fun a => .put 0 [] (K.potrf (a.getD 0)) fun _ => .ret 0) (submit K n l e c)
  | .trsm i j :: l, e, c =>
    .narrow (at' n j j) .read
      (.call [e, at' n i j] none
        (.get 0 [] fun a => .get 1 [] fun b => .put 1 [] (K.trsm (a.getD 0) (b.getD 0)) fun _ => .ret 0)
        (submit K n l (e + 1) c)) abort

/-- 75-79: the tiles are filled by the main program -/
def fill (n : Nat) (a : Nat → Nat → Nat) (c : GCode) : GCode :=
  each (grid n n) (fun p k => .put (at' n p.1 p.2) [] (a p.1 p.2) fun _ => k) c

/-- 183-198 `print_matrix` -/
def print : List Nat → (List Nat → GCode) → GCode
  | [], k => k []
  | i :: l, k => .get i [] fun v => print l fun vs => k (v.getD 0 :: vs)

/-- 26-181 `main`; `enc` is the text on the console -/
def main (K : Kernels) (n : Nat) (a : Nat → Nat → Nat) (enc : List Nat → List Nat → Nat) : GCode :=
  fill n a <| print ((grid n n).map fun p => at' n p.1 p.2) fun v => submit K n (tasks n) (n * n) <| .all <|
    print ((grid n n).map fun p => at' n p.1 p.2) fun v' => .ret (enc v v')

/-- 64: the tiles -/
def tileRes (i : Nat) : Res := ⟨i, 0⟩

def env (n : Nat) : List AGuard := (List.range (n * n)).map fun i => .io (tileRes i) true

end Chol

/-! ### test/random_graph.cpp -/

namespace RandomGraph

/-- 108-180: the body of task `t`, which gets `n` write guards; `hash` is any function -/
def body (hash : Nat → Nat → Nat) (t n : Nat) : GCode :=
  each (List.range n) (fun i k => .get i [] fun v => .put i [] (hash t (v.getD 0)) fun _ => k) (.ret 0)

/-- 104-180: the tasks; `pat`: the resources of the tasks that are still to be submitted, the first of which has number
`t` -/
def submit (hash : Nat → Nat → Nat) : List (List Nat) → Nat → GCode → GCode
  | [], _, c => c
  | rs :: l, t, c => .call rs none (body hash t rs.length) (submit hash l (t + 1) c)

/-- 183-184 `REQUIRE`: the result is 1 if the values are the expected ones -/
def check : List (Nat × Nat) → GCode
  | [] => .ret 1
  | (r, v) :: l => .get r [] fun v' => if v' = some v then check l else .ret 0

/-- 48-91: the expected value of resource `r`; `v`: its value before the task number `t` -/
def expected (hash : Nat → Nat → Nat) (r : Nat) : List (List Nat) → Nat → Nat → Nat
  | [], _, v => v
  | rs :: l, t, v => expected hash r l (t + 1) (if r ∈ rs then hash t v else v)

/-- 93-188 the test, with `n` resources -/
def main (hash : Nat → Nat → Nat) (n : Nat) (pat : List (List Nat)) : GCode :=
  each (List.range n) (fun i k => .put i [] 0 fun _ => k) <|
  submit hash pat 0 <| .all <| check ((List.range n).map fun r => (r, expected hash r pat 0 0))

def env (n : Nat) : List AGuard := (List.range n).map fun i => .io ⟨i, 0⟩ true

end RandomGraph

/-! ### examples/mpi.cpp -/

/-- 124: the rank to which a rank sends -/
def mpiDst (rank size : Int) : Int := (rank + 1).tmod size

/-- 140: the rank from which a rank receives; `%` of C++ has the sign of the dividend -/
def mpiSrc (rank size : Int) : Int := (rank - 1).tmod size

end RG.Dyn
