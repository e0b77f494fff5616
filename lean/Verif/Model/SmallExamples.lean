import Verif.Model.Examples
import Verif.Model.FieldGuard
/-
The introductory programs: /repo/examples/1_resources.cpp, 2_functors.cpp, 3_functors_with_resources.cpp, 5_access_demotion.cpp. (The programs
4_refinements.cpp, 6_resource_scope.cpp and 7_event.cpp are given by who creates which task, see Props/SmallExamples.lean.)

Constants of the sources are parameters here. What a task prints is its result; the main program asks for all results before `finalize()`.
-/
namespace RG.Small
open RG.Graph RG.Dyn

/-! ### 1_resources.cpp -/

/-- 20-24: the whole of `a`, a part of it, and `b`; `none`: `area` has thrown an exception -/
def user1 (a b : Res) (lo hi : Size) : Option User :=
  ((Guard.fresh (dim := 1) a).subArea (fun _ => lo) (fun _ => hi)).map fun g =>
    User.ofList 0 [(Guard.fresh (dim := 1) a).read.toAccess, g.toAccess, (AGuard.io b true).toAccess]

/-- 26 -/
def user2 (b : Res) : User := User.ofList 0 [(AGuard.io b false).toAccess]

/-- 28 -/
def user3 (b c : Res) : User := User.ofList 0 [(AGuard.io b false).toAccess, (AGuard.io c true).toAccess]

/-! ### 2_functors.cpp -/

/-- 24: `emplace_task(f, x).get()` -/
def functors (f : Nat → Nat) (x : Nat) : GCode := .call [] none (.ret (f x)) (.fut 0 fun v => .all (.ret v))

/-! ### 3_functors_with_resources.cpp -/

/-- `a.write()`, `b.write()`, `a.read()`, `b.read()` -/
def env : List AGuard := [.io ⟨0, 0⟩ true, .io ⟨1, 0⟩ true, .io ⟨0, 0⟩ false, .io ⟨1, 0⟩ false]

/-- 23-58: a round of the loop, with the values that are written (4 and 7 in the source); `enc`: the line "Read A & B" -/
def round (va vb : Nat) (enc : Nat → Nat → Nat) (k : GCode) : GCode :=
  .call [0] none (.put 0 [] va fun _ => .ret 0) <|
  .call [2] none (.get 0 [] fun x => .ret (x.getD 0)) <|
  .call [1] none (.put 0 [] vb fun _ => .ret 0) <|
  .call [2, 3] none (.get 0 [] fun x => .get 1 [] fun y => .ret (enc (x.getD 0) (y.getD 0))) k

/-- `get()` of several futures -/
def futures : List Nat → (List Nat → GCode) → GCode
  | [], k => k []
  | j :: l, k => .fut j fun v => futures l fun vs => k (v :: vs)

/-- 14-63, any number of rounds -/
def withResources (va vb : Nat → Nat) (enc : Nat → Nat → Nat) (n : Nat) (fin : List Nat → Nat) : GCode :=
  each (List.range n) (fun i k => round (va i) (vb i) enc k) <|
  futures (List.range (4 * n)) fun vs => .all (.ret (fin vs))

/-! ### 5_access_demotion.cpp -/

/-- 37: the accesses of the task -/
def writer (a : Res) : User := User.ofList 0 [(AGuard.io a true).toAccess]

/-- 30-31: the patch -/
def demotion (a : Res) : List Diff := [.remove (AGuard.io a true).toAccess, .add (AGuard.io a false).toAccess]

end RG.Small
