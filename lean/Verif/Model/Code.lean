import Verif.Model.Dynamic
/-
A small programming language for the bodies of Model/Dynamic.lean: memory locations, code, and what code computes
sequentially.
-/
namespace RG.Dyn
open RG.Graph

variable {ι : Type}

/-- A location of the memory: an element of a resource (with its position), or a variable (e.g. the result) of the
body with the given name. -/
inductive Place
  | shared (r : Res) (pos : List Size)
  | own (p : List Nat) (i : Nat)
  deriving DecidableEq

/-- Code of a body. Values that have been read are available to the rest of the code (`k`); in particular they can
determine which tasks are submitted. -/
inductive Code (ι : Type := Nat)
  /-- read a location -/
  | get (x : Place) (k : Nat → Code ι)
  /-- write a location -/
  | put (x : Place) (v : Nat) (k : Code ι)
  /-- add atomically to a location -/
  | add (x : Place) (v : Nat) (k : Code ι)
  /-- submit a task with the accesses number `a` and the body `c` -/
  | call (a : ι) (c k : Code ι)
  /-- wait for those tasks `j` for which `w j`, in the order in which this body has submitted them -/
  | wait (w : Nat → Bool) (k : Code ι)
  | ret

/-- `get()` of the future of the task number `j` -/
abbrev Code.fut (j : Nat) (k : Code ι) : Code ι := .wait (· == j) k

/-- waiting for all tasks, `barrier()` in the main program -/
abbrev Code.all (k : Code ι) : Code ι := .wait (fun _ => true) k

abbrev Mem : Type := Place → Nat

def store (x : Place) (v : Nat) (m : Mem) : Mem := fun y => if y = x then v else m y

/-- The code as a program; `tbl` contains the accesses of the tasks. -/
def code (tbl : ι → User) (main : Code ι) : Prog Mem where
  B := Code ι
  pt
    | .get x k => .act fun m => (k (m x), m)
    | .put x v k => .act fun m => (k, store x v m)
    | .add x v k => .act fun m => (k, store x (m x + v) m)
    | .call a c k => .spawn (tbl a) c k
    | .wait w k => .join w k
    | .ret => .done
  main := main

/-- What the code computes sequentially: tasks are function calls. -/
def Code.run : Code ι → Mem → Mem
  | .get x k, m => (k (m x)).run m
  | .put x v k, m => k.run (store x v m)
  | .add x v k, m => k.run (store x (m x + v) m)
  | .call _ c k, m => k.run (c.run m)
  | .wait _ k, m => k.run m
  | .ret, m => m

end RG.Dyn
