import Verif.Model.ResourceUser
import Verif.Model.Guards
/-
The unit tests of the library, run on the model: every `REQUIRE` of /repo/test/access.cpp, /repo/test/resource.cpp and /repo/test/resource_user.cpp, with its line.
Generated by tools/gen_conformance.py. These are tests of the model (that it computes what the code is expected to compute), not proofs of properties.
-/
set_option linter.unusedSimpArgs false

namespace RG.Conformance
open RG RG.Dyn

/-! ### access.cpp, IOAccess -/

/-- line 13 -/
example : Acc.isSerial .io (Mode.read : Acc .io) (Mode.read : Acc .io) = false := by decide

/-- line 14 -/
example : Acc.isSerial .io (Mode.read : Acc .io) (Mode.write : Acc .io) = true := by decide

/-- line 15 -/
example : Acc.isSerial .io (Mode.read : Acc .io) (Mode.aadd : Acc .io) = true := by decide

/-- line 16 -/
example : Acc.isSerial .io (Mode.read : Acc .io) (Mode.amul : Acc .io) = true := by decide

/-- line 18 -/
example : Acc.isSerial .io (Mode.write : Acc .io) (Mode.read : Acc .io) = true := by decide

/-- line 19 -/
example : Acc.isSerial .io (Mode.write : Acc .io) (Mode.write : Acc .io) = true := by decide

/-- line 20 -/
example : Acc.isSerial .io (Mode.write : Acc .io) (Mode.aadd : Acc .io) = true := by decide

/-- line 21 -/
example : Acc.isSerial .io (Mode.write : Acc .io) (Mode.amul : Acc .io) = true := by decide

/-- line 23 -/
example : Acc.isSerial .io (Mode.aadd : Acc .io) (Mode.read : Acc .io) = true := by decide

/-- line 24 -/
example : Acc.isSerial .io (Mode.aadd : Acc .io) (Mode.write : Acc .io) = true := by decide

/-- line 25 -/
example : Acc.isSerial .io (Mode.aadd : Acc .io) (Mode.aadd : Acc .io) = false := by decide

/-- line 26 -/
example : Acc.isSerial .io (Mode.aadd : Acc .io) (Mode.amul : Acc .io) = true := by decide

/-- line 28 -/
example : Acc.isSerial .io (Mode.amul : Acc .io) (Mode.read : Acc .io) = true := by decide

/-- line 29 -/
example : Acc.isSerial .io (Mode.amul : Acc .io) (Mode.write : Acc .io) = true := by decide

/-- line 30 -/
example : Acc.isSerial .io (Mode.amul : Acc .io) (Mode.aadd : Acc .io) = true := by decide

/-- line 31 -/
example : Acc.isSerial .io (Mode.amul : Acc .io) (Mode.amul : Acc .io) = false := by decide

/-- line 34 -/
example : Acc.isSuperset .io (Mode.read : Acc .io) (Mode.read : Acc .io) = true := by decide

/-- line 35 -/
example : Acc.isSuperset .io (Mode.read : Acc .io) (Mode.write : Acc .io) = false := by decide

/-- line 36 -/
example : Acc.isSuperset .io (Mode.read : Acc .io) (Mode.aadd : Acc .io) = false := by decide

/-- line 37 -/
example : Acc.isSuperset .io (Mode.read : Acc .io) (Mode.amul : Acc .io) = false := by decide

/-- line 39 -/
example : Acc.isSuperset .io (Mode.write : Acc .io) (Mode.read : Acc .io) = true := by decide

/-- line 40 -/
example : Acc.isSuperset .io (Mode.write : Acc .io) (Mode.write : Acc .io) = true := by decide

/-- line 41 -/
example : Acc.isSuperset .io (Mode.write : Acc .io) (Mode.aadd : Acc .io) = true := by decide

/-- line 42 -/
example : Acc.isSuperset .io (Mode.write : Acc .io) (Mode.amul : Acc .io) = true := by decide

/-- line 44 -/
example : Acc.isSuperset .io (Mode.aadd : Acc .io) (Mode.read : Acc .io) = false := by decide

/-- line 45 -/
example : Acc.isSuperset .io (Mode.aadd : Acc .io) (Mode.write : Acc .io) = false := by decide

/-- line 46 -/
example : Acc.isSuperset .io (Mode.aadd : Acc .io) (Mode.aadd : Acc .io) = true := by decide

/-- line 47 -/
example : Acc.isSuperset .io (Mode.aadd : Acc .io) (Mode.amul : Acc .io) = false := by decide

/-- line 49 -/
example : Acc.isSuperset .io (Mode.amul : Acc .io) (Mode.read : Acc .io) = false := by decide

/-- line 50 -/
example : Acc.isSuperset .io (Mode.amul : Acc .io) (Mode.write : Acc .io) = false := by decide

/-- line 51 -/
example : Acc.isSuperset .io (Mode.amul : Acc .io) (Mode.aadd : Acc .io) = false := by decide

/-- line 52 -/
example : Acc.isSuperset .io (Mode.amul : Acc .io) (Mode.amul : Acc .io) = true := by decide

/-! ### access.cpp, AreaAccess -/

/-- line 58 -/
example : Acc.isSerial .area (Area.mk 10 20 : Acc .area) (Area.mk 30 40 : Acc .area) = false := by decide

/-- line 59 -/
example : Acc.isSuperset .area (Area.mk 10 20 : Acc .area) (Area.mk 30 40 : Acc .area) = false := by decide

/-- line 61 -/
example : Acc.isSerial .area (Area.mk 30 40 : Acc .area) (Area.mk 10 20 : Acc .area) = false := by decide

/-- line 62 -/
example : Acc.isSuperset .area (Area.mk 30 40 : Acc .area) (Area.mk 10 20 : Acc .area) = false := by decide

/-- line 65 -/
example : Acc.isSerial .area (Area.mk 10 20 : Acc .area) (Area.mk 15 25 : Acc .area) = true := by decide

/-- line 66 -/
example : Acc.isSuperset .area (Area.mk 10 20 : Acc .area) (Area.mk 15 25 : Acc .area) = false := by decide

/-- line 68 -/
example : Acc.isSerial .area (Area.mk 15 25 : Acc .area) (Area.mk 10 20 : Acc .area) = true := by decide

/-- line 69 -/
example : Acc.isSuperset .area (Area.mk 15 15 : Acc .area) (Area.mk 10 20 : Acc .area) = false := by decide

/-- line 72 -/
example : Acc.isSerial .area (Area.mk 10 30 : Acc .area) (Area.mk 15 25 : Acc .area) = true := by decide

/-- line 73 -/
example : Acc.isSuperset .area (Area.mk 10 30 : Acc .area) (Area.mk 15 25 : Acc .area) = true := by decide

/-- line 75 -/
example : Acc.isSerial .area (Area.mk 15 25 : Acc .area) (Area.mk 10 30 : Acc .area) = true := by decide

/-- line 76 -/
example : Acc.isSuperset .area (Area.mk 15 25 : Acc .area) (Area.mk 10 30 : Acc .area) = false := by decide

/-! ### access.cpp, CombineAccess -/

/-- line 83 -/
example : Acc.isSerial (.combine .io .area .and) (((Mode.read : Acc .io), (Area.mk 10 20 : Acc .area)) : Acc (.combine .io .area .and)) (((Mode.read : Acc .io), (Area.mk 15 25 : Acc .area)) : Acc (.combine .io .area .and)) = false := by decide

/-- line 89 -/
example : Acc.isSerial (.combine .io .area .and) (((Mode.read : Acc .io), (Area.mk 10 20 : Acc .area)) : Acc (.combine .io .area .and)) (((Mode.write : Acc .io), (Area.mk 15 25 : Acc .area)) : Acc (.combine .io .area .and)) = true := by decide

/-- line 95 -/
example : Acc.isSerial (.combine .io .area .and) (((Mode.read : Acc .io), (Area.mk 10 20 : Acc .area)) : Acc (.combine .io .area .and)) (((Mode.write : Acc .io), (Area.mk 30 40 : Acc .area)) : Acc (.combine .io .area .and)) = false := by decide

/-- line 101 -/
example : Acc.isSuperset (.combine .io .area .and) (((Mode.read : Acc .io), (Area.mk 10 20 : Acc .area)) : Acc (.combine .io .area .and)) (((Mode.read : Acc .io), (Area.mk 15 25 : Acc .area)) : Acc (.combine .io .area .and)) = false := by decide

/-- line 106 -/
example : Acc.isSuperset (.combine .io .area .and) (((Mode.write : Acc .io), (Area.mk 10 30 : Acc .area)) : Acc (.combine .io .area .and)) (((Mode.read : Acc .io), (Area.mk 15 25 : Acc .area)) : Acc (.combine .io .area .and)) = true := by decide

/-- line 113 -/
example : Acc.isSerial (.combine .io .area .or) (((Mode.read : Acc .io), (Area.mk 10 20 : Acc .area)) : Acc (.combine .io .area .or)) (((Mode.read : Acc .io), (Area.mk 30 40 : Acc .area)) : Acc (.combine .io .area .or)) = false := by decide

/-- line 119 -/
example : Acc.isSerial (.combine .io .area .or) (((Mode.read : Acc .io), (Area.mk 10 20 : Acc .area)) : Acc (.combine .io .area .or)) (((Mode.read : Acc .io), (Area.mk 15 25 : Acc .area)) : Acc (.combine .io .area .or)) = true := by decide

/-- line 125 -/
example : Acc.isSerial (.combine .io .area .or) (((Mode.read : Acc .io), (Area.mk 10 20 : Acc .area)) : Acc (.combine .io .area .or)) (((Mode.write : Acc .io), (Area.mk 15 25 : Acc .area)) : Acc (.combine .io .area .or)) = true := by decide

/-- line 131 -/
example : Acc.isSerial (.combine .io .area .or) (((Mode.read : Acc .io), (Area.mk 10 20 : Acc .area)) : Acc (.combine .io .area .or)) (((Mode.write : Acc .io), (Area.mk 30 40 : Acc .area)) : Acc (.combine .io .area .or)) = true := by decide

/-! ### access.cpp, ArrayAccess -/

/-- line 142 -/
example : Acc.isSerial (.array .io 2 .and) (fun i => ([(Mode.read : Acc .io), (Mode.read : Acc .io)] : List (Acc .io)).getD i.1 (Acc.dflt .io) : Acc (.array .io 2 .and)) (fun i => ([(Mode.read : Acc .io), (Mode.read : Acc .io)] : List (Acc .io)).getD i.1 (Acc.dflt .io) : Acc (.array .io 2 .and)) = false := by decide

/-- line 148 -/
example : Acc.isSerial (.array .io 2 .and) (fun i => ([(Mode.read : Acc .io), (Mode.write : Acc .io)] : List (Acc .io)).getD i.1 (Acc.dflt .io) : Acc (.array .io 2 .and)) (fun i => ([(Mode.read : Acc .io), (Mode.read : Acc .io)] : List (Acc .io)).getD i.1 (Acc.dflt .io) : Acc (.array .io 2 .and)) = false := by decide

/-- line 154 -/
example : Acc.isSerial (.array .io 2 .and) (fun i => ([(Mode.write : Acc .io), (Mode.write : Acc .io)] : List (Acc .io)).getD i.1 (Acc.dflt .io) : Acc (.array .io 2 .and)) (fun i => ([(Mode.read : Acc .io), (Mode.read : Acc .io)] : List (Acc .io)).getD i.1 (Acc.dflt .io) : Acc (.array .io 2 .and)) = true := by decide

/-- line 160 -/
example : Acc.isSuperset (.array .io 2 .and) (fun i => ([(Mode.read : Acc .io), (Mode.write : Acc .io)] : List (Acc .io)).getD i.1 (Acc.dflt .io) : Acc (.array .io 2 .and)) (fun i => ([(Mode.read : Acc .io), (Mode.read : Acc .io)] : List (Acc .io)).getD i.1 (Acc.dflt .io) : Acc (.array .io 2 .and)) = true := by decide

/-- line 165 -/
example : Acc.isSuperset (.array .io 2 .and) (fun i => ([(Mode.read : Acc .io), (Mode.write : Acc .io)] : List (Acc .io)).getD i.1 (Acc.dflt .io) : Acc (.array .io 2 .and)) (fun i => ([(Mode.write : Acc .io), (Mode.read : Acc .io)] : List (Acc .io)).getD i.1 (Acc.dflt .io) : Acc (.array .io 2 .and)) = false := by decide

/-- line 173 -/
example : Acc.isSerial (.array .io 2 .or) (fun i => ([(Mode.read : Acc .io), (Mode.read : Acc .io)] : List (Acc .io)).getD i.1 (Acc.dflt .io) : Acc (.array .io 2 .or)) (fun i => ([(Mode.read : Acc .io), (Mode.read : Acc .io)] : List (Acc .io)).getD i.1 (Acc.dflt .io) : Acc (.array .io 2 .or)) = false := by decide

/-- line 179 -/
example : Acc.isSerial (.array .io 2 .or) (fun i => ([(Mode.read : Acc .io), (Mode.write : Acc .io)] : List (Acc .io)).getD i.1 (Acc.dflt .io) : Acc (.array .io 2 .or)) (fun i => ([(Mode.read : Acc .io), (Mode.read : Acc .io)] : List (Acc .io)).getD i.1 (Acc.dflt .io) : Acc (.array .io 2 .or)) = true := by decide

/-- line 185 -/
example : Acc.isSerial (.array .io 2 .or) (fun i => ([(Mode.write : Acc .io), (Mode.write : Acc .io)] : List (Acc .io)).getD i.1 (Acc.dflt .io) : Acc (.array .io 2 .or)) (fun i => ([(Mode.read : Acc .io), (Mode.read : Acc .io)] : List (Acc .io)).getD i.1 (Acc.dflt .io) : Acc (.array .io 2 .or)) = true := by decide

/-! ### access.cpp, FieldAccess -/

/-- line 195 -/
example : Acc.isSerial (fieldPolicy 3) (((Mode.read : Acc .io), (fun i => ([(Area.mk 0 10 : Acc .area), (Area.mk 0 10 : Acc .area), (Area.mk 0 10 : Acc .area)] : List (Acc .area)).getD i.1 (Acc.dflt .area) : Acc (.array .area 3 .and))) : Acc (fieldPolicy 3)) (((Mode.read : Acc .io), (fun i => ([(Area.mk 0 10 : Acc .area), (Area.mk 0 10 : Acc .area), (Area.mk 0 10 : Acc .area)] : List (Acc .area)).getD i.1 (Acc.dflt .area) : Acc (.array .area 3 .and))) : Acc (fieldPolicy 3)) = false := by decide

/-- line 205 -/
example : Acc.isSerial (fieldPolicy 3) (((Mode.write : Acc .io), (fun i => ([(Area.mk 0 10 : Acc .area), (Area.mk 0 10 : Acc .area), (Area.mk 0 10 : Acc .area)] : List (Acc .area)).getD i.1 (Acc.dflt .area) : Acc (.array .area 3 .and))) : Acc (fieldPolicy 3)) (((Mode.read : Acc .io), (fun i => ([(Area.mk 0 10 : Acc .area), (Area.mk 0 10 : Acc .area), (Area.mk 0 10 : Acc .area)] : List (Acc .area)).getD i.1 (Acc.dflt .area) : Acc (.array .area 3 .and))) : Acc (fieldPolicy 3)) = true := by decide

/-! ### resource.cpp -/

/-- the class `Access` of resource.cpp:7-27; its `operator==` always is false there, which does not matter for `is_serial` -/
def always : Custom where
  n := 1
  serial _ _ := true
  sync _ := true
  superset _ _ := true
  eq _ _ := true
  dflt := 0
  serial_comm _ _ := rfl
  sync_serial _ _ _ _ _ := rfl
  superset_serial _ _ _ _ _ := rfl
  superset_refl _ := rfl
  superset_trans _ _ _ _ _ := rfl
  superset_antisymm a b _ _ := by omega
  eq_iff a b := ⟨fun _ => by omega, fun _ => rfl⟩
  dflt_sync := rfl
  dflt_superset _ := rfl

def a : Res := ⟨1, 0⟩
def b : Res := ⟨2, 0⟩

def acc (r : Res) : RAccess := ⟨.custom always, r, (0 : Fin 1)⟩
def read (r : Res) : RAccess := (AGuard.io r false).toAccess
def write (r : Res) : RAccess := (AGuard.io r true).toAccess

/-- line 51 -/
example : RAccess.isSerial (acc a) (acc a) = true := by simp [RAccess.isSerial, acc, read, write, AGuard.toAccess, Acc.isSerial, always, a, b] <;> decide

/-- line 52 -/
example : RAccess.isSerial (acc b) (acc b) = true := by simp [RAccess.isSerial, acc, read, write, AGuard.toAccess, Acc.isSerial, always, a, b] <;> decide

/-- line 56 -/
example : RAccess.isSerial (acc a) (acc a) = true := by simp [RAccess.isSerial, acc, read, write, AGuard.toAccess, Acc.isSerial, always, a, b] <;> decide

/-- line 59 -/
example : RAccess.isSerial (acc a) (acc b) = false := by simp [RAccess.isSerial, acc, read, write, AGuard.toAccess, Acc.isSerial, always, a, b] <;> decide

/-- line 60 -/
example : RAccess.isSerial (acc b) (acc a) = false := by simp [RAccess.isSerial, acc, read, write, AGuard.toAccess, Acc.isSerial, always, a, b] <;> decide

/-- line 69 -/
example : RAccess.isSerial (read a) (read a) = false := by simp [RAccess.isSerial, acc, read, write, AGuard.toAccess, Acc.isSerial, always, a, b] <;> decide

/-- line 70 -/
example : RAccess.isSerial (read a) (write a) = true := by simp [RAccess.isSerial, acc, read, write, AGuard.toAccess, Acc.isSerial, always, a, b] <;> decide

/-- line 71 -/
example : RAccess.isSerial (write a) (read a) = true := by simp [RAccess.isSerial, acc, read, write, AGuard.toAccess, Acc.isSerial, always, a, b] <;> decide

/-- line 72 -/
example : RAccess.isSerial (write a) (write a) = true := by simp [RAccess.isSerial, acc, read, write, AGuard.toAccess, Acc.isSerial, always, a, b] <;> decide

/-- line 74 -/
example : RAccess.isSerial (read b) (read b) = false := by simp [RAccess.isSerial, acc, read, write, AGuard.toAccess, Acc.isSerial, always, a, b] <;> decide

/-- line 75 -/
example : RAccess.isSerial (read b) (write b) = true := by simp [RAccess.isSerial, acc, read, write, AGuard.toAccess, Acc.isSerial, always, a, b] <;> decide

/-- line 76 -/
example : RAccess.isSerial (write b) (read b) = true := by simp [RAccess.isSerial, acc, read, write, AGuard.toAccess, Acc.isSerial, always, a, b] <;> decide

/-- line 77 -/
example : RAccess.isSerial (write b) (write b) = true := by simp [RAccess.isSerial, acc, read, write, AGuard.toAccess, Acc.isSerial, always, a, b] <;> decide

/-- line 79 -/
example : RAccess.isSerial (read a) (read b) = false := by simp [RAccess.isSerial, acc, read, write, AGuard.toAccess, Acc.isSerial, always, a, b] <;> decide

/-- line 80 -/
example : RAccess.isSerial (read a) (write b) = false := by simp [RAccess.isSerial, acc, read, write, AGuard.toAccess, Acc.isSerial, always, a, b] <;> decide

/-- line 81 -/
example : RAccess.isSerial (write a) (read b) = false := by simp [RAccess.isSerial, acc, read, write, AGuard.toAccess, Acc.isSerial, always, a, b] <;> decide

/-- line 82 -/
example : RAccess.isSerial (write a) (write b) = false := by simp [RAccess.isSerial, acc, read, write, AGuard.toAccess, Acc.isSerial, always, a, b] <;> decide

/-- line 84 -/
example : RAccess.isSerial (read b) (read a) = false := by simp [RAccess.isSerial, acc, read, write, AGuard.toAccess, Acc.isSerial, always, a, b] <;> decide

/-- line 85 -/
example : RAccess.isSerial (read b) (write a) = false := by simp [RAccess.isSerial, acc, read, write, AGuard.toAccess, Acc.isSerial, always, a, b] <;> decide

/-- line 86 -/
example : RAccess.isSerial (write b) (read a) = false := by simp [RAccess.isSerial, acc, read, write, AGuard.toAccess, Acc.isSerial, always, a, b] <;> decide

/-- line 87 -/
example : RAccess.isSerial (write b) (write a) = false := by simp [RAccess.isSerial, acc, read, write, AGuard.toAccess, Acc.isSerial, always, a, b] <;> decide

/-! ### resource_user.cpp -/

def f1 : User := User.ofList 0 [(read a)]

def f2 : User := User.ofList 0 [(read a), (write a)]

def f3 : User := User.ofList 0 [(read b)]

def f4 : User := User.ofList 0 [(read b), (write b)]

def f5 : User := User.ofList 0 [(read a), (write a), (read b), (write b)]

/-- line 20 -/
example : f1.isSerial f1 = false := by decide

/-- line 21 -/
example : f1.isSerial f2 = true := by decide

/-- line 22 -/
example : f1.isSerial f3 = false := by decide

/-- line 23 -/
example : f1.isSerial f4 = false := by decide

/-- line 24 -/
example : f1.isSerial f5 = true := by decide

/-- line 26 -/
example : f2.isSerial f1 = true := by decide

/-- line 27 -/
example : f2.isSerial f2 = true := by decide

/-- line 28 -/
example : f2.isSerial f3 = false := by decide

/-- line 29 -/
example : f2.isSerial f4 = false := by decide

/-- line 30 -/
example : f2.isSerial f5 = true := by decide

/-- line 32 -/
example : f3.isSerial f1 = false := by decide

/-- line 33 -/
example : f3.isSerial f2 = false := by decide

/-- line 34 -/
example : f3.isSerial f3 = false := by decide

/-- line 35 -/
example : f3.isSerial f4 = true := by decide

/-- line 36 -/
example : f3.isSerial f5 = true := by decide

/-- line 38 -/
example : f4.isSerial f1 = false := by decide

/-- line 39 -/
example : f4.isSerial f2 = false := by decide

/-- line 40 -/
example : f4.isSerial f3 = true := by decide

/-- line 41 -/
example : f4.isSerial f4 = true := by decide

/-- line 42 -/
example : f4.isSerial f5 = true := by decide

/-- line 44 -/
example : f5.isSerial f1 = true := by decide

/-- line 45 -/
example : f5.isSerial f2 = true := by decide

/-- line 46 -/
example : f5.isSerial f3 = true := by decide

/-- line 47 -/
example : f5.isSerial f4 = true := by decide

/-- line 48 -/
example : f5.isSerial f5 = true := by decide

/-- line 51 -/
example : f1.isSuperset f1 = true := by decide

/-- line 52 -/
example : f1.isSuperset f2 = false := by decide

/-- line 53 -/
example : f1.isSuperset f3 = false := by decide

/-- line 54 -/
example : f1.isSuperset f4 = false := by decide

/-- line 55 -/
example : f1.isSuperset f5 = false := by decide

/-- line 57 -/
example : f2.isSuperset f1 = true := by decide

/-- line 58 -/
example : f2.isSuperset f2 = true := by decide

/-- line 59 -/
example : f2.isSuperset f3 = false := by decide

/-- line 60 -/
example : f2.isSuperset f4 = false := by decide

/-- line 61 -/
example : f2.isSuperset f5 = false := by decide

end RG.Conformance
