import Verif.Model.ResourceUser
/-
Field resources and their guards: /repo/redGrapes/resource/fieldresource.hpp
-/
namespace RG

/-- fieldresource.hpp:83 `AreaGuard::Index` -/
abbrev Index (dim : Nat) := Fin dim → Size

/-- fieldresource.hpp:79-127 `AreaGuard` together with its static type: `isWrite = true` for
`WriteGuard` (180-227) and `FieldResource` (232-245), `false` for `ReadGuard` (130-177).
The shared object is left out; `res` is the identity of the underlying resource. -/
structure Guard (dim : Nat) where
  res : Res
  isWrite : Bool
  area : Fin dim → Area

namespace Guard
variable {dim : Nat}

/-- fieldresource.hpp:232-245 and 96-98: a fresh `FieldResource`; `m_area` is default-constructed. -/
def fresh (res : Res) : Guard dim := ⟨res, true, fun _ => Area.dflt⟩

/-- fieldresource.hpp:85-93 `contains` -/
def contains (g : Guard dim) (index : Index dim) : Bool :=
  (List.finRange dim).all fun d =>
    !(decide (index d < (g.area d).lo) || decide (index d ≥ (g.area d).hi))

/-- fieldresource.hpp:114-124 `make_area`; `none` stands for the thrown `std::out_of_range`. -/
def makeArea (g : Guard dim) (b e : Index dim) : Option (Fin dim → Area) :=
  let sub : Fin dim → Area := fun d => ⟨b d, e d⟩
  if (List.finRange dim).all fun d => (g.area d).isSuperset (sub d) then some sub else none

/-- fieldresource.hpp:141-144 and 191-194 `area(begin, end)`, with the constructors 170-172,
220-222 and 100-104. -/
def subArea (g : Guard dim) (b e : Index dim) : Option (Guard dim) :=
  (g.makeArea b e).map fun a => { g with area := a }

/-- fieldresource.hpp:146-152 and 196-202 `at(pos)`; `end[d]++` wraps around. -/
def at' (g : Guard dim) (pos : Index dim) : Option (Guard dim) :=
  g.subArea pos fun d => pos d + 1

/-- fieldresource.hpp:136-139 `read()` (for a `WriteGuard` the result is sliced to a
`ReadGuard`). -/
def read (g : Guard dim) : Guard dim := { g with isWrite := false }

/-- fieldresource.hpp:164-167 and 214-217 `operator ResourceAccess()` -/
def toAccess (g : Guard dim) : RAccess :=
  ⟨fieldPolicy dim, g.res,
    ((if g.isWrite then Mode.write else Mode.read : Mode), fun d => g.area d)⟩

/-- The calls that derive a guard from a guard. -/
inductive Restr (dim : Nat)
  | area (b e : Index dim)
  | at (pos : Index dim)
  | read

/-- One derivation; `none` is an exception. -/
def derive (g : Guard dim) : Restr dim → Option (Guard dim)
  | .area b e => g.subArea b e
  | .at pos => g.at' pos
  | .read => some g.read

/-- A chain of derivations; `none` if any of them throws. -/
def deriveAll (g : Guard dim) : List (Restr dim) → Option (Guard dim)
  | [] => some g
  | r :: rs => (g.derive r).bind fun g' => g'.deriveAll rs

/-- The containers of fieldresource.hpp:32-71, described by their extents: one extent for
`std::vector<T>` / `std::array<T, N>` and `(Nx, Ny)` for the nested array. -/
structure Extents (dim : Nat) where
  ext : Fin dim → Nat

/-- Outcome of an element access. -/
inductive Touch (dim : Nat)
  /-- `std::out_of_range` is thrown -/
  | throws
  /-- the container is indexed out of bounds: undefined behaviour -/
  | ub
  /-- the element at these coordinates is referenced -/
  | element (coord : Fin dim → Nat)

/-- fieldresource.hpp:106-112 `AreaGuard::get` followed by `trait::Field::get`
(43-46, 55-58, 67-70), which index the container without a bounds check. -/
def get (g : Guard dim) (c : Extents dim) (index : Index dim) : Touch dim :=
  if g.contains index then
    if (List.finRange dim).all fun d => decide ((index d).toNat < c.ext d) then
      .element fun d => (index d).toNat
    else .ub
  else .throws

end Guard
end RG
