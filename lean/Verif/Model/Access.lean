/-
Access policies: /repo/redGrapes/resource/access/{io,area,combine,field}.hpp

All policies that can be built from the library's building blocks and from classes of the user are described by `Policy`;
`Acc p` is the type of access values of policy `p`.
Simplifications: formatting (`fmt::formatter`) is in Model/Format.lean; `std::array`/`std::pair` become
functions from `Fin n` and pairs.
-/
namespace RG

/-- `std::size_t` on the supported 64-bit platforms. -/
abbrev Size := BitVec 64

/-- `std::numeric_limits<size_t>::max()`, area.hpp:29,39 -/
def sizeMax : Size := BitVec.allOnes 64

/-- io.hpp:26-32 `enum Mode` -/
inductive Mode
  | write | read | aadd | amul
  deriving DecidableEq, Repr

/-- io.hpp:42-45 `IOAccess::is_synchronizing` -/
def Mode.isSync (m : Mode) : Bool := m == .write

/-- io.hpp:52-57 `IOAccess::is_serial` -/
def Mode.isSerial (a b : Mode) : Bool :=
  !((a == .read && b == .read) || (a == .aadd && b == .aadd) || (a == .amul && b == .amul))

/-- io.hpp:59-62 `IOAccess::is_superset_of` -/
def Mode.isSuperset (a b : Mode) : Bool := a == .write || a == b

/-- area.hpp:24 `struct AreaAccess : std::array<size_t, 2>`; `lo = (*this)[0]`, `hi = (*this)[1]` -/
structure Area where
  lo : Size
  hi : Size
  deriving DecidableEq, Repr

/-- area.hpp:26-30 `AreaAccess()` -/
def Area.dflt : Area := ⟨0, sizeMax⟩

/-- area.hpp:36-40 `AreaAccess::is_synchronizing` -/
def Area.isSync (a : Area) : Bool := a.lo == 0 && a.hi == sizeMax

/-- area.hpp:42-45 `AreaAccess::is_serial` -/
def Area.isSerial (a b : Area) : Bool := !(decide (a.hi ≤ b.lo) || decide (a.lo ≥ b.hi))

/-- area.hpp:47-50 `AreaAccess::is_superset_of` -/
def Area.isSuperset (t a : Area) : Bool := decide (t.lo ≤ a.lo) && decide (t.hi ≥ a.hi)

/-- area.hpp:52-55 `AreaAccess::operator==` -/
def Area.eq (t o : Area) : Bool := t.lo == o.lo && t.hi == o.hi

/-- combine.hpp:26-32 `And_t`, `Or_t` -/
inductive Op
  | and | or
  deriving DecidableEq, Repr

/-- A policy class written by the user of the library ("custom access modes", README.md:110; the concept `AccessPolicy`,
resource.hpp:215-231). Its values are numbered. The laws are what the library expects from such a class (the
comment in resource.hpp asks for less, see C101). -/
structure Custom where
  n : Nat
  /-- `static bool is_serial(AccessPolicy, AccessPolicy)` -/
  serial : Fin n → Fin n → Bool
  /-- `bool is_synchronizing() const` -/
  sync : Fin n → Bool
  /-- `bool is_superset_of(AccessPolicy) const` -/
  superset : Fin n → Fin n → Bool
  /-- `bool operator==(AccessPolicy const&) const` -/
  eq : Fin n → Fin n → Bool
  /-- the default constructor -/
  dflt : Fin n
  serial_comm : ∀ a b, serial a b = serial b a
  sync_serial : ∀ s q t, sync s = true → serial q t = true → serial q s = true
  superset_serial : ∀ s c q, superset s c = true → serial q c = true → serial q s = true
  superset_refl : ∀ a, superset a a = true
  superset_trans : ∀ a b c, superset a b = true → superset b c = true → superset a c = true
  superset_antisymm : ∀ a b, superset a b = true → superset b a = true → a = b
  eq_iff : ∀ a b, eq a b = true ↔ a = b
  dflt_sync : sync dflt = true
  dflt_superset : ∀ a, superset dflt a = true

/-- Two classes are compared by what they do. -/
instance : DecidableEq Custom := fun a b =>
  match a, b with
  | ⟨n, f, g, h, e, d, _, _, _, _, _, _, _, _, _⟩, ⟨n', f', g', h', e', d', _, _, _, _, _, _, _, _, _⟩ =>
    if hn : n = n' then by
      subst hn
      refine decidable_of_iff ((∀ i j, f i j = f' i j) ∧ (∀ i, g i = g' i) ∧ (∀ i j, h i j = h' i j) ∧
        (∀ i j, e i j = e' i j) ∧ d = d') ⟨?_, ?_⟩
      · rintro ⟨h1, h2, h3, h4, h5⟩
        have h1 : f = f' := funext fun i => funext fun j => h1 i j
        have h2 : g = g' := funext h2
        have h3 : h = h' := funext fun i => funext fun j => h3 i j
        have h4 : e = e' := funext fun i => funext fun j => h4 i j
        subst h1 h2 h3 h4 h5
        rfl
      · intro heq
        cases heq
        exact ⟨fun _ _ => rfl, fun _ => rfl, fun _ _ => rfl, fun _ _ => rfl, rfl⟩
    else isFalse fun heq => hn (congrArg Custom.n heq)

/-- The policies that can be composed: `IOAccess`, `AreaAccess`, classes written by the user,
`ArrayAccess<Access, N, Op>` (combine.hpp:34-93) and `CombineAccess<Acc1, Acc2, Op>` (combine.hpp:95-134). -/
inductive Policy
  | io
  | area
  | custom (c : Custom)
  | array (p : Policy) (n : Nat) (op : Op)
  | combine (p q : Policy) (op : Op)
  deriving DecidableEq

/-- Access values of a policy. -/
def Acc : Policy → Type
  | .io => Mode
  | .area => Area
  | .custom c => Fin c.n
  | .array p n _ => Fin n → Acc p
  | .combine p q _ => Acc p × Acc q

/-- Default constructors: io.hpp:34-36, area.hpp:26-30, combine.hpp:37-41, combine.hpp:98-100 -/
def Acc.dflt : (p : Policy) → Acc p
  | .io => Mode.write
  | .area => Area.dflt
  | .custom c => c.dflt
  | .array p _ _ => fun _ => Acc.dflt p
  | .combine p q _ => (Acc.dflt p, Acc.dflt q)

/-- `is_synchronizing`: io.hpp:42-45, area.hpp:36-40, combine.hpp:47-54 (array),
combine.hpp:115-118 (pair). -/
def Acc.isSync : (p : Policy) → Acc p → Bool
  | .io, m => Mode.isSync m
  | .area, a => Area.isSync a
  | .custom c, a => c.sync a
  | .array p n _, a => (List.finRange n).all fun i => Acc.isSync p (a i)
  | .combine p q _, a => Acc.isSync p a.1 && Acc.isSync q a.2

/-- `is_serial`: io.hpp:52-57, area.hpp:42-45, combine.hpp:57-64 (array, Or),
combine.hpp:67-74 (array, And), combine.hpp:110-113 (pair, And), combine.hpp:120-123 (pair, Or). -/
def Acc.isSerial : (p : Policy) → Acc p → Acc p → Bool
  | .io, a, b => Mode.isSerial a b
  | .area, a, b => Area.isSerial a b
  | .custom c, a, b => c.serial a b
  | .array p n .or, a, b => (List.finRange n).any fun i => Acc.isSerial p (a i) (b i)
  | .array p n .and, a, b => (List.finRange n).all fun i => Acc.isSerial p (a i) (b i)
  | .combine p q .and, a, b => Acc.isSerial p a.1 b.1 && Acc.isSerial q a.2 b.2
  | .combine p q .or, a, b => Acc.isSerial p a.1 b.1 || Acc.isSerial q a.2 b.2

/-- `is_superset_of`: io.hpp:59-62, area.hpp:47-50, combine.hpp:76-83 (array),
combine.hpp:125-128 (pair). First value argument is `this`. -/
def Acc.isSuperset : (p : Policy) → Acc p → Acc p → Bool
  | .io, a, b => Mode.isSuperset a b
  | .area, a, b => Area.isSuperset a b
  | .custom c, a, b => c.superset a b
  | .array p n _, a, b => (List.finRange n).all fun i => Acc.isSuperset p (a i) (b i)
  | .combine p q _, a, b => Acc.isSuperset p a.1 b.1 && Acc.isSuperset q a.2 b.2

/-- `operator==`: io.hpp:47-50, area.hpp:52-55, combine.hpp:85-92 (array),
combine.hpp:130-133 (pair). -/
def Acc.eq : (p : Policy) → Acc p → Acc p → Bool
  | .io, a, b => (show Mode from a) == (show Mode from b)
  | .area, a, b => Area.eq a b
  | .custom c, a, b => c.eq a b
  | .array p n _, a, b => (List.finRange n).all fun i => Acc.eq p (a i) (b i)
  | .combine p q _, a, b => Acc.eq p a.1 b.1 && Acc.eq q a.2 b.2

/-- field.hpp:23-24 `FieldAccess<dim>` -/
abbrev fieldPolicy (dim : Nat) : Policy := .combine .io (.array .area dim .and) .and

end RG
