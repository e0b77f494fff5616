import Verif.Model.Access
/-
Resources, resource accesses and resource users:
/repo/redGrapes/resource/resource.hpp, resource_user.hpp, resource_user.cpp
and the patches of /repo/redGrapes/task/property/resource.hpp.

Simplification: `ChunkedList` (used by one thread at a time here) is a `List` in push order;
`Model/ChunkedList.lean` together with C26 shows that the code's list behaves like this.
-/
namespace RG

/-- resource.hpp:44-62 `ResourceBase`: identity and scope level. Two resource handles denote the
same resource iff the shared pointers to `ResourceBase` are equal, i.e. iff `addr` is equal.
The user list is part of `Model/Graph.lean`. -/
structure Res where
  addr : Nat
  scope : BitVec 32
  deriving DecidableEq, Repr

/-- resource.hpp:67-187 `ResourceAccess` (a pointer to `Resource<Policy>::Access`,
resource.hpp:246-295): the dynamic type (`access_type`), the resource and the policy value. -/
structure RAccess where
  ty : Policy
  res : Res
  acc : Acc ty

namespace RAccess

/-- resource.hpp:125-131 `ResourceAccess::is_serial` and resource.hpp:267-272
`Resource::Access::is_serial`. -/
def isSerial (a b : RAccess) : Bool :=
  if h : a.ty = b.ty then
    a.res == b.res && Acc.isSerial b.ty (h ▸ a.acc) b.acc
  else false

/-- resource.hpp:133-141 and resource.hpp:274-279 `is_superset_of` (first argument is `this`). -/
def isSuperset (a b : RAccess) : Bool :=
  if h : a.ty = b.ty then
    a.res == b.res && Acc.isSuperset b.ty (h ▸ a.acc) b.acc
  else false

/-- resource.hpp:181-186 and resource.hpp:281-287 `operator==`. -/
def eq (a b : RAccess) : Bool :=
  if h : a.ty = b.ty then
    a.res == b.res && Acc.eq b.ty (h ▸ a.acc) b.acc
  else false

/-- resource.hpp:143-146 and resource.hpp:262-265 `is_synchronizing`. -/
def isSync (a : RAccess) : Bool := Acc.isSync a.ty a.acc

/-- resource.hpp:174-179 `is_same_resource`. -/
def isSameResource (a b : RAccess) : Bool := decide (a.ty = b.ty) && a.res == b.res

end RAccess

/-- resource_user.hpp:39-58 `ResourceUser`. `scope` is the `uint8_t scope_level` (line 54).
`unique` are the resources of `unique_resources` (the `task_entry` iterator of each entry belongs
to `Model/Graph.lean`). Both lists are in push order. -/
structure User where
  scope : BitVec 8
  access : List RAccess
  unique : List Res

namespace User

/-- resource_user.cpp:15-20 `ResourceUser()`; the `unsigned` returned by `scope_depth()` is
stored in a `uint8_t`. -/
def empty (scopeDepth : BitVec 32) : User := ⟨scopeDepth.setWidth 8, [], []⟩

/-- resource_user.cpp:22-27 `ResourceUser(ResourceUser const&)`: the list "copy" constructor used
here, chunked_list.hpp:504-507, only logs an error and creates an empty list. -/
def copy (u : User) : User := ⟨u.scope, [], []⟩

/-- resource_user.cpp:38-44 `add_resource_access` -/
def addAccess (u : User) (ra : RAccess) : User :=
  { u with access := u.access ++ [ra], unique := u.unique ++ [ra.res] }

/-- resource_user.cpp:29-36 `ResourceUser(std::initializer_list<ResourceAccess>)` -/
def ofList (scopeDepth : BitVec 32) (l : List RAccess) : User :=
  l.foldl addAccess (empty scopeDepth)

/-- resource_user.cpp:46-49 `rm_resource_access`; `ChunkedList::erase` (chunked_list.hpp:604-609)
removes every element that is equal to the argument. -/
def rmAccess (u : User) (ra : RAccess) : User :=
  { u with access := u.access.filter fun x => !(x.eq ra) }

/-- resource_user.cpp:51-59 `build_unique_resource_list`: for every access, latest first, erase
all entries of its resource and push one. `ResourceUsageEntry::operator==` (line 10-13) compares
the resource only. -/
def buildUnique (u : User) : User :=
  { u with unique :=
      u.access.reverse.foldl (fun un ra => (un.filter fun r => !(r == ra.res)) ++ [ra.res]) u.unique }

/-- task/property/resource.hpp:37-44 `Builder::resources` -/
def resources (u : User) (l : List RAccess) : User :=
  ({ u with access := u.access ++ l }).buildUnique

/-- resource_user.cpp:61-69 `has_sync_access` -/
def hasSync (u : User) (r : Res) : Bool :=
  u.access.reverse.any fun ra => ra.res == r && ra.isSync

/-- resource_user.cpp:71-82 `ResourceUser::is_serial` -/
def isSerial (a b : User) : Bool :=
  a.access.reverse.any fun ra => b.access.reverse.any fun rb => ra.isSerial rb

/-- resource_user.cpp:84-99 `is_superset_of` (first argument is `this`). The comparison
`ra->scope_level() <= scope_level` promotes the `uint8_t` to `unsigned`. -/
def isSuperset (u a : User) : Bool :=
  a.access.reverse.all fun ra =>
    u.access.reverse.any (fun r => r.isSuperset ra) || !(decide (ra.res.scope ≤ u.scope.setWidth 32))

end User

/-- task/property/resource.hpp:81-103: one entry of a patch (`+=`/`-=`). -/
inductive Diff
  | add (ra : RAccess)
  | remove (ra : RAccess)

/-- task/property/resource.hpp:119-130: one round of the loop in `apply_patch`. -/
def Diff.apply (u : User) : Diff → User
  | .add ra => u.addAccess ra
  | .remove ra => u.rmAccess ra

/-- task/property/resource.hpp:115-134 `apply_patch`. First component: the resource user
afterwards (the code works in place); second component: `true` if the function returned normally,
`false` if it threw `std::runtime_error`. -/
def User.applyPatch (u : User) (patch : List Diff) : User × Bool :=
  let before := u.copy
  let after := patch.foldl Diff.apply u
  (after, before.isSuperset after)

end RG
