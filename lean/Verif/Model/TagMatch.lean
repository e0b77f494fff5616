/-
Tag-matching scheduler: /repo/redGrapes/scheduler/tag_match.hpp

`std::bitset<n>` is `BitVec n`. Sub-schedulers are opaque handles; what they do with a task is
recorded as a call.
-/
namespace RG.Tag

/-- tag_match.hpp:28-32 `SubScheduler`. -/
structure Sub (n : Nat) where
  supported : BitVec n
  s : Nat
  deriving DecidableEq, Repr

/-- tag_match.hpp:34: the vector of sub-schedulers. -/
abbrev TagMatch (n : Nat) := List (Sub n)

/-- `std::bitset::set(tag)`, throws `std::out_of_range` (here `none`) if the position is invalid. -/
def setTag {n : Nat} (b : BitVec n) (tag : Nat) : Option (BitVec n) :=
  if tag < n then some (b ||| (1#n <<< tag)) else none

/-- tag_match.hpp:43-45: the loop building the set of supported tags. -/
def tagSet {n : Nat} (tags : List Nat) : Option (BitVec n) :=
  tags.foldlM setTag (0#n)

/-- tag_match.hpp:36-39 `add_scheduler(bitset, s)`. -/
def addBits {n : Nat} (m : TagMatch n) (supported : BitVec n) (s : Nat) : TagMatch n :=
  m ++ [⟨supported, s⟩]

/-- tag_match.hpp:41-47 `add_scheduler(initializer_list, s)`. -/
def addList {n : Nat} (m : TagMatch n) (tags : List Nat) (s : Nat) : Option (TagMatch n) :=
  (tagSet tags).map fun b => addBits m b s

/-- tag_match.hpp:74-82 `get_matching_scheduler`. -/
def getMatching {n : Nat} : TagMatch n → BitVec n → Option Nat
  | [], _ => none
  | x :: xs, required => if x.supported &&& required = required then some x.s else getMatching xs required

/-- Observable result of `emplace_task` / `activate_task`. -/
inductive Outcome
  | emplacedAt (s : Nat)
  | activatedAt (s : Nat)
  | throws
  deriving DecidableEq, Repr

/-- tag_match.hpp:58-64 `emplace_task`. -/
def emplace {n : Nat} (m : TagMatch n) (required : BitVec n) : Outcome :=
  match getMatching m required with
  | some s => .emplacedAt s
  | none => .throws

/-- tag_match.hpp:66-72 `activate_task`. -/
def activate {n : Nat} (m : TagMatch n) (required : BitVec n) : Outcome :=
  match getMatching m required with
  | some s => .activatedAt s
  | none => .throws

/-- tag_match.hpp:49-56 `steal_task`: `answer s` is what the sub-scheduler would return; the result
contains the sub-schedulers that were asked, in order. -/
def steal {n : Nat} (answer : Nat → Option Nat) : TagMatch n → Option Nat × List Nat
  | [] => (none, [])
  | x :: xs =>
    match answer x.s with
    | some t => (some t, [x.s])
    | none => let r := steal answer xs; (r.1, x.s :: r.2)

/-- tag_match.hpp:99-106 `wake`: `answer s` is whether the sub-scheduler woke a sleeping thread. -/
def wake {n : Nat} (answer : Nat → Bool) : TagMatch n → Bool × List Nat
  | [] => (false, [])
  | x :: xs =>
    if answer x.s then (true, [x.s]) else let r := wake answer xs; (r.1, x.s :: r.2)

/-- tag_match.hpp:93-97 `wake_all`: the sub-schedulers that are told. -/
def wakeAll {n : Nat} (m : TagMatch n) : List Nat := m.map Sub.s

/-- scheduler.hpp:49-52 `IScheduler::task_dependency_type(Task const&, Task const&)`, the virtual
function that is called through the interface; the base implementation returns false. -/
def baseDependencyType : Bool := false

/-- tag_match.hpp:84-91: the function of the same name takes a non-const second argument and
therefore does not override the virtual one. -/
def ownDependencyType {n : Nat} (sub : Nat → Bool) (m : TagMatch n) (requiredB : BitVec n) :
    Option Bool :=
  (getMatching m requiredB).map sub

/-- The call `scheduler->task_dependency_type(a, b)` through `IScheduler` (property/graph.cpp:99,
event `add_dependency`): dispatches to the base implementation. -/
def virtualDependencyType {n : Nat} (_sub : Nat → Bool) (_m : TagMatch n) (_requiredB : BitVec n) :
    Option Bool :=
  some baseDependencyType

end RG.Tag
