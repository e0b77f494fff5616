import Verif.Model.ResourceUser
/-
What the library prints: /repo/redGrapes/resource/access/{io,area,combine}.hpp, resource/resource.hpp:348-366, resource/resource_user.hpp:62-86,
task/property/{id,resource,queue,graph,label,inherit}.hpp and scheduler/tag_match_property.hpp:61-92 (`fmt::formatter`), examples/config/redGrapes_config.hpp.

Texts are lists of characters. `fmt::format_to(out, "... {} ...", x)` appends the literal with the text of `x` in the place of `{}`; integers are printed in decimal.
-/
namespace RG.Format

abbrev Text := List Char

/-- `c!"ab"` is `['a', 'b']` -/
macro:max "c!" s:str : term => do
  let cs := s.getString.toList.map fun c => Lean.Syntax.mkCharLit c
  `([$(cs.toArray),*])

/-- characters '0' to '9' -/
def digit (d : Nat) : Char := Char.ofNat (48 + d)

/-- how `fmt` prints an unsigned integer -/
def dec (n : Nat) : Text := if n < 10 then [digit n] else dec (n / 10) ++ [digit (n % 10)]
termination_by n

/-- io.hpp:80-98 -/
def mode : Mode → Text
  | .read => c!"read"
  | .write => c!"write"
  | .aadd => c!"atomicAdd"
  | .amul => c!"atomicMul"

/-- io.hpp:98 -/
def io (m : Mode) : Text := c!"{ \"IOAccess\" : \"" ++ mode m ++ c!"\" }"

/-- area.hpp:75 -/
def area (a : Area) : Text :=
  c!"{ \"area\" : { \"begin\" : " ++ dec a.lo.toNat ++ c!", \"end\" : " ++ dec a.hi.toNat ++ c!" } }"

/-- the loops of combine.hpp:154-159, 180-185 and resource_user.hpp:76-81: elements with a separator between them -/
def sepBy (sep : Text) : List Text → Text
  | [] => []
  | [x] => x
  | x :: y :: l => x ++ sep ++ sepBy sep (y :: l)

def opName : Op → Text
  | .and => c!"and"
  | .or => c!"or"

/-- combine.hpp:152-161 and 178-187 -/
def array (op : Op) (l : List Text) : Text :=
  c!"{ \"" ++ opName op ++ c!"\" : [" ++ sepBy c!", " l ++ c!"] }"

/-- combine.hpp:203 and 218 -/
def pair (op : Op) (x y : Text) : Text :=
  c!"{ \"" ++ opName op ++ c!"\" : [ " ++ x ++ c!", " ++ y ++ c!" ] }"

/-- What the texts depend on besides the values themselves. -/
structure Env where
  /-- how the classes written by users print their values -/
  usr : (c : Custom) → Fin c.n → Text
  /-- resource.hpp:50: the number of a resource -/
  rid : Nat → BitVec 32

/-- The text of an access, resource.hpp:289-292 `mode_format`. -/
def access (e : Env) : (p : Policy) → Acc p → Text
  | .io, m => io m
  | .area, a => area a
  | .custom c, a => e.usr c a
  | .array p n op, a => array op ((List.finRange n).map fun i => access e p (a i))
  | .combine p q op, a => pair op (access e p a.1) (access e q a.2)

/-- resource.hpp:359-364 -/
def resourceAccess (e : Env) (r : RAccess) : Text :=
  c!"{ \"resourceID\" : " ++ dec (e.rid r.res.addr).toNat ++ c!", \"scopeLevel\" : " ++ dec r.res.scope.toNat ++ c!", \"mode\" : " ++
    access e r.ty r.acc ++ c!" }"

/-- resource_user.hpp:73-84: from the last access to the first one -/
def user (e : Env) (l : List RAccess) : Text :=
  c!"[" ++ sepBy c!"," (l.reverse.map (resourceAccess e)) ++ c!"]"

/-! ### Properties of a task -/

/-- What a task has of its properties. -/
structure Task where
  id : Nat
  accesses : List RAccess
  label : Text
  /-- required tags, tag_match_property.hpp:24 `std::bitset` -/
  tags : List Bool

/-- examples/config/redGrapes_config.hpp:20-38 -/
def tag : Nat → Text
  | 0 => c!"\"MPI\""
  | 1 => c!"\"CUDA\""
  | _ => c!"\"undefined\""

/-- tag_match_property.hpp:73-90: the tags that are set -/
def setTags : Nat → List Bool → List Nat
  | _, [] => []
  | i, b :: l => if b then i :: setTags (i + 1) l else setTags (i + 1) l

/-- The classes of properties. -/
inductive Prp
  | id | resource | queue | graph | label | tags
  deriving DecidableEq, Repr

/-- id.hpp:94, property/resource.hpp:168, queue.hpp:56, graph.hpp:202, label.hpp:74, tag_match_property.hpp:73-90 -/
def prp (e : Env) (t : Task) : Prp → Text
  | .id => c!"\"id\" : " ++ dec t.id
  | .resource => c!"\"resources\" : " ++ user e t.accesses
  | .queue => []
  | .graph => []
  | .label => c!"\"label\" : \"" ++ t.label ++ c!"\""
  | .tags => c!"\"schedulingTags\" : [" ++ sepBy c!", " ((setTags 0 t.tags).map tag) ++ c!"]"

/-- inherit.hpp:144-190: `TaskPropertiesInherit`; the last one without a separator -/
def inherit (e : Env) (t : Task) (l : List Prp) : Text := sepBy c!", " (l.map (prp e t))

/-- inherit.hpp:203-206: `TaskProperties1` -/
def properties (e : Env) (t : Task) (l : List Prp) : Text := c!"{ " ++ inherit e t l ++ c!" }"

/-- task.hpp:25-34: the properties of tasks, with the ones that a program adds through `REDGRAPES_TASK_PROPERTIES` -/
def taskProperties (more : List Prp) : List Prp := [.id, .resource, .queue, .graph] ++ more

/-- The text of a task, as in examples/4_refinements.cpp:48 and task_builder.hpp:128. -/
def task (e : Env) (t : Task) (more : List Prp) : Text := properties e t (taskProperties more)

end RG.Format
