import Verif.Model.Demote
/-
The properties of a task and how they are put together: /repo/redGrapes/task/property/inherit.hpp, task/task.hpp:25-34,
the patches of task/property/*.hpp, and the calls by which a `TaskBuilder` sets properties
(task/property/resource.hpp:28-51, label.hpp:29-43, scheduler/tag_match_property.hpp:19-41, task/task_builder.hpp:117-121).
-/
namespace RG.TaskProps

/-! ### Composition -/

/-- A class that can be put into `TaskProperties1` (inherit.hpp:96): its data, its `Patch` and its `apply_patch`. `apply_patch` works in place:
the first component is the object afterwards, the second one says whether the function has returned normally (`true`) or has
thrown an exception (`false`). -/
structure Kind where
  Data : Type
  Patch : Type
  apply : Data → Patch → Data × Bool

/-- inherit.hpp:25-29 `TaskPropertiesInherit<T_Head, T_Tail...>`: an object has one subobject of each class -/
def Data : List Kind → Type
  | [] => Unit
  | k :: ks => k.Data × Data ks

/-- inherit.hpp:40-42 and 79 `Patch`: one subobject of each class -/
def Patch : List Kind → Type
  | [] => Unit
  | k :: ks => k.Patch × Patch ks

/-- inherit.hpp:57-61, 90-92 and 135-138 `apply_patch`: the first class, then the others; if the first one throws, the others are not reached. -/
def applyPatch : (ks : List Kind) → Data ks → Patch ks → Data ks × Bool
  | [], d, _ => (d, true)
  | k :: ks, d, p =>
    match k.apply d.1 p.1 with
    | (x, false) => ((x, d.2), false)
    | (x, true) => ((x, (applyPatch ks d.2 p.2).1), (applyPatch ks d.2 p.2).2)

/-- a subobject (the conversion of a reference to a base class) -/
def Data.get : {ks : List Kind} → Data ks → (i : Nat) → (h : i < ks.length) → ks[i].Data
  | _ :: _, d, 0, _ => d.1
  | _ :: _, d, i + 1, h => Data.get d.2 i (Nat.lt_of_succ_lt_succ h)

/-- a subobject of a patch -/
def Patch.get : {ks : List Kind} → Patch ks → (i : Nat) → (h : i < ks.length) → ks[i].Patch
  | _ :: _, p, 0, _ => p.1
  | _ :: _, p, i + 1, h => Patch.get p.2 i (Nat.lt_of_succ_lt_succ h)

/-- A property whose `apply_patch` is empty: id.hpp:78 (`IDProperty`), queue.hpp:40 (`QueueProperty`), graph.hpp:186
(`GraphProperty`), label.hpp:56-58, tag_match_property.hpp:54-56. -/
def Kind.fixed (D : Type) : Kind := ⟨D, Unit, fun d _ => (d, true)⟩

/-- task/property/resource.hpp:26-135 `ResourceProperty` -/
def Kind.resource : Kind := ⟨User, List Diff, User.applyPatch⟩

/-- task.hpp:25-34 `TaskProperties`; `us`: the classes in `REDGRAPES_TASK_PROPERTIES`. The types `I` and `G` are the data of `IDProperty` and `GraphProperty`. -/
def taskProperties (I G : Type) (us : List Kind) : List Kind :=
  Kind.fixed I :: Kind.resource :: Kind.fixed Unit :: Kind.fixed G :: us

/-! ### Building a patch -/

/-- An object of the class `TaskProperties1::Patch::Builder` (inherit.hpp:114-132). `target` is the reference `builder` that the subobjects for the single
properties have (resource.hpp:58): the number of the object whose patch they change. -/
structure PBuilder (P : Type) where
  patch : P
  target : Nat

inductive POp (P : Type)
  /-- inherit.hpp:118-120 `Builder()` -/
  | construct
  /-- inherit.hpp:122-126 `Builder(Builder const&)` -/
  | copy (b : Nat)
  /-- a member function of a subobject such as resource.hpp:64-78 `add_resources`, `remove_resources`: it changes the patch of `builder`, and returns a copy
  of `builder` (the return type is `PatchBuilder`, not a reference) -/
  | call (b : Nat) (f : P → P)
  /-- the end of the life of an object -/
  | destroy (b : Nat)

/-- One operation; objects are numbered in the order of their construction, `none` is an object that does not exist any more. Result `none`: the program uses an object
that does not exist (any more). -/
def pstep {P : Type} (empty : P) (h : List (Option (PBuilder P))) : POp P → Option (List (Option (PBuilder P)))
  | .construct => some (h ++ [some ⟨empty, h.length⟩])
  | .copy b =>
    match h[b]? with
    | some (some o) => some (h ++ [some ⟨o.patch, h.length⟩])
    | _ => none
  | .call b f =>
    match h[b]? with
    | some (some o) =>
      match h[o.target]? with
      | some (some x) => some (h.set o.target (some { x with patch := f x.patch }) ++ [some ⟨f x.patch, h.length⟩])
      | _ => none
    | _ => none
  | .destroy b =>
    match h[b]? with
    | some (some _) => some (h.set b none)
    | _ => none

def prun {P : Type} (empty : P) (h : List (Option (PBuilder P))) : List (POp P) → Option (List (Option (PBuilder P)))
  | [] => some h
  | o :: os => (pstep empty h o).bind fun h' => prun empty h' os

/-- task/property/resource.hpp:64-78: the calls for the resources -/
inductive PCall
  /-- `add_resources(list)` -/
  | add (l : List RAccess)
  /-- `remove_resources(list)` -/
  | remove (l : List RAccess)

/-- the loops in resource.hpp:67-68 and 75-76 with `+=` and `-=` (lines 94-102) -/
def PCall.apply (p : List Diff) : PCall → List Diff
  | .add l => l.foldl (fun p a => p ++ [.add a]) p
  | .remove l => l.foldl (fun p a => p ++ [.remove a]) p

/-- The expression `Patch::Builder().c1(…).c2(…)…`: each function is called for the object that the function before has returned; the temporary objects
are destroyed at the end of the full expression. Here: the operations before that. -/
def chain (cs : List PCall) : List (POp (List Diff)) :=
  .construct :: (cs.zipIdx.map fun (c, i) => .call i c.apply)

/-! ### The calls of a `TaskBuilder` -/

/-- The part of a task that the calls of a `TaskBuilder` set. -/
structure Props where
  /-- `ResourceProperty` -/
  user : User
  /-- label.hpp:27 -/
  label : String
  /-- tag_match_property.hpp:17 with `T_tag_count = 64` -/
  tags : BitVec 64
  /-- task_base.hpp:25 `enable_stack_switching` -/
  stackSwitching : Bool

inductive Call
  /-- task/property/resource.hpp:37-44 -/
  | resources (l : List RAccess)
  /-- task/property/resource.hpp:46-50 -/
  | addResource (a : RAccess)
  /-- label.hpp:38-42 -/
  | label (l : String)
  /-- tag_match_property.hpp:36-40 -/
  | tags (b : BitVec 64)
  /-- task_builder.hpp:117-121 -/
  | enableStackSwitching

/-- All calls change the one task of the builder, `builder.task`, and return the builder. -/
def Call.apply (p : Props) : Call → Props
  | .resources l => { p with user := p.user.resources l }
  | .addResource a => { p with user := p.user.addAccess a }
  | .label l => { p with label := l }
  | .tags b => { p with tags := p.tags ||| b }
  | .enableStackSwitching => { p with stackSwitching := true }

/-- task_builder.hpp:66-93: the properties when the constructor has returned; `args`: the accesses of the arguments in the order in which these are
evaluated -/
def Props.start (depth : BitVec 32) (args : List RAccess) : Props :=
  ⟨args.foldl User.addAccess (User.empty depth), "", 0, false⟩

/-- the constructor and the calls -/
def build (depth : BitVec 32) (args : List RAccess) (cs : List Call) : Props :=
  cs.foldl Call.apply (Props.start depth args)

end RG.TaskProps
