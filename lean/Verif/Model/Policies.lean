import Verif.Model.ResourceUser
import Verif.Util
/-
Access policies written by users of the library: README.md:110 ("arbitrary, user-configurable access modes"), the concept
`AccessPolicy` in /repo/redGrapes/resource/resource.hpp:215-231.

A policy is any class with the functions that the library calls; no law is assumed. On top of this: the policies of
combine.hpp for any such classes, and how tasks find the earlier tasks they have to wait for, graph.cpp:43-74, with
`ResourceUser::is_serial` and `has_sync_access`, resource_user.cpp:61-82.

Simplifications: initialising a task is one step, in the order of submission (Model/Graph.lean has the small steps); all
tasks are in one task space; the values of a policy do not change. A task is in the list of users of each of its resources
once (otherwise it waits for itself, C16).
-/
namespace RG.Pols

/-- A policy class. -/
structure Pol where
  /-- the values, i.e. the accesses that can be asked for -/
  Val : Type
  /-- resource.hpp:225 `is_serial` -/
  serial : Val → Val → Bool
  /-- called in resource.hpp:264 `is_synchronizing`; not mentioned in the concept -/
  sync : Val → Bool
  /-- called in resource.hpp:278 `is_superset_of`; the concept calls it `is_superset` -/
  superset : Val → Val → Bool

/-- combine.hpp:95-134 `CombineAccess` of any two policies -/
def Pol.pair (p q : Pol) (op : Op) : Pol where
  Val := p.Val × q.Val
  serial a b := match op with
    | .and => p.serial a.1 b.1 && q.serial a.2 b.2
    | .or => p.serial a.1 b.1 || q.serial a.2 b.2
  sync a := p.sync a.1 && q.sync a.2
  superset a b := p.superset a.1 b.1 && q.superset a.2 b.2

/-- combine.hpp:34-93 `ArrayAccess` of any policy -/
def Pol.array (p : Pol) (n : Nat) (op : Op) : Pol where
  Val := Fin n → p.Val
  serial a b := match op with
    | .and => (List.finRange n).all fun i => p.serial (a i) (b i)
    | .or => (List.finRange n).any fun i => p.serial (a i) (b i)
  sync a := (List.finRange n).all fun i => p.sync (a i)
  superset a b := (List.finRange n).all fun i => p.superset (a i) (b i)

/-- a policy of the library (Model/Access.lean) -/
def Pol.lib (p : Policy) : Pol := ⟨Acc p, Acc.isSerial p, Acc.isSync p, Acc.isSuperset p⟩

/-- What the comment in resource.hpp:225-229 asks for: whether two accesses have to be in order does not depend on which is
the first, and a superset conflicts with whatever its subset conflicts with. -/
structure Pol.Documented (p : Pol) : Prop where
  comm : ∀ a b, p.serial a b = p.serial b a
  refl : ∀ a, p.superset a a = true
  superset : ∀ s c q, p.superset s c = true → p.serial q c = true → p.serial q s = true

/-- What is missing there: everything that conflicts with some access conflicts with each synchronizing one. -/
def Pol.SyncLaw (p : Pol) : Prop := ∀ s q t, p.sync s = true → p.serial q t = true → p.serial q s = true

section
variable {R : Type} [DecidableEq R] (pol : R → Pol)

/-- an access to one of the resources `R`, each of which has a policy -/
abbrev Access : Type := (r : R) × (pol r).Val

/-- the access list of a task -/
abbrev Tsk : Type := List (Access pol)

variable {pol}

/-- resource.hpp:125-131 and 267-272 -/
def serialA (x y : Access pol) : Bool :=
  if h : x.1 = y.1 then (pol y.1).serial (h ▸ x.2) y.2 else false

/-- resource_user.cpp:71-82 -/
def serial (a b : Tsk pol) : Bool := a.any fun x => b.any fun y => serialA x y

/-- resource_user.cpp:61-69 -/
def hasSync (a : Tsk pol) (r : R) : Bool := a.any fun x => decide (x.1 = r) && (pol x.1).sync x.2

/-- the task has an access to the resource -/
def uses (a : Tsk pol) (r : R) : Bool := a.any fun x => decide (x.1 = r)

/-- resource_user.cpp:51-59 `unique_resources` -/
def resources (a : Tsk pol) : List R := (a.map fun x => x.1).eraseDups

/-- graph.cpp:58-72: the loop over older users of the resource `r`; the result are the tasks to wait for -/
def scan (prog : Nat → Tsk pol) (t : Nat) (r : R) : List Nat → List Nat
  | [] => []
  | p :: l =>
    if serial (prog p) (prog t) then
      if hasSync (prog p) r then [p] else p :: scan prog t r l
    else scan prog t r l

structure State where
  /-- number of tasks that have been submitted and initialised -/
  n : Nat
  /-- the tasks a task waits for -/
  deps : Nat → List Nat
  started : Nat → Bool
  /-- the task has ended and has been removed from the lists of users -/
  done : Nat → Bool

def init : State := ⟨0, fun _ => [], fun _ => false, fun _ => false⟩

/-- resource.hpp `users`: latest first -/
def users (prog : Nat → Tsk pol) (s : State) (r : R) : List Nat :=
  (List.range s.n).reverse.filter fun i => uses (prog i) r && !s.done i

/-- The tasks are numbered in the order of their submission. -/
inductive Step (prog : Nat → Tsk pol) : State → State → Prop
  /-- graph.cpp:43-74 -/
  | submit {s} : Step prog s { s with
      n := s.n + 1
      deps := upd s.deps s.n ((resources (prog s.n)).flatMap fun r => scan prog s.n r (users prog s r)) }
  /-- the body begins -/
  | start {s t} (h : t < s.n) (h1 : s.started t = false) (h2 : ∀ d ∈ s.deps t, s.done d = true) :
      Step prog s { s with started := upd s.started t true }
  /-- the body ends; graph.cpp:84-97 -/
  | finish {s t} (h : s.started t = true) (h1 : s.done t = false) : Step prog s { s with done := upd s.done t true }

inductive Reach (prog : Nat → Tsk pol) : State → Prop
  | init : Reach prog init
  | step {s s'} (h : Reach prog s) (hs : Step prog s s') : Reach prog s'

end

/-- The resources of a program that uses a policy `p` beside the one of the library: any number of each. -/
def with' (p : Pol) : Bool × Nat → Pol
  | (true, _) => p
  | (false, _) => .lib .io

/-- For every program, no task runs (or has run) before an earlier one has ended to which it has to be in order. -/
def KeepsOrder (p : Pol) : Prop :=
  ∀ (prog : Nat → Tsk (with' p)) (s : State), Reach prog s → ∀ i j, i < j →
    serial (prog i) (prog j) = true → s.started j = true → s.done i = true

/-- Values with a last one, which stands for all of them: `none`. -/
def Pol.serialTop (p : Pol) (vals : List p.Val) : Option p.Val → Option p.Val → Bool
  | some a, some b => p.serial a b
  | some a, none => vals.any fun b => p.serial a b
  | none, some b => vals.any fun a => p.serial b a
  | none, none => vals.any fun a => vals.any fun b => p.serial a b

end RG.Pols
