import Verif.Model.TagMatch
/-
Creating a task with scheduling tags in one expression, with a tag-matching scheduler:
/repo/redGrapes/task/task_builder.hpp, task/task_space.cpp: submit,
/repo/redGrapes/scheduler/tag_match_property.hpp, tag_match.hpp.

One thread, so everything happens at once; what happens to submitted tasks is part of `Model/Graph.lean`.
-/
namespace RG.Submit

open RG.Tag

/-- The parts of the runtime that a submission changes. -/
structure World where
  /-- `task_count` of the space, task_space.hpp:26 -/
  count : Nat
  /-- the user list of each resource, oldest entry first, resource.hpp:56 -/
  users : Nat → List Nat
  /-- the tasks given to a scheduler, with the scheduler -/
  queued : List (Nat × Nat)

/-- The parts of a task that matter here. -/
structure Desc (n : Nat) where
  id : Nat
  /-- `unique_resources`, resource_user.hpp:58 -/
  resources : List Nat
  /-- `required_scheduler_tags`, tag_match_property.hpp:17 -/
  tags : BitVec n

/-- task_space.cpp:79-82: push the task to the user list of each of its resources. -/
def pushUsers (users : Nat → List Nat) (id : Nat) (rs : List Nat) : Nat → List Nat :=
  rs.reverse.foldl (fun us r => fun r' => if r' = r then us r ++ [id] else us r') users

/-- task_space.cpp:70-87 `submit`, with a scheduler of type `TagMatch`. The Boolean is `false` if
`emplace_task` has thrown. -/
def submit {n : Nat} (m : TagMatch n) (w : World) (t : Desc n) : World × Bool :=
  let w1 : World := { w with count := w.count + 1, users := pushUsers w.users t.id t.resources }
  match emplace m t.tags with
  | .emplacedAt s => ({ w1 with queued := w1.queued ++ [(s, t.id)] }, true)
  | _ => (w1, false)

/-- How an expression `emplace_task(…).scheduling_tags({…})…` ends. -/
inductive Last
  /-- the builder is dropped; its destructor submits the task, task_builder.hpp:111-115 -/
  | drop
  /-- `.submit()`, task_builder.hpp:123-132 -/
  | submit
  deriving DecidableEq

/-- What the program sees. -/
inductive Result
  /-- the expression has a value -/
  | value
  /-- an exception reaches the program -/
  | exception
  /-- an exception leaves a destructor (`noexcept` by default): `std::terminate` -/
  | terminate
  deriving DecidableEq

/-- Evaluation of the expression; `calls` are the calls of `scheduling_tags(std::initializer_list)`,
tag_match_property.hpp:28-34, still to come. If one of them throws, the temporary builder is destroyed,
and its destructor submits the task, task_builder.hpp:111-115. -/
def eval {n : Nat} (m : TagMatch n) (w : World) (t : Desc n) (last : Last) :
    List (List Nat) → World × Result
  | [] =>
    match last, submit m w t with
    | _, (w', true) => (w', .value)
    -- task_builder.hpp:126: the builder is empty already, its destructor does nothing
    | .submit, (w', false) => (w', .exception)
    | .drop, (w', false) => (w', .terminate)
  | tags :: calls =>
    match tagSet (n := n) tags with
    | some b => eval m w { t with tags := t.tags ||| b } last calls
    | none =>
      match submit m w t with
      | (w', true) => (w', .exception)
      | (w', false) => (w', .terminate)

/-- the builder as constructed: no tags required, task_builder.hpp:66-93 -/
def create {n : Nat} (m : TagMatch n) (w : World) (id : Nat) (resources : List Nat)
    (calls : List (List Nat)) (last : Last) : World × Result :=
  eval m w ⟨id, resources, 0#n⟩ last calls

end RG.Submit
