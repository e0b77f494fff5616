import Verif.Model.Bodies
import Verif.Model.Demotions
/-
What the bodies of tasks that give up accesses do with the data of the user.

As Model/Bodies.lean, for tasks that call `update_properties` (redGrapes.cpp:173-182) while they run. Every phase of a
body needs some accesses; the body goes on with a phase only as long as it has them, and gives up no access that the
current phase needs. This is what the user has to observe.

Simplification: there are no nested tasks.
-/
namespace RG.Demoting
open RG.Graph

/-- A machine that contains the task graph, and in which the accesses of the tasks can change. -/
structure Runtime where
  S : Type
  init : S
  step : S → S → Prop
  cfg : S → Cfg
  g : S → State

/-- The bodies of the tasks of a program. -/
structure Prog (M : Type) where
  /-- number of phases of the body of a task -/
  len : Nat → Nat
  /-- the next action of phase `(t, k)`: `none` if the phase is complete -/
  next : Nat × Nat → M → Option M
  /-- the accesses that phase `(t, k)` makes use of -/
  need : Nat × Nat → List RAccess

structure St (R : Runtime) (M : Type) where
  s : R.S
  m : M
  /-- how many phases of a task have been completed -/
  cur : Nat → Nat
  /-- the task is inside of a phase -/
  on : Nat → Bool

inductive Step (R : Runtime) {M : Type} (P : Prog M) : St R M → St R M → Prop
  /-- a step of the runtime system or a call of `update_properties`. A body ends (execute.cpp:37, 48) when its phases
  are complete; it does not give up what its current phase needs. -/
  | rt {x s'} (h : R.step x.s s')
      (hret : ∀ t, (R.g x.s).ex t = .running → (R.g s').ex t ≠ .running → x.cur t = P.len t ∧ x.on t = false)
      (hkeep : ∀ t, x.on t = true → P.need (t, x.cur t) ⊆ ((R.cfg x.s).user t).access →
        P.need (t, x.cur t) ⊆ ((R.cfg s').user t).access) :
      Step R P x { x with s := s' }
  /-- the next phase of a running body begins: the body has the accesses that the phase needs -/
  | begin {x t} (h : (R.g x.s).ex t = .running) (ho : x.on t = false) (hl : x.cur t < P.len t)
      (hm : P.need (t, x.cur t) ⊆ ((R.cfg x.s).user t).access) :
      Step R P x { x with on := upd x.on t true }
  /-- the next action of a running body -/
  | act {x t m'} (h : (R.g x.s).ex t = .running) (ho : x.on t = true) (hn : P.next (t, x.cur t) x.m = some m') :
      Step R P x { x with m := m' }
  /-- a phase is complete -/
  | stop {x t} (h : (R.g x.s).ex t = .running) (ho : x.on t = true) (hn : P.next (t, x.cur t) x.m = none) :
      Step R P x { x with cur := upd x.cur t (x.cur t + 1), on := upd x.on t false }

/-- the states that can be reached if the memory is `m0` at the beginning -/
inductive Reach (R : Runtime) {M : Type} (P : Prog M) (m0 : M) : St R M → Prop
  | init : Reach R P m0 ⟨R.init, m0, fun _ => 0, fun _ => false⟩
  | step {x x'} : Reach R P m0 x → Step R P x x' → Reach R P m0 x'

/-- The sequential program: the phases of the first `n` tasks, one task after the other. -/
def program {M : Type} (P : Prog M) (n : Nat) : List (Nat × Nat) :=
  (List.range n).flatMap fun t => (List.range (P.len t)).map fun k => (t, k)

/-- The machine of Model/Demotions.lean; `cfg0` are the accesses the tasks are submitted with. -/
def graph (cfg0 : Cfg) : Runtime where
  S := Cfg × State
  init := (cfg0, Graph.init)
  step s s' := DStep s.1 s.2 s'.1 s'.2
  cfg s := s.1
  g s := s.2

/-- The same on `N` workers. -/
def workers (cfg0 : Cfg) (N : Nat) : Runtime where
  S := Cfg × Sys.State
  init := (cfg0, Sys.init)
  step s s' := Sys.DStep N s.1 s.2 s'.1 s'.2
  cfg s := s.1
  g s := s.2.x.g

end RG.Demoting
