import Verif.Model.Graph
/-
What the bodies of the tasks do with the data of the user.

/repo/redGrapes/dispatch/thread/execute.cpp:37 (`task()`), task/task.hpp:72-98 (the body of a task is a function of
the user), redGrapes.hpp:177-193 (`emplace_task` inside of a body creates a child task).

The body of a task is a sequence of phases, and a phase is a sequence of actions on the memory. Between two phases the
body can submit child tasks, and it can wait for them. Bodies that run at the same time interleave action by action,
in any way; the runtime system only determines when a body starts. Local variables of bodies, results, and everything
else that is not managed by the runtime system are part of the memory.

Opposed to this is the sequential program: a call of `emplace_task` executes the task right away, as a function call.

Simplifications: the tree of tasks does not depend on the data (`Cfg` and `after` are fixed); threads outside of tasks
do not access the data while tasks are running.
-/
namespace RG.Bodies
open RG.Graph

/-- The bodies of the tasks of a program. -/
structure Prog (M : Type) where
  /-- number of phases of the body of a task -/
  len : Nat → Nat
  /-- a child task is submitted when its parent has completed that many phases -/
  after : Nat → Nat
  /-- the next action of phase `(t, k)`: `none` if the phase is complete -/
  next : Nat × Nat → M → Option M

/-! ### The sequential program -/

/-- phase `a` is executed from its beginning to its end -/
inductive Run {M : Type} (next : Nat × Nat → M → Option M) (a : Nat × Nat) : M → M → Prop
  | done {m} (h : next a m = none) : Run next a m m
  | step {m m1 m2} (h : next a m = some m1) (h' : Run next a m1 m2) : Run next a m m2

/-- phases are executed one after the other -/
inductive Exec {M : Type} (next : Nat × Nat → M → Option M) : List (Nat × Nat) → M → M → Prop
  | nil {m} : Exec next [] m m
  | cons {a l m m1 m2} (h : Run next a m m1) (h' : Exec next l m1 m2) : Exec next (a :: l) m m2

/-- the children that task `t` submits after `k` phases, among the first `n` tasks -/
def children {M : Type} (cfg : Cfg) (P : Prog M) (n t k : Nat) : List Nat :=
  (List.range n).filter fun c => decide (cfg.parentOf c = some t) && P.after c == k

/-- The phases of task `t` and of its descendants in the order of the sequential program: child tasks are executed
where they are submitted. The first number is a bound of the depth. -/
def inline {M : Type} (cfg : Cfg) (P : Prog M) (n : Nat) : Nat → Nat → List (Nat × Nat)
  | 0, _ => []
  | d + 1, t => (List.range (P.len t + 1)).flatMap fun k =>
      (children cfg P n t k).flatMap (inline cfg P n d) ++ if k < P.len t then [(t, k)] else []

/-- The phases of the first `n` tasks in the order of the sequential program. -/
def program {M : Type} (cfg : Cfg) (P : Prog M) (n : Nat) : List (Nat × Nat) :=
  ((List.range n).filter fun t => decide (cfg.parentOf t = none)).flatMap (inline cfg P n n)

/-! ### The parallel program -/

/-- Two phases are independent: an action of the one neither completes nor continues the other, and their actions can
be exchanged. -/
def Indep {M : Type} (next : Nat × Nat → M → Option M) (a b : Nat × Nat) : Prop :=
  ∀ m m', (next a m = some m' → (next b m = none ↔ next b m' = none) ∧
      ∀ m2, next b m' = some m2 → ∃ m1, next b m = some m1 ∧ next a m1 = some m2) ∧
    (next b m = some m' → (next a m = none ↔ next a m' = none) ∧
      ∀ m2, next a m' = some m2 → ∃ m1, next a m = some m1 ∧ next b m1 = some m2)

/-- all tasks that have been submitted by `c` and its descendants, and `c` itself, have returned -/
def Over (cfg : Cfg) (g : State) (c : Nat) : Prop := ∀ d, d < g.n → Descends cfg d c → g.ex d = .ended

/-- Task `t` may go on with phase `k`: the children that it has submitted and whose data the phase accesses are
over. The user has to ensure this, e.g. with `future.get()`. -/
def MayBegin {M : Type} (cfg : Cfg) (P : Prog M) (g : State) (t k : Nat) : Prop :=
  ∀ c d j, cfg.parentOf c = some t → Descends cfg d c → P.after c ≤ k → ¬ Indep P.next (t, k) (d, j) →
    c < g.n → Over cfg g c

/-- A machine that contains the task graph: Model/Graph itself or a machine that implements it. -/
structure Runtime where
  S : Type
  init : S
  step : S → S → Prop
  g : S → State

structure St (R : Runtime) (M : Type) where
  s : R.S
  m : M
  /-- how many phases of a task have been completed -/
  cur : Nat → Nat
  /-- the task is inside of a phase -/
  on : Nat → Bool

inductive Step (cfg : Cfg) (R : Runtime) {M : Type} (P : Prog M) : St R M → St R M → Prop
  /-- a step of the runtime system. A body ends (execute.cpp:37, 48) when its phases are complete. It submits a child
  task (redGrapes.hpp:177-193) between two phases. -/
  | rt {x s'} (h : R.step x.s s')
      (hret : ∀ t, (R.g x.s).ex t = .running → (R.g s').ex t ≠ .running → x.cur t = P.len t ∧ x.on t = false)
      (hsub : ∀ q, (R.g s').n ≠ (R.g x.s).n → cfg.parentOf (R.g x.s).n = some q →
        x.cur q = P.after (R.g x.s).n ∧ x.on q = false) :
      Step cfg R P x { x with s := s' }
  /-- the next phase of a running body begins -/
  | begin {x t} (h : (R.g x.s).ex t = .running) (ho : x.on t = false) (hl : x.cur t < P.len t)
      (hm : MayBegin cfg P (R.g x.s) t (x.cur t)) :
      Step cfg R P x { x with on := upd x.on t true }
  /-- the next action of a running body -/
  | act {x t m'} (h : (R.g x.s).ex t = .running) (ho : x.on t = true) (hn : P.next (t, x.cur t) x.m = some m') :
      Step cfg R P x { x with m := m' }
  /-- a phase is complete -/
  | stop {x t} (h : (R.g x.s).ex t = .running) (ho : x.on t = true) (hn : P.next (t, x.cur t) x.m = none) :
      Step cfg R P x { x with cur := upd x.cur t (x.cur t + 1), on := upd x.on t false }

/-- the states that can be reached if the memory is `m0` at the beginning -/
inductive Reach (cfg : Cfg) (R : Runtime) {M : Type} (P : Prog M) (m0 : M) : St R M → Prop
  | init : Reach cfg R P m0 ⟨R.init, m0, fun _ => 0, fun _ => false⟩
  | step {x x'} : Reach cfg R P m0 x → Step cfg R P x x' → Reach cfg R P m0 x'

/-- Model/Graph as a runtime system -/
def graph (cfg : Cfg) : Runtime where
  S := State
  init := Graph.init
  step s s' := ∃ l, Graph.Step cfg l s s'
  g s := s

/-- The executions in which the body of a task ends only after the bodies of its children have ended, because it
waits for their results. -/
def waiting (cfg : Cfg) : Runtime where
  S := State
  init := Graph.init
  step s s' := (∃ l, Graph.Step cfg l s s') ∧
    ∀ t c, s.ex t = .running → s'.ex t = .ended → c < s.n → cfg.parentOf c = some t → s.ex c = .ended
  g s := s

end RG.Bodies
