import Verif.Model.DynamicWorkers
/-
Executions of a program on workers, without a `Cfg` that is fixed in advance.

In Model/Dynamic and Model/DynamicWorkers `Cfg` contains the tasks that are submitted in the execution: it has to agree
with what the bodies submit, and an execution in which it does not is stuck. Here the tasks are recorded when they are
submitted: which accesses they have declared, and which body has submitted them (task_space.cpp:70-87, task.hpp
`space`, task_space.hpp `parent`). What a step of the runtime system does is determined by the tasks recorded so far.
-/
namespace RG.Dyn
open RG.Graph

variable {M : Type}

/-- a task that has not been submitted -/
def noUser : User := User.empty 0

/-- The tasks of an execution: what they have declared, and the bodies that have submitted them. Every body submits to
its own task space (redGrapes.hpp:177-193, task_space.hpp `current_task_space`), the main program to the root space. -/
def tasks (user : Nat → User) (own : Nat → Nat) : Cfg where
  user := user
  space := own
  parent
    | 0 => none
    | q + 1 => some q
  strict := false
  single := true

structure Conf (P : Prog M) where
  /-- accesses of the tasks that have been submitted -/
  user : Nat → User
  /-- the bodies that have submitted them -/
  own : Nat → Nat
  /-- the runtime system -/
  s : Sys.State
  m : M
  loc : Nat → P.B

def Conf.cfg {P : Prog M} (x : Conf P) : Cfg := tasks x.user x.own

/-- number of tasks that have been submitted -/
def Conf.n {P : Prog M} (x : Conf P) : Nat := x.s.x.g.n

/-- The steps, as in Model/DynamicWorkers. -/
inductive PStep (N : Nat) (P : Prog M) (K : Cfg → Sys.State → Sys.State → Prop) : Conf P → Conf P → Prop
  /-- A step of the runtime system. A body ends (execute.cpp:37, 48) when it returns, and it is paused (execute.cpp:39-47)
  when it waits for task `u`. -/
  | rt {x : Conf P} {s' : Sys.State} (h : Sys.Step x.cfg N x.s s') (hk : K x.cfg x.s s') (hn : s'.x.g.n = x.n)
      (hret : ∀ t, x.s.x.g.ex t = .running → s'.x.g.ex t ≠ .running → P.pt (x.loc (t + 1)) = .done)
      (hw : ∀ t u, x.s.x.w t = none → s'.x.w t = some u →
        ∃ w b, P.pt (x.loc (t + 1)) = .join w b ∧ x.own u = t + 1 ∧ w (rank x.cfg u) = true) :
      PStep N P K x { x with s := s' }
  /-- `emplace_task`, redGrapes.hpp:177-193: body `i` submits a task -/
  | submit {x : Conf P} {i : Nat} {s' : Sys.State} {d c b} (ho : OnWorker N x.s i) (hp : P.pt (x.loc i) = .spawn d c b)
      (h : Sys.Step (tasks (upd x.user x.n d) (upd x.own x.n i)) N x.s s') (hn : s'.x.g.n = x.n + 1) :
      PStep N P K x ⟨upd x.user x.n d, upd x.own x.n i, s', x.m, upd (upd x.loc i b) (x.n + 1) c⟩
  /-- the next action of a body -/
  | act {x : Conf P} {i f} (h : OnWorker N x.s i) (hp : P.pt (x.loc i) = .act f) :
      PStep N P K x { x with m := (f x.m).2, loc := upd x.loc i (f x.m).1 }
  /-- the tasks that a body waits for have ended -/
  | join {x : Conf P} {i w b} (h : OnWorker N x.s i) (hp : P.pt (x.loc i) = .join w b)
      (hc : ∀ t, t < x.n → x.own t = i → w (rank x.cfg t) = true → x.s.x.g.ex t = .ended) :
      PStep N P K x { x with loc := upd x.loc i b }

/-- the beginning of the main program -/
def Conf.start (P : Prog M) (m0 : M) : Conf P := ⟨fun _ => noUser, fun _ => 0, Sys.init, m0, fun _ => P.main⟩

/-- the states that can be reached on `N` workers if the memory is `m0` at the beginning -/
inductive PReach (N : Nat) (P : Prog M) (m0 : M) : Conf P → Prop
  | init : PReach N P m0 (Conf.start P m0)
  | step {x x'} : PReach N P m0 x → PStep N P (fun _ _ _ => True) x x' → PReach N P m0 x'

end RG.Dyn
