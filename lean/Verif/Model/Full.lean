import Verif.Model.Program
/-
Whole programs with the individual steps of pausing a task body.

In Model/System a body that waits for a result leaves its worker in one step, and is given to a worker again when the
result has been set. Here these are the steps of Model/Pause, for all bodies and all results at the same time, so that
everything that can happen between them is contained:

/repo/redGrapes/redGrapes.cpp:157-163 (`yield` in a task), dispatch/thread/execute.cpp:34, 39-46, task/property/graph.hpp:
131-135 (sg_pause), scheduler/event.cpp:68-77 (add_follower), 87-93 (notify_followers), 104-150 (notify),
task/future.hpp:53-64 (`get` waits for the result-set-event), task/task.hpp:78-79, 96-97 (notifies it).

Simplifications, in addition to those of Model/Program: the state of the pre-event of a task after the task has been
started is kept apart from its state before (`pre` of Model/Graph, which is 0 from then on); the list of followers of a
result-set-event has atomic operations, and an iteration visits the elements that are in the list when it begins.
If a task that is not paused is given to a worker, this is an error state (two threads would run the body).
-/
namespace RG.Full

open RG.Graph (Cfg WState WStep)
open RG.Prog (Lbl)

/-- The worker that executes a task when the body waits. -/
inductive PPc
  /-- `Context::yield` has found the event not reached, the task has returned to the worker; before graph.hpp:133 -/
  | set
  /-- before event.cpp:71 -/
  | check
  /-- before event.cpp:74 -/
  | push
  /-- before event.cpp:75 -/
  | incr
  /-- before execute.cpp:44 -/
  | up
  /-- before execute.cpp:45 -/
  | notify
  deriving DecidableEq

/-- between the test of the event and the end of `execute_task` -/
def PPc.between : PPc → Bool
  | .set | .check => false
  | _ => true

/-- A worker in `execute_task` after the body of `t` has begun to wait for the result of `u`. -/
structure Pz where
  t : Nat
  u : Nat
  pc : PPc

/-- The thread that notifies the result-set-event of a task. -/
inductive RPc
  /-- the event has not been reached -/
  | idle
  /-- the event has been reached, before event.cpp:91 -/
  | begin
  /-- in the loop, event.cpp:92 -/
  | loop (rem : List Nat)
  deriving DecidableEq

structure State where
  p : Prog.State
  /-- what the worker does between `task()` and the end of `execute_task` if the body waits -/
  pz : Nat → Option Pz
  /-- state of the pre-event of a task that has been started -/
  ppre : Nat → Nat
  /-- the followers of the result-set-event of a task: pre-events of tasks -/
  rfol : Nat → List Nat
  rn : Nat → RPc
  /-- a task was given to a worker although its body is not paused -/
  bad : Bool
  /-- how often a body has begun to wait -/
  ys : Nat

def init : State := ⟨Prog.init, fun _ => none, fun _ => 0, fun _ => [], fun _ => .idle, false, 0⟩

/-- the body has ended, the result-set-event has been reached -/
def fired (p p' : Prog.State) (rn : Nat → RPc) (u : Nat) : RPc :=
  if p.y.x.g.ex u ≠ .ended ∧ p'.y.x.g.ex u = .ended then .begin else rn u

/-- execute.cpp:34 for a task that is continued -/
def resumed (p p' : Prog.State) (ppre : Nat → Nat) (t : Nat) : Nat :=
  if p.y.res t = true ∧ p'.y.res t = false then ppre t - 1 else ppre t

/-- event.cpp:146-150: `activate_task` is called for task `t`; it is an error if `t` is not paused, or if what it waits
for has not happened -/
inductive Hand (cfg : Cfg) (p : Prog.State) (t : Nat) : Prog.State → Bool → Prop
  | ok {x' u} (h : WStep cfg p.y.x x') (hg : x'.g = p.y.x.g) (h0 : p.y.x.w t = some u) (hu : p.y.x.g.ex u = .ended)
      (hw : x'.w = upd p.y.x.w t none) :
      Hand cfg p t { p with y := { p.y with x := x', act := t :: p.y.act, res := upd p.y.res t true } } false
  | bad (h : ∀ u, p.y.x.w t = some u → p.y.x.g.ex u ≠ .ended) : Hand cfg p t p true

/-- event.cpp:108, 146-150 for the pre-event of task `t` -/
inductive Notify (cfg : Cfg) (s : State) (t : Nat) : State → Prop
  | ready {p' b} (h : s.ppre t = 2) (hh : Hand cfg s.p t p' b) :
      Notify cfg s t { s with p := p', ppre := upd s.ppre t 1, bad := s.bad || b }
  | not (h : s.ppre t ≠ 2) : Notify cfg s t { s with ppre := upd s.ppre t (s.ppre t - 1) }

/-- One step. The label is the one of Model/Program, or `none` for the steps of pausing and notifying. With `atomic`,
no result is set while a worker that is about to wait for it is between the test of the event and the end of
`execute_task`. -/
inductive Step (cfg : Cfg) (N : Nat) (atomic : Bool) : Option Lbl → State → State → Prop
  /-- a step of Model/Program in which no body begins or ceases to wait; a worker that is inside of `execute_task` does
  not go on -/
  | prog {s l p'} (hb : s.bad = false) (h : Prog.Step cfg N l s.p p') (hw : p'.y.x.w = s.p.y.x.w)
      (hz : ∀ w z, s.pz w = some z → p'.y.pc w = s.p.y.pc w)
      (ha : atomic = true → ∀ w z, s.pz w = some z → z.pc.between = true → p'.y.x.g.ex z.u = s.p.y.x.g.ex z.u) :
      Step cfg N atomic (some l) s
        { s with p := p', rn := fired s.p p' s.rn, ppre := resumed s.p p' s.ppre }
  /-- redGrapes.cpp:161-162: the result has not been set, the body returns to the worker -/
  | yield {s x' w t u} (hb : s.bad = false) (hw : w < N) (h : s.p.y.pc w = .exec t) (hs : WStep cfg s.p.y.x x')
      (hg : x'.g = s.p.y.x.g) (h0 : s.p.y.x.w t = none) (hu : s.p.y.x.g.ex u ≠ .ended)
      (hww : x'.w = upd s.p.y.x.w t (some u)) :
      Step cfg N atomic none s { s with
        p := { s.p with y := { s.p.y with x := x', pc := upd s.p.y.pc w .popReady } }
        pz := upd s.pz w (some ⟨t, u, .set⟩)
        ys := s.ys + 1 }
  /-- graph.hpp:133 -/
  | set {s w t u} (hb : s.bad = false) (h : s.pz w = some ⟨t, u, .set⟩) :
      Step cfg N atomic none s { s with pz := upd s.pz w (some ⟨t, u, .check⟩), ppre := upd s.ppre t 1 }
  /-- event.cpp:71 -/
  | checkReached {s w t u} (hb : s.bad = false) (h : s.pz w = some ⟨t, u, .check⟩) (hr : s.p.y.x.g.ex u = .ended) :
      Step cfg N atomic none s { s with pz := upd s.pz w (some ⟨t, u, .up⟩) }
  | checkNot {s w t u} (hb : s.bad = false) (h : s.pz w = some ⟨t, u, .check⟩) (hr : s.p.y.x.g.ex u ≠ .ended) :
      Step cfg N atomic none s { s with pz := upd s.pz w (some ⟨t, u, .push⟩) }
  /-- event.cpp:74 -/
  | push {s w t u} (hb : s.bad = false) (h : s.pz w = some ⟨t, u, .push⟩) :
      Step cfg N atomic none s { s with pz := upd s.pz w (some ⟨t, u, .incr⟩), rfol := upd s.rfol u (t :: s.rfol u) }
  /-- event.cpp:75 -/
  | incr {s w t u} (hb : s.bad = false) (h : s.pz w = some ⟨t, u, .incr⟩) :
      Step cfg N atomic none s { s with pz := upd s.pz w (some ⟨t, u, .up⟩), ppre := upd s.ppre t (s.ppre t + 1) }
  /-- execute.cpp:44 -/
  | up {s w t u} (hb : s.bad = false) (h : s.pz w = some ⟨t, u, .up⟩) :
      Step cfg N atomic none s { s with pz := upd s.pz w (some ⟨t, u, .notify⟩), ppre := upd s.ppre t (s.ppre t + 1) }
  /-- execute.cpp:45-51 -/
  | notify {s s' w t u} (hb : s.bad = false) (h : s.pz w = some ⟨t, u, .notify⟩) (hn : Notify cfg s t s') :
      Step cfg N atomic none s { s' with pz := upd s.pz w none }
  /-- event.cpp:91 -/
  | begin {s u} (hb : s.bad = false) (h : s.rn u = .begin) :
      Step cfg N atomic none s { s with rn := upd s.rn u (.loop (s.rfol u)) }
  /-- event.cpp:92 -/
  | visit {s s' u t rem} (hb : s.bad = false) (h : s.rn u = .loop (t :: rem)) (hn : Notify cfg s t s') :
      Step cfg N atomic none s { s' with rn := upd s.rn u (.loop rem) }

inductive Reach (cfg : Cfg) (N : Nat) (atomic : Bool) : State → Prop
  | init : Reach cfg N atomic init
  | step {s s' l} : Reach cfg N atomic s → Step cfg N atomic l s s' → Reach cfg N atomic s'

inductive Steps (cfg : Cfg) (N : Nat) (atomic : Bool) (s : State) : State → Prop
  | refl : Steps cfg N atomic s s
  | step {s' s'' l} : Steps cfg N atomic s s' → Step cfg N atomic l s' s'' → Steps cfg N atomic s s''

/-- Steps that are no new request of the user, as in Model/Program. -/
def Work (cfg : Cfg) (N : Nat) (atomic : Bool) (s s' : State) : Prop :=
  Step cfg N atomic none s s' ∨ ∃ l, Step cfg N atomic (some l) s s' ∧ Prog.Work cfg N s.p s'.p

/-- Steps that do not end a future either. -/
def OwnWork (cfg : Cfg) (N : Nat) (atomic : Bool) (s s' : State) : Prop :=
  Work cfg N atomic s s' ∧ ∀ t, s.p.y.x.g.fut t = .held → s'.p.y.x.g.fut t = .held

end RG.Full
