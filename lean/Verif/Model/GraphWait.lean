import Verif.Model.Graph
/-
Waiting for the results of tasks inside of task bodies.

/repo/redGrapes/task/future.hpp:53-64 (`get` waits for the result-set-event of the task, then reads the
result), 48-51 (`is_ready`); redGrapes.cpp:157-170 (`yield` in a task pauses the body, so that the worker can
do something else; how a body is paused and continued is the subject of C23).

The machine of Model/Graph is extended by the futures that a task body can use. A body gets futures in three
ways: it submits a task, it has got them when it was created (captured variables and arguments), or they are
part of a result that it has read. A body that waits for a result neither ends, nor submits tasks, nor
creates events, until the result has been set.

Simplifications: futures can be copied (in the code they can only be moved, so that the code has fewer
executions); the result is set in the same step in which the body ends (execute.cpp:37, task.hpp:78-79, 96-97:
the result is set right after the user's function has returned).
-/
namespace RG.Graph

structure WState where
  g : State
  /-- the task whose result the body of a task waits for -/
  w : Nat → Option Nat
  /-- the futures that the body of a task can use -/
  know : Nat → List Nat
  /-- the futures that threads outside of tasks can use -/
  out : List Nat

def WState.init : WState := ⟨Graph.init, fun _ => none, fun _ => [], []⟩

inductive WStep (cfg : Cfg) : WState → WState → Prop
  /-- a thread outside of tasks submits a task, which captures the futures `ks`; task_builder.hpp:123-132 -/
  | submitOut {x l g' ks} (h : Step cfg l x.g g') (hn : g'.n = x.g.n + 1)
      (hp : cfg.parentOf x.g.n = none) (hk : ∀ u ∈ ks, u ∈ x.out) :
      WStep cfg x ⟨g', x.w, upd x.know x.g.n ks, x.g.n :: x.out⟩
  /-- the body of task `q` submits a task, which captures the futures `ks` -/
  | submitIn {x l g' ks q} (h : Step cfg l x.g g') (hn : g'.n = x.g.n + 1)
      (hp : cfg.parentOf x.g.n = some q) (hw : x.w q = none) (hk : ∀ u ∈ ks, u ∈ x.know q) :
      WStep cfg x ⟨g', x.w, upd (upd x.know q (x.g.n :: x.know q)) x.g.n ks, x.out⟩
  /-- any other step of Model/Graph: bodies that wait do not end and create no events -/
  | other {x l g'} (h : Step cfg l x.g g') (hn : g'.n = x.g.n)
      (he : ∀ t, x.w t ≠ none → x.g.ex t = .running → g'.ex t = .running)
      (hx : g'.nExt = x.g.nExt ∨ x.w (g'.owner x.g.nExt) = none) :
      WStep cfg x ⟨g', x.w, x.know, x.out⟩
  /-- future.hpp:55-58: the body of task `t` begins to wait for the result of `u`; it is not inside of
  `submit` -/
  | wait {x t u} (h : x.g.ex t = .running) (hw : x.w t = none) (hu : u ∈ x.know t)
      (hc : ∀ c i, c < x.g.n → cfg.parentOf c = some t → x.g.ph c ≠ .submitting i) :
      WStep cfg x ⟨x.g, upd x.w t (some u), x.know, x.out⟩
  /-- future.hpp:58-64: the result of `u` has been set, the body continues; the result contains the futures
  `ks` -/
  | wake {x t u ks} (hw : x.w t = some u) (hu : x.g.ex u = .ended) (hk : ∀ v ∈ ks, v ∈ x.know u) :
      WStep cfg x ⟨x.g, upd x.w t none, upd x.know t (ks ++ x.know t), x.out⟩
  /-- the same for a thread outside of tasks, if it learns something from the result -/
  | readOut {x u ks} (hne : ks ≠ []) (hu : u ∈ x.out) (he : x.g.ex u = .ended) (hk : ∀ v ∈ ks, v ∈ x.know u) :
      WStep cfg x ⟨x.g, x.w, x.know, ks ++ x.out⟩

inductive WReach (cfg : Cfg) : WState → Prop
  | init : WReach cfg WState.init
  | step {x x'} : WReach cfg x → WStep cfg x x' → WReach cfg x'

/-- any number of steps -/
inductive WSteps (cfg : Cfg) (x : WState) : WState → Prop
  | refl : WSteps cfg x x
  | step {x' x''} : WSteps cfg x x' → WStep cfg x' x'' → WSteps cfg x x''

end RG.Graph
