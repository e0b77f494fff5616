import Verif.Model.Bodies
import Verif.Model.Full
import Verif.Model.GraphList
/-
The machines that implement the task graph as runtime systems for programs with task bodies (Model/Bodies). All of
them allow more than the code does: the actions of a body that has begun and has not ended can happen at any time, also
while the body is paused.
-/
namespace RG.Bodies
open RG.Graph (Cfg)

/-- Model/System: workers, queues, sleeping; bodies wait for the results of their children -/
def workers (cfg : Cfg) (N : Nat) : Runtime where
  S := Sys.State
  init := Sys.init
  step := Sys.Step cfg N
  g s := s.x.g

/-- Model/Full: main thread, `barrier()`, `finalize()`, pausing of bodies -/
def whole (cfg : Cfg) (N : Nat) (atomic : Bool) : Runtime where
  S := Full.State
  init := Full.init
  step s s' := ∃ l, Full.Step cfg N atomic l s s'
  g s := s.p.y.x.g

/-- Model/GraphList: the task graph with lock-free lists; with `excl`, tasks are registered with a resource by one thread
at a time -/
def lists (cfg : Cfg) (N : Nat) (excl : Bool) : Runtime where
  S := GList.State
  init := GList.init
  step := GList.Step cfg N excl
  g s := s.g

end RG.Bodies
