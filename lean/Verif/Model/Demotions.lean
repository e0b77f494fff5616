import Verif.Model.Demote
import Verif.Model.System
/-
Programs whose tasks give up accesses while they run: the machine of Model/Graph.lean together with calls of
`update_properties` (redGrapes.cpp:173-182) by the bodies of running tasks, at any time and any number of times.
The accesses of the tasks are part of the state.

Simplifications: as in Model/Demote.lean, one call is one step; the patches only remove accesses
(resource.hpp:88-103 `operator-=`, see C09 for patches that add some).
-/
namespace RG.Graph

/-- a patch that only removes accesses -/
def Removes (patch : List Diff) : Prop := ∀ d ∈ patch, ∃ ra, d = .remove ra

/-- The circumstances in which `update_graph` is called for task `p`; `cfg'` are the accesses afterwards. Without any
one of the three conditions the demotion goes wrong, see C22. -/
structure Calm (cfg' : Cfg) (p : Nat) (s : State) : Prop where
  /-- no other thread is between the two statements of `add_follower`, event.cpp:74-75, for the post-event of `p` -/
  race : ∀ t i j rem, s.ph t ≠ .initing (.incr i (p, j) rem)
  /-- the tasks that are released have been added to the followers of `p` once -/
  once : ∀ t, cfg'.serial p t = false → (s.fol p).count (.pre t) ≤ 1
  /-- the parent of `p` still conflicts with `p` -/
  parent : ∀ q, cfg'.parentOf p = some q → cfg'.serial p q = true

/-- One step of the program: the accesses before, the state before, the accesses afterwards, the state afterwards. -/
inductive DStep : Cfg → State → Cfg → State → Prop
  /-- a step of Model/Graph.lean -/
  | step {cfg l s s'} (h : Step cfg l s s') : DStep cfg s cfg s'
  /-- redGrapes.cpp:173-182: the body of task `p` calls `update_properties`, which returns -/
  | demote {cfg s cfg' s' p patch} (hp : s.ex p = .running) (hrm : Removes patch)
      (h : updateProperties cfg p patch s = (cfg', s', true)) (hc : Calm cfg' p s) : DStep cfg s cfg' s'
  /-- it throws an exception, which is caught by the body -/
  | rejected {cfg s cfg' s' p patch} (hp : s.ex p = .running) (hrm : Removes patch)
      (h : updateProperties cfg p patch s = (cfg', s', false)) : DStep cfg s cfg' s'

/-- The accesses and states that can be reached by a program; `cfg0` are the accesses the tasks are submitted with. -/
inductive DReach (cfg0 : Cfg) : Cfg → State → Prop
  | init : DReach cfg0 cfg0 init
  | step {cfg s cfg' s'} (h : DReach cfg0 cfg s) (hs : DStep cfg s cfg' s') : DReach cfg0 cfg' s'

end RG.Graph

namespace RG.Sys
open RG.Graph (Cfg Removes updateProperties)

/-- The same for the machine of Model/System.lean: the bodies that call `update_properties` are executed by workers.
Tasks that become ready are given to `activate_task` (event.cpp:146-150), as those that are made ready by
notifications. -/
inductive DStep (N : Nat) : Cfg → State → Cfg → State → Prop
  /-- a step of Model/System.lean -/
  | step {cfg s s'} (h : Step cfg N s s') : DStep N cfg s cfg s'
  /-- redGrapes.cpp:173-182: worker `w` executes the body of task `p`, which calls `update_properties`; the call
  returns (`ok`) or throws an exception. `rel`: the tasks that become ready. If `p` has a parent then it still
  conflicts with `p`. -/
  | demote {cfg s cfg' g' w p patch ok rel} (hw : w < N) (h : s.pc w = .exec p) (hp : s.x.g.ex p = .running)
      (hrm : Removes patch) (hup : updateProperties cfg p patch s.x.g = (cfg', g', ok))
      (hpar : ∀ q, cfg.parentOf p = some q → cfg'.serial p q = true)
      (hrel : ∀ t, g'.handed t = s.x.g.handed t + rel.count t) :
      DStep N cfg s cfg' { s with x := { s.x with g := g' }, act := rel ++ s.act }

inductive DReach (N : Nat) (cfg0 : Cfg) : Cfg → State → Prop
  | init : DReach N cfg0 cfg0 init
  | step {cfg s cfg' s'} (h : DReach N cfg0 cfg s) (hs : DStep N cfg s cfg' s') : DReach N cfg0 cfg' s'

end RG.Sys
