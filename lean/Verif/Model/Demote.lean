import Verif.Model.Graph
/-
Demotion of a running task: /repo/redGrapes/redGrapes.cpp:173-182 (Context::update_properties),
task/property/resource.hpp:115-134 (apply_patch, see Model/ResourceUser.lean),
task/property/graph.cpp:112-133 (GraphProperty::update_graph), scheduler/event.cpp:104-178 (notify).

The operation works on the state of Model/Graph.lean. Simplifications: the whole operation is one step
(the steps of the other threads that happen meanwhile are not interleaved with it); lists behave as
lists (C26).
-/
namespace RG.Graph

/-- event.cpp:104-178 -/
def State.notify (s : State) : Fol → State
  | .pre t => s.decPre t
  | .post q => s.decPost q

/-- chunked_list.hpp:604-609 `erase`: every element that is equal -/
def dropAll (f : Fol) (l : List Fol) : List Fol := l.filter (· ≠ f)

/-- chunked_list.hpp:604-609 `followers.erase(follower)`: every element that is equal; two `EventPtr`
are equal iff tag and task are equal (event.hpp:52-55). -/
def State.eraseFol (s : State) (p : Nat) (f : Fol) : State :=
  { s with
    fol := upd s.fol p (dropAll f (s.fol p))
    pnd := upd s.pnd p (dropAll f (s.pnd p)) }

/-- The task of a follower. -/
def Fol.task : Fol → Nat
  | .pre t => t
  | .post t => t

/-- graph.cpp:117-132: the loop over the followers of the post-event of `p`; `rem` are the elements the
iterator has not passed. Elements that are removed from the list are skipped by the iterator. -/
def updateLoop (cfg : Cfg) (p : Nat) : List Fol → State → State
  | [], s => s
  | f :: rem, s =>
    if cfg.serial p f.task then updateLoop cfg p rem s
    else updateLoop cfg p (dropAll f rem) ((s.eraseFol p f).notify f)
termination_by rem => rem.length
decreasing_by
  · simp
  · exact Nat.lt_succ_of_le (List.length_filter_le _ _)

/-- graph.cpp:112-133 `update_graph` -/
def updateGraph (cfg : Cfg) (p : Nat) (s : State) : State := updateLoop cfg p (s.fol p) s

/-- The program with the accesses of task `p` replaced. -/
def Cfg.setUser (cfg : Cfg) (p : Nat) (u : User) : Cfg := { cfg with user := upd cfg.user p u }

/-- redGrapes.cpp:173-182 `update_properties`, called by the body of task `p`: the accesses afterwards,
the state afterwards, and whether the call returned normally (otherwise it threw an exception in
`apply_patch`, after the access list has been changed). -/
def updateProperties (cfg : Cfg) (p : Nat) (patch : List Diff) (s : State) : Cfg × State × Bool :=
  let r := (cfg.user p).applyPatch patch
  let cfg' := cfg.setUser p r.1
  if r.2 then (cfg', updateGraph cfg' p s, true) else (cfg', s, false)

end RG.Graph
