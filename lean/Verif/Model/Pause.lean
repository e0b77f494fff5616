import Verif.Util
/-
Pausing tasks until an event is reached: /repo/redGrapes/dispatch/thread/execute.cpp:37-49,
task/property/graph.hpp:131-135 (sg_pause), scheduler/event.cpp:67-77 (add_follower),
104-178 (EventPtr::notify), 87-93 (notify_followers), redGrapes.cpp:157-163 (Context::yield).

Any number of tasks wait for one event, each of them once; every access to shared memory is a step.
Simplifications: the event has one predecessor (it is reached with one notification); the list of
followers has atomic operations, and an iteration visits the elements that are in the list when it
begins.
-/
namespace RG.Pause

/-- The worker that executes the task when the task waits. -/
inductive Pc
  /-- the body is running -/
  | run
  /-- `Context::yield` has found the event not reached, the task has returned to the worker;
  before graph.hpp:133 -/
  | set
  /-- before event.cpp:71 -/
  | check
  /-- before event.cpp:74 -/
  | push
  /-- before event.cpp:75 -/
  | incr
  /-- before execute.cpp:44 -/
  | up
  /-- before execute.cpp:45 -/
  | notify
  /-- the worker has left `execute_task` -/
  | left
  deriving DecidableEq

/-- The thread that notifies the event. -/
inductive Npc
  /-- before event.cpp:108 -/
  | idle
  /-- before event.cpp:91 -/
  | begin
  /-- in the loop, event.cpp:92 -/
  | loop (rem : List Nat)
  deriving DecidableEq

structure State where
  reached : Bool
  npc : Npc
  /-- followers of the event: pre-events of tasks -/
  fol : List Nat
  pcs : Nat → Pc
  /-- state of the pre-event of a task -/
  pre : Nat → Nat
  /-- how many workers have been given the task and have not begun to execute it -/
  handed : Nat → Nat
  /-- how often the task has been resumed -/
  resumed : Nat → Nat

def init : State where
  reached := false
  npc := .idle
  fol := []
  pcs _ := .run
  pre _ := 0
  handed _ := 0
  resumed _ := 0

/-- Between the test of the event and the end of `execute_task`. -/
def between : Pc → Bool
  | .push | .incr | .up | .notify => true
  | _ => false

/-- One step; with `atomic` the event is not notified while a worker is between the test of the event
and the end of `execute_task`. -/
inductive Step (atomic : Bool) : State → State → Prop
  /-- redGrapes.cpp:161-162: the event is not reached, the task yields -/
  | yield {s t} (h : s.pcs t = .run) (hr : s.reached = false) :
      Step atomic s { s with pcs := upd s.pcs t .set }
  /-- graph.hpp:133 -/
  | set {s t} (h : s.pcs t = .set) :
      Step atomic s { s with pcs := upd s.pcs t .check, pre := upd s.pre t 1 }
  /-- event.cpp:71 -/
  | checkReached {s t} (h : s.pcs t = .check) (hr : s.reached = true) :
      Step atomic s { s with pcs := upd s.pcs t .up }
  | checkNot {s t} (h : s.pcs t = .check) (hr : s.reached = false) :
      Step atomic s { s with pcs := upd s.pcs t .push }
  /-- event.cpp:74 -/
  | push {s t} (h : s.pcs t = .push) :
      Step atomic s { s with pcs := upd s.pcs t .incr, fol := t :: s.fol }
  /-- event.cpp:75 -/
  | incr {s t} (h : s.pcs t = .incr) :
      Step atomic s { s with pcs := upd s.pcs t .up, pre := upd s.pre t (s.pre t + 1) }
  /-- execute.cpp:44 -/
  | up {s t} (h : s.pcs t = .up) :
      Step atomic s { s with pcs := upd s.pcs t .notify, pre := upd s.pre t (s.pre t + 1) }
  /-- execute.cpp:45, event.cpp:108, 146-150 -/
  | notify {s t} (h : s.pcs t = .notify) :
      Step atomic s { s with
        pcs := upd s.pcs t .left
        pre := upd s.pre t (s.pre t - 1)
        handed := upd s.handed t (if s.pre t = 2 then s.handed t + 1 else s.handed t) }
  /-- event.cpp:108 for the event -/
  | fire {s} (h : s.npc = .idle) (hr : s.reached = false)
      (ha : atomic = true → ∀ t, between (s.pcs t) = false) :
      Step atomic s { s with reached := true, npc := .begin }
  /-- event.cpp:91 -/
  | begin {s} (h : s.npc = .begin) : Step atomic s { s with npc := .loop s.fol }
  /-- event.cpp:92, 108, 146-150 -/
  | visit {s t rem} (h : s.npc = .loop (t :: rem)) :
      Step atomic s { s with
        npc := .loop rem
        pre := upd s.pre t (s.pre t - 1)
        handed := upd s.handed t (if s.pre t = 2 then s.handed t + 1 else s.handed t) }
  /-- execute.cpp:34, 37: a worker resumes the task -/
  | resume {s t} (h : 0 < s.handed t) :
      Step atomic s { s with
        handed := upd s.handed t (s.handed t - 1)
        resumed := upd s.resumed t (s.resumed t + 1)
        pre := upd s.pre t (s.pre t - 1) }

inductive Reach (atomic : Bool) : State → Prop
  | init : Reach atomic init
  | step {s s'} : Reach atomic s → Step atomic s s' → Reach atomic s'

inductive Steps (atomic : Bool) (s : State) : State → Prop
  | refl : Steps atomic s s
  | step {s' s''} : Steps atomic s s' → Step atomic s' s'' → Steps atomic s s''

end RG.Pause
