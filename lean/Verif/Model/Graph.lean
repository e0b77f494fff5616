import Verif.Model.ResourceUser
import Verif.Util
/-
The task graph: submission, initialisation, execution, notification and release of tasks.

/repo/redGrapes/task/task_space.cpp (submit, free_task, empty),
task/property/graph.cpp (make_event, init_graph, delete_from_resources, add_dependency),
scheduler/event.cpp (add_follower, notify_followers, EventPtr::notify),
dispatch/thread/execute.cpp (execute_task, without pausing), dispatch/thread/worker.cpp
(init_dependencies), scheduler/default_scheduler.cpp (activate_task, steal_task: which worker does
something is not modelled), task/future.hpp (get and destructor).

The model is an interleaving machine: every atomic access to a shared counter, every operation on a
shared list, and every lock operation is one step, and any number of threads make steps in any order.
A thread is not part of the state: the sequential pieces of code are attached to the task they work
on, e.g. the initialisation of task `t` is in `ph t`, the notification of the followers of its
post-event in `fl t`. Where one such piece is called from inside of another (the notification of a
parent's post-event from the notification loop of a child) the machine lets the two run concurrently:
it has all interleavings of the code, and some more.

Simplifications:
* the lists `users` and `followers` are lists with atomic operations (see C26 - C30 for their
  implementation);
* counters are unbounded (see C25 for the 16 bits of the code);
* edges between tasks start at post-events (`task_dependency_type` is `false` for all schedulers of
  the library, see C55 and scheduler.hpp:49-53);
* pausing a task (C23), demotion (C22) and waking up threads (C38 - C40) have their own models.
-/
namespace RG.Graph

/-- The program: the tasks are numbered in the order in which their submission begins. -/
structure Cfg where
  /-- accesses and resources of a task -/
  user : Nat → User
  /-- the task space of a task -/
  space : Nat → Nat
  /-- task_space.hpp `parent`: the task to which a task space belongs, `none` for the root space -/
  parent : Nat → Option Nat
  /-- assumption: a task body returns only after its child tasks have been initialised -/
  strict : Bool
  /-- assumption: tasks are submitted to a space by one thread at a time -/
  single : Bool

namespace Cfg
variable (cfg : Cfg)

/-- `unique_resources` in the order of iteration -/
def res (t : Nat) : List Res := (cfg.user t).unique.reverse

/-- task_space.cpp:34-37 -/
def serial (p t : Nat) : Bool := (cfg.user p).isSerial (cfg.user t)

/-- graph.cpp:69 `has_sync_access` -/
def sync (p : Nat) (r : Res) : Bool := (cfg.user p).hasSync r

def parentOf (t : Nat) : Option Nat := cfg.parent (cfg.space t)

end Cfg

/-- `c` is the task `p`, or a child of a descendant of it. -/
inductive Descends (cfg : Cfg) : Nat → Nat → Prop
  | refl {p} : Descends cfg p p
  | child {c q p} (h : cfg.parentOf c = some q) (h' : Descends cfg q p) : Descends cfg c p

/-- An element of a list of resource users: a task, and which of its entries of `unique_resources`. -/
abbrev Entry := Nat × Nat

/-- Program counter in `init_graph`, graph.cpp:37-82, and `init_dependencies`, worker.cpp:210-213. -/
inductive IPc
  /-- before locking the resource of entry `i`, graph.cpp:52 -/
  | next (i : Nat)
  /-- in the loop, graph.cpp:58; `rem`: the elements that have not been visited -/
  | scan (i : Nat) (rem : List Entry)
  /-- has found the post-event of `p` not reached, before pushing the follower, event.cpp:74 -/
  | link (i : Nat) (p : Entry) (rem : List Entry)
  /-- has pushed the follower, before incrementing the state, event.cpp:75 -/
  | incr (i : Nat) (p : Entry) (rem : List Entry)
  /-- left the loop, before releasing the lock, graph.cpp:73 -/
  | unlock (i : Nat)
  /-- before graph.cpp:77 -/
  | parent
  /-- before event.cpp:75 in the call of graph.cpp:80 -/
  | pincr (q : Nat)
  /-- before worker.cpp:213 -/
  | final
  deriving DecidableEq

/-- What has happened to a task until it is initialised. -/
inductive Ph
  | unsub
  /-- in the loop of `TaskSpace::submit`, task_space.cpp:81 -/
  | submitting (i : Nat)
  /-- in an emplacement queue -/
  | queued
  | initing (pc : IPc)
  | inited
  deriving DecidableEq

/-- The body of a task. -/
inductive Ex
  | none
  | running
  | ended
  deriving DecidableEq

/-- A follower, event.hpp:46-75 `EventPtr`. -/
inductive Fol
  | pre (t : Nat)
  | post (t : Nat)
  deriving DecidableEq

/-- Program counter in `EventPtr::notify` for a post-event whose state became 0, event.cpp:155-174. -/
inductive Fl
  | idle
  /-- in the loop of `delete_from_resources`, graph.cpp:87 -/
  | deleting (i : Nat)
  /-- in the loop of `notify_followers`, event.cpp:91 -/
  | notifying (rem : List Fol)
  /-- before event.cpp:171 -/
  | counting
  | done
  deriving DecidableEq

/-- An event created by `create_event`. -/
inductive Ext
  | none
  | pending
  /-- its state has been decremented to 0, before its follower is notified -/
  | fired
  | done
  deriving DecidableEq

/-- The future of a task. -/
inductive Fut
  | none
  | held
  /-- the result-get-event has been decremented to 0, before event.cpp:171 -/
  | taken
  | done
  deriving DecidableEq

/-- The memory of a task. -/
inductive Mem
  | alive
  /-- in `free_task`, before task_space.cpp:53 -/
  | freeing
  /-- before task_space.cpp:56 -/
  | counted
  | freed
  deriving DecidableEq

structure State where
  /-- number of tasks whose submission has begun -/
  n : Nat
  ph : Nat → Ph
  ex : Nat → Ex
  /-- state of the pre-event -/
  pre : Nat → Nat
  /-- state of the post-event -/
  post : Nat → Nat
  /-- how many workers have been given the task for execution and have not begun to execute it -/
  handed : Nat → Nat
  /-- ghost: how often the execution of the body has begun -/
  starts : Nat → Nat
  /-- followers of the post-event, latest first -/
  fol : Nat → List Fol
  fl : Nat → Fl
  /-- resource.hpp `users`, latest first -/
  users : Res → List Entry
  /-- resource.hpp `users_mutex`: the task being initialised that holds it -/
  lock : Res → Option Nat
  nExt : Nat
  /-- task that has created the event -/
  owner : Nat → Nat
  ext : Nat → Ext
  fut : Nat → Fut
  /-- task.hpp:45 `removal_countdown` -/
  cd : Nat → Nat
  mem : Nat → Mem
  /-- task_space.hpp `task_count` -/
  tasks : Nat → Nat
  /-- calls of `notify` that are going to read the `waker_id` of the event they have notified,
  event.cpp:160 -/
  late : List Nat
  /-- a failed assertion: event.cpp:139 or execute.cpp:32 -/
  fault : Bool
  /-- ghost: number of calls of `free_task` -/
  frees : Nat → Nat
  /-- ghost: followers that have not been notified -/
  pnd : Nat → List Fol
  /-- ghost: all elements ever pushed to `users` -/
  hist : Res → List Entry

def init : State where
  n := 0
  ph _ := .unsub
  ex _ := .none
  pre _ := 1
  post _ := 1
  handed _ := 0
  starts _ := 0
  fol _ := []
  fl _ := .idle
  users _ := []
  lock _ := none
  nExt := 0
  owner _ := 0
  ext _ := .none
  fut _ := .none
  cd _ := 2
  mem _ := .alive
  tasks _ := 0
  late := []
  fault := false
  frees _ := 0
  pnd _ := []
  hist _ := []

/-- event.cpp:104-160 `notify()` for a post-event: decrement the state; if it becomes 0 continue with
`delete_from_resources`, if it becomes 1 read the waker. -/
def State.decPost (s : State) (q : Nat) : State :=
  { s with
    post := upd s.post q (s.post q - 1)
    fl := upd s.fl q (if s.post q = 1 then .deleting 0 else s.fl q)
    late := if s.post q = 2 then q :: s.late else s.late
    fault := s.fault || s.post q == 0 }

/-- event.cpp:104-160 `notify()` for a pre-event, not claimed: if the state becomes 1 activate the task
(and read the waker afterwards). -/
def State.decPre (s : State) (t : Nat) : State :=
  { s with
    pre := upd s.pre t (s.pre t - 1)
    handed := upd s.handed t (if s.pre t = 2 then s.handed t + 1 else s.handed t)
    late := if s.pre t = 2 then t :: s.late else s.late
    fault := s.fault || s.pre t == 0 }

/-- event.cpp:171-172 -/
def State.decCd (s : State) (t : Nat) : State :=
  { s with
    cd := upd s.cd t (s.cd t - 1)
    mem := upd s.mem t (if s.cd t = 1 then .freeing else s.mem t)
    frees := upd s.frees t (if s.cd t = 1 then s.frees t + 1 else s.frees t) }

/-- the label of a step: the tasks whose memory is accessed; `late` marks the reads of event.cpp:160 -/
structure Lbl where
  tasks : List Nat
  late : Bool := false

/-- the elements of a user list that are older than `e`: graph.cpp:55-58 -/
def olderThan (e : Entry) : List Entry → List Entry
  | [] => []
  | x :: l => if x = e then l else olderThan e l

open State in
inductive Step (cfg : Cfg) : Lbl → State → State → Prop
  /-- task_space.cpp:70-76: the next task, in its space. A child task is submitted by the body of its
  parent. -/
  | beginSubmit {s} (hp : ∀ q, cfg.parentOf s.n = some q → s.ex q = .running)
      (h1 : cfg.single = true → ∀ c i, c < s.n → cfg.space c = cfg.space s.n → s.ph c ≠ .submitting i) :
      Step cfg ⟨[s.n], false⟩ s { s with
        n := s.n + 1
        ph := upd s.ph s.n (.submitting 0)
        tasks := upd s.tasks (cfg.space s.n) (s.tasks (cfg.space s.n) + 1) }
  /-- task_space.cpp:83 -/
  | pushUser {s t i r} (h : s.ph t = .submitting i) (hr : (cfg.res t)[i]? = some r) :
      Step cfg ⟨[t], false⟩ s { s with
        ph := upd s.ph t (.submitting (i + 1))
        users := upd s.users r ((t, i) :: s.users r)
        hist := upd s.hist r ((t, i) :: s.hist r) }
  /-- task_space.cpp:86, task_builder.hpp:131 -/
  | emplace {s t i} (h : s.ph t = .submitting i) (hr : i = (cfg.res t).length) :
      Step cfg ⟨[t], false⟩ s { s with ph := upd s.ph t .queued, fut := upd s.fut t .held }
  /-- worker.cpp:206-210, default_scheduler.cpp:168-170 -/
  | startInit {s t} (h : s.ph t = .queued) :
      Step cfg ⟨[t], false⟩ s { s with
        ph := upd s.ph t (.initing (.next 0)), pre := upd s.pre t (s.pre t + 1) }
  /-- graph.cpp:52-57 -/
  | lockRes {s t i r} (h : s.ph t = .initing (.next i)) (hr : (cfg.res t)[i]? = some r)
      (hl : s.lock r = none) :
      Step cfg ⟨[t], false⟩ s { s with
        ph := upd s.ph t (.initing (.scan i (olderThan (t, i) (s.users r))))
        lock := upd s.lock r (some t) }
  /-- graph.cpp:63-64 -/
  | scanParent {s t i p rem} (h : s.ph t = .initing (.scan i (p :: rem)))
      (hp : cfg.parentOf t = some p.1) :
      Step cfg ⟨[t], false⟩ s { s with ph := upd s.ph t (.initing (.unlock i)) }
  /-- graph.cpp:66: other space, or no conflict -/
  | scanSkip {s t i p rem} (h : s.ph t = .initing (.scan i (p :: rem)))
      (hp : cfg.parentOf t ≠ some p.1)
      (hs : ¬ (cfg.space p.1 = cfg.space t ∧ cfg.serial p.1 t = true)) :
      Step cfg ⟨[t, p.1], false⟩ s { s with ph := upd s.ph t (.initing (.scan i rem)) }
  /-- graph.cpp:66-70, 108, event.cpp:71: already finished -/
  | scanReached {s t i p rem r} (h : s.ph t = .initing (.scan i (p :: rem)))
      (hr : (cfg.res t)[i]? = some r) (hp : cfg.parentOf t ≠ some p.1)
      (hs : cfg.space p.1 = cfg.space t ∧ cfg.serial p.1 t = true) (h0 : s.post p.1 = 0) :
      Step cfg ⟨[t, p.1], false⟩ s { s with
        ph := upd s.ph t (.initing (if cfg.sync p.1 r then .unlock i else .scan i rem)) }
  /-- graph.cpp:66-68, 108, event.cpp:71: not finished -/
  | scanLink {s t i p rem} (h : s.ph t = .initing (.scan i (p :: rem)))
      (hp : cfg.parentOf t ≠ some p.1)
      (hs : cfg.space p.1 = cfg.space t ∧ cfg.serial p.1 t = true) (h0 : s.post p.1 ≠ 0) :
      Step cfg ⟨[t, p.1], false⟩ s { s with ph := upd s.ph t (.initing (.link i p rem)) }
  /-- event.cpp:74 -/
  | link {s t i p rem} (h : s.ph t = .initing (.link i p rem)) :
      Step cfg ⟨[t, p.1], false⟩ s { s with
        ph := upd s.ph t (.initing (.incr i p rem))
        fol := upd s.fol p.1 (.pre t :: s.fol p.1)
        pnd := upd s.pnd p.1 (.pre t :: s.pnd p.1) }
  /-- event.cpp:75, graph.cpp:69-70 -/
  | incr {s t i p rem r} (h : s.ph t = .initing (.incr i p rem)) (hr : (cfg.res t)[i]? = some r) :
      Step cfg ⟨[t, p.1], false⟩ s { s with
        ph := upd s.ph t (.initing (if cfg.sync p.1 r then .unlock i else .scan i rem))
        pre := upd s.pre t (s.pre t + 1) }
  /-- graph.cpp:58: end of the list -/
  | scanEnd {s t i} (h : s.ph t = .initing (.scan i [])) :
      Step cfg ⟨[t], false⟩ s { s with ph := upd s.ph t (.initing (.unlock i)) }
  /-- graph.cpp:73 -/
  | unlock {s t i r} (h : s.ph t = .initing (.unlock i)) (hr : (cfg.res t)[i]? = some r) :
      Step cfg ⟨[t], false⟩ s { s with
        ph := upd s.ph t (.initing (.next (i + 1))), lock := upd s.lock r none }
  /-- graph.cpp:40: end of the resources -/
  | resEnd {s t i} (h : s.ph t = .initing (.next i)) (hr : i = (cfg.res t).length) :
      Step cfg ⟨[t], false⟩ s { s with ph := upd s.ph t (.initing .parent) }
  /-- graph.cpp:77 -/
  | noParent {s t} (h : s.ph t = .initing .parent) (hp : cfg.parentOf t = none) :
      Step cfg ⟨[t], false⟩ s { s with ph := upd s.ph t (.initing .final) }
  /-- graph.cpp:80, event.cpp:71-74 -/
  | parentPush {s t q} (h : s.ph t = .initing .parent) (hp : cfg.parentOf t = some q) :
      Step cfg ⟨[t, q], false⟩ s { s with
        ph := upd s.ph t (.initing (.pincr q))
        fol := upd s.fol t (.post q :: s.fol t)
        pnd := upd s.pnd t (.post q :: s.pnd t) }
  /-- event.cpp:75 -/
  | parentIncr {s t q} (h : s.ph t = .initing (.pincr q)) :
      Step cfg ⟨[t, q], false⟩ s { s with
        ph := upd s.ph t (.initing .final), post := upd s.post q (s.post q + 1) }
  /-- worker.cpp:213 (default_scheduler.cpp:173): `notify(claimed = true)`; if the task is ready the
  worker keeps it -/
  | final {s t} (h : s.ph t = .initing .final) :
      Step cfg ⟨[t], false⟩ s { s with
        ph := upd s.ph t .inited
        pre := upd s.pre t (s.pre t - 1)
        handed := upd s.handed t (if s.pre t = 2 then s.handed t + 1 else s.handed t)
        fault := s.fault || s.pre t == 0 }
  /-- execute.cpp:27-37 -/
  | start {s t} (h : 0 < s.handed t) :
      Step cfg ⟨[t], false⟩ s { s with
        ex := upd s.ex t .running
        handed := upd s.handed t (s.handed t - 1)
        starts := upd s.starts t (s.starts t + 1)
        pre := upd s.pre t (s.pre t - 1)
        fault := s.fault || s.pre t != 1 }
  /-- graph.cpp:24-29, called by the running task -/
  | createEvent {s t} (h : s.ex t = .running) :
      Step cfg ⟨[t], false⟩ s { s with
        nExt := s.nExt + 1
        owner := upd s.owner s.nExt t
        ext := upd s.ext s.nExt .pending
        post := upd s.post t (s.post t + 1) }
  /-- the user notifies an event, once; event.cpp:108 -/
  | extNotify {s k} (h : s.ext k = .pending) :
      Step cfg ⟨[], false⟩ s { s with ext := upd s.ext k .fired }
  /-- event.cpp:165, 92: its follower is the post-event of the task -/
  | extFollower {s k} (h : s.ext k = .fired) :
      Step cfg ⟨[s.owner k], false⟩ s
        (decPost { s with ext := upd s.ext k .done } (s.owner k))
  /-- execute.cpp:37, 48: the body returns. The thread that runs it is not inside of `submit()`. -/
  | bodyEnd {s t} (h : s.ex t = .running)
      (hc : ∀ c i, c < s.n → cfg.parentOf c = some t → s.ph c ≠ .submitting i)
      (hs : cfg.strict = true → ∀ c, c < s.n → cfg.parentOf c = some t → s.ph c = .inited) :
      Step cfg ⟨[t], false⟩ s (decPost { s with ex := upd s.ex t .ended } t)
  /-- graph.cpp:87-95: one round of the loop; the critical section consists of one operation, so it is
  one step, possible while the lock is free -/
  | delete {s t i r} (h : s.fl t = .deleting i) (hr : (cfg.res t)[i]? = some r)
      (hl : s.lock r = none) :
      Step cfg ⟨[t], false⟩ s { s with
        fl := upd s.fl t (.deleting (i + 1)), users := upd s.users r ((s.users r).erase (t, i)) }
  /-- event.cpp:165, 91 -/
  | deleteEnd {s t i} (h : s.fl t = .deleting i) (hr : i = (cfg.res t).length) :
      Step cfg ⟨[t], false⟩ s { s with fl := upd s.fl t (.notifying (s.fol t)) }
  /-- event.cpp:92 -/
  | notifyPre {s p t rem} (h : s.fl p = .notifying (.pre t :: rem)) :
      Step cfg ⟨[p, t], false⟩ s
        (decPre { s with fl := upd s.fl p (.notifying rem), pnd := upd s.pnd p (s.pnd p).tail } t)
  /-- event.cpp:92 -/
  | notifyPost {s p q rem} (h : s.fl p = .notifying (.post q :: rem)) :
      Step cfg ⟨[p, q], false⟩ s
        (decPost { s with fl := upd s.fl p (.notifying rem), pnd := upd s.pnd p (s.pnd p).tail } q)
  /-- event.cpp:91: end of the followers -/
  | notifyEnd {s t} (h : s.fl t = .notifying []) :
      Step cfg ⟨[t], false⟩ s { s with fl := upd s.fl t .counting }
  /-- event.cpp:171-172 for the post-event -/
  | countPost {s t} (h : s.fl t = .counting) :
      Step cfg ⟨[t], false⟩ s (decCd { s with fl := upd s.fl t .done } t)
  /-- future.hpp:43, 61, 113: the future is read or dropped; event.cpp:108 -/
  | takeFuture {s t} (h : s.fut t = .held) :
      Step cfg ⟨[t], false⟩ s { s with fut := upd s.fut t .taken }
  /-- event.cpp:171-172 for the result-get-event -/
  | countGet {s t} (h : s.fut t = .taken) :
      Step cfg ⟨[t], false⟩ s (decCd { s with fut := upd s.fut t .done } t)
  /-- task_space.cpp:53 -/
  | freeCount {s t} (h : s.mem t = .freeing) :
      Step cfg ⟨[t], false⟩ s { s with
        mem := upd s.mem t .counted
        tasks := upd s.tasks (cfg.space t) (s.tasks (cfg.space t) - 1) }
  /-- task_space.cpp:55-60 -/
  | free {s t} (h : s.mem t = .counted) :
      Step cfg ⟨[t], false⟩ s { s with mem := upd s.mem t .freed }
  /-- event.cpp:160: reads the waker of an event after having notified it -/
  | lateRead {s t} (h : t ∈ s.late) :
      Step cfg ⟨[t], true⟩ s { s with late := s.late.erase t }

inductive Reach (cfg : Cfg) : State → Prop
  | init : Reach cfg init
  | step {s s' l} : Reach cfg s → Step cfg l s s' → Reach cfg s'

/-- any number of steps -/
inductive Steps (cfg : Cfg) (s : State) : State → Prop
  | refl : Steps cfg s s
  | step {s' s'' l} : Steps cfg s s' → Step cfg l s' s'' → Steps cfg s s''

/-- task_space.cpp:44-48 `empty()` for the space `sp`, as used by `barrier()`. -/
def State.empty (s : State) (sp : Nat) : Bool := s.tasks sp == 0

end RG.Graph
