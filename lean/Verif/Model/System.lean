import Verif.Model.GraphWait
import Verif.Model.Sync
/-
The whole runtime: task graph, queues, workers, condition variables.

This machine composes the machines of Model/Graph + Model/GraphWait (what happens to tasks), Model/Handout (how
tasks get from queue to worker) and Model/Sync (how workers sleep and are woken): every step of the task graph
that the code makes in a worker is here a step of a worker which holds the task.

/repo/redGrapes/dispatch/thread/worker.cpp:138-224 (work_loop, gather_task, init_dependencies), worker.hpp:93-103,
scheduler/default_scheduler.cpp:33-38, 69-183 (emplace_task, activate_task, steal_task), sync/cv.cpp,
dispatch/thread/execute.cpp:27-51, redGrapes.cpp:157-163 (yield in a task).

Simplifications, in addition to those of the composed machines:
* the notification of followers, the deletion from the resources and the release of memory after a task body has
  ended go on concurrently to the worker that has executed the body (in the code this worker does them before it
  looks for the next task);
* a task that pauses leaves its worker in one step, and is given to a worker again when the body it waits for has
  ended (the protocol is treated in C23);
* which worker is chosen by `activate_task`, and which workers are probed by `steal_task`, is left open (C45, C65);
* workers are not stopped (C44, C69).
-/
namespace RG.Sys

open RG.Graph (Cfg WState WStep Ph)

/-- Program counter of a worker, worker.cpp:138-224. -/
inductive Pc
  /-- before `cv.wait()`, worker.cpp:146 -/
  | top
  /-- in `cv.wait()` -/
  | waiting
  /-- before `ready_queue.pop()`, worker.cpp:168 -/
  | popReady
  /-- before `emplacement_queue.pop()`, worker.cpp:206 -/
  | popNew
  /-- initialising a task, worker.cpp:210-213 -/
  | initing (t : Nat)
  /-- before `steal_ready_task`, default_scheduler.cpp:158 -/
  | stealReady
  /-- before `steal_new_task`, default_scheduler.cpp:164 -/
  | stealNew
  /-- initialising a stolen task, default_scheduler.cpp:166-169 -/
  | initingStolen (t : Nat)
  /-- has got a ready task, before `execute_task`, worker.cpp:151 -/
  | run (t : Nat)
  /-- the body of a task is running, execute.cpp:37 -/
  | exec (t : Nat)
  deriving DecidableEq

/-- The state of a task until it is initialised, without details. -/
inductive Stage
  | submitted
  | queued
  | initing
  | inited
  deriving DecidableEq

def stage : Ph → Stage
  | .unsub => .submitted
  | .submitting _ => .submitted
  | .queued => .queued
  | .initing _ => .initing
  | .inited => .inited

structure State where
  /-- task graph, and what bodies wait for -/
  x : WState
  pc : Nat → Pc
  /-- the condition variable of each worker; the worker is waiter 0 -/
  cv : Nat → Cv.State
  /-- number of calls of `wake()` for each worker: each call is one notifier of the condition variable -/
  nn : Nat → Nat
  /-- threads that have put a task into a queue of the worker and have not called `wake()` yet -/
  wk : Nat → Nat
  ready : Nat → List Nat
  new : Nat → List Nat
  /-- tasks for which `activate_task` has been called and which are not in a queue yet -/
  act : List Nat
  /-- what a task waited for has happened, but its body has not been continued -/
  res : Nat → Bool

def init : State :=
  ⟨WState.init, fun _ => .top, fun _ => Cv.init, fun _ => 0, fun _ => 0, fun _ => [], fun _ => [], [],
    fun _ => false⟩

/-- The children of a task have returned: the discipline that the body of a task waits for the results of its
children. -/
def KidsEnded (cfg : Cfg) (x : WState) (t : Nat) : Prop :=
  ∀ c, c < x.g.n → cfg.parentOf c = some t → x.g.ex c = .ended

/-- no task changes its stage, and no task that is being initialised makes a step, except for `e` -/
def SamePh (x x' : WState) (e : Option Nat) : Prop :=
  (∀ t, some t ≠ e → stage (x'.g.ph t) = stage (x.g.ph t)) ∧
  (∀ t, some t ≠ e → stage (x.g.ph t) = .initing → x'.g.ph t = x.g.ph t)

/-- Steps of `N` workers and any other threads. -/
inductive Step (cfg : Cfg) (N : Nat) : State → State → Prop
  /-- steps of the task graph that are not bound to the main loop of a worker: submissions, events, notifications
  that make no task ready, release of memory, futures. Task bodies that submit tasks or create events are being
  executed. -/
  | graph {s x'} (h : WStep cfg s.x x') (hp : SamePh s.x x' none)
      (hh : x'.g.handed = s.x.g.handed) (he : x'.g.ex = s.x.g.ex) (hw : x'.w = s.x.w)
      (hn : ∀ q, x'.g.n ≠ s.x.g.n → cfg.parentOf s.x.g.n = some q → ∃ w, w < N ∧ s.pc w = .exec q)
      (hx : x'.g.nExt ≠ s.x.g.nExt → ∃ w, w < N ∧ s.pc w = .exec (x'.g.owner s.x.g.nExt)) :
      Step cfg N s { s with x := x' }
  /-- default_scheduler.cpp:36-38, worker.hpp:95: a new task is put into the queue of worker `w` -/
  | emplace {s x' t w} (hw : w < N) (h : WStep cfg s.x x') (hp : SamePh s.x x' (some t))
      (hq : stage (s.x.g.ph t) = .submitted) (hq' : x'.g.ph t = .queued)
      (hh : x'.g.handed = s.x.g.handed) (he : x'.g.ex = s.x.g.ex) (hww : x'.w = s.x.w) :
      Step cfg N s { s with x := x', new := upd s.new w (t :: s.new w), wk := upd s.wk w (s.wk w + 1) }
  /-- event.cpp:92, 146-150: a notification makes task `t` ready -/
  | ready {s x' t} (h : WStep cfg s.x x') (hp : SamePh s.x x' none)
      (hh : x'.g.handed = upd s.x.g.handed t (s.x.g.handed t + 1))
      (he : x'.g.ex = s.x.g.ex) (hw : x'.w = s.x.w) :
      Step cfg N s { s with x := x', act := t :: s.act }
  /-- the body that task `t` waits for has ended -/
  | unpause {s x' t} (h : WStep cfg s.x x') (hg : x'.g = s.x.g) (h0 : s.x.w t ≠ none)
      (hw : x'.w = upd s.x.w t none) :
      Step cfg N s { s with x := x', act := t :: s.act, res := upd s.res t true }
  /-- default_scheduler.cpp:77-86: worker `w` is chosen -/
  | activate {s t w} (hw : w < N) (h : t ∈ s.act) :
      Step cfg N s { s with
        act := s.act.erase t, ready := upd s.ready w (t :: s.ready w), wk := upd s.wk w (s.wk w + 1) }
  /-- worker.hpp:96, default_scheduler.cpp:88 -/
  | wake {s w cv'} (hw : w < N) (h : 0 < s.wk w) (hc : Cv.Step (.notifyCall (s.nn w)) (s.cv w) cv') :
      Step cfg N s { s with
        wk := upd s.wk w (s.wk w - 1), nn := upd s.nn w (s.nn w + 1), cv := upd s.cv w cv' }
  /-- woken for another reason: event.cpp:161, task_space.cpp:66-67 -/
  | noise {s w cv'} (hw : w < N) (hc : Cv.Step (.notifyCall (s.nn w)) (s.cv w) cv') :
      Step cfg N s { s with nn := upd s.nn w (s.nn w + 1), cv := upd s.cv w cv' }
  /-- inside of `cv.notify()` -/
  | notify {s w j cv'} (hw : w < N) (hc : Cv.Step (.notify j) (s.cv w) cv') :
      Step cfg N s { s with cv := upd s.cv w cv' }
  | spurious {s w cv'} (hw : w < N) (hc : Cv.Step (.spurious 0) (s.cv w) cv') :
      Step cfg N s { s with cv := upd s.cv w cv' }
  /-- worker.cpp:146 -/
  | sleep {s w cv'} (hw : w < N) (h : s.pc w = .top) (hc : Cv.Step (.waitCall 0) (s.cv w) cv') :
      Step cfg N s { s with pc := upd s.pc w .waiting, cv := upd s.cv w cv' }
  /-- inside of `cv.wait()` -/
  | wait {s w cv'} (hw : w < N) (hc : Cv.Step (.wait 0) (s.cv w) cv') :
      Step cfg N s { s with cv := upd s.cv w cv' }
  | woken {s w} (hw : w < N) (h : s.pc w = .waiting) (hc : (s.cv w).ws 0 = .out) :
      Step cfg N s { s with pc := upd s.pc w .popReady }
  /-- worker.cpp:168-169 -/
  | popReady {s w t} (hw : w < N) (h : s.pc w = .popReady) (hq : t ∈ s.ready w) :
      Step cfg N s { s with pc := upd s.pc w (.run t), ready := upd s.ready w ((s.ready w).erase t) }
  | noReady {s w} (hw : w < N) (h : s.pc w = .popReady) (hq : s.ready w = []) :
      Step cfg N s { s with pc := upd s.pc w .popNew }
  /-- worker.cpp:206-210 -/
  | popNew {s x' w t} (hw : w < N) (h : s.pc w = .popNew) (hq : t ∈ s.new w)
      (hs : WStep cfg s.x x') (hp : SamePh s.x x' (some t)) (hi : stage (x'.g.ph t) = .initing)
      (hh : x'.g.handed = s.x.g.handed) (he : x'.g.ex = s.x.g.ex) (hww : x'.w = s.x.w) :
      Step cfg N s { s with x := x', pc := upd s.pc w (.initing t), new := upd s.new w ((s.new w).erase t) }
  | noNew {s w} (hw : w < N) (h : s.pc w = .popNew) (hq : s.new w = []) :
      Step cfg N s { s with pc := upd s.pc w .stealReady }
  /-- graph.cpp:37-82: one step of the initialisation of the task -/
  | initStep {s x' w t} (hw : w < N) (h : s.pc w = .initing t ∨ s.pc w = .initingStolen t)
      (hs : WStep cfg s.x x') (hp : SamePh s.x x' (some t)) (hi : stage (x'.g.ph t) = .initing)
      (hc : x'.g.ph t ≠ s.x.g.ph t)
      (hh : x'.g.handed = s.x.g.handed) (he : x'.g.ex = s.x.g.ex) (hww : x'.w = s.x.w) :
      Step cfg N s { s with x := x' }
  /-- worker.cpp:213-214, 181-182, default_scheduler.cpp:171-176: the task is ready, the worker keeps it -/
  | initReady {s x' w t} (hw : w < N) (h : s.pc w = .initing t ∨ s.pc w = .initingStolen t)
      (hs : WStep cfg s.x x') (hp : SamePh s.x x' (some t)) (hi : x'.g.ph t = .inited)
      (hh : x'.g.handed = upd s.x.g.handed t (s.x.g.handed t + 1))
      (he : x'.g.ex = s.x.g.ex) (hww : x'.w = s.x.w) :
      Step cfg N s { s with x := x', pc := upd s.pc w (.run t) }
  /-- worker.cpp:213-218, 180: the task is not ready, the worker tries the next one -/
  | initBlocked {s x' w t} (hw : w < N) (h : s.pc w = .initing t)
      (hs : WStep cfg s.x x') (hp : SamePh s.x x' (some t)) (hi : x'.g.ph t = .inited)
      (hh : x'.g.handed = s.x.g.handed) (he : x'.g.ex = s.x.g.ex) (hww : x'.w = s.x.w) :
      Step cfg N s { s with x := x', pc := upd s.pc w .popNew }
  /-- default_scheduler.cpp:171, 181, worker.cpp:199: `gather_task` returns no task -/
  | stolenBlocked {s x' w t} (hw : w < N) (h : s.pc w = .initingStolen t)
      (hs : WStep cfg s.x x') (hp : SamePh s.x x' (some t)) (hi : x'.g.ph t = .inited)
      (hh : x'.g.handed = s.x.g.handed) (he : x'.g.ex = s.x.g.ex) (hww : x'.w = s.x.w) :
      Step cfg N s { s with x := x', pc := upd s.pc w .top }
  /-- default_scheduler.cpp:131-136 -/
  | stealReady {s w v t} (hw : w < N) (hv : v < N) (h : s.pc w = .stealReady) (hq : t ∈ s.ready v) :
      Step cfg N s { s with pc := upd s.pc w (.run t), ready := upd s.ready v ((s.ready v).erase t) }
  | noStealReady {s w} (hw : w < N) (h : s.pc w = .stealReady) :
      Step cfg N s { s with pc := upd s.pc w .stealNew }
  /-- default_scheduler.cpp:102-107, 166 -/
  | stealNew {s x' w v t} (hw : w < N) (hv : v < N) (h : s.pc w = .stealNew) (hq : t ∈ s.new v)
      (hs : WStep cfg s.x x') (hp : SamePh s.x x' (some t)) (hi : stage (x'.g.ph t) = .initing)
      (hh : x'.g.handed = s.x.g.handed) (he : x'.g.ex = s.x.g.ex) (hww : x'.w = s.x.w) :
      Step cfg N s { s with x := x', pc := upd s.pc w (.initingStolen t), new := upd s.new v ((s.new v).erase t) }
  | noStealNew {s w} (hw : w < N) (h : s.pc w = .stealNew) :
      Step cfg N s { s with pc := upd s.pc w .top }
  /-- execute.cpp:27-37 -/
  | start {s x' w t} (hw : w < N) (h : s.pc w = .run t) (hs : WStep cfg s.x x') (hp : SamePh s.x x' none)
      (hh : s.x.g.handed = upd x'.g.handed t (x'.g.handed t + 1))
      (h0 : s.x.g.ex t = .none) (he : x'.g.ex = upd s.x.g.ex t .running) (hww : x'.w = s.x.w) :
      Step cfg N s { s with x := x', pc := upd s.pc w (.exec t) }
  /-- execute.cpp:37, task.hpp: the body continues -/
  | resume {s w t} (hw : w < N) (h : s.pc w = .run t) (hr : s.res t = true) :
      Step cfg N s { s with pc := upd s.pc w (.exec t), res := upd s.res t false }
  /-- execute.cpp:39-47: the body waits for the result of task `u` -/
  | pause {s x' w t u} (hw : w < N) (h : s.pc w = .exec t) (hs : WStep cfg s.x x') (hg : x'.g = s.x.g)
      (h0 : s.x.w t = none) (hu : s.x.g.ex u ≠ .ended) (hww : x'.w = upd s.x.w t (some u)) :
      Step cfg N s { s with x := x', pc := upd s.pc w .popReady }
  /-- execute.cpp:48-51: the body has ended -/
  | bodyEnd {s x' w t} (hw : w < N) (h : s.pc w = .exec t) (hs : WStep cfg s.x x') (hp : SamePh s.x x' none)
      (hh : x'.g.handed = s.x.g.handed) (h0 : s.x.g.ex t = .running) (he : x'.g.ex = upd s.x.g.ex t .ended)
      (hk : KidsEnded cfg s.x t) (hww : x'.w = s.x.w) :
      Step cfg N s { s with x := x', pc := upd s.pc w .popReady }

inductive Reach (cfg : Cfg) (N : Nat) : State → Prop
  | init : Reach cfg N init
  | step {s s'} : Reach cfg N s → Step cfg N s s' → Reach cfg N s'

inductive Steps (cfg : Cfg) (N : Nat) (s : State) : State → Prop
  | refl : Steps cfg N s s
  | step {s' s''} : Steps cfg N s s' → Step cfg N s' s'' → Steps cfg N s s''

/-- Steps in which nothing is done: a worker tests the condition it waits for, or wakes up for no reason. -/
inductive Idle : State → State → Prop
  | spin {s} : Idle s s
  | noise {s w cv'} (hc : Cv.Step (.notifyCall (s.nn w)) (s.cv w) cv') :
      Idle s { s with nn := upd s.nn w (s.nn w + 1), cv := upd s.cv w cv' }
  | spurious {s w cv'} (hc : Cv.Step (.spurious 0) (s.cv w) cv') : Idle s { s with cv := upd s.cv w cv' }

/-- Steps of the workers, and of other threads that complete what they have begun: no new task, no new event, and
no thread outside of tasks reads a result. A body that waits for a result is included. -/
def Work (cfg : Cfg) (N : Nat) (s s' : State) : Prop :=
  Step cfg N s s' ∧ ¬ Idle s s' ∧ s'.x.g.n = s.x.g.n ∧ s'.x.g.nExt = s.x.g.nExt ∧ s'.x.out = s.x.out

/-- Steps that do not end a future either. -/
def OwnWork (cfg : Cfg) (N : Nat) (s s' : State) : Prop :=
  Work cfg N s s' ∧ ∀ t, s.x.g.fut t = .held → s'.x.g.fut t = .held

end RG.Sys
