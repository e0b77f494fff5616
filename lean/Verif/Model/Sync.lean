import Verif.Util
/-
/repo/redGrapes/sync/spinlock.hpp, sync/cv.cpp; the users of the condition variable:
redGrapes.cpp (Context::yield outside of a task), scheduler/event.cpp (waking in EventPtr::notify),
dispatch/thread/worker.cpp (work_loop, gather_task, init_dependencies) and the producers in
dispatch/thread/worker.hpp and scheduler/default_scheduler.cpp.

All machines are interleaving state machines with sequentially consistent memory: every atomic access
is one step. `std::mutex` and `std::condition_variable` are modelled by their specification
(mutual exclusion; `wait` releases the mutex and blocks in one step; spurious wake-ups are possible).
-/
namespace RG

/-! ### the spin lock -/
namespace Spin

inductive Pc
  /-- not using the lock -/
  | out
  /-- in `lock()`, before the compare-exchange, spinlock.hpp:33-34 -/
  | cas
  /-- in the inner loop, spinlock.hpp:38 -/
  | spin
  /-- `lock()` has returned -/
  | crit
  deriving DecidableEq

structure State where
  /-- spinlock.hpp:16 `state` -/
  locked : Bool
  pcs : Nat → Pc

def init : State := ⟨false, fun _ => .out⟩

/-- One step of thread `t`. -/
inductive Step : Nat → State → State → Prop
  | enter {s t} (h : s.pcs t = .out) : Step t s { s with pcs := upd s.pcs t .cas }
  /-- spinlock.hpp:34-36: success -/
  | casOk {s t} (h : s.pcs t = .cas) (hl : s.locked = false) :
      Step t s { locked := true, pcs := upd s.pcs t .crit }
  /-- spinlock.hpp:34: the weak compare-exchange fails, spuriously if the lock is free -/
  | casFail {s t} (h : s.pcs t = .cas) : Step t s { s with pcs := upd s.pcs t .spin }
  /-- spinlock.hpp:38 -/
  | spinOn {s t} (h : s.pcs t = .spin) (hl : s.locked = true) : Step t s s
  | spinDone {s t} (h : s.pcs t = .spin) (hl : s.locked = false) :
      Step t s { s with pcs := upd s.pcs t .cas }
  /-- spinlock.hpp:46-53 `unlock`, called by the thread that has locked -/
  | unlock {s t} (h : s.pcs t = .crit) : Step t s { locked := false, pcs := upd s.pcs t .out }

inductive Reach : State → Prop
  | init : Reach init
  | step {s s' t} : Reach s → Step t s s' → Reach s'

/-- Executions in which only thread `t` runs. -/
inductive Solo (t : Nat) : Nat → State → State → Prop
  | refl {s} : Solo t 0 s s
  | step {n s s' s''} : Step t s s' → Solo t n s' s'' → Solo t (n + 1) s s''

end Spin

/-! ### the condition variable -/
namespace Cv

/-- Program counter of a thread calling `wait()`, cv.cpp:19-38. -/
inductive WPc
  | out
  /-- cv.cpp:22: before the load in the loop condition -/
  | check
  /-- cv.cpp:29: before the second load -/
  | check2
  /-- cv.cpp:31: before taking the mutex -/
  | lockM
  /-- cv.cpp:32: holding the mutex, before evaluating the predicate -/
  | pred
  /-- blocked in the condition variable, mutex released -/
  | asleep
  /-- woken, before taking the mutex again -/
  | waking
  /-- cv.cpp:33: predicate was true, before releasing the mutex -/
  | unlockM
  /-- cv.cpp:37: loop left, before the store -/
  | store
  deriving DecidableEq

/-- Program counter of a thread calling `notify()`, cv.cpp:40-53. -/
inductive NPc
  | out
  /-- before the compare-exchange, cv.cpp:43 -/
  | cas
  /-- before taking the mutex, cv.cpp:48 -/
  | lockM
  /-- holding the mutex, before `notify_all`, cv.cpp:49 -/
  | notifyAll
  /-- before releasing the mutex, cv.cpp:50 -/
  | unlockM
  deriving DecidableEq

inductive Owner
  | waiter (i : Nat)
  | notifier (j : Nat)
  deriving DecidableEq

structure State where
  /-- `should_wait` -/
  flag : Bool
  /-- the mutex `m` -/
  mutex : Option Owner
  ws : Nat → WPc
  ns : Nat → NPc
  /-- ghost: a notification has been given since the last wait returned -/
  pend : Bool
  /-- ghost: how often a waiter has returned from `wait()` -/
  rets : Nat → Nat

/-- cv.cpp:15-17 -/
def init : State := ⟨true, none, fun _ => .out, fun _ => .out, false, fun _ => 0⟩

inductive Lbl
  /-- waiter `i` calls `wait()` -/
  | waitCall (i : Nat)
  /-- waiter `i` continues -/
  | wait (i : Nat)
  /-- waiter `i` wakes up without reason -/
  | spurious (i : Nat)
  /-- a notifier calls `notify()` -/
  | notifyCall (j : Nat)
  /-- notifier `j` continues -/
  | notify (j : Nat)
  deriving DecidableEq

/-- What `notify_all` does to a waiter. -/
def wakeUp : WPc → WPc
  | .asleep => .waking
  | p => p

/-- One step. The timeout (number of rounds of busy waiting) is left open: in each round the thread
may or may not have exceeded it. -/
inductive Step : Lbl → State → State → Prop
  | waitCall {s i} (h : s.ws i = .out) : Step (.waitCall i) s { s with ws := upd s.ws i .check }
  /-- cv.cpp:22-24: flag set, timeout not reached -/
  | again {s i} (h : s.ws i = .check) (hf : s.flag = true) : Step (.wait i) s s
  /-- cv.cpp:22-24: flag set, timeout reached -/
  | timeout {s i} (h : s.ws i = .check) (hf : s.flag = true) :
      Step (.wait i) s { s with ws := upd s.ws i .check2 }
  | leave {s i} (h : s.ws i = .check) (hf : s.flag = false) :
      Step (.wait i) s { s with ws := upd s.ws i .store }
  | check2T {s i} (h : s.ws i = .check2) (hf : s.flag = true) :
      Step (.wait i) s { s with ws := upd s.ws i .lockM }
  | check2F {s i} (h : s.ws i = .check2) (hf : s.flag = false) :
      Step (.wait i) s { s with ws := upd s.ws i .check }
  | lockM {s i} (h : s.ws i = .lockM) (hm : s.mutex = none) :
      Step (.wait i) s { s with ws := upd s.ws i .pred, mutex := some (.waiter i) }
  /-- cv.cpp:32: the predicate is false; release the mutex and block -/
  | sleep {s i} (h : s.ws i = .pred) (hf : s.flag = true) :
      Step (.wait i) s { s with ws := upd s.ws i .asleep, mutex := none }
  | predT {s i} (h : s.ws i = .pred) (hf : s.flag = false) :
      Step (.wait i) s { s with ws := upd s.ws i .unlockM }
  | unlockM {s i} (h : s.ws i = .unlockM) :
      Step (.wait i) s { s with ws := upd s.ws i .check, mutex := none }
  | relock {s i} (h : s.ws i = .waking) (hm : s.mutex = none) :
      Step (.wait i) s { s with ws := upd s.ws i .pred, mutex := some (.waiter i) }
  | spurious {s i} (h : s.ws i = .asleep) : Step (.spurious i) s { s with ws := upd s.ws i .waking }
  /-- cv.cpp:37, and return -/
  | store {s i} (h : s.ws i = .store) :
      Step (.wait i) s { s with
        flag := true, ws := upd s.ws i .out, pend := false, rets := upd s.rets i (s.rets i + 1) }
  | notifyCall {s j} (h : s.ns j = .out) :
      Step (.notifyCall j) s { s with ns := upd s.ns j .cas }
  /-- cv.cpp:42-43: afterwards the flag is `false`, whether or not the exchange succeeded -/
  | cas {s j} (h : s.ns j = .cas) :
      Step (.notify j) s { s with flag := false, ns := upd s.ns j .lockM, pend := true }
  | nLockM {s j} (h : s.ns j = .lockM) (hm : s.mutex = none) :
      Step (.notify j) s { s with ns := upd s.ns j .notifyAll, mutex := some (.notifier j) }
  | notifyAll {s j} (h : s.ns j = .notifyAll) :
      Step (.notify j) s { s with ns := upd s.ns j .unlockM, ws := fun i => wakeUp (s.ws i) }
  | nUnlockM {s j} (h : s.ns j = .unlockM) :
      Step (.notify j) s { s with ns := upd s.ns j .out, mutex := none }

/-- The waiter a step belongs to. -/
def Lbl.waiter? : Lbl → Option Nat
  | .waitCall i => some i
  | .wait i => some i
  | .spurious i => some i
  | _ => none

/-- Executions with the waiters `i < nW` and any number of notifiers. -/
inductive Reach (nW : Nat) : State → Prop
  | init : Reach nW init
  | step {s s' l} : Reach nW s → Step l s s' → (∀ i, l.waiter? = some i → i < nW) → Reach nW s'

/-- Executions consisting of the given steps. -/
inductive Run : List Lbl → State → State → Prop
  | nil {s} : Run [] s s
  | cons {l ls s s' s''} : Step l s s' → Run ls s' s'' → Run (l :: ls) s s''

end Cv

/-! ### waiting for an event outside of a task -/
namespace Yield

/-- Program counter of a thread in `Context::yield`, redGrapes.cpp:164-169. -/
inductive Pc
  | start
  /-- before evaluating the loop condition, redGrapes.cpp:167 -/
  | check
  /-- in `idle()`, redGrapes.cpp:168, default_scheduler.cpp:18-29 -/
  | idle
  | done
  /-- `idle()` has thrown `std::bad_function_call` -/
  | threw
  deriving DecidableEq

/-- Program counter of a thread in `EventPtr::notify`, event.cpp:104-178, restricted to the steps
that matter here. -/
inductive EPc
  | out
  /-- has decremented the state of event `e` to `st`, event.cpp:108; before line 160 -/
  | decd (e st : Nat)
  /-- has found waker id 0, before `wake`, event.cpp:161 -/
  | waking
  /-- in `cv.notify()`, default_scheduler.cpp:195 -/
  | inCv
  deriving DecidableEq

structure State where
  /-- the condition variable of the scheduler, waker id 0 -/
  cv : Cv.State
  pcs : Nat → Pc
  eps : Nat → EPc
  /-- state of the events -/
  state : Nat → Nat
  /-- `waker_id` of the events, event.hpp:97; `none` is -1 -/
  waker : Nat → Option Nat

/-- Waiter `i` waits for event `ev i`; the events have `cnt0 e` unfinished in-edges. -/
structure Cfg where
  nW : Nat
  ev : Nat → Nat
  cnt0 : Nat → Nat
  /-- worker threads wait for the same events, too -/
  foreign : Bool
  /-- the thread-local function object `Context::idle` of the thread is set. The library sets it in the
  thread which creates the context (redGrapes.cpp:29, 35-38, redGrapes.hpp:107-111) and nowhere else;
  a user may assign it in further threads. -/
  idleSet : Nat → Bool

/-- event.cpp:29 -/
def init (cfg : Cfg) : State :=
  ⟨Cv.init, fun _ => .start, fun _ => .out, cfg.cnt0, fun _ => none⟩

/-- One step; the label is the waiter whose thread makes the step, `none` for the other threads and for
spurious wake-ups. -/
inductive Step (cfg : Cfg) : Option Nat → State → State → Prop
  /-- redGrapes.cpp:166; the waker id is 0 for all threads which are not workers
  (worker_pool.cpp:28; redGrapes.cpp:32 zero-initialises it) -/
  | setWaker {s i} (hi : i < cfg.nW) (h : s.pcs i = .start) :
      Step cfg (some i) s { s with pcs := upd s.pcs i .check, waker := upd s.waker (cfg.ev i) (some 0) }
  /-- redGrapes.cpp:167 -/
  | reached {s i} (hi : i < cfg.nW) (h : s.pcs i = .check) (hs : s.state (cfg.ev i) = 0) :
      Step cfg (some i) s { s with pcs := upd s.pcs i .done }
  /-- redGrapes.cpp:168 -/
  | notReached {s i cv'} (hi : i < cfg.nW) (h : s.pcs i = .check) (hs : s.state (cfg.ev i) ≠ 0)
      (hd : cfg.idleSet i = true) (hc : Cv.Step (.waitCall i) s.cv cv') :
      Step cfg (some i) s { s with pcs := upd s.pcs i .idle, cv := cv' }
  /-- redGrapes.cpp:168: calling an empty `std::function` -/
  | noIdle {s i} (hi : i < cfg.nW) (h : s.pcs i = .check) (hs : s.state (cfg.ev i) ≠ 0)
      (hd : cfg.idleSet i = false) :
      Step cfg (some i) s { s with pcs := upd s.pcs i .threw }
  /-- `cv.wait()` has returned -/
  | back {s i} (hi : i < cfg.nW) (h : s.pcs i = .idle) (hc : s.cv.ws i = .out) :
      Step cfg (some i) s { s with pcs := upd s.pcs i .check }
  /-- steps inside of `cv.wait()` -/
  | wait {s i cv'} (hi : i < cfg.nW) (hc : Cv.Step (.wait i) s.cv cv') :
      Step cfg (some i) s { s with cv := cv' }
  | spurious {s i cv'} (hi : i < cfg.nW) (hc : Cv.Step (.spurious i) s.cv cv') :
      Step cfg none s { s with cv := cv' }
  /-- event.cpp:108: the event has an unfinished in-edge, which is notified now -/
  | dec {s j e} (h : s.eps j = .out) (hc : s.cv.ns j = .out) (hs : 0 < s.state e) :
      Step cfg none s { s with
        eps := upd s.eps j (.decd e (s.state e - 1)), state := upd s.state e (s.state e - 1) }
  /-- event.cpp:160-161, default_scheduler.cpp:194: waker 0 has to be woken -/
  | readWaker {s j e st} (h : s.eps j = .decd e st) (hst : st ≤ 1) (hw : s.waker e = some 0) :
      Step cfg none s { s with eps := upd s.eps j .waking }
  /-- nobody or another thread has to be woken -/
  | noWaker {s j e st} (h : s.eps j = .decd e st) (hst : ¬ (st ≤ 1 ∧ s.waker e = some 0)) :
      Step cfg none s { s with eps := upd s.eps j .out }
  | wake {s j cv'} (h : s.eps j = .waking) (hc : Cv.Step (.notifyCall j) s.cv cv') :
      Step cfg none s { s with eps := upd s.eps j .inCv, cv := cv' }
  | notify {s j cv'} (hc : Cv.Step (.notify j) s.cv cv') : Step cfg none s { s with cv := cv' }
  | woken {s j} (h : s.eps j = .inCv) (hc : s.cv.ns j = .out) :
      Step cfg none s { s with eps := upd s.eps j .out }
  /-- the main thread is woken for another reason, e.g. `wake_all` (task_space.cpp:66-67) -/
  | noise {s j cv'} (h : s.eps j = .out) (hc : Cv.Step (.notifyCall j) s.cv cv') :
      Step cfg none s { s with cv := cv' }
  /-- execute.cpp:41: a task on worker `k - 1` pauses until event `e` -/
  | foreign {s e k} (hf : cfg.foreign = true) (hk : 0 < k) :
      Step cfg none s { s with waker := upd s.waker e (some k) }

inductive Steps (cfg : Cfg) : State → State → Prop
  | refl {s} : Steps cfg s s
  | step {s s' s'' l} : Step cfg l s s' → Steps cfg s' s'' → Steps cfg s s''

inductive Reach (cfg : Cfg) : State → Prop
  | init : Reach cfg (init cfg)
  | step {s s' l} : Reach cfg s → Step cfg l s s' → Reach cfg s'

/-- Executions of `n` steps in which only the thread of waiter `i` runs. -/
inductive Solo (cfg : Cfg) (i : Nat) : Nat → State → State → Prop
  | refl {s} : Solo cfg i 0 s s
  | step {n s s' s''} : Step cfg (some i) s s' → Solo cfg i n s' s'' → Solo cfg i (n + 1) s s''

/-- All calls of `EventPtr::notify` and `CondVar::notify` have returned. -/
def Quiet (s : State) : Prop := ∀ j, s.eps j = .out ∧ s.cv.ns j = .out

end Yield

/-! ### one worker -/
namespace Work

/-- Program counter of the worker thread, worker.cpp:138-224. -/
inductive Pc
  /-- before reading the stop flag, worker.cpp:141 -/
  | top
  /-- in `cv.wait()`, worker.cpp:146 -/
  | waiting
  /-- before `ready_queue.pop()`, worker.cpp:167 -/
  | popReady
  /-- before `emplacement_queue.pop()`, worker.cpp:206 -/
  | popNew
  /-- initialising a task, worker.cpp:210-213 -/
  | initing (t : Nat)
  /-- before `steal_task`, worker.cpp:183-196 -/
  | stealing
  /-- initialising a stolen task, default_scheduler.cpp:170-173 -/
  | initingStolen (t : Nat)
  /-- `execute_task`, worker.cpp:150-151 -/
  | executing (t : Nat)
  | stopped
  deriving DecidableEq

/-- Program counter of a thread that enqueues a task at this worker or stops it: worker.hpp:93-103,
default_scheduler.cpp:86-88, worker.cpp:59-64. -/
inductive PPc
  | out
  /-- the task is in the queue or the stop flag is set, `wake()` not called yet -/
  | pushed
  /-- in `wake()` -/
  | inCv
  deriving DecidableEq

structure State where
  cv : Cv.State
  pc : Pc
  ps : Nat → PPc
  ready : List Nat
  new : List Nat
  stop : Bool
  /-- ghost: tasks taken out of the queues by the worker, or by thieves -/
  looked : List Nat
  /-- ghost: tasks that were put into the queues -/
  pushed : List Nat

def init : State := ⟨Cv.init, .top, fun _ => .out, [], [], false, [], []⟩

/-- One step of the worker thread. The queues (moodycamel::ConcurrentQueue) are modelled as
linearizable bags: `pop` takes out any element. Initialising and executing a task are steps without
effect on this state; their own calls of `activate_task` and `emplace_task` are steps of producers. -/
inductive WStep : State → State → Prop
  | stop {s} (h : s.pc = .top) (hs : s.stop = true) : WStep s { s with pc := .stopped }
  | sleep {s cv'} (h : s.pc = .top) (hs : s.stop = false) (hc : Cv.Step (.waitCall 0) s.cv cv') :
      WStep s { s with pc := .waiting, cv := cv' }
  | wait {s cv'} (hc : Cv.Step (.wait 0) s.cv cv') : WStep s { s with cv := cv' }
  | woken {s} (h : s.pc = .waiting) (hc : s.cv.ws 0 = .out) : WStep s { s with pc := .popReady }
  | popReady {s t} (h : s.pc = .popReady) (hq : t ∈ s.ready) :
      WStep s { s with pc := .executing t, ready := s.ready.erase t, looked := t :: s.looked }
  | noReady {s} (h : s.pc = .popReady) (hq : s.ready = []) : WStep s { s with pc := .popNew }
  | popNew {s t} (h : s.pc = .popNew) (hq : t ∈ s.new) :
      WStep s { s with pc := .initing t, new := s.new.erase t, looked := t :: s.looked }
  | noNew {s} (h : s.pc = .popNew) (hq : s.new = []) : WStep s { s with pc := .stealing }
  | initReady {s t} (h : s.pc = .initing t) : WStep s { s with pc := .executing t }
  | initBlocked {s t} (h : s.pc = .initing t) : WStep s { s with pc := .popNew }
  /-- a ready task of some worker (default_scheduler.cpp:133, 137: maybe of this worker) -/
  | stealOwnReady {s t} (h : s.pc = .stealing) (hq : t ∈ s.ready) :
      WStep s { s with pc := .executing t, ready := s.ready.erase t, looked := t :: s.looked }
  | stealReady {s t} (h : s.pc = .stealing) : WStep s { s with pc := .executing t }
  | stealOwnNew {s t} (h : s.pc = .stealing) (hq : t ∈ s.new) :
      WStep s { s with pc := .initingStolen t, new := s.new.erase t, looked := t :: s.looked }
  | stealNew {s t} (h : s.pc = .stealing) : WStep s { s with pc := .initingStolen t }
  | stealNone {s} (h : s.pc = .stealing) : WStep s { s with pc := .top }
  | stolenReady {s t} (h : s.pc = .initingStolen t) : WStep s { s with pc := .executing t }
  | stolenBlocked {s t} (h : s.pc = .initingStolen t) : WStep s { s with pc := .top }
  | executed {s t} (h : s.pc = .executing t) : WStep s { s with pc := .popReady }

/-- One step of another thread. -/
inductive EStep : State → State → Prop
  | spurious {s cv'} (hc : Cv.Step (.spurious 0) s.cv cv') : EStep s { s with cv := cv' }
  /-- worker.hpp:101, default_scheduler.cpp:86 -/
  | pushReady {s j} (t : Nat) (h : s.ps j = .out) (hc : s.cv.ns j = .out) :
      EStep s { s with ps := upd s.ps j .pushed, ready := t :: s.ready, pushed := t :: s.pushed }
  /-- worker.hpp:95 -/
  | pushNew {s j} (t : Nat) (h : s.ps j = .out) (hc : s.cv.ns j = .out) :
      EStep s { s with ps := upd s.ps j .pushed, new := t :: s.new, pushed := t :: s.pushed }
  /-- worker.hpp:96, 102, default_scheduler.cpp:88 -/
  | wake {s j cv'} (h : s.ps j = .pushed) (hc : Cv.Step (.notifyCall j) s.cv cv') :
      EStep s { s with ps := upd s.ps j .inCv, cv := cv' }
  | notify {s j cv'} (hc : Cv.Step (.notify j) s.cv cv') : EStep s { s with cv := cv' }
  | wakeDone {s j} (h : s.ps j = .inCv) (hc : s.cv.ns j = .out) :
      EStep s { s with ps := upd s.ps j .out }
  /-- woken for another reason, e.g. the waker of an event or `wake_all` -/
  | noise {s j cv'} (h : s.ps j = .out) (hc : Cv.Step (.notifyCall j) s.cv cv') :
      EStep s { s with cv := cv' }
  /-- default_scheduler.cpp:133 called by another worker -/
  | thiefReady {s t} (hq : t ∈ s.ready) :
      EStep s { s with ready := s.ready.erase t, looked := t :: s.looked }
  /-- default_scheduler.cpp:102 called by another worker -/
  | thiefNew {s t} (hq : t ∈ s.new) :
      EStep s { s with new := s.new.erase t, looked := t :: s.looked }
  /-- worker.cpp:62-63 `stop()`: the flag; `wake()` follows -/
  | stop {s j} (h : s.ps j = .out) (hc : s.cv.ns j = .out) :
      EStep s { s with stop := true, ps := upd s.ps j .pushed }

inductive Reach : State → Prop
  | init : Reach init
  | wstep {s s'} : Reach s → WStep s s' → Reach s'
  | estep {s s'} : Reach s → EStep s s' → Reach s'

/-- Executions of `n` steps in which only the worker itself runs. -/
inductive Solo : Nat → State → State → Prop
  | refl {s} : Solo 0 s s
  | step {n s s' s''} : WStep s s' → Solo n s' s'' → Solo (n + 1) s s''

/-- All calls that enqueue a task at this worker or wake it have returned. -/
def Quiet (s : State) : Prop := ∀ j, s.ps j = .out ∧ s.cv.ns j = .out

end Work

end RG
