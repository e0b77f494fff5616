import Verif.Util
/-
Tasks that submit work to a CUDA device: /repo/redGrapes/dispatch/cuda/scheduler.hpp:36-175 (`CudaStreamDispatcher`, `CudaScheduler`), dispatch/cuda/event_pool.hpp:37-58;
dispatch/cupla/scheduler.hpp is the same text with other names of the functions of the device.

The code is a template that cannot be instantiated at present: `task->` is applied to a reference, and `task.in_edges` does not exist any more (graph.hpp:71-76 and
graph.cpp:101 are comments). It is modelled as it is meant, with `task->f` read as `task.f`; the list `in_edges` is a parameter (`edges`), so that the theorems can say
what is needed: all tasks on which the task depends, as in the comment, or nothing, as if the loop were removed.

The device is modelled as the CUDA manual describes it: the commands of a stream are executed in order; `cudaStreamWaitEvent` refers to the work captured by the last
`cudaEventRecord` before the call; `cudaEventQuery` succeeds if the work captured by the last `cudaEventRecord` has been completed, or if there was none.

Tasks, threads, streams and events are numbers. There are `H` threads and `S` streams; `deps t` are the CUDA tasks on which CUDA task `t` depends. A task is activated
when the pre-events of these tasks have been notified (`task_dependency_type`, 165-169; graph.cpp:104), and once (C13). Which stream is chosen by `activate_task` is left
open, since `current_stream` is not protected (147-148).
-/
namespace RG.Cuda

/-- Commands in a stream. -/
inductive Op
  /-- `cudaStreamWaitEvent`: the task whose record the event has captured; `none` if the event has not been recorded -/
  | wait (r : Option Nat)
  /-- a piece of work that was submitted by the body of task `t`: a kernel, a copy -/
  | work (t : Nat)
  /-- `cudaEventRecord` at the end of task `t` -/
  | record (t : Nat)
  deriving DecidableEq

/-- `n` numbers the commands of all streams in the order of their submission; nothing depends on it. -/
structure Cmd where
  n : Nat
  op : Op
  deriving DecidableEq

/-- Where a task is: in a call of `dispatch_task` or `poll` of thread `h` for stream `k`, or in the queue of stream `k`. -/
inductive Pc
  | new
  /-- 151, 78: about to lock the mutex of stream `k` -/
  | enter (h k : Nat)
  /-- 80-94: the tasks `ps` of `in_edges` have not been considered yet -/
  | waits (h k : Nat) (ps : List Nat)
  /-- 101: in the body -/
  | run (h k : Nat)
  /-- 105: before `task->cuda_event = cuda_event` -/
  | set (h k e : Nat)
  /-- 107: in `notify` of the pre-event, followers are activated; 110 follows -/
  | push (h k e : Nat)
  /-- in `events` of stream `k` -/
  | queued (k e : Nat)
  /-- 69: before `notify` of the post-event -/
  | post (h k e : Nat)
  /-- 69: in `notify` of the post-event, followers are activated; 71 follows -/
  | pop (h k e : Nat)
  | done (k : Nat)
  deriving DecidableEq

/-- the thread that is in a call for the task -/
def Pc.thread : Pc → Option Nat
  | .enter h _ | .waits h _ _ | .run h _ | .set h _ _ | .push h _ _ | .post h _ _ | .pop h _ _ => some h
  | _ => none

/-- the thread and the stream whose mutex it holds in this call -/
def Pc.locked : Pc → Option (Nat × Nat)
  | .waits h k _ | .run h k | .set h k _ | .push h k _ | .post h k _ | .pop h k _ => some (h, k)
  | _ => none

/-- the stream of the task -/
def Pc.stream : Pc → Option Nat
  | .new => none
  | .enter _ k | .waits _ k _ | .run _ k | .set _ k _ | .push _ k _ | .queued k _ | .post _ k _ | .pop _ k _ | .done k => some k

/-- the body has returned -/
def Pc.returned : Pc → Bool
  | .new | .enter .. | .waits .. | .run .. => false
  | _ => true

/-- the pre-event has been notified -/
def Pc.pre : Pc → Bool
  | .new | .enter .. | .waits .. | .run .. | .set .. => false
  | _ => true

/-- in a call of `notify`, in which other tasks are activated -/
def Pc.notifying : Pc → Bool
  | .push .. | .pop .. => true
  | _ => false

structure State where
  /-- the commands of the streams that have not been completed -/
  q : Nat → List Cmd
  clock : Nat
  /-- the first command of the stream is being executed -/
  busy : Nat → Bool
  /-- the task that has recorded the event last -/
  last : Nat → Option Nat
  /-- the record at the end of the task has been completed -/
  recd : Nat → Bool
  /-- number of events created -/
  fresh : Nat
  /-- `EventPool::unused_cuda_events`, the back first -/
  free : List Nat
  /-- `CudaTaskProperties::cuda_event` -/
  ev : Nat → Option Nat
  /-- `CudaStreamDispatcher::events` -/
  events : Nat → List (Nat × Nat)
  /-- the tasks for which the thread is in a call, the innermost first -/
  stk : Nat → List Nat
  pc : Nat → Pc
  /-- how often the post-event of a task was notified -/
  post : Nat → Nat
  /-- number of pieces of work of a task that have been submitted, started, completed -/
  sub : Nat → Nat
  started : Nat → Nat
  fin : Nat → Nat

def init : State :=
  ⟨fun _ => [], 0, fun _ => false, fun _ => none, fun _ => false, 0, [], fun _ => none, fun _ => [], fun _ => [], fun _ => .new, fun _ => 0, fun _ => 0, fun _ => 0,
    fun _ => 0⟩

/-- `std::recursive_mutex`: no other thread holds the mutex of stream `k`. -/
def Avail (H : Nat) (s : State) (h k : Nat) : Prop := ∀ u, u < H → u ≠ h → ∀ t ∈ s.stk u, (s.pc t).locked ≠ some (u, k)

instance (H : Nat) (s : State) (h k : Nat) : Decidable (Avail H s h k) :=
  decidable_of_iff (∀ u < H, u ≠ h → ∀ t ∈ s.stk u, (s.pc t).locked ≠ some (u, k)) Iff.rfl

/-- `activate_task` is called from outside, or in `notify`. -/
def MayCall (s : State) (h : Nat) : Prop := ∀ t ∈ (s.stk h).head?, (s.pc t).notifying = true

/-- `cudaEventQuery` -/
def query (s : State) (e : Nat) : Prop := ∀ t, s.last e = some t → s.recd t = true

/-- the end of the stream after another command -/
def State.add (s : State) (k : Nat) (o : Op) : Nat → List Cmd := upd s.q k (s.q k ++ [⟨s.clock, o⟩])

inductive Step (deps edges : Nat → List Nat) (H S : Nat) : State → State → Prop
  /-- 145-152 `activate_task` -/
  | call {s : State} {h k t} (hh : h < H) (hk : k < S) (hn : s.pc t = .new) (hd : ∀ p ∈ deps t, (s.pc p).pre = true) (hc : MayCall s h) :
      Step deps edges H S s { s with pc := upd s.pc t (.enter h k), stk := upd s.stk h (t :: s.stk h) }
  /-- 78 -/
  | lock {s : State} {h k t r} (ht : s.stk h = t :: r) (hp : s.pc t = .enter h k) (ha : Avail H s h k) :
      Step deps edges H S s { s with pc := upd s.pc t (.waits h k (edges t)) }
  /-- 84-93 -/
  | wait {s : State} {h k t r p ps e} (ht : s.stk h = t :: r) (hp : s.pc t = .waits h k (p :: ps)) (he : s.ev p = some e) :
      Step deps edges H S s { s with pc := upd s.pc t (.waits h k ps), q := s.add k (.wait (s.last e)), clock := s.clock + 1 }
  | skip {s : State} {h k t r p ps} (ht : s.stk h = t :: r) (hp : s.pc t = .waits h k (p :: ps)) (he : s.ev p = none) :
      Step deps edges H S s { s with pc := upd s.pc t (.waits h k ps) }
  /-- 98 -/
  | run {s : State} {h k t r} (ht : s.stk h = t :: r) (hp : s.pc t = .waits h k []) :
      Step deps edges H S s { s with pc := upd s.pc t (.run h k) }
  /-- 101: the body submits work to `current_stream` -/
  | launch {s : State} {h k t r} (ht : s.stk h = t :: r) (hp : s.pc t = .run h k) :
      Step deps edges H S s { s with q := s.add k (.work t), clock := s.clock + 1, sub := upd s.sub t (s.sub t + 1) }
  /-- 103-104 with an event of the pool, event_pool.hpp:46-50 -/
  | reuse {s : State} {h k t r e f} (ht : s.stk h = t :: r) (hp : s.pc t = .run h k) (hf : s.free = e :: f) :
      Step deps edges H S s { s with pc := upd s.pc t (.set h k e), free := f, last := upd s.last e (some t), q := s.add k (.record t), clock := s.clock + 1 }
  /-- 103-104 with a new event, event_pool.hpp:44-45 -/
  | create {s : State} {h k t r} (ht : s.stk h = t :: r) (hp : s.pc t = .run h k) (hf : s.free = []) :
      Step deps edges H S s { s with pc := upd s.pc t (.set h k s.fresh), fresh := s.fresh + 1, last := upd s.last s.fresh (some t),
                                     q := s.add k (.record t), clock := s.clock + 1 }
  /-- 105, 107 -/
  | set {s : State} {h k t r e} (ht : s.stk h = t :: r) (hp : s.pc t = .set h k e) :
      Step deps edges H S s { s with pc := upd s.pc t (.push h k e), ev := upd s.ev t (some e) }
  /-- 110, and the end of the call -/
  | push {s : State} {h k t r e} (ht : s.stk h = t :: r) (hp : s.pc t = .push h k e) :
      Step deps edges H S s { s with pc := upd s.pc t (.queued k e), events := upd s.events k (s.events k ++ [(e, t)]), stk := upd s.stk h r }
  /-- 57-68 `poll`: `free` -/
  | poll {s : State} {h k e t l} (hh : h < H) (ht : s.stk h = []) (ha : Avail H s h k) (he : s.events k = (e, t) :: l) (hq : query s e) :
      Step deps edges H S s { s with pc := upd s.pc t (.post h k e), free := e :: s.free, stk := upd s.stk h [t] }
  /-- 69 -/
  | post {s : State} {h k t r e} (ht : s.stk h = t :: r) (hp : s.pc t = .post h k e) :
      Step deps edges H S s { s with pc := upd s.pc t (.pop h k e), post := upd s.post t (s.post t + 1) }
  /-- 71, and the end of the call -/
  | pop {s : State} {h k t r e} (ht : s.stk h = t :: r) (hp : s.pc t = .pop h k e) :
      Step deps edges H S s { s with pc := upd s.pc t (.done k), events := upd s.events k (s.events k).tail, stk := upd s.stk h r }
  /-- the device begins to execute the first command of a stream -/
  | start {s : State} {k n t l} (hq : s.q k = ⟨n, .work t⟩ :: l) (hb : s.busy k = false) :
      Step deps edges H S s { s with busy := upd s.busy k true, started := upd s.started t (s.started t + 1) }
  | finish {s : State} {k n t l} (hq : s.q k = ⟨n, .work t⟩ :: l) (hb : s.busy k = true) :
      Step deps edges H S s { s with busy := upd s.busy k false, q := upd s.q k l, fin := upd s.fin t (s.fin t + 1) }
  | record {s : State} {k n t l} (hq : s.q k = ⟨n, .record t⟩ :: l) :
      Step deps edges H S s { s with q := upd s.q k l, recd := upd s.recd t true }
  | await {s : State} {k n r l} (hq : s.q k = ⟨n, .wait r⟩ :: l) (hr : ∀ u, r = some u → s.recd u = true) :
      Step deps edges H S s { s with q := upd s.q k l }

inductive Reach (deps edges : Nat → List Nat) (H S : Nat) : State → Prop
  | init : Reach deps edges H S init
  | step {s s'} (h : Reach deps edges H S s) (hs : Step deps edges H S s s') : Reach deps edges H S s'

end RG.Cuda
