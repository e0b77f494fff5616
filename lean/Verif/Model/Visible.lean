import Verif.Lemmas.GraphExec
import Verif.Model.Dynamic
/-
Which effects are visible: the happens-before relation of C++ for what task bodies do.

The other models are interleaving machines: they take it for granted that what one thread has written is seen by
every other thread. In C++ this holds only for what *happens before*: two accesses of different threads to the same
data, of which one is a write, are undefined behaviour unless one of them happens before the other. A task body accesses the data of the
user with plain loads and stores, so that it relies on the atomic operations and the locks of redGrapes.

Here the machine of Model/Graph is extended by the happens-before relation, in the form of sets: `know a` are the actions that happen
before what the piece of code `a` does next, and `loc l` the actions that happen before everything that reads from
the last store to the atomic `l`. A store with release order puts the set of the thread into the location, a load with
acquire order adds the set of the location to the one of the thread, and a read-modify-write operation does both and keeps what
was in the location (it continues the release sequence). This is the definition of "happens before" in the C++
standard, restricted to what it says about the actions of the user.

Which atomic operation is executed by a step of the machine, on which location and with which order, is listed in `sync`.
The pieces of code are the ones of Model/Graph. A piece of code starts with nothing but what it is given by `seq`: what
the thread knows from the other things it did before is left out. All the sets are at most as large as in the code.

Orders: `Event::state` (event.hpp:94, with `fetch_sub(1)`, `++`, `load()`), `removal_countdown` (task.hpp:45) and
`task_count` (task_space.hpp:26) are used with the default order `seq_cst`. The lock of a resource is taken with `acquire` and
given back with `release` (sync/spinlock.hpp:34, 49). For the queues (task/queue.hpp:130-145, `moodycamel::ConcurrentQueue`) it
is assumed that putting an element in happens before taking it out. The pushes to the lists of followers and resource users also
synchronize in the code, which is left out.

The state of the machine itself is still sequentially consistent: the model says what is known about the data of the user, not
what is known about the data of redGrapes.
-/
namespace RG.Vis
open RG.Graph
open RG.Dyn (owner)

/-- The pieces of code of which each is executed by one thread. -/
inductive Agent
  /-- a body, as in Model/Dynamic: 0 is the main program, `t + 1` is the body of task `t` -/
  | body (i : Nat)
  /-- the submission of task `t`, task_space.cpp:70-87 -/
  | sub (t : Nat)
  /-- the initialisation of task `t`, worker.cpp:206-213, graph.cpp:37-82 -/
  | init (t : Nat)
  /-- execute.cpp:48, after the body of task `t` -/
  | ret (t : Nat)
  /-- event.cpp:145-174 after the state of the post-event of task `t` has become 0 -/
  | flush (t : Nat)
  /-- the code of the user on behalf of event `k`, which then notifies it -/
  | ext (k : Nat)
  /-- `notify()` for the result-get-event, event.cpp:171 -/
  | take (t : Nat)
  /-- `free_task`, task_space.cpp:50-68 -/
  | free (t : Nat)
  deriving DecidableEq

/-- The atomic objects by which threads synchronize. -/
inductive Loc
  /-- the place of task `t` in an emplacement queue -/
  | queue (t : Nat)
  /-- resource.hpp `users_mutex` -/
  | lock (r : Res)
  /-- `state` of the pre-event of task `t` -/
  | pre (t : Nat)
  /-- `state` of the post-event -/
  | post (t : Nat)
  /-- `state` of the result-set-event -/
  | result (t : Nat)
  /-- `removal_countdown` -/
  | cd (t : Nat)
  /-- `task_count` of a space -/
  | count (sp : Nat)
  deriving DecidableEq

/-- An action of the user: the how many-th one of a body or on behalf of an event. -/
abbrev Ev := Agent × Nat

/-- What happens before. -/
structure Clk where
  know : Agent → Ev → Prop
  loc : Loc → Ev → Prop

/-- Synchronizing operations. -/
inductive Op
  /-- a load that reads the last store, with acquire order -/
  | acq (a : Agent) (l : Loc)
  /-- a store with release order -/
  | rel (a : Agent) (l : Loc)
  /-- a read-modify-write operation with acquire and release order -/
  | rmw (a : Agent) (l : Loc)
  /-- the same thread continues with `b` after `a` -/
  | seq (a b : Agent)

def Clk.op (k : Clk) : Op → Clk
  | .acq a l => { k with know := fun b e => k.know b e ∨ (b = a ∧ k.loc l e) }
  | .rel a l => { k with loc := fun l' e => if l' = l then k.know a e else k.loc l' e }
  | .rmw a l =>
    { know := fun b e => k.know b e ∨ (b = a ∧ k.loc l e)
      loc := fun l' e => k.loc l' e ∨ (l' = l ∧ k.know a e) }
  | .seq a b => { k with know := fun c e => k.know c e ∨ (c = b ∧ k.know a e) }

def Clk.ops (k : Clk) (l : List Op) : Clk := l.foldl Clk.op k

/-- event.cpp:108 `state.fetch_sub(1)` for the post-event of task `q`; the thread that has decremented it to 0 goes on with
event.cpp:145-174 -/
def decPost (s : State) (a : Agent) (q : Nat) : List Op :=
  .rmw a (.post q) :: if s.post q = 1 then [.seq a (.flush q)] else []

/-- event.cpp:171 `removal_countdown.fetch_sub(1)`; the thread that has decremented it to 0 goes on with `free_task` -/
def decCd (s : State) (a : Agent) (t : Nat) : List Op :=
  .rmw a (.cd t) :: if s.cd t = 1 then [.seq a (.free t)] else []

/-- The synchronizing operations of the initialisation of a task. -/
def syncInit (cfg : Cfg) (s : State) (t : Nat) : List Op :=
  match s.ph t with
  -- worker.cpp:206 `emplacement_queue.pop()`, :210 `pre_event.up()`
  | .queued => [.acq (.init t) (.queue t), .rmw (.init t) (.pre t)]
  | .initing (.next i) =>
    match (cfg.res t)[i]? with
    -- graph.cpp:52 `lock(users_mutex)`
    | some r => [.acq (.init t) (.lock r)]
    | none => []
  | .initing (.scan _ (p :: _)) =>
    -- graph.cpp:108 `is_reached()`, called at graph.cpp:68
    if cfg.parentOf t = some p.1 then []
    else if cfg.space p.1 = cfg.space t ∧ cfg.serial p.1 t = true then [.acq (.init t) (.post p.1)]
    else []
  -- event.cpp:75 `follower->state++`
  | .initing (.incr _ _ _) => [.rmw (.init t) (.pre t)]
  | .initing (.unlock i) =>
    match (cfg.res t)[i]? with
    -- graph.cpp:73, the end of the scope of the lock
    | some r => [.rel (.init t) (.lock r)]
    | none => []
  -- event.cpp:75, called at graph.cpp:80
  | .initing (.pincr q) => [.rmw (.init t) (.post q)]
  -- worker.cpp:213 `notify(true)`, event.cpp:108
  | .initing .final => [.rmw (.init t) (.pre t)]
  | _ => []

/-- The synchronizing operations that are executed by an action in a state. -/
def sync (cfg : Cfg) (s : State) : Act → List Op
  -- redGrapes.hpp:177-193: the body calls `emplace_task`
  | .submit => [.seq (.body (owner cfg s.n)) (.sub s.n)]
  | .sub t =>
    match s.ph t with
    | .submitting i =>
      match (cfg.res t)[i]? with
      | some _ => []
      -- worker.hpp:93-97 `emplacement_queue.push(task)`
      | none => [.rel (.sub t) (.queue t)]
    | _ => []
  | .init t => syncInit cfg s t
  -- execute.cpp:34 `pre_event.notify()`, event.cpp:108
  | .start t => [.rmw (.body (t + 1)) (.pre t)]
  -- graph.cpp:24-29: `state++` of the post-event. What the body learns by this is left out.
  | .event _ => []
  | .notify _ => []
  | .follow k => decPost s (.ext k) (s.owner k)
  -- execute.cpp:48 `post_event.notify()`
  | .ret t => .seq (.body (t + 1)) (.ret t) :: decPost s (.ret t) t
  | .flush t =>
    match s.fl t with
    | .deleting i =>
      match (cfg.res t)[i]? with
      -- graph.cpp:91-95: the lock is taken and given back
      | some r => [.acq (.flush t) (.lock r), .rel (.flush t) (.lock r)]
      | none => []
    -- event.cpp:92, 108
    | .notifying (.pre u :: _) => [.rmw (.flush t) (.pre u)]
    | .notifying (.post q :: _) => decPost s (.flush t) q
    | .counting => decCd s (.flush t) t
    | _ => []
  | .take t =>
    match s.fut t with
    | .taken => decCd s (.take t) t
    | _ => []
  | .free t =>
    match s.mem t with
    -- task_space.cpp:53 `task_count.fetch_sub(1)`
    | .freeing => [.rmw (.free t) (.count (cfg.space t))]
    | _ => []
  | .late _ => []

structure V where
  g : State
  k : Clk
  /-- how many actions there have been so far -/
  cnt : Agent → Nat
  /-- the function of the user has returned and the result-set-event has been notified, task.hpp:76-80, 94-98 -/
  fin : Nat → Bool
  /-- ghost: how many actions of the submitting body there had been when a task was submitted -/
  born : Nat → Nat

def init : V := ⟨Graph.init, ⟨fun _ _ => False, fun _ _ => False⟩, fun _ => 0, fun _ => false, fun _ => 0⟩

/-- the function of the user is being executed -/
def Busy (x : V) : Nat → Prop
  | 0 => True
  | t + 1 => x.g.ex t = .running ∧ x.fin t = false

/-- the next action of `a` -/
def V.act (x : V) (a : Agent) : V :=
  { x with
    k := { x.k with know := fun b e => x.k.know b e ∨ (b = a ∧ e = (a, x.cnt a)) }
    cnt := fun b => if b = a then x.cnt b + 1 else x.cnt b }

def Act.born (cfg : Cfg) (x : V) : Act → Nat → Nat
  | .submit => upd x.born x.g.n (x.cnt (.body (owner cfg x.g.n)))
  | _ => x.born

inductive Step (cfg : Cfg) : V → V → Prop
  /-- a step of Model/Graph -/
  | graph {x a s'} (h : exec cfg x.g a = some s') (hb : a = .submit → Busy x (owner cfg x.g.n))
      (hr : ∀ t, a = .ret t → x.fin t = true) :
      Step cfg x { x with g := s', k := x.k.ops (sync cfg x.g a), born := Act.born cfg x a }
  /-- an action of a body on the data of the user -/
  | act {x i} (h : Busy x i) : Step cfg x (x.act (.body i))
  /-- an action of the user on behalf of an event, before it is notified -/
  | extAct {x k} (h : x.g.ext k = .pending) : Step cfg x (x.act (.ext k))
  /-- task.hpp:76-80, 94-98: the result is set -/
  | fin {x t} (h : Busy x (t + 1)) :
      Step cfg x { x with fin := upd x.fin t true, k := x.k.op (.rmw (.body (t + 1)) (.result t)) }
  /-- future.hpp:53-64, redGrapes.cpp:157-170: `get()` for the tasks in `w`: a load of the state of the result-set-event,
  event.cpp:47-50 -/
  | get {x i} (w : Nat → Prop) (h : Busy x i) (hw : ∀ t, w t → x.fin t = true) :
      Step cfg x { x with k := { x.k with
        know := fun b e => x.k.know b e ∨ (b = .body i ∧ ∃ t, w t ∧ x.k.loc (.result t) e) } }
  /-- redGrapes.cpp:136-142 `barrier()`, task_space.cpp:44-48: a load of `task_count` -/
  | barrier {x sp} (h : x.g.tasks sp = 0) : Step cfg x { x with k := x.k.op (.acq (.body 0) (.count sp)) }

inductive Reach (cfg : Cfg) : V → Prop
  | init : Reach cfg init
  | step {x x'} : Reach cfg x → Step cfg x x' → Reach cfg x'

end RG.Vis
