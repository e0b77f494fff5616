import Verif.Util
/-
Which workers find the tasks that can be executed: /repo/redGrapes/dispatch/thread/worker.cpp:138-224 (`work_loop`,
`gather_task`, `init_dependencies`), worker.hpp:93-97 (`emplace_task`), scheduler/default_scheduler.cpp:33-64 (`emplace_task` with and without
`REDGRAPES_EMPLACE_NOTIFY_NEXT`), 96-123 and 153-184 (`steal_new_task`, `steal_task`), redGrapes.hpp:180-188 (the choice of the worker);
/repo/test/scheduler.cpp ("check that every worker is utilized").

One thread submits tasks that do not conflict with each other, so that each of them can be executed as soon as it has been submitted
and `activate_task` is not called; the ready queues are empty. A body may run as long as it likes.

Simplifications: initialising a task is part of taking it from the queue; queues are bags; `cv.wait()` is one step, in which it waits for the flag and
resets it (C38, C86); a search tests the states of the workers in any order; workers are not stopped;
the counter of the round robin does not overflow.
-/
namespace RG.Idle

structure Cfg where
  /-- number of workers -/
  N : Nat
  /-- `REDGRAPES_EMPLACE_NOTIFY_NEXT`, default_scheduler.cpp:48-63; the default is 0 -/
  hack : Bool

/-- a worker -/
inductive Pc
  /-- worker.cpp:143 -/
  | top
  /-- worker.cpp:146 -/
  | waiting
  /-- worker.cpp:206, the own queue -/
  | own
  /-- worker.cpp:183 -/
  | avail
  /-- default_scheduler.cpp:98-121, the workers that are still to be tested -/
  | steal (l : List Nat)
  /-- default_scheduler.cpp:103: worker `v` is busy, before taking a task from its queue -/
  | peek (v : Nat) (l : List Nat)
  /-- default_scheduler.cpp:107: the own queue again -/
  | again (l : List Nat)
  /-- worker.cpp:150, default_scheduler.cpp:173 -/
  | got (t : Nat)
  /-- worker.cpp:151 -/
  | exec (t : Nat)
  deriving DecidableEq

/-- the thread that submits tasks -/
inductive Main
  | out
  /-- worker.hpp:96: the task is in the queue of worker `w`, which has to be woken -/
  | wake (w : Nat)
  /-- default_scheduler.cpp:53-62 -/
  | look
  /-- the workers that are still to be tested -/
  | probe (l : List Nat)
  deriving DecidableEq

structure State where
  /-- number of tasks -/
  n : Nat
  /-- emplacement queues -/
  q : Nat → List Nat
  /-- the state of a worker, worker_pool.hpp: `true` means AVAILABLE -/
  bit : Nat → Bool
  /-- cv.hpp: not `should_wait` -/
  flag : Nat → Bool
  pc : Nat → Pc
  main : Main
  /-- bodies that have ended -/
  ended : Nat → Bool

/-- worker_pool.hpp: all states are BUSY before the threads have begun -/
def init : State := ⟨0, fun _ => [], fun _ => false, fun _ => false, fun _ => .top, .out, fun _ => false⟩

inductive Act
  /-- the main thread submits a task -/
  | submit
  /-- the main thread continues; `l`: the order in which the states of the workers are tested -/
  | main (l : List Nat)
  /-- worker `w` continues; `t`: the task that it gets, if it gets one -/
  | work (w t : Nat) (l : List Nat)
  /-- the body that worker `w` executes ends -/
  | finish (w : Nat)
  deriving DecidableEq

/-- the order of a search: each worker once -/
def Cfg.order (c : Cfg) (l : List Nat) : Bool := l.length == c.N && (List.range c.N).all (l.contains ·)

/-- the worker `w` gets task `t` from the queue of `v`, or continues at `p` if this queue is empty -/
def pop (s : State) (w v t : Nat) (p : Pc) : Option State :=
  if t ∈ s.q v then some { s with q := upd s.q v ((s.q v).erase t), pc := upd s.pc w (.got t) }
  else if s.q v = [] then some { s with pc := upd s.pc w p }
  else none

/-- worker.cpp:138-224, default_scheduler.cpp:96-123, 153-184 -/
def work (c : Cfg) (s : State) (w t : Nat) (l : List Nat) : Option State :=
  match s.pc w with
  | .top => some { s with bit := upd s.bit w true, pc := upd s.pc w .waiting }
  | .waiting => if s.flag w then some { s with flag := upd s.flag w false, pc := upd s.pc w .own } else none
  | .own => pop s w w t .avail
  | .avail => if c.order l then some { s with bit := upd s.bit w true, pc := upd s.pc w (.steal l) } else none
  | .steal [] => some { s with pc := upd s.pc w .top }
  | .steal (v :: l) => some { s with pc := upd s.pc w (if s.bit v then .steal l else .peek v l) }
  | .peek v l => pop s w v t (.again l)
  | .again l => pop s w w t (.steal l)
  | .got t => some { s with bit := upd s.bit w false, pc := upd s.pc w (.exec t) }
  | .exec _ => none

/-- worker.hpp:96, default_scheduler.cpp:53-62 -/
def cont (c : Cfg) (s : State) (l : List Nat) : Option State :=
  match s.main with
  | .out => none
  | .wake w => some { s with flag := upd s.flag w true, main := if c.hack then .look else .out }
  | .look => if c.order l then some { s with main := .probe l } else none
  | .probe [] => some { s with main := .out }
  | .probe (v :: l) =>
    if s.bit v then some { s with flag := upd s.flag v true, main := .out } else some { s with main := .probe l }

def next (c : Cfg) (s : State) : Act → Option State
  /- redGrapes.hpp:180-188, default_scheduler.cpp:36-38, worker.hpp:95: round robin -/
  | .submit =>
    if s.main = .out then
      some { s with n := s.n + 1, q := upd s.q (s.n % c.N) (s.n :: s.q (s.n % c.N)), main := .wake (s.n % c.N) }
    else none
  | .main l => cont c s l
  | .work w t l => if w < c.N then work c s w t l else none
  | .finish w =>
    match s.pc w with
    | .exec t => if w < c.N then some { s with ended := upd s.ended t true, pc := upd s.pc w .own } else none
    | _ => none

inductive Reach (c : Cfg) : State → Prop
  | init : Reach c init
  | step {s s'} (a : Act) (h : Reach c s) (hs : next c s a = some s') : Reach c s'

/-- Nothing happens any more unless a body ends or a task is submitted. -/
def Rest (c : Cfg) (s : State) : Prop := ∀ a s', next c s a = some s' → a = .submit ∨ ∃ w, a = .finish w

/-- the task is being executed -/
def Running (c : Cfg) (s : State) (t : Nat) : Prop := ∃ w, w < c.N ∧ s.pc w = .exec t

def run (c : Cfg) (s : State) : List Act → Option State
  | [] => some s
  | a :: l => (next c s a).bind fun s' => run c s' l

end RG.Idle
