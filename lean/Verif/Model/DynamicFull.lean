import Verif.Model.DynamicRun
import Verif.Model.Full
/-
Executions of whole programs: from the beginning of the main program to the return of `finalize()`.

As Model/DynamicRun, with the machine of Model/Full: pausing a body consists of its individual steps
(/repo/redGrapes/dispatch/thread/execute.cpp:34-46, redGrapes.cpp:157-163, scheduler/event.cpp:68-178), and the main thread
is a part of it. The main program waits for its tasks either by reading their results (task/future.hpp:53-64), or by
`barrier()` (redGrapes.cpp:136-142), which returns when the root space is empty. At its end it calls `finalize()`
(redGrapes.cpp:144-154), which waits for all tasks, stops the workers and waits for the end of their threads.

Simplifications, in addition to those of Model/DynamicRun and Model/Full: reading a result in the main program is one
step, which is possible when the body has ended (how the thread waits is treated in C40 and C57). A future ends at any
time (it is read, or dropped; task/future.hpp:38-64).
-/
namespace RG.Dyn
open RG.Graph

variable {M : Type}

structure FConf (P : Prog M) where
  /-- accesses of the tasks that have been submitted -/
  user : Nat → User
  /-- the bodies that have submitted them -/
  own : Nat → Nat
  /-- the runtime system and the main thread -/
  s : Full.State
  m : M
  loc : Nat → P.B

def FConf.cfg {P : Prog M} (x : FConf P) : Cfg := tasks x.user x.own

/-- number of tasks that have been submitted -/
def FConf.n {P : Prog M} (x : FConf P) : Nat := x.s.p.y.x.g.n

/-- body `i` is being executed: by a worker, or, the main program, by the main thread, which is not in `barrier()` or
`finalize()` -/
def Executes (N : Nat) (s : Full.State) (i : Nat) : Prop := OnWorker N s.p.y i ∧ (i = 0 → s.p.mpc = .run)

inductive FStep (N : Nat) (a : Bool) (P : Prog M) (K : Cfg → Full.State → Full.State → Prop) : FConf P → FConf P → Prop
  /-- A step of the runtime system, or of the main thread inside of `barrier()` or `finalize()`. A body ends
  (execute.cpp:37, 48) when it returns, and it waits (redGrapes.cpp:161-162) for a task `u` that it has to wait for. -/
  | rt {x : FConf P} {s' : Full.State} {l} (h : Full.Step x.cfg N a l x.s s') (hk : K x.cfg x.s s')
      (hn : s'.p.y.x.g.n = x.n)
      (hret : ∀ t, x.s.p.y.x.g.ex t = .running → s'.p.y.x.g.ex t ≠ .running → P.pt (x.loc (t + 1)) = .done)
      (hw : ∀ t u, x.s.p.y.x.w t = none → s'.p.y.x.w t = some u →
        ∃ w b, P.pt (x.loc (t + 1)) = .join w b ∧ x.own u = t + 1 ∧ w (rank x.cfg u) = true)
      (hm : x.s.p.mpc = .run ↔ s'.p.mpc = .run) :
      FStep N a P K x { x with s := s' }
  /-- redGrapes.cpp:136: the main program waits, it calls `barrier()` -/
  | barrier {x : FConf P} {s' : Full.State} {w b} (h : Full.Step x.cfg N a (some .call) x.s s')
      (hf : s'.p.mpc = .check false) (hp : P.pt (x.loc 0) = .join w b) : FStep N a P K x { x with s := s' }
  /-- redGrapes.cpp:140, 142: `barrier()` returns, the main program goes on -/
  | back {x : FConf P} {s' : Full.State} {l w b} (h : Full.Step x.cfg N a l x.s s') (hk : K x.cfg x.s s')
      (hm : x.s.p.mpc ≠ .run) (hm' : s'.p.mpc = .run) (hp : P.pt (x.loc 0) = .join w b) :
      FStep N a P K x { x with s := s', loc := upd x.loc 0 b }
  /-- redGrapes.cpp:144-146: the main program is complete, it calls `finalize()` -/
  | finalize {x : FConf P} {s' : Full.State} (h : Full.Step x.cfg N a (some .call) x.s s')
      (hf : s'.p.mpc = .check true) (hp : P.pt (x.loc 0) = .done) : FStep N a P K x { x with s := s' }
  /-- `emplace_task`, redGrapes.hpp:177-193: body `i` submits a task -/
  | submit {x : FConf P} {i : Nat} {s' : Full.State} {l d c b} (ho : Executes N x.s i) (hp : P.pt (x.loc i) = .spawn d c b)
      (h : Full.Step (tasks (upd x.user x.n d) (upd x.own x.n i)) N a l x.s s') (hn : s'.p.y.x.g.n = x.n + 1) :
      FStep N a P K x ⟨upd x.user x.n d, upd x.own x.n i, s', x.m, upd (upd x.loc i b) (x.n + 1) c⟩
  /-- the next action of a body -/
  | act {x : FConf P} {i f} (h : Executes N x.s i) (hp : P.pt (x.loc i) = .act f) :
      FStep N a P K x { x with m := (f x.m).2, loc := upd x.loc i (f x.m).1 }
  /-- the tasks that a body waits for have ended -/
  | join {x : FConf P} {i w b} (h : Executes N x.s i) (hp : P.pt (x.loc i) = .join w b)
      (hc : ∀ t, t < x.n → x.own t = i → w (rank x.cfg t) = true → x.s.p.y.x.g.ex t = .ended) :
      FStep N a P K x { x with loc := upd x.loc i b }

/-- the beginning of the main program -/
def FConf.start (P : Prog M) (m0 : M) : FConf P := ⟨fun _ => noUser, fun _ => 0, Full.init, m0, fun _ => P.main⟩

/-- the states that can be reached on `N` workers if the memory is `m0` at the beginning -/
inductive FReach (N : Nat) (a : Bool) (P : Prog M) (m0 : M) : FConf P → Prop
  | init : FReach N a P m0 (FConf.start P m0)
  | step {x x'} : FReach N a P m0 x → FStep N a P (fun _ _ _ => True) x x' → FReach N a P m0 x'

end RG.Dyn
