import Verif.Model.Dynamic
import Verif.Model.BodiesRuntime
/-
Programs whose tasks depend on the data, executed by workers.

As Model/Dynamic with the machine of Model/System, but closer to the code: a body makes progress only while a worker
executes it (/repo/redGrapes/dispatch/thread/execute.cpp:27-51), and it is paused only when it waits for a task whose
body has not ended (task/future.hpp:53-64, redGrapes.cpp:157-163).

The main program runs in its own thread. Waiting there is waiting for the tasks to be executed by the workers; what
the thread does in the meantime (`idle()`, scheduler/default_scheduler.cpp:18-29) is not modelled here (see C73).

Simplifications, in addition to those of Model/Dynamic and Model/System: `get()` returns when the body has ended (C77
allows it to return earlier, when the result is set).
-/
namespace RG.Dyn
open RG.Graph
open RG.Bodies (workers)

variable {M : Type}

/-- the state of the runtime system -/
abbrev St.sys {cfg : Cfg} {N : Nat} {P : Prog M} (x : St (workers cfg N) P) : Sys.State := x.s

/-- body `i` is the main program, or it is being executed by a worker -/
def OnWorker (N : Nat) (s : Sys.State) : Nat → Prop
  | 0 => True
  | t + 1 => ∃ w, w < N ∧ s.pc w = .exec t

/-- Steps of the program and of those steps `K` of the runtime system that belong to no submission. -/
inductive WStep (cfg : Cfg) (N : Nat) (P : Prog M) (K : Sys.State → Sys.State → Prop) :
    St (workers cfg N) P → St (workers cfg N) P → Prop
  /-- A step of the runtime system. A body ends (execute.cpp:37, 48) when it returns, and it is paused (execute.cpp:39-47)
  when it waits for task `u`. -/
  | rt {x : St (workers cfg N) P} {s' : Sys.State} (h : Sys.Step cfg N x.sys s') (hk : K x.sys s')
      (hn : s'.x.g.n = x.sys.x.g.n)
      (hret : ∀ t, x.sys.x.g.ex t = .running → s'.x.g.ex t ≠ .running → P.pt (x.loc (t + 1)) = .done)
      (hw : ∀ t u, x.sys.x.w t = none → s'.x.w t = some u →
        ∃ w b, P.pt (x.loc (t + 1)) = .join w b ∧ owner cfg u = t + 1 ∧ w (rank cfg u) = true) :
      WStep cfg N P K x { x with s := s' }
  /-- `emplace_task`, redGrapes.hpp:177-193 -/
  | submit {x : St (workers cfg N) P} {s' : Sys.State} {d c b} (h : Sys.Step cfg N x.sys s')
      (hn : s'.x.g.n = x.sys.x.g.n + 1)
      (hp : P.pt (x.loc (owner cfg x.sys.x.g.n)) = .spawn d c b) (hd : cfg.user x.sys.x.g.n = d) :
      WStep cfg N P K x { x with s := s', loc := upd (upd x.loc (owner cfg x.sys.x.g.n) b) (x.sys.x.g.n + 1) c }
  /-- the next action of a body -/
  | act {x : St (workers cfg N) P} {i f} (h : OnWorker N x.sys i) (hp : P.pt (x.loc i) = .act f) :
      WStep cfg N P K x { x with m := (f x.m).2, loc := upd x.loc i (f x.m).1 }
  /-- the tasks that a body waits for have ended -/
  | join {x : St (workers cfg N) P} {i w b} (h : OnWorker N x.sys i) (hp : P.pt (x.loc i) = .join w b)
      (hc : ∀ t, t < x.sys.x.g.n → owner cfg t = i → w (rank cfg t) = true → x.sys.x.g.ex t = .ended) :
      WStep cfg N P K x { x with loc := upd x.loc i b }

/-- the states that can be reached if the memory is `m0` at the beginning -/
inductive WReach (cfg : Cfg) (N : Nat) (P : Prog M) (m0 : M) : St (workers cfg N) P → Prop
  | init : WReach cfg N P m0 ⟨Sys.init, m0, fun _ => P.main⟩
  | step {x x'} : WReach cfg N P m0 x → WStep cfg N P (fun _ _ => True) x x' → WReach cfg N P m0 x'

end RG.Dyn
