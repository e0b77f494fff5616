import Verif.Model.Visible
import Verif.Model.Code
/-
The happens-before relation for programs of users: Model/Visible.lean together with Model/Dynamic.lean.

What the bodies do next is determined by the program, and for every action it is remembered in which state the
body was. `get()` waits for the result-set-events of the tasks, `barrier()` for `task_count` of the root space.
-/
namespace RG.Vis
open RG.Graph
open RG.Dyn (owner rank Prog)

variable {M : Type}

structure H (P : Prog M) where
  v : V
  m : M
  /-- the states of the bodies -/
  loc : Nat → P.B
  /-- in which state a body was when it did something -/
  log : Ev → P.B

/-- the beginning, with the memory `m0` -/
def hinit (P : Prog M) (m0 : M) : H P := ⟨init, m0, fun _ => P.main, fun _ => P.main⟩

/-- the tasks that body `i` waits for with `w`, see `Pt.join` -/
def Waited (cfg : Cfg) (x : V) (i : Nat) (w : Nat → Bool) (t : Nat) : Prop :=
  t < x.g.n ∧ owner cfg t = i ∧ w (rank cfg t) = true

inductive HStep (cfg : Cfg) (P : Prog M) : H P → H P → Prop
  /-- a step of the runtime system; a task ends after its function has returned (execute.cpp:37, 48) -/
  | graph {y a s'} (h : exec cfg y.v.g a = some s') (ha : a ≠ .submit) (hr : ∀ t, a = .ret t → y.v.fin t = true) :
      HStep cfg P y { y with v :=
        { y.v with g := s', k := y.v.k.ops (sync cfg y.v.g a), born := Act.born cfg y.v a } }
  /-- `emplace_task`, redGrapes.hpp:177-193 -/
  | submit {y s' d c b} (h : exec cfg y.v.g .submit = some s') (hb : Busy y.v (owner cfg y.v.g.n))
      (hp : P.pt (y.loc (owner cfg y.v.g.n)) = .spawn d c b) (hd : cfg.user y.v.g.n = d) :
      HStep cfg P y { y with
        v := { y.v with g := s', k := y.v.k.ops (sync cfg y.v.g .submit), born := Act.born cfg y.v .submit }
        loc := upd (upd y.loc (owner cfg y.v.g.n) b) (y.v.g.n + 1) c }
  /-- the next action of a body -/
  | act {y i f} (h : Busy y.v i) (hp : P.pt (y.loc i) = .act f) :
      HStep cfg P y
        { v := y.v.act (.body i)
          m := (f y.m).2
          loc := upd y.loc i (f y.m).1
          log := fun e => if e = (.body i, y.v.cnt (.body i)) then y.loc i else y.log e }
  /-- task.hpp:76-80, 94-98: the function of the user has returned, and the result is set -/
  | fin {y t} (h : Busy y.v (t + 1)) (hp : P.pt (y.loc (t + 1)) = .done) :
      HStep cfg P y { y with v :=
        { y.v with fin := upd y.v.fin t true, k := y.v.k.op (.rmw (.body (t + 1)) (.result t)) } }
  /-- `get()`: the results of the tasks have been set, future.hpp:53-64 -/
  | get {y i w b} (h : Busy y.v i) (hp : P.pt (y.loc i) = .join w b)
      (hw : ∀ t, Waited cfg y.v i w t → y.v.fin t = true) :
      HStep cfg P y { y with
        v := { y.v with k := { y.v.k with
          know := fun a e => y.v.k.know a e ∨ (a = .body i ∧ ∃ t, Waited cfg y.v i w t ∧ y.v.k.loc (.result t) e) } }
        loc := upd y.loc i b }
  /-- `barrier()` in the main program, redGrapes.cpp:136-142: there are no tasks in the space -/
  | barrier {y w b sp} (hp : P.pt (y.loc 0) = .join w b) (h : y.v.g.tasks sp = 0)
      (hw : ∀ t, Waited cfg y.v 0 w t → cfg.space t = sp) :
      HStep cfg P y { y with
        v := { y.v with k := y.v.k.op (.acq (.body 0) (.count sp)) }
        loc := upd y.loc 0 b }

inductive HReach (cfg : Cfg) (P : Prog M) (m0 : M) : H P → Prop
  | init : HReach cfg P m0 (hinit P m0)
  | step {y y'} : HReach cfg P m0 y → HStep cfg P y y' → HReach cfg P m0 y'

end RG.Vis
