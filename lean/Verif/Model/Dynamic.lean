import Verif.Model.Bodies
/-
Programs whose tasks depend on the data.

As Model/Bodies, but what a task body does next, which tasks it submits, what these declare and what they do depends
on what the body has read so far. The main program is treated in the same way: it submits tasks
(/repo/redGrapes/redGrapes.hpp:177-193), waits for them (`future.get()`, task/future.hpp:53-64, or `barrier()`,
redGrapes.cpp:136-142), and accesses the data in between.

A body is a state machine of the user. Its states contain the local variables and the place in the code. What it
does next is determined by its state alone: an action on the shared memory, a call of `emplace_task`, waiting for the
tasks that it has submitted, or the return. Results of tasks are part of the memory.

The task numbers of `Cfg` are given in the order of submission, which is different from execution to execution if
several bodies submit tasks at the same time. Here, `Cfg` says which tasks are submitted in an execution: the steps
are possible only if it agrees with what the bodies do. The sequential program does not mention it.

Simplifications: a body can continue while the task that it has submitted is being put into the task space; in the
code it continues afterwards. A body waits for tasks that it has submitted itself, not for other ones. One thread outside
of the workers uses redGrapes.
-/
namespace RG.Dyn
open RG.Graph

/-- What a body does next. -/
inductive Pt (M B : Type)
  /-- an action on the memory -/
  | act (f : M → B × M)
  /-- `emplace_task` with the accesses `d` for the body `c`, then the body goes on with `b` -/
  | spawn (d : User) (c b : B)
  /-- waiting for tasks that have been submitted by this body: for its `k`-th task if `w k`. For `get()` of one future
  this is one of them, for `barrier()` all of them. -/
  | join (w : Nat → Bool) (b : B)
  /-- the return -/
  | done

/-- The program of a user. -/
structure Prog (M : Type) where
  B : Type
  pt : B → Pt M B
  /-- the beginning of the main program -/
  main : B

variable {M : Type}

/-- The sequential program: `emplace_task` executes the body of the task right away, as a function call. From `b` and
the memory `m` it computes the memory `m'`. -/
inductive Seq (P : Prog M) : P.B → M → M → Prop
  | act {b f m m'} (h : P.pt b = .act f) (h' : Seq P (f m).1 (f m).2 m') : Seq P b m m'
  | spawn {b d c b' m m1 m'} (h : P.pt b = .spawn d c b') (h1 : Seq P c m m1) (h2 : Seq P b' m1 m') : Seq P b m m'
  | join {b w b' m m'} (h : P.pt b = .join w b') (h' : Seq P b' m m') : Seq P b m m'
  | done {b m} (h : P.pt b = .done) : Seq P b m m

/-- The next actions of two bodies are independent: they can be exchanged, and the one does not influence how the
other one goes on. -/
def Free (P : Prog M) (b b' : P.B) : Prop :=
  ∀ f f', P.pt b = .act f → P.pt b' = .act f' → ∀ m,
    (f' (f m).2).1 = (f' m).1 ∧ (f (f' m).2).1 = (f m).1 ∧ (f (f' m).2).2 = (f' (f m).2).2

/-- a body in state `b`, and the tasks that it submits, can get to `b'` -/
inductive From (P : Prog M) (b : P.B) : P.B → Prop
  | refl : From P b b
  | act {b1 f m} (h : From P b b1) (h1 : P.pt b1 = .act f) : From P b (f m).1
  | next {b1 d c b2} (h : From P b b1) (h1 : P.pt b1 = .spawn d c b2) : From P b b2
  | child {b1 d c b2} (h : From P b b1) (h1 : P.pt b1 = .spawn d c b2) : From P b c
  | join {b1 w b2} (h : From P b b1) (h1 : P.pt b1 = .join w b2) : From P b b2

/-! ### The parallel program

Bodies have numbers: 0 is the main program, `t + 1` is the body of task `t`. -/

structure St (R : Bodies.Runtime) (P : Prog M) where
  s : R.S
  m : M
  loc : Nat → P.B

/-- the body that submits a task -/
def owner (cfg : Cfg) (t : Nat) : Nat :=
  match cfg.parentOf t with
  | none => 0
  | some q => q + 1

/-- how many tasks the same body has submitted before -/
def rank (cfg : Cfg) (t : Nat) : Nat := ((List.range t).filter fun c => owner cfg c = owner cfg t).length

/-- task `d` has been submitted by body `i` or by one of the tasks that it has submitted, and so on -/
def Below (cfg : Cfg) (d : Nat) : Nat → Prop
  | 0 => True
  | t + 1 => d ≠ t ∧ Descends cfg d t

/-- the body is being executed -/
def Active (g : State) : Nat → Prop
  | 0 => True
  | t + 1 => g.ex t = .running

/-- The next action of a body is independent of everything that the tasks below it will do from now on. The user has
to ensure this, by waiting for the tasks before accessing their data. -/
def MayAct (cfg : Cfg) (P : Prog M) (g : State) (loc : Nat → P.B) (i : Nat) : Prop :=
  ∀ d, d < g.n → Below cfg d i → ∀ b, From P (loc (d + 1)) b → Free P (loc i) b

/-- Steps of the parallel program. With `careful` the bodies act only when they may. -/
inductive Step (cfg : Cfg) (R : Bodies.Runtime) (P : Prog M) (careful : Bool) : St R P → St R P → Prop
  /-- a step of the runtime system. A body ends (execute.cpp:37, 48) when it returns. -/
  | rt {x s'} (h : R.step x.s s') (hn : (R.g s').n = (R.g x.s).n)
      (hret : ∀ t, (R.g x.s).ex t = .running → (R.g s').ex t ≠ .running → P.pt (x.loc (t + 1)) = .done) :
      Step cfg R P careful x { x with s := s' }
  /-- `emplace_task`, redGrapes.hpp:177-193 -/
  | submit {x s' d c b} (h : R.step x.s s') (hn : (R.g s').n = (R.g x.s).n + 1)
      (hret : ∀ t, (R.g x.s).ex t = .running → (R.g s').ex t ≠ .running → P.pt (x.loc (t + 1)) = .done)
      (hp : P.pt (x.loc (owner cfg (R.g x.s).n)) = .spawn d c b) (hd : cfg.user (R.g x.s).n = d) :
      Step cfg R P careful x
        { x with s := s', loc := upd (upd x.loc (owner cfg (R.g x.s).n) b) ((R.g x.s).n + 1) c }
  /-- the next action of a body -/
  | act {x i f} (h : Active (R.g x.s) i) (hp : P.pt (x.loc i) = .act f)
      (hm : careful = true → MayAct cfg P (R.g x.s) x.loc i) :
      Step cfg R P careful x { x with m := (f x.m).2, loc := upd x.loc i (f x.m).1 }
  /-- The bodies of the tasks that a body waits for have returned. `get()` returns when the result is set, which is done
  after the user's function has returned, task.hpp:72-98. -/
  | join {x i w b} (h : Active (R.g x.s) i) (hp : P.pt (x.loc i) = .join w b)
      (hc : ∀ t, t < (R.g x.s).n → owner cfg t = i → w (rank cfg t) = true →
        (R.g x.s).ex t ≠ .none ∧ P.pt (x.loc (t + 1)) = .done) :
      Step cfg R P careful x { x with loc := upd x.loc i b }

/-- the states that can be reached if the memory is `m0` at the beginning -/
inductive Reach (cfg : Cfg) (R : Bodies.Runtime) (P : Prog M) (careful : Bool) (m0 : M) : St R P → Prop
  | init : Reach cfg R P careful m0 ⟨R.init, m0, fun _ => P.main⟩
  | step {x x'} : Reach cfg R P careful m0 x → Step cfg R P careful x x' → Reach cfg R P careful m0 x'

/-! ### What the bodies declare -/

/-- The body with the name `p`, whose task has declared the accesses `d`, can get to `b` after it has submitted `k`
tasks. The name says which of the tasks of which body it is; the one of the main program is `[]`. -/
inductive Occ (P : Prog M) : List Nat → Option User → Nat → P.B → Prop
  | main : Occ P [] none 0 P.main
  | act {p d k b f m} (h : Occ P p d k b) (h1 : P.pt b = .act f) : Occ P p d k (f m).1
  | next {p d k b d' c b'} (h : Occ P p d k b) (h1 : P.pt b = .spawn d' c b') : Occ P p d (k + 1) b'
  | child {p d k b d' c b'} (h : Occ P p d k b) (h1 : P.pt b = .spawn d' c b') :
      Occ P (p ++ [k + 1]) (some d') 0 c
  | join {p d k b w b'} (h : Occ P p d k b) (h1 : P.pt b = .join w b') : Occ P p d k b'

/-- A body can be at `b` after it has submitted `k` tasks. `o` are the bodies of those tasks that it has not waited
for. -/
inductive Has (P : Prog M) : Nat → (Nat → Option P.B) → P.B → Prop
  | main : Has P 0 (fun _ => none) P.main
  | act {k o b f m} (h : Has P k o b) (h1 : P.pt b = .act f) : Has P k o (f m).1
  | next {k o b d c b'} (h : Has P k o b) (h1 : P.pt b = .spawn d c b') : Has P (k + 1) (upd o k (some c)) b'
  | child {k o b d c b'} (h : Has P k o b) (h1 : P.pt b = .spawn d c b') : Has P 0 (fun _ => none) c
  | join {k o b w b'} (h : Has P k o b) (h1 : P.pt b = .join w b') : Has P k (fun j => if w j then none else o j) b'

/-- Bodies wait for the tasks that they have submitted before they return, and before they do something that is not
independent of what these tasks, and the tasks that these submit, may do. -/
structure Structured (P : Prog M) : Prop where
  act : ∀ k o b, Has P k o b → ∀ f, P.pt b = .act f → ∀ j c, o j = some c → ∀ b', From P c b' → Free P b b'
  done : ∀ k o b, Has P k o b → P.pt b = .done → ∀ j, o j = none

end RG.Dyn
