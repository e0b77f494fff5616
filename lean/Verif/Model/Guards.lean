import Verif.Model.Code
import Verif.Model.FieldGuard
/-
Programs that access their data through guards: /repo/redGrapes/resource/ioresource.hpp, resource/fieldresource.hpp,
task/task_builder.hpp:66-93 and task/property/trait.hpp, resource.hpp:192-206 (accesses are derived from the arguments
of a task).

A body has some guards in scope: its parameters, and those that it derives from them. It reads and writes data through
them, and passes them as arguments to the tasks that it submits. The main program starts with the resources themselves.

Simplifications: values are natural numbers; containers are not bounded (C11 has element accesses outside of the
container); bodies catch the exceptions that guards throw. All resources are created by the main
program.
-/
namespace RG.Dyn
open RG.Graph

/-- A guard with its static type: ioresource.hpp:25-56 `ReadGuard` (`w = false`), 59-91 `WriteGuard` and 95-106
`IOResource` (`w = true`); or one of fieldresource.hpp. -/
inductive AGuard
  | io (r : Res) (w : Bool)
  | field {dim : Nat} (g : Guard dim)

/-- The static type of a guard, together with the resource it belongs to: which number of dimensions (`none`:
`IOResource`), and whether it is a `WriteGuard`. -/
structure GTy where
  res : Res
  dim : Option Nat
  w : Bool
  deriving DecidableEq

/-- The calls that derive a guard from a guard: `read()` (ioresource.hpp:32-35), `area(begin, end)` and `at(pos)`
(fieldresource.hpp:141-152, 191-202). -/
inductive Narrow
  | read
  | area (b e : List Size)
  | at (pos : List Size)

/-- an index of a field, fieldresource.hpp:83 -/
def index {dim : Nat} (pos : List Size) : Index dim := fun d => pos.getD d 0

namespace AGuard

def ty : AGuard → GTy
  | .io r w => ⟨r, none, w⟩
  | .field (dim := dim) g => ⟨g.res, some dim, g.isWrite⟩

/-- ioresource.hpp:27-30 and 61-64, fieldresource.hpp:164-167 and 214-217 `operator ResourceAccess()` -/
def toAccess : AGuard → RAccess
  | .io r w => ⟨.io, r, (if w then Mode.write else Mode.read : Mode)⟩
  | .field g => g.toAccess

/-- `none`: an exception (or the call is not possible) -/
def narrow : AGuard → Narrow → Option AGuard
  | .io r _, .read => some (.io r false)
  | .io _ _, _ => none
  | .field g, .read => (g.derive .read).map .field
  | .field g, .area b e => (g.derive (.area (index b) (index e))).map .field
  | .field g, .at pos => (g.derive (.at (index pos))).map .field

/-- The object or element that `*g` (ioresource.hpp:37-40, 71-74) or `g[pos]` (fieldresource.hpp:154-157, 204-207)
refers to; `none`: an exception. -/
def elem : AGuard → List Size → Option (Res × List Size)
  | .io r _, pos => some (r, pos)
  | .field g, pos => if g.contains (index pos) then some (g.res, pos) else none

/-- The same for the pointer to the whole object, resource.hpp:334-335 `obj` (public) and fieldresource.hpp:159-162,
209-212 `operator->()`. -/
def whole : AGuard → List Size → Res × List Size
  | .io r _, pos => (r, pos)
  | .field g, pos => (g.res, pos)

end AGuard

/-- the position belongs to an object of this type -/
def GTy.Fits (τ : GTy) (pos : List Size) : Prop := pos.length = τ.dim.getD 0

/-- whether a guard of this type has the call, and the type of its result -/
def GTy.narrow (τ : GTy) : Narrow → Option GTy
  | .read => some { τ with w := false }
  | .area b e => if τ.dim = some b.length ∧ e.length = b.length then some τ else none
  | .at pos => if τ.dim = some pos.length then some τ else none

/-- Code of a body. Guards are named by their position in the scope. -/
inductive GCode
  /-- read `*g` or `g[pos]`; the rest of the code gets the value, or `none` if an exception has been thrown -/
  | get (i : Nat) (pos : List Size) (k : Option Nat → GCode)
  /-- write to `*g` or `g[pos]`; `false`: an exception has been thrown -/
  | put (i : Nat) (pos : List Size) (v : Nat) (k : Bool → GCode)
  /-- write through the pointer to the whole object -/
  | poke (i : Nat) (pos : List Size) (v : Nat) (k : GCode)
  /-- derive a guard, which is added to the scope of `k`; `e`: an exception has been thrown -/
  | narrow (i : Nat) (n : Narrow) (k e : GCode)
  /-- `emplace_task(c, args...)`, followed by `.resources({extra...})` if there is an `extra` -/
  | call (args : List Nat) (extra : Option (List Nat)) (c k : GCode)
  /-- `get()` of the future of the task that this body has submitted as number `j`; the rest of the code gets the result -/
  | fut (j : Nat) (k : Nat → GCode)
  /-- wait for all tasks that this body has submitted; `barrier()` in the main program -/
  | all (k : GCode)
  /-- return a value -/
  | ret (v : Nat)

/-- What the compiler accepts for a body with the given guards in scope, when `k` futures have been received.
`raw = false`: the pointer to the whole object is not used. A task gets different resources as arguments, unless the
call is followed by one of `resources`: otherwise it waits for itself (C16). -/
def GCode.Typed (raw : Bool) : GCode → List GTy → Nat → Prop
  | .get i pos c, Γ, k => (∃ τ, Γ[i]? = some τ ∧ τ.Fits pos) ∧ ∀ v, (c v).Typed raw Γ k
  | .put i pos _ c, Γ, k => (∃ τ, Γ[i]? = some τ ∧ τ.Fits pos ∧ τ.w = true) ∧ ∀ b, (c b).Typed raw Γ k
  | .poke i pos _ c, Γ, k => raw = true ∧ (∃ τ, Γ[i]? = some τ ∧ τ.Fits pos) ∧ c.Typed raw Γ k
  | .narrow i n c e, Γ, k => (∃ τ τ', Γ[i]? = some τ ∧ τ.narrow n = some τ' ∧ c.Typed raw (Γ ++ [τ']) k) ∧
      e.Typed raw Γ k
  | .call args extra c c', Γ, k => (∀ i ∈ args ++ extra.getD [], i < Γ.length) ∧
      (extra.isSome = true ∨ ((args.filterMap (Γ[·]?)).map GTy.res).Nodup) ∧
      c.Typed raw (args.filterMap (Γ[·]?)) 0 ∧ c'.Typed raw Γ (k + 1)
  | .fut j c, Γ, k => j < k ∧ ∀ v, (c v).Typed raw Γ k
  | .all c, Γ, k => c.Typed raw Γ k
  | .ret _, _, _ => True

/-- Bodies wait for the tasks they have submitted before they use what these tasks may use, and before they return.
`o j`: the arguments of task number `j`, if the body has not waited for it. -/
def GCode.Joins : GCode → List GTy → Nat → (Nat → Option (List GTy)) → Prop
  | .get i _ c, Γ, k, o => (∀ τ, Γ[i]? = some τ → ∀ j Δ, o j = some Δ → ∀ σ ∈ Δ, σ.res = τ.res → σ.w = false) ∧
      ∀ v, (c v).Joins Γ k o
  | .put i _ _ c, Γ, k, o => (∀ τ, Γ[i]? = some τ → ∀ j Δ, o j = some Δ → ∀ σ ∈ Δ, σ.res ≠ τ.res) ∧
      ∀ b, (c b).Joins Γ k o
  | .poke i _ _ c, Γ, k, o => (∀ τ, Γ[i]? = some τ → ∀ j Δ, o j = some Δ → ∀ σ ∈ Δ, σ.res ≠ τ.res) ∧ c.Joins Γ k o
  | .narrow i n c e, Γ, k, o => (∀ τ τ', Γ[i]? = some τ → τ.narrow n = some τ' → c.Joins (Γ ++ [τ']) k o) ∧ e.Joins Γ k o
  | .call args _ c c', Γ, k, o => c.Joins (args.filterMap (Γ[·]?)) 0 (fun _ => none) ∧
      c'.Joins Γ (k + 1) (upd o k (some (args.filterMap (Γ[·]?))))
  | .fut j c, Γ, k, o => ∀ v, (c v).Joins Γ k fun i => if i = j then none else o i
  | .all c, Γ, k, _ => c.Joins Γ k fun _ => none
  | .ret _, _, _, o => ∀ j, o j = none

/-- The objects of the resources. -/
abbrev Objs : Type := Res → List Size → Nat

def Objs.set (m : Objs) (x : Res × List Size) (v : Nat) : Objs := fun r pos => if (r, pos) = x then v else m r pos

/-- What a program computes sequentially: `emplace_task` is a function call, `env` are the guards in scope, `rs` the
results of the tasks that the body has submitted. The result and the objects afterwards. -/
def GCode.run : GCode → List AGuard → List Nat → Objs → Nat × Objs
  | .get i pos c, env, rs, m =>
    match env[i]?.bind (·.elem pos) with
    | some x => (c (some (m x.1 x.2))).run env rs m
    | none => (c none).run env rs m
  | .put i pos v c, env, rs, m =>
    match env[i]?.bind (·.elem pos) with
    | some x => (c true).run env rs (m.set x v)
    | none => (c false).run env rs m
  | .poke i pos v c, env, rs, m =>
    match env[i]? with
    | some g => c.run env rs (m.set (g.whole pos) v)
    | none => c.run env rs m
  | .narrow i n c e, env, rs, m =>
    match env[i]?.bind (·.narrow n) with
    | some g => c.run (env ++ [g]) rs m
    | none => e.run env rs m
  | .call args _ c c', env, rs, m =>
    c'.run env (rs ++ [(c.run (args.filterMap (env[·]?)) [] m).1]) (c.run (args.filterMap (env[·]?)) [] m).2
  | .fut j c, env, rs, m => (c (rs.getD j 0)).run env rs m
  | .all c, env, rs, m => c.run env rs m
  | .ret v, _, _, m => (v, m)

/-- What a task declares: its arguments (in the order in which they are evaluated), and the list given to `resources`; `depth`: the depth of the body that
submits it. -/
structure Args where
  depth : Nat
  args : List AGuard
  extra : Option (List AGuard)

/-- task_builder.hpp:84-86, resource.hpp:192-206 (`add_resource` for every argument), task/property/resource.hpp:37-44
(`resources`) -/
def Args.user (a : Args) : User :=
  let u := (a.args.map AGuard.toAccess).foldl User.addAccess (User.empty (BitVec.ofNat 32 a.depth))
  match a.extra with
  | none => u
  | some l => u.resources (l.map AGuard.toAccess)

/-- The guards are in order: `kind` says which type of resource a resource is; the resources belong to the main
program. -/
def AGuard.Good (kind : Res → Option Nat) (g : AGuard) : Prop := g.ty.dim = kind g.ty.res ∧ g.ty.res.scope = 0

/-- ... and the resources of the arguments are different, or a call of `resources` follows. -/
def Args.Good (kind : Res → Option Nat) (a : Args) : Prop :=
  (∀ g ∈ a.args ++ a.extra.getD [], g.Good kind) ∧
    (a.extra.isSome = true ∨ (a.args.map fun g => g.ty.res).Nodup)

instance (kind : Res → Option Nat) (g : AGuard) : Decidable (g.Good kind) := by unfold AGuard.Good; infer_instance

instance (kind : Res → Option Nat) (a : Args) : Decidable (a.Good kind) := by unfold Args.Good; infer_instance

/-- The order in which task_builder.hpp:85 `pass(build_helper.build<Args>(args)...)` evaluates its operands; C++ does not specify it. The
compiler may choose another order for every submission. -/
class EvalOrder where
  order : List Nat → List AGuard → List AGuard
  perm : ∀ p l, (order p l).Perm l

/-- The steps of the body with the name `p` (Model/Dynamic.lean), when it has submitted `k` tasks and has the guards
`env`. The result of a body is stored in a variable of its own. (The last case of `call` does not occur if the
program is accepted by the compiler.) -/
def GCode.steps [EvalOrder] (kind : Res → Option Nat) :
    GCode → List Nat → Nat → List AGuard → Code { a : Args // a.Good kind }
  | .get i pos c, p, k, env =>
    match env[i]?.bind (·.elem pos) with
    | some x => .get (.shared x.1 x.2) fun v => (c (some v)).steps kind p k env
    | none => (c none).steps kind p k env
  | .put i pos v c, p, k, env =>
    match env[i]?.bind (·.elem pos) with
    | some x => .put (.shared x.1 x.2) v ((c true).steps kind p k env)
    | none => (c false).steps kind p k env
  | .poke i pos v c, p, k, env =>
    match env[i]? with
    | some g => .put (.shared (g.whole pos).1 (g.whole pos).2) v (c.steps kind p k env)
    | none => c.steps kind p k env
  | .narrow i n c e, p, k, env =>
    match env[i]?.bind (·.narrow n) with
    | some g => c.steps kind p k (env ++ [g])
    | none => e.steps kind p k env
  | .call args extra c c', p, k, env =>
    if h : Args.Good kind ⟨p.length, EvalOrder.order (p ++ [k + 1]) (args.filterMap (env[·]?)), extra.map fun l => l.filterMap (env[·]?)⟩ then
      .call ⟨_, h⟩ (c.steps kind (p ++ [k + 1]) 0 (args.filterMap (env[·]?))) (c'.steps kind p (k + 1) env)
    else c'.steps kind p (k + 1) env
  | .fut j c, p, k, env => .wait (· == j) (.get (.own (p ++ [j + 1]) 0) fun v => (c v).steps kind p k env)
  | .all c, p, k, env => .wait (fun _ => true) (c.steps kind p k env)
  | .ret v, p, _, _ => .put (.own p 0) v .ret

/-- The accesses of the tasks. -/
def argsUser (kind : Res → Option Nat) (a : { a : Args // a.Good kind }) : User := a.1.user

end RG.Dyn
