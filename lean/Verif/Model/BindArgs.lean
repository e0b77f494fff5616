import Verif.Util
/-
What becomes of the callable and the arguments that are passed to `emplace_task`.

/repo/redGrapes/redGrapes.hpp:164-168, 177-193, task/task_builder.hpp:25-93, task/task.hpp:101-114.

Objects are at locations: variables of the program and temporaries. An object has a value; `none` is the state of an object that was moved from.
Copying and moving are those of a type like `std::string`, `std::vector` or `std::function`.
-/
namespace RG.BA

/-- Where an object is. -/
inductive Loc
  | var (x : Nat)
  | temp (x : Nat)
  deriving DecidableEq

/-- A forwarding reference `T&& t`: the object, and whether `T` was deduced as an lvalue reference. -/
structure Ref where
  loc : Loc
  lv : Bool
  deriving DecidableEq

/-- `std::move` -/
def Ref.move (r : Ref) : Ref := { r with lv := false }

/-- `std::forward<T>` -/
def Ref.forward (r : Ref) : Ref := r

/-- the values of objects; `none`: moved from -/
abbrev Mem := Loc → Option Nat

def Mem.set (m : Mem) (l : Loc) (v : Option Nat) : Mem := fun k => if k = l then v else m k

/-- initialization of a new object from an expression: from an rvalue it is moved, from an lvalue it is copied -/
def construct (m : Mem) (r : Ref) : Mem × Option Nat :=
  if r.lv then (m, m r.loc) else (m.set r.loc none, m r.loc)

/-- The lambda that `BindArgs` returns, task_builder.hpp:56: its captures, and of which kind `Args...` are. -/
structure Closure where
  f : Option Nat
  args : List (Bool × Option Nat)
  deriving DecidableEq

/-- task_builder.hpp:56: the capture `args...`: each one is initialized from the name of a parameter, which is an lvalue, whatever the parameter refers to -/
def captureArgs (m : Mem) : List Ref → Mem × List (Bool × Option Nat)
  | [] => (m, [])
  | r :: rs =>
    let c := construct m { r with lv := true }
    let d := captureArgs c.1 rs
    (d.1, (r.lv, c.2) :: d.2)

/-- task_builder.hpp:54-57 `BindArgs::operator()`: the captures `f = std::move(f), args...` are initialized in this order. -/
def bindArgs (m : Mem) (f : Ref) (args : List Ref) : Mem × Closure :=
  let c := construct m f.move
  let d := captureArgs c.1 args
  (d.1, ⟨c.2, d.2⟩)

/-- task_builder.hpp:66-93 `TaskBuilder`: the properties are built from references to constant arguments (35-40, 84-86), then the closure (92). The closure is moved into the task;
this moves all captures. -/
def taskBuilder (m : Mem) (f : Ref) (args : List Ref) : Mem × Closure :=
  bindArgs m f.move (args.map Ref.forward)

/-- redGrapes.hpp:177-193 `Context::emplace_task` -/
def contextEmplace (m : Mem) (f : Ref) (args : List Ref) : Mem × Closure :=
  taskBuilder m f.move (args.map Ref.forward)

/-- redGrapes.hpp:164-168 `redGrapes::emplace_task` -/
def emplaceTask (m : Mem) (f : Ref) (args : List Ref) : Mem × Closure :=
  contextEmplace m f.move (args.map Ref.forward)

/-- A task, with a record (ghost) of the call that has created it and of the values that the expressions had then. -/
structure Task where
  clo : Closure
  started : Bool
  callee : Ref
  actual : List Ref
  wantF : Option Nat
  wantArgs : List (Option Nat)

/-- What the body of a task gets: the callable, and the arguments; an argument that was passed as an lvalue is given as an lvalue (the capture), the others as rvalues. -/
structure Seen where
  task : Nat
  f : Option Nat
  args : List (Bool × Option Nat)
  deriving DecidableEq

structure State where
  mem : Mem
  tasks : List Task
  seen : List Seen

/-- Steps of the submitting thread and of the workers, in any order. -/
inductive Step : State → State → Prop
  /-- the submitting thread changes one of its objects: a variable, or a temporary that it creates or destroys -/
  | write {s l v} : Step s { s with mem := s.mem.set l v }
  /-- the submitting thread creates a task -/
  | submit {s f args} :
      Step s { s with
        mem := (emplaceTask s.mem f args).1
        tasks := s.tasks ++ [⟨(emplaceTask s.mem f args).2, false, f, args, s.mem f.loc, args.map fun r => s.mem r.loc⟩] }
  /-- task_builder.hpp:56, task.hpp:110-113: a worker calls the closure, `f(std::forward<Args>(args)...)`, once (C13) -/
  | start {s i T} (hi : s.tasks[i]? = some T) (hs : T.started = false) :
      Step s { s with
        tasks := s.tasks.set i { T with started := true }
        seen := ⟨i, T.clo.f, T.clo.args⟩ :: s.seen }
  /-- the body changes its parameters, moves from them, or changes the captures of the callable -/
  | body {s i T f args} (hi : s.tasks[i]? = some T) (hs : T.started = true) :
      Step s { s with tasks := s.tasks.set i { T with clo := ⟨f, args⟩ } }

inductive Steps : State → State → Prop
  | refl {s} : Steps s s
  | tail {s s' s''} : Steps s s' → Step s' s'' → Steps s s''

/-- an execution from any initial values -/
def Reach (s : State) : Prop := ∃ m, Steps ⟨m, [], []⟩ s

end RG.BA
