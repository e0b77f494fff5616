/-
MPI request pool: /repo/redGrapes/dispatch/mpi/request_pool.hpp

Requests, events and status objects are opaque numbers. `MPI_Testsome` is an input: the list of
(index, status) pairs it reports. The mutex makes `poll` and the registration in `get_status`
atomic with respect to each other.
-/
namespace RG.Mpi

/-- request_pool.hpp:32-34: the three parallel vectors. -/
structure Pool where
  requests : List Nat
  events : List Nat
  statuses : List Nat
  deriving DecidableEq, Repr

/-- request_pool.hpp:36-38: a new pool is empty. -/
def Pool.empty : Pool := ⟨[], [], []⟩

/-- Observable effects of `poll`. -/
inductive Act
  /-- `*(statuses[idx]) = out_statuses[i]` (line 61): status object, value -/
  | writeStatus (obj value : Nat)
  /-- `events[idx].notify()` (line 64) -/
  | notify (event : Nat)
  deriving DecidableEq, Repr

/-- request_pool.hpp:70-72: adjust the indices that are still to be processed. The loop starts at
`j = i`, i.e. includes the current index, which is not greater than itself. -/
def shift (idx : Nat) (rest : List (Nat × Nat)) : List (Nat × Nat) :=
  rest.map fun x => (if x.1 > idx then x.1 - 1 else x.1, x.2)

@[simp] theorem length_shift (idx : Nat) (rest : List (Nat × Nat)) :
    (shift idx rest).length = rest.length := by simp [shift]

/-- request_pool.hpp:56-73: the loop over the reported completions. `none` is undefined behaviour
(an index outside one of the vectors). -/
def pollLoop (p : Pool) : List (Nat × Nat) → Option (Pool × List Act)
  | [] => some (p, [])
  | (idx, st) :: rest =>
    match p.statuses[idx]?, p.events[idx]?, p.requests[idx]? with
    | some s, some e, some _ =>
      let p' : Pool := ⟨p.requests.eraseIdx idx, p.events.eraseIdx idx, p.statuses.eraseIdx idx⟩
      (pollLoop p' (shift idx rest)).map fun r => (r.1, .writeStatus s st :: .notify e :: r.2)
    | _, _, _ => none
termination_by l => l.length
decreasing_by simp

/-- request_pool.hpp:44-75 `poll` with the completions reported by `MPI_Testsome`; nothing is
tested if the pool is empty. -/
def poll (p : Pool) (reported : List (Nat × Nat)) : Option (Pool × List Act) :=
  if p.requests.isEmpty then some (p, []) else pollLoop p reported

/-- request_pool.hpp:92-97: the registration done by `get_status`. -/
def register (p : Pool) (request event status : Nat) : Pool :=
  ⟨p.requests ++ [request], p.events ++ [event], p.statuses ++ [status]⟩

end RG.Mpi
