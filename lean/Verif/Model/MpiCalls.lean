import Verif.Util
/-
Waiting for MPI requests: /repo/redGrapes/dispatch/mpi/request_pool.hpp:28-104, with any number of calls of `get_status` and threads that call `poll`.

Calls of `get_status` are numbered; call `c` is made in the body of a task (`T c`) or outside of tasks, and waits for the request `R c`, `none` is MPI_REQUEST_NULL; its event and its status object have the same number. The mutex is
held during the whole of `poll` (46), so there is one `poll` at a time, and `get_status` changes the vectors only in between; its three calls of `push_back` (93-96) are
one step. The steps of `poll` are interleaved with those of the calls that have been registered, and of MPI.

MPI completes requests at any time. `MPI_Testsome` reports some of the requests that have been completed, in any order, at least one if there is one; it never reports
MPI_REQUEST_NULL (MPI standard: null requests are ignored). That it overwrites the handles that it reports is left out, since they are erased before the next call.
`yield` (99) returns when the event has been notified; how it waits is the subject of C23 and C71.
-/
namespace RG.MpiCalls

inductive Pc
  /-- before 92 -/
  | new
  /-- in 99 -/
  | waiting
  /-- 101: the value of the status object, `none` if it was not written -/
  | ret (v : Option Nat)
  /-- undefined behaviour: 88 uses the value of a `std::optional` that is empty -/
  | ub
  deriving DecidableEq

/-- The thread that holds the mutex in `poll`; `rest`: the indices and statuses that remain to be processed. -/
inductive Poll
  /-- nobody is in `poll` -/
  | idle
  /-- 56 -/
  | loop (rest : List (Nat × Nat))
  /-- 64 -/
  | notify (i : Nat) (rest : List (Nat × Nat))
  /-- 66-72 -/
  | erase (i : Nat) (rest : List (Nat × Nat))
  deriving DecidableEq

structure State where
  /-- 32-34 -/
  requests : List (Option Nat)
  events : List Nat
  statuses : List Nat
  poll : Poll
  /-- the requests that MPI has completed, with their statuses -/
  done : Nat → Option Nat
  /-- the status objects -/
  st : Nat → Option Nat
  /-- how often an event was notified -/
  ev : Nat → Nat
  pc : Nat → Pc

def init : State := ⟨[], [], [], .idle, fun _ => none, fun _ => none, fun _ => 0, fun _ => .new⟩

/-- What `MPI_Testsome` may report. -/
structure Report (s : State) (rep : List (Nat × Nat)) : Prop where
  distinct : (rep.map (·.1)).Nodup
  complete : ∀ x ∈ rep, ∃ r, s.requests[x.1]? = some (some r) ∧ s.done r = some x.2
  some_ : rep = [] → ∀ r, some r ∈ s.requests → s.done r = none

/-- 70-72 -/
def shift (i : Nat) (rest : List (Nat × Nat)) : List (Nat × Nat) := rest.map fun x => (if x.1 > i then x.1 - 1 else x.1, x.2)

inductive Step (R : Nat → Option Nat) (T : Nat → Bool) : State → State → Prop
  | complete {s : State} {r v} (h : s.done r = none) : Step R T s { s with done := upd s.done r (some v) }
  /-- 85-97 -/
  | register {s : State} {c} (ht : T c = true) (hc : s.pc c = .new) (hp : s.poll = .idle) :
      Step R T s { s with requests := s.requests ++ [R c], events := s.events ++ [c], statuses := s.statuses ++ [c], pc := upd s.pc c .waiting }
  /-- 88 with redGrapes.cpp:78-84 -/
  | outside {s : State} {c} (ht : T c = false) (hc : s.pc c = .new) : Step R T s { s with pc := upd s.pc c .ub }
  /-- 46-54 -/
  | test {s : State} {rep} (hp : s.poll = .idle) (hr : s.requests ≠ []) (h : Report s rep) : Step R T s { s with poll := .loop rep }
  /-- 58-61 -/
  | write {s : State} {i v rest c} (hp : s.poll = .loop ((i, v) :: rest)) (hc : s.statuses[i]? = some c) :
      Step R T s { s with st := upd s.st c (some v), poll := .notify i rest }
  /-- 64 -/
  | notify {s : State} {i rest c} (hp : s.poll = .notify i rest) (hc : s.events[i]? = some c) :
      Step R T s { s with ev := upd s.ev c (s.ev c + 1), poll := .erase i rest }
  /-- 66-72 -/
  | erase {s : State} {i rest} (hp : s.poll = .erase i rest) :
      Step R T s { s with requests := s.requests.eraseIdx i, events := s.events.eraseIdx i, statuses := s.statuses.eraseIdx i, poll := .loop (shift i rest) }
  /-- 75 -/
  | unlock {s : State} (hp : s.poll = .loop []) : Step R T s { s with poll := .idle }
  /-- 99-101 -/
  | ret {s : State} {c} (hc : s.pc c = .waiting) (he : 0 < s.ev c) : Step R T s { s with pc := upd s.pc c (.ret (s.st c)) }

inductive Reach (R : Nat → Option Nat) (T : Nat → Bool) : State → Prop
  | init : Reach R T init
  | step {s s'} (h : Reach R T s) (hs : Step R T s s') : Reach R T s'

inductive Steps (R : Nat → Option Nat) (T : Nat → Bool) (s : State) : State → Prop
  | refl : Steps R T s s
  | step {a b} (h : Steps R T s a) (hs : Step R T a b) : Steps R T s b

end RG.MpiCalls
