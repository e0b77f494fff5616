import Verif.Util
/-
One element of the list, used by any number of iterators and one remover at the same time:
/repo/redGrapes/util/chunked_list.hpp:84-235 (`Item`), 572-602 (`remove`).

Every access to shared memory is a step. `iter_offset` is reduced to whether it is zero; `refcount` (int16_t) is
unbounded. The element has been assigned (operator=, 157-170) before the first step.
-/
namespace RG.Item

/-- An iterator. -/
inductive Pc
  /-- not at this element -/
  | idle
  /-- 181 -/
  | loadOff
  /-- 182: zero has been loaded from `iter_offset` -/
  | loadRef
  /-- 186 -/
  | add
  /-- 187: `old` has been loaded from `refcount` -/
  | loadOff2 (old : Int)
  /-- 202, 209: `acquire` will return zero (`got`) or not -/
  | dec (got : Bool)
  /-- the iterator is at the element and its owner may read the value; `counted`: `refcount` includes this iterator -/
  | hold (counted : Bool)
  deriving DecidableEq

/-- The thread that removes the element. -/
inductive Rpc
  | idle
  /-- 582-587 done, before 596 -/
  | stored
  | done
  deriving DecidableEq

structure State where
  /-- `iter_offset != 0` -/
  gone : Bool
  ref : Int
  /-- number of calls of the destructor of the value -/
  dtors : Nat
  /-- an exception has been thrown, 231-232 -/
  err : Bool
  pcs : Nat → Pc
  rpc : Rpc
  /-- ghost: how often an iterator that is not counted has been released -/
  bad : Nat

def init : State where
  gone := false
  ref := 0
  dtors := 0
  err := false
  pcs _ := .idle
  rpc := .idle
  bad := 0

/-- 220-234 `release` -/
def State.release (s : State) : State :=
  { s with
    ref := s.ref - 1
    dtors := if s.ref = 0 then s.dtors + 1 else s.dtors
    err := s.err || decide (s.ref < 0) }

/-- in `acquire` -/
def inAcq : Pc → Bool
  | .idle | .hold _ => false
  | _ => true

/-- Restrictions on the interleaving. -/
inductive Guard
  /-- none -/
  | free
  /-- no iterator loads a negative `refcount` after having loaded zero from `iter_offset` -/
  | noStale
  /-- `acquire` and `remove` exclude each other, e.g. by a mutex -/
  | locked
  deriving DecidableEq

/-- A step of one of `n` iterators or of the remover. -/
inductive Step (g : Guard) (n : Nat) : State → State → Prop
  | begin {s t} (ht : t < n) (h : s.pcs t = .idle) (hg : g = .locked → s.rpc ≠ .stored) :
      Step g n s { s with pcs := upd s.pcs t .loadOff }
  /-- 181, 184, 212 -/
  | loadOff {s t} (ht : t < n) (h : s.pcs t = .loadOff) :
      Step g n s { s with pcs := upd s.pcs t (if s.gone then .idle else .loadRef) }
  /-- 182-184 -/
  | loadRef {s t} (ht : t < n) (h : s.pcs t = .loadRef) (hr : 0 ≤ s.ref) :
      Step g n s { s with pcs := upd s.pcs t .add }
  /-- 182-184, 212: zero is returned -/
  | loadRefNeg {s t} (ht : t < n) (h : s.pcs t = .loadRef) (hr : s.ref < 0) (hg : g ≠ .noStale) :
      Step g n s { s with pcs := upd s.pcs t (.hold false) }
  /-- 186 -/
  | add {s t} (ht : t < n) (h : s.pcs t = .add) :
      Step g n s { s with ref := s.ref + 1, pcs := upd s.pcs t (.loadOff2 s.ref) }
  /-- 187-202, 212 -/
  | loadOff2 {s t old} (ht : t < n) (h : s.pcs t = .loadOff2 old) (ho : 0 ≤ old) :
      Step g n s { s with pcs := upd s.pcs t (if s.gone then .dec false else .hold true) }
  /-- 187, 204-209 -/
  | loadOff2Neg {s t old} (ht : t < n) (h : s.pcs t = .loadOff2 old) (ho : old < 0) :
      Step g n s { s with pcs := upd s.pcs t (.dec (!s.gone)) }
  /-- 202, 209, 212 -/
  | dec {s t got} (ht : t < n) (h : s.pcs t = .dec got) :
      Step g n s { s with ref := s.ref - 1, pcs := upd s.pcs t (if got then .hold false else .idle) }
  /-- 354-361, 220-234 -/
  | release {s t counted} (ht : t < n) (h : s.pcs t = .hold counted) :
      Step g n s { s.release with
        pcs := upd s.pcs t .idle
        bad := if counted then s.bad else s.bad + 1 }
  /-- 580-587: the offset is set -/
  | store {s} (h : s.rpc = .idle) (hg : g = .locked → ∀ t, t < n → inAcq (s.pcs t) = false) :
      Step g n s { s with gone := true, rpc := .stored }
  /-- 596 -/
  | remove {s} (h : s.rpc = .stored) : Step g n s { s.release with rpc := .done }

inductive Reach (g : Guard) (n : Nat) : State → Prop
  | init : Reach g n init
  | step {s s'} : Reach g n s → Step g n s s' → Reach g n s'

inductive Steps (g : Guard) (n : Nat) (s : State) : State → Prop
  | refl : Steps g n s s
  | step {s' s''} : Steps g n s s' → Step g n s' s'' → Steps g n s s''

end RG.Item
