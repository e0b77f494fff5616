import Verif.Util
/-
Model of the spin lock with the memory orders of its code, and of data that it protects: /repo/redGrapes/sync/spinlock.hpp
(used in task/property/graph.cpp:52 and 91 for the users of a resource, resource/resource.hpp:53).

Any number of locks, threads and plain (not atomic) objects. Atomic objects have a modification order; a store may be
placed anywhere in it where C++ allows it, and a load may return any value that is not older than one that happens before.
`VC` are vector clocks: what a thread knows (happens-before).

Simplifications: the failing compare-exchange and the relaxed load of the inner loop return any value and teach a thread
nothing (C++ is more restrictive: coherence, acquire on failure). Threads do anything with locks and data, only that they
access data with its lock held, do not lock what they hold and do not unlock what they do not hold. `sync`: a thread learns
what another one knows, by whatever other means.
-/
namespace RG.WL

/-- thread -> the number of its steps that are known -/
abbrev VC : Type := Nat → Nat

def VC.join (v w : VC) : VC := fun t => max (v t) (w t)

/-- a value in the modification order of an atomic object -/
structure Msg where
  val : Bool
  /-- the thread that has stored it, and when -/
  by' : Nat
  time : Nat
  /-- what a thread learns from an acquire operation that reads the value -/
  view : VC
  /-- a read-modify-write operation: it directly follows the value that it has read -/
  rmw : Bool

/-- a write to a plain object -/
structure Wr where
  val : Nat
  by' : Nat
  time : Nat

inductive Pc
  | idle
  /-- before the compare-exchange of lock `l`, spinlock.hpp:33-34 -/
  | cas (l : Nat)
  /-- in the inner loop, 38 -/
  | spin (l : Nat)
  deriving DecidableEq

/-- ghost: what the program has observed -/
inductive Ev
  | lock (t l : Nat)
  | unlock (t l : Nat)
  | read (t x v : Nat)
  | write (t x v : Nat)
  deriving DecidableEq

structure State where
  /-- spinlock.hpp:16 `state` of the locks, the oldest value first -/
  lk : Nat → List Msg
  /-- what threads know; `vw t t` is also the number of steps of `t` -/
  vw : Nat → VC
  pc : Nat → Pc
  /-- `held t l`: thread `t` has returned from `lock()` of `l` -/
  held : Nat → Nat → Bool
  /-- the writes to the plain objects, the oldest first -/
  hist : Nat → List Wr
  /-- the reads of them: thread and time -/
  reads : Nat → List (Nat × Nat)
  /-- there has been a data race -/
  race : Bool
  trace : List Ev

/-- thread `t` knows what thread `u` has done at time `n` -/
def State.Knows (s : State) (t u n : Nat) : Prop := n ≤ s.vw t u

instance (s : State) (t u n : Nat) : Decidable (s.Knows t u n) := by unfold State.Knows; infer_instance

/-- the clock of `t` after one more step -/
def State.tick (s : State) (t : Nat) : VC := upd (s.vw t) t (s.vw t t + 1)

/-- The memory orders: whether the compare-exchange acquires (34) and whether the store releases (48). -/
structure Orders where
  acq : Bool
  rel : Bool

/-- spinlock.hpp:34 and 48 -/
def code : Orders := ⟨true, true⟩

/-- Steps of the threads. `own x`: the lock that protects object `x`. -/
inductive Step (o : Orders) (own : Nat → Nat) : Nat → State → State → Prop
  /-- call of `lock()` -/
  | enter {s t l} (hp : s.pc t = .idle) (hh : s.held t l = false) : Step o own t s { s with pc := upd s.pc t (.cas l) }
  /-- 34: success. The value `false` is read from anywhere it may be read from; no other read-modify-write has read it. -/
  | casOk {s t l pre m post} (hp : s.pc t = .cas l) (hm : s.lk l = pre ++ m :: post) (hv : m.val = false)
      (hn : ∀ m' ∈ post, ¬ s.Knows t m'.by' m'.time) (hr : ∀ m' ∈ post.head?, m'.rmw = false) :
      Step o own t s { s with
        lk := upd s.lk l (pre ++ m :: ⟨true, t, s.vw t t + 1, m.view, true⟩ :: post)
        vw := upd s.vw t (if o.acq then (s.tick t).join m.view else s.tick t)
        pc := upd s.pc t .idle
        held := upd s.held t (upd (s.held t) l true)
        trace := s.trace ++ [.lock t l] }
  /-- 34: failure, maybe spuriously -/
  | casFail {s t l} (hp : s.pc t = .cas l) : Step o own t s { s with pc := upd s.pc t (.spin l) }
  /-- 38: `true` is read -/
  | spinOn {s t l} (hp : s.pc t = .spin l) : Step o own t s s
  /-- 38: `false` is read -/
  | spinDone {s t l pre m post} (hp : s.pc t = .spin l) (hm : s.lk l = pre ++ m :: post) (hv : m.val = false)
      (hn : ∀ m' ∈ post, ¬ s.Knows t m'.by' m'.time) : Step o own t s { s with pc := upd s.pc t (.cas l) }
  /-- 46-53 `unlock`. The value is placed behind all values that the thread knows, and not between a value and the
  read-modify-write that has read it. -/
  | unlock {s t l pre post} (hp : s.pc t = .idle) (hh : s.held t l = true) (hm : s.lk l = pre ++ post)
      (hn : ∀ m' ∈ post, ¬ s.Knows t m'.by' m'.time) (hr : ∀ m' ∈ post.head?, m'.rmw = false) :
      Step o own t s { s with
        lk := upd s.lk l (pre ++ ⟨false, t, s.vw t t + 1, if o.rel then s.tick t else fun _ => 0, false⟩ :: post)
        vw := upd s.vw t (s.tick t)
        held := upd s.held t (upd (s.held t) l false)
        trace := s.trace ++ [.unlock t l] }
  /-- a write to a plain object -/
  | write {s t x} (v : Nat) (hp : s.pc t = .idle) (hh : s.held t (own x) = true) : Step o own t s { s with
        hist := upd s.hist x (s.hist x ++ [⟨v, t, s.vw t t + 1⟩])
        vw := upd s.vw t (s.tick t)
        race := s.race || !(((s.hist x).all fun w => decide (s.Knows t w.by' w.time)) &&
          (s.reads x).all fun r => decide (s.Knows t r.1 r.2))
        trace := s.trace ++ [.write t x v] }
  /-- a read of a plain object: the value of any write that is not hidden -/
  | read {s t x pre w post} (hp : s.pc t = .idle) (hh : s.held t (own x) = true) (hm : s.hist x = pre ++ w :: post)
      (hn : ∀ w' ∈ post, ¬ s.Knows t w'.by' w'.time) : Step o own t s { s with
        reads := upd s.reads x (s.reads x ++ [(t, s.vw t t + 1)])
        vw := upd s.vw t (s.tick t)
        race := s.race || !((s.hist x).all fun w => decide (s.Knows t w.by' w.time))
        trace := s.trace ++ [.read t x w.val] }
  /-- some other synchronization -/
  | sync {s} (t u : Nat) : Step o own t s { s with vw := upd s.vw t ((s.tick t).join (s.vw u)) }

/-- 21-26: the locks are free; the objects have some value -/
def init (m0 : Nat → Nat) : State where
  lk _ := [⟨false, 0, 0, fun _ => 0, false⟩]
  vw _ _ := 0
  pc _ := .idle
  held _ _ := false
  hist x := [⟨m0 x, 0, 0⟩]
  reads _ := []
  race := false
  trace := []

inductive Reach (o : Orders) (own : Nat → Nat) (m0 : Nat → Nat) : State → Prop
  | init : Reach o own m0 (init m0)
  | step {t s s'} (h : Reach o own m0 s) (hs : Step o own t s s') : Reach o own m0 s'

/-- Execution of thread `t` alone, `n` steps. -/
inductive Steps (o : Orders) (own : Nat → Nat) (t : Nat) : Nat → State → State → Prop
  | refl {s} : Steps o own t 0 s s
  | step {n s s' s''} (h : Steps o own t n s s') (hs : Step o own t s' s'') : Steps o own t (n + 1) s s''

/-! ### The machine in which memory is what a beginner thinks it is -/

structure SC where
  holder : Nat → Option Nat
  mem : Nat → Nat

def SC.step (own : Nat → Nat) (c : SC) : Ev → Option SC
  | .lock t l => if c.holder l = none then some { c with holder := upd c.holder l (some t) } else none
  | .unlock t l => if c.holder l = some t then some { c with holder := upd c.holder l none } else none
  | .read t x v => if c.holder (own x) = some t ∧ c.mem x = v then some c else none
  | .write t x v => if c.holder (own x) = some t then some { c with mem := upd c.mem x v } else none

def SC.run (own : Nat → Nat) (c : SC) : List Ev → Option SC
  | [] => some c
  | e :: l => (c.step own e).bind fun c' => c'.run own l

end RG.WL
