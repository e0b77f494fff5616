import Verif.Model.Sync
/-
Waking with the memory of real processors.

Model/Sync is sequentially consistent: what one thread has stored is seen by all others at once. Here the same code is
modelled with

1. the store buffers of x86 (`Tso`): a store waits in a buffer of the thread and reaches the memory some time later; the thread itself can
   go on with loads meanwhile. Locked instructions (every read-modify-write operation, whether or not it
   changes something, and every `store` with `memory_order_seq_cst`, which is an `xchg`) wait until the buffer is empty.
   Loads with any order and stores with `release` order are ordinary instructions.
2. the memory of C++ (`Cxx`), which allows more, as do processors such as ARM and POWER: an atomic object has a
   modification order, and a load may return any value that is not older than what the thread is bound to know (by what happens
   before, and by what it has read itself).

The plain variable `Event::waker_id` (event.hpp:97) is written by a waiting thread and read by a notifying one without any
synchronization. For C++ this is a data race, i.e. undefined behaviour; the first machine shows what x86 makes of it.
-/
namespace RG

/-! ### x86: a thread outside of a task waits for an event -/
namespace Tso.Yield

structure State where
  /-- the memory and the program counters, as in Model/Sync -/
  y : RG.Yield.State
  /-- the store of `waker_id` by waiter `i`, redGrapes.cpp:166, is in its store buffer -/
  buf : Nat → Bool
  /-- ghost: a notifying thread did not find the waker of the event because the store was still in the buffer -/
  missed : Nat → Prop

def init (cfg : RG.Yield.Cfg) : State := ⟨RG.Yield.init cfg, fun _ => false, fun _ => False⟩

/-- The next step of a thread in `CondVar::wait` is a locked instruction: taking or giving back the mutex, or the store
with `seq_cst` in cv.cpp:37. -/
def locked : Cv.WPc → Bool
  | .lockM | .waking | .unlockM | .store => true
  | _ => false

/-- One step. `noise` says whether the thread may be woken for other reasons. -/
inductive Step (cfg : RG.Yield.Cfg) (noise : Bool) : State → State → Prop
  /-- redGrapes.cpp:166: the store is put into the buffer -/
  | setWaker {s i} (hi : i < cfg.nW) (h : s.y.pcs i = .start) :
      Step cfg noise s { s with y := { s.y with pcs := upd s.y.pcs i .check }, buf := upd s.buf i true }
  /-- the store reaches the memory -/
  | drain {s i} (h : s.buf i = true) :
      Step cfg noise s { s with
        y := { s.y with waker := upd s.y.waker (cfg.ev i) (some 0) }, buf := upd s.buf i false }
  /-- redGrapes.cpp:167: `is_reached()` is a load, it does not wait for the buffer -/
  | reached {s i} (hi : i < cfg.nW) (h : s.y.pcs i = .check) (hs : s.y.state (cfg.ev i) = 0) :
      Step cfg noise s { s with y := { s.y with pcs := upd s.y.pcs i .done } }
  /-- redGrapes.cpp:168 -/
  | notReached {s i cv'} (hi : i < cfg.nW) (h : s.y.pcs i = .check) (hs : s.y.state (cfg.ev i) ≠ 0)
      (hc : Cv.Step (.waitCall i) s.y.cv cv') :
      Step cfg noise s { s with y := { s.y with pcs := upd s.y.pcs i .idle, cv := cv' } }
  | back {s i} (hi : i < cfg.nW) (h : s.y.pcs i = .idle) (hc : s.y.cv.ws i = .out) :
      Step cfg noise s { s with y := { s.y with pcs := upd s.y.pcs i .check } }
  /-- a step inside of `cv.wait()`; a locked instruction waits until the buffer is empty -/
  | wait {s i cv'} (hi : i < cfg.nW) (hb : locked (s.y.cv.ws i) = true → s.buf i = false)
      (hc : Cv.Step (.wait i) s.y.cv cv') : Step cfg noise s { s with y := { s.y with cv := cv' } }
  | spurious {s i cv'} (hi : i < cfg.nW) (hc : Cv.Step (.spurious i) s.y.cv cv') :
      Step cfg noise s { s with y := { s.y with cv := cv' } }
  /-- event.cpp:108 `fetch_sub`, a locked instruction -/
  | dec {s j e} (h : s.y.eps j = .out) (hc : s.y.cv.ns j = .out) (hs : 0 < s.y.state e) :
      Step cfg noise s { s with y := { s.y with
        eps := upd s.y.eps j (.decd e (s.y.state e - 1)), state := upd s.y.state e (s.y.state e - 1) } }
  /-- event.cpp:160: `waker_id` is loaded from the memory -/
  | readWaker {s j e st} (h : s.y.eps j = .decd e st) (hst : st ≤ 1) (hw : s.y.waker e = some 0) :
      Step cfg noise s { s with y := { s.y with eps := upd s.y.eps j .waking } }
  | noWaker {s j e st} (h : s.y.eps j = .decd e st) (hst : ¬ (st ≤ 1 ∧ s.y.waker e = some 0)) :
      Step cfg noise s { s with
        y := { s.y with eps := upd s.y.eps j .out }
        missed := fun x => s.missed x ∨ (x = e ∧ st ≤ 1 ∧ ∃ i, i < cfg.nW ∧ cfg.ev i = e ∧ s.buf i = true) }
  | wake {s j cv'} (h : s.y.eps j = .waking) (hc : Cv.Step (.notifyCall j) s.y.cv cv') :
      Step cfg noise s { s with y := { s.y with eps := upd s.y.eps j .inCv, cv := cv' } }
  | notify {s j cv'} (hc : Cv.Step (.notify j) s.y.cv cv') : Step cfg noise s { s with y := { s.y with cv := cv' } }
  | woken {s j} (h : s.y.eps j = .inCv) (hc : s.y.cv.ns j = .out) :
      Step cfg noise s { s with y := { s.y with eps := upd s.y.eps j .out } }
  /-- the thread is woken for another reason -/
  | noise {s j cv'} (hn : noise = true) (h : s.y.eps j = .out) (hc : Cv.Step (.notifyCall j) s.y.cv cv') :
      Step cfg noise s { s with y := { s.y with cv := cv' } }

inductive Steps (cfg : RG.Yield.Cfg) (noise : Bool) : State → State → Prop
  | refl {s} : Steps cfg noise s s
  | step {s s' s''} : Step cfg noise s s' → Steps cfg noise s' s'' → Steps cfg noise s s''

def Reach (cfg : RG.Yield.Cfg) (noise : Bool) (s : State) : Prop := Steps cfg noise (init cfg) s

end Tso.Yield

/-! ### x86: one worker and the threads that give it tasks -/
namespace Tso.Work

/-- The store by which something is given to the worker. -/
inductive Store
  /-- the end of `ready_queue.push`, default_scheduler.cpp:86, worker.hpp:101 -/
  | ready (t : Nat)
  /-- the end of `emplacement_queue.push`, worker.hpp:95 -/
  | new (t : Nat)
  /-- worker.cpp:62 `m_stop.store(true, std::memory_order_release)` -/
  | stop
  deriving DecidableEq

/-- What the store does when it reaches the memory. -/
def Store.apply (w : RG.Work.State) : Store → RG.Work.State
  | .ready t => { w with ready := t :: w.ready, pushed := t :: w.pushed }
  | .new t => { w with new := t :: w.new, pushed := t :: w.pushed }
  | .stop => { w with stop := true }

structure State where
  w : RG.Work.State
  /-- the store buffer of a thread that gives something to the worker -/
  buf : Nat → Option Store

def init : State := ⟨RG.Work.init, fun _ => none⟩

/-- One step. The worker itself has no store in its buffer that matters here: taking from a queue is a read-modify-write
operation, and cv.cpp:37 is an `xchg`. -/
inductive Step : State → State → Prop
  | worker {s w'} (h : RG.Work.WStep s.w w') : Step s { s with w := w' }
  | spurious {s cv'} (hc : Cv.Step (.spurious 0) s.w.cv cv') : Step s { s with w := { s.w with cv := cv' } }
  /-- the store is put into the buffer -/
  | push {s j} (b : Store) (h : s.w.ps j = .out) (hc : s.w.cv.ns j = .out) (hb : s.buf j = none) :
      Step s { w := { s.w with ps := upd s.w.ps j .pushed }, buf := upd s.buf j (some b) }
  /-- the store reaches the memory -/
  | drain {s j b} (hb : s.buf j = some b) : Step s { w := b.apply s.w, buf := upd s.buf j none }
  /-- worker.hpp:96, 102, default_scheduler.cpp:88, worker.cpp:63: `wake()` is called -/
  | wake {s j cv'} (h : s.w.ps j = .pushed) (hc : Cv.Step (.notifyCall j) s.w.cv cv') :
      Step s { s with w := { s.w with ps := upd s.w.ps j .inCv, cv := cv' } }
  /-- cv.cpp:43, 48-50: locked instructions -/
  | notify {s j cv'} (hb : s.buf j = none) (hc : Cv.Step (.notify j) s.w.cv cv') :
      Step s { s with w := { s.w with cv := cv' } }
  | wakeDone {s j} (h : s.w.ps j = .inCv) (hc : s.w.cv.ns j = .out) :
      Step s { s with w := { s.w with ps := upd s.w.ps j .out } }
  /-- the worker is woken for another reason -/
  | noise {s j cv'} (h : s.w.ps j = .out) (hc : Cv.Step (.notifyCall j) s.w.cv cv') :
      Step s { s with w := { s.w with cv := cv' } }
  /-- another worker takes a task from the queue -/
  | thiefReady {s t} (hq : t ∈ s.w.ready) :
      Step s { s with w := { s.w with ready := s.w.ready.erase t, looked := t :: s.w.looked } }
  | thiefNew {s t} (hq : t ∈ s.w.new) :
      Step s { s with w := { s.w with new := s.w.new.erase t, looked := t :: s.w.looked } }

inductive Reach : State → Prop
  | init : Reach init
  | step {s s'} : Reach s → Step s s' → Reach s'

/-- All calls that give something to the worker or wake it have returned. -/
def Quiet (s : State) : Prop := RG.Work.Quiet s.w

end Tso.Work

/-! ### C++: a thread that sleeps when there is nothing to do -/
namespace Cxx

/-- What a thread is bound to know. -/
structure View where
  /-- `should_wait`: nothing before this place of the modification order can be read any more -/
  ts : Nat
  /-- the items that have been put into the queue before -/
  seen : Nat → Prop

/-- both -/
def View.join (v w : View) : View := ⟨max v.ts w.ts, fun k => v.seen k ∨ w.seen k⟩

/-- A value of `should_wait`. -/
structure Msg where
  val : Bool
  /-- what is passed to a thread that reads it with acquire order -/
  view : View

/-- Variants of the code. The code is `⟨false, false, _, _⟩`. -/
structure Cfg where
  /-- cv.cpp:43 were `should_wait.exchange(false, std::memory_order_acq_rel)` -/
  xchgN : Bool
  /-- cv.cpp:37 were `should_wait.exchange(true, std::memory_order_acq_rel)` -/
  xchgW : Bool
  /-- looking for items finds everything that is there (e.g. a counter with `seq_cst`, as in task_space.cpp:44-48), not only what
  has been put there before in the sense of C++ -/
  strong : Bool
  /-- the thread begins with `wait()`, as worker.cpp:138-146, and not by looking for items, as redGrapes.cpp:136-142 -/
  waitFirst : Bool

/-- Program counter of a thread that gives an item: worker.hpp:93-103, default_scheduler.cpp:86-88. -/
inductive PPc
  | out
  /-- the item is in the queue, `wake()` is not called yet -/
  | pushed (k : Nat)
  deriving DecidableEq

structure State where
  /-- the modification order of `should_wait` -/
  hist : List Msg
  mutex : Option Cv.Owner
  /-- what happens before the next locking of the mutex -/
  mview : View
  /-- the thread that looks for items; `.out`: it is looking -/
  ws : Cv.WPc
  wview : View
  /-- the threads that give items -/
  ps : Nat → PPc
  ns : Nat → Cv.NPc
  nview : Nat → View
  /-- the items that are there -/
  q : Nat → Prop
  /-- how many items have been given so far -/
  given : Nat
  /-- ghost: the item with which a thread is in `notify()` -/
  item : Nat → Option Nat
  /-- ghost: `notify()` has returned `true` (or will) for this item -/
  told : Nat → Prop

def v0 : View := ⟨0, fun _ => False⟩

/-- cv.cpp:15-17 -/
def init (cfg : Cfg) : State :=
  { hist := [⟨true, v0⟩], mutex := none, mview := v0, ws := if cfg.waitFirst then .check else .out, wview := v0
    ps := fun _ => .out, ns := fun _ => .out, nview := fun _ => v0, q := fun _ => False, given := 0
    item := fun _ => none, told := fun _ => False }

/-- A load of `should_wait` with acquire order by a thread with view `v` returns `b`, and the view is `v'` then. -/
def Loads (s : State) (v : View) (b : Bool) (v' : View) : Prop :=
  ∃ p m, v.ts ≤ p ∧ s.hist[p]? = some m ∧ m.val = b ∧ v' = (View.join ⟨p, v.seen⟩ m.view)

/-- the last value -/
def State.last (s : State) : Option Msg := s.hist.getLast?

inductive Lbl
  /-- the thread that looks for items -/
  | main
  /-- it wakes up without reason -/
  | spurious
  /-- the others -/
  | other
  deriving DecidableEq

inductive Step (cfg : Cfg) : Lbl → State → State → Prop
  /-- an item is taken; its push happens before -/
  | take {s k} (h : s.ws = .out) (hk : s.q k) :
      Step cfg .main s { s with
        q := fun x => s.q x ∧ x ≠ k, wview := ⟨s.wview.ts, fun x => s.wview.seen x ∨ x = k⟩ }
  /-- no item is found, and `wait()` is called: nothing is there of what has been put there before -/
  | none {s} (h : s.ws = .out) (hq : ∀ k, s.q k → ¬ s.wview.seen k) (hs : cfg.strong = true → ∀ k, ¬ s.q k) :
      Step cfg .main s { s with ws := .check }
  /-- cv.cpp:22-24 -/
  | again {s v} (h : s.ws = .check) (hl : Loads s s.wview true v) : Step cfg .main s { s with wview := v }
  | timeout {s v} (h : s.ws = .check) (hl : Loads s s.wview true v) :
      Step cfg .main s { s with ws := .check2, wview := v }
  | leave {s v} (h : s.ws = .check) (hl : Loads s s.wview false v) :
      Step cfg .main s { s with ws := .store, wview := v }
  /-- cv.cpp:29 -/
  | check2T {s v} (h : s.ws = .check2) (hl : Loads s s.wview true v) :
      Step cfg .main s { s with ws := .lockM, wview := v }
  | check2F {s v} (h : s.ws = .check2) (hl : Loads s s.wview false v) :
      Step cfg .main s { s with ws := .check, wview := v }
  /-- cv.cpp:31 -/
  | lockM {s} (h : s.ws = .lockM) (hm : s.mutex = none) :
      Step cfg .main s { s with ws := .pred, mutex := some (.waiter 0), wview := s.wview.join s.mview }
  /-- cv.cpp:32: the predicate is false; the mutex is released -/
  | sleep {s v} (h : s.ws = .pred) (hl : Loads s s.wview true v) :
      Step cfg .main s { s with ws := .asleep, mutex := none, wview := v, mview := v }
  | predT {s v} (h : s.ws = .pred) (hl : Loads s s.wview false v) :
      Step cfg .main s { s with ws := .unlockM, wview := v }
  | unlockM {s} (h : s.ws = .unlockM) :
      Step cfg .main s { s with ws := .check, mutex := none, mview := s.wview }
  | relock {s} (h : s.ws = .waking) (hm : s.mutex = none) :
      Step cfg .main s { s with ws := .pred, mutex := some (.waiter 0), wview := s.wview.join s.mview }
  | spurious {s} (h : s.ws = .asleep) : Step cfg .spurious s { s with ws := .waking }
  /-- cv.cpp:37, and return. The store comes last in the modification order: the value `false` that was read is the last one, or
  followed only by values written by read-modify-write operations, between which nothing can be put. -/
  | store {s} (h : s.ws = .store) (hx : cfg.xchgW = false) :
      Step cfg .main s { s with
        ws := .out, wview := ⟨s.hist.length, s.wview.seen⟩
        hist := s.hist ++ [⟨true, ⟨s.hist.length, s.wview.seen⟩⟩] }
  /-- the variant with `exchange` -/
  | storeX {s m} (h : s.ws = .store) (hx : cfg.xchgW = true) (hm : s.last = some m) :
      Step cfg .main s { s with
        ws := .out, wview := ⟨s.hist.length, fun k => s.wview.seen k ∨ m.view.seen k⟩
        hist := s.hist ++ [⟨true, ⟨s.hist.length, fun k => s.wview.seen k ∨ m.view.seen k⟩⟩] }
  /-- an item is given -/
  | push {s j} (h : s.ps j = .out) (hn : s.ns j = .out) :
      Step cfg .other s { s with
        ps := upd s.ps j (.pushed s.given), q := fun x => s.q x ∨ x = s.given, given := s.given + 1
        nview := upd s.nview j ⟨(s.nview j).ts, fun x => (s.nview j).seen x ∨ x = s.given⟩ }
  /-- then `wake()` is called -/
  | wake {s j k} (h : s.ps j = .pushed k) (hn : s.ns j = .out) :
      Step cfg .other s { s with ps := upd s.ps j .out, ns := upd s.ns j .cas, item := upd s.item j (some k) }
  /-- `notify()` is called for another reason -/
  | noise {s j} (h : s.ps j = .out) (hn : s.ns j = .out) :
      Step cfg .other s { s with ns := upd s.ns j .cas, item := upd s.item j Option.none }
  /-- cv.cpp:43: the exchange succeeds. The operation reads the last value, and continues its release sequence. -/
  | casOk {s j m} (h : s.ns j = .cas) (hx : cfg.xchgN = false) (hm : s.last = some m) (hv : m.val = true) :
      Step cfg .other s { s with
        ns := upd s.ns j .lockM
        nview := upd s.nview j ⟨s.hist.length, (s.nview j).seen⟩
        hist := s.hist ++ [⟨false, ⟨s.hist.length, fun k => (s.nview j).seen k ∨ m.view.seen k⟩⟩]
        told := fun k => s.told k ∨ s.item j = some k }
  /-- cv.cpp:43: the exchange fails. Then it is a load with relaxed order (the order for the failing case of
  `memory_order_release` is `memory_order_relaxed`), which may return an old value. -/
  | casFail {s j p m} (h : s.ns j = .cas) (hx : cfg.xchgN = false) (hp : (s.nview j).ts ≤ p)
      (hm : s.hist[p]? = some m) (hv : m.val = false) :
      Step cfg .other s { s with
        ns := upd s.ns j .lockM, nview := upd s.nview j ⟨p, (s.nview j).seen⟩ }
  /-- the variant with `exchange` -/
  | xchg {s j m} (h : s.ns j = .cas) (hx : cfg.xchgN = true) (hm : s.last = some m) :
      Step cfg .other s { s with
        ns := upd s.ns j .lockM
        nview := upd s.nview j ⟨s.hist.length, fun k => (s.nview j).seen k ∨ m.view.seen k⟩
        hist := s.hist ++ [⟨false, ⟨s.hist.length, fun k => (s.nview j).seen k ∨ m.view.seen k⟩⟩]
        told := fun k => s.told k ∨ s.item j = some k }
  /-- cv.cpp:48 -/
  | nLockM {s j} (h : s.ns j = .lockM) (hm : s.mutex = none) :
      Step cfg .other s { s with
        ns := upd s.ns j .notifyAll, mutex := some (.notifier j), nview := upd s.nview j ((s.nview j).join s.mview) }
  /-- cv.cpp:49 -/
  | notifyAll {s j} (h : s.ns j = .notifyAll) :
      Step cfg .other s { s with ns := upd s.ns j .unlockM, ws := Cv.wakeUp s.ws }
  /-- cv.cpp:50 -/
  | nUnlockM {s j} (h : s.ns j = .unlockM) :
      Step cfg .other s { s with ns := upd s.ns j .out, mutex := none, mview := s.nview j }
  /-- another thread takes an item -/
  | thief {s k} (hk : s.q k) : Step cfg .other s { s with q := fun x => s.q x ∧ x ≠ k }
  /-- the threads synchronize in some other way -/
  | learn {s i j} : Step cfg .other s { s with nview := upd s.nview i ((s.nview i).join (s.nview j)) }
  | learnMain {s j} : Step cfg .other s { s with wview := s.wview.join (s.nview j) }
  | learnOther {s j} : Step cfg .other s { s with nview := upd s.nview j ((s.nview j).join s.wview) }

inductive Reach (cfg : Cfg) : State → Prop
  | init : Reach cfg (init cfg)
  | step {s s' l} : Reach cfg s → Step cfg l s s' → Reach cfg s'

/-- Steps of the thread that looks for items, including those without reason. -/
inductive Alone (cfg : Cfg) : State → State → Prop
  | refl {s} : Alone cfg s s
  | step {s s' s'' l} : Step cfg l s s' → l ≠ .other → Alone cfg s' s'' → Alone cfg s s''

/-- All calls that give items or notify have returned. -/
def Quiet (s : State) : Prop := ∀ j, s.ps j = .out ∧ s.ns j = .out

end Cxx

end RG
