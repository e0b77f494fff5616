import Verif.Util
/-
The table from threads to sub-queues of a queue of tasks: /repo/share/thirdParty/cameron314/concurrentqueue/include/moodycamel/concurrentqueue.h (below: cq.h),
`get_or_add_implicit_producer` (cq.h:3387-3533), called by every `enqueue` (cq.h:1373-1377), the list of sub-queues, `recycle_or_create_producer` and `add_producer` (cq.h:3227-3277), and
`implicit_producer_thread_exited` (cq.h:3535-3564), called when a thread that has a sub-queue exits (MOODYCAMEL_CPP11_THREAD_LOCAL_SUPPORTED, cq.h:213-225: gcc and clang on x86).

Any number of threads; every atomic access is one step; memory is sequentially consistent. The tables are numbered in the order of their creation.
`slot t h k` is the k-th position a thread probes: `index` is masked in every iteration of the code (`index &= capacity - 1`), which for a capacity that is a power of 2 is the
remainder of `hashedId + k`. The hash function is arbitrary.
A thread that has exited may come back: its number stands for the next thread with the same id.
Simplified: allocation does not fail; a new table is filled before it is published, so that its creation (cq.h:3462-3482) is one step.
-/
namespace RG.PH

/-- the key of an entry: `invalid_thread_id`, `invalid_thread_id2` (the thread has exited), or a thread -/
inductive Key
  | empty
  | dead
  | of (t : Nat)
deriving DecidableEq

/-- cq.h:3294-3330 `ImplicitProducerHash` with its entries -/
structure Tab where
  cap : Nat
  key : Nat → Key
  /-- the sub-queue; `none`: null -/
  val : Nat → Option Nat
  prev : Option Nat

inductive Pc
  | out
  /-- before line 3407 -/
  | ldMain
  /-- before line 3415; `mainHash = m`, `hash = h`, `k` entries probed in this table -/
  | look (m h k : Nat)
  /-- before line 3452 -/
  | count (m : Nat)
  /-- before line 3455; `newCount = nc` -/
  | chk (nc m : Nat)
  /-- before the `test_and_set` in line 3455 -/
  | tas (nc m : Nat)
  /-- before line 3460 -/
  | reload (nc : Nat)
  /-- before line 3462 -/
  | build (nc m : Nat)
  /-- before line 3483 or 3487 -/
  | unl (nc m : Nat)
  /-- before line 3494 -/
  | fit (nc m : Nat)
  /-- before line 3531 -/
  | reMain (nc : Nat)
  /-- in `recycle_or_create_producer`, called in line 3495: before line 3234 for `ptr = q` -/
  | find (m : Nat) (q : Option Nat)
  /-- before line 3236 -/
  | recCas (m p : Nat)
  /-- before line 3243 -/
  | create (m : Nat)
  /-- before line 3256 -/
  | add (m p : Nat)
  /-- before line 3259 -/
  | addCas (m p : Nat) (pv : Option Nat)
  /-- before line 3430 (`lz`: the thread was found in an older table) or 3513: the entry for the sub-queue `v` -/
  | put (m k : Nat) (v : Option Nat) (lz : Bool)
  /-- before line 3431 or 3519 -/
  | put2 (m k : Nat) (v : Option Nat) (lz : Bool)
  /-- before line 3514 -/
  | dec (m j : Nat) (v : Option Nat)
  /-- before line 3435, 3515 or 3520 -/
  | putV (m j : Nat) (v : Option Nat)
  /-- the call returns -/
  | ret (v : Option Nat)
  /-- the thread exits: before line 3541 -/
  | xLd
  /-- before line 3555 -/
  | xScan (h k : Nat)
  /-- before line 3563 -/
  | xInact
deriving DecidableEq

structure State where
  tabs : Nat → Tab
  ntab : Nat
  /-- `implicitProducerHash` -/
  cur : Nat
  /-- `implicitProducerHashCount` -/
  count : Nat
  /-- `implicitProducerHashResizeInProgress` -/
  lock : Bool
  pc : Nat → Pc
  /-- number of sub-queues created -/
  nprod : Nat
  /-- `producerListTail` -/
  tail : Option Nat
  /-- `ProducerBase::next` -/
  next : Nat → Option Nat
  /-- `ProducerBase::inactive` -/
  inact : Nat → Bool
  /-- ghost: the sub-queue that the last call of the thread has returned; `none`: none yet, or the thread has exited -/
  got : Nat → Option Nat
  /-- ghost: some thread has exited or is exiting -/
  exited : Bool
  /-- ghost: the threads between line 3452 and their entry into a table -/
  pend : List Nat
  /-- ghost: `newCount` of a thread -/
  num : Nat → Option Nat
  /-- ghost: the sub-queue of a thread -/
  prod : Nat → Option Nat
  /-- ghost: the sub-queues in the list -/
  plist : List Nat

def Tab.new (cap : Nat) (prev : Option Nat) : Tab := ⟨cap, fun _ => .empty, fun _ => none, prev⟩

/-- cq.h:3332-3348: one empty table with `C` entries (32, cq.h:364) -/
def init (C : Nat) : State where
  tabs _ := Tab.new C none
  ntab := 1
  cur := 0
  count := 0
  lock := false
  pc _ := .out
  nprod := 0
  tail := none
  next _ := none
  inact _ := false
  got _ := none
  exited := false
  pend := []
  num _ := none
  prod _ := none
  plist := []

def State.cap (s : State) (h : Nat) : Nat := (s.tabs h).cap

def State.key (s : State) (h j : Nat) : Key := (s.tabs h).key j

variable (hash : Nat → Nat)

/-- the k-th position thread `t` probes in table `h` -/
def State.slot (s : State) (t h k : Nat) : Nat := (hash t + k) % s.cap h

/-- line 3494: how many threads may be entered into table `m` -/
def State.room (s : State) (m : Nat) : Nat := s.cap m / 2 + s.cap m / 4

/-- One step of thread `t`. -/
inductive Step (t : Nat) : State → State → Prop
  | call {s} (h : s.pc t = .out) : Step t s { s with pc := upd s.pc t .ldMain }
  /-- line 3407 -/
  | ldMain {s} (h : s.pc t = .ldMain) : Step t s { s with pc := upd s.pc t (.look s.cur s.cur 0) }
  /-- lines 3415-3423 -/
  | hit {s m h k} (hp : s.pc t = .look m h k) (hk : s.key h (s.slot hash t h k) = .of t) :
      Step t s { s with
        pc := upd s.pc t (if h = m then .ret ((s.tabs h).val (s.slot hash t h k)) else .put m 0 ((s.tabs h).val (s.slot hash t h k)) true) }
  /-- lines 3444-3445, 3409 -/
  | miss {s m h k} (hp : s.pc t = .look m h k) (hk : s.key h (s.slot hash t h k) = .empty) :
      Step t s { s with
        pc := upd s.pc t (match (s.tabs h).prev with | some h' => .look m h' 0 | none => .count m) }
  /-- line 3447 -/
  | other {s m h k} (hp : s.pc t = .look m h k) (hk : s.key h (s.slot hash t h k) ≠ .empty) (hu : s.key h (s.slot hash t h k) ≠ .of t) :
      Step t s { s with pc := upd s.pc t (.look m h (k + 1)) }
  /-- line 3452 -/
  | count {s m} (hp : s.pc t = .count m) :
      Step t s { s with
        pc := upd s.pc t (.chk (s.count + 1) m)
        count := s.count + 1
        pend := t :: s.pend
        num := upd s.num t (some (s.count + 1)) }
  /-- line 3455, the first condition -/
  | chk {s nc m} (hp : s.pc t = .chk nc m) :
      Step t s { s with pc := upd s.pc t (if s.cap m / 2 ≤ nc then .tas nc m else .fit nc m) }
  /-- line 3455, `test_and_set` -/
  | tas {s nc m} (hp : s.pc t = .tas nc m) :
      Step t s { s with
        pc := upd s.pc t (if s.lock then .fit nc m else .reload nc)
        lock := true }
  /-- lines 3460-3461 -/
  | reload {s nc} (hp : s.pc t = .reload nc) :
      Step t s { s with pc := upd s.pc t (if s.cap s.cur / 2 ≤ nc then .build nc s.cur else .unl nc s.cur) }
  /-- lines 3462-3484; the loop in lines 3463-3465 doubles the capacity `k` times -/
  | build {s nc m} (hp : s.pc t = .build nc m) (k : Nat)
      (hk : nc < s.cap m * 2 ^ (k + 1) / 2) (hmin : ∀ j, j < k → s.cap m * 2 ^ (j + 1) / 2 ≤ nc) :
      Step t s { s with
        pc := upd s.pc t (.unl nc s.ntab)
        tabs := upd s.tabs s.ntab (Tab.new (s.cap m * 2 ^ (k + 1)) (some m))
        cur := s.ntab
        ntab := s.ntab + 1 }
  /-- line 3483 or 3487 -/
  | unl {s nc m} (hp : s.pc t = .unl nc m) :
      Step t s { s with
        pc := upd s.pc t (.fit nc m)
        lock := false }
  /-- lines 3494, 3495, 3233 -/
  | fit {s nc m} (hp : s.pc t = .fit nc m) :
      Step t s { s with pc := upd s.pc t (if nc < s.room m then .find m s.tail else .reMain nc) }
  /-- line 3531 -/
  | reMain {s nc} (hp : s.pc t = .reMain nc) : Step t s { s with pc := upd s.pc t (.chk nc s.cur) }
  /-- lines 3234, 3233 -/
  | findNo {s m p} (hp : s.pc t = .find m (some p)) (hi : s.inact p = false) : Step t s { s with pc := upd s.pc t (.find m (s.next p)) }
  | findYes {s m p} (hp : s.pc t = .find m (some p)) (hi : s.inact p = true) : Step t s { s with pc := upd s.pc t (.recCas m p) }
  | findEnd {s m} (hp : s.pc t = .find m none) : Step t s { s with pc := upd s.pc t (.create m) }
  /-- lines 3236-3238 -/
  | recycle {s m p} (hp : s.pc t = .recCas m p) (hi : s.inact p = true) :
      Step t s { s with
        pc := upd s.pc t (.put m 0 (some p) false)
        inact := upd s.inact p false
        prod := upd s.prod t (some p) }
  | recFail {s m p} (hp : s.pc t = .recCas m p) (hi : s.inact p = false) : Step t s { s with pc := upd s.pc t (.find m (s.next p)) }
  /-- lines 3243, 3253 -/
  | create {s m} (hp : s.pc t = .create m) :
      Step t s { s with
        pc := upd s.pc t (.add m s.nprod)
        nprod := s.nprod + 1
        prod := upd s.prod t (some s.nprod) }
  /-- lines 3256-3258 -/
  | add {s m p} (hp : s.pc t = .add m p) :
      Step t s { s with
        pc := upd s.pc t (.addCas m p s.tail)
        next := upd s.next p s.tail }
  /-- line 3259 -/
  | addCas {s m p pv} (hp : s.pc t = .addCas m p pv) (ht : s.tail = pv) :
      Step t s { s with
        pc := upd s.pc t (.put m 0 (some p) false)
        tail := some p
        plist := p :: s.plist }
  /-- lines 3258-3259: `compare_exchange_weak` may fail for no reason -/
  | addFail {s m p pv} (hp : s.pc t = .addCas m p pv) :
      Step t s { s with
        pc := upd s.pc t (.addCas m p s.tail)
        next := upd s.next p s.tail }
  /-- line 3430 or 3513 -/
  | put {s m k v lz} (hp : s.pc t = .put m k v lz) (hk : s.key m (s.slot hash t m k) = if lz then .empty else .dead) :
      Step t s { s with
        pc := upd s.pc t (if lz then .putV m (s.slot hash t m k) v else .dec m (s.slot hash t m k) v)
        tabs := upd s.tabs m { s.tabs m with key := upd (s.tabs m).key (s.slot hash t m k) (.of t) } }
  | putNo {s m k v lz} (hp : s.pc t = .put m k v lz) (hk : s.key m (s.slot hash t m k) ≠ if lz then .empty else .dead) :
      Step t s { s with pc := upd s.pc t (.put2 m k v lz) }
  /-- line 3431 or 3519 -/
  | put2 {s m k v lz} (hp : s.pc t = .put2 m k v lz) (hk : s.key m (s.slot hash t m k) = if lz then .dead else .empty) :
      Step t s { s with
        pc := upd s.pc t (.putV m (s.slot hash t m k) v)
        pend := if lz then s.pend else s.pend.erase t
        tabs := upd s.tabs m { s.tabs m with key := upd (s.tabs m).key (s.slot hash t m k) (.of t) } }
  /-- line 3438 or 3523 -/
  | putNext {s m k v lz} (hp : s.pc t = .put2 m k v lz) (hk : s.key m (s.slot hash t m k) ≠ if lz then .dead else .empty) :
      Step t s { s with pc := upd s.pc t (.put m (k + 1) v lz) }
  /-- line 3514 -/
  | dec {s m j v} (hp : s.pc t = .dec m j v) :
      Step t s { s with
        pc := upd s.pc t (.putV m j v)
        count := s.count - 1
        pend := s.pend.erase t }
  /-- line 3435, 3515 or 3520 -/
  | putV {s m j v} (hp : s.pc t = .putV m j v) :
      Step t s { s with
        pc := upd s.pc t (.ret v)
        tabs := upd s.tabs m { s.tabs m with val := upd (s.tabs m).val j v } }
  | ret {s v} (hp : s.pc t = .ret v) :
      Step t s { s with
        pc := upd s.pc t .out
        got := upd s.got t v }
  /-- a thread with a sub-queue exits -/
  | exit {s} (hp : s.pc t = .out) (hg : s.got t ≠ none) :
      Step t s { s with
        pc := upd s.pc t .xLd
        exited := true }
  /-- line 3541 -/
  | xLd {s} (hp : s.pc t = .xLd) : Step t s { s with pc := upd s.pc t (.xScan s.cur 0) }
  /-- lines 3555-3557, 3549 -/
  | xHit {s h k} (hp : s.pc t = .xScan h k) (hk : s.key h (s.slot hash t h k) = .of t) :
      Step t s { s with
        pc := upd s.pc t (match (s.tabs h).prev with | some h' => .xScan h' 0 | none => .xInact)
        tabs := upd s.tabs h { s.tabs h with key := upd (s.tabs h).key (s.slot hash t h k) .dead } }
  /-- lines 3559, 3549 -/
  | xMiss {s h k} (hp : s.pc t = .xScan h k) (hk : s.key h (s.slot hash t h k) = .empty) :
      Step t s { s with pc := upd s.pc t (match (s.tabs h).prev with | some h' => .xScan h' 0 | none => .xInact) }
  /-- lines 3558-3559 -/
  | xOther {s h k} (hp : s.pc t = .xScan h k) (hk : s.key h (s.slot hash t h k) ≠ .empty) (hu : s.key h (s.slot hash t h k) ≠ .of t) :
      Step t s { s with pc := upd s.pc t (.xScan h (k + 1)) }
  /-- line 3563; then the thread is gone -/
  | xInact {s p} (hp : s.pc t = .xInact) (hg : s.prod t = some p) :
      Step t s { s with
        pc := upd s.pc t .out
        inact := upd s.inact p true
        got := upd s.got t none
        num := upd s.num t none
        prod := upd s.prod t none }

inductive Reach (C : Nat) : State → Prop
  | init : Reach C (init C)
  | step {s s'} (t) (h : Reach C s) (hs : Step hash t s s') : Reach C s'

end RG.PH
