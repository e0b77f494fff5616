import Verif.Util
/-
The list of chunks, used by any number of threads: /repo/redGrapes/util/atomic_list.hpp.

Every access to shared memory is a step. Chunks are numbered in the order of their allocation; they are not
deallocated (a chunk that some thread refers to is kept alive by a `std::shared_ptr`, so the address in a
compare-and-swap is not reused). Line 243 (`c = c->prev`) is an atomic read here; in the code it is a plain
copy of a shared pointer that other threads may store to at the same time (`Model/SharedPtr`, C95).
-/
namespace RG.AL

inductive Pc
  | idle
  /-- 299: chunk `n` is to be appended -/
  | appLoad (n : Nat)
  /-- 300 -/
  | appStore (n : Nat) (old : Option Nat)
  /-- 301-302 -/
  | appCas (n : Nat) (old : Option Nat)
  /-- 315 -/
  | firstCas (n : Nat)
  /-- the iterator is at chunk `c` -/
  | at (c : Nat)
  /-- 79 -/
  | skipLoad (c : Nat)
  /-- 80: before the test of `p` -/
  | skipTest (c : Nat) (p : Option Nat)
  /-- 81 -/
  | skipNext (c q : Nat)
  /-- 83 -/
  | skipStore (c : Nat) (p : Option Nat)
  /-- 243 -/
  | advance (c : Nat)
  /-- the iterator has reached the end -/
  | atEnd
  deriving DecidableEq

structure State where
  /-- number of chunks allocated so far -/
  nalloc : Nat
  /-- 93 -/
  head : Option Nat
  /-- 48 -/
  prev : Nat → Option Nat
  /-- 47 -/
  deleted : Nat → Bool
  pcs : Nat → Pc
  /-- ghost: the number of successful appends -/
  len : Nat
  /-- ghost: how many chunks had been appended before this one; `none` if it has not been appended -/
  rank : Nat → Option Nat
  /-- ghost: the chunks with a smaller rank are those the iteration of this thread has to visit: `len` when it began
  at the head, or the rank of the chunk where it began + 1 -/
  start : Nat → Nat
  /-- ghost: the chunks the iteration of this thread has visited, the latest first -/
  vis : Nat → List Nat

def init : State where
  nalloc := 0
  head := none
  prev _ := none
  deleted _ := false
  pcs _ := .idle
  len := 0
  rank _ := none
  start _ := 0
  vis _ := []

/-- A step of thread `t`. -/
inductive Step (t : Nat) : State → State → Prop
  /-- 159-179 `allocate_item`: a new chunk -/
  | alloc {s} (h : s.pcs t = .idle) :
      Step t s { s with nalloc := s.nalloc + 1, pcs := upd s.pcs t (.appLoad s.nalloc) }
  /-- 186-197 `try_allocate_first_item` -/
  | allocFirst {s} (h : s.pcs t = .idle) :
      Step t s { s with nalloc := s.nalloc + 1, pcs := upd s.pcs t (.firstCas s.nalloc) }
  /-- 299 -/
  | load {s n} (h : s.pcs t = .appLoad n) : Step t s { s with pcs := upd s.pcs t (.appStore n s.head) }
  /-- 300 -/
  | store {s n o} (h : s.pcs t = .appStore n o) :
      Step t s { s with prev := upd s.prev n o, pcs := upd s.pcs t (.appCas n o) }
  /-- 301-302 -/
  | casOk {s n o} (h : s.pcs t = .appCas n o) (hc : s.head = o) :
      Step t s { s with
        head := some n, pcs := upd s.pcs t .idle, len := s.len + 1, rank := upd s.rank n (some s.len) }
  | casFail {s n o} (h : s.pcs t = .appCas n o) (hc : s.head ≠ o) :
      Step t s { s with pcs := upd s.pcs t (.appLoad n) }
  /-- 315 -/
  | firstOk {s n} (h : s.pcs t = .firstCas n) (hc : s.head = none) :
      Step t s { s with
        head := some n, pcs := upd s.pcs t .idle, len := s.len + 1, rank := upd s.rank n (some s.len) }
  | firstFail {s n} (h : s.pcs t = .firstCas n) (hc : s.head ≠ none) :
      Step t s { s with pcs := upd s.pcs t .idle }
  /-- 68-71, 282-285 `erase`, for any chunk that has been appended -/
  | erase {s c r} (h : s.rank c = some r) : Step t s { s with deleted := upd s.deleted c true }
  /-- 256-259 `rbegin` -/
  | rbegin {s c} (h : s.pcs t = .idle) (hh : s.head = some c) :
      Step t s { s with pcs := upd s.pcs t (.at c), start := upd s.start t s.len, vis := upd s.vis t [c] }
  | rbeginEnd {s} (h : s.pcs t = .idle) (hh : s.head = none) :
      Step t s { s with pcs := upd s.pcs t .atEnd, start := upd s.start t s.len, vis := upd s.vis t [] }
  /-- 203-205: an iterator is copied that points to a chunk, e.g. the one in `TaskProperties::unique_resources` that
  was returned by `ChunkedList::push` -/
  | copy {s c r} (h : s.pcs t = .idle) (hr : s.rank c = some r) :
      Step t s { s with pcs := upd s.pcs t (.at c), start := upd s.start t (r + 1), vis := upd s.vis t [c] }
  /-- 238-240 `operator++` -/
  | next {s c} (h : s.pcs t = .at c) : Step t s { s with pcs := upd s.pcs t (.skipLoad c) }
  /-- 79 -/
  | skipLoad {s c} (h : s.pcs t = .skipLoad c) : Step t s { s with pcs := upd s.pcs t (.skipTest c (s.prev c)) }
  /-- 80 -/
  | testDeleted {s c q} (h : s.pcs t = .skipTest c (some q)) (hd : s.deleted q = true) :
      Step t s { s with pcs := upd s.pcs t (.skipNext c q) }
  | testNot {s c q} (h : s.pcs t = .skipTest c (some q)) (hd : s.deleted q = false) :
      Step t s { s with pcs := upd s.pcs t (.skipStore c (some q)) }
  | testNull {s c} (h : s.pcs t = .skipTest c none) :
      Step t s { s with pcs := upd s.pcs t (.skipStore c none) }
  /-- 81 -/
  | skipNext {s c q} (h : s.pcs t = .skipNext c q) : Step t s { s with pcs := upd s.pcs t (.skipTest c (s.prev q)) }
  /-- 83 -/
  | skipStore {s c p} (h : s.pcs t = .skipStore c p) :
      Step t s { s with prev := upd s.prev c p, pcs := upd s.pcs t (.advance c) }
  /-- 243 -/
  | advance {s c q} (h : s.pcs t = .advance c) (hp : s.prev c = some q) :
      Step t s { s with pcs := upd s.pcs t (.at q), vis := upd s.vis t (q :: s.vis t) }
  | advanceEnd {s c} (h : s.pcs t = .advance c) (hp : s.prev c = none) :
      Step t s { s with pcs := upd s.pcs t .atEnd }
  /-- the iterator goes out of scope -/
  | drop {s c} (h : s.pcs t = .at c) : Step t s { s with pcs := upd s.pcs t .idle }
  | dropEnd {s} (h : s.pcs t = .atEnd) : Step t s { s with pcs := upd s.pcs t .idle }

inductive Reach : State → Prop
  | init : Reach init
  | step {s s' t} : Reach s → Step t s s' → Reach s'

end RG.AL
