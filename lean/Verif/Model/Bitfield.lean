import Verif.Model.Access
/-
/repo/redGrapes/util/bitfield.hpp (AtomicBitfield), dispatch/thread/worker_pool.{hpp,cpp}
(set_worker_state, find_free_worker), scheduler/default_scheduler.cpp (activate_task, emplace_task).

A bitfield is a function from word indices to 64-bit words. Element indices are natural numbers
(`unsigned` in the code: fewer than 2^32 elements).
-/
namespace RG.Bf

/-- bitfield.hpp:131-134 `ceil_div`, for `b = 64`. -/
def nWords (size : Nat) : Nat := (size + 64 - 1) / 64

/-- bitfield.hpp:28-31 `__INDEX_CALC`: the mask. -/
def bit (idx : Nat) : Size := 1#64 <<< (idx % 64)

/-- bitfield.hpp:58-62 `get`. -/
def get (w : Nat → Size) (idx : Nat) : Bool := (w (idx / 64) &&& bit idx) != 0

/-- bitfield.hpp:37-54 `set`: the new words. -/
def setWords (w : Nat → Size) (idx : Nat) (v : Bool) : Nat → Size := fun j =>
  if j = idx / 64 then (if v then w j ||| bit idx else w j &&& ~~~ bit idx) else w j

/-- bitfield.hpp:37-54 `set`: the returned value; the previous word goes through the variable
`unsigned old_val` of 32 bits (line 40). -/
def setRet (w : Nat → Size) (idx : Nat) : Bool :=
  let oldVal : BitVec 32 := (w (idx / 64)).setWidth 32
  (oldVal.setWidth 64 &&& bit idx) != 0

/-- bitfield.hpp:138-158 `first_one_idx`. -/
def firstOne (v0 : Size) : Nat :=
  let v := v0 &&& -v0
  let c : Nat := 64
  let c := if v ≠ 0 then c - 1 else c
  let c := if v &&& 0x00000000FFFFFFFF ≠ 0 then c - 32 else c
  let c := if v &&& 0x0000FFFF0000FFFF ≠ 0 then c - 16 else c
  let c := if v &&& 0x00FF00FF00FF00FF ≠ 0 then c - 8 else c
  let c := if v &&& 0x0F0F0F0F0F0F0F0F ≠ 0 then c - 4 else c
  let c := if v &&& 0x3333333333333333 ≠ 0 then c - 2 else c
  if v &&& 0x5555555555555555 ≠ 0 then c - 1 else c

/-- What happened during a search: `offers` are the indices passed to the callback, with the moment
of the load that showed them; `stuck` tells that the bound for the number of iterations was hit. -/
structure Probe (τ : Type) where
  offers : List (Nat × Nat)
  res : Option τ
  time : Nat
  stuck : Bool

/-- bitfield.hpp:166-193 `probe_chunk_by_value`. Other threads may change the words at any time: `σ t`
are the words at moment `t`, every load and every call of `f` happens at its own moment. The loop has
no bound in the code; here it has `fuel`, and running out of it is visible in `stuck`. -/
def probeChunk {τ : Type} (σ : Nat → Nat → Size) (f : Nat → Nat → Option τ) (v : Bool) (j : Nat) :
    Nat → Nat → Size → Probe τ
  | 0, t, _ => ⟨[], none, t, true⟩
  | fuel + 1, t, mask =>
    let field := if v then σ t j else ~~~ (σ t j)
    let m := field &&& mask
    if m = 0 then ⟨[], none, t + 1, false⟩
    else
      let k := firstOne m
      if k < 64 then
        let idx := j * 64 + k
        match f (t + 1) idx with
        | some x => ⟨[(t, idx)], some x, t + 2, false⟩
        | none =>
          let r := probeChunk σ f v j fuel (t + 2) (mask &&& ~~~ (1#64 <<< k))
          ⟨(t, idx) :: r.offers, r.res, r.time, r.stuck⟩
      else probeChunk σ f v j fuel (t + 1) mask

/-- The mask of the elements in range of word `j`, bitfield.hpp:87-88, 98-99, 110-111. -/
def rangeMask (size j : Nat) (m : Size) : Size :=
  if j = nWords size - 1 ∧ size % 64 ≠ 0 then m &&& ((1#64 <<< (size % 64)) - 1) else m

/-- bitfield.hpp:81-113: the words probed one after the other, with their masks. -/
def plan (size start : Nat) (excludeStart : Bool) : List (Nat × Size) :=
  let startField := start / 64
  let firstMask : Size := BitVec.allOnes 64 <<< (start % 64)
  let secondMask := ~~~ firstMask
  let secondMask := rangeMask size startField secondMask
  let secondMask := if excludeStart then secondMask &&& ~~~ (1#64 <<< (start % 64)) else secondMask
  let firstMask := rangeMask size startField firstMask
  (startField, secondMask) :: (startField, firstMask) ::
    (List.range' 1 (nWords size - 1)).map fun b =>
      let fieldIdx := (startField + b) % nWords size
      (fieldIdx, rangeMask size fieldIdx (BitVec.allOnes 64))

/-- Probing several words one after the other, until the callback returns something. -/
def probeList {τ : Type} (σ : Nat → Nat → Size) (f : Nat → Nat → Option τ) (v : Bool) :
    List (Nat × Size) → Nat → Probe τ
  | [], t => ⟨[], none, t, false⟩
  | (j, mask) :: rest, t =>
    let r := probeChunk σ f v j 65 t mask
    match r.res with
    | some x => ⟨r.offers, some x, r.time, r.stuck⟩
    | none =>
      let r' := probeList σ f v rest r.time
      ⟨r.offers ++ r'.offers, r'.res, r'.time, r.stuck || r'.stuck⟩

/-- bitfield.hpp:75-118 `probe_by_value`. -/
def probe {τ : Type} (σ : Nat → Nat → Size) (f : Nat → Nat → Option τ) (size : Nat) (v : Bool)
    (start : Nat) (excludeStart : Bool) : Probe τ :=
  probeList σ f v (plan size start excludeStart) 0

/-! ### worker pool -/

/-- worker_pool.hpp:75-78 `set_worker_state(idx, BUSY)`: `set(idx, false) != BUSY`, i.e. success iff
the previous value was reported as AVAILABLE. -/
def claim (w : Nat → Size) (idx : Nat) : Bool := setRet w idx != false

/-- worker_pool.cpp:74-101 `find_free_worker`, with worker_pool.hpp:80-91 (which does not pass
`exclude_start` on, so it is the default `true`). `start` is the id of the calling worker, or 0. -/
def findFree (σ : Nat → Nat → Size) (size start : Nat) : Probe Nat :=
  probe σ (fun t idx => if claim (σ t) idx then some idx else none) size true start true

/-! ### activation of a ready task -/

inductive Act
  /-- the null pointer `current_worker` is dereferenced -/
  | ub
  /-- the task is in the ready queue of this worker; new value of `next_worker` -/
  | enqueued (worker : Nat) (next : BitVec 32)
  deriving DecidableEq, Repr

/-- default_scheduler.cpp:69-89 `activate_task`; `found` is the result of `find_free_worker`,
`next` the value of the thread-local counter `next_worker`. -/
def activate (nWorkers : Nat) (found : Option Nat) (currentWorker : Option Nat) (next : BitVec 32) :
    Act :=
  match found with
  | some w => .enqueued w next
  | none =>
    let w := next.toNat % nWorkers
    match currentWorker with
    | none => .ub
    | some cw =>
      if w = cw then .enqueued ((next + 1).toNat % nWorkers) (next + 2)
      else .enqueued w (next + 1)

/-- default_scheduler.cpp:33-38 `emplace_task`: the worker that gets a new task. -/
def emplaceTo (nWorkers arena : Nat) : Nat := arena % nWorkers

end RG.Bf
