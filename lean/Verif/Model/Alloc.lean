import Verif.Model.Access
/-
Memory: /repo/redGrapes/memory/{bump_allocator.hpp,bump_allocator.cpp,chunked_bump_alloc.hpp,
allocator.cpp}, util/atomic_list.hpp (memory layout), dispatch/thread/worker_pool.cpp (arenas).

Addresses and sizes are 64-bit words (`Size`), with wrap-around as in C++.
-/
namespace RG.Alloc

/-- One of the lines chunked_bump_alloc.hpp:72-77. -/
def smear (s : Size) (k : Nat) : Size := s ||| (s >>> k)

/-- chunked_bump_alloc.hpp:69-80 `roundup_to_poweroftwo`. -/
def roundup (s : Size) : Size :=
  smear (smear (smear (smear (smear (smear (s - 1) 0x1) 0x2) 0x4) 0x8) 0x10) 0x20 + 1

/-! ### layout -/

/-- Sizes that determine the layout of a chunk: the capacity given to `AtomicList`, the size of its
control block `sizeof(ItemControlBlock) + 512` (atomic_list.hpp:137-143) and the size of the object at
the beginning of the chunk (`sizeof(BumpAllocator)` or `sizeof(ChunkedList::Chunk)`). -/
structure Cfg where
  capacity : Size
  ctrl : Size
  header : Size
  deriving DecidableEq, Repr

/-- atomic_list.hpp:150-153 `get_chunk_allocsize`. -/
def Cfg.allocSize (c : Cfg) : Size := c.capacity + c.ctrl

/-- atomic_list.hpp:175-177: where the object at the beginning of the chunk is placed. -/
def Cfg.headerAddr (c : Cfg) (base : Size) : Size := base + c.ctrl

/-- atomic_list.hpp:51-58: address of the block passed to that object. -/
def Cfg.dataAddr (c : Cfg) (base : Size) : Size := c.headerAddr base + c.header

/-- atomic_list.hpp:177 and 57: length of the block passed to that object. -/
def Cfg.dataLen (c : Cfg) : Size := c.capacity - c.ctrl - c.header

/-- chunked_list.hpp:498: capacity requested by a list with chunks of `n` items. -/
def listCapacity (n itemSize chunkSize : Size) : Size := n * itemSize + chunkSize

/-- chunked_list.hpp:250-254: address of the i-th item (pointer arithmetic on `first_item`). -/
def itemAddr (c : Cfg) (base itemSize : Size) (i : Nat) : Size :=
  c.dataAddr base + BitVec.ofNat 64 i * itemSize

/-! ### one bump allocator -/

/-- bump_allocator.hpp:60-70, together with the flag `deleted` of its list node
(atomic_list.hpp:47). -/
structure Chunk where
  base : Size
  lower : Size
  upper : Size
  next : Size
  count : BitVec 16
  deleted : Bool
  deriving DecidableEq, Repr

/-- bump_allocator.cpp:21-32 with atomic_list.hpp:51-58, 172-179. -/
def Chunk.mk' (c : Cfg) (base : Size) : Chunk :=
  { base := base
    lower := c.dataAddr base
    upper := c.dataAddr base + c.dataLen
    next := c.dataAddr base + c.dataLen
    count := 0
    deleted := false }

/-- bump_allocator.cpp:47-50 `full`. -/
def Chunk.full (k : Chunk) : Bool := decide (k.next ≤ k.lower)

/-- bump_allocator.cpp:76-79 `owns`. -/
def Chunk.owns (k : Chunk) (addr : Size) : Bool := decide (k.lower ≤ addr) && decide (addr < k.upper)

/-- bump_allocator.cpp:60: the atomic subtraction; the result is `addr`. -/
def Chunk.fetchSub (k : Chunk) (n : Size) : Chunk := { k with next := k.next - n }

/-! ### the chunked allocator as an interleaving state machine

Each thread executes `allocate` (chunked_bump_alloc.hpp:82-122 and bump_allocator.cpp:58-68) and
`deallocate` (124-165 and 70-74) in several atomic steps. Simplifications: appending a chunk to the
list is one step (property C30 is about this), and so is the search for the owner of a block together
with the decrement of its counter. That the operating system may refuse
memory is the subject of Model/Pages.lean. -/

/-- Where a thread is. -/
inductive Pc
  | idle
  /-- line 93, rounded size -/
  | loop (sz : Size)
  /-- lines 96-98: the head chunk was loaded -/
  | chosen (sz : Size) (c : Nat)
  /-- bump_allocator.cpp:60-62: `fetch_sub` was successful, `count++` is still to be done -/
  | reserved (sz : Size) (c : Nat) (addr : Size)
  /-- lines 104 and 108 -/
  | needNew (sz : Size)
  /-- line 142: the decrement returned 1, `full()` is still to be asked -/
  | erasing (c : Nat)
  deriving DecidableEq, Repr

/-- A block in use; `chunk` records where it came from. -/
structure Blk where
  chunk : Nat
  addr : Size
  len : Size
  deriving DecidableEq, Repr

structure State where
  /-- list nodes in the order of appending; the last one is `head` -/
  chunks : List Chunk
  pcs : Nat → Pc
  /-- blocks returned by `allocate` and not yet passed to `deallocate` -/
  live : List Blk
  /-- all blocks that ever have been reserved -/
  handed : List Blk

def State.init : State := ⟨[], fun _ => .idle, [], []⟩

def setPc (f : Nat → Pc) (t : Nat) (p : Pc) : Nat → Pc := fun x => if x = t then p else f x

/-- chunked_bump_alloc.hpp:133-155: the iteration over the chunks, starting at `head` (the last one,
visited even if deleted), skipping deleted ones (atomic_list.hpp:238-247); index of the first chunk
that owns the address. -/
def findOwnerFrom (chunks : List Chunk) (addr : Size) : Nat → Option Nat
  | 0 => none
  | i + 1 =>
    match chunks[i]? with
    | none => none
    | some k =>
      if (!k.deleted || i + 1 == chunks.length) && k.owns addr then some i
      else findOwnerFrom chunks addr i

def findOwner (chunks : List Chunk) (addr : Size) : Option Nat :=
  findOwnerFrom chunks addr chunks.length

/-- The memory of a chunk is used until the chunk is deleted, and beyond that while it is the head or
some thread holds an iterator to it. -/
def inUse (s : State) (i : Nat) : Prop :=
  (∃ k, s.chunks[i]? = some k ∧ k.deleted = false) ∨ i + 1 = s.chunks.length ∨
  ∃ t, (∃ sz, s.pcs t = .chosen sz i) ∨ (∃ sz a, s.pcs t = .reserved sz i a) ∨ s.pcs t = .erasing i

/-- Trusted behaviour of the operating system (hwloc_alloc_membind): the returned region does not
wrap around, lies above `lowBound` and does not overlap with memory in use. -/
def freshRegion (cfg : Cfg) (lowBound : Nat) (s : State) (base : Size) : Prop :=
  lowBound ≤ base.toNat ∧ base.toNat + cfg.capacity.toNat + cfg.ctrl.toNat < 2 ^ 64 ∧
  ∀ i k, s.chunks[i]? = some k → inUse s i →
    base.toNat + cfg.capacity.toNat + cfg.ctrl.toNat ≤ k.base.toNat ∨
    k.base.toNat + cfg.capacity.toNat + cfg.ctrl.toNat ≤ base.toNat

/-- Steps of `n` threads. -/
inductive Step (cfg : Cfg) (n lowBound : Nat) : State → State → Prop
  /-- lines 85-93, request accepted -/
  | start {s t req} : t < n → s.pcs t = .idle → roundup req ≤ cfg.capacity →
      Step cfg n lowBound s { s with pcs := setPc s.pcs t (.loop (roundup req)) }
  /-- lines 114-121: the request is answered with a null block -/
  | reject {s t req} : t < n → s.pcs t = .idle → ¬ roundup req ≤ cfg.capacity →
      Step cfg n lowBound s s
  /-- line 96-98 -/
  | loadHead {s t sz} : s.pcs t = .loop sz → s.chunks ≠ [] →
      Step cfg n lowBound s { s with pcs := setPc s.pcs t (.chosen sz (s.chunks.length - 1)) }
  /-- line 107 -/
  | noHead {s t sz} : s.pcs t = .loop sz → s.chunks = [] →
      Step cfg n lowBound s { s with pcs := setPc s.pcs t (.needNew sz) }
  /-- bump_allocator.cpp:60-61, enough space -/
  | fetchOk {s t sz c k} : s.pcs t = .chosen sz c → s.chunks[c]? = some k → k.lower ≤ k.next - sz →
      Step cfg n lowBound s
        { s with
          chunks := s.chunks.set c (k.fetchSub sz)
          pcs := setPc s.pcs t (.reserved sz c (k.next - sz))
          handed := ⟨c, k.next - sz, sz⟩ :: s.handed }
  /-- bump_allocator.cpp:60-61 and 66-67, not enough space -/
  | fetchFail {s t sz c k} : s.pcs t = .chosen sz c → s.chunks[c]? = some k →
      ¬ k.lower ≤ k.next - sz →
      Step cfg n lowBound s
        { s with chunks := s.chunks.set c (k.fetchSub sz), pcs := setPc s.pcs t (.needNew sz) }
  /-- bump_allocator.cpp:63-64 and return from `allocate` -/
  | countUp {s t sz c addr k} : s.pcs t = .reserved sz c addr → s.chunks[c]? = some k →
      Step cfg n lowBound s
        { s with
          chunks := s.chunks.set c { k with count := k.count + 1 }
          pcs := setPc s.pcs t .idle
          live := ⟨c, addr, sz⟩ :: s.live }
  /-- lines 104, 108: append a new chunk -/
  | append {s t sz base} : s.pcs t = .needNew sz → freshRegion cfg lowBound s base →
      Step cfg n lowBound s
        { s with chunks := s.chunks ++ [Chunk.mk' cfg base], pcs := setPc s.pcs t (.loop sz) }
  /-- lines 133-142: `deallocate`, the counter was not 1 -/
  | dealloc {s t b c k} : t < n → s.pcs t = .idle → b ∈ s.live →
      findOwner s.chunks b.addr = some c → s.chunks[c]? = some k → k.count ≠ 1 →
      Step cfg n lowBound s
        { s with chunks := s.chunks.set c { k with count := k.count - 1 }, live := s.live.erase b }
  /-- lines 133-142: `deallocate`, the counter was 1 -/
  | deallocLast {s t b c k} : t < n → s.pcs t = .idle → b ∈ s.live →
      findOwner s.chunks b.addr = some c → s.chunks[c]? = some k → k.count = 1 →
      Step cfg n lowBound s
        { s with
          chunks := s.chunks.set c { k with count := k.count - 1 }
          pcs := setPc s.pcs t (.erasing c)
          live := s.live.erase b }
  /-- lines 134-155: no chunk owns the block; nothing happens -/
  | deallocUnknown {s t b} : t < n → s.pcs t = .idle → b ∈ s.live →
      findOwner s.chunks b.addr = none →
      Step cfg n lowBound s { s with live := s.live.erase b }
  /-- lines 145-148 -/
  | erase {s t c k} : s.pcs t = .erasing c → s.chunks[c]? = some k →
      Step cfg n lowBound s
        { s with
          chunks := s.chunks.set c { k with deleted := k.deleted || k.full }
          pcs := setPc s.pcs t .idle }

/-- Reachable states. -/
inductive Reach (cfg : Cfg) (n lowBound : Nat) : State → Prop
  | init : Reach cfg n lowBound State.init
  | step {s s'} : Reach cfg n lowBound s → Step cfg n lowBound s s' → Reach cfg n lowBound s'

/-! ### arenas -/

/-- worker_pool.cpp:43-50 and worker.cpp:49: the allocator (index into `allocs`) used by a worker:
`get_alloc(pu_id)`. -/
def workerAlloc (nPus worker : Nat) : Nat := worker % nPus

/-- allocator.cpp:17-25: the allocator used for a task built with `current_arena = arena`
(task_builder.hpp:71-72). -/
def taskAllocFrom (nWorkers arena : Nat) : Nat := arena % nWorkers

/-- task_space.cpp:55-60: the allocator a task's memory is given back to. -/
def taskFreeTo (nPus arena : Nat) : Nat := workerAlloc nPus arena

end RG.Alloc
