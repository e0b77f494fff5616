import Verif.Util
/-
What the allocators ask of the operating system and give back to it:
/repo/redGrapes/memory/hwloc_alloc.hpp, util/atomic_list.hpp (`StaticAlloc`, `allocate_item`),
memory/chunked_bump_alloc.hpp and memory/bump_allocator.cpp.

Two layers. The first one is the address space of the process, seen by pages: any number of arenas and
threads obtain chunks and release them, other parts of the process map and unmap pages of their own.
The second one is one `ChunkedBumpAlloc` used by one thread, with its list of chunks; every call of
`hwloc_alloc_membind` and `hwloc_free` is a step of the first layer.

Trusted behaviour of hwloc and Linux: `hwloc_alloc_membind` is `mmap` (and `mbind`), it returns the
address of a page such that the pages of the region were not mapped before, or a null pointer;
`hwloc_free(topology, ptr, len)` is `munmap(ptr, len)`, which removes all pages that contain a part of
the `len` bytes from `ptr` on, and no other pages.
-/
namespace RG.Pages

/-- Sizes in bytes. -/
structure Cfg where
  /-- size of a page of the operating system -/
  page : Nat
  /-- `chunk_capacity` of the list, `REDGRAPES_ALLOC_CHUNKSIZE` (worker_pool.cpp:46) -/
  capacity : Nat
  /-- atomic_list.hpp:137-143 `get_controlblock_size` -/
  ctrl : Nat
  /-- `sizeof(BumpAllocator)` -/
  header : Nat
  /-- `sizeof` of the object that `std::allocate_shared` creates at the beginning of the chunk: counters of the
  shared pointer, a copy of the `StaticAlloc`, and the `ItemControlBlock` -/
  counted : Nat
  /-- number of pages of the address space (or of what the process may use) -/
  space : Nat

/-- number of pages that contain a part of `len` bytes that begin at the begin of a page -/
def pagesOf (page len : Nat) : Nat := (len + page - 1) / page

/-- atomic_list.hpp:150-153 and 170: what `StaticAlloc` requests from `HwlocAlloc` (hwloc_alloc.hpp:58-63). -/
def Cfg.need (c : Cfg) : Nat := pagesOf c.page (c.capacity + c.ctrl)

/-- atomic_list.hpp:120-123: `StaticAlloc<T>::deallocate(p, 1)` gives back a block of the length `sizeof(T)`, where `T` is
the object created by `std::allocate_shared`; hwloc_alloc.hpp:100 passes the length to `hwloc_free`. -/
def Cfg.freed (c : Cfg) : Nat := pagesOf c.page c.counted

/-- atomic_list.hpp:175-177 and 56-57: the bytes that the bump allocator of a chunk may hand out. -/
def Cfg.usable (c : Cfg) : Nat := c.capacity - c.ctrl - c.header

/-- The sizes of the code on x86-64 Linux with libstdc++: chunks of 64 KiB (chunked_bump_alloc.hpp:41), an `ItemControlBlock`
of 32 bytes and 512 more, a bump allocator of 32 bytes (bump_allocator.hpp:60-70), and 16 bytes of counters, 24 bytes of `StaticAlloc`,
32 bytes of `ItemControlBlock`. -/
def defaultCfg (space : Nat) : Cfg := ⟨4096, 64 * 1024, 32 + 512, 32, 16 + 24 + 32, space⟩

/-! ### The address space -/

/-- Who has mapped a page. -/
inductive Owner
  /-- the chunk with this number; chunks of all arenas are numbered in the order of their creation -/
  | chunk (i : Nat)
  /-- somebody else in the process -/
  | other
  deriving DecidableEq, Repr

structure Mem where
  owner : Nat → Option Owner
  /-- number of chunks created -/
  n : Nat
  /-- first page of each chunk -/
  base : Nat → Nat
  /-- the chunk has been destroyed -/
  released : Nat → Bool

/-- no chunk yet; some pages are used by others -/
def Mem.init (others : Nat → Bool) : Mem :=
  ⟨fun p => if others p then some .other else none, 0, fun _ => 0, fun _ => false⟩

/-- the pages `b`, …, `b + k - 1` -/
def within (b k p : Nat) : Bool := decide (b ≤ p) && decide (p < b + k)

/-- `mmap` for the chunk `n` at the page `b`, hwloc_alloc.hpp:58-68. -/
def Mem.map (c : Cfg) (m : Mem) (b : Nat) : Mem :=
  { m with
    owner := fun p => if within b c.need p then some (.chunk m.n) else m.owner p
    n := m.n + 1
    base := upd m.base m.n b }

/-- Destruction of the chunk `i`: `munmap` with the length of `StaticAlloc::deallocate`, whoever has mapped the pages. -/
def Mem.unmap (c : Cfg) (m : Mem) (i : Nat) : Mem :=
  { m with
    owner := fun p => if within (m.base i) c.freed p then none else m.owner p
    released := upd m.released i true }

/-- the operating system may place a chunk at page `b` -/
def Mem.fits (c : Cfg) (m : Mem) (b : Nat) : Prop :=
  b + c.need ≤ c.space ∧ ∀ p, within b c.need p = true → m.owner p = none

/-- Steps of any number of threads and arenas. A chunk is destroyed at most once (C95). -/
inductive Mem.Step (c : Cfg) : Mem → Mem → Prop
  | map {m b} : m.fits c b → Mem.Step c m (m.map c b)
  | unmap {m i} : i < m.n → m.released i = false → Mem.Step c m (m.unmap c i)
  | otherMap {m p} : p < c.space → m.owner p = none → Mem.Step c m { m with owner := upd m.owner p (some .other) }
  | otherUnmap {m p} : m.owner p = some .other → Mem.Step c m { m with owner := upd m.owner p none }

inductive Mem.Steps (c : Cfg) : Mem → Mem → Prop
  | refl {m} : Mem.Steps c m m
  | tail {m m' m''} : Mem.Steps c m m' → Mem.Step c m' m'' → Mem.Steps c m m''

/-- Reachable from a process in which `others` are mapped. -/
def Mem.Reach (c : Cfg) (m : Mem) : Prop := ∃ others, Mem.Steps c (Mem.init others) m

/-! ### One allocator -/

/-- A chunk in the list of a `ChunkedBumpAlloc`: number, `next_addr - lower_limit` (bump_allocator.hpp:60-70), blocks in use, and
the flag `deleted` (atomic_list.hpp:47). The counter has 16 bits in the code (C35); here it is unbounded. -/
structure Chunk where
  id : Nat
  left : Int
  count : Nat
  deleted : Bool
  deriving DecidableEq, Repr

/-- The chunks from the head along `prev` (atomic_list.hpp:48), and the blocks in use, by the chunk that they belong to. Which chunk
owns an address: C33, C35. -/
structure State where
  mem : Mem
  list : List Chunk
  live : List Nat

def State.init (others : Nat → Bool) : State := ⟨Mem.init others, [], []⟩

/-- How a call of `allocate` ends. -/
inductive Out
  /-- a block of the chunk with this number -/
  | ok (s : State) (id : Nat)
  /-- a null block is returned, chunked_bump_alloc.hpp:114-121 -/
  | null
  /-- the loop of lines 93-110 does not end (C34) -/
  | spin
  /-- an object is created at the address null -/
  | fault

/-- The operating system: where it places the next chunk, or that it refuses. -/
abbrev Os := Mem → Option Nat

/-- The kernel does not place a chunk over mapped pages. -/
def Os.Sound (c : Cfg) (os : Os) : Prop := ∀ m b, os m = some b → m.fits c b

/-- chunked_bump_alloc.hpp:103-108 with atomic_list.hpp:158-180: a new chunk, and the next turn of the loop, in which the request is
taken from it. If the operating system refuses, hwloc_alloc.hpp:70-74 returns a null block, nobody checks it (atomic_list.hpp:106,
117, 170-179), and `std::allocate_shared` creates its object at the address null. -/
def grow (c : Cfg) (os : Os) (s : State) (sz : Nat) : Out :=
  match os s.mem with
  | none => .fault
  | some b =>
    if sz ≤ c.usable then
      .ok { mem := s.mem.map c b
            list := ⟨s.mem.n, (c.usable : Int) - sz, 1, false⟩ :: s.list
            live := s.mem.n :: s.live } s.mem.n
    else .spin

/-- chunked_bump_alloc.hpp:82-122 `allocate`, for a size that is already rounded (C34), with bump_allocator.cpp:58-68. -/
def allocate (c : Cfg) (os : Os) (s : State) (sz : Nat) : Out :=
  if sz ≤ c.capacity then
    match s.list with
    | [] => grow c os s sz
    | k :: rest =>
      if (sz : Int) ≤ k.left then
        .ok { s with list := { k with left := k.left - sz, count := k.count + 1 } :: rest, live := k.id :: s.live } k.id
      else grow c os { s with list := { k with left := k.left - sz } :: rest } sz
  else .null

/-- chunked_bump_alloc.hpp:142-147 with bump_allocator.cpp:47-50, 70-74: a block of the chunk is given back; if it was the last one and the
chunk is full, the chunk is flagged as deleted. -/
def Chunk.giveBack (k : Chunk) : Chunk :=
  { k with count := k.count - 1, deleted := k.deleted || (k.count == 1 && decide (k.left ≤ 0)) }

/-- chunked_bump_alloc.hpp:134-155 after the chunk `prev`: `++it` (atomic_list.hpp:238-247) removes deleted chunks behind `prev`; the next
chunk is the owner of the block or the walk goes on there. After the deletion of a chunk, `prev.optimize()` (147) removes it and the deleted ones
behind it. Result: the rest of the list, and the chunks that are destroyed. -/
def walk (id : Nat) : List Chunk → List Chunk × List Nat
  | [] => ([], [])
  | k :: rest =>
    if k.deleted then ((walk id rest).1, k.id :: (walk id rest).2)
    else if k.id = id then
      if k.count = 1 ∧ k.left ≤ 0 then
        (rest.dropWhile (·.deleted), k.id :: (rest.takeWhile (·.deleted)).map (·.id))
      else (k.giveBack :: rest, [])
    else (k :: (walk id rest).1, (walk id rest).2)

/-- chunked_bump_alloc.hpp:124-165 `deallocate`: the walk begins at the head, which is visited even if it is deleted. If the block belongs to
the head then `prev` is the head itself. -/
def search (id : Nat) : List Chunk → List Chunk × List Nat
  | [] => ([], [])
  | k :: rest =>
    if k.id = id then
      if k.count = 1 ∧ k.left ≤ 0 then
        (k.giveBack :: rest.dropWhile (·.deleted), (rest.takeWhile (·.deleted)).map (·.id))
      else (k.giveBack :: rest, [])
    else (k :: (walk id rest).1, (walk id rest).2)

def deallocate (c : Cfg) (s : State) (id : Nat) : State :=
  { mem := (search id s.list).2.foldl (Mem.unmap c) s.mem
    list := (search id s.list).1
    live := s.live.erase id }

/-- The destruction of the allocator (chunked_bump_alloc.hpp:65-67): the list drops its head, and every chunk its predecessor. -/
def destroy (c : Cfg) (s : State) : State :=
  { mem := (s.list.map (·.id)).foldl (Mem.unmap c) s.mem, list := [], live := [] }

/-- Programs of one thread with one allocator, other parts of the process interfere with pages of their own or with other
allocators. -/
inductive Reach (c : Cfg) (os : Os) : State → Prop
  | init {others} : Reach c os (State.init others)
  | allocate {s s' sz id} : Reach c os s → allocate c os s sz = .ok s' id → Reach c os s'
  | deallocate {s id} : Reach c os s → id ∈ s.live → Reach c os (deallocate c s id)
  | destroy {s} : Reach c os s → Reach c os (destroy c s)
  | otherMap {s p} : Reach c os s → p < c.space → s.mem.owner p = none →
      Reach c os { s with mem := { s.mem with owner := upd s.mem.owner p (some .other) } }
  | otherUnmap {s p} : Reach c os s → s.mem.owner p = some .other →
      Reach c os { s with mem := { s.mem with owner := upd s.mem.owner p none } }

/-- A program that uses two blocks at a time: take a block, give back the one taken before. -/
def turns (c : Cfg) (os : Os) (sz : Nat) : Nat → State → Nat → Out
  | 0, s, last => .ok s last
  | k + 1, s, last =>
    match allocate c os s sz with
    | .ok s' id => turns c os sz k (deallocate c s' last) id
    | o => o

end RG.Pages
