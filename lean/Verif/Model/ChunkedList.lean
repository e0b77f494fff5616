import Verif.Util
/-
The list used for access lists, follower lists, resource users and resource entries, used by one thread:
/repo/redGrapes/util/chunked_list.hpp and /repo/redGrapes/util/atomic_list.hpp.

The slots of all chunks are numbered: chunk `c` has the slots `c * N … c * N + N - 1`, where `N` is
`T_chunk_size`; a pointer to an item is the number of its slot.

Simplifications: chunks are not deallocated; `iter_offset` (uint16_t) and `refcount` (int16_t) are unbounded;
an exception, a failed assertion or a loop that does not end sets `err`.
-/
namespace RG.CL

/-- chunked_list.hpp:84-150 `Item`. `val = none` as long as nothing has been assigned. `dtors` counts the
calls of the destructor of the value. -/
structure Item (α : Type) where
  val : Option α
  off : Nat
  ref : Int
  dtors : Nat

/-- chunked_list.hpp:137-143 `Item()` -/
def Item.fresh {α : Type} : Item α := ⟨none, 1, 0, 0⟩

/-- chunked_list.hpp:157-170 `operator=`; the second component: the assertions hold -/
def Item.assign {α : Type} (it : Item α) (v : α) : Item α × Bool :=
  ({ it with val := some v, off := 0 }, it.off != 0 && it.ref == 0)

/-- chunked_list.hpp:179-213 `acquire()` -/
def Item.acquire {α : Type} (it : Item α) : Item α × Nat :=
  if it.off = 0 ∧ 0 ≤ it.ref then ({ it with ref := it.ref + 1 }, it.off) else (it, it.off)

/-- chunked_list.hpp:220-234 `release()`; the second component: no exception -/
def Item.release {α : Type} (it : Item α) : Item α × Bool :=
  if it.ref = 0 then ({ it with ref := it.ref - 1, dtors := it.dtors + 1 }, true)
  else ({ it with ref := it.ref - 1 }, decide (0 ≤ it.ref))

/-- A position: chunk and slot. -/
structure Pos where
  chunk : Nat
  slot : Nat
  deriving DecidableEq

structure LList (α : Type) where
  /-- number of chunks that have been allocated -/
  nch : Nat
  /-- atomic_list.hpp:93 -/
  head : Option Nat
  /-- atomic_list.hpp:48 -/
  prev : Nat → Option Nat
  /-- atomic_list.hpp:47 -/
  deleted : Nat → Bool
  /-- chunked_list.hpp:246 `next_item - first_item` -/
  next : Nat → Nat
  /-- chunked_list.hpp:248 -/
  freed : Nat → Nat
  items : Nat → Item α
  err : Bool

variable {α : Type}

namespace LList

/-- chunked_list.hpp:498-500 -/
def empty : LList α where
  nch := 0
  head := none
  prev _ := none
  deleted _ := false
  next _ := 0
  freed _ := 0
  items _ := Item.fresh
  err := false

/-- chunked_list.hpp:250-254 `Chunk(blk)`, atomic_list.hpp:159-180, 291-306 (and 186-198, 309-316 if there is
no chunk): a new chunk becomes the head. -/
def allocChunk (N : Nat) (l : LList α) : LList α :=
  { l with
    nch := l.nch + 1
    head := some l.nch
    prev := upd l.prev l.nch l.head
    deleted := upd l.deleted l.nch false
    next := upd l.next l.nch 0
    freed := upd l.freed l.nch 0
    items := fun k => if l.nch * N ≤ k ∧ k < l.nch * N + N then Item.fresh else l.items k }

/-- chunked_list.hpp:269-278 `get_last_item`; `none` if it is in front of the chunk -/
def lastItem (N : Nat) (l : LList α) (c : Nat) : Option Nat :=
  if l.next c = 0 then none else some (c * N + min (l.next c - 1) (N - 1))

/-- atomic_list.hpp:80-81: the loop of `skip_deleted_prev` -/
def skip (l : LList α) : Nat → Option Nat → Option Nat
  | 0, p => p
  | _ + 1, none => none
  | n + 1, some q => if l.deleted q then skip l n (l.prev q) else some q

/-- atomic_list.hpp:77-84 `skip_deleted_prev`, 238-247 `operator++` -/
def nextChunk (l : LList α) (c : Nat) : LList α × Option Nat :=
  let p := l.skip (c + 1) (l.prev c)
  ({ l with prev := upd l.prev c p }, p)

/-- chunked_list.hpp:367-400 `acquire_next_item` starting at slot `p` of chunk `c`; 337-349
`try_acquire`. The first argument bounds the number of rounds. -/
def seek (N : Nat) : Nat → LList α → Nat → Nat → LList α × Option Pos
  | 0, l, _, _ => ({ l with err := true }, none)
  | n + 1, l, c, p =>
    let (it, step) := (l.items p).acquire
    let l := { l with items := upd l.items p it }
    if step = 0 then (l, some ⟨c, p⟩)
    else if p < c * N + step then
      match l.nextChunk c with
      | (l, none) => (l, none)
      | (l, some d) =>
        match l.lastItem N d with
        | none => (l, none)
        | some q => seek N n l d q
    else seek N n l c (p - step)

/-- chunked_list.hpp:407-413, 403-405: an iterator for a given chunk and slot -/
def mkIter (N : Nat) (l : LList α) (c p : Nat) : LList α × Option Pos := l.seek N (p + 1) c p

/-- chunked_list.hpp:354-361 `release` of an iterator, 415-418 its destructor -/
def drop (l : LList α) : Option Pos → LList α
  | none => l
  | some p =>
    let (it, ok) := (l.items p.slot).release
    { l with items := upd l.items p.slot it, err := l.err || !ok }

/-- chunked_list.hpp:611-615 `rbegin` -/
def rbegin (N : Nat) (l : LList α) : LList α × Option Pos :=
  match l.head with
  | none => (l, none)
  | some c =>
    match l.lastItem N c with
    | none => (l, none)
    | some p => l.mkIter N c p

/-- chunked_list.hpp:471-488 `operator++` -/
def next! (N : Nat) (l : LList α) (it : Pos) : LList α × Option Pos :=
  let l := l.drop (some it)
  if it.chunk * N < it.slot then l.mkIter N it.chunk (it.slot - 1)
  else
    match l.nextChunk it.chunk with
    | (l, none) => (l, none)
    | (l, some d) =>
      match l.lastItem N d with
      | none => (l, none)
      | some q => l.mkIter N d q

/-- chunked_list.hpp:403-405: the copy constructor -/
def copy (N : Nat) (l : LList α) : Option Pos → LList α × Option Pos
  | none => (l, none)
  | some p => l.mkIter N p.chunk p.slot

/-- chunked_list.hpp:518-570 `push`; the first argument bounds the number of rounds. -/
def pushLoop (N : Nat) : Nat → LList α → α → LList α × Option Pos
  | 0, l, _ => ({ l with err := true }, none)
  | n + 1, l, v =>
    match l.head with
    | none => pushLoop N n (l.allocChunk N) v
    | some c =>
      if l.next c ≤ N then
        let i := l.next c
        let l := { l with next := upd l.next c (i + 1) }
        if i < N then
          let (it, ok) := (l.items (c * N + i)).assign v
          let l := { l with items := upd l.items (c * N + i) it, err := l.err || !ok }
          l.mkIter N c (c * N + i)
        else if i = N then pushLoop N n (l.allocChunk N) v
        else pushLoop N n l v
      else pushLoop N n l v

def push (N : Nat) (l : LList α) (v : α) : LList α × Option Pos := l.pushLoop N 3 v

/-- chunked_list.hpp:512-516 `release_chunk` -/
def releaseChunk (N : Nat) (l : LList α) (c : Nat) : LList α :=
  { l with
    freed := upd l.freed c (l.freed c + 1)
    deleted := if l.freed c = N - 1 then upd l.deleted c true else l.deleted }

/-- chunked_list.hpp:572-602 `remove` -/
def remove (N : Nat) (l : LList α) (p : Pos) : LList α :=
  let off := if p.slot = p.chunk * N then 1 else (l.items (p.slot - 1)).off + 1
  let (it, ok) := ({ l.items p.slot with off := off } : Item α).release
  let l := { l with items := upd l.items p.slot it, err := l.err || !ok }
  l.releaseChunk N p.chunk

/-- chunked_list.hpp:606: the loop of `erase`; the first argument bounds the number of rounds -/
def eraseLoop [DecidableEq α] (N : Nat) (v : α) : Nat → LList α → Option Pos → LList α
  | _, l, none => l
  | 0, l, some _ => { l with err := true }
  | n + 1, l, some p =>
    let l := if (l.items p.slot).val = some v then l.remove N p else l
    let (l, it) := l.next! N p
    eraseLoop N v n l it

/-- chunked_list.hpp:604-609 `erase` -/
def erase [DecidableEq α] (N : Nat) (l : LList α) (v : α) : LList α :=
  let (l, it) := l.rbegin N
  match it with
  | none => l
  | some p => eraseLoop N v (p.slot + 1) l (some p)

/-- The loop `for(auto it = l.rbegin(); it != l.rend(); ++it)` that reads every value, as in event.cpp:91-92 and
graph.cpp:58-72; the first argument bounds the number of rounds. -/
def walk (N : Nat) : Nat → LList α → Option Pos → LList α × List (Option α)
  | _, l, none => (l, [])
  | 0, l, some _ => ({ l with err := true }, [])
  | n + 1, l, some p =>
    let v := (l.items p.slot).val
    let (l, it) := l.next! N p
    let (l, vs) := walk N n l it
    (l, v :: vs)

def collect (N : Nat) (l : LList α) : LList α × List (Option α) :=
  let (l, it) := l.rbegin N
  match it with
  | none => (l, [])
  | some p => walk N (p.slot + 1) l (some p)

/-- chunked_list.hpp:256-260 `~Chunk`, 145-148 `~Item`, 220-234 `release<false>`: the list and with it all its chunks are
destroyed. -/
def destroy (N : Nat) (l : LList α) : LList α :=
  { l with items := fun k => if k < l.nch * N then (l.items k).release.1 else l.items k }

end LList

/-! ### A client -/

/-- What a client does; iterators are numbered in the order in which they are created. -/
inductive Op (α : Type)
  | push (v : α)
  | rbegin
  | copy (i : Nat)
  /-- `++it` -/
  | next (i : Nat)
  /-- the iterator goes out of scope -/
  | drop (i : Nat)
  | remove (i : Nat)
  | erase (v : α)

/-- The list and the iterators: `none` if the iterator has gone out of scope, `some none` for `rend()`. -/
structure Client (α : Type) where
  list : LList α
  its : List (Option (Option Pos))

def Client.init : Client α := ⟨LList.empty, []⟩

def Client.get (s : Client α) (i : Nat) : Option Pos := (s.its[i]?.join).join

/-- `++` and `remove` for `rend()` are errors (null pointer, chunked_list.hpp:475, and exception, 600-601). -/
def Client.step [DecidableEq α] (N : Nat) (s : Client α) : Op α → Client α
  | .push v => let (l, it) := s.list.push N v; ⟨l, s.its ++ [some it]⟩
  | .rbegin => let (l, it) := s.list.rbegin N; ⟨l, s.its ++ [some it]⟩
  | .copy i => let (l, it) := s.list.copy N (s.get i); ⟨l, s.its ++ [some it]⟩
  | .next i =>
    match s.get i with
    | none => ⟨{ s.list with err := true }, s.its⟩
    | some p => let (l, it) := s.list.next! N p; ⟨l, s.its.set i (some it)⟩
  | .drop i => ⟨s.list.drop (s.get i), s.its.set i none⟩
  | .remove i =>
    match s.get i with
    | none => ⟨{ s.list with err := true }, s.its⟩
    | some p => ⟨s.list.remove N p, s.its⟩
  | .erase v => ⟨s.list.erase N v, s.its⟩

def Client.run [DecidableEq α] (N : Nat) (s : Client α) (ops : List (Op α)) : Client α := ops.foldl (Client.step N) s

/-- What dereferencing iterator `i` yields: `none` for `rend()` and iterators that are gone. -/
def Client.deref (s : Client α) (i : Nat) : Option α :=
  (s.get i).bind fun p => (s.list.items p.slot).val

end RG.CL
