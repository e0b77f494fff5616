import Verif.Model.Graph
import Verif.Model.ConcList
/-
The task graph of Model/Graph with the lock-free lists of Model/ConcList in place of lists with atomic operations:
the users of a resource (resource.hpp `users`) and the followers of the post-event of a task (event.hpp `followers`).
Every access to the shared memory of a list is a step, between all steps of all other threads.

/repo/redGrapes/task/task_space.cpp:81-84 (push to the users), task/property/graph.cpp:40-74 (traversal of the users with
`users_mutex` locked), 84-96 (removal with `users_mutex` locked), scheduler/event.cpp:74 (push to the followers), 87-93
(traversal of the followers); util/chunked_list.hpp, util/atomic_list.hpp.

In the component `g` of the state, the lists `users`, `hist` and `fol`, the lists in the program counters `scan`, `link`, `incr` and
`notifying`, the second component of the predecessor in `link` and `incr`, and `lock` are not used by
any step: they are ghosts. The steps are determined by the memory of the lists and by `lk`.

Threads of a list: in the list of the users of a resource, thread 0 is the one that has locked `users_mutex`, and
thread `t + 1` is the one that submits task `t`. In the list of the followers of a post-event, thread 0 is the one that
notifies them, thread `t + 1` is the one that initialises task `t`. The value of a user is the number of the task, the
value of a follower is a code for the event.

Simplifications: those of Model/Graph (except for the lists) and of Model/ConcList. The guard
`task_entry != users.rend()` (graph.cpp:42, 93) is left out: `push` does not return the end.
-/
namespace RG.GList

open RG.Graph (Cfg Entry IPc Ph Fol Fl olderThan)

structure State where
  g : Graph.State
  /-- resource.hpp `users` -/
  l : Res → CoL.State
  /-- event.hpp `followers`, for the post-event of a task -/
  f : Nat → CoL.State
  /-- resource_user.hpp `task_entry` -/
  ent : Entry → CoL.Slot
  /-- resource.hpp `users_mutex`: the task that is being initialised or that has finished whose thread holds it -/
  lk : Res → Option Nat

def init : State := ⟨Graph.init, fun _ => CoL.init, fun _ => CoL.init, fun _ => (0, 0), fun _ => none⟩

/-- the follower as a value of a list -/
def code : Fol → Nat
  | .pre t => 2 * t
  | .post t => 2 * t + 1

/-- the submission or initialisation of task `t` is inside of an operation on a list, or about to begin with one -/
def busy (cfg : Cfg) (g : Graph.State) (t : Nat) : Bool :=
  match g.ph t with
  | .submitting i | .initing (.next i) => decide (i < (cfg.res t).length)
  | .initing (.scan _ _) | .initing (.link _ _ _) | .initing (.incr _ _ _) | .initing (.unlock _)
  | .initing (.pincr _) => true
  | .initing .parent => (cfg.parentOf t).isSome
  | _ => false

/-- the same for the notification of the post-event of task `t` -/
def flBusy (g : Graph.State) (t : Nat) : Bool :=
  match g.fl t with
  | .deleting _ | .notifying _ => true
  | _ => false

/-- the push that the initialisation of task `t` is about to make: to the followers of which post-event, and what -/
def target (cfg : Cfg) (g : Graph.State) (t : Nat) : Option (Nat × Fol) :=
  match g.ph t with
  | .initing (.link _ p _) => some (p.1, .pre t)
  | .initing .parent => (cfg.parentOf t).map fun q => (t, .post q)
  | _ => none

/-- the post-event to whose followers it has just been pushed -/
def target' (g : Graph.State) (t : Nat) : Option Nat :=
  match g.ph t with
  | .initing (.incr _ p _) => some p.1
  | .initing (.pincr _) => some t
  | _ => none

/-- `++it`, up to the first access to shared memory -/
def Adv (N : Nat) (l l' : CoL.State) : Prop :=
  CoL.Step N 0 l l' ∧ (CoL.on (l.pcs 0)).isSome ∧ CoL.isIter (l'.pcs 0) = true

/-- ghost: the entry of the predecessor -/
def entry (p : Nat) (rem : List Entry) : Entry := (p, (rem.headD (0, 0)).2)

open Graph.State in
/-- With `excl`, tasks are registered with a resource by one thread at a time. `N` is the number of slots of a chunk. -/
inductive Step (cfg : Cfg) (N : Nat) (excl : Bool) : State → State → Prop
  /-- a step that is not part of an operation on a list -/
  | other {s lb g'} (h : Graph.Step cfg lb s.g g') (hp : ∀ t, busy cfg s.g t = true → g'.ph t = s.g.ph t)
      (hf : ∀ t, flBusy s.g t = true → g'.fl t = s.g.fl t) : Step cfg N excl s { s with g := g' }
  /-- task_space.cpp:83: a step of `push`, before the value is stored -/
  | push {s t i r l'} (h : s.g.ph t = .submitting i) (hr : (cfg.res t)[i]? = some r)
      (hs : CoL.Step N (t + 1) (s.l r) l') (hv : CoL.pushed (l'.pcs (t + 1)) = some t)
      (hx : excl = true → ∀ u, u ≠ t + 1 → CoL.pushing ((s.l r).pcs u) = false) :
      Step cfg N excl s { s with l := upd s.l r l' }
  /-- task_space.cpp:83: the value is stored, `push` returns the slot -/
  | assign {s t i r l' v c k} (h : s.g.ph t = .submitting i) (hr : (cfg.res t)[i]? = some r)
      (ha : (s.l r).pcs (t + 1) = .pAsg v c k) (hs : CoL.Step N (t + 1) (s.l r) l') :
      Step cfg N excl s { s with
        g := { s.g with
          ph := upd s.g.ph t (.submitting (i + 1))
          users := upd s.g.users r ((t, i) :: s.g.users r)
          hist := upd s.g.hist r ((t, i) :: s.g.hist r) }
        l := upd s.l r l'
        ent := upd s.ent (t, i) (c, k) }
  /-- graph.cpp:52-55: the lock is acquired, the iterator copied -/
  | lock {s t i r l'} (h : s.g.ph t = .initing (.next i)) (hr : (cfg.res t)[i]? = some r) (hl : s.lk r = none)
      (h0 : (s.l r).pcs 0 = .idle) (hs : CoL.Step N 0 (s.l r) l')
      (h1 : l'.pcs 0 = .iAt (s.ent (t, i)).1 (s.ent (t, i)).2) :
      Step cfg N excl s { s with l := upd s.l r l', lk := upd s.lk r (some t) }
  /-- graph.cpp:55, 57, 58: a step of the iterator to the next element -/
  | move {s t r l'} (hl : s.lk r = some t) (hm : CoL.moving ((s.l r).pcs 0) = true) (hs : CoL.Step N 0 (s.l r) l') :
      Step cfg N excl s { s with l := upd s.l r l' }
  /-- graph.cpp:57 -/
  | first {s t i r l'} (h : s.g.ph t = .initing (.next i)) (hr : (cfg.res t)[i]? = some r) (hl : s.lk r = some t)
      (ha : Adv N (s.l r) l') :
      Step cfg N excl s { s with
        g := { s.g with
          ph := upd s.g.ph t (.initing (.scan i (olderThan (t, i) (s.g.users r))))
          lock := upd s.g.lock r (some t) }
        l := upd s.l r l' }
  /-- graph.cpp:63-64; `p` is the task the iterator points to -/
  | scanParent {s t i rem r x p} (h : s.g.ph t = .initing (.scan i rem)) (hr : (cfg.res t)[i]? = some r)
      (ho : CoL.on ((s.l r).pcs 0) = some x) (hv : (s.l r).val x = some p) (hp : cfg.parentOf t = some p) :
      Step cfg N excl s { s with g := { s.g with ph := upd s.g.ph t (.initing (.unlock i)) } }
  /-- graph.cpp:66, 58 -/
  | scanSkip {s t i rem r x p l'} (h : s.g.ph t = .initing (.scan i rem)) (hr : (cfg.res t)[i]? = some r)
      (ho : CoL.on ((s.l r).pcs 0) = some x) (hv : (s.l r).val x = some p) (hp : cfg.parentOf t ≠ some p)
      (hc : ¬ (cfg.space p = cfg.space t ∧ cfg.serial p t = true)) (ha : Adv N (s.l r) l') :
      Step cfg N excl s { s with
        g := { s.g with ph := upd s.g.ph t (.initing (.scan i rem.tail)) }
        l := upd s.l r l' }
  /-- graph.cpp:66-70, 108: already finished -/
  | scanReached {s t i rem r x p l'} (h : s.g.ph t = .initing (.scan i rem)) (hr : (cfg.res t)[i]? = some r)
      (ho : CoL.on ((s.l r).pcs 0) = some x) (hv : (s.l r).val x = some p) (hp : cfg.parentOf t ≠ some p)
      (hc : cfg.space p = cfg.space t ∧ cfg.serial p t = true) (h0 : s.g.post p = 0)
      (ha : if cfg.sync p r then l' = s.l r else Adv N (s.l r) l') :
      Step cfg N excl s { s with
        g := { s.g with ph := upd s.g.ph t (.initing (if cfg.sync p r then .unlock i else .scan i rem.tail)) }
        l := upd s.l r l' }
  /-- graph.cpp:66-68, 108: not finished -/
  | scanLink {s t i rem r x p} (h : s.g.ph t = .initing (.scan i rem)) (hr : (cfg.res t)[i]? = some r)
      (ho : CoL.on ((s.l r).pcs 0) = some x) (hv : (s.l r).val x = some p) (hp : cfg.parentOf t ≠ some p)
      (hc : cfg.space p = cfg.space t ∧ cfg.serial p t = true) (h0 : s.g.post p ≠ 0) :
      Step cfg N excl s { s with g := { s.g with ph := upd s.g.ph t (.initing (.link i (entry p rem) rem.tail)) } }
  /-- event.cpp:74: a step of `push`, before a slot has been reserved -/
  | fpush {s t q F f'} (h : target cfg s.g t = some (q, F)) (hs : CoL.Step N (t + 1) (s.f q) f')
      (hv : CoL.pushed (f'.pcs (t + 1)) = some (code F)) (hn : ∀ v c k, f'.pcs (t + 1) ≠ .pAsg v c k) :
      Step cfg N excl s { s with f := upd s.f q f' }
  /-- event.cpp:74: a slot is reserved -/
  | link {s t i p rem f' v c k} (h : s.g.ph t = .initing (.link i p rem)) (hs : CoL.Step N (t + 1) (s.f p.1) f')
      (ha : f'.pcs (t + 1) = .pAsg v c k) :
      Step cfg N excl s { s with
        g := { s.g with
          ph := upd s.g.ph t (.initing (.incr i p rem))
          fol := upd s.g.fol p.1 (.pre t :: s.g.fol p.1)
          pnd := upd s.g.pnd p.1 (.pre t :: s.g.pnd p.1) }
        f := upd s.f p.1 f' }
  /-- graph.cpp:80, event.cpp:74: a slot is reserved -/
  | parentPush {s t q f' v c k} (h : s.g.ph t = .initing .parent) (hp : cfg.parentOf t = some q)
      (hs : CoL.Step N (t + 1) (s.f t) f') (ha : f'.pcs (t + 1) = .pAsg v c k) :
      Step cfg N excl s { s with
        g := { s.g with
          ph := upd s.g.ph t (.initing (.pincr q))
          fol := upd s.g.fol t (.post q :: s.g.fol t)
          pnd := upd s.g.pnd t (.post q :: s.g.pnd t) }
        f := upd s.f t f' }
  /-- event.cpp:74: the value is stored -/
  | fassign {s t q f' v c k} (h : target' s.g t = some q) (ha : (s.f q).pcs (t + 1) = .pAsg v c k)
      (hs : CoL.Step N (t + 1) (s.f q) f') : Step cfg N excl s { s with f := upd s.f q f' }
  /-- event.cpp:75, graph.cpp:69-70 -/
  | incr {s t i p rem r l'} (h : s.g.ph t = .initing (.incr i p rem)) (hr : (cfg.res t)[i]? = some r)
      (hd : (s.f p.1).pcs (t + 1) = .idle) (ha : if cfg.sync p.1 r then l' = s.l r else Adv N (s.l r) l') :
      Step cfg N excl s { s with
        g := { s.g with
          ph := upd s.g.ph t (.initing (if cfg.sync p.1 r then .unlock i else .scan i rem))
          pre := upd s.g.pre t (s.g.pre t + 1) }
        l := upd s.l r l' }
  /-- event.cpp:75 -/
  | parentIncr {s t q} (h : s.g.ph t = .initing (.pincr q)) (hd : (s.f t).pcs (t + 1) = .idle) :
      Step cfg N excl s { s with
        g := { s.g with ph := upd s.g.ph t (.initing .final), post := upd s.g.post q (s.g.post q + 1) } }
  /-- graph.cpp:58 -/
  | scanEnd {s t i rem r} (h : s.g.ph t = .initing (.scan i rem)) (hr : (cfg.res t)[i]? = some r)
      (he : (s.l r).pcs 0 = .iEnd) :
      Step cfg N excl s { s with g := { s.g with ph := upd s.g.ph t (.initing (.unlock i)) } }
  /-- graph.cpp:73: the iterator goes out of scope, the lock is released -/
  | unlock {s t i r l'} (h : s.g.ph t = .initing (.unlock i)) (hr : (cfg.res t)[i]? = some r)
      (hs : CoL.Step N 0 (s.l r) l') (hd : l'.pcs 0 = .idle) :
      Step cfg N excl s { s with
        g := { s.g with ph := upd s.g.ph t (.initing (.next (i + 1))), lock := upd s.g.lock r none }
        l := upd s.l r l'
        lk := upd s.lk r none }
  /-- graph.cpp:91-94: the lock is acquired, `remove` is called -/
  | delete {s t i r l'} (h : s.g.fl t = .deleting i) (hr : (cfg.res t)[i]? = some r) (hl : s.lk r = none)
      (hn : ∀ r' ∈ cfg.res t, s.lk r' ≠ some t) (h0 : (s.l r).pcs 0 = .idle) (hs : CoL.Step N 0 (s.l r) l')
      (h1 : l'.pcs 0 = .rRead (s.ent (t, i))) :
      Step cfg N excl s { s with
        g := { s.g with
          fl := upd s.g.fl t (.deleting (i + 1)), users := upd s.g.users r ((s.g.users r).erase (t, i)) }
        l := upd s.l r l'
        lk := upd s.lk r (some t) }
  /-- graph.cpp:94-95: a step of `remove`; the lock is released at the end -/
  | remove {s t r l'} (hl : s.lk r = some t) (hm : CoL.removing ((s.l r).pcs 0) = true) (hs : CoL.Step N 0 (s.l r) l') :
      Step cfg N excl s { s with
        l := upd s.l r l', lk := if l'.pcs 0 = .idle then upd s.lk r none else s.lk }
  /-- event.cpp:165, 91: `rbegin()` -/
  | notifyBegin {s t i f'} (h : s.g.fl t = .deleting i) (hr : i = (cfg.res t).length) (hn : ∀ r ∈ cfg.res t, s.lk r ≠ some t)
      (h0 : (s.f t).pcs 0 = .idle) (hs : CoL.Step N 0 (s.f t) f')
      (h1 : f'.pcs 0 = .iEnd ∨ ∃ c, f'.pcs 0 = .iLast c) :
      Step cfg N excl s { s with
        g := { s.g with fl := upd s.g.fl t (.notifying (s.g.fol t)) }
        f := upd s.f t f' }
  /-- event.cpp:91: a step of the iterator to the next element -/
  | notifyMove {s t rem f'} (h : s.g.fl t = .notifying rem) (hm : CoL.moving ((s.f t).pcs 0) = true)
      (hs : CoL.Step N 0 (s.f t) f') : Step cfg N excl s { s with f := upd s.f t f' }
  /-- event.cpp:92, 91 -/
  | notifyPre {s p t rem x f'} (h : s.g.fl p = .notifying rem) (ho : CoL.on ((s.f p).pcs 0) = some x)
      (hv : (s.f p).val x = some (code (.pre t))) (ha : Adv N (s.f p) f') :
      Step cfg N excl s { s with
        g := decPre { s.g with fl := upd s.g.fl p (.notifying rem.tail), pnd := upd s.g.pnd p (s.g.pnd p).tail } t
        f := upd s.f p f' }
  /-- event.cpp:92, 91 -/
  | notifyPost {s p q rem x f'} (h : s.g.fl p = .notifying rem) (ho : CoL.on ((s.f p).pcs 0) = some x)
      (hv : (s.f p).val x = some (code (.post q))) (ha : Adv N (s.f p) f') :
      Step cfg N excl s { s with
        g := decPost { s.g with fl := upd s.g.fl p (.notifying rem.tail), pnd := upd s.g.pnd p (s.g.pnd p).tail } q
        f := upd s.f p f' }
  /-- event.cpp:91: the end of the list -/
  | notifyEnd {s t rem f'} (h : s.g.fl t = .notifying rem) (he : (s.f t).pcs 0 = .iEnd) (hs : CoL.Step N 0 (s.f t) f')
      (hd : f'.pcs 0 = .idle) :
      Step cfg N excl s { s with
        g := { s.g with fl := upd s.g.fl t .counting }
        f := upd s.f t f' }

inductive Reach (cfg : Cfg) (N : Nat) (excl : Bool) : State → Prop
  | init : Reach cfg N excl init
  | step {s s'} : Reach cfg N excl s → Step cfg N excl s s' → Reach cfg N excl s'

inductive Steps (cfg : Cfg) (N : Nat) (excl : Bool) (s : State) : State → Prop
  | refl : Steps cfg N excl s s
  | step {s' s''} : Steps cfg N excl s s' → Step cfg N excl s' s'' → Steps cfg N excl s s''

end RG.GList
