import Verif.Model.ConcList
/-
Concrete executions of the lists, used for examples and counterexamples: the step that is taken next by a thread is
determined by the state, once the thread has begun with an operation.
-/
namespace RG.AL

inductive Op
  | alloc
  | first
  | rbegin
  | copy (c : Nat)
  | go
  | drop

def exec (s : State) (t : Nat) : Op → Option State
  | .alloc => match s.pcs t with
    | .idle => some { s with nalloc := s.nalloc + 1, pcs := upd s.pcs t (.appLoad s.nalloc) }
    | _ => none
  | .first => match s.pcs t with
    | .idle => some { s with nalloc := s.nalloc + 1, pcs := upd s.pcs t (.firstCas s.nalloc) }
    | _ => none
  | .rbegin => match s.pcs t with
    | .idle => match s.head with
      | some c => some { s with pcs := upd s.pcs t (.at c), start := upd s.start t s.len, vis := upd s.vis t [c] }
      | none => some { s with pcs := upd s.pcs t .atEnd, start := upd s.start t s.len, vis := upd s.vis t [] }
    | _ => none
  | .copy c => match s.pcs t with
    | .idle => match s.rank c with
      | some r => some { s with pcs := upd s.pcs t (.at c), start := upd s.start t (r + 1), vis := upd s.vis t [c] }
      | none => none
    | _ => none
  | .go => match s.pcs t with
    | .appLoad n => some { s with pcs := upd s.pcs t (.appStore n s.head) }
    | .appStore n o => some { s with prev := upd s.prev n o, pcs := upd s.pcs t (.appCas n o) }
    | .appCas n o =>
      if s.head = o then some { s with
        head := some n, pcs := upd s.pcs t .idle, len := s.len + 1, rank := upd s.rank n (some s.len) }
      else some { s with pcs := upd s.pcs t (.appLoad n) }
    | .firstCas n =>
      if s.head = none then some { s with
        head := some n, pcs := upd s.pcs t .idle, len := s.len + 1, rank := upd s.rank n (some s.len) }
      else some { s with pcs := upd s.pcs t .idle }
    | .at c => some { s with pcs := upd s.pcs t (.skipLoad c) }
    | .skipLoad c => some { s with pcs := upd s.pcs t (.skipTest c (s.prev c)) }
    | .skipTest c (some q) =>
      if s.deleted q = true then some { s with pcs := upd s.pcs t (.skipNext c q) }
      else some { s with pcs := upd s.pcs t (.skipStore c (some q)) }
    | .skipTest c none => some { s with pcs := upd s.pcs t (.skipStore c none) }
    | .skipNext c q => some { s with pcs := upd s.pcs t (.skipTest c (s.prev q)) }
    | .skipStore c p => some { s with prev := upd s.prev c p, pcs := upd s.pcs t (.advance c) }
    | .advance c => match s.prev c with
      | some q => some { s with pcs := upd s.pcs t (.at q), vis := upd s.vis t (q :: s.vis t) }
      | none => some { s with pcs := upd s.pcs t .atEnd }
    | _ => none
  | .drop => match s.pcs t with
    | .at _ | .atEnd => some { s with pcs := upd s.pcs t .idle }
    | _ => none

theorem exec_step {s s' : State} {t : Nat} {o : Op} (h : exec s t o = some s') : Step t s s' := by
  cases o with
  | alloc => simp only [exec] at h; split at h <;> cases h; exact .alloc (by assumption)
  | first => simp only [exec] at h; split at h <;> cases h; exact .allocFirst (by assumption)
  | rbegin =>
    simp only [exec] at h; split at h
    · split at h <;> cases h
      · exact .rbegin (by assumption) (by assumption)
      · exact .rbeginEnd (by assumption) (by assumption)
    · cases h
  | copy c =>
    simp only [exec] at h; split at h
    · split at h <;> cases h
      exact .copy (by assumption) (by assumption)
    · cases h
  | go =>
    simp only [exec] at h
    split at h
    · cases h; exact .load (by assumption)
    · cases h; exact .store (by assumption)
    · split at h <;> cases h
      · exact .casOk (by assumption) (by assumption)
      · exact .casFail (by assumption) (by assumption)
    · split at h <;> cases h
      · exact .firstOk (by assumption) (by assumption)
      · exact .firstFail (by assumption) (by assumption)
    · cases h; exact .next (by assumption)
    · cases h; exact .skipLoad (by assumption)
    · split at h <;> cases h
      · exact .testDeleted (by assumption) (by assumption)
      · rename_i hd; exact .testNot (by assumption) (by simpa using hd)
    · cases h; exact .testNull (by assumption)
    · cases h; exact .skipNext (by assumption)
    · cases h; exact .skipStore (by assumption)
    · split at h <;> cases h
      · exact .advance (by assumption) (by assumption)
      · exact .advanceEnd (by assumption) (by assumption)
    · cases h
  | drop =>
    simp only [exec] at h; split at h <;> cases h
    · exact .drop (by assumption)
    · exact .dropEnd (by assumption)

end RG.AL

namespace RG.CoL

inductive Op
  | push (v : Nat)
  | remove (x : Slot)
  | begin
  | copy (x : Slot)
  | go
  | stop

def execGo (N : Nat) (s : State) (t : Nat) : Option State :=
  match s.pcs t with
  | .pLoad v => match s.al.head with
    | some c => some { s with pcs := upd s.pcs t (.pNext v c) }
    | none => match AL.exec s.al t .first with
      | some a => match a.pcs t with
        | .firstCas _ => some { s with al := a, pcs := upd s.pcs t (.pFirst v) }
        | _ => none
      | none => none
  | .pFirst v => match AL.exec s.al t .go with
    | some a =>
      if a.pcs t ≠ s.al.pcs t then
        some { s with al := a, pcs := upd s.pcs t (if a.pcs t = .idle then .pLoad v else .pFirst v) }
      else none
    | none => none
  | .pNext v c =>
    if N < s.nxt c then some { s with pcs := upd s.pcs t (.pLoad v) } else some { s with pcs := upd s.pcs t (.pAdd v c) }
  | .pAdd v c =>
    if s.nxt c < N then some { s with nxt := upd s.nxt c (s.nxt c + 1), pcs := upd s.pcs t (.pAsg v c (s.nxt c)) }
    else if s.nxt c = N then match AL.exec s.al t .alloc with
      | some a => match a.pcs t with
        | .appLoad _ => some { s with
            al := a, nxt := upd s.nxt c (s.nxt c + 1), allocs := upd s.allocs c (s.allocs c + 1)
            pcs := upd s.pcs t (.pAlloc v c) }
        | _ => none
      | none => none
    else some { s with nxt := upd s.nxt c (s.nxt c + 1), pcs := upd s.pcs t (.pLoad v) }
  | .pAlloc v c => match AL.exec s.al t .go with
    | some a =>
      if a.pcs t ≠ s.al.pcs t then
        some { s with al := a, pcs := upd s.pcs t (if a.pcs t = .idle then .pLoad v else .pAlloc v c) }
      else none
    | none => none
  | .pAsg v c i => some { s with
      val := upd s.val (c, i) (some v), off := upd s.off (c, i) 0, log := ((c, i), v) :: s.log
      pcs := upd s.pcs t .idle }
  | .rRead (c, 0) => some { s with pcs := upd s.pcs t (.rWrite (c, 0) 1) }
  | .rRead (c, i + 1) => some { s with
      hid := if s.val (c, i) = none then upd s.hid (c, i) true else s.hid
      pcs := upd s.pcs t (.rWrite (c, i + 1) (s.off (c, i) + 1)) }
  | .rWrite x d => some { s with off := upd s.off x d, pcs := upd s.pcs t (.rFree x) }
  | .rFree x => some { s with
      fre := upd s.fre x true, freed := upd s.freed x.1 (s.freed x.1 + 1)
      pcs := upd s.pcs t (if s.freed x.1 = N - 1 then .rDel x.1 else .idle) }
  | .rDel c => match s.al.rank c with
    | some _ => some { s with al := { s.al with deleted := upd s.al.deleted c true }, pcs := upd s.pcs t .idle }
    | none => none
  | .iLast c =>
    if 0 < s.nxt c then some { s with pcs := upd s.pcs t (.iAt c (min (s.nxt c - 1) (N - 1))) }
    else some { s with pcs := upd s.pcs t .iEnd }
  | .iAt c p =>
    if s.off (c, p) = 0 then some { s with pcs := upd s.pcs t (.iCand c p) }
    else if s.off (c, p) ≤ p then some { s with pcs := upd s.pcs t (.iAt c (p - s.off (c, p))) }
    else match AL.exec s.al t .go with
      | some a => if a.pcs t = .skipLoad c then some { s with al := a, pcs := upd s.pcs t (.iHop c) } else none
      | none => none
  | .iCand c p => some { s with seen := upd s.seen t ((c, p) :: s.seen t), pcs := upd s.pcs t (.iOn c p) }
  | .iOn c (p + 1) => some { s with pcs := upd s.pcs t (.iAt c p) }
  | .iOn c 0 => match AL.exec s.al t .go with
      | some a => if a.pcs t = .skipLoad c then some { s with al := a, pcs := upd s.pcs t (.iHop c) } else none
      | none => none
  | .iHop c => match AL.exec s.al t .go with
    | some a => if a.pcs t ≠ s.al.pcs t then some { s with al := a, pcs := upd s.pcs t (arrive c (a.pcs t)) } else none
    | none => none
  | _ => none

theorem execGo_step {N : Nat} {s s' : State} {t : Nat} (h : execGo N s t = some s') : Step N t s s' := by
  unfold execGo at h
  split at h
  · split at h
    · cases h; exact .load (by assumption) (by assumption)
    · split at h
      · split at h
        · cases h; exact .loadNull (by assumption) (by assumption) (AL.exec_step (by assumption)) (by assumption)
        · cases h
      · cases h
  · split at h
    · split at h
      · cases h; exact .first (by assumption) (AL.exec_step (by assumption)) (by assumption)
      · cases h
    · cases h
  · split at h <;> cases h
    · exact .full (by assumption) (by assumption)
    · exact .room (by assumption) (by omega)
  · split at h
    · cases h; exact .slot (by assumption) (by assumption)
    · split at h
      · split at h
        · split at h
          · cases h; exact .over (by assumption) (by assumption) (AL.exec_step (by assumption)) (by assumption)
          · cases h
        · cases h
      · cases h; exact .late (by assumption) (by omega)
  · split at h
    · split at h
      · cases h; exact .alloc (by assumption) (AL.exec_step (by assumption)) (by assumption)
      · cases h
    · cases h
  · cases h; exact .assign (by assumption)
  · cases h; exact .readFirst (by assumption)
  · cases h; exact .readPred (by assumption)
  · cases h; exact .write (by assumption)
  · cases h; exact .free (by assumption)
  · split at h <;> cases h
    exact .del (by assumption) (by assumption)
  · split at h <;> cases h
    · exact .last (by assumption) (by assumption)
    · exact .lastNone (by assumption) (by omega)
  · rename_i hp
    split at h
    · cases h; exact .read (by assumption) (by assumption)
    · split at h
      · cases h; exact .jump (by rw [hp]; rfl) (by omega) (by assumption)
      · split at h
        · split at h <;> cases h
          exact .jumpOut (by rw [hp]; rfl) (by omega) (AL.exec_step (by assumption)) (by assumption)
        · cases h
  · cases h; exact .visit (by assumption)
  · cases h; exact .next (by assumption)
  · split at h
    · split at h <;> cases h
      exact .nextOut (by assumption) (AL.exec_step (by assumption)) (by assumption)
    · cases h
  · split at h
    · split at h
      · cases h; exact .hop (by assumption) (AL.exec_step (by assumption)) (by assumption)
      · cases h
    · cases h
  · cases h

def exec (N : Nat) (s : State) (t : Nat) : Op → Option State
  | .push v => match s.pcs t with
    | .idle => some { s with pcs := upd s.pcs t (.pLoad v) }
    | _ => none
  | .remove x => match s.pcs t with
    | .idle =>
      if s.val x ≠ none ∧ s.removed x = false then
        some { s with removed := upd s.removed x true, pcs := upd s.pcs t (.rRead x) }
      else none
    | _ => none
  | .begin => match s.pcs t with
    | .idle => match AL.exec s.al t .rbegin with
      | some a => match a.pcs t with
        | .at c =>
          if a.start t = s.al.len then some { s with
            al := a, snap := upd s.snap t (fun x => (s.val x).isSome), seen := upd s.seen t []
            empt := upd s.empt t (decide (s.nxt c = 0)), pcs := upd s.pcs t (.iLast c) }
          else none
        | .atEnd => some { s with
            al := a, snap := upd s.snap t (fun x => (s.val x).isSome), seen := upd s.seen t []
            empt := upd s.empt t false, pcs := upd s.pcs t .iEnd }
        | _ => none
      | none => none
    | _ => none
  | .copy (c, p) => match s.pcs t with
    | .idle => match s.al.rank c with
      | some r => match AL.exec s.al t (.copy c) with
        | some a =>
          if s.val (c, p) ≠ none ∧ a.pcs t = .at c ∧ a.start t = r + 1 then some { s with
            al := a, snap := upd s.snap t (fun x => (s.val x).isSome && before s.al (c, p) x), seen := upd s.seen t []
            empt := upd s.empt t false, pcs := upd s.pcs t (.iAt c p) }
          else none
        | none => none
      | none => none
    | _ => none
  | .go => execGo N s t
  | .stop => match AL.exec s.al t .drop with
    | some a =>
      if ((on (s.pcs t)).isSome = true ∨ s.pcs t = .iEnd) ∧ a.pcs t = .idle then
        some { s with al := a, pcs := upd s.pcs t .idle }
      else none
    | none => none

theorem exec_step {N : Nat} {s s' : State} {t : Nat} {o : Op} (h : exec N s t o = some s') : Step N t s s' := by
  cases o with
  | push v => simp only [exec] at h; split at h <;> cases h; exact .push _ (by assumption)
  | remove x =>
    simp only [exec] at h; split at h
    · split at h <;> cases h
      rename_i h1
      exact .remove (by assumption) h1.1 h1.2
    · cases h
  | begin =>
    simp only [exec] at h; split at h
    · split at h
      · split at h
        · split at h <;> cases h
          exact .begin (by assumption) (AL.exec_step (by assumption)) (by assumption) (by assumption)
        · cases h; exact .beginNull (by assumption) (AL.exec_step (by assumption)) (by assumption)
        · cases h
      · cases h
    · cases h
  | copy x =>
    simp only [exec] at h; split at h
    · split at h
      · split at h
        · split at h <;> cases h
          rename_i h1
          exact .copy (by assumption) h1.1 (AL.exec_step (by assumption)) h1.2.1 (by assumption) h1.2.2
        · cases h
      · cases h
    · cases h
  | go => exact execGo_step h
  | stop =>
    simp only [exec] at h; split at h
    · split at h <;> cases h
      rename_i h1
      exact .stop h1.1 (AL.exec_step (by assumption)) h1.2
    · cases h

end RG.CoL
