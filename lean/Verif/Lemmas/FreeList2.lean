import Verif.Lemmas.FreeList
/-
Runs of the pool of blocks: an executor for examples, and a thread that runs alone.
-/
namespace RG.FL

inductive Act
  | requisition
  | give (n : Nat)
  | alloc (n : Nat)
  | go

/-- the step of thread `c` where it is determined by the state -/
def go (P c : Nat) (s : State) : Option State :=
  match s.pc c with
  | .idx0 => some { s with pc := upd s.pc c (if P ≤ s.idx then .gLoad else .idx1) }
  | .idx1 => some { s with
      idx := s.idx + 1
      pc := upd s.pc c (if s.idx < P then .ret s.idx else .gLoad)
      st := if s.idx < P then upd s.st s.idx (.taken c) else s.st }
  | .gLoad => some { s with pc := upd s.pc c (loop s.head) }
  | .gRefs n => some { s with pc := upd s.pc c (if (s.refs n).cnt = 0 then .gLoad else .gInc n (s.refs n)) }
  | .gInc n r =>
    if s.refs n = r then some { s with
        pc := upd s.pc c (.gNext n)
        refs := upd s.refs n ⟨(s.refs n).cnt + 1, (s.refs n).flag⟩
        rs := upd s.rs n (c :: s.rs n) }
    else some { s with pc := upd s.pc c .gLoad }
  | .gNext n => some { s with pc := upd s.pc c (.gCas n (s.next n)) }
  | .gCas n nx =>
    if s.head = some n then some { s with
        head := nx
        pc := upd s.pc c (.gAss n)
        list := s.list.tail
        st := upd s.st n (.taken c) }
    else some { s with pc := upd s.pc c (.gDec n s.head) }
  | .gAss n => some { s with pc := upd s.pc c (if (s.refs n).flag then .fault else .gSub n) }
  | .gSub n => some { s with
        pc := upd s.pc c (if (s.refs n).cnt < 2 then .fault else .ret n)
        refs := upd s.refs n ⟨(s.refs n).cnt - 2, (s.refs n).flag⟩
        rs := upd s.rs n ((s.rs n).erase c) }
  | .gDec n hd => some { s with
        pc := upd s.pc c (if (s.refs n).cnt < 1 then .fault else if s.refs n = ⟨1, true⟩ then .kLoad n (some hd) else loop hd)
        refs := upd s.refs n ⟨(s.refs n).cnt - 1, (s.refs n).flag⟩
        rs := upd s.rs n ((s.rs n).erase c)
        st := if s.refs n = ⟨1, true⟩ then upd s.st n (.ak c) else s.st }
  | .ret n => some { s with
        pc := upd s.pc c .out
        own := upd s.own n true
        st := upd s.st n .held }
  | .destroy n => some { s with
        pc := upd s.pc c .out
        alive := upd s.alive n false
        st := upd s.st n .unused }
  | .aSet n => some { s with
        pc := upd s.pc c (if (s.refs n).flag then .fault else if (s.refs n).cnt = 0 then .kLoad n none else .out)
        refs := upd s.refs n ⟨(s.refs n).cnt, true⟩
        st := upd s.st n (if (s.refs n).cnt = 0 then .ak c else .pending) }
  | .kLoad n k => some { s with pc := upd s.pc c (.kNext n s.head k) }
  | .kNext n hd k => some { s with
        pc := upd s.pc c (.kRefs n hd k)
        next := upd s.next n hd }
  | .kRefs n hd k => some { s with
        pc := upd s.pc c (.kCas n hd k)
        refs := upd s.refs n ⟨1, false⟩ }
  | .kCas n hd k =>
    if s.head = hd then some { s with
        head := some n
        pc := upd s.pc c (cont k)
        list := n :: s.list
        st := upd s.st n .listed }
    else some { s with pc := upd s.pc c (.kFail n s.head k) }
  | .kFail n hd k => some { s with
        pc := upd s.pc c (if (s.refs n).cnt = 0 ∨ (s.refs n).flag then .fault else if (s.refs n).cnt = 1 then .kNext n hd k else cont k)
        refs := upd s.refs n ⟨(s.refs n).cnt - 1, true⟩
        st := if (s.refs n).cnt = 1 then s.st else upd s.st n .pending }
  | _ => none

def ex (P c : Nat) : Act → State → Option State
  | .requisition, s => if s.pc c = .out then some { s with pc := upd s.pc c .idx0 } else none
  | .give n, s =>
    if s.pc c = .out ∧ s.own n = true then some { s with
        pc := upd s.pc c (if P ≤ n then .destroy n else .aSet n)
        own := upd s.own n false
        st := upd s.st n (.given c) }
    else none
  | .alloc n, s =>
    if s.pc c = .heap ∧ P ≤ n ∧ s.alive n = false then some { s with
        pc := upd s.pc c (.ret n)
        alive := upd s.alive n true
        refs := upd s.refs n ⟨0, false⟩
        next := upd s.next n none
        st := upd s.st n (.taken c) }
    else none
  | .go, s => go P c s

theorem go_step {P c s s'} (h : go P c s = some s') : Step P c s s' := by
  cases hp : s.pc c <;> simp only [go, hp] at h
  case idx0 => cases h; exact .ldIdx hp
  case idx1 => cases h; exact .incIdx hp
  case gLoad => cases h; exact .ldHead hp
  case gRefs => cases h; exact .ldRefs hp
  case gInc =>
    split at h
    · cases h; exact .casInc hp (by assumption)
    · cases h; exact .casIncFail hp (by assumption)
  case gNext => cases h; exact .ldNext hp
  case gCas =>
    split at h
    · cases h; exact .casHead hp (by assumption)
    · cases h; exact .casHeadFail hp (by assumption)
  case gAss => cases h; exact .assertion hp
  case gSub => cases h; exact .sub hp
  case gDec => cases h; exact .dec hp
  case aSet => cases h; exact .add hp
  case kLoad => cases h; exact .kLoad hp
  case kNext => cases h; exact .kNext hp
  case kRefs => cases h; exact .kRefs hp
  case kCas =>
    split at h
    · cases h; exact .kCas hp (by assumption)
    · cases h; exact .kCasFail hp (by assumption)
  case kFail => cases h; exact .kFail hp
  case destroy => cases h; exact .destroy hp
  case ret => cases h; exact .ret hp
  all_goals exact nomatch h

theorem ex_step {P c a s s'} (h : ex P c a s = some s') : Step P c s s' := by
  cases a with
  | requisition => simp only [ex] at h; split at h <;> cases h; exact .requisition (by assumption)
  | give n => simp only [ex] at h; split at h <;> cases h; rename_i h; exact .give h.1 n h.2
  | alloc n => simp only [ex] at h; split at h <;> cases h; rename_i h; exact .alloc h.1 n h.2.1 h.2.2
  | go => exact go_step h

def run (P : Nat) : List (Nat × Act) → State → Option State
  | [], s => some s
  | (c, a) :: l, s => (ex P c a s).bind (run P l)

theorem run_reach {P l s s'} (hr : Reach P s) (h : run P l s = some s') : Reach P s' := by
  induction l generalizing s with
  | nil => cases h; exact hr
  | cons x l ih =>
    obtain ⟨c, a⟩ := x
    simp only [run] at h
    cases he : ex P c a s with
    | none => rw [he] at h; exact nomatch h
    | some t => rw [he] at h; exact ih (.step c hr (ex_step he)) h

/-- The final state of a run; the initial state, if an action is not possible. -/
def final (P : Nat) (l : List (Nat × Act)) : State := (run P l init).getD init

theorem final_reach (P l) : Reach P (final P l) := by
  unfold final
  cases h : run P l init with
  | none => exact .init
  | some s => exact run_reach .init h

end RG.FL
