import Verif.Lemmas.RealQueue3
import Verif.Lemmas.TaskQueue5
/-
Lemmas for C89: an executor for concrete runs.
-/
set_option linter.unusedVariables false
namespace RG.RQ

variable {B C n : Nat} {s s' : State}

/-- the next step of consumer `c` in `try_dequeue` -/
def exQ (B c : Nat) (u : Queue) : Option Queue :=
  match u.con c with
  | .scan => some { u with con := upd u.con c (.size u.list 0 none) }
  | .size [] 0 _ => some { u with con := upd u.con c (.ret none) }
  | .size [] (_ + 1) (some (p, _)) =>
    if (u.q.subs p).cons c = .out then some { u with q := ⟨upd u.q.subs p ((u.q.subs p).at c .start), u.q.mem⟩, con := upd u.con c (.first p) } else none
  | .size (p :: rest) n best => if n < 3 then some { u with con := upd u.con c (.sizeH p rest n best (u.q.subs p).tail) } else none
  | .sizeH p rest n best t => some { u with con := upd u.con c (
        if 0 < sizeApprox t (u.q.subs p).head then .size rest (n + 1) (better p (sizeApprox t (u.q.subs p).head) best)
        else .size rest n best) }
  | .scan2 b => some { u with con := upd u.con c (.next b u.list) }
  | .next b [] => some { u with con := upd u.con c (.ret none) }
  | .next b (p :: rest) => if p = b then some { u with con := upd u.con c (.next b rest) } else none
  | .first p =>
    match MQ.exC B c (u.q.subs p) u.q.mem with
    | none => none
    | some r => match (u.q.subs p).cons c with
      | .ret (some (_, x)) => if r.1.cons c = .out then some { u with q := ⟨upd u.q.subs p r.1, r.2⟩, con := upd u.con c (.ret (some x)) } else none
      | .ret none => if r.1.cons c = .out then some { u with q := ⟨upd u.q.subs p r.1, r.2⟩, con := upd u.con c (u.con c).miss } else none
      | pc => if pc ≠ r.1.cons c ∧ r.1.cons c ≠ .out then some { u with q := ⟨upd u.q.subs p r.1, r.2⟩ } else none
  | _ => none

theorem exQ_sound {c : Nat} {u u' : Queue} (h : exQ B c u = some u') : QStep B c u u' := by
  unfold exQ at h
  split at h
  case h_1 hc => cases h; exact .scan hc
  case h_2 hc => cases h; exact .empty hc rfl
  case h_3 hc =>
    split at h <;> rename_i ho <;> cases h
    exact .first hc (.inl rfl) (.mk (.call c ho)) ho (by simp only [upd_same, MQ.Sub.at])
  case h_4 hc =>
    split at h <;> rename_i ho <;> cases h
    exact .sizeT hc ho
  case h_5 hc => cases h; exact .sizeH hc
  case h_6 hc => cases h; exact .scan2 hc
  case h_7 hc => cases h; exact .last hc
  case h_8 hc =>
    split at h <;> rename_i ho <;> cases h
    subst ho
    exact .skip hc
  case h_9 p hc =>
    split at h
    · cases h
    · rename_i r hr
      have hsub : (u.con c).sub = some p := by rw [hc]; rfl
      have hs : MQ.Step B p u.q ⟨upd u.q.subs p r.1, r.2⟩ := .mk (MQ.exC_sound hr)
      split at h
      · rename_i hq
        split at h <;> rename_i ho <;> cases h
        exact .found hsub hs hq (by simp only [upd_same]; exact ho)
      · rename_i hq
        split at h <;> rename_i ho <;> cases h
        exact .miss hsub hs hq (by simp only [upd_same]; exact ho)
      · rename_i hq
        split at h <;> rename_i ho <;> cases h
        exact .inner hsub hs (by simp only [upd_same]; exact ho.1) (by simp only [upd_same]; exact ho.2)
  case h_10 => cases h

/-- the next step of `cv.wait()`; always the timeout is over -/
def exWait (c : Cv.State) : Option Cv.State :=
  match c.ws 0 with
  | .check => some (if c.flag = true then { c with ws := upd c.ws 0 .check2 } else { c with ws := upd c.ws 0 .store })
  | .check2 => if c.flag = true then some { c with ws := upd c.ws 0 .lockM } else none
  | .lockM => if c.mutex = none then some { c with ws := upd c.ws 0 .pred, mutex := some (.waiter 0) } else none
  | .pred => if c.flag = true then some { c with ws := upd c.ws 0 .asleep, mutex := none } else some { c with ws := upd c.ws 0 .unlockM }
  | .unlockM => some { c with ws := upd c.ws 0 .check, mutex := none }
  | .waking => if c.mutex = none then some { c with ws := upd c.ws 0 .pred, mutex := some (.waiter 0) } else none
  | .store => some { c with flag := true, ws := upd c.ws 0 .out, pend := false, rets := upd c.rets 0 (c.rets 0 + 1) }
  | _ => none

theorem exWait_sound {c c' : Cv.State} (h : exWait c = some c') : Cv.Step (.wait 0) c c' := by
  unfold exWait at h
  split at h
  case h_1 hc =>
    split at h <;> rename_i ho <;> cases h
    · exact .timeout hc ho
    · exact .leave hc (by simpa using ho)
  case h_2 hc =>
    split at h <;> rename_i ho <;> cases h
    exact .check2T hc ho
  case h_3 hc =>
    split at h <;> rename_i ho <;> cases h
    exact .lockM hc ho
  case h_4 hc =>
    split at h <;> rename_i ho <;> cases h
    · exact .sleep hc ho
    · exact .predT hc (by simpa using ho)
  case h_5 hc => cases h; exact .unlockM hc
  case h_6 hc =>
    split at h <;> rename_i ho <;> cases h
    exact .relock hc ho
  case h_7 hc => cases h; exact .store hc
  case h_8 => cases h

/-- the next step of `cv.notify()` -/
def exNotify (j : Nat) (c : Cv.State) : Option Cv.State :=
  match c.ns j with
  | .cas => some { c with flag := false, ns := upd c.ns j .lockM, pend := true }
  | .lockM => if c.mutex = none then some { c with ns := upd c.ns j .notifyAll, mutex := some (.notifier j) } else none
  | .notifyAll => some { c with ns := upd c.ns j .unlockM, ws := fun i => Cv.wakeUp (c.ws i) }
  | .unlockM => some { c with ns := upd c.ns j .out, mutex := none }
  | .out => none

theorem exNotify_sound {j : Nat} {c c' : Cv.State} (h : exNotify j c = some c') : Cv.Step (.notify j) c c' := by
  unfold exNotify at h
  split at h
  case h_1 hc => cases h; exact .cas hc
  case h_2 hc =>
    split at h <;> rename_i ho <;> cases h
    exact .nLockM hc ho
  case h_3 hc => cases h; exact .notifyAll hc
  case h_4 hc => cases h; exact .nUnlockM hc
  case h_5 => cases h

/-- the next step of worker `w` of `n` workers; every task is ready after its initialisation -/
def exW (B n w : Nat) (s : State) : Option State :=
  match s.pc w with
  | .top => some { s with pc := upd s.pc w .enter, busy := upd s.busy w false }
  | .enter => if (s.cv w).ws 0 = .out then
      some { s with pc := upd s.pc w .waiting, cv := upd s.cv w { s.cv w with ws := upd (s.cv w).ws 0 .check } } else none
  | .waiting => if (s.cv w).ws 0 = .out then some (s.call w w true (.pop true)) else
      match exWait (s.cv w) with
      | none => none
      | some c => some { s with cv := upd s.cv w c }
  | .pop k => match (s.qs w k).con w with
      | .ret (some t) => some (s.leave w w k (if k then .start t else .initing t))
      | .ret none => some (if k then (s.leaveOwn w true False (.pop false)).call w w false (.pop false) else s.leaveOwn w false False .avail)
      | _ => match exQ B w (s.qs w k) with
        | none => none
        | some u => some { s with qs := upd2 s.qs w k u }
  | .initing t => some { s with pc := upd s.pc w (.start t) }
  | .avail => some { s with pc := upd s.pc w (.probe true []), busy := upd s.busy w false }
  | .probe k seen => if seen.length < n ∧ seen.length ∉ seen then
      some (if s.busy seen.length = true then s.call w seen.length k (.look k seen.length (seen.length :: seen)) else { s with pc := upd s.pc w (.probe k (seen.length :: seen)) })
    else if ∀ v, v < n → v ∈ seen then some { s with pc := upd s.pc w (if k then .probe false [] else .top) } else none
  | .look k v seen => match (s.qs v k).con w with
      | .ret (some t) => some (s.leave w v k (if k then .got t else .initStolen t))
      | .ret none => if v = w then none else some ((s.leave w v k (.lookOwn k seen)).call w w k (.lookOwn k seen))
      | _ => match exQ B w (s.qs v k) with
        | none => none
        | some u => some { s with qs := upd2 s.qs v k u }
  | .lookOwn k seen => match (s.qs w k).con w with
      | .ret none => some (s.leaveOwn w k True (.probe k seen))
      | .ret (some _) => none
      | _ => match exQ B w (s.qs w k) with
        | none => none
        | some u => some { s with qs := upd2 s.qs w k u }
  | .start t => some { s with pc := upd s.pc w (.executing t), busy := upd s.busy w true }
  | .executing _ => some (s.call w w true (.pop true))
  | _ => none

theorem exW_sound {w : Nat} (h : exW B n w s = some s') : WStep B n w s s' := by
  unfold exW at h
  split at h
  case h_1 hc => cases h; exact .avail1 hc
  case h_2 hc =>
    split at h <;> rename_i ho <;> cases h
    exact .enter hc (.waitCall ho)
  case h_3 hc =>
    split at h <;> rename_i ho
    · cases h; exact .woken hc ho
    · split at h <;> rename_i hx <;> cases h
      exact .wait (exWait_sound hx)
  case h_4 k hc =>
    split at h <;> rename_i ho
    · cases h
      cases k
      · exact .popNew hc ho
      · exact .popReady hc ho
    · cases h
      cases k
      · exact .noNew hc ho
      · exact .noReady hc ho
    · split at h <;> rename_i hx <;> cases h
      exact .pop (by rw [hc]; rfl) (exQ_sound hx)
  case h_5 hc => cases h; exact .initReady hc
  case h_6 hc => cases h; exact .avail2 hc
  case h_7 hc =>
    split at h <;> rename_i hv
    · cases h
      split <;> rename_i hb
      · exact .probe hc hv.1 hv.2 hb
      · exact .probeNot hc hv.1 hv.2 (by simpa using hb)
    · split at h <;> rename_i ha <;> cases h
      exact .probed hc ha
  case h_8 k v seen hc =>
    split at h <;> rename_i ho
    · cases h; exact .stolen hc ho
    · split at h <;> rename_i hv <;> cases h
      have := WStep.notStolen (B := B) (n := n) hc ho
      rw [if_neg hv] at this
      exact this
    · split at h <;> rename_i hx <;> cases h
      exact .pop (by rw [hc]; rfl) (exQ_sound hx)
  case h_9 k seen hc =>
    split at h <;> rename_i ho
    · cases h; exact .notOwn hc ho
    · cases h
    · split at h <;> rename_i hx <;> cases h
      exact .pop (by rw [hc]; rfl) (exQ_sound hx)
  case h_10 hc => cases h; exact .busy2 hc
  case h_11 hc => cases h; exact .executed hc
  case h_12 => cases h

/-- the next step of the thread 0, which enqueues the task `x` at worker `w` of `n` workers -/
def exJ (B n w : Nat) (k : Bool) (x : Nat) (s : State) : Option State :=
  match s.ps 0 with
  | .out => match MQ.exP B 0 x ((s.qs w k).q.subs 0) (s.qs w k).q.mem with
    | none => none
    | some r => if w < n ∧ ((s.qs w k).q.subs 0).prod = .out ∧ r.1.prod ≠ .out then
        some { s with
          ps := upd s.ps 0 (.push w k)
          qs := upd2 s.qs w k { s.qs w k with q := ⟨upd (s.qs w k).q.subs 0 r.1, r.2⟩, list := if 0 ∈ (s.qs w k).list then (s.qs w k).list else 0 :: (s.qs w k).list } }
      else none
  | .push w k => match MQ.exP B 0 0 ((s.qs w k).q.subs 0) (s.qs w k).q.mem with
    | none => none
    | some r => if r.1.prod ≠ ((s.qs w k).q.subs 0).prod then
        if r.1.prod = .out then
          some { s with qs := upd2 s.qs w k { s.qs w k with q := ⟨upd (s.qs w k).q.subs 0 r.1, r.2⟩ }, ps := upd s.ps 0 (if k then .mark w else .pushed w) }
        else some { s with qs := upd2 s.qs w k { s.qs w k with q := ⟨upd (s.qs w k).q.subs 0 r.1, r.2⟩ } }
      else none
  | .mark w => some { s with ps := upd s.ps 0 (.pushed w), busy := upd s.busy w true }
  | .pushed w => if (s.cv w).ns 0 = .out then
      some { s with ps := upd s.ps 0 (.inCv w), cv := upd s.cv w { s.cv w with ns := upd (s.cv w).ns 0 .cas } } else none
  | .inCv w => if (s.cv w).ns 0 = .out then some { s with ps := upd s.ps 0 .out } else
      match exNotify 0 (s.cv w) with
      | none => none
      | some c => some { s with cv := upd s.cv w c }

theorem exJ_sound {w x : Nat} {k : Bool} (h : exJ B n w k x s = some s') : Step B n s s' := by
  unfold exJ at h
  split at h
  case h_1 hc =>
    split at h
    · cases h
    · rename_i r hr
      split at h <;> rename_i ho <;> cases h
      exact .begin 0 (.push k ho.1 hc (.mk (MQ.exP_sound hr)) ho.2.1 (by simp only [upd_same]; exact ho.2.2))
  case h_2 w k hc =>
    split at h
    · cases h
    · rename_i r hr
      split at h <;> rename_i ho
      · split at h <;> rename_i ho' <;> cases h
        · exact .producer 0 (.pushed hc (.mk (MQ.exP_sound hr)) (by simp only [upd_same]; exact ho) (by simp only [upd_same]; exact ho'))
        · exact .producer 0 (.push hc (.mk (MQ.exP_sound hr)) (by simp only [upd_same]; exact ho) (by simp only [upd_same]; exact ho'))
      · cases h
  case h_3 hc => cases h; exact .producer 0 (.mark hc)
  case h_4 hc =>
    split at h <;> rename_i ho <;> cases h
    exact .producer 0 (.wake hc (.notifyCall ho))
  case h_5 hc =>
    split at h <;> rename_i ho
    · cases h; exact .producer 0 (.wakeDone hc ho)
    · split at h <;> rename_i hx <;> cases h
      exact .producer 0 (.notify hc (exNotify_sound hx))

/-- Of a concrete run: worker `w` goes on `m` times, or thread 0 goes on `m` times with task `x` for the queue `k` of worker `w`. -/
inductive Act
  | w (m w : Nat)
  | j (m w : Nat) (k : Bool) (x : Nat)

def runN (f : State → Option State) : Nat → State → Option State
  | 0, s => some s
  | m + 1, s => match f s with
    | none => none
    | some s' => runN f m s'

def ex (B n : Nat) (s : State) : Act → Option State
  | .w m w => if w < n then runN (exW B n w) m s else none
  | .j m w k x => runN (exJ B n w k x) m s

def run (B n : Nat) : List Act → State → Option State
  | [], s => some s
  | a :: l, s => match ex B n s a with
    | none => none
    | some s' => run B n l s'

/-- what is known of a state reached by a concrete run -/
def Ok (B C n : Nat) (s : State) : Prop := Reach B C n s ∧ ∀ j, j ≠ 0 → s.ps j = .out

theorem runN_ok {f : State → Option State} (hf : ∀ {s s'}, f s = some s' → Ok B C n s → Ok B C n s') {m : Nat} (h : runN f m s = some s') (h0 : Ok B C n s) : Ok B C n s' := by
  induction m generalizing s with
  | zero => cases h; exact h0
  | succ m ih =>
    simp only [runN] at h
    split at h <;> rename_i hx
    · cases h
    · exact ih h (hf hx h0)

theorem exW_ps {w : Nat} (h : exW B n w s = some s') : s'.ps = s.ps := by
  have := exW_sound h
  cases this <;> try rfl
  split <;> rfl

theorem exJ_ps {w x : Nat} {k : Bool} (h : exJ B n w k x s = some s') {j : Nat} (hj : j ≠ 0) : s'.ps j = s.ps j := by
  unfold exJ at h
  split at h
  case h_1 hc =>
    split at h
    · cases h
    · split at h <;> cases h
      exact upd_ne _ _ hj
  case h_2 w k hc =>
    split at h
    · cases h
    · split at h
      · split at h <;> cases h
        · exact upd_ne _ _ hj
        · rfl
      · cases h
  case h_3 hc => cases h; exact upd_ne _ _ hj
  case h_4 hc =>
    split at h <;> cases h
    exact upd_ne _ _ hj
  case h_5 hc =>
    split at h
    · cases h; exact upd_ne _ _ hj
    · split at h <;> cases h
      rfl

theorem run_ok {l : List Act} (h : run B n l s = some s') (h0 : Ok B C n s) : Ok B C n s' := by
  induction l generalizing s with
  | nil => cases h; exact h0
  | cons a l ih =>
    simp only [run] at h
    split at h <;> rename_i hx
    · cases h
    · refine ih h ?_
      cases a with
      | w m w =>
        simp only [ex] at hx
        split at hx <;> rename_i hw
        · refine runN_ok (fun h1 h2 => ?_) hx h0
          exact ⟨.step h2.1 (.worker w hw (exW_sound h1)), fun j hj => by rw [exW_ps h1]; exact h2.2 j hj⟩
        · cases hx
      | j m w k x =>
        refine runN_ok (fun h1 h2 => ?_) hx h0
        exact ⟨.step h2.1 (exJ_sound h1), fun j hj => by rw [exJ_ps h1 hj]; exact h2.2 j hj⟩

def State.init (C : Nat) : State where
  cv := fun _ => Cv.init
  pc := fun _ => .top
  qs := fun _ _ => ⟨MQ.State.init C, [], fun _ => .out, True⟩
  busy := fun _ => false
  ps := fun _ => .out
  sure := fun _ _ => True

theorem State.init_ok (B C n : Nat) : Ok B C n (State.init C) :=
  ⟨.init ⟨fun _ => rfl, fun _ => rfl, fun _ _ => ⟨fun _ => ⟨_, rfl⟩, fun _ => rfl⟩, fun _ _ => rfl, fun _ _ _ => rfl, fun _ => rfl⟩, fun _ _ => rfl⟩

end RG.RQ
