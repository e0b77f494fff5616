import Verif.Model.Graph
/-
Concrete executions of the task graph machine, used for examples and counterexamples: the step that
is taken next by a part of the code is determined by the state.
-/
namespace RG.Graph

inductive Act
  /-- a thread begins to submit the next task -/
  | submit
  /-- continue the submission of a task -/
  | sub (t : Nat)
  /-- continue the initialisation of a task -/
  | init (t : Nat)
  | start (t : Nat)
  | event (t : Nat)
  | notify (k : Nat)
  | follow (k : Nat)
  | ret (t : Nat)
  /-- continue the notification of the post-event of a task -/
  | flush (t : Nat)
  /-- read or drop the future of a task -/
  | take (t : Nat)
  /-- continue freeing a task -/
  | free (t : Nat)
  | late (t : Nat)

def isSubmitting : Ph → Bool
  | .submitting _ => true
  | _ => false

theorem isSubmitting_false {p : Ph} (h : isSubmitting p = false) (i : Nat) : p ≠ .submitting i := by
  rintro rfl
  cases h

open State in
def execInit (cfg : Cfg) (s : State) (t : Nat) : Option State :=
  match s.ph t with
  | .queued => some { s with ph := upd s.ph t (.initing (.next 0)), pre := upd s.pre t (s.pre t + 1) }
  | .initing (.next i) =>
    match (cfg.res t)[i]? with
    | some r =>
      if s.lock r = none then
        some { s with
          ph := upd s.ph t (.initing (.scan i (olderThan (t, i) (s.users r))))
          lock := upd s.lock r (some t) }
      else none
    | none =>
      if i = (cfg.res t).length then some { s with ph := upd s.ph t (.initing .parent) } else none
  | .initing (.scan i (p :: rem)) =>
    match (cfg.res t)[i]? with
    | some r =>
      if cfg.parentOf t = some p.1 then some { s with ph := upd s.ph t (.initing (.unlock i)) }
      else if cfg.space p.1 = cfg.space t ∧ cfg.serial p.1 t = true then
        if s.post p.1 = 0 then
          some { s with
            ph := upd s.ph t (.initing (if cfg.sync p.1 r then .unlock i else .scan i rem)) }
        else some { s with ph := upd s.ph t (.initing (.link i p rem)) }
      else some { s with ph := upd s.ph t (.initing (.scan i rem)) }
    | none => none
  | .initing (.scan i []) => some { s with ph := upd s.ph t (.initing (.unlock i)) }
  | .initing (.link i p rem) =>
    some { s with
      ph := upd s.ph t (.initing (.incr i p rem))
      fol := upd s.fol p.1 (.pre t :: s.fol p.1)
      pnd := upd s.pnd p.1 (.pre t :: s.pnd p.1) }
  | .initing (.incr i p rem) =>
    match (cfg.res t)[i]? with
    | some r =>
      some { s with
        ph := upd s.ph t (.initing (if cfg.sync p.1 r then .unlock i else .scan i rem))
        pre := upd s.pre t (s.pre t + 1) }
    | none => none
  | .initing (.unlock i) =>
    match (cfg.res t)[i]? with
    | some r => some { s with ph := upd s.ph t (.initing (.next (i + 1))), lock := upd s.lock r none }
    | none => none
  | .initing .parent =>
    match cfg.parentOf t with
    | none => some { s with ph := upd s.ph t (.initing .final) }
    | some q =>
      some { s with
        ph := upd s.ph t (.initing (.pincr q))
        fol := upd s.fol t (.post q :: s.fol t)
        pnd := upd s.pnd t (.post q :: s.pnd t) }
  | .initing (.pincr q) =>
    some { s with ph := upd s.ph t (.initing .final), post := upd s.post q (s.post q + 1) }
  | .initing .final =>
    some { s with
      ph := upd s.ph t .inited
      pre := upd s.pre t (s.pre t - 1)
      handed := upd s.handed t (if s.pre t = 2 then s.handed t + 1 else s.handed t)
      fault := s.fault || s.pre t == 0 }
  | _ => none

open State in
def exec (cfg : Cfg) (s : State) : Act → Option State
  | .submit =>
    if (∀ q ∈ cfg.parentOf s.n, s.ex q = .running) ∧
        (cfg.single = true → ∀ c, c < s.n → cfg.space c = cfg.space s.n → isSubmitting (s.ph c) = false) then
      some { s with
        n := s.n + 1
        ph := upd s.ph s.n (.submitting 0)
        tasks := upd s.tasks (cfg.space s.n) (s.tasks (cfg.space s.n) + 1) }
    else none
  | .sub t =>
    match s.ph t with
    | .submitting i =>
      match (cfg.res t)[i]? with
      | some r =>
        some { s with
          ph := upd s.ph t (.submitting (i + 1))
          users := upd s.users r ((t, i) :: s.users r)
          hist := upd s.hist r ((t, i) :: s.hist r) }
      | none =>
        if i = (cfg.res t).length then
          some { s with ph := upd s.ph t .queued, fut := upd s.fut t .held }
        else none
    | _ => none
  | .init t => execInit cfg s t
  | .start t =>
    if 0 < s.handed t then
      some { s with
        ex := upd s.ex t .running
        handed := upd s.handed t (s.handed t - 1)
        starts := upd s.starts t (s.starts t + 1)
        pre := upd s.pre t (s.pre t - 1)
        fault := s.fault || s.pre t != 1 }
    else none
  | .event t =>
    if s.ex t = .running then
      some { s with
        nExt := s.nExt + 1
        owner := upd s.owner s.nExt t
        ext := upd s.ext s.nExt .pending
        post := upd s.post t (s.post t + 1) }
    else none
  | .notify k => if s.ext k = .pending then some { s with ext := upd s.ext k .fired } else none
  | .follow k =>
    if s.ext k = .fired then some (decPost { s with ext := upd s.ext k .done } (s.owner k)) else none
  | .ret t =>
    if s.ex t = .running ∧ (∀ c, c < s.n → cfg.parentOf c = some t → isSubmitting (s.ph c) = false) ∧
        (cfg.strict = true → ∀ c, c < s.n → cfg.parentOf c = some t → s.ph c = .inited) then
      some (decPost { s with ex := upd s.ex t .ended } t)
    else none
  | .flush t =>
    match s.fl t with
    | .deleting i =>
      match (cfg.res t)[i]? with
      | some r =>
        if s.lock r = none then
          some { s with
            fl := upd s.fl t (.deleting (i + 1)), users := upd s.users r ((s.users r).erase (t, i)) }
        else none
      | none =>
        if i = (cfg.res t).length then some { s with fl := upd s.fl t (.notifying (s.fol t)) } else none
    | .notifying (.pre u :: rem) =>
      some (decPre { s with fl := upd s.fl t (.notifying rem), pnd := upd s.pnd t (s.pnd t).tail } u)
    | .notifying (.post q :: rem) =>
      some (decPost { s with fl := upd s.fl t (.notifying rem), pnd := upd s.pnd t (s.pnd t).tail } q)
    | .notifying [] => some { s with fl := upd s.fl t .counting }
    | .counting => some (decCd { s with fl := upd s.fl t .done } t)
    | _ => none
  | .take t =>
    match s.fut t with
    | .held => some { s with fut := upd s.fut t .taken }
    | .taken => some (decCd { s with fut := upd s.fut t .done } t)
    | _ => none
  | .free t =>
    match s.mem t with
    | .freeing =>
      some { s with
        mem := upd s.mem t .counted
        tasks := upd s.tasks (cfg.space t) (s.tasks (cfg.space t) - 1) }
    | .counted => some { s with mem := upd s.mem t .freed }
    | _ => none
  | .late t => if t ∈ s.late then some { s with late := s.late.erase t } else none

variable {cfg : Cfg} {s s' : State}

theorem exec_step {a : Act} (h : exec cfg s a = some s') : ∃ l, Step cfg l s s' := by
  cases a with
  | submit =>
    simp only [exec] at h
    split at h
    · rename_i hg
      cases h
      exact ⟨_, .beginSubmit (fun q hq => hg.1 q hq)
        (fun h1 c i hc hsp => isSubmitting_false (hg.2 h1 c hc hsp) i)⟩
    · cases h
  | sub t =>
    simp only [exec] at h
    split at h
    · rename_i i hp
      split at h
      · rename_i r hr
        cases h
        exact ⟨_, .pushUser hp hr⟩
      · split at h
        · rename_i e
          cases h
          exact ⟨_, .emplace hp e⟩
        · cases h
    · cases h
  | init t =>
    simp only [exec, execInit] at h
    split at h
    · rename_i hp; cases h; exact ⟨_, .startInit hp⟩
    · rename_i i hp
      split at h
      · rename_i r hr
        split at h
        · rename_i hl; cases h; exact ⟨_, .lockRes hp hr hl⟩
        · cases h
      · split at h
        · rename_i e; cases h; exact ⟨_, .resEnd hp e⟩
        · cases h
    · rename_i i p rem hp
      split at h
      · rename_i r hr
        split at h
        · rename_i hq; cases h; exact ⟨_, .scanParent hp hq⟩
        · rename_i hq
          split at h
          · rename_i hs
            split at h
            · rename_i h0; cases h; exact ⟨_, .scanReached hp hr hq hs h0⟩
            · rename_i h0; cases h; exact ⟨_, .scanLink hp hq hs h0⟩
          · rename_i hs; cases h; exact ⟨_, .scanSkip hp hq hs⟩
      · cases h
    · rename_i i hp; cases h; exact ⟨_, .scanEnd hp⟩
    · rename_i i p rem hp; cases h; exact ⟨_, .link hp⟩
    · rename_i i p rem hp
      split at h
      · rename_i r hr; cases h; exact ⟨_, .incr hp hr⟩
      · cases h
    · rename_i i hp
      split at h
      · rename_i r hr; cases h; exact ⟨_, .unlock hp hr⟩
      · cases h
    · rename_i hp
      split at h
      · rename_i hq; cases h; exact ⟨_, .noParent hp hq⟩
      · rename_i q hq; cases h; exact ⟨_, .parentPush hp hq⟩
    · rename_i q hp; cases h; exact ⟨_, .parentIncr hp⟩
    · rename_i hp; cases h; exact ⟨_, .final hp⟩
    · cases h
  | start t =>
    simp only [exec] at h
    split at h
    · rename_i hh; cases h; exact ⟨_, .start hh⟩
    · cases h
  | event t =>
    simp only [exec] at h
    split at h
    · rename_i hh; cases h; exact ⟨_, .createEvent hh⟩
    · cases h
  | notify k =>
    simp only [exec] at h
    split at h
    · rename_i hh; cases h; exact ⟨_, .extNotify hh⟩
    · cases h
  | follow k =>
    simp only [exec] at h
    split at h
    · rename_i hh; cases h; exact ⟨_, .extFollower hh⟩
    · cases h
  | ret t =>
    simp only [exec] at h
    split at h
    · rename_i hg
      cases h
      exact ⟨_, .bodyEnd hg.1 (fun c i hc hp => isSubmitting_false (hg.2.1 c hc hp) i) hg.2.2⟩
    · cases h
  | flush t =>
    simp only [exec] at h
    split at h
    · rename_i i hf
      split at h
      · rename_i r hr
        split at h
        · rename_i hl; cases h; exact ⟨_, .delete hf hr hl⟩
        · cases h
      · split at h
        · rename_i e; cases h; exact ⟨_, .deleteEnd hf e⟩
        · cases h
    · rename_i u rem hf; cases h; exact ⟨_, .notifyPre hf⟩
    · rename_i q rem hf; cases h; exact ⟨_, .notifyPost hf⟩
    · rename_i hf; cases h; exact ⟨_, .notifyEnd hf⟩
    · rename_i hf; cases h; exact ⟨_, .countPost hf⟩
    · cases h
  | take t =>
    simp only [exec] at h
    split at h
    · rename_i hf; cases h; exact ⟨_, .takeFuture hf⟩
    · rename_i hf; cases h; exact ⟨_, .countGet hf⟩
    · cases h
  | free t =>
    simp only [exec] at h
    split at h
    · rename_i hf; cases h; exact ⟨_, .freeCount hf⟩
    · rename_i hf; cases h; exact ⟨_, .free hf⟩
    · cases h
  | late t =>
    simp only [exec] at h
    split at h
    · rename_i hh; cases h; exact ⟨_, .lateRead hh⟩
    · cases h

/-- execute a list of actions; an action that is not possible is skipped -/
def run (cfg : Cfg) : State → List Act → State
  | s, [] => s
  | s, a :: as => run cfg ((exec cfg s a).getD s) as

theorem run_reach {as : List Act} (h : Reach cfg s) : Reach cfg (run cfg s as) := by
  induction as generalizing s with
  | nil => exact h
  | cons a as ih =>
    apply ih
    cases he : exec cfg s a with
    | none => exact h
    | some s' =>
      obtain ⟨l, hs⟩ := exec_step he
      exact .step h hs

theorem run_init (as : List Act) : Reach cfg (run cfg init as) := run_reach .init

/-- execute the same action several times -/
def times (k : Nat) (a : Act) : List Act := List.replicate k a

/-- submit a task -/
def doSubmit (t : Nat) : List Act := .submit :: times 9 (.sub t)
/-- initialise a task -/
def doInit (t : Nat) : List Act := times 30 (.init t)
/-- notify the followers of a finished task -/
def doFlush (t : Nat) : List Act := times 12 (.flush t)

end RG.Graph
