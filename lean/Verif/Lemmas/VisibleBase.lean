import Verif.Model.Visible
import Verif.Lemmas.GraphMain
import Verif.Lemmas.GraphLife
/-
Happens-before in the task graph: the steps with their synchronizing operations.
-/
set_option linter.unusedVariables false
namespace RG.Vis
open RG.Graph
open RG.Dyn (owner)

variable {cfg : Cfg} {s s' : State}

open State in
/-- the steps of the task graph together with `sync` -/
inductive Does (cfg : Cfg) (s : State) : Act → List Op → State → Prop
  | beginSubmit (hp : ∀ q, cfg.parentOf s.n = some q → s.ex q = .running) :
      Does cfg s .submit [.seq (.body (owner cfg s.n)) (.sub s.n)] { s with
        n := s.n + 1
        ph := upd s.ph s.n (.submitting 0)
        tasks := upd s.tasks (cfg.space s.n) (s.tasks (cfg.space s.n) + 1) }
  | pushUser {t i r} (h : s.ph t = .submitting i) (hr : (cfg.res t)[i]? = some r) :
      Does cfg s (.sub t) [] { s with
        ph := upd s.ph t (.submitting (i + 1))
        users := upd s.users r ((t, i) :: s.users r)
        hist := upd s.hist r ((t, i) :: s.hist r) }
  | emplace {t i} (h : s.ph t = .submitting i) (hr : i = (cfg.res t).length) :
      Does cfg s (.sub t) [.rel (.sub t) (.queue t)]
        { s with ph := upd s.ph t .queued, fut := upd s.fut t .held }
  | startInit {t} (h : s.ph t = .queued) :
      Does cfg s (.init t) [.acq (.init t) (.queue t), .rmw (.init t) (.pre t)] { s with
        ph := upd s.ph t (.initing (.next 0)), pre := upd s.pre t (s.pre t + 1) }
  | lockRes {t i r} (h : s.ph t = .initing (.next i)) (hr : (cfg.res t)[i]? = some r)
      (hl : s.lock r = none) :
      Does cfg s (.init t) [.acq (.init t) (.lock r)] { s with
        ph := upd s.ph t (.initing (.scan i (olderThan (t, i) (s.users r))))
        lock := upd s.lock r (some t) }
  | scanParent {t i p rem} (h : s.ph t = .initing (.scan i (p :: rem)))
      (hp : cfg.parentOf t = some p.1) :
      Does cfg s (.init t) [] { s with ph := upd s.ph t (.initing (.unlock i)) }
  | scanSkip {t i p rem} (h : s.ph t = .initing (.scan i (p :: rem)))
      (hp : cfg.parentOf t ≠ some p.1)
      (hs : ¬ (cfg.space p.1 = cfg.space t ∧ cfg.serial p.1 t = true)) :
      Does cfg s (.init t) [] { s with ph := upd s.ph t (.initing (.scan i rem)) }
  | scanReached {t i p rem r} (h : s.ph t = .initing (.scan i (p :: rem)))
      (hr : (cfg.res t)[i]? = some r) (hp : cfg.parentOf t ≠ some p.1)
      (hs : cfg.space p.1 = cfg.space t ∧ cfg.serial p.1 t = true) (h0 : s.post p.1 = 0) :
      Does cfg s (.init t) [.acq (.init t) (.post p.1)] { s with
        ph := upd s.ph t (.initing (if cfg.sync p.1 r then .unlock i else .scan i rem)) }
  | scanLink {t i p rem} (h : s.ph t = .initing (.scan i (p :: rem)))
      (hp : cfg.parentOf t ≠ some p.1)
      (hs : cfg.space p.1 = cfg.space t ∧ cfg.serial p.1 t = true) (h0 : s.post p.1 ≠ 0) :
      Does cfg s (.init t) [.acq (.init t) (.post p.1)] { s with ph := upd s.ph t (.initing (.link i p rem)) }
  | link {t i p rem} (h : s.ph t = .initing (.link i p rem)) :
      Does cfg s (.init t) [] { s with
        ph := upd s.ph t (.initing (.incr i p rem))
        fol := upd s.fol p.1 (.pre t :: s.fol p.1)
        pnd := upd s.pnd p.1 (.pre t :: s.pnd p.1) }
  | incr {t i p rem r} (h : s.ph t = .initing (.incr i p rem)) (hr : (cfg.res t)[i]? = some r) :
      Does cfg s (.init t) [.rmw (.init t) (.pre t)] { s with
        ph := upd s.ph t (.initing (if cfg.sync p.1 r then .unlock i else .scan i rem))
        pre := upd s.pre t (s.pre t + 1) }
  | scanEnd {t i} (h : s.ph t = .initing (.scan i [])) :
      Does cfg s (.init t) [] { s with ph := upd s.ph t (.initing (.unlock i)) }
  | unlock {t i r} (h : s.ph t = .initing (.unlock i)) (hr : (cfg.res t)[i]? = some r) :
      Does cfg s (.init t) [.rel (.init t) (.lock r)] { s with
        ph := upd s.ph t (.initing (.next (i + 1))), lock := upd s.lock r none }
  | resEnd {t i} (h : s.ph t = .initing (.next i)) (hr : i = (cfg.res t).length) :
      Does cfg s (.init t) [] { s with ph := upd s.ph t (.initing .parent) }
  | noParent {t} (h : s.ph t = .initing .parent) (hp : cfg.parentOf t = none) :
      Does cfg s (.init t) [] { s with ph := upd s.ph t (.initing .final) }
  | parentPush {t q} (h : s.ph t = .initing .parent) (hp : cfg.parentOf t = some q) :
      Does cfg s (.init t) [] { s with
        ph := upd s.ph t (.initing (.pincr q))
        fol := upd s.fol t (.post q :: s.fol t)
        pnd := upd s.pnd t (.post q :: s.pnd t) }
  | parentIncr {t q} (h : s.ph t = .initing (.pincr q)) :
      Does cfg s (.init t) [.rmw (.init t) (.post q)] { s with
        ph := upd s.ph t (.initing .final), post := upd s.post q (s.post q + 1) }
  | final {t} (h : s.ph t = .initing .final) :
      Does cfg s (.init t) [.rmw (.init t) (.pre t)] { s with
        ph := upd s.ph t .inited
        pre := upd s.pre t (s.pre t - 1)
        handed := upd s.handed t (if s.pre t = 2 then s.handed t + 1 else s.handed t)
        fault := s.fault || s.pre t == 0 }
  | start {t} (h : 0 < s.handed t) :
      Does cfg s (.start t) [.rmw (.body (t + 1)) (.pre t)] { s with
        ex := upd s.ex t .running
        handed := upd s.handed t (s.handed t - 1)
        starts := upd s.starts t (s.starts t + 1)
        pre := upd s.pre t (s.pre t - 1)
        fault := s.fault || s.pre t != 1 }
  | createEvent {t} (h : s.ex t = .running) :
      Does cfg s (.event t) [] { s with
        nExt := s.nExt + 1
        owner := upd s.owner s.nExt t
        ext := upd s.ext s.nExt .pending
        post := upd s.post t (s.post t + 1) }
  | extNotify {k} (h : s.ext k = .pending) :
      Does cfg s (.notify k) [] { s with ext := upd s.ext k .fired }
  | extFollower {k} (h : s.ext k = .fired) :
      Does cfg s (.follow k) (Vis.decPost s (.ext k) (s.owner k))
        (State.decPost { s with ext := upd s.ext k .done } (s.owner k))
  | bodyEnd {t} (h : s.ex t = .running) :
      Does cfg s (.ret t) (.seq (.body (t + 1)) (.ret t) :: Vis.decPost s (.ret t) t)
        (State.decPost { s with ex := upd s.ex t .ended } t)
  | delete {t i r} (h : s.fl t = .deleting i) (hr : (cfg.res t)[i]? = some r)
      (hl : s.lock r = none) :
      Does cfg s (.flush t) [.acq (.flush t) (.lock r), .rel (.flush t) (.lock r)] { s with
        fl := upd s.fl t (.deleting (i + 1)), users := upd s.users r ((s.users r).erase (t, i)) }
  | deleteEnd {t i} (h : s.fl t = .deleting i) (hr : i = (cfg.res t).length) :
      Does cfg s (.flush t) [] { s with fl := upd s.fl t (.notifying (s.fol t)) }
  | notifyPre {p t rem} (h : s.fl p = .notifying (.pre t :: rem)) :
      Does cfg s (.flush p) [.rmw (.flush p) (.pre t)]
        (decPre { s with fl := upd s.fl p (.notifying rem), pnd := upd s.pnd p (s.pnd p).tail } t)
  | notifyPost {p q rem} (h : s.fl p = .notifying (.post q :: rem)) :
      Does cfg s (.flush p) (Vis.decPost s (.flush p) q)
        (State.decPost { s with fl := upd s.fl p (.notifying rem), pnd := upd s.pnd p (s.pnd p).tail } q)
  | notifyEnd {t} (h : s.fl t = .notifying []) :
      Does cfg s (.flush t) [] { s with fl := upd s.fl t .counting }
  | countPost {t} (h : s.fl t = .counting) :
      Does cfg s (.flush t) (Vis.decCd s (.flush t) t) (State.decCd { s with fl := upd s.fl t .done } t)
  | takeFuture {t} (h : s.fut t = .held) :
      Does cfg s (.take t) [] { s with fut := upd s.fut t .taken }
  | countGet {t} (h : s.fut t = .taken) :
      Does cfg s (.take t) (Vis.decCd s (.take t) t) (State.decCd { s with fut := upd s.fut t .done } t)
  | freeCount {t} (h : s.mem t = .freeing) :
      Does cfg s (.free t) [.rmw (.free t) (.count (cfg.space t))] { s with
        mem := upd s.mem t .counted
        tasks := upd s.tasks (cfg.space t) (s.tasks (cfg.space t) - 1) }
  | free {t} (h : s.mem t = .counted) :
      Does cfg s (.free t) [] { s with mem := upd s.mem t .freed }
  | lateRead {t} (h : t ∈ s.late) :
      Does cfg s (.late t) [] { s with late := s.late.erase t }

theorem does {a : Act} (h : exec cfg s a = some s') : Does cfg s a (sync cfg s a) s' := by
  cases a with
  | submit =>
    simp only [exec] at h
    split at h
    · rename_i hg; cases h; exact .beginSubmit (fun q hq => hg.1 q hq)
    · cases h
  | sub t =>
    simp only [exec] at h
    split at h
    · rename_i i hp
      split at h
      · rename_i r hr
        cases h
        simpa [sync, hp, hr] using Does.pushUser hp hr
      · rename_i hr
        split at h
        · rename_i e; cases h
          simpa [sync, hp, hr] using Does.emplace (cfg := cfg) hp e
        · cases h
    · cases h
  | init t =>
    simp only [exec, execInit] at h
    split at h
    · rename_i hp; cases h; simpa [sync, syncInit, hp] using Does.startInit (cfg := cfg) hp
    · rename_i i hp
      split at h
      · rename_i r hr
        split at h
        · rename_i hl; cases h; simpa [sync, syncInit, hp, hr] using Does.lockRes hp hr hl
        · cases h
      · rename_i hr
        split at h
        · rename_i e; cases h; simpa [sync, syncInit, hp, hr] using Does.resEnd (cfg := cfg) hp e
        · cases h
    · rename_i i p rem hp
      split at h
      · rename_i r hr
        split at h
        · rename_i hq; cases h; simpa [sync, syncInit, hp, hq] using Does.scanParent hp hq
        · rename_i hq
          split at h
          · rename_i hs
            split at h
            · rename_i h0; cases h; simpa [sync, syncInit, hp, hq, hs] using Does.scanReached hp hr hq hs h0
            · rename_i h0; cases h; simpa [sync, syncInit, hp, hq, hs] using Does.scanLink hp hq hs h0
          · rename_i hs; cases h
            have := Does.scanSkip hp hq hs
            simp only [sync, syncInit, hp]
            rw [if_neg hq, if_neg hs]
            exact this
      · cases h
    · rename_i i hp; cases h; simpa [sync, syncInit, hp] using Does.scanEnd (cfg := cfg) hp
    · rename_i i p rem hp; cases h; simpa [sync, syncInit, hp] using Does.link (cfg := cfg) hp
    · rename_i i p rem hp
      split at h
      · rename_i r hr; cases h; simpa [sync, syncInit, hp] using Does.incr hp hr
      · cases h
    · rename_i i hp
      split at h
      · rename_i r hr; cases h; simpa [sync, syncInit, hp, hr] using Does.unlock hp hr
      · cases h
    · rename_i hp
      split at h
      · rename_i hq; cases h; simpa [sync, syncInit, hp] using Does.noParent hp hq
      · rename_i q hq; cases h; simpa [sync, syncInit, hp] using Does.parentPush hp hq
    · rename_i q hp; cases h; simpa [sync, syncInit, hp] using Does.parentIncr (cfg := cfg) hp
    · rename_i hp; cases h; simpa [sync, syncInit, hp] using Does.final (cfg := cfg) hp
    · cases h
  | start t =>
    simp only [exec] at h
    split at h
    · rename_i hh; cases h; exact .start hh
    · cases h
  | event t =>
    simp only [exec] at h
    split at h
    · rename_i hh; cases h; exact .createEvent hh
    · cases h
  | notify k =>
    simp only [exec] at h
    split at h
    · rename_i hh; cases h; exact .extNotify hh
    · cases h
  | follow k =>
    simp only [exec] at h
    split at h
    · rename_i hh; cases h; exact .extFollower hh
    · cases h
  | ret t =>
    simp only [exec] at h
    split at h
    · rename_i hg; cases h; exact .bodyEnd hg.1
    · cases h
  | flush t =>
    simp only [exec] at h
    split at h
    · rename_i i hf
      split at h
      · rename_i r hr
        split at h
        · rename_i hl; cases h; simpa [sync, hf, hr] using Does.delete hf hr hl
        · cases h
      · rename_i hr
        split at h
        · rename_i e; cases h; simpa [sync, hf, hr] using Does.deleteEnd (cfg := cfg) hf e
        · cases h
    · rename_i u rem hf; cases h; simpa [sync, hf] using Does.notifyPre (cfg := cfg) hf
    · rename_i q rem hf; cases h; simpa [sync, hf] using Does.notifyPost (cfg := cfg) hf
    · rename_i hf; cases h; simpa [sync, hf] using Does.notifyEnd (cfg := cfg) hf
    · rename_i hf; cases h; simpa [sync, hf] using Does.countPost (cfg := cfg) hf
    · cases h
  | take t =>
    simp only [exec] at h
    split at h
    · rename_i hf; cases h; simpa [sync, hf] using Does.takeFuture (cfg := cfg) hf
    · rename_i hf; cases h; simpa [sync, hf] using Does.countGet (cfg := cfg) hf
    · cases h
  | free t =>
    simp only [exec] at h
    split at h
    · rename_i hf; cases h; simpa [sync, hf] using Does.freeCount (cfg := cfg) hf
    · rename_i hf; cases h; simpa [sync, hf] using Does.free (cfg := cfg) hf
    · cases h
  | late t =>
    simp only [exec] at h
    split at h
    · rename_i hh; cases h; exact .lateRead hh
    · cases h

end RG.Vis
