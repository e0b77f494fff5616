import Verif.Lemmas.SystemProgress
/-
In the machine of Model/System the body of a task ends after the bodies of its children: the assumption on nested
programs (`NestingOk`) holds without further conditions.
-/
set_option linter.unusedVariables false
namespace RG.Graph

variable {cfg : Cfg}

theorem WStep.to_strict {x x' : WState} (hs : WStep cfg x x')
    (hb : ∀ t c, x.g.ex t = .running → x'.g.ex t = .ended → c < x.g.n → cfg.parentOf c = some t →
      x.g.ph c = .inited) : WStep { cfg with strict := true } x x' := by
  cases hs with
  | submitOut h hn hp hk => exact .submitOut (h.to_strict hb) hn hp hk
  | submitIn h hn hp hw hk => exact .submitIn (h.to_strict hb) hn hp hw hk
  | other h hn he hx => exact .other (h.to_strict hb) hn he hx
  | wait h hw hu hc => exact .wait h hw hu hc
  | wake hw hu hk => exact .wake hw hu hk
  | readOut hne hu he hk => exact .readOut hne hu he hk

theorem WStep.of_strict {x x' : WState} (hs : WStep { cfg with strict := true } x x') : WStep cfg x x' := by
  cases hs with
  | submitOut h hn hp hk => exact .submitOut h.of_strict hn hp hk
  | submitIn h hn hp hw hk => exact .submitIn h.of_strict hn hp hw hk
  | other h hn he hx => exact .other h.of_strict hn he hx
  | wait h hw hu hc => exact .wait h hw hu hc
  | wake hw hu hk => exact .wake hw hu hk
  | readOut hne hu he hk => exact .readOut hne hu he hk

theorem Descends.strict {a b : Nat} : Descends { cfg with strict := true } a b ↔ Descends cfg a b := by
  constructor
  · intro h
    induction h with
    | refl => exact .refl
    | child h _ ih => exact .child h ih
  · intro h
    induction h with
    | refl => exact .refl
    | child h _ ih => exact .child h ih

end RG.Graph

namespace RG.Sys

open RG.Graph (Cfg WState WStep Ph Ex NestingOk)

variable {cfg : Cfg} {N : Nat} {s s' : State}

theorem Step.of_strict (hs : Step { cfg with strict := true } N s s') : Step cfg N s s' := by
  cases hs with
  | graph h hp hh he hw hn hx => exact .graph h.of_strict hp hh he hw hn hx
  | emplace hw h hp hq hq' hh he hww => exact .emplace hw h.of_strict hp hq hq' hh he hww
  | ready h hp hh he hw => exact .ready h.of_strict hp hh he hw
  | unpause h hg h0 hw => exact .unpause h.of_strict hg h0 hw
  | activate hw h => exact .activate hw h
  | wake hw h hc => exact .wake hw h hc
  | noise hw hc => exact .noise hw hc
  | notify hw hc => exact .notify hw hc
  | spurious hw hc => exact .spurious hw hc
  | sleep hw h hc => exact .sleep hw h hc
  | wait hw hc => exact .wait hw hc
  | woken hw h hc => exact .woken hw h hc
  | popReady hw h hq => exact .popReady hw h hq
  | noReady hw h hq => exact .noReady hw h hq
  | popNew hw h hq hs hp hi hh he hww => exact .popNew hw h hq hs.of_strict hp hi hh he hww
  | noNew hw h hq => exact .noNew hw h hq
  | initStep hw h hs hp hi hc hh he hww => exact .initStep hw h hs.of_strict hp hi hc hh he hww
  | initReady hw h hs hp hi hh he hww => exact .initReady hw h hs.of_strict hp hi hh he hww
  | initBlocked hw h hs hp hi hh he hww => exact .initBlocked hw h hs.of_strict hp hi hh he hww
  | stolenBlocked hw h hs hp hi hh he hww => exact .stolenBlocked hw h hs.of_strict hp hi hh he hww
  | stealReady hw hv h hq => exact .stealReady hw hv h hq
  | noStealReady hw h => exact .noStealReady hw h
  | stealNew hw hv h hq hs hp hi hh he hww => exact .stealNew hw hv h hq hs.of_strict hp hi hh he hww
  | noStealNew hw h => exact .noStealNew hw h
  | start hw h hs hp hh h0 he hww => exact .start hw h hs.of_strict hp hh h0 he hww
  | resume hw h hr => exact .resume hw h hr
  | pause hw h hs hg h0 hu hww => exact .pause hw h hs.of_strict hg h0 hu hww
  | bodyEnd hw h hs hp hh h0 he hk hww => exact .bodyEnd hw h hs.of_strict hp hh h0 he hk hww

theorem Step.to_strict (hex : ∀ c, s.x.g.ex c ≠ .none → s.x.g.ph c = .inited) (hs : Step cfg N s s') :
    Step { cfg with strict := true } N s s' := by
  have same : ∀ {x' : WState}, x'.g.ex = s.x.g.ex → WStep cfg s.x x' → WStep { cfg with strict := true } s.x x' :=
    fun he h => h.to_strict fun t c h1 h2 _ _ => by rw [he, h1] at h2; cases h2
  cases hs with
  | graph h hp hh he hw hn hx => exact .graph (same he h) hp hh he hw hn hx
  | emplace hw h hp hq hq' hh he hww => exact .emplace hw (same he h) hp hq hq' hh he hww
  | ready h hp hh he hw => exact .ready (same he h) hp hh he hw
  | unpause h hg h0 hw => exact .unpause (same (by rw [hg]) h) hg h0 hw
  | activate hw h => exact .activate hw h
  | wake hw h hc => exact .wake hw h hc
  | noise hw hc => exact .noise hw hc
  | notify hw hc => exact .notify hw hc
  | spurious hw hc => exact .spurious hw hc
  | sleep hw h hc => exact .sleep hw h hc
  | wait hw hc => exact .wait hw hc
  | woken hw h hc => exact .woken hw h hc
  | popReady hw h hq => exact .popReady hw h hq
  | noReady hw h hq => exact .noReady hw h hq
  | popNew hw h hq hs hp hi hh he hww => exact .popNew hw h hq (same he hs) hp hi hh he hww
  | noNew hw h hq => exact .noNew hw h hq
  | initStep hw h hs hp hi hc hh he hww => exact .initStep hw h (same he hs) hp hi hc hh he hww
  | initReady hw h hs hp hi hh he hww => exact .initReady hw h (same he hs) hp hi hh he hww
  | initBlocked hw h hs hp hi hh he hww => exact .initBlocked hw h (same he hs) hp hi hh he hww
  | stolenBlocked hw h hs hp hi hh he hww => exact .stolenBlocked hw h (same he hs) hp hi hh he hww
  | stealReady hw hv h hq => exact .stealReady hw hv h hq
  | noStealReady hw h => exact .noStealReady hw h
  | stealNew hw hv h hq hs hp hi hh he hww => exact .stealNew hw hv h hq (same he hs) hp hi hh he hww
  | noStealNew hw h => exact .noStealNew hw h
  | @start x' w t hw h hs hp hh h0 he hww =>
    refine .start hw h (hs.to_strict fun t' c h1 h2 _ _ => ?_) hp hh h0 he hww
    rw [he] at h2
    by_cases e : t' = t
    · subst e
      rw [h0] at h1
      cases h1
    · rw [upd_ne _ _ e, h1] at h2
      cases h2
  | resume hw h hr => exact .resume hw h hr
  | pause hw h hs hg h0 hu hww => exact .pause hw h (same (by rw [hg]) hs) hg h0 hu hww
  | @bodyEnd x' w t hw h hs hp hh h0 he hk hww =>
    refine .bodyEnd hw h (hs.to_strict fun t' c h1 h2 hc hpar => ?_) hp hh h0 he hk hww
    rw [he] at h2
    by_cases e : t' = t
    · subst e
      exact hex c (by rw [hk c hc hpar]; simp)
    · rw [upd_ne _ _ e, h1] at h2
      cases h2

theorem Reach.strict (hr : Reach cfg N s) : Reach { cfg with strict := true } N s := by
  induction hr with
  | init => exact .init
  | step _ hs ih =>
    exact .step ih (hs.to_strict fun c h =>
      ((RG.Graph.Core.reach (.inl rfl) (Inv.reach ih).wr.graph).exI c h).1)

theorem Reach.of_strict (hr : Reach { cfg with strict := true } N s) : Reach cfg N s := by
  induction hr with
  | init => exact .init
  | step _ hs ih => exact .step ih hs.of_strict

theorem Work.of_strict (h : Work { cfg with strict := true } N s s') : Work cfg N s s' :=
  ⟨h.1.of_strict, h.2⟩

theorem Work.to_strict (hr : Reach cfg N s) (h : Work cfg N s s') : Work { cfg with strict := true } N s s' :=
  ⟨h.1.to_strict fun c hc => ((RG.Graph.Core.reach (.inl rfl) (Inv.reach hr.strict).wr.graph).exI c hc).1, h.2⟩

theorem OwnWork.of_strict (h : OwnWork { cfg with strict := true } N s s') : OwnWork cfg N s s' :=
  ⟨h.1.of_strict, h.2⟩

theorem Steps.trans {s1 s2 s3 : State} (h1 : Steps cfg N s1 s2) (h2 : Steps cfg N s2 s3) : Steps cfg N s1 s3 := by
  induction h2 with
  | refl => exact h1
  | step _ hs ih => exact .step ih hs

theorem Steps.reach (h : Steps cfg N s s') (hr : Reach cfg N s) : Reach cfg N s' := by
  induction h with
  | refl => exact hr
  | step _ hs ih => exact .step ih hs

end RG.Sys
