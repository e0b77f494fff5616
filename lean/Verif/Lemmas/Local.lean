import Verif.Lemmas.DynamicWorkers
/-
A step of the runtime depends only on the tasks that have been submitted.
-/
set_option linter.unusedVariables false
namespace RG.Graph

/-- the first `n` tasks are the same -/
structure Agree (cfg cfg' : Cfg) (n : Nat) : Prop where
  user : ∀ t, t < n → cfg'.user t = cfg.user t
  space : ∀ t, t < n → cfg'.space t = cfg.space t
  par : ∀ t, t < n → cfg'.parentOf t = cfg.parentOf t
  strict : cfg'.strict = cfg.strict
  single : cfg'.single = cfg.single

variable {cfg cfg' : Cfg} {s s' : State} {l : Lbl}

theorem Agree.mono {n k : Nat} (h : Agree cfg cfg' n) (hk : k ≤ n) : Agree cfg cfg' k :=
  ⟨fun t ht => h.user t (by omega), fun t ht => h.space t (by omega), fun t ht => h.par t (by omega), h.strict, h.single⟩

theorem Agree.symm {n : Nat} (h : Agree cfg cfg' n) : Agree cfg' cfg n :=
  ⟨fun t ht => (h.user t ht).symm, fun t ht => (h.space t ht).symm, fun t ht => (h.par t ht).symm, h.strict.symm,
    h.single.symm⟩

theorem Agree.res {n t : Nat} (h : Agree cfg cfg' n) (ht : t < n) : cfg'.res t = cfg.res t := by
  unfold Cfg.res; rw [h.user t ht]

theorem Agree.serial {n p t : Nat} (h : Agree cfg cfg' n) (hp : p < n) (ht : t < n) :
    cfg'.serial p t = cfg.serial p t := by
  unfold Cfg.serial; rw [h.user t ht, h.user p hp]

theorem Agree.sync {n p : Nat} (h : Agree cfg cfg' n) (hp : p < n) (r : Res) : cfg'.sync p r = cfg.sync p r := by
  unfold Cfg.sync; rw [h.user p hp]

theorem Step.agree (hd : Dom cfg s) (h : Step cfg l s s') (ha : Agree cfg cfg' s'.n) : Step cfg' l s s' := by
  have hle := n_mono h
  have lt : ∀ {t : Nat} {p : Ph}, s.ph t = p → p ≠ .unsub → t < s'.n := fun {t p} h1 h2 =>
    Nat.lt_of_lt_of_le (hd.lt_ph t (by rw [h1]; exact h2)) hle
  have flt : ∀ {t : Nat} {p : Fl}, s.fl t = p → p ≠ .idle → t < s'.n := fun {t p} h1 h2 =>
    Nat.lt_of_lt_of_le (Nat.lt_of_not_le fun h3 => h2 (h1.symm.trans (hd.fl t h3))) hle
  cases h with
  | beginSubmit hp h1 =>
    have hn : s.n < s.n + 1 := Nat.lt_succ_self _
    have e := ha.space s.n hn
    dsimp only at ha
    rw [← e]
    refine .beginSubmit (fun q hq => hp q (by rw [← ha.par s.n hn]; exact hq)) fun h2 c i hc h3 => ?_
    exact h1 (by rw [← ha.single]; exact h2) c i hc (by rw [← ha.space c (by omega), ← e]; exact h3)
  | pushUser h hr => exact .pushUser h (by rw [ha.res (lt h (by simp))]; exact hr)
  | emplace h hr => exact .emplace h (by rw [ha.res (lt h (by simp))]; exact hr)
  | startInit h => exact .startInit h
  | lockRes h hr hl => exact .lockRes h (by rw [ha.res (lt h (by simp))]; exact hr) hl
  | scanParent h hp => exact .scanParent h (by rw [ha.par _ (lt h (by simp))]; exact hp)
  | scanSkip h hp hs =>
    have hpn := Nat.lt_of_lt_of_le (hd.scanP _ _ _ _ h) hle
    refine .scanSkip h (by rw [ha.par _ (lt h (by simp))]; exact hp) ?_
    rw [ha.space _ hpn, ha.space _ (lt h (by simp)), ha.serial hpn (lt h (by simp))]
    exact hs
  | scanReached h hr hp hs h0 =>
    have hpn := Nat.lt_of_lt_of_le (hd.scanP _ _ _ _ h) hle
    rw [← ha.sync hpn]
    refine .scanReached h (by rw [ha.res (lt h (by simp))]; exact hr) (by rw [ha.par _ (lt h (by simp))]; exact hp) ?_ h0
    rw [ha.space _ hpn, ha.space _ (lt h (by simp)), ha.serial hpn (lt h (by simp))]
    exact hs
  | scanLink h hp hs h0 =>
    have hpn := Nat.lt_of_lt_of_le (hd.scanP _ _ _ _ h) hle
    refine .scanLink h (by rw [ha.par _ (lt h (by simp))]; exact hp) ?_ h0
    rw [ha.space _ hpn, ha.space _ (lt h (by simp)), ha.serial hpn (lt h (by simp))]
    exact hs
  | link h => exact .link h
  | incr h hr =>
    have hpn := Nat.lt_of_lt_of_le (hd.incrP _ _ _ _ h) hle
    rw [← ha.sync hpn]
    exact .incr h (by rw [ha.res (lt h (by simp))]; exact hr)
  | scanEnd h => exact .scanEnd h
  | unlock h hr => exact .unlock h (by rw [ha.res (lt h (by simp))]; exact hr)
  | resEnd h hr => exact .resEnd h (by rw [ha.res (lt h (by simp))]; exact hr)
  | noParent h hp => exact .noParent h (by rw [ha.par _ (lt h (by simp))]; exact hp)
  | parentPush h hp => exact .parentPush h (by rw [ha.par _ (lt h (by simp))]; exact hp)
  | parentIncr h => exact .parentIncr h
  | final h => exact .final h
  | start h => exact .start h
  | createEvent h => exact .createEvent h
  | extNotify h => exact .extNotify h
  | extFollower h => exact .extFollower h
  | bodyEnd h hc hs =>
    refine .bodyEnd h (fun c i hcn hp => hc c i hcn ?_) (fun h1 c hcn hp => hs (by rw [← ha.strict]; exact h1) c hcn ?_)
    · rw [← ha.par c hcn]; exact hp
    · rw [← ha.par c hcn]; exact hp
  | delete h hr hl => exact .delete h (by rw [ha.res (flt h (by simp))]; exact hr) hl
  | deleteEnd h hr => exact .deleteEnd h (by rw [ha.res (flt h (by simp))]; exact hr)
  | notifyPre h => exact .notifyPre h
  | notifyPost h => exact .notifyPost h
  | notifyEnd h => exact .notifyEnd h
  | countPost h => exact .countPost h
  | takeFuture h => exact .takeFuture h
  | countGet h => exact .countGet h
  | @freeCount _ t h =>
    have ht : t < s.n := Nat.lt_of_not_le fun h1 => by rw [hd.mem t h1] at h; cases h
    rw [← ha.space t ht]
    exact .freeCount h
  | free h => exact .free h
  | lateRead h => exact .lateRead h

theorem WStep.agree {x x' : WState} (hd : Dom cfg x.g) (h : WStep cfg x x') (ha : Agree cfg cfg' x'.g.n) :
    WStep cfg' x x' := by
  cases h with
  | submitOut h hn hp hk =>
    exact .submitOut (h.agree hd ha) hn (by rw [ha.par _ (by dsimp only; omega)]; exact hp) hk
  | submitIn h hn hp hw hk =>
    exact .submitIn (h.agree hd ha) hn (by rw [ha.par _ (by dsimp only; omega)]; exact hp) hw hk
  | other h hn he hx => exact .other (h.agree hd ha) hn he hx
  | wait h hw hu hc => exact .wait h hw hu fun c i hcn hp => hc c i hcn (by rw [← ha.par c hcn]; exact hp)
  | wake hw hu hk => exact .wake hw hu hk
  | readOut hne hu he hk => exact .readOut hne hu he hk

theorem WStep.n_mono {x x' : WState} (h : WStep cfg x x') : x.g.n ≤ x'.g.n := by
  cases h with
  | submitOut h => exact Graph.n_mono h
  | submitIn h => exact Graph.n_mono h
  | other h => exact Graph.n_mono h
  | _ => exact Nat.le_refl _

end RG.Graph

namespace RG.Sys
open RG.Graph (Cfg WState WStep Agree Dom)

variable {cfg cfg' : Cfg} {N : Nat} {s s' : State}

theorem Step.n_mono (h : Step cfg N s s') : s.x.g.n ≤ s'.x.g.n := by
  cases h <;> first | exact Nat.le_refl _ | exact WStep.n_mono ‹_›

theorem Step.agree (hd : Dom cfg s.x.g) (h : Step cfg N s s') (ha : Agree cfg cfg' s'.x.g.n) : Step cfg' N s s' := by
  cases h with
  | @graph x' h hp hh he hw hn hx =>
    have hm := h.n_mono
    exact .graph (h.agree hd ha) hp hh he hw (fun q h1 h2 => hn q h1 (by
      rw [← ha.par _ (show s.x.g.n < x'.g.n by omega)]; exact h2)) hx
  | emplace hw h hp hq hq' hh he hww => exact .emplace hw (h.agree hd ha) hp hq hq' hh he hww
  | ready h hp hh he hw => exact .ready (h.agree hd ha) hp hh he hw
  | unpause h hg h0 hw => exact .unpause (h.agree hd ha) hg h0 hw
  | activate hw h => exact .activate hw h
  | wake hw h hc => exact .wake hw h hc
  | noise hw hc => exact .noise hw hc
  | notify hw hc => exact .notify hw hc
  | spurious hw hc => exact .spurious hw hc
  | sleep hw h hc => exact .sleep hw h hc
  | wait hw hc => exact .wait hw hc
  | woken hw h hc => exact .woken hw h hc
  | popReady hw h hq => exact .popReady hw h hq
  | noReady hw h hq => exact .noReady hw h hq
  | popNew hw h hq hs hp hi hh he hww => exact .popNew hw h hq (hs.agree hd ha) hp hi hh he hww
  | noNew hw h hq => exact .noNew hw h hq
  | initStep hw h hs hp hi hc hh he hww => exact .initStep hw h (hs.agree hd ha) hp hi hc hh he hww
  | initReady hw h hs hp hi hh he hww => exact .initReady hw h (hs.agree hd ha) hp hi hh he hww
  | initBlocked hw h hs hp hi hh he hww => exact .initBlocked hw h (hs.agree hd ha) hp hi hh he hww
  | stolenBlocked hw h hs hp hi hh he hww => exact .stolenBlocked hw h (hs.agree hd ha) hp hi hh he hww
  | stealReady hw hv h hq => exact .stealReady hw hv h hq
  | noStealReady hw h => exact .noStealReady hw h
  | stealNew hw hv h hq hs hp hi hh he hww => exact .stealNew hw hv h hq (hs.agree hd ha) hp hi hh he hww
  | noStealNew hw h => exact .noStealNew hw h
  | start hw h hs hp hh h0 he hww => exact .start hw h (hs.agree hd ha) hp hh h0 he hww
  | resume hw h hr => exact .resume hw h hr
  | pause hw h hs hg h0 hu hww => exact .pause hw h (hs.agree hd ha) hg h0 hu hww
  | bodyEnd hw h hs hp hh h0 he hk hww =>
    have hm := hs.n_mono
    exact .bodyEnd hw h (hs.agree hd ha) hp hh h0 he (fun c hc hp => hk c hc (by
      rw [← ha.par c (Nat.lt_of_lt_of_le hc hm)]; exact hp)) hww

end RG.Sys

namespace RG.Dyn
open RG.Graph
open RG.Bodies (workers)

variable {cfg cfg' : Cfg} {N : Nat} {M : Type} {P : Prog M} {m0 : M}

theorem owner_agree {n t : Nat} (h : Agree cfg cfg' n) (ht : t < n) : owner cfg' t = owner cfg t := by
  unfold owner; rw [h.par t ht]

theorem rank_agree {n t : Nat} (h : Agree cfg cfg' n) (ht : t < n) : rank cfg' t = rank cfg t := by
  unfold rank
  congr 1
  apply List.filter_congr
  intro c hc
  have := List.mem_range.1 hc
  rw [owner_agree h ht, owner_agree h (show c < n by omega)]

theorem dom {s : Sys.State} (h : Sys.Reach cfg N s) : Dom cfg s.x.g :=
  { Dom.reach h.graph with par := (Dom.reach h.graph).par }

theorem wait_lt {s : Sys.State} (h : Sys.Reach cfg N s) {t u : Nat} (hw : s.x.w t = some u) : u < s.x.g.n :=
  have hk := KInv.reach (Sys.Inv.reach h).wr
  (hk.know t u (hk.w t u hw).1).1

theorem WReach.agree {x : St (workers cfg N) P} (h : WReach cfg N P m0 x) (ha : Agree cfg cfg' x.sys.x.g.n) :
    WReach cfg' N P m0 ⟨x.sys, x.m, x.loc⟩ := by
  induction h with
  | init => exact .init
  | @step x x' hx hs ih =>
    have hd := dom hx.sys
    cases hs with
    | @rt s' h hk hn hret hw =>
      have h' : Sys.Step cfg' N x.sys s' := h.agree hd ha
      have ha' : Agree cfg cfg' x.sys.x.g.n := hn ▸ ha
      refine .step (ih ha') (.rt (cfg := cfg') (x := ⟨x.sys, x.m, x.loc⟩) h' trivial hn hret fun t u h1 h2 => ?_)
      obtain ⟨v, b, h3, h4, h5⟩ := hw t u h1 h2
      have hu : u < x.sys.x.g.n := hn ▸ wait_lt (.step hx.sys h) h2
      exact ⟨v, b, h3, by rw [owner_agree ha' hu]; exact h4, by rw [rank_agree ha' hu]; exact h5⟩
    | @submit s' d c b h hn hp hd' =>
      have h' : Sys.Step cfg' N x.sys s' := h.agree hd ha
      have ha1 : Agree cfg cfg' s'.x.g.n := ha
      have hlt : x.sys.x.g.n < s'.x.g.n := by omega
      have ho := owner_agree ha1 hlt
      have := WReach.step (ih (ha1.mono (by omega))) (.submit (cfg := cfg') (x := ⟨x.sys, x.m, x.loc⟩) h' hn
        (d := d) (c := c) (b := b) (by rw [ho]; exact hp) ((ha1.user _ hlt).trans hd'))
      rw [ho] at this
      exact this
    | act h hp => exact .step (ih ha) (.act (cfg := cfg') (x := ⟨x.sys, x.m, x.loc⟩) h hp)
    | join h hp hc =>
      refine .step (ih ha) (.join (cfg := cfg') (x := ⟨x.sys, x.m, x.loc⟩) h hp fun t h1 h2 h3 => ?_)
      have ha' : Agree cfg cfg' x.sys.x.g.n := ha
      exact hc t h1 (by rw [← owner_agree ha' h1]; exact h2) (by rw [← rank_agree ha' h1]; exact h3)

end RG.Dyn
