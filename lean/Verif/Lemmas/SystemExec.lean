import Verif.Lemmas.Full
import Verif.Lemmas.GraphExec
/-
Concrete executions of the runtime with workers, used for examples and counterexamples.
-/
set_option linter.unusedVariables false
namespace RG.Graph

variable {cfg : Cfg} {x x' : WState}

/-- a step of the task graph, by the executor of Lemmas/GraphExec; new tasks know no futures -/
def gx (cfg : Cfg) (x : WState) (a : Act) : Option WState :=
  match exec cfg x.g a with
  | none => none
  | some g' =>
    if g'.n = x.g.n then
      if (∀ t, t < x.g.n → x.w t ≠ none → x.g.ex t = .running → g'.ex t = .running) ∧ g'.nExt = x.g.nExt then
        some ⟨g', x.w, x.know, x.out⟩
      else none
    else if g'.n = x.g.n + 1 then
      match cfg.parentOf x.g.n with
      | none => some ⟨g', x.w, upd x.know x.g.n [], x.g.n :: x.out⟩
      | some q =>
        if x.w q = none then some ⟨g', x.w, upd (upd x.know q (x.g.n :: x.know q)) x.g.n [], x.out⟩ else none
    else none

theorem gx_step {a : Act} (hr : Reach cfg x.g) (h : gx cfg x a = some x') : WStep cfg x x' ∧ x'.w = x.w := by
  unfold gx at h
  cases he : exec cfg x.g a with
  | none => rw [he] at h; cases h
  | some g' =>
    rw [he] at h
    dsimp only at h
    obtain ⟨l, hs⟩ := exec_step he
    split at h
    · rename_i hn
      split at h
      · rename_i h1
        cases h
        refine ⟨.other hs hn (fun t h2 h3 => ?_) (.inl h1.2), rfl⟩
        by_cases ht : t < x.g.n
        · exact h1.1 t ht h2 h3
        · rw [(Dom.reach hr).ex t (by omega)] at h3; cases h3
      · cases h
    · split at h
      · rename_i hn
        split at h
        · rename_i hp
          cases h
          exact ⟨.submitOut hs hn hp (by simp), rfl⟩
        · rename_i q hp
          split at h
          · rename_i hw
            cases h
            exact ⟨.submitIn hs hn hp hw (by simp), rfl⟩
          · cases h
      · cases h

end RG.Graph

namespace RG.Cv

/-- the next step of waiter 0 that is not a round of busy waiting -/
def execWait (c : State) : Option State :=
  match c.ws 0 with
  | .check => if c.flag = true then some { c with ws := upd c.ws 0 .check2 } else some { c with ws := upd c.ws 0 .store }
  | .store => some { c with flag := true, ws := upd c.ws 0 .out, pend := false, rets := upd c.rets 0 (c.rets 0 + 1) }
  | _ => none

theorem execWait_step {c c' : State} (h : execWait c = some c') : Step (.wait 0) c c' := by
  unfold execWait at h
  split at h
  · rename_i h1
    split at h
    · rename_i h2; cases h; exact .timeout h1 h2
    · rename_i h2; cases h; exact .leave h1 (by simpa using h2)
  · rename_i h1; cases h; exact .store h1
  · cases h

def execNotify (c : State) (j : Nat) : Option State :=
  match c.ns j with
  | .cas => some { c with flag := false, ns := upd c.ns j .lockM, pend := true }
  | _ => none

theorem execNotify_step {c c' : State} {j : Nat} (h : execNotify c j = some c') : Step (.notify j) c c' := by
  unfold execNotify at h
  split at h
  · rename_i h1; cases h; exact .cas h1
  · cases h

end RG.Cv

namespace RG.Sys

open RG.Graph (Cfg WState WStep gx gx_step Act)

variable {cfg : Cfg} {N : Nat} {s s' : State}

/-- the requirements of the constructors of `Step`, for the tasks that exist -/
def okX (x x' : WState) (e : Option Nat) (dh : Nat → Nat) (dex : Nat → RG.Graph.Ex) : Bool :=
  decide (∀ t, t < x'.g.n →
    (some t ≠ e → stage (x'.g.ph t) = stage (x.g.ph t) ∧ (stage (x.g.ph t) = .initing → x'.g.ph t = x.g.ph t)) ∧
    x'.g.handed t = dh t ∧ x'.g.ex t = dex t)

theorem okX_spec {x x' : WState} {e : Option Nat} {dh : Nat → Nat} {dex : Nat → RG.Graph.Ex}
    (hr : RG.Graph.WReach cfg x) (hs : WStep cfg x x') (h : okX x x' e dh dex = true)
    (h1 : ∀ t, x.g.n ≤ t → dh t = 0) (h2 : ∀ t, x.g.n ≤ t → dex t = .none) :
    SamePh x x' e ∧ x'.g.handed = dh ∧ x'.g.ex = dex := by
  have h := of_decide_eq_true h
  have hd := RG.Graph.Dom.reach hr.graph
  have hd' := RG.Graph.Dom.reach (RG.Graph.WReach.step hr hs).graph
  have hn : x.g.n ≤ x'.g.n := by
    cases hs with
    | submitOut _ hn _ _ => dsimp only; omega
    | submitIn _ hn _ _ _ => dsimp only; omega
    | other _ hn _ _ => dsimp only; omega
    | _ => exact Nat.le_refl _
  refine ⟨⟨fun t ht => ?_, fun t ht hi => ?_⟩, funext fun t => ?_, funext fun t => ?_⟩
  · by_cases h3 : t < x'.g.n
    · exact ((h t h3).1 ht).1
    · rw [hd.ph t (by omega), hd'.ph t (by omega)]
  · by_cases h3 : t < x'.g.n
    · exact ((h t h3).1 ht).2 hi
    · rw [hd.ph t (by omega), hd'.ph t (by omega)]
  · by_cases h3 : t < x'.g.n
    · exact (h t h3).2.1
    · rw [hd'.handed t (by omega), h1 t (by omega)]
  · by_cases h3 : t < x'.g.n
    · exact (h t h3).2.2
    · rw [hd'.ex t (by omega), h2 t (by omega)]

inductive SAct
  | graph (a : Act)
  | emplace (w t : Nat)
  | noise (w : Nat)
  | notify (w j : Nat)
  | sleep (w : Nat)
  | wait (w : Nat)
  | woken (w : Nat)
  | noReady (w : Nat)
  | popNew (w t : Nat)
  /-- continue to initialise a task -/
  | init (w t : Nat)
  | start (w t : Nat)
  | bodyEnd (w t : Nat)

def exec (cfg : Cfg) (N : Nat) (s : State) : SAct → Option State
  | .graph a =>
    match gx cfg s.x a with
    | none => none
    | some x' =>
      if okX s.x x' none s.x.g.handed s.x.g.ex = true ∧
          (x'.g.n ≠ s.x.g.n → ∀ q ∈ cfg.parentOf s.x.g.n, ∃ w, w < N ∧ s.pc w = .exec q) ∧ x'.g.nExt = s.x.g.nExt then
        some { s with x := x' }
      else none
  | .emplace w t =>
    match gx cfg s.x (.sub t) with
    | none => none
    | some x' =>
      if okX s.x x' (some t) s.x.g.handed s.x.g.ex = true ∧ w < N ∧ stage (s.x.g.ph t) = .submitted ∧
          x'.g.ph t = .queued then
        some { s with x := x', new := upd s.new w (t :: s.new w), wk := upd s.wk w (s.wk w + 1) }
      else none
  | .noise w =>
    if w < N ∧ (s.cv w).ns (s.nn w) = .out then
      some { s with
        nn := upd s.nn w (s.nn w + 1)
        cv := upd s.cv w { s.cv w with ns := upd (s.cv w).ns (s.nn w) .cas } }
    else none
  | .notify w j =>
    match Cv.execNotify (s.cv w) j with
    | none => none
    | some c => if w < N then some { s with cv := upd s.cv w c } else none
  | .sleep w =>
    if w < N ∧ s.pc w = .top ∧ (s.cv w).ws 0 = .out then
      some { s with
        pc := upd s.pc w .waiting
        cv := upd s.cv w { s.cv w with ws := upd (s.cv w).ws 0 .check } }
    else none
  | .wait w =>
    match Cv.execWait (s.cv w) with
    | none => none
    | some c => if w < N then some { s with cv := upd s.cv w c } else none
  | .woken w =>
    if w < N ∧ s.pc w = .waiting ∧ (s.cv w).ws 0 = .out then some { s with pc := upd s.pc w .popReady } else none
  | .noReady w =>
    if w < N ∧ s.pc w = .popReady ∧ s.ready w = [] then some { s with pc := upd s.pc w .popNew } else none
  | .popNew w t =>
    match gx cfg s.x (.init t) with
    | none => none
    | some x' =>
      if okX s.x x' (some t) s.x.g.handed s.x.g.ex = true ∧ w < N ∧ s.pc w = .popNew ∧ t ∈ s.new w ∧
          stage (x'.g.ph t) = .initing then
        some { s with x := x', pc := upd s.pc w (.initing t), new := upd s.new w ((s.new w).erase t) }
      else none
  | .init w t =>
    match gx cfg s.x (.init t) with
    | none => none
    | some x' =>
      if w < N ∧ s.pc w = .initing t ∧ t < s.x.g.n then
        if okX s.x x' (some t) s.x.g.handed s.x.g.ex = true ∧ stage (x'.g.ph t) = .initing ∧ x'.g.ph t ≠ s.x.g.ph t then
          some { s with x := x' }
        else if okX s.x x' (some t) (upd s.x.g.handed t (s.x.g.handed t + 1)) s.x.g.ex = true ∧ x'.g.ph t = .inited then
          some { s with x := x', pc := upd s.pc w (.run t) }
        else if okX s.x x' (some t) s.x.g.handed s.x.g.ex = true ∧ x'.g.ph t = .inited then
          some { s with x := x', pc := upd s.pc w .popNew }
        else none
      else none
  | .start w t =>
    match gx cfg s.x (.start t) with
    | none => none
    | some x' =>
      if w < N ∧ s.pc w = .run t ∧ t < s.x.g.n ∧ s.x.g.ex t = .none ∧ s.x.g.handed t = x'.g.handed t + 1 ∧
          okX s.x x' none (upd s.x.g.handed t (s.x.g.handed t - 1)) (upd s.x.g.ex t .running) = true then
        some { s with x := x', pc := upd s.pc w (.exec t) }
      else none
  | .bodyEnd w t =>
    match gx cfg s.x (.ret t) with
    | none => none
    | some x' =>
      if w < N ∧ s.pc w = .exec t ∧ t < s.x.g.n ∧ s.x.g.ex t = .running ∧
          (∀ c, c < s.x.g.n → cfg.parentOf c = some t → s.x.g.ex c = .ended) ∧
          okX s.x x' none s.x.g.handed (upd s.x.g.ex t .ended) = true then
        some { s with x := x', pc := upd s.pc w .popReady }
      else none

theorem exec_step {a : SAct} (hr : Reach cfg N s) (h : exec cfg N s a = some s') :
    Step cfg N s s' ∧ s'.x.w = s.x.w := by
  have hi := Inv.reach hr
  have hd := RG.Graph.Dom.reach hi.wr.graph
  have dom : ∀ {e x'}, WStep cfg s.x x' → okX s.x x' e s.x.g.handed s.x.g.ex = true →
      SamePh s.x x' e ∧ x'.g.handed = s.x.g.handed ∧ x'.g.ex = s.x.g.ex :=
    fun h1 h2 => okX_spec hi.wr h1 h2 hd.handed hd.ex
  have updn : ∀ {α} {f : Nat → α} {t : Nat} {v d : α}, (∀ u, s.x.g.n ≤ u → f u = d) → t < s.x.g.n →
      ∀ u, s.x.g.n ≤ u → upd f t v u = d := by
    intro α f t v d h1 h2 u h3
    rw [upd_ne _ _ (by omega)]; exact h1 u h3
  cases a with
  | graph a =>
    simp only [exec] at h
    split at h
    · cases h
    · rename_i x' hx
      obtain ⟨h1, h2⟩ := gx_step hi.wr.graph hx
      split at h
      · rename_i hc
        cases h
        obtain ⟨h3, h4, h5⟩ := dom h1 hc.1
        exact ⟨.graph h1 h3 h4 h5 h2 (fun q h6 h7 => hc.2.1 h6 q h7) (fun h6 => absurd hc.2.2 h6), h2⟩
      · cases h
  | emplace w t =>
    simp only [exec] at h
    split at h
    · cases h
    · rename_i x' hx
      obtain ⟨h1, h2⟩ := gx_step hi.wr.graph hx
      split at h
      · rename_i hc
        cases h
        obtain ⟨h3, h4, h5⟩ := dom h1 hc.1
        exact ⟨.emplace hc.2.1 h1 h3 hc.2.2.1 hc.2.2.2 h4 h5 h2, h2⟩
      · cases h
  | noise w =>
    simp only [exec] at h
    split at h
    · rename_i hc; cases h; exact ⟨.noise hc.1 (.notifyCall hc.2), rfl⟩
    · cases h
  | notify w j =>
    simp only [exec] at h
    split at h
    · cases h
    · rename_i c hc
      split at h
      · rename_i hw; cases h; exact ⟨.notify hw (Cv.execNotify_step hc), rfl⟩
      · cases h
  | sleep w =>
    simp only [exec] at h
    split at h
    · rename_i hc; cases h; exact ⟨.sleep hc.1 hc.2.1 (.waitCall hc.2.2), rfl⟩
    · cases h
  | wait w =>
    simp only [exec] at h
    split at h
    · cases h
    · rename_i c hc
      split at h
      · rename_i hw; cases h; exact ⟨.wait hw (Cv.execWait_step hc), rfl⟩
      · cases h
  | woken w =>
    simp only [exec] at h
    split at h
    · rename_i hc; cases h; exact ⟨.woken hc.1 hc.2.1 hc.2.2, rfl⟩
    · cases h
  | noReady w =>
    simp only [exec] at h
    split at h
    · rename_i hc; cases h; exact ⟨.noReady hc.1 hc.2.1 hc.2.2, rfl⟩
    · cases h
  | popNew w t =>
    simp only [exec] at h
    split at h
    · cases h
    · rename_i x' hx
      obtain ⟨h1, h2⟩ := gx_step hi.wr.graph hx
      split at h
      · rename_i hc
        cases h
        obtain ⟨h3, h4, h5⟩ := dom h1 hc.1
        exact ⟨.popNew hc.2.1 hc.2.2.1 hc.2.2.2.1 h1 h3 hc.2.2.2.2 h4 h5 h2, h2⟩
      · cases h
  | init w t =>
    simp only [exec] at h
    split at h
    · cases h
    · rename_i x' hx
      obtain ⟨h1, h2⟩ := gx_step hi.wr.graph hx
      split at h
      · rename_i hc
        split at h
        · rename_i h6
          cases h
          obtain ⟨h3, h4, h5⟩ := dom h1 h6.1
          exact ⟨.initStep hc.1 (.inl hc.2.1) h1 h3 h6.2.1 h6.2.2 h4 h5 h2, h2⟩
        · split at h
          · rename_i h6
            cases h
            obtain ⟨h3, h4, h5⟩ := okX_spec hi.wr h1 h6.1 (updn hd.handed hc.2.2) hd.ex
            exact ⟨.initReady hc.1 (.inl hc.2.1) h1 h3 h6.2 h4 h5 h2, h2⟩
          · split at h
            · rename_i h6
              cases h
              obtain ⟨h3, h4, h5⟩ := dom h1 h6.1
              exact ⟨.initBlocked hc.1 hc.2.1 h1 h3 h6.2 h4 h5 h2, h2⟩
            · cases h
      · cases h
  | start w t =>
    simp only [exec] at h
    split at h
    · cases h
    · rename_i x' hx
      obtain ⟨h1, h2⟩ := gx_step hi.wr.graph hx
      split at h
      · rename_i hc
        cases h
        obtain ⟨h3, h4, h5⟩ := okX_spec hi.wr h1 hc.2.2.2.2.2 (updn hd.handed hc.2.2.1) (updn hd.ex hc.2.2.1)
        refine ⟨.start hc.1 hc.2.1 h1 h3 ?_ hc.2.2.2.1 h5 h2, h2⟩
        have h6 := hc.2.2.2.2.1
        rw [h4] at h6 ⊢
        rw [upd_same] at h6 ⊢
        funext u
        by_cases e : u = t
        · subst e; rw [upd_same]; exact h6
        · rw [upd_ne _ _ e, upd_ne _ _ e]
      · cases h
  | bodyEnd w t =>
    simp only [exec] at h
    split at h
    · cases h
    · rename_i x' hx
      obtain ⟨h1, h2⟩ := gx_step hi.wr.graph hx
      split at h
      · rename_i hc
        cases h
        obtain ⟨h3, h4, h5⟩ := okX_spec hi.wr h1 hc.2.2.2.2.2 hd.handed (updn hd.ex hc.2.2.1)
        exact ⟨.bodyEnd hc.1 hc.2.1 h1 h3 h4 hc.2.2.2.1 h5 hc.2.2.2.2.1 h2, h2⟩
      · cases h

end RG.Sys
