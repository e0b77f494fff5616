import Verif.Lemmas.VisibleProg
/-
Lemmas for C85: the happens-before relation of a program is defined for all its executions.
-/
set_option linter.unusedVariables false
namespace RG.Vis
open RG.Graph
open RG.Dyn (owner rank count Prog Occ Has From Tidy Covered Below plus usr desc_strict)
open RG.Bodies (lt_of_started)

variable {cfg : Cfg} {x x' : V} {M : Type} {P : Prog M} {m0 : M} {y y' : H P} {Cf : P.B → P.B → Prop}

/-! ### Executions in which parents wait for the initialisation of their children -/

theorem exec_strict {s s' : State} {a : Act} (h : exec cfg s a = some s')
    (hk : ∀ t, a = .ret t → ∀ c, c < s.n → cfg.parentOf c = some t → s.ph c = .inited) :
    exec { cfg with strict := true } s a = some s' := by
  cases a with
  | ret t =>
    simp only [exec] at h ⊢
    split at h
    · rename_i hg
      cases h
      rw [if_pos ⟨hg.1, hg.2.1, fun _ => hk t rfl⟩]
    · cases h
  | _ => exact h

theorem exec_of_strict {s s' : State} {a : Act} (h : exec { cfg with strict := true } s a = some s') :
    exec cfg s a = some s' := by
  cases a with
  | ret t =>
    simp only [exec] at h ⊢
    split at h
    · rename_i hg
      cases h
      exact if_pos ⟨hg.1, hg.2.1, fun _ => hg.2.2 trivial⟩
    · cases h
  | _ => exact h

theorem HStep.of_strict (h : HStep { cfg with strict := true } P y y') : HStep cfg P y y' := by
  cases h with
  | graph h ha hr => exact .graph (cfg := cfg) (exec_of_strict h) ha hr
  | submit h hb hp hd => exact .submit (cfg := cfg) (exec_of_strict h) hb hp hd
  | act h hp => exact .act h hp
  | fin h hp => exact .fin h hp
  | get h hp hw => exact .get (cfg := cfg) h hp hw
  | barrier hp h hw => exact .barrier (cfg := cfg) hp h hw

theorem HReach.of_strict (h : HReach { cfg with strict := true } P m0 y) : HReach cfg P m0 y := by
  induction h with
  | init => exact .init
  | step _ hs ih => exact .step ih hs.of_strict

theorem proper_strict (hP : ProperFor cfg P Cf) : ProperFor { cfg with strict := true } P Cf where
  wf := WellFormed.strict hP.wf
  single := hP.single
  one := hP.one
  covered := hP.covered
  symm := hP.symm
  waits := hP.waits
  declares t u p q k j b b' h1 h2 h3 h4 h5 := by
    obtain ⟨r, h6, h7⟩ := hP.declares t u p q k j b b' h1 h2 h3 h4 h5
    refine ⟨r, h6, fun a h8 h9 h10 => h7 a h8 h9 ?_⟩
    rcases h10 with ⟨h10, h11⟩ | ⟨h10, h11⟩
    · exact .inl ⟨desc_strict.1 h10, fun h => h11 (desc_strict.2 h)⟩
    · exact .inr ⟨desc_strict.1 h10, fun h => h11 (desc_strict.2 h)⟩

/-- when a body is done, its children have been initialised -/
theorem kids_inited (hP : ProperFor cfg P Cf) (hr : HReach { cfg with strict := true } P m0 y) {t : Nat}
    (hx : y.v.g.ex t ≠ .none) (hd : P.pt (y.loc (t + 1)) = .done) (c : Nat) (hc : c < y.v.g.n)
    (hq : cfg.parentOf c = some t) : y.v.g.ph c = .inited := by
  obtain ⟨o, birth, name, hi⟩ := HInv.reach (proper_strict hP) (.inl rfl) hr
  have hgr := hr.vis.g
  have htn : t < y.v.g.n := lt_of_started (.inl rfl) hgr hx
  have h1 := hP.waits.done _ _ _ (hi.tidy.has (t + 1) htn) hd (rank cfg c)
  have ho : owner { cfg with strict := true } c = t + 1 := by
    show owner cfg c = t + 1
    rw [owner, hq]
  exact ((Core.reach (.inl rfl) hgr).exI c (hi.tidy.kids c hc (by rw [ho]; exact h1)).1).1

theorem HReach.strict (hP : ProperFor cfg P Cf) (h : HReach cfg P m0 y) : HReach { cfg with strict := true } P m0 y := by
  induction h with
  | init => exact .init
  | @step y y' hr hs ih =>
    refine .step ih ?_
    have ha := (all_reach (.inl rfl) ih.vis).1
    obtain ⟨o, birth, name, hi⟩ := HInv.reach (proper_strict hP) (.inl rfl) ih
    cases hs with
    | @graph a s' h hna hrt =>
      refine .graph (cfg := { cfg with strict := true }) (exec_strict h fun t e c hc hq => ?_) hna hrt
      have hf := hrt t e
      exact kids_inited hP ih (ha.base.finEx t hf) (hi.base.finDone t hf) c hc hq
    | submit h hb hp hd =>
      exact .submit (cfg := { cfg with strict := true }) (exec_strict h fun t e => by cases e) hb hp hd
    | act h hp => exact .act h hp
    | fin h hp => exact .fin h hp
    | get h hp hw => exact .get (cfg := { cfg with strict := true }) h hp hw
    | barrier hp h hw => exact .barrier (cfg := { cfg with strict := true }) hp h hw

/-- Conflicting actions are ordered by happens-before. -/
theorem ordered (hP : ProperFor cfg P Cf) (hr : HReach cfg P m0 y) {i j k : Nat} {f : M → P.B × M} (hb : Busy y.v i)
    (hp : P.pt (y.loc i) = .act f) (hk : k < y.v.cnt (.body j)) (hc : Cf (y.log (.body j, k)) (y.loc i)) :
    y.v.k.know (.body i) (.body j, k) := by
  have hs := hr.strict hP
  obtain ⟨o, birth, name, hi⟩ := HInv.reach (proper_strict hP) (.inl rfl) hs
  exact hi.ordered (proper_strict hP) (.inl rfl) hs hb hp hk hc

/-! ### All executions -/

/-- the steps of Model/Graph are the ones of `exec` -/
theorem step_exec {s s' : State} {l : Lbl} (hi : Core cfg s) (h : Graph.Step cfg l s s') : ∃ a, exec cfg s a = some s' := by
  cases h with
  | beginSubmit hp hs =>
    refine ⟨.submit, if_pos ⟨fun q hq => hp q hq, fun h c hc hsp => ?_⟩⟩
    cases hph : s.ph c with
    | submitting i => exact absurd hph (hs h c i hc hsp)
    | _ => rfl
  | @pushUser _ t i r h hr => exact ⟨.sub t, by simp only [exec, h, hr]⟩
  | @emplace _ t i h hr =>
    exact ⟨.sub t, by simp only [exec, h]; rw [List.getElem?_eq_none (by omega)]; simp only; rw [if_pos hr]⟩
  | @startInit _ t h => exact ⟨.init t, by simp only [exec, execInit, h]⟩
  | @lockRes _ t i r h hr hl => exact ⟨.init t, by simp only [exec, execInit, h, hr, hl, if_true]⟩
  | @scanParent _ t i p rem h hp =>
    obtain ⟨r, hr⟩ := hi.holdR t i (by rw [h]; rfl)
    exact ⟨.init t, by simp only [exec, execInit, h, hr]; rw [if_pos hp]⟩
  | @scanSkip _ t i p rem h hp hs =>
    obtain ⟨r, hr⟩ := hi.holdR t i (by rw [h]; rfl)
    exact ⟨.init t, by simp only [exec, execInit, h, hr]; rw [if_neg hp, if_neg hs]⟩
  | @scanReached _ t i p rem r h hr hp hs h0 =>
    exact ⟨.init t, by simp only [exec, execInit, h, hr]; rw [if_neg hp, if_pos hs, if_pos h0]⟩
  | @scanLink _ t i p rem h hp hs h0 =>
    obtain ⟨r, hr⟩ := hi.holdR t i (by rw [h]; rfl)
    exact ⟨.init t, by simp only [exec, execInit, h, hr]; rw [if_neg hp, if_pos hs, if_neg h0]⟩
  | @link _ t i p rem h => exact ⟨.init t, by simp only [exec, execInit, h]⟩
  | @incr _ t i p rem r h hr => exact ⟨.init t, by simp only [exec, execInit, h, hr]⟩
  | @scanEnd _ t i h => exact ⟨.init t, by simp only [exec, execInit, h]⟩
  | @unlock _ t i r h hr => exact ⟨.init t, by simp only [exec, execInit, h, hr]⟩
  | @resEnd _ t i h hr =>
    exact ⟨.init t, by simp only [exec, execInit, h]; rw [List.getElem?_eq_none (by omega)]; simp only; rw [if_pos hr]⟩
  | @noParent _ t h hp => exact ⟨.init t, by simp only [exec, execInit, h, hp]⟩
  | @parentPush _ t q h hp => exact ⟨.init t, by simp only [exec, execInit, h, hp]⟩
  | @parentIncr _ t q h => exact ⟨.init t, by simp only [exec, execInit, h]⟩
  | @final _ t h => exact ⟨.init t, by simp only [exec, execInit, h]⟩
  | @start _ t h => exact ⟨.start t, if_pos h⟩
  | @createEvent _ t h => exact ⟨.event t, if_pos h⟩
  | @extNotify _ k h => exact ⟨.notify k, if_pos h⟩
  | @extFollower _ k h => exact ⟨.follow k, if_pos h⟩
  | @bodyEnd _ t h hc hs =>
    refine ⟨.ret t, if_pos ⟨h, fun c h1 h2 => ?_, hs⟩⟩
    cases hph : s.ph c with
    | submitting i => exact absurd hph (hc c i h1 h2)
    | _ => rfl
  | @delete _ t i r h hr hl => exact ⟨.flush t, by simp only [exec, h, hr, hl, if_true]⟩
  | @deleteEnd _ t i h hr =>
    exact ⟨.flush t, by simp only [exec, h]; rw [List.getElem?_eq_none (by omega)]; simp only; rw [if_pos hr]⟩
  | @notifyPre _ p t rem h => exact ⟨.flush p, by simp only [exec, h]⟩
  | @notifyPost _ p q rem h => exact ⟨.flush p, by simp only [exec, h]⟩
  | @notifyEnd _ t h => exact ⟨.flush t, by simp only [exec, h]⟩
  | @countPost _ t h => exact ⟨.flush t, by simp only [exec, h]⟩
  | @takeFuture _ t h => exact ⟨.take t, by simp only [exec, h]⟩
  | @countGet _ t h => exact ⟨.take t, by simp only [exec, h]⟩
  | @freeCount _ t h => exact ⟨.free t, by simp only [exec, h]⟩
  | @free _ t h => exact ⟨.free t, by simp only [exec, h]⟩
  | @lateRead _ t h => exact ⟨.late t, if_pos h⟩

theorem exec_running {s s' : State} {a : Act} (h : exec cfg s a = some s') (t : Nat) (hx : s'.ex t = .running) :
    s.ex t = .running ∨ a = .start t := by
  have hd := does h
  clear h
  revert hd hx
  generalize sync cfg s a = l
  intro hx hd
  cases hd <;> simp only [State.decPost, State.decPre, State.decCd, upd] at hx <;> grind

theorem exec_ret {s s' : State} {t : Nat} (h : exec cfg s (.ret t) = some s') : s.ex t = .running ∧ s'.ex t = .ended := by
  have hd := does h
  clear h
  revert hd
  generalize sync cfg s (.ret t) = l
  intro hd
  cases hd with
  | bodyEnd h => exact ⟨h, by simp [State.decPost]⟩

/-- the results of the bodies that are done have been set -/
def Closed (P : Prog M) (y : H P) : Prop :=
  ∀ t, y.v.g.ex t = .running → P.pt (y.loc (t + 1)) = .done → y.v.fin t = true

/-- setting the result of a task -/
theorem close (h : HReach cfg P m0 y) (t : Nat)
    (hc : ∀ u, u ≠ t → y.v.g.ex u = .running → P.pt (y.loc (u + 1)) = .done → y.v.fin u = true) :
    ∃ y', HReach cfg P m0 y' ∧ y'.v.g = y.v.g ∧ y'.m = y.m ∧ y'.loc = y.loc ∧ Closed P y' := by
  by_cases hd : y.v.g.ex t = .running ∧ P.pt (y.loc (t + 1)) = .done ∧ y.v.fin t = false
  · refine ⟨_, h.step (.fin (t := t) ⟨hd.1, hd.2.2⟩ hd.2.1), rfl, rfl, rfl, fun u h1 h2 => ?_⟩
    by_cases e : u = t
    · subst e; exact upd_same _ _ _
    · dsimp only
      rw [upd_ne _ _ e]
      exact hc u e h1 h2
  · refine ⟨y, h, rfl, rfl, rfl, fun u h1 h2 => ?_⟩
    by_cases e : u = t
    · subst e
      cases hf : y.v.fin u with
      | true => rfl
      | false => exact absurd ⟨h1, h2, hf⟩ hd
    · exact hc u e h1 h2

/-- Every execution of the program, see Model/Dynamic, is one of Model/VisibleProg. -/
theorem lift (hP : ProperFor cfg P Cf) {careful : Bool} {x : Dyn.St (Bodies.graph cfg) P}
    (h : Dyn.Reach cfg (Bodies.graph cfg) P careful m0 x) :
    ∃ y, HReach { cfg with strict := true } P m0 y ∧ y.v.g = x.s ∧ y.m = x.m ∧ y.loc = x.loc ∧ Closed P y := by
  induction h with
  | init => exact ⟨hinit P m0, .init, rfl, rfl, rfl, fun t h => nomatch h⟩
  | @step x x' hx hs ih =>
    obtain ⟨y, hr, hg, hm, hl, hcl⟩ := ih
    have ha := (all_reach (.inl rfl) hr.vis).1
    obtain ⟨o, birth, name, hi⟩ := HInv.reach (proper_strict hP) (.inl rfl) hr
    have busy : ∀ i, Dyn.Active x.s i → P.pt (x.loc i) ≠ .done → Busy y.v i := by
      intro i h1 h2
      cases i with
      | zero => trivial
      | succ t =>
        refine ⟨by rw [hg]; exact h1, ?_⟩
        cases hf : y.v.fin t with
        | false => rfl
        | true => exact absurd (hl ▸ hi.base.finDone t hf) h2
    have ex : ∀ {s' : State}, (∃ l, Graph.Step cfg l x.s s') →
        (∀ t, State.ex x.s t = .running → s'.ex t ≠ .running → P.pt (x.loc (t + 1)) = .done) →
        ∃ a, exec { cfg with strict := true } y.v.g a = some s' ∧ ∀ t, a = .ret t → y.v.fin t = true := by
      rintro s' ⟨l, hst⟩ hret
      rw [← hg] at hst hret
      have hst' : Graph.Step { cfg with strict := true } l y.v.g s' := hst.to_strict fun t c h3 h4 h5 h6 =>
        kids_inited hP hr (by rw [h3]; simp) (hl ▸ hret t h3 (by rw [h4]; simp)) c h5 h6
      obtain ⟨a, hae⟩ := step_exec ha.core hst'
      refine ⟨a, hae, fun t e => ?_⟩
      subst e
      obtain ⟨h1, h2⟩ := exec_ret hae
      exact hcl t h1 (hl ▸ hret t h1 (by rw [h2]; simp))
    cases hs with
    | @rt s' h hn hret =>
      obtain ⟨a, h1, h2⟩ := ex h hret
      have hna : a ≠ .submit := by
        rintro rfl
        have := (exec_n h1).1 rfl
        rw [hg] at this
        have hn' : s'.n = State.n x.s := hn
        omega
      have hy := hr.step (.graph (cfg := { cfg with strict := true }) h1 hna h2)
      by_cases hst : ∃ t, a = .start t
      · obtain ⟨t, rfl⟩ := hst
        obtain ⟨y', h3, h4, h5, h6, h7⟩ := close hy t (fun u hu hx hd => by
          rcases exec_running h1 u hx with h | h
          · exact hcl u h hd
          · cases h; exact absurd rfl hu)
        exact ⟨y', h3, h4, h5.trans hm, h6.trans hl, h7⟩
      · refine ⟨_, hy, rfl, hm, hl, fun u hx hd => ?_⟩
        rcases exec_running h1 u hx with h | h
        · exact hcl u h hd
        · exact absurd ⟨u, h⟩ hst
    | @submit s' d c b h hn hret hp hd =>
      obtain ⟨a, h1, h2⟩ := ex h hret
      have ha' : a = .submit := by
        apply Classical.byContradiction
        intro hna
        have := (exec_n h1).2 hna
        rw [hg] at this
        have hn' : s'.n = State.n x.s + 1 := hn
        omega
      subst ha'
      have hpar : ∀ q, cfg.parentOf y.v.g.n = some q → y.v.g.ex q = .running := by
        intro q hq
        simp only [exec] at h1
        split at h1
        · rename_i hgd; exact hgd.1 q hq
        · cases h1
      have hact : Dyn.Active x.s (owner cfg (State.n x.s)) := by
        rw [← hg]
        unfold owner
        cases hq : cfg.parentOf y.v.g.n with
        | none => trivial
        | some q => exact hpar q hq
      have hg' : (Bodies.graph cfg).g x.s = y.v.g := hg.symm
      rw [hg', ← hl] at hp
      rw [hg'] at hd
      have hb := busy _ hact (by
        rw [← hl]
        show P.pt (y.loc (owner cfg ((Bodies.graph cfg).g x.s).n)) ≠ .done
        rw [hg', hp]; simp)
      have hsx : State.n x.s = y.v.g.n := by rw [hg]
      rw [hsx] at hb
      have hy := hr.step (.submit (cfg := { cfg with strict := true }) h1 hb hp hd)
      have hloc : ∀ u, u + 1 ≠ owner cfg y.v.g.n → u ≠ y.v.g.n →
          upd (upd y.loc (owner cfg y.v.g.n) b) (y.v.g.n + 1) c (u + 1) = y.loc (u + 1) := by
        intro u h1 h2
        rw [upd_ne _ _ (by omega), upd_ne _ _ h1]
      have hnew : s'.ex y.v.g.n ≠ .running := by
        intro hx
        rcases exec_running h1 _ hx with h | h
        · rw [ha.dom.ex _ (Nat.le_refl _)] at h; cases h
        · cases h
      obtain ⟨y', h3, h4, h5, h6, h7⟩ := close hy (owner cfg y.v.g.n - 1) (fun u hu hx hdn => by
        have hun : u ≠ y.v.g.n := by rintro rfl; exact hnew hx
        have : u + 1 ≠ owner cfg y.v.g.n := by omega
        have hdn' : P.pt (upd (upd y.loc (owner cfg y.v.g.n) b) (y.v.g.n + 1) c (u + 1)) = .done := hdn
        rw [hloc u this hun] at hdn'
        rcases exec_running h1 u hx with h | h
        · exact hcl u h hdn'
        · cases h)
      refine ⟨y', h3, h4, h5.trans hm, ?_, h7⟩
      rw [h6]
      show upd (upd y.loc (owner cfg y.v.g.n) b) (y.v.g.n + 1) c = _
      rw [← hg', ← hl]
    | @act i f h hp hmay =>
      have hb := busy i h (by rw [hp]; simp)
      rw [← hl] at hp
      have hy := hr.step (.act (cfg := { cfg with strict := true }) hb hp)
      obtain ⟨y', h3, h4, h5, h6, h7⟩ := close hy (i - 1) (fun u hu hx hd => by
        have hd' : P.pt (upd y.loc i (f y.m).1 (u + 1)) = .done := hd
        by_cases e : u + 1 = i
        · omega
        · rw [upd_ne _ _ e] at hd'
          exact hcl u hx hd')
      refine ⟨y', h3, h4.trans hg, ?_, ?_, h7⟩
      · rw [h5, ← hm]
      · rw [h6]
        show upd y.loc i (f y.m).1 = _
        rw [hl, hm]
    | @join i w b h hp hc =>
      have hb := busy i h (by rw [hp]; simp)
      rw [← hl] at hp
      have hy := hr.step (.get (cfg := { cfg with strict := true }) hb hp fun t ht => by
        have h1 := hc t (by rw [show ((Bodies.graph cfg).g x.s) = y.v.g from hg.symm]; exact ht.1) ht.2.1 ht.2.2
        rw [show ((Bodies.graph cfg).g x.s) = y.v.g from hg.symm, ← hl] at h1
        cases hx : y.v.g.ex t with
        | none => exact absurd hx h1.1
        | running => exact hcl t hx h1.2
        | ended => exact hi.base.endFin t hx)
      obtain ⟨y', h3, h4, h5, h6, h7⟩ := close hy (i - 1) (fun u hu hx hd => by
        have hd' : P.pt (upd y.loc i b (u + 1)) = .done := hd
        by_cases e : u + 1 = i
        · omega
        · rw [upd_ne _ _ e] at hd'
          exact hcl u hx hd')
      refine ⟨y', h3, h4.trans hg, h5.trans hm, ?_, h7⟩
      rw [h6]
      show upd y.loc i b = _
      rw [hl]

end RG.Vis
