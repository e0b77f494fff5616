import Verif.Model.DynamicWorkers
import Verif.Lemmas.DynamicProgress
import Verif.Props.DynamicRuntime
import Verif.Props.System
/-
Programs whose tasks depend on the data do not get stuck on workers, and end.
-/
set_option linter.unusedVariables false
namespace RG.Dyn
open RG.Graph
open RG.Bodies (Sound graph_sound change Change workers)

variable {cfg : Cfg} {N : Nat} {M : Type} {P : Prog M} {m0 : M} {K K' : Sys.State → Sys.State → Prop}

theorem WStep.mono {x x' : St (workers cfg N) P} (hK : ∀ s s', K s s' → K' s s') (h : WStep cfg N P K x x') :
    WStep cfg N P K' x x' := by
  cases h with
  | rt h hk hn hret hw => exact .rt h (hK _ _ hk) hn hret hw
  | submit h hn hp hd => exact .submit h hn hp hd
  | act h hp => exact .act h hp
  | join h hp hc => exact .join h hp hc

theorem WStep.any {x x' : St (workers cfg N) P} (h : WStep cfg N P K x x') : WStep cfg N P (fun _ _ => True) x x' :=
  h.mono fun _ _ _ => trivial

theorem WReach.sys {x : St (workers cfg N) P} (h : WReach cfg N P m0 x) : Sys.Reach cfg N x.sys := by
  induction h with
  | init => exact .init
  | step _ hs ih =>
    cases hs with
    | rt h => exact .step ih h
    | submit h => exact .step ih h
    | act => exact ih
    | join => exact ih

/-- only `beginSubmit` makes a new task -/
theorem submit_ex {g g' : State} {l : Lbl} (h : Graph.Step cfg l g g') (hn : g'.n = g.n + 1) :
    g'.ex = g.ex ∧ ∀ q, cfg.parentOf g.n = some q → g.ex q = .running := by
  cases h with
  | beginSubmit h1 h2 => exact ⟨rfl, h1⟩
  | _ => exact absurd (show g.n = g.n + 1 from hn) (by omega)

theorem sys_submit {s s' : Sys.State} (h : Sys.Step cfg N s s') (hn : s'.x.g.n = s.x.g.n + 1) :
    s'.x.g.ex = s.x.g.ex ∧ ∀ q, cfg.parentOf s.x.g.n = some q → s.x.g.ex q = .running := by
  rcases Bodies.sys_waits h with e | ⟨⟨l, h⟩, -⟩
  · rw [e] at hn; omega
  · exact submit_ex h hn

theorem OnWorker.active {s : Sys.State} (hr : Sys.Reach cfg N s) {i : Nat} (h : OnWorker N s i) : Active s.x.g i := by
  cases i with
  | zero => trivial
  | succ t =>
    obtain ⟨w, hw, hp⟩ := h
    exact (Sys.exec_running hr hw hp).1

theorem OnWorker.le {s : Sys.State} (hr : Sys.Reach cfg N s) {i : Nat} (h : OnWorker N s i) : i ≤ s.x.g.n := by
  cases i with
  | zero => exact Nat.zero_le _
  | succ t =>
    have h1 : s.x.g.ex t = .running := h.active hr
    exact Bodies.lt_of_started (.inl rfl) hr.graph (t := t) (by unfold Started; rw [h1]; simp)

/-- executions on workers are executions of Model/Dynamic -/
theorem WReach.reach (hS : Structured P) {x : St (workers cfg N) P} (h : WReach cfg N P m0 x) :
    Reach cfg (workers cfg N) P false m0 x := by
  induction h with
  | init => exact .init
  | @step x x' hx hs ih =>
    cases hs with
    | rt h hk hn hret hw => exact .step ih (.rt (R := workers cfg N) h hn hret)
    | submit h hn hp hd =>
      exact .step ih (.submit (R := workers cfg N) h hn (fun t h1 h2 => by
        have := (sys_submit h hn).1
        exact absurd ((congrFun this t).trans h1) h2) hp hd)
    | act h hp => exact .step ih (.act (R := workers cfg N) (h.active hx.sys) hp fun h => by cases h)
    | join h hp hc =>
      refine .step ih (.join (R := workers cfg N) (h.active hx.sys) hp fun t h1 h2 h3 => ?_)
      have he := hc t h1 h2 h3
      refine ⟨by rw [show ((workers cfg N).g x.s).ex t = _ from he]; simp, ?_⟩
      exact ended_done (cfg := { cfg with strict := true }) (.inl rfl) (structured_careful hS (ih.graph workers_sound)).1 t he

/-- `o` tells which tasks may not have ended -/
structure Kept (cfg : Cfg) (P : Prog M) (g : State) (loc : Nat → P.B) (o : Nat → Nat → Option P.B) : Prop where
  has : ∀ i, i ≤ g.n → Has P (count cfg g.n i) (o i) (loc i)
  kids : ∀ c, c < g.n → o (owner cfg c) (rank cfg c) = none → g.ex c = .ended

theorem sys_change {s s' : Sys.State} (hr : Sys.Reach cfg N s) (h : Sys.Step cfg N s s') :
    Change { cfg with strict := true } s.x.g s'.x.g := by
  have h' := h.to_strict fun c hc => ((Core.reach (.inl rfl) hr.graph).exI c hc).1
  rcases Bodies.sys_waits h' with e | ⟨⟨l, hl⟩, -⟩
  · rw [e]; exact .refl
  · exact change (.inl rfl) hr.graph hl

theorem Kept.submit {g g' : State} (hr : Graph.Reach { cfg with strict := true } g) {loc : Nat → P.B} {o : Nat → Nat → Option P.B}
    (h : Kept cfg P g loc o) (hn : g'.n = g.n + 1) (he : g'.ex = g.ex)
    (hpar : ∀ q, cfg.parentOf g.n = some q → g.ex q = .running) {d : User} {c b : P.B}
    (hp : P.pt (loc (owner cfg g.n)) = .spawn d c b) :
    Kept cfg P g' (upd (upd loc (owner cfg g.n) b) (g.n + 1) c)
      (upd (upd o (owner cfg g.n) (upd (o (owner cfg g.n)) (count cfg g.n (owner cfg g.n)) (some c))) (g.n + 1)
        fun _ => none) := by
  have hle : ∀ c, c ≤ g.n → owner cfg c ≤ c := by
    intro c hc
    cases ho : owner cfg c with
    | zero => exact Nat.zero_le _
    | succ q =>
      have hq := owner_some ho
      rcases Nat.lt_or_ge c g.n with h1 | h1
      · exact Up.reach hr c q h1 hq
      · have e : c = g.n := by omega
        subst e
        exact Bodies.lt_of_started (.inl rfl) hr (t := q) (by unfold Started; rw [hpar q hq]; simp)
  have hon := hle g.n (Nat.le_refl _)
  constructor
  · rw [hn]
    intro i hin
    rw [count_succ]
    by_cases e : i = g.n + 1
    · subst e
      rw [upd_same, upd_same, if_neg (by omega)]
      have : count cfg g.n (g.n + 1) = 0 := by
        unfold count
        rw [List.length_eq_zero_iff, List.filter_eq_nil_iff]
        intro c' hc' h
        have := hle c' (by have := List.mem_range.1 hc'; omega)
        have h := of_decide_eq_true h
        have := List.mem_range.1 hc'
        omega
      rw [this]
      exact (h.has _ hon).child hp
    · rw [upd_ne _ _ e, upd_ne _ _ e]
      by_cases e' : i = owner cfg g.n
      · subst e'
        rw [upd_same, upd_same, if_pos rfl]
        exact (h.has _ hon).next hp
      · rw [upd_ne _ _ e', upd_ne _ _ e', if_neg (fun h => e' h.symm)]
        exact h.has i (by omega)
  · rw [hn, he]
    intro c' hcn hoc
    by_cases e : c' = g.n
    · subst e
      rw [upd_ne _ _ (by omega), upd_same] at hoc
      exact absurd (hoc.symm.trans (upd_same _ _ _)) (by simp)
    · have := hle c' (by omega)
      rw [upd_ne _ _ (by omega)] at hoc
      apply h.kids c' (by omega)
      by_cases e2 : owner cfg c' = owner cfg g.n
      · have hlt := count_lt (cfg := cfg) (show c' < g.n by omega)
        rw [← e2, upd_same, upd_ne _ _ (by omega)] at hoc
        exact hoc
      · rw [upd_ne _ _ e2] at hoc
        exact hoc

theorem WReach.kept {x : St (workers cfg N) P} (h : WReach cfg N P m0 x) :
    ∃ o, Kept cfg P x.sys.x.g x.loc o := by
  induction h with
  | init =>
    exact ⟨fun _ _ => none, fun i _ => .main, fun c hc => absurd hc (Nat.not_lt_zero _)⟩
  | @step x x' hx hs ih =>
    obtain ⟨o, hw⟩ := ih
    have hr := hx.sys
    cases hs with
    | @rt s' h hk hn hret hwt =>
      refine ⟨o, ?_, ?_⟩ <;> dsimp only [St.sys] at hn ⊢ <;> rw [hn]
      · exact hw.has
      · exact fun c hcn ho => (sys_change hr h).ended c (hw.kids c hcn ho)
    | @submit s' d c b h hn hp hd =>
      obtain ⟨he, hpar⟩ := sys_submit h hn
      exact ⟨_, hw.submit hr.graph hn he hpar hp⟩
    | @act i f h hp =>
      refine ⟨o, ?_, hw.kids⟩
      intro j hj
      by_cases e : j = i
      · subst e
        dsimp only
        rw [upd_same]
        exact (hw.has j hj).act hp
      · dsimp only
        rw [upd_ne _ _ e]
        exact hw.has j hj
    | @join i w b h hp hc =>
      refine ⟨upd o i fun j => if w j then none else o i j, ?_, ?_⟩
      · intro j hj
        by_cases e : j = i
        · subst e
          dsimp only
          rw [upd_same, upd_same]
          exact (hw.has j hj).join hp
        · dsimp only
          rw [upd_ne _ _ e, upd_ne _ _ e]
          exact hw.has j hj
      · intro c hcn ho
        by_cases e : owner cfg c = i
        · rw [e, upd_same] at ho
          by_cases hwc : w (rank cfg c) = true
          · exact hc c hcn e hwc
          · rw [if_neg hwc, ← e] at ho
            exact hw.kids c hcn ho
        · rw [upd_ne _ _ e] at ho; exact hw.kids c hcn ho

/-! ### Nothing gets stuck -/

theorem sub_done_pc {s : Sys.State} (hN : 0 < N) (hr : Sys.Reach cfg N s)
    (hq : ∀ s', Sys.OwnWork cfg N s s' → s'.x.g.ex = s.x.g.ex → s'.x.w = s.x.w → s'.pc = s.pc → False) :
    ∀ t i, s.x.g.ph t ≠ .submitting i := by
  intro t i h
  have hc := Core.reach (.inl rfl) hr.graph
  have h0 := hc.idxSub t i h
  have other : ∀ {g' : State} {l}, Graph.Step cfg l s.x.g g' → g'.n = s.x.g.n → g'.nExt = s.x.g.nExt →
      g'.ex = s.x.g.ex → Graph.WStep cfg s.x { s.x with g := g' } := by
    intro g' l h1 h2 h3 h4
    exact .other h1 h2 (fun t _ h => by rw [h4]; exact h) (.inl h3)
  have hne : ∀ {s' : Sys.State} {v : Ph}, s'.x.g.ph = upd s.x.g.ph t v → v ≠ .submitting i → ¬ Sys.Idle s s' := by
    intro s' v h1 h2 h3
    rw [h3.x] at h1
    have := congrFun h1 t
    rw [upd_same, h] at this
    exact h2 this.symm
  by_cases h1 : i = (cfg.res t).length
  · refine hq _ ⟨⟨.emplace (w := 0) (t := t) hN (other (.emplace h h1) rfl rfl rfl) (Sys.samePh_upd rfl)
      (by rw [h]; rfl) (by simp) rfl rfl rfl, hne rfl (by simp), rfl, rfl, rfl⟩, ?_⟩ rfl rfl rfl
    intro u hu
    dsimp only
    by_cases e : u = t
    · subst e; simp
    · rw [upd_ne _ _ e]; exact hu
  · obtain ⟨r, hr⟩ : ∃ r, (cfg.res t)[i]? = some r := ⟨_, List.getElem?_eq_getElem (Nat.lt_of_le_of_ne h0 h1)⟩
    exact hq _ ⟨⟨.graph (other (.pushUser h hr) rfl rfl rfl)
      (Sys.samePh_stage rfl (by rw [h]; rfl) (by simp [Sys.stage])) rfl rfl rfl (fun _ h => absurd rfl h)
      (fun h => absurd rfl h), hne rfl (by simp), rfl, rfl, rfl⟩, fun _ h => h⟩ rfl rfl rfl

theorem sub_done {s : Sys.State} (hN : 0 < N) (hr : Sys.Reach cfg N s)
    (hq : ∀ s', Sys.OwnWork cfg N s s' → s'.x.g.ex = s.x.g.ex → s'.x.w = s.x.w → False) :
    ∀ t i, s.x.g.ph t ≠ .submitting i :=
  sub_done_pc hN hr fun s' h1 h2 h3 _ => hq s' h1 h2 h3

/-- where bodies end and are paused -/
theorem sys_exec {s s' : Sys.State} (h : Sys.Step cfg N s s') :
    (∀ t, s.x.g.ex t = .running → s'.x.g.ex t ≠ .running → ∃ w, w < N ∧ s.pc w = .exec t) ∧
    (∀ t u, s.x.w t = none → s'.x.w t = some u → ∃ w, w < N ∧ s.pc w = .exec t) := by
  have same : ∀ {x' : WState}, x'.g.ex = s.x.g.ex → x'.w = s.x.w →
      (∀ t, s.x.g.ex t = .running → x'.g.ex t ≠ .running → ∃ w, w < N ∧ s.pc w = .exec t) ∧
      (∀ t u, s.x.w t = none → x'.w t = some u → ∃ w, w < N ∧ s.pc w = .exec t) := by
    intro x' h1 h2
    refine ⟨fun t h3 h4 => absurd (by rw [h1]; exact h3) h4, fun t u h3 h4 => ?_⟩
    rw [h2, h3] at h4
    cases h4
  cases h with
  | graph h hp hh he hw => exact same he hw
  | emplace hw h hp hq hq' hh he hww => exact same he hww
  | ready h hp hh he hw => exact same he hw
  | unpause h hg h0 hw =>
    refine ⟨fun t h3 h4 => absurd (by dsimp only; rw [hg]; exact h3) h4, fun t' u h3 h4 => ?_⟩
    dsimp only at h4
    rw [hw] at h4
    unfold upd at h4
    split at h4
    · cases h4
    · rw [h3] at h4; cases h4
  | popNew hw h hq hs hp hi hh he hww => exact same he hww
  | initStep hw h hs hp hi hc hh he hww => exact same he hww
  | initReady hw h hs hp hi hh he hww => exact same he hww
  | initBlocked hw h hs hp hi hh he hww => exact same he hww
  | stolenBlocked hw h hs hp hi hh he hww => exact same he hww
  | stealNew hw hv h hq hs hp hi hh he hww => exact same he hww
  | @start x' w t hw h hs hp hh h0 he hww =>
    refine ⟨fun t' h3 h4 => ?_, (same (x' := { x' with g := s.x.g }) rfl hww).2⟩
    dsimp only at h4
    rw [he] at h4
    unfold upd at h4
    split at h4
    · exact absurd rfl h4
    · exact absurd h3 h4
  | @pause x' w t u hw h hs hg h0 hu hww =>
    refine ⟨fun t h3 h4 => absurd (by dsimp only; rw [hg]; exact h3) h4, fun t' u' h3 h4 => ?_⟩
    dsimp only at h4
    rw [hww] at h4
    by_cases e : t' = t
    · subst e; exact ⟨w, hw, h⟩
    · rw [upd_ne _ _ e, h3] at h4; cases h4
  | @bodyEnd x' w t hw h hs hp hh h0 he hk hww =>
    refine ⟨fun t' h3 h4 => ?_, (same (x' := { x' with g := s.x.g }) rfl hww).2⟩
    dsimp only at h4
    rw [he] at h4
    by_cases e : t' = t
    · subst e; exact ⟨w, hw, h⟩
    · rw [upd_ne _ _ e] at h4; exact absurd h3 h4
  | _ => exact same rfl rfl

theorem workers_no_deadlock (hS : Structured P) (hN : 0 < N) (hs : cfg.Safe) {x : St (workers cfg N) P}
    (hr : WReach cfg N P m0 x) (hq : ∀ x', WStep cfg N P (Sys.OwnWork cfg N) x x' → x'.sys.x.g.n ≠ x.sys.x.g.n)
    (hsp : ∀ i d c b, OnWorker N x.sys i → P.pt (x.loc i) ≠ .spawn d c b) :
    P.pt (x.loc 0) = .done ∧ (∀ t, t < x.sys.x.g.n → Finished cfg x.sys.x.g t ∧ x.sys.x.w t = none) ∧
    ∀ w, w < N → x.sys.pc w = .waiting ∧ (x.sys.cv w).ws 0 = .asleep ∧ x.sys.ready w = [] ∧ x.sys.new w = [] := by
  have hrs := hr.sys
  have hi := Sys.Inv.reach hrs
  have hc := Core.reach (.inl rfl) hrs.graph
  obtain ⟨o, hk⟩ := hr.kept
  have hqr : ∀ s', Sys.OwnWork cfg N x.sys s' → s'.x.g.ex = x.sys.x.g.ex → s'.x.w = x.sys.x.w → False := by
    intro s' h1 h2 h3
    refine hq _ (.rt h1.1.1 h1 h1.1.2.2.1 (fun t h4 h5 => ?_) (fun t u h4 h5 => ?_)) h1.1.2.2.1
    · rw [h2] at h5; exact absurd h4 h5
    · rw [h3, h4] at h5; cases h5
  have sub0 := sub_done hN hrs hqr
  have idle : ∀ w t, w < N → x.sys.pc w ≠ .exec t := by
    intro w t hw h
    obtain ⟨hx1, hx2⟩ := Sys.exec_running hrs hw h
    have hpc : ∀ {s' : Sys.State} {q : Sys.Pc}, s'.pc = upd x.sys.pc w q → q ≠ .exec t → ¬ Sys.Idle x.sys s' := by
      intro s' q h1 h2 h3
      rw [h3.pc] at h1
      have := congrFun h1 w
      rw [upd_same, h] at this
      exact h2 this.symm
    have hon : OnWorker N x.sys (t + 1) := ⟨w, hw, h⟩
    have htn := hon.le hrs
    cases hp : P.pt (x.loc (t + 1)) with
    | act f => exact hq _ (.act hon hp) rfl
    | spawn d c b => exact hsp _ _ _ _ hon hp
    | join v b =>
      by_cases hall : ∀ u, u < x.sys.x.g.n → owner cfg u = t + 1 → v (rank cfg u) = true → x.sys.x.g.ex u = .ended
      · exact hq _ (.join hon hp hall) rfl
      · have : ∃ u, u < x.sys.x.g.n ∧ owner cfg u = t + 1 ∧ v (rank cfg u) = true ∧ x.sys.x.g.ex u ≠ .ended := by
          apply Classical.byContradiction
          intro hno
          exact hall fun u h1 h2 h3 => Classical.byContradiction fun h4 => hno ⟨u, h1, h2, h3, h4⟩
        obtain ⟨u, h1, h2, h3, h4⟩ := this
        have hst : Sys.Step cfg N x.sys _ := .pause hw h (.wait hx1 hx2 (hi.kids u t h1 (owner_some h2))
          (fun c i _ _ => sub0 c i)) rfl hx2 h4 rfl
        refine hq _ (.rt hst ⟨⟨hst, hpc rfl (by simp), rfl, rfl, rfl⟩, fun _ h => h⟩ rfl (fun _ h5 h6 => absurd h5 h6) ?_) rfl
        intro t' u' h5 h6
        dsimp only at h6
        by_cases e : t' = t
        · subst e
          rw [upd_same] at h6
          cases h6
          exact ⟨v, b, hp, h2, h3⟩
        · rw [upd_ne _ _ e, h5] at h6
          cases h6
    | done =>
      have hke : Sys.KidsEnded cfg x.sys.x t := by
        intro c hcn hpc
        have ho : owner cfg c = t + 1 := by rw [owner, hpc]
        apply hk.kids c hcn
        rw [ho]
        exact hS.done _ _ _ (hk.has _ htn) hp _
      have hst : Graph.Step cfg ⟨[t], false⟩ x.sys.x.g _ := .bodyEnd hx1 (fun c i _ _ => sub0 c i)
        (fun _ c hc' hp => (hc.exI c (by rw [hke c hc' hp]; simp)).1)
      have hst2 : Sys.Step cfg N x.sys _ := .bodyEnd hw h (.other hst rfl (by
        intro u h4 h5
        dsimp only [State.decPost]
        rw [upd_ne]
        · exact h5
        · rintro rfl; exact h4 hx2) (.inl rfl)) (Sys.samePh_eq rfl) rfl hx1 rfl hke rfl
      refine hq _ (.rt hst2 ⟨⟨hst2, hpc rfl (by simp), rfl, rfl, rfl⟩, fun _ h => h⟩ rfl ?_ ?_) rfl
      · intro t' h5 h6
        by_cases e : t' = t
        · subst e; exact hp
        · refine absurd ?_ h6
          dsimp only [State.decPost]
          rw [upd_ne _ _ e]
          exact h5
      · intro t' u h5 h6
        dsimp only at h6
        rw [h5] at h6
        cases h6
  have hq' : ∀ s', ¬ Sys.OwnWork cfg N x.sys s' := by
    intro s' h
    obtain ⟨h1, h2⟩ := sys_exec h.1.1
    refine hq _ (.rt h.1.1 h h.1.2.2.1 (fun t h3 h4 => ?_) (fun t u h3 h4 => ?_)) h.1.2.2.1
    · obtain ⟨w, h5, h6⟩ := h1 t h3 h4
      exact absurd h6 (idle w t h5)
    · obtain ⟨w, h5, h6⟩ := h2 t u h3 h4
      exact absurd h6 (idle w t h5)
  obtain ⟨h1, h2⟩ := Sys.C71_no_deadlock hN hs hrs hq'
  refine ⟨?_, h1, h2⟩
  cases hp : P.pt (x.loc 0) with
  | done => rfl
  | act f => exact (hq _ (.act (i := 0) trivial hp) rfl).elim
  | spawn d c b => exact (hsp 0 _ _ _ trivial hp).elim
  | join v b =>
    refine (hq _ (.join (i := 0) trivial hp fun t h3 _ _ => ?_) rfl).elim
    cases (h1 t h3).1 with
    | mk h _ _ => exact h

/-! ### Everything ends -/

/-- the sizes that decrease: those of the bodies, and what the runtime system has to do -/
theorem WStep.decreases (hw : WellFounded (Next P)) {x y : St (workers cfg N) P} (hr : Sys.Reach cfg N x.sys)
    (hs : WStep cfg N P (Sys.Work cfg N) x y) :
    let _ := order hw
    Multiset.IsDershowitzMannaLT (bag y.sys.x.g y.loc) (bag x.sys.x.g x.loc) ∨
    bag y.sys.x.g y.loc = bag x.sys.x.g x.loc ∧ Sys.smeasure { cfg with strict := true } N y.sys <
      Sys.smeasure { cfg with strict := true } N x.sys ∧ y.sys.x.g.n = x.sys.x.g.n := by
  intro _
  have lt : ∀ {j}, OnWorker N x.sys j → j < x.sys.x.g.n + 1 := fun h => Nat.lt_succ_of_le (h.le hr)
  cases hs with
  | @rt s' hst hk hn hret hwt =>
    have hb : bag (P := P) s'.x.g x.loc = bag x.sys.x.g x.loc := by
      unfold bag
      rw [hn]
    exact .inr ⟨hb, Sys.smeasure_decreases (.inl rfl) hr.strict (hk.to_strict hr), hn⟩
  | @submit s' d c b hst hn hp hd =>
    left
    have ho : owner cfg x.sys.x.g.n < x.sys.x.g.n + 1 := by
      have h2 := (sys_submit hst hn).2
      unfold owner
      cases hq : cfg.parentOf x.sys.x.g.n with
      | none => simp
      | some q =>
        have := Bodies.lt_of_started (.inl rfl) hr.graph (t := q) (by unfold Started; rw [h2 q hq]; simp)
        simp only
        omega
    obtain ⟨X, h1, h2⟩ := map_upd ho x.loc b
    refine ⟨X, {b} + {c}, {x.loc (owner cfg x.sys.x.g.n)}, by simp, ?_, h1, ?_⟩
    · unfold bag
      dsimp only [St.sys] at hn h2 ⊢
      rw [hn, Multiset.range_succ ((Sys.State.x x.s).g.n + 1), Multiset.map_cons, upd_same, ← Multiset.singleton_add,
        add_comm, ← add_assoc, ← h2]
      congr 1
      apply Multiset.map_congr rfl
      intro j hj
      have := Multiset.mem_range.1 hj
      exact upd_ne _ _ (by omega)
    · intro y hy
      refine ⟨_, Multiset.mem_singleton.2 rfl, ?_⟩
      rcases Multiset.mem_add.1 hy with hy | hy <;> cases Multiset.mem_singleton.1 hy
      · exact .single (.next hp)
      · exact .single (.child hp)
  | @act j g ha hp =>
    left
    obtain ⟨X, h1, h2⟩ := map_upd (lt ha) x.loc (g x.m).1
    refine ⟨X, {(g x.m).1}, {x.loc j}, by simp, h2, h1, fun y hy => ⟨_, Multiset.mem_singleton.2 rfl, ?_⟩⟩
    cases Multiset.mem_singleton.1 hy
    exact .single (.act _ hp)
  | @join j w b ha hp hc =>
    left
    obtain ⟨X, h1, h2⟩ := map_upd (lt ha) x.loc b
    refine ⟨X, {b}, {x.loc j}, by simp, h2, h1, fun y hy => ⟨_, Multiset.mem_singleton.2 rfl, ?_⟩⟩
    cases Multiset.mem_singleton.1 hy
    exact .single (.join hp)

theorem workers_no_infinite (hw : WellFounded (Next P)) {x : St (workers cfg N) P}
    (hr : Sys.Reach cfg N x.sys) : ¬ ∃ f : Nat → St (workers cfg N) P, f 0 = x ∧ ∀ i,
      WStep cfg N P (Sys.Work cfg N) (f i) (f (i + 1)) := by
  rintro ⟨f, h0, h⟩
  let _ := order hw
  have : WellFoundedLT P.B := ⟨hw.transGen⟩
  have hreach : ∀ i, Sys.Reach cfg N (f i).sys := by
    intro i
    induction i with
    | zero => rw [h0]; exact hr
    | succ i ih =>
      have hs := h i
      generalize f (i + 1) = y at hs
      cases hs with
      | rt hst => exact .step ih hst
      | submit hst => exact .step ih hst
      | act => exact ih
      | join => exact ih
  have wf := (Multiset.wellFounded_isDershowitzMannaLT (α := P.B)).prod_lex (Nat.lt_wfRel.wf)
  have no : ∀ p, ¬ ∃ i, p = (bag (f i).sys.x.g (f i).loc, Sys.smeasure { cfg with strict := true } N (f i).sys) := by
    intro p
    induction p using wf.induction with
    | _ p ih =>
      rintro ⟨i, rfl⟩
      refine ih _ ?_ ⟨i + 1, rfl⟩
      rcases (h i).decreases hw (hreach i) with h1 | ⟨h1, h2, -⟩
      · exact .left _ _ h1
      · rw [h1]
        exact .right _ h2
  exact no _ ⟨0, rfl⟩

end RG.Dyn
