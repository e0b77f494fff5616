import Verif.Lemmas.SystemStrict
import Verif.Props.Race
/-
C71: the runtime as a whole, task graph, queues, workers and condition variables, executes all tasks.
C72 for the workers: conflicting tasks are not executed at the same time.
-/
set_option linter.unusedVariables false
namespace RG.Sys

open RG.Graph (Cfg WState WStep Ph Ex NestingOk Finished Started Descends)

variable {cfg : Cfg} {N : Nat} {s s' : State}

theorem safe_strict (h : cfg.Safe) : ({ cfg with strict := true } : Cfg).Safe := ⟨h.single, h.once⟩

/-- C71: if no thread has anything to do, then all tasks have finished and no body waits; all workers are asleep
and their queues are empty. In other words, workers never fall asleep while there is a task that could be
executed or continued, and what tasks wait for will happen. -/
theorem C71_no_deadlock (hN : 0 < N) (hs : cfg.Safe) (hr : Reach cfg N s) (hq : ∀ s', ¬ OwnWork cfg N s s') :
    (∀ t, t < s.x.g.n → Finished cfg s.x.g t ∧ s.x.w t = none) ∧
    (∀ w, w < N → s.pc w = .waiting ∧ (s.cv w).ws 0 = .asleep ∧ s.ready w = [] ∧ s.new w = []) := by
  have ht : NestingOk { cfg with strict := true } := .inl rfl
  have hq' : ∀ s', ¬ OwnWork { cfg with strict := true } N s s' := fun s' h => hq s' h.of_strict
  have hst := stuck ht hN hr.strict hq'
  have hg := hst.graph ht hr.strict hq'
  refine ⟨fun t htn => ?_, fun w hw => ⟨(hst.pc w hw).1, (hst.pc w hw).2, hst.ready w hw, hst.new w hw⟩⟩
  have := RG.Graph.C70_no_deadlock_partial ht (safe_strict hs) (Inv.reach hr.strict).wr hg t htn
  exact ⟨this.1.of_strict, this.2.2⟩

/-- C71: the threads cannot make steps for ever without a new request of the user; steps in which a worker tests
its condition again, or wakes up for no reason, are not counted. -/
theorem C71_work_ends (hr : Reach cfg N s) :
    ¬ ∃ f : Nat → State, f 0 = s ∧ ∀ i, Work cfg N (f i) (f (i + 1)) := by
  rintro ⟨f, h0, h⟩
  have hreach : ∀ i, Reach cfg N (f i) := by
    intro i
    induction i with
    | zero => rw [h0]; exact hr
    | succ i ih => exact .step ih (h i).1
  have hm : ∀ i, smeasure { cfg with strict := true } N (f i) + i ≤ smeasure { cfg with strict := true } N (f 0) := by
    intro i
    induction i with
    | zero => exact Nat.le_refl _
    | succ i ih =>
      have := smeasure_decreases (.inl rfl) (hreach i).strict ((h i).to_strict (hreach i))
      omega
  have := hm (smeasure { cfg with strict := true } N (f 0) + 1)
  omega

/-- every execution can be continued to one in which nothing is left to be done -/
theorem to_stuck (hr : Reach cfg N s) :
    ∃ s', Steps cfg N s s' ∧ s'.x.g.n = s.x.g.n ∧ s'.x.g.nExt = s.x.g.nExt ∧
      (∀ t, s.x.g.fut t = .held → s'.x.g.fut t = .held) ∧ ∀ s'', ¬ OwnWork cfg N s' s'' := by
  have h : ∀ k s, Reach cfg N s → smeasure { cfg with strict := true } N s ≤ k →
      ∃ s', Steps cfg N s s' ∧ s'.x.g.n = s.x.g.n ∧ s'.x.g.nExt = s.x.g.nExt ∧
        (∀ t, s.x.g.fut t = .held → s'.x.g.fut t = .held) ∧ ∀ s'', ¬ OwnWork cfg N s' s'' := by
    intro k
    induction k with
    | zero =>
      intro s hr hk
      refine ⟨s, .refl, rfl, rfl, fun _ h => h, fun s'' h => ?_⟩
      have := smeasure_decreases (.inl rfl) hr.strict (h.1.to_strict hr)
      omega
    | succ k ih =>
      intro s hr hk
      by_cases hq : ∃ s', OwnWork cfg N s s'
      · obtain ⟨s1, hw, h3⟩ := hq
        have := smeasure_decreases (.inl rfl) hr.strict (hw.to_strict hr)
        obtain ⟨s', h4, h5, h6, h7, h8⟩ := ih s1 (.step hr hw.1) (by omega)
        exact ⟨s', Steps.trans (.step .refl hw.1) h4, h5.trans hw.2.2.1, h6.trans hw.2.2.2.1,
          fun t ht => h7 t (h3 t ht), h8⟩
      · exact ⟨s, .refl, rfl, rfl, fun _ h => h, fun s'' h => hq ⟨s'', h⟩⟩
  exact h _ s hr (Nat.le_refl _)

/-- C71: from every reachable state on, the runtime can complete all tasks submitted so far, without a new request
of the user, and with all futures still held. -/
theorem C71_completion_possible (hN : 0 < N) (hs : cfg.Safe) (hr : Reach cfg N s) :
    ∃ s', Steps cfg N s s' ∧ s'.x.g.n = s.x.g.n ∧ s'.x.g.nExt = s.x.g.nExt ∧
      (∀ t, s.x.g.fut t = .held → s'.x.g.fut t = .held) ∧
      (∀ t, t < s.x.g.n → Finished cfg s'.x.g t ∧ s'.x.w t = none) := by
  obtain ⟨s', h1, h2, h3, h4, h5⟩ := to_stuck hr
  refine ⟨s', h1, h2, h3, h4, ?_⟩
  have := (C71_no_deadlock hN hs (h1.reach hr) h5).1
  rw [h2] at this
  exact this

/-! ### what the workers execute -/

/-- a worker executes a body that is running and does not wait -/
theorem exec_running (hr : Reach cfg N s) {w t : Nat} (hw : w < N) (h : s.pc w = .exec t) :
    s.x.g.ex t = .running ∧ s.x.w t = none := by
  have h1 := (Inv.reach hr).cntExec t
  have h2 := le_sumTo (f := fun w => execW t (s.pc w)) hw
  have h3 : execW t (s.pc w) = 1 := by rw [h]; simp
  simp only [h3] at h2
  by_cases h4 : s.x.g.ex t = .running ∧ s.x.w t = none ∧ s.res t = false
  · exact ⟨h4.1, h4.2.1⟩
  · rw [if_neg h4] at h1
    omega

/-- C13 for the workers: while a worker executes a task, no other worker executes it. -/
theorem C13_one_worker (hr : Reach cfg N s) {v t : Nat} (hv : v < N) (h1 : s.pc v = .exec t) {w : Nat} (hw : w < N)
    (hne : w ≠ v) : s.pc w ≠ .exec t := by
  intro h2
  have h3 := (Inv.reach hr).cntExec t
  have h4 := sumPc (F := execW t) s.pc .top hv
  have h5 := le_sumTo (f := fun x => execW t (upd s.pc v .top x)) hw
  have h6 : execW t (upd s.pc v .top w) = 1 := by rw [upd_ne _ _ hne, h2]; simp
  have h7 : execW t (s.pc v) = 1 := by rw [h1]; simp
  have h8 : execW t .top = 0 := rfl
  simp only [h6] at h5
  rw [h7, h8] at h4
  split at h3 <;> omega

/-- C13 for the workers: the body of a task is started at most once. -/
theorem C13_workers_start_once (hr : Reach cfg N s) (t : Nat) : s.x.g.starts t ≤ 1 := by
  have := (RG.Graph.C13_started_at_most_once_partial (.inl rfl) (Inv.reach hr.strict).wr.graph t).1
  omega

/-- C12 for the workers: a task is executed only after all earlier conflicting tasks of its space have finished. -/
theorem C12_workers_keep_order (hw : cfg.WellFormed) (hs : cfg.single = true) (hr : Reach cfg N s) {w p t : Nat}
    (hwN : w < N) (h : s.pc w = .exec t) (hlt : p < t) (hsp : cfg.space p = cfg.space t)
    (hc : (cfg.user p).isSerial (cfg.user t) = true) : Finished cfg s.x.g p :=
  (RG.Graph.C12_one_submitter_partial (cfg := { cfg with strict := true }) (RG.Graph.WellFormed.strict hw) (.inl rfl) hs
    (Inv.reach hr.strict).wr.graph hlt hsp hc
    (by unfold Started; rw [(exec_running hr hwN h).1]; simp)).of_strict

/-- the task graph of a reachable state is one of the programs with the assumption `NestingOk` -/
theorem Reach.graph (hr : Reach cfg N s) : RG.Graph.Reach { cfg with strict := true } s.x.g :=
  (Inv.reach hr.strict).wr.graph

/-- C18 for the workers: while an event that task `t` has created has not been reached, `t` does not finish, is not
freed, and no later conflicting task of its space is started. -/
theorem C18_workers_wait_for_events (hw : cfg.WellFormed) (hs : cfg.single = true) (hr : Reach cfg N s) {k t : Nat}
    (hk : k < s.x.g.nExt) (ho : s.x.g.owner k = t) (he : s.x.g.ext k ≠ .done) :
    s.x.g.fl t = .idle ∧ s.x.g.frees t = 0 ∧
      ∀ u, t < u → cfg.space t = cfg.space u → (cfg.user t).isSerial (cfg.user u) = true → ¬ Started s.x.g u :=
  RG.Graph.C18_waits_for_events_partial (cfg := { cfg with strict := true }) (RG.Graph.WellFormed.strict hw) (.inl rfl) hs
    hr.graph hk ho he

/-- C19 for the workers: a task finishes after its children. -/
theorem C19_workers_parent_after_children (hw : cfg.WellFormed) (hs : cfg.single = true) (hr : Reach cfg N s)
    {c t : Nat} (hc : c < s.x.g.n) (hp : cfg.parentOf c = some t) (hf : ¬ Finished cfg s.x.g c) :
    s.x.g.fl t = .idle ∧ s.x.g.frees t = 0 ∧
      ∀ u, t < u → cfg.space t = cfg.space u → (cfg.user t).isSerial (cfg.user u) = true → ¬ Started s.x.g u :=
  RG.Graph.C19_parent_after_children_partial (cfg := { cfg with strict := true }) (RG.Graph.WellFormed.strict hw) (.inl rfl)
    hs hr.graph hc hp fun h => hf h.of_strict

/-- C20 for the workers: a task is freed at most once, after it has finished and its future is gone. -/
theorem C20_workers_free_once (hr : Reach cfg N s) (t : Nat) :
    s.x.g.frees t ≤ 1 ∧ (s.x.g.frees t = 1 → Finished cfg s.x.g t ∧ s.x.g.fut t = .done) := by
  have h := RG.Graph.C20_freed_once_partial (.inl rfl) hr.graph t
  exact ⟨h.1, fun h' => ⟨(h.2.2 h').1.of_strict, (h.2.2 h').2⟩⟩

/-- C21 for the workers: when a space is empty, all its tasks have finished. -/
theorem C21_workers_barrier (hr : Reach cfg N s) {sp : Nat} (h : s.x.g.empty sp = true) :
    ∀ t, t < s.x.g.n → cfg.space t = sp → Finished cfg s.x.g t ∧ s.x.g.fut t = .done := by
  intro t htn hsp
  have h' := RG.Graph.C21_barrier_waits_for_all_partial (cfg := { cfg with strict := true }) (.inl rfl) hr.graph h t htn hsp
  exact ⟨h'.1.of_strict, h'.2⟩

/-- C59 for the workers: no assertion fails. -/
theorem C59_workers_assertions_hold (hr : Reach cfg N s) : s.x.g.fault = false :=
  RG.Graph.C59_assertions_hold (.inl rfl) hr.graph

/-- C72 for the workers: while a worker executes task `t`, no worker executes a task with an access to the same
resource that conflicts, unless one of the tasks is an ancestor of the other one. -/
theorem C72_workers_no_race (hw : cfg.WellFormed) (hs : cfg.single = true) (ho : RG.Graph.OneSpace cfg)
    (hr : Reach cfg N s) (hcov : RG.Graph.Covered cfg s.x.g) {v t u : Nat} {r : Res} (hvN : v < N)
    (h1 : s.pc v = .exec t) (hc : RG.Graph.ConflictAt cfg t u r) (hv : RG.Graph.Shared cfg t u r)
    (htu : ¬ Descends cfg t u) (hut : ¬ Descends cfg u t) {w : Nat} (hwN : w < N) : s.pc w ≠ .exec u := by
  intro h2
  have hx := (exec_running hr hvN h1).1
  have hy := (exec_running hr hwN h2).1
  rcases RG.Graph.C72_no_race_partial (cfg := { cfg with strict := true }) (RG.Graph.WellFormed.strict hw) (.inl rfl) hs
    ho (Inv.reach hr.strict).wr.graph hcov hc (fun a h3 h4 ha => hv a h3 h4 (by
      simpa only [Descends.strict] using ha)) (by unfold Started; rw [hx]; simp)
    (by unfold Started; rw [hy]; simp) with h | h | h | h
  · exact htu (Descends.strict.1 h)
  · exact hut (Descends.strict.1 h)
  · cases h with
    | mk h _ _ => rw [hx] at h; cases h
  · cases h with
    | mk h _ _ => rw [hy] at h; cases h

theorem wstep_n_le {x x' : WState} (h : WStep cfg x x') : x.g.n ≤ x'.g.n := by
  cases h with
  | submitOut h _ _ _ => exact h.n_le
  | submitIn h _ _ _ _ => exact h.n_le
  | other h _ _ _ => exact h.n_le
  | _ => exact Nat.le_refl _

theorem Step.n_le (h : Step cfg N s s') : s.x.g.n ≤ s'.x.g.n := by
  cases h with
  | graph h hp hh he hw hn hx => exact wstep_n_le h
  | emplace hw h hp hq hq' hh he hww => exact wstep_n_le h
  | ready h hp hh he hw => exact wstep_n_le h
  | unpause h hg h0 hw => exact wstep_n_le h
  | popNew hw h hq hs hp hi hh he hww => exact wstep_n_le hs
  | initStep hw h hs hp hi hc hh he hww => exact wstep_n_le hs
  | initReady hw h hs hp hi hh he hww => exact wstep_n_le hs
  | initBlocked hw h hs hp hi hh he hww => exact wstep_n_le hs
  | stolenBlocked hw h hs hp hi hh he hww => exact wstep_n_le hs
  | stealNew hw hv h hq hs hp hi hh he hww => exact wstep_n_le hs
  | start hw h hs hp hh h0 he hww => exact wstep_n_le hs
  | pause hw h hs hg h0 hu hww => exact wstep_n_le hs
  | bodyEnd hw h hs hp hh h0 he hk hww => exact wstep_n_le hs
  | _ => exact Nat.le_refl _

/-! ### examples -/

/-- between the submission of a task and its end it is executed by a worker -/
theorem exec_between (h : Steps cfg N s s') {t : Nat} (h0 : s.x.g.ex t = .none) (h1 : s'.x.g.ex t ≠ .none) :
    ∃ s1 w, Steps cfg N s s1 ∧ Steps cfg N s1 s' ∧ w < N ∧ s1.pc w = .exec t := by
  induction h with
  | refl => exact absurd h0 h1
  | @step s1 s2 hst hs ih =>
    by_cases e : s1.x.g.ex t = .none
    · have key : ∃ w, w < N ∧ s2.pc w = .exec t := by
        cases hs with
        | graph h hp hh he hw hn hx => dsimp only at h1; rw [he] at h1; exact absurd e h1
        | emplace hw h hp hq hq' hh he hww => dsimp only at h1; rw [he] at h1; exact absurd e h1
        | ready h hp hh he hw => dsimp only at h1; rw [he] at h1; exact absurd e h1
        | unpause h hg h0 hw => dsimp only at h1; rw [hg] at h1; exact absurd e h1
        | popNew hw h hq hs hp hi hh he hww => dsimp only at h1; rw [he] at h1; exact absurd e h1
        | initStep hw h hs hp hi hc hh he hww => dsimp only at h1; rw [he] at h1; exact absurd e h1
        | initReady hw h hs hp hi hh he hww => dsimp only at h1; rw [he] at h1; exact absurd e h1
        | initBlocked hw h hs hp hi hh he hww => dsimp only at h1; rw [he] at h1; exact absurd e h1
        | stolenBlocked hw h hs hp hi hh he hww => dsimp only at h1; rw [he] at h1; exact absurd e h1
        | stealNew hw hv h hq hs hp hi hh he hww => dsimp only at h1; rw [he] at h1; exact absurd e h1
        | @start x' w u hw h hs hp hh h0 he hww =>
          dsimp only at h1
          rw [he] at h1
          by_cases e' : t = u
          · subst e'
            exact ⟨w, hw, upd_same _ _ _⟩
          · rw [upd_ne _ _ e'] at h1
            exact absurd e h1
        | pause hw h hs hg h0 hu hww => dsimp only at h1; rw [hg] at h1; exact absurd e h1
        | @bodyEnd x' w u hw h hs hp hh h0 he hk hww =>
          dsimp only at h1
          rw [he] at h1
          by_cases e' : t = u
          · subst e'
            rw [e] at h0
            cases h0
          · rw [upd_ne _ _ e'] at h1
            exact absurd e h1
        | _ => exact absurd e h1
      obtain ⟨w, hw, hp⟩ := key
      exact ⟨s2, w, .step hst hs, .refl, hw, hp⟩
    · obtain ⟨s3, w, h2, h3, h4, h5⟩ := ih e
      exact ⟨s3, w, h2, .step h3 hs, h4, h5⟩

/-- the main thread submits the next task -/
theorem submit_out (hp : cfg.parentOf s.x.g.n = none) (hr : Reach cfg N s)
    (h1 : ∀ c i, c < s.x.g.n → s.x.g.ph c ≠ .submitting i) :
    ∃ s', Steps cfg N s s' ∧ s'.x.g.n = s.x.g.n + 1 ∧ s'.x.g.ex = s.x.g.ex ∧ s'.x.g.fut = s.x.g.fut ∧ s'.pc = s.pc := by
  refine ⟨_, .step .refl (.graph (.submitOut (ks := []) (.beginSubmit (s := s.x.g) (fun q h => ?_) fun _ c i hc _ => h1 c i hc)
    rfl hp (by simp)) ?_ rfl rfl rfl (fun q _ h => ?_) (fun h => absurd rfl h)), rfl, rfl, rfl, rfl⟩
  · rw [hp] at h; cases h
  · constructor
    · intro t _
      dsimp only
      by_cases e : t = s.x.g.n
      · subst e
        rw [upd_same, (RG.Graph.Dom.reach (Inv.reach hr).wr.graph).ph _ (Nat.le_refl _)]
        rfl
      · rw [upd_ne _ _ e]
    · intro t _ h
      dsimp only
      by_cases e : t = s.x.g.n
      · subst e
        rw [(RG.Graph.Dom.reach (Inv.reach hr).wr.graph).ph _ (Nat.le_refl _)] at h
        cases h
      · rw [upd_ne _ _ e]
  · rw [hp] at h; cases h

theorem flat_safe : RG.Graph.flat.Safe :=
  ⟨rfl, fun t => .inl (by
      match t with
      | 0 => decide +kernel
      | 1 => decide +kernel
      | 2 => decide +kernel
      | _ + 3 => exact C54_resources_registers_once 0 [] _)⟩

/-- two workers, any number of tasks have been executed, all workers are asleep again -/
theorem flat_stuck (k : Nat) : ∃ s, Reach RG.Graph.flat 2 s ∧ s.x.g.n = k ∧ ∀ s', ¬ OwnWork RG.Graph.flat 2 s s' := by
  induction k with
  | zero =>
    obtain ⟨s, h1, h2, _, _, h3⟩ := to_stuck (cfg := RG.Graph.flat) (N := 2) .init
    exact ⟨s, h1.reach .init, h2, h3⟩
  | succ k ih =>
    obtain ⟨s, hr, hn, hq⟩ := ih
    have hst := stuck (.inl rfl) (by omega) hr hq
    obtain ⟨s1, h1, h2, _⟩ := submit_out rfl hr fun c i hc h => by rw [hst.ph c hc] at h; cases h
    obtain ⟨s2, h3, h4, _, _, h5⟩ := to_stuck (h1.reach hr)
    exact ⟨s2, h3.reach (h1.reach hr), by rw [h4, h2, hn], h5⟩

example : RG.Graph.flat.Safe ∧ ∃ s, Reach RG.Graph.flat 2 s ∧ s.x.g.n = 3 ∧ ∀ s', ¬ OwnWork RG.Graph.flat 2 s s' :=
  ⟨flat_safe, flat_stuck 3⟩

/-- a worker executes the first task, which writes A, while the second one, which reads A, is submitted; nothing has
been finished -/
example : RG.Graph.flat.Safe ∧ RG.Graph.flat.WellFormed ∧ RG.Graph.OneSpace RG.Graph.flat ∧
    RG.Graph.ConflictAt RG.Graph.flat 0 1 RG.Graph.rA ∧ RG.Graph.Shared RG.Graph.flat 0 1 RG.Graph.rA ∧
    ¬ Descends RG.Graph.flat 0 1 ∧ ¬ Descends RG.Graph.flat 1 0 ∧
    ∃ s w, Reach RG.Graph.flat 2 s ∧ RG.Graph.Covered RG.Graph.flat s.x.g ∧ s.x.g.n = 2 ∧ w < 2 ∧ s.pc w = .exec 0 := by
  refine ⟨flat_safe, RG.Graph.prog_wellFormed _ _ _ _ _, fun _ _ _ => rfl,
    ⟨.io, .write, .read, List.mem_singleton.2 rfl, List.Mem.head _, rfl⟩, RG.Graph.shared_of_root rfl,
    (fun h => by cases h with | child h _ => cases h), (fun h => by cases h with | child h _ => cases h), ?_⟩
  obtain ⟨s1, h1, hn1, hx1, _⟩ := submit_out (cfg := RG.Graph.flat) (N := 2) (s := init) rfl .init
    (fun c i hc => by cases hc)
  have hr1 := h1.reach .init
  obtain ⟨s2, h2, hn2, _, _, hf⟩ := C71_completion_possible (by omega) flat_safe hr1
  obtain ⟨s3, w, h3, h4, hw, hp⟩ := exec_between h2 (t := 0) (by rw [hx1]; rfl) (by
    cases (hf 0 (by rw [hn1]; decide)).1 with
    | mk h _ _ => rw [h]; simp)
  have hr3 := h3.reach hr1
  have mono : ∀ {a b}, Steps RG.Graph.flat 2 a b → a.x.g.n ≤ b.x.g.n := by
    intro a b h
    induction h with
    | refl => exact Nat.le_refl _
    | step _ hs ih => exact Nat.le_trans ih hs.n_le
  have hn3 : s3.x.g.n = 1 := by
    have := mono h3
    have := mono h4
    have : s1.x.g.n = 1 := hn1
    omega
  have hi3 : s3.x.g.ph 0 = .inited :=
    ((RG.Graph.Core.reach (.inl rfl) (Inv.reach hr3).wr.graph).exI 0 (by rw [(exec_running hr3 hw hp).1]; simp)).1
  obtain ⟨s5, h5, hn5, _, _, hp5⟩ := submit_out (s := s3) rfl hr3 (fun c i hc h => by
    have : c = 0 := by omega
    subst this
    rw [hi3] at h
    cases h)
  exact ⟨s5, w, h5.reach hr3, (fun c q _ h => nomatch (h : none = some q)), by rw [hn5, hn3], hw, by rw [hp5]; exact hp⟩

end RG.Sys
