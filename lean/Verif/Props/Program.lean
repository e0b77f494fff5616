import Verif.Lemmas.ProgramProgress
/-
C73: `barrier()` and `finalize()` of a whole program.
-/
set_option linter.unusedVariables false
namespace RG.Prog

open RG.Graph (Cfg NestingOk Finished FutGone)
open RG.Sys (CvSig Sig looksStop)

variable {cfg : Cfg} {N : Nat} {s s' : State} {l : Lbl}

/-- C73: when `barrier()` returns, also as a part of `finalize()`, all tasks have completely finished, nested ones
included, no worker executes a task, and the futures of the tasks of the root space have been read or dropped. -/
theorem C73_barrier_returns_after_all_tasks (hro : Rooted cfg) (hr : Reach cfg N s) (hn : s.y.x.g.n < 2 ^ 32)
    (hs : Step cfg N l s s') {fin : Bool} (h : s.mpc = .check fin ∨ s.mpc = .idle fin)
    (h' : (s'.mpc ≠ .check fin ∧ s'.mpc ≠ .idle fin)) :
    (∀ t, t < s'.y.x.g.n → Finished cfg s'.y.x.g t) ∧
    (∀ t, t < s'.y.x.g.n → cfg.space t = 0 → s'.y.x.g.fut t = .done) ∧
    ∀ w, w < N → ∀ t, s'.y.pc w ≠ .exec t := by
  have key : s'.y = s.y ∧ s.y.x.g.tasks 0 = 0 := by
    have hlt := Nat.lt_of_le_of_lt (RG.Graph.tasks_le_n (.inl rfl) (Inv.reach hr).yr.graph 0) hn
    have bad : ∀ {p}, s.mpc = p → (∀ f, p ≠ .check f) → (∀ f, p ≠ .idle f) → False := by
      intro p e h1 h2
      rcases h with h | h <;> rw [h] at e
      · exact h1 _ e.symm
      · exact h2 _ e.symm
    have same : s'.mpc = s.mpc → False := by
      intro e
      rcases h with h | h <;> rw [h] at e
      · exact h'.1 e
      · exact h'.2 e
    cases hs with
    | sys => exact (same rfl).elim
    | call h => exact (bad h (by simp) (by simp)).elim
    | empty h1 hc => exact ⟨rfl, (isZero_iff hlt).1 hc⟩
    | @idle _ fin' cv' h1 =>
      rcases h with h | h <;> rw [h] at h1 <;> cases h1
      exact absurd rfl h'.2
    | wait => exact (same rfl).elim
    | @back _ fin' h1 =>
      rcases h with h | h <;> rw [h] at h1 <;> cases h1
      exact absurd rfl h'.1
    | wakeMain => exact (same rfl).elim
    | notify => exact (same rfl).elim
    | spurious => exact (same rfl).elim
    | noise => exact (same rfl).elim
    | setStop h => exact (bad h (by simp) (by simp)).elim
    | wakeWorker h => exact (bad h (by simp) (by simp)).elim
    | exit => exact (same rfl).elim
    | joined h => exact (bad h (by simp) (by simp)).elim
    | clear h => exact (bad h (by simp) (by simp)).elim
  rw [key.1]
  refine ⟨finished_of_empty hro hr key.2, fun t ht hsp => ?_, fun w hw t h1 => ?_⟩
  · exact (Sys.C21_workers_barrier (Inv.reach hr).yr (sp := 0) (by simp [RG.Graph.State.empty, key.2]) t ht hsp).2
  · have := (idle_of_empty hro hr key.2 hw).2.2
    rw [h1] at this
    simp at this

/-- C73: from the moment on at which `finalize()` begins to stop the workers, all tasks have finished, the user holds
no future of a task of the root space, no worker initialises or executes a task, and all queues are empty. When `finalize()` destroys the workers, their threads have
ended. -/
theorem C73_stopped_after_all_tasks (hro : Rooted cfg) (hr : Reach cfg N s) (hn : s.y.x.g.n < 2 ^ 32)
    (h : s.mpc.closing = true) :
    (∀ t, t < s.y.x.g.n → Finished cfg s.y.x.g t ∧ (cfg.space t = 0 → s.y.x.g.fut t = .done)) ∧
    (∀ w, w < N → s.y.ready w = [] ∧ s.y.new w = [] ∧
      ∀ t, s.y.pc w ≠ .initing t ∧ s.y.pc w ≠ .initingStolen t ∧ s.y.pc w ≠ .run t ∧ s.y.pc w ≠ .exec t) ∧
    (s.mpc = .cleared → ∀ w, w < N → s.gone w = true) := by
  have h0 := (Inv.reach hr).closed h hn
  refine ⟨fun t ht => ⟨finished_of_empty hro hr h0 t ht, fun hsp => ?_⟩, fun w hw => ?_, (Inv.reach hr).clearedI⟩
  · exact (Sys.C21_workers_barrier (Inv.reach hr).yr (sp := 0) (by simp [RG.Graph.State.empty, h0]) t ht hsp).2
  obtain ⟨h1, h2, h3⟩ := idle_of_empty hro hr h0 hw
  refine ⟨h1, h2, fun t => ?_⟩
  rcases h3 with h3 | h3 | h3 | h3 | h3 | h3 <;> rw [h3] <;> simp

/-- C73: a worker whose thread has ended does not go on; it was told to. -/
theorem C73_ended_worker_stays (hr : Reach cfg N s) (hs : Step cfg N l s s') {w : Nat} (h : s.gone w = true) :
    s'.gone w = true ∧ s'.y.pc w = s.y.pc w ∧ s.stop w = true := by
  have h1 := (Inv.reach hr).goneI w h
  refine ⟨?_, ?_, h1.1⟩
  · cases hs with
    | @exit _ v hw h1 h2 hg =>
      dsimp only
      by_cases e : w = v
      · subst e; exact upd_same _ _ _
      · rw [upd_ne _ _ e]; exact h
    | _ => exact h
  · cases hs with
    | sys h2 hst hn => exact (hst w h1.1 h1.2).trans h1.2.symm
    | _ => rfl

/-- states in which nothing is left to be done -/
theorem stuck (hN : 0 < N) (hs : cfg.Safe) (hro : Rooted cfg) (hr : Reach cfg N s) (hn : s.y.x.g.n < 2 ^ 32)
    (hq : ∀ s', ¬ OwnWork cfg N s s') :
    (s.mpc = .run ∨ s.mpc = .cleared ∨ ∃ fin, s.mpc = .idle fin ∧
      ∃ t, t < s.y.x.g.n ∧ cfg.space t = 0 ∧ s.y.x.g.fut t = .held) ∧
    ∀ t, t < s.y.x.g.n → Finished cfg s.y.x.g t := by
  have hi := Inv.reach hr
  have own : ∀ {s'}, Step cfg N .own s s' → s' ≠ s → (s'.y.x = s.y.x) → False := by
    intro s' h1 h2 h3
    exact hq s' ⟨⟨h2, .inl h1⟩, by rw [h3]; exact fun _ h => h⟩
  have pcs : ∀ {p}, Step cfg N .own s { s with mpc := p } → s.mpc ≠ p → False := by
    intro p h1 h2
    exact own h1 (fun e => h2 (by rw [← e])) rfl
  by_cases hcl : s.mpc.closing = true
  · -- the workers are being stopped
    have h0 := hi.closed hcl hn
    refine ⟨?_, finished_of_empty hro hr h0⟩
    cases h : s.mpc with
    | run => exact .inl rfl
    | cleared => exact .inr (.inl rfl)
    | check fin => rw [h] at hcl; cases hcl
    | idle fin => rw [h] at hcl; cases hcl
    | stop k =>
      exfalso
      by_cases e : k = N
      · exact pcs (.clear h e) (by rw [h]; simp)
      · have := (hi.joinedI k (.inl h)).1
        refine own (.setStop h (by omega)) (fun e => ?_) rfl
        have := congrArg State.mpc e
        dsimp only at this
        rw [h] at this
        cases this
    | wake k =>
      exfalso
      have hy := Sys.Inv.reach hi.yr
      refine own (.wakeWorker h (.notifyCall (hy.cvn k _ (Nat.le_refl _)))) (fun e => ?_) rfl
      have := congrArg State.mpc e
      dsimp only at this
      rw [h] at this
      cases this
    | join k =>
      exfalso
      have hk := hi.stopW k (.inr h)
      have hy := Sys.Inv.reach hi.yr
      have hg : s.gone k = false := by
        cases h1 : s.gone k with
        | false => rfl
        | true => exact (pcs (.joined h h1) (by rw [h]; simp)).elim
      have noSys : ∀ {y'}, Sys.Step cfg N s.y y' → y'.x = s.y.x → ¬ Sys.Idle s.y y' →
          (∀ w, s.stop w = true → s.y.pc w = .top → y'.pc w = .top) → False := by
        intro y' h1 h2 h3 h4
        refine hq _ ⟨⟨fun e => ?_, .inr ⟨.sys h1 h4 (fun h => absurd (by rw [h2]) h), h1, h3, by rw [h2], by rw [h2],
          by rw [h2]⟩⟩, fun t ht => by dsimp only; rw [h2]; exact ht⟩
        have h5 := congrArg State.y e
        dsimp only at h5
        rw [h5] at h3
        exact h3 .spin
      have noPc : ∀ {y' : Sys.State}, Sys.Step cfg N s.y y' → y'.x = s.y.x → y'.pc k ≠ s.y.pc k → s.y.pc k ≠ .top →
          (∀ w, w ≠ k → y'.pc w = s.y.pc w) → False := by
        intro y' h1 h2 h3 h4 h5
        refine noSys h1 h2 (fun h => h3 (by rw [h.pc])) fun w _ h6 => ?_
        by_cases e : w = k
        · subst e; exact absurd h6 h4
        · rw [h5 w e]; exact h6
      have cvq : ((s.y.cv k).ws 0 = .out ∨ (s.y.cv k).ws 0 = .asleep) ∧ ∀ j, (s.y.cv k).ns j = .out := by
        rcases Sys.cv_progress (hy.cvr k) with ⟨c', h1, h2⟩ | ⟨j, c', h1, h2⟩ | h
        · exact (noSys (.wait hk.1 h1) rfl (Sys.not_idle_wait h1 h2) (fun _ _ h => h)).elim
        · exact (noSys (.notify hk.1 h1) rfl (Sys.not_idle_notify h1 h2) (fun _ _ h => h)).elim
        · exact h
      have wk0 : s.y.wk k = 0 := by
        apply Classical.byContradiction
        intro h1
        refine noSys (.wake hk.1 (Nat.pos_of_ne_zero h1) (.notifyCall (hy.cvn k _ (Nat.le_refl _)))) rfl (fun h' => ?_)
          (fun _ _ h => h)
        have := congrFun h'.wk k
        dsimp only at this
        rw [upd_same] at this
        omega
      obtain ⟨hr0, hn0, hpc⟩ := idle_of_empty hro hr h0 hk.1
      have oth : ∀ (p : Sys.Pc) w, w ≠ k → upd s.y.pc k p w = s.y.pc w := fun p w e => upd_ne _ _ e
      rcases hpc with h1 | h1 | h1 | h1 | h1 | h1
      · refine own (.exit hk.1 h1 hk.2 hg) (fun e => ?_) rfl
        have := congrFun (congrArg State.gone e) k
        dsimp only at this
        rw [upd_same, hg] at this
        cases this
      · rcases cvq.1 with h2 | h2
        · refine noPc (.woken hk.1 h1 h2) rfl ?_ (by rw [h1]; simp) (oth _)
          dsimp only; rw [upd_same, h1]; simp
        · rcases hi.sigS k h with h3 | (h3 | ⟨j, h3⟩ | h3) | h3
          · rw [h1] at h3; cases h3
          · omega
          · rw [cvq.2 j] at h3; cases h3
          · exact Cv.C38_no_lost_wakeup (hy.cvr k) h3 cvq.2 h2
          · rw [h1, h2] at h3; cases h3
      · refine noPc (.noReady hk.1 h1 hr0) rfl ?_ (by rw [h1]; simp) (oth _)
        dsimp only; rw [upd_same, h1]; simp
      · refine noPc (.noNew hk.1 h1 hn0) rfl ?_ (by rw [h1]; simp) (oth _)
        dsimp only; rw [upd_same, h1]; simp
      · refine noPc (.noStealReady hk.1 h1) rfl ?_ (by rw [h1]; simp) (oth _)
        dsimp only; rw [upd_same, h1]; simp
      · refine noPc (.noStealNew hk.1 h1) rfl ?_ (by rw [h1]; simp) (oth _)
        dsimp only; rw [upd_same, h1]; simp
  · -- no worker has been told to stop
    have hcl' : s.mpc.closing = false := by simpa using hcl
    have hst := hi.noStop hcl'
    have hq' : ∀ y', ¬ Sys.OwnWork cfg N s.y y' := by
      intro y' h1
      refine hq _ ⟨⟨fun e => ?_, .inr ⟨.sys h1.1.1 (fun w h => by rw [hst w] at h; cases h) (fun _ _ => hcl'), h1.1⟩⟩, h1.2⟩
      have h2 := congrArg State.y e
      dsimp only at h2
      exact h1.1.2.1 (by rw [h2]; exact .spin)
    refine ⟨?_, fun t ht => ((Sys.C71_no_deadlock hN hs hi.yr hq').1 t ht).1⟩
    have cvq : (s.mcv.ws 0 = .out ∨ s.mcv.ws 0 = .asleep) ∧ ∀ j, s.mcv.ns j = .out := by
      rcases Sys.cv_progress hi.cvr with ⟨c', h1, h2⟩ | ⟨j, c', h1, h2⟩ | h
      · refine (own (.wait h1) (fun e => h2 ?_) rfl).elim
        have := congrArg State.mcv e
        dsimp only at this
        rw [this]
      · refine (own (.notify h1) (fun e => h2 ?_) rfl).elim
        have := congrArg State.mcv e
        dsimp only at this
        rw [this]
      · exact h
    have mwk0 : s.mwk = 0 := by
      apply Classical.byContradiction
      intro h1
      refine own (.wakeMain (Nat.pos_of_ne_zero h1) (.notifyCall (hi.cvn _ (Nat.le_refl _)))) (fun e => ?_) rfl
      have := congrArg State.mnn e
      dsimp only at this
      omega
    cases h : s.mpc with
    | run => exact .inl rfl
    | cleared => exact .inr (.inl rfl)
    | stop k => rw [h] at hcl'; cases hcl'
    | wake k => rw [h] at hcl'; cases hcl'
    | join k => rw [h] at hcl'; cases hcl'
    | check fin =>
      exfalso
      cases hz : Barrier.isZero (s.y.x.g.tasks 0) with
      | true => exact pcs (.empty h hz) (by rw [h]; cases fin <;> simp)
      | false =>
        refine own (.idle h hz (.waitCall (hi.cvw (by rw [h]; simp)))) (fun e => ?_) rfl
        have := congrArg State.mpc e
        dsimp only at this
        rw [h] at this
        cases this
    | idle fin =>
      refine .inr (.inr ⟨fin, rfl, ?_⟩)
      rcases cvq.1 with h1 | h1
      · exact (pcs (.back h h1) (by rw [h]; simp)).elim
      · have hne : s.y.x.g.tasks 0 ≠ 0 := by
          intro h0
          rcases hi.sigM fin h h0 with h2 | (⟨j, h2⟩ | h2) | h2
          · omega
          · rw [cvq.2 j] at h2; cases h2
          · exact Cv.C38_no_lost_wakeup hi.cvr h2 cvq.2 h1
          · rw [h1] at h2; cases h2
        -- a task that has not been released
        have ht : NestingOk { cfg with strict := true } := .inl rfl
        have hl := RG.Graph.Life.reach ht hi.yr.graph
        have h2 := hl.tasksEq 0
        obtain ⟨t, htn, h3⟩ := sumTo_pos (show 0 < sumTo s.y.x.g.n
          (RG.Graph.wtask { cfg with strict := true } s.y.x.g.mem 0) by omega)
        simp only [RG.Graph.wtask] at h3
        split at h3
        · rename_i h4
          refine ⟨t, htn, h4.1, Classical.byContradiction fun h5 => ?_⟩
          have hq2 : ∀ s', ¬ Sys.OwnWork { cfg with strict := true } N s.y s' := fun s' h => hq' s' h.of_strict
          have hst2 := Sys.stuck ht hN hi.yr.strict hq2
          have hg := hst2.graph ht hi.yr.strict hq2
          have hw := fun u hu => (RG.Graph.C70_no_deadlock_partial ht (Sys.safe_strict hs)
            (Sys.Inv.reach hi.yr.strict).wr hg u hu).2.2
          have := (RG.Graph.C15_no_deadlock_partial ht (Sys.safe_strict hs) hi.yr.graph (fun g' h6 => by
            obtain ⟨⟨⟨l, h7⟩, h8, h9⟩, h10⟩ := h6
            exact hg ⟨g', s.y.x.w, s.y.x.know, s.y.x.out⟩ ⟨⟨.other h7 h8 (by
              intro u h11 h12
              by_cases hu : u < s.y.x.g.n
              · exact absurd (hw u hu) h11
              · rw [(RG.Graph.Dom.reach hi.yr.graph).ex u (by omega)] at h12
                cases h12) (.inl h9), h8, h9, fun _ h => h, rfl⟩, h10⟩) t htn).2.2 h5
          rw [this] at h4
          cases h4.2
        · cases h3

/-- C73: if no thread has anything to do, then all tasks have finished, and the main thread executes code of the user,
or `finalize()` has returned, or the main thread waits in `barrier()` or `finalize()` for a task of the root space
whose future the user still holds. -/
theorem C73_no_deadlock (hN : 0 < N) (hs : cfg.Safe) (hro : Rooted cfg) (hr : Reach cfg N s)
    (hn : s.y.x.g.n < 2 ^ 32) (hq : ∀ s', ¬ OwnWork cfg N s s') :
    (s.mpc = .run ∨ s.mpc = .cleared ∨ ∃ fin, s.mpc = .idle fin ∧
      ∃ t, t < s.y.x.g.n ∧ cfg.space t = 0 ∧ s.y.x.g.fut t = .held) ∧
    ∀ t, t < s.y.x.g.n → Finished cfg s.y.x.g t :=
  stuck hN hs hro hr hn hq

/-- C73: the threads cannot make steps for ever without a new request of the user. -/
theorem C73_work_ends (hr : Reach cfg N s) :
    ¬ ∃ f : Nat → State, f 0 = s ∧ ∀ i, Work cfg N (f i) (f (i + 1)) := by
  rintro ⟨f, h0, h⟩
  have hreach : ∀ i, Reach cfg N (f i) := by
    intro i
    induction i with
    | zero => rw [h0]; exact hr
    | succ i ih =>
      rcases (h i).2 with h1 | ⟨h1, _⟩
      · exact .step ih h1
      · exact .step ih h1
  have hm : ∀ i, pmeasure cfg N (f i) + i ≤ pmeasure cfg N (f 0) := by
    intro i
    induction i with
    | zero => exact Nat.le_refl _
    | succ i ih =>
      have := pmeasure_decreases (hreach i) (h i)
      omega
  have := hm (pmeasure cfg N (f 0) + 1)
  omega

/-- any number of steps without a new request of the user -/
inductive Works (cfg : Cfg) (N : Nat) (s : State) : State → Prop
  | refl : Works cfg N s s
  | step {s' s''} : Works cfg N s s' → Work cfg N s' s'' → Works cfg N s s''

theorem Work.step (h : Work cfg N s s') : ∃ l, Step cfg N l s s' := by
  rcases h.2 with h | ⟨h, _⟩
  · exact ⟨_, h⟩
  · exact ⟨_, h⟩

theorem Works.steps (h : Works cfg N s s') : Steps cfg N s s' := by
  induction h with
  | refl => exact .refl
  | step _ hw ih =>
    obtain ⟨l, h⟩ := hw.step
    exact .step ih h

theorem Works.trans {s1 s2 s3 : State} (h1 : Works cfg N s1 s2) (h2 : Works cfg N s2 s3) : Works cfg N s1 s3 := by
  induction h2 with
  | refl => exact h1
  | step _ hs ih => exact .step ih hs

theorem Work.n_eq (h : Work cfg N s s') : s'.y.x.g.n = s.y.x.g.n := by
  rcases h.2 with h | ⟨_, h⟩
  · cases h <;> rfl
  · exact h.2.2.1

/-- `finalize()` has been called -/
def MPc.finalizing : MPc → Bool
  | .check fin => fin
  | .idle fin => fin
  | p => p.closing

theorem Work.finalizing (h : Work cfg N s s') (hf : s.mpc.finalizing = true) : s'.mpc.finalizing = true := by
  rcases h with ⟨_, h | ⟨h, _⟩⟩
  · cases h with
    | empty h hc => rw [h] at hf; cases hf; rfl
    | idle h hc hw => rw [h] at hf; exact hf
    | back h hw => rw [h] at hf; exact hf
    | setStop h hk => rfl
    | wakeWorker h hc => rfl
    | joined h hg => rfl
    | clear h hk => rfl
    | _ => exact hf
  · cases h with
    | sys h hst hn => exact hf

theorem Work.futGone (hr : Reach cfg N s) (h : Work cfg N s s') {t : Nat} (hf : FutGone s.y.x.g t) :
    FutGone s'.y.x.g t := by
  rcases h with ⟨_, h | ⟨h, _⟩⟩
  · cases h <;> exact hf
  · cases h with
    | sys h hst hn => exact h.futGone (Inv.reach hr).yr hf

theorem OwnWork.futGone (h : OwnWork cfg N s s') {t : Nat} (hf : FutGone s'.y.x.g t) : FutGone s.y.x.g t := by
  obtain ⟨⟨_, h | ⟨h, _⟩⟩, h2⟩ := h
  · cases h <;> exact hf
  · cases h with
    | sys h hst hn =>
      dsimp only at h2 hf
      rcases h.x_step with h1 | h1
      · rw [← h1]; exact hf
      · have key : ∀ {l g g'}, RG.Graph.Step cfg l g g' → (g.fut t = .held → g'.fut t = .held) → FutGone g' t →
            FutGone g t := by
          intro l g g' h h2 hf
          unfold FutGone at *
          cases h with
          | @emplace _ u i h3 h4 =>
            dsimp only at h2 hf
            by_cases e : t = u
            · subst e; rw [upd_same] at hf; simp at hf
            · rw [upd_ne _ _ e] at hf; exact hf
          | @takeFuture _ u h3 =>
            dsimp only at h2 hf
            by_cases e : t = u
            · subst e
              have := h2 h3
              rw [upd_same] at this
              cases this
            · rw [upd_ne _ _ e] at hf; exact hf
          | @countGet _ u h3 =>
            dsimp only [RG.Graph.State.decCd] at h2 hf
            by_cases e : t = u
            · subst e; exact .inl h3
            · rw [upd_ne _ _ e] at hf; exact hf
          | _ => exact hf
        have keyW : ∀ {x x'}, RG.Graph.WStep cfg x x' → (x.g.fut t = .held → x'.g.fut t = .held) → FutGone x'.g t →
            FutGone x.g t := by
          intro x x' h h2 hf
          cases h with
          | submitOut h _ _ _ => exact key h h2 hf
          | submitIn h _ _ _ _ => exact key h h2 hf
          | other h _ _ _ => exact key h h2 hf
          | _ => exact hf
        exact keyW h1 (h2 t) hf

/-- every execution can be continued to one in which nothing is left to be done -/
theorem to_stuck (hr : Reach cfg N s) :
    ∃ s', Works cfg N s s' ∧ (∀ t, FutGone s'.y.x.g t → FutGone s.y.x.g t) ∧ ∀ s'', ¬ OwnWork cfg N s' s'' := by
  have h : ∀ k s, Reach cfg N s → pmeasure cfg N s ≤ k →
      ∃ s', Works cfg N s s' ∧ (∀ t, FutGone s'.y.x.g t → FutGone s.y.x.g t) ∧ ∀ s'', ¬ OwnWork cfg N s' s'' := by
    intro k
    induction k with
    | zero =>
      intro s hr hk
      refine ⟨s, .refl, fun _ h => h, fun s'' h => ?_⟩
      have := pmeasure_decreases hr h.1
      omega
    | succ k ih =>
      intro s hr hk
      by_cases hq : ∃ s', OwnWork cfg N s s'
      · obtain ⟨s1, h3⟩ := hq
        have hw := h3.1
        have := pmeasure_decreases hr hw
        obtain ⟨l, hst⟩ := hw.step
        obtain ⟨s', h4, h7, h8⟩ := ih s1 (.step hr hst) (by omega)
        exact ⟨s', Works.trans (.step .refl hw) h4, fun t ht => h3.futGone (h7 t ht), h8⟩
      · exact ⟨s, .refl, fun _ h => h, fun s'' h => hq ⟨s'', h⟩⟩
  exact h _ s hr (Nat.le_refl _)

/-- C73: if `finalize()` has been called after the futures of all tasks of the root space have been read or dropped,
then the program can only come to rest when `finalize()` has returned, all workers have ended, and all tasks have
finished; and it can come to rest. By `C73_work_ends` it does, if no thread spins for ever. -/
theorem C73_finalize_returns (hN : 0 < N) (hs : cfg.Safe) (hro : Rooted cfg) (hr : Reach cfg N s)
    (hn : s.y.x.g.n < 2 ^ 32) (hfin : s.mpc.finalizing = true)
    (hf : ∀ t, t < s.y.x.g.n → cfg.space t = 0 → FutGone s.y.x.g t) :
    (∀ s', Works cfg N s s' → (∀ s'', ¬ OwnWork cfg N s' s'') →
      s'.mpc = .cleared ∧ (∀ w, w < N → s'.gone w = true) ∧ ∀ t, t < s'.y.x.g.n → Finished cfg s'.y.x.g t) ∧
    ∃ s', Works cfg N s s' ∧ ∀ s'', ¬ OwnWork cfg N s' s'' := by
  constructor
  · intro s' hw hq
    have inv : Reach cfg N s' ∧ s'.y.x.g.n = s.y.x.g.n ∧ s'.mpc.finalizing = true ∧
        ∀ t, t < s.y.x.g.n → cfg.space t = 0 → FutGone s'.y.x.g t := by
      clear hq
      induction hw with
      | refl => exact ⟨hr, rfl, hfin, hf⟩
      | step _ h ih =>
        obtain ⟨h1, h2, h3, h4⟩ := ih
        obtain ⟨l, hst⟩ := h.step
        exact ⟨.step h1 hst, h.n_eq.trans h2, h.finalizing h3, fun t ht hsp => h.futGone h1 (h4 t ht hsp)⟩
    obtain ⟨h1, h2, h3, h4⟩ := inv
    have h5 := stuck hN hs hro h1 (by rw [h2]; exact hn) hq
    rcases h5.1 with h6 | h6 | ⟨fin, h6, t, h7, h8, h9⟩
    · rw [h6] at h3; cases h3
    · exact ⟨h6, (Inv.reach h1).clearedI h6, h5.2⟩
    · rcases h4 t (by omega) h8 with h | h <;> rw [h] at h9 <;> cases h9
  · obtain ⟨s', h1, _, h2⟩ := to_stuck hr
    exact ⟨s', h1, h2⟩

/-! ### examples -/

/-- in `flat` all tasks belong to the root space -/
theorem flat_rooted : Rooted RG.Graph.flat := fun _ _ => rfl

/-- the user has submitted a task, called `finalize()`, and still holds the future -/
theorem flat_waits : ∃ s, Reach RG.Graph.flat 2 s ∧ s.y.x.g.n = 1 ∧ s.mpc = .idle true ∧ s.y.x.g.fut 0 = .held ∧
    ∀ s', ¬ OwnWork RG.Graph.flat 2 s s' := by
  obtain ⟨y1, h1, hn1, hx1, hf1, _⟩ := Sys.submit_out (cfg := RG.Graph.flat) (N := 2) (s := Sys.init) rfl .init
    (fun c i hc => by cases hc)
  have lift : ∀ {y'}, Sys.Steps RG.Graph.flat 2 Sys.init y' → ∃ s, Reach RG.Graph.flat 2 s ∧ s.y = y' ∧ s.mpc = .run := by
    intro y' h
    induction h with
    | refl => exact ⟨init, .init, rfl, rfl⟩
    | step _ h ih =>
      obtain ⟨s, h1, rfl, h3⟩ := ih
      refine ⟨_, .step h1 (.sys h (fun w h => ?_) (fun _ _ => by rw [h3]; rfl)), rfl, h3⟩
      rw [(Inv.reach h1).noStop (by rw [h3]; rfl)] at h
      cases h
  obtain ⟨s, hr, rfl, hm⟩ := lift h1
  have hr2 := Reach.step hr (.call (fin := true) hm)
  obtain ⟨s3, h3, hf, hq⟩ := to_stuck hr2
  have inv : Reach RG.Graph.flat 2 s3 ∧ s3.y.x.g.n = 1 ∧ s3.mpc.finalizing = true := by
    clear hq hf
    induction h3 with
    | refl => exact ⟨hr2, hn1, rfl⟩
    | step _ h ih =>
      obtain ⟨h1, h2, h3⟩ := ih
      obtain ⟨l, hst⟩ := h.step
      exact ⟨.step h1 hst, h.n_eq.trans h2, h.finalizing h3⟩
  obtain ⟨hr3, hn3, hf3⟩ := inv
  have h0 : ¬ FutGone s3.y.x.g 0 := by
    intro h
    have := hf 0 h
    unfold FutGone at this
    dsimp only at this
    rw [hf1] at this
    rcases this with h | h <;> cases h
  refine ⟨s3, hr3, hn3, ?_⟩
  rcases (C73_no_deadlock (by omega) Sys.flat_safe flat_rooted hr3 (by omega) hq).1 with h | h | ⟨fin, h, t, ht, _, h4⟩
  · rw [h] at hf3; cases hf3
  · have := (C73_stopped_after_all_tasks flat_rooted hr3 (by omega) (by rw [h]; rfl)).1 0 (by omega)
    exact absurd (.inr (this.2 rfl)) h0
  · rw [h] at hf3
    cases hf3
    obtain rfl : t = 0 := by omega
    exact ⟨h, h4, hq⟩

/-- C73: the unrestricted claim is false. If the user calls `finalize()` (or `barrier()`) and holds the future of a
task, the call does not return although all tasks have finished: the main thread sleeps, and no thread has anything to
do. -/
theorem C73_held_future_blocks_false :
    ¬ ∀ s, Reach RG.Graph.flat 2 s → s.mpc.finalizing = true → (∀ s', ¬ OwnWork RG.Graph.flat 2 s s') →
      s.mpc = .cleared := by
  intro h
  obtain ⟨s, hr, _, hm, _, hq⟩ := flat_waits
  have := h s hr (by rw [hm]; rfl) hq
  rw [hm] at this
  cases this

/-- the user drops the future while `finalize()` waits -/
theorem flat_dropped : ∃ s, Reach RG.Graph.flat 2 s ∧ s.y.x.g.n = 1 ∧ s.mpc = .idle true ∧
    ∀ t, t < s.y.x.g.n → RG.Graph.flat.space t = 0 → FutGone s.y.x.g t := by
  obtain ⟨s, hr, hn, hm, hf, _⟩ := flat_waits
  refine ⟨_, .step hr (.sys (.graph (.other (.takeFuture hf) rfl (fun _ _ h => h) (.inl rfl)) ?_ rfl rfl rfl
    (fun _ h => absurd rfl h) (fun h => absurd rfl h)) (fun _ _ h => h) (fun h => absurd rfl h)), hn, hm, ?_⟩
  · exact ⟨fun _ _ => rfl, fun _ _ _ => rfl⟩
  · intro t ht _
    dsimp only at ht
    obtain rfl : t = 0 := by omega
    unfold FutGone
    dsimp only
    simp

/-- `finalize()` has returned -/
theorem flat_finalized : ∃ s s', Reach RG.Graph.flat 2 s ∧ s.y.x.g.n = 1 ∧ s.mpc = .idle true ∧
    Works RG.Graph.flat 2 s s' ∧ s'.y.x.g.n = 1 ∧ s'.mpc = .cleared := by
  obtain ⟨s, hr, hn, hm, hf⟩ := flat_dropped
  have h := C73_finalize_returns (by omega) Sys.flat_safe flat_rooted hr (by omega) (by rw [hm]; rfl) hf
  obtain ⟨s', h1, h2⟩ := h.2
  refine ⟨s, s', hr, hn, hm, h1, ?_, (h.1 s' h1 h2).1⟩
  clear h2
  induction h1 with
  | refl => exact hn
  | step _ h ih => rw [h.n_eq]; exact ih

/-- the hypotheses of `C73_finalize_returns` and `C73_work_ends` -/
example : RG.Graph.flat.Safe ∧ Rooted RG.Graph.flat ∧ ∃ s, Reach RG.Graph.flat 2 s ∧ s.y.x.g.n = 1 ∧
    s.mpc.finalizing = true ∧ ∀ t, t < s.y.x.g.n → RG.Graph.flat.space t = 0 → FutGone s.y.x.g t := by
  obtain ⟨s, h1, h2, h3, h4⟩ := flat_dropped
  exact ⟨Sys.flat_safe, flat_rooted, s, h1, h2, by rw [h3]; rfl, h4⟩

/-- those of `C73_no_deadlock` -/
example : ∃ s, Reach RG.Graph.flat 2 s ∧ s.y.x.g.n = 1 ∧ ∀ s', ¬ OwnWork RG.Graph.flat 2 s s' := by
  obtain ⟨s, h1, h2, _, _, h3⟩ := flat_waits
  exact ⟨s, h1, h2, h3⟩

/-- those of `C73_stopped_after_all_tasks`; the last hypothesis too -/
example : ∃ s, Reach RG.Graph.flat 2 s ∧ s.y.x.g.n = 1 ∧ s.mpc.closing = true ∧ s.mpc = .cleared := by
  obtain ⟨s, s', h1, _, _, h2, h3, h4⟩ := flat_finalized
  exact ⟨s', h2.steps.reach h1, h3, by rw [h4]; rfl, h4⟩

/-- those of `C73_barrier_returns_after_all_tasks` -/
example : ∃ s s' l, Reach RG.Graph.flat 2 s ∧ s.y.x.g.n = 1 ∧ Step RG.Graph.flat 2 l s s' ∧
    (s.mpc = .check true ∨ s.mpc = .idle true) ∧ s'.mpc ≠ .check true ∧ s'.mpc ≠ .idle true := by
  obtain ⟨s, s', h1, hn, hm, h2, _, h4⟩ := flat_finalized
  have key : (Reach RG.Graph.flat 2 s' ∧ s'.y.x.g.n = 1 ∧ (s'.mpc = .check true ∨ s'.mpc = .idle true)) ∨
      ∃ s s' l, Reach RG.Graph.flat 2 s ∧ s.y.x.g.n = 1 ∧ Step RG.Graph.flat 2 l s s' ∧
        (s.mpc = .check true ∨ s.mpc = .idle true) ∧ s'.mpc ≠ .check true ∧ s'.mpc ≠ .idle true := by
    rename_i hn'
    clear h4 hn'
    induction h2 with
    | refl => exact .inl ⟨h1, hn, .inr hm⟩
    | @step s2 s3 _ h ih =>
      rcases ih with ⟨h5, h6, h7⟩ | ih
      · obtain ⟨l, hst⟩ := h.step
        by_cases h8 : s3.mpc = .check true ∨ s3.mpc = .idle true
        · exact .inl ⟨.step h5 hst, h.n_eq.trans h6, h8⟩
        · exact .inr ⟨s2, s3, l, h5, h6, hst, h7, fun h => h8 (.inl h), fun h => h8 (.inr h)⟩
      · exact .inr ih
  rcases key with ⟨_, _, h | h⟩ | h
  · rw [h4] at h; cases h
  · rw [h4] at h; cases h
  · exact h

/-- those of `C73_ended_worker_stays` -/
example : ∃ s s' l, Reach RG.Graph.flat 2 s ∧ Step RG.Graph.flat 2 l s s' ∧ s.gone 1 = true := by
  obtain ⟨s, s', h1, _, _, h2, _, h4⟩ := flat_finalized
  have hr := h2.steps.reach h1
  exact ⟨s', _, _, hr, .noise (.notifyCall ((Inv.reach hr).cvn _ (Nat.le_refl _))), (Inv.reach hr).clearedI h4 1 (by omega)⟩

end RG.Prog
