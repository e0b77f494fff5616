import Verif.Lemmas.FullProgress
import Verif.Lemmas.FullExec
import Verif.Props.Program
/-
C71, C73: whole programs with the individual steps of pausing a body.
-/
set_option linter.unusedVariables false
namespace RG.Full

open RG.Graph (Cfg Finished FutGone nest)
open RG.Prog (Lbl Rooted MPc)

variable {cfg : Cfg} {N : Nat} {a : Bool} {s s' : State} {l : Option Lbl}

/-- C71, C73: every execution with the individual steps of pausing is one of Model/Program and of Model/System, as long
as no body is continued twice: all that was proved about the order, the number of executions, conflicts, children,
events and memory (C12, C13, C18, C19, C20, C21, C59, C72, C73) holds for it. -/
theorem C71_pausing_refines (hr : Reach cfg N a s) : Prog.Reach cfg N s.p ∧ Sys.Reach cfg N s.p.y :=
  ⟨(Base.reach hr).pr, (Prog.Inv.reach (Base.reach hr).pr).yr⟩

/-- C71: a body that waits is continued only after the result has been set, and no body is continued twice, if no
result is set while a worker is about to pause a body that waits for it. Missing: see `C71_resumed_twice_false`. -/
theorem C71_continued_once_partial (hr : Reach cfg N true s) : s.bad = false := (Inv.reach hr).ok

/-- C71: if no thread has anything to do, all tasks have finished, no body waits, no worker pauses a body. Missing: a
result that is set while a worker is about to pause a body that waits for it, see `C71_lost_wakeup_false`. -/
theorem C71_pausing_no_deadlock_partial (hN : 0 < N) (hs : cfg.Safe) (hro : Rooted cfg) (hr : Reach cfg N true s)
    (hn : s.p.y.x.g.n < 2 ^ 32) (hq : ∀ s', ¬ OwnWork cfg N true s s') :
    (∀ t, t < s.p.y.x.g.n → Finished cfg s.p.y.x.g t ∧ s.p.y.x.w t = none) ∧ ∀ w, s.pz w = none := by
  obtain ⟨h1, h2⟩ := stuck_prog hr hq
  refine ⟨fun t ht => ?_, h1⟩
  have h3 := (Prog.C73_no_deadlock hN hs hro (Base.reach hr).pr hn h2).2 t ht
  refine ⟨h3, Classical.byContradiction fun h4 => ?_⟩
  cases h5 : s.p.y.x.w t with
  | none => exact h4 h5
  | some u =>
    have h6 := ((RG.Graph.KInv.reach (Sys.Inv.reach (C71_pausing_refines hr).2).wr).w t u h5).2
    cases h3 with
    | mk h7 _ _ => rw [h6] at h7; cases h7

/-- C73: the same with the main thread: if no thread has anything to do, the main thread executes code of the user, or
`finalize()` has returned, or the main thread waits in `barrier()` or `finalize()` for a task whose future the user
still holds. Missing: as for `C71_pausing_no_deadlock_partial`. -/
theorem C73_pausing_no_deadlock_partial (hN : 0 < N) (hs : cfg.Safe) (hro : Rooted cfg) (hr : Reach cfg N true s)
    (hn : s.p.y.x.g.n < 2 ^ 32) (hq : ∀ s', ¬ OwnWork cfg N true s s') :
    s.p.mpc = .run ∨ s.p.mpc = .cleared ∨ ∃ fin, s.p.mpc = .idle fin ∧
      ∃ t, t < s.p.y.x.g.n ∧ cfg.space t = 0 ∧ s.p.y.x.g.fut t = .held :=
  (Prog.C73_no_deadlock hN hs hro (Base.reach hr).pr hn (stuck_prog hr hq).2).1

/-- C71: the threads cannot make steps for ever without a new request of the user, whatever the interleaving of pausing
and notifying. -/
theorem C71_pausing_work_ends (hr : Reach cfg N a s) :
    ¬ ∃ f : Nat → State, f 0 = s ∧ ∀ i, Work cfg N a (f i) (f (i + 1)) := by
  rintro ⟨f, h0, h⟩
  have hreach : ∀ i, Reach cfg N a (f i) := by
    intro i
    induction i with
    | zero => rw [h0]; exact hr
    | succ i ih =>
      rcases h i with h1 | ⟨l, h1, _⟩
      · exact .step ih h1
      · exact .step ih h1
  have hm : ∀ i, fmeasure cfg N (f i) + i ≤ fmeasure cfg N (f 0) := by
    intro i
    induction i with
    | zero => exact Nat.le_refl _
    | succ i ih =>
      have := fmeasure_decreases (Base.reach (hreach i)) (h i)
      omega
  have := hm (fmeasure cfg N (f 0) + 1)
  omega

/-- any number of steps without a new request of the user -/
inductive Works (cfg : Cfg) (N : Nat) (a : Bool) (s : State) : State → Prop
  | refl : Works cfg N a s s
  | step {s' s''} : Works cfg N a s s' → Work cfg N a s' s'' → Works cfg N a s s''

theorem Work.step (h : Work cfg N a s s') : ∃ l, Step cfg N a l s s' := by
  rcases h with h | ⟨_, h, _⟩
  · exact ⟨_, h⟩
  · exact ⟨_, h⟩

theorem Works.reach (h : Works cfg N a s s') (hr : Reach cfg N a s) : Reach cfg N a s' := by
  induction h with
  | refl => exact hr
  | step _ hw ih =>
    obtain ⟨l, h⟩ := hw.step
    exact .step ih h

theorem Works.trans {s1 s2 s3 : State} (h1 : Works cfg N a s1 s2) (h2 : Works cfg N a s2 s3) : Works cfg N a s1 s3 := by
  induction h2 with
  | refl => exact h1
  | step _ hs ih => exact .step ih hs

theorem to_stuck (hr : Reach cfg N a s) :
    ∃ s', Works cfg N a s s' ∧ ∀ s'', ¬ OwnWork cfg N a s' s'' := by
  have h : ∀ k s, Reach cfg N a s → fmeasure cfg N s ≤ k →
      ∃ s', Works cfg N a s s' ∧ ∀ s'', ¬ OwnWork cfg N a s' s'' := by
    intro k
    induction k with
    | zero =>
      intro s hr hk
      refine ⟨s, .refl, fun s'' h => ?_⟩
      have := fmeasure_decreases (Base.reach hr) h.1
      omega
    | succ k ih =>
      intro s hr hk
      by_cases hq : ∃ s', OwnWork cfg N a s s'
      · obtain ⟨s1, h3⟩ := hq
        have hw := h3.1
        have := fmeasure_decreases (Base.reach hr) hw
        obtain ⟨l, hst⟩ := hw.step
        obtain ⟨s', h4, h8⟩ := ih s1 (.step hr hst) (by omega)
        exact ⟨s', Works.trans (.step .refl hw) h4, h8⟩
      · exact ⟨s, .refl, fun s'' h => hq ⟨s'', h⟩⟩
  exact h _ s hr (Nat.le_refl _)

theorem Notify.same {t : Nat} (h : Notify cfg s t s') : s'.p.y.x.g = s.p.y.x.g ∧ s'.p.mpc = s.p.mpc := by
  cases h with
  | ready h hh => cases hh <;> simp_all
  | not h => exact ⟨rfl, rfl⟩

/-- the steps of pausing change neither the task graph nor the main thread -/
theorem Step.same (h : Step cfg N a none s s') : s'.p.y.x.g = s.p.y.x.g ∧ s'.p.mpc = s.p.mpc := by
  cases h with
  | yield _ _ _ _ hg => exact ⟨hg, rfl⟩
  | notify _ _ hn => exact hn.same
  | visit _ _ hn => exact hn.same
  | _ => exact ⟨rfl, rfl⟩

/-- C73: if `finalize()` has been called after the futures of all tasks of the root space have been read or dropped,
then the program can only come to rest when `finalize()` has returned, all workers have ended, and all tasks have
finished; and it can come to rest. Missing: as for `C71_pausing_no_deadlock_partial`. -/
theorem C73_pausing_finalize_returns_partial (hN : 0 < N) (hs : cfg.Safe) (hro : Rooted cfg) (hr : Reach cfg N true s)
    (hn : s.p.y.x.g.n < 2 ^ 32) (hfin : s.p.mpc.finalizing = true)
    (hf : ∀ t, t < s.p.y.x.g.n → cfg.space t = 0 → FutGone s.p.y.x.g t) :
    (∀ s', Works cfg N true s s' → (∀ s'', ¬ OwnWork cfg N true s' s'') →
      s'.p.mpc = .cleared ∧ (∀ w, w < N → s'.p.gone w = true) ∧
      ∀ t, t < s'.p.y.x.g.n → Finished cfg s'.p.y.x.g t) ∧
    ∃ s', Works cfg N true s s' ∧ ∀ s'', ¬ OwnWork cfg N true s' s'' := by
  refine ⟨fun s' hw hq => ?_, to_stuck hr⟩
  have inv : Reach cfg N true s' ∧ s'.p.y.x.g.n = s.p.y.x.g.n ∧ s'.p.mpc.finalizing = true ∧
      ∀ t, t < s.p.y.x.g.n → cfg.space t = 0 → FutGone s'.p.y.x.g t := by
    clear hq
    induction hw with
    | refl => exact ⟨hr, rfl, hfin, hf⟩
    | step _ h ih =>
      obtain ⟨h1, h2, h3, h4⟩ := ih
      obtain ⟨l, hst⟩ := h.step
      refine ⟨.step h1 hst, ?_⟩
      rcases h with h | ⟨l, h, hw⟩
      · obtain ⟨h5, h6⟩ := h.same
        rw [h5, h6]
        exact ⟨h2, h3, h4⟩
      · exact ⟨hw.n_eq.trans h2, hw.finalizing h3, fun t ht hsp => hw.futGone (Base.reach h1).pr (h4 t ht hsp)⟩
  obtain ⟨h1, h2, h3, h4⟩ := inv
  have h5 := Prog.C73_no_deadlock hN hs hro (Base.reach h1).pr (by rw [h2]; exact hn) (stuck_prog h1 hq).2
  rcases h5.1 with h6 | h6 | ⟨fin, h6, t, h7, h8, h9⟩
  · rw [h6] at h3; cases h3
  · exact ⟨h6, (Prog.Inv.reach (Base.reach h1).pr).clearedI h6, h5.2⟩
  · rcases h4 t (by omega) h8 with h | h <;> rw [h] at h9 <;> cases h9

/-! ### programs for which the assumption holds -/

/-- a body begins or ends only if its worker makes a step -/
theorem ex_pc {y y' : Sys.State} (h : Sys.Step cfg N y y') :
    y'.x.g.ex = y.x.g.ex ∨ ∃ w, w < N ∧ y'.pc w ≠ y.pc w := by
  cases h with
  | start hw h hs hp hh h0 he hww => exact .inr ⟨_, hw, by dsimp only; rw [upd_same, h]; simp⟩
  | bodyEnd hw h hs hp hh h0 he hk hww => exact .inr ⟨_, hw, by dsimp only; rw [upd_same, h]; simp⟩
  | graph h hp hh he => exact .inl he
  | emplace hw h hp hq hq' hh he => exact .inl he
  | ready h hp hh he => exact .inl he
  | unpause h hg => exact .inl (by dsimp only; rw [hg])
  | pause hw h hs hg => exact .inl (by dsimp only; rw [hg])
  | popNew hw h hq hs hp hi hh he => exact .inl he
  | initStep hw h hs hp hi hc hh he => exact .inl he
  | initReady hw h hs hp hi hh he => exact .inl he
  | initBlocked hw h hs hp hi hh he => exact .inl he
  | stolenBlocked hw h hs hp hi hh he => exact .inl he
  | stealNew hw hv h hq hs hp hi hh he => exact .inl he
  | _ => exact .inl rfl

/-- C71: with one worker the assumption of the theorems above holds in all interleavings: a body that waits is
continued, once. -/
theorem C71_one_worker (hr : Reach cfg 1 false s) : Reach cfg 1 true s := by
  induction hr with
  | init => exact .init
  | step hr hs ih =>
    suffices h : ∃ l, Step cfg 1 true l _ _ from h.elim fun _ h => .step ih h
    · cases hs with
      | prog hb h hw hz ha =>
        refine ⟨_, .prog hb h hw hz fun _ w z h1 _ => ?_⟩
        obtain ⟨h2, _⟩ := (Base.reach hr).pzI w z h1
        obtain rfl : w = 0 := by omega
        cases h with
        | sys h _ _ =>
          rcases ex_pc h with h3 | ⟨v, h3, h4⟩
          · exact congrFun h3 _
          · obtain rfl : v = 0 := by omega
            exact absurd (hz 0 z h1) h4
        | _ => rfl
      | yield hb hw h hs hg h0 hu hww => exact ⟨_, .yield hb hw h hs hg h0 hu hww⟩
      | set hb h => exact ⟨_, .set hb h⟩
      | checkReached hb h hr => exact ⟨_, .checkReached hb h hr⟩
      | checkNot hb h hr => exact ⟨_, .checkNot hb h hr⟩
      | push hb h => exact ⟨_, .push hb h⟩
      | incr hb h => exact ⟨_, .incr hb h⟩
      | up hb h => exact ⟨_, .up hb h⟩
      | notify hb h hn => exact ⟨_, .notify hb h hn⟩
      | begin hb h => exact ⟨_, .begin hb h⟩
      | visit hb h hn => exact ⟨_, .visit hb h hn⟩

theorem Notify.ys {t : Nat} (h : Notify cfg s t s') : s'.ys = s.ys := by cases h <;> rfl

/-- C71: the assumption holds if no body has had to wait. -/
theorem C71_no_waiting (hr : Reach cfg N false s) (h : s.ys = 0) : Reach cfg N true s := by
  suffices h : Reach cfg N true s ∧ ∀ w, s.pz w = none from h.1
  induction hr with
  | init => exact ⟨.init, fun _ => rfl⟩
  | step hr hs ih =>
    have key : ∀ {s : State}, (Reach cfg N true s ∧ ∀ w, s.pz w = none) → ∀ {w z}, s.pz w = some z → False := by
      intro s h w z h1
      rw [h.2 w] at h1; cases h1
    cases hs with
    | prog hb hp hw hz ha =>
      have ih := ih h
      exact ⟨.step ih.1 (.prog hb hp hw hz fun _ w z h1 => (key ih h1).elim), ih.2⟩
    | yield => simp at h
    | set hb h1 => exact (key (ih h) h1).elim
    | checkReached hb h1 hr => exact (key (ih h) h1).elim
    | checkNot hb h1 hr => exact (key (ih h) h1).elim
    | push hb h1 => exact (key (ih h) h1).elim
    | incr hb h1 => exact (key (ih h) h1).elim
    | up hb h1 => exact (key (ih h) h1).elim
    | notify hb h1 hn => exact (key (ih (hn.ys ▸ h)) h1).elim
    | begin hb h1 => exact ⟨.step (ih h).1 (.begin hb h1), (ih h).2⟩
    | visit hb h1 hn =>
      have ih := ih (hn.ys ▸ h)
      refine ⟨.step ih.1 (.visit hb h1 hn), fun w => ?_⟩
      have := (hn.reach (Base.reach hr).pr).2.2.2.2.2.1
      dsimp only
      rw [this]
      exact ih.2 w

/-! ### the race -/

/-- the child ends after the parent has found that the result has not been set, and before the parent has been put into
the list of followers -/
def lost : State := run (nest true) 2 init (untilEnd 2 ++ List.replicate 4 (.pause 0))

theorem lost_reach : Reach (nest true) 2 false lost := run_reach .init

/-- no thread will notify the pre-event of task 0 -/
structure Lost (s : State) : Prop where
  w : s.p.y.x.w 0 = some 1
  rn : ∃ rem, s.rn 1 = .loop rem
  pz : ∀ w z, s.pz w = some z → z.t ≠ 0
  loop : ∀ u rem, s.rn u = .loop rem → 0 ∉ rem
  fol : ∀ u, u ≠ 1 → 0 ∉ s.rfol u

set_option maxRecDepth 100000 in
theorem lost_facts : lost.p.y.x.w 0 = some 1 ∧ lost.p.y.x.g.ex 1 = .ended ∧ lost.rn 1 = .loop [] ∧ lost.pz 0 = none ∧
    lost.pz 1 = none ∧ lost.p.y.x.g.n = 2 ∧ lost.rn 0 = .idle ∧ lost.rfol 0 = [] ∧ lost.bad = false ∧
    lost.p.mpc = .run := by
  decide +kernel

theorem Notify.n {t : Nat} (h : Notify cfg s t s') : s'.p.y.x.g.n = s.p.y.x.g.n := by rw [h.same.1]

/-- only events of tasks have followers -/
structure Ids (s : State) : Prop where
  pz : ∀ w z, s.pz w = some z → z.u < s.p.y.x.g.n
  fol : ∀ u, s.rfol u ≠ [] → u < s.p.y.x.g.n

theorem Ids.reach (hr : Reach cfg N a s) : Ids s := by
  induction hr with
  | init => exact ⟨by simp [init], by simp [init]⟩
  | @step s s' l hr hs ih =>
    have hb := Base.reach hr
    have pzset : ∀ {w v : Nat} {z z' : Pz} {o : Option Pz}, s.pz w = some z → (o = none ∨ ∃ z', o = some z' ∧ z'.u = z.u) →
        upd s.pz w o v = some z' → z'.u < s.p.y.x.g.n := by
      intro w v z z' o h1 h2 h3
      by_cases e : v = w
      · subst e
        rw [upd_same] at h3
        rcases h2 with h2 | ⟨z2, h2, h4⟩
        · rw [h2] at h3; cases h3
        · rw [h2] at h3; cases h3
          rw [h4]; exact ih.pz _ _ h1
      · rw [upd_ne _ _ e] at h3; exact ih.pz v z' h3
    have hr' := Reach.step hr hs
    cases hs with
    | prog hbad h hw hz ha =>
      have := h.n_le
      exact ⟨fun w z h => Nat.lt_of_lt_of_le (ih.pz w z h) this, fun u h => Nat.lt_of_lt_of_le (ih.fol u h) this⟩
    | @yield _ x' w t u hbad hw h hs hg h0 hu hww =>
      refine ⟨fun v z h1 => ?_, fun v h1 => by dsimp only; rw [hg]; exact ih.fol v h1⟩
      dsimp only at h1
      by_cases e : v = w
      · subst e
        rw [upd_same] at h1
        cases h1
        have hk := RG.Graph.KInv.reach (Sys.Inv.reach (C71_pausing_refines hr').2).wr
        exact (hk.know _ _ (hk.w t u (by dsimp only; rw [hww, upd_same])).1).1
      · rw [upd_ne _ _ e] at h1
        dsimp only; rw [hg]; exact ih.pz v z h1
    | set _ h => exact ⟨fun _ _ => pzset h (.inr ⟨_, rfl, rfl⟩), ih.fol⟩
    | checkReached _ h _ => exact ⟨fun _ _ => pzset h (.inr ⟨_, rfl, rfl⟩), ih.fol⟩
    | checkNot _ h _ => exact ⟨fun _ _ => pzset h (.inr ⟨_, rfl, rfl⟩), ih.fol⟩
    | @push _ w t u _ h =>
      refine ⟨fun _ _ => pzset h (.inr ⟨_, rfl, rfl⟩), fun v h1 => ?_⟩
      dsimp only at h1
      by_cases e : v = u
      · subst e; exact ih.pz _ _ h
      · rw [upd_ne _ _ e] at h1; exact ih.fol v h1
    | incr _ h => exact ⟨fun _ _ => pzset h (.inr ⟨_, rfl, rfl⟩), ih.fol⟩
    | up _ h => exact ⟨fun _ _ => pzset h (.inr ⟨_, rfl, rfl⟩), ih.fol⟩
    | notify _ h hn =>
      obtain ⟨_, h2, _, h4, h5, h6, _⟩ := hn.reach hb.pr
      refine ⟨fun v z => ?_, fun u => ?_⟩
      · dsimp only; rw [h2]; exact pzset h (.inl rfl)
      · dsimp only; rw [h2, h5]; exact ih.fol u
    | begin _ h => exact ⟨ih.pz, ih.fol⟩
    | visit _ h hn =>
      obtain ⟨_, h2, _, h4, h5, h6, _⟩ := hn.reach hb.pr
      refine ⟨fun v z => ?_, fun u => ?_⟩
      · dsimp only; rw [h2, h6]; exact ih.pz v z
      · dsimp only; rw [h2, h5]; exact ih.fol u

theorem lost_of (h0 : Reach cfg 2 a s) (hf : s.p.y.x.w 0 = some 1 ∧ s.p.y.x.g.ex 1 = .ended ∧ s.rn 1 = .loop [] ∧
    s.pz 0 = none ∧ s.pz 1 = none ∧ s.p.y.x.g.n = 2 ∧ s.rn 0 = .idle ∧ s.rfol 0 = []) : Lost s := by
  obtain ⟨h1, h2, h3, h4, h5, h6, h7, h8⟩ := hf
  have hb := Base.reach h0
  refine ⟨h1, ⟨_, h3⟩, fun w z h => ?_, fun u rem h => ?_, fun u hu => ?_⟩
  · have hw := (hb.pzI w z h).1
    match w, hw with
    | 0, _ => rw [h4] at h; cases h
    | 1, _ => rw [h5] at h; cases h
  · match u with
    | 0 => rw [h7] at h; cases h
    | 1 => rw [h3] at h; cases h; simp
    | u + 2 =>
      have := (hb.rnI (u + 2)).2 (by
        rw [(RG.Graph.Dom.reach (C71_pausing_refines h0).2.graph).ex (u + 2) (by omega)]; simp)
      rw [this] at h; cases h
  · match u with
    | 0 => rw [h8]; simp
    | 1 => exact absurd rfl hu
    | u + 2 =>
      have h := (Ids.reach h0).fol (u + 2)
      rw [h6] at h
      intro h11
      have := h (by intro e; rw [e] at h11; cases h11)
      omega

theorem lost_ex : ∃ s, Reach (nest true) 2 false s ∧ Lost s ∧ s.p.y.x.g.n = 2 ∧ s.p.y.x.g.ex 1 = .ended ∧
    s.bad = false ∧ s.p.mpc = .run := by
  have h0 := lost_reach
  have hf := lost_facts
  generalize lost = s at h0 hf
  obtain ⟨h1, h2, h3, h4, h5, h6, h7, h8, h9, h10⟩ := hf
  exact ⟨s, h0, lost_of h0 ⟨h1, h2, h3, h4, h5, h6, h7, h8⟩, h6, h2, h9, h10⟩

theorem Notify.lost {t : Nat} (h : Notify cfg s t s') (ht : t ≠ 0) : s'.p.y.x.w 0 = s.p.y.x.w 0 := by
  cases h with
  | ready h hh =>
    cases hh with
    | ok _ _ _ _ hw => dsimp only; rw [hw, upd_ne _ _ (Ne.symm ht)]
    | bad _ => rfl
  | not h => rfl

theorem Lost.step (hb : Base cfg N s) (hl : Lost s) (hs : Step cfg N a l s s') : Lost s' := by
  have pzset : ∀ {w v : Nat} {z z' : Pz} {o : Option Pz}, s.pz w = some z → (o = none ∨ ∃ z', o = some z' ∧ z'.t = z.t) →
      upd s.pz w o v = some z' → z'.t ≠ 0 := by
    intro w v z z' o h1 h2 h3
    by_cases e : v = w
    · subst e
      rw [upd_same] at h3
      rcases h2 with h2 | ⟨z2, h2, h4⟩
      · rw [h2] at h3; cases h3
      · rw [h2] at h3; cases h3
        rw [h4]; exact hl.pz _ _ h1
    · rw [upd_ne _ _ e] at h3; exact hl.pz v z' h3
  cases hs with
  | @prog _ _ p' hbad h hw hz ha =>
    refine ⟨by rw [← hl.w, hw], ?_, hl.pz, fun u rem h1 => ?_, hl.fol⟩
    · obtain ⟨rem, h1⟩ := hl.rn
      refine ⟨rem, ?_⟩
      dsimp only [fired]
      rw [if_neg]
      · exact h1
      · intro h2
        have := (hb.rnI 1).2 h2.1
        rw [h1] at this; cases this
    · dsimp only [fired] at h1
      split at h1
      · cases h1
      · exact hl.loop u rem h1
  | @yield _ x' w t u hbad hw h hs hg h0 hu hww =>
    have ht : t ≠ 0 := by
      rintro rfl
      rw [hl.w] at h0; cases h0
    refine ⟨?_, hl.rn, fun v z h1 => ?_, hl.loop, hl.fol⟩
    · dsimp only; rw [hww, upd_ne _ _ (Ne.symm ht)]; exact hl.w
    · dsimp only at h1
      by_cases e : v = w
      · subst e; rw [upd_same] at h1; cases h1; exact ht
      · rw [upd_ne _ _ e] at h1; exact hl.pz v z h1
  | set _ h => exact ⟨hl.w, hl.rn, fun _ _ => pzset h (.inr ⟨_, rfl, rfl⟩), hl.loop, hl.fol⟩
  | checkReached _ h _ => exact ⟨hl.w, hl.rn, fun _ _ => pzset h (.inr ⟨_, rfl, rfl⟩), hl.loop, hl.fol⟩
  | checkNot _ h _ => exact ⟨hl.w, hl.rn, fun _ _ => pzset h (.inr ⟨_, rfl, rfl⟩), hl.loop, hl.fol⟩
  | @push _ w t u _ h =>
    refine ⟨hl.w, hl.rn, fun _ _ => pzset h (.inr ⟨_, rfl, rfl⟩), hl.loop, fun v hv => ?_⟩
    dsimp only
    by_cases e : v = u
    · subst e
      rw [upd_same]
      have := hl.pz _ _ h
      simp only [List.mem_cons, not_or]
      exact ⟨Ne.symm this, hl.fol v hv⟩
    · rw [upd_ne _ _ e]; exact hl.fol v hv
  | incr _ h => exact ⟨hl.w, hl.rn, fun _ _ => pzset h (.inr ⟨_, rfl, rfl⟩), hl.loop, hl.fol⟩
  | up _ h => exact ⟨hl.w, hl.rn, fun _ _ => pzset h (.inr ⟨_, rfl, rfl⟩), hl.loop, hl.fol⟩
  | notify _ h hn =>
    obtain ⟨_, _, _, h4, h5, h6, _⟩ := hn.reach hb.pr
    refine ⟨by dsimp only; rw [hn.lost (hl.pz _ _ h)]; exact hl.w, by dsimp only; rw [h4]; exact hl.rn,
      fun _ _ => pzset h (.inl rfl), by dsimp only; rw [h4]; exact hl.loop, by dsimp only; rw [h5]; exact hl.fol⟩
  | @begin _ u _ h =>
    have hu : u ≠ 1 := by
      rintro rfl
      obtain ⟨rem, h1⟩ := hl.rn
      rw [h1] at h; cases h
    refine ⟨hl.w, by dsimp only; rw [upd_ne _ _ (Ne.symm hu)]; exact hl.rn, hl.pz, fun v rem h1 => ?_, hl.fol⟩
    dsimp only at h1
    by_cases e : v = u
    · subst e; rw [upd_same] at h1; cases h1; exact hl.fol v hu
    · rw [upd_ne _ _ e] at h1; exact hl.loop v rem h1
  | @visit _ _ u t rem _ h hn =>
    obtain ⟨_, _, _, h4, h5, h6, _⟩ := hn.reach hb.pr
    have h0 := hl.loop u _ h
    simp only [List.mem_cons, not_or] at h0
    refine ⟨by dsimp only; rw [hn.lost (Ne.symm h0.1)]; exact hl.w, ?_, by dsimp only; rw [h6]; exact hl.pz,
      fun v rem' h1 => ?_, by dsimp only; rw [h5]; exact hl.fol⟩
    · dsimp only
      by_cases e : 1 = u
      · subst e; exact ⟨rem, upd_same _ _ _⟩
      · rw [upd_ne _ _ e]; exact hl.rn
    · dsimp only at h1
      by_cases e : v = u
      · subst e; rw [upd_same] at h1; cases h1; exact h0.2
      · rw [upd_ne _ _ e] at h1; exact hl.loop v rem' h1

theorem Lost.steps (hl : Lost s) (hr : Reach cfg N a s) (h : Steps cfg N a s s') : Reach cfg N a s' ∧ Lost s' := by
  induction h with
  | refl => exact ⟨hr, hl⟩
  | step _ hs ih => exact ⟨.step ih.1 hs, ih.2.step (Base.reach ih.1) hs⟩

theorem nest_rooted : Rooted (nest true) := by
  intro t h
  match t with
  | 0 => rfl
  | 1 => cases h
  | _ + 2 => rfl

theorem nest_safe : (nest true).Safe :=
  ⟨rfl, fun t => .inl (by
      match t with
      | 0 => decide +kernel
      | 1 => decide +kernel
      | 2 => decide +kernel
      | _ + 3 => exact C54_resources_registers_once 0 [] _)⟩

/-- C71: without the assumption the claim is false. There is an execution of a program with a task and its child in
which the body of the task waits for the child, the child has ended, and the body is never continued, whatever happens
afterwards. -/
theorem C71_lost_wakeup_false : (nest true).Safe ∧ Rooted (nest true) ∧
    ∃ s, Reach (nest true) 2 false s ∧ s.p.y.x.g.ex 1 = .ended ∧ s.p.y.x.w 0 = some 1 ∧ s.bad = false ∧
      ∀ s', Steps (nest true) 2 false s s' → s'.p.y.x.g.ex 0 = .running ∧ s'.p.y.x.w 0 = some 1 := by
  obtain ⟨s, hr, hl, _, h1, h2, _⟩ := lost_ex
  refine ⟨nest_safe, nest_rooted, s, hr, h1, hl.w, h2, ?_⟩
  intro s' h
  have key := hl.steps hr h
  exact ⟨((RG.Graph.KInv.reach (Sys.Inv.reach (C71_pausing_refines key.1).2).wr).w 0 1 key.2.w).2, key.2.w⟩

/-- C73: `finalize()` does not return then either, if it is called: the main thread never begins to stop the workers. -/
theorem C73_lost_wakeup_false :
    ∃ s, Reach (nest true) 2 false s ∧ s.p.y.x.g.n = 2 ∧ s.p.mpc = .run ∧ s.bad = false ∧
      ∀ s', Steps (nest true) 2 false s s' → s'.p.y.x.g.n < 2 ^ 32 → s'.p.mpc.closing = false := by
  obtain ⟨s, hr, hl, h0, h1, h2, h3⟩ := lost_ex
  refine ⟨s, hr, h0, h3, h2, fun s' h hn => ?_⟩
  have key := hl.steps hr h
  cases hc : s'.p.mpc.closing with
  | false => rfl
  | true =>
    have h4 := (Prog.C73_stopped_after_all_tasks nest_rooted (Base.reach key.1).pr hn hc).1 0 ?_
    · have h5 := ((RG.Graph.KInv.reach (Sys.Inv.reach (C71_pausing_refines key.1).2).wr).w 0 1 key.2.w).2
      cases h4.1 with
      | mk h6 _ _ => rw [h5] at h6; cases h6
    · have h5 := ((RG.Graph.KInv.reach (Sys.Inv.reach (C71_pausing_refines key.1).2).wr).w 0 1 key.2.w).2
      apply Decidable.byContradiction
      intro h6
      rw [(RG.Graph.Dom.reach (C71_pausing_refines key.1).2.graph).ex 0 (by omega)] at h5
      cases h5

/-- the child ends after the parent has been put into the list of followers; the parent is notified by the thread of the
child first, and continued, and then by its own thread -/
def twice : State := run (nest true) 2 init (untilEnd 4 ++ [.visit 1] ++ List.replicate 2 (.pause 0))

set_option maxRecDepth 100000 in
theorem twice_facts : twice.bad = true ∧ twice.p.y.x.g.n = 2 := by decide +kernel

/-- C71: without the assumption a body can also be continued twice: `activate_task` is called for a task whose body is
not paused. -/
theorem C71_resumed_twice_false : ∃ s, Reach (nest true) 2 false s ∧ s.p.y.x.g.n = 2 ∧ s.bad = true :=
  ⟨twice, run_reach .init, twice_facts.2, twice_facts.1⟩

/-! ### examples -/

/-- one worker; the body of task 0 has submitted task 1 and begins to wait for its result; the user has read or dropped
the future of task 0 -/
def waits : State :=
  run (nest true) 1 init (doSubmit 0 0 ++ doRun 0 0 ++ doSubmit 0 1 ++ [.yield 0 0 1, .sys (.graph (.take 0))])

set_option maxRecDepth 100000 in
theorem waits_facts : waits.p.y.x.g.n = 2 ∧ waits.ys = 1 ∧ waits.p.y.x.w 0 = some 1 ∧ waits.p.y.x.g.fut 0 = .taken ∧
    waits.p.mpc = .run ∧ waits.bad = false ∧ (waits.pz 0).isSome = true := by decide +kernel

/-- the hypotheses of `C71_one_worker`, `C71_pausing_refines`, `C71_pausing_work_ends` -/
theorem waits_reach : Reach (nest true) 1 false waits := run_reach .init

/-- those of `C71_continued_once_partial` -/
example : ∃ s, Reach (nest true) 1 true s ∧ s.ys = 1 ∧ s.p.y.x.w 0 = some 1 :=
  ⟨waits, C71_one_worker waits_reach, waits_facts.2.1, waits_facts.2.2.1⟩

theorem Step.ys_le (h : Step cfg N a l s s') : s.ys ≤ s'.ys := by
  cases h with
  | yield => dsimp only; omega
  | notify _ _ hn => dsimp only; rw [hn.ys]; exact Nat.le_refl _
  | visit _ _ hn => dsimp only; rw [hn.ys]; exact Nat.le_refl _
  | _ => exact Nat.le_refl _

theorem Works.keeps (h : Works cfg N a s s') : s'.p.y.x.g.n = s.p.y.x.g.n ∧ s.ys ≤ s'.ys := by
  induction h with
  | refl => exact ⟨rfl, Nat.le_refl _⟩
  | step _ h ih =>
    obtain ⟨l, hst⟩ := h.step
    refine ⟨?_, Nat.le_trans ih.2 hst.ys_le⟩
    rcases h with h | ⟨l, h, hw⟩
    · rw [h.same.1]; exact ih.1
    · exact hw.n_eq.trans ih.1

/-- those of `C71_pausing_no_deadlock_partial` and `C73_pausing_no_deadlock_partial`; a body has waited -/
example : (nest true).Safe ∧ Rooted (nest true) ∧ ∃ s, Reach (nest true) 1 true s ∧ s.p.y.x.g.n = 2 ∧ 0 < s.ys ∧
    ∀ s', ¬ OwnWork (nest true) 1 true s s' := by
  obtain ⟨h1, h2, _⟩ := waits_facts
  obtain ⟨s, h3, h4⟩ := to_stuck (C71_one_worker waits_reach)
  have h5 := h3.keeps
  rw [h1, h2] at h5
  exact ⟨nest_safe, nest_rooted, s, h3.reach (C71_one_worker waits_reach), h5.1, h5.2, h4⟩

/-- those of `C73_pausing_finalize_returns_partial`: `finalize()` is called while the body waits -/
example : ∃ s, Reach (nest true) 1 true s ∧ s.p.y.x.g.n = 2 ∧ 0 < s.ys ∧ s.p.mpc.finalizing = true ∧
    ∀ t, t < s.p.y.x.g.n → (nest true).space t = 0 → FutGone s.p.y.x.g t := by
  have hr := C71_one_worker waits_reach
  have hf := waits_facts
  generalize waits = s at hr hf
  obtain ⟨h1, h2, _, h4, h5, h6, _⟩ := hf
  refine ⟨_, .step hr (.prog h6 (.call (fin := true) h5) rfl (fun _ _ _ => rfl) (fun _ _ _ _ _ => rfl)), h1,
    by dsimp only; omega, rfl, fun t ht hsp => ?_⟩
  dsimp only at ht ⊢
  rw [h1] at ht
  match t, ht with
  | 0, _ => exact .inl h4
  | 1, _ => cases hsp

set_option maxRecDepth 100000 in
/-- those of `C71_no_waiting`: a task is being executed, and no body has had to wait -/
example : ∃ s, Reach (nest true) 2 false s ∧ s.ys = 0 ∧ s.p.y.x.g.ex 0 = .running :=
  ⟨run (nest true) 2 init (doSubmit 0 0 ++ doRun 0 0), run_reach .init, by decide +kernel, by decide +kernel⟩

end RG.Full
