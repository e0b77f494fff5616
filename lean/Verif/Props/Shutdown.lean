import Verif.Model.Shutdown
import Verif.Props.Waiting
/-
Properties C60 (the thread in `barrier()` is woken), C61 (shutting down), C62 (waker ids).
-/
namespace RG

namespace Barrier

/-! ### C60 -/

theorem cv_reach {cfg : Cfg} {s : State} (h : Reach cfg s) : Cv.Reach 1 s.cv := by
  induction h with
  | init => exact .init
  | step _ hs ih =>
    cases hs with
    | idle _ _ _ hc | wait hc | spurious hc =>
      exact .step ih hc (by intro k hk; simp [Cv.Lbl.waiter?] at hk; omega)
    | wake _ hc | notify hc | noise _ hc =>
      exact .step ih hc (by intro k hk; simp [Cv.Lbl.waiter?] at hk)
    | _ => exact ih

/-- some thread is going to give a notification to the thread in `barrier()` -/
def Coming (s : State) : Prop :=
  ∃ j, (∃ c, isZero c = true ∧ s.fs j = .freed c) ∨ s.fs j = .waking ∨ s.cv.ns j = .cas

structure Inv (cfg : Cfg) (s : State) : Prop where
  inCv : s.cv.ws 0 ≠ .out → s.pc = .idle
  threw : s.pc = .threw → cfg.idleSet = false
  main : s.pc = .idle → s.count = 0 → s.cv.ws 0 ≠ .out → s.cv.pend = true ∨ Coming s

theorem inv {cfg : Cfg} {s : State} (h : Reach cfg s) : Inv cfg s := by
  induction h with
  | init => exact ⟨fun h => absurd rfl h, fun h => (by cases h), fun h => (by cases h)⟩
  | @step s s' l _ hs ih =>
    obtain ⟨ic, th, mn⟩ := ih
    cases hs with
    | empty h hc =>
      refine ⟨?_, by simp, by simp⟩
      intro hw; have := ic hw; rw [h] at this; cases this
    | noIdle h hc hd =>
      refine ⟨?_, fun _ => hd, by simp⟩
      intro hw; have := ic hw; rw [h] at this; cases this
    | idle h hc hd hw =>
      refine ⟨fun _ => rfl, by simp, ?_⟩
      intro _ h0; rw [h0] at hc; cases hc
    | back h hw => exact ⟨fun h => absurd hw h, by simp, by simp⟩
    | wait hc =>
      obtain ⟨h1, h2, h3⟩ := hc.wait_inv
      refine ⟨fun _ => ic h3, th, ?_⟩
      intro hp h0 hw
      rcases mn hp h0 h3 with h | ⟨j, h⟩
      · left; dsimp only; rw [h2 hw]; exact h
      · right; refine ⟨j, ?_⟩; dsimp only; rw [h1]; exact h
    | spurious hc =>
      obtain ⟨h1, h2, h3, h4⟩ := hc.spurious_inv
      refine ⟨fun _ => ic h3, th, ?_⟩
      intro hp h0 hw
      rcases mn hp h0 h3 with h | ⟨j, h⟩
      · left; dsimp only; rw [h2]; exact h
      · right; refine ⟨j, ?_⟩; dsimp only; rw [h1]; exact h
    | submit => exact ⟨ic, th, fun _ h => by simp at h⟩
    | @free _ j h hn hc =>
      refine ⟨ic, th, ?_⟩
      intro hp h0 hw
      dsimp only at h0
      refine .inr ⟨j, .inl ⟨s.count - 1, by rw [h0]; rfl, upd_same _ _ _⟩⟩
    | @last _ j c h hc =>
      refine ⟨ic, th, ?_⟩
      intro _ _ _
      exact .inr ⟨j, .inr (.inl (upd_same _ _ _))⟩
    | @notLast _ j c h hc =>
      refine ⟨ic, th, ?_⟩
      intro hp h0 hw
      rcases mn hp h0 hw with h' | ⟨k, h'⟩
      · exact .inl h'
      · right
        refine ⟨k, ?_⟩
        by_cases e : k = j
        · subst e
          rcases h' with ⟨c', hc', h'⟩ | h' | h'
          · rw [h] at h'; cases h'; rw [hc] at hc'; cases hc'
          · rw [h] at h'; cases h'
          · exact .inr (.inr h')
        · dsimp only; rw [upd_ne _ _ e]; exact h'
    | @wake _ j cv' h hc =>
      obtain ⟨h1, h2, h3, h4⟩ := hc.notifyCall_inv
      exact ⟨fun hw => ic (by rwa [h3] at hw), th, fun _ _ _ => .inr ⟨j, .inr (.inr (by simp [h1]))⟩⟩
    | @notify _ j cv' hc =>
      obtain ⟨h1, h2, h3⟩ := hc.notify_inv
      refine ⟨fun hw => ic (fun e => hw ((h3 0).2 e)), th, ?_⟩
      intro hp h0 hw
      rcases mn hp h0 (fun e => hw ((h3 0).2 e)) with h' | ⟨k, h' | h' | h'⟩
      · exact .inl (h2 h')
      · exact .inr ⟨k, .inl h'⟩
      · exact .inr ⟨k, .inr (.inl h')⟩
      · rcases h1 k h' with h' | h'
        · exact .inr ⟨k, .inr (.inr h')⟩
        · exact .inl h'
    | @woken _ j h hn =>
      refine ⟨ic, th, ?_⟩
      intro hp h0 hw
      rcases mn hp h0 hw with h' | ⟨k, h'⟩
      · exact .inl h'
      · right
        by_cases ek : k = j
        · subst ek; rw [h, hn] at h'; simp at h'
        · refine ⟨k, ?_⟩; dsimp only; rw [upd_ne _ _ ek]; exact h'
    | @noise _ j cv' h hc =>
      obtain ⟨h1, h2, h3, h4⟩ := hc.notifyCall_inv
      exact ⟨fun hw => ic (by rwa [h3] at hw), th, fun _ _ _ => .inr ⟨j, .inr (.inr (by simp [h1]))⟩⟩

/-- C60: `barrier()` returns at a moment when the root space has no tasks, as long as there are fewer
than 2^32 of them. -/
theorem C60_returns_only_when_empty_partial {cfg : Cfg} {s s' : State} {l : Bool} (hs : Step cfg l s s')
    (h : s.pc ≠ .done) (h' : s'.pc = .done) (hlt : s.count < 2 ^ 32) : s.count = 0 := by
  cases hs with
  | empty _ hc => simp only [isZero, beq_iff_eq] at hc; omega
  | idle | noIdle | back => cases h'
  | _ => exact absurd h' h

/-- C60: if the main thread is blocked in `barrier()` although the last task is freed, then some thread
is just about to wake it. -/
theorem C60_blocked_barrier_will_be_woken {cfg : Cfg} {s : State} (h : Reach cfg s)
    (h0 : s.count = 0) (hw : s.cv.ws 0 = .asleep) :
    ∃ j, (∃ c, c % 2 ^ 32 = 0 ∧ s.fs j = .freed c) ∨ s.fs j = .waking ∨ s.cv.ns j = .cas ∨
      s.cv.ns j = .lockM ∨ s.cv.ns j = .notifyAll := by
  have hi := inv h
  have hne : s.cv.ws 0 ≠ .out := by rw [hw]; decide
  rcases hi.main (hi.inCv hne) h0 hne with hp | ⟨j, ⟨c, h1, h2⟩ | h1 | h1⟩
  · obtain ⟨⟨j, hj⟩, _⟩ := Cv.C38_blocked_waiter_will_be_woken (cv_reach h) hp hw
    exact ⟨j, .inr (.inr (.inr hj))⟩
  · exact ⟨j, .inl ⟨c, by simpa [isZero] using h1, h2⟩⟩
  · exact ⟨j, .inr (.inl h1)⟩
  · exact ⟨j, .inr (.inr (.inl h1))⟩

theorem Solo.trans {cfg : Cfg} {n m : Nat} {s s' s'' : State} (h : Solo cfg n s s')
    (h' : Solo cfg m s' s'') : Solo cfg (n + m) s s'' := by
  induction h with
  | refl => simpa using h'
  | @step n _ _ _ hs _ ih =>
    rw [show n + 1 + m = (n + m) + 1 by omega]
    exact .step hs (ih h')

theorem solo_of_run {cfg : Cfg} {ls : List Cv.Lbl} {c c' : Cv.State}
    (hr : Cv.Run ls c c') (hl : ∀ l ∈ ls, l = .wait 0) :
    ∀ s : State, s.cv = c → Solo cfg ls.length s { s with cv := c' } := by
  induction hr with
  | nil => intro s hs; subst hs; exact .refl
  | cons hs _ ih =>
    intro s he
    subst he
    have e := hl _ (List.mem_cons_self ..)
    subst e
    exact .step (.wait hs) (ih (fun l hl' => hl l (List.mem_cons_of_mem _ hl')) _ rfl)

/-- C60: when the last task is freed and the calls of `free_task` have returned, the thread which has
created the context returns from `barrier()` after at most 7 steps of its own, wherever in `barrier()`
it is. -/
theorem C60_main_thread_returns_partial {cfg : Cfg} (hd : cfg.idleSet = true) {s : State} (h : Reach cfg s)
    (h0 : s.count = 0) (hq : Quiet s) :
    ∃ n s', n ≤ 7 ∧ Solo cfg n s s' ∧ s'.pc = .done := by
  have hi := inv h
  have hr := cv_reach h
  have chk : ∀ s : State, s.count = 0 → s.pc = .check → ∃ s', Solo cfg 1 s s' ∧ s'.pc = .done :=
    fun s h0 hc => ⟨_, .step (.empty hc (by rw [h0]; rfl)) .refl, rfl⟩
  cases hp : s.pc with
  | check =>
    obtain ⟨s', h2, h3⟩ := chk s h0 hp
    exact ⟨1, s', by omega, h2, h3⟩
  | done => exact ⟨0, s, by omega, .refl, hp⟩
  | threw => rw [hi.threw hp] at hd; cases hd
  | idle =>
    have bck : ∀ s : State, s.count = 0 → s.pc = .idle → s.cv.ws 0 = .out →
        ∃ s', Solo cfg 2 s s' ∧ s'.pc = .done := by
      intro s h0 hp hc
      obtain ⟨s', h2, h3⟩ := chk { s with pc := .check } h0 rfl
      exact ⟨s', .step (.back hp hc) h2, h3⟩
    by_cases ho : s.cv.ws 0 = .out
    · obtain ⟨s', h2, h3⟩ := bck s h0 hp ho
      exact ⟨2, s', by omega, h2, h3⟩
    · have hpend : s.cv.pend = true := by
        rcases hi.main hp h0 ho with h | ⟨j, h⟩
        · exact h
        · rw [(hq j).1, (hq j).2] at h; simp at h
      obtain ⟨ls, c', h2, h3, h4, h5, _⟩ := Cv.C38_wait_returns hr hpend (fun j => (hq j).2) ho
      have hs := solo_of_run (cfg := cfg) h4 h3 s rfl
      obtain ⟨s', h6, h7⟩ := bck { s with cv := c' } h0 hp h5
      exact ⟨ls.length + 2, s', by omega, hs.trans h6, h7⟩

/-- C60 is false for other threads: in a thread which has not created the context, in particular in a
task (which runs in a worker thread), `barrier()` throws as long as there are tasks. -/
theorem C60_other_thread_throws_false : ∃ cfg s, cfg.idleSet = false ∧ Reach cfg s ∧ 0 < s.count ∧
    s.pc = .threw :=
  ⟨⟨1, false⟩, _, rfl, .step .init (.noIdle rfl rfl rfl), by decide, rfl⟩

/-- C60 is false for 2^32 tasks: `empty()` stores the counter in 32 bits. -/
theorem C60_task_count_truncated_false : ∃ cfg s, cfg.idleSet = true ∧ Reach cfg s ∧
    s.count = 2 ^ 32 ∧ s.pc = .done :=
  ⟨⟨2 ^ 32, true⟩, _, rfl, .step .init (.empty rfl (by decide)), rfl, rfl⟩

/-- Non-trivial instance: the main thread has found one task and is on its way to sleep; meanwhile the
task was freed and everything has returned. -/
example : ∃ s, Reach ⟨1, true⟩ s ∧ s.count = 0 ∧ Quiet s ∧ s.pc = .idle ∧ s.cv.ws 0 = .lockM := by
  refine ⟨_, .step (.step (.step (.step (.step (.step (.step (.step (.step (.step (.step .init
    (.idle rfl rfl rfl (.waitCall rfl)))
    (.wait (.timeout rfl rfl))) (.free (j := 3) rfl rfl (by decide))) (.last (j := 3) (c := 0) rfl rfl))
    (.wake (j := 3) rfl (.notifyCall rfl))) (.wait (.check2T rfl rfl))) (.notify (.cas (j := 3) rfl)))
    (.notify (.nLockM (j := 3) rfl rfl))) (.notify (.notifyAll (j := 3) rfl)))
    (.notify (.nUnlockM (j := 3) rfl))) (.woken (j := 3) rfl rfl), rfl, ?_, rfl, rfl⟩
  intro j
  simp only [upd, init, Cv.init]
  constructor <;> (repeat' split) <;> simp

end Barrier

namespace Work

/-- An upper bound for the number of steps until a worker with empty queues has stopped. -/
def stopRank (s : State) : Nat :=
  match s.pc with
  | .stopped => 0
  | .top => 1
  | .stealing => 2
  | .popNew => 3
  | .popReady => 4
  | .executing _ => 5
  | .initing _ | .initingStolen _ => 6
  | .waiting => 5 + Cv.rank (s.cv.ws 0)

theorem stopRank_le (s : State) : stopRank s ≤ 11 := by
  unfold stopRank
  cases s.pc <;> simp
  cases s.cv.ws 0 <;> simp [Cv.rank]

/-- A worker with empty queues which has been told to stop, and has nothing to steal: each step reduces
the rank. -/
theorem stop_progress {s : State} (h : Reach s) (hq : Quiet s) (hs : s.stop = true)
    (hr : s.ready = []) (hn : s.new = []) :
    (s.pc ≠ .stopped → ∃ s', WStep s s' ∧ (s.pc = .stealing → s'.pc = .top)) ∧
    ∀ s', WStep s s' → (s.pc = .stealing → s'.pc = .top) →
      stopRank s' < stopRank s ∧ Quiet s' ∧ s'.stop = true ∧ s'.ready = [] ∧ s'.new = [] := by
  have hi := inv h
  have hcv := cv_reach h
  have pend : s.cv.ws 0 ≠ .out → s.cv.pend = true := by
    intro hw
    rcases hi.stop hs hw with hh | ⟨j, hj⟩
    · exact hh
    · rw [(hq j).1, (hq j).2] at hj; simp at hj
  constructor
  · intro hpc
    cases hp : s.pc with
    | top => exact ⟨_, .stop hp hs, fun h => by cases h⟩
    | waiting =>
      by_cases hw : s.cv.ws 0 = .out
      · exact ⟨_, .woken hp hw, fun h => by cases h⟩
      · obtain ⟨c', h1, _⟩ := Cv.solo_step hcv (pend hw) (fun j => (hq j).2) hw
        exact ⟨_, .wait h1, fun h => by cases h⟩
    | popReady => exact ⟨_, .noReady hp hr, fun h => by cases h⟩
    | popNew => exact ⟨_, .noNew hp hn, fun h => by cases h⟩
    | initing t => exact ⟨_, .initReady hp, fun h => by cases h⟩
    | stealing => exact ⟨_, .stealNone hp, fun _ => rfl⟩
    | initingStolen t => exact ⟨_, .stolenReady hp, fun h => by cases h⟩
    | executing t => exact ⟨_, .executed hp, fun h => by cases h⟩
    | stopped => exact absurd hp hpc
  · intro s' hstep hst
    cases hstep with
    | sleep h hs' hc => rw [hs] at hs'; cases hs'
    | wait hc =>
      obtain ⟨h1, h2, h3⟩ := hc.wait_inv
      have hw := hi.inCv h3
      have hrk := ((Cv.C38_waiter_progress hcv (pend h3) h3).1 _ hc).1
      refine ⟨?_, fun j => ⟨(hq j).1, by simp only [h1]; exact (hq j).2⟩, hs, hr, hn⟩
      simp only [stopRank, hw]
      omega
    | popReady h hm => rw [hr] at hm; cases hm
    | popNew h hm => rw [hn] at hm; cases hm
    | stealOwnReady h hm => rw [hr] at hm; cases hm
    | stealOwnNew h hm => rw [hn] at hm; cases hm
    | stealReady h | stealNew h => exact absurd (hst h) (by simp)
    | woken h hc => exact ⟨by simp [stopRank, h, hc, Cv.rank], hq, hs, hr, hn⟩
    | stop h | noReady h | noNew h | initReady h | initBlocked h | stealNone h | stolenReady h
      | stolenBlocked h | executed h =>
      exact ⟨by simp [stopRank, h], hq, hs, hr, hn⟩

end Work

namespace Pool

/-! ### C61 -/

theorem work_reach {n : Nat} {s : State} (h : Reach n s) (k : Nat) : Work.Reach (s.ws k) := by
  induction h with
  | init => exact .init
  | step _ hs ih =>
    cases hs with
    | @setStop k' j hk h hp hc =>
      by_cases e : k = k'
      · subst e; simp only [upd_same]; exact .estep ih (.stop hp hc)
      · dsimp only; rw [upd_ne _ _ e]; exact ih
    | @worker k' w hk h =>
      by_cases e : k = k'
      · subst e; simp only [upd_same]; exact .wstep ih h
      · dsimp only; rw [upd_ne _ _ e]; exact ih
    | @other k' w hk h =>
      by_cases e : k = k'
      · subst e; simp only [upd_same]; exact .estep ih h
      · dsimp only; rw [upd_ne _ _ e]; exact ih
    | _ => exact ih

theorem stopped_stays {s s' : Work.State} (h : Work.EStep s s') : s'.pc = s.pc := by
  cases h <;> rfl

theorem stopped_no_step {n : Nat} {s : State} (h : Reach n s) {k : Nat}
    (hk : (s.ws k).pc = .stopped) {w : Work.State} : ¬ Work.WStep (s.ws k) w := by
  intro hs
  have hi := Work.inv (work_reach h k)
  cases hs with
  | wait hc =>
    have := hi.inCv (Cv.Step.wait_inv hc).2.2
    rw [hk] at this; cases this
  | _ => simp_all

/-- how far `WorkerPool::stop` has got -/
def passed : MPc → Nat → Prop
  | .stop m, k => k < m
  | .join m, k => k < m
  | .cleared, _ => True

structure Inv (n : Nat) (s : State) : Prop where
  le : ∀ k, s.main = .stop k → k ≤ n
  done : ∀ k, k < n → passed s.main k → (s.ws k).pc = .stopped
  flag : ∀ k, s.main = .join k → (s.ws k).stop = true

theorem inv {n : Nat} {s : State} (h : Reach n s) : Inv n s := by
  induction h with
  | init => exact ⟨fun k h => by cases h; omega, fun k _ h => absurd h (Nat.not_lt_zero k),
      fun k h => by cases h⟩
  | @step s s' hr hs ih =>
    obtain ⟨le, dn, fl⟩ := ih
    cases hs with
    | @setStop k j hk h hp hc =>
      refine ⟨fun m h' => (by cases h'), ?_, ?_⟩
      · intro m hm hpa
        have : m < k := hpa
        dsimp only
        rw [upd_ne _ _ (by omega)]
        exact dn m hm (by rw [h]; exact this)
      · intro m hm; cases hm; simp
    | @joined k hk h hp =>
      refine ⟨fun m h' => by cases h'; omega, ?_, fun m hm => by cases hm⟩
      intro m hm hpa
      have hlt : m < k + 1 := hpa
      by_cases e : m = k
      · subst e; exact hp
      · exact dn m hm (by rw [h]; show m < k; omega)
    | clear h =>
      refine ⟨fun m h' => (by cases h'), ?_, fun m hm => by cases hm⟩
      intro m hm _
      exact dn m hm (by rw [h]; exact hm)
    | @worker k w hk h =>
      refine ⟨le, ?_, ?_⟩
      · intro m hm hpa
        by_cases e : m = k
        · subst e; exact absurd h (stopped_no_step hr (dn m hm hpa))
        · dsimp only; rw [upd_ne _ _ e]; exact dn m hm hpa
      · intro m hm
        by_cases e : m = k
        · subst e; simp only [upd_same]; have := fl m hm; cases h <;> exact this
        · dsimp only; rw [upd_ne _ _ e]; exact fl m hm
    | @other k w hk h hst =>
      refine ⟨le, ?_, ?_⟩
      · intro m hm hpa
        by_cases e : m = k
        · subst e; simp only [upd_same]; rw [stopped_stays h]; exact dn m hm hpa
        · dsimp only; rw [upd_ne _ _ e]; exact dn m hm hpa
      · intro m hm
        by_cases e : m = k
        · subst e; simp only [upd_same]; rw [hst]; exact fl m hm
        · dsimp only; rw [upd_ne _ _ e]; exact fl m hm

/-- C61: when the workers, the scheduler and the root space are destroyed, every worker thread has left
its loop, and does nothing any more. -/
theorem C61_all_stopped_before_destruction {n : Nat} {s : State} (h : Reach n s)
    (hc : s.main = .cleared) : ∀ k, k < n → (s.ws k).pc = .stopped ∧ ∀ w, ¬ Work.WStep (s.ws k) w := by
  intro k hk
  have hp := (inv h).done k hk (by rw [hc]; trivial)
  exact ⟨hp, fun w => stopped_no_step h hp⟩

/-- C61: a worker does not leave its loop before it has been told to. -/
theorem C61_runs_until_told {n : Nat} {s : State} (h : Reach n s) (k : Nat)
    (hs : (s.ws k).pc = .stopped) : (s.ws k).stop = true := by
  have hr := work_reach h k
  revert hs
  generalize s.ws k = w at hr
  induction hr with
  | init => intro h; cases h
  | wstep hr hs ih =>
    cases hs with
    | stop _ h => intro _; exact h
    | wait hc => exact ih
    | _ => intro h; cases h
  | estep hr hs ih =>
    cases hs with
    | stop => intro _; rfl
    | _ => exact ih

theorem drain_bound {n k : Nat} (hk : k < n) : ∀ (r m : Nat) (s s' : State), Reach n s →
    Work.Quiet (s.ws k) → (s.ws k).stop = true → (s.ws k).ready = [] → (s.ws k).new = [] →
    Work.stopRank (s.ws k) ≤ r → Drain k n m s s' →
    m ≤ r ∧ Reach n s' ∧ Work.Quiet (s'.ws k) ∧ (s'.ws k).stop = true ∧ (s'.ws k).ready = [] ∧
      (s'.ws k).new = [] ∧ s'.main = s.main := by
  intro r m
  induction m generalizing r with
  | zero =>
    intro s s' h hq hs hr hn hle hd
    cases hd
    exact ⟨by omega, h, hq, hs, hr, hn, rfl⟩
  | succ m ih =>
    intro s s' h hq hs hr hn hle hd
    cases hd with
    | @step _ _ _ w hw hst hd =>
      obtain ⟨h1, h2, h3, h4, h5⟩ := (Work.stop_progress (work_reach h k) hq hs hr hn).2 w hw hst
      have hl := Nat.lt_of_lt_of_le h1 hle
      obtain ⟨r', rfl⟩ : ∃ r', r = r' + 1 := ⟨r - 1, by omega⟩
      obtain ⟨a, b⟩ := ih r' _ s' (.step h (.worker hk hw)) (by simpa using h2) (by simpa using h3)
        (by simpa using h4) (by simpa using h5) (by simp only [upd_same]; omega) hd
      exact ⟨by omega, b⟩

/-- C61: the thread in `finalize()` does not hang in `join()`: if the worker it waits for has nothing
left to do, and the threads which notify it have returned, then the worker makes at most 11 more steps,
whatever they are, and as long as it can not make another step of this kind it has stopped, so that
`join()` returns. -/
theorem C61_join_returns {n : Nat} {s : State} (h : Reach n s) {k : Nat} (hk : k < n)
    (hm : s.main = .join k) (hq : Work.Quiet (s.ws k)) (hr : (s.ws k).ready = [])
    (hn : (s.ws k).new = []) {m : Nat} {s' : State} (hd : Drain k n m s s') :
    m ≤ 11 ∧ ((∀ s'', ¬ Drain k n 1 s' s'') →
      (s'.ws k).pc = .stopped ∧ Step n s' { s' with main := .stop (k + 1) }) := by
  obtain ⟨h1, h2, h3, h4, h5, h6, h7⟩ :=
    drain_bound hk 11 m s s' h hq ((inv h).flag k hm) hr hn (Work.stopRank_le _) hd
  refine ⟨h1, fun hno => ?_⟩
  have hst : (s'.ws k).pc = .stopped := by
    by_cases hp : (s'.ws k).pc = .stopped
    · exact hp
    · obtain ⟨w, hw, hst⟩ := (Work.stop_progress (work_reach h2 k) h3 h4 h5 h6).1 hp
      exact absurd (Drain.step hw hst .refl) (hno _)
  exact ⟨hst, .joined hk (by rw [h7, hm]) hst⟩

/-- Non-trivial instance: worker 0 is on its way to sleep when it is told to stop; the notification
has returned. -/
example : ∃ s, Reach 2 s ∧ s.main = .join 0 ∧ Work.Quiet (s.ws 0) ∧ (s.ws 0).ready = [] ∧
    (s.ws 0).new = [] ∧ (s.ws 0).cv.ws 0 = .lockM := by
  refine ⟨_, .step (.step (.step (.step (.step (.step (.step (.step (.step (.step .init
    (.worker (k := 0) (by decide) (.sleep rfl rfl (.waitCall rfl))))
    (.worker (k := 0) (by decide) (.wait (.timeout rfl rfl))))
    (.setStop (k := 0) (j := 1) (by decide) rfl rfl rfl))
    (.worker (k := 0) (by decide) (.wait (.check2T rfl rfl))))
    (.other (k := 0) (by decide) (.wake (j := 1) rfl (.notifyCall rfl)) rfl))
    (.other (k := 0) (by decide) (.notify (.cas (j := 1) rfl)) rfl))
    (.other (k := 0) (by decide) (.notify (.nLockM (j := 1) rfl rfl)) rfl))
    (.other (k := 0) (by decide) (.notify (.notifyAll (j := 1) rfl)) rfl))
    (.other (k := 0) (by decide) (.notify (.nUnlockM (j := 1) rfl)) rfl))
    (.other (k := 0) (by decide) (.wakeDone (j := 1) rfl rfl) rfl), rfl, ?_, rfl, rfl, rfl⟩
  intro j
  simp only [init, Work.init, Cv.init, upd_same]
  constructor <;> simp only [upd] <;> (repeat' split) <;> simp_all

/-- Non-trivial instance: a pool of one worker that has been shut down. -/
example : ∃ s, Reach 1 s ∧ s.main = .cleared :=
  ⟨_, .step (.step (.step (.step .init
    (.setStop (k := 0) (j := 0) (by decide) rfl rfl rfl))
    (.worker (k := 0) (by decide) (.stop rfl rfl)))
    (.joined (k := 0) (by decide) rfl rfl)) (.clear rfl), rfl⟩

end Pool

namespace Wake

/-! ### C62 -/

/-- C62: the id under which a worker registers at an event wakes this worker, for less than 32768
workers. -/
theorem C62_waker_id_wakes_worker_partial {n w : Nat} (hn : n < 32768) (hw : w < n) :
    wake n (wakerId w) = some (.worker w) := by
  have h1 : (wakerId w).toNat = w + 1 := by
    simp only [wakerId, BitVec.toNat_ofNat, BitVec.toNat_add]
    have : (1 : BitVec 32).toNat = 1 := rfl
    omega
  have h2 : (wakerId w).toInt = w + 1 := by
    rw [BitVec.toInt_eq_toNat_cond, h1]
    omega
  have h3 : wakerId w ≠ 0 := by
    intro e; rw [e] at h1; simp at h1
  simp only [wake, h3, if_false, h2]
  rw [if_pos (by omega)]
  simp only [Option.some.injEq, Target.worker.injEq]
  omega

theorem wakeAllFrom_spec {n : Nat} (hn : n < 32768) : ∀ (m fuel : Nat) (i : BitVec 16),
    i.toNat + m = n + 1 → m < fuel →
    wakeAllFrom n i fuel =
      (((List.range' i.toNat m).map fun k => if k = 0 then Target.main else .worker (k - 1)), true) := by
  intro m
  induction m with
  | zero =>
    intro fuel i hi hf
    obtain ⟨f, rfl⟩ : ∃ f, fuel = f + 1 := ⟨fuel - 1, by omega⟩
    simp only [wakeAllFrom]
    rw [if_neg (by omega)]
    rfl
  | succ m ih =>
    intro fuel i hi hf
    obtain ⟨f, rfl⟩ : ∃ f, fuel = f + 1 := ⟨fuel - 1, by omega⟩
    simp only [wakeAllFrom]
    rw [if_pos (by omega)]
    have h1 : (i + 1).toNat = i.toNat + 1 := by
      rw [BitVec.toNat_add]
      have : (1 : BitVec 16).toNat = 1 := rfl
      omega
    rw [ih f (i + 1) (by omega) (by omega), h1]
    simp only [List.range'_succ, List.map_cons]
    have h2 : wake n i = some (if i.toNat = 0 then Target.main else .worker (i.toNat - 1)) := by
      unfold wake
      by_cases h0 : i = 0
      · subst h0; rfl
      · have h3 : i.toNat ≠ 0 := fun e => h0 (BitVec.eq_of_toNat_eq e)
        have h4 : i.toInt = i.toNat := by
          rw [BitVec.toInt_eq_toNat_cond]; omega
        rw [if_neg h0, if_pos (by omega), if_neg h3, h4]
        rfl
    rw [h2]
    rfl

/-- C62: with less than 32768 workers, `wake_all` ends, and wakes the main thread and each worker exactly
once. -/
theorem C62_wake_all_wakes_everybody_partial {n fuel : Nat} (hn : n < 32768) (hf : n + 2 ≤ fuel) :
    wakeAll n fuel = (Target.main :: (List.range n).map Target.worker, true) := by
  unfold wakeAll
  rw [wakeAllFrom_spec hn (n + 1) fuel 0 (by simp) (by omega)]
  have : (0 : BitVec 16).toNat = 0 := rfl
  rw [this, List.range'_succ]
  simp only [List.map_cons, if_true]
  refine Prod.ext (congrArg (Target.main :: ·) ?_) rfl
  show List.map _ _ = List.map _ _
  rw [List.range_eq_range', List.range'_eq_map_range, List.map_map, List.range'_eq_map_range, List.map_map]
  apply List.map_congr_left
  intro k _
  simp

/-- C62: With any number of workers, the id of a worker wakes this worker exactly if there are fewer than 32767 workers before it. Others wake nobody, the main
thread, or another worker. -/
theorem C62_waker_id_iff {n w : Nat} (hw : w < n) : wake n (wakerId w) = some (.worker w) ↔ w < 32767 := by
  have h1 : (wakerId w).toNat = (w + 1) % 65536 := by
    simp only [wakerId, BitVec.toNat_ofNat, BitVec.toNat_add]
    have : (1 : BitVec 32).toNat = 1 := rfl
    omega
  constructor
  · intro h
    unfold wake at h
    split at h
    · cases h
    · split at h
      · rename_i _ h2
        simp only [Option.some.injEq, Target.worker.injEq] at h
        rw [BitVec.toInt_eq_toNat_cond, h1] at h h2
        omega
      · cases h
  · intro h
    have h2 : (wakerId w).toInt = w + 1 := by
      rw [BitVec.toInt_eq_toNat_cond, h1]
      omega
    have h3 : wakerId w ≠ 0 := by
      intro e; rw [e] at h1; simp at h1; omega
    simp only [wake, h3, if_false, h2]
    rw [if_pos (by omega)]
    simp only [Option.some.injEq, Target.worker.injEq]
    omega

/-- C62 is false for 32768 and more workers: worker 32767 registers as -32768, and is not woken. -/
theorem C62_waker_id_overflow_false (n : Nat) : wake n (wakerId 32767) = none := by
  have h : (wakerId 32767).toInt = -32768 := by decide
  have h0 : wakerId 32767 ≠ 0 := by decide
  simp only [wake, h0, if_false, h]
  exact if_neg (by omega)

/-- C62 is false for 65536 and more workers: worker 65535 registers as 0, so that the main thread is
woken instead, and from worker 65536 on another worker. -/
theorem C62_waker_id_wraps_false (n : Nat) (hn : 65536 < n) :
    wake n (wakerId 65535) = some .main ∧ wake n (wakerId 65536) = some (.worker 0) := by
  have h0 : wakerId 65535 = 0 := by decide
  have h1 : (wakerId 65536).toInt = 1 := by decide
  have h2 : wakerId 65536 ≠ 0 := by decide
  refine ⟨by simp [wake, h0], ?_⟩
  simp only [wake, h2, if_false, h1]
  rw [if_pos (by omega)]
  rfl

/-- C62 is false for 65535 and more workers: `wake_all` does not end. -/
theorem C62_wake_all_endless_false {n : Nat} (hn : 65535 ≤ n) (fuel : Nat) :
    (wakeAll n fuel).2 = false := by
  unfold wakeAll
  suffices h : ∀ fuel i, (wakeAllFrom n i fuel).2 = false from h fuel 0
  intro fuel
  induction fuel with
  | zero => intro i; rfl
  | succ f ih =>
    intro i
    have := i.isLt
    simp only [wakeAllFrom]
    rw [if_pos (by omega)]
    exact ih _

example : wakeAll 3 5 = ([.main, .worker 0, .worker 1, .worker 2], true) := by decide

end Wake

end RG
