import Verif.Lemmas.Weak
/-
Property C86: wake-ups with the memory of real processors.
-/
namespace RG

/-! ### x86: a worker and its queues -/
namespace Tso.Work

/-- The state of the sequentially consistent machine: a store in a buffer has not been executed yet, nor has
anything that the thread does after it. -/
def abs (s : State) : RG.Work.State :=
  { s.w with
    ps := fun j => if s.buf j = none then s.w.ps j else .out
    cv := { s.w.cv with ns := fun j => if s.buf j = none then s.w.cv.ns j else .out } }

/-- a thread with a store in its buffer has not come further than to its next locked instruction -/
theorem buf_inv {s : State} (h : Reach s) (j : Nat) (hb : s.buf j ≠ none) :
    (s.w.ps j = .pushed ∧ s.w.cv.ns j = .out) ∨ (s.w.ps j = .inCv ∧ s.w.cv.ns j = .cas) := by
  induction h with
  | init => exact absurd rfl hb
  | @step s s' _ hs ih =>
    cases hs with
    | @worker w' h =>
      have := ih hb
      cases h with
      | sleep h hs hc => obtain ⟨h1, _⟩ := hc.waitCall_inv; dsimp only; rw [h1]; exact this
      | wait hc => obtain ⟨h1, _⟩ := hc.wait_inv; dsimp only; rw [h1]; exact this
      | _ => exact this
    | spurious hc => obtain ⟨h1, _⟩ := hc.spurious_inv; dsimp only; rw [h1]; exact ih hb
    | @push k b h hc hb' =>
      by_cases e : j = k
      · subst e; left; exact ⟨upd_same _ _ _, hc⟩
      · dsimp only at hb ⊢; rw [upd_ne _ _ e] at hb ⊢; exact ih hb
    | @drain k b hb' =>
      by_cases e : j = k
      · subst e; exact absurd (upd_same _ _ _) hb
      · dsimp only at hb; rw [upd_ne _ _ e] at hb
        cases b <;> exact ih hb
    | @wake k cv' h hc =>
      obtain ⟨h1, _, _, h4⟩ := hc.notifyCall_inv
      by_cases e : j = k
      · subst e; right; dsimp only; rw [h1]; exact ⟨upd_same _ _ _, upd_same _ _ _⟩
      · dsimp only; rw [h1, upd_ne _ _ e, upd_ne _ _ e]; exact ih hb
    | @notify k cv' hb' hc =>
      have e : j ≠ k := by intro e; subst e; exact hb hb'
      have := ih hb
      cases hc <;> (dsimp only; rw [upd_ne _ _ e]; exact this)
    | @wakeDone k h hc =>
      by_cases e : j = k
      · subst e; rcases ih hb with h' | h' <;> simp_all
      · dsimp only; rw [upd_ne _ _ e]; exact ih hb
    | @noise k cv' h hc =>
      obtain ⟨h1, _, _, h4⟩ := hc.notifyCall_inv
      by_cases e : j = k
      · subst e; rcases ih hb with h' | h' <;> simp_all
      · dsimp only; rw [h1, upd_ne _ _ e]; exact ih hb
    | thiefReady | thiefNew => exact ih hb

/-- steps of the condition variable do not depend on what the notifying threads do -/
theorem cv_main {l : Cv.Lbl} {c c' : Cv.State} (f : Nat → Cv.NPc) (hl : l.waiter? ≠ none) (h : Cv.Step l c c') :
    Cv.Step l { c with ns := f } { c' with ns := f } := by
  cases h with
  | waitCall h => exact .waitCall h
  | again h hf => exact .again h hf
  | timeout h hf => exact .timeout h hf
  | leave h hf => exact .leave h hf
  | check2T h hf => exact .check2T h hf
  | check2F h hf => exact .check2F h hf
  | lockM h hm => exact .lockM h hm
  | sleep h hf => exact .sleep h hf
  | predT h hf => exact .predT h hf
  | unlockM h => exact .unlockM h
  | relock h hm => exact .relock h hm
  | spurious h => exact .spurious h
  | store h => exact .store h
  | notifyCall | cas | nLockM | notifyAll | nUnlockM => exact absurd rfl hl

/-- a step of the worker in the sequentially consistent machine -/
theorem abs_worker {s : State} {w' : RG.Work.State} (h : RG.Work.WStep s.w w') :
    RG.Work.WStep (abs s) (abs { s with w := w' }) := by
  cases h with
  | stop h hs => exact .stop h hs
  | sleep h hs hc =>
    have := hc.waitCall_inv.1
    exact .sleep h hs (by dsimp only [abs]; rw [this]; exact cv_main _ (by simp [Cv.Lbl.waiter?]) hc)
  | wait hc =>
    have := hc.wait_inv.1
    exact .wait (by dsimp only [abs]; rw [this]; exact cv_main _ (by simp [Cv.Lbl.waiter?]) hc)
  | woken h hc => exact .woken h hc
  | popReady h hq => exact .popReady h hq
  | noReady h hq => exact .noReady h hq
  | popNew h hq => exact .popNew h hq
  | noNew h hq => exact .noNew h hq
  | initReady h => exact .initReady h
  | initBlocked h => exact .initBlocked h
  | stealOwnReady h hq => exact .stealOwnReady h hq
  | stealReady h => exact .stealReady h
  | stealOwnNew h hq => exact .stealOwnNew h hq
  | stealNew h => exact .stealNew h
  | stealNone h => exact .stealNone h
  | stolenReady h => exact .stolenReady h
  | stolenBlocked h => exact .stolenBlocked h
  | executed h => exact .executed h

theorem mask_upd {α : Type} {b : Nat → Option Store} (f : Nat → α) (d : α) {j : Nat} (v : α) (hb : b j = none) :
    (fun i => if b i = none then upd f j v i else d) = upd (fun i => if b i = none then f i else d) j v := by
  funext i
  by_cases e : i = j
  · subst e; simp [hb]
  · simp [upd_ne _ _ e]

theorem mask_skip {α : Type} {b : Nat → Option Store} (f : Nat → α) (d : α) {j : Nat} (v : α) (hb : b j ≠ none) :
    (fun i => if b i = none then upd f j v i else d) = (fun i => if b i = none then f i else d) := by
  funext i
  by_cases e : i = j
  · subst e; simp [hb]
  · simp [upd_ne _ _ e]

/-- steps of the condition variable by a thread with an empty buffer -/
theorem cv_notify {c c' : Cv.State} {b : Nat → Option Store} {j : Nat} (hb : b j = none) {l : Cv.Lbl}
    (hl : l = .notify j ∨ l = .notifyCall j) (h : Cv.Step l c c') :
    Cv.Step l { c with ns := fun i => if b i = none then c.ns i else .out }
      { c' with ns := fun i => if b i = none then c'.ns i else .out } := by
  have e : ∀ x, c.ns j = x → (fun i => if b i = none then c.ns i else .out) j = x := by
    intro x hx; simp [hb, hx]
  cases h with
  | waitCall | again | timeout | leave | check2T | check2F | lockM | sleep | predT | unlockM | relock | spurious | store =>
    rcases hl with hl | hl <;> cases hl
  | notifyCall h =>
    rcases hl with hl | hl <;> cases hl
    rw [mask_upd _ _ _ hb]; exact .notifyCall (e _ h)
  | cas h =>
    rcases hl with hl | hl <;> cases hl
    rw [mask_upd _ _ _ hb]; exact .cas (e _ h)
  | nLockM h hm =>
    rcases hl with hl | hl <;> cases hl
    rw [mask_upd _ _ _ hb]; exact .nLockM (e _ h) hm
  | notifyAll h =>
    rcases hl with hl | hl <;> cases hl
    rw [mask_upd _ _ _ hb]; exact .notifyAll (e _ h)
  | nUnlockM h =>
    rcases hl with hl | hl <;> cases hl
    rw [mask_upd _ _ _ hb]; exact .nUnlockM (e _ h)

/-- C86: with the store buffers of x86 a worker and the threads that give it tasks behave as with sequentially consistent
memory. -/
theorem C86_x86_worker_refines {s : State} (h : Reach s) : RG.Work.Reach (abs s) := by
  induction h with
  | init => exact .init
  | @step s s' hr hs ih =>
    have inv := buf_inv hr
    cases hs with
    | worker h => exact .wstep ih (abs_worker h)
    | spurious hc =>
      have := hc.spurious_inv.1
      exact .estep ih (.spurious (by dsimp only [abs]; rw [this]; exact cv_main _ (by simp [Cv.Lbl.waiter?]) hc))
    | @push j b h hc hb =>
      have e : abs { w := { s.w with ps := upd s.w.ps j .pushed }, buf := upd s.buf j (some b) } = abs s := by
        unfold abs
        dsimp only
        congr 1
        · congr 1
          funext i
          by_cases e : i = j
          · subst e; simp [hc]
          · simp [upd_ne _ _ e]
        · funext i
          by_cases e : i = j
          · subst e; simp [h]
          · simp [upd_ne _ _ e]
      rw [e]; exact ih
    | @drain j b hb =>
      have hne : s.buf j ≠ none := by rw [hb]; simp
      -- the store, and then what has been done after it
      have a1 : (abs s).ps j = .out := by simp [abs, hne]
      have a2 : (abs s).cv.ns j = .out := by simp [abs, hne]
      have key : ∀ (x : RG.Work.State), x = { (b.apply (abs s)) with ps := upd (abs s).ps j .pushed } →
          RG.Work.Reach x → RG.Work.Reach (abs { w := b.apply s.w, buf := upd s.buf j none }) := by
        intro x hx hrx
        have ap : ∀ w, (b.apply w).ps = w.ps ∧ (b.apply w).cv = w.cv := by intro w; cases b <;> exact ⟨rfl, rfl⟩
        rcases inv j hne with ⟨h1, h2⟩ | ⟨h1, h2⟩
        · have e : abs { w := b.apply s.w, buf := upd s.buf j none } = x := by
            rw [hx]
            have ps : (fun i => if upd s.buf j none i = none then s.w.ps i else .out) = upd (abs s).ps j .pushed := by
              funext i
              by_cases e : i = j
              · subst e; simp [h1]
              · simp [upd_ne _ _ e, abs]
            have ns : (fun i => if upd s.buf j none i = none then s.w.cv.ns i else .out) = (abs s).cv.ns := by
              funext i
              by_cases e : i = j
              · subst e; rw [a2]; simp [h2]
              · simp [upd_ne _ _ e, abs]
            rw [← ps]
            cases b <;> (unfold abs; dsimp only [Store.apply]; congr 1; congr 1)
          rw [e]; exact hrx
        · have wk : RG.Work.EStep x (abs { w := b.apply s.w, buf := upd s.buf j none }) := by
            have h3 : x.ps j = .pushed := by rw [hx]; exact upd_same _ _ _
            have h4 : x.cv = (abs s).cv := by rw [hx]; cases b <;> rfl
            have st : Cv.Step (.notifyCall j) x.cv { x.cv with ns := upd x.cv.ns j .cas } := .notifyCall (by rw [h4]; exact a2)
            have := RG.Work.EStep.wake h3 st
            have e : abs { w := b.apply s.w, buf := upd s.buf j none } =
                { x with ps := upd x.ps j .inCv, cv := { x.cv with ns := upd x.cv.ns j .cas } } := by
              have ps : (fun i => if upd s.buf j none i = none then s.w.ps i else .out) =
                  upd (upd (abs s).ps j .pushed) j .inCv := by
                funext i
                by_cases e : i = j
                · subst e; simp [h1]
                · simp [upd_ne _ _ e, abs]
              have ns : (fun i => if upd s.buf j none i = none then s.w.cv.ns i else .out) =
                  upd (abs s).cv.ns j .cas := by
                funext i
                by_cases e : i = j
                · subst e; simp [h2]
                · simp [upd_ne _ _ e, abs]
              rw [h4, hx]
              dsimp only
              rw [← ps, ← ns]
              cases b <;> rfl
            rw [e]; exact this
          exact .estep hrx wk
      cases b with
      | ready t => exact key _ rfl (.estep ih (.pushReady t a1 a2))
      | new t => exact key _ rfl (.estep ih (.pushNew t a1 a2))
      | stop => exact key _ rfl (.estep ih (.stop a1 a2))
    | @wake j cv' h hc =>
      by_cases hb : s.buf j = none
      · have st := cv_notify hb (.inr rfl) hc
        have := RG.Work.EStep.wake (s := abs s) (j := j) (by simp [abs, hb, h]) st
        have e : abs { s with w := { s.w with ps := upd s.w.ps j .inCv, cv := cv' } } =
            { abs s with ps := upd (abs s).ps j .inCv
                         cv := { cv' with ns := fun i => if s.buf i = none then cv'.ns i else .out } } := by
          unfold abs
          dsimp only
          rw [mask_upd _ _ _ hb]
        rw [e]; exact .estep ih this
      · have e : abs { s with w := { s.w with ps := upd s.w.ps j .inCv, cv := cv' } } = abs s := by
          cases hc
          unfold abs
          dsimp only
          rw [mask_skip _ _ _ hb, mask_skip _ _ _ hb]
        rw [e]; exact ih
    | @notify j cv' hb hc =>
      exact .estep ih (.notify (cv_notify hb (.inl rfl) hc))
    | @wakeDone j h hc =>
      have hb : s.buf j = none := by
        apply Classical.byContradiction; intro hb
        rcases inv j hb with ⟨h1, h2⟩ | ⟨h1, h2⟩
        · rw [h] at h1; cases h1
        · rw [hc] at h2; cases h2
      have := RG.Work.EStep.wakeDone (s := abs s) (j := j) (by simp [abs, hb, h]) (by simp [abs, hb, hc])
      have e : abs { s with w := { s.w with ps := upd s.w.ps j .out } } = { abs s with ps := upd (abs s).ps j .out } := by
        unfold abs
        dsimp only
        rw [mask_upd _ _ _ hb]
      rw [e]; exact .estep ih this
    | @noise j cv' h hc =>
      have hb : s.buf j = none := by
        apply Classical.byContradiction; intro hb
        rcases inv j hb with ⟨h1, h2⟩ | ⟨h1, h2⟩ <;> (rw [h] at h1; cases h1)
      exact .estep ih (.noise (j := j) (by simp [abs, hb, h]) (cv_notify hb (.inr rfl) hc))
    | thiefReady hq => exact .estep ih (.thiefReady (s := abs s) hq)
    | thiefNew hq => exact .estep ih (.thiefNew (s := abs s) hq)

/-- when all calls have returned, the buffers are empty -/
theorem quiet_buf {s : State} (h : Reach s) (hq : Quiet s) (j : Nat) : s.buf j = none := by
  apply Classical.byContradiction; intro hb
  rcases buf_inv h j hb with ⟨h1, _⟩ | ⟨h1, _⟩ <;> (rw [(hq j).1] at h1; cases h1)

/-- C86: when all calls that give something to the worker have returned, the state is one of the sequentially consistent
machine, and nothing is left in the buffers. Hence everything that C39 says about such states holds on x86. -/
theorem C86_x86_worker_quiet {s : State} (h : Reach s) (hq : Quiet s) : RG.Work.Reach s.w ∧ ∀ j, s.buf j = none := by
  refine ⟨?_, quiet_buf h hq⟩
  have e : abs s = s.w := by
    simp [abs, quiet_buf h hq]
  rw [← e]; exact C86_x86_worker_refines h

/-- C86: on x86 no task is stranded: if the worker is blocked and all calls have returned then its queues are empty, and no
task is on the way to them. -/
theorem C86_x86_no_stranded_task {s : State} (h : Reach s) (hw : s.w.cv.ws 0 = .asleep) (hq : Quiet s) :
    s.w.ready = [] ∧ s.w.new = [] ∧ ∀ j, s.buf j = none := by
  obtain ⟨h1, h2⟩ := C86_x86_worker_quiet h hq
  obtain ⟨h3, h4⟩ := RG.Work.C39_no_stranded_task h1 hw hq
  exact ⟨h3, h4, h2⟩

/-- C86: on x86, if the worker is blocked although there is a task in its queues or on the way to them, then some thread is about to
wake it. -/
theorem C86_x86_blocked_worker_will_be_woken {s : State} (h : Reach s) (hw : s.w.cv.ws 0 = .asleep)
    (hq : s.w.ready ≠ [] ∨ s.w.new ≠ [] ∨ ∃ j, s.buf j ≠ none) :
    ∃ j, s.w.ps j = .pushed ∨ s.w.cv.ns j = .cas ∨ s.w.cv.ns j = .lockM ∨ s.w.cv.ns j = .notifyAll := by
  by_cases hb : ∃ j, s.buf j ≠ none
  · obtain ⟨j, hb⟩ := hb
    rcases buf_inv h j hb with ⟨h1, _⟩ | ⟨_, h1⟩
    · exact ⟨j, .inl h1⟩
    · exact ⟨j, .inr (.inl h1)⟩
  · have hb' : ∀ j, s.buf j = none := fun j => Classical.byContradiction fun h' => hb ⟨j, h'⟩
    have hr := C86_x86_worker_refines h
    obtain ⟨j, hj⟩ := RG.Work.C39_blocked_worker_will_be_woken hr hw
      (by rcases hq with hq | hq | ⟨j, hq⟩
          · exact .inl hq
          · exact .inr hq
          · exact absurd (hb' j) hq)
    refine ⟨j, ?_⟩
    simpa [abs, hb'] using hj

/-- C86: on x86, when there is a task in the queues and all calls have returned, the worker takes a task out of them after at most 16
steps of its own. -/
theorem C86_x86_task_is_looked_at {s : State} {w' : RG.Work.State} {n : Nat} (h : Reach s) (hq : Quiet s)
    (hs : s.w.stop = false) (hpc : s.w.pc ≠ .stopped) (hne : s.w.ready ≠ [] ∨ s.w.new ≠ []) (hn : 16 ≤ n)
    (hr : RG.Work.Solo n s.w w') : s.w.looked.length < w'.looked.length :=
  RG.Work.C39_task_is_looked_at (C86_x86_worker_quiet h hq).1 hq hs hpc hne hn hr

/-- the execution of the example: the worker is about to block; a producer has put its task into its buffer and is going to call `wake()` -/
example : ∃ s, Reach s ∧ s.w.cv.ws 0 = .asleep ∧ s.buf 3 = some (.new 7) ∧ s.w.cv.ns 3 = .cas ∧ s.w.new = [] := by
  refine ⟨_, .step (.step (.step (.step (.step (.step (.step .init
    (.worker (.sleep rfl rfl (.waitCall rfl))))
    (.worker (.wait (.timeout rfl rfl))))
    (.push (j := 3) (.new 7) rfl rfl rfl))
    (.worker (.wait (.check2T rfl rfl))))
    (.worker (.wait (.lockM rfl rfl))))
    (.wake (j := 3) rfl (.notifyCall rfl)))
    (.worker (.wait (.sleep rfl rfl))), ?_⟩
  refine ⟨rfl, rfl, rfl, rfl⟩

/-- and the task is in the queue, all calls have returned, the worker has not looked at it yet -/
example : ∃ s, Reach s ∧ Quiet s ∧ s.w.stop = false ∧ s.w.pc ≠ .stopped ∧ s.w.new = [7] := by
  refine ⟨_, .step (.step (.step (.step (.step (.step (.step (.step .init
    (.push (j := 3) (.new 7) rfl rfl rfl))
    (.wake (j := 3) rfl (.notifyCall rfl)))
    (.drain (j := 3) (b := .new 7) rfl))
    (.notify (j := 3) rfl (.cas rfl)))
    (.notify (j := 3) rfl (.nLockM rfl rfl)))
    (.notify (j := 3) rfl (.notifyAll rfl)))
    (.notify (j := 3) rfl (.nUnlockM rfl)))
    (.wakeDone (j := 3) rfl rfl), ?_⟩
  refine ⟨?_, rfl, by decide, rfl⟩
  intro j
  by_cases e : j = 3
  · subst e; exact ⟨rfl, rfl⟩
  · simp [Store.apply, upd_ne _ _ e, init, RG.Work.init, Cv.init]

end Tso.Work

/-! ### x86: a thread outside of the runtime waits for an event -/
namespace Tso.Yield

open RG.Yield (Coming oneWaiter)

theorem Steps.trans {cfg : RG.Yield.Cfg} {n : Bool} {s s' s'' : State} (h : Steps cfg n s s') (h' : Steps cfg n s' s'') :
    Steps cfg n s s'' := by
  induction h with
  | refl => exact h'
  | step hs _ ih => exact .step hs (ih h')

/-- asleep for good: the condition variable has no notification and nobody will give one -/
structure Stuck (s : State) : Prop where
  pc : s.y.pcs 0 = .idle
  ws : s.y.cv.ws 0 = .asleep ∨ s.y.cv.ws 0 = .waking ∨ s.y.cv.ws 0 = .pred
  flag : s.y.cv.flag = true
  state : s.y.state 5 = 0
  eps : ∀ j, s.y.eps j ≠ .waking
  decd : ∀ j e st, s.y.eps j = .decd e st → e ≠ 5
  ns : ∀ j, s.y.cv.ns j = .out
  waker : ∀ e, e ≠ 5 → s.y.waker e = none
  inCv : ∀ j, s.y.eps j ≠ .inCv

theorem Stuck.step {s s' : State} (hk : Stuck s) (h : Step (oneWaiter 1) false s s') : Stuck s' := by
  obtain ⟨pc, ws, fl, st, ep, de, ns, wk, ic⟩ := hk
  have one : ∀ {i}, i < (oneWaiter 1).nW → i = 0 := by intro i hi; simp [oneWaiter] at hi; omega
  cases h with
  | setWaker hi h | reached hi h | notReached hi h | back hi h => have := one hi; grind
  | @drain i h =>
    refine ⟨pc, ws, fl, st, ep, de, ns, ?_, ic⟩
    intro e he
    simp only [oneWaiter]
    rw [upd_ne _ _ he]; exact wk e he
  | @wait i cv' hi hb hc =>
    have := one hi
    subst this
    cases hc <;> simp_all <;> constructor <;> first | assumption | simp_all
  | @spurious i cv' hi hc =>
    have := one hi
    subst this
    cases hc
    constructor <;> first | assumption | simp_all
  | @dec j e h hc hs =>
    have : e ≠ 5 := by intro e'; subst e'; omega
    refine ⟨pc, ws, fl, ?_, ?_, ?_, ns, wk, ?_⟩ <;> grind [upd]
  | readWaker h hst hw => grind
  | noWaker h hst => refine ⟨pc, ws, fl, st, ?_, ?_, ns, wk, ?_⟩ <;> grind [upd]
  | wake h => grind
  | @notify j cv' hc => cases hc <;> grind
  | woken h => grind
  | noise hn => cases hn

/-- C86 is false on x86 for a thread that waits for an event outside of a task, e.g. with `get()` in the main program: the
store of `waker_id` may still be in the store buffer when the thread finds that the event is not reached; the notifying thread then
reaches the event, finds no waker and wakes nobody, and the waiting thread sleeps for ever (unless it is woken for
another reason). -/
theorem C86_x86_main_thread_sleeps_on_false :
    ∃ cfg : RG.Yield.Cfg, cfg.nW = 1 ∧ cfg.foreign = false ∧ ∃ s, Reach cfg false s ∧ s.y.state (cfg.ev 0) = 0 ∧
      ∀ s', Steps cfg false s s' → s'.y.pcs 0 ≠ .done := by
  refine ⟨oneWaiter 1, rfl, rfl, ?_⟩
  have hr : ∃ s, Reach (oneWaiter 1) false s ∧ Stuck s := by
    refine ⟨_, .step (.setWaker (i := 0) (by decide) rfl) <|
      .step (.notReached (i := 0) (by decide) rfl (by decide) (.waitCall rfl)) <|
      .step (.dec (j := 2) (e := 5) rfl rfl (by decide)) <|
      .step (.noWaker (j := 2) (e := 5) (st := 0) rfl (by simp [init, RG.Yield.init])) <|
      .step (.drain (i := 0) rfl) <|
      .step (.wait (i := 0) (by decide) (fun _ => rfl) (.timeout rfl rfl)) <|
      .step (.wait (i := 0) (by decide) (fun _ => rfl) (.check2T rfl rfl)) <|
      .step (.wait (i := 0) (by decide) (fun _ => rfl) (.lockM rfl rfl)) <|
      .step (.wait (i := 0) (by decide) (fun _ => rfl) (.sleep rfl rfl)) .refl, ?_⟩
    refine ⟨rfl, .inl rfl, rfl, rfl, ?_, ?_, fun _ => rfl, ?_, ?_⟩
    · intro j
      by_cases e' : j = 2
      · subst e'; simp
      · simp [upd_ne _ _ e', init, RG.Yield.init]
    · intro j e st
      by_cases e' : j = 2
      · subst e'; simp
      · simp [upd_ne _ _ e', init, RG.Yield.init]
    · intro e he
      simp [oneWaiter, upd_ne _ _ he, init, RG.Yield.init]
    · intro j
      by_cases e' : j = 2
      · subst e'; simp
      · simp [upd_ne _ _ e', init, RG.Yield.init]
  obtain ⟨s, hr, hk⟩ := hr
  refine ⟨s, hr, hk.state, ?_⟩
  intro s' hs'
  have : Stuck s' := by
    clear hr
    induction hs' with
    | refl => exact hk
    | step hs _ ih => exact ih (hk.step hs)
  rw [this.pc]; simp

/-- what is known about the main thread -/
structure Inv (cfg : RG.Yield.Cfg) (s : State) : Prop where
  waker : s.y.pcs 0 ≠ .start → s.buf 0 = true ∨ s.y.waker (cfg.ev 0) = some 0
  inCv : s.y.cv.ws 0 ≠ .out → s.y.pcs 0 = .idle
  main : s.y.pcs 0 = .idle → s.y.state (cfg.ev 0) = 0 → s.y.cv.ws 0 ≠ .out → ¬ s.missed (cfg.ev 0) →
    s.y.cv.pend = true ∨ Coming cfg s.y

theorem cv_reach {cfg : RG.Yield.Cfg} {n : Bool} {s : State} (h : Reach cfg n s) : Cv.Reach cfg.nW s.y.cv := by
  have main : ∀ s s', Steps cfg n s s' → Cv.Reach cfg.nW s.y.cv → Cv.Reach cfg.nW s'.y.cv := by
    intro s s' h
    induction h with
    | refl => exact fun h => h
    | step hs _ ih =>
      intro hr
      apply ih
      cases hs with
      | setWaker | drain | reached | back | dec | readWaker | noWaker | woken => exact hr
      | notReached hi _ _ hc | wait hi _ hc | spurious hi hc =>
        exact .step hr hc (by intro k hk; simp [Cv.Lbl.waiter?] at hk; omega)
      | wake _ hc | notify hc | noise _ _ hc =>
        exact .step hr hc (by intro k hk; simp [Cv.Lbl.waiter?] at hk)
  exact main _ _ h .init

theorem Inv.step {cfg : RG.Yield.Cfg} (hn : cfg.nW = 1) {n : Bool} {s s' : State} (hi : Inv cfg s) (h : Step cfg n s s') :
    Inv cfg s' := by
  obtain ⟨wk, ic, mn⟩ := hi
  cases h with
  | @setWaker i hi h =>
    have e : i = 0 := by omega
    subst e
    refine ⟨by simp, ?_, by simp⟩
    intro hw; have := ic hw; rw [h] at this; cases this
  | @drain i h =>
    refine ⟨?_, ic, mn⟩
    intro hp
    rcases wk hp with h1 | h1
    · by_cases e : i = 0
      · subst e; right; exact upd_same _ _ _
      · left; dsimp only; rw [upd_ne _ _ (Ne.symm e)]; exact h1
    · right
      by_cases e : cfg.ev 0 = cfg.ev i
      · dsimp only; rw [e]; exact upd_same _ _ _
      · dsimp only; rw [upd_ne _ _ e]; exact h1
  | @reached i hi h hst =>
    have e : i = 0 := by omega
    subst e
    refine ⟨fun _ => wk (by rw [h]; decide), ?_, by simp⟩
    intro hw; have := ic hw; rw [h] at this; cases this
  | @notReached i cv' hi h hst hc =>
    have e : i = 0 := by omega
    subst e
    refine ⟨fun _ => wk (by rw [h]; decide), by simp, ?_⟩
    intro _ h0; exact absurd h0 hst
  | @back i hi h hc =>
    have e : i = 0 := by omega
    subst e
    exact ⟨fun _ => wk (by rw [h]; decide), fun hw => absurd hc hw, by simp⟩
  | @wait i cv' hi hb hc =>
    have e : i = 0 := by omega
    subst e
    obtain ⟨h1, h2, h3⟩ := hc.wait_inv
    refine ⟨wk, fun _ => ic h3, ?_⟩
    intro hp h0 hw hm
    rcases mn hp h0 h3 hm with h | ⟨j, h⟩
    · left; dsimp only; rw [h2 hw]; exact h
    · right; refine ⟨j, ?_⟩; dsimp only; rw [h1]; exact h
  | @spurious i cv' hi hc =>
    have e : i = 0 := by omega
    subst e
    obtain ⟨h1, h2, h3, h4⟩ := hc.spurious_inv
    refine ⟨wk, fun _ => ic h3, ?_⟩
    intro hp h0 hw hm
    rcases mn hp h0 h3 hm with h | ⟨j, h⟩
    · left; dsimp only; rw [h2]; exact h
    · right; refine ⟨j, ?_⟩; dsimp only; rw [h1]; exact h
  | @dec j e h hc hst =>
    refine ⟨wk, ic, ?_⟩
    intro hp h0 hw hm
    by_cases e' : cfg.ev 0 = e
    · subst e'
      right
      refine ⟨j, .inl ⟨_, ?_, upd_same _ _ _⟩⟩
      simp at h0; omega
    · dsimp only at h0; rw [upd_ne _ _ e'] at h0
      rcases mn hp h0 hw hm with h' | ⟨k, h'⟩
      · exact .inl h'
      · right
        refine ⟨k, ?_⟩
        by_cases ek : k = j
        · subst ek; rw [h, hc] at h'; simp at h'
        · dsimp only; rw [upd_ne _ _ ek]; exact h'
  | @readWaker j e st h hst hw' =>
    refine ⟨wk, ic, ?_⟩
    intro hp h0 hw hm
    rcases mn hp h0 hw hm with h' | ⟨k, h'⟩
    · exact .inl h'
    · right
      by_cases ek : k = j
      · subst ek; exact ⟨k, .inr (.inl (upd_same _ _ _))⟩
      · refine ⟨k, ?_⟩; dsimp only; rw [upd_ne _ _ ek]; exact h'
  | @noWaker j e st h hst =>
    refine ⟨wk, ic, ?_⟩
    intro hp h0 hw hm
    rcases mn hp h0 hw (fun h => hm (.inl h)) with h' | ⟨k, h'⟩
    · exact .inl h'
    · right
      by_cases ek : k = j
      · subst ek
        rcases h' with ⟨st', hst', h'⟩ | h' | h'
        · rw [h] at h'; cases h'
          rcases wk (by dsimp only at hp; rw [hp]; decide) with h1 | h1
          · exact absurd (.inr ⟨rfl, hst', 0, by omega, rfl, h1⟩) hm
          · exact absurd ⟨hst', h1⟩ hst
        · rw [h] at h'; cases h'
        · exact ⟨k, .inr (.inr h')⟩
      · refine ⟨k, ?_⟩; dsimp only; rw [upd_ne _ _ ek]; exact h'
  | @wake j cv' h hc =>
    obtain ⟨h1, h2, h3, h4⟩ := hc.notifyCall_inv
    refine ⟨wk, fun hw => ic (by dsimp only at hw; rwa [h3] at hw), ?_⟩
    intro hp h0 hw hm
    exact .inr ⟨j, .inr (.inr (by simp [h1]))⟩
  | @notify j cv' hc =>
    obtain ⟨h1, h2, h3⟩ := hc.notify_inv
    refine ⟨wk, fun hw => ic (fun e => hw ((h3 0).2 e)), ?_⟩
    intro hp h0 hw hm
    rcases mn hp h0 (fun e => hw ((h3 0).2 e)) hm with h' | ⟨k, h' | h' | h'⟩
    · exact .inl (h2 h')
    · exact .inr ⟨k, .inl h'⟩
    · exact .inr ⟨k, .inr (.inl h')⟩
    · rcases h1 k h' with h' | h'
      · exact .inr ⟨k, .inr (.inr h')⟩
      · exact .inl h'
  | @woken j h hc =>
    refine ⟨wk, ic, ?_⟩
    intro hp h0 hw hm
    rcases mn hp h0 hw hm with h' | ⟨k, h'⟩
    · exact .inl h'
    · right
      by_cases ek : k = j
      · subst ek; rw [h, hc] at h'; simp at h'
      · refine ⟨k, ?_⟩; dsimp only; rw [upd_ne _ _ ek]; exact h'
  | @noise j cv' _ h hc =>
    obtain ⟨h1, h2, h3, h4⟩ := hc.notifyCall_inv
    refine ⟨wk, fun hw => ic (by dsimp only at hw; rwa [h3] at hw), ?_⟩
    intro hp h0 hw hm
    exact .inr ⟨j, .inr (.inr (by simp [h1]))⟩

theorem inv {cfg : RG.Yield.Cfg} (hn : cfg.nW = 1) {n : Bool} {s : State} (h : Reach cfg n s) : Inv cfg s := by
  have main : ∀ s s', Steps cfg n s s' → Inv cfg s → Inv cfg s' := by
    intro s s' h
    induction h with
    | refl => exact fun h => h
    | step hs _ ih => exact fun hi => ih (hi.step hn hs)
  exact main _ _ h ⟨fun h => absurd rfl h, fun h => absurd rfl h, fun h => (nomatch h)⟩

/-- C86, what remains of it on x86 for a thread that waits for an event outside of a task: if no notifying thread has missed the waker
because it was still in the store buffer, then a blocked thread whose event is reached is about to be woken. -/
theorem C86_x86_main_thread_woken_partial {cfg : RG.Yield.Cfg} (hn : cfg.nW = 1) {n : Bool} {s : State}
    (h : Reach cfg n s) (hm : ¬ s.missed (cfg.ev 0)) (h0 : s.y.state (cfg.ev 0) = 0) (hw : s.y.cv.ws 0 = .asleep) :
    ∃ j, (∃ st, st ≤ 1 ∧ s.y.eps j = .decd (cfg.ev 0) st) ∨
      s.y.eps j = .waking ∨ s.y.cv.ns j = .cas ∨ s.y.cv.ns j = .lockM ∨ s.y.cv.ns j = .notifyAll := by
  have hi := inv hn h
  have hne : s.y.cv.ws 0 ≠ .out := by rw [hw]; decide
  rcases hi.main (hi.inCv hne) h0 hne hm with hp | ⟨j, h1 | h1 | h1⟩
  · have hr := cv_reach h
    rw [hn] at hr
    obtain ⟨⟨j, hj⟩, _⟩ := Cv.C38_blocked_waiter_will_be_woken hr hp hw
    exact ⟨j, .inr (.inr (.inr hj))⟩
  · exact ⟨j, .inl h1⟩
  · exact ⟨j, .inr (.inl h1)⟩
  · exact ⟨j, .inr (.inr (.inl h1))⟩

/-- An instance: the store reaches the memory in time; the main thread is blocked, and the notifying thread is going to wake it. -/
example : ∃ s, Reach (oneWaiter 1) false s ∧ ¬ s.missed 5 ∧ s.y.state 5 = 0 ∧ s.y.cv.ws 0 = .asleep ∧ s.y.eps 2 = .waking := by
  refine ⟨_, .step (.setWaker (i := 0) (by decide) rfl) <|
    .step (.notReached (i := 0) (by decide) rfl (by decide) (.waitCall rfl)) <|
    .step (.wait (i := 0) (by decide) (fun h => (nomatch h)) (.timeout rfl rfl)) <|
    .step (.drain (i := 0) rfl) <|
    .step (.dec (j := 2) (e := 5) rfl rfl (by decide)) <|
    .step (.wait (i := 0) (by decide) (fun _ => rfl) (.check2T rfl rfl)) <|
    .step (.wait (i := 0) (by decide) (fun _ => rfl) (.lockM rfl rfl)) <|
    .step (.wait (i := 0) (by decide) (fun _ => rfl) (.sleep rfl rfl)) <|
    .step (.readWaker (j := 2) (e := 5) (st := 0) rfl (by decide) rfl) .refl, ?_⟩
  exact ⟨fun h => h, rfl, rfl, rfl⟩

end Tso.Yield

/-! ### C++: a thread that sleeps when there is nothing to do -/
namespace Cxx

variable {cfg : Cfg} {s s' : State}

/-- what an item in the queue means for the rest of the state -/
theorem pending (hf : Fits cfg) (h : Reach cfg s) {k : Nat} (ht : s.told k) (hk : s.q k) (hw : s.ws ≠ .out) :
    ∃ m, s.last = some m ∧ m.val = false := by
  rcases (h.items hf).told k ht hk with ⟨m, h1, h2, _⟩ | ⟨h1, _⟩
  · exact ⟨m, h1, h2⟩
  · exact absurd h1 hw

/-- C86, for every memory that C++ allows: if `notify()` has found the thread waiting (has returned `true`) for an item that is still there,
and the thread is blocked, then it is about to be woken. -/
theorem C86_cxx_blocked_will_be_woken_partial (hc : cfg.xchgN = false) (h : Reach cfg s) {k : Nat} (ht : s.told k)
    (hk : s.q k) (hw : s.ws = .asleep) : ∃ j, s.ns j = .lockM ∨ s.ns j = .notifyAll := by
  obtain ⟨m, h1, h2⟩ := pending (.inl hc) h ht hk (by rw [hw]; decide)
  exact h.wake.sleep m h1 h2 hw

theorem not_asleep (hf : Fits cfg) (h : Reach cfg s) {k : Nat} (ht : s.told k) (hk : s.q k) (hq : Quiet s) :
    s.ws ≠ .asleep ∧ ∀ l s', Step cfg l s s' → s'.ws ≠ .asleep := by
  have na : s.ws ≠ .asleep := by
    intro hw
    obtain ⟨m, h1, h2⟩ := pending hf h ht hk (by rw [hw]; decide)
    obtain ⟨j, hj⟩ := h.wake.sleep m h1 h2 hw
    rw [(hq j).2] at hj
    rcases hj with hj | hj <;> cases hj
  refine ⟨na, ?_⟩
  intro l s' hs hw
  cases hs with
  | @sleep _ v hp hl =>
    obtain ⟨m, h1, h2⟩ := pending hf h ht hk (by rw [hp]; decide)
    have a3 := h.base.mvW (.inl hp)
    rcases h.wake.know m h1 h2 with ⟨j, hj, _⟩ | hj | hj
    · rw [(hq j).2] at hj; rcases hj with hj | hj | hj <;> cases hj
    · have := hl.true_not_last h.base h1 (by omega); rw [h2] at this; cases this
    · have := hl.true_not_last h.base h1 (by omega); rw [h2] at this; cases this
  | notifyAll hn => cases hws : s.ws <;> simp [hws, Cv.wakeUp] at hw
  | _ => first | exact na hw | (simp at hw)

/-- C86, for every memory that C++ allows: if `notify()` has found the thread waiting for an item that is still there, and all calls have
returned, then the thread is not blocked and does not block. -/
theorem C86_cxx_does_not_fall_asleep_partial (hc : cfg.xchgN = false) (h : Reach cfg s) {k : Nat} (ht : s.told k)
    (hk : s.q k) (hq : Quiet s) : s.ws ≠ .asleep ∧ ∀ l s', Step cfg l s s' → s'.ws ≠ .asleep :=
  not_asleep (.inl hc) h ht hk hq

theorem no_none (hf : Fits cfg) (h : Reach cfg s) {k : Nat} (ht : s.told k) (hk : s.q k) (hw : s.ws = .out)
    (hq : ∀ m, s.last = some m → m.val = true) (hs : Step cfg .main s s') : s'.ws = .out ∧ ∃ k, s.q k ∧ ¬ s'.q k := by
  cases hs with
  | take h hk => exact ⟨h, _, hk, fun h => h.2 rfl⟩
  | none _ hn hst =>
    rcases (h.items hf).told k ht hk with ⟨m, h1, h2, _⟩ | ⟨_, h1⟩
    · rw [hq m h1] at h2; cases h2
    · cases hs : cfg.strong with
      | true => exact absurd hk (hst hs k)
      | false => exact absurd (h1 hs) (hn k hk)
  | again h | timeout h | leave h | check2T h | check2F h | lockM h | sleep h | predT h | unlockM h | relock h | store h | storeX h =>
    rw [hw] at h; cases h

/-- C86, for every memory that C++ allows: after it has returned from `wait()`, the thread looks until it has found everything for which
`notify()` has found it waiting: as long as such an item is there and no new notification has been written, every
step takes an item. -/
theorem C86_cxx_finds_what_it_was_told_partial (hc : cfg.xchgN = false) (h : Reach cfg s) {k : Nat} (ht : s.told k)
    (hk : s.q k) (hw : s.ws = .out) (hq : ∀ m, s.last = some m → m.val = true) (hs : Step cfg .main s s') :
    s'.ws = .out ∧ ∃ k, s.q k ∧ ¬ s'.q k :=
  no_none (.inl hc) h ht hk hw hq hs

/-- a load of the last value is always possible -/
theorem loads_last (h : Reach cfg s) {m : Msg} (hm : s.last = some m) : ∃ v, Loads s s.wview m.val v := by
  obtain ⟨h1, h2⟩ := last_get hm
  have := h.base.wb
  exact ⟨_, s.hist.length - 1, m, by omega, h1, rfl, rfl⟩

theorem Alone.reach (h : Alone cfg s s') (hr : Reach cfg s) : Reach cfg s' := by
  induction h with
  | refl => exact hr
  | step hs _ _ ih => exact ih (.step hr hs)

theorem Alone.trans {s'' : State} (h : Alone cfg s s') (h' : Alone cfg s' s'') : Alone cfg s s'' := by
  induction h with
  | refl => exact h'
  | step hs hl _ ih => exact .step hs hl (ih h')

theorem found (hf : Fits cfg) (h : Reach cfg s) {k : Nat} (ht : s.told k) (hk : s.q k) (hq : Quiet s) :
    ∃ s', Alone cfg s s' ∧ ¬ s'.q k := by
  have lift : ∀ {s s1}, Step cfg .main s s1 → (∃ s', Alone cfg s1 s' ∧ ¬ s'.q k) → ∃ s', Alone cfg s s' ∧ ¬ s'.q k :=
    fun st ⟨s', h1, h2⟩ => ⟨s', .step st (by decide) h1, h2⟩
  have out : ∀ s, s.q k → s.ws = .out → ∃ s', Alone cfg s s' ∧ ¬ s'.q k := by
    intro s hk hw
    exact ⟨_, .step (.take hw hk) (by decide) .refl, fun h => h.2 rfl⟩
  have store : ∀ s, Reach cfg s → s.q k → s.ws = .store → ∃ s', Alone cfg s s' ∧ ¬ s'.q k := by
    intro s hr hk hw
    cases hx : cfg.xchgW with
    | false =>
      have st := Step.store hw hx
      exact lift st (out _ hk rfl)
    | true =>
      have : ∃ m, s.last = some m := by
        unfold State.last
        have := hr.base.wb
        cases hl : s.hist.getLast? with
        | none => simp at hl; rw [hl] at this; simp at this
        | some m => exact ⟨m, rfl⟩
      obtain ⟨m, hm⟩ := this
      have st := Step.storeX hw hx hm
      exact lift st (out _ hk rfl)
  have check : ∀ s, Reach cfg s → s.q k → (∃ m, s.last = some m ∧ m.val = false) → s.ws = .check →
      ∃ s', Alone cfg s s' ∧ ¬ s'.q k := by
    intro s hr hk ⟨m, hm, hv⟩ hw
    obtain ⟨v, hl⟩ := loads_last hr hm
    rw [hv] at hl
    have st := Step.leave (cfg := cfg) hw hl
    exact lift st (store _ (.step hr st) hk rfl)
  have pred : ∀ s, Reach cfg s → s.q k → (∃ m, s.last = some m ∧ m.val = false) → s.ws = .pred →
      ∃ s', Alone cfg s s' ∧ ¬ s'.q k := by
    intro s hr hk ⟨m, hm, hv⟩ hw
    obtain ⟨v, hl⟩ := loads_last hr hm
    rw [hv] at hl
    have st := Step.predT (cfg := cfg) hw hl
    have st2 := Step.unlockM (cfg := cfg) (s := { s with ws := .unlockM, wview := v }) rfl
    exact lift st (lift st2 (check _ (.step (.step hr st) st2) hk ⟨m, hm, hv⟩ rfl))
  have mtx : s.ws = .lockM ∨ s.ws = .waking → s.mutex = none := by
    intro hw
    cases hm : s.mutex with
    | none => rfl
    | some o =>
      -- the mutex is held only inside of `wait()` or `notify()`
      have own : ∀ s, Reach cfg s → ∀ o, s.mutex = some o →
          (o = .waiter 0 ∧ (s.ws = .pred ∨ s.ws = .unlockM)) ∨
          ∃ j, o = .notifier j ∧ (s.ns j = .notifyAll ∨ s.ns j = .unlockM) := by
        intro s hr
        induction hr with
        | init => intro o h; cases h
        | @step s s' l hr hs ih =>
          have mN := hr.base.mutN
          have mW := hr.base.mutW
          intro o ho
          cases hs with
          | sleep | unlockM | nUnlockM => cases ho
          | lockM | relock => cases ho; exact .inl ⟨rfl, .inl rfl⟩
          | @nLockM _ j h hm => cases ho; exact .inr ⟨j, rfl, .inl (upd_same _ _ _)⟩
          | @notifyAll _ j h =>
            rcases ih o ho with ⟨h1, h2⟩ | ⟨i, h1, h2⟩
            · exact .inl ⟨h1, (wakeUp_hold _).2 h2⟩
            · refine .inr ⟨i, h1, ?_⟩
              by_cases e : i = j
              · subst e; right; exact upd_same _ _ _
              · dsimp only; rw [upd_ne _ _ e]; exact h2
          | take | none | again | timeout | leave | check2T | check2F | predT | spurious | store | storeX | thief | learn |
            learnMain | learnOther | push =>
            rcases ih o ho with ⟨h1, h2⟩ | ⟨i, h1, h2⟩
            · first | exact .inl ⟨h1, h2⟩ | (refine .inl ⟨h1, ?_⟩; simp_all)
            · exact .inr ⟨i, h1, h2⟩
          | @wake _ j k h hn | @noise _ j h hn | @casOk _ j m hn | @casFail _ j p m hn | @xchg _ j m hn =>
            rcases ih o ho with ⟨h1, h2⟩ | ⟨i, h1, h2⟩
            · exact .inl ⟨h1, h2⟩
            · refine .inr ⟨i, h1, ?_⟩
              by_cases e : i = j
              · subst e; rw [hn] at h2; rcases h2 with h2 | h2 <;> cases h2
              · dsimp only; rw [upd_ne _ _ e]; exact h2
      rcases own s h o hm with ⟨_, h2⟩ | ⟨j, _, h2⟩
      · rcases hw with hw | hw <;> (rw [hw] at h2; rcases h2 with h2 | h2 <;> cases h2)
      · rw [(hq j).2] at h2; rcases h2 with h2 | h2 <;> cases h2
  by_cases ho : s.ws = .out
  · exact out s hk ho
  have pe := pending hf h ht hk ho
  have na := (not_asleep hf h ht hk hq).1
  cases hw : s.ws with
  | out => exact absurd hw ho
  | asleep => exact absurd hw na
  | check => exact check s h hk pe hw
  | check2 =>
    obtain ⟨m, hm, hv⟩ := pe
    obtain ⟨v, hl⟩ := loads_last h hm
    rw [hv] at hl
    have st := Step.check2F (cfg := cfg) hw hl
    exact lift st (check _ (.step h st) hk ⟨m, hm, hv⟩ rfl)
  | lockM =>
    have st := Step.lockM (cfg := cfg) hw (mtx (.inl hw))
    exact lift st (pred _ (.step h st) hk pe rfl)
  | waking =>
    have st := Step.relock (cfg := cfg) hw (mtx (.inr hw))
    exact lift st (pred _ (.step h st) hk pe rfl)
  | pred => exact pred s h hk pe hw
  | unlockM =>
    have st := Step.unlockM (cfg := cfg) hw
    exact lift st (check _ (.step h st) hk pe rfl)
  | store => exact store s h hk hw

/-- C86, for every memory that C++ allows: an item for which `notify()` has found the thread waiting can be taken by the thread,
from wherever it is, by steps of its own. -/
theorem C86_cxx_item_found_partial (hc : cfg.xchgN = false) (h : Reach cfg s) {k : Nat} (ht : s.told k)
    (hk : s.q k) (hq : Quiet s) : ∃ s', Alone cfg s s' ∧ ¬ s'.q k :=
  found (.inl hc) h ht hk hq

/-- with `exchange` in `notify()` the thread is told about every item -/
theorem all_told (hc : cfg.xchgN = true) (h : Reach cfg s) {k : Nat} (hk : s.q k) :
    s.told k ∨ ∃ j, s.ps j = .pushed k ∨ (s.ns j = .cas ∧ s.item j = some k) := by
  induction h with
  | init => cases hk
  | @step s s' l hr hs ih =>
    cases hs with
    | take | thief => exact ih hk.1
    | none | again | timeout | leave | check2T | check2F | predT | spurious | store | storeX | learn | learnMain | learnOther | sleep |
      unlockM | lockM | relock => exact ih hk
    | @push _ j h hn =>
      rcases hk with hk | hk
      · rcases ih hk with h' | ⟨i, h'⟩
        · exact .inl h'
        · refine .inr ⟨i, ?_⟩
          by_cases e : i = j
          · subst e; rw [h, hn] at h'; simp at h'
          · dsimp only; rw [upd_ne _ _ e]; exact h'
      · subst hk; exact .inr ⟨j, .inl (upd_same _ _ _)⟩
    | @wake _ j k' h hn =>
      rcases ih hk with h' | ⟨i, h'⟩
      · exact .inl h'
      · refine .inr ⟨i, ?_⟩
        by_cases e : i = j
        · subst e; rw [h, hn] at h'; simp at h'; subst h'; right; simp
        · dsimp only; rw [upd_ne _ _ e, upd_ne _ _ e, upd_ne _ _ e]; exact h'
    | @noise _ j h hn =>
      rcases ih hk with h' | ⟨i, h'⟩
      · exact .inl h'
      · refine .inr ⟨i, ?_⟩
        by_cases e : i = j
        · subst e; rw [h, hn] at h'; simp at h'
        · dsimp only; rw [upd_ne _ _ e, upd_ne _ _ e]; exact h'
    | casOk _ hx => rw [hc] at hx; cases hx
    | casFail _ hx => rw [hc] at hx; cases hx
    | @xchg _ j m h hx hm =>
      rcases ih hk with h' | ⟨i, h'⟩
      · exact .inl (.inl h')
      · by_cases e : i = j
        · subst e
          rcases h' with h' | h'
          · exact .inr ⟨i, .inl h'⟩
          · exact .inl (.inr h'.2)
        · refine .inr ⟨i, ?_⟩
          dsimp only; rw [upd_ne _ _ e]; exact h'
    | @nLockM _ j h | @notifyAll _ j h | @nUnlockM _ j h =>
      rcases ih hk with h' | ⟨i, h'⟩
      · exact .inl h'
      · refine .inr ⟨i, ?_⟩
        by_cases e : i = j
        · subst e
          rcases h' with h' | ⟨h', _⟩
          · exact .inl h'
          · rw [h] at h'; cases h'
        · dsimp only; rw [upd_ne _ _ e]; exact h'

/-- C86: with `exchange` in `notify()` and in `wait()` no item would be stranded with any memory that C++ allows; in `notify()` alone it
would be enough if looking for items finds everything that is there. -/
theorem C86_cxx_exchange_suffices (hc : cfg.xchgN = true) (hw : cfg.xchgW = true ∨ cfg.strong = true) (h : Reach cfg s)
    (hq : Quiet s) : (s.ws = .asleep → ∀ k, ¬ s.q k) ∧ ∀ k, s.q k → ∃ s', Alone cfg s s' ∧ ¬ s'.q k := by
  have told : ∀ k, s.q k → s.told k := by
    intro k hk
    rcases all_told hc h hk with h1 | ⟨j, h1⟩
    · exact h1
    · rw [(hq j).1, (hq j).2] at h1; simp at h1
  have hf : Fits cfg := .inr hw
  exact ⟨fun ha k hk => (not_asleep hf h (told k hk) hk hq).1 ha, fun k hk => found hf h (told k hk) hk hq⟩

/-- The thread is blocked for good: it can only read `true`. -/
structure Stuck (k : Nat) (s : State) : Prop where
  ws : s.ws = .asleep ∨ s.ws = .waking ∨ s.ws = .pred
  view : s.hist.length = s.wview.ts + 1
  last : ∀ m, s.hist[s.wview.ts]? = some m → m.val = true
  q : s.q k

theorem Stuck.load {k : Nat} (hk : Stuck k s) (hb : Base s) {b : Bool} {v : View} (hl : Loads s s.wview b v) :
    b = true ∧ v.ts = s.wview.ts := by
  obtain ⟨h1, h2, _, m, h3, h4, _⟩ := hl.facts hb
  have := hk.view
  have e : v.ts = s.wview.ts := by omega
  rw [e] at h3
  exact ⟨by rw [← h4]; exact hk.last m h3, e⟩

theorem Stuck.step {k : Nat} {l : Lbl} (hk : Stuck k s) (hr : Reach cfg s) (h : Step cfg l s s') (hl : l ≠ .other) : Stuck k s' := by
  have hb := hr.base
  cases h with
  | take h | none h | again h | timeout h | leave h | check2T h | check2F h | lockM h | unlockM h | store h | storeX h =>
    rcases hk.ws with h' | h' | h' <;> (rw [h] at h'; cases h')
  | sleep h hl' =>
    obtain ⟨_, e⟩ := hk.load hb hl'
    exact ⟨.inl rfl, by dsimp only; rw [e]; exact hk.view, by dsimp only; rw [e]; exact hk.last, hk.q⟩
  | predT h hl' => cases (hk.load hb hl').1
  | relock h hm =>
    have e : (s.wview.join s.mview).ts = s.wview.ts := by
      have := hb.mb
      have := hk.view
      simp; omega
    exact ⟨.inr (.inr rfl), by dsimp only; rw [e]; exact hk.view, by dsimp only; rw [e]; exact hk.last, hk.q⟩
  | spurious h => exact ⟨.inr (.inl rfl), hk.view, hk.last, hk.q⟩
  | push | wake | noise | casOk | casFail | xchg | nLockM | notifyAll | nUnlockM | thief | learn | learnMain | learnOther =>
    exact absurd rfl hl

theorem Stuck.alone {k : Nat} (hk : Stuck k s) (hr : Reach cfg s) (h : Alone cfg s s') : s'.q k ∧ s'.ws ≠ .out := by
  have : Stuck k s' := by
    induction h with
    | refl => exact hk
    | step hs hl _ ih => exact ih (hk.step hr hs hl) (.step hr hs)
  refine ⟨this.q, ?_⟩
  intro hw
  rcases this.ws with h' | h' | h' <;> (rw [hw] at h'; cases h')

/-- the beginning, at the first check of `should_wait` -/
theorem reach_check : Reach cfg { Cxx.init cfg with ws := .check } := by
  cases hw : cfg.waitFirst with
  | true =>
    have : ({ Cxx.init cfg with ws := .check } : State) = Cxx.init cfg := by simp [Cxx.init, hw]
    rw [this]; exact .init
  | false => exact .step .init (.none (by simp [Cxx.init, hw]) (fun k h => (nomatch h)) (fun _ k h => (nomatch h)))

/-- cv.cpp:37 in both variants -/
theorem reach_store (hr : Reach cfg s) (hw : s.ws = .store) (hm : ∃ m, s.last = some m) : ∃ f, Reach cfg { s with
    ws := .out, wview := ⟨s.hist.length, f⟩, hist := s.hist ++ [⟨true, ⟨s.hist.length, f⟩⟩] } := by
  cases hx : cfg.xchgW with
  | true => obtain ⟨m, hm⟩ := hm; exact ⟨_, .step hr (.storeX hw hx hm)⟩
  | false => exact ⟨_, .step hr (.store hw hx)⟩

/-- C86 is false for the memory of C++: a task is put into the queue of a worker and `notify()` returns, but the
compare-exchange has failed because it has read an old `false`; the worker does not look at its queue again and sleeps until somebody else
wakes it. This holds even if looking for items finds everything that is there (as for the counter of tasks in `barrier()`), and if
the store in `wait()` were an `exchange`. -/
theorem C86_cxx_stranded_false (cfg : Cfg) (hc : cfg.xchgN = false) :
    ∃ s k, Reach cfg s ∧ Quiet s ∧ s.ws = .asleep ∧ s.q k ∧ ∀ s', Alone cfg s s' → s'.q k ∧ s'.ws ≠ .out := by
  -- an item is given, and the thread returns from `wait()`
  have r := Reach.step reach_check (Step.push (cfg := cfg) (j := 0) rfl rfl)
  replace r := Reach.step r (Step.wake (j := 0) (k := 0) rfl rfl)
  replace r := Reach.step r (Step.casOk (j := 0) (m := ⟨true, v0⟩) rfl hc rfl rfl)
  replace r := Reach.step r (Step.nLockM (j := 0) rfl rfl)
  replace r := Reach.step r (Step.notifyAll (j := 0) rfl)
  replace r := Reach.step r (Step.nUnlockM (j := 0) rfl)
  replace r := Reach.step r (Step.leave rfl ⟨1, _, Nat.zero_le _, rfl, rfl, rfl⟩)
  obtain ⟨f, r⟩ := reach_store r rfl ⟨_, rfl⟩
  replace r := Reach.step r (Step.take (k := 0) rfl (.inr rfl))
  replace r := Reach.step r (Step.none rfl (fun k h => absurd h.1 (by simpa [Cxx.init] using h.2))
    (fun _ k h => absurd h.1 (by simpa [Cxx.init] using h.2)))
  -- the next item is given, but the compare-exchange reads the old value
  replace r := Reach.step r (Step.push (j := 1) rfl rfl)
  replace r := Reach.step r (Step.wake (j := 1) (k := 1) rfl rfl)
  replace r := Reach.step r (Step.casFail (j := 1) (p := 1) rfl hc (Nat.zero_le _) rfl rfl)
  replace r := Reach.step r (Step.nLockM (j := 1) rfl rfl)
  replace r := Reach.step r (Step.notifyAll (j := 1) rfl)
  replace r := Reach.step r (Step.nUnlockM (j := 1) rfl)
  -- the thread goes to sleep
  replace r := Reach.step r (Step.timeout rfl ⟨2, _, Nat.le_refl _, rfl, rfl, rfl⟩)
  replace r := Reach.step r (Step.check2T rfl ⟨2, _, Nat.le_refl _, rfl, rfl, rfl⟩)
  replace r := Reach.step r (Step.lockM rfl rfl)
  replace r := Reach.step r (Step.sleep rfl ⟨2, _, Nat.le_refl _, rfl, rfl, rfl⟩)
  refine ⟨_, 1, r, ?_, rfl, ?_, fun s' h => Stuck.alone ⟨.inl rfl, rfl, ?_, ?_⟩ r h⟩
  · intro j
    by_cases h0 : j = 0
    · subst h0; exact ⟨rfl, rfl⟩
    · by_cases h1 : j = 1
      · subst h1; exact ⟨rfl, rfl⟩
      · simp [upd_ne _ _ h0, upd_ne _ _ h1, Cxx.init]
  · exact .inr rfl
  · intro m hm
    cases hm
    rfl
  · exact .inr rfl

/-- C86: `exchange` in `notify()` alone would not be enough for the queues: the thread overwrites the second notification without
having synchronized with it. -/
theorem C86_cxx_exchange_in_notify_false (cfg : Cfg) (hc : cfg.xchgN = true) (hx : cfg.xchgW = false) (hs : cfg.strong = false) :
    ∃ s k, Reach cfg s ∧ Quiet s ∧ s.ws = .asleep ∧ s.q k ∧ ∀ s', Alone cfg s s' → s'.q k ∧ s'.ws ≠ .out := by
  have r := Reach.step reach_check (Step.push (cfg := cfg) (j := 0) rfl rfl)
  replace r := Reach.step r (Step.wake (j := 0) (k := 0) rfl rfl)
  replace r := Reach.step r (Step.xchg (j := 0) (m := ⟨true, v0⟩) rfl hc rfl)
  replace r := Reach.step r (Step.nLockM (j := 0) rfl rfl)
  replace r := Reach.step r (Step.notifyAll (j := 0) rfl)
  replace r := Reach.step r (Step.nUnlockM (j := 0) rfl)
  replace r := Reach.step r (Step.leave rfl ⟨1, _, Nat.zero_le _, rfl, rfl, rfl⟩)
  -- the next item is given before the store
  replace r := Reach.step r (Step.push (j := 1) rfl rfl)
  replace r := Reach.step r (Step.wake (j := 1) (k := 1) rfl rfl)
  replace r := Reach.step r (Step.xchg (j := 1) rfl hc rfl)
  replace r := Reach.step r (Step.nLockM (j := 1) rfl rfl)
  replace r := Reach.step r (Step.notifyAll (j := 1) rfl)
  replace r := Reach.step r (Step.nUnlockM (j := 1) rfl)
  replace r := Reach.step r (Step.store rfl hx)
  replace r := Reach.step r (Step.take (k := 0) rfl (.inl (.inr rfl)))
  replace r := Reach.step r (Step.none rfl (fun k h h' => by
    obtain ⟨h1, h2⟩ := h
    simp [Cxx.init, View.join, v0, upd, h2] at h1 h') (fun h => absurd h (by simp [hs])))
  replace r := Reach.step r (Step.timeout rfl ⟨3, _, Nat.le_refl _, rfl, rfl, rfl⟩)
  replace r := Reach.step r (Step.check2T rfl ⟨3, _, Nat.le_refl _, rfl, rfl, rfl⟩)
  replace r := Reach.step r (Step.lockM rfl rfl)
  replace r := Reach.step r (Step.sleep rfl ⟨3, _, Nat.le_refl _, rfl, rfl, rfl⟩)
  refine ⟨_, 1, r, ?_, rfl, ?_, fun s' h => Stuck.alone ⟨.inl rfl, rfl, ?_, ?_⟩ r h⟩
  · intro j
    by_cases h0 : j = 0
    · subst h0; exact ⟨rfl, rfl⟩
    · by_cases h1 : j = 1
      · subst h1; exact ⟨rfl, rfl⟩
      · simp [upd_ne _ _ h0, upd_ne _ _ h1, Cxx.init]
  · exact ⟨.inr rfl, by decide⟩
  · intro m hm
    cases hm
    rfl
  · exact ⟨.inr rfl, by decide⟩

/-- the code, with a queue that finds only what has been put into it before in the sense of C++ -/
def code : Cfg := ⟨false, false, false, true⟩

/-- An instance of the positive theorems: an item is there for which `notify()` has found the thread waiting, and all calls have returned. -/
example : ∃ s, Reach code s ∧ s.told 0 ∧ s.q 0 ∧ Quiet s ∧ s.ws = .check := by
  have r := Reach.step (reach_check (cfg := code)) (Step.push (j := 0) rfl rfl)
  replace r := Reach.step r (Step.wake (j := 0) (k := 0) rfl rfl)
  replace r := Reach.step r (Step.casOk (j := 0) (m := ⟨true, v0⟩) rfl rfl rfl rfl)
  replace r := Reach.step r (Step.nLockM (j := 0) rfl rfl)
  replace r := Reach.step r (Step.notifyAll (j := 0) rfl)
  replace r := Reach.step r (Step.nUnlockM (j := 0) rfl)
  refine ⟨_, r, .inr rfl, .inr rfl, ?_, rfl⟩
  intro j
  by_cases h0 : j = 0
  · subst h0; exact ⟨rfl, rfl⟩
  · simp [upd_ne _ _ h0, Cxx.init]

/-- The thread is blocked, and the thread that has given the item is about to wake it. -/
example : ∃ s, Reach code s ∧ s.told 0 ∧ s.q 0 ∧ s.ws = .asleep ∧ s.ns 0 = .lockM := by
  have r := Reach.step (reach_check (cfg := code)) (Step.push (j := 0) rfl rfl)
  replace r := Reach.step r (Step.timeout rfl ⟨0, _, Nat.le_refl _, rfl, rfl, rfl⟩)
  replace r := Reach.step r (Step.wake (j := 0) (k := 0) rfl rfl)
  replace r := Reach.step r (Step.casOk (j := 0) (m := ⟨true, v0⟩) rfl rfl rfl rfl)
  replace r := Reach.step r (Step.check2T rfl ⟨0, _, Nat.le_refl _, rfl, rfl, rfl⟩)
  replace r := Reach.step r (Step.lockM rfl rfl)
  replace r := Reach.step r (Step.sleep rfl ⟨0, _, Nat.le_refl _, rfl, rfl, rfl⟩)
  exact ⟨_, r, .inr rfl, .inr rfl, rfl, rfl⟩

/-- The thread has returned from `wait()` and has not taken the item yet. -/
example : ∃ s, Reach code s ∧ s.told 0 ∧ s.q 0 ∧ s.ws = .out ∧ ∀ m, s.last = some m → m.val = true := by
  have r := Reach.step (reach_check (cfg := code)) (Step.push (j := 0) rfl rfl)
  replace r := Reach.step r (Step.wake (j := 0) (k := 0) rfl rfl)
  replace r := Reach.step r (Step.casOk (j := 0) (m := ⟨true, v0⟩) rfl rfl rfl rfl)
  replace r := Reach.step r (Step.leave rfl ⟨1, _, Nat.zero_le _, rfl, rfl, rfl⟩)
  replace r := Reach.step r (Step.store rfl rfl)
  refine ⟨_, r, .inr rfl, .inr rfl, rfl, ?_⟩
  intro m hm
  cases hm
  rfl

/-- An instance for the variant: two notifications in a row, both items are there. -/
example : ∃ s, Reach ⟨true, true, false, true⟩ s ∧ Quiet s ∧ s.q 0 ∧ s.q 1 ∧ s.ws = .store := by
  have r := Reach.step (reach_check (cfg := ⟨true, true, false, true⟩)) (Step.push (j := 0) rfl rfl)
  replace r := Reach.step r (Step.wake (j := 0) (k := 0) rfl rfl)
  replace r := Reach.step r (Step.xchg (j := 0) (m := ⟨true, v0⟩) rfl rfl rfl)
  replace r := Reach.step r (Step.nLockM (j := 0) rfl rfl)
  replace r := Reach.step r (Step.notifyAll (j := 0) rfl)
  replace r := Reach.step r (Step.nUnlockM (j := 0) rfl)
  replace r := Reach.step r (Step.leave rfl ⟨1, _, Nat.zero_le _, rfl, rfl, rfl⟩)
  replace r := Reach.step r (Step.push (j := 0) rfl rfl)
  replace r := Reach.step r (Step.wake (j := 0) (k := 1) rfl rfl)
  replace r := Reach.step r (Step.xchg (j := 0) rfl rfl rfl)
  replace r := Reach.step r (Step.nLockM (j := 0) rfl rfl)
  replace r := Reach.step r (Step.notifyAll (j := 0) rfl)
  replace r := Reach.step r (Step.nUnlockM (j := 0) rfl)
  refine ⟨_, r, ?_, .inl (.inr rfl), .inr rfl, rfl⟩
  intro j
  by_cases h0 : j = 0
  · subst h0; exact ⟨rfl, rfl⟩
  · simp [upd_ne _ _ h0, Cxx.init]

end Cxx
end RG
