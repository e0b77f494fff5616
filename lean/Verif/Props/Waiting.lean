import Verif.Props.Sync
/-
Properties C39 (no stranded task), C40 (a thread outside of the runtime waiting for an event is woken),
C57 and C58 (several threads waiting).
-/
namespace RG

namespace Cv

theorem Step.waitCall_inv {s s' : State} {i : Nat} (h : Step (.waitCall i) s s') :
    s'.ns = s.ns ∧ s'.pend = s.pend ∧ s'.ws = upd s.ws i .check ∧ s.ws i = .out := by
  cases h; exact ⟨rfl, rfl, rfl, by assumption⟩

theorem Step.wait_inv {s s' : State} {i : Nat} (h : Step (.wait i) s s') :
    s'.ns = s.ns ∧ (s'.ws i ≠ .out → s'.pend = s.pend) ∧ s.ws i ≠ .out := by
  cases h <;> simp_all

theorem Step.spurious_inv {s s' : State} {i : Nat} (h : Step (.spurious i) s s') :
    s'.ns = s.ns ∧ s'.pend = s.pend ∧ s.ws i ≠ .out ∧ s'.ws i ≠ .out := by
  cases h; simp_all

theorem Step.notifyCall_inv {s s' : State} {j : Nat} (h : Step (.notifyCall j) s s') :
    s'.ns = upd s.ns j .cas ∧ s'.pend = s.pend ∧ s'.ws = s.ws ∧ s.ns j = .out := by
  cases h; exact ⟨rfl, rfl, rfl, by assumption⟩

theorem wakeUp_out (p : WPc) : wakeUp p = .out ↔ p = .out := by cases p <;> simp [wakeUp]

theorem Step.notify_inv {s s' : State} {j : Nat} (h : Step (.notify j) s s') :
    (∀ k, s.ns k = .cas → s'.ns k = .cas ∨ s'.pend = true) ∧ (s.pend = true → s'.pend = true) ∧
    (∀ i, s'.ws i = .out ↔ s.ws i = .out) := by
  cases h with
  | cas h => exact ⟨fun _ _ => .inr rfl, fun _ => rfl, fun _ => Iff.rfl⟩
  | nLockM h hm =>
    refine ⟨fun k hk => .inl ?_, fun h => h, fun _ => Iff.rfl⟩
    dsimp only; rw [upd_ne]
    · exact hk
    · intro e; subst e; rw [h] at hk; cases hk
  | notifyAll h =>
    refine ⟨fun k hk => .inl ?_, fun h => h, fun _ => wakeUp_out _⟩
    dsimp only; rw [upd_ne]
    · exact hk
    · intro e; subst e; rw [h] at hk; cases hk
  | nUnlockM h =>
    refine ⟨fun k hk => .inl ?_, fun h => h, fun _ => Iff.rfl⟩
    dsimp only; rw [upd_ne]
    · exact hk
    · intro e; subst e; rw [h] at hk; cases hk

end Cv

namespace Yield

/-! ### C40 -/

theorem cv_reach {cfg : Cfg} {s : State} (h : Reach cfg s) : Cv.Reach cfg.nW s.cv := by
  induction h with
  | init => exact .init
  | step _ hs ih =>
    cases hs with
    | setWaker | reached | noIdle | back | dec | readWaker | noWaker | woken | foreign => exact ih
    | notReached hi _ _ _ hc | wait hi hc | spurious hi hc =>
      exact .step ih hc (by intro k hk; simp [Cv.Lbl.waiter?] at hk; omega)
    | wake _ hc | notify hc | noise _ hc =>
      exact .step ih hc (by intro k hk; simp [Cv.Lbl.waiter?] at hk)

/-- some thread is going to give a notification to the main thread -/
def Coming (cfg : Cfg) (s : State) : Prop :=
  ∃ j, (∃ st, st ≤ 1 ∧ s.eps j = .decd (cfg.ev 0) st) ∨ s.eps j = .waking ∨ s.cv.ns j = .cas

structure Inv (cfg : Cfg) (s : State) : Prop where
  waker : cfg.foreign = false → s.pcs 0 ≠ .start → s.waker (cfg.ev 0) = some 0
  inCv : s.cv.ws 0 ≠ .out → s.pcs 0 = .idle
  threw : s.pcs 0 = .threw → cfg.idleSet 0 = false
  main : s.pcs 0 = .idle → s.state (cfg.ev 0) = 0 → s.cv.ws 0 ≠ .out → s.waker (cfg.ev 0) = some 0 →
    s.cv.pend = true ∨ Coming cfg s

theorem inv {cfg : Cfg} (hn : cfg.nW = 1) {s : State} (h : Reach cfg s) :
    Inv cfg s := by
  induction h with
  | init => exact ⟨fun _ h => absurd rfl h, fun h => absurd rfl h, fun h => (by cases h), fun h => (by cases h)⟩
  | @step s s' l _ hs ih =>
    obtain ⟨wk, ic, fi, mn⟩ := ih
    cases hs with
    | @setWaker _ i hi h =>
      have e : i = 0 := by omega
      subst e
      refine ⟨by simp, ?_, ?_, ?_⟩
      · intro hw; have := ic hw; rw [h] at this; cases this
      · simp
      · simp
    | @reached _ i hi h hst =>
      have e : i = 0 := by omega
      subst e
      refine ⟨fun hf _ => wk hf (by rw [h]; decide), ?_, by simp, ?_⟩
      · intro hw; have := ic hw; rw [h] at this; cases this
      · simp
    | @noIdle _ i hi h hst hd =>
      have e : i = 0 := by omega
      subst e
      refine ⟨fun hf _ => wk hf (by rw [h]; decide), ?_, fun _ => hd, by simp⟩
      intro hw; have := ic hw; rw [h] at this; cases this
    | @notReached _ i cv' hi h hst hd hc =>
      have e : i = 0 := by omega
      subst e
      refine ⟨fun hf _ => wk hf (by rw [h]; decide), by simp, by simp, ?_⟩
      intro _ h0; exact absurd h0 hst
    | @back _ i hi h hc =>
      have e : i = 0 := by omega
      subst e
      refine ⟨fun hf _ => wk hf (by rw [h]; decide), fun hw => absurd hc hw, by simp, by simp⟩
    | @wait _ i cv' hi hc =>
      have e : i = 0 := by omega
      subst e
      obtain ⟨h1, h2, h3⟩ := hc.wait_inv
      refine ⟨wk, fun _ => ic h3, fi, ?_⟩
      intro hp h0 hw hk
      rcases mn hp h0 h3 hk with h | ⟨j, h⟩
      · left; dsimp only; rw [h2 hw]; exact h
      · right; refine ⟨j, ?_⟩; dsimp only; rw [h1]; exact h
    | @spurious _ i cv' hi hc =>
      have e : i = 0 := by omega
      subst e
      obtain ⟨h1, h2, h3, h4⟩ := hc.spurious_inv
      refine ⟨wk, fun _ => ic h3, fi, ?_⟩
      intro hp h0 hw hk
      rcases mn hp h0 h3 hk with h | ⟨j, h⟩
      · left; dsimp only; rw [h2]; exact h
      · right; refine ⟨j, ?_⟩; dsimp only; rw [h1]; exact h
    | @dec _ j e h hc hst =>
      refine ⟨wk, ic, fi, ?_⟩
      · intro hp h0 hw hk
        by_cases e' : cfg.ev 0 = e
        · subst e'
          right
          refine ⟨j, .inl ⟨_, ?_, upd_same _ _ _⟩⟩
          simp at h0; omega
        · dsimp only at h0; rw [upd_ne _ _ e'] at h0
          rcases mn hp h0 hw hk with h' | ⟨k, h'⟩
          · exact .inl h'
          · right
            refine ⟨k, ?_⟩
            by_cases ek : k = j
            · subst ek; rw [h, hc] at h'; simp at h'
            · dsimp only; rw [upd_ne _ _ ek]; exact h'
    | @readWaker _ j e st h hst hw' =>
      refine ⟨wk, ic, fi, ?_⟩
      intro hp h0 hw hk
      rcases mn hp h0 hw hk with h' | ⟨k, h'⟩
      · exact .inl h'
      · right
        by_cases ek : k = j
        · subst ek; exact ⟨k, .inr (.inl (upd_same _ _ _))⟩
        · refine ⟨k, ?_⟩; dsimp only; rw [upd_ne _ _ ek]; exact h'
    | @noWaker _ j e st h hst =>
      refine ⟨wk, ic, fi, ?_⟩
      intro hp h0 hw hk
      rcases mn hp h0 hw hk with h' | ⟨k, h'⟩
      · exact .inl h'
      · right
        by_cases ek : k = j
        · subst ek
          rcases h' with ⟨st', hst', h'⟩ | h' | h'
          · rw [h] at h'; cases h'; exact absurd ⟨hst', hk⟩ hst
          · rw [h] at h'; cases h'
          · exact ⟨k, .inr (.inr h')⟩
        · refine ⟨k, ?_⟩; dsimp only; rw [upd_ne _ _ ek]; exact h'
    | @wake _ j cv' h hc =>
      obtain ⟨h1, h2, h3, h4⟩ := hc.notifyCall_inv
      refine ⟨wk, fun hw => ic (by rwa [h3] at hw), fi, ?_⟩
      intro hp h0 hw hk
      right
      exact ⟨j, .inr (.inr (by simp [h1]))⟩
    | @notify _ j cv' hc =>
      obtain ⟨h1, h2, h3⟩ := hc.notify_inv
      refine ⟨wk, fun hw => ic (fun e => hw ((h3 0).2 e)), fi, ?_⟩
      intro hp h0 hw hk
      rcases mn hp h0 (fun e => hw ((h3 0).2 e)) hk with h' | ⟨k, h' | h' | h'⟩
      · exact .inl (h2 h')
      · exact .inr ⟨k, .inl h'⟩
      · exact .inr ⟨k, .inr (.inl h')⟩
      · rcases h1 k h' with h' | h'
        · exact .inr ⟨k, .inr (.inr h')⟩
        · exact .inl h'
    | @woken _ j h hc =>
      refine ⟨wk, ic, fi, ?_⟩
      intro hp h0 hw hk
      rcases mn hp h0 hw hk with h' | ⟨k, h'⟩
      · exact .inl h'
      · right
        by_cases ek : k = j
        · subst ek; rw [h, hc] at h'; simp at h'
        · refine ⟨k, ?_⟩; dsimp only; rw [upd_ne _ _ ek]; exact h'
    | @noise _ j cv' h hc =>
      obtain ⟨h1, h2, h3, h4⟩ := hc.notifyCall_inv
      refine ⟨wk, fun hw => ic (by rwa [h3] at hw), fi, ?_⟩
      intro hp h0 hw hk
      exact .inr ⟨j, .inr (.inr (by simp [h1]))⟩
    | @foreign _ e k hf' hk0 =>
      refine ⟨fun hf => (by rw [hf] at hf'; cases hf'), ic, fi, ?_⟩
      intro hp h0 hw hk
      by_cases e' : cfg.ev 0 = e
      · subst e'; simp at hk; omega
      · dsimp only at hk; rw [upd_ne _ _ e'] at hk; exact mn hp h0 hw hk

/-- C40: `yield` returns only when the event is reached. -/
theorem C40_returns_only_when_reached {cfg : Cfg} {s : State} (h : Reach cfg s) {i : Nat}
    (hd : s.pcs i = .done) : s.state (cfg.ev i) = 0 := by
  induction h with
  | init => cases hd
  | @step s s' l _ hs ih =>
    cases hs with
    | @dec _ j e h hc hst =>
      have := ih hd
      by_cases e' : cfg.ev i = e
      · subst e'; omega
      · dsimp only; rw [upd_ne _ _ e']; exact this
    | @setWaker _ k hi h | @notReached _ k _ hi h | @noIdle _ k hi h | @back _ k hi h =>
      by_cases e : i = k
      · subst e; simp at hd
      · dsimp only at hd; rw [upd_ne _ _ e] at hd; exact ih hd
    | @reached _ k hi h hst =>
      by_cases e : i = k
      · subst e; exact hst
      · dsimp only at hd; rw [upd_ne _ _ e] at hd; exact ih hd
    | _ => exact ih hd

/-- C40: if the main thread is blocked although the event is reached then some thread is just about
to wake it: it has made the last decrement and is going to find the registered waker, or it is inside
of `notify()` and has not called `notify_all` yet. -/
theorem C40_blocked_main_thread_will_be_woken {cfg : Cfg} (hn : cfg.nW = 1)
    (hf : cfg.foreign = false) {s : State} (h : Reach cfg s) (h0 : s.state (cfg.ev 0) = 0)
    (hw : s.cv.ws 0 = .asleep) :
    ∃ j, (∃ st, st ≤ 1 ∧ s.eps j = .decd (cfg.ev 0) st ∧ s.waker (cfg.ev 0) = some 0) ∨
      s.eps j = .waking ∨ s.cv.ns j = .cas ∨ s.cv.ns j = .lockM ∨ s.cv.ns j = .notifyAll := by
  have hi := inv hn h
  have hne : s.cv.ws 0 ≠ .out := by rw [hw]; decide
  have hidle := hi.inCv hne
  have hwk := hi.waker hf (by rw [hidle]; decide)
  rcases hi.main hidle h0 hne hwk with hp | ⟨j, ⟨st, h1, h2⟩ | h1 | h1⟩
  · have hr := cv_reach h
    rw [hn] at hr
    obtain ⟨⟨j, hj⟩, _⟩ := Cv.C38_blocked_waiter_will_be_woken hr hp hw
    exact ⟨j, .inr (.inr (.inr hj))⟩
  · exact ⟨j, .inl ⟨st, h1, h2, hwk⟩⟩
  · exact ⟨j, .inr (.inl h1)⟩
  · exact ⟨j, .inr (.inr (.inl h1))⟩

theorem Solo.trans {cfg : Cfg} {i n m : Nat} {s s' s'' : State} (h : Solo cfg i n s s')
    (h' : Solo cfg i m s' s'') : Solo cfg i (n + m) s s'' := by
  induction h with
  | refl => simpa using h'
  | @step n _ _ _ hs _ ih =>
    rw [show n + 1 + m = (n + m) + 1 by omega]
    exact .step hs (ih h')

theorem solo_of_run {cfg : Cfg} (hn : 0 < cfg.nW) {ls : List Cv.Lbl} {c c' : Cv.State}
    (hr : Cv.Run ls c c') (hl : ∀ l ∈ ls, l = .wait 0) :
    ∀ s : State, s.cv = c → Solo cfg 0 ls.length s { s with cv := c' } := by
  induction hr with
  | nil => intro s hs; subst hs; exact .refl
  | cons hs _ ih =>
    intro s he
    subst he
    have e := hl _ (List.mem_cons_self ..)
    subst e
    exact .step (.wait hn hs) (ih (fun l hl' => hl l (List.mem_cons_of_mem _ hl')) _ rfl)

theorem main_returns {cfg : Cfg} (hn : cfg.nW = 1) (hd : cfg.idleSet 0 = true)
    {s : State} (h : Reach cfg s) (h0 : s.state (cfg.ev 0) = 0) (hq : Quiet s)
    (hwk : s.pcs 0 = .idle → s.waker (cfg.ev 0) = some 0) :
    ∃ n s', n ≤ 8 ∧ Solo cfg 0 n s s' ∧ s'.pcs 0 = .done := by
  have hi := inv hn h
  have hr := cv_reach h
  rw [hn] at hr
  have h1 : (0 : Nat) < cfg.nW := by omega
  have chk : ∀ s : State, s.state (cfg.ev 0) = 0 → s.pcs 0 = .check →
      ∃ s', Solo cfg 0 1 s s' ∧ s'.pcs 0 = .done := fun s h0 hc =>
    ⟨_, .step (.reached h1 hc h0) .refl, by simp⟩
  cases hp : s.pcs 0 with
  | start =>
    obtain ⟨s', h2, h3⟩ := chk
      { s with pcs := upd s.pcs 0 .check, waker := upd s.waker (cfg.ev 0) (some 0) } h0
      (by simp)
    exact ⟨2, s', by omega, .step (.setWaker h1 hp) h2, h3⟩
  | check =>
    obtain ⟨s', h2, h3⟩ := chk s h0 hp
    exact ⟨1, s', by omega, h2, h3⟩
  | done => exact ⟨0, s, by omega, .refl, hp⟩
  | threw => rw [hi.threw hp] at hd; cases hd
  | idle =>
    have bck : ∀ s : State, s.state (cfg.ev 0) = 0 → s.pcs 0 = .idle → s.cv.ws 0 = .out →
        ∃ s', Solo cfg 0 2 s s' ∧ s'.pcs 0 = .done := by
      intro s h0 hp hc
      obtain ⟨s', h2, h3⟩ := chk { s with pcs := upd s.pcs 0 .check } h0 (by simp)
      exact ⟨s', .step (.back h1 hp hc) h2, h3⟩
    by_cases ho : s.cv.ws 0 = .out
    · obtain ⟨s', h2, h3⟩ := bck s h0 hp ho
      exact ⟨2, s', by omega, h2, h3⟩
    · have hpend : s.cv.pend = true := by
        rcases hi.main hp h0 ho (hwk hp) with h | ⟨j, h⟩
        · exact h
        · rw [(hq j).1, (hq j).2] at h; simp at h
      obtain ⟨ls, c', h2, h3, h4, h5, _⟩ :=
        Cv.C38_wait_returns hr hpend (fun j => (hq j).2) ho
      have hs := solo_of_run h1 h4 h3 s rfl
      obtain ⟨s', h6, h7⟩ := bck { s with cv := c' } h0 hp h5
      exact ⟨ls.length + 2, s', by omega, hs.trans h6, h7⟩

/-- C40: when the event is reached and all calls of `notify` have returned, the main thread returns
from `yield` after at most 8 steps of its own, wherever in `yield` it is. -/
theorem C40_main_thread_returns {cfg : Cfg} (hn : cfg.nW = 1) (hd : cfg.idleSet 0 = true)
    (hf : cfg.foreign = false) {s : State} (h : Reach cfg s) (h0 : s.state (cfg.ev 0) = 0)
    (hq : Quiet s) : ∃ n s', n ≤ 8 ∧ Solo cfg 0 n s s' ∧ s'.pcs 0 = .done :=
  main_returns hn hd h h0 hq fun hp => (inv hn h).waker hf (by rw [hp]; decide)

/-- a thread inside of `EventPtr::notify` or `CondVar::notify` is in exactly one of them -/
theorem eps_inv {cfg : Cfg} {s : State} (h : Reach cfg s) (j : Nat) :
    (∃ e st, s.eps j = .decd e st) ∨ s.eps j = .waking → s.cv.ns j = .out := by
  induction h with
  | init => intro _; rfl
  | @step s s' l _ hs ih =>
    cases hs with
    | @dec _ k e h hc hst =>
      by_cases e' : j = k
      · subst e'; intro _; exact hc
      · dsimp only; rw [upd_ne _ _ e']; exact ih
    | @readWaker _ k e st h =>
      by_cases e' : j = k
      · subst e'; intro _; exact ih (.inl ⟨_, _, h⟩)
      · dsimp only; rw [upd_ne _ _ e']; exact ih
    | @noWaker _ k e st h | @woken _ k h =>
      by_cases e' : j = k
      · subst e'; simp
      · dsimp only; rw [upd_ne _ _ e']; exact ih
    | @wake _ k cv' h hc =>
      obtain ⟨h1, _⟩ := hc.notifyCall_inv
      by_cases e' : j = k
      · subst e'; simp
      · dsimp only; rw [h1, upd_ne _ _ e', upd_ne _ _ e']; exact ih
    | @noise _ k cv' h hc =>
      obtain ⟨h1, _⟩ := hc.notifyCall_inv
      by_cases e' : j = k
      · subst e'; simp [h]
      · dsimp only; rw [h1, upd_ne _ _ e']; exact ih
    | @notify _ k cv' hc =>
      intro he
      have := ih he
      by_cases e' : j = k
      · subst e'; cases hc <;> simp_all
      · cases hc <;> (dsimp only; rw [upd_ne _ _ e']; exact this)
    | notReached _ _ _ _ hc => obtain ⟨h1, _⟩ := hc.waitCall_inv; dsimp only; rw [h1]; exact ih
    | wait _ hc => obtain ⟨h1, _⟩ := hc.wait_inv; dsimp only; rw [h1]; exact ih
    | spurious _ hc => obtain ⟨h1, _⟩ := hc.spurious_inv; dsimp only; rw [h1]; exact ih
    | _ => exact ih

/-- C40: the threads which notify do not get stuck: as long as `Quiet` does not hold, one of the
notifying threads or the thread that holds the mutex of the condition variable can go on. -/
theorem C40_notifiers_return {cfg : Cfg} (hn : cfg.nW = 1) {s : State} (h : Reach cfg s) {j : Nat}
    (hj : s.eps j ≠ .out ∨ s.cv.ns j ≠ .out) :
    ∃ s', (∃ k, Step cfg none s s' ∧ (s'.eps k ≠ s.eps k ∨ s'.cv.ns k ≠ s.cv.ns k)) ∨
      (s.cv.mutex = some (.waiter 0) ∧ Step cfg (some 0) s s' ∧ s'.cv.mutex = none) ∨
      (s.cv.mutex = some (.waiter 0) ∧ Step cfg (some 0) s s' ∧ s'.cv.ws 0 = .unlockM) := by
  have hr := cv_reach h
  rw [hn] at hr
  have ci := hr.inv
  have notif : ∀ k, s.cv.ns k ≠ .out →
      ∃ s', (∃ k, Step cfg none s s' ∧ (s'.eps k ≠ s.eps k ∨ s'.cv.ns k ≠ s.cv.ns k)) ∨
      (s.cv.mutex = some (.waiter 0) ∧ Step cfg (some 0) s s' ∧ s'.cv.mutex = none) ∨
      (s.cv.mutex = some (.waiter 0) ∧ Step cfg (some 0) s s' ∧ s'.cv.ws 0 = .unlockM) := by
    intro k hk
    cases hp : s.cv.ns k with
    | out => exact absurd hp hk
    | cas => exact ⟨_, .inl ⟨k, .notify (.cas hp), .inr (by simp [hp])⟩⟩
    | notifyAll => exact ⟨_, .inl ⟨k, .notify (.notifyAll hp), .inr (by simp [hp])⟩⟩
    | unlockM => exact ⟨_, .inl ⟨k, .notify (.nUnlockM hp), .inr (by simp [hp])⟩⟩
    | lockM =>
      match hm : s.cv.mutex with
      | none => exact ⟨_, .inl ⟨k, .notify (.nLockM hp hm), .inr (by simp [hp])⟩⟩
      | some (.notifier l) =>
        rcases ci.mutN l hm with hl | hl
        · exact ⟨_, .inl ⟨l, .notify (.notifyAll hl), .inr (by simp [hl])⟩⟩
        · exact ⟨_, .inl ⟨l, .notify (.nUnlockM hl), .inr (by simp [hl])⟩⟩
      | some (.waiter i) =>
        obtain ⟨e, hl⟩ := ci.mutW i hm
        subst e
        rcases hl with hl | hl
        · cases hf : s.cv.flag with
          | true => exact ⟨_, .inr (.inl ⟨rfl, .wait (by omega) (.sleep hl hf), rfl⟩)⟩
          | false => exact ⟨_, .inr (.inr ⟨rfl, .wait (by omega) (.predT hl hf), by simp⟩)⟩
        · exact ⟨_, .inr (.inl ⟨rfl, .wait (by omega) (.unlockM hl), rfl⟩)⟩
  by_cases hns : s.cv.ns j = .out
  · have he : s.eps j ≠ .out := hj.resolve_right (fun h => h hns)
    cases hp : s.eps j with
    | out => exact absurd hp he
    | decd e st =>
      by_cases hst : st ≤ 1 ∧ s.waker e = some 0
      · exact ⟨_, .inl ⟨j, .readWaker hp hst.1 hst.2, .inl (by simp [hp])⟩⟩
      · exact ⟨_, .inl ⟨j, .noWaker hp hst, .inl (by simp [hp])⟩⟩
    | waking => exact ⟨_, .inl ⟨j, .wake hp (.notifyCall hns), .inl (by simp [hp])⟩⟩
    | inCv => exact ⟨_, .inl ⟨j, .woken hp hns, .inl (by simp [hp])⟩⟩
  · exact notif j hns

theorem Steps.reach {cfg : Cfg} {s s' : State} (h : Steps cfg s s') (hr : Reach cfg s) :
    Reach cfg s' := by
  induction h with
  | refl => exact hr
  | step hs _ ih => exact ih (.step hr hs)

/-- one thread outside of the runtime, which waits for event 5 with `k` unfinished in-edges -/
def oneWaiter (k : Nat) : Cfg := ⟨1, fun _ => 5, fun _ => k, false, fun i => i == 0⟩

/-- Non-trivial instance: the main thread has found the event not reached and is on its way to
sleep; meanwhile the last in-edge was notified and everything has returned. -/
example : ∃ s, Reach (oneWaiter 1) s ∧ s.state 5 = 0 ∧ Quiet s ∧ s.pcs 0 = .idle ∧
    s.cv.ws 0 = .lockM := by
  have h : ∃ s', Steps (oneWaiter 1) (init (oneWaiter 1)) s' ∧ s'.state 5 = 0 ∧ Quiet s' ∧
      s'.pcs 0 = .idle ∧ s'.cv.ws 0 = .lockM := by
    refine ⟨_, .step (.setWaker (i := 0) (by decide) rfl) <|
      .step (.notReached (i := 0) (by decide) rfl (by decide) rfl (.waitCall rfl)) <|
      .step (.wait (i := 0) (by decide) (.timeout rfl rfl)) <|
      .step (.dec (j := 3) (e := 5) rfl rfl (by decide)) <|
      .step (.readWaker (j := 3) (e := 5) (st := 0) rfl (by decide) rfl) <|
      .step (.wake (j := 3) rfl (.notifyCall rfl)) <|
      .step (.wait (i := 0) (by decide) (.check2T rfl rfl)) <|
      .step (.notify (.cas (j := 3) rfl)) <| .step (.notify (.nLockM (j := 3) rfl rfl)) <|
      .step (.notify (.notifyAll (j := 3) rfl)) <| .step (.notify (.nUnlockM (j := 3) rfl)) <|
      .step (.woken (j := 3) rfl rfl) .refl, rfl, ?_, rfl, rfl⟩
    intro j
    simp only [upd, init, Cv.init]
    constructor <;> split <;> simp
  obtain ⟨s', h1, h2⟩ := h
  exact ⟨s', h1.reach .init, h2⟩

/-! ### C57, C58 -/

/-- two threads outside of the runtime, waiting for the events 0 and 1; thread 0 has created the
context -/
def twoThreads : Cfg := ⟨2, fun i => i, fun _ => 1, false, fun i => i == 0⟩

/-- C57 is false: a thread which has not created the context does not wait at all, but throws, because
its thread-local function object `idle` is empty. -/
theorem C57_second_outside_thread_throws_false : ∃ s, Reach twoThreads s ∧
    s.state (twoThreads.ev 1) ≠ 0 ∧ s.pcs 1 = .threw :=
  ⟨_, .step (.step .init (.setWaker (i := 1) (by decide) rfl))
    (.noIdle (i := 1) (by decide) rfl (by decide) rfl), by decide, rfl⟩

/-- the same threads; the user has assigned the function object in thread 1, too -/
def twoWaiters : Cfg := ⟨2, fun i => i, fun _ => 1, false, fun _ => true⟩

/-- C57 is false even if the function object is set: two threads outside of the runtime share the
condition variable of waker 0. Both sleep, both events are reached and notified, then thread 0 consumes both notifications: thread 1
finds the flag set again and sleeps on, although its event is reached and nobody is going to wake it. -/
theorem C57_second_outside_thread_sleeps_on_false : ∃ s, Reach twoWaiters s ∧
    s.state (twoWaiters.ev 1) = 0 ∧ Quiet s ∧ s.pcs 0 = .done ∧ s.pcs 1 = .idle ∧
    s.cv.ws 1 = .asleep := by
  have h : ∃ s', Steps twoWaiters (init twoWaiters) s' ∧ s'.state (twoWaiters.ev 1) = 0 ∧ Quiet s' ∧
      s'.pcs 0 = .done ∧ s'.pcs 1 = .idle ∧ s'.cv.ws 1 = .asleep := by
    refine ⟨_,
      -- both go to sleep
      .step (.setWaker (i := 0) (by decide) rfl) <|
      .step (.notReached (i := 0) (by decide) rfl (by decide) rfl (.waitCall rfl)) <|
      .step (.wait (i := 0) (by decide) (.timeout rfl rfl)) <|
      .step (.wait (i := 0) (by decide) (.check2T rfl rfl)) <|
      .step (.wait (i := 0) (by decide) (.lockM rfl rfl)) <|
      .step (.wait (i := 0) (by decide) (.sleep rfl rfl)) <|
      .step (.setWaker (i := 1) (by decide) rfl) <|
      .step (.notReached (i := 1) (by decide) rfl (by decide) rfl (.waitCall rfl)) <|
      .step (.wait (i := 1) (by decide) (.timeout rfl rfl)) <|
      .step (.wait (i := 1) (by decide) (.check2T rfl rfl)) <|
      .step (.wait (i := 1) (by decide) (.lockM rfl rfl)) <|
      .step (.wait (i := 1) (by decide) (.sleep rfl rfl)) <|
      -- both events are reached
      .step (.dec (j := 0) (e := 0) rfl rfl (by decide)) <|
      .step (.dec (j := 1) (e := 1) rfl rfl (by decide)) <|
      .step (.readWaker (j := 0) (e := 0) (st := 0) rfl (by decide) rfl) <|
      .step (.readWaker (j := 1) (e := 1) (st := 0) rfl (by decide) rfl) <|
      .step (.wake (j := 0) rfl (.notifyCall rfl)) <|
      .step (.wake (j := 1) rfl (.notifyCall rfl)) <|
      .step (.notify (.cas (j := 0) rfl)) <| .step (.notify (.nLockM (j := 0) rfl rfl)) <|
      .step (.notify (.notifyAll (j := 0) rfl)) <| .step (.notify (.nUnlockM (j := 0) rfl)) <|
      .step (.woken (j := 0) rfl rfl) <|
      .step (.notify (.cas (j := 1) rfl)) <| .step (.notify (.nLockM (j := 1) rfl rfl)) <|
      .step (.notify (.notifyAll (j := 1) rfl)) <| .step (.notify (.nUnlockM (j := 1) rfl)) <|
      .step (.woken (j := 1) rfl rfl) <|
      -- thread 0 wakes up and returns
      .step (.wait (i := 0) (by decide) (.relock rfl rfl)) <|
      .step (.wait (i := 0) (by decide) (.predT rfl rfl)) <|
      .step (.wait (i := 0) (by decide) (.unlockM rfl)) <|
      .step (.wait (i := 0) (by decide) (.leave rfl rfl)) <|
      .step (.wait (i := 0) (by decide) (.store rfl)) <|
      .step (.back (i := 0) (by decide) rfl rfl) <|
      .step (.reached (i := 0) (by decide) rfl rfl) <|
      -- thread 1 wakes up and goes to sleep again
      .step (.wait (i := 1) (by decide) (.relock rfl rfl)) <|
      .step (.wait (i := 1) (by decide) (.sleep rfl rfl)) .refl, rfl, ?_, rfl, rfl, rfl⟩
    intro j
    simp only [upd, init, Cv.init]
    constructor <;> (repeat' split) <;> simp
  obtain ⟨s', h1, h2⟩ := h
  exact ⟨s', h1.reach .init, h2⟩

/-- C57, the provable part: whatever the other threads do, no thread returns before its event is
reached, and a thread throws only if its function object `idle` is not set. Missing: that every thread
returns after its event is reached (see the counterexamples above). -/
theorem C57_no_early_return_partial {cfg : Cfg} {s : State} (h : Reach cfg s) (i : Nat) :
    (s.pcs i = .done → s.state (cfg.ev i) = 0) ∧ (s.pcs i = .threw → cfg.idleSet i = false) := by
  refine ⟨C40_returns_only_when_reached h, ?_⟩
  induction h with
  | init => intro h; cases h
  | @step s s' l _ hs ih =>
    cases hs with
    | @setWaker _ k hi h | @notReached _ k _ hi h | @reached _ k hi h | @back _ k hi h =>
      by_cases e : i = k
      · subst e; simp
      · dsimp only; rw [upd_ne _ _ e]; exact ih
    | @noIdle _ k hi h hst hd =>
      by_cases e : i = k
      · subst e; exact fun _ => hd
      · dsimp only; rw [upd_ne _ _ e]; exact ih
    | _ => exact ih

/-- one thread outside of the runtime, and tasks which wait for the same event -/
def sharedEvent : Cfg := ⟨1, fun _ => 5, fun _ => 1, true, fun i => i == 0⟩

/-- C58 is false: an event remembers one waker only. The main thread sleeps until the event is reached;
then a task pauses on the same event and overwrites the waker, so the main thread is not woken. -/
theorem C58_waker_overwritten_false : ∃ s, Reach sharedEvent s ∧ s.state (sharedEvent.ev 0) = 0 ∧
    Quiet s ∧ s.pcs 0 = .idle ∧ s.cv.ws 0 = .asleep := by
  have h : ∃ s', Steps sharedEvent (init sharedEvent) s' ∧ s'.state (sharedEvent.ev 0) = 0 ∧
      Quiet s' ∧ s'.pcs 0 = .idle ∧ s'.cv.ws 0 = .asleep := by
    refine ⟨_, .step (.setWaker (i := 0) (by decide) rfl) <|
      .step (.notReached (i := 0) (by decide) rfl (by decide) rfl (.waitCall rfl)) <|
      .step (.wait (i := 0) (by decide) (.timeout rfl rfl)) <|
      .step (.wait (i := 0) (by decide) (.check2T rfl rfl)) <|
      .step (.wait (i := 0) (by decide) (.lockM rfl rfl)) <|
      .step (.wait (i := 0) (by decide) (.sleep rfl rfl)) <|
      .step (.foreign (e := 5) (k := 2) rfl (by decide)) <|
      .step (.dec (j := 3) (e := 5) rfl rfl (by decide)) <|
      .step (.noWaker (j := 3) (e := 5) (st := 0) rfl (by decide)) .refl, rfl, ?_, rfl, rfl⟩
    intro j
    simp only [upd, init, Cv.init]
    constructor <;> (repeat' split) <;> simp
  obtain ⟨s', h1, h2⟩ := h
  exact ⟨s', h1.reach .init, h2⟩

/-- C58, the provable part: the thread outside of the runtime is woken if nobody has registered at the
event after it. Missing: that it is woken if a task registers later (see the counterexample above). -/
theorem C58_last_registered_is_woken_partial {cfg : Cfg} (hn : cfg.nW = 1)
    (hd : cfg.idleSet 0 = true) {s : State} (h : Reach cfg s) (h0 : s.state (cfg.ev 0) = 0)
    (hq : Quiet s) (hwk : s.waker (cfg.ev 0) = some 0) :
    ∃ n s', n ≤ 8 ∧ Solo cfg 0 n s s' ∧ s'.pcs 0 = .done :=
  main_returns hn hd h h0 hq fun _ => hwk

/-- Non-trivial instance: a task has registered before the main thread, which sleeps. -/
example : ∃ s, Reach sharedEvent s ∧ s.waker 5 = some 0 ∧ s.cv.ws 0 = .asleep ∧ s.state 5 = 0 :=
  ⟨_, .step (.step (.step (.step (.step (.step (.step (.step .init
    (.foreign (e := 5) (k := 2) rfl (by decide))) (.setWaker (i := 0) (by decide) rfl))
    (.notReached (i := 0) (by decide) rfl (by decide) rfl (.waitCall rfl)))
    (.wait (i := 0) (by decide) (.timeout rfl rfl))) (.wait (i := 0) (by decide) (.check2T rfl rfl)))
    (.wait (i := 0) (by decide) (.lockM rfl rfl))) (.wait (i := 0) (by decide) (.sleep rfl rfl)))
    (.dec (j := 3) (e := 5) rfl rfl (by decide)), rfl, rfl, rfl⟩

end Yield

namespace Work

/-! ### C39 -/

theorem cv_reach {s : State} (h : Reach s) : Cv.Reach 1 s.cv := by
  induction h with
  | init => exact .init
  | wstep _ hs ih =>
    cases hs with
    | sleep _ _ hc | wait hc =>
      exact .step ih hc (by intro k hk; simp [Cv.Lbl.waiter?] at hk; omega)
    | _ => exact ih
  | estep _ hs ih =>
    cases hs with
    | spurious hc => exact .step ih hc (by intro k hk; simp [Cv.Lbl.waiter?] at hk; omega)
    | wake _ hc | notify hc | noise _ hc =>
      exact .step ih hc (by intro k hk; simp [Cv.Lbl.waiter?] at hk)
    | _ => exact ih

/-- a wake-up is stored or on its way -/
def Hot (s : State) : Prop :=
  s.cv.pend = true ∨ ∃ j, s.ps j = .pushed ∨ s.cv.ns j = .cas

/-- the worker has looked into the ready queue, and has not returned from `cv.wait()` since -/
def pastReady (s : State) : Prop :=
  match s.pc with
  | .popNew | .initing _ | .stealing | .initingStolen _ | .top => True
  | .waiting => s.cv.ws 0 ≠ .out
  | _ => False

/-- same for the emplacement queue -/
def pastNew (s : State) : Prop :=
  match s.pc with
  | .stealing | .initingStolen _ | .top => True
  | .waiting => s.cv.ws 0 ≠ .out
  | _ => False

structure Inv (s : State) : Prop where
  inCv : s.cv.ws 0 ≠ .out → s.pc = .waiting
  ready : pastReady s → s.ready = [] ∨ Hot s
  new : pastNew s → s.new = [] ∨ Hot s
  stop : s.stop = true → s.cv.ws 0 ≠ .out → Hot s

theorem or_erase {l : List Nat} {t : Nat} {p : Prop} (h : l = [] ∨ p) : l.erase t = [] ∨ p := by
  rcases h with h | h
  · left; rw [h]; rfl
  · exact .inr h

/-- steps that change the condition variable only -/
theorem Inv.cv {s : State} {cv' : Cv.State} (hi : Inv s)
    (hic : cv'.ws 0 ≠ .out → s.cv.ws 0 ≠ .out)
    (hot : cv'.ws 0 ≠ .out ∨ s.pc ≠ .waiting → Hot s → Hot { s with cv := cv' }) :
    Inv { s with cv := cv' } := by
  refine ⟨fun h => hi.inCv (hic h), ?_, ?_, fun hs hw => hot (.inl hw) (hi.stop hs (hic hw))⟩
  · intro h
    have h' : pastReady s := by
      unfold pastReady at h ⊢
      dsimp only at h
      cases hp : s.pc <;> simp_all
    rcases hi.ready h' with h1 | h1
    · exact .inl h1
    · refine .inr (hot ?_ h1)
      unfold pastReady at h
      dsimp only at h
      cases hp : s.pc <;> simp_all
  · intro h
    have h' : pastNew s := by
      unfold pastNew at h ⊢
      dsimp only at h
      cases hp : s.pc <;> simp_all
    rcases hi.new h' with h1 | h1
    · exact .inl h1
    · refine .inr (hot ?_ h1)
      unfold pastNew at h
      dsimp only at h
      cases hp : s.pc <;> simp_all

theorem inv {s : State} (h : Reach s) : Inv s := by
  induction h with
  | init => exact ⟨fun h => absurd rfl h, fun _ => .inl rfl, fun _ => .inl rfl, fun h => by cases h⟩
  | @wstep s s' _ hs ih =>
    have ic := ih.inCv
    have rd := ih.ready
    have nw := ih.new
    have sp := ih.stop
    have out : s.pc ≠ .waiting → s.cv.ws 0 = .out := by
      intro h
      cases hw : s.cv.ws 0 <;> first | rfl | exact absurd (ic (by rw [hw]; decide)) h
    cases hs with
    | sleep h hs hc =>
      obtain ⟨h1, h2, h3, h4⟩ := hc.waitCall_inv
      have hh : Hot s → Hot { s with pc := .waiting, cv := ‹Cv.State› } := by
        unfold Hot; dsimp only; rw [h1, h2]; exact id
      refine ⟨fun _ => rfl, ?_, ?_, fun h => by rw [hs] at h; cases h⟩
      · intro _
        exact (rd (by unfold pastReady; rw [h]; trivial)).imp id hh
      · intro _
        exact (nw (by unfold pastNew; rw [h]; trivial)).imp id hh
    | wait hc =>
      obtain ⟨h1, h2, h3⟩ := hc.wait_inv
      refine ih.cv (fun _ => h3) ?_
      intro ho hh
      have hw : _ ≠ Cv.WPc.out := ho.resolve_right (fun hne => hne (ic h3))
      unfold Hot at hh ⊢; dsimp only; rw [h1, h2 hw]; exact hh
    | stop h hs =>
      exact ⟨fun hw => absurd (out (by rw [h]; decide)) hw, fun h => False.elim h, fun h => False.elim h, sp⟩
    | woken h hc =>
      exact ⟨fun hw => absurd hc hw, fun h => False.elim h, fun h => False.elim h, sp⟩
    | popReady h hq | executed h | stealOwnReady h hq | stealReady h | initReady h | stolenReady h =>
      exact ⟨fun hw => absurd (out (by rw [h]; simp)) hw, fun h => False.elim h,
        fun h => False.elim h, sp⟩
    | noReady h hq =>
      exact ⟨fun hw => absurd (out (by rw [h]; decide)) hw, fun _ => .inl hq, fun h => False.elim h, sp⟩
    | popNew h hq =>
      exact ⟨fun hw => absurd (out (by rw [h]; decide)) hw,
        fun _ => rd (by unfold pastReady; rw [h]; trivial), fun h => False.elim h, sp⟩
    | noNew h hq =>
      exact ⟨fun hw => absurd (out (by rw [h]; decide)) hw,
        fun _ => rd (by unfold pastReady; rw [h]; trivial), fun _ => .inl hq, sp⟩
    | initBlocked h =>
      exact ⟨fun hw => absurd (out (by rw [h]; simp)) hw,
        fun _ => rd (by unfold pastReady; rw [h]; trivial), fun h => False.elim h, sp⟩
    | stealOwnNew h hq =>
      exact ⟨fun hw => absurd (out (by rw [h]; decide)) hw,
        fun _ => rd (by unfold pastReady; rw [h]; trivial),
        fun _ => or_erase (nw (by unfold pastNew; rw [h]; trivial)), sp⟩
    | stealNew h | stealNone h | stolenBlocked h =>
      exact ⟨fun hw => absurd (out (by rw [h]; simp)) hw,
        fun _ => rd (by unfold pastReady; rw [h]; trivial),
        fun _ => nw (by unfold pastNew; rw [h]; trivial), sp⟩
  | @estep s s' _ hs ih =>
    have ic := ih.inCv
    have rd := ih.ready
    have nw := ih.new
    have sp := ih.stop
    cases hs with
    | spurious hc =>
      obtain ⟨h1, h2, h3, h4⟩ := hc.spurious_inv
      refine ih.cv (fun _ => h3) ?_
      intro _ hh
      unfold Hot at hh ⊢; dsimp only; rw [h1, h2]; exact hh
    | @pushReady j t h hc =>
      have hot : Hot { s with ps := upd s.ps j .pushed, ready := t :: s.ready, pushed := t :: s.pushed } :=
        .inr ⟨j, .inl (upd_same _ _ _)⟩
      exact ⟨ic, fun _ => .inr hot, fun _ => .inr hot, fun _ _ => hot⟩
    | @pushNew j t h hc =>
      have hot : Hot { s with ps := upd s.ps j .pushed, new := t :: s.new, pushed := t :: s.pushed } :=
        .inr ⟨j, .inl (upd_same _ _ _)⟩
      exact ⟨ic, fun _ => .inr hot, fun _ => .inr hot, fun _ _ => hot⟩
    | @wake j cv' h hc =>
      obtain ⟨h1, h2, h3, h4⟩ := hc.notifyCall_inv
      have hot : Hot { s with ps := upd s.ps j .inCv, cv := cv' } :=
        .inr ⟨j, .inr (by simp [h1])⟩
      exact ⟨fun hw => ic (by rwa [h3] at hw), fun _ => .inr hot, fun _ => .inr hot, fun _ _ => hot⟩
    | @notify j cv' hc =>
      obtain ⟨h1, h2, h3⟩ := hc.notify_inv
      refine ih.cv (fun hw e => hw ((h3 0).2 e)) ?_
      intro _ hh
      rcases hh with hh | ⟨k, hk | hk⟩
      · exact .inl (h2 hh)
      · exact .inr ⟨k, .inl hk⟩
      · rcases h1 k hk with h | h
        · exact .inr ⟨k, .inr h⟩
        · exact .inl h
    | @wakeDone j h hc =>
      have hot : Hot s → Hot { s with ps := upd s.ps j .out } := by
        rintro (hh | ⟨k, hk⟩)
        · exact .inl hh
        · refine .inr ⟨k, ?_⟩
          by_cases e : k = j
          · subst e; rw [h, hc] at hk; simp at hk
          · dsimp only; rw [upd_ne _ _ e]; exact hk
      exact ⟨ic, fun hp => (rd hp).imp id hot, fun hp => (nw hp).imp id hot, fun a b => hot (sp a b)⟩
    | @noise j cv' h hc =>
      obtain ⟨h1, h2, h3, h4⟩ := hc.notifyCall_inv
      have hot : Hot { s with cv := cv' } := .inr ⟨j, .inr (by simp [h1])⟩
      exact ⟨fun hw => ic (by rwa [h3] at hw), fun _ => .inr hot, fun _ => .inr hot, fun _ _ => hot⟩
    | thiefReady hq => exact ⟨ic, fun hp => or_erase (rd hp), nw, sp⟩
    | thiefNew hq => exact ⟨ic, rd, fun hp => or_erase (nw hp), sp⟩
    | @stop j h hc =>
      have hot : Hot { s with stop := true, ps := upd s.ps j .pushed } :=
        .inr ⟨j, .inl (upd_same _ _ _)⟩
      exact ⟨ic, fun _ => .inr hot, fun _ => .inr hot, fun _ _ => hot⟩

/-- C39: if a worker is blocked in its condition variable while there is a task in one of its queues,
then some thread is just about to wake it: the producer has not called `wake()` yet, or it is inside
of `wake()` and has not called `notify_all` yet. -/
theorem C39_blocked_worker_will_be_woken {s : State} (h : Reach s) (hw : s.cv.ws 0 = .asleep)
    (hq : s.ready ≠ [] ∨ s.new ≠ []) :
    ∃ j, s.ps j = .pushed ∨ s.cv.ns j = .cas ∨ s.cv.ns j = .lockM ∨ s.cv.ns j = .notifyAll := by
  have hi := inv h
  have hne : s.cv.ws 0 ≠ .out := by rw [hw]; decide
  have hpc := hi.inCv hne
  have hot : Hot s := by
    rcases hq with hq | hq
    · exact (hi.ready (by unfold pastReady; rw [hpc]; exact hne)).resolve_left hq
    · exact (hi.new (by unfold pastNew; rw [hpc]; exact hne)).resolve_left hq
  rcases hot with hp | ⟨j, hj | hj⟩
  · obtain ⟨⟨j, hj⟩, _⟩ := Cv.C38_blocked_waiter_will_be_woken (cv_reach h) hp hw
    exact ⟨j, .inr (.inr hj)⟩
  · exact ⟨j, .inl hj⟩
  · exact ⟨j, .inr (.inl hj)⟩

/-- C39: when all producers have returned, a blocked worker has empty queues. -/
theorem C39_no_stranded_task {s : State} (h : Reach s) (hw : s.cv.ws 0 = .asleep) (hq : Quiet s) :
    s.ready = [] ∧ s.new = [] := by
  by_cases hr : s.ready = []
  · by_cases hn : s.new = []
    · exact ⟨hr, hn⟩
    · obtain ⟨j, hj⟩ := C39_blocked_worker_will_be_woken h hw (.inr hn)
      rw [(hq j).1, (hq j).2] at hj; simp at hj
  · obtain ⟨j, hj⟩ := C39_blocked_worker_will_be_woken h hw (.inl hr)
    rw [(hq j).1, (hq j).2] at hj; simp at hj

/-- An upper bound for the number of steps until the worker takes a task out of its queues. -/
def rank (s : State) : Nat :=
  match s.pc with
  | .popReady => 2
  | .executing _ => 3
  | .waiting => 4 + Cv.rank (s.cv.ws 0)
  | .top => 11
  | .initingStolen _ => 12
  | .stealing => 13
  | .popNew => if s.new = [] then 14 else 1
  | .initing _ => 15
  | .stopped => 0

theorem rank_le (s : State) : rank s ≤ 15 := by
  unfold rank
  cases s.pc <;> simp
  · cases s.cv.ws 0 <;> simp [Cv.rank]
  · split <;> omega

/-- the worker has taken task `t` out of one of its queues -/
def Looked (s s' : State) : Prop := ∃ t, (t ∈ s.ready ∨ t ∈ s.new) ∧ s'.looked = t :: s.looked

/-- When there is a task in the queues and nobody else runs, the worker can make a step, and each
step either takes one of the tasks or reduces the rank. -/
theorem progress {s : State} (h : Reach s) (hq : Quiet s) (hs : s.stop = false)
    (hpc : s.pc ≠ .stopped) (hne : s.ready ≠ [] ∨ s.new ≠ []) :
    (∃ s', WStep s s') ∧ ∀ s', WStep s s' → Looked s s' ∨
      (rank s' < rank s ∧ Quiet s' ∧ s'.stop = false ∧ s'.pc ≠ .stopped ∧ s'.ready = s.ready ∧
        s'.new = s.new ∧ s'.looked = s.looked) := by
  have hi := inv h
  have hr := cv_reach h
  have cool : Hot s → s.cv.pend = true := by
    rintro (hh | ⟨j, hj⟩)
    · exact hh
    · rw [(hq j).1, (hq j).2] at hj; simp at hj
  have pend : pastNew s → s.cv.pend = true := by
    intro hp
    have hp' : pastReady s := by unfold pastNew at hp; unfold pastReady; cases h : s.pc <;> simp_all
    rcases hne with hne | hne
    · exact cool ((hi.ready hp').resolve_left hne)
    · exact cool ((hi.new hp).resolve_left hne)
  have out : s.pc ≠ .waiting → s.cv.ws 0 = .out := by
    intro h
    cases hw : s.cv.ws 0 <;> first | rfl | exact absurd (hi.inCv (by rw [hw]; decide)) h
  constructor
  · cases hp : s.pc with
    | top => exact ⟨_, .sleep hp hs (.waitCall (out (by rw [hp]; decide)))⟩
    | waiting =>
      by_cases hw : s.cv.ws 0 = .out
      · exact ⟨_, .woken hp hw⟩
      · obtain ⟨c', h1, _⟩ := Cv.solo_step hr
          (pend (by unfold pastNew; rw [hp]; exact hw)) (fun j => (hq j).2) hw
        exact ⟨_, .wait h1⟩
    | popReady =>
      cases hl : s.ready with
      | nil => exact ⟨_, .noReady hp hl⟩
      | cons t l => exact ⟨_, .popReady (t := t) hp (by rw [hl]; simp)⟩
    | popNew =>
      cases hl : s.new with
      | nil => exact ⟨_, .noNew hp hl⟩
      | cons t l => exact ⟨_, .popNew (t := t) hp (by rw [hl]; simp)⟩
    | initing t => exact ⟨_, .initReady hp⟩
    | stealing => exact ⟨_, .stealNone hp⟩
    | initingStolen t => exact ⟨_, .stolenReady hp⟩
    | executing t => exact ⟨_, .executed hp⟩
    | stopped => exact absurd hp hpc
  · intro s' hstep
    cases hstep with
    | stop h hs' => rw [hs] at hs'; cases hs'
    | sleep h hs' hc =>
      obtain ⟨h1, h2, h3, h4⟩ := hc.waitCall_inv
      right
      refine ⟨?_, fun j => ⟨(hq j).1, by simp only [h1]; exact (hq j).2⟩, hs, by simp, rfl, rfl, rfl⟩
      simp [rank, h, h3, Cv.rank]
    | wait hc =>
      obtain ⟨h1, h2, h3⟩ := hc.wait_inv
      have hw := hi.inCv h3
      have hpd := pend (by unfold pastNew; rw [hw]; exact h3)
      have hrk := ((Cv.C38_waiter_progress hr hpd h3).1 _ hc).1
      right
      refine ⟨?_, fun j => ⟨(hq j).1, by simp only [h1]; exact (hq j).2⟩, hs, by rw [hw]; decide, rfl, rfl, rfl⟩
      simp only [rank, hw]
      omega
    | woken h hc =>
      right
      exact ⟨by simp [rank, h, hc, Cv.rank], hq, hs, by simp, rfl, rfl, rfl⟩
    | @popReady t h hm => exact .inl ⟨t, .inl hm, rfl⟩
    | noReady h he =>
      have hn : s.new ≠ [] := hne.resolve_left (fun h => h he)
      right
      exact ⟨by simp [rank, h, hn], hq, hs, by simp, rfl, rfl, rfl⟩
    | @popNew t h hm => exact .inl ⟨t, .inr hm, rfl⟩
    | noNew h he =>
      right
      exact ⟨by simp [rank, h, he], hq, hs, by simp, rfl, rfl, rfl⟩
    | initReady h =>
      right
      exact ⟨by simp [rank, h], hq, hs, by simp, rfl, rfl, rfl⟩
    | initBlocked h =>
      right
      refine ⟨?_, hq, hs, by simp, rfl, rfl, rfl⟩
      simp only [rank, h]
      split <;> omega
    | @stealOwnReady t h hm => exact .inl ⟨t, .inl hm, rfl⟩
    | stealReady h =>
      right
      exact ⟨by simp [rank, h], hq, hs, by simp, rfl, rfl, rfl⟩
    | @stealOwnNew t h hm => exact .inl ⟨t, .inr hm, rfl⟩
    | stealNew h =>
      right
      exact ⟨by simp [rank, h], hq, hs, by simp, rfl, rfl, rfl⟩
    | stealNone h =>
      right
      exact ⟨by simp [rank, h], hq, hs, by simp, rfl, rfl, rfl⟩
    | stolenReady h =>
      right
      exact ⟨by simp [rank, h], hq, hs, by simp, rfl, rfl, rfl⟩
    | stolenBlocked h =>
      right
      exact ⟨by simp [rank, h], hq, hs, by simp, rfl, rfl, rfl⟩
    | executed h =>
      right
      exact ⟨by simp [rank, h], hq, hs, by simp, rfl, rfl, rfl⟩

theorem looked_grows {n : Nat} {s s' : State} (h : Solo n s s') :
    s.looked.length ≤ s'.looked.length := by
  induction h with
  | refl => exact Nat.le_refl _
  | step hs _ ih => cases hs <;> simp at ih ⊢ <;> omega

/-- C39: a task in a queue of a worker is eventually looked at. When the producers have returned, and
the worker runs while the others do not, then after 16 steps, whatever they are, it has taken a task
out of its queues. -/
theorem C39_task_is_looked_at {s s' : State} {n : Nat} (h : Reach s) (hq : Quiet s)
    (hs : s.stop = false) (hpc : s.pc ≠ .stopped) (hne : s.ready ≠ [] ∨ s.new ≠ [])
    (hn : 16 ≤ n) (hr : Solo n s s') : s.looked.length < s'.looked.length := by
  have main : ∀ k n (s s' : State), rank s ≤ k → k < n → Reach s → Quiet s → s.stop = false →
      s.pc ≠ .stopped → (s.ready ≠ [] ∨ s.new ≠ []) → Solo n s s' →
      s.looked.length < s'.looked.length := by
    intro k
    induction k with
    | zero =>
      intro n s s' hrk hlt h hq hs hpc hne hr
      cases hr with
      | refl => omega
      | step hst hr =>
        rcases (progress h hq hs hpc hne).2 _ hst with ⟨t, _, hl⟩ | ⟨hl, _⟩
        · have := looked_grows hr; rw [hl] at this; simp at this; omega
        · omega
    | succ k ih =>
      intro n s s' hrk hlt h hq hs hpc hne hr
      cases hr with
      | refl => omega
      | @step m _ s1 _ hst hr =>
        rcases (progress h hq hs hpc hne).2 _ hst with ⟨t, _, hl⟩ | ⟨hl, h1, h2, h3, h4, h5, h6⟩
        · have := looked_grows hr; rw [hl] at this; simp at this; omega
        · have := ih m s1 s' (by omega) (by omega) (.wstep h hst) h1 h2 h3 (by rw [h4, h5]; exact hne) hr
          rw [h6] at this
          exact this
  exact main 15 n s s' (rank_le s) (by omega) h hq hs hpc hne hr

/-- C39: the worker does not get stuck on its way to the task. -/
theorem C39_worker_can_run {s : State} (h : Reach s) (hq : Quiet s) (hs : s.stop = false)
    (hpc : s.pc ≠ .stopped) (hne : s.ready ≠ [] ∨ s.new ≠ []) : ∃ s', WStep s s' :=
  (progress h hq hs hpc hne).1

/-- C39: no task is lost or duplicated by the queues: every task that was enqueued is still in one of
the queues or was taken out, as often as it was enqueued. -/
theorem C39_no_task_lost {s : State} (h : Reach s) (t : Nat) :
    s.pushed.count t = s.ready.count t + s.new.count t + s.looked.count t := by
  have take : ∀ {l : List Nat} {u : Nat}, u ∈ l →
      l.count t = (l.erase u).count t + if u = t then 1 else 0 := by
    intro l u hu
    have := (List.perm_cons_erase hu).count_eq t
    rw [this, List.count_cons]
    simp
  induction h with
  | init => rfl
  | wstep _ hs ih =>
    cases hs with
    | popReady _ hq | popNew _ hq | stealOwnReady _ hq | stealOwnNew _ hq =>
      have := take hq
      simp only [List.count_cons, beq_iff_eq]
      omega
    | _ => exact ih
  | estep _ hs ih =>
    cases hs with
    | pushReady u | pushNew u => simp only [List.count_cons]; omega
    | thiefReady hq | thiefNew hq =>
      have := take hq
      simp only [List.count_cons, beq_iff_eq]
      omega
    | _ => exact ih

/-- Non-trivial instance: the worker has found both queues empty and is on its way to sleep when a
task is emplaced and the producer returns. -/
example : ∃ s, Reach s ∧ Quiet s ∧ s.stop = false ∧ s.pc = .waiting ∧ s.cv.ws 0 = .lockM ∧
    s.new = [42] := by
  refine ⟨_, .estep (.estep (.estep (.estep (.estep (.estep (.estep (.wstep (.wstep (.wstep .init
    (.sleep rfl rfl (.waitCall rfl))) (.wait (.timeout rfl rfl))) (.wait (.check2T rfl rfl)))
    (.pushNew (j := 1) 42 rfl rfl)) (.wake (j := 1) rfl (.notifyCall rfl))) (.notify (.cas (j := 1) rfl)))
    (.notify (.nLockM (j := 1) rfl rfl))) (.notify (.notifyAll (j := 1) rfl)))
    (.notify (.nUnlockM (j := 1) rfl))) (.wakeDone (j := 1) rfl rfl), ?_, rfl, rfl, rfl, rfl⟩
  intro j
  simp only [upd, init, Cv.init]
  constructor <;> (repeat' split) <;> simp

/-- Non-trivial instance: a sleeping worker with a task in the ready queue whose producer is about to
wake it. -/
example : ∃ s, Reach s ∧ s.cv.ws 0 = .asleep ∧ s.ready ≠ [] := by
  refine ⟨_, .estep (.wstep (.wstep (.wstep (.wstep (.wstep .init
    (.sleep rfl rfl (.waitCall rfl))) (.wait (.timeout rfl rfl))) (.wait (.check2T rfl rfl)))
    (.wait (.lockM rfl rfl))) (.wait (.sleep rfl rfl))) (.pushReady (j := 1) 42 rfl rfl), rfl, by simp⟩

end Work

end RG
