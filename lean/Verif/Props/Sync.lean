import Verif.Model.Sync
/-
Properties C37 (spin lock) and C38 (condition variable).
-/
namespace RG

namespace Spin

/-! ### C37 -/

theorem inv {s : State} (h : Reach s) :
    (s.locked = true → ∃ t, s.pcs t = .crit) ∧
    (∀ t, s.pcs t = .crit → s.locked = true) ∧
    (∀ t u, s.pcs t = .crit → s.pcs u = .crit → t = u) := by
  induction h with
  | init => exact ⟨fun h => Bool.noConfusion h, fun t h => (by cases h), fun t u h => (by cases h)⟩
  | @step s s' t _ hs ih =>
    obtain ⟨h1, h2, h3⟩ := ih
    cases hs with
    | enter h | casFail h | spinDone h =>
      have key : ∀ p, p ≠ Pc.crit → ∀ u, upd s.pcs t p u = .crit ↔ s.pcs u = .crit := by
        intro p hp u
        by_cases e : u = t
        · subst e; simp [hp, h]
        · rw [upd_ne _ _ e]
      refine ⟨?_, ?_, ?_⟩
      · intro hl; obtain ⟨u, hu⟩ := h1 hl; exact ⟨u, (key _ (by decide) u).2 hu⟩
      · intro u hu; exact h2 u ((key _ (by decide) u).1 hu)
      · intro u v hu hv
        exact h3 u v ((key _ (by decide) u).1 hu) ((key _ (by decide) v).1 hv)
    | casOk h hl =>
      have nobody : ∀ u, s.pcs u ≠ .crit := fun u hu => by rw [h2 u hu] at hl; cases hl
      refine ⟨fun _ => ⟨t, by simp⟩, fun _ _ => rfl, ?_⟩
      intro u v hu hv
      rcases upd_eq hu with ⟨e1, _⟩ | ⟨_, hu⟩
      · rcases upd_eq hv with ⟨e2, _⟩ | ⟨_, hv⟩
        · rw [e1, e2]
        · exact absurd hv (nobody v)
      · exact absurd hu (nobody u)
    | spinOn h hl => exact ⟨h1, h2, h3⟩
    | unlock h =>
      have nobody : ∀ u, upd s.pcs t .out u ≠ .crit := by
        intro u hu
        rcases upd_eq hu with ⟨_, e⟩ | ⟨hne, hu⟩
        · cases e
        · exact hne (h3 u t hu h)
      exact ⟨fun h => Bool.noConfusion h, fun u hu => absurd hu (nobody u),
        fun u _ hu _ => absurd hu (nobody u)⟩

/-- C37, mutual exclusion: two threads between the return of `lock()` and the call of `unlock()` are
the same thread. -/
theorem C37_mutual_exclusion {s : State} (h : Reach s) (t u : Nat)
    (ht : s.pcs t = .crit) (hu : s.pcs u = .crit) : t = u := (inv h).2.2 t u ht hu

/-- C37, a free lock can be taken: if no thread is inside the critical section then a thread inside
`lock()` gets the lock after at most two steps of its own, if it is not disturbed. -/
theorem C37_free_lock_can_be_taken {s : State} (h : Reach s) (t : Nat)
    (hfree : ∀ u, s.pcs u ≠ .crit) (ht : s.pcs t = .cas ∨ s.pcs t = .spin) :
    ∃ n s', n ≤ 2 ∧ Solo t n s s' ∧ s'.pcs t = .crit := by
  have hl : s.locked = false := by
    cases hl : s.locked
    · rfl
    · obtain ⟨u, hu⟩ := (inv h).1 hl; exact absurd hu (hfree u)
  rcases ht with ht | ht
  · exact ⟨1, _, by omega, .step (.casOk ht hl) .refl, by simp⟩
  · exact ⟨2, _, by omega, .step (.spinDone ht hl) (.step (.casOk (by simp) hl) .refl), by simp⟩

/-- C37: the lock is only ever reported as taken while some thread is inside the critical section,
so a thread spins only because of another thread. -/
theorem C37_spinning_has_a_reason {s : State} (h : Reach s) (t : Nat)
    (ht : s.pcs t = .cas ∨ s.pcs t = .spin) (hl : s.locked = true) :
    ∃ u, u ≠ t ∧ s.pcs u = .crit := by
  obtain ⟨u, hu⟩ := (inv h).1 hl
  refine ⟨u, ?_, hu⟩
  intro e; subst e; rw [hu] at ht; rcases ht with ht | ht <;> cases ht

/-- Non-trivial instance: thread 0 is inside, threads 1 and 2 compete; 1 spins. -/
example : ∃ s, Reach s ∧ s.pcs 0 = .crit ∧ s.pcs 1 = .spin ∧ s.pcs 2 = .cas := by
  refine ⟨_, .step (t := 1) (.step (t := 2) (.step (t := 1) (.step (t := 0) (.step (t := 0) .init
    (.enter rfl)) (.casOk rfl rfl)) (.enter (by simp [upd, init]))) (.enter (by simp [upd, init])))
    (.casFail (by simp [upd])), ?_, ?_, ?_⟩ <;> simp [upd]

end Spin

namespace Cv

/-! ### C38 -/

structure Inv (s : State) : Prop where
  flagPend : s.flag = !s.pend
  store : s.ws 0 = .store → s.flag = false
  unl : s.ws 0 = .unlockM → s.flag = false
  sleep : s.ws 0 = .asleep → s.flag = false → ∃ j, s.ns j = .lockM ∨ s.ns j = .notifyAll
  mutW : ∀ i, s.mutex = some (.waiter i) → i = 0 ∧ (s.ws 0 = .pred ∨ s.ws 0 = .unlockM)
  mutN : ∀ j, s.mutex = some (.notifier j) → s.ns j = .notifyAll ∨ s.ns j = .unlockM

theorem Inv.init : Inv Cv.init :=
  ⟨rfl, fun h => (by cases h), fun h => (by cases h), fun h => (by cases h),
    fun i h => (by cases h), fun j h => (by cases h)⟩

theorem wakeUp_eq {p q : WPc} (h : wakeUp p = q) (hq : q ≠ .waking) : p = q ∧ q ≠ .asleep := by
  cases p <;> simp_all [wakeUp] <;> (subst h; simp)

theorem Inv.step {l : Lbl} {s s' : State} (hi : Inv s) (h : Step l s s')
    (hl : ∀ i, l.waiter? = some i → i = 0) : Inv s' := by
  obtain ⟨f, st, un, sl, mw, mn⟩ := hi
  cases h with
  | @waitCall _ i h =>
    have e : i = 0 := hl i rfl
    subst e
    refine ⟨f, ?_, ?_, ?_, ?_, mn⟩ <;> simp_all
  | again h hf => exact ⟨f, st, un, sl, mw, mn⟩
  | @timeout _ i h hf =>
    have e : i = 0 := hl i rfl
    subst e
    refine ⟨f, ?_, ?_, ?_, ?_, mn⟩ <;> simp_all
  | @leave _ i h hf =>
    have e : i = 0 := hl i rfl
    subst e
    refine ⟨f, ?_, ?_, ?_, ?_, mn⟩ <;> simp_all
  | @check2T _ i h hf =>
    have e : i = 0 := hl i rfl
    subst e
    refine ⟨f, ?_, ?_, ?_, ?_, mn⟩ <;> simp_all
  | @check2F _ i h hf =>
    have e : i = 0 := hl i rfl
    subst e
    refine ⟨f, ?_, ?_, ?_, ?_, mn⟩ <;> simp_all
  | @lockM _ i h hm =>
    have e : i = 0 := hl i rfl
    subst e
    refine ⟨f, ?_, ?_, ?_, ?_, ?_⟩ <;> simp_all
  | @sleep _ i h hf =>
    have e : i = 0 := hl i rfl
    subst e
    refine ⟨f, ?_, ?_, ?_, ?_, ?_⟩ <;> simp_all
  | @predT _ i h hf =>
    have e : i = 0 := hl i rfl
    subst e
    refine ⟨f, ?_, ?_, ?_, ?_, mn⟩ <;> simp_all
  | @unlockM _ i h =>
    have e : i = 0 := hl i rfl
    subst e
    refine ⟨f, ?_, ?_, ?_, ?_, ?_⟩ <;> simp_all
  | @relock _ i h hm =>
    have e : i = 0 := hl i rfl
    subst e
    refine ⟨f, ?_, ?_, ?_, ?_, ?_⟩ <;> simp_all
  | @spurious _ i h =>
    have e : i = 0 := hl i rfl
    subst e
    refine ⟨f, ?_, ?_, ?_, ?_, mn⟩ <;> simp_all
  | @store _ i h =>
    have e : i = 0 := hl i rfl
    subst e
    refine ⟨?_, ?_, ?_, ?_, ?_, mn⟩ <;> simp_all
  | @notifyCall _ j h =>
    refine ⟨f, st, un, ?_, mw, ?_⟩
    · intro h1 h2
      obtain ⟨k, hk⟩ := sl h1 h2
      refine ⟨k, ?_⟩
      dsimp only
      rw [upd_ne]
      · exact hk
      · intro e; subst e; rw [h] at hk; simp at hk
    · intro k hk
      have := mn k hk
      dsimp only
      rw [upd_ne]
      · exact this
      · intro e; subst e; rw [h] at this; simp at this
  | @cas _ j h =>
    refine ⟨by simp, fun _ => rfl, fun _ => rfl, ?_, mw, ?_⟩
    · intro _ _; exact ⟨j, by simp⟩
    · intro k hk
      have := mn k hk
      dsimp only
      rw [upd_ne]
      · exact this
      · intro e; subst e; rw [h] at this; simp at this
  | @nLockM _ j h hm =>
    refine ⟨f, st, un, ?_, ?_, ?_⟩
    · intro _ _; exact ⟨j, by simp⟩
    · intro i hi; simp at hi
    · intro k hk
      simp only [Option.some.injEq, Owner.notifier.injEq] at hk
      subst hk; simp
  | @notifyAll _ j h =>
    refine ⟨f, ?_, ?_, ?_, ?_, ?_⟩
    · intro hw; exact st (wakeUp_eq hw (by decide)).1
    · intro hw; exact un (wakeUp_eq hw (by decide)).1
    · intro hw; exact absurd rfl (wakeUp_eq hw (by decide)).2
    · intro i hi
      have := mw i hi
      refine ⟨this.1, ?_⟩
      rcases this.2 with h | h
      · left; show wakeUp _ = _; rw [h]; rfl
      · right; show wakeUp _ = _; rw [h]; rfl
    · intro k hk
      by_cases e : k = j
      · subst e; simp
      · dsimp only; rw [upd_ne _ _ e]; exact mn k hk
  | @nUnlockM _ j h =>
    refine ⟨f, st, un, ?_, ?_, ?_⟩
    · intro h1 h2
      obtain ⟨k, hk⟩ := sl h1 h2
      refine ⟨k, ?_⟩
      dsimp only
      rw [upd_ne]
      · exact hk
      · intro e; subst e; rw [h] at hk; simp at hk
    · intro i hi; cases hi
    · intro i hi; cases hi

theorem Reach.inv {s : State} (h : Reach 1 s) : Inv s := by
  induction h with
  | init => exact Inv.init
  | step _ hs hl ih => exact ih.step hs (fun i hi => by have := hl i hi; omega)

/-- C38: if a notification has been given since the last return of `wait()`, and the waiter is
blocked, then some notifier is still on its way to wake it (and is able to do so: it either holds the
mutex or waits for a mutex which the blocked waiter does not hold). -/
theorem C38_blocked_waiter_will_be_woken {s : State} (h : Reach 1 s) (hp : s.pend = true)
    (hw : s.ws 0 = .asleep) :
    (∃ j, s.ns j = .lockM ∨ s.ns j = .notifyAll) ∧ (∀ i, s.mutex ≠ some (.waiter i)) := by
  have hi := h.inv
  have hf : s.flag = false := by rw [hi.flagPend, hp]; rfl
  refine ⟨hi.sleep hw hf, ?_⟩
  intro i hm
  have := (hi.mutW i hm).2
  rw [hw] at this
  simp at this

/-- C38: a waiter does not sleep when a notification has been given and all calls of `notify()` have
returned. -/
theorem C38_no_lost_wakeup {s : State} (h : Reach 1 s) (hp : s.pend = true)
    (hq : ∀ j, s.ns j = .out) : s.ws 0 ≠ .asleep := by
  intro hw
  obtain ⟨⟨j, hj⟩, _⟩ := C38_blocked_waiter_will_be_woken h hp hw
  rw [hq j] at hj
  simp at hj

/-- The number of steps to the return of `wait()`. -/
def rank : WPc → Nat
  | .out => 0
  | .store => 1
  | .check => 2
  | .check2 => 3
  | .unlockM => 3
  | .pred => 4
  | .lockM => 5
  | .waking => 5
  | .asleep => 6

/-- C38: after a notification, every step of the waiter brings it closer to the return of `wait()`,
and it can only be hindered by a notifier holding the mutex (or by not having been woken yet). It
returns after at most 5 steps of its own. -/
theorem C38_waiter_progress {s : State} (h : Reach 1 s) (hp : s.pend = true) (hw : s.ws 0 ≠ .out) :
    (∀ s', Step (.wait 0) s s' →
      rank (s'.ws 0) < rank (s.ws 0) ∧ (s'.ws 0 = .out → s'.rets 0 = s.rets 0 + 1)) ∧
    ((∃ s', Step (.wait 0) s s') ∨ s.ws 0 = .asleep ∨
      ∃ j, s.mutex = some (.notifier j) ∧ (s.ns j = .notifyAll ∨ s.ns j = .unlockM)) := by
  have hi := h.inv
  have hf : s.flag = false := by rw [hi.flagPend, hp]; rfl
  refine ⟨?_, ?_⟩
  · intro s' hs
    cases hs <;> simp_all [rank]
  · have hmut : s.ws 0 = .lockM ∨ s.ws 0 = .waking → s.mutex = none ∨
        ∃ j, s.mutex = some (.notifier j) ∧ (s.ns j = .notifyAll ∨ s.ns j = .unlockM) := by
      intro h
      match hm : s.mutex with
      | none => exact .inl rfl
      | some (.notifier j) => exact .inr ⟨j, rfl, hi.mutN j hm⟩
      | some (.waiter i) =>
        have := (hi.mutW i hm).2
        rcases h with h | h <;> rw [h] at this <;> simp at this
    cases hpc : s.ws 0 with
    | out => exact absurd hpc hw
    | check => exact .inl ⟨_, .leave hpc hf⟩
    | check2 => exact .inl ⟨_, .check2F hpc hf⟩
    | lockM =>
      rcases hmut (.inl hpc) with hm | hm
      · exact .inl ⟨_, .lockM hpc hm⟩
      · exact .inr (.inr hm)
    | pred => exact .inl ⟨_, .predT hpc hf⟩
    | asleep => exact .inr (.inl rfl)
    | waking =>
      rcases hmut (.inr hpc) with hm | hm
      · exact .inl ⟨_, .relock hpc hm⟩
      · exact .inr (.inr hm)
    | unlockM => exact .inl ⟨_, .unlockM hpc⟩
    | store => exact .inl ⟨_, .store hpc⟩

/-- One step of the waiter after a notification, if no notifier is active. -/
theorem solo_step {s : State} (h : Reach 1 s) (hp : s.pend = true)
    (hq : ∀ j, s.ns j = .out) (hw : s.ws 0 ≠ .out) : ∃ s', Step (.wait 0) s s' ∧
      rank (s'.ws 0) < rank (s.ws 0) ∧ (s'.ws 0 = .out → s'.rets 0 = s.rets 0 + 1) ∧ s'.ns = s.ns ∧
      (s'.ws 0 ≠ .out → s'.pend = true ∧ s'.rets 0 = s.rets 0) := by
  obtain ⟨h1, h2⟩ := C38_waiter_progress h hp hw
  rcases h2 with ⟨s', hs⟩ | h2 | ⟨j, _, hj⟩
  · refine ⟨s', hs, (h1 s' hs).1, (h1 s' hs).2, ?_⟩
    cases hs <;> simp_all
  · exact absurd h2 (C38_no_lost_wakeup h hp hq)
  · rw [hq j] at hj; simp at hj

/-- C38: after a notification, when all calls of `notify()` have returned, a waiter inside `wait()`
returns from it within 5 own steps. -/
theorem C38_wait_returns {s : State} (h : Reach 1 s) (hp : s.pend = true)
    (hq : ∀ j, s.ns j = .out) (hw : s.ws 0 ≠ .out) :
    ∃ ls s', ls.length ≤ 5 ∧ (∀ l ∈ ls, l = .wait 0) ∧ Run ls s s' ∧ s'.ws 0 = .out ∧
      s'.rets 0 = s.rets 0 + 1 := by
  have main : ∀ n s, rank (s.ws 0) ≤ n → Reach 1 s → s.pend = true → (∀ j, s.ns j = .out) →
      s.ws 0 ≠ .out → ∃ ls s', ls.length ≤ n ∧ (∀ l ∈ ls, l = .wait 0) ∧ Run ls s s' ∧
        s'.ws 0 = .out ∧ s'.rets 0 = s.rets 0 + 1 := by
    intro n
    induction n with
    | zero =>
      intro s hr _ _ _ hw
      exfalso
      apply hw
      cases h : s.ws 0 <;> rw [h] at hr <;> simp [rank] at hr ⊢
    | succ n ih =>
      intro s hr h hp hq hw
      obtain ⟨s', hs, hlt, hret, hns, hpend⟩ := solo_step h hp hq hw
      by_cases ho : s'.ws 0 = .out
      · exact ⟨[.wait 0], s', by simp, by simp, .cons hs .nil, ho, hret ho⟩
      · obtain ⟨ls, s'', h1, h2, h3, h4, h5⟩ := ih s' (by omega)
          (.step h hs (by intro i hi; simp [Lbl.waiter?] at hi; omega)) (hpend ho).1
          (by rw [hns]; exact hq) ho
        refine ⟨.wait 0 :: ls, s'', by simp; omega, ?_, .cons hs h3, h4, ?_⟩
        · intro l hl
          rcases List.mem_cons.1 hl with hl | hl
          · exact hl
          · exact h2 l hl
        · rw [h5, (hpend ho).2]
  refine main 5 s ?_ h hp hq hw
  have := C38_no_lost_wakeup h hp hq
  cases hpc : s.ws 0 <;> simp_all [rank]

/-- C38: `wait()` does not return without a notification: the step with which it returns happens in a
state in which a notification was given after the previous return. -/
theorem C38_no_return_without_notify {s s' : State} {l : Lbl} (h : Reach 1 s) (hs : Step l s s')
    (hl : ∀ i, l.waiter? = some i → i < 1) (hr : s'.rets 0 ≠ s.rets 0) :
    s.pend = true ∧ s'.pend = false := by
  have hi := h.inv
  cases hs with
  | @store _ i hst =>
    have e : i = 0 := by have := hl i rfl; omega
    subst e
    have := hi.store hst
    have hf := hi.flagPend
    refine ⟨?_, rfl⟩
    rw [this] at hf
    simpa using hf.symm
  | _ => exact absurd rfl hr

/-- The ghost `pend` means what it is supposed to mean: it becomes true exactly with the compare-exchange
of a `notify()`, and false exactly with the return of a `wait()`. -/
theorem C38_pend_changes {s s' : State} {l : Lbl} (hs : Step l s s') :
    (s.pend = false → s'.pend = true → ∃ j, l = .notify j ∧ s.ns j = .cas) ∧
    (∀ j, l = .notify j → s.ns j = .cas → s'.pend = true) ∧
    (s.pend = true → s'.pend = false → ∃ i, s'.rets i = s.rets i + 1) := by
  cases hs with
  | @cas _ j h =>
    refine ⟨fun _ _ => ⟨j, rfl, h⟩, fun _ _ _ => rfl, fun _ h => ?_⟩
    cases h
  | @store _ i h =>
    refine ⟨fun _ h => ?_, fun _ h => ?_, fun _ _ => ⟨i, by simp⟩⟩
    · cases h
    · cases h
  | _ =>
    refine ⟨fun h1 h2 => ?_, fun j h1 h2 => ?_, fun h1 h2 => ?_⟩
    · simp_all
    · simp_all
    · simp_all

theorem Run.reach {nW : Nat} {ls : List Lbl} {s s' : State} (hr : Run ls s s') (h : Reach nW s)
    (hl : ∀ l ∈ ls, ∀ i, l.waiter? = some i → i < nW) : Reach nW s' := by
  induction hr with
  | nil => exact h
  | cons hs _ ih =>
    exact ih (.step h hs (hl _ (List.mem_cons_self ..)))
      (fun l hl' => hl l (List.mem_cons_of_mem _ hl'))

/-- Non-trivial instance: the waiter sleeps, a notifier has set the flag but not yet called
`notify_all`. -/
example : ∃ s, Reach 1 s ∧ s.pend = true ∧ s.ws 0 = .asleep ∧ s.ns 7 = .lockM := by
  have h : ∃ s', Run [.waitCall 0, .wait 0, .wait 0, .notifyCall 7, .wait 0, .wait 0, .notify 7]
      init s' ∧ s'.pend = true ∧ s'.ws 0 = .asleep ∧ s'.ns 7 = .lockM :=
    ⟨_, .cons (.waitCall rfl) <| .cons (.timeout rfl rfl) <| .cons (.check2T rfl rfl) <|
      .cons (.notifyCall rfl) <| .cons (.lockM rfl rfl) <| .cons (.sleep rfl rfl) <|
      .cons (.cas rfl) .nil, rfl, rfl, rfl⟩
  obtain ⟨s', hr, h1, h2, h3⟩ := h
  exact ⟨s', hr.reach .init (by simp [Lbl.waiter?]), h1, h2, h3⟩

/-- Non-trivial instance: notified between the first check and falling asleep, and all notifiers have
returned. -/
example : ∃ s, Reach 1 s ∧ s.pend = true ∧ s.ws 0 = .lockM ∧ ∀ j, s.ns j = .out := by
  have h : ∃ s', Run [.waitCall 0, .wait 0, .wait 0, .notifyCall 7, .notify 7, .notify 7, .notify 7,
      .notify 7] init s' ∧ s'.pend = true ∧ s'.ws 0 = .lockM ∧ ∀ j, s'.ns j = .out :=
    ⟨_, .cons (.waitCall rfl) <| .cons (.timeout rfl rfl) <| .cons (.check2T rfl rfl) <|
      .cons (.notifyCall rfl) <| .cons (.cas rfl) <| .cons (.nLockM rfl rfl) <|
      .cons (.notifyAll rfl) <| .cons (.nUnlockM rfl) .nil, rfl, rfl, by
        intro j; simp only [upd, init]; split <;> rfl⟩
  obtain ⟨s', hr, h1, h2, h3⟩ := h
  exact ⟨s', hr.reach .init (by simp [Lbl.waiter?]), h1, h2, h3⟩

end Cv

end RG
