import Verif.Lemmas.WeakLock
/-
C94: The spin lock with the memory orders of its code protects data as if memory were sequentially consistent.
-/
namespace RG.WL
variable {own m0 : Nat → Nat} {s : State}

/-- C94: no two threads hold a lock at the same time, although a thread may read old values of it and stores may be placed
in the middle of its modification order. -/
theorem C94_mutual_exclusion (h : Reach code own m0 s) {t u l : Nat} (ht : s.held t l = true) (hu : s.held u l = true) :
    t = u := by
  obtain ⟨_, m, h1, h2, rfl, -⟩ := (Inv.reach h).held ht
  exact (((Inv.reach h).taken l m (by rw [h1]; simp) h2).2.1 u hu).symm

/-- C94: there is no data race on the data that a lock protects: every access happens after all conflicting accesses before
it. -/
theorem C94_no_race (h : Reach code own m0 s) : s.race = false := (Inv.reach h).norace

/-- C94: everything that has happened before an earlier `unlock()` happens before the return of `lock()`: the thread that
holds the lock knows all of it. -/
theorem C94_handover (h : Reach code own m0 s) {t l : Nat} (ht : s.held t l = true) {m : Msg} (hm : m ∈ s.lk l)
    (hv : m.val = false) : s.Knows t m.by' m.time ∧ ∀ u n, n ≤ m.view u → s.Knows t u n := by
  obtain ⟨_, m', h1, h2, rfl, -⟩ := (Inv.reach h).held ht
  have h3 := (Inv.reach h).before l m' (by rw [h1]; simp)
  rw [h2, if_pos rfl] at h3
  obtain ⟨h4, h5⟩ := h3 m hm hv
  exact ⟨h4, fun u n hn => Nat.le_trans hn (h5 u)⟩

/-- C94: what threads observe (the order in which they get and release locks, and the values that they read) is an
execution of the machine in which every lock has a holder and memory is a function from objects to values: reads return
the last value written. So whatever has been proved with that machine holds with the memory of C++. -/
theorem C94_sequentially_consistent (h : Reach code own m0 s) : ∃ c, SC.run own ⟨fun _ => none, m0⟩ s.trace = some c ∧
    (∀ l t, c.holder l = some t ↔ s.held t l = true) ∧ ∀ x w, (s.hist x).getLast? = some w → w.val = c.mem x :=
  (Inv.reach h).sc

/-- C94: If nobody holds a lock, then a thread in `lock()` can take it, with at most two steps of its own. -/
theorem C94_free_lock_can_be_taken (h : Reach code own m0 s) {t l : Nat} (hf : ∀ u, s.held u l = false)
    (ht : s.pc t = .cas l ∨ s.pc t = .spin l) : ∃ n s', n ≤ 2 ∧ Steps code own t n s s' ∧ s'.held t l = true := by
  cases hl : (s.lk l).getLast? with
  | none => exact absurd (List.getLast?_eq_none_iff.1 hl) ((Inv.reach h).some' l)
  | some m =>
    obtain ⟨pre, e⟩ := append_of_last hl
    have hv : m.val = false := by
      cases hv : m.val with
      | false => rfl
      | true =>
        have := ((Inv.reach h).taken l m hl hv).1
        rw [hf] at this
        cases this
    rcases ht with ht | ht
    · exact ⟨1, _, by omega, .step .refl (.casOk (post := []) ht e hv (by simp) (by simp)), by simp⟩
    · exact ⟨2, _, by omega, .step (.step .refl (.spinDone (post := []) ht e hv (by simp)))
        (.casOk (post := []) (by simp) e hv (by simp) (by simp)), by simp⟩

/-! ### Examples -/

/-- the first value of a lock -/
def first : Msg := ⟨false, 0, 0, fun _ => 0, false⟩

/-- Thread 0 takes the lock, writes 7, releases; thread 1 takes it and reads. -/
theorem two_threads (o : Orders) : ∃ s, Reach o (fun _ => 0) (fun _ => 5) s ∧ s.held 1 0 = true ∧
    s.trace = [.lock 0 0, .write 0 3 7, .unlock 0 0, .lock 1 0, .read 1 3 7] ∧ s.race = !(o.acq && o.rel) := by
  refine ⟨_, .step (.step (.step (.step (.step (.step (.step .init
    (.enter (t := 0) (l := 0) rfl rfl))
    (.casOk (t := 0) (l := 0) (pre := []) (m := first) (post := []) rfl rfl rfl (by simp) (by simp)))
    (.write (t := 0) (x := 3) 7 rfl rfl))
    (.unlock (t := 0) (l := 0) (pre := [first, ⟨true, 0, 1, fun _ => 0, true⟩]) (post := []) rfl rfl rfl (by simp) (by simp)))
    (.enter (t := 1) (l := 0) rfl rfl))
    (.casOk (t := 1) (l := 0) (pre := [first, ⟨true, 0, 1, fun _ => 0, true⟩]) (post := []) rfl rfl rfl (by simp) (by simp)))
    (.read (t := 1) (x := 3) (pre := [⟨5, 0, 0⟩]) (w := ⟨7, 0, 2⟩) (post := []) rfl rfl ?_ (by simp)), ?_, ?_, ?_⟩
  all_goals
    obtain ⟨a, b⟩ := o
    cases a <;> cases b <;> rfl

example : ∃ s, Reach code (fun _ => 0) (fun _ => 5) s ∧ s.held 1 0 = true ∧
    s.trace = [.lock 0 0, .write 0 3 7, .unlock 0 0, .lock 1 0, .read 1 3 7] ∧ s.race = false := two_threads code

/-- a thread in `lock()` whose compare-exchange has failed, nobody holds the lock -/
example : ∃ s, Reach code (fun _ => 0) (fun _ => 5) s ∧ (∀ u, s.held u 4 = false) ∧ s.pc 2 = .spin 4 :=
  ⟨_, .step (.step .init (.enter (t := 2) (l := 4) rfl rfl)) (.casFail (t := 2) (l := 4) (by simp)), fun _ => rfl, by simp⟩

/-- C94: both orders are needed: with a weaker order of the compare-exchange or of the store there are data races. -/
theorem C94_orders_needed (o : Orders) (ho : o ≠ code) : ∃ s, Reach o (fun _ => 0) (fun _ => 5) s ∧ s.race = true := by
  obtain ⟨s, h1, -, -, h2⟩ := two_threads o
  refine ⟨s, h1, ?_⟩
  obtain ⟨a, b⟩ := o
  cases a <;> cases b <;> first | exact h2 | exact absurd rfl ho

end RG.WL
