import Verif.Props.AtomicList
/-
Property C66: iterations over the list of chunks and appends end; erased chunks are not visited any more.
-/
set_option linter.unusedVariables false
namespace RG.AL

variable {s s' : State}

/-- Steps of an iteration from a chunk with `n - 1` appended before it. -/
def bound (n : Nat) : Nat := n * n + 4 * n

theorem bound_succ (n : Nat) : bound (n + 1) = bound n + 2 * n + 5 := by
  unfold bound
  have : (n + 1) * (n + 1) = n * n + 2 * n + 1 := by
    rw [Nat.add_mul, Nat.mul_add]; omega
  omega

theorem bound_mono {m n : Nat} (h : m ≤ n) : bound m ≤ bound n := by
  induction n with
  | zero => have : m = 0 := by omega
            subst this; exact Nat.le_refl _
  | succ n ih =>
    by_cases e : m = n + 1
    · subst e; exact Nat.le_refl _
    · have := ih (by omega); rw [bound_succ]; omega

/-- 1 + rank, 0 for a null pointer -/
def height (s : State) : Option Nat → Nat
  | none => 0
  | some c => match s.rank c with
    | none => 0
    | some r => r + 1

theorem height_some {c r : Nat} (h : s.rank c = some r) : height s (some c) = r + 1 := by
  simp only [height, h]

/-- A bound for the number of steps until the iteration of a thread has reached the end. -/
def left (s : State) (t : Nat) : Nat :=
  match s.pcs t with
  | .at c => bound (height s (some c))
  | .skipLoad c => bound (height s (some c)) - 1
  | .skipTest c p => bound (height s (some c) - 1) + 3 + 2 * height s p
  | .skipNext c q => bound (height s (some c) - 1) + 2 + 2 * height s (some q)
  | .skipStore c _ => bound (height s (some c) - 1) + 2
  | .advance c => bound (height s (some c) - 1) + 1
  | _ => 0

/-- In an iteration, not at its end. -/
def Iterating (s : State) (t : Nat) : Prop := ∃ c, cur (s.pcs t) = some c

theorem older_height (hi : Inv s) {c r : Nat} {p : Option Nat} (hr : s.rank c = some r)
    (ho : Older s c p) : height s p ≤ r := by
  have := ho r hr
  cases p with
  | none => simp [height]
  | some q =>
    obtain ⟨rq, h1, h2, _⟩ := this
    rw [height_some h1]; omega

theorem height_ext (he : Ext s s') {p : Option Nat} (h : ∀ c, p = some c → ∃ r, s.rank c = some r) :
    height s' p = height s p := by
  cases p with
  | none => rfl
  | some c =>
    obtain ⟨r, hr⟩ := h c rfl
    rw [height_some hr, height_some (he.rank c r hr)]

theorem height_ranked {c r : Nat} (hr : s.rank c = some r) {p : Option Nat} (ho : Older s c p) :
    ∀ x, p = some x → ∃ r, s.rank x = some r := by
  intro x hx
  subst hx
  obtain ⟨rq, h1, _⟩ := ho r hr
  exact ⟨rq, h1⟩

/-- Steps that do not move this thread. -/
theorem left_other {t u : Nat} (hr : Reach s) (hs : Step u s s') (hpc : s'.pcs t = s.pcs t) :
    left s' t = left s t := by
  have hi := inv hr
  have he := hi.ext hs
  have hh : ∀ c, cur (s.pcs t) = some c → ∀ x, (some c : Option Nat) = some x → ∃ r, s.rank x = some r :=
    fun c hc x hx => by cases hx; exact hi.curRank t c hc
  unfold left
  rw [hpc]
  cases hp : s.pcs t with
  | «at» c | skipLoad c | skipStore c p | advance c =>
    simp only [height_ext he (hh c (by rw [hp]; rfl))]
  | skipTest c p =>
    obtain ⟨r, hcr⟩ := hi.curRank t c (by rw [hp]; rfl)
    simp only [height_ext he (hh c (by rw [hp]; rfl)),
      height_ext he (height_ranked hcr (hi.test t c p (.inl hp)))]
  | skipNext c q =>
    obtain ⟨r, hcr⟩ := hi.curRank t c (by rw [hp]; rfl)
    simp only [height_ext he (hh c (by rw [hp]; rfl)),
      height_ext he (height_ranked hcr (hi.skip t c q hp).1)]
  | _ => rfl

theorem left_own {t : Nat} (hr : Reach s) (hs : Step t s s') (hit : Iterating s t)
    (hp' : s'.pcs t ≠ .idle) :
    left s' t < left s t ∨ s'.pcs t = s.pcs t := by
  have hi := inv hr
  obtain ⟨c, hc⟩ := hit
  obtain ⟨r, hcr⟩ := hi.curRank t c hc
  have h0 := height_some hcr
  cases hs with
  | alloc h | allocFirst h | rbegin h | copy h | rbeginEnd h => rw [h] at hc; cases hc
  | load h | store h | casOk h | casFail h | firstOk h | firstFail h => rw [h] at hc; cases hc
  | dropEnd h => rw [h] at hc; cases hc
  | drop h => exact absurd (upd_same _ _ _) hp'
  | erase h => exact .inr rfl
  | next h =>
    rw [h] at hc; cases hc
    left
    simp only [left, h, upd_same]
    show bound (height s (some c)) - 1 < bound (height s (some c))
    rw [h0, bound_succ]; omega
  | skipLoad h =>
    rw [h] at hc; cases hc
    left
    simp only [left, h, upd_same]
    show bound (height s (some c) - 1) + 3 + 2 * height s (s.prev c) < bound (height s (some c)) - 1
    have := older_height hi hcr (hi.older c)
    rw [h0, Nat.add_sub_cancel, bound_succ]; omega
  | @testDeleted _ q h hdel =>
    rw [h] at hc; cases hc
    left
    simp only [left, h, upd_same]
    show bound (height s (some c) - 1) + 2 + 2 * height s (some q) <
      bound (height s (some c) - 1) + 3 + 2 * height s (some q)
    omega
  | testNot h _ | testNull h =>
    rw [h] at hc; cases hc
    left
    simp only [left, h, upd_same]
    show bound (height s (some c) - 1) + 2 < bound (height s (some c) - 1) + 3 + 2 * height s _
    omega
  | @skipNext _ q h =>
    rw [h] at hc; cases hc
    left
    simp only [left, h, upd_same]
    show bound (height s (some c) - 1) + 3 + 2 * height s (s.prev q) <
      bound (height s (some c) - 1) + 2 + 2 * height s (some q)
    obtain ⟨rq, hq, _⟩ := (hi.skip t c q h).1 r hcr
    have := older_height hi hq (hi.older q)
    rw [height_some hq]; omega
  | skipStore h =>
    rw [h] at hc; cases hc
    left
    simp only [left, h, upd_same]
    show bound (height s (some c) - 1) + 1 < bound (height s (some c) - 1) + 2
    omega
  | @advance _ q h hq =>
    rw [h] at hc; cases hc
    left
    simp only [left, h, upd_same]
    show bound (height s (some q)) < bound (height s (some c) - 1) + 1
    have := older_height hi hcr (hi.older c)
    rw [hq] at this
    rw [h0, Nat.add_sub_cancel]
    have := bound_mono this
    omega
  | advanceEnd h _ =>
    rw [h] at hc; cases hc
    left
    simp only [left, h, upd_same]
    omega

/-- A step of thread `t` in its iteration: not the deletion of a chunk, and the iterator is not dropped. -/
def ItStep (t : Nat) (s s' : State) : Prop :=
  Step t s s' ∧ s'.pcs t ≠ s.pcs t ∧ s'.pcs t ≠ .idle

/-- Executions in which thread `t` makes `n` steps of its iteration, and other threads do anything; thread
`t` itself may delete chunks meanwhile. -/
inductive Runs (t : Nat) : Nat → State → State → Prop
  | refl {s : State} : Runs t 0 s s
  | own {n} {s s' s'' : State} : Iterating s t → ItStep t s s' → Runs t n s' s'' → Runs t (n + 1) s s''
  | other {n u} {s s' s'' : State} : s'.pcs t = s.pcs t → Step u s s' → Runs t n s' s'' → Runs t n s s''

/-- **C66** An iteration is never stuck: as long as it is not at the end, the thread can go on. -/
theorem C66_iteration_not_stuck {t : Nat} (h : Reach s) (hit : Iterating s t) :
    ∃ s', ItStep t s s' := by
  obtain ⟨c, hc⟩ := hit
  cases hp : s.pcs t with
  | «at» c' => exact ⟨_, .next hp, by simp [hp], by simp⟩
  | skipLoad c' => exact ⟨_, .skipLoad hp, by simp [hp], by simp⟩
  | skipTest c' p =>
    cases p with
    | none => exact ⟨_, .testNull hp, by simp [hp], by simp⟩
    | some q =>
      cases hd : s.deleted q with
      | true => exact ⟨_, .testDeleted hp hd, by simp [hp], by simp⟩
      | false => exact ⟨_, .testNot hp hd, by simp [hp], by simp⟩
  | skipNext c' q => exact ⟨_, .skipNext hp, by simp [hp], by simp⟩
  | skipStore c' p => exact ⟨_, .skipStore hp, by simp [hp], by simp⟩
  | advance c' =>
    cases hq : s.prev c' with
    | none => exact ⟨_, .advanceEnd hp hq, by simp [hp], by simp⟩
    | some q => exact ⟨_, .advance hp hq, by simp [hp], by simp⟩
  | _ => rw [hp] at hc; cases hc

theorem runs_left {t n : Nat} (h : Reach s) (hr : Runs t n s s') : n ≤ left s t := by
  induction hr with
  | refl => omega
  | own hit hst _ ih =>
    have := ih (h.step hst.1)
    rcases left_own h hst.1 hit hst.2.2 with h1 | h1
    · omega
    · exact absurd h1 hst.2.1
  | other hpc hst _ ih =>
    have := ih (h.step hst)
    rwa [left_other h hst hpc] at this

/-- **C66** An iteration ends: from chunk `c` on, with `r` chunks appended before it, the thread makes at
most `(r + 1)² + 4 (r + 1)` steps, whatever other threads do, be it appending or deleting chunks. -/
theorem C66_iteration_ends {t n c r : Nat} (h : Reach s) (hp : s.pcs t = .at c) (hc : s.rank c = some r)
    (hr : Runs t n s s') : n ≤ (r + 1) * (r + 1) + 4 * (r + 1) := by
  have := runs_left h hr
  simp only [left, hp, height_some hc] at this
  exact this

/-! ### appends -/

/-- Executions in which only thread `t` runs. -/
inductive Alone (t : Nat) : Nat → State → State → Prop
  | refl {s : State} : Alone t 0 s s
  | step {n} {s s' s'' : State} : Step t s s' → Alone t n s' s'' → Alone t (n + 1) s s''

/-- **C66** A thread that appends a chunk has done so after at most 5 of its own steps if no other thread
interferes, in whatever state the list is. -/
theorem C66_append_completes {t n : Nat} (hn : own (s.pcs t) = some n) (hf : s.pcs t ≠ .firstCas n) :
    ∃ k s', k ≤ 5 ∧ Alone t k s s' ∧ s'.pcs t = .idle ∧ s'.head = some n := by
  have fromStore : ∀ s : State, s.pcs t = .appStore n s.head →
      ∃ s', Alone t 2 s s' ∧ s'.pcs t = .idle ∧ s'.head = some n := by
    intro s hp
    refine ⟨_, .step (.store hp) (.step (.casOk (n := n) (o := s.head) ?_ ?_) .refl), ?_, ?_⟩
    · exact upd_same _ _ _
    · rfl
    · exact upd_same _ _ _
    · rfl
  have fromLoad : ∀ s : State, s.pcs t = .appLoad n →
      ∃ s', Alone t 3 s s' ∧ s'.pcs t = .idle ∧ s'.head = some n := by
    intro s hp
    obtain ⟨s', h1, h2⟩ := fromStore { s with pcs := upd s.pcs t (.appStore n s.head) } (upd_same _ _ _)
    exact ⟨s', .step (.load hp) h1, h2⟩
  have fromCas : ∀ (s : State) o, s.pcs t = .appCas n o →
      ∃ k s', k ≤ 4 ∧ Alone t k s s' ∧ s'.pcs t = .idle ∧ s'.head = some n := by
    intro s o hp
    by_cases hc : s.head = o
    · exact ⟨1, _, by omega, .step (.casOk hp hc) .refl, upd_same _ _ _, rfl⟩
    · obtain ⟨s', h1, h2⟩ := fromLoad { s with pcs := upd s.pcs t (.appLoad n) } (upd_same _ _ _)
      exact ⟨4, s', by omega, .step (.casFail hp hc) h1, h2⟩
  cases hp : s.pcs t with
  | appLoad m =>
    rw [hp] at hn; cases hn
    obtain ⟨s', h1, h2⟩ := fromLoad s hp
    exact ⟨3, s', by omega, h1, h2⟩
  | appStore m o =>
    rw [hp] at hn; cases hn
    obtain ⟨k, s', h1, h2, h3⟩ := fromCas
      { s with prev := upd s.prev n o, pcs := upd s.pcs t (.appCas n o) } o (upd_same _ _ _)
    exact ⟨k + 1, s', by omega, .step (.store hp) h2, h3⟩
  | appCas m o => rw [hp] at hn; cases hn; obtain ⟨k, s', h1, h2⟩ := fromCas s o hp; exact ⟨k, s', by omega, h2⟩
  | firstCas m => rw [hp] at hn; cases hn; exact absurd hp hf
  | _ => rw [hp] at hn; cases hn

/-- The number of steps until the append of a thread has succeeded, if no other thread appends. -/
def appLeft (s : State) (t : Nat) : Nat :=
  match s.pcs t with
  | .appLoad _ => 3
  | .appStore _ o => if s.head = o then 2 else 5
  | .appCas _ o => if s.head = o then 1 else 4
  | .firstCas _ => 1
  | _ => 0

theorem appLeft_own {t : Nat} (hs : Step t s s') (ha : (own (s.pcs t)).isSome) (hne : s'.pcs t ≠ s.pcs t) :
    appLeft s' t < appLeft s t := by
  cases hs <;> rename_i h <;> simp_all [appLeft, own, upd_same] <;> grind

theorem appLeft_other {t u : Nat} (hs : Step u s s') (hpc : s'.pcs t = s.pcs t) :
    appLeft s' t ≤ appLeft s t + 3 * (s'.len - s.len) := by
  have hl : s'.head = s.head ∨ s'.len = s.len + 1 := by cases hs <;> simp
  unfold appLeft
  rw [hpc]
  rcases hl with hl | hl
  · rw [hl]; omega
  · rw [hl]
    cases s.pcs t <;> simp only [] <;> (try split) <;> (try split) <;> omega

theorem step_len {u : Nat} (hs : Step u s s') : s.len ≤ s'.len := by cases hs <;> simp

/-- Executions in which thread `t` makes `n` steps of its append, and other threads do anything. -/
inductive AppRuns (t : Nat) : Nat → State → State → Prop
  | refl {s : State} : AppRuns t 0 s s
  | own {n} {s s' s'' : State} : (own (s.pcs t)).isSome → s'.pcs t ≠ s.pcs t → Step t s s' → AppRuns t n s' s'' →
      AppRuns t (n + 1) s s''
  | other {n u} {s s' s'' : State} : s'.pcs t = s.pcs t → Step u s s' → AppRuns t n s' s'' → AppRuns t n s s''

theorem appRuns_len {t n : Nat} (h : AppRuns t n s s') : s.len ≤ s'.len := by
  induction h with
  | refl => exact Nat.le_refl _
  | own _ _ h _ ih | other _ h _ ih => exact Nat.le_trans (step_len h) ih

theorem appRuns_left {t n : Nat} (h : AppRuns t n s s') : n ≤ appLeft s t + 3 * (s'.len - s.len) := by
  induction h with
  | refl => omega
  | own ha hne h hr ih =>
    have := appLeft_own h ha hne
    have := step_len h
    have := appRuns_len hr
    omega
  | other hpc h hr ih =>
    have := appLeft_other h hpc
    have := step_len h
    have := appRuns_len hr
    omega

/-- **C66** Appends are lock-free: if a thread has made `n` steps to append a chunk, at least `n / 3 - 1`
chunks have been appended to the list meanwhile. -/
theorem C66_append_lock_free {t n c : Nat} (hp : s.pcs t = .appLoad c) (hr : AppRuns t n s s') :
    n ≤ 3 * (s'.len - s.len + 1) := by
  have := appRuns_left hr
  simp only [appLeft, hp] at this
  omega

/-! ### erased chunks -/

/-- Executions in which only thread `t` runs, and goes on with its iteration. -/
inductive ItAlone (t : Nat) (s : State) : State → Prop
  | refl : ItAlone t s s
  | step {s' s'' : State} : ItAlone t s s' → ItStep t s' s'' → ItAlone t s s''

/-- what a thread that runs alone knows about the chunk it will go to -/
structure Fresh (s : State) (t : Nat) : Prop where
  own : own (s.pcs t) = none
  idle : s.pcs t ≠ .idle
  store : ∀ c q, s.pcs t = .skipStore c (some q) → s.deleted q = false
  adv : ∀ c q, s.pcs t = .advance c → s.prev c = some q → s.deleted q = false

theorem fresh_step {t : Nat} (hf : Fresh s t) (hs : ItStep t s s') :
    Fresh s' t ∧ s'.deleted = s.deleted ∧
      (s'.vis t = s.vis t ∨ ∃ q, s'.vis t = q :: s.vis t ∧ s.deleted q = false) := by
  obtain ⟨h1, h2, h3, h4⟩ := hf
  obtain ⟨hs, hne, hni⟩ := hs
  cases hs with
  | alloc h | allocFirst h | rbegin h | copy h | rbeginEnd h => exact absurd h h2
  | load h | store h | casOk h | casFail h | firstOk h | firstFail h => rw [h] at h1; cases h1
  | erase h => exact absurd rfl hne
  | drop h | dropEnd h => exact absurd (upd_same _ _ _) hni
  | next h | skipLoad h | testDeleted h hd | testNot h hd | testNull h | skipNext h | skipStore h | advanceEnd h hq =>
    refine ⟨⟨by simp [upd_same, RG.AL.own], hni, ?_, ?_⟩, rfl, .inl rfl⟩ <;> simp [upd_same] <;> grind [upd]
  | advance h hq =>
    refine ⟨⟨by simp [upd_same, RG.AL.own], hni, ?_, ?_⟩, rfl, .inr ⟨_, upd_same _ _ _, h4 _ _ h hq⟩⟩ <;> simp [upd_same]

/-- **C66 (partial)** Erased chunks are not visited any more by an iteration that goes on while no other
thread is active: all chunks it visits after the one it is at are not erased. Missing: with other threads
active this is false, see `C66_erased_visited_false`. -/
theorem C66_erased_skipped_partial {t c : Nat} (hp : s.pcs t = .at c) (hr : ItAlone t s s') :
    ∃ new, s'.vis t = new ++ s.vis t ∧ ∀ q ∈ new, s.deleted q = false := by
  have : Fresh s' t ∧ s'.deleted = s.deleted ∧ ∃ new, s'.vis t = new ++ s.vis t ∧ ∀ q ∈ new, s.deleted q = false := by
    induction hr with
    | refl =>
      exact ⟨⟨by rw [hp]; rfl, by simp [hp], by simp [hp], by simp [hp]⟩, rfl, [], rfl, by simp⟩
    | step _ hs ih =>
      obtain ⟨h1, h2, new, h3, h4⟩ := ih
      obtain ⟨k1, k2, k3⟩ := fresh_step h1 hs
      refine ⟨k1, k2.trans h2, ?_⟩
      rcases k3 with k3 | ⟨q, k3, k4⟩
      · exact ⟨new, k3.trans h3, h4⟩
      · refine ⟨q :: new, by rw [k3, h3]; rfl, ?_⟩
        intro x hx
        rcases List.mem_cons.1 hx with rfl | hx
        · rw [← h2]; exact k4
        · exact h4 x hx
  exact this.2.2

/-! ### a run in which an erased chunk is visited -/

/-- **C66 (false in general)** An iteration that begins after chunk 0 has been erased visits it nevertheless:
thread 3 has tested chunk 0 before it was erased, and stores it as the predecessor of chunk 1 (83) after
thread 2, which skips it, has stored that there is none, and before thread 2 reads the pointer again (243). -/
theorem C66_erased_visited_false : ∃ s s', Reach s ∧ Steps s s' ∧ s.pcs 2 = .idle ∧ s.deleted 0 = true ∧
    s.head = some 1 ∧ s.prev 1 = some 0 ∧ s'.pcs 2 = .at 0 ∧ s'.vis 2 = [0, 1] := by
  refine ⟨_, _, .step (.step (.step (.step (.step (.step (.step (.step (.step (.step (.step (.step (.step .init
    (.alloc (t := 0) rfl)) (.load (t := 0) rfl)) (.store (t := 0) rfl)) (.casOk (t := 0) rfl rfl))
    (.alloc (t := 0) rfl)) (.load (t := 0) rfl)) (.store (t := 0) rfl)) (.casOk (t := 0) rfl rfl))
    (.rbegin (t := 3) rfl rfl)) (.next (t := 3) rfl)) (.skipLoad (t := 3) rfl)) (.testNot (t := 3) rfl rfl))
    (.erase (t := 0) (c := 0) (r := 0) rfl),
    (.step (.step (.step (.step (.step (.step (.step (.step (.step .refl
      (.rbegin (t := 2) rfl rfl)) (.next (t := 2) rfl)) (.skipLoad (t := 2) rfl)) (.testDeleted (t := 2) rfl rfl))
      (.skipNext (t := 2) rfl)) (.testNull (t := 2) rfl)) (.skipStore (t := 2) rfl)) (.skipStore (t := 3) rfl))
      (.advance (t := 2) rfl rfl)), rfl, rfl, rfl, rfl, rfl, rfl⟩

/-- **C66 (false in general)** The chunk at the head is visited though it has been erased, even by one thread
alone: `rbegin` (256-259) does not test it. -/
theorem C66_erased_head_visited_false : ∃ s s', Reach s ∧ Step 0 s s' ∧ s.pcs 0 = .idle ∧ s.deleted 0 = true ∧
    s'.pcs 0 = .at 0 ∧ s'.vis 0 = [0] :=
  ⟨_, _, .step (.step (.step (.step (.step .init
    (.alloc (t := 0) rfl)) (.load (t := 0) rfl)) (.store (t := 0) rfl)) (.casOk (t := 0) rfl rfl))
    (.erase (t := 0) (c := 0) (r := 0) rfl), .rbegin (t := 0) rfl rfl, rfl, rfl, rfl, rfl⟩

/-- A run that meets the hypotheses of `C66_iteration_ends`: thread 2 goes from chunk 1 to the end in 7 steps
past the erased chunk 0, while thread 0 appends a chunk. -/
example : ∃ s s', Reach s ∧ s.pcs 2 = .at 1 ∧ s.rank 1 = some 1 ∧ Runs 2 7 s s' ∧ s'.pcs 2 = .atEnd ∧
    s'.vis 2 = [1] ∧ s'.len = 3 := by
  refine ⟨_, _, .step (.step (.step (.step (.step (.step (.step (.step (.step (.step .init
    (.alloc (t := 0) rfl)) (.load (t := 0) rfl)) (.store (t := 0) rfl)) (.casOk (t := 0) rfl rfl))
    (.alloc (t := 0) rfl)) (.load (t := 0) rfl)) (.store (t := 0) rfl)) (.casOk (t := 0) rfl rfl))
    (.rbegin (t := 2) rfl rfl)) (.erase (t := 0) (c := 0) (r := 0) rfl), rfl, rfl,
    .own ⟨1, rfl⟩ ⟨.next rfl, by simp [upd], by simp [upd]⟩ <|
    .own ⟨1, rfl⟩ ⟨.skipLoad rfl, by simp [upd], by simp [upd]⟩ <|
    .other (by rfl) (.alloc (t := 0) rfl) <| .other (by rfl) (.load (t := 0) rfl) <|
    .own ⟨1, rfl⟩ ⟨.testDeleted rfl rfl, by simp [upd], by simp [upd]⟩ <|
    .own ⟨1, rfl⟩ ⟨.skipNext rfl, by simp [upd], by simp [upd]⟩ <|
    .other (by rfl) (.store (t := 0) rfl) <| .other (by rfl) (.casOk (t := 0) rfl rfl) <|
    .own ⟨1, rfl⟩ ⟨.testNull rfl, by simp [upd], by simp [upd]⟩ <|
    .own ⟨1, rfl⟩ ⟨.skipStore rfl, by simp [upd], by simp [upd]⟩ <|
    .own ⟨1, rfl⟩ ⟨.advanceEnd rfl rfl, by simp [upd], by simp [upd]⟩ .refl, rfl, rfl, rfl⟩

/-- A run that meets the hypotheses of `C66_append_lock_free`: thread 1 needs 6 steps because thread 0 appends
a chunk between its load and its compare-and-swap. -/
example : ∃ s s', Reach s ∧ s.pcs 1 = .appLoad 0 ∧ AppRuns 1 6 s s' ∧ s'.pcs 1 = .idle ∧ s'.len = s.len + 2 := by
  refine ⟨_, _, .step .init (.alloc (t := 1) rfl), rfl,
    .own rfl (by simp [upd, init]) (.load rfl) <|
    .other (by rfl) (.alloc (t := 0) rfl) <| .other (by rfl) (.load (t := 0) rfl) <|
    .other (by rfl) (.store (t := 0) rfl) <| .other (by rfl) (.casOk (t := 0) rfl rfl) <|
    .own rfl (by simp [upd, init]) (.store rfl) <|
    .own rfl (by simp [upd, init]) (.casFail rfl (by simp [init])) <|
    .own rfl (by simp [upd, init]) (.load rfl) <|
    .own rfl (by simp [upd, init]) (.store rfl) <|
    .own rfl (by simp [upd, init]) (.casOk rfl rfl) .refl, rfl, rfl⟩

/-- A run that meets the hypotheses of `C66_erased_skipped_partial`: of the chunks 0, 1, 2 the middle one has been
erased, and the iteration goes from 2 to 0. -/
example : ∃ s s', Reach s ∧ s.pcs 2 = .at 2 ∧ s.deleted 1 = true ∧ ItAlone 2 s s' ∧ s'.vis 2 = [0, 2] := by
  refine ⟨_, _, .step (.step (.step (.step (.step (.step (.step (.step (.step (.step (.step (.step (.step (.step .init
    (.alloc (t := 0) rfl)) (.load (t := 0) rfl)) (.store (t := 0) rfl)) (.casOk (t := 0) rfl rfl))
    (.alloc (t := 0) rfl)) (.load (t := 0) rfl)) (.store (t := 0) rfl)) (.casOk (t := 0) rfl rfl))
    (.alloc (t := 0) rfl)) (.load (t := 0) rfl)) (.store (t := 0) rfl)) (.casOk (t := 0) rfl rfl))
    (.rbegin (t := 2) rfl rfl)) (.erase (t := 0) (c := 1) (r := 1) rfl), rfl, rfl,
    .step (.step (.step (.step (.step (.step (.step .refl
      ⟨.next rfl, by simp [upd], by simp [upd]⟩) ⟨.skipLoad rfl, by simp [upd], by simp [upd]⟩)
      ⟨.testDeleted rfl rfl, by simp [upd], by simp [upd]⟩) ⟨.skipNext rfl, by simp [upd], by simp [upd]⟩)
      ⟨.testNot rfl rfl, by simp [upd], by simp [upd]⟩) ⟨.skipStore rfl, by simp [upd], by simp [upd]⟩)
      ⟨.advance rfl rfl, by simp [upd], by simp [upd]⟩, rfl⟩

end RG.AL
