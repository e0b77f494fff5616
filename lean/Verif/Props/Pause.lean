import Verif.Model.Pause
/-
Property C23: a task that waits for an event continues after the event.
-/
set_option linter.unusedVariables false
namespace RG.Pause

variable {a : Bool} {s s' : State}

/-- before the event is reached the counter of a paused task depends only on the position of its worker -/
structure Before (s : State) : Prop where
  npc : s.npc = .idle
  check : ∀ t, s.pcs t = .check ∨ s.pcs t = .push ∨ s.pcs t = .incr → s.pre t = 1
  up : ∀ t, s.pcs t = .up → s.pre t = 2
  notify : ∀ t, s.pcs t = .notify → s.pre t = 3
  quiet : ∀ t, s.handed t = 0 ∧ s.resumed t = 0

theorem before (h : Reach a s) (hr : s.reached = false) : Before s := by
  induction h with
  | init => exact ⟨rfl, by simp [init], by simp [init], by simp [init], by simp [init]⟩
  | @step s s' _ hs ih =>
    have hr' : s.reached = false := by cases hs <;> first | exact hr | cases hr
    obtain ⟨h1, h2, h3, h4, h5⟩ := ih hr'
    constructor <;> cases hs <;> first | exact h1 | exact h5 | grind [upd]

/-- C23: a task is not resumed before the event has been reached; in all interleavings. -/
theorem C23_not_before_event_partial (h : Reach a s) {t : Nat} (hr : 0 < s.resumed t) : s.reached = true := by
  cases hh : s.reached with
  | true => rfl
  | false => rw [((before h hh).quiet t).2] at hr; omega

structure Inv (s : State) : Prop where
  npc : s.npc = .idle ↔ s.reached = false
  nodup : s.fol.Nodup
  remNodup : ∀ rem, s.npc = .loop rem → rem.Nodup ∧ ∀ t ∈ rem, t ∈ s.fol
  early : ∀ t, s.pcs t = .run ∨ s.pcs t = .set ∨ s.pcs t = .check ∨ s.pcs t = .push →
    t ∉ s.fol ∧ s.handed t = 0 ∧ s.resumed t = 0
  check : ∀ t, s.pcs t = .check ∨ s.pcs t = .push ∨ s.pcs t = .incr → s.pre t = 1
  late : ∀ t, s.pcs t = .push ∨ s.pcs t = .incr → s.reached = false
  incr : ∀ t, s.pcs t = .incr → t ∈ s.fol ∧ s.handed t = 0 ∧ s.resumed t = 0
  folPc : ∀ t, t ∈ s.fol → s.reached = true → s.pcs t = .left
  up : ∀ t, s.pcs t = .up → s.handed t = 0 ∧ s.resumed t = 0 ∧ s.pre t = if t ∈ s.fol then 2 else 1
  notify : ∀ t, s.pcs t = .notify → s.handed t = 0 ∧ s.resumed t = 0 ∧ s.pre t = if t ∈ s.fol then 3 else 2
  noFol : ∀ t, s.pcs t = .up ∨ s.pcs t = .notify ∨ s.pcs t = .left → t ∉ s.fol → s.reached = true
  wait : ∀ t, s.pcs t = .left → t ∈ s.fol → s.npc = .idle ∨ s.npc = .begin →
    s.pre t = 2 ∧ s.handed t = 0 ∧ s.resumed t = 0
  wait' : ∀ t rem, s.npc = .loop rem → t ∈ rem → s.pre t = 2 ∧ s.handed t = 0 ∧ s.resumed t = 0
  done : ∀ t rem, s.pcs t = .left → s.npc = .loop rem → t ∉ rem →
    s.handed t + s.resumed t = 1 ∧ s.pre t = s.handed t
  done' : ∀ t, s.pcs t = .left → t ∉ s.fol → s.handed t + s.resumed t = 1 ∧ s.pre t = s.handed t

set_option maxHeartbeats 1600000 in
theorem inv (h : Reach true s) : Inv s := by
  induction h with
  | init => constructor <;> simp [init]
  | @step s s' _ hs ih =>
    obtain ⟨h1, h2, h3, h4, h5, h6, h7, h8, h9, h10, h11, h12, h12', h13, h14⟩ := ih
    have hv : ∀ t rem, s.npc = .loop (t :: rem) → t ∈ s.fol ∧ s.pcs t = .left ∧ s.pre t = 2 ∧
        s.handed t = 0 ∧ s.resumed t = 0 ∧ t ∉ rem := by
      intro t rem h
      have h3' := h3 _ h
      have hf := h3'.2 t (by simp)
      have hr : s.reached = true := by
        cases hr : s.reached with
        | true => rfl
        | false => rw [h1.2 hr] at h; cases h
      have h12' := h12' t _ h (by simp)
      exact ⟨hf, h8 t hf hr, h12'.1, h12'.2.1, h12'.2.2, (List.nodup_cons.1 h3'.1).1⟩
    constructor
    · clear h2 h3 h4 h5 h6 h7 h8 h9 h10 h11 h12 h12' h13 h14; cases hs <;> grind
    · clear h3 h5 h6 h7 h8 h9 h10 h11 h12 h12' h13 h14; cases hs <;> grind
    · clear h5 h6 h7 h8 h9 h10 h11 h12 h12' h13 h14; cases hs <;> grind
    · clear h9 h10 h12 h12' h13 h14
      cases hs <;> grind [upd]
    · clear h9 h10 h12 h12' h13 h14
      cases hs <;> grind [upd]
    · clear h9 h10 h12 h12' h13 h14
      cases hs <;> grind [upd, between]
    · clear h9 h10 h12 h12' h13 h14
      cases hs <;> grind [upd]
    · clear h9 h10 h12 h12' h13 h14
      cases hs with
      | fire h hr ha =>
        intro t ht _
        have hb := ha rfl t
        have h4 := h4 t
        dsimp only at ht ⊢
        cases hp : s.pcs t <;> simp_all [between]
      | _ => grind [upd]
    · clear h12 h13 h14
      cases hs <;> grind [upd]
    · clear h12 h13 h14
      cases hs <;> grind [upd]
    · clear h12 h12' h13 h14
      cases hs <;> grind [upd]
    · clear h13 h14
      cases hs <;> grind [upd]
    · clear h13 h14
      cases hs <;> grind [upd]
    · cases hs <;> grind [upd]
    · clear h12 h13
      cases hs <;> grind [upd]

/-- A task has gone to wait. -/
def Paused (s : State) (t : Nat) : Prop := s.pcs t ≠ .run

/-- No thread that is at work has a step left: no worker is inside `execute_task` with a paused task,
no worker has a task in its hands, the notification is done. -/
def Quiet (a : Bool) (s : State) : Prop := ∀ s', ¬ Step a s s'

/-- C23: if the event is never notified between the test of the event and the end of `execute_task`,
then when the work is done and the event has been reached, every task that went to wait has been
resumed exactly once. Missing for the full property: the notification at any time, see the
counterexamples below. -/
theorem C23_resumed_once_partial (h : Reach true s) (hq : Quiet true s) (hr : s.reached = true) {t : Nat}
    (hp : Paused s t) : s.resumed t = 1 := by
  have hi := inv h
  have hh : s.handed t = 0 := by
    cases hh : s.handed t with
    | zero => rfl
    | succ n => exact absurd (Step.resume (t := t) (by omega)) (hq _)
  have hl : s.pcs t = .left := by
    cases hpc : s.pcs t with
    | run => exact absurd hpc hp
    | set => exact absurd (Step.set hpc) (hq _)
    | check => exact absurd (Step.checkReached hpc hr) (hq _)
    | push => exact absurd (Step.push hpc) (hq _)
    | incr => exact absurd (Step.incr hpc) (hq _)
    | up => exact absurd (Step.up hpc) (hq _)
    | notify => exact absurd (Step.notify hpc) (hq _)
    | left => rfl
  cases hn : s.npc with
  | idle => rw [hi.npc.1 hn] at hr; cases hr
  | begin => exact absurd (Step.begin hn) (hq _)
  | loop rem =>
    cases rem with
    | nil => have := (hi.done t [] hl hn (by simp)).1; omega
    | cons u rem => exact absurd (Step.visit hn) (hq _)

/-- C23: under the same condition a task is never resumed twice, at no time. -/
theorem C23_not_twice_partial (h : Reach true s) (t : Nat) : s.handed t + s.resumed t ≤ 1 := by
  have hi := inv h
  cases hpc : s.pcs t with
  | run | set | check | push => have := hi.early t (by simp [hpc]); omega
  | incr => have := hi.incr t hpc; omega
  | up => have := hi.up t hpc; omega
  | notify => have := hi.notify t hpc; omega
  | left =>
    by_cases hf : t ∈ s.fol
    · cases hn : s.npc with
      | idle | begin => have := hi.wait t hpc hf (by simp [hn]); omega
      | loop rem =>
        by_cases hm : t ∈ rem
        · have := hi.wait' t rem hn hm; omega
        · have := hi.done t rem hpc hn hm; omega
    · have := hi.done' t hpc hf; omega

theorem steps_reach {s'} (h : Reach a s) (hs : Steps a s s') : Reach a s' := by
  induction hs with
  | refl => exact h
  | step _ h1 ih => exact .step ih h1

/-- A state in which a task is paused, the event is reached, the notification is over and the task is not
in anybody's hands stays so. -/
def Lost (t : Nat) (s : State) : Prop :=
  s.reached = true ∧ s.pcs t = .left ∧ s.npc = .loop [] ∧ s.handed t = 0 ∧ s.resumed t = 0

theorem lost_step {t : Nat} (h : Lost t s) (hs : Step a s s') : Lost t s' := by
  obtain ⟨h1, h2, h3, h4, h5⟩ := h
  cases hs <;> refine ⟨?_, ?_, ?_, ?_, ?_⟩ <;> grind [upd]

theorem lost_steps {t : Nat} (h : Lost t s) (hs : Steps a s s') : Lost t s' := by
  induction hs with
  | refl => exact h
  | step _ h1 ih => exact lost_step ih h1

/-- C23 is false: there is an execution in which a task has tested that the event is not reached, the event
is reached and its followers are notified before the task has entered the list of followers; the event
has been reached and the task is never resumed, however the execution continues. -/
theorem C23_lost_wakeup_false : ∃ s, Reach false s ∧ s.reached = true ∧ Paused s 0 ∧
    ∀ s', Steps false s s' → s'.resumed 0 = 0 := by
  have r := @Reach.init false
  have r := r.step (.yield (t := 0) rfl rfl)
  have r := r.step (.set (t := 0) rfl)
  have r := r.step (.checkNot (t := 0) rfl rfl)
  have r := r.step (.fire rfl rfl (by simp))
  have r := r.step (.begin rfl)
  have r := r.step (.push (t := 0) rfl)
  have r := r.step (.incr (t := 0) rfl)
  have r := r.step (.up (t := 0) rfl)
  have r := r.step (.notify (t := 0) rfl)
  exact ⟨_, r, rfl, by simp [Paused, upd], fun s' hs => (lost_steps ⟨rfl, rfl, rfl, rfl, rfl⟩ hs).2.2.2.2⟩

/-- C23 is false: there is an execution in which a task that waits once is resumed twice: the event is
notified between the increments of the pre-event (graph.hpp:134 and execute.cpp:44), the notification
activates the task, and so does the worker that pauses it. -/
theorem C23_resumed_twice_false : ∃ s, Reach false s ∧ s.resumed 0 = 2 := by
  have r := @Reach.init false
  have r := r.step (.yield (t := 0) rfl rfl)
  have r := r.step (.set (t := 0) rfl)
  have r := r.step (.checkNot (t := 0) rfl rfl)
  have r := r.step (.push (t := 0) rfl)
  have r := r.step (.incr (t := 0) rfl)
  have r := r.step (.fire rfl rfl (by simp))
  have r := r.step (.begin rfl)
  have r := r.step (.visit (t := 0) (rem := []) rfl)
  have r := r.step (.up (t := 0) rfl)
  have r := r.step (.notify (t := 0) rfl)
  have r := r.step (.resume (t := 0) (by decide))
  have r := r.step (.resume (t := 0) (by decide))
  exact ⟨_, r, rfl⟩

theorem quiet_of (hr : s.reached = true) (hn : s.npc = .loop [])
    (hp : ∀ t, s.pcs t = .run ∨ s.pcs t = .left) (hh : ∀ t, s.handed t = 0) : Quiet a s := by
  intro s' hs
  cases hs <;> grind

/-- The hypotheses of `C23_resumed_once_partial` can be met: two tasks wait, one tests before and one after
the event has been reached; both are resumed, and nothing is left to do for them. -/
example : ∃ s, Reach true s ∧ s.reached = true ∧ Paused s 0 ∧ Paused s 1 ∧ s.resumed 0 = 1 ∧
    s.resumed 1 = 1 ∧ Quiet true s := by
  have r := @Reach.init true
  have r := r.step (.yield (t := 0) rfl rfl)
  have r := r.step (.yield (t := 1) rfl rfl)
  have r := r.step (.set (t := 0) rfl)
  have r := r.step (.checkNot (t := 0) rfl rfl)
  have r := r.step (.push (t := 0) rfl)
  have r := r.step (.incr (t := 0) rfl)
  have r := r.step (.up (t := 0) rfl)
  have r := r.step (.notify (t := 0) rfl)
  have r := r.step (.fire rfl rfl (by intro _ t; simp only [upd, init]; grind [between]))
  have r := r.step (.set (t := 1) rfl)
  have r := r.step (.checkReached (t := 1) rfl rfl)
  have r := r.step (.begin rfl)
  have r := r.step (.visit (t := 0) (rem := []) rfl)
  have r := r.step (.up (t := 1) rfl)
  have r := r.step (.notify (t := 1) rfl)
  have r := r.step (.resume (t := 0) (by decide))
  have r := r.step (.resume (t := 1) (by decide))
  refine ⟨_, r, rfl, by simp [Paused, upd], by simp [Paused, upd], rfl, rfl, ?_⟩
  exact quiet_of rfl rfl (fun t => by simp only [upd, init]; split <;> (try split) <;> simp)
    (fun t => by
      by_cases h0 : t = 0
      · subst h0; rfl
      · by_cases h1 : t = 1
        · subst h1; rfl
        · simp [upd, init, h0, h1])

end RG.Pause
