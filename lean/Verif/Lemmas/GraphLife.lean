import Verif.Lemmas.GraphCore
/-
Invariants of the task graph, part 4: when the memory of a task is released, and the number of tasks
of a space.
-/
set_option linter.unusedVariables false
namespace RG.Graph

variable {cfg : Cfg} {s s' : State} {l : Lbl}

/-- the task is counted in `task_count` -/
def counts : Mem → Bool
  | .alive => true
  | .freeing => true
  | _ => false

def wtask (cfg : Cfg) (mem : Nat → Mem) (sp t : Nat) : Nat :=
  if cfg.space t = sp ∧ counts (mem t) = true then 1 else 0

structure Life (cfg : Cfg) (s : State) : Prop where
  cdEq : ∀ t, s.cd t = (if s.fl t = .done then 0 else 1) + (if s.fut t = .done then 0 else 1)
  memEq : ∀ t, s.mem t = .alive ↔ s.cd t ≠ 0
  freesEq : ∀ t, s.frees t = if s.cd t = 0 then 1 else 0
  futEq : ∀ t, s.fut t = .none ↔ (s.ph t = .unsub ∨ ∃ i, s.ph t = .submitting i)
  tasksEq : ∀ sp, s.tasks sp = sumTo s.n (wtask cfg s.mem sp)

theorem Life.step_cdEq (hd : Dom cfg s) (hi : Core cfg s) (hl : Life cfg s) (hs : Step cfg l s s') :
    ∀ t, s'.cd t = (if s'.fl t = .done then 0 else 1) + (if s'.fut t = .done then 0 else 1) := by
  have h := hl.cdEq
  have h1 : ∀ t i, s.ph t = .submitting i → s.fut t = .none :=
    fun t i h => (hl.futEq t).2 (.inr ⟨i, h⟩)
  have h2 := hi.flPost'
  pres hs h

theorem Life.step_memEq (hd : Dom cfg s) (hi : Core cfg s) (hl : Life cfg s) (hs : Step cfg l s s') :
    ∀ t, s'.mem t = .alive ↔ s'.cd t ≠ 0 := by
  have h := hl.memEq
  have h1 := hl.cdEq
  pres hs h

theorem Life.step_freesEq (hd : Dom cfg s) (hi : Core cfg s) (hl : Life cfg s) (hs : Step cfg l s s') :
    ∀ t, s'.frees t = if s'.cd t = 0 then 1 else 0 := by
  have h := hl.freesEq
  have h1 := hl.cdEq
  pres hs h

theorem Life.step_futEq (hd : Dom cfg s) (hi : Core cfg s) (hl : Life cfg s) (hs : Step cfg l s s') :
    ∀ t, s'.fut t = .none ↔ (s'.ph t = .unsub ∨ ∃ i, s'.ph t = .submitting i) := by
  have h := hl.futEq
  have h1 := hd.fut
  pres hs h

theorem Life.step_tasksEq (hd : Dom cfg s) (hi : Core cfg s) (hl : Life cfg s) (hs : Step cfg l s s') :
    ∀ sp, s'.tasks sp = sumTo s'.n (wtask cfg s'.mem sp) := by
  have h := hl.tasksEq
  have change : ∀ {t v} sp, s.mem t ≠ .alive ∨ v ≠ .alive → t < s.n →
      sumTo s.n (wtask cfg (upd s.mem t v) sp) + wtask cfg s.mem sp t =
        sumTo s.n (wtask cfg s.mem sp) + wtask cfg (upd s.mem t v) sp t := by
    intro t v sp _ ht
    apply sumTo_change ht
    intro u hu hne
    simp [wtask, upd_ne _ _ hne]
  have alive_lt : ∀ t, s.mem t ≠ .alive → t < s.n := fun t h =>
    Nat.lt_of_not_le fun h' => h (hd.mem t h')
  have cdc : ∀ {t} sp, t < s.n → s.cd t ≠ 0 →
      sumTo s.n (wtask cfg (upd s.mem t (if s.cd t = 1 then .freeing else s.mem t)) sp) =
      sumTo s.n (wtask cfg s.mem sp) := by
    intro t sp ht hc
    apply sumTo_congr
    intro u hu
    have h3 := (hl.memEq t).2 hc
    unfold wtask
    by_cases e : u = t
    · subst e
      rw [upd_same, h3]
      split <;> rfl
    · rw [upd_ne _ _ e]
  cases hs with
  | beginSubmit hp h1 =>
    intro sp
    dsimp only
    rw [sumTo, ← h sp]
    have := hd.mem s.n (Nat.le_refl _)
    by_cases e : cfg.space s.n = sp
    · subst e; simp [wtask, this, counts]
    · rw [upd_ne _ _ (fun e' => e e'.symm)]
      simp [wtask, e]
  | @countPost _ t hf =>
    intro sp
    dsimp only [State.decCd]
    rw [cdc sp, h sp]
    · exact Nat.lt_of_not_le fun h' => by rw [hd.fl t h'] at hf; cases hf
    · rw [hl.cdEq, hf]; simp
  | @countGet _ t hf =>
    intro sp
    dsimp only [State.decCd]
    rw [cdc sp, h sp]
    · exact Nat.lt_of_not_le fun h' => by rw [hd.fut t h'] at hf; cases hf
    · rw [hl.cdEq, hf]; simp
  | @freeCount _ t hm =>
    intro sp
    dsimp only
    have := change (v := .counted) sp (.inl (by rw [hm]; simp)) (alive_lt t (by rw [hm]; simp))
    have h1 := h sp
    by_cases e : cfg.space t = sp
    · subst e
      simp [wtask, hm, counts] at this
      rw [upd_same]
      omega
    · rw [upd_ne _ _ (fun e' => e e'.symm)]
      simp [wtask, e] at this
      omega
  | @free _ t hm =>
    intro sp
    dsimp only
    have := change (v := .freed) sp (.inl (by rw [hm]; simp)) (alive_lt t (by rw [hm]; simp))
    have h1 := h sp
    simp [wtask, hm, counts] at this
    omega
  | _ => exact h

theorem Life.step (hd : Dom cfg s) (hi : Core cfg s) (hl : Life cfg s) (hs : Step cfg l s s') :
    Life cfg s' :=
  ⟨hl.step_cdEq hd hi hs, hl.step_memEq hd hi hs, hl.step_freesEq hd hi hs, hl.step_futEq hd hi hs,
   hl.step_tasksEq hd hi hs⟩

theorem Life.init : Life cfg init := by
  constructor <;> simp [Graph.init, sumTo]

theorem Life.reach (ht : Tame cfg) (h : Reach cfg s) : Life cfg s := by
  induction h with
  | init => exact Life.init
  | step h hs ih => exact ih.step (Dom.reach h) (Core.reach ht h) hs

end RG.Graph
