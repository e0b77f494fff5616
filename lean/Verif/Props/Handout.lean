import Verif.Model.Handout
import Verif.Props.Bitfield
/-
Properties C64 (every task is handed to exactly one worker), C65 (a worker goes idle only if it has found
nothing).
-/
namespace RG.Handout

open RG.Bf

/-! ### counting -/

/-- Sum over the workers. -/
def tot : Nat → (Nat → Nat) → Nat
  | 0, _ => 0
  | n + 1, f => tot n f + f n

theorem tot_congr {n : Nat} {f g : Nat → Nat} (h : ∀ v, v < n → f v = g v) : tot n f = tot n g := by
  induction n with
  | zero => rfl
  | succ n ih => rw [tot, tot, ih fun v hv => h v (by omega), h n (by omega)]

/-- Changing one entry. -/
theorem tot_upd {α : Type} {n : Nat} (F : α → Nat) (g : Nat → α) {w : Nat} (a : α) (hw : w < n) :
    tot n (fun v => F (upd g w a v)) + F (g w) = tot n (fun v => F (g v)) + F a := by
  induction n with
  | zero => omega
  | succ n ih =>
    simp only [tot]
    by_cases e : w = n
    · subst e
      rw [tot_congr (g := fun v => F (g v)) (fun v hv => by rw [upd_ne _ _ (by omega)]), upd_same]
      omega
    · have := ih (by omega)
      rw [upd_ne _ _ (fun e' => e e'.symm)]
      omega

theorem le_tot {n : Nat} (f : Nat → Nat) {w : Nat} (hw : w < n) : f w ≤ tot n f := by
  induction n with
  | zero => omega
  | succ n ih =>
    simp only [tot]
    by_cases e : w = n
    · subst e; omega
    · have := ih (by omega); omega

theorem two_le_tot {n : Nat} (f : Nat → Nat) {w v : Nat} (hw : w < n) (hv : v < n) (hne : w ≠ v) :
    f w + f v ≤ tot n f := by
  induction n with
  | zero => omega
  | succ n ih =>
    simp only [tot]
    by_cases e : w = n
    · have := le_tot f (n := n) (w := v) (by omega); subst e; omega
    · by_cases e' : v = n
      · have := le_tot f (n := n) (w := w) (by omega); subst e'; omega
      · have := ih (by omega) (by omega); omega

theorem tot_eq_zero {n : Nat} {f : Nat → Nat} (h : ∀ v, v < n → f v = 0) : tot n f = 0 := by
  rw [tot_congr h]
  induction n with
  | zero => rfl
  | succ n ih => simp only [tot]; rw [ih fun v hv => h v (by omega)]

/-- 1 if the worker holds new task `x`. -/
def holds (x : Nat) : Pc → Nat
  | .initOwn t => if t = x then 1 else 0
  | .initStolen t => if t = x then 1 else 0
  | _ => 0

/-- 1 if the worker executes `x`. -/
def busyWith (x : Nat) : Pc → Nat
  | .exec t => if t = x then 1 else 0
  | _ => 0

theorem holds_own (x : Nat) : holds x .own = 0 := rfl
theorem holds_top (x : Nat) : holds x .top = 0 := rfl
theorem holds_stealReady (x : Nat) : holds x .stealReady = 0 := rfl
theorem holds_stealNew (x : Nat) : holds x .stealNew = 0 := rfl
theorem holds_exec (x t : Nat) : holds x (.exec t) = 0 := rfl
theorem holds_initOwn (x t : Nat) : holds x (.initOwn t) = if t = x then 1 else 0 := rfl
theorem holds_initStolen (x t : Nat) : holds x (.initStolen t) = if t = x then 1 else 0 := rfl
theorem busyWith_own (x : Nat) : busyWith x .own = 0 := rfl
theorem busyWith_top (x : Nat) : busyWith x .top = 0 := rfl
theorem busyWith_stealReady (x : Nat) : busyWith x .stealReady = 0 := rfl
theorem busyWith_stealNew (x : Nat) : busyWith x .stealNew = 0 := rfl
theorem busyWith_exec (x t : Nat) : busyWith x (.exec t) = if t = x then 1 else 0 := rfl
theorem busyWith_initOwn (x t : Nat) : busyWith x (.initOwn t) = 0 := rfl
theorem busyWith_initStolen (x t : Nat) : busyWith x (.initStolen t) = 0 := rfl

structure Inv (n : Nat) (s : State) (x : Nat) : Prop where
  ready : s.executed.count x + tot n (fun v => (s.ready v).count x) =
    s.activated.count x + s.claimed.count x
  new : s.emplaced.count x = s.inited.count x + tot n (fun v => (s.new v).count x) +
    tot n (fun v => holds x (s.pc v))
  runs : tot n (fun v => busyWith x (s.pc v)) ≤ s.executed.count x
  claimed : s.claimed.count x ≤ s.inited.count x

theorem count_single (x t : Nat) : [t].count x = if t = x then 1 else 0 := by
  simp [List.count_cons]

theorem inv {n : Nat} {s : State} (h : Reach n s) (x : Nat) : Inv n s x := by
  induction h with
  | init =>
    constructor
    · simp [init, tot_eq_zero]
    · simp [init, tot_eq_zero, holds]
    · simp [init, tot_eq_zero, busyWith]
    · simp [init]
  | @step s s' _ hs ih =>
    obtain ⟨h1, h2, h3, h4⟩ := ih
    have hold := fun w (p : Pc) (hw : w < n) => tot_upd (holds x) s.pc p hw
    have hrun := fun w (p : Pc) (hw : w < n) => tot_upd (busyWith x) s.pc p hw
    have hrd := fun w (l : List Nat) (hw : w < n) => tot_upd (List.count x) s.ready l hw
    have hnw := fun w (l : List Nat) (hw : w < n) => tot_upd (List.count x) s.new l hw
    cases hs with
    | @emplace w t hw =>
      have := hnw w (s.new w ++ [t]) hw
      simp only [List.count_append, count_single] at this
      exact ⟨h1, by simp only [List.count_append, count_single]; omega, h3, h4⟩
    | @activate w t hw =>
      have := hrd w (s.ready w ++ [t]) hw
      simp only [List.count_append, count_single] at this
      exact ⟨by simp only [List.count_append, count_single]; omega, h2, h3, h4⟩
    | @popReady w t l hw h hq =>
      have a := hrd w l hw
      have b := hold w (.exec t) hw
      have c := hrun w (.exec t) hw
      have d := hq.count_eq x
      rw [h] at b c
      simp only [List.count_cons, beq_iff_eq] at d
      simp only [holds_own, holds_top, holds_stealReady, holds_stealNew, holds_exec, holds_initOwn,
        holds_initStolen, busyWith_own, busyWith_top, busyWith_stealReady, busyWith_stealNew, busyWith_exec,
        busyWith_initOwn, busyWith_initStolen] at b c
      refine ⟨?_, ?_, ?_, h4⟩ <;> simp only [List.count_append, count_single] <;> omega
    | @readyEmpty w hw h hq =>
      have b := hold w .own hw
      have c := hrun w .own hw
      rw [h] at b c
      simp only [holds_own, holds_top, holds_stealReady, holds_stealNew, holds_exec, holds_initOwn,
        holds_initStolen, busyWith_own, busyWith_top, busyWith_stealReady, busyWith_stealNew, busyWith_exec,
        busyWith_initOwn, busyWith_initStolen] at b c
      exact ⟨h1, by dsimp only; omega, by dsimp only; omega, h4⟩
    | @popNew w t l hw h hq =>
      have a := hnw w l hw
      have b := hold w (.initOwn t) hw
      have c := hrun w (.initOwn t) hw
      have d := hq.count_eq x
      rw [h] at b c
      simp only [List.count_cons, beq_iff_eq] at d
      simp only [holds_own, holds_top, holds_stealReady, holds_stealNew, holds_exec, holds_initOwn,
        holds_initStolen, busyWith_own, busyWith_top, busyWith_stealReady, busyWith_stealNew, busyWith_exec,
        busyWith_initOwn, busyWith_initStolen] at b c
      refine ⟨h1, ?_, ?_, h4⟩ <;> dsimp only <;> omega
    | @initReady w t hw h =>
      have b := hold w (.exec t) hw
      have c := hrun w (.exec t) hw
      rw [h] at b c
      simp only [holds_own, holds_top, holds_stealReady, holds_stealNew, holds_exec, holds_initOwn,
        holds_initStolen, busyWith_own, busyWith_top, busyWith_stealReady, busyWith_stealNew, busyWith_exec,
        busyWith_initOwn, busyWith_initStolen] at b c
      refine ⟨?_, ?_, ?_, ?_⟩ <;> simp only [List.count_append, count_single] <;> omega
    | @initBlocked w t hw h =>
      have b := hold w .own hw
      have c := hrun w .own hw
      rw [h] at b c
      simp only [holds_own, holds_top, holds_stealReady, holds_stealNew, holds_exec, holds_initOwn,
        holds_initStolen, busyWith_own, busyWith_top, busyWith_stealReady, busyWith_stealNew, busyWith_exec,
        busyWith_initOwn, busyWith_initStolen] at b c
      refine ⟨h1, ?_, ?_, ?_⟩ <;> simp only [List.count_append, count_single] <;> omega
    | @newEmpty w hw h hq =>
      have b := hold w .stealReady hw
      have c := hrun w .stealReady hw
      rw [h] at b c
      simp only [holds_own, holds_top, holds_stealReady, holds_stealNew, holds_exec, holds_initOwn,
        holds_initStolen, busyWith_own, busyWith_top, busyWith_stealReady, busyWith_stealNew, busyWith_exec,
        busyWith_initOwn, busyWith_initStolen] at b c
      exact ⟨h1, by dsimp only; omega, by dsimp only; omega, h4⟩
    | @stealReady w v t l hw hv h hq =>
      have a := hrd v l hv
      have b := hold w (.exec t) hw
      have c := hrun w (.exec t) hw
      have d := hq.count_eq x
      rw [h] at b c
      simp only [List.count_cons, beq_iff_eq] at d
      simp only [holds_own, holds_top, holds_stealReady, holds_stealNew, holds_exec, holds_initOwn,
        holds_initStolen, busyWith_own, busyWith_top, busyWith_stealReady, busyWith_stealNew, busyWith_exec,
        busyWith_initOwn, busyWith_initStolen] at b c
      refine ⟨?_, ?_, ?_, h4⟩ <;> simp only [List.count_append, count_single] <;> omega
    | @noReady w hw h =>
      have b := hold w .stealNew hw
      have c := hrun w .stealNew hw
      rw [h] at b c
      simp only [holds_own, holds_top, holds_stealReady, holds_stealNew, holds_exec, holds_initOwn,
        holds_initStolen, busyWith_own, busyWith_top, busyWith_stealReady, busyWith_stealNew, busyWith_exec,
        busyWith_initOwn, busyWith_initStolen] at b c
      exact ⟨h1, by dsimp only; omega, by dsimp only; omega, h4⟩
    | @stealNew w v t l hw hv h hq =>
      have a := hnw v l hv
      have b := hold w (.initStolen t) hw
      have c := hrun w (.initStolen t) hw
      have d := hq.count_eq x
      rw [h] at b c
      simp only [List.count_cons, beq_iff_eq] at d
      simp only [holds_own, holds_top, holds_stealReady, holds_stealNew, holds_exec, holds_initOwn,
        holds_initStolen, busyWith_own, busyWith_top, busyWith_stealReady, busyWith_stealNew, busyWith_exec,
        busyWith_initOwn, busyWith_initStolen] at b c
      refine ⟨h1, ?_, ?_, h4⟩ <;> dsimp only <;> omega
    | @noNew w hw h =>
      have b := hold w .top hw
      have c := hrun w .top hw
      rw [h] at b c
      simp only [holds_own, holds_top, holds_stealReady, holds_stealNew, holds_exec, holds_initOwn,
        holds_initStolen, busyWith_own, busyWith_top, busyWith_stealReady, busyWith_stealNew, busyWith_exec,
        busyWith_initOwn, busyWith_initStolen] at b c
      exact ⟨h1, by dsimp only; omega, by dsimp only; omega, h4⟩
    | @stolenReady w t hw h =>
      have b := hold w (.exec t) hw
      have c := hrun w (.exec t) hw
      rw [h] at b c
      simp only [holds_own, holds_top, holds_stealReady, holds_stealNew, holds_exec, holds_initOwn,
        holds_initStolen, busyWith_own, busyWith_top, busyWith_stealReady, busyWith_stealNew, busyWith_exec,
        busyWith_initOwn, busyWith_initStolen] at b c
      refine ⟨?_, ?_, ?_, ?_⟩ <;> simp only [List.count_append, count_single] <;> omega
    | @stolenBlocked w t hw h =>
      have b := hold w .top hw
      have c := hrun w .top hw
      rw [h] at b c
      simp only [holds_own, holds_top, holds_stealReady, holds_stealNew, holds_exec, holds_initOwn,
        holds_initStolen, busyWith_own, busyWith_top, busyWith_stealReady, busyWith_stealNew, busyWith_exec,
        busyWith_initOwn, busyWith_initStolen] at b c
      refine ⟨h1, ?_, ?_, ?_⟩ <;> simp only [List.count_append, count_single] <;> omega
    | @executed w t hw h =>
      have b := hold w .top hw
      have c := hrun w .top hw
      rw [h] at b c
      simp only [holds_own, holds_top, holds_stealReady, holds_stealNew, holds_exec, holds_initOwn,
        holds_initStolen, busyWith_own, busyWith_top, busyWith_stealReady, busyWith_stealNew, busyWith_exec,
        busyWith_initOwn, busyWith_initStolen] at b c
      exact ⟨h1, by dsimp only; omega, by dsimp only; omega, h4⟩

/-! ### C64 -/

/-- C64: a task that was reported ready once — by the worker that initialised it, or by an activation —
is executed at most once, and never by two workers. -/
theorem C64_one_worker_per_task {n : Nat} {s : State} (h : Reach n s) (t : Nat)
    (hc : s.activated.count t + s.claimed.count t ≤ 1) :
    s.executed.count t ≤ 1 ∧
    ∀ w v, w < n → v < n → s.pc w = .exec t → s.pc v = .exec t → w = v := by
  have hi := inv h t
  have h1 := hi.ready
  refine ⟨by omega, fun w v hw hv e1 e2 => ?_⟩
  apply Classical.byContradiction
  intro hne
  have h2 := two_le_tot (fun v => busyWith t (s.pc v)) hw hv hne
  have h3 := hi.runs
  simp only [e1, e2, busyWith_exec, if_true] at h2
  omega

/-- C64: nothing is lost. A task that was reported ready is in a ready queue of some worker, or was
executed, as often as it was reported. -/
theorem C64_ready_task_not_lost {n : Nat} {s : State} (h : Reach n s) (t : Nat)
    (hq : ∀ v, v < n → t ∉ s.ready v) :
    s.executed.count t = s.activated.count t + s.claimed.count t := by
  have h1 := (inv h t).ready
  rw [tot_eq_zero fun v hv => List.count_eq_zero_of_not_mem (hq v hv)] at h1
  omega

/-- C64: nothing is executed that was not reported ready, nor initialised that was not submitted, and no
submission is initialised twice. -/
theorem C64_nothing_invented {n : Nat} {s : State} (h : Reach n s) (t : Nat) :
    s.executed.count t ≤ s.activated.count t + s.claimed.count t ∧
    s.inited.count t ≤ s.emplaced.count t ∧ s.claimed.count t ≤ s.inited.count t := by
  have hi := inv h t
  have h1 := hi.ready
  have h2 := hi.new
  exact ⟨by omega, by omega, hi.claimed⟩

/-- C64: a submitted task is in the emplacement queue of some worker, or some worker is about to
initialise it, or it was initialised, as often as it was submitted. -/
theorem C64_new_task_not_lost {n : Nat} {s : State} (h : Reach n s) (t : Nat)
    (hq : ∀ v, v < n → t ∉ s.new v)
    (hh : ∀ v, v < n → s.pc v ≠ .initOwn t ∧ s.pc v ≠ .initStolen t) :
    s.inited.count t = s.emplaced.count t := by
  have h1 := (inv h t).new
  rw [tot_eq_zero fun v hv => List.count_eq_zero_of_not_mem (hq v hv),
    tot_eq_zero (f := fun v => holds t (s.pc v)) fun v hv => ?_] at h1
  · omega
  · have := hh v hv
    cases hp : s.pc v with
    | initOwn t' =>
      simp only [holds, ite_eq_right_iff]; intro e; subst e; exact absurd hp this.1
    | initStolen t' =>
      simp only [holds, ite_eq_right_iff]; intro e; subst e; exact absurd hp this.2
    | _ => rfl

/-- Non-trivial instance: worker 1 steals the new task 7 from worker 0 and executes it, while worker 0
executes task 8, which it has found in its ready queue. -/
example : ∃ s, Reach 2 s ∧ s.activated.count 8 + s.claimed.count 8 ≤ 1 ∧
    s.activated.count 7 + s.claimed.count 7 ≤ 1 ∧ s.pc 0 = .exec 8 ∧ s.pc 1 = .exec 7 ∧
    (∀ v, v < 2 → 7 ∉ s.ready v) ∧ (∀ v, v < 2 → 7 ∉ s.new v) := by
  refine ⟨_, .step (.step (.step (.step (.step (.step (.step (.step .init
    (.emplace (w := 0) (t := 7) (by decide)))
    (.activate (w := 0) (t := 8) (by decide)))
    (.readyEmpty (w := 1) (by decide) rfl rfl))
    (.newEmpty (w := 1) (by decide) rfl rfl))
    (.noReady (w := 1) (by decide) rfl))
    (.stealNew (w := 1) (v := 0) (t := 7) (l := []) (by decide) (by decide) rfl (.refl _)))
    (.popReady (w := 0) (t := 8) (l := []) (by decide) rfl (.refl _)))
    (.stolenReady (w := 1) (t := 7) (by decide) rfl), by decide, by decide, rfl, rfl, ?_, ?_⟩ <;>
  · intro v hv
    have : v = 0 ∨ v = 1 := by omega
    rcases this with rfl | rfl <;> decide

/-! ### C65 -/

theorem steal_spec (e : Env) (q : Nat → Nat → List Nat) (n w t0 : Nat) (hw : w < n) :
    (steal e q n w t0).stuck = false ∧
    (∀ v x, (steal e q n w t0).res = some (v, x) → v < n ∧
      ∃ t, t0 ≤ t ∧ t < t0 + (steal e q n w t0).time ∧ x ∈ q t v) ∧
    ((steal e q n w t0).res = none → ∀ v, v < n →
      (∀ t, t0 ≤ t → t < t0 + (steal e q n w t0).time → get (e.σ t) v = false) →
      ∃ t, t0 ≤ t ∧ t < t0 + (steal e q n w t0).time ∧ q t v = []) := by
  obtain ⟨h1, h2, h3, h4, h5, h6⟩ := C42_probe (fun t => e.σ (t0 + t)) (fun t => lookInto q w (t0 + t))
    n w false true hw
  have hearly := (probeList_spec (fun t => e.σ (t0 + t)) (fun t => lookInto q w (t0 + t)) false
    (plan n w true) 0).early
  refine ⟨h1, ?_, ?_⟩
  · intro v x hr
    obtain ⟨o, ho, ho'⟩ := h6 _ hr
    have hlt : o.1 + 1 < (steal e q n w t0).time := hearly o ho
    unfold lookInto at ho'
    split at ho'
    · next hq =>
      cases ho'
      exact ⟨(h2 o ho).1, t0 + (o.1 + 1), by omega, by omega, by rw [hq]; simp⟩
    · split at ho'
      · next hq =>
        cases ho'
        exact ⟨hw, t0 + (o.1 + 1), by omega, by omega, by rw [hq]; simp⟩
      · cases ho'
  · intro hr v hv hb
    obtain ⟨o, ho, rfl⟩ := h4 hr v hv (fun u hu => hb (t0 + u) (by omega) (by
      have : u < (steal e q n w t0).time := hu
      omega))
    have hlt : o.1 + 1 < (steal e q n w t0).time := hearly o ho
    have hd := h5 hr o ho
    refine ⟨t0 + (o.1 + 1), by omega, by omega, ?_⟩
    simp only [lookInto] at hd
    split at hd
    · cases hd
    · assumption

/-- Spec of a search that starts at moment `t0`. -/
structure Spec (e : Env) (n w t0 : Nat) (g : Gather) : Prop where
  le : t0 ≤ g.time
  /-- the result was ready: it was in a ready queue, or was found ready after its initialisation -/
  found : ∀ x, g.res = some x →
    (∃ v t, v < n ∧ t0 ≤ t ∧ t < g.time ∧ x ∈ e.ready t v) ∨
    (x ∈ g.inits ∧ ∃ t, t0 ≤ t ∧ t < g.time ∧ e.isReady t x = true)
  /-- everything initialised was in an emplacement queue -/
  inits : ∀ x ∈ g.inits, ∃ v t, v < n ∧ t0 ≤ t ∧ t < g.time ∧ x ∈ e.new t v
  /-- nothing returned: own emplacement queue was empty at some moment -/
  own : g.stuck = false → g.res = none → ∃ t, t0 ≤ t ∧ t < g.time ∧ e.new t w = []
  /-- the ready queue of every busy worker was empty at some moment -/
  busy : g.stuck = false → g.res = none → ∀ v, v < n →
    (∀ t, t0 ≤ t → t < g.time → get (e.σ t) v = false) → ∃ t, t0 ≤ t ∧ t < g.time ∧ e.ready t v = []
  /-- the emplacement queue of every busy worker was empty at some moment, or a new task was initialised
  that was not ready -/
  busyNew : g.stuck = false → g.res = none → ∀ v, v < n →
    (∀ t, t0 ≤ t → t < g.time → get (e.σ t) v = false) →
    (∃ t, t0 ≤ t ∧ t < g.time ∧ e.new t v = []) ∨
    ∃ x ∈ g.inits, ∃ t, t0 ≤ t ∧ t < g.time ∧ e.isReady t x = false

theorem stealTask_spec (e : Env) (n w t0 : Nat) (hw : w < n) :
    let g := stealTask e n w t0
    t0 ≤ g.time ∧ g.stuck = false ∧
    (∀ x, g.res = some x →
      (∃ v t, v < n ∧ t0 ≤ t ∧ t < g.time ∧ x ∈ e.ready t v) ∨
      (x ∈ g.inits ∧ ∃ t, t0 ≤ t ∧ t < g.time ∧ e.isReady t x = true)) ∧
    (∀ x ∈ g.inits, ∃ v t, v < n ∧ t0 ≤ t ∧ t < g.time ∧ x ∈ e.new t v) ∧
    (g.res = none → ∀ v, v < n →
      (∀ t, t0 ≤ t → t < g.time → get (e.σ t) v = false) →
      ∃ t, t0 ≤ t ∧ t < g.time ∧ e.ready t v = []) ∧
    (g.res = none → ∀ v, v < n →
      (∀ t, t0 ≤ t → t < g.time → get (e.σ t) v = false) →
      (∃ t, t0 ≤ t ∧ t < g.time ∧ e.new t v = []) ∨
      ∃ x ∈ g.inits, ∃ t, t0 ≤ t ∧ t < g.time ∧ e.isReady t x = false) := by
  obtain ⟨a1, a2, a3⟩ := steal_spec e e.ready n w t0 hw
  unfold stealTask
  cases hr : (steal e e.ready n w t0).res with
  | some p =>
    obtain ⟨v, x⟩ := p
    obtain ⟨hv, t, h1, h2, h3⟩ := a2 v x hr
    simp only [hr, a1]
    refine ⟨by omega, trivial, ?_, by simp, by simp, by simp⟩
    intro y hy
    cases hy
    exact .inl ⟨v, t, hv, h1, h2, h3⟩
  | none =>
    obtain ⟨b1, b2, b3⟩ := steal_spec e e.new n w (t0 + (steal e e.ready n w t0).time) hw
    have hb := a3 hr
    cases hr' : (steal e e.new n w (t0 + (steal e e.ready n w t0).time)).res with
    | some p =>
      obtain ⟨v, x⟩ := p
      obtain ⟨hv, t, h1, h2, h3⟩ := b2 v x hr'
      simp only [hr, hr', a1, b1]
      refine ⟨by omega, by simp, ?_, ?_, ?_, ?_⟩
      · intro y hy
        split at hy
        · next hx =>
          cases hy
          exact .inr ⟨by simp, _, by omega, by omega, hx⟩
        · cases hy
      · intro y hy
        simp only [List.mem_singleton] at hy
        subst hy
        exact ⟨v, t, hv, by omega, by omega, h3⟩
      · intro _ u hu hbusy
        obtain ⟨t', k1, k2, k3⟩ := hb u hu (fun t p q => hbusy t p (by omega))
        exact ⟨t', k1, by omega, k3⟩
      · intro hn u hu hbusy
        right
        refine ⟨x, by simp, t0 + (steal e e.ready n w t0).time +
          (steal e e.new n w (t0 + (steal e e.ready n w t0).time)).time, by omega, by omega, ?_⟩
        split at hn
        · cases hn
        · next hx => simpa using hx
    | none =>
      simp only [hr, hr', a1, b1]
      refine ⟨by omega, by simp, by simp, by simp, ?_, ?_⟩
      · intro _ u hu hbusy
        obtain ⟨t', k1, k2, k3⟩ := hb u hu (fun t p q => hbusy t p (by omega))
        exact ⟨t', k1, by omega, k3⟩
      · intro _ u hu hbusy
        obtain ⟨t', k1, k2, k3⟩ := b3 hr' u hu (fun t p q => hbusy t (by omega) q)
        exact .inl ⟨t', by omega, k2, k3⟩

theorem stage2_spec (e : Env) (n w : Nat) (hw : w < n) :
    ∀ fuel t0, Spec e n w t0 (stage2 e n w fuel t0) := by
  intro fuel
  induction fuel with
  | zero => intro t0; constructor <;> simp [stage2]
  | succ fuel ih =>
    intro t0
    rw [stage2]
    cases hq : e.new t0 w with
    | nil =>
      obtain ⟨h1, h2, h3, h4, h5, h6⟩ := stealTask_spec e n w (t0 + 2) hw
      show Spec e n w t0 (stealTask e n w (t0 + 2))
      constructor
      · omega
      · intro x hx
        rcases h3 x hx with ⟨v, t, k1, k2, k3, k4⟩ | ⟨k1, t, k2, k3, k4⟩
        · exact .inl ⟨v, t, k1, by omega, k3, k4⟩
        · exact .inr ⟨k1, t, by omega, k3, k4⟩
      · intro x hx
        obtain ⟨v, t, k1, k2, k3, k4⟩ := h4 x hx
        exact ⟨v, t, k1, by omega, k3, k4⟩
      · intro _ _; exact ⟨t0, by omega, by omega, hq⟩
      · intro _ hr v hv hb
        obtain ⟨t, k1, k2, k3⟩ := h5 hr v hv (fun t p q => hb t (by omega) q)
        exact ⟨t, by omega, k2, k3⟩
      · intro _ hr v hv hb
        rcases h6 hr v hv (fun t p q => hb t (by omega) q) with ⟨t, k1, k2, k3⟩ | ⟨x, k1, t, k2, k3, k4⟩
        · exact .inl ⟨t, by omega, k2, k3⟩
        · exact .inr ⟨x, k1, t, by omega, k3, k4⟩
    | cons x l =>
      dsimp only
      split
      · next hx =>
        constructor <;> dsimp only
        · omega
        · intro y hy
          cases hy
          exact .inr ⟨by simp, t0 + 1, by omega, by omega, hx⟩
        · intro y hy
          simp only [List.mem_singleton] at hy
          subst hy
          exact ⟨w, t0, hw, by omega, by omega, by rw [hq]; simp⟩
        · intro _ h; cases h
        · intro _ h; cases h
        · intro _ h; cases h
      · next hx =>
        obtain ⟨h1, h2, h3, h4, h5, h6⟩ := ih (t0 + 2)
        constructor <;> dsimp only
        · omega
        · intro y hy
          rcases h2 y hy with ⟨v, t, k1, k2, k3, k4⟩ | ⟨k1, t, k2, k3, k4⟩
          · exact .inl ⟨v, t, k1, by omega, k3, k4⟩
          · exact .inr ⟨List.mem_cons_of_mem _ k1, t, by omega, k3, k4⟩
        · intro y hy
          rcases List.mem_cons.1 hy with rfl | hy
          · exact ⟨w, t0, hw, by omega, by omega, by rw [hq]; simp⟩
          · obtain ⟨v, t, k1, k2, k3, k4⟩ := h3 y hy
            exact ⟨v, t, k1, by omega, k3, k4⟩
        · intro hst hr
          obtain ⟨t, k1, k2, k3⟩ := h4 hst hr
          exact ⟨t, by omega, k2, k3⟩
        · intro hst hr v hv hb
          obtain ⟨t, k1, k2, k3⟩ := h5 hst hr v hv (fun t p q => hb t (by omega) q)
          exact ⟨t, by omega, k2, k3⟩
        · intro hst hr v hv hb
          rcases h6 hst hr v hv (fun t p q => hb t (by omega) q) with
            ⟨t, k1, k2, k3⟩ | ⟨y, k1, t, k2, k3, k4⟩
          · exact .inl ⟨t, by omega, k2, k3⟩
          · exact .inr ⟨y, List.mem_cons_of_mem _ k1, t, by omega, k3, k4⟩

/-- C65: a task returned by `gather_task` was in the ready queue of some worker, or it was in the
emplacement queue of some worker and was found ready when it was initialised. -/
theorem C65_returned_task_is_ready (e : Env) (n w fuel : Nat) (hw : w < n) (x : Nat)
    (hr : (gather e n w fuel).res = some x) :
    (∃ v t, v < n ∧ t < (gather e n w fuel).time ∧ x ∈ e.ready t v) ∨
    ((∃ v t, v < n ∧ t < (gather e n w fuel).time ∧ x ∈ e.new t v) ∧
      ∃ t, t < (gather e n w fuel).time ∧ e.isReady t x = true) := by
  unfold gather at *
  cases hq : e.ready 0 w with
  | cons y l =>
    rw [hq] at hr
    cases hr
    exact .inl ⟨w, 0, hw, by simp, by rw [hq]; simp⟩
  | nil =>
    rw [hq] at hr
    have hs := stage2_spec e n w hw fuel 1
    rcases hs.found x hr with ⟨v, t, k1, k2, k3, k4⟩ | ⟨k1, t, k2, k3, k4⟩
    · exact .inl ⟨v, t, k1, k3, k4⟩
    · obtain ⟨v, u, m1, m2, m3, m4⟩ := hs.inits x k1
      exact .inr ⟨⟨v, u, m1, m3, m4⟩, t, k3, k4⟩

/-- C65 (partial): if `gather_task` returns nothing, then the own queues were empty, and so was the ready
queue of every worker that was busy during the search; the emplacement queue of such a worker was empty
too, unless a new task was initialised that has turned out not to be ready. Missing: without this
exception, see `C65_gives_up_early_false`. -/
theorem C65_nothing_left_partial (e : Env) (n w fuel : Nat) (hw : w < n)
    (hst : (gather e n w fuel).stuck = false) (hr : (gather e n w fuel).res = none) :
    e.ready 0 w = [] ∧ (∃ t, t < (gather e n w fuel).time ∧ e.new t w = []) ∧
    ∀ v, v < n → (∀ t, t < (gather e n w fuel).time → get (e.σ t) v = false) →
      (∃ t, t < (gather e n w fuel).time ∧ e.ready t v = []) ∧
      ((∃ t, t < (gather e n w fuel).time ∧ e.new t v = []) ∨
        ∃ x ∈ (gather e n w fuel).inits, ∃ t, t < (gather e n w fuel).time ∧ e.isReady t x = false) := by
  unfold gather at *
  cases hq : e.ready 0 w with
  | cons y l => rw [hq] at hr; cases hr
  | nil =>
    rw [hq] at hr hst
    have hs := stage2_spec e n w hw fuel 1
    refine ⟨rfl, ?_, ?_⟩
    · obtain ⟨t, _, k2, k3⟩ := hs.own hst hr
      exact ⟨t, k2, k3⟩
    · intro v hv hb
      constructor
      · obtain ⟨t, _, k2, k3⟩ := hs.busy hst hr v hv fun t _ h => hb t h
        exact ⟨t, k2, k3⟩
      · rcases hs.busyNew hst hr v hv fun t _ h => hb t h with ⟨t, _, k2, k3⟩ | ⟨x, k1, t, _, k3, k4⟩
        · exact .inl ⟨t, k2, k3⟩
        · exact .inr ⟨x, k1, t, k3, k4⟩

/-- Four workers; worker 3 searches, worker 0 is busy, and its queues are empty. -/
example : (gather ⟨fun _ _ => 0xE, fun _ _ => [], fun _ _ => [], fun _ _ => false⟩ 4 3 5).res = none ∧
    (gather ⟨fun _ _ => 0xE, fun _ _ => [], fun _ _ => [], fun _ _ => false⟩ 4 3 5).stuck = false ∧
    get (fun _ => 0xE) 0 = false := by decide +kernel

/-- A task is stolen from worker 0. -/
example : (gather ⟨fun _ _ => 0xE, fun _ v => if v = 0 then [9] else [], fun _ _ => [],
    fun _ _ => false⟩ 4 3 5).res = some 9 := by decide +kernel

/-- C65: the search ends, unless new tasks keep arriving in the own emplacement queue. -/
theorem C65_search_ends (e : Env) (n w T fuel : Nat) (hw : w < n) (hT : ∀ t, T ≤ t → e.new t w = [])
    (hf : T < fuel) : (gather e n w fuel).stuck = false := by
  have key : ∀ fuel t, T < fuel + t → 0 < fuel → (stage2 e n w fuel t).stuck = false := by
    intro fuel
    induction fuel with
    | zero => intro t _ h; omega
    | succ fuel ih =>
      intro t h1 _
      rw [stage2]
      cases hq : e.new t w with
      | nil => exact (stealTask_spec e n w (t + 2) hw).2.1
      | cons x l =>
        dsimp only
        split
        · rfl
        · have : ¬ T ≤ t := fun h => by rw [hT t h] at hq; cases hq
          exact ih (t + 2) (by omega) (by omega)
  unfold gather
  split
  · rfl
  · exact key fuel 1 (by omega) (by omega)

example : ∀ t, 3 ≤ t → (fun (t _ : Nat) => if t < 3 then [t] else ([] : List Nat)) t 0 = [] := by
  intro t h
  have : ¬ t < 3 := by omega
  simp [this]

/-- C65 is false: worker 1 finds nothing to do although tasks 5 and 6 wait in the emplacement queue of
busy worker 0 and task 6 is ready: it takes task 5, which is not, and gives up. -/
theorem C65_gives_up_early_false :
    ∃ e : Env, (∀ t, get (e.σ t) 0 = false) ∧ (∀ t, 6 ∈ e.new t 0) ∧ (∀ t, e.isReady t 6 = true) ∧
      (gather e 2 1 5).stuck = false ∧ (gather e 2 1 5).res = none := by
  refine ⟨⟨fun _ _ => 2, fun _ _ => [], fun t v => if v = 0 then (if t < 9 then [5, 6] else [6]) else [],
    fun _ x => x == 6⟩, fun _ => (by decide : get (fun _ => 2) 0 = false), fun t => ?_, fun _ => rfl, by decide +kernel, by decide +kernel⟩
  dsimp only
  rw [if_pos rfl]
  split <;> simp

end RG.Handout
