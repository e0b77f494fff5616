import Verif.Lemmas.CudaOrder
/-
Property C108: tasks that submit work to a CUDA device.
-/
namespace RG.Cuda

variable {deps edges : Nat → List Nat} {H S : Nat} {s s' : State}

/-! ### How much work there is -/

def isWork (t : Nat) (c : Cmd) : Bool := decide (c.op = .work t)

structure Cnt (s : State) : Prop where
  cnt : ∀ t k, (s.pc t).stream = some k → s.sub t = s.fin t + (s.q k).countP (isWork t)
  new : ∀ t, s.pc t = .new → s.sub t = 0 ∧ s.fin t = 0 ∧ s.started t = 0

theorem Cnt.move (C : Cnt s) {t : Nat} {c : Pc} {s' : State} (hp : s'.pc = upd s.pc t c) (hq : ∀ u k, (s'.q k).countP (isWork u) = (s.q k).countP (isWork u))
    (h1 : s'.sub = s.sub) (h2 : s'.fin = s.fin) (h3 : s'.started = s.started) (hc : c.stream = (s.pc t).stream) (hn : c ≠ .new) : Cnt s' := by
  constructor
  · intro u k hu
    rw [h1, h2, hq]
    refine C.cnt u k ?_
    rw [hp] at hu
    by_cases e : u = t
    · subst e; rw [upd_same] at hu; rw [← hc]; exact hu
    · rw [upd_ne _ _ e] at hu; exact hu
  · intro u hu
    rw [h1, h2, h3]
    rw [hp] at hu
    by_cases e : u = t
    · subst e; rw [upd_same] at hu; exact absurd hu hn
    · rw [upd_ne _ _ e] at hu; exact C.new u hu

theorem countP_add {k k' u : Nat} {o : Op} : (s.add k o k').countP (isWork u) = (s.q k').countP (isWork u) + if k' = k ∧ o = .work u then 1 else 0 := by
  unfold State.add
  by_cases e : k' = k
  · subst e
    rw [upd_same, List.countP_append]
    simp [isWork, List.countP_cons]
  · rw [upd_ne _ _ e]; simp [e]

theorem countP_tail {q : Nat → List Cmd} {k k' u : Nat} {d : Cmd} {l : List Cmd} (h : q k = d :: l) :
    (q k').countP (isWork u) = (upd q k l k').countP (isWork u) + if k' = k ∧ d.op = .work u then 1 else 0 := by
  by_cases e : k' = k
  · subst e
    rw [upd_same, h, List.countP_cons]
    simp [isWork]
  · rw [upd_ne _ _ e]; simp [e]

theorem cnt (h : Reach deps edges H S s) : Cnt s := by
  induction h with
  | init => constructor <;> simp [init, Pc.stream]
  | @step s s' hr hs ih =>
    have I := inv hr
    have V := dev hr
    cases hs with
    | @call h k t hh hk hn hd hc =>
      constructor
      · intro u k' hu
        dsimp only at hu ⊢
        by_cases e : u = t
        · subst e
          rw [(ih.new u hn).1, (ih.new u hn).2.1, eq_comm, Nat.zero_add, List.countP_eq_zero]
          intro c hc hw
          have := (V.own k' c u hc (of_decide_eq_true hw)).1
          rw [hn] at this; cases this
        · rw [upd_ne _ _ e] at hu; exact ih.cnt u k' hu
      · intro u hu
        dsimp only at hu
        by_cases e : u = t
        · subst e; rw [upd_same] at hu; cases hu
        · rw [upd_ne _ _ e] at hu; exact ih.new u hu
    | @lock h k t r ht hp ha | @skip h k t r p ps ht hp he | @run h k t r ht hp | @set h k t r e ht hp | @push h k t r e ht hp | @post h k t r e ht hp | @pop h k t r e ht hp =>
      exact ih.move rfl (fun _ _ => rfl) rfl rfl rfl (by rw [hp]; rfl) nofun
    | @poll h k e t l hh ht ha he hq => exact ih.move rfl (fun _ _ => rfl) rfl rfl rfl (by rw [I.front ht ha he]; rfl) nofun
    | @wait h k t r p ps e ht hp he | @reuse h k t r e f ht hp hf | @create h k t r ht hp hf =>
      exact ih.move rfl (fun _ _ => by dsimp only; rw [countP_add]; simp) rfl rfl rfl (by rw [hp]; rfl) nofun
    | @launch h k t r ht hp =>
      constructor
      · intro u k' hu
        dsimp only at hu ⊢
        rw [countP_add]
        have := ih.cnt u k' hu
        by_cases e : u = t
        · subst e
          rw [hp] at hu
          cases hu
          rw [upd_same, if_pos ⟨rfl, rfl⟩]
          omega
        · rw [upd_ne _ _ e, if_neg (by rintro ⟨-, h⟩; cases h; exact e rfl)]
          omega
      · intro u hu
        dsimp only at hu ⊢
        have e : u ≠ t := by rintro rfl; rw [hp] at hu; cases hu
        rw [upd_ne _ _ e]
        exact ih.new u hu
    | @start k n t l hq hb =>
      refine ⟨ih.cnt, fun u hu => ?_⟩
      have e : u ≠ t := by
        rintro rfl
        have := (V.own k _ u (hq ▸ List.mem_cons_self) rfl).1
        dsimp only at hu
        rw [hu] at this; cases this
      dsimp only
      rw [upd_ne _ _ e]
      exact ih.new u hu
    | @finish k n t l hq hb =>
      have ho := (V.own k _ t (hq ▸ List.mem_cons_self) rfl).1
      constructor
      · intro u k' hu
        dsimp only at hu ⊢
        have h1 := ih.cnt u k' hu
        rw [countP_tail hq] at h1
        by_cases e : u = t
        · subst e
          rw [ho] at hu
          cases hu
          rw [if_pos ⟨rfl, rfl⟩] at h1
          rw [upd_same]
          omega
        · rw [if_neg (by rintro ⟨-, h⟩; cases h; exact e rfl)] at h1
          rw [upd_ne _ _ e]
          omega
      · intro u hu
        have e : u ≠ t := by rintro rfl; dsimp only at hu; rw [hu] at ho; cases ho
        dsimp only
        rw [upd_ne _ _ e]
        exact ih.new u hu
    | @record k n t l hq | @await k n r l hq hr =>
      refine ⟨fun u k' hu => ?_, ih.new⟩
      have h1 := ih.cnt u k' hu
      rw [countP_tail hq, if_neg (by rintro ⟨-, h⟩; cases h)] at h1
      exact h1

/-- `p` is a task on which `t` depends, directly or through other CUDA tasks -/
inductive Before (deps : Nat → List Nat) (p : Nat) : Nat → Prop
  | one {t} (h : p ∈ deps t) : Before deps p t
  | more {t u} (h : Before deps p u) (hu : u ∈ deps t) : Before deps p t

/-- all work of a task whose record is complete has been completed -/
theorem fin_eq (h : Reach deps edges H S s) {p : Nat} (hp : s.recd p = true) : s.fin p = s.sub p := by
  have V := dev h
  cases hk : (s.pc p).stream with
  | none =>
    have : s.pc p = .new := by cases hc : s.pc p <;> rw [hc] at hk <;> first | rfl | cases hk
    have := (cnt h).new p this
    omega
  | some k =>
    have h1 := (cnt h).cnt p k hk
    have h2 : (s.q k).countP (isWork p) = 0 := by
      rw [List.countP_eq_zero]
      intro c hc hw
      have := (V.own k c p hc (of_decide_eq_true hw)).2.1
      rw [hp] at this; cases this
    omega

theorem before_recd (hE : Enough deps edges S) (h : Reach deps edges H S s) {p t : Nat} (hb : Before deps p t) (ht : ∀ u ∈ deps t, s.recd u = true) : s.recd p = true := by
  induction hb with
  | one hp => exact ht _ hp
  | @more t u hb hu ih => exact ih fun v hv => (ord hE h).rdeps u v (ht u hu) hv

/-! ### Properties -/

/-- C108: Work on the device is done in the order of the dependencies, in whichever streams it is: when a piece of work of task `t` has been started, then the bodies of
all tasks on which `t` depends have returned, and all their work has been completed. Partial: if there are several streams, `in_edges` has to contain the tasks on which a
task depends, see `C108_no_edges_false`. -/
theorem C108_device_order_partial (hE : Enough deps edges S) (h : Reach deps edges H S s) {p t : Nat} (hb : Before deps p t) (ht : 0 < s.started t) :
    (s.pc p).returned = true ∧ s.fin p = s.sub p := by
  have := before_recd hE h hb fun u hu => (ord hE h).sdeps t u ht hu
  exact ⟨(dev h).recd p this, fin_eq h this⟩

/-- C108: The post-event of a task is notified at most once, and only after all its work on the device has been completed; likewise the work of the tasks on which it
depends, if `in_edges` contains them or there is one stream only. -/
theorem C108_notified_after_work (h : Reach deps edges H S s) (t : Nat) :
    s.post t ≤ 1 ∧ (s.post t = 1 → s.fin t = s.sub t ∧ (Enough deps edges S → ∀ p, Before deps p t → s.fin p = s.sub p)) := by
  have I := inv h
  have hp := I.post t
  constructor
  · rw [hp]; cases s.pc t <;> simp [Pc.notified]
  · intro h1
    have hr : s.recd t = true := by
      refine I.freed t ?_
      rw [h1] at hp
      cases hc : s.pc t <;> rw [hc] at hp <;> first | rfl | cases hp
    exact ⟨fin_eq h hr, fun hE p hb => fin_eq h (before_recd hE h hb fun u hu => (ord hE h).rdeps t u hr hu)⟩

/-- C108: An event of the device is used by one task at a time, and is not in the pool while a task waits for it. -/
theorem C108_events_not_shared (h : Reach deps edges H S s) {k k' e t u : Nat} (ht : s.pc t = .queued k e) : e ∉ s.free ∧ (s.pc u = .queued k' e → u = t) := by
  have h1 := (inv h).hold t e (by rw [ht]; rfl)
  refine ⟨h1.2.1, fun hu => ?_⟩
  have h2 := (inv h).hold u e (by rw [hu]; rfl)
  rw [h1.2.2] at h2
  exact (Option.some.inj h2.2.2).symm

/-- every event of the device that was created is in the pool or used by a task -/
theorem kept (h : Reach deps edges H S s) : ∀ e, e < s.fresh → e ∈ s.free ∨ ∃ t, (s.pc t).holds = some e := by
  have move : ∀ {s : State} {t : Nat} {c : Pc}, (s.pc t).holds = c.holds → (∀ e, e < s.fresh → e ∈ s.free ∨ ∃ t, (s.pc t).holds = some e) →
      ∀ e, e < s.fresh → e ∈ s.free ∨ ∃ u, (upd s.pc t c u).holds = some e := by
    intro s t c hc ih e he
    refine (ih e he).imp id ?_
    rintro ⟨u, hu⟩
    refine ⟨u, ?_⟩
    by_cases hut : u = t
    · subst hut; rw [upd_same, ← hc]; exact hu
    · rw [upd_ne _ _ hut]; exact hu
  induction h with
  | init => intro e he; exact absurd he (Nat.not_lt_zero e)
  | step hr hs ih =>
    have I := inv hr
    cases hs <;> dsimp only <;> first
      | exact ih
      | (rename_i hn _ _; exact move (by rw [hn]; rfl) ih)
      | (rename_i hn _; exact move (by rw [hn]; rfl) ih)
      | (rename_i hn; exact move (by rw [hn]; rfl) ih)
      | skip
    · rename_i a h k t r e f ht hp hf
      intro x hx
      rcases ih x hx with h1 | ⟨u, hu⟩
      · rw [hf] at h1
        rcases List.mem_cons.mp h1 with h1 | h1
        · exact .inr ⟨t, by rw [upd_same, h1]; rfl⟩
        · exact .inl h1
      · have hut : u ≠ t := by rintro rfl; rw [hp] at hu; cases hu
        exact .inr ⟨u, by rw [upd_ne _ _ hut]; exact hu⟩
    · rename_i a h k t r ht hp hf
      intro x hx
      rcases Nat.lt_or_eq_of_le (Nat.le_of_lt_succ hx) with hx | hx
      · rcases ih x hx with h1 | ⟨u, hu⟩
        · exact .inl h1
        · have hut : u ≠ t := by rintro rfl; rw [hp] at hu; cases hu
          exact .inr ⟨u, by rw [upd_ne _ _ hut]; exact hu⟩
      · exact .inr ⟨t, by rw [upd_same, hx]; rfl⟩
    · rename_i a h k e t l hh ht ha he hq
      intro x hx
      rcases ih x hx with h1 | ⟨u, hu⟩
      · exact .inl (List.mem_cons_of_mem _ h1)
      · by_cases hut : u = t
        · subst hut
          have h2 := (I.entry k e u (by rw [he]; exact List.mem_cons_self)).1
          have : x = e := by cases hc : a.pc u <;> rw [hc] at hu h2 <;> simp_all [Pc.holds, Pc.entry]
          exact .inl (this ▸ List.mem_cons_self)
        · exact .inr ⟨u, by rw [upd_ne _ _ hut]; exact hu⟩

/-- C108: No event of the device is lost: an event that was created is in the pool, or it belongs to a task that has not been reported. When all tasks that have been
activated are done, every event that was created is in the pool, and once. -/
theorem C108_events_not_lost (h : Reach deps edges H S s) :
    (∀ e, e < s.fresh → e ∈ s.free ∨ ∃ t, s.post t = 0 ∧ ((∃ x k, s.pc t = .set x k e ∨ s.pc t = .push x k e) ∨ ∃ k, s.pc t = .queued k e)) ∧
    ((∀ t, s.pc t = .new ∨ ∃ k, s.pc t = .done k) → s.free.Perm (List.range s.fresh)) := by
  have I := inv h
  constructor
  · intro e he
    refine (kept h e he).imp id ?_
    rintro ⟨t, ht⟩
    refine ⟨t, ?_, ?_⟩
    · rw [I.post t]; cases hc : s.pc t <;> rw [hc] at ht <;> first | rfl | cases ht
    · cases hc : s.pc t <;> rw [hc] at ht <;> first | (cases ht; done) | (cases ht; simp)
  · intro ha
    refine (List.perm_ext_iff_of_nodup I.fnodup List.nodup_range).mpr fun e => ⟨fun he => List.mem_range.mpr (I.free e he).1, fun he => ?_⟩
    rcases kept h e (List.mem_range.mp he) with h1 | ⟨t, ht⟩
    · exact h1
    · rcases ha t with h2 | ⟨k, h2⟩ <;> rw [h2] at ht <;> cases ht


theorem head_runs (h : Reach deps edges H S s) : ∀ n k c l, s.q k = c :: l → c.n = n → ∃ s', Step deps edges H S s s' ∧ s'.pc = s.pc ∧ s'.stk = s.stk := by
  have V := dev h
  intro n
  induction n using Nat.strongRecOn with
  | _ n ih =>
    intro k c l hq hn
    obtain ⟨m, o⟩ := c
    cases o with
    | work t =>
      cases hb : s.busy k with
      | false => exact ⟨_, .start hq hb, rfl, rfl⟩
      | true => exact ⟨_, .finish hq hb, rfl, rfl⟩
    | record t => exact ⟨_, .record hq, rfl, rfl⟩
    | wait r =>
      by_cases hr : ∀ u, r = some u → s.recd u = true
      · exact ⟨_, .await hq hr, rfl, rfl⟩
      · cases r with
        | none => exact absurd (fun u h => by cases h) hr
        | some u =>
          rcases V.wt k ⟨m, .wait (some u)⟩ u (hq ▸ List.mem_cons_self) rfl with h1 | ⟨k', d, hd, -, hlt⟩
          · exact absurd (fun v h => by cases h; exact h1) hr
          · cases hq' : s.q k' with
            | nil => rw [hq'] at hd; cases hd
            | cons d' l' =>
              have hle : d'.n ≤ d.n := by
                rw [hq'] at hd
                rcases List.mem_cons.mp hd with e | e
                · rw [e]; exact Nat.le_refl _
                · exact Nat.le_of_lt ((sorted_tail V hq').2 d e)
              dsimp only at hn hlt
              exact ih d'.n (by omega) k' d' l' hq' rfl

/-- C108: The device is never stuck: as long as a stream has commands, it can go on, whatever the streams wait for. -/
theorem C108_device_not_stuck (h : Reach deps edges H S s) {k : Nat} (hk : s.q k ≠ []) : ∃ s', Step deps edges H S s s' ∧ s'.pc = s.pc ∧ s'.stk = s.stk := by
  cases hq : s.q k with
  | nil => exact absurd hq hk
  | cons c l => exact head_runs h c.n k c l hq rfl

/-- no task has been activated in a step -/
def NoCall (s s' : State) : Prop := ∀ t, s.pc t = .new → s'.pc t = .new

theorem nocall_upd {t : Nat} {c : Pc} (h : s.pc t ≠ .new) {s' : State} (hp : s'.pc = upd s.pc t c) : NoCall s s' := by
  intro u hu
  rw [hp]
  by_cases e : u = t
  · exact absurd (e ▸ hu) h
  · rw [upd_ne _ _ e]; exact hu

/-- a thread in a call can go on, unless it waits for a mutex -/
theorem host_step (h : Reach deps edges H S s) {x t : Nat} {r : List Nat} (hx : s.stk x = t :: r) :
    (∃ s', Step deps edges H S s s' ∧ NoCall s s') ∨ ∃ k, s.pc t = .enter x k ∧ ¬ Avail H s x k := by
  have I := inv h
  have hth := I.stk x t (hx ▸ List.mem_cons_self)
  cases hc : s.pc t with
  | new => rw [hc] at hth; cases hth
  | queued => rw [hc] at hth; cases hth
  | done => rw [hc] at hth; cases hth
  | enter y k =>
    rw [hc] at hth; cases hth
    by_cases ha : Avail H s x k
    · exact .inl ⟨_, .lock hx hc ha, nocall_upd (by rw [hc]; nofun) rfl⟩
    · exact .inr ⟨k, rfl, ha⟩
  | waits y k ps =>
    rw [hc] at hth; cases hth
    cases ps with
    | nil => exact .inl ⟨_, .run hx hc, nocall_upd (by rw [hc]; nofun) rfl⟩
    | cons p ps =>
      cases he : s.ev p with
      | none => exact .inl ⟨_, .skip hx hc he, nocall_upd (by rw [hc]; nofun) rfl⟩
      | some e => exact .inl ⟨_, .wait hx hc he, nocall_upd (by rw [hc]; nofun) rfl⟩
  | run y k =>
    rw [hc] at hth; cases hth
    cases hf : s.free with
    | nil => exact .inl ⟨_, .create hx hc hf, nocall_upd (by rw [hc]; nofun) rfl⟩
    | cons e f => exact .inl ⟨_, .reuse hx hc hf, nocall_upd (by rw [hc]; nofun) rfl⟩
  | set y k e => rw [hc] at hth; cases hth; exact .inl ⟨_, .set hx hc, nocall_upd (by rw [hc]; nofun) rfl⟩
  | push y k e => rw [hc] at hth; cases hth; exact .inl ⟨_, .push hx hc, nocall_upd (by rw [hc]; nofun) rfl⟩
  | post y k e => rw [hc] at hth; cases hth; exact .inl ⟨_, .post hx hc, nocall_upd (by rw [hc]; nofun) rfl⟩
  | pop y k e => rw [hc] at hth; cases hth; exact .inl ⟨_, .pop hx hc, nocall_upd (by rw [hc]; nofun) rfl⟩

/-- No thread waits for the mutex of a stream that has a smaller number than a stream whose mutex it holds. -/
def Upward (s : State) : Prop := ∀ x t r k, s.stk x = t :: r → s.pc t = .enter x k → ∀ u ∈ r, ∀ l, (s.pc u).locked = some (x, l) → l ≤ k

theorem upward_one (h : Reach deps edges H S s) (h1 : S ≤ 1) : Upward s := by
  intro x t r k _ _ u _ l hl
  have := (inv h).stream u l (by cases hc : s.pc u <;> rw [hc] at hl <;> cases hl <;> rfl)
  omega

theorem upward_step (h : Reach deps edges H S s) (h1 : Upward s) : ∀ n k x t r, S - k ≤ n → s.stk x = t :: r → s.pc t = .enter x k → ¬ Avail H s x k →
    ∃ s', Step deps edges H S s s' ∧ NoCall s s' := by
  have I := inv h
  intro n
  induction n with
  | zero =>
    intro k x t r hn _ hk _
    have := I.stream t k (by rw [hk]; rfl)
    omega
  | succ n ih =>
    intro k x t r hn _ hk ha
    obtain ⟨u, v, hv, hl⟩ : ∃ u v, v ∈ s.stk u ∧ (s.pc v).locked = some (u, k) := by
      refine Classical.byContradiction fun hno => ha ?_
      intro u _ _ v hv hl
      exact hno ⟨u, v, hv, hl⟩
    cases hsu : s.stk u with
    | nil => rw [hsu] at hv; cases hv
    | cons w r' =>
      rcases host_step h hsu with h2 | ⟨k', hk', ha'⟩
      · exact h2
      · have hvr : v ∈ r' := by
          rw [hsu] at hv
          rcases List.mem_cons.mp hv with e | e
          · rw [e, hk'] at hl; cases hl
          · exact e
        have hle := h1 u w r' k' hsu hk' v hvr k hl
        have hne : k' ≠ k := by
          rintro rfl
          exact ha' fun y _ hne z _ hl' => hne (excl h z v k' y u hl' hl)
        exact ih k' u w r' (by omega) hsu hk' ha'

/-- C108, the part that holds of calls: With one thread, or if the threads wait for the mutexes of the streams in ascending order (in particular with one stream), calls
of the scheduler are never stuck. Missing: several threads that take the mutexes in any order, see `C108_deadlock_false`. -/
theorem C108_calls_not_stuck_partial (h : Reach deps edges H S s) (h1 : H ≤ 1 ∨ S ≤ 1 ∨ Upward s) {x : Nat} (hx : s.stk x ≠ []) :
    ∃ s', Step deps edges H S s s' ∧ NoCall s s' := by
  have I := inv h
  cases hs : s.stk x with
  | nil => exact absurd hs hx
  | cons t r =>
    rcases host_step h hs with h2 | ⟨k, hk, ha⟩
    · exact h2
    · have hxH := (I.thr t x (I.stk x t (hs ▸ List.mem_cons_self))).1
      rcases h1 with h1 | h1
      · exact absurd (fun u hu hne => absurd hne (by omega)) ha
      · exact upward_step h (h1.elim (upward_one h) id) (S - k) k x t r (Nat.le_refl _) hs hk ha

/-- C108: No task is forgotten. With one thread, or with one stream, or if no thread waits for a mutex out of order, when nothing can happen any more without activating another task, then all threads have returned
and the post-events of all activated tasks have been notified, once. Missing: several threads that take the mutexes in any order, see `C108_deadlock_false`. -/
theorem C108_all_notified_partial (h : Reach deps edges H S s) (hH : 0 < H) (h1 : H ≤ 1 ∨ S ≤ 1 ∨ Upward s) (hq : ∀ s', Step deps edges H S s s' → ¬ NoCall s s') :
    (∀ x, s.stk x = []) ∧ ∀ t, s.pc t ≠ .new → s.post t = 1 ∧ s.fin t = s.sub t := by
  have I := inv h
  have V := dev h
  have hi : ∀ x, s.stk x = [] := by
    intro x
    refine Decidable.byContradiction fun hx => ?_
    obtain ⟨s', h1, h2⟩ := C108_calls_not_stuck_partial h h1 hx
    exact hq s' h1 h2
  refine ⟨hi, fun t ht => ?_⟩
  have q0 : ∀ k, s.q k = [] := by
    intro k
    refine Decidable.byContradiction fun hk => ?_
    obtain ⟨s', h1, h2, -⟩ := C108_device_not_stuck h hk
    exact hq s' h1 (fun t ht => by rw [h2]; exact ht)
  have allrec : ∀ u, (s.pc u).returned = true → s.recd u = true := by
    intro u hu
    rcases V.subm u hu with h | ⟨k, c, hc, -⟩
    · exact h
    · rw [q0 k] at hc; cases hc
  have nt : (s.pc t).thread = none := by
    cases hth : (s.pc t).thread with
    | none => rfl
    | some x => have := (I.thr t x hth).2; rw [hi x] at this; cases this
  have hdone : ∃ k, s.pc t = .done k := by
    cases hc : s.pc t with
    | new => exact absurd hc ht
    | done k => exact ⟨k, rfl⟩
    | queued k e =>
      have hm := I.queued k e t (by rw [hc]; rfl)
      cases hev : s.events k with
      | nil => rw [hev] at hm; cases hm
      | cons a l =>
        obtain ⟨e', u⟩ := a
        have ha : Avail H s 0 k := by
          intro y _ _ z hz
          rw [hi y] at hz; cases hz
        have hs := Step.poll (deps := deps) (edges := edges) (S := S) hH (hi 0) ha hev (fun v hv => allrec v (I.lastlt e' v hv).2)
        exact absurd (nocall_upd (by rw [I.front (hi 0) ha hev]; nofun) rfl) (hq _ hs)
    | _ => rw [hc] at nt; cases nt
  obtain ⟨k, hk⟩ := hdone
  exact ⟨by rw [I.post t, hk]; rfl, fin_eq h (allrec t (by rw [hk]; rfl))⟩

/-! ### What is false, and examples -/

/-- task 1 depends on task 0, task 3 on task 2 -/
def chain (t : Nat) : List Nat := if t % 2 = 1 then [t - 1] else []

inductive Steps (deps edges : Nat → List Nat) (H S : Nat) (s : State) : State → Prop
  | refl : Steps deps edges H S s s
  | step {a b} (h : Steps deps edges H S s a) (hs : Step deps edges H S a b) : Steps deps edges H S s b

/-- two threads, each of which holds one mutex and waits for the other one -/
structure Stuck (s : State) : Prop where
  s0 : s.stk 0 = [1, 0]
  s1 : s.stk 1 = [3, 2]
  p1 : s.pc 1 = .enter 0 1
  p3 : s.pc 3 = .enter 1 0
  p0 : ∃ e, s.pc 0 = .push 0 0 e
  p2 : ∃ e, s.pc 2 = .push 1 1 e

theorem Stuck.step {a b : State} (h : Stuck a) (I : Inv 2 2 a) (hs : Step chain chain 2 2 a b) : Stuck b ∧ b.post = a.post := by
  obtain ⟨s0, s1, p1, p3, ⟨e0, p0⟩, ⟨e2, p2⟩⟩ := h
  have th : ∀ x t r, a.stk x = t :: r → (x = 0 ∧ t = 1) ∨ (x = 1 ∧ t = 3) := by
    intro x t r hx
    have hx2 := (I.thr t x (I.stk x t (hx ▸ List.mem_cons_self))).1
    have : x = 0 ∨ x = 1 := by omega
    rcases this with rfl | rfl
    · rw [s0] at hx; cases hx; exact .inl ⟨rfl, rfl⟩
    · rw [s1] at hx; cases hx; exact .inr ⟨rfl, rfl⟩
  have pcs : ∀ x t r, a.stk x = t :: r → ∃ k, a.pc t = .enter x k ∧ ¬ Avail 2 a x k := by
    intro x t r hx
    rcases th x t r hx with ⟨rfl, rfl⟩ | ⟨rfl, rfl⟩
    · exact ⟨1, p1, fun ha => ha 1 (by omega) (by omega) 2 (by rw [s1]; simp) (by rw [p2]; rfl)⟩
    · exact ⟨0, p3, fun ha => ha 0 (by omega) (by omega) 0 (by rw [s0]; simp) (by rw [p0]; rfl)⟩
  cases hs with
  | @call h k t hh hk hn hd hc =>
    have : h = 0 ∨ h = 1 := by omega
    rcases this with rfl | rfl
    · have := hc 1 (by rw [s0]; rfl); rw [p1] at this; cases this
    · have := hc 3 (by rw [s1]; rfl); rw [p3] at this; cases this
  | @poll h k e t l hh ht ha he hq =>
    have : h = 0 ∨ h = 1 := by omega
    rcases this with rfl | rfl
    · rw [s0] at ht; cases ht
    · rw [s1] at ht; cases ht
  | @lock h k t r ht hp ha =>
    obtain ⟨k', h1, h2⟩ := pcs h t r ht
    rw [hp] at h1; cases h1
    exact absurd ha h2
  | wait ht hp | skip ht hp | run ht hp | launch ht hp | reuse ht hp | create ht hp | set ht hp | push ht hp | post ht hp | pop ht hp =>
    obtain ⟨k', h1, -⟩ := pcs _ _ _ ht
    rw [hp] at h1; cases h1
  | start | finish | record | await => exact ⟨⟨s0, s1, p1, p3, ⟨e0, p0⟩, ⟨e2, p2⟩⟩, rfl⟩

/-- C108 is false for several threads and streams: `dispatch_task` notifies the pre-event of the task, and so dispatches the followers, while it holds the mutex of its
stream. Two threads that do so wait for each other for ever. -/
theorem C108_deadlock_false : ∃ s, Reach chain chain 2 2 s ∧ (∀ t, s.post t = 0) ∧
    ∀ s', Steps chain chain 2 2 s s' → (∀ t, s'.post t = 0) ∧ s'.pc 1 = .enter 0 1 ∧ s'.pc 3 = .enter 1 0 := by
  have a1 := Reach.step (deps := chain) (edges := chain) (H := 2) (S := 2) .init (.call (h := 0) (k := 0) (t := 0) (by decide) (by decide) rfl nofun nofun)
  have a2 := Reach.step a1 (.lock (h := 0) (k := 0) (t := 0) (r := []) rfl rfl (by decide))
  have a3 := Reach.step a2 (.run (h := 0) (k := 0) (t := 0) (r := []) rfl rfl)
  have a4 := Reach.step a3 (.create (h := 0) (k := 0) (t := 0) (r := []) rfl rfl rfl)
  have a5 := Reach.step a4 (.set (h := 0) (k := 0) (t := 0) (r := []) (e := 0) rfl rfl)
  have b1 := Reach.step a5 (.call (h := 1) (k := 1) (t := 2) (by decide) (by decide) rfl nofun nofun)
  have b2 := Reach.step b1 (.lock (h := 1) (k := 1) (t := 2) (r := []) rfl rfl (by decide))
  have b3 := Reach.step b2 (.run (h := 1) (k := 1) (t := 2) (r := []) rfl rfl)
  have b4 := Reach.step b3 (.create (h := 1) (k := 1) (t := 2) (r := []) rfl rfl rfl)
  have b5 := Reach.step b4 (.set (h := 1) (k := 1) (t := 2) (r := []) (e := 1) rfl rfl)
  have c1 := Reach.step b5 (.call (h := 0) (k := 1) (t := 1) (by decide) (by decide) rfl (by decide) (by intro t ht; cases ht; rfl))
  have c2 := Reach.step c1 (.call (h := 1) (k := 0) (t := 3) (by decide) (by decide) rfl (by decide) (by intro t ht; cases ht; rfl))
  refine ⟨_, c2, fun _ => rfl, ?_⟩
  intro s' hs
  suffices h : Reach chain chain 2 2 s' ∧ Stuck s' ∧ ∀ t, s'.post t = 0 from ⟨h.2.2, h.2.1.p1, h.2.1.p3⟩
  induction hs with
  | refl => exact ⟨c2, ⟨rfl, rfl, rfl, rfl, ⟨0, rfl⟩, ⟨1, rfl⟩⟩, fun _ => rfl⟩
  | step _ hs ih =>
    have := ih.2.1.step (inv ih.1) hs
    exact ⟨.step ih.1 hs, this.1, fun t => by rw [this.2]; exact ih.2.2 t⟩

/-- C108 is false if the loop over `in_edges` is removed, or the list is empty, and there are several streams: the work of task 1 is started while the work of task 0, on
which it depends, has not been completed. -/
theorem C108_no_edges_false : ∃ s, Reach chain (fun _ => []) 1 2 s ∧ 0 ∈ chain 1 ∧ 0 < s.started 1 ∧ s.sub 0 = 1 ∧ s.fin 0 = 0 := by
  have a1 := Reach.step (deps := chain) (edges := fun _ => []) (H := 1) (S := 2) .init (.call (h := 0) (k := 0) (t := 0) (by decide) (by decide) rfl nofun nofun)
  have a2 := Reach.step a1 (.lock (h := 0) (k := 0) (t := 0) (r := []) rfl rfl (by decide))
  have a3 := Reach.step a2 (.run (h := 0) (k := 0) (t := 0) (r := []) rfl rfl)
  have a3 := Reach.step a3 (.launch (h := 0) (k := 0) (t := 0) (r := []) rfl rfl)
  have a4 := Reach.step a3 (.create (h := 0) (k := 0) (t := 0) (r := []) rfl rfl rfl)
  have a5 := Reach.step a4 (.set (h := 0) (k := 0) (t := 0) (r := []) (e := 0) rfl rfl)
  have b1 := Reach.step a5 (.call (h := 0) (k := 1) (t := 1) (by decide) (by decide) rfl (by decide) (by intro t ht; cases ht; rfl))
  have b2 := Reach.step b1 (.lock (h := 0) (k := 1) (t := 1) (r := [0]) rfl rfl (by decide))
  have b4 := Reach.step b2 (.run (h := 0) (k := 1) (t := 1) (r := [0]) rfl rfl)
  have b4 := Reach.step b4 (.launch (h := 0) (k := 1) (t := 1) (r := [0]) rfl rfl)
  have d0 := Reach.step b4 (.start (k := 0) (n := 0) (t := 0) (l := [⟨1, .record 0⟩]) rfl rfl)
  have d4 := Reach.step d0 (.start (k := 1) (n := 2) (t := 1) (l := []) rfl rfl)
  exact ⟨_, d4, by decide, by decide, rfl, rfl⟩

/-- C108 is false for futures: the result of a task is announced when its body returns (task.hpp:79, 97), so `get` can return, with one thread and one stream, while the
work of the task has not been started. -/
theorem C108_future_false : ∃ s, Reach chain chain 1 1 s ∧ (s.pc 0).returned = true ∧ s.sub 0 = 1 ∧ s.started 0 = 0 := by
  have a1 := Reach.step (deps := chain) (edges := chain) (H := 1) (S := 1) .init (.call (h := 0) (k := 0) (t := 0) (by decide) (by decide) rfl nofun nofun)
  have a2 := Reach.step a1 (.lock (h := 0) (k := 0) (t := 0) (r := []) rfl rfl (by decide))
  have a3 := Reach.step a2 (.run (h := 0) (k := 0) (t := 0) (r := []) rfl rfl)
  have a3 := Reach.step a3 (.launch (h := 0) (k := 0) (t := 0) (r := []) rfl rfl)
  have a4 := Reach.step a3 (.create (h := 0) (k := 0) (t := 0) (r := []) rfl rfl rfl)
  exact ⟨_, a4, rfl, rfl, rfl⟩

/-- C108 is false for the order in which tasks are reported: also with one thread and one stream, the post-event of a task can be notified before that of the task on
which it depends, since the follower is put into the queue during the notification of the pre-event, before the task itself. -/
theorem C108_completion_order_false : ∃ s, Reach chain chain 1 1 s ∧ 0 ∈ chain 1 ∧ s.post 1 = 1 ∧ s.post 0 = 0 := by
  have a1 := Reach.step (deps := chain) (edges := chain) (H := 1) (S := 1) .init (.call (h := 0) (k := 0) (t := 0) (by decide) (by decide) rfl nofun nofun)
  have a2 := Reach.step a1 (.lock (h := 0) (k := 0) (t := 0) (r := []) rfl rfl (by decide))
  have a3 := Reach.step a2 (.run (h := 0) (k := 0) (t := 0) (r := []) rfl rfl)
  have a4 := Reach.step a3 (.create (h := 0) (k := 0) (t := 0) (r := []) rfl rfl rfl)
  have a5 := Reach.step a4 (.set (h := 0) (k := 0) (t := 0) (r := []) (e := 0) rfl rfl)
  have b1 := Reach.step a5 (.call (h := 0) (k := 0) (t := 1) (by decide) (by decide) rfl (by decide) (by intro t ht; cases ht; rfl))
  have b2 := Reach.step b1 (.lock (h := 0) (k := 0) (t := 1) (r := [0]) rfl rfl (by decide))
  have b3 := Reach.step b2 (.wait (h := 0) (k := 0) (t := 1) (r := [0]) (p := 0) (ps := []) (e := 0) rfl rfl rfl)
  have b4 := Reach.step b3 (.run (h := 0) (k := 0) (t := 1) (r := [0]) rfl rfl)
  have b5 := Reach.step b4 (.create (h := 0) (k := 0) (t := 1) (r := [0]) rfl rfl rfl)
  have b6 := Reach.step b5 (.set (h := 0) (k := 0) (t := 1) (r := [0]) (e := 1) rfl rfl)
  have b7 := Reach.step b6 (.push (h := 0) (k := 0) (t := 1) (r := [0]) (e := 1) rfl rfl)
  have a6 := Reach.step b7 (.push (h := 0) (k := 0) (t := 0) (r := []) (e := 0) rfl rfl)
  have d1 := Reach.step a6 (.record (k := 0) (n := 0) (t := 0) (l := [⟨1, .wait (some 0)⟩, ⟨2, .record 1⟩]) rfl)
  have d2 := Reach.step d1 (.await (k := 0) (n := 1) (r := some 0) (l := [⟨2, .record 1⟩]) rfl (by intro u hu; cases hu; rfl))
  have d3 := Reach.step d2 (.record (k := 0) (n := 2) (t := 1) (l := []) rfl)
  have e1 := Reach.step d3 (.poll (h := 0) (k := 0) (e := 1) (t := 1) (l := [(0, 0)]) (by decide) rfl (by decide) rfl (by intro t ht; cases ht; rfl))
  have e2 := Reach.step e1 (.post (h := 0) (k := 0) (t := 1) (r := []) (e := 1) rfl rfl)
  exact ⟨_, e2, by decide, rfl, rfl⟩

/-- One thread and two streams: task 0 has submitted work to stream 0, task 1 to stream 1, where it has been started. -/
theorem sample : ∃ s, Reach chain chain 1 2 s ∧ 0 < s.started 1 ∧ s.sub 0 = 1 ∧ s.fin 1 < s.sub 1 := by
  have a1 := Reach.step (deps := chain) (edges := chain) (H := 1) (S := 2) .init (.call (h := 0) (k := 0) (t := 0) (by decide) (by decide) rfl nofun nofun)
  have a2 := Reach.step a1 (.lock (h := 0) (k := 0) (t := 0) (r := []) rfl rfl (by decide))
  have a3 := Reach.step a2 (.run (h := 0) (k := 0) (t := 0) (r := []) rfl rfl)
  have a3 := Reach.step a3 (.launch (h := 0) (k := 0) (t := 0) (r := []) rfl rfl)
  have a4 := Reach.step a3 (.create (h := 0) (k := 0) (t := 0) (r := []) rfl rfl rfl)
  have a5 := Reach.step a4 (.set (h := 0) (k := 0) (t := 0) (r := []) (e := 0) rfl rfl)
  have b1 := Reach.step a5 (.call (h := 0) (k := 1) (t := 1) (by decide) (by decide) rfl (by decide) (by intro t ht; cases ht; rfl))
  have b2 := Reach.step b1 (.lock (h := 0) (k := 1) (t := 1) (r := [0]) rfl rfl (by decide))
  have b3 := Reach.step b2 (.wait (h := 0) (k := 1) (t := 1) (r := [0]) (p := 0) (ps := []) (e := 0) rfl rfl rfl)
  have b4 := Reach.step b3 (.run (h := 0) (k := 1) (t := 1) (r := [0]) rfl rfl)
  have b4 := Reach.step b4 (.launch (h := 0) (k := 1) (t := 1) (r := [0]) rfl rfl)
  have d0 := Reach.step b4 (.start (k := 0) (n := 0) (t := 0) (l := [⟨1, .record 0⟩]) rfl rfl)
  have d1 := Reach.step d0 (.finish (k := 0) (n := 0) (t := 0) (l := [⟨1, .record 0⟩]) rfl rfl)
  have d2 := Reach.step d1 (.record (k := 0) (n := 1) (t := 0) (l := []) rfl)
  have d3 := Reach.step d2 (.await (k := 1) (n := 2) (r := some 0) (l := [⟨3, .work 1⟩]) rfl (by intro u hu; cases hu; rfl))
  have d4 := Reach.step d3 (.start (k := 1) (n := 3) (t := 1) (l := []) rfl rfl)
  exact ⟨_, d4, by decide, rfl, by decide⟩

/-- nothing can happen without activating a task if the streams, the queues and the calls have ended -/
theorem rest (h1 : ∀ x, s.stk x = []) (h2 : ∀ k, s.q k = []) (h3 : ∀ k, s.events k = []) : ∀ s', Step deps edges H S s s' → ¬ NoCall s s' := by
  intro s' hs hn
  cases hs with
  | @call h k t hh hk hp hd hc => have := hn t hp; dsimp only at this; rw [upd_same] at this; cases this
  | lock ht | wait ht | skip ht | run ht | launch ht | reuse ht | create ht | set ht | push ht | post ht | pop ht => rw [h1] at ht; cases ht
  | poll _ _ _ he => rw [h3] at he; cases he
  | start hq | finish hq | record hq | await hq => rw [h2] at hq; cases hq

/-- a task that has been reported, with a piece of work -/
theorem sample_end : ∃ s, Reach chain chain 1 1 s ∧ s.pc 0 = .done 0 ∧ s.sub 0 = 1 ∧ s.fresh = 1 ∧ (∀ t, s.pc t = .new ∨ ∃ k, s.pc t = .done k) ∧
    ∀ s', Step chain chain 1 1 s s' → ¬ NoCall s s' := by
  have a1 := Reach.step (deps := chain) (edges := chain) (H := 1) (S := 1) .init (.call (h := 0) (k := 0) (t := 0) (by decide) (by decide) rfl nofun nofun)
  have a2 := Reach.step a1 (.lock (h := 0) (k := 0) (t := 0) (r := []) rfl rfl (by decide))
  have a3 := Reach.step a2 (.run (h := 0) (k := 0) (t := 0) (r := []) rfl rfl)
  have a3 := Reach.step a3 (.launch (h := 0) (k := 0) (t := 0) (r := []) rfl rfl)
  have a4 := Reach.step a3 (.create (h := 0) (k := 0) (t := 0) (r := []) rfl rfl rfl)
  have a5 := Reach.step a4 (.set (h := 0) (k := 0) (t := 0) (r := []) (e := 0) rfl rfl)
  have a6 := Reach.step a5 (.push (h := 0) (k := 0) (t := 0) (r := []) (e := 0) rfl rfl)
  have d0 := Reach.step a6 (.start (k := 0) (n := 0) (t := 0) (l := [⟨1, .record 0⟩]) rfl rfl)
  have d1 := Reach.step d0 (.finish (k := 0) (n := 0) (t := 0) (l := [⟨1, .record 0⟩]) rfl rfl)
  have d2 := Reach.step d1 (.record (k := 0) (n := 1) (t := 0) (l := []) rfl)
  have e1 := Reach.step d2 (.poll (h := 0) (k := 0) (e := 0) (t := 0) (l := []) (by decide) rfl (by decide) rfl (by intro t ht; cases ht; rfl))
  have e2 := Reach.step e1 (.post (h := 0) (k := 0) (t := 0) (r := []) (e := 0) rfl rfl)
  have e3 := Reach.step e2 (.pop (h := 0) (k := 0) (t := 0) (r := []) (e := 0) rfl rfl)
  refine ⟨_, e3, rfl, rfl, rfl, ?_, rest ?_ ?_ ?_⟩
  · intro t
    by_cases e : t = 0
    · subst e; exact .inr ⟨0, rfl⟩
    · left; simp [upd, e, init]
  · intro x
    by_cases e : x = 0
    · subst e; rfl
    · simp [upd, e, init]
  · intro x
    by_cases e : x = 0
    · subst e; rfl
    · simp [upd, e, init, State.add]
  · intro x
    by_cases e : x = 0
    · subst e; rfl
    · simp [upd, e, init]

example : ∃ s, Reach chain chain 1 2 s ∧ Before chain 0 1 ∧ 0 < s.started 1 ∧ s.fin 0 = s.sub 0 ∧ s.sub 0 = 1 := by
  obtain ⟨s, h, h1, h2, -⟩ := sample
  exact ⟨s, h, .one (by decide), h1, (C108_device_order_partial (.inl fun _ _ h => h) h (.one (by decide)) h1).2, h2⟩

example : ∃ s, Reach chain chain 1 1 s ∧ s.post 0 = 1 ∧ s.fin 0 = 1 := by
  obtain ⟨s, h, h1, h2, -, -, h3⟩ := sample_end
  have := (C108_all_notified_partial h (by decide) (.inl (by decide)) h3).2 0 (by rw [h1]; nofun)
  exact ⟨s, h, this.1, this.2.trans h2⟩

example : ∃ s, Reach chain chain 1 1 s ∧ s.pc 0 = .done 0 ∧ s.free = [0] := by
  obtain ⟨s, h, h1, -, h2, h3, -⟩ := sample_end
  have := (C108_events_not_lost h).2 h3
  rw [h2] at this
  exact ⟨s, h, h1, List.perm_singleton.mp this⟩

/-- two threads and two streams: thread 0 holds the mutex of stream 0 and waits for the one of stream 1, which thread 1 holds -/
example : ∃ s, Reach chain chain 2 2 s ∧ s.pc 1 = .enter 0 1 ∧ ¬ Avail 2 s 0 1 ∧ Upward s ∧ ∃ s', Step chain chain 2 2 s s' ∧ NoCall s s' := by
  have a1 := Reach.step (deps := chain) (edges := chain) (H := 2) (S := 2) .init (.call (h := 0) (k := 0) (t := 0) (by decide) (by decide) rfl nofun nofun)
  have a2 := Reach.step a1 (.lock (h := 0) (k := 0) (t := 0) (r := []) rfl rfl (by decide))
  have a3 := Reach.step a2 (.run (h := 0) (k := 0) (t := 0) (r := []) rfl rfl)
  have a4 := Reach.step a3 (.create (h := 0) (k := 0) (t := 0) (r := []) rfl rfl rfl)
  have a5 := Reach.step a4 (.set (h := 0) (k := 0) (t := 0) (r := []) (e := 0) rfl rfl)
  have b1 := Reach.step a5 (.call (h := 1) (k := 1) (t := 2) (by decide) (by decide) rfl nofun nofun)
  have b2 := Reach.step b1 (.lock (h := 1) (k := 1) (t := 2) (r := []) rfl rfl (by decide))
  have c1 := Reach.step b2 (.call (h := 0) (k := 1) (t := 1) (by decide) (by decide) rfl (by decide) (by intro t ht; cases ht; rfl))
  suffices key : ∀ s, Reach chain chain 2 2 s → s.stk 0 = [1, 0] → s.stk 1 = [2] → (∀ x, x ≠ 0 → x ≠ 1 → s.stk x = []) → s.pc 1 = .enter 0 1 → ¬ Avail 2 s 0 1 →
      s.pc 1 = .enter 0 1 ∧ ¬ Avail 2 s 0 1 ∧ Upward s ∧ ∃ s', Step chain chain 2 2 s s' ∧ NoCall s s' from
    ⟨_, c1, key _ c1 rfl rfl (by intro x h0 h1; simp [upd, h0, h1, init]) rfl (by decide)⟩
  intro s h s0 s1 s2 hp ha
  have up : Upward s := by
    intro x t r k hx hk u hu l hl
    have hlt := (inv h).stream u l (by cases hc : s.pc u <;> rw [hc] at hl <;> cases hl <;> rfl)
    by_cases e : x = 0
    · subst e
      rw [s0] at hx
      cases hx
      rw [hp] at hk
      cases hk
      omega
    · by_cases e' : x = 1
      · subst e'; rw [s1] at hx; cases hx; cases hu
      · rw [s2 x e e'] at hx; cases hx
  exact ⟨hp, ha, up, C108_calls_not_stuck_partial h (.inr (.inr up)) (x := 0) (by rw [s0]; nofun)⟩

end RG.Cuda
