import Verif.Model.Context
/-
Properties C46, C49, C53.
-/
namespace RG.Ctx

/-! ### C49 -/

/-- Spec: histories. `Run s creator`: the state after some history in which task number `i` was
emplaced by the task `creator[i]` (`none`: from outside of any task). -/
inductive Run : State → List (Option Nat) → Prop
  | init : Run State.init []
  | emplace {s s' cr cur} : Run s cr → emplace s cur = some s' → Run s' (cr ++ [cur])
  | query {s s' cr cur d} : Run s cr → scopeDepth s cur = some (s', d) → Run s' cr

/-- Spec: the chain of ancestors, starting with the task itself. -/
inductive Chain (cr : List (Option Nat)) : Option Nat → List Nat → Prop
  | nil : Chain cr none []
  | cons {t p l} : cr[t]? = some p → Chain cr p l → Chain cr (some t) (t :: l)

structure Inv (s : State) (cr : List (Option Nat)) : Prop where
  len : s.tasks.length = cr.length
  older : ∀ t p : Nat, cr[t]? = some (some p) → p < t
  root : ∃ rest, s.spaces = ⟨0, none⟩ :: rest
  space : ∀ (t : Nat) (r : TaskRec), s.tasks[t]? = some r → ∃ sp : Space, s.spaces[r.space]? = some sp ∧ cr[t]? = some sp.parent
  depth : ∀ (i : Nat) (sp : Space), s.spaces[i]? = some sp →
    match sp.parent with
    | none => sp.depth = 0
    | some p => ∃ d, depthOf s p = some d ∧ sp.depth = d + 1
  children : ∀ (t : Nat) (r : TaskRec) (c : Nat), s.tasks[t]? = some r → r.children = some c →
    ∃ sp : Space, s.spaces[c]? = some sp ∧ sp.parent = some t

theorem depthOf_mono {s s' : State} {t d : Nat}
    (hsp : ∀ (i : Nat) (x : Space), s.spaces[i]? = some x → s'.spaces[i]? = some x)
    (hts : ∀ (i : Nat) (r : TaskRec), s.tasks[i]? = some r → ∃ r' : TaskRec, s'.tasks[i]? = some r' ∧ r'.space = r.space)
    (h : depthOf s t = some d) : depthOf s' t = some d := by
  unfold depthOf at *
  cases hr : s.tasks[t]? with
  | none => simp [hr] at h
  | some r =>
    obtain ⟨r', hr', e⟩ := hts t r hr
    simp only [hr, hr', Option.bind_eq_bind, Option.bind_some] at h ⊢
    rw [e]
    cases hs : s.spaces[r.space]? with
    | none => simp [hs] at h
    | some sp => rw [hsp _ _ hs]; rw [hs] at h; exact h

theorem append_getElem? {α} {l : List α} {x y : α} {i : Nat} (h : l[i]? = some x) :
    (l ++ [y])[i]? = some x := by
  have : i < l.length := by
    rcases Nat.lt_or_ge i l.length with h1 | h1
    · exact h1
    · rw [List.getElem?_eq_none_iff.2 h1] at h; cases h
  rw [List.getElem?_append_left this]; exact h

theorem getElem?_lt {α} {l : List α} {x : α} {i : Nat} (h : l[i]? = some x) : i < l.length := by
  rcases Nat.lt_or_ge i l.length with h1 | h1
  · exact h1
  · rw [List.getElem?_eq_none_iff.2 h1] at h; cases h

/-- `current_task_space` keeps the invariant and returns the space belonging to the current task. -/
theorem inv_cts {s s' : State} {cr : List (Option Nat)} {cur : Option Nat} {c : Nat}
    (hi : Inv s cr) (h : currentTaskSpace s cur = some (s', c)) :
    Inv s' cr ∧ s'.tasks.length = s.tasks.length ∧
      ∃ sp, s'.spaces[c]? = some sp ∧ sp.parent = cur ∧ (∀ t, cur = some t → t < cr.length) := by
  unfold currentTaskSpace at h
  cases cur with
  | none =>
    simp only [Option.some.injEq, Prod.mk.injEq] at h
    obtain ⟨rfl, rfl⟩ := h
    obtain ⟨rest, hr⟩ := hi.root
    exact ⟨hi, rfl, ⟨0, none⟩, by simp [hr], rfl, by simp⟩
  | some t =>
    cases hr : s.tasks[t]? with
    | none => simp [hr] at h
    | some r =>
      have htl : t < cr.length := hi.len ▸ getElem?_lt hr
      simp only [hr, Option.bind_eq_bind, Option.bind_some] at h
      cases hc : r.children with
      | some c' =>
        simp only [hc, Option.pure_def, Option.some.injEq, Prod.mk.injEq] at h
        obtain ⟨rfl, rfl⟩ := h
        obtain ⟨sp, h1, h2⟩ := hi.children t r _ hr hc
        exact ⟨hi, rfl, sp, h1, h2, by rintro _ ⟨⟩; exact htl⟩
      | none =>
        cases hd : depthOf s t with
        | none => simp [hc, hd] at h
        | some d =>
          simp only [hc, hd, Option.bind_some, Option.pure_def, Option.some.injEq,
            Prod.mk.injEq] at h
          obtain ⟨rfl, rfl⟩ := h
          have hsp : ∀ (i : Nat) (x : Space), s.spaces[i]? = some x →
              (s.spaces ++ [(⟨d + 1, some t⟩ : Space)])[i]? = some x :=
            fun i x hx => append_getElem? hx
          have hts : ∀ (i : Nat) (r0 : TaskRec), s.tasks[i]? = some r0 →
              ∃ r' : TaskRec, (s.tasks.set t { r with children := some s.spaces.length })[i]? = some r' ∧
                r'.space = r0.space := by
            intro i r0 h0
            by_cases hit : t = i
            · subst hit
              rw [hr] at h0; cases h0
              exact ⟨{ r with children := some s.spaces.length }, by
                rw [List.getElem?_set_self (getElem?_lt hr)], rfl⟩
            · exact ⟨r0, by rw [List.getElem?_set_ne hit]; exact h0, rfl⟩
          have hnew : (s.spaces ++ [(⟨d + 1, some t⟩ : Space)])[s.spaces.length]? =
              some ⟨d + 1, some t⟩ := by simp
          refine ⟨⟨by simp [hi.len], hi.older, ?_, ?_, ?_, ?_⟩, by simp, _, hnew, rfl,
            by rintro _ ⟨⟩; exact htl⟩
          · obtain ⟨rest, hr⟩ := hi.root
            exact ⟨rest ++ [⟨d + 1, some t⟩], by simp [hr]⟩
          · intro i r' h'
            have : ∃ r0, s.tasks[i]? = some r0 ∧ r'.space = r0.space := by
              by_cases hit : t = i
              · subst hit
                rw [List.getElem?_set_self (getElem?_lt hr)] at h'
                cases h'
                exact ⟨r, hr, rfl⟩
              · rw [List.getElem?_set_ne hit] at h'
                exact ⟨r', h', rfl⟩
            obtain ⟨r0, h0, e⟩ := this
            obtain ⟨sp, h1, h2⟩ := hi.space i r0 h0
            exact ⟨sp, by rw [e]; exact hsp _ _ h1, h2⟩
          · intro i sp h'
            by_cases hil : i < s.spaces.length
            · have h0 : s.spaces[i]? = some sp := by
                rw [← List.getElem?_append_left (l₂ := [(⟨d + 1, some t⟩ : Space)]) hil]; exact h'
              have := hi.depth i sp h0
              cases hp : sp.parent with
              | none => rw [hp] at this; exact this
              | some p =>
                rw [hp] at this
                obtain ⟨d', h1, h2⟩ := this
                exact ⟨d', depthOf_mono (s' := ⟨_, _⟩) hsp hts h1, h2⟩
            · have : i = s.spaces.length := by
                have := getElem?_lt h'
                simp only [List.length_append, List.length_singleton] at this
                omega
              subst this
              rw [hnew] at h'; cases h'
              exact ⟨d, depthOf_mono (s' := ⟨_, _⟩) hsp hts hd, rfl⟩
          · intro i r' c' h' hc'
            by_cases hit : t = i
            · subst hit
              rw [List.getElem?_set_self (getElem?_lt hr)] at h'
              cases h'
              simp only [Option.some.injEq] at hc'
              subst hc'
              exact ⟨_, hnew, rfl⟩
            · rw [List.getElem?_set_ne hit] at h'
              obtain ⟨sp, h1, h2⟩ := hi.children i r' c' h' hc'
              exact ⟨sp, hsp _ _ h1, h2⟩

theorem scopeDepth_cts {s s' : State} {cur : Option Nat} {d : Nat}
    (h : scopeDepth s cur = some (s', d)) :
    ∃ c sp, currentTaskSpace s cur = some (s', c) ∧ s'.spaces[c]? = some sp ∧ sp.depth = d := by
  unfold scopeDepth at h
  cases hc : currentTaskSpace s cur with
  | none => simp [hc] at h
  | some x =>
    obtain ⟨s1, c⟩ := x
    simp only [hc, Option.bind_eq_bind, Option.bind_some] at h
    cases hs : s1.spaces[c]? with
    | none => simp [hs] at h
    | some sp =>
      simp only [hs, Option.bind_some, Option.pure_def, Option.some.injEq, Prod.mk.injEq] at h
      obtain ⟨rfl, rfl⟩ := h
      exact ⟨c, sp, rfl, hs, rfl⟩

theorem run_inv {s : State} {cr : List (Option Nat)} (h : Run s cr) : Inv s cr := by
  induction h with
  | init =>
    refine ⟨rfl, by simp, ⟨[], rfl⟩, by simp [State.init], ?_, by simp [State.init]⟩
    intro i sp h
    cases i with
    | zero => simp only [State.init, List.getElem?_cons_zero, Option.some.injEq] at h; subst h; rfl
    | succ i => simp [State.init] at h
  | @emplace s s' cr cur _ he ih =>
    unfold emplace at he
    cases hc : currentTaskSpace s cur with
    | none => simp [hc] at he
    | some x =>
      obtain ⟨s1, c⟩ := x
      simp only [hc, Option.bind_eq_bind, Option.bind_some, Option.pure_def,
        Option.some.injEq] at he
      subst he
      obtain ⟨hi, hlen, sp, hsp, hpar, hcur⟩ := inv_cts ih hc
      have hts : ∀ (i : Nat) (r : TaskRec), s1.tasks[i]? = some r →
          ∃ r' : TaskRec, (s1.tasks ++ [(⟨c, none⟩ : TaskRec)])[i]? = some r' ∧ r'.space = r.space :=
        fun i r h => ⟨r, append_getElem? h, rfl⟩
      refine ⟨by simp [hi.len], ?_, hi.root, ?_, ?_, ?_⟩
      · intro t p h
        by_cases ht : t < cr.length
        · rw [List.getElem?_append_left ht] at h; exact hi.older t p h
        · have : t = cr.length := by
            have := getElem?_lt h
            simp only [List.length_append, List.length_singleton] at this; omega
          subst this
          simp only [List.getElem?_concat_length, Option.some.injEq] at h
          exact hcur p h
      · intro t r h
        by_cases ht : t < s1.tasks.length
        · rw [List.getElem?_append_left ht] at h
          obtain ⟨sp, h1, h2⟩ := hi.space t r h
          exact ⟨sp, h1, append_getElem? h2⟩
        · have : t = s1.tasks.length := by
            have := getElem?_lt h
            simp only [List.length_append, List.length_singleton] at this; omega
          subst this
          simp only [List.getElem?_concat_length, Option.some.injEq] at h
          subst h
          refine ⟨sp, hsp, ?_⟩
          rw [hi.len, hpar]; simp
      · intro i sp h
        have := hi.depth i sp h
        cases hp : sp.parent with
        | none => rw [hp] at this; exact this
        | some p =>
          rw [hp] at this
          obtain ⟨d', h1, h2⟩ := this
          exact ⟨d', depthOf_mono (s := s1) (s' := ⟨_, _⟩) (fun _ _ h => h) hts h1, h2⟩
      · intro t r c' h hc'
        by_cases ht : t < s1.tasks.length
        · rw [List.getElem?_append_left ht] at h
          exact hi.children t r c' h hc'
        · have : t = s1.tasks.length := by
            have := getElem?_lt h
            simp only [List.length_append, List.length_singleton] at this; omega
          subst this
          simp only [List.getElem?_concat_length, Option.some.injEq] at h
          subst h
          cases hc'
  | query _ hq ih =>
    obtain ⟨c, sp, h1, _⟩ := scopeDepth_cts hq
    exact (inv_cts ih h1).1

theorem chain_of_inv {s : State} {cr : List (Option Nat)} (hi : Inv s cr) (fuel : Nat) :
    ∀ t, t < cr.length → t < fuel → ∃ l, backtraceLoop s fuel (some t) = some (t :: l) ∧
      Chain cr (some t) (t :: l) ∧ depthOf s t = some l.length := by
  induction fuel with
  | zero => intro t _ h; omega
  | succ fuel ih =>
    intro t ht hf
    have htl : t < s.tasks.length := hi.len.symm ▸ ht
    obtain ⟨r, hr⟩ : ∃ r, s.tasks[t]? = some r := ⟨_, List.getElem?_eq_getElem htl⟩
    obtain ⟨sp, h1, h2⟩ := hi.space t r hr
    have hd := hi.depth _ sp h1
    cases hp : sp.parent with
    | none =>
      rw [hp] at h2 hd
      refine ⟨[], ?_, .cons h2 .nil, ?_⟩
      · simp [backtraceLoop, hr, h1, hp]
      · simp [depthOf, hr, h1]; exact hd
    | some p =>
      rw [hp] at h2 hd
      have hlt := hi.older t p h2
      obtain ⟨l, e, hc, hdep⟩ := ih p (by omega) (by omega)
      refine ⟨p :: l, ?_, .cons h2 hc, ?_⟩
      · simp [backtraceLoop, hr, h1, hp, e]
      · obtain ⟨d, h3, h4⟩ := hd
        simp only [depthOf, hr, h1, Option.bind_eq_bind, Option.bind_some, Option.pure_def,
          Option.some.injEq, List.length_cons]
        rw [h4]
        rw [hdep] at h3
        simpa using h3.symm

/-- C49: `backtrace` called in any task (or outside) lists the task and its chain of creators, from
the inside to a root task, and `scope_depth` called at the same place is the number of entries. -/
theorem C49_backtrace_is_ancestry {s : State} {cr : List (Option Nat)} (h : Run s cr)
    (cur : Option Nat) (hcur : ∀ t, cur = some t → t < cr.length) :
    ∃ l s', backtrace s cur = some l ∧ Chain cr cur l ∧ scopeDepth s cur = some (s', l.length) := by
  have hi := run_inv h
  cases cur with
  | none =>
    obtain ⟨rest, hr⟩ := hi.root
    refine ⟨[], s, ?_, .nil, ?_⟩
    · unfold backtrace; cases s.tasks.length <;> rfl
    · simp [scopeDepth, currentTaskSpace, hr]
  | some t =>
    have ht := hcur t rfl
    obtain ⟨l, e, hc, hd⟩ := chain_of_inv hi s.tasks.length t ht (hi.len.symm ▸ ht)
    have htl : t < s.tasks.length := hi.len.symm ▸ ht
    obtain ⟨r, hr⟩ : ∃ r, s.tasks[t]? = some r := ⟨_, List.getElem?_eq_getElem htl⟩
    cases hch : r.children with
    | some c =>
      obtain ⟨sp, h1, h2⟩ := hi.children t r c hr hch
      have h3 := hi.depth _ sp h1
      rw [h2] at h3
      obtain ⟨d, h4, h5⟩ := h3
      rw [hd] at h4
      cases h4
      refine ⟨t :: l, s, e, hc, ?_⟩
      simp [scopeDepth, currentTaskSpace, hr, hch, h1, h5]
    | none =>
      refine ⟨t :: l, ⟨s.spaces ++ [⟨l.length + 1, some t⟩],
        s.tasks.set t { r with children := some s.spaces.length }⟩, e, hc, ?_⟩
      simp only [scopeDepth, currentTaskSpace, hr, hch, hd, Option.bind_eq_bind, Option.bind_some,
        Option.pure_def, List.getElem?_concat_length, List.length_cons]

/-- concrete case: task 0 outside, task 1 inside task 0, task 2 inside task 1 -/
theorem c49_sample : ∃ s, Run s [none, some 0, some 1] ∧ backtrace s (some 2) = some [2, 1, 0] :=
  ⟨_, .emplace (.emplace (.emplace .init rfl) rfl) rfl, by decide⟩

/-! ### C46 -/

theorem count_assigned (n : Nat) (hn : 0 < n) (k : Nat) (start : Nat) (w : Nat) (hw : w < n)
    (hk : start + k ≤ 2 ^ 32) :
    (assigned n k (BitVec.ofNat 32 start)).count w + (start / n + if w < start % n then 1 else 0) =
      (start + k) / n + (if w < (start + k) % n then 1 else 0) := by
  induction k generalizing start with
  | zero => simp [assigned]
  | succ k ih =>
    have h1 : (BitVec.ofNat 32 start).toNat = start := by
      rw [BitVec.toNat_ofNat]; exact Nat.mod_eq_of_lt (by omega)
    have h2 : BitVec.ofNat 32 start + 1 = BitVec.ofNat 32 (start + 1) := by
      apply BitVec.eq_of_toNat_eq; simp [BitVec.toNat_add, BitVec.toNat_ofNat]
    simp only [assigned, nextArena, emplaceWorker, h1, Nat.mod_mod, h2, List.count_cons, beq_iff_eq]
    have := ih (start + 1) (by omega)
    have e : start + (k + 1) = start + 1 + k := by omega
    rw [e, ← this]
    have hm := Nat.mod_lt start hn
    -- one step of the division
    have hdiv : (start + 1) / n = start / n + (if start % n + 1 = n then 1 else 0) := by
      have hs := Nat.div_add_mod start n
      split
      · rename_i hh
        have : start + 1 = n * (start / n + 1) := by rw [Nat.mul_add]; omega
        rw [this, Nat.mul_div_cancel_left _ hn]
      · have : start + 1 = (start % n + 1) + n * (start / n) := by omega
        rw [this, Nat.add_mul_div_left _ _ hn, Nat.div_eq_of_lt (by omega)]; simp
    have hmod : (start + 1) % n = if start % n + 1 = n then 0 else start % n + 1 := by
      rw [Nat.add_mod]
      rcases Nat.lt_or_ge 1 n with h | h
      · rw [Nat.mod_eq_of_lt h]
        split
        · rename_i hh; rw [hh]; exact Nat.mod_self n
        · exact Nat.mod_eq_of_lt (by omega)
      · have : n = 1 := by omega
        subst this
        simp [Nat.mod_one]
    rw [hdiv, hmod]
    split <;> split <;> split <;> (try split) <;> omega

/-- C46 (the part that holds): up to 2^32 submissions of one thread the numbers of tasks assigned to
two workers differ by at most one. Missing: more than 2^32 submissions, where the 32-bit counter
wraps around, see `C46_false_after_wraparound`, `C46_even_spread_iff` and `C46_unbounded_false`. -/
theorem C46_even_spread_partial (n k : Nat) (hn : 0 < n) (hk : k ≤ 2 ^ 32) (v w : Nat) (hv : v < n)
    (hw : w < n) :
    (assigned n k 0).count v ≤ (assigned n k 0).count w + 1 := by
  have a := count_assigned n hn k 0 v hv (by omega)
  have b := count_assigned n hn k 0 w hw (by omega)
  simp only [Nat.zero_div, Nat.zero_mod, Nat.not_lt_zero, if_false, Nat.zero_add, Nat.add_zero]
    at a b
  have e : BitVec.ofNat 32 0 = 0 := rfl
  rw [e] at a b
  rw [a, b]
  split <;> split <;> omega

/-- C46: every task gets an existing worker. -/
theorem C46_worker_exists (n k : Nat) (hn : 0 < n) (c : BitVec 32) :
    ∀ w ∈ assigned n k c, w < n := by
  induction k generalizing c with
  | zero => simp [assigned]
  | succ k ih =>
    intro w hw
    simp only [assigned, List.mem_cons] at hw
    rcases hw with rfl | hw
    · exact Nat.mod_lt _ hn
    · exact ih _ w hw

theorem assigned_add (n k m : Nat) (c : BitVec 32) :
    assigned n (k + m) c = assigned n k c ++ assigned n m (c + BitVec.ofNat 32 k) := by
  induction k generalizing c with
  | zero => simp [assigned]
  | succ k ih =>
    have : k + 1 + m = (k + m) + 1 := by omega
    rw [this]
    simp only [assigned, nextArena, List.cons_append]
    rw [ih]
    have e : c + 1 + BitVec.ofNat 32 k = c + BitVec.ofNat 32 (k + 1) := by
      apply BitVec.eq_of_toNat_eq
      simp only [BitVec.toNat_add, BitVec.toNat_ofNat]
      have : (1 : BitVec 32).toNat = 1 := rfl
      rw [this]
      omega
    rw [e]

/-- C46 is false of the code after the counter wrapped around: with three workers, after 2^32 + 1
submissions worker 0 has got two tasks more than worker 1. -/
theorem C46_false_after_wraparound :
    (assigned 3 (2 ^ 32 + 1) 0).count 0 = (assigned 3 (2 ^ 32 + 1) 0).count 1 + 2 := by
  rw [assigned_add]
  have a := count_assigned 3 (by omega) (2 ^ 32) 0 0 (by omega) (by omega)
  have b := count_assigned 3 (by omega) (2 ^ 32) 0 1 (by omega) (by omega)
  have e : BitVec.ofNat 32 0 = 0 := rfl
  rw [e] at a b
  have z : (0 : BitVec 32) + BitVec.ofNat 32 (2 ^ 32) = 0 := by decide
  rw [z]
  have o : assigned 3 1 0 = [0] := by decide
  rw [o, List.count_append, List.count_append]
  simp only [List.count_cons, List.count_nil, beq_iff_eq, if_true,
    Nat.zero_ne_one, if_false] at *
  rw [if_neg (by omega), if_pos (by omega)] at a
  rw [if_neg (by omega), if_neg (by omega)] at b
  omega

/-- the number of tasks of a worker, also after the counter has wrapped around `m` times -/
theorem count_rounds (n : Nat) (hn : 0 < n) (m r : Nat) (hr : r ≤ 2 ^ 32) (w : Nat) (hw : w < n) :
    (assigned n (m * 2 ^ 32 + r) 0).count w =
      m * (2 ^ 32 / n + if w < 2 ^ 32 % n then 1 else 0) + (r / n + if w < r % n then 1 else 0) := by
  have e : BitVec.ofNat 32 0 = 0 := rfl
  have one : ∀ k, k ≤ 2 ^ 32 → (assigned n k 0).count w = k / n + if w < k % n then 1 else 0 := by
    intro k hk
    have a := count_assigned n hn k 0 w hw (by omega)
    simp only [Nat.zero_div, Nat.zero_mod, Nat.not_lt_zero, if_false, Nat.zero_add, Nat.add_zero] at a
    rw [e] at a
    exact a
  induction m with
  | zero => rw [Nat.zero_mul, Nat.zero_mul, Nat.zero_add, Nat.zero_add]; exact one r hr
  | succ m ih =>
    have h : (m + 1) * 2 ^ 32 + r = 2 ^ 32 + (m * 2 ^ 32 + r) := by omega
    have z : (0 : BitVec 32) + BitVec.ofNat 32 (2 ^ 32) = 0 := by decide
    rw [h, assigned_add, List.count_append, z, ih, one _ (Nat.le_refl _), Nat.add_mul, Nat.one_mul]
    omega

/-- C46 is false for other numbers of workers, and not only by one or two tasks: each time the counter wraps around, the first worker gets one task more than the
last one. -/
theorem C46_unbounded_false (n : Nat) (hn : 0 < n) (hd : ¬ n ∣ 2 ^ 32) (m : Nat) :
    (assigned n (m * 2 ^ 32) 0).count 0 = (assigned n (m * 2 ^ 32) 0).count (n - 1) + m := by
  have hne : 2 ^ 32 % n ≠ 0 := fun h => hd (Nat.dvd_of_mod_eq_zero h)
  have hlt := Nat.mod_lt (2 ^ 32) hn
  have h1 := count_rounds n hn m 0 (by omega) 0 hn
  have h2 := count_rounds n hn m 0 (by omega) (n - 1) (by omega)
  rw [if_pos (by omega)] at h1
  rw [if_neg (by omega)] at h2
  simp only [Nat.zero_mod, Nat.not_lt_zero, if_false, Nat.add_zero, Nat.zero_div] at h1 h2
  rw [h1, h2, Nat.mul_add]
  omega

/-- C46: The tasks of a thread are spread evenly for ever exactly if the number of workers divides 2^32, that is, if it is a power of two. -/
theorem C46_even_spread_iff (n : Nat) (hn : 0 < n) :
    (∀ k v w, v < n → w < n → (assigned n k 0).count v ≤ (assigned n k 0).count w + 1) ↔ n ∣ 2 ^ 32 := by
  constructor
  · intro h
    refine Decidable.byContradiction fun hd => ?_
    have h1 := h (2 * 2 ^ 32) 0 (n - 1) hn (by omega)
    rw [C46_unbounded_false n hn hd 2] at h1
    omega
  · intro hd k v w hv hw
    have hz := Nat.mod_eq_zero_of_dvd hd
    have hk : k = k / 2 ^ 32 * 2 ^ 32 + k % 2 ^ 32 := by omega
    rw [hk, count_rounds n hn _ _ (by omega) v hv, count_rounds n hn _ _ (by omega) w hw, hz]
    simp only [Nat.not_lt_zero, if_false]
    generalize k / 2 ^ 32 * (2 ^ 32 / n + 0) = x
    split <;> split <;> omega

example : ¬ (3 ∣ 2 ^ 32) ∧ 4 ∣ 2 ^ 32 := by decide

/-- The workers that get the tasks of several threads; the threads submit `ks` tasks. Each thread has its own counter (redGrapes.hpp:82 `thread_local`), which begins at 0. -/
def assignedAll (n : Nat) (ks : List Nat) : List Nat := ks.flatMap fun k => assigned n k 0

/-- C46 for several threads (the part that holds): the numbers of tasks of two workers differ by at most the number of threads. Missing: that they differ by at most
one, see `C46_threads_false`. -/
theorem C46_threads_partial (n : Nat) (hn : 0 < n) (ks : List Nat) (hk : ∀ k ∈ ks, k ≤ 2 ^ 32) (v w : Nat) (hv : v < n) (hw : w < n) :
    (assignedAll n ks).count v ≤ (assignedAll n ks).count w + ks.length := by
  induction ks with
  | nil => simp [assignedAll]
  | cons k ks ih =>
    have h1 := C46_even_spread_partial n k hn (hk k (List.mem_cons_self ..)) v w hv hw
    have h2 := ih fun k h => hk k (List.mem_cons_of_mem _ h)
    simp only [assignedAll, List.flatMap_cons, List.count_append, List.length_cons] at h2 ⊢
    omega

/-- C46 is false for several threads, in particular for tasks that create tasks: if each of `m` threads submits one task, worker 0 gets all of them. -/
theorem C46_threads_false (n : Nat) (hn : 0 < n) (m : Nat) :
    (assignedAll n (List.replicate m 1)).count 0 = m ∧ ∀ w, w ≠ 0 → (assignedAll n (List.replicate m 1)).count w = 0 := by
  have one : assigned n 1 0 = [0] := by simp [assigned, nextArena, emplaceWorker]
  have h : assignedAll n (List.replicate m 1) = List.replicate m 0 := by
    induction m with
    | zero => rfl
    | succ m ih =>
      rw [List.replicate_succ, List.replicate_succ, ← ih]
      simp only [assignedAll, List.flatMap_cons, one]
      rfl
  rw [h]
  refine ⟨List.count_replicate_self, fun w hw => ?_⟩
  rw [List.count_eq_zero]
  intro hm
  exact hw (List.eq_of_mem_replicate hm)

example : assignedAll 4 [2, 3, 1] = [0, 1, 0, 1, 2, 0] := by decide

example : assigned 3 7 0 = [0, 1, 2, 0, 1, 2, 0] := by decide

/-! ### C53 -/

/-- Spec: where the handles come from: for each handle the number of the creation it stems from. -/
def origins : List IdOp → List Nat → Nat → List Nat
  | [], l, _ => l
  | .create :: os, l, n => origins os (l ++ [n]) (n + 1)
  | .copy h :: os, l, n => origins os (l ++ (l[h]?).toList) n

/-- Spec: number of created resources. -/
def creations (os : List IdOp) : Nat := os.countP (· == .create)

theorem idRun_handles (os : List IdOp) (l : List Nat) (n : Nat) (s' : IdState)
    (h : idRun ⟨l.map fun k => ⟨k, BitVec.ofNat 32 k⟩, n, BitVec.ofNat 32 n⟩ os = some s') :
    s'.handles = (origins os l n).map fun k => ⟨k, BitVec.ofNat 32 k⟩ := by
  induction os generalizing l n with
  | nil => simp only [idRun, Option.some.injEq] at h; subst h; rfl
  | cons o os ih =>
    cases o with
    | create =>
      simp only [idRun, idStep, Option.bind_some] at h
      have e : BitVec.ofNat 32 n + 1 = BitVec.ofNat 32 (n + 1) := by
        apply BitVec.eq_of_toNat_eq; simp [BitVec.toNat_add, BitVec.toNat_ofNat]
      rw [e] at h
      exact ih (l ++ [n]) (n + 1) (by simpa using h)
    | copy i =>
      simp only [idRun, idStep, List.getElem?_map] at h
      cases hi : l[i]? with
      | none => simp [hi] at h
      | some k =>
        simp only [hi, Option.map_some, Option.bind_some] at h
        have := ih (l ++ [k]) n (by simpa using h)
        rw [this]
        simp [origins, hi]

theorem origins_lt (os : List IdOp) (l : List Nat) (n : Nat) (hl : ∀ k ∈ l, k < n) :
    ∀ k ∈ origins os l n, k < n + creations os := by
  induction os generalizing l n with
  | nil => simpa [origins, creations] using hl
  | cons o os ih =>
    cases o with
    | create =>
      intro k hk
      have := ih (l ++ [n]) (n + 1) (by
        intro k hk
        rcases List.mem_append.1 hk with h | h
        · exact Nat.lt_succ_of_lt (hl k h)
        · simp only [List.mem_singleton] at h; omega) k hk
      simp only [creations, List.countP_cons] at this ⊢
      simp only [beq_self_eq_true, if_true]
      omega
    | copy i =>
      intro k hk
      have := ih (l ++ (l[i]?).toList) n (by
        intro k hk
        rcases List.mem_append.1 hk with h | h
        · exact hl k h
        · simp only [Option.mem_toList] at h
          exact hl k (List.mem_of_getElem? h)) k hk
      simpa [creations, List.countP_cons] using this

/-- C53: as long as at most 2^32 resources are created, two handles carry the same identifier exactly
if they stem from the same creation, and exactly then they denote the same resource object. -/
theorem C53_identifiers_unique (os : List IdOp) (s : IdState)
    (h : idRun IdState.init os = some s) (hc : creations os ≤ 2 ^ 32) :
    s.handles.length = (origins os [] 0).length ∧
    ∀ (i j : Nat) (a b : Handle) (p q : Nat), s.handles[i]? = some a → s.handles[j]? = some b →
      (origins os [] 0)[i]? = some p → (origins os [] 0)[j]? = some q →
      ((a.id = b.id ↔ p = q) ∧ (a.ptr = b.ptr ↔ p = q)) := by
  have hh := idRun_handles os [] 0 s (by simpa [IdState.init] using h)
  rw [hh]
  refine ⟨by simp, ?_⟩
  intro i j a b p q ha hb hp hq
  rw [List.getElem?_map, hp] at ha
  rw [List.getElem?_map, hq] at hb
  cases ha
  cases hb
  have hlt := origins_lt os [] 0 (by simp)
  have h1 := hlt p (List.mem_of_getElem? hp)
  have h2 := hlt q (List.mem_of_getElem? hq)
  refine ⟨⟨fun e => ?_, fun e => by rw [e]⟩, Iff.rfl⟩
  have e := congrArg BitVec.toNat e
  simp only [BitVec.toNat_ofNat] at e
  rw [Nat.mod_eq_of_lt (by omega), Nat.mod_eq_of_lt (by omega)] at e
  exact e

theorem idRun_counter (os : List IdOp) (s s' : IdState) (h : idRun s os = some s') :
    s'.counter = s.counter + BitVec.ofNat 32 (creations os) := by
  induction os generalizing s with
  | nil => simp only [idRun, Option.some.injEq] at h; subst h; simp [creations]
  | cons o os ih =>
    simp only [idRun] at h
    cases hs : idStep s o with
    | none => rw [hs] at h; cases h
    | some s1 =>
      rw [hs] at h
      have := ih s1 h
      rw [this]
      cases o with
      | create =>
        cases hs
        simp only [creations, List.countP_cons, beq_self_eq_true, if_true]
        apply BitVec.eq_of_toNat_eq
        simp only [BitVec.toNat_add, BitVec.toNat_ofNat]
        have : (1 : BitVec 32).toNat = 1 := rfl
        rw [this]
        omega
      | copy i =>
        simp only [idStep] at hs
        cases hi : s.handles[i]? with
        | none => simp [hi] at hs
        | some x =>
          simp only [hi, Option.map_some, Option.some.injEq] at hs
          subst hs
          simp [creations]

/-- The bound in `C53_identifiers_unique` is sharp: the resource created after 2^32 others gets the
identifier 0, which the first one has as well. -/
theorem C53_bound_is_sharp (os : List IdOp) (s : IdState) (h : idRun IdState.init os = some s)
    (hc : creations os = 2 ^ 32) :
    ∃ s', idStep s .create = some s' ∧ ∃ x, s'.handles.getLast? = some x ∧ x.id = 0 := by
  refine ⟨_, rfl, ⟨s.objects, s.counter⟩, by simp, ?_⟩
  have := idRun_counter os _ s h
  show s.counter = 0
  rw [this, hc]; decide

/-! concrete case: two resources, the first one copied -/
example : idRun IdState.init [.create, .create, .copy 0] = some ⟨[⟨0, 0⟩, ⟨1, 1⟩, ⟨0, 0⟩], 2, 2⟩ := by
  decide
example : creations [.create, .create, .copy 0] ≤ 2 ^ 32 := by decide

end RG.Ctx
