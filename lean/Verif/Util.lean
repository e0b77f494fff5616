/-
Small general lemmas: counting threads, updating lists at an index.
-/
namespace RG

/-- number of `t < n` whose value satisfies `p` -/
def cnt {α} (n : Nat) (p : α → Bool) (f : Nat → α) : Nat := (List.range n).countP fun t => p (f t)

theorem cnt_le {α} (n : Nat) (p : α → Bool) (f : Nat → α) : cnt n p f ≤ n := by
  unfold cnt
  exact Nat.le_trans List.countP_le_length (by simp)

theorem cnt_congr {α} {n : Nat} {p : α → Bool} {f g : Nat → α}
    (h : ∀ t, t < n → p (f t) = p (g t)) : cnt n p f = cnt n p g := by
  unfold cnt
  apply List.countP_congr
  intro t ht
  rw [h t (List.mem_range.1 ht)]

theorem cnt_succ {α} (n : Nat) (p : α → Bool) (f : Nat → α) :
    cnt (n + 1) p f = cnt n p f + if p (f n) then 1 else 0 := by
  unfold cnt
  rw [List.range_succ, List.countP_append]
  simp [List.countP_cons]

/-- changing the value of one thread -/
theorem cnt_update {α} (n : Nat) (p : α → Bool) (f : Nat → α) (t : Nat) (v : α) (ht : t < n) :
    cnt n p (fun x => if x = t then v else f x) + (if p (f t) then 1 else 0) =
      cnt n p f + (if p v then 1 else 0) := by
  induction n with
  | zero => omega
  | succ n ih =>
    rw [cnt_succ, cnt_succ]
    by_cases h : t = n
    · subst h
      rw [cnt_congr (g := f) (by intro x hx; rw [if_neg (by omega)])]
      simp only [if_true]
      omega
    · have := ih (by omega)
      have hn : (if n = t then v else f n) = f n := if_neg (fun e => h e.symm)
      rw [hn]
      omega

theorem cnt_pos {α} {n : Nat} {p : α → Bool} {f : Nat → α} {t : Nat} (ht : t < n)
    (hp : p (f t) = true) : 0 < cnt n p f := by
  unfold cnt
  rw [List.countP_pos_iff]
  exact ⟨t, List.mem_range.2 ht, hp⟩

theorem cnt_eq_zero {α} {n : Nat} {p : α → Bool} {f : Nat → α} :
    cnt n p f = 0 ↔ ∀ t, t < n → p (f t) = false := by
  unfold cnt
  rw [List.countP_eq_zero]
  constructor
  · intro h t ht
    simpa using h t (List.mem_range.2 ht)
  · intro h t ht
    simp [h t (List.mem_range.1 ht)]

/-- disjoint predicates -/
theorem cnt_add_le {α} (n : Nat) (p q : α → Bool) (f : Nat → α)
    (h : ∀ a, p a = true → q a = false) : cnt n p f + cnt n q f ≤ n := by
  induction n with
  | zero => simp [cnt]
  | succ n ih =>
    rw [cnt_succ, cnt_succ]
    have := h (f n)
    cases hp : p (f n)
    · simp only [Bool.false_eq_true, if_false]; split <;> omega
    · rw [this hp]; simp only [if_true, Bool.false_eq_true, if_false]; omega

theorem getElem?_lt_length {α} {l : List α} {x : α} {i : Nat} (h : l[i]? = some x) :
    i < l.length := by
  rcases Nat.lt_or_ge i l.length with h1 | h1
  · exact h1
  · rw [List.getElem?_eq_none_iff.2 h1] at h; cases h

/-- reading a list after an update at one index -/
theorem getElem?_set_some {α} {l : List α} {i j : Nat} {x y : α}
    (h : (l.set i y)[j]? = some x) : (j = i ∧ x = y) ∨ (j ≠ i ∧ l[j]? = some x) := by
  by_cases hij : i = j
  · subst hij
    left
    have := getElem?_lt_length h
    rw [List.length_set] at this
    rw [List.getElem?_set_self this] at h
    exact ⟨rfl, (Option.some.inj h).symm⟩
  · right
    rw [List.getElem?_set_ne hij] at h
    exact ⟨fun e => hij e.symm, h⟩

/-- reading a list after appending one element -/
theorem getElem?_concat_some {α} {l : List α} {j : Nat} {x y : α}
    (h : (l ++ [y])[j]? = some x) : (j < l.length ∧ l[j]? = some x) ∨ (j = l.length ∧ x = y) := by
  have := getElem?_lt_length h
  simp only [List.length_append, List.length_singleton] at this
  by_cases hj : j < l.length
  · left; rw [List.getElem?_append_left hj] at h; exact ⟨hj, h⟩
  · right
    have : j = l.length := by omega
    subst this
    simp only [List.getElem?_concat_length, Option.some.injEq] at h
    exact ⟨rfl, h.symm⟩

/-- changing a function at one argument -/
def upd {κ α} [DecidableEq κ] (f : κ → α) (i : κ) (v : α) : κ → α := fun x => if x = i then v else f x

@[simp] theorem upd_same {κ α} [DecidableEq κ] (f : κ → α) (i : κ) (v : α) : upd f i v i = v := by
  simp [upd]

theorem upd_ne {κ α} [DecidableEq κ] (f : κ → α) {i j : κ} (v : α) (h : j ≠ i) :
    upd f i v j = f j := by
  simp [upd, h]

theorem upd_eq {κ α} [DecidableEq κ] {f : κ → α} {i j : κ} {v w : α} (h : upd f i v j = w) :
    (j = i ∧ v = w) ∨ (j ≠ i ∧ f j = w) := by
  unfold upd at h
  split at h
  · exact .inl ⟨by assumption, h⟩
  · exact .inr ⟨by assumption, h⟩

/-- sum of `f t` for `t < n` -/
def sumTo : Nat → (Nat → Nat) → Nat
  | 0, _ => 0
  | n + 1, f => sumTo n f + f n

theorem sumTo_congr {n : Nat} {f g : Nat → Nat} (h : ∀ t, t < n → f t = g t) :
    sumTo n f = sumTo n g := by
  induction n with
  | zero => rfl
  | succ n ih =>
    simp only [sumTo]
    rw [ih (fun t ht => h t (by omega)), h n (by omega)]

/-- changing one summand -/
theorem sumTo_change {n : Nat} {f g : Nat → Nat} {t : Nat} (ht : t < n)
    (h : ∀ u, u < n → u ≠ t → g u = f u) : sumTo n g + f t = sumTo n f + g t := by
  induction n with
  | zero => omega
  | succ n ih =>
    simp only [sumTo]
    by_cases e : t = n
    · subst e
      rw [sumTo_congr (f := g) (g := f) (fun u hu => h u (by omega) (by omega))]
      omega
    · have := ih (by omega) (fun u hu hne => h u (by omega) hne)
      have h' := h n (by omega) (fun e' => e e'.symm)
      omega

theorem le_sumTo {n : Nat} {f : Nat → Nat} {t : Nat} (ht : t < n) : f t ≤ sumTo n f := by
  induction n with
  | zero => omega
  | succ n ih =>
    simp only [sumTo]
    by_cases e : t = n
    · subst e; omega
    · have := ih (by omega); omega

theorem add_le_sumTo {n : Nat} {f : Nat → Nat} {t u : Nat} (ht : t < n) (hu : u < n) (hne : t ≠ u) :
    f t + f u ≤ sumTo n f := by
  induction n with
  | zero => omega
  | succ n ih =>
    simp only [sumTo]
    by_cases e : t = n
    · subst e
      have := le_sumTo (f := f) (t := u) (n := t) (by omega)
      omega
    · by_cases e' : u = n
      · subst e'
        have := le_sumTo (f := f) (t := t) (n := u) (by omega)
        omega
      · have := ih (by omega) (by omega); omega

theorem sumTo_pos {n : Nat} {f : Nat → Nat} (h : 0 < sumTo n f) : ∃ t, t < n ∧ 0 < f t := by
  induction n with
  | zero => simp [sumTo] at h
  | succ n ih =>
    simp only [sumTo] at h
    by_cases h' : 0 < f n
    · exact ⟨n, by omega, h'⟩
    · obtain ⟨t, ht, h1⟩ := ih (by omega)
      exact ⟨t, by omega, h1⟩

theorem sumTo_le {n : Nat} {f g : Nat → Nat} (h : ∀ t, t < n → f t ≤ g t) : sumTo n f ≤ sumTo n g := by
  induction n with
  | zero => exact Nat.le_refl _
  | succ n ih =>
    simp only [sumTo]
    have := ih (fun t ht => h t (by omega))
    have := h n (by omega)
    omega

end RG
