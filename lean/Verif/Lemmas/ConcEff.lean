import Verif.Lemmas.ConcTrav
/-
The chunked list used by several threads: what the parts of its operations leave as it is.
-/
set_option linter.unusedVariables false
namespace RG.CoL

variable {N : Nat} {s s' : State} {t u : Nat} {base L : List Slot}

theorem pcs_frame (hs : Step N u s s') {w : Nat} (h : w ≠ u) : s'.pcs w = s.pcs w := by
  cases hs <;> simp [upd, h]

theorem pushing_iff {q : Pc} : pushing q = true ↔ ∃ v, pushed q = some v := by
  cases q <;> simp [pushing, pushed]

theorem pushed_arrive (c : Nat) (q : AL.Pc) : pushed (arrive c q) = none := by cases q <;> rfl

/-- a step of `push` that does not assign the value -/
theorem push_eff (hs : Step N u s s') {v : Nat} (h : pushed (s'.pcs u) = some v) :
    s'.val = s.val ∧ s'.log = s.log ∧ s'.removed = s.removed ∧ s'.hid = s.hid ∧ s'.snap = s.snap ∧ s'.seen = s.seen ∧
      s'.empt = s.empt ∧ (s.pcs u = .idle ∨ pushed (s.pcs u) = some v) := by
  cases hs with
  | hop h' ha hd => simp only [upd_same, pushed_arrive] at h; cases h
  | _ => simp only [upd_same] at h <;> (try split at h) <;> simp_all [pushed]

theorem assign_eff (hs : Step N u s s') {v c k : Nat} (h : s.pcs u = .pAsg v c k) :
    s' = { s with
        val := upd s.val (c, k) (some v), off := upd s.off (c, k) 0, log := ((c, k), v) :: s.log
        pcs := upd s.pcs u .idle } := by
  cases hs with
  | assign h' => rw [h] at h'; cases h'; rfl
  | jump h' | jumpOut h' => rw [h] at h'; cases h'
  | stop h' => rw [h] at h'; simp [on] at h'
  | _ => simp_all

/-- `remove` is called -/
theorem remove_eff (hs : Step N u s s') {x : Slot} (h0 : s.pcs u = .idle) (h : s'.pcs u = .rRead x) :
    s'.removed = upd s.removed x true ∧ s'.val = s.val ∧ s'.log = s.log ∧ s.val x ≠ none ∧ s.removed x = false := by
  cases hs with
  | remove h1 h2 h3 => simp only [upd_same] at h; cases h; exact ⟨rfl, rfl, rfl, h2, h3⟩
  | jump h' | jumpOut h' => rw [h0] at h'; cases h'
  | stop h' => rw [h0] at h'; simp [on] at h'
  | _ => simp_all

/-- a step of `remove` -/
theorem removing_eff (hs : Step N u s s') (h0 : removing (s.pcs u) = true) :
    s'.removed = s.removed ∧ s'.val = s.val ∧ s'.log = s.log ∧ (removing (s'.pcs u) = true ∨ s'.pcs u = .idle) := by
  cases hs with
  | jump h' | jumpOut h' => generalize s.pcs u = q at h0 h'; cases q <;> simp_all [removing, pos]
  | stop h' => generalize s.pcs u = q at h0 h'; cases q <;> simp_all [removing, on]
  | free h' => refine ⟨rfl, rfl, rfl, ?_⟩; simp only [upd_same]; split <;> simp [removing]
  | _ => simp_all [removing]

theorem stop_eff (hs : Step N u s s') (h0 : isIter (s.pcs u) = true) (h : s'.pcs u = .idle) :
    s'.removed = s.removed ∧ s'.val = s.val ∧ s'.log = s.log ∧ (s.pcs u = .iEnd ∨ ∃ x, on (s.pcs u) = some x) ∧
      s'.hid = s.hid ∧ s'.seen = s.seen := by
  have key : ∀ c q, arrive c q ≠ .idle := by intro c q; cases q <;> simp [arrive]
  cases hs with
  | stop h' ha hp =>
    refine ⟨rfl, rfl, rfl, ?_, rfl, rfl⟩
    rcases h' with h' | h'
    · exact .inr (Option.isSome_iff_exists.1 h')
    · exact .inl h'
  | _ => simp_all [isIter]

theorem later_back (hr : Reach N s) (hm : Mono s s') {x y : Slot} (hx : s.val x ≠ none) (hy : s.val y ≠ none)
    (h : Later s'.al x y) : Later s.al x y := by
  have hB := invB hr
  have key : ∀ z : Slot, s.val z ≠ none → ∃ r, s.al.rank z.1 = some r := by
    intro z hz
    have h1 := hB.valLt z.1 z.2 hz
    apply Option.ne_none_iff_exists'.1
    intro e; have := hB.unranked _ e; omega
  obtain ⟨rx, ry, h1, h2, h3⟩ := h
  obtain ⟨rx', k1⟩ := key x hx
  obtain ⟨ry', k2⟩ := key y hy
  have := hm.rank _ _ k1
  have := hm.rank _ _ k2
  refine ⟨rx, ry, by simp_all, by simp_all, h3⟩

/-- somebody else pushes -/
theorem Todo.push (hr : Reach N s) (h : Todo s t base L) (hs : Step N u s s') {v : Nat} (hv : pushed (s'.pcs u) = some v)
    (hb : ∀ y ∈ base, s.val y ≠ none) : Todo s' t base L := by
  have hm := mono (invA hr) hs
  obtain ⟨e1, e2, e3, e4, e5, e6, e7, -⟩ := push_eff hs hv
  refine h.frame hm (by rw [e5]) (by rw [e7]) e3 (by rw [e4]; exact h.hid) ?_
  intro x hx hl
  rw [e1] at hx
  exact ⟨hx, fun y hy => later_back hr hm (hb y hy) hx (hl y hy)⟩

theorem Todo.assign (hr : ReachP N OnePush s) (h : Todo s t base L) (hs : Step N u s s') {v c k : Nat}
    (ha : s.pcs u = .pAsg v c k) (hb : ∀ y ∈ base, s.val y ≠ none) (hne : base ≠ []) : Todo s' t base L := by
  have hm := mono (invA hr.reach) hs
  have e := assign_eff hs ha
  have hl : s'.al = s.al := by rw [e]
  refine h.frame hm (by rw [e]) (by rw [e]) (by rw [e]) (by rw [e]; exact h.hid) ?_
  intro x hx hl'
  rw [hl] at hl'
  obtain ⟨y, hy⟩ := List.exists_mem_of_ne_nil _ hne
  by_cases ex : x = (c, k)
  · subst ex
    exact absurd (hl' y hy) (assign_later hr ha (hb y hy)).asymm
  · rw [e] at hx
    exact ⟨by simpa [upd_ne _ _ ex] using hx, hl'⟩

end RG.CoL
