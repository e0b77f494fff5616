import Verif.Model.Submit
import Verif.Props.TagMatch
/-
Property C63: tasks with scheduling tags are submitted completely or not at all.
-/
namespace RG.Submit

open RG.Tag

theorem pushUsers_eq (users : Nat → List Nat) (id : Nat) (rs : List Nat) (r : Nat) :
    pushUsers users id rs r = users r ++ List.replicate (rs.count r) id := by
  unfold pushUsers
  rw [← List.count_reverse]
  generalize rs.reverse = l
  induction l generalizing users with
  | nil => simp
  | cons a as ih =>
    rw [List.foldl_cons, ih]
    by_cases h : r = a
    · subst h
      simp [List.replicate_succ]
    · have : ¬ a = r := fun e => h e.symm
      simp [h, this]

/-- Spec: the tag numbers named in the calls. -/
def Named (calls : List (List Nat)) (tag : Nat) : Prop := ∃ tags ∈ calls, tag ∈ tags

/-- Spec: the first registered scheduler that supports all named tags. -/
def FirstSupporting {n : Nat} (m : TagMatch n) (calls : List (List Nat)) (s : Nat) : Prop :=
  ∃ before x after, m = before ++ x :: after ∧ x.s = s ∧ (∀ tag, Named calls tag → Has x.supported tag) ∧
    ∀ y ∈ before, ∃ tag, Named calls tag ∧ ¬ Has y.supported tag

/-- What `eval` does if all tags are in range: submit the task with all tags. -/
theorem eval_in_range {n : Nat} (m : TagMatch n) (w : World) (last : Last) (calls : List (List Nat)) :
    ∀ t : Desc n, (∀ tag, Named calls tag → tag < n) →
    ∃ b : BitVec n, (∀ tag, Has b tag ↔ Has t.tags tag ∨ Named calls tag) ∧
      eval m w t last calls = eval m w { t with tags := b } last [] := by
  induction calls with
  | nil => intro t _; exact ⟨t.tags, fun tag => by simp [Named], rfl⟩
  | cons tags calls ih =>
    intro t hr
    obtain ⟨h1, h2⟩ := foldlM_setTag tags (0#n)
    cases hb : tagSet (n := n) tags with
    | none =>
      obtain ⟨tag, h3, h4⟩ := h2 hb
      exact absurd (hr tag ⟨tags, by simp, h3⟩) (by omega)
    | some b =>
      obtain ⟨b', h5, h6⟩ := ih { t with tags := t.tags ||| b }
        (fun tag ⟨x, hx, hx'⟩ => hr tag ⟨x, List.mem_cons_of_mem _ hx, hx'⟩)
      refine ⟨b', fun tag => ?_, ?_⟩
      · rw [h5]
        have := (h1 b hb).2 tag
        simp only [Has, BitVec.getLsbD_or, Bool.or_eq_true] at this ⊢
        rw [this]
        constructor
        · rintro ((h | h | h) | ⟨x, hx, hx'⟩)
          · exact .inl h
          · simp at h
          · exact .inr ⟨tags, by simp, h⟩
          · exact .inr ⟨x, List.mem_cons_of_mem _ hx, hx'⟩
        · rintro (h | ⟨x, hx, hx'⟩)
          · exact .inl (.inl h)
          · rcases List.mem_cons.1 hx with rfl | hx
            · exact .inl (.inr (.inr hx'))
            · exact .inr ⟨x, hx, hx'⟩
      · have : eval m w t last (tags :: calls) = eval m w { t with tags := t.tags ||| b } last calls := by
          rw [eval.eq_def]; simp only [hb]
        rw [this]
        exact h6

theorem first_supporting {n : Nat} (m : TagMatch n) (calls : List (List Nat)) (b : BitVec n) (s : Nat)
    (hb : ∀ tag, Has b tag ↔ Named calls tag) :
    emplace m b = .emplacedAt s ↔ FirstSupporting m calls s := by
  rw [C47_first_supporting]
  unfold FirstSupporting Supports
  simp only [hb]
  constructor
  · rintro ⟨x, y, z, h1, h2, h3, h4⟩
    refine ⟨x, y, z, h1, h2, h3, fun a ha => ?_⟩
    have := h4 a ha
    apply Classical.byContradiction
    intro hc
    exact this fun tag h5 => Classical.byContradiction fun h6 => hc ⟨tag, h5, h6⟩
  · rintro ⟨x, y, z, h1, h2, h3, h4⟩
    refine ⟨x, y, z, h1, h2, h3, fun a ha hc => ?_⟩
    obtain ⟨tag, h5, h6⟩ := h4 a ha
    exact h6 (hc tag h5)

/-- C63: if some scheduler supports all named tags, then the task is submitted completely: counted once,
entered at each of its resources, behind the tasks that are there, and given to exactly one scheduler,
which supports all the tags. -/
theorem C63_accepted_completely {n : Nat} (m : TagMatch n) (w : World) (id : Nat)
    (resources : List Nat) (hu : resources.Nodup) (calls : List (List Nat)) (last : Last) (s : Nat)
    (hr : ∀ tag, Named calls tag → tag < n) (hs : FirstSupporting m calls s) :
    (create m w id resources calls last).2 = .value ∧
    (create m w id resources calls last).1.count = w.count + 1 ∧
    (create m w id resources calls last).1.queued = w.queued ++ [(s, id)] ∧
    ∀ r, (create m w id resources calls last).1.users r =
      if r ∈ resources then w.users r ++ [id] else w.users r := by
  obtain ⟨b, h1, h2⟩ := eval_in_range m w last calls ⟨id, resources, 0#n⟩ hr
  have hb : ∀ tag, Has b tag ↔ Named calls tag := fun tag => by
    rw [h1]; simp [Has]
  have he := (first_supporting m calls b s hb).2 hs
  unfold create
  rw [h2]
  simp only [eval, submit, he, true_and]
  intro r
  rw [pushUsers_eq]
  split
  · next h => rw [hu.count, if_pos h]; rfl
  · next h => rw [List.count_eq_zero_of_not_mem h]; simp

/-- Two schedulers, the first supports tag 0 only; the task needs tags 0 and 3. -/
example : (∀ tag, Named [[0], [3]] tag → tag < 8) ∧
    FirstSupporting (n := 8) [⟨1#8, 7⟩, ⟨9#8, 5⟩] [[0], [3]] 5 := by
  refine ⟨?_, [⟨1#8, 7⟩], ⟨9#8, 5⟩, [], rfl, rfl, ?_, ?_⟩
  · rintro tag ⟨x, hx, ht⟩; simp at hx; rcases hx with rfl | rfl <;> simp at ht <;> omega
  · rintro tag ⟨x, hx, ht⟩; simp at hx
    rcases hx with rfl | rfl <;> simp at ht <;> subst ht <;> simp [Has]
  · intro y hy
    simp at hy
    subst hy
    exact ⟨3, ⟨[3], by simp, by simp⟩, by simp [Has]⟩

/-- C63 (partial): if no scheduler supports all named tags, the program learns about it, and no scheduler
gets the task. Missing: it is counted and entered at its resources, see below. -/
theorem C63_refused_is_reported_partial {n : Nat} (m : TagMatch n) (w : World) (id : Nat)
    (resources : List Nat) (calls : List (List Nat)) (hr : ∀ tag, Named calls tag → tag < n)
    (hs : ∀ s, ¬ FirstSupporting m calls s) :
    (create m w id resources calls .submit).2 = .exception ∧
    (create m w id resources calls .submit).1.queued = w.queued := by
  obtain ⟨b, h1, h2⟩ := eval_in_range m w .submit calls ⟨id, resources, 0#n⟩ hr
  have hb : ∀ tag, Has b tag ↔ Named calls tag := fun tag => by
    rw [h1]; simp [Has]
  have he : ∀ s, emplace m b ≠ .emplacedAt s := fun s h => hs s ((first_supporting m calls b s hb).1 h)
  unfold create
  rw [h2]
  simp only [eval, submit]
  cases h : emplace m b with
  | emplacedAt s => exact absurd h (he s)
  | activatedAt s => simp
  | throws => simp

example : (∀ tag, Named [[3]] tag → tag < 8) ∧
    ∀ s, ¬ FirstSupporting (n := 8) [⟨1#8, 7⟩] [[3]] s := by
  refine ⟨?_, ?_⟩
  · rintro tag ⟨x, hx, ht⟩; simp at hx; subst hx; simp at ht; omega
  · intro s h
    have := (first_supporting (n := 8) [⟨1#8, 7⟩] [[3]] 8#8 s (fun tag => ?_)).2 h
    · simp [emplace, getMatching] at this
    · constructor
      · intro hh
        refine ⟨[3], by simp, ?_⟩
        by_cases h8 : tag < 8
        · have : ∀ t : Fin 8, (8#8).getLsbD t.1 = true → t.1 = 3 := by decide
          exact List.mem_singleton.2 (this ⟨tag, h8⟩ hh)
        · rw [Has, BitVec.getLsbD_of_ge _ _ (by omega)] at hh; cases hh
      · rintro ⟨x, hx, ht⟩; simp at hx; subst hx; simp at ht; subst ht; show (8#8).getLsbD 3 = true; decide

/-- C63 is false: a task that is refused by every scheduler stays counted, so that the space never gets
empty, and stays in the user lists of its resources, where later tasks will wait for it. -/
theorem C63_refused_leaves_traces_false {n : Nat} (m : TagMatch n) (w : World) (id : Nat)
    (resources : List Nat) (calls : List (List Nat)) (hr : ∀ tag, Named calls tag → tag < n)
    (hs : ∀ s, ¬ FirstSupporting m calls s) :
    (create m w id resources calls .submit).1.count = w.count + 1 ∧
    ∀ r ∈ resources, id ∈ (create m w id resources calls .submit).1.users r := by
  obtain ⟨b, h1, h2⟩ := eval_in_range m w .submit calls ⟨id, resources, 0#n⟩ hr
  have hb : ∀ tag, Has b tag ↔ Named calls tag := fun tag => by
    rw [h1]; simp [Has]
  have he : ∀ s, emplace m b ≠ .emplacedAt s := fun s h => hs s ((first_supporting m calls b s hb).1 h)
  unfold create
  rw [h2]
  simp only [eval, submit]
  have key : ∀ r ∈ resources, id ∈ pushUsers w.users id resources r := by
    intro r hr
    rw [pushUsers_eq]
    have : 0 < resources.count r := List.count_pos_iff.2 hr
    exact List.mem_append_right _ (List.mem_replicate.2 ⟨by omega, rfl⟩)
  cases h : emplace m b with
  | emplacedAt s => exact absurd h (he s)
  | activatedAt s => exact ⟨trivial, key⟩
  | throws => exact ⟨trivial, key⟩

/-- C63 is false: if the builder is dropped instead of calling `submit()`, the refusal ends the program
instead of being reported. -/
theorem C63_refused_terminates_false {n : Nat} (m : TagMatch n) (w : World) (id : Nat)
    (resources : List Nat) (calls : List (List Nat)) (hr : ∀ tag, Named calls tag → tag < n)
    (hs : ∀ s, ¬ FirstSupporting m calls s) :
    (create m w id resources calls .drop).2 = .terminate := by
  obtain ⟨b, h1, h2⟩ := eval_in_range m w .drop calls ⟨id, resources, 0#n⟩ hr
  have hb : ∀ tag, Has b tag ↔ Named calls tag := fun tag => by
    rw [h1]; simp [Has]
  have he : ∀ s, emplace m b ≠ .emplacedAt s := fun s h => hs s ((first_supporting m calls b s hb).1 h)
  unfold create
  rw [h2]
  unfold eval submit
  cases h : emplace m b with
  | emplacedAt s => exact absurd h (he s)
  | activatedAt s => simp only
  | throws => simp only

/-- C63 is false: a tag out of range raises an exception, but the task is submitted nevertheless, without
the requirement: here to scheduler 7, which supports none of the tags. -/
theorem C63_bad_tag_submitted_false :
    ∃ (m : TagMatch 64) (w : World) (calls : List (List Nat)),
      (create m w 1 [4] calls .submit).2 = .exception ∧
      (create m w 1 [4] calls .submit).1.queued = [(7, 1)] ∧
      (∀ x ∈ m, x.s = 7 → ∀ tag, Named calls tag → ¬ Has x.supported tag) := by
  refine ⟨[⟨0#64, 7⟩], ⟨0, fun _ => [], []⟩, [[64], [2]], rfl, rfl, ?_⟩
  intro x hx _ tag _
  simp at hx
  subst hx
  simp [Has]

end RG.Submit
