import Verif.Lemmas.ListRefs
/-
C96: A list holds exactly the references of its elements.

`Reach code s`: `s` is a state that is reached by any sequence of mapping and releasing pages, allocating, writing and freeing memory, creating
objects, copying and dropping references, pushing to lists, iterating, removing, and destroying chunks of lists.
`refs s o` is the number of elements that refer to `o`: those that were pushed and neither removed nor destroyed with their list, and those that were
removed while an iterator is still there.
-/
namespace RG.LR

/-- C96: at any time the count of an object is the number of references outside of lists plus the number of elements of lists
that refer to it, and no reference of a destroyed object is ever dropped. -/
theorem C96_counts {s : State} (h : Reach code s) :
    s.ub = false ∧ ∀ o, 0 < o → s.cnt o = s.ext o + refs s o :=
  ⟨(Inv.reach h).ub, (Inv.reach h).ct⟩

/-- C96: what is read at an element is the reference that was pushed, and its object exists as long as the element was not removed or an
iterator is there. -/
theorem C96_elements_stay_alive {s : State} (h : Reach code s) {b : Block} (hb : b ∈ s.blocks) (hk : b.list = true)
    {i : Nat} {x : Slot} (hx : b.slots[i]? = some x) :
    s.mem (b.base + i) = x.obj ∧ (x.live = true ∨ 0 < x.held → Alive s x.obj) := by
  have I := Inv.reach h
  obtain ⟨h1, h2, h3⟩ := (I.ch b hb hk).slot i x hx
  refine ⟨h1, fun hkeep => ?_⟩
  obtain ⟨l, r, hlr⟩ := List.append_of_mem hb
  obtain ⟨u, v, huv⟩ := List.append_of_mem (List.mem_of_getElem? hx)
  have hp := I.pos hlr huv (by unfold Slot.keeps; simpa using hkeep) h2
  refine ⟨?_, hp⟩
  cases hm : s.made x.obj
  · have := I.md _ hm; omega
  · rfl

/-- C96: an object is destroyed when the last reference is gone, wherever it was. -/
theorem C96_destroyed_iff_unreferenced {s : State} (h : Reach code s) {o : Nat} (ho : 0 < o) (hm : s.made o = true) :
    ¬ Alive s o ↔ s.ext o = 0 ∧ refs s o = 0 := by
  have := (Inv.reach h).ct o ho
  unfold Alive
  constructor
  · intro hn
    have : ¬ 0 < s.cnt o := fun h => hn ⟨hm, h⟩
    omega
  · rintro ⟨h1, h2⟩ ⟨_, h3⟩; omega

/-- one step does not bring back an object -/
theorem gone_step {s t : State} (h : Inv s) (hs : Step code s t) {o : Nat} (ho : 0 < o) (hm : s.made o = true)
    (hc : s.cnt o = 0) : t.made o = true ∧ t.cnt o = 0 := by
  have h0 := h.ct o ho
  have hle : ∀ v, (drop s v).cnt o = 0 := fun v => by have := drop_le s v o; omega
  cases hs with
  | map | alloc | allocFail | write | acquire => exact ⟨hm, hc⟩
  | free hb hk => rw [dealloc_made, dealloc_cnt]; exact ⟨hm, hc⟩
  | @create o' ho' hm' =>
    have : o ≠ o' := by rintro rfl; rw [hm] at hm'; cases hm'
    dsimp only; rw [upd_ne _ _ this, upd_ne _ _ this]; exact ⟨hm, hc⟩
  | @copy o' he =>
    have : o ≠ o' := by rintro rfl; omega
    dsimp only; rw [upd_ne _ _ this]; exact ⟨hm, hc⟩
  | drop he => dsimp only; rw [drop_made]; exact ⟨hm, hle _⟩
  | @push l b r o' hb hk hcap he =>
    have : o ≠ o' := by rintro rfl; omega
    unfold assign
    dsimp only
    rw [drop_made]
    refine ⟨hm, ?_⟩
    have := drop_le { s with cnt := upd s.cnt o' (s.cnt o' + 1) } (s.mem (b.base + b.slots.length)) o
    dsimp only at this
    rw [upd_ne _ _ (by assumption)] at this
    omega
  | @read l b r u x v hb hk hx hh =>
    obtain ⟨h1, h2, _⟩ := (h.ch b (by rw [hb]; exact self_mem) hk).slot _ x (slot_get hx)
    have hp := h.pos hb hx (by simp [Slot.keeps, hh]) h2
    rw [h1]
    have : o ≠ x.obj := by rintro rfl; omega
    dsimp only; rw [upd_ne _ _ this]; exact ⟨hm, hc⟩
  | release hb hk hx hh => split <;> [(dsimp only; rw [drop_made]; exact ⟨hm, hle _⟩); exact ⟨hm, hc⟩]
  | remove hb hk hx hl hh => split <;> [(dsimp only; rw [drop_made]; exact ⟨hm, hle _⟩); exact ⟨hm, hc⟩]
  | @destroy l b r hb hk hh =>
    rw [dealloc_made, dealloc_cnt]; dsimp only; rw [dropAll_made]
    have := dropAll_le s (chunkValues s b) o
    exact ⟨hm, by omega⟩

/-- C96: a destroyed object stays destroyed; together with `C96_destroyed_iff_unreferenced`: it is destroyed once, and never
referred to again. -/
theorem C96_destroyed_once {s t : State} (h : Reach code s) (hs : Steps code s t) {o : Nat} (ho : 0 < o)
    (hm : s.made o = true) (hd : ¬ Alive s o) : ¬ Alive t o ∧ t.ext o = 0 ∧ refs t o = 0 := by
  have hc : s.cnt o = 0 := by
    have : ¬ 0 < s.cnt o := fun h => hd ⟨hm, h⟩
    omega
  have key : Inv t ∧ t.made o = true ∧ t.cnt o = 0 := by
    induction hs with
    | refl => exact ⟨Inv.reach h, hm, hc⟩
    | tail _ h2 ih => exact ⟨ih.1.step rfl rfl h2, gone_step ih.1 h2 ho ih.2.1 ih.2.2⟩
  obtain ⟨h1, _, h3⟩ := key
  have := h1.ct o ho
  exact ⟨fun hA => by have := hA.2; omega, by omega, by omega⟩

/-- C96: a chunk of a list that was just allocated contains null references only, whatever the memory was used for before; and this stays so for the slots
that were not used yet. -/
theorem C96_unused_slots_are_null {s : State} (h : Reach code s) {b : Block} (hb : b ∈ s.blocks) (hk : b.list = true)
    {i : Nat} (hi : b.slots.length ≤ i) (hl : i < b.len) : s.mem (b.base + i) = 0 :=
  ((Inv.reach h).ch b hb hk).rest i hi hl

/-- C96: pushing a reference to `o` adds one to the count of `o` and changes no other count. -/
theorem C96_push_takes_one_reference {s t : State} (h : Reach code s) {l r : List Block} {b : Block} {o : Nat}
    (hb : s.blocks = l ++ b :: r) (hk : b.list = true) (hc : b.slots.length < b.len)
    (ht : t = assign s (b.base + b.slots.length) o) (a : Nat) : t.cnt a = s.cnt a + if a = o then 1 else 0 := by
  have h0 := ((Inv.reach h).ch b (by rw [hb]; exact self_mem) hk).rest _ (Nat.le_refl _) hc
  subst ht
  unfold assign; rw [h0]; unfold drop; rw [if_pos rfl]
  dsimp only
  by_cases e : a = o
  · subst e; rw [upd_same, if_pos rfl]
  · rw [upd_ne _ _ e, if_neg e]; rfl

/-- C96: destroying a chunk of a list drops exactly the references of the elements that were not removed; nothing happens for
elements that were removed before and for slots that were never used. -/
theorem C96_destroy_drops_the_elements {s : State} (h : Reach code s) {l r : List Block} {b : Block}
    (hb : s.blocks = l ++ b :: r) (hk : b.list = true) (hh : ∀ x ∈ b.slots, x.held = 0) {o : Nat} (ho : 0 < o) :
    (dropAll s (chunkValues s b)).cnt o + b.slots.countP (fun x => x.live && decide (x.obj = o)) = s.cnt o ∧
      (dropAll s (chunkValues s b)).ub = false := by
  have I := Inv.reach h
  have hch := I.ch b (by rw [hb]; exact self_mem) hk
  have hv : ∀ o, 0 < o → (chunkValues s b).count o = brefs b o := chunkValues_count hch hh
  have hle : ∀ o, 0 < o → (chunkValues s b).count o ≤ s.cnt o := by
    intro o ho; rw [hv o ho, I.ct o ho, refs_mid hb]; omega
  obtain ⟨h1, h2⟩ := dropAll_spec hle
  refine ⟨?_, h1.trans I.ub⟩
  have e : brefs b o = b.slots.countP (fun x => x.live && decide (x.obj = o)) := by
    unfold brefs
    apply List.countP_congr
    intro x hx
    simp [Slot.keeps, hh x hx]
  have := h2 o ho
  have := hle o ho
  rw [hv o ho] at *
  omega

/-! ### an execution -/

/-- a page, a task object in it that is written and freed, a list with room for two elements, an object, one push, an iterator that removes the
element, and the handle of the user is dropped meanwhile -/
example : ∃ s, Reach code s ∧ Alive s 5 ∧ refs s 5 = 1 ∧ s.ext 5 = 0 ∧ s.mem 103 = 9 := by
  refine ⟨_, .tail (.tail (.tail (.tail (.tail (.tail (.tail (.tail (.tail .refl
    (.map (p := 0) (lo := 100) (n := 4) (f := fun _ => 0) rfl (by decide) (by intro q Q h; cases h)))
    (.alloc (p := 0) (n := 1) (list := false) rfl (by decide) (by decide)))
    (.write (l := []) (r := []) (i := 0) (v := 9) rfl rfl (by decide)))
    (.alloc (p := 0) (n := 2) (list := true) rfl (by decide) (by decide)))
    (.create (o := 5) (by decide) rfl))
    (.push (l := []) (o := 5) rfl rfl (by decide) (by decide)))
    (.acquire (l := []) (u := []) (v := []) rfl rfl rfl rfl))
    (.remove (l := []) (u := []) (v := []) rfl rfl rfl rfl (by decide)))
    (.drop (o := 5) (by decide)), ?_⟩
  refine ⟨⟨?_, ?_⟩, ?_, ?_, ?_⟩ <;> decide +kernel

/-- … and then the iterator goes on, and the object is destroyed; afterwards the chunk is destroyed -/
example : ∃ s, Reach code s ∧ s.made 5 = true ∧ ¬ Alive s 5 ∧ s.blocks = [] := by
  refine ⟨_, .tail (.tail (.tail (.tail (.tail (.tail (.tail (.tail (.tail .refl
    (.map (p := 0) (lo := 100) (n := 2) (f := fun _ => 0) rfl (by decide) (by intro q Q h; cases h)))
    (.alloc (p := 0) (n := 2) (list := true) rfl (by decide) (by decide)))
    (.create (o := 5) (by decide) rfl))
    (.push (l := []) (r := []) (o := 5) rfl rfl (by decide) (by decide)))
    (.acquire (l := []) (r := []) (u := []) (v := []) rfl rfl rfl rfl))
    (.remove (l := []) (r := []) (u := []) (v := []) rfl rfl rfl rfl (by decide)))
    (.drop (o := 5) (by decide)))
    (.release (l := []) (r := []) (u := []) (v := []) rfl rfl rfl (by decide)))
    (.destroy (l := []) (r := []) rfl rfl (by decide)), ?_⟩
  refine ⟨?_, ?_, ?_⟩
  · decide +kernel
  · rintro ⟨_, h⟩; revert h; decide +kernel
  · decide +kernel

/-! ### what it depends on -/

/-- C96: the property depends on pages that are zero. With other pages, the first push to a list can destroy an object that the user
holds a reference to. -/
theorem C96_needs_zero_pages : ∃ s, Reach ⟨false, false⟩ s ∧ s.ext 5 = 1 ∧ s.made 5 = true ∧ ¬ Alive s 5 := by
  refine ⟨_, .tail (.tail (.tail (.tail (.tail .refl
    (.map (p := 0) (lo := 100) (n := 2) (f := fun _ => 5) rfl (by decide) (by intro q Q h; cases h)))
    (.alloc (p := 0) (n := 2) (list := true) rfl (by decide) (by decide)))
    (.create (o := 5) (by decide) rfl))
    (.create (o := 6) (by decide) rfl))
    (.push (l := []) (r := []) (o := 6) rfl rfl (by decide) (by decide)), ?_⟩
  refine ⟨?_, ?_, ?_⟩
  · decide +kernel
  · decide +kernel
  · rintro ⟨_, h⟩; revert h; decide +kernel

/-- C96: it also depends on memory never being handed out twice. If a bump allocator without allocations were reset, as its documentation
says, then a list could come to lie where another list has been, and would drop references that are not its own. -/
theorem C96_needs_fresh_memory : ∃ s, Reach ⟨true, true⟩ s ∧ s.ext 5 = 1 ∧ s.made 5 = true ∧ ¬ Alive s 5 := by
  refine ⟨_, .tail (.tail (.tail (.tail (.tail (.tail (.tail (.tail .refl
    (.map (p := 0) (lo := 100) (n := 2) (f := fun _ => 0) rfl (by decide) (by intro q Q h; cases h)))
    (.alloc (p := 0) (n := 1) (list := true) rfl (by decide) (by decide)))
    (.create (o := 5) (by decide) rfl))
    (.push (l := []) (r := []) (o := 5) rfl rfl (by decide) (by decide)))
    (.destroy (l := []) (r := []) rfl rfl (by decide)))
    (.alloc (p := 0) (P := ⟨100, 102, 102, 0⟩) (n := 1) (list := true) rfl (by decide) (by decide)))
    (.create (o := 6) (by decide) rfl))
    (.push (l := []) (r := []) (o := 6) rfl rfl (by decide) (by decide)), ?_⟩
  refine ⟨?_, ?_, ?_⟩
  · decide +kernel
  · decide +kernel
  · rintro ⟨_, h⟩; revert h; decide +kernel

end RG.LR
