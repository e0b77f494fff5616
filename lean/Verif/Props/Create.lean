import Verif.Model.Create
/-
C107: creation of resources by several threads.
-/
namespace RG.Create

/-- Resources of one policy only are created, one after the other. -/
def oneByOne (p : Nat) : State → Nat → Prop := fun s q => q = p ∧ ∀ u, s.pcs u = .idle

/-- Resources of all policies are created, one after the other. -/
def serially : State → Nat → Prop := fun s _ => ∀ u, s.pcs u = .idle

/-! ### Helpers -/

theorem ofNat_succ (n : Nat) : BitVec.ofNat 32 n + 1 = BitVec.ofNat 32 (n + 1) := by
  apply BitVec.eq_of_toNat_eq; simp [BitVec.toNat_add, BitVec.toNat_ofNat]

theorem ids_inv {ok : State → Nat → Prop} {s : State} (h : Reach ok s) :
    s.next = BitVec.ofNat 32 s.created.length ∧ s.created.map (·.id) = (List.range s.created.length).map (BitVec.ofNat 32) := by
  induction h with
  | init => exact ⟨rfl, rfl⟩
  | step _ hs ih =>
    cases hs with
    | enter _ _ => exact ih
    | load _ => exact ih
    | store _ => exact ih
    | construct _ =>
      obtain ⟨h1, h2⟩ := ih
      dsimp only
      refine ⟨?_, ?_⟩
      · rw [h1, ofNat_succ, List.length_append]; rfl
      · rw [List.map_append, h2, List.length_append, List.length_singleton, List.range_succ, List.map_append, h1]; rfl

/-- where the only thread that creates a resource is -/
structure Inv (p : Nat) (s : State) : Prop where
  next : s.next = BitVec.ofNat 32 s.created.length
  same : ∀ r ∈ s.created, r.pol = p ∧ r.cnt = r.id
  pc : ((∀ t, s.pcs t = .idle) ∧ s.i p = s.next) ∨ ∃ t, (∀ u, u ≠ t → s.pcs u = .idle) ∧
    ((s.pcs t = .enter p ∧ s.i p = s.next) ∨ (s.pcs t = .loaded p s.next) ∨ (s.pcs t = .stored p s.next ∧ s.i p = s.next + 1))

theorem inv {p : Nat} {s : State} (h : Reach (oneByOne p) s) : Inv p s := by
  induction h with
  | init => exact ⟨rfl, (fun r hr => by cases hr), .inl ⟨fun _ => rfl, rfl⟩⟩
  | @step s s' _ hs ih =>
    obtain ⟨h1, h2, h3⟩ := ih
    cases hs with
    | @enter t q hi ho =>
      obtain ⟨rfl, hidle⟩ := ho
      refine ⟨h1, h2, .inr ⟨t, fun u hu => ?_, .inl ⟨upd_same _ _ _, ?_⟩⟩⟩
      · exact (upd_ne _ _ hu).trans (hidle u)
      · rcases h3 with ⟨-, h⟩ | ⟨u, -, h⟩
        · exact h
        · rw [hidle u] at h
          rcases h with ⟨h, -⟩ | h | ⟨h, -⟩ <;> cases h
    | @load t q hi =>
      rcases h3 with ⟨h, -⟩ | ⟨u, hu, h⟩
      · rw [h t] at hi; cases hi
      · by_cases e : t = u
        · subst e
          rcases h with ⟨h, hc⟩ | h | ⟨h, -⟩
          · rw [hi] at h
            cases h
            refine ⟨h1, h2, .inr ⟨t, fun v hv => (upd_ne _ _ hv).trans (hu v hv), .inr (.inl ?_)⟩⟩
            exact (upd_same _ _ _).trans (by rw [hc])
          · rw [hi] at h; cases h
          · rw [hi] at h; cases h
        · rw [hu t e] at hi; cases hi
    | @store t q v hi =>
      rcases h3 with ⟨h, -⟩ | ⟨u, hu, h⟩
      · rw [h t] at hi; cases hi
      · by_cases e : t = u
        · subst e
          rcases h with ⟨h, hc⟩ | h | ⟨h, -⟩
          · rw [hi] at h; cases h
          · rw [hi] at h
            cases h
            exact ⟨h1, h2, .inr ⟨t, fun v hv => (upd_ne _ _ hv).trans (hu v hv), .inr (.inr ⟨upd_same _ _ _, upd_same _ _ _⟩)⟩⟩
          · rw [hi] at h; cases h
        · rw [hu t e] at hi; cases hi
    | @construct t q v hi =>
      rcases h3 with ⟨h, -⟩ | ⟨u, hu, h⟩
      · rw [h t] at hi; cases hi
      · by_cases e : t = u
        · subst e
          rcases h with ⟨h, hc⟩ | h | ⟨h, hc⟩
          · rw [hi] at h; cases h
          · rw [hi] at h; cases h
          · rw [hi] at h
            cases h
            refine ⟨?_, ?_, .inl ⟨fun u => ?_, hc⟩⟩
            · dsimp only
              rw [h1, ofNat_succ, List.length_append]; rfl
            · intro r hr
              rcases List.mem_append.mp hr with hr | hr
              · exact h2 r hr
              · rw [List.mem_singleton.mp hr]; exact ⟨rfl, rfl⟩
            · by_cases e : u = t
              · rw [e]; exact upd_same _ _ _
              · exact (upd_ne _ _ e).trans (hu u e)
        · rw [hu t e] at hi; cases hi

/-! ### Properties -/

/-- C107: Whatever the threads do, the resources get the numbers 0, 1, 2, … in the order in which they are constructed. -/
theorem C107_numbers (ok : State → Nat → Prop) (s : State) (h : Reach ok s) (k : Nat) (r : Resource) (hr : s.created[k]? = some r) :
    r.id = BitVec.ofNat 32 k := by
  have h2 := (ids_inv h).2
  have h3 : (s.created.map (·.id))[k]? = some r.id := by rw [List.getElem?_map, hr]; rfl
  have hk : k < s.created.length := (List.getElem?_eq_some_iff.mp hr).1
  rw [h2, List.getElem?_map, List.getElem?_range hk] at h3
  simpa using h3.symm

/-- C107, the part that holds: If only resources of one policy are created, and one after the other, then there is no data race, the resources are spread over the
arenas in turn, and each lies in the arena of its list of users. Missing: several policies (`C107_together_false`), and several threads at the same time
(`C107_race_false`). -/
theorem C107_together_partial (p : Nat) (s : State) (h : Reach (oneByOne p) s) :
    ¬ Race s ∧ ∀ k r, s.created[k]? = some r → r.cnt = BitVec.ofNat 32 k ∧ ∀ workers, objectArena workers r = usersArena workers r := by
  have hi := inv h
  constructor
  · rintro ⟨t, u, q, v, hne, ht, hu⟩
    rcases hi.pc with ⟨h, -⟩ | ⟨w, hw, -⟩
    · rw [h t] at ht; cases ht
    · by_cases e : t = w
      · have := hw u (by intro h; exact hne (e.trans h.symm))
        rw [this] at hu
        rcases hu with h | ⟨_, h⟩ <;> cases h
      · rw [hw t e] at ht; cases ht
  · intro k r hr
    have h1 := (hi.same r (List.mem_of_getElem? hr)).2
    refine ⟨h1.trans (C107_numbers _ s h k r hr), fun workers => ?_⟩
    rw [objectArena, usersArena, h1, Nat.mod_mod]

/-- C107 is false for several threads: whenever no thread is creating a resource, two threads can get into a data race on the counter of any policy, which is
undefined behaviour. -/
theorem C107_race_false (s : State) (h : Reach free s) (hi : ∀ t, s.pcs t = .idle) (t u p : Nat) (htu : t ≠ u) :
    ∃ s', Reach free s' ∧ s'.created = s.created ∧ (∃ v w, s'.pcs t = .loaded p v ∧ s'.pcs u = .loaded p w) ∧ Race s' := by
  have r1 := Reach.step h (.enter (t := t) (p := p) (hi t) trivial)
  have r2 := Reach.step r1 (.load (t := t) (p := p) (upd_same _ _ _))
  have r3 := Reach.step r2 (.enter (t := u) (p := p) ((upd_ne _ _ (Ne.symm htu)).trans ((upd_ne _ _ (Ne.symm htu)).trans (hi u))) trivial)
  have r4 := Reach.step r3 (.load (t := u) (p := p) (upd_same _ _ _))
  refine ⟨_, r4, rfl, ⟨s.i p, s.i p, ?_, upd_same _ _ _⟩, ?_⟩
  · exact (upd_ne _ _ htu).trans ((upd_ne _ _ htu).trans (upd_same _ _ _))
  · exact ⟨t, u, p, s.i p, htu, (upd_ne _ _ htu).trans ((upd_ne _ _ htu).trans (upd_same _ _ _)), .inr ⟨s.i p, upd_same _ _ _⟩⟩

/-- C107 is false for several policies, also in one thread: the first resource of a second policy is in arena 0, its list of users is not. -/
theorem C107_together_false : ∃ s, Reach serially s ∧ ∃ r ∈ s.created, ∀ workers, 2 ≤ workers → objectArena workers r = 0 ∧ usersArena workers r = 1 := by
  have r1 := Reach.step (ok := serially) .init (.enter (t := 0) (p := 0) rfl (fun _ => rfl))
  have r2 := Reach.step r1 (.load (t := 0) (p := 0) rfl)
  have r3 := Reach.step r2 (.store (t := 0) (p := 0) rfl)
  have r4 := Reach.step r3 (.construct (t := 0) (p := 0) rfl)
  have r5 := Reach.step r4 (.enter (t := 0) (p := 1) rfl (by
    intro u
    by_cases e : u = 0
    · rw [e]; rfl
    · simp [upd, e, init]))
  have r6 := Reach.step r5 (.load (t := 0) (p := 1) rfl)
  have r7 := Reach.step r6 (.store (t := 0) (p := 1) rfl)
  have r8 := Reach.step r7 (.construct (t := 0) (p := 1) rfl)
  refine ⟨_, r8, ⟨1, 0, 1⟩, List.mem_append_right _ (List.mem_singleton.mpr ?_), fun w hw => ⟨?_, ?_⟩⟩
  · rfl
  · exact Nat.zero_mod _
  · show 1 % w % w = 1
    rw [Nat.mod_mod, Nat.mod_eq_of_lt (by omega)]

/-! ### Examples -/

/-- one resource was created, alone -/
theorem exOne (p : Nat) : ∃ s, Reach (oneByOne p) s ∧ s.created = [⟨p, 0, 0⟩] := by
  have r1 := Reach.step (ok := oneByOne p) .init (.enter (t := 4) (p := p) rfl ⟨rfl, fun _ => rfl⟩)
  have r2 := Reach.step r1 (.load (t := 4) (p := p) rfl)
  have r3 := Reach.step r2 (.store (t := 4) (p := p) rfl)
  have r4 := Reach.step r3 (.construct (t := 4) (p := p) rfl)
  exact ⟨_, r4, rfl⟩

example : ∃ s', Reach free s' ∧ Race s' := by
  obtain ⟨s', h, -, -, hr⟩ := C107_race_false init .init (fun _ => rfl) 0 1 0 (by decide)
  exact ⟨s', h, hr⟩

end RG.Create
