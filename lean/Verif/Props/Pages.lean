import Verif.Model.Pages
/-
Property C104: what the allocators ask of the operating system and give back to it.
-/
namespace RG.Pages

variable {c : Cfg} {m m' : Mem} {os : Os} {s s' : State}

/-! ### Lemmas: counting pages -/

theorem within_iff {b k p : Nat} : within b k p = true ↔ b ≤ p ∧ p < b + k := by
  simp [within]

theorem cnt_range_aux {α} (p : α → Bool) (f g : Nat → α) (b k : Nat)
    (h1 : ∀ t, within b k t = false → p (g t) = p (f t))
    (h2 : ∀ t, within b k t = true → p (f t) = false ∧ p (g t) = true) (n : Nat) :
    cnt n p g = cnt n p f + (min n (b + k) - min n b) := by
  induction n with
  | zero => simp [cnt]
  | succ n ih =>
    rw [cnt_succ, cnt_succ, ih]
    cases h : within b k n with
    | true =>
      obtain ⟨h3, h4⟩ := h2 n h
      have := within_iff.1 h
      rw [h3, h4]
      simp only [if_true, Bool.false_eq_true, if_false]
      omega
    | false =>
      rw [h1 n h]
      have : ¬ (b ≤ n ∧ n < b + k) := fun h5 => by rw [within_iff.2 h5] at h; cases h
      omega

theorem cnt_range {α} {p : α → Bool} {f g : Nat → α} {b k n : Nat}
    (h1 : ∀ t, within b k t = false → p (g t) = p (f t))
    (h2 : ∀ t, within b k t = true → p (f t) = false ∧ p (g t) = true) (hn : b + k ≤ n) :
    cnt n p g = cnt n p f + k := by
  rw [cnt_range_aux p f g b k h1 h2 n]
  omega

/-- the page belongs to a chunk -/
def isChunk : Option Owner → Bool
  | some (.chunk _) => true
  | _ => false

/-- pages that the process uses for chunks -/
def footprint (c : Cfg) (m : Mem) : Nat := cnt c.space isChunk m.owner

/-- chunks that have been destroyed -/
def destroyed (m : Mem) : Nat := cnt m.n id m.released

/-! ### Invariant of the address space -/

structure MInv (c : Cfg) (m : Mem) : Prop where
  own : ∀ p i, m.owner p = some (.chunk i) ↔
    i < m.n ∧ m.base i ≤ p ∧ p < m.base i + c.need ∧ (m.released i = true → m.base i + c.freed ≤ p)
  lt : ∀ i, i < m.n → m.base i + c.need ≤ c.space
  rel : ∀ i, m.n ≤ i → m.released i = false
  foot : footprint c m + c.freed * destroyed m = c.need * m.n

theorem MInv.init (others : Nat → Bool) : MInv c (Mem.init others) where
  own p i := by
    constructor
    · intro h
      simp only [Mem.init] at h
      split at h <;> cases h
    · intro h; exact absurd h.1 (Nat.not_lt_zero i)
  lt i h := absurd h (Nat.not_lt_zero i)
  rel _ _ := rfl
  foot := by
    have : footprint c (Mem.init others) = 0 := by
      refine cnt_eq_zero.2 fun t _ => ?_
      simp only [Mem.init]
      split <;> rfl
    rw [this]
    simp [destroyed, Mem.init, cnt]

theorem MInv.map (hi : MInv c m) {b : Nat} (hb : m.fits c b) : MInv c (m.map c b) where
  own p i := by
    simp only [Mem.map]
    cases hw : within b c.need p with
    | true =>
      have h := within_iff.1 hw
      simp only [if_true]
      constructor
      · intro e
        cases e
        rw [upd_same, hi.rel m.n (Nat.le_refl _)]
        exact ⟨Nat.lt_succ_self _, h.1, h.2, fun h => by cases h⟩
      · intro ⟨h1, h2, h3, h4⟩
        by_cases e : i = m.n
        · rw [e]
        · rw [upd_ne _ _ e] at h2 h3 h4
          have := (hi.own p i).2 ⟨by omega, h2, h3, h4⟩
          rw [hb.2 p hw] at this
          cases this
    | false =>
      have h : ¬ (b ≤ p ∧ p < b + c.need) := fun h => by rw [within_iff.2 h] at hw; cases hw
      simp only [Bool.false_eq_true, if_false]
      rw [hi.own p i]
      constructor
      · intro ⟨h1, h2, h3, h4⟩
        rw [upd_ne _ _ (by omega)]
        exact ⟨by omega, h2, h3, h4⟩
      · intro ⟨h1, h2, h3, h4⟩
        by_cases e : i = m.n
        · subst e
          rw [upd_same] at h2 h3
          exact absurd ⟨h2, h3⟩ h
        · rw [upd_ne _ _ e] at h2 h3 h4
          exact ⟨by omega, h2, h3, h4⟩
  lt i h := by
    simp only [Mem.map] at h ⊢
    by_cases e : i = m.n
    · subst e; rw [upd_same]; exact hb.1
    · rw [upd_ne _ _ e]; exact hi.lt i (by omega)
  rel i h := hi.rel i (by simp only [Mem.map] at h; omega)
  foot := by
    have h1 : footprint c (m.map c b) = footprint c m + c.need := by
      refine cnt_range (b := b) (k := c.need) (fun t ht => ?_) (fun t ht => ?_) hb.1
      · simp only [Mem.map, ht, Bool.false_eq_true, if_false]
      · simp only [Mem.map, ht, if_true, hb.2 t ht]
        exact ⟨rfl, rfl⟩
    have h2 : destroyed (m.map c b) = destroyed m := by
      simp only [destroyed, Mem.map]
      rw [cnt_succ, hi.rel m.n (Nat.le_refl _)]
      simp
    have := hi.foot
    have h3 : (m.map c b).n = m.n + 1 := rfl
    rw [h1, h2, h3, Nat.mul_add]
    omega

theorem MInv.unmap (hi : MInv c m) (hc : c.freed ≤ c.need) {i : Nat} (h1 : i < m.n) (h2 : m.released i = false) :
    MInv c (m.unmap c i) where
  own p j := by
    simp only [Mem.unmap]
    cases hw : within (m.base i) c.freed p with
    | true =>
      have h := within_iff.1 hw
      simp only [if_true]
      constructor
      · intro e; cases e
      · intro ⟨h3, h4, h5, h6⟩
        by_cases e : j = i
        · subst e
          have := h6 (upd_same _ _ _)
          omega
        · rw [upd_ne _ _ e] at h6
          have h7 := (hi.own p j).2 ⟨h3, h4, h5, h6⟩
          have h8 := (hi.own p i).2 ⟨h1, h.1, by omega, fun h => by rw [h2] at h; cases h⟩
          rw [h7] at h8
          cases h8
          exact absurd rfl e
    | false =>
      have h : ¬ (m.base i ≤ p ∧ p < m.base i + c.freed) := fun h => by rw [within_iff.2 h] at hw; cases hw
      simp only [Bool.false_eq_true, if_false]
      rw [hi.own p j]
      by_cases e : j = i
      · subst e
        rw [upd_same, h2]
        constructor
        · intro ⟨h3, h4, h5, h6⟩
          exact ⟨h3, h4, h5, fun _ => by omega⟩
        · intro ⟨h3, h4, h5, h6⟩
          exact ⟨h3, h4, h5, fun h => by cases h⟩
      · rw [upd_ne _ _ e]
  lt := hi.lt
  rel j hj := by
    have h3 : j ≠ i := by simp only [Mem.unmap] at hj; omega
    simp only [Mem.unmap]
    rw [upd_ne _ _ h3]
    exact hi.rel j hj
  foot := by
    have h3 : footprint c m = footprint c (m.unmap c i) + c.freed := by
      refine cnt_range (b := m.base i) (k := c.freed) (fun t ht => ?_) (fun t ht => ?_) ?_
      · simp only [Mem.unmap, ht, Bool.false_eq_true, if_false]
      · have h := within_iff.1 ht
        have h4 := (hi.own t i).2 ⟨h1, h.1, by omega, fun h => by rw [h2] at h; cases h⟩
        simp only [Mem.unmap, ht, if_true, h4]
        exact ⟨rfl, rfl⟩
      · have := hi.lt i h1; omega
    have h4 : destroyed (m.unmap c i) = destroyed m + 1 := by
      have := cnt_update m.n id m.released i true h1
      rw [h2] at this
      simp only [id, Bool.false_eq_true, if_false, if_true] at this
      exact this
    have := hi.foot
    have h5 : (m.unmap c i).n = m.n := rfl
    rw [h4, h5, Nat.mul_add]
    omega

theorem MInv.other (hi : MInv c m) {p : Nat} {v : Option Owner} (h1 : isChunk (m.owner p) = false) (h2 : isChunk v = false) :
    MInv c { m with owner := upd m.owner p v } where
  own q i := by
    by_cases e : q = p
    · subst e
      dsimp only
      rw [upd_same, ← hi.own q i]
      constructor
      · intro h; rw [h] at h2; cases h2
      · intro h; rw [h] at h1; cases h1
    · dsimp only
      rw [upd_ne _ _ e]
      exact hi.own q i
  lt := hi.lt
  rel := hi.rel
  foot := by
    have : footprint c { m with owner := upd m.owner p v } = footprint c m := by
      refine cnt_congr fun t _ => ?_
      by_cases e : t = p
      · subst e; dsimp only; rw [upd_same, h1, h2]
      · dsimp only; rw [upd_ne _ _ e]
    rw [this]
    exact hi.foot

theorem MInv.step (hc : c.freed ≤ c.need) (hi : MInv c m) (h : Mem.Step c m m') : MInv c m' := by
  cases h with
  | map hb => exact hi.map hb
  | unmap h1 h2 => exact hi.unmap hc h1 h2
  | otherMap h1 h2 => exact hi.other (by rw [h2]; rfl) rfl
  | otherUnmap h1 => exact hi.other (by rw [h1]; rfl) rfl

theorem MInv.steps (hc : c.freed ≤ c.need) (hi : MInv c m) (h : Mem.Steps c m m') : MInv c m' := by
  induction h with
  | refl => exact hi
  | tail _ h ih => exact ih.step hc h

theorem reach_minv (hc : c.freed ≤ c.need) (h : Mem.Reach c m) : MInv c m :=
  h.elim fun others h => (MInv.init others).steps hc h

theorem destroyed_le : destroyed m ≤ m.n := cnt_le _ _ _

/-- the numbers and places of chunks are kept, and what is destroyed stays destroyed -/
theorem steps_mono (h : Mem.Steps c m m') : m.n ≤ m'.n ∧ ∀ i, i < m.n → m'.base i = m.base i ∧
    (m.released i = true → m'.released i = true) := by
  induction h with
  | refl => exact ⟨Nat.le_refl _, fun i _ => ⟨rfl, id⟩⟩
  | @tail m1 m2 _ h ih =>
    refine ⟨?_, fun i hi => ?_⟩
    · cases h <;> simp only [Mem.map, Mem.unmap] <;> omega
    · have h2 := ih.2 i hi
      have h3 : m2.base i = m1.base i ∧ (m1.released i = true → m2.released i = true) := by
        cases h with
        | map hb =>
          refine ⟨?_, id⟩
          simp only [Mem.map]
          rw [upd_ne _ _ (by omega)]
        | @unmap j h4 h5 =>
          refine ⟨rfl, fun h => ?_⟩
          simp only [Mem.unmap]
          by_cases e : i = j
          · rw [e, upd_same]
          · rw [upd_ne _ _ e]; exact h
        | otherMap => exact ⟨rfl, id⟩
        | otherUnmap => exact ⟨rfl, id⟩
      exact ⟨h3.1.trans h2.1, fun h => h3.2 (h2.2 h)⟩

theorem pagesOf_mono {p a b : Nat} (h : a ≤ b) : pagesOf p a ≤ pagesOf p b :=
  Nat.div_le_div_right (by omega)

theorem freed_le_need (h : c.counted ≤ c.capacity + c.ctrl) : c.freed ≤ c.need := pagesOf_mono h

theorem default_need (space : Nat) : (defaultCfg space).need = 17 := by
  show (64 * 1024 + (32 + 512) + 4096 - 1) / 4096 = 17
  decide

theorem default_freed (space : Nat) : (defaultCfg space).freed = 1 := by
  show (16 + 24 + 32 + 4096 - 1) / 4096 = 1
  decide

theorem default_counted (space : Nat) : (defaultCfg space).counted ≤ (defaultCfg space).capacity + (defaultCfg space).ctrl := by
  show 16 + 24 + 32 ≤ 64 * 1024 + (32 + 512)
  decide

/-! ### C104: the address space -/

/-- C104: however many threads and arenas create and destroy chunks, all pages of a chunk that is not destroyed are mapped, and for this chunk:
neither the destruction of other chunks nor a new chunk takes one away. -/
theorem C104_chunks_stay_mapped (hc : c.counted ≤ c.capacity + c.ctrl) (h : Mem.Reach c m) {i p : Nat} (hi : i < m.n)
    (hr : m.released i = false) (h1 : m.base i ≤ p) (h2 : p < m.base i + c.need) : m.owner p = some (.chunk i) :=
  ((reach_minv (freed_le_need hc) h).own p i).2 ⟨hi, h1, h2, fun h => by rw [hr] at h; cases h⟩

/-- C104: the destruction of a chunk unmaps no page of anybody else. -/
theorem C104_others_untouched (hc : c.counted ≤ c.capacity + c.ctrl) (h : Mem.Reach c m) {i p : Nat} (hi : i < m.n)
    (hr : m.released i = false) (hp : m.owner p ≠ some (.chunk i)) : (m.unmap c i).owner p = m.owner p := by
  have hv := reach_minv (freed_le_need hc) h
  simp only [Mem.unmap]
  cases hw : within (m.base i) c.freed p with
  | false => simp
  | true =>
    have h1 := within_iff.1 hw
    have h2 := freed_le_need hc
    exact absurd ((hv.own p i).2 ⟨hi, h1.1, by omega, fun h => by rw [hr] at h; cases h⟩) hp

/-- C104: the number of pages that the process uses for chunks: all pages of the chunks in use, and for each chunk that has been destroyed, the
pages that were not given back. -/
theorem C104_footprint (hc : c.counted ≤ c.capacity + c.ctrl) (h : Mem.Reach c m) :
    footprint c m = c.need * (m.n - destroyed m) + (c.need - c.freed) * destroyed m := by
  have h1 := (reach_minv (freed_le_need hc) h).foot
  have h2 := destroyed_le (m := m)
  have h3 := Nat.mul_le_mul_right (destroyed m) (freed_le_need hc)
  have h4 := Nat.mul_le_mul_left c.need h2
  rw [Nat.mul_sub, Nat.sub_mul]
  omega

/-- C104 (partial): if the object at the beginning of a chunk occupies as many pages as the whole chunk, then destroyed chunks leave nothing
behind. Missing: other sizes, in particular the ones of the code, see `C104_given_back_false`. -/
theorem C104_given_back_partial (hc : c.freed = c.need) (h : Mem.Reach c m) {i p : Nat} (hp : m.owner p = some (.chunk i)) :
    m.released i = false := by
  obtain ⟨_, h1, h2, h3⟩ := ((reach_minv (Nat.le_of_eq hc) h).own p i).1 hp
  cases hr : m.released i with
  | false => rfl
  | true => have := h3 hr; omega

/-- C104 is false: with the sizes of the code, 16 of the 17 pages of a chunk stay mapped for it, whatever happens after its creation, also if it is destroyed: they are
never given back and never used again. -/
theorem C104_given_back_false (space : Nat) (h : Mem.Reach (defaultCfg space) m) {i : Nat} (hi : i < m.n)
    (hs : Mem.Steps (defaultCfg space) m m') (k : Nat) (h1 : 1 ≤ k) (h2 : k < 17) :
    m'.owner (m.base i + k) = some (.chunk i) := by
  have hc := freed_le_need (default_counted space)
  have hv := (reach_minv hc h).steps hc hs
  obtain ⟨h3, h4⟩ := steps_mono hs
  obtain ⟨h5, h6⟩ := h4 i hi
  have h7 := default_need space
  have h8 := default_freed space
  rw [hv.own]
  rw [h5, h7, h8]
  exact ⟨by omega, by omega, by omega, fun _ => by omega⟩

/-! ### Lemmas: one allocator -/

/-- What the list knows of the address space. -/
structure Inv (c : Cfg) (s : State) : Prop where
  mem : MInv c s.mem
  nodup : (s.list.map (·.id)).Nodup
  ids : ∀ i, i ∈ s.list.map (·.id) ↔ i < s.mem.n ∧ s.mem.released i = false

theorem foldl_unmap (hc : c.freed ≤ c.need) (l : List Nat) : ∀ (m : Mem), MInv c m → l.Nodup → (∀ i, i ∈ l → i < m.n ∧ m.released i = false) →
    MInv c (l.foldl (Mem.unmap c) m) ∧ (l.foldl (Mem.unmap c) m).n = m.n ∧
      ∀ i, (l.foldl (Mem.unmap c) m).released i = (m.released i || decide (i ∈ l)) := by
  induction l with
  | nil => intro m h _ _; exact ⟨h, rfl, fun i => by simp⟩
  | cons a l ih =>
    intro m h hd hl
    obtain ⟨hd1, hd2⟩ := List.nodup_cons.1 hd
    have ha := hl a (List.mem_cons_self ..)
    have h1 := h.unmap hc ha.1 ha.2
    obtain ⟨h2, h3, h4⟩ := ih (m.unmap c a) h1 hd2 (fun i hi => by
      have := hl i (List.mem_cons_of_mem _ hi)
      refine ⟨this.1, ?_⟩
      have e : i ≠ a := fun e => hd1 (e ▸ hi)
      simp only [Mem.unmap]
      rw [upd_ne _ _ e]
      exact this.2)
    refine ⟨h2, h3, fun i => ?_⟩
    rw [List.foldl_cons, h4 i]
    simp only [Mem.unmap]
    by_cases e : i = a
    · subst e; rw [upd_same]; simp
    · rw [upd_ne _ _ e]; simp [e]

theorem foldl_steps (l : List Nat) : ∀ (m0 m : Mem), Mem.Steps c m0 m → l.Nodup → (∀ i, i ∈ l → i < m.n ∧ m.released i = false) →
    Mem.Steps c m0 (l.foldl (Mem.unmap c) m) := by
  induction l with
  | nil => intro m0 m h _ _; exact h
  | cons a l ih =>
    intro m0 m h hd hl
    obtain ⟨hd1, hd2⟩ := List.nodup_cons.1 hd
    have ha := hl a (List.mem_cons_self ..)
    refine ih m0 (m.unmap c a) (h.tail (.unmap ha.1 ha.2)) hd2 (fun i hi => ?_)
    have := hl i (List.mem_cons_of_mem _ hi)
    refine ⟨this.1, ?_⟩
    have e : i ≠ a := fun e => hd1 (e ▸ hi)
    simp only [Mem.unmap]
    rw [upd_ne _ _ e]
    exact this.2

/-- the chunks of a list are those that stay and those that are destroyed -/
theorem walk_perm (id : Nat) (l : List Chunk) :
    ((walk id l).2 ++ (walk id l).1.map (·.id)).Perm (l.map (·.id)) := by
  induction l with
  | nil => exact .refl _
  | cons k rest ih =>
    simp only [walk]
    split
    · exact ih.cons _
    · split
      · split
        · dsimp only
          rw [List.cons_append, ← List.map_append, List.takeWhile_append_dropWhile]
          exact .refl _
        · exact .refl _
      · dsimp only
        rw [List.map_cons, List.map_cons]
        exact List.perm_middle.trans (ih.cons _)

theorem search_perm (id : Nat) (l : List Chunk) :
    ((search id l).2 ++ (search id l).1.map (·.id)).Perm (l.map (·.id)) := by
  cases l with
  | nil => exact .refl _
  | cons k rest =>
    simp only [search]
    split
    · split
      · dsimp only
        rw [List.map_cons, List.map_cons]
        refine List.perm_middle.trans (.cons _ ?_)
        rw [← List.map_append, List.takeWhile_append_dropWhile]
      · exact .refl _
    · dsimp only
      rw [List.map_cons, List.map_cons]
      exact List.perm_middle.trans ((walk_perm id rest).cons _)

theorem nodup_append_disjoint {a b : List Nat} (h : (a ++ b).Nodup) : a.Nodup ∧ b.Nodup ∧ ∀ x, x ∈ a → x ∉ b := by
  have := List.nodup_append.1 h
  exact ⟨this.1, this.2.1, fun x hx hy => this.2.2 x hx x hy rfl⟩

theorem Inv.init (others : Nat → Bool) : Inv c (State.init others) where
  mem := MInv.init others
  nodup := List.nodup_nil
  ids i := by simp [State.init, Mem.init]

/-- chunks are destroyed -/
theorem Inv.drop (hc : c.freed ≤ c.need) (hi : Inv c s) {l1 : List Chunk} {l2 : List Nat} {lv : List Nat}
    (hp : (l2 ++ l1.map (·.id)).Perm (s.list.map (·.id))) :
    Inv c ⟨l2.foldl (Mem.unmap c) s.mem, l1, lv⟩ ∧ Mem.Steps c s.mem (l2.foldl (Mem.unmap c) s.mem) := by
  obtain ⟨hd1, hd2, hd3⟩ := nodup_append_disjoint (hp.nodup_iff.2 hi.nodup)
  have hl : ∀ i, i ∈ l2 → i < s.mem.n ∧ s.mem.released i = false :=
    fun i h => (hi.ids i).1 (hp.subset (List.mem_append_left _ h))
  obtain ⟨h1, h2, h3⟩ := foldl_unmap hc l2 s.mem hi.mem hd1 hl
  refine ⟨⟨h1, hd2, fun i => ?_⟩, foldl_steps l2 _ _ .refl hd1 hl⟩
  dsimp only
  rw [h2, h3 i]
  have h4 := hp.mem_iff (a := i)
  rw [List.mem_append, hi.ids i] at h4
  constructor
  · intro h
    have h5 := h4.1 (.inr h)
    have h6 : i ∉ l2 := fun h6 => hd3 i h6 h
    exact ⟨h5.1, by simp [h5.2, h6]⟩
  · intro ⟨h5, h6⟩
    rw [Bool.or_eq_false_iff] at h6
    rcases h4.2 ⟨h5, h6.1⟩ with h | h
    · exact absurd h (by simpa using h6.2)
    · exact h

theorem Inv.grow (hi : Inv c s) (ho : os.Sound c) {sz id : Nat} (h : grow c os s sz = .ok s' id) :
    Inv c s' ∧ Mem.Steps c s.mem s'.mem := by
  unfold Pages.grow at h
  split at h
  · cases h
  · rename_i b hb
    have hf := ho _ _ hb
    split at h
    · cases h
      refine ⟨⟨hi.mem.map hf, ?_, fun i => ?_⟩, .tail .refl (.map hf)⟩
      · dsimp only
        rw [List.map_cons, List.nodup_cons]
        exact ⟨fun h => absurd ((hi.ids _).1 h).1 (Nat.lt_irrefl _), hi.nodup⟩
      · dsimp only
        rw [List.map_cons, List.mem_cons, hi.ids i]
        simp only [Mem.map]
        constructor
        · rintro (e | ⟨h1, h2⟩)
          · subst e; exact ⟨Nat.lt_succ_self _, hi.mem.rel _ (Nat.le_refl _)⟩
          · exact ⟨by omega, h2⟩
        · intro ⟨h1, h2⟩
          by_cases e : i = s.mem.n
          · exact .inl e
          · exact .inr ⟨by omega, h2⟩
    · cases h

theorem Inv.allocate (hi : Inv c s) (ho : os.Sound c) {sz id : Nat} (h : allocate c os s sz = .ok s' id) :
    Inv c s' ∧ Mem.Steps c s.mem s'.mem := by
  unfold Pages.allocate at h
  split at h
  · split at h
    · exact hi.grow ho h
    · rename_i k rest e
      have hn := hi.nodup
      have hd := hi.ids
      rw [e] at hn hd
      split at h
      · cases h
        exact ⟨⟨hi.mem, hn, hd⟩, .refl⟩
      · exact Inv.grow (s := { s with list := { k with left := k.left - sz } :: rest }) ⟨hi.mem, hn, hd⟩ ho h
  · cases h

theorem Inv.deallocate (hc : c.freed ≤ c.need) (hi : Inv c s) (id : Nat) :
    Inv c (deallocate c s id) ∧ Mem.Steps c s.mem (deallocate c s id).mem :=
  hi.drop hc (search_perm id s.list)

theorem Inv.destroy (hc : c.freed ≤ c.need) (hi : Inv c s) :
    Inv c (destroy c s) ∧ Mem.Steps c s.mem (destroy c s).mem :=
  hi.drop (l1 := []) hc (by rw [List.map_nil, List.append_nil])

theorem Mem.Steps.trans {a b d : Mem} (h1 : Mem.Steps c a b) (h2 : Mem.Steps c b d) : Mem.Steps c a d := by
  induction h2 with
  | refl => exact h1
  | tail _ h ih => exact ih.tail h

theorem reach_inv (hc : c.freed ≤ c.need) (ho : os.Sound c) (h : Reach c os s) : Inv c s ∧ Mem.Reach c s.mem := by
  induction h with
  | init => exact ⟨Inv.init _, _, .refl⟩
  | allocate _ h ih =>
    obtain ⟨h1, others, h2⟩ := ih
    exact ⟨(h1.allocate ho h).1, others, h2.trans (h1.allocate ho h).2⟩
  | deallocate _ _ ih =>
    obtain ⟨h1, others, h2⟩ := ih
    exact ⟨(h1.deallocate hc _).1, others, h2.trans (h1.deallocate hc _).2⟩
  | destroy _ ih =>
    obtain ⟨h1, others, h2⟩ := ih
    exact ⟨(h1.destroy hc).1, others, h2.trans (h1.destroy hc).2⟩
  | otherMap _ hp hn ih =>
    obtain ⟨h1, others, h2⟩ := ih
    exact ⟨⟨h1.mem.other (by rw [hn]; rfl) rfl, h1.nodup, h1.ids⟩, others, h2.tail (.otherMap hp hn)⟩
  | otherUnmap _ hn ih =>
    obtain ⟨h1, others, h2⟩ := ih
    exact ⟨⟨h1.mem.other (by rw [hn]; rfl) rfl, h1.nodup, h1.ids⟩, others, h2.tail (.otherUnmap hn)⟩

theorem length_add_cnt (f : Nat → Bool) : ∀ (n : Nat) (l : List Nat), l.Nodup → (∀ i, i ∈ l ↔ i < n ∧ f i = false) →
    l.length + cnt n id f = n := by
  intro n
  induction n with
  | zero =>
    intro l _ h
    cases l with
    | nil => rfl
    | cons a l => exact absurd ((h a).1 (List.mem_cons_self ..)).1 (Nat.not_lt_zero a)
  | succ n ih =>
    intro l hd h
    rw [cnt_succ]
    cases hf : f n with
    | true =>
      have := ih l hd (fun i => by
        rw [h i]
        constructor
        · intro ⟨h1, h2⟩
          have : i ≠ n := fun e => by rw [e, hf] at h2; cases h2
          exact ⟨by omega, h2⟩
        · intro ⟨h1, h2⟩; exact ⟨by omega, h2⟩)
      simp only [id, if_true]
      omega
    | false =>
      have hm : n ∈ l := (h n).2 ⟨Nat.lt_succ_self n, hf⟩
      have := ih (l.erase n) (hd.erase n) (fun i => by
        rw [hd.mem_erase_iff, h i]
        constructor
        · intro ⟨h1, h2, h3⟩; exact ⟨by omega, h3⟩
        · intro ⟨h1, h2⟩; exact ⟨by omega, by omega, h2⟩)
      rw [List.length_erase_of_mem hm] at this
      have h1 : 0 < l.length := List.length_pos_of_mem hm
      simp only [id, Bool.false_eq_true, if_false]
      omega

theorem Inv.length (hi : Inv c s) : s.list.length + destroyed s.mem = s.mem.n := by
  have := length_add_cnt s.mem.released s.mem.n (s.list.map (·.id)) hi.nodup hi.ids
  rwa [List.length_map] at this

theorem Inv.footprint (hc : c.freed ≤ c.need) (hi : Inv c s) :
    footprint c s.mem = c.need * s.list.length + (c.need - c.freed) * (s.mem.n - s.list.length) := by
  have h1 := hi.mem.foot
  have h2 := hi.length
  have h3 : s.mem.n - s.list.length = destroyed s.mem := by omega
  have h4 := Nat.mul_le_mul_right (destroyed s.mem) hc
  rw [h3, Nat.sub_mul]
  rw [← h2, Nat.mul_add] at h1
  omega

/-- the program between two turns: one chunk with one block in use and some space left -/
structure Loop (c : Cfg) (left : Int) (s : State) (last : Nat) : Prop where
  inv : Inv c s
  list : s.list = [⟨last, left, 1, false⟩]
  live : s.live = [last]

theorem first_turn (ho : os.Sound c) {sz : Nat} (h1 : sz ≤ c.usable) (h2 : sz ≤ c.capacity) {others : Nat → Bool} :
    allocate c os (State.init others) sz = .fault ∨
      ∃ s id, allocate c os (State.init others) sz = .ok s id ∧ Loop c ((c.usable : Int) - sz) s id ∧ s.mem.n = 1 := by
  cases h : os (Mem.init others) with
  | none =>
    refine .inl ?_
    simp [allocate, State.init, grow, h, h2]
  | some b =>
    refine .inr ⟨⟨(Mem.init others).map c b, [⟨0, (c.usable : Int) - sz, 1, false⟩], [0]⟩, 0, ?_⟩
    have e : allocate c os (State.init others) sz =
        .ok ⟨(Mem.init others).map c b, [⟨0, (c.usable : Int) - sz, 1, false⟩], [0]⟩ 0 := by
      simp only [allocate, State.init, grow, h, h2, h1, if_true]
      rfl
    exact ⟨e, ⟨((Inv.init others).allocate ho e).1, rfl, rfl⟩, rfl⟩

/-- One turn: if the chunk has space, it is used; otherwise a new one is needed, and then the old one is destroyed. -/
theorem turn (hc : c.freed ≤ c.need) (ho : os.Sound c) {sz last : Nat} {left : Int} (h1 : sz ≤ c.usable) (h2 : sz ≤ c.capacity)
    (hl : Loop c left s last) :
    ((sz : Int) ≤ left ∧ ∃ s', allocate c os s sz = .ok s' last ∧ Loop c (left - sz) (deallocate c s' last) last ∧
      (deallocate c s' last).mem = s.mem) ∨
    (left < sz ∧ os s.mem = none ∧ allocate c os s sz = .fault) ∨
    (left < sz ∧ ∃ b s' id, os s.mem = some b ∧ allocate c os s sz = .ok s' id ∧ Loop c ((c.usable : Int) - sz) (deallocate c s' last) id ∧
        (deallocate c s' last).mem = (s.mem.map c b).unmap c last) := by
  by_cases hroom : (sz : Int) ≤ left
  · refine .inl ⟨hroom, ⟨s.mem, [⟨last, left - sz, 2, false⟩], [last, last]⟩, ?_⟩
    have e : allocate c os s sz = .ok ⟨s.mem, [⟨last, left - sz, 2, false⟩], [last, last]⟩ last := by
      simp only [allocate, hl.list, h2, if_true, hroom, hl.live]
    have hi := (hl.inv.allocate ho e).1
    have e2 : deallocate c ⟨s.mem, [⟨last, left - sz, 2, false⟩], [last, last]⟩ last = ⟨s.mem, [⟨last, left - sz, 1, false⟩], [last]⟩ := by
      simp [deallocate, search, Chunk.giveBack]
    refine ⟨e, ⟨(hi.deallocate hc last).1, ?_, ?_⟩, ?_⟩
    · rw [e2]
    · rw [e2]
    · rw [e2]
  · have hlt : left < sz := by omega
    cases h : os s.mem with
    | none =>
      refine .inr (.inl ⟨hlt, rfl, ?_⟩)
      simp only [allocate, hl.list, h2, if_true, hroom, if_false, grow, h]
    | some b =>
      have e : allocate c os s sz = .ok ⟨s.mem.map c b,
          [⟨s.mem.n, (c.usable : Int) - sz, 1, false⟩, ⟨last, left - sz, 1, false⟩], [s.mem.n, last]⟩ s.mem.n := by
        simp only [allocate, hl.list, h2, if_true, hroom, if_false, grow, h, h1, hl.live]
      have hne : s.mem.n ≠ last := by
        have := ((hl.inv.ids last).1 (by rw [hl.list]; simp)).1
        omega
      have hi := (hl.inv.allocate ho e).1
      have hf : left - sz ≤ 0 := by omega
      have e2 : deallocate c ⟨s.mem.map c b,
          [⟨s.mem.n, (c.usable : Int) - sz, 1, false⟩, ⟨last, left - sz, 1, false⟩], [s.mem.n, last]⟩ last =
          ⟨(s.mem.map c b).unmap c last, [⟨s.mem.n, (c.usable : Int) - sz, 1, false⟩], [s.mem.n]⟩ := by
        have e3 : search last [⟨s.mem.n, (c.usable : Int) - sz, 1, false⟩, ⟨last, left - sz, 1, false⟩] =
            ([⟨s.mem.n, (c.usable : Int) - sz, 1, false⟩], [last]) := by
          simp [search, walk, hne, hf]
        simp only [deallocate, e3]
        simp [hne]
      refine .inr (.inr ⟨hlt, b, _, s.mem.n, rfl, e, ⟨(hi.deallocate hc last).1, ?_, ?_⟩, ?_⟩)
      · rw [e2]
      · rw [e2]
      · rw [e2]

/-- A program of `k` turns needs chunks for `k` blocks, up to one chunk. -/
theorem turns_loop (hc : c.freed ≤ c.need) (ho : os.Sound c) {sz : Nat} (h1 : sz ≤ c.usable) (h2 : sz ≤ c.capacity) :
    ∀ (k : Nat) (s : State) (last : Nat) (left : Int), Loop c left s last → 0 ≤ left →
      turns c os sz k s last = .fault ∨
        ∃ s' id left', turns c os sz k s last = .ok s' id ∧ Loop c left' s' id ∧ 0 ≤ left' ∧
          ((k * sz : Nat) : Int) + (s.mem.n * c.usable : Nat) + left' ≤ (s'.mem.n * c.usable : Nat) + left := by
  intro k
  induction k with
  | zero => intro s last left hl h0; exact .inr ⟨s, last, left, rfl, hl, h0, by omega⟩
  | succ k ih =>
    intro s last left hl h0
    simp only [turns]
    have hk : (k + 1) * sz = k * sz + sz := Nat.succ_mul k sz
    rcases turn hc ho h1 h2 hl with ⟨h3, s1, h, h4, h5⟩ | ⟨_, _, h⟩ | ⟨h3, b, s1, id, _, h, h4, h5⟩
    · rw [h]
      rcases ih _ _ _ h4 (by omega) with h7 | ⟨s2, id2, l2, h7, h8, h9, h10⟩
      · exact .inl h7
      · rw [h5] at h10
        exact .inr ⟨s2, id2, l2, h7, h8, h9, by omega⟩
    · rw [h]; exact .inl rfl
    · rw [h]
      have h6 : (deallocate c s1 last).mem.n = s.mem.n + 1 := by rw [h5]; rfl
      rcases ih _ _ _ h4 (by omega) with h7 | ⟨s2, id2, l2, h7, h8, h9, h10⟩
      · exact .inl h7
      · rw [h6, Nat.succ_mul] at h10
        exact .inr ⟨s2, id2, l2, h7, h8, h9, by omega⟩

/-! ### C104: programs with one allocator -/

/-- C104: the pages that a program uses for an allocator: all pages of the chunks in its list, and of every other chunk that it ever had, the pages that were not
given back. -/
theorem C104_footprint_of_programs (hc : c.counted ≤ c.capacity + c.ctrl) (ho : os.Sound c) (h : Reach c os s) :
    footprint c s.mem = c.need * s.list.length + (c.need - c.freed) * (s.mem.n - s.list.length) :=
  (reach_inv (freed_le_need hc) ho h).1.footprint (freed_le_need hc)

/-- C104 is false: also the destruction of the allocator (at `finalize`) gives back only one page of each chunk: 16 pages of every chunk that the allocator ever had
stay mapped. -/
theorem C104_destroyed_false (space : Nat) (ho : os.Sound (defaultCfg space)) (h : Reach (defaultCfg space) os s) :
    footprint (defaultCfg space) (destroy (defaultCfg space) s).mem = 16 * s.mem.n := by
  have hc := freed_le_need (default_counted space)
  have hi := (reach_inv hc ho h).1
  have h1 := (hi.destroy hc).1.footprint hc
  have h2 : (destroy (defaultCfg space) s).mem.n = s.mem.n := by
    obtain ⟨_, h3, _⟩ := foldl_unmap hc _ _ hi.mem hi.nodup (fun i h => (hi.ids i).1 h)
    exact h3
  rw [h1, h2, default_need, default_freed]
  simp [destroy]

/-- C104 is false: a program that takes a block and gives back the block before, and so never has more than two blocks in use, ends with a fault, for
every size of the blocks, on every machine and whatever the kernel does: it does not come further than one chunk for every 16 pages of the
address space. -/
theorem C104_long_running_false (space : Nat) (ho : os.Sound (defaultCfg space)) (others : Nat → Bool) {id sz : Nat} (hsz : sz ≤ (defaultCfg space).usable)
    (h : allocate (defaultCfg space) os (State.init others) sz = .ok s id) :
    (∀ k, (space / 16 + 1) * (defaultCfg space).usable ≤ k * sz → turns (defaultCfg space) os sz k s id = .fault) ∧
      ∀ k s' id', turns (defaultCfg space) os sz k s id = .ok s' id' → s'.live = [id'] ∧ s'.list.length = 1 := by
  have hc := freed_le_need (default_counted space)
  have h0 : 0 < (defaultCfg space).usable := by show 0 < 64 * 1024 - (32 + 512) - 32; decide
  have h2 : sz ≤ (defaultCfg space).capacity := Nat.le_trans hsz (by show 64 * 1024 - (32 + 512) - 32 ≤ 64 * 1024; decide)
  rcases first_turn ho hsz h2 (others := others) with h4 | ⟨s1, id1, h4, hl, hn⟩
  · rw [h] at h4; cases h4
  · rw [h] at h4
    cases h4
    refine ⟨fun k hk => ?_, fun k s' id' hk => ?_⟩
    · rcases turns_loop hc ho hsz h2 k s id _ hl (by omega) with h5 | ⟨s2, id2, l2, h5, h6, h7, h8⟩
      · exact h5
      · exfalso
        have h9 := h6.inv.footprint hc
        have h10 : footprint (defaultCfg space) s2.mem ≤ space := cnt_le _ _ _
        rw [h6.list, default_need, default_freed] at h9
        simp only [List.length_cons, List.length_nil] at h9
        have h11 : s2.mem.n ≤ space / 16 := by omega
        have h12 := Nat.mul_le_mul_right (defaultCfg space).usable h11
        rw [Nat.add_mul] at hk
        rw [hn] at h8
        omega
    · rcases turns_loop hc ho hsz h2 k s id _ hl (by omega) with h5 | ⟨s2, id2, l2, h5, h6, h7, h8⟩
      · rw [h5] at hk; cases hk
      · rw [h5] at hk
        cases hk
        exact ⟨h6.live, by rw [h6.list]; rfl⟩

/-- C104 (partial): if the chunks were given back completely, the program would run as long as it likes, in an address space of three chunks that nobody
else uses, with any kernel that places a chunk if there is room. Missing: the sizes of the code, see `C104_long_running_false`. -/
theorem C104_long_running_partial (hc : c.freed = c.need) (ho : os.Sound c) (hg : ∀ m, os m = none → ∀ b, ¬ m.fits c b)
    (hs : 3 * c.need ≤ c.space) {sz : Nat} (h1 : sz ≤ c.usable) :
    ∃ s id, allocate c os (State.init fun _ => false) sz = .ok s id ∧ ∀ k, ∃ s' id', turns c os sz k s id = .ok s' id' := by
  have hc' := Nat.le_of_eq hc
  have h2 : sz ≤ c.capacity := Nat.le_trans h1 (by unfold Cfg.usable; omega)
  have hno : ∀ {m m' : Mem} {b i : Nat}, (∀ p, m.owner p ≠ some .other) → m' = (m.map c b).unmap c i → ∀ p, m'.owner p ≠ some .other := by
    intro m m' b i h e p
    rw [e]
    show (if within ((m.map c b).base i) c.freed p = true then none else
      if within b c.need p = true then some (.chunk m.n) else m.owner p) ≠ some .other
    by_cases h5 : within ((m.map c b).base i) c.freed p = true
    · rw [if_pos h5]; intro h; cases h
    · rw [if_neg h5]
      by_cases h6 : within b c.need p = true
      · rw [if_pos h6]; intro h; cases h
      · rw [if_neg h6]; exact h p
  have key : ∀ (k : Nat) (s : State) (last : Nat) (left : Int), Loop c left s last → (∀ p, s.mem.owner p ≠ some .other) →
      ∃ s' id', turns c os sz k s last = .ok s' id' := by
    intro k
    induction k with
    | zero => intro s last _ _ _; exact ⟨s, last, rfl⟩
    | succ k ih =>
      intro s last left hl hn
      rcases turn hc' ho h1 h2 hl with ⟨_, s1, h, h4, h5⟩ | ⟨_, h4, _⟩ | ⟨_, b, s1, id, _, h, h4, h5⟩
      · simp only [turns, h]
        exact ih _ _ _ h4 (by rw [h5]; exact hn)
      · exfalso
        have hfree : ∀ p, ¬ (s.mem.base last ≤ p ∧ p < s.mem.base last + c.need) → s.mem.owner p = none := by
          intro p hp
          cases he : s.mem.owner p with
          | none => rfl
          | some o =>
            cases o with
            | other => exact absurd he (hn p)
            | chunk i =>
              obtain ⟨h5, h6, h7, h8⟩ := (hl.inv.mem.own p i).1 he
              have h9 : s.mem.released i = false := by
                cases hr : s.mem.released i with
                | false => rfl
                | true => have := h8 hr; omega
              have h10 := (hl.inv.ids i).2 ⟨h5, h9⟩
              rw [hl.list] at h10
              have : i = last := by simpa using h10
              subst this
              exact absurd ⟨h6, h7⟩ hp
        by_cases hb : c.need ≤ s.mem.base last
        · exact hg _ h4 0 ⟨by omega, fun p hp => hfree p (by have := within_iff.1 hp; omega)⟩
        · exact hg _ h4 (s.mem.base last + c.need) ⟨by omega, fun p hp => hfree p (by have := within_iff.1 hp; omega)⟩
      · simp only [turns, h]
        exact ih _ _ _ h4 (hno hn h5)
  rcases first_turn ho h1 h2 (others := fun _ => false) with h4 | ⟨s, id, h4, hl, hn⟩
  · exfalso
    have hf : (Mem.init fun _ => false).fits c 0 := ⟨by omega, fun p _ => rfl⟩
    cases e : os (Mem.init fun _ => false) with
    | none => exact hg _ e 0 hf
    | some b =>
      have : allocate c os (State.init fun _ => false) sz ≠ .fault := by
        simp only [allocate, State.init, grow, e, h1, h2, if_true]
        intro h; cases h
      exact this h4
  · refine ⟨s, id, h4, fun k => key k s id _ hl ?_⟩
    have e : allocate c os (State.init fun _ => false) sz = .ok s id := h4
    simp only [allocate, State.init, h2, if_true, grow] at e
    split at e
    · cases e
    · split at e
      · cases e
        intro p
        simp only [Mem.map]
        split
        · intro h; cases h
        · intro h; simp [Mem.init] at h
      · exact absurd h1 ‹_›

/-! ### C104: the system has no memory -/

/-- C104 (partial): a request that fits into the current chunk is answered whether or not the system has memory. Missing: requests that need a new chunk, see
`C104_no_memory_false`. -/
theorem C104_no_memory_partial {k : Chunk} {rest : List Chunk} {sz : Nat} (h : s.list = k :: rest) (h1 : (sz : Int) ≤ k.left) (h2 : sz ≤ c.capacity) :
    ∃ s', allocate c os s sz = .ok s' k.id ∧ s'.live = k.id :: s.live ∧ s'.mem = s.mem := by
  refine ⟨{ s with list := { k with left := k.left - sz, count := k.count + 1 } :: rest, live := k.id :: s.live }, ?_, rfl, rfl⟩
  simp only [allocate, h, h1, h2, if_true]

/-- C104 is false: if the system refuses a chunk, then every request that needs a new chunk ends with an object at the address null; no request is ever answered with
a null block for this reason. -/
theorem C104_no_memory_false {sz : Nat} (h2 : sz ≤ c.capacity) (h1 : ∀ k, s.list.head? = some k → k.left < (sz : Int)) (ho : os s.mem = none) :
    allocate c os s sz = .fault := by
  simp only [allocate, h2, if_true]
  cases h : s.list with
  | nil => simp only [grow, ho]
  | cons k rest =>
    have := h1 k (by rw [h]; rfl)
    have h3 : ¬ ((sz : Int) ≤ k.left) := by omega
    simp only [h3, if_false, grow, ho]

/-! ### Examples -/

/-- a kernel that places chunks at the first page that is free from there on -/
def firstFit (c : Cfg) : Os := fun m =>
  (List.range (c.space + 1)).find? fun b =>
    decide (b + c.need ≤ c.space) && (List.range c.need).all fun k => (m.owner (b + k)).isNone

theorem firstFit_sound : (firstFit c).Sound c := by
  intro m b h
  have := List.find?_some h
  simp only [Bool.and_eq_true, decide_eq_true_eq, List.all_eq_true, List.mem_range, Option.isNone_iff_eq_none] at this
  refine ⟨this.1, fun p hp => ?_⟩
  have h1 := within_iff.1 hp
  have h2 := this.2 (p - b) (by omega)
  rwa [show b + (p - b) = p by omega] at h2

theorem firstFit_complete (h : firstFit c m = none) (b : Nat) : ¬ m.fits c b := by
  intro hf
  have h1 := List.find?_eq_none.1 h b (List.mem_range.2 (by have := hf.1; omega))
  apply h1
  simp only [Bool.and_eq_true, decide_eq_true_eq, List.all_eq_true, List.mem_range, Option.isNone_iff_eq_none]
  exact ⟨hf.1, fun k hk => hf.2 _ (within_iff.2 ⟨by omega, by omega⟩)⟩

/-- small sizes: a chunk has three pages, one is given back -/
def tiny : Cfg := ⟨16, 40, 8, 4, 10, 12⟩

example : tiny.need = 3 ∧ tiny.freed = 1 ∧ tiny.usable = 28 ∧ tiny.counted ≤ tiny.capacity + tiny.ctrl := by decide

/-- the pages of the address space after some turns -/
def picture (c : Cfg) : Out → List (Option Owner)
  | .ok s _ => (List.range c.space).map s.mem.owner
  | _ => []

/-- first block, then turns -/
def run (c : Cfg) (sz k : Nat) : Out :=
  match allocate c (firstFit c) (State.init fun _ => false) sz with
  | .ok s id => turns c (firstFit c) sz k s id
  | o => o

/-- the first page of the chunk 0 is free again, two are lost; after the third turn there is no room for another chunk -/
example : picture tiny (run tiny 20 1) = [none, some (.chunk 0), some (.chunk 0), some (.chunk 1), some (.chunk 1), some (.chunk 1),
    none, none, none, none, none, none] := by decide +kernel

example : picture tiny (run tiny 20 3) = [none, some (.chunk 0), some (.chunk 0), none, some (.chunk 1), some (.chunk 1),
    none, some (.chunk 2), some (.chunk 2), some (.chunk 3), some (.chunk 3), some (.chunk 3)] := by decide +kernel

example : (match run tiny 20 4 with | .fault => true | _ => false) = true := by decide +kernel

/-- pages of 2 MiB: a chunk fits into one page and is given back completely; three pages are enough -/
example : (⟨2 ^ 21, 64 * 1024, 32 + 512, 32, 16 + 24 + 32, 3⟩ : Cfg).freed = (⟨2 ^ 21, 64 * 1024, 32 + 512, 32, 16 + 24 + 32, 3⟩ : Cfg).need ∧
    3 * (⟨2 ^ 21, 64 * 1024, 32 + 512, 32, 16 + 24 + 32, 3⟩ : Cfg).need ≤ 3 := by decide +kernel

/-- a kernel as `C104_long_running_false` and `C104_long_running_partial` speak of -/
example : (firstFit (defaultCfg 1000)).Sound (defaultCfg 1000) ∧ ∀ m, firstFit (defaultCfg 1000) m = none → ∀ b, ¬ m.fits (defaultCfg 1000) b :=
  ⟨firstFit_sound, fun _ h b => firstFit_complete h b⟩

/-- the first request of `C104_long_running_false`; with blocks of 512 bytes and 4 GiB of address space, 8.4 million blocks one after the other are too many -/
example : (2 ^ 20 / 16 + 1) * 64960 ≤ 8400000 * 512 := by decide

example : ∃ s id, allocate (defaultCfg 40) (fun m => if m.n = 0 then some 0 else none) (State.init fun _ => false) 32768 = .ok s id := by
  refine ⟨⟨(Mem.init fun _ => false).map (defaultCfg 40) 0, [⟨0, ((defaultCfg 40).usable : Int) - (32768 : Nat), 1, false⟩], [0]⟩, 0, ?_⟩
  simp only [allocate, State.init, grow, Mem.init, if_true]
  rw [if_pos (by show 32768 ≤ 64 * 1024; decide), if_pos (by show 32768 ≤ 64 * 1024 - (32 + 512) - 32; decide)]

/-- two chunks, the first one destroyed, as in `C104_given_back_false` and `C104_footprint` -/
example : ∃ m, Mem.Reach tiny m ∧ m.n = 2 ∧ m.released 0 = true ∧ m.released 1 = false ∧ footprint tiny m = 5 := by
  refine ⟨(((Mem.init fun _ => false).map tiny 0).map tiny 3).unmap tiny 0, ⟨fun _ => false, ?_⟩, rfl, rfl, rfl, by decide +kernel⟩
  refine .tail (.tail (.tail .refl (.map ⟨by decide, fun p _ => rfl⟩)) (.map ⟨by decide, fun p hp => ?_⟩)) (.unmap (by decide) rfl)
  have h1 := within_iff.1 hp
  have h2 : within 0 tiny.need p = false := by
    cases h : within 0 tiny.need p with
    | false => rfl
    | true =>
      have h3 := within_iff.1 h
      have h4 : tiny.need = 3 := by decide
      omega
  simp [Mem.map, Mem.init, h2]

/-- a program with an empty list and a kernel that refuses, as in `C104_no_memory_false` -/
example : allocate tiny (fun _ => none) (State.init fun _ => false) 20 = .fault :=
  C104_no_memory_false (by decide) (fun k h => by cases h) rfl

end RG.Pages
