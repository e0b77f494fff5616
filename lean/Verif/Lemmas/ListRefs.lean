import Verif.Model.ListRefs
import Mathlib.Data.List.Basic
/- Lemmas for Props/ListRefs. -/
namespace RG.LR

theorem Apart.symm {a b c d : Nat} (h : Apart a b c d) : Apart c d a b := Or.symm h

/-- the memory of a block and of another one -/
def BApart (b c : Block) : Prop := Apart b.base (b.base + b.len) c.base (c.base + c.len)

/-- how many elements of a chunk keep a reference to `o` -/
def brefs (b : Block) (o : Nat) : Nat := b.slots.countP fun x => x.keeps && decide (x.obj = o)

theorem refs_mid {s : State} {l r : List Block} {b : Block} (h : s.blocks = l ++ b :: r) (o : Nat) :
    refs s o = (l.map (brefs · o)).sum + (brefs b o + (r.map (brefs · o)).sum) := by
  unfold refs; rw [h]; simp [brefs]

theorem brefs_mid {b : Block} {u v : List Slot} {x : Slot} (h : b.slots = u ++ x :: v) (o : Nat) :
    brefs b o = u.countP (fun x => x.keeps && decide (x.obj = o)) +
      (v.countP (fun x => x.keeps && decide (x.obj = o)) + if x.keeps && decide (x.obj = o) then 1 else 0) := by
  unfold brefs; rw [h, List.countP_append, List.countP_cons]

/-! ### the memory -/

structure Mem (s : State) : Prop where
  pg : ∀ p P, s.pages p = some P → 0 < P.lo ∧ P.next ≤ P.hi ∧ P.cnt = s.blocks.countP (fun b => decide (b.page = p))
  dj : ∀ p q P Q, p ≠ q → s.pages p = some P → s.pages q = some Q → Apart P.lo P.hi Q.lo Q.hi
  bl : ∀ b ∈ s.blocks, ∃ P, s.pages b.page = some P ∧ P.lo ≤ b.base ∧ P.next ≤ b.base ∧ b.base + b.len ≤ P.hi
  sep : s.blocks.Pairwise BApart
  z : ∀ p P a, s.pages p = some P → P.lo ≤ a → a < P.next → s.mem a = 0

/-- what is in a chunk of a list -/
structure Chunk (m : Nat → Nat) (b : Block) : Prop where
  len : b.slots.length ≤ b.len
  rest : ∀ i, b.slots.length ≤ i → i < b.len → m (b.base + i) = 0
  slot : ∀ i x, b.slots[i]? = some x →
    m (b.base + i) = x.obj ∧ 0 < x.obj ∧ x.rc = (x.held : Int) - (if x.live then 0 else 1)

structure Inv (s : State) : Prop where
  M : Mem s
  ch : ∀ b ∈ s.blocks, b.list = true → Chunk s.mem b
  nl : ∀ b ∈ s.blocks, b.list = false → b.slots = []
  ct : ∀ o, 0 < o → s.cnt o = s.ext o + refs s o
  e0 : s.ext 0 = 0
  md : ∀ o, s.made o = false → s.cnt o = 0
  ub : s.ub = false

theorem apart_ne {a b c d i j : Nat} (h : Apart a (a + b) c (c + d)) (hi : i < b) (hj : j < d) : a + i ≠ c + j := by
  unfold Apart at h; omega

theorem sep_mid {l r : List Block} {b : Block} (h : (l ++ b :: r).Pairwise BApart) : ∀ c ∈ l ++ r, BApart b c := by
  intro c hc
  rw [List.pairwise_append, List.pairwise_cons] at h
  obtain ⟨_, ⟨h2, _⟩, h3⟩ := h
  rcases List.mem_append.1 hc with hc | hc
  · exact Apart.symm (h3 c hc b (List.mem_cons_self ..))
  · exact h2 c hc

theorem sep_del {l r : List Block} {b : Block} (h : (l ++ b :: r).Pairwise BApart) : (l ++ r).Pairwise BApart := by
  rw [List.pairwise_append, List.pairwise_cons] at h
  obtain ⟨h1, ⟨_, h2⟩, h3⟩ := h
  exact List.pairwise_append.2 ⟨h1, h2, fun c hc d hd => h3 c hc d (List.mem_cons_of_mem _ hd)⟩

theorem sep_upd {l r : List Block} {b b' : Block} (h : (l ++ b :: r).Pairwise BApart)
    (h1 : b'.base = b.base) (h2 : b'.len = b.len) : (l ++ b' :: r).Pairwise BApart := by
  rw [List.pairwise_append, List.pairwise_cons] at h ⊢
  obtain ⟨h3, ⟨h4, h5⟩, h6⟩ := h
  refine ⟨h3, ⟨?_, h5⟩, ?_⟩
  · intro c hc; have := h4 c hc; unfold BApart at this ⊢; rw [h1, h2]; exact this
  · intro c hc d hd
    rcases List.mem_cons.1 hd with rfl | hd
    · have := h6 c hc b (List.mem_cons_self ..); unfold BApart at this ⊢; rw [h1, h2]; exact this
    · exact h6 c hc d (List.mem_cons_of_mem _ hd)

theorem mem_mid {l r : List Block} {b c : Block} (h : c ∈ l ++ b :: r) : c = b ∨ c ∈ l ++ r := by
  simp only [List.mem_append, List.mem_cons] at h ⊢
  rcases h with h | h | h
  · exact .inr (.inl h)
  · exact .inl h
  · exact .inr (.inr h)

theorem mid_mem {l r : List Block} {b c : Block} (h : c ∈ l ++ r) : c ∈ l ++ b :: r := by
  simp only [List.mem_append, List.mem_cons] at h ⊢
  rcases h with h | h
  · exact .inl h
  · exact .inr (.inr h)

theorem self_mem {l r : List Block} {b : Block} : b ∈ l ++ b :: r := by simp

/-- a block is replaced by one with the same place; the words of the block may change -/
theorem Mem.upd {s s' : State} {l r : List Block} {b b' : Block} (h : Mem s) (hb : s.blocks = l ++ b :: r)
    (hb' : s'.blocks = l ++ b' :: r) (hp : s'.pages = s.pages) (h0 : b'.page = b.page) (h1 : b'.base = b.base)
    (h2 : b'.len = b.len) (hm : ∀ a, (a < b.base ∨ b.base + b.len ≤ a) → s'.mem a = s.mem a) : Mem s' := by
  constructor
  · intro p P hP
    rw [hp] at hP
    obtain ⟨h3, h4, h5⟩ := h.pg p P hP
    refine ⟨h3, h4, ?_⟩
    rw [h5, hb, hb', List.countP_append, List.countP_append, List.countP_cons, List.countP_cons, h0]
  · intro p q P Q hne hP hQ; rw [hp] at hP hQ; exact h.dj p q P Q hne hP hQ
  · intro c hc
    rw [hb'] at hc
    rcases mem_mid hc with rfl | hc
    · rw [hp, h0, h1, h2]; exact h.bl b (by rw [hb]; exact self_mem)
    · rw [hp]; exact h.bl c (by rw [hb]; exact mid_mem hc)
  · rw [hb']; have := h.sep; rw [hb] at this; exact sep_upd this h1 h2
  · intro p P a hP h3 h4
    rw [hp] at hP
    rw [hm a, h.z p P a hP h3 h4]
    obtain ⟨Q, hQ, h5, h6, h7⟩ := h.bl b (by rw [hb]; exact self_mem)
    by_cases e : p = b.page
    · subst e; rw [hP] at hQ; cases hQ; omega
    · have := h.dj p b.page P Q e hP hQ
      have h8 := (h.pg p P hP).2.1
      unfold Apart at this
      omega

/-- nothing changes in the memory or the blocks -/
theorem Mem.same {s s' : State} (h : Mem s) (hb : s'.blocks = s.blocks) (hp : s'.pages = s.pages)
    (hm : s'.mem = s.mem) : Mem s' := by
  obtain ⟨h1, h2, h3, h4, h5⟩ := h
  constructor
  · rw [hb, hp]; exact h1
  · rw [hp]; exact h2
  · rw [hb, hp]; exact h3
  · rw [hb]; exact h4
  · rw [hp, hm]; exact h5

theorem Chunk.congr {m m' : Nat → Nat} {b : Block} (h : Chunk m b)
    (hm : ∀ i, i < b.len → m' (b.base + i) = m (b.base + i)) : Chunk m' b := by
  refine ⟨h.len, fun i hi hj => by rw [hm i hj]; exact h.rest i hi hj, ?_⟩
  intro i x hx
  have : i < b.slots.length := by
    rcases Nat.lt_or_ge i b.slots.length with h | h
    · exact h
    · rw [List.getElem?_eq_none h] at hx; cases hx
  rw [hm i (by have := h.len; omega)]
  exact h.slot i x hx

/-! ### dropping references -/

@[simp] theorem drop_blocks (s : State) (v : Nat) : (drop s v).blocks = s.blocks := by
  unfold drop; split <;> [rfl; split <;> rfl]
@[simp] theorem drop_pages (s : State) (v : Nat) : (drop s v).pages = s.pages := by
  unfold drop; split <;> [rfl; split <;> rfl]
@[simp] theorem drop_mem (s : State) (v : Nat) : (drop s v).mem = s.mem := by
  unfold drop; split <;> [rfl; split <;> rfl]
@[simp] theorem drop_ext (s : State) (v : Nat) : (drop s v).ext = s.ext := by
  unfold drop; split <;> [rfl; split <;> rfl]
@[simp] theorem drop_made (s : State) (v : Nat) : (drop s v).made = s.made := by
  unfold drop; split <;> [rfl; split <;> rfl]

theorem drop_ub {s : State} {v : Nat} (h : v ≠ 0 → 0 < s.cnt v) : (drop s v).ub = s.ub := by
  unfold drop
  split
  · rfl
  · rename_i hv; rw [if_neg (by have := h hv; omega)]

theorem drop_cnt {s : State} {v : Nat} (o : Nat) (ho : 0 < o) (h : v ≠ 0 → 0 < s.cnt v) :
    (drop s v).cnt o = s.cnt o - if v = o then 1 else 0 := by
  unfold drop
  split
  · rename_i hv; rw [if_neg (by omega)]; rfl
  · rename_i hv
    rw [if_neg (by have := h hv; omega)]
    by_cases e : o = v
    · subst e; simp
    · simp [upd_ne _ _ e, Ne.symm e]

theorem drop_le (s : State) (v o : Nat) : (drop s v).cnt o ≤ s.cnt o := by
  unfold drop
  split
  · exact Nat.le_refl _
  · split
    · exact Nat.le_refl _
    · by_cases e : o = v
      · subst e; simp
      · simp [upd_ne _ _ e]

@[simp] theorem dropAll_blocks (s : State) (vs : List Nat) : (dropAll s vs).blocks = s.blocks := by
  induction vs generalizing s with
  | nil => rfl
  | cons v vs ih => exact (ih (drop s v)).trans (drop_blocks s v)
@[simp] theorem dropAll_pages (s : State) (vs : List Nat) : (dropAll s vs).pages = s.pages := by
  induction vs generalizing s with
  | nil => rfl
  | cons v vs ih => exact (ih (drop s v)).trans (drop_pages s v)
@[simp] theorem dropAll_mem (s : State) (vs : List Nat) : (dropAll s vs).mem = s.mem := by
  induction vs generalizing s with
  | nil => rfl
  | cons v vs ih => exact (ih (drop s v)).trans (drop_mem s v)
@[simp] theorem dropAll_ext (s : State) (vs : List Nat) : (dropAll s vs).ext = s.ext := by
  induction vs generalizing s with
  | nil => rfl
  | cons v vs ih => exact (ih (drop s v)).trans (drop_ext s v)
@[simp] theorem dropAll_made (s : State) (vs : List Nat) : (dropAll s vs).made = s.made := by
  induction vs generalizing s with
  | nil => rfl
  | cons v vs ih => exact (ih (drop s v)).trans (drop_made s v)

theorem dropAll_spec {vs : List Nat} {s : State} (h : ∀ v, 0 < v → vs.count v ≤ s.cnt v) :
    (dropAll s vs).ub = s.ub ∧ ∀ o, 0 < o → (dropAll s vs).cnt o = s.cnt o - vs.count o := by
  induction vs generalizing s with
  | nil => exact ⟨rfl, fun o _ => rfl⟩
  | cons v vs ih =>
    have hv : v ≠ 0 → 0 < s.cnt v := by
      intro hv
      have := h v (by omega)
      rw [List.count_cons_self] at this
      omega
    have key : ∀ o, 0 < o → (drop s v).cnt o = s.cnt o - if v = o then 1 else 0 := fun o ho => drop_cnt o ho hv
    obtain ⟨h1, h2⟩ := ih (s := drop s v) (by
      intro w hw
      rw [key w hw]
      have := h w hw
      rw [List.count_cons] at this
      simp only [beq_iff_eq] at this
      split at this <;> split <;> omega)
    refine ⟨h1.trans (drop_ub hv), ?_⟩
    intro o ho
    refine (h2 o ho).trans ?_
    rw [key o ho, List.count_cons]
    simp only [beq_iff_eq]
    split <;> omega

theorem dropAll_le (s : State) (vs : List Nat) (o : Nat) : (dropAll s vs).cnt o ≤ s.cnt o := by
  induction vs generalizing s with
  | nil => exact Nat.le_refl _
  | cons v vs ih => exact Nat.le_trans (ih (drop s v)) (drop_le s v o)

/-- a chunk to which no iterator points drops exactly the references of its elements -/
theorem chunkValues_count {s : State} {b : Block} (h : Chunk s.mem b) (hh : ∀ x ∈ b.slots, x.held = 0) (o : Nat)
    (ho : 0 < o) : (chunkValues s b).count o = brefs b o := by
  have e : chunkValues s b = (b.slots.filter (fun x => x.keeps)).map (fun x => x.obj) ++
      List.replicate (b.len - b.slots.length) 0 := by
    unfold chunkValues
    have hl := h.len
    have hr : List.range b.len = List.range b.slots.length ++
        (List.range (b.len - b.slots.length)).map (b.slots.length + ·) := by
      rw [← List.range_add]; congr 1; omega
    rw [hr, List.filterMap_append]
    congr 1
    · have key : ∀ (t : List Slot) (k : Nat), (∀ i x, t[i]? = some x → b.slots[k + i]? = some x) →
          ((List.range t.length).map (k + ·)).filterMap (slotValue s b) = (t.filter (fun x => x.keeps)).map (fun x => x.obj) := by
        intro t
        induction t with
        | nil => intro k _; rfl
        | cons x t ih =>
          intro k hk
          have hx : b.slots[k]? = some x := hk 0 x rfl
          obtain ⟨h1, h2, h3⟩ := h.slot k x hx
          have hheld := hh x (List.mem_of_getElem? hx)
          have hi := ih (k + 1) (by
            intro i y hy
            have := hk (i + 1) y (by simpa using hy)
            rw [← this]; congr 1; omega)
          rw [List.length_cons, List.range_succ_eq_map, List.map_cons, List.map_map, List.filterMap_cons]
          have e2 : (List.map ((fun x => k + x) ∘ Nat.succ) (List.range t.length)) =
              (List.range t.length).map (k + 1 + ·) := by
            apply List.map_congr_left; intro i _; simp only [Function.comp]; omega
          rw [e2, hi]
          simp only [Nat.add_zero]
          unfold slotValue
          simp only [hx]
          rw [hheld] at h3
          cases hlv : x.live
          · rw [hlv] at h3
            have hk' : x.keeps = false := by simp [Slot.keeps, hlv, hheld]
            rw [if_neg (by rw [h3]; decide), List.filter_cons_of_neg (by rw [hk']; decide)]
          · rw [hlv] at h3
            have hk' : x.keeps = true := by simp [Slot.keeps, hlv]
            rw [if_pos (by rw [h3]; decide), List.filter_cons_of_pos hk', List.map_cons, h1]
      have := key b.slots 0 (fun i x hx => by rw [Nat.zero_add]; exact hx)
      simpa using this
    · rw [List.eq_replicate_iff]
      have : ∀ i ∈ (List.range (b.len - b.slots.length)).map (b.slots.length + ·),
          slotValue s b i = some 0 := by
        intro i hi
        rw [List.mem_map] at hi
        obtain ⟨j, hj, rfl⟩ := hi
        rw [List.mem_range] at hj
        unfold slotValue
        rw [List.getElem?_eq_none (by omega)]
        simp only
        rw [h.rest _ (by omega) (by omega)]
      have e3 : List.filterMap (slotValue s b) ((List.range (b.len - b.slots.length)).map (b.slots.length + ·)) =
          ((List.range (b.len - b.slots.length)).map (b.slots.length + ·)).map (fun _ => 0) := by
        rw [← List.filterMap_eq_map (f := fun _ => 0)]
        apply List.filterMap_congr
        intro i hi; rw [this i hi]; rfl
      rw [e3]
      constructor
      · simp
      · intro x hx; simp only [List.mem_map] at hx; obtain ⟨_, _, rfl⟩ := hx; rfl
  rw [e, List.count_append, List.count_replicate]
  have : ((0 : Nat) == o) = false := by simp; omega
  simp only [this, Bool.false_eq_true, if_false, Nat.add_zero]
  unfold brefs
  rw [List.count_eq_countP, List.countP_map, List.countP_filter]
  apply List.countP_congr
  intro x _
  simp only [Function.comp, Bool.and_eq_true, beq_iff_eq, decide_eq_true_eq]
  exact And.comm

/-! ### giving back a block -/

@[simp] theorem dealloc_blocks (cfg : Cfg) (s : State) (p : Nat) : (dealloc cfg s p).blocks = s.blocks := by
  unfold dealloc; split <;> [rfl; (split <;> [rfl; (split <;> rfl)])]
@[simp] theorem dealloc_mem (cfg : Cfg) (s : State) (p : Nat) : (dealloc cfg s p).mem = s.mem := by
  unfold dealloc; split <;> [rfl; (split <;> [rfl; (split <;> rfl)])]
@[simp] theorem dealloc_cnt (cfg : Cfg) (s : State) (p : Nat) : (dealloc cfg s p).cnt = s.cnt := by
  unfold dealloc; split <;> [rfl; (split <;> [rfl; (split <;> rfl)])]
@[simp] theorem dealloc_ext (cfg : Cfg) (s : State) (p : Nat) : (dealloc cfg s p).ext = s.ext := by
  unfold dealloc; split <;> [rfl; (split <;> [rfl; (split <;> rfl)])]
@[simp] theorem dealloc_made (cfg : Cfg) (s : State) (p : Nat) : (dealloc cfg s p).made = s.made := by
  unfold dealloc; split <;> [rfl; (split <;> [rfl; (split <;> rfl)])]
@[simp] theorem dealloc_ub (cfg : Cfg) (s : State) (p : Nat) : (dealloc cfg s p).ub = s.ub := by
  unfold dealloc; split <;> [rfl; (split <;> [rfl; (split <;> rfl)])]

theorem count_mid (l r : List Block) (b : Block) (p : Nat) : (l ++ b :: r).countP (fun b => decide (b.page = p)) =
    (l ++ r).countP (fun b => decide (b.page = p)) + if b.page = p then 1 else 0 := by
  rw [List.countP_append, List.countP_append, List.countP_cons]; simp only [decide_eq_true_eq]; omega

theorem Mem.dealloc {s t : State} {cfg : Cfg} {l r : List Block} {b : Block} (h : Mem s) (hr : cfg.reset = false)
    (hb : s.blocks = l ++ b :: r) (ht : t.blocks = l ++ r) (hp : t.pages = s.pages) (hm : t.mem = s.mem) :
    Mem (dealloc cfg t b.page) := by
  have hbm : b ∈ s.blocks := by rw [hb]; exact self_mem
  obtain ⟨P, hP, h1, h2, h3⟩ := h.bl b hbm
  have hsep : (l ++ r).Pairwise BApart := by have := h.sep; rw [hb] at this; exact sep_del this
  have hcnt : ∀ q Q, s.pages q = some Q →
      Q.cnt = (l ++ r).countP (fun b => decide (b.page = q)) + if b.page = q then 1 else 0 := by
    intro q Q hQ; rw [(h.pg q Q hQ).2.2, hb, count_mid]
  have hmem : ∀ c ∈ l ++ r, c ∈ s.blocks := fun c hc => by rw [hb]; exact mid_mem hc
  by_cases hc : P.cnt = 1 ∧ P.full = true
  · have e : LR.dealloc cfg t b.page = { t with pages := RG.upd t.pages b.page none } := by
      unfold LR.dealloc; rw [hp, hP]; simp only; rw [if_pos hc]
    rw [e]
    have hz : (l ++ r).countP (fun c => decide (c.page = b.page)) = 0 := by
      have := hcnt b.page P hP; rw [if_pos rfl, hc.1] at this; omega
    have hne : ∀ c ∈ l ++ r, c.page ≠ b.page := by
      intro c hc e'
      rw [List.countP_eq_zero] at hz
      exact hz c hc (by simp [e'])
    have hold : ∀ q Q, RG.upd t.pages b.page none q = some Q → q ≠ b.page ∧ s.pages q = some Q := by
      intro q Q hQ
      by_cases e' : q = b.page
      · subst e'; rw [upd_same] at hQ; cases hQ
      · rw [upd_ne _ _ e', hp] at hQ; exact ⟨e', hQ⟩
    constructor
    · intro q Q hQ
      obtain ⟨h4, h5⟩ := hold q Q hQ
      refine ⟨(h.pg q Q h5).1, (h.pg q Q h5).2.1, ?_⟩
      rw [hcnt q Q h5, if_neg (Ne.symm h4)]; dsimp only; rw [ht]; rfl
    · intro p q P Q hne h4 h5
      exact h.dj p q P Q hne (hold p P h4).2 (hold q Q h5).2
    · dsimp only; rw [ht]; intro c hc'
      obtain ⟨Q, h4, h5⟩ := h.bl c (hmem c hc')
      exact ⟨Q, by rw [upd_ne _ _ (hne c hc'), hp]; exact h4, h5⟩
    · dsimp only; rw [ht]; exact hsep
    · intro q Q a h4 h5 h6
      dsimp only; rw [hm]; exact h.z q Q a (hold q Q h4).2 h5 h6
  · have e : LR.dealloc cfg t b.page =
        { t with pages := RG.upd t.pages b.page (some { P with cnt := P.cnt - 1 }) } := by
      unfold LR.dealloc; rw [hp, hP]; simp only; rw [if_neg hc, if_neg (by rw [hr]; simp)]
    rw [e]
    have hold : ∀ q Q, RG.upd t.pages b.page (some { P with cnt := P.cnt - 1 }) q = some Q →
        ∃ Q', s.pages q = some Q' ∧ Q.lo = Q'.lo ∧ Q.hi = Q'.hi ∧ Q.next = Q'.next ∧
          Q.cnt = (l ++ r).countP (fun b => decide (b.page = q)) := by
      intro q Q hQ
      by_cases e' : q = b.page
      · subst e'; rw [upd_same] at hQ; cases hQ
        refine ⟨P, hP, rfl, rfl, rfl, ?_⟩
        dsimp only
        rw [hcnt b.page P hP, if_pos rfl]; rfl
      · rw [upd_ne _ _ e', hp] at hQ
        refine ⟨Q, hQ, rfl, rfl, rfl, ?_⟩
        rw [hcnt q Q hQ, if_neg (Ne.symm e')]; rfl
    constructor
    · intro q Q hQ
      obtain ⟨Q', h4, h5, h6, h7, h8⟩ := hold q Q hQ
      rw [h5, h6, h7, h8]
      exact ⟨(h.pg q Q' h4).1, (h.pg q Q' h4).2.1, by dsimp only; rw [ht]⟩
    · intro p q P Q hne h4 h5
      obtain ⟨P', h4, h6, h7, _⟩ := hold p P h4
      obtain ⟨Q', h5, h8, h9, _⟩ := hold q Q h5
      rw [h6, h7, h8, h9]; exact h.dj p q P' Q' hne h4 h5
    · dsimp only; rw [ht]; intro c hc'
      obtain ⟨Q, h4, h5⟩ := h.bl c (hmem c hc')
      by_cases e' : c.page = b.page
      · rw [e'] at h4 ⊢
        rw [upd_same]; rw [hP] at h4; cases h4; exact ⟨_, rfl, h5⟩
      · exact ⟨Q, by rw [upd_ne _ _ e', hp]; exact h4, h5⟩
    · dsimp only; rw [ht]; exact hsep
    · intro q Q a h4 h5 h6
      obtain ⟨Q', h7, h8, h9, h10, _⟩ := hold q Q h4
      dsimp only; rw [hm]; exact h.z q Q' a h7 (by omega) (by omega)

/-! ### the invariant -/

theorem Inv.init : Inv init := by
  constructor
  · constructor
    · intro p P hP; cases hP
    · intro p q P Q _ hP; cases hP
    · intro b hb; cases hb
    · exact List.Pairwise.nil
    · intro p P a hP; cases hP
  · intro b hb; cases hb
  · intro b hb; cases hb
  · intro o _; rfl
  · rfl
  · intro o _; rfl
  · rfl

theorem refs_del {s t : State} {l r : List Block} {b : Block} (h : s.blocks = l ++ b :: r) (ht : t.blocks = l ++ r)
    (o : Nat) : refs s o = refs t o + brefs b o := by
  rw [refs_mid h]; unfold refs; rw [ht]
  simp only [List.map_append, List.sum_append]
  show _ = (l.map (brefs · o)).sum + (r.map (brefs · o)).sum + brefs b o
  omega

theorem refs_upd {s t : State} {l r : List Block} {b b' : Block} (h : s.blocks = l ++ b :: r)
    (ht : t.blocks = l ++ b' :: r) (o : Nat) : refs t o + brefs b o = refs s o + brefs b' o := by
  rw [refs_mid h, refs_mid ht]; omega

theorem refs_eq {s t : State} (h : t.blocks = s.blocks) (o : Nat) : refs t o = refs s o := by
  unfold refs; rw [h]

theorem refs_only {s : State} {m : Nat → Bool} {c e : Nat → Nat} (o : Nat) :
    refs { s with made := m, cnt := c, ext := e } o = refs s o := rfl

/-- the slot at an iterator -/
theorem slot_get {b : Block} {u v : List Slot} {x : Slot} (h : b.slots = u ++ x :: v) : b.slots[u.length]? = some x := by
  rw [h]; simp

/-- a slot is replaced by one with the same object -/
theorem Chunk.slotUpd {m : Nat → Nat} {b : Block} {u v : List Slot} {x y : Slot} (h : Chunk m b)
    (hx : b.slots = u ++ x :: v) (ho : y.obj = x.obj) (hy : y.rc = (y.held : Int) - (if y.live then 0 else 1)) :
    Chunk m { b with slots := u ++ y :: v } := by
  have hl : (u ++ y :: v).length = b.slots.length := by rw [hx]; simp
  refine ⟨by dsimp only; rw [hl]; exact h.len, fun i hi hj => h.rest i (by dsimp only at hi; rw [← hl]; exact hi) hj, ?_⟩
  intro i z hz
  dsimp only at hz ⊢
  by_cases e : i = u.length
  · subst e
    have : (u ++ y :: v)[u.length]? = some y := by simp
    rw [this] at hz; cases hz
    obtain ⟨h1, h2, _⟩ := h.slot u.length x (slot_get hx)
    rw [ho]; exact ⟨h1, h2, hy⟩
  · apply h.slot i z
    rw [← hz, hx]
    rcases Nat.lt_or_ge i u.length with h' | h'
    · rw [List.getElem?_append_left h', List.getElem?_append_left h']
    · rw [List.getElem?_append_right h', List.getElem?_append_right h']
      obtain ⟨k, hk⟩ : ∃ k, i - u.length = k + 1 := ⟨i - u.length - 1, by omega⟩
      rw [hk]; rfl

theorem brefs_upd {b : Block} {u v : List Slot} {x y : Slot} (hx : b.slots = u ++ x :: v) (ho : y.obj = x.obj) (o : Nat) :
    brefs { b with slots := u ++ y :: v } o + (if x.keeps ∧ x.obj = o then 1 else 0) =
      brefs b o + (if y.keeps ∧ x.obj = o then 1 else 0) := by
  rw [brefs_mid hx, brefs_mid (b := { b with slots := u ++ y :: v }) rfl, ho]
  simp only [Bool.and_eq_true, decide_eq_true_eq]
  omega

theorem Inv.slotStep {s t : State} {l r : List Block} {b : Block} {u v : List Slot} {x y : Slot} (h : Inv s)
    (hb : s.blocks = l ++ b :: r) (hk : b.list = true) (hx : b.slots = u ++ x :: v)
    (ht : t.blocks = l ++ { b with slots := u ++ y :: v } :: r) (hp : t.pages = s.pages) (hm : t.mem = s.mem)
    (he : t.ext = s.ext) (hmd : t.made = s.made) (hub : t.ub = s.ub) (ho : y.obj = x.obj)
    (hy : y.rc = (y.held : Int) - (if y.live then 0 else 1)) (hle : ∀ o, t.cnt o ≤ s.cnt o)
    (hc : ∀ o, 0 < o → t.cnt o + (if x.keeps ∧ x.obj = o then 1 else 0) =
      s.cnt o + (if y.keeps ∧ x.obj = o then 1 else 0)) : Inv t := by
  have hbm : b ∈ s.blocks := by rw [hb]; exact self_mem
  constructor
  · exact h.M.upd hb ht hp rfl rfl rfl (fun a _ => by rw [hm])
  · intro c hc' hl
    rw [ht] at hc'
    rw [hm]
    rcases mem_mid hc' with rfl | hc'
    · exact (h.ch b hbm hk).slotUpd hx ho hy
    · exact h.ch c (by rw [hb]; exact mid_mem hc') hl
  · intro c hc' hl
    rw [ht] at hc'
    rcases mem_mid hc' with rfl | hc'
    · dsimp only at hl; rw [hk] at hl; cases hl
    · exact h.nl c (by rw [hb]; exact mid_mem hc') hl
  · intro o ho'
    have h1 := hc o ho'
    have h2 := h.ct o ho'
    have h3 := refs_upd hb ht o
    have h4 := brefs_upd hx ho o
    rw [he]
    omega
  · rw [he]; exact h.e0
  · rw [hmd]; intro o ho'; have := h.md o ho'; have := hle o; omega
  · rw [hub]; exact h.ub

/-- an object to which an element refers has a positive count -/
theorem Inv.pos {s : State} {l r : List Block} {b : Block} {u v : List Slot} {x : Slot} (h : Inv s)
    (hb : s.blocks = l ++ b :: r) (hx : b.slots = u ++ x :: v) (hk : x.keeps = true) (ho : 0 < x.obj) :
    0 < s.cnt x.obj := by
  rw [h.ct _ ho, refs_mid hb, brefs_mid hx]
  simp only [hk, decide_true, Bool.and_self, if_true]
  omega

theorem Inv.step {cfg : Cfg} {s t : State} (hz : cfg.zero = true) (hr : cfg.reset = false) (h : Inv s)
    (hs : Step cfg s t) : Inv t := by
  cases hs with
  | @map p lo n f hp hlo ha =>
    have hb : ∀ b ∈ s.blocks, ∀ i, i < b.len → ¬ (lo ≤ b.base + i ∧ b.base + i < lo + n) := by
      intro b hb i hi
      obtain ⟨P, h1, h2, _, h3⟩ := h.M.bl b hb
      have := ha b.page P h1
      unfold Apart at this; omega
    have hold : ∀ q Q, upd s.pages p (some ⟨lo, lo + n, lo + n, 0⟩) q = some Q →
        (q = p ∧ Q = ⟨lo, lo + n, lo + n, 0⟩) ∨ (q ≠ p ∧ s.pages q = some Q) := by
      intro q Q hQ
      by_cases e : q = p
      · subst e; rw [upd_same] at hQ; cases hQ; exact .inl ⟨rfl, rfl⟩
      · rw [upd_ne _ _ e] at hQ; exact .inr ⟨e, hQ⟩
    constructor
    · constructor
      · intro q Q hQ
        rcases hold q Q hQ with ⟨rfl, rfl⟩ | ⟨_, h1⟩
        · refine ⟨hlo, Nat.le_refl _, ?_⟩
          symm; rw [List.countP_eq_zero]
          intro b hb' e
          obtain ⟨P, h1, _⟩ := h.M.bl b hb'
          simp only [decide_eq_true_eq] at e
          rw [e, hp] at h1; cases h1
        · exact h.M.pg q Q h1
      · intro q q' Q Q' hne h1 h2
        rcases hold q Q h1 with ⟨rfl, rfl⟩ | ⟨_, h3⟩ <;> rcases hold q' Q' h2 with ⟨rfl, rfl⟩ | ⟨_, h4⟩
        · exact absurd rfl hne
        · exact ha q' Q' h4
        · exact (ha q Q h3).symm
        · exact h.M.dj q q' Q Q' hne h3 h4
      · intro b hb'
        obtain ⟨P, h1, h2⟩ := h.M.bl b hb'
        refine ⟨P, ?_, h2⟩
        dsimp only
        rw [upd_ne _ _ (by intro e; rw [e, hp] at h1; cases h1)]; exact h1
      · exact h.M.sep
      · intro q Q a hQ h1 h2
        dsimp only
        rw [hz]
        rcases hold q Q hQ with ⟨rfl, rfl⟩ | ⟨_, h3⟩
        · rw [if_pos ⟨h1, h2⟩]; rfl
        · split
          · rfl
          · exact h.M.z q Q a h3 h1 h2
    · intro b hb' hl
      exact (h.ch b hb' hl).congr (fun i hi => if_neg (hb b hb' i hi))
    · exact h.nl
    · exact h.ct
    · exact h.e0
    · exact h.md
    · exact h.ub
  | @alloc p P n list hp hn hf =>
    have hold : ∀ q Q, upd s.pages p (some { P with next := P.next - n, cnt := P.cnt + 1 }) q = some Q →
        ∃ Q', s.pages q = some Q' ∧ Q.lo = Q'.lo ∧ Q.hi = Q'.hi ∧ Q.next ≤ Q'.next ∧ (q = p → Q.next = P.next - n) ∧
          Q.cnt = Q'.cnt + if p = q then 1 else 0 := by
      intro q Q hQ
      by_cases e : q = p
      · subst e; rw [upd_same] at hQ; cases hQ
        exact ⟨P, hp, rfl, rfl, Nat.sub_le _ _, fun _ => rfl, by simp⟩
      · rw [upd_ne _ _ e] at hQ
        exact ⟨Q, hQ, rfl, rfl, Nat.le_refl _, fun e' => absurd e' e, by rw [if_neg (Ne.symm e)]; rfl⟩
    have hPn := (h.M.pg p P hp).2.1
    constructor
    · constructor
      · intro q Q hQ
        obtain ⟨Q', h1, h2, h3, h4, _, h5⟩ := hold q Q hQ
        obtain ⟨h6, h7, h8⟩ := h.M.pg q Q' h1
        refine ⟨by omega, by omega, ?_⟩
        rw [h5, h8]; dsimp only; rw [List.countP_cons]; simp only [decide_eq_true_eq]
      · intro q q' Q Q' hne h1 h2
        obtain ⟨R, h1, h3, h4, _⟩ := hold q Q h1
        obtain ⟨R', h2, h5, h6, _⟩ := hold q' Q' h2
        rw [h3, h4, h5, h6]; exact h.M.dj q q' R R' hne h1 h2
      · intro b hb
        rcases List.mem_cons.1 hb with rfl | hb
        · refine ⟨_, upd_same .., ?_⟩
          dsimp only; omega
        · obtain ⟨Q, h1, h2, h3, h4⟩ := h.M.bl b hb
          by_cases e : b.page = p
          · rw [e] at h1; rw [hp] at h1; cases h1
            refine ⟨_, by rw [e]; exact upd_same .., ?_⟩
            dsimp only; omega
          · exact ⟨Q, (upd_ne _ _ e).trans h1, h2, h3, h4⟩
      · refine List.Pairwise.cons ?_ h.M.sep
        intro b hb
        obtain ⟨Q, h1, h2, h3, h4⟩ := h.M.bl b hb
        unfold BApart Apart
        dsimp only
        by_cases e : b.page = p
        · rw [e] at h1; rw [hp] at h1; cases h1
          left; omega
        · have := h.M.dj b.page p Q P e h1 hp
          unfold Apart at this; omega
      · intro q Q a hQ h1 h2
        obtain ⟨Q', h3, h4, _, h5, _⟩ := hold q Q hQ
        exact h.M.z q Q' a h3 (by omega) (by omega)
    · intro b hb hl
      rcases List.mem_cons.1 hb with rfl | hb
      · refine ⟨Nat.zero_le _, ?_, ?_⟩
        · intro i _ hi
          dsimp only at hi ⊢
          exact h.M.z p P _ hp (by omega) (by omega)
        · intro i x hx; cases hx
      · exact h.ch b hb hl
    · intro b hb hl
      rcases List.mem_cons.1 hb with rfl | hb
      · rfl
      · exact h.nl b hb hl
    · intro o ho
      rw [show refs { s with
        pages := upd s.pages p (some { P with next := P.next - n, cnt := P.cnt + 1 })
        blocks := ⟨p, P.next - n, n, list, []⟩ :: s.blocks } o = refs s o by simp [refs]]
      exact h.ct o ho
    · exact h.e0
    · exact h.md
    · exact h.ub
  | @allocFail p P n hp hn hf =>
    have hold : ∀ q Q, upd s.pages p (some { P with next := P.next - n }) q = some Q →
        ∃ Q', s.pages q = some Q' ∧ Q.lo = Q'.lo ∧ Q.hi = Q'.hi ∧ Q.next ≤ Q'.next ∧ Q.cnt = Q'.cnt := by
      intro q Q hQ
      by_cases e : q = p
      · subst e; rw [upd_same] at hQ; cases hQ
        exact ⟨P, hp, rfl, rfl, Nat.sub_le _ _, rfl⟩
      · rw [upd_ne _ _ e] at hQ
        exact ⟨Q, hQ, rfl, rfl, Nat.le_refl _, rfl⟩
    refine ⟨⟨?_, ?_, ?_, h.M.sep, ?_⟩, h.ch, h.nl, h.ct, h.e0, h.md, h.ub⟩
    · intro q Q hQ
      obtain ⟨Q', h1, h2, h3, h4, h5⟩ := hold q Q hQ
      obtain ⟨h6, h7, h8⟩ := h.M.pg q Q' h1
      exact ⟨by omega, by omega, h5.trans h8⟩
    · intro q q' Q Q' hne h1 h2
      obtain ⟨R, h1, h3, h4, _⟩ := hold q Q h1
      obtain ⟨R', h2, h5, h6, _⟩ := hold q' Q' h2
      rw [h3, h4, h5, h6]; exact h.M.dj q q' R R' hne h1 h2
    · intro b hb
      obtain ⟨Q, h1, h2, h3, h4⟩ := h.M.bl b hb
      by_cases e : b.page = p
      · rw [e] at h1; rw [hp] at h1; cases h1
        refine ⟨_, by rw [e]; exact upd_same .., ?_⟩
        dsimp only; omega
      · exact ⟨Q, (upd_ne _ _ e).trans h1, h2, h3, h4⟩
    · intro q Q a hQ h1 h2
      obtain ⟨Q', h3, h4, _, h5, _⟩ := hold q Q hQ
      exact h.M.z q Q' a h3 (by omega) (by omega)
  | @write l b r i v hb hk hi =>
    refine ⟨h.M.upd hb hb rfl rfl rfl rfl (fun a ha => upd_ne _ _ (by omega)), ?_, h.nl, h.ct, h.e0, h.md, h.ub⟩
    intro c hc hl
    refine (h.ch c hc hl).congr (fun j hj => upd_ne _ _ ?_)
    dsimp only at hc
    rw [hb] at hc
    rcases mem_mid hc with rfl | hc
    · rw [hk] at hl; cases hl
    · have := h.M.sep; rw [hb] at this
      exact Ne.symm (apart_ne (sep_mid this c hc) hi hj)
  | @free l b r hb hk =>
    have hsl : b.slots = [] := h.nl b (by rw [hb]; exact self_mem) hk
    refine ⟨h.M.dealloc hr hb rfl rfl rfl, ?_, ?_, ?_, ?_, ?_, ?_⟩
    · intro c hc hl
      rw [dealloc_blocks] at hc; rw [dealloc_mem]
      exact h.ch c (by rw [hb]; exact mid_mem hc) hl
    · intro c hc hl
      rw [dealloc_blocks] at hc
      exact h.nl c (by rw [hb]; exact mid_mem hc) hl
    · intro o ho
      rw [dealloc_cnt, dealloc_ext]
      have h1 := refs_del (t := dealloc cfg { s with blocks := l ++ r } b.page) hb (by simp) o
      have h2 : brefs b o = 0 := by simp [brefs, hsl]
      have := h.ct o ho
      dsimp only; omega
    · rw [dealloc_ext]; exact h.e0
    · rw [dealloc_made, dealloc_cnt]; exact h.md
    · rw [dealloc_ub]; exact h.ub
  | @create o ho hm =>
    refine ⟨h.M.same rfl rfl rfl, h.ch, h.nl, ?_, ?_, ?_, h.ub⟩
    · intro o' ho'
      have h1 := h.ct o' ho'
      rw [refs_only]
      dsimp only
      by_cases e : o' = o
      · subst e; have := h.md o' hm; simp only [upd_same]; omega
      · rw [upd_ne _ _ e, upd_ne _ _ e]; exact h1
    · dsimp only; rw [upd_ne _ _ (by omega)]; exact h.e0
    · intro o' h1
      dsimp only at h1 ⊢
      by_cases e : o' = o
      · subst e; rw [upd_same] at h1; cases h1
      · rw [upd_ne _ _ e] at h1 ⊢; exact h.md o' h1
  | @copy o he =>
    have ho : 0 < o := by
      rcases Nat.eq_zero_or_pos o with e | e
      · subst e; rw [h.e0] at he; cases he
      · exact e
    have hp : 0 < s.cnt o := by rw [h.ct o ho]; omega
    refine ⟨h.M.same rfl rfl rfl, h.ch, h.nl, ?_, ?_, ?_, h.ub⟩
    · intro o' ho'
      have h1 := h.ct o' ho'
      rw [refs_only]
      dsimp only
      by_cases e : o' = o
      · subst e; simp only [upd_same]; omega
      · rw [upd_ne _ _ e, upd_ne _ _ e]; exact h1
    · dsimp only; rw [upd_ne _ _ (by omega)]; exact h.e0
    · intro o' h1
      dsimp only at h1 ⊢
      by_cases e : o' = o
      · subst e; have := h.md o' h1; omega
      · rw [upd_ne _ _ e]; exact h.md o' h1
  | @drop o he =>
    have ho : 0 < o := by
      rcases Nat.eq_zero_or_pos o with e | e
      · subst e; rw [h.e0] at he; cases he
      · exact e
    have hp : 0 < s.cnt o := by rw [h.ct o ho]; omega
    refine ⟨h.M.same (by simp) (by simp) (by simp), ?_, ?_, ?_, ?_, ?_, ?_⟩
    · intro c hc hl; dsimp only at hc ⊢; rw [drop_blocks] at hc; rw [drop_mem]; exact h.ch c hc hl
    · intro c hc hl; dsimp only at hc; rw [drop_blocks] at hc; exact h.nl c hc hl
    · intro o' ho'
      have h1 := h.ct o' ho'
      rw [refs_eq (s := s) (by simp)]
      dsimp only
      rw [drop_cnt o' ho' (fun _ => hp)]
      by_cases e : o' = o
      · subst e; simp only [upd_same, if_true]; omega
      · rw [upd_ne _ _ e, if_neg (Ne.symm e)]; exact h1
    · dsimp only; rw [upd_ne _ _ (by omega)]; exact h.e0
    · intro o' h1
      dsimp only at h1 ⊢
      rw [drop_made] at h1
      have := h.md o' h1; have := drop_le s o o'; omega
    · dsimp only; rw [drop_ub (fun _ => hp)]; exact h.ub
  | @push l b r o hb hk hc he =>
    have ho : 0 < o := by
      rcases Nat.eq_zero_or_pos o with e | e
      · subst e; rw [h.e0] at he; cases he
      · exact e
    have hp : 0 < s.cnt o := by rw [h.ct o ho]; omega
    have hbm : b ∈ s.blocks := by rw [hb]; exact self_mem
    have hch := h.ch b hbm hk
    have h0 : s.mem (b.base + b.slots.length) = 0 := hch.rest _ (Nat.le_refl _) hc
    have ea : assign s (b.base + b.slots.length) o =
        { s with cnt := upd s.cnt o (s.cnt o + 1), mem := upd s.mem (b.base + b.slots.length) o } := by
      unfold assign; rw [h0]; unfold LR.drop; rw [if_pos rfl]
    rw [ea]
    have hsep : ∀ c ∈ l ++ r, BApart b c := by have := h.M.sep; rw [hb] at this; exact sep_mid this
    refine ⟨h.M.upd hb rfl rfl rfl rfl rfl (fun a ha => upd_ne _ _ (by omega)), ?_, ?_, ?_, h.e0, ?_, h.ub⟩
    · intro c hc' hl
      rcases mem_mid hc' with rfl | hc'
      · refine ⟨by simp; omega, ?_, ?_⟩
        · intro i hi hj
          simp only [List.length_append, List.length_cons, List.length_nil] at hi
          dsimp only at hj ⊢
          rw [upd_ne _ _ (by omega)]
          exact hch.rest i (by omega) hj
        · intro i x hx
          dsimp only at hx ⊢
          by_cases e : i = b.slots.length
          · subst e
            have : (b.slots ++ [(⟨o, true, 0, 0⟩ : Slot)])[b.slots.length]? = some ⟨o, true, 0, 0⟩ := by simp
            rw [this] at hx; cases hx
            rw [upd_same]; exact ⟨rfl, ho, rfl⟩
          · rw [upd_ne _ _ (by omega)]
            apply hch.slot i x
            rcases Nat.lt_or_ge i b.slots.length with h' | h'
            · rw [List.getElem?_append_left h'] at hx; exact hx
            · rw [List.getElem?_append_right h'] at hx
              obtain ⟨k, hk⟩ : ∃ k, i - b.slots.length = k + 1 := ⟨i - b.slots.length - 1, by omega⟩
              rw [hk] at hx; cases hx
      · refine (h.ch c (by rw [hb]; exact mid_mem hc') hl).congr (fun j hj => upd_ne _ _ ?_)
        exact Ne.symm (apart_ne (hsep c hc') hc hj)
    · intro c hc' hl
      rcases mem_mid hc' with rfl | hc'
      · dsimp only at hl; rw [hk] at hl; cases hl
      · exact h.nl c (by rw [hb]; exact mid_mem hc') hl
    · intro o' ho'
      have h1 := h.ct o' ho'
      have h2 := refs_upd (t := { s with
        cnt := upd s.cnt o (s.cnt o + 1), mem := upd s.mem (b.base + b.slots.length) o
        blocks := l ++ { b with slots := b.slots ++ [⟨o, true, 0, 0⟩] } :: r }) hb rfl o'
      have h3 : brefs { b with slots := b.slots ++ [⟨o, true, 0, 0⟩] } o' = brefs b o' + if o = o' then 1 else 0 := by
        unfold brefs; rw [List.countP_append, List.countP_singleton]; simp [Slot.keeps]
      dsimp only at h2 ⊢
      by_cases e : o' = o
      · subst e; rw [upd_same]; rw [if_pos rfl] at h3; omega
      · rw [upd_ne _ _ e]; rw [if_neg (Ne.symm e)] at h3; omega
    · intro o' h1
      dsimp only at h1 ⊢
      by_cases e : o' = o
      · subst e; have := h.md o' h1; omega
      · rw [upd_ne _ _ e]; exact h.md o' h1
  | @acquire l b r u x v hb hk hx hl =>
    have hrc := ((h.ch b (by rw [hb]; exact self_mem) hk).slot _ x (slot_get hx)).2.2
    refine h.slotStep hb hk hx rfl rfl rfl rfl rfl rfl rfl ?_ (fun _ => Nat.le_refl _) ?_
    · rw [hl] at hrc; simp only [hl, if_true] at hrc ⊢; push_cast; omega
    · intro o _; simp [Slot.keeps, hl]
  | @read l b r u x v hb hk hx hh =>
    have hsl := (h.ch b (by rw [hb]; exact self_mem) hk).slot _ x (slot_get hx)
    rw [hsl.1]
    have hp := h.pos hb hx (by simp [Slot.keeps, hh]) hsl.2.1
    refine ⟨h.M.same rfl rfl rfl, h.ch, h.nl, ?_, ?_, ?_, h.ub⟩
    · intro o' ho'
      have h1 := h.ct o' ho'
      rw [refs_only]
      dsimp only
      by_cases e : o' = x.obj
      · subst e; simp only [upd_same]; omega
      · rw [upd_ne _ _ e, upd_ne _ _ e]; exact h1
    · dsimp only; rw [upd_ne _ _ (by have := hsl.2.1; omega)]; exact h.e0
    · intro o' h1
      dsimp only at h1 ⊢
      by_cases e : o' = x.obj
      · subst e; have := h.md _ h1; omega
      · rw [upd_ne _ _ e]; exact h.md o' h1
  | @release l b r u x v hb hk hx hh =>
    obtain ⟨hm, hpo, hrc⟩ := (h.ch b (by rw [hb]; exact self_mem) hk).slot _ x (slot_get hx)
    have hp := h.pos hb hx (by simp [Slot.keeps, hh]) hpo
    rw [hm]
    by_cases e : x.rc = 0
    · rw [if_pos e]
      have hl : x.live = false ∧ x.held = 1 := by
        cases hl : x.live
        · rw [hl] at hrc; simp only [Bool.false_eq_true, if_false] at hrc; exact ⟨rfl, by omega⟩
        · rw [hl] at hrc; simp only [if_true] at hrc; omega
      refine h.slotStep hb hk hx rfl (by simp) (by simp) (by simp) (by simp) (drop_ub fun _ => hp) rfl ?_
        (fun o => drop_le s x.obj o) ?_
      · simp only [hl.1, hl.2, e]; decide
      · intro o ho
        dsimp only
        rw [drop_cnt o ho (fun _ => hp)]
        simp only [Slot.keeps, hl.1, hl.2]
        by_cases e' : x.obj = o
        · subst e'; simp; omega
        · simp [e']
    · rw [if_neg e]
      refine h.slotStep hb hk hx rfl rfl rfl rfl rfl rfl rfl ?_ (fun _ => Nat.le_refl _) ?_
      · dsimp only; rw [hrc]; push_cast [hh]; omega
      · intro o _
        have : (x.live || decide (0 < x.held - 1)) = true := by
          cases hl : x.live
          · rw [hl] at hrc; simp only [Bool.false_eq_true, if_false] at hrc
            simp; omega
          · rfl
        simp [Slot.keeps, hh, this]
  | @remove l b r u x v hb hk hx hl hh =>
    obtain ⟨hm, hpo, hrc⟩ := (h.ch b (by rw [hb]; exact self_mem) hk).slot _ x (slot_get hx)
    rw [hl] at hrc
    simp only [if_true] at hrc
    rw [if_neg (by omega)]
    refine h.slotStep hb hk hx rfl rfl rfl rfl rfl rfl rfl ?_ (fun _ => Nat.le_refl _) ?_
    · dsimp only; rw [hrc]; simp
    · intro o _; simp [Slot.keeps, hh]
  | @destroy l b r hb hk hh =>
    have hbm : b ∈ s.blocks := by rw [hb]; exact self_mem
    have hch := h.ch b hbm hk
    have hv : ∀ o, 0 < o → (chunkValues s b).count o = brefs b o := chunkValues_count hch hh
    have hle : ∀ o, 0 < o → (chunkValues s b).count o ≤ s.cnt o := by
      intro o ho; rw [hv o ho, h.ct o ho, refs_mid hb]; omega
    obtain ⟨h1, h2⟩ := dropAll_spec hle
    refine ⟨h.M.dealloc hr hb rfl (by simp) (by simp), ?_, ?_, ?_, ?_, ?_, ?_⟩
    · intro c hc hl
      rw [dealloc_blocks] at hc; rw [dealloc_mem]; dsimp only at hc ⊢; rw [dropAll_mem]
      exact h.ch c (by rw [hb]; exact mid_mem hc) hl
    · intro c hc hl
      rw [dealloc_blocks] at hc
      exact h.nl c (by rw [hb]; exact mid_mem hc) hl
    · intro o ho
      rw [dealloc_cnt, dealloc_ext]
      have h3 := refs_del (t := dealloc cfg { dropAll s (chunkValues s b) with blocks := l ++ r } b.page) hb (by simp) o
      have h4 := h.ct o ho
      have h5 := h2 o ho
      rw [hv o ho] at h5
      have h6 := congrFun (dropAll_ext s (chunkValues s b)) o
      show (dropAll s (chunkValues s b)).cnt o = (dropAll s (chunkValues s b)).ext o + _
      omega
    · rw [dealloc_ext]; dsimp only; rw [dropAll_ext]; exact h.e0
    · rw [dealloc_made, dealloc_cnt]; dsimp only; rw [dropAll_made]; intro o ho
      have := h.md o ho; have := dropAll_le s (chunkValues s b) o; omega
    · rw [dealloc_ub]; dsimp only; rw [h1]; exact h.ub

theorem Inv.steps {cfg : Cfg} {s t : State} (hz : cfg.zero = true) (hr : cfg.reset = false) (h : Inv s)
    (hs : Steps cfg s t) : Inv t := by
  induction hs with
  | refl => exact h
  | tail _ h2 ih => exact ih.step hz hr h2

theorem Inv.reach {s : State} (h : Reach code s) : Inv s := Inv.steps rfl rfl Inv.init h

end RG.LR
