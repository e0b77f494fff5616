import Verif.Lemmas.Examples
/-
Lemmas for examples/game_of_life.cpp in Model/Examples.
-/
namespace RG.Dyn.Life
open RG.Graph

theorem pos_inj {x y x' y' : Nat} (hx : x < 2 ^ 64) (hy : y < 2 ^ 64) (hx' : x' < 2 ^ 64) (hy' : y' < 2 ^ 64) :
    pos x y = pos x' y' ↔ x = x' ∧ y = y' := by
  constructor
  · intro h
    simp only [pos, List.cons.injEq, and_true] at h
    have h1 := congrArg BitVec.toNat h.1
    have h2 := congrArg BitVec.toNat h.2
    simp only [BitVec.toNat_ofNat, Nat.mod_eq_of_lt hx, Nat.mod_eq_of_lt hy, Nat.mod_eq_of_lt hx', Nat.mod_eq_of_lt hy'] at h1 h2
    exact ⟨h1, h2⟩
  · rintro ⟨rfl, rfl⟩
    rfl

/-- a part of a buffer -/
def areaG (r : Res) (w : Bool) (x0 y0 x1 y1 : Nat) : Guard 2 :=
  ⟨r, w, fun d => ⟨index (dim := 2) (pos x0 y0) d, index (dim := 2) (pos x1 y1) d⟩⟩

/-- a buffer -/
def wholeG (r : Res) (w : Bool) : Guard 2 := ⟨r, w, fun _ => Area.dflt⟩

theorem elem_area {r : Res} {w : Bool} {x0 y0 x1 y1 x y : Nat} (h1 : x1 < 2 ^ 64) (h2 : y1 < 2 ^ 64) (hx : x0 ≤ x ∧ x < x1)
    (hy : y0 ≤ y ∧ y < y1) : (AGuard.field (areaG r w x0 y0 x1 y1)).elem (pos x y) = some (r, pos x y) := by
  have : (areaG r w x0 y0 x1 y1).contains (index (pos x y)) = true := by
    simp only [Guard.contains, List.all_eq_true, Bool.not_eq_true', Bool.or_eq_false_iff, decide_eq_false_iff_not]
    intro d _
    have hd : d = 0 ∨ d = 1 := by omega
    rcases hd with rfl | rfl <;>
      simp [areaG, index, pos, BitVec.lt_def] <;> omega
  simp only [AGuard.elem, this, if_true]
  rfl

theorem elem_whole {r : Res} {w : Bool} {x y : Nat} (hx : x < 2 ^ 64 - 1) (hy : y < 2 ^ 64 - 1) :
    (AGuard.field (wholeG r w)).elem (pos x y) = some (r, pos x y) := by
  have : (wholeG r w).contains (index (pos x y)) = true := by
    simp only [Guard.contains, List.all_eq_true, Bool.not_eq_true', Bool.or_eq_false_iff, decide_eq_false_iff_not]
    intro d _
    have hd : d = 0 ∨ d = 1 := by omega
    rcases hd with rfl | rfl <;>
      simp [wholeG, Area.dflt, sizeMax, index, pos, BitVec.lt_def] <;> omega
  simp only [AGuard.elem, this, if_true]
  rfl

theorem narrow_area {r : Res} {w : Bool} {x0 y0 x1 y1 : Nat} :
    (AGuard.field (wholeG r w)).narrow (.area (pos x0 y0) (pos x1 y1)) = some (.field (areaG r w x0 y0 x1 y1)) := by
  have : ((List.finRange 2).all fun d => ((wholeG r w).area d).isSuperset
      ⟨index (dim := 2) (pos x0 y0) d, index (dim := 2) (pos x1 y1) d⟩) = true := by
    simp only [List.all_eq_true]
    intro d _
    simp [wholeG, Area.isSuperset, Area.dflt, sizeMax, BitVec.le_def]
    omega
  simp only [AGuard.narrow, Guard.derive, Guard.subArea, Guard.makeArea, this, if_true]
  rfl

theorem narrow_read {r : Res} {w : Bool} :
    (AGuard.field (wholeG r w)).narrow .read = some (.field (wholeG r false)) := rfl

/-! ### Copies inside of a buffer -/

theorem copy_run {g : AGuard} {r : Res} {src dst : List Size} {k : GCode} {m : Objs} {rs : List Nat}
    (h1 : g.elem src = some (r, src)) (h2 : g.elem dst = some (r, dst)) :
    (copy src dst k).run [g] rs m = k.run [g] rs (m.set (r, dst) (m r src)) := by
  simp [copy, GCode.run, h1, h2]

/-- the effect of copies: pairs of destination and source -/
def copies (r : Res) (l : List (List Size × List Size)) (m : Objs) : Objs :=
  l.foldl (fun m a => m.set (r, a.1) (m r a.2)) m

theorem copies_of {r : Res} {l : List (List Size × List Size)} {m : Objs} {a : List Size × List Size}
    (hd : ∀ b ∈ l, ∀ c ∈ l, b.1 ≠ c.2) (ha : a ∈ l) (hu : ∀ b ∈ l, b.1 = a.1 → b.2 = a.2) :
    copies r l m r a.1 = m r a.2 := by
  refine foldl_set (p := fun a : List Size × List Size => (r, a.1)) (f := fun m a => m r a.2) ?_ ha ?_
  · intro b hb m v c hc
    refine set_ne fun e => hd b hb c hc ?_
    rw [Prod.mk.injEq] at e
    exact e.2.symm
  · intro b hb e
    rw [Prod.mk.injEq] at e
    rw [hu b hb e.2]

theorem copies_ne {r : Res} {l : List (List Size × List Size)} {m : Objs} {r' : Res} {q : List Size}
    (h : ∀ a ∈ l, (r, a.1) ≠ (r', q)) : copies r l m r' q = m r' q :=
  foldl_set_ne (p := fun a : List Size × List Size => (r, a.1)) (f := fun m a => m r a.2) h

variable {L : Life}

/-- the coordinate whose value is copied to `x` -/
def wrap (s x : Nat) : Nat := if x = 0 then s else if x = s + 1 then 1 else x

/-- the sizes are in range -/
structure Ok (L : Life) : Prop where
  cx : 0 < L.cx
  cy : 0 < L.cy
  tx : 0 < L.tx
  ty : 0 < L.ty
  nb : 1 < L.nb
  x : L.sx + L.cx + 4 < 2 ^ 64
  y : L.sy + L.cy + 4 < 2 ^ 64

theorem Ok.sx (h : Ok L) : 0 < L.sx := Nat.mul_pos h.tx h.cx
theorem Ok.sy (h : Ok L) : 0 < L.sy := Nat.mul_pos h.ty h.cy

def rows (L : Life) : List (List Size × List Size) :=
  (List.range (L.sx + 2)).flatMap fun x => [(pos x 0, pos x L.sy), (pos x (L.sy + 1), pos x 1)]

def cols (L : Life) : List (List Size × List Size) :=
  (List.range (L.sy + 2)).flatMap fun y => [(pos 0 y, pos L.sx y), (pos (L.sx + 1) y, pos 1 y)]

theorem mem_rows {a : List Size × List Size} : a ∈ rows L ↔
    ∃ x, x < L.sx + 2 ∧ (a = (pos x 0, pos x L.sy) ∨ a = (pos x (L.sy + 1), pos x 1)) := by
  simp [rows]

theorem mem_cols {a : List Size × List Size} : a ∈ cols L ↔
    ∃ y, y < L.sy + 2 ∧ (a = (pos 0 y, pos L.sx y) ∨ a = (pos (L.sx + 1) y, pos 1 y)) := by
  simp [cols]

theorem borders_run (hL : Ok L) (r : Res) (m : Objs) :
    L.borders.run [.field (wholeG r true)] [] m = (0, copies r (cols L) (copies r (rows L) m)) := by
  have hx := hL.x
  have hy := hL.y
  have e : ∀ x y, x < L.sx + 2 → y < L.sy + 2 → (AGuard.field (wholeG r true)).elem (pos x y) = some (r, pos x y) :=
    fun x y h1 h2 => elem_whole (by omega) (by omega)
  have hsx := hL.sx
  have hsy := hL.sy
  unfold borders
  rw [each_run' (g := fun m x => (m.set (r, pos x 0) (m r (pos x L.sy))).set (r, pos x (L.sy + 1))
      ((m.set (r, pos x 0) (m r (pos x L.sy))) r (pos x 1)))]
  · rw [each_run' (g := fun m y => (m.set (r, pos 0 y) (m r (pos L.sx y))).set (r, pos (L.sx + 1) y)
      ((m.set (r, pos 0 y) (m r (pos L.sx y))) r (pos 1 y)))]
    · simp only [GCode.run, copies, rows, cols, List.foldl_flatMap, List.foldl_cons, List.foldl_nil]
    · intro y hy' k m
      rw [List.mem_range] at hy'
      rw [copy_run (e _ _ (by omega) (by omega)) (e _ _ (by omega) (by omega)),
        copy_run (e _ _ (by omega) (by omega)) (e _ _ (by omega) (by omega))]
  · intro x hx' k m
    rw [List.mem_range] at hx'
    rw [copy_run (e _ _ (by omega) (by omega)) (e _ _ (by omega) (by omega)),
      copy_run (e _ _ (by omega) (by omega)) (e _ _ (by omega) (by omega))]

theorem rows_at (hL : Ok L) {r : Res} {m : Objs} {x y : Nat} (hx : x < L.sx + 2) (hy : y < L.sy + 2) :
    copies r (rows L) m r (pos x y) = m r (pos x (wrap L.sy y)) := by
  have h1 := hL.x
  have h2 := hL.y
  have hsy := hL.sy
  have inj : ∀ {a b c d : Nat}, a < L.sx + 2 → b < L.sy + 2 → c < L.sx + 2 → d < L.sy + 2 → pos a b = pos c d → a = c ∧ b = d :=
    fun ha hb hc hd e => (pos_inj (by omega) (by omega) (by omega) (by omega)).1 e
  have hd : ∀ b ∈ rows L, ∀ c ∈ rows L, b.1 ≠ c.2 := by
    intro b hb c hc e
    obtain ⟨x1, h3, hb⟩ := mem_rows.1 hb
    obtain ⟨x2, h4, hc⟩ := mem_rows.1 hc
    rcases hb with rfl | rfl <;> rcases hc with rfl | rfl <;>
      have := (inj h3 (by omega) h4 (by omega) e).2 <;> omega
  have hu : ∀ a ∈ rows L, ∀ b ∈ rows L, b.1 = a.1 → b.2 = a.2 := by
    intro b hb c hc e
    obtain ⟨x1, h3, hb⟩ := mem_rows.1 hb
    obtain ⟨x2, h4, hc⟩ := mem_rows.1 hc
    rcases hb with rfl | rfl <;> rcases hc with rfl | rfl <;>
      have := inj h4 (by omega) h3 (by omega) e <;> first | omega | (rw [this.1])
  unfold wrap
  split
  · rename_i h
    subst h
    have ha : (pos x 0, pos x L.sy) ∈ rows L := mem_rows.2 ⟨x, hx, .inl rfl⟩
    exact copies_of hd ha (hu _ ha)
  · split
    · rename_i h h'
      subst h'
      have ha : (pos x (L.sy + 1), pos x 1) ∈ rows L := mem_rows.2 ⟨x, hx, .inr rfl⟩
      exact copies_of hd ha (hu _ ha)
    · rename_i h h'
      refine copies_ne ?_
      intro a ha e
      rw [Prod.mk.injEq] at e
      obtain ⟨x1, h3, ha⟩ := mem_rows.1 ha
      rcases ha with rfl | rfl <;> have := inj h3 (by omega) hx hy e.2 <;> omega

theorem cols_at (hL : Ok L) {r : Res} {m : Objs} {x y : Nat} (hx : x < L.sx + 2) (hy : y < L.sy + 2) :
    copies r (cols L) m r (pos x y) = m r (pos (wrap L.sx x) y) := by
  have h1 := hL.x
  have h2 := hL.y
  have hsx := hL.sx
  have inj : ∀ {a b c d : Nat}, a < L.sx + 2 → b < L.sy + 2 → c < L.sx + 2 → d < L.sy + 2 → pos a b = pos c d → a = c ∧ b = d :=
    fun ha hb hc hd e => (pos_inj (by omega) (by omega) (by omega) (by omega)).1 e
  have hd : ∀ b ∈ cols L, ∀ c ∈ cols L, b.1 ≠ c.2 := by
    intro b hb c hc e
    obtain ⟨x1, h3, hb⟩ := mem_cols.1 hb
    obtain ⟨x2, h4, hc⟩ := mem_cols.1 hc
    rcases hb with rfl | rfl <;> rcases hc with rfl | rfl <;>
      have := (inj (by omega) h3 (by omega) h4 e).1 <;> omega
  have hu : ∀ a ∈ cols L, ∀ b ∈ cols L, b.1 = a.1 → b.2 = a.2 := by
    intro b hb c hc e
    obtain ⟨x1, h3, hb⟩ := mem_cols.1 hb
    obtain ⟨x2, h4, hc⟩ := mem_cols.1 hc
    rcases hb with rfl | rfl <;> rcases hc with rfl | rfl <;>
      have := inj (by omega) h4 (by omega) h3 e <;> first | omega | (rw [this.2])
  unfold wrap
  split
  · rename_i h
    subst h
    have ha : (pos 0 y, pos L.sx y) ∈ cols L := mem_cols.2 ⟨y, hy, .inl rfl⟩
    exact copies_of hd ha (hu _ ha)
  · split
    · rename_i h h'
      subst h'
      have ha : (pos (L.sx + 1) y, pos 1 y) ∈ cols L := mem_cols.2 ⟨y, hy, .inr rfl⟩
      exact copies_of hd ha (hu _ ha)
    · rename_i h h'
      refine copies_ne ?_
      intro a ha e
      rw [Prod.mk.injEq] at e
      obtain ⟨x1, h3, ha⟩ := mem_cols.1 ha
      rcases ha with rfl | rfl <;> have := inj (by omega) h3 hx hy e.2 <;> omega

theorem borders_at (hL : Ok L) {r : Res} {m : Objs} {x y : Nat} (hx : x < L.sx + 2) (hy : y < L.sy + 2) :
    (copies r (cols L) (copies r (rows L) m)) r (pos x y) = m r (pos (wrap L.sx x) (wrap L.sy y)) := by
  have hw : wrap L.sx x < L.sx + 2 := by
    unfold wrap
    have := hL.sx
    split
    · omega
    · split <;> omega
  rw [cols_at hL hx hy, rows_at hL hw hy]

/-! ### A chunk -/

/-- the value that `next_state` computes -/
def ruleAt (m : Objs) (r : Res) (x y : Nat) : Nat :=
  let s := ([pos (x - 1) (y - 1), pos x (y - 1), pos (x + 1) (y - 1), pos (x - 1) y, pos (x + 1) y,
      pos (x - 1) (y + 1), pos x (y + 1), pos (x + 1) (y + 1)].map (m r)).sum
  if s < 2 ∨ 3 < s then 0 else if s = 3 then 1 else m r (pos x y)

theorem nextState_run {env : List AGuard} {rs : List Nat} {g : AGuard} {r : Res} {x y : Nat} {k : Nat → GCode} {m : Objs}
    (hi : env[1]? = some g) (hg : ∀ a b, x - 1 ≤ a → a ≤ x + 1 → y - 1 ≤ b → b ≤ y + 1 → g.elem (pos a b) = some (r, pos a b)) :
    (nextState x y k).run env rs m = (k (ruleAt m r x y)).run env rs m := by
  unfold nextState
  rw [reads_run hi (r := r) (fun p hp => ?_)]
  · unfold ruleAt
    dsimp only
    split
    · rfl
    · split
      · rfl
      · simp only [GCode.run, hi, Option.bind_some, hg x y (by omega) (by omega) (by omega) (by omega), Option.getD_some]
  · simp only [List.mem_cons, List.not_mem_nil, or_false] at hp
    rcases hp with rfl | rfl | rfl | rfl | rfl | rfl | rfl | rfl <;>
      exact hg _ _ (by omega) (by omega) (by omega) (by omega)

theorem ruleAt_set {m : Objs} {r r' : Res} (h : r ≠ r') {p : List Size} {v x y : Nat} :
    ruleAt (m.set (r', p) v) r x y = ruleAt m r x y := by
  have : ∀ q, m.set (r', p) v r q = m r q := fun q => set_ne fun e => h (Prod.mk.inj e).1
  simp only [ruleAt, List.map_cons, List.map_nil, this]

/-- the writes of a chunk -/
def chunk (r r' : Res) (l : List (Nat × Nat)) (m : Objs) : Objs :=
  l.foldl (fun m a => m.set (r', pos a.1 a.2) (ruleAt m r a.1 a.2)) m

def cells (L : Life) (x y : Nat) : List (Nat × Nat) := (grid L.cx L.cy).map fun p => (x + p.1, y + p.2)

theorem tile_run {x y : Nat} (hx : x + L.cx + 2 < 2 ^ 64) (hy : y + L.cy + 2 < 2 ^ 64) (h0 : 0 < x ∧ 0 < y) {r r' : Res} {m : Objs} :
    (L.tile x y).run [.field (areaG r' true x y (x + L.cx) (y + L.cy)),
        .field (areaG r false (x - 1) (y - 1) (x + L.cx + 2) (y + L.cy + 2))] [] m =
      (0, chunk r r' (cells L x y) m) := by
  unfold tile
  rw [each_run' (g := fun m p => m.set (r', pos (x + p.1) (y + p.2)) (ruleAt m r (x + p.1) (y + p.2)))]
  · simp only [GCode.run, chunk, cells, List.foldl_map]
  · intro p hp k m
    obtain ⟨h1, h2⟩ := mem_grid.1 hp
    rw [nextState_run rfl (r := r) fun a b h3 h4 h5 h6 =>
      elem_area (by omega) (by omega) ⟨by omega, by omega⟩ ⟨by omega, by omega⟩]
    simp only [GCode.run, List.getElem?_cons_zero, Option.bind_some,
      elem_area (r := r') (w := true) (x0 := x) (y0 := y) (x1 := x + L.cx) (y1 := y + L.cy) (x := x + p.1) (y := y + p.2)
        (by omega) (by omega) ⟨by omega, by omega⟩ ⟨by omega, by omega⟩]

theorem tiles_run {cur next : Nat} {r r' : Res} {l : List (Nat × Nat)}
    (hl : ∀ p ∈ l, p.1 + L.cx + 2 < 2 ^ 64 ∧ p.2 + L.cy + 2 < 2 ^ 64 ∧ 0 < p.1 ∧ 0 < p.2) {k : Nat → GCode}
    {env : List AGuard} {rs : List Nat} {m : Objs} (hc : env[cur]? = some (.field (wholeG r true)))
    (hn : env[next]? = some (.field (wholeG r' true))) :
    ∃ ext, ext.length = 3 * l.length ∧ (L.tiles cur next l env.length k).run env rs m =
      (k (env.length + 3 * l.length)).run (env ++ ext) (rs ++ List.replicate l.length 0)
        (chunk r r' (l.flatMap fun p => cells L p.1 p.2) m) := by
  induction l generalizing env rs m with
  | nil => exact ⟨[], rfl, by simp [tiles, chunk]⟩
  | cons p l ih =>
    obtain ⟨x, y⟩ := p
    obtain ⟨h1, h2, h3, h4⟩ := hl _ (.head _)
    have hlt := (List.getElem?_eq_some_iff.1 hc).1
    have hlt' := (List.getElem?_eq_some_iff.1 hn).1
    obtain ⟨ext, he, ih⟩ := ih (fun q hq => hl q (.tail _ hq))
      (env := env ++ [.field (areaG r' true x y (x + L.cx) (y + L.cy)), .field (wholeG r false),
        .field (areaG r false (x - 1) (y - 1) (x + L.cx + 2) (y + L.cy + 2))])
      (rs := rs ++ [0]) (m := chunk r r' (cells L x y) m)
      (by rw [List.getElem?_append_left hlt]; exact hc) (by rw [List.getElem?_append_left hlt']; exact hn)
    refine ⟨[.field (areaG r' true x y (x + L.cx) (y + L.cy)), .field (wholeG r false),
        .field (areaG r false (x - 1) (y - 1) (x + L.cx + 2) (y + L.cy + 2))] ++ ext, by simp [he]; omega, ?_⟩
    have e1 : (env ++ [AGuard.field (areaG r' true x y (x + L.cx) (y + L.cy))])[cur]? = some (.field (wholeG r true)) := by
      rw [List.getElem?_append_left hlt]; exact hc
    unfold tiles
    simp only [GCode.run, hn, Option.bind_some, narrow_area]
    simp only [e1, Option.bind_some, narrow_read]
    have e2 : (env ++ [AGuard.field (areaG r' true x y (x + L.cx) (y + L.cy))] ++ [.field (wholeG r false)])[env.length + 1]? =
        some (.field (wholeG r false)) := by simp
    simp only [e2, Option.bind_some, narrow_area]
    have e3 : [env.length, env.length + 2].filterMap ((env ++ [AGuard.field (areaG r' true x y (x + L.cx) (y + L.cy))] ++
        [.field (wholeG r false)] ++ [.field (areaG r false (x - 1) (y - 1) (x + L.cx + 2) (y + L.cy + 2))])[·]?) =
        [.field (areaG r' true x y (x + L.cx) (y + L.cy)),
        .field (areaG r false (x - 1) (y - 1) (x + L.cx + 2) (y + L.cy + 2))] := by simp
    rw [e3, tile_run h1 h2 ⟨h3, h4⟩]
    simp only [List.length_append, List.length_cons, List.length_nil, List.append_assoc, List.cons_append, List.nil_append] at ih ⊢
    rw [ih]
    simp only [chunk, List.flatMap_cons, List.foldl_append, List.replicate_succ]
    congr 2
    omega

end RG.Dyn.Life
