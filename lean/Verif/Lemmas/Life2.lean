import Verif.Lemmas.Life
/-
Lemmas for examples/game_of_life.cpp in Model/Examples, continued: the rule, the loop over the generations, and what the
compiler checks.
-/
namespace RG.Dyn.Life
open RG.Graph
variable {L : Life}

/-- buffer `r` contains the board `b` -/
def Holds (L : Life) (m : Objs) (r : Res) (b : Nat → Nat → Bool) : Prop :=
  ∀ x y, x < L.sx → y < L.sy → m r (pos (x + 1) (y + 1)) = cell (b x y)

theorem wrap_mod {s x d : Nat} (hx : x < s) (hd : d ≤ 2) : wrap s (x + d) - 1 = (x + d + s - 1) % s ∧ 0 < wrap s (x + d) ∧
    wrap s (x + d) ≤ s := by
  unfold wrap
  split
  · have : x + d + s - 1 = s - 1 := by omega
    rw [this, Nat.mod_eq_of_lt (by omega)]
    omega
  · split
    · have : x + d + s - 1 = s + s := by omega
      rw [this, Nat.add_mod_right, Nat.mod_self]
      omega
    · have : x + d + s - 1 = (x + d - 1) + s := by omega
      rw [this, Nat.add_mod_right, Nat.mod_eq_of_lt (by omega)]
      omega

theorem rule_next (hL : Ok L) {m : Objs} {r : Res} {b : Nat → Nat → Bool}
    (h : ∀ x y, x < L.sx + 2 → y < L.sy + 2 → m r (pos x y) = cell (b (wrap L.sx x - 1) (wrap L.sy y - 1))) {x y : Nat}
    (hx : x < L.sx) (hy : y < L.sy) : ruleAt m r (x + 1) (y + 1) = cell (next L.sx L.sy b x y) := by
  have e : ∀ i j, i ≤ 2 → j ≤ 2 → m r (pos (x + i) (y + j)) =
      cell (b ((x + i + L.sx - 1) % L.sx) ((y + j + L.sy - 1) % L.sy)) := by
    intro i j hi hj
    rw [h _ _ (by omega) (by omega), (wrap_mod hx hi).1, (wrap_mod hy hj).1]
  have c : m r (pos (x + 1) (y + 1)) = cell (b x y) := by
    have := e 1 1 (by omega) (by omega)
    rw [show x + 1 + L.sx - 1 = x + L.sx by omega, show y + 1 + L.sy - 1 = y + L.sy by omega, Nat.add_mod_right,
      Nat.add_mod_right, Nat.mod_eq_of_lt hx, Nat.mod_eq_of_lt hy] at this
    exact this
  have s : (([pos (x + 1 - 1) (y + 1 - 1), pos (x + 1) (y + 1 - 1), pos (x + 1 + 1) (y + 1 - 1), pos (x + 1 - 1) (y + 1),
      pos (x + 1 + 1) (y + 1), pos (x + 1 - 1) (y + 1 + 1), pos (x + 1) (y + 1 + 1), pos (x + 1 + 1) (y + 1 + 1)].map (m r)).sum) =
      neighbours L.sx L.sy b x y := by
    simp only [Nat.add_sub_cancel, List.map_cons, List.map_nil, Nat.add_assoc, Nat.reduceAdd]
    have h00 := e 0 0 (by omega) (by omega)
    have h10 := e 1 0 (by omega) (by omega)
    have h20 := e 2 0 (by omega) (by omega)
    have h01 := e 0 1 (by omega) (by omega)
    have h21 := e 2 1 (by omega) (by omega)
    have h02 := e 0 2 (by omega) (by omega)
    have h12 := e 1 2 (by omega) (by omega)
    have h22 := e 2 2 (by omega) (by omega)
    simp only [Nat.add_zero] at h00 h10 h20 h01 h02
    rw [h00, h10, h20, h01, h21, h02, h12, h22]
    have f : ∀ (q : Nat × Nat → Bool) (d : Nat × Nat) (l : List (Nat × Nat)),
        ((d :: l).filter q).length = cell (q d) + (l.filter q).length := by
      intro q d l
      cases hq : q d <;> simp [hq, cell, Nat.add_comm]
    simp only [neighbours, f, List.filter_nil, List.length_nil, List.sum_cons, List.sum_nil, Nat.add_zero]
  unfold ruleAt next
  rw [s, c]
  dsimp only
  generalize neighbours L.sx L.sy b x y = n
  cases hb : b x y
  · simp only [Bool.false_and, Bool.or_false, cell]
    by_cases h3 : n = 3
    · simp [h3]
    · simp [h3]
  · simp only [Bool.true_and, cell]
    by_cases h3 : n = 3
    · simp [h3]
    · by_cases h2 : n = 2
      · simp [h2]
      · have : n < 2 ∨ 3 < n := by omega
        simp [h3, h2, this]

theorem fill_run (hL : Ok L) (b0 : Nat → Nat → Bool) (r : Res) (m : Objs) :
    ∃ m', (L.fill b0).run [.field (wholeG r true)] [] m = (0, m') ∧ Holds L m' r fun x y => b0 (x + 1) (y + 1) := by
  have hx := hL.x
  have hy := hL.y
  refine ⟨(grid (L.sx + 2) (L.sy + 2)).foldl (fun m a => m.set (r, pos a.1 a.2) (cell (b0 a.1 a.2))) m, ?_, ?_⟩
  · unfold fill
    rw [each_run' (g := fun m a => m.set (r, pos a.1 a.2) (cell (b0 a.1 a.2)))]
    · rfl
    · intro p hp k m
      obtain ⟨h1, h2⟩ := mem_grid.1 hp
      simp only [GCode.run, List.getElem?_cons_zero, Option.bind_some,
        elem_whole (r := r) (w := true) (x := p.1) (y := p.2) (by omega) (by omega)]
  · intro x y h1 h2
    have hm : (x + 1, y + 1) ∈ grid (L.sx + 2) (L.sy + 2) := mem_grid.2 ⟨by dsimp only; omega, by dsimp only; omega⟩
    refine foldl_set (p := fun a : Nat × Nat => (r, pos a.1 a.2)) (f := fun _ a => cell (b0 a.1 a.2)) (fun _ _ _ _ _ _ => rfl)
      hm ?_
    intro p hp e
    obtain ⟨h3, h4⟩ := mem_grid.1 hp
    have := (pos_inj (by omega) (by omega) (by omega) (by omega)).1 (Prod.mk.inj e).2
    rw [this.1, this.2]

/-- The writes of all chunks together are the next generation. -/
theorem chunks_next (hL : Ok L) {m : Objs} {r r' : Res} (hr : r ≠ r') {b : Nat → Nat → Bool}
    (h : ∀ x y, x < L.sx + 2 → y < L.sy + 2 → m r (pos x y) = cell (b (wrap L.sx x - 1) (wrap L.sy y - 1))) :
    Holds L (chunk r r' (L.starts.flatMap fun p => cells L p.1 p.2) m) r' (next L.sx L.sy b) := by
  have hx := hL.x
  have hy := hL.y
  have bound : ∀ p ∈ L.starts.flatMap fun p => cells L p.1 p.2, 0 < p.1 ∧ p.1 ≤ L.sx ∧ 0 < p.2 ∧ p.2 ≤ L.sy := by
    intro p hp
    simp only [List.mem_flatMap, cells, List.mem_map, starts] at hp
    obtain ⟨q, ⟨a, ha, rfl⟩, c, hc, rfl⟩ := hp
    obtain ⟨h1, h2⟩ := mem_grid.1 ha
    obtain ⟨h3, h4⟩ := mem_grid.1 hc
    have e1 : (a.1 + 1) * L.cx ≤ L.sx := Nat.mul_le_mul_right _ h1
    have e2 : (a.2 + 1) * L.cy ≤ L.sy := Nat.mul_le_mul_right _ h2
    rw [Nat.succ_mul] at e1 e2
    dsimp only
    omega
  intro x y h1 h2
  have hm : (x + 1, y + 1) ∈ L.starts.flatMap fun p => cells L p.1 p.2 := by
    simp only [List.mem_flatMap, cells, List.mem_map, starts]
    refine ⟨_, ⟨(x / L.cx, y / L.cy), mem_grid.2 ⟨?_, ?_⟩, rfl⟩, (x % L.cx, y % L.cy), mem_grid.2 ⟨?_, ?_⟩, ?_⟩
    · exact Nat.div_lt_of_lt_mul (by rw [Nat.mul_comm]; exact h1)
    · exact Nat.div_lt_of_lt_mul (by rw [Nat.mul_comm]; exact h2)
    · exact Nat.mod_lt _ hL.cx
    · exact Nat.mod_lt _ hL.cy
    · have e1 := Nat.div_add_mod x L.cx
      have e2 := Nat.div_add_mod y L.cy
      rw [Nat.mul_comm] at e1 e2
      simp only [Prod.mk.injEq]
      omega
  have := foldl_set (p := fun a : Nat × Nat => (r', pos a.1 a.2)) (f := fun m a => ruleAt m r a.1 a.2) (m := m)
    (fun _ _ _ _ _ _ => ruleAt_set hr) hm fun p hp e => by
      have hb := bound p hp
      have := (pos_inj (by omega) (by omega) (by omega) (by omega)).1 (Prod.mk.inj e).2
      rw [this.1, this.2]
  exact this.trans (rule_next hL h h1 h2)

/-- what is printed of a board -/
def frame (L : Life) (enc : List Nat → Nat) (b : Nat → Nat → Bool) : Nat :=
  enc ((grid (L.sx - 1) (L.sy - 1)).map fun p => cell (b p.1 p.2))

theorem print_run (hL : Ok L) {enc : List Nat → Nat} {r : Res} {m : Objs} {b : Nat → Nat → Bool} (h : Holds L m r b) :
    (L.print enc).run [.field (wholeG r false)] [] m = (frame L enc b, m) := by
  have hx := hL.x
  have hy := hL.y
  unfold print
  rw [reads_run (r := r) rfl]
  · simp only [GCode.run, shown, List.map_map, frame]
    congr 2
    refine List.map_congr_left fun p hp => ?_
    obtain ⟨h1, h2⟩ := mem_grid.1 hp
    exact h _ _ (by omega) (by omega)
  · intro p hp
    simp only [shown, List.mem_map] at hp
    obtain ⟨q, hq, rfl⟩ := hp
    obtain ⟨h1, h2⟩ := mem_grid.1 hq
    exact elem_whole (by omega) (by omega)

theorem wrap_pos {s x : Nat} (hs : 0 < s) (hx : x < s + 2) : 0 < wrap s x ∧ wrap s x ≤ s := by
  unfold wrap
  split
  · omega
  · split <;> omega

theorem starts_bound (hL : Ok L) : ∀ p ∈ L.starts, p.1 + L.cx + 2 < 2 ^ 64 ∧ p.2 + L.cy + 2 < 2 ^ 64 ∧ 0 < p.1 ∧ 0 < p.2 := by
  intro p hp
  simp only [starts, List.mem_map] at hp
  obtain ⟨a, ha, rfl⟩ := hp
  obtain ⟨h1, h2⟩ := mem_grid.1 ha
  have e1 : (a.1 + 1) * L.cx ≤ L.sx := Nat.mul_le_mul_right _ h1
  have e2 : (a.2 + 1) * L.cy ≤ L.sy := Nat.mul_le_mul_right _ h2
  rw [Nat.succ_mul] at e1 e2
  have := hL.x
  have := hL.y
  dsimp only
  omega

theorem env_get {L : Life} {i : Nat} (h : i < L.nb) : L.env[i]? = some (.field (wholeG (buf i) true)) := by
  simp [env, h, Guard.fresh, wholeG]

/-- the texts of `g` generations -/
def frames (L : Life) (enc : List Nat → Nat) (b : Nat → Nat → Bool) (g : Nat) : List Nat :=
  (List.range g).map fun i => frame L enc (generation L.sx L.sy b i)

theorem generation_next {sx sy : Nat} {b : Nat → Nat → Bool} : ∀ n, generation sx sy (next sx sy b) n = generation sx sy b (n + 1)
  | 0 => rfl
  | n + 1 => by rw [generation, generation_next n]; rfl

theorem generation_congr {sx sy : Nat} (hx : 0 < sx) (hy : 0 < sy) {b b' : Nat → Nat → Bool}
    (h : ∀ x y, x < sx → y < sy → b x y = b' x y) : ∀ n x y, x < sx → y < sy →
      generation sx sy b n x y = generation sx sy b' n x y
  | 0, x, y, h1, h2 => h x y h1 h2
  | n + 1, x, y, h1, h2 => by
    have ih := generation_congr hx hy h n
    simp only [generation, next, ih x y h1 h2, neighbours]
    simp only [ih _ _ (Nat.mod_lt _ hx) (Nat.mod_lt _ hy)]

theorem loop_run (hL : Ok L) {enc fin : List Nat → Nat} : ∀ (g cur : Nat) {ext : List AGuard} {rs fr : List Nat} {m : Objs}
    {b : Nat → Nat → Bool}, cur < L.nb → Holds L m (buf cur) b →
    ∃ m', (L.loop enc fin g cur (L.nb + ext.length) rs.length fr).run (L.env ++ ext) rs m =
        (fin (fr ++ frames L enc b g), m') ∧ Holds L m' (buf ((cur + g) % L.nb)) (generation L.sx L.sy b g) := by
  intro g
  induction g with
  | zero =>
    intro cur ext rs fr m b hc hb
    refine ⟨m, by simp [loop, GCode.run, frames], ?_⟩
    rw [Nat.add_zero, Nat.mod_eq_of_lt hc]
    exact hb
  | succ g ih =>
    intro cur ext rs fr m b hc hb
    have hlen : L.env.length = L.nb := by simp [env]
    have hnb := hL.nb
    have hn : (cur + 1) % L.nb < L.nb := Nat.mod_lt _ (by omega)
    have hne : buf cur ≠ buf ((cur + 1) % L.nb) := by
      intro e
      have e : cur = (cur + 1) % L.nb := congrArg Res.addr e
      by_cases h : cur + 1 < L.nb
      · rw [Nat.mod_eq_of_lt h] at e
        omega
      · have : cur + 1 = L.nb := by omega
        rw [this, Nat.mod_self] at e
        omega
    have hget : ∀ i ext, i < L.nb → (L.env ++ ext)[i]? = some (.field (wholeG (buf i) true)) := by
      intro i ext h
      rw [List.getElem?_append_left (by omega)]
      exact env_get h
    have hg1 := hget cur ext hc
    generalize hm1 : copies (buf cur) (cols L) (copies (buf cur) (rows L) m) = m1
    have hw : ∀ x y, x < L.sx + 2 → y < L.sy + 2 →
        m1 (buf cur) (pos x y) = cell (b (wrap L.sx x - 1) (wrap L.sy y - 1)) := by
      intro x y h1 h2
      obtain ⟨h3, h4⟩ := wrap_pos hL.sx h1
      obtain ⟨h5, h6⟩ := wrap_pos hL.sy h2
      rw [← hm1, borders_at hL h1 h2]
      have := hb (wrap L.sx x - 1) (wrap L.sy y - 1) (by omega) (by omega)
      rw [Nat.sub_add_cancel h3, Nat.sub_add_cancel h5] at this
      exact this
    have hb1 : Holds L m1 (buf cur) b := by
      intro x y h1 h2
      rw [hw _ _ (by omega) (by omega)]
      simp [wrap, Nat.ne_of_lt h1, Nat.ne_of_lt h2]
    obtain ⟨ext', he, ht⟩ := tiles_run (L := L) (cur := cur) (next := (cur + 1) % L.nb) (r := buf cur)
      (r' := buf ((cur + 1) % L.nb)) (l := L.starts) (starts_bound hL)
      (k := fun e' => L.loop enc fin g ((cur + 1) % L.nb) e' (rs.length + 2 + L.starts.length) (fr ++ [frame L enc b]))
      (env := L.env ++ (ext ++ [.field (wholeG (buf cur) false)])) (rs := rs ++ [0] ++ [frame L enc b]) (m := m1)
      (hget _ _ hc) (hget _ _ hn)
    obtain ⟨m', h1, h2⟩ := ih ((cur + 1) % L.nb) (ext := ext ++ [.field (wholeG (buf cur) false)] ++ ext')
      (rs := rs ++ [0] ++ [frame L enc b] ++ List.replicate L.starts.length 0) (fr := fr ++ [frame L enc b])
      (m := chunk (buf cur) (buf ((cur + 1) % L.nb)) (L.starts.flatMap fun p => cells L p.1 p.2) m1) hn (chunks_next hL hne hw)
    refine ⟨m', ?_, ?_⟩
    · unfold loop
      simp only [GCode.run, List.filterMap_cons, hg1, List.filterMap_nil, borders_run hL, hm1, Option.bind_some, narrow_read]
      have e1 : (L.env ++ ext ++ [AGuard.field (wholeG (buf cur) false)])[L.nb + ext.length]? =
          some (.field (wholeG (buf cur) false)) := by
        rw [← hlen, ← List.length_append, List.getElem?_append_right (Nat.le_refl _), Nat.sub_self]
        rfl
      simp only [e1, print_run hL hb1]
      have e2 : (rs ++ [0] ++ [frame L enc b]).getD (rs.length + 1) 0 = frame L enc b := by
        simp [List.getD]
      rw [e2]
      have e3 : (L.env ++ (ext ++ [AGuard.field (wholeG (buf cur) false)])).length = L.nb + ext.length + 1 := by
        simp [hlen]; omega
      rw [e3] at ht
      rw [List.append_assoc L.env ext, ht]
      have e4 : L.nb + ext.length + 1 + 3 * L.starts.length = L.nb + (ext ++ [AGuard.field (wholeG (buf cur) false)] ++ ext').length := by
        simp [he]; omega
      have e5 : rs.length + 2 + L.starts.length = (rs ++ [0] ++ [frame L enc b] ++ List.replicate L.starts.length 0).length := by
        simp only [List.length_append, List.length_replicate, List.length_cons, List.length_nil]
      rw [e4, e5]
      rw [show L.env ++ (ext ++ [AGuard.field (wholeG (buf cur) false)]) ++ ext' =
        L.env ++ (ext ++ [AGuard.field (wholeG (buf cur) false)] ++ ext') by simp, h1]
      congr 2
      rw [frames, frames, List.range_succ_eq_map, List.map_cons, List.map_map, List.append_assoc]
      simp only [List.singleton_append, generation, Function.comp_def, generation_next, Nat.succ_eq_add_one]
    · rw [generation_next] at h2
      rw [Nat.mod_add_mod, Nat.add_assoc, Nat.add_comm 1 g] at h2
      exact h2

theorem main_run (hL : Ok L) (b0 : Nat → Nat → Bool) (enc fin : List Nat → Nat) (m : Objs) :
    ∃ m', (L.main b0 enc fin).run L.env [] m = (fin (frames L enc (fun x y => b0 (x + 1) (y + 1)) L.gens), m') ∧
      Holds L m' (buf (L.gens % L.nb)) (generation L.sx L.sy (fun x y => b0 (x + 1) (y + 1)) L.gens) := by
  have hnb := hL.nb
  obtain ⟨m1, h1, h2⟩ := fill_run hL b0 (buf 0) m
  obtain ⟨m2, h3, h4⟩ := loop_run hL (enc := enc) (fin := fin) L.gens 0 (ext := []) (rs := [0]) (fr := []) (by omega) h2
  rw [Nat.zero_add] at h4
  refine ⟨m2, ?_, h4⟩
  simp only [List.append_nil, List.length_nil, List.length_cons, Nat.add_zero, Nat.zero_add, List.nil_append] at h3
  simp only [main, GCode.run, List.filterMap_cons, env_get (L := L) (i := 0) (by omega), List.filterMap_nil, h1]
  exact h3

/-! ### What the compiler checks -/

/-- type of a buffer -/
def bufTy (i : Nat) (w : Bool) : GTy := ⟨buf i, some 2, w⟩

theorem fits (i : Nat) (w : Bool) (x y : Nat) : (bufTy i w).Fits (pos x y) := rfl

theorem fill_leafy (b0 : Nat → Nat → Bool) (i : Nat) : Leafy (L.fill b0) [bufTy i true] :=
  .each (.ret 0) fun _ _ _ hk => .put rfl (fits i true _ _) rfl fun _ => hk

theorem copy_leafy {i x y x' y' : Nat} {k : GCode} (hk : Leafy k [bufTy i true]) :
    Leafy (copy (pos x y) (pos x' y') k) [bufTy i true] :=
  .get rfl (fits i true _ _) fun _ => .put rfl (fits i true _ _) rfl fun _ => hk

theorem borders_leafy (i : Nat) : Leafy L.borders [bufTy i true] :=
  .each (.each (.ret 0) fun _ _ _ hk => copy_leafy (copy_leafy hk)) fun _ _ _ hk => copy_leafy (copy_leafy hk)

theorem print_leafy (enc : List Nat → Nat) (i : Nat) : Leafy (L.print enc) [bufTy i false] := by
  refine .reads (τ := bufTy i false) rfl (fun p hp => ?_) fun _ => .ret _
  simp only [shown, List.mem_map] at hp
  obtain ⟨q, -, rfl⟩ := hp
  exact fits i false _ _

theorem tile_leafy (x y i j : Nat) : Leafy (L.tile x y) [bufTy i true, bufTy j false] := by
  refine .each (.ret 0) fun p _ k hk => ?_
  refine .reads (τ := bufTy j false) rfl (fun q hq => ?_) fun vs => ?_
  · simp only [List.mem_cons, List.not_mem_nil, or_false] at hq
    rcases hq with rfl | rfl | rfl | rfl | rfl | rfl | rfl | rfl <;> exact fits j false _ _
  · have hp : ∀ v, Leafy (.put 0 (pos (x + p.1) (y + p.2)) v fun _ => k) [bufTy i true, bufTy j false] :=
      fun v => .put rfl (fits i true _ _) rfl fun _ => hk
    dsimp only
    split
    · exact hp _
    · split
      · exact hp _
      · exact .get rfl (fits j false _ _) fun _ => hp _

theorem tiles_busy {cur next : Nat} (hne : cur ≠ next) {l : List (Nat × Nat)} {k : Nat → GCode} {Γ : List GTy} {t n : Nat}
    (hc : Γ[cur]? = some (bufTy cur true)) (hn : Γ[next]? = some (bufTy next true))
    (hk : ∀ ext : List GTy, ext.length = 3 * l.length →
      Busy (k (Γ.length + 3 * l.length)) (Γ ++ ext) (t + l.length) n) :
    Busy (L.tiles cur next l Γ.length k) Γ t (n + l.length) := by
  induction l generalizing Γ t with
  | nil => simpa [tiles] using hk [] rfl
  | cons p l ih =>
    obtain ⟨x, y⟩ := p
    have hlt := (List.getElem?_eq_some_iff.1 hc).1
    have hlt' := (List.getElem?_eq_some_iff.1 hn).1
    refine .narrow hn (τ' := bufTy next true) rfl ?_
    refine .narrow (τ := bufTy cur true) (τ' := bufTy cur false) (by rw [List.getElem?_append_left hlt]; exact hc) rfl ?_
    refine .narrow (τ := bufTy cur false) (τ' := bufTy cur false) (by simp) rfl ?_
    refine .call (n := n + l.length) (Δ := [bufTy next true, bufTy cur false]) (by simp) ?_ (tile_leafy _ _ _ _) ?_
    · simp only [List.map_cons, List.map_nil, bufTy, List.nodup_cons, List.mem_singleton, List.not_mem_nil, not_false_iff,
        List.nodup_nil, and_true]
      intro e
      exact hne (congrArg Res.addr e).symm
    · have := ih (Γ := Γ ++ [bufTy next true] ++ [bufTy cur false] ++ [bufTy cur false]) (t := t + 1)
        (by simp only [List.append_assoc]; rw [List.getElem?_append_left hlt]; exact hc)
        (by simp only [List.append_assoc]; rw [List.getElem?_append_left hlt']; exact hn) (by
          intro ext he
          have := hk ([bufTy next true] ++ [bufTy cur false] ++ [bufTy cur false] ++ ext) (by simp [he]; omega)
          simp only [List.length_append, List.length_cons, List.length_nil, List.append_assoc] at this ⊢
          rw [show Γ.length + (0 + 1 + (0 + 1 + (0 + 1))) + 3 * l.length = Γ.length + 3 * (l.length + 1) by omega,
            show t + 1 + l.length = t + (l.length + 1) by omega]
          exact this)
      simpa only [List.length_append, List.length_cons, List.length_nil, Nat.add_assoc] using this

theorem loop_busy (hL : Ok L) {enc fin : List Nat → Nat} : ∀ (g cur : Nat) {ext : List GTy} {t : Nat} {fr : List Nat},
    cur < L.nb → Busy (L.loop enc fin g cur (L.nb + ext.length) t fr) (L.env.map AGuard.ty ++ ext) t
      (g * (L.starts.length + 2)) := by
  intro g
  induction g with
  | zero => intro cur ext t fr _; exact .all (.ret _)
  | succ g ih =>
    intro cur ext t fr hc
    have hlen : (L.env.map AGuard.ty).length = L.nb := by simp [env]
    have hnb := hL.nb
    have hn : (cur + 1) % L.nb < L.nb := Nat.mod_lt _ (by omega)
    have hne : cur ≠ (cur + 1) % L.nb := by
      intro e
      by_cases h : cur + 1 < L.nb
      · rw [Nat.mod_eq_of_lt h] at e
        omega
      · have : cur + 1 = L.nb := by omega
        rw [this, Nat.mod_self] at e
        omega
    have hget : ∀ i ext, i < L.nb → (L.env.map AGuard.ty ++ ext)[i]? = some (bufTy i true) := by
      intro i ext h
      rw [List.getElem?_append_left (by omega), List.getElem?_map, env_get h]
      rfl
    have hg1 := hget cur ext hc
    unfold loop
    rw [show (g + 1) * (L.starts.length + 2) = g * (L.starts.length + 2) + L.starts.length + 1 + 1 by
      rw [Nat.succ_mul]; omega]
    refine .call (Δ := [bufTy cur true]) (by simp [hg1]) (by simp) (borders_leafy _) ?_
    refine .narrow hg1 (τ' := bufTy cur false) rfl ?_
    refine .call (Δ := [bufTy cur false]) ?_ (by simp) (print_leafy _ _) ?_
    · have : (L.env.map AGuard.ty ++ ext ++ [bufTy cur false])[L.nb + ext.length]? = some (bufTy cur false) := by
        rw [← hlen, ← List.length_append, List.getElem?_append_right (Nat.le_refl _), Nat.sub_self]
        rfl
      simp only [List.map_cons, List.map_nil, this]
    · refine .fut (by omega) fun v => ?_
      have e : L.nb + ext.length + 1 = (L.env.map AGuard.ty ++ ext ++ [bufTy cur false]).length := by
        simp only [List.length_append, hlen, List.length_cons, List.length_nil]
      rw [e]
      refine tiles_busy hne ?_ ?_ fun ext' he => ?_
      · rw [List.append_assoc]; exact hget _ _ hc
      · rw [List.append_assoc]; exact hget _ _ hn
      · have := ih ((cur + 1) % L.nb) (ext := ext ++ [bufTy cur false] ++ ext') (t := t + 1 + 1 + L.starts.length)
          (fr := fr ++ [v]) hn
        simp only [List.length_append, hlen, List.length_cons, List.length_nil, he, List.append_assoc] at this ⊢
        simpa only [Nat.add_assoc, Nat.reduceAdd, show ∀ a, 1 + (1 + a) = 2 + a from fun a => by omega] using this

theorem main_busy (hL : Ok L) (b0 : Nat → Nat → Bool) (enc fin : List Nat → Nat) :
    Busy (L.main b0 enc fin) (L.env.map AGuard.ty) 0 (L.gens * (L.starts.length + 2) + 1) := by
  have hnb := hL.nb
  refine .call (Δ := [bufTy 0 true]) ?_ (by simp) (fill_leafy _ _) ?_
  · simp only [List.map_cons, List.map_nil, List.getElem?_map, env_get (L := L) (i := 0) (by omega)]
    rfl
  · have := loop_busy hL (enc := enc) (fin := fin) L.gens 0 (ext := []) (t := 0 + 1) (fr := []) (by omega)
    simpa using this

theorem starts_length : L.starts.length = L.tx * L.ty := by
  simp [starts, grid]

end RG.Dyn.Life
