import Mathlib.Data.Set.Card
import Verif.Model.SharedPtr
/-
Lemmas for C95.
-/
namespace RG.SP

/-- the shared pointers to chunk `x` -/
def holders (cell : Cell → Option Nat) (x : Nat) : Set Cell := {h | cell h = some x}

theorem add_one_cancel {a b : ℕ∞} (h : a + 1 = b + 1) : a = b := by
  have := ENat.add_left_injective_of_ne_top (n := 1) (by decide) h
  exact this

theorem mem_holders {cell : Cell → Option Nat} {x : Nat} {h : Cell} : h ∈ holders cell x ↔ cell h = some x := Iff.rfl

/-- an empty shared pointer gets a value -/
theorem holders_set {cell : Cell → Option Nat} {c : Cell} (hc : cell c = none) (y x : Nat) :
    (holders (upd cell c (some y)) x).encard = (holders cell x).encard + if x = y then 1 else 0 := by
  by_cases e : x = y
  · subst e
    have : holders (upd cell c (some x)) x = insert c (holders cell x) := by
      ext h
      rw [mem_holders, Set.mem_insert_iff, mem_holders]
      by_cases hh : h = c
      · subst hh; simp
      · rw [upd_ne _ _ hh]; simp [hh]
    rw [this, if_pos rfl, Set.encard_insert_of_notMem]
    rw [mem_holders, hc]; simp
  · have : holders (upd cell c (some y)) x = holders cell x := by
      ext h
      rw [mem_holders, mem_holders]
      by_cases hh : h = c
      · subst hh; simp [hc, Ne.symm e]
      · rw [upd_ne _ _ hh]
    rw [this, if_neg e, add_zero]

/-- a shared pointer becomes empty -/
theorem holders_clear {cell : Cell → Option Nat} {c : Cell} {y : Nat} (hc : cell c = some y) (x : Nat) :
    (holders (upd cell c none) x).encard + (if x = y then 1 else 0) = (holders cell x).encard := by
  have h := holders_set (cell := upd cell c none) (c := c) (by simp) y x
  have e : upd (upd cell c none) c (some y) = cell := by
    funext h
    by_cases hh : h = c
    · subst hh; simp [hc]
    · rw [upd_ne _ _ hh, upd_ne _ _ hh]
  rw [e] at h
  exact h.symm

theorem upd_self {cell : Cell → Option Nat} {c : Cell} {v : Option Nat} (h : cell c = v) : upd cell c v = cell := by
  funext x
  by_cases hh : x = c
  · subst hh; simp [h]
  · rw [upd_ne _ _ hh]

/-- a value moves from one shared pointer to an empty one -/
theorem holders_move {cell : Cell → Option Nat} {c d : Cell} (hd : cell d = none) (hcd : c ≠ d) (x : Nat) :
    (holders (upd (upd cell d (cell c)) c none) x).encard = (holders cell x).encard := by
  cases hc : cell c with
  | none => rw [upd_self hd, upd_self hc]
  | some y =>
    have h1 := holders_set hd y x
    have h2 := holders_clear (cell := upd cell d (some y)) (c := c) (y := y) (by rw [upd_ne _ _ hcd, hc]) x
    rw [h1] at h2
    split at h2
    · exact add_one_cancel h2
    · simpa using h2

structure Core (s : State) : Prop where
  cnt : ∀ x, (holders s.cell x).encard = s.rc x
  pos : ∀ x, s.rc x ≠ 0 ↔ (x < s.n ∧ s.freed x = false)
  fresh : ∀ x, s.n ≤ x → s.freed x = false ∧ s.cell (.prev x) = none
  dead : ∀ x, s.freed x = true → s.cell (.prev x) = none
  nofault : s.fault = false
  nodup : s.log.Nodup
  log : ∀ x, x ∈ s.log ↔ s.freed x = true

variable {s : State} {t : Nat}

theorem Core.held (h : Core s) {c : Cell} {x : Nat} (hc : s.cell c = some x) : s.rc x ≠ 0 := by
  intro e
  have := h.cnt x
  rw [e] at this
  have : holders s.cell x = ∅ := by simpa using this
  have h1 : c ∈ holders s.cell x := hc
  rw [this] at h1
  exact h1

theorem Core.live (h : Core s) {c : Cell} {x : Nat} (hc : s.cell c = some x) : x < s.n ∧ s.freed x = false :=
  (h.pos x).1 (h.held hc)

theorem Core.init : Core init where
  cnt x := by simp [SP.init, holders]
  pos x := by simp [SP.init]
  fresh x _ := ⟨rfl, rfl⟩
  dead x h := by cases h
  nofault := rfl
  nodup := List.nodup_nil
  log x := by simp [SP.init]

theorem Core.goto (h : Core s) (p : Pc) : Core (s.goto t p) := ⟨h.cnt, h.pos, h.fresh, h.dead, h.nofault, h.nodup, h.log⟩

theorem touch_eq (h : s.fault = false) {v : Option Nat} (hv : ∀ x, v = some x → s.freed x = false) : s.touch v = s := by
  cases v with
  | none => rfl
  | some x =>
    have : (s.fault || s.freed x) = s.fault := by rw [hv x rfl, h]; rfl
    unfold State.touch
    simp only [this]

theorem Core.touch (h : Core s) {v : Option Nat} (hv : v = none ∨ ∃ c, s.cell c = v) : s.touch v = s := by
  refine touch_eq h.nofault fun x e => ?_
  rcases hv with hv | ⟨c, hv⟩
  · rw [hv] at e; cases e
  · exact (h.live (hv.trans e)).2

theorem clear_prev {dst : Cell} {y : Nat} (hy : s.cell (.prev y) = none) : (s.clear t dst).cell (.prev y) = none := by
  unfold State.clear
  dsimp only
  by_cases e : Cell.prev y = dst
  · rw [e]; simp
  · rw [upd_ne _ _ e, upd_ne _ _ (by simp)]; exact hy

theorem Core.clear (h : Core s) (hd : s.cell (.reg t .drop) = none) {dst : Cell} (hdst : dst ≠ .reg t .drop) :
    Core (s.clear t dst) where
  cnt x := by
    unfold State.clear
    dsimp only
    rw [holders_move hd hdst, h.cnt]
  pos := h.pos
  fresh x hx := ⟨(h.fresh x hx).1, clear_prev (h.fresh x hx).2⟩
  dead x hx := clear_prev (h.dead x hx)
  nofault := h.nofault
  nodup := h.nodup
  log := h.log

theorem Core.assign (h : Core s) (hd : s.cell (.reg t .drop) = none) {dst : Cell} (hdst : dst ≠ .reg t .drop)
    {v : Option Nat} (hv : v = none ∨ ∃ c, s.cell c = v) (hp : ∀ y, dst = .prev y → y < s.n ∧ s.freed y = false) :
    Core (s.assign t dst v) := by
  have hc := h.clear hd hdst
  unfold State.assign
  rw [h.touch hv]
  have hrc : (s.clear t dst).rc = s.rc := rfl
  refine ⟨fun x => ?_, fun x => ?_, fun x hx => ⟨(h.fresh x hx).1, ?_⟩, fun x hx => ?_, h.nofault, h.nodup, h.log⟩
  · dsimp only
    have hn : (s.clear t dst).cell dst = none := by simp [State.clear]
    cases v with
    | none => rw [upd_self hn, hc.cnt]; rfl
    | some y =>
      rw [holders_set hn, hc.cnt, hrc]
      show _ = ((upd s.rc y (s.rc y + 1) x : Nat) : ℕ∞)
      by_cases e : x = y
      · subst e; simp
      · rw [upd_ne _ _ e, if_neg e, add_zero]
  · have := h.pos x
    cases v with
    | none => exact this
    | some y =>
      show upd s.rc y (s.rc y + 1) x ≠ 0 ↔ _
      by_cases e : x = y
      · subst e
        rcases hv with hv | ⟨c, hv⟩
        · cases hv
        · have h1 := h.held hv
          rw [upd_same]
          exact ⟨fun _ => this.1 h1, fun _ => by omega⟩
      · rw [upd_ne _ _ e]; exact this
  · dsimp only
    rw [upd_ne]
    · exact clear_prev (h.fresh x hx).2
    · intro e
      have h1 := (hp x e.symm).1
      change s.n ≤ x at hx
      omega
  · dsimp only
    rw [upd_ne]
    · exact clear_prev (h.dead x hx)
    · intro e
      have h1 := (hp x e.symm).2
      change s.freed x = true at hx
      rw [h1] at hx; cases hx

theorem Core.create (h : Core s) (hd : s.cell (.reg t .nw) = none) : Core (s.create t) := by
  have hn : holders s.cell s.n = ∅ := by
    have h1 : s.rc s.n = 0 := by
      by_contra e
      have := ((h.pos _).1 e).1
      omega
    have := h.cnt s.n
    rw [h1] at this
    simpa using this
  have h1 : s.rc s.n = 0 := by
    by_contra e
    have := ((h.pos _).1 e).1
    omega
  unfold State.create
  refine ⟨fun x => ?_, fun x => ?_, fun x hx => ?_, fun x hx => ?_, h.nofault, h.nodup, h.log⟩
  · dsimp only
    rw [holders_set hd, h.cnt]
    by_cases e : x = s.n
    · subst e; simp [h1]
    · rw [upd_ne _ _ e, if_neg e, add_zero]
  · dsimp only
    have := h.pos x
    by_cases e : x = s.n
    · subst e
      rw [upd_same]
      exact ⟨fun _ => ⟨by omega, (h.fresh _ (Nat.le_refl _)).1⟩, fun _ => by omega⟩
    · rw [upd_ne _ _ e, this]
      constructor <;> rintro ⟨a, b⟩ <;> exact ⟨by omega, b⟩
  · dsimp only at hx ⊢
    rw [upd_ne _ _ (by simp)]
    exact h.fresh x (by omega)
  · dsimp only at hx ⊢
    rw [upd_ne _ _ (by simp)]
    exact h.dead x hx

theorem Core.release (h : Core s) {x : Nat} (hd : s.cell (.reg t .drop) = some x) : Core (s.release t x) := by
  have hl := h.live hd
  have h0 := h.held hd
  unfold State.release
  rw [h.touch (.inr ⟨_, hd⟩)]
  dsimp only
  have hcl := holders_clear hd
  split
  · rename_i h1
    have h1' : s.rc x = 1 := by omega
    refine ⟨fun z => ?_, fun z => ?_, fun z hz => ?_, fun z hz => ?_, h.nofault, ?_, fun z => ?_⟩
    · have e : upd (upd s.cell (.reg t .drop) (s.cell (.prev x))) (.prev x) none =
          upd (upd (upd s.cell (.reg t .drop) none) (.reg t .drop) (upd s.cell (.reg t .drop) none (.prev x))) (.prev x) none := by
        rw [upd_ne _ _ (show Cell.prev x ≠ .reg t .drop by simp)]
        congr 1
        funext c
        by_cases hc : c = .reg t .drop
        · subst hc; simp
        · rw [upd_ne _ _ hc, upd_ne _ _ hc, upd_ne _ _ hc]
      dsimp only
      rw [e, holders_move (by simp) (by simp)]
      have h2 := hcl z
      rw [h.cnt] at h2
      by_cases hz : z = x
      · subst hz
        rw [if_pos rfl, h1'] at h2
        rw [upd_same]
        have : (holders (upd s.cell (.reg t .drop) none) z).encard + 1 = 0 + 1 := by simpa using h2
        exact add_one_cancel this
      · rw [if_neg hz, add_zero] at h2
        rw [upd_ne _ _ hz, h2]
    · dsimp only
      by_cases hz : z = x
      · subst hz; simp
      · rw [upd_ne _ _ hz, upd_ne _ _ hz]; exact h.pos z
    · dsimp only at hz ⊢
      have hzx : z ≠ x := by omega
      rw [upd_ne _ _ hzx, upd_ne _ _ (by simpa using hzx), upd_ne _ _ (by simp)]
      exact h.fresh z hz
    · dsimp only at hz ⊢
      by_cases e : z = x
      · subst e; simp
      · rw [upd_ne _ _ e] at hz
        rw [upd_ne _ _ (by simpa using e), upd_ne _ _ (by simp)]
        exact h.dead z hz
    · refine List.nodup_cons.2 ⟨fun e => ?_, h.nodup⟩
      have := (h.log x).1 e
      rw [hl.2] at this; cases this
    · dsimp only
      by_cases e : z = x
      · subst e; simp
      · rw [upd_ne _ _ e, List.mem_cons, ← h.log z]; simp [e]
  · rename_i h1
    refine ⟨fun z => ?_, fun z => ?_, fun z hz => ?_, fun z hz => ?_, h.nofault, h.nodup, h.log⟩
    · dsimp only
      have h2 := hcl z
      rw [h.cnt] at h2
      by_cases hz : z = x
      · subst hz
        rw [if_pos rfl] at h2
        rw [upd_same]
        have : (holders (upd s.cell (.reg t .drop) none) z).encard + 1 = ((s.rc z - 1 : Nat) : ℕ∞) + 1 := by
          rw [h2]
          have : s.rc z = s.rc z - 1 + 1 := by omega
          conv_lhs => rw [this]
          simp
        exact add_one_cancel this
      · rw [if_neg hz, add_zero] at h2
        rw [upd_ne _ _ hz, h2]
    · dsimp only
      by_cases hz : z = x
      · subst hz
        rw [upd_same]
        exact ⟨fun _ => hl, fun _ => by omega⟩
      · rw [upd_ne _ _ hz]; exact h.pos z
    · dsimp only at hz ⊢
      rw [upd_ne _ _ (by simp)]
      exact h.fresh z hz
    · dsimp only at hz ⊢
      rw [upd_ne _ _ (by simp)]
      exact h.dead z hz

theorem Core.unique (h : Core s) {x : Nat} (hx : s.rc x ≤ 1) {c d : Cell} (hc : s.cell c = some x) (hd : s.cell d = some x) :
    c = d := by
  have : (holders s.cell x).encard ≤ 1 := by rw [h.cnt]; exact_mod_cast hx
  exact Set.encard_le_one_iff.1 this c d hc hd

theorem clear_cell {dst h : Cell} :
    (s.clear t dst).cell h = if h = dst then none else if h = .reg t .drop then s.cell dst else s.cell h := rfl

theorem create_cell {h : Cell} : (s.create t).cell h = if h = .reg t .nw then some s.n else s.cell h := rfl

theorem goto_cell {p : Pc} : (s.goto t p).cell = s.cell := rfl

theorem goto_rank {p : Pc} : (s.goto t p).rank = s.rank := rfl

theorem assign_cell {dst h : Cell} {v : Option Nat} :
    (s.assign t dst v).cell h = if h = dst then v else if h = .reg t .drop then s.cell dst else s.cell h := by
  unfold State.assign
  show upd ((s.touch v).clear t dst).cell dst v h = _
  have e : (s.touch v).cell = s.cell := by cases v <;> rfl
  by_cases hh : h = dst
  · subst hh; simp
  · rw [upd_ne _ _ hh, clear_cell, if_neg hh, if_neg hh, e]

theorem assign_rank {dst : Cell} {v : Option Nat} : (s.assign t dst v).rank = s.rank := by
  cases v <;> rfl
theorem assign_len {dst : Cell} {v : Option Nat} : (s.assign t dst v).len = s.len := by
  cases v <;> rfl
theorem assign_n {dst : Cell} {v : Option Nat} : (s.assign t dst v).n = s.n := by
  cases v <;> rfl
theorem assign_pc {dst : Cell} {v : Option Nat} : (s.assign t dst v).pc = s.pc := by
  cases v <;> rfl

/-- the order of the chunks -/
structure Ord (s : State) : Prop where
  ranked : ∀ h x, s.cell h = some x → (∀ t, h ≠ .reg t .nw ∧ h ≠ .reg t .drop) → s.rank x ≠ none
  lt : ∀ x r, s.rank x = some r → r < s.len
  prev : ∀ y x, s.cell (.prev y) = some x → ∃ r, s.rank x = some r ∧ ∀ r', s.rank y = some r' → r < r'
  uniq : ∀ t u x, s.cell (.reg t .nw) = some x → s.cell (.reg u .nw) = some x → t = u
  fresh : ∀ x, s.n ≤ x → s.rank x = none

theorem Ord.init : Ord init := by
  refine ⟨?_, ?_, ?_, ?_, ?_⟩ <;> intros <;> simp_all [SP.init]

theorem Ord.clear (h : Ord s) {dst : Cell} : Ord (s.clear t dst) where
  ranked c x hc hn := by
    rw [clear_cell] at hc
    split at hc
    · cases hc
    · rw [if_neg (hn t).2] at hc
      exact h.ranked c x hc hn
  lt := h.lt
  prev y x hc := by
    rw [clear_cell] at hc
    split at hc
    · cases hc
    · rw [if_neg (by simp)] at hc
      exact h.prev y x hc
  uniq a b x ha hb := by
    rw [clear_cell] at ha hb
    split at ha
    · cases ha
    · split at hb
      · cases hb
      · rw [if_neg (by simp)] at ha hb
        exact h.uniq a b x ha hb
  fresh := h.fresh

theorem Ord.assign (h : Ord s) {dst : Cell} {v : Option Nat} (hn : ∀ u, dst ≠ .reg u .nw) (hv : ∀ x, v = some x → s.rank x ≠ none)
    (hp : ∀ y x, dst = .prev y → v = some x → ∃ r, s.rank x = some r ∧ ∀ r', s.rank y = some r' → r < r') :
    Ord (s.assign t dst v) where
  ranked c x hc hn := by
    rw [assign_cell] at hc
    rw [assign_rank]
    split at hc
    · exact hv x hc
    · rw [if_neg (hn t).2] at hc
      exact h.ranked c x hc hn
  lt := by rw [assign_rank, assign_len]; exact h.lt
  prev y x hc := by
    rw [assign_cell] at hc
    rw [assign_rank]
    split at hc
    · rename_i e
      exact hp y x e.symm hc
    · rw [if_neg (by simp)] at hc
      exact h.prev y x hc
  uniq a b x ha hb := by
    rw [assign_cell, if_neg (hn _).symm, if_neg (by simp)] at ha hb
    exact h.uniq a b x ha hb
  fresh := by rw [assign_rank, assign_n]; exact h.fresh

theorem Ord.create (h : Ord s) (hc : Core s) : Ord (s.create t) where
  ranked c x hx hn := by
    rw [create_cell, if_neg (hn t).1] at hx
    exact h.ranked c x hx hn
  lt := h.lt
  prev y x hx := by
    rw [create_cell, if_neg (by simp)] at hx
    exact h.prev y x hx
  uniq a b x ha hb := by
    rw [create_cell] at ha hb
    by_cases e1 : a = t
    · by_cases e2 : b = t
      · rw [e1, e2]
      · rw [if_pos (by rw [e1])] at ha
        rw [if_neg (by simpa using e2)] at hb
        have := (hc.live hb).1
        cases ha; omega
    · rw [if_neg (by simpa using e1)] at ha
      by_cases e2 : b = t
      · rw [if_pos (by rw [e2])] at hb
        have := (hc.live ha).1
        cases hb; omega
      · rw [if_neg (by simpa using e2)] at hb
        exact h.uniq a b x ha hb
  fresh x hx := by
    change s.n + 1 ≤ x at hx
    exact h.fresh x (by omega)

theorem release_cell {x : Nat} {h : Cell} (hh : h ≠ .reg t .drop) (hp : ¬ (h = .prev x ∧ s.rc x ≤ 1)) :
    (s.release t x).cell h = s.cell h := by
  unfold State.release
  dsimp only
  split
  · rename_i h1
    dsimp only
    rw [upd_ne _ _ (fun e => hp ⟨e, h1⟩), upd_ne _ _ hh]
  · dsimp only
    rw [upd_ne _ _ hh]

theorem release_cell_sub {x y : Nat} {h : Cell} (hh : h ≠ .reg t .drop) (hy : (s.release t x).cell h = some y) :
    s.cell h = some y := by
  by_cases e : h = .prev x ∧ s.rc x ≤ 1
  · exfalso
    unfold State.release at hy
    dsimp only at hy
    rw [if_pos e.2, e.1] at hy
    simp at hy
  · rwa [release_cell hh e] at hy

theorem release_rank {x : Nat} : (s.release t x).rank = s.rank := by unfold State.release; dsimp only; split <;> rfl
theorem release_len {x : Nat} : (s.release t x).len = s.len := by unfold State.release; dsimp only; split <;> rfl
theorem release_n {x : Nat} : (s.release t x).n = s.n := by unfold State.release; dsimp only; split <;> rfl
theorem release_pc {x : Nat} : (s.release t x).pc = s.pc := by unfold State.release; dsimp only; split <;> rfl

theorem Ord.release (h : Ord s) {x : Nat} : Ord (s.release t x) where
  ranked c y hc hn := by
    rw [release_rank]
    exact h.ranked c y (release_cell_sub (hn t).2 hc) hn
  lt := by rw [release_rank, release_len]; exact h.lt
  prev z y hc := by
    rw [release_rank]
    exact h.prev z y (release_cell_sub (by simp) hc)
  uniq a b y ha hb := h.uniq a b y (release_cell_sub (by simp) ha) (release_cell_sub (by simp) hb)
  fresh := by rw [release_rank, release_n]; exact h.fresh

/-- chunk `y` is appended -/
def State.setRank (s : State) (y : Nat) : State := { s with len := s.len + 1, rank := upd s.rank y (some s.len) }

theorem Ord.setRank (h : Ord s) {y : Nat} (hy : s.rank y = none) (hn : y < s.n) : Ord (s.setRank y) := by
  have key : ∀ x r, s.rank x = some r → upd s.rank y (some s.len) x = some r := by
    intro x r hx
    rw [upd_ne _ _ (by rintro rfl; rw [hy] at hx; cases hx), hx]
  refine ⟨fun c x hc hn => ?_, fun x r hx => ?_, fun z x hz => ?_, h.uniq, fun x hx => ?_⟩
  · cases hx : s.rank x with
    | none => exact absurd hx (h.ranked c x hc hn)
    | some r => show upd s.rank y _ x ≠ none; rw [key x r hx]; simp
  · change upd s.rank y _ x = some r at hx
    show r < s.len + 1
    by_cases e : x = y
    · subst e; rw [upd_same] at hx; cases hx; omega
    · rw [upd_ne _ _ e] at hx
      have := h.lt x r hx
      omega
  · obtain ⟨r, h1, h2⟩ := h.prev z x hz
    refine ⟨r, key x r h1, fun r' hr' => ?_⟩
    change upd s.rank y _ z = some r' at hr'
    by_cases e : z = y
    · subst e; rw [upd_same] at hr'; cases hr'; exact h.lt x r h1
    · rw [upd_ne _ _ e] at hr'
      exact h2 r' hr'
  · change s.n ≤ x at hx
    show upd s.rank y _ x = none
    rw [upd_ne _ _ (by omega)]
    exact h.fresh x hx

/-- what a thread holds at the places in the code -/
def PcOk (s : State) (t : Nat) : Prop :=
  match s.pc t with
  | .idle => s.cell (.reg t .p) = none ∧ s.cell (.reg t .nw) = none ∧ s.cell (.reg t .old) = none
  | .appLoad | .appStore | .appCas =>
    s.cell (.reg t .p) = none ∧ ∃ y, s.cell (.reg t .nw) = some y ∧ s.rank y = none
  | .firstCas => s.cell (.reg t .p) = none ∧ ∃ y, s.cell (.reg t .nw) = some y ∧ s.rank y = none
  | .appEnd => s.cell (.reg t .p) = none
  | .appEnd2 => s.cell (.reg t .p) = none ∧ s.cell (.reg t .old) = none
  | .skLoad k _ | .adv k => s.cell (.reg t .p) = none ∧ s.cell (.reg t .nw) = none ∧ s.cell (.reg t .old) = none ∧
    ∃ c, s.cell (.reg t (.it k)) = some c
  | .skTest k _ | .skNext k _ | .skStore k _ => s.cell (.reg t .nw) = none ∧ s.cell (.reg t .old) = none ∧
    ∃ c r', s.cell (.reg t (.it k)) = some c ∧ s.rank c = some r' ∧
      ∀ q, s.cell (.reg t .p) = some q → ∃ r, s.rank q = some r ∧ r < r'
  | .skEnd k _ => s.cell (.reg t .nw) = none ∧ s.cell (.reg t .old) = none ∧ ∃ c, s.cell (.reg t (.it k)) = some c
  | .advCopy k q => s.cell (.reg t .p) = none ∧ s.cell (.reg t .nw) = none ∧ s.cell (.reg t .old) = none ∧
    ∃ c, s.cell (.reg t (.it k)) = some c ∧ s.cell (.prev c) = q

theorem PcOk.frame {s' : State} {u : Nat} (h : PcOk s u) (hc : ∀ r, r ≠ .drop → s'.cell (.reg u r) = s.cell (.reg u r))
    (hp : s'.pc u = s.pc u) (hr : ∀ x r, s.rank x = some r → s'.rank x = some r)
    (hn : ∀ y, s.cell (.reg u .nw) = some y → s.rank y = none → s'.rank y = none ∨ s.pc u = .appEnd ∨ s.pc u = .appEnd2)
    (ha : ∀ k q c, s.pc u = .advCopy k q → s.cell (.reg u (.it k)) = some c → s'.cell (.prev c) = s.cell (.prev c)) :
    PcOk s' u := by
  have c1 := hc .p (by simp)
  have c2 := hc .nw (by simp)
  have c3 := hc .old (by simp)
  have c4 := fun k => hc (.it k) (by simp)
  unfold PcOk at h ⊢
  rw [hp]
  rw [c1, c2, c3]
  split at h <;> try simp only [c4]
  · exact h
  · obtain ⟨h1, y, h2, h3⟩ := h
    rename_i e
    exact ⟨h1, y, h2, by rcases hn y h2 h3 with h | h | h <;> first | exact h | (rw [e] at h; cases h)⟩
  · obtain ⟨h1, y, h2, h3⟩ := h
    rename_i e
    exact ⟨h1, y, h2, by rcases hn y h2 h3 with h | h | h <;> first | exact h | (rw [e] at h; cases h)⟩
  · obtain ⟨h1, y, h2, h3⟩ := h
    rename_i e
    exact ⟨h1, y, h2, by rcases hn y h2 h3 with h | h | h <;> first | exact h | (rw [e] at h; cases h)⟩
  · obtain ⟨h1, y, h2, h3⟩ := h
    rename_i e
    exact ⟨h1, y, h2, by rcases hn y h2 h3 with h | h | h <;> first | exact h | (rw [e] at h; cases h)⟩
  · exact h
  · exact h
  · exact h
  · exact h
  · obtain ⟨h1, h2, c, r', h3, h4, h5⟩ := h
    exact ⟨h1, h2, c, r', h3, hr _ _ h4, fun q hq => by obtain ⟨r, h6, h7⟩ := h5 q hq; exact ⟨r, hr _ _ h6, h7⟩⟩
  · obtain ⟨h1, h2, c, r', h3, h4, h5⟩ := h
    exact ⟨h1, h2, c, r', h3, hr _ _ h4, fun q hq => by obtain ⟨r, h6, h7⟩ := h5 q hq; exact ⟨r, hr _ _ h6, h7⟩⟩
  · obtain ⟨h1, h2, c, r', h3, h4, h5⟩ := h
    exact ⟨h1, h2, c, r', h3, hr _ _ h4, fun q hq => by obtain ⟨r, h6, h7⟩ := h5 q hq; exact ⟨r, hr _ _ h6, h7⟩⟩
  · exact h
  · obtain ⟨h1, h2, h3, c, h4, h5⟩ := h
    rename_i k q e
    exact ⟨h1, h2, h3, c, h4, (ha k q c e h4).trans h5⟩

structure Inv (s : State) : Prop where
  core : Core s
  ord : Ord s
  pcs : ∀ t, PcOk s t

theorem Inv.init : Inv init := ⟨Core.init, Ord.init, fun t => by simp [PcOk, SP.init]⟩

theorem Inv.release (h : Inv s) {x : Nat} (hd : s.cell (.reg t .drop) = some x) : Inv (s.release t x) := by
  refine ⟨h.core.release hd, h.ord.release, fun u => ?_⟩
  refine (h.pcs u).frame (fun r hr => release_cell (by simp [hr]) (by simp)) (by rw [release_pc])
    (by rw [release_rank]; exact fun _ _ h => h) (by rw [release_rank]; exact fun _ _ h => .inl h) ?_
  intro k q c hp hc
  refine release_cell (by simp) fun e => ?_
  have e1 : c = x := by simpa using e.1
  subst e1
  have := h.core.unique e.2 hd hc
  simp at this

theorem Inv.assign (h : Inv s) (hd : s.cell (.reg t .drop) = none) {dst : Cell} {v : Option Nat} {p : Pc}
    (hdst : (∃ r, r ≠ .drop ∧ r ≠ .nw ∧ dst = .reg t r) ∨ dst = .head ∨ ∃ y, dst = .prev y)
    (hv : v = none ∨ ∃ c, s.cell c = v) (hvr : ∀ x, v = some x → s.rank x ≠ none)
    (hp : ∀ y, dst = .prev y → (y < s.n ∧ s.freed y = false) ∧
      ∀ x, v = some x → ∃ r, s.rank x = some r ∧ ∀ r', s.rank y = some r' → r < r')
    (hrace : ∀ u k q c, u ≠ t → s.pc u = .advCopy k q → s.at' u k = some c → dst ≠ .prev c)
    (hpc : PcOk ((s.assign t dst v).goto t p) t) : Inv ((s.assign t dst v).goto t p) := by
  have hne : dst ≠ .reg t .drop := by
    rintro rfl
    rcases hdst with ⟨r, h1, -, h2⟩ | h1 | ⟨y, h1⟩
    · simp at h2; exact h1 h2.symm
    · cases h1
    · cases h1
  have hnw : ∀ u, dst ≠ .reg u .nw := by
    rintro u rfl
    rcases hdst with ⟨r, -, h1, h2⟩ | h1 | ⟨y, h1⟩
    · simp at h2; exact h1 h2.2.symm
    · cases h1
    · cases h1
  refine ⟨(h.core.assign hd hne hv fun y hy => (hp y hy).1).goto _, ?_, fun u => ?_⟩
  · have := h.ord.assign (t := t) hnw hvr fun y x hy => (hp y hy).2 x
    exact ⟨this.ranked, this.lt, this.prev, this.uniq, this.fresh⟩
  · by_cases hu : u = t
    · subst hu; exact hpc
    · have hru : ∀ r, dst ≠ .reg u r := by
        rintro r rfl
        rcases hdst with ⟨r', -, -, h2⟩ | h1 | ⟨y, h1⟩
        · simp at h2; exact hu h2.1
        · cases h1
        · cases h1
      refine (h.pcs u).frame (fun r hr => ?_) ?_ ?_ ?_ ?_
      · show (s.assign t dst v).cell _ = _
        rw [assign_cell, if_neg (hru r).symm, if_neg (by simp [hu])]
      · show upd (s.assign t dst v).pc t p u = _
        rw [upd_ne _ _ hu, assign_pc]
      · show ∀ x r, _ → (s.assign t dst v).rank x = _
        rw [assign_rank]; exact fun _ _ h => h
      · show ∀ y, _ → _ → (s.assign t dst v).rank y = _ ∨ _
        rw [assign_rank]; exact fun _ _ h => .inl h
      · intro k q c h1 h2
        show (s.assign t dst v).cell _ = _
        rw [assign_cell, if_neg (hrace u k q c hu h1 h2).symm, if_neg (by simp)]

theorem Inv.clear (h : Inv s) (hd : s.cell (.reg t .drop) = none) {r : Reg} {p : Pc} (hr : r ≠ .drop)
    (hpc : PcOk ((s.clear t (.reg t r)).goto t p) t) : Inv ((s.clear t (.reg t r)).goto t p) := by
  refine ⟨(h.core.clear hd (by simpa using hr)).goto _, ?_, fun u => ?_⟩
  · have := h.ord.clear (t := t) (dst := .reg t r)
    exact ⟨this.ranked, this.lt, this.prev, this.uniq, this.fresh⟩
  · by_cases hu : u = t
    · subst hu; exact hpc
    · refine (h.pcs u).frame (fun r hr => ?_) ?_ ?_ ?_ ?_
      · rw [goto_cell, clear_cell, if_neg (by simp [hu]), if_neg (by simp [hu])]
      · show upd s.pc t p u = _
        rw [upd_ne _ _ hu]
      · exact fun _ _ h => h
      · exact fun _ _ h => .inl h
      · intro k q c h1 h2
        rw [goto_cell, clear_cell, if_neg (by simp), if_neg (by simp)]

theorem Inv.goto (h : Inv s) {p : Pc} (hpc : PcOk (s.goto t p) t) : Inv (s.goto t p) := by
  refine ⟨h.core.goto _, ⟨h.ord.ranked, h.ord.lt, h.ord.prev, h.ord.uniq, h.ord.fresh⟩, fun u => ?_⟩
  by_cases hu : u = t
  · subst hu; exact hpc
  · refine (h.pcs u).frame (fun r hr => rfl) ?_ (fun _ _ h => h) (fun _ _ h => .inl h) fun _ _ _ _ _ => rfl
    show upd s.pc t p u = _
    rw [upd_ne _ _ hu]

theorem goto_self {p : Pc} (h : s.pc t = p) : s.goto t p = s := by
  unfold State.goto
  have : upd s.pc t p = s.pc := by
    funext x
    by_cases e : x = t
    · subst e; simp [h]
    · rw [upd_ne _ _ e]
  rw [this]

theorem goto_pc {p : Pc} : (s.goto t p).pc t = p := by simp [State.goto]

theorem Inv.create (h : Inv s) (hi : s.pc t = .idle) {p : Pc} (hp : p = .appLoad ∨ p = .firstCas) :
    Inv ((s.create t).goto t p) := by
  have hi' := h.pcs t
  unfold PcOk at hi'
  rw [hi] at hi'
  obtain ⟨h1, h2, h3⟩ := hi'
  refine ⟨(h.core.create h2).goto _, ?_, fun u => ?_⟩
  · have := h.ord.create (t := t) h.core
    exact ⟨this.ranked, this.lt, this.prev, this.uniq, this.fresh⟩
  · by_cases hu : u = t
    · subst hu
      have e : ∀ c : Cell, ((s.create u).goto u p).cell c = upd s.cell (.reg u .nw) (some s.n) c := fun _ => rfl
      have f : ((s.create u).goto u p).rank = s.rank := rfl
      unfold PcOk
      rw [goto_pc]
      rcases hp with rfl | rfl <;> dsimp only <;> rw [e, e, f, upd_same, upd_ne _ _ (by simp)] <;>
        exact ⟨h1, s.n, rfl, h.ord.fresh _ (Nat.le_refl _)⟩
    · refine (h.pcs u).frame (fun r hr => ?_) ?_ (fun _ _ h => h) (fun _ _ h => .inl h) fun _ _ _ _ _ => ?_
      · rw [goto_cell, create_cell, if_neg (by simp [hu])]
      · show upd s.pc t p u = _
        rw [upd_ne _ _ hu]
      · rw [goto_cell, create_cell, if_neg (by simp)]

theorem Inv.erase (h : Inv s) {d : Nat → Bool} : Inv { s with deleted := d } :=
  ⟨⟨h.core.cnt, h.core.pos, h.core.fresh, h.core.dead, h.core.nofault, h.core.nodup, h.core.log⟩,
    ⟨h.ord.ranked, h.ord.lt, h.ord.prev, h.ord.uniq, h.ord.fresh⟩,
    fun u => (h.pcs u).frame (fun _ _ => rfl) rfl (fun _ _ h => h) (fun _ _ h => .inl h) fun _ _ _ _ _ => rfl⟩

/-- a successful compare-and-swap of `head` -/
theorem Inv.push (h : Inv s) (hd : s.cell (.reg t .drop) = none) (hi : s.pc t = .appCas ∨ s.pc t = .firstCas) {y : Nat}
    (hy : s.cell (.reg t .nw) = some y) :
    Inv { (s.assign t .head (some y)).goto t .appEnd with len := s.len + 1, rank := upd s.rank y (some s.len) } := by
  have hi' := h.pcs t
  have h1 : s.cell (.reg t .p) = none ∧ s.rank y = none := by
    unfold PcOk at hi'
    rcases hi with hi | hi <;> rw [hi] at hi' <;> obtain ⟨h1, y', h2, h3⟩ := hi' <;> rw [hy] at h2 <;> cases h2 <;>
      exact ⟨h1, h3⟩
  have key : ∀ x r, s.rank x = some r → upd s.rank y (some s.len) x = some r := by
    intro x r hx
    rw [upd_ne _ _ (by rintro rfl; rw [h1.2] at hx; cases hx), hx]
  have hc : Core (s.setRank y) := ⟨h.core.cnt, h.core.pos, h.core.fresh, h.core.dead, h.core.nofault, h.core.nodup, h.core.log⟩
  have ho := h.ord.setRank h1.2 (h.core.live hy).1
  have e : { (s.assign t .head (some y)).goto t .appEnd with len := s.len + 1, rank := upd s.rank y (some s.len) } =
      ((s.setRank y).assign t .head (some y)).goto t .appEnd := rfl
  rw [e]
  refine ⟨(hc.assign hd (by simp) (.inr ⟨_, hy⟩) (by simp)).goto _, ?_, fun u => ?_⟩
  · have := ho.assign (t := t) (dst := .head) (v := some y) (by simp)
      (by rintro x ⟨⟩; show upd s.rank y _ y ≠ none; simp) (by simp)
    exact ⟨this.ranked, this.lt, this.prev, this.uniq, this.fresh⟩
  · by_cases hu : u = t
    · subst hu
      unfold PcOk
      rw [goto_pc]
      dsimp only
      rw [goto_cell, assign_cell, if_neg (by simp), if_neg (by simp)]
      exact h1.1
    · refine (h.pcs u).frame (fun r hr => ?_) ?_ ?_ ?_ ?_
      · rw [goto_cell, assign_cell, if_neg (by simp), if_neg (by simp [hu])]
        rfl
      · show upd ((s.setRank y).assign t .head (some y)).pc t _ u = _
        rw [upd_ne _ _ hu, assign_pc]
        rfl
      · exact key
      · intro z hz hr
        left
        show upd s.rank y _ z = none
        rw [upd_ne, hr]
        rintro rfl
        exact hu (h.ord.uniq u t z hz hy)
      · intro k q c h1 h2
        rw [goto_cell, assign_cell, if_neg (by simp), if_neg (by simp)]
        rfl

theorem Core.touchPrev (h : Core s) {v : Option Nat} : (s.prevOf v) = none ∨ ∃ c, s.cell c = s.prevOf v := by
  cases v with
  | none => exact .inl rfl
  | some x => exact .inr ⟨.prev x, rfl⟩

/-- the value of any shared pointer except `new_head` is a chunk that has been appended -/
theorem Inv.rk (h : Inv s) {c : Cell} (hc : ∀ t, c ≠ .reg t .nw ∧ c ≠ .reg t .drop) (x : Nat) (hx : s.cell c = some x) :
    s.rank x ≠ none := h.ord.ranked c x hx hc

theorem Inv.rkPrev (h : Inv s) {v : Option Nat} (x : Nat) (hx : s.prevOf v = some x) : s.rank x ≠ none := by
  cases v with
  | none => cases hx
  | some y => exact h.ord.ranked (.prev y) x hx (by simp)

theorem Inv.step {plain : Bool} {a : Act} {s' : State} (h : Inv s) (hs : step plain t a s = some s') (hr : noRace s t a) :
    Inv s' := by
  unfold SP.step at hs
  split at hs
  · rename_i x hd
    split at hs
    · cases hs; exact h.release hd
    · cases hs
  rename_i hd
  have hpc := h.pcs t
  unfold PcOk at hpc
  split at hs
  -- append, first
  · rename_i hp; cases hs; exact h.create hp (.inl rfl)
  · rename_i hp; cases hs; exact h.create hp (.inr rfl)
  -- rbegin
  · rename_i k hp
    rw [hp] at hpc
    cases hs
    rw [← goto_self (s := s.assign t (.reg t (.it k)) (s.cell .head)) (t := t) (p := .idle) (by rw [assign_pc, hp])]
    refine h.assign hd (.inl ⟨_, by simp, by simp, rfl⟩) (.inr ⟨_, rfl⟩) (h.rk (by simp)) (by simp) (by simp) ?_
    unfold PcOk; rw [goto_pc]
    simpa [goto_cell, assign_cell] using hpc
  -- copy
  · rename_i k u j hp
    rw [hp] at hpc
    split at hs
    · cases hs
      rw [← goto_self (s := s.assign t (.reg t (.it k)) (s.at' u j)) (t := t) (p := .idle) (by rw [assign_pc, hp])]
      refine h.assign hd (.inl ⟨_, by simp, by simp, rfl⟩) (.inr ⟨_, rfl⟩) (h.rk (by simp)) (by simp) (by simp) ?_
      unfold PcOk; rw [goto_pc]
      simpa [goto_cell, assign_cell] using hpc
    · cases hs
  -- erase
  · rename_i k hp
    split at hs
    · rename_i x hx
      cases hs
      rw [h.core.touch (.inr ⟨_, hx⟩)]
      exact h.erase
    · cases hs
  -- deref
  · rename_i k hp
    cases hs
    rw [h.core.touch (v := s.at' t k) (.inr ⟨_, rfl⟩)]
    exact h
  -- next
  · rename_i k hp
    rw [hp] at hpc
    split at hs
    · cases hs; exact h
    · rename_i hx
      cases hs
      refine h.goto ?_
      unfold PcOk; rw [goto_pc]
      obtain ⟨c, hc⟩ := Option.ne_none_iff_exists'.1 hx
      exact ⟨hpc.1, hpc.2.1, hpc.2.2, c, hc⟩
  -- optimize
  · rename_i k hp
    rw [hp] at hpc
    split at hs
    · cases hs; exact h
    · rename_i hx
      cases hs
      refine h.goto ?_
      unfold PcOk; rw [goto_pc]
      obtain ⟨c, hc⟩ := Option.ne_none_iff_exists'.1 hx
      exact ⟨hpc.1, hpc.2.1, hpc.2.2, c, hc⟩
  -- fin
  · rename_i k hp
    rw [hp] at hpc
    cases hs
    rw [← goto_self (s := s.clear t (.reg t (.it k))) (t := t) (p := .idle) hp]
    refine h.clear hd (by simp) ?_
    unfold PcOk; rw [goto_pc]
    simpa [goto_cell, clear_cell] using hpc
  -- appLoad
  · rename_i hp
    rw [hp] at hpc
    cases hs
    refine h.assign hd (.inl ⟨_, by simp, by simp, rfl⟩) (.inr ⟨_, rfl⟩) (h.rk (by simp)) (by simp) (by simp) ?_
    unfold PcOk; rw [goto_pc]
    simpa [goto_cell, assign_cell, goto_rank, assign_rank] using hpc
  -- appStore
  · rename_i hp
    rw [hp] at hpc
    split at hs
    · rename_i y hy
      have hy' := h.core.live hy
      cases hs
      rw [h.core.touch (.inr ⟨_, hy⟩)]
      have hyn : s.rank y = none := by
        obtain ⟨-, z, h1, h2⟩ := hpc
        rw [hy] at h1; cases h1; exact h2
      refine h.assign hd (.inr (.inr ⟨_, rfl⟩)) (.inr ⟨_, rfl⟩) (h.rk (by simp)) ?_ ?_ ?_
      · rintro z ⟨⟩
        refine ⟨hy', fun x hx => ?_⟩
        obtain ⟨r, hr⟩ := Option.ne_none_iff_exists'.1 (h.rk (by simp) x hx)
        exact ⟨r, hr, fun r' e => by rw [hyn] at e; cases e⟩
      · rintro u k q c hu h1 h2 e
        cases e
        exact (hr u k q y hu h1 h2 hd).1 ⟨hp, hy⟩
      · unfold PcOk; rw [goto_pc]
        simpa [goto_cell, assign_cell, goto_rank, assign_rank] using hpc
    · cases hs
  -- appCas
  · rename_i hp
    split at hs
    · split at hs
      · rename_i y hy
        cases hs
        exact h.push hd (.inl hp) hy
      · cases hs
    · rw [hp] at hpc
      cases hs
      refine h.assign hd (.inl ⟨_, by simp, by simp, rfl⟩) (.inr ⟨_, rfl⟩) (h.rk (by simp)) (by simp) (by simp) ?_
      unfold PcOk; rw [goto_pc]
      simpa [goto_cell, assign_cell, goto_rank, assign_rank] using hpc
  -- firstCas
  · rename_i hp
    split at hs
    · split at hs
      · rename_i y hy
        cases hs
        exact h.push hd (.inr hp) hy
      · cases hs
    · rw [hp] at hpc
      cases hs
      refine h.assign hd (.inl ⟨_, by simp, by simp, rfl⟩) (.inr ⟨_, rfl⟩) (h.rk (by simp)) (by simp) (by simp) ?_
      unfold PcOk; rw [goto_pc]
      simpa [goto_cell, assign_cell] using hpc.1
  -- appEnd, appEnd2
  · rename_i hp
    rw [hp] at hpc
    cases hs
    refine h.clear hd (by simp) ?_
    unfold PcOk; rw [goto_pc]
    simpa [goto_cell, clear_cell] using hpc
  · rename_i hp
    rw [hp] at hpc
    cases hs
    refine h.clear hd (by simp) ?_
    unfold PcOk; rw [goto_pc]
    simpa [goto_cell, clear_cell] using hpc
  -- skLoad
  · rename_i k adv hp
    rw [hp] at hpc
    obtain ⟨h1, h2, h3, c, h4⟩ := hpc
    cases hs
    rw [h.core.touch (v := s.at' t k) (.inr ⟨_, rfl⟩)]
    have h4' : s.at' t k = some c := h4
    obtain ⟨r', hr'⟩ := Option.ne_none_iff_exists'.1 (h.rk (c := .reg t (.it k)) (by simp) c h4)
    refine h.assign hd (.inl ⟨_, by simp, by simp, rfl⟩) h.core.touchPrev h.rkPrev (by simp) (by simp) ?_
    unfold PcOk; rw [goto_pc]
    dsimp only
    simp only [goto_cell, assign_cell, goto_rank, assign_rank]
    refine ⟨by simpa using h2, by simpa using h3, c, r', by simpa using h4, hr', fun q hq => ?_⟩
    rw [if_pos trivial, h4'] at hq
    obtain ⟨r, h5, h6⟩ := h.ord.prev c q hq
    exact ⟨r, h5, h6 r' hr'⟩
  -- skTest
  · rename_i k adv hp
    rw [hp] at hpc
    split at hs
    · rename_i q hq
      cases hs
      rw [h.core.touch (.inr ⟨_, hq⟩)]
      refine h.goto ?_
      unfold PcOk; rw [goto_pc]
      cases s.deleted q <;> exact hpc
    · cases hs
      refine h.goto ?_
      unfold PcOk; rw [goto_pc]
      exact hpc
  -- skNext
  · rename_i k adv hp
    rw [hp] at hpc
    obtain ⟨h2, h3, c, r', h4, h5, h6⟩ := hpc
    cases hs
    rw [h.core.touch (.inr ⟨_, rfl⟩)]
    refine h.assign hd (.inl ⟨_, by simp, by simp, rfl⟩) h.core.touchPrev h.rkPrev (by simp) (by simp) ?_
    unfold PcOk; rw [goto_pc]
    dsimp only
    simp only [goto_cell, assign_cell, goto_rank, assign_rank]
    refine ⟨by simpa using h2, by simpa using h3, c, r', by simpa using h4, h5, fun q hq => ?_⟩
    rw [if_pos trivial] at hq
    cases hz : s.cell (.reg t .p) with
    | none => rw [hz] at hq; cases hq
    | some z =>
      rw [hz] at hq
      obtain ⟨r, h7, h8⟩ := h.ord.prev z q hq
      obtain ⟨r2, h9, h10⟩ := h6 z hz
      have := h8 r2 h9
      exact ⟨r, h7, by omega⟩
  -- skStore
  · rename_i k adv hp
    rw [hp] at hpc
    split at hs
    · rename_i c hc
      obtain ⟨h2, h3, c', r', h4, h5, h6⟩ := hpc
      have : c' = c := by
        have : s.cell (.reg t (.it k)) = some c := hc
        rw [h4] at this; cases this; rfl
      subst this
      cases hs
      rw [h.core.touch (.inr ⟨_, hc⟩)]
      refine h.assign hd (.inr (.inr ⟨_, rfl⟩)) (.inr ⟨_, rfl⟩) (h.rk (by simp)) ?_ ?_ ?_
      · rintro z ⟨⟩
        refine ⟨h.core.live hc, fun x hx => ?_⟩
        obtain ⟨r, h7, h8⟩ := h6 x hx
        exact ⟨r, h7, fun r2 e => by rw [h5] at e; cases e; exact h8⟩
      · rintro u k' q c hu h7 h8 e
        cases e
        exact (hr u k' q _ hu h7 h8 hd).2 k adv ⟨hp, hc⟩
      · unfold PcOk; rw [goto_pc]
        dsimp only
        simp only [goto_cell, assign_cell]
        exact ⟨by simpa using h2, by simpa using h3, c', by simpa using h4⟩
    · cases hs
  -- skEnd
  · rename_i k adv hp
    rw [hp] at hpc
    obtain ⟨h2, h3, c, h4⟩ := hpc
    cases hs
    refine h.clear hd (by simp) ?_
    unfold PcOk; rw [goto_pc]
    cases adv
    · rw [if_neg (by simp)]
      simp only [goto_cell, clear_cell]
      exact ⟨by simp, by simpa using h2, by simpa using h3⟩
    · rw [if_pos rfl]
      dsimp only
      simp only [goto_cell, clear_cell]
      exact ⟨by simp, by simpa using h2, by simpa using h3, c, by simpa using h4⟩
  -- adv
  · rename_i k hp
    rw [hp] at hpc
    obtain ⟨h1, h2, h3, c, h4⟩ := hpc
    have h4' : s.at' t k = some c := h4
    split at hs
    · cases hs
      rw [h.core.touch (v := s.at' t k) (.inr ⟨_, rfl⟩)]
      refine h.goto ?_
      unfold PcOk; rw [goto_pc]
      refine ⟨h1, h2, h3, c, h4, ?_⟩
      rw [h4']; rfl
    · cases hs
      rw [h.core.touch (v := s.at' t k) (.inr ⟨_, rfl⟩)]
      refine h.assign hd (.inl ⟨_, by simp, by simp, rfl⟩) h.core.touchPrev h.rkPrev (by simp) (by simp) ?_
      unfold PcOk; rw [goto_pc]
      dsimp only
      simp only [goto_cell, assign_cell]
      exact ⟨by simpa using h1, by simpa using h2, by simpa using h3⟩
  -- advCopy
  · rename_i k q hp
    rw [hp] at hpc
    obtain ⟨h1, h2, h3, c, h4, h5⟩ := hpc
    cases hs
    refine h.assign hd (.inl ⟨_, by simp, by simp, rfl⟩) (.inr ⟨_, h5⟩) (fun x hx => h.rk (c := .prev c) (by simp) x (h5.trans hx))
      (by simp) (by simp) ?_
    unfold PcOk; rw [goto_pc]
    dsimp only
    simp only [goto_cell, assign_cell]
    exact ⟨by simpa using h1, by simpa using h2, by simpa using h3⟩
  · cases hs

theorem Inv.reach {plain : Bool} (h : Reach plain noRace s) : Inv s := by
  induction h with
  | init => exact Inv.init
  | step _ hs ho ih => exact ih.step hs ho

theorem touch_pc {v : Option Nat} : (s.touch v).pc = s.pc := by cases v <;> rfl

theorem goto_pcs {p : Pc} : (s.goto t p).pc = upd s.pc t p := rfl

theorem upd_pc : upd s.pc t (s.pc t) = s.pc := by
  funext x
  by_cases e : x = t
  · subst e; simp
  · rw [upd_ne _ _ e]

/-- a step changes the place of its own thread only; the middle of line 243 is not reached if it is atomic -/
theorem step_pc {a : Act} {s' : State} (hs : step false t a s = some s') :
    ∃ p, s'.pc = upd s.pc t p ∧ ∀ k q, p = .advCopy k q → s.pc t = .advCopy k q := by
  unfold SP.step at hs
  split at hs
  · split at hs
    · cases hs; exact ⟨s.pc t, by rw [release_pc, upd_pc], fun _ _ h => h⟩
    · cases hs
  · split at hs <;> (try split at hs) <;> (try split at hs) <;> cases hs <;>
      first
      | (rename_i hf; exact absurd hf (by decide))
      | exact ⟨_, by simp only [goto_pcs, touch_pc, assign_pc] <;> rfl, by simp⟩
      | exact ⟨s.pc t, by simp only [touch_pc, assign_pc, upd_pc, State.clear], fun _ _ h => h⟩
      | (refine ⟨_, by simp only [goto_pcs, touch_pc, assign_pc] <;> rfl, ?_⟩; split <;> simp)

theorem step_pc' {plain : Bool} {a : Act} {s' : State} (hs : step plain t a s = some s') : ∃ p, s'.pc = upd s.pc t p := by
  unfold SP.step at hs
  split at hs
  · split at hs
    · cases hs; exact ⟨s.pc t, by rw [release_pc, upd_pc]⟩
    · cases hs
  · split at hs <;> (try split at hs) <;> (try split at hs) <;> cases hs <;>
      first
      | exact ⟨_, by simp only [goto_pcs, touch_pc, assign_pc] <;> rfl⟩
      | exact ⟨s.pc t, by simp only [touch_pc, assign_pc, upd_pc, State.clear]⟩

theorem run_reach {plain : Bool} {l : List (Nat × Act)} {s s' : State} (h : Reach plain anyOrder s)
    (hr : run plain l s = some s') : Reach plain anyOrder s' := by
  induction l generalizing s with
  | nil => cases hr; exact h
  | cons a l ih =>
    obtain ⟨t, a⟩ := a
    simp only [run, Option.bind_eq_some_iff] at hr
    obtain ⟨s1, h1, h2⟩ := hr
    exact ih (.step h h1 trivial) h2

/-- one thread alone has no race -/
theorem run_solo {plain : Bool} {l : List Act} {s s' : State} (h : Reach plain noRace s) (hi : ∀ u, u ≠ t → s.pc u = .idle)
    (hr : run plain (l.map fun a => (t, a)) s = some s') : Reach plain noRace s' := by
  induction l generalizing s with
  | nil => cases hr; exact h
  | cons a l ih =>
    simp only [List.map_cons, run, Option.bind_eq_some_iff] at hr
    obtain ⟨s1, h1, h2⟩ := hr
    obtain ⟨p, hp⟩ := step_pc' h1
    refine ih (.step h h1 ?_) (fun u hu => ?_) h2
    · intro u k q c hu hq
      rw [hi u hu] at hq; cases hq
    · rw [hp, upd_ne _ _ hu]; exact hi u hu

theorem Core.log_le (h : Core s) : s.log.length ≤ s.n := by
  have h1 : s.log ⊆ List.range s.n := by
    intro x hx
    have h2 := (h.log x).1 hx
    rw [List.mem_range]
    by_contra hn
    have := (h.fresh x (by omega)).1
    rw [h2] at this; cases this
  have := (h.nodup.subperm h1).length_le
  simpa using this

theorem Inv.releases {plain : Bool} (hi : Inv s) : ∃ k s', k ≤ s.n - s.log.length + 1 ∧
    run plain (List.replicate k (t, .go)) s = some s' ∧ s'.cell (.reg t .drop) = none ∧ s'.pc = s.pc := by
  generalize hm : s.n - s.log.length = m
  induction m using Nat.strongRecOn generalizing s with
  | _ m ih =>
    cases hd : s.cell (.reg t .drop) with
    | none => exact ⟨0, s, by omega, rfl, hd, rfl⟩
    | some x =>
      have hs : SP.step plain t .go s = some (s.release t x) := by
        unfold SP.step
        rw [hd]
        simp
      have hi' := hi.release hd
      by_cases hx : s.rc x ≤ 1
      · have e1 : (s.release t x).log = x :: s.log := by unfold State.release; dsimp only; rw [if_pos hx]
        have e2 : (s.release t x).n = s.n := release_n
        have hl := hi'.core.log_le
        rw [e1, e2, List.length_cons] at hl
        obtain ⟨k, s', h1, h2, h3, h4⟩ := ih (s.n - (s.log.length + 1)) (by omega) hi' (by rw [e1, e2, List.length_cons])
        refine ⟨k + 1, s', by omega, ?_, h3, h4.trans release_pc⟩
        rw [List.replicate_succ, run, hs]
        exact h2
      · refine ⟨1, s.release t x, by omega, ?_, ?_, release_pc⟩
        · rw [List.replicate_one, run, hs]; rfl
        · unfold State.release; dsimp only; rw [if_neg hx]; simp

theorem Inv.reachAtomic (h : Reach false anyOrder s) : Inv s ∧ ∀ u k q, s.pc u ≠ .advCopy k q := by
  induction h with
  | init => exact ⟨Inv.init, fun u k q h => by cases h⟩
  | @step s s' t a _ hs _ ih =>
    refine ⟨ih.1.step hs fun u k q c _ h => absurd h (ih.2 u k q), fun u k q h => ?_⟩
    obtain ⟨p, h1, h2⟩ := step_pc hs
    rw [h1] at h
    by_cases hu : u = t
    · subst hu
      rw [upd_same] at h
      exact ih.2 u k q (h2 k q h)
    · rw [upd_ne _ _ hu] at h
      exact ih.2 u k q h

end RG.SP
