import Verif.Model.WeakLock
import Mathlib.Data.List.Chain
/-
Lemmas for C94.
-/
namespace RG.WL

theorem VC.le_join_left (v w : VC) (t : Nat) : v t ≤ v.join w t := Nat.le_max_left _ _
theorem VC.le_join_right (v w : VC) (t : Nat) : w t ≤ v.join w t := Nat.le_max_right _ _

theorem State.le_tick (s : State) (t u : Nat) : s.vw t u ≤ s.tick t u := by
  unfold State.tick
  by_cases h : u = t
  · subst h; rw [upd_same]; omega
  · rw [upd_ne _ _ h]

theorem State.tick_self (s : State) (t : Nat) : s.tick t t = s.vw t t + 1 := by simp [State.tick]

/-- The values of a lock: they alternate, and `true` is stored by read-modify-write operations only. -/
def Alt (l : List Msg) : Prop := List.IsChain (fun a b : Msg => b.val = !a.val ∧ b.rmw = b.val) l

theorem Alt.next {pre post : List Msg} {m : Msg} (h : Alt (pre ++ m :: post)) (hv : m.val = false)
    (hr : ∀ m' ∈ post.head?, m'.rmw = false) : post = [] := by
  cases post with
  | nil => rfl
  | cons b l =>
    have h1 := (List.isChain_append.1 h).2.1
    have h2 := (List.isChain_cons_cons.1 h1).1
    have h3 := hr b rfl
    rw [h2.2, h2.1, hv] at h3
    cases h3

theorem Alt.snoc {pre : List Msg} {m m' : Msg} (h : Alt (pre ++ [m])) (h1 : m'.val = !m.val) (h2 : m'.rmw = m'.val) :
    Alt (pre ++ [m, m']) := by
  rw [show pre ++ [m, m'] = (pre ++ [m]) ++ [m'] by simp]
  refine List.isChain_append.2 ⟨h, .singleton _, ?_⟩
  intro x hx y hy
  simp at hx hy
  subst hx hy
  exact ⟨h1, h2⟩

theorem append_of_last {α : Type} {l : List α} {a : α} (h : l.getLast? = some a) : ∃ p, l = p ++ [a] := by
  obtain ⟨h1, h2⟩ := List.getLast?_eq_some_iff.1 h
  exact ⟨h1, h2⟩

/-- everything that has been done to object `x` -/
def Within (s : State) (x : Nat) (v : VC) : Prop :=
  (∀ w ∈ s.hist x, w.time ≤ v w.by') ∧ ∀ r ∈ s.reads x, r.2 ≤ v r.1

theorem Within.mono {s : State} {x : Nat} {v w : VC} (h : Within s x v) (hv : ∀ t, v t ≤ w t) : Within s x w :=
  ⟨fun a ha => Nat.le_trans (h.1 a ha) (hv _), fun a ha => Nat.le_trans (h.2 a ha) (hv _)⟩

/-- every earlier `unlock()` of lock `l`, and what has happened before it -/
def Before (s : State) (l : Nat) (v : VC) : Prop := ∀ m ∈ s.lk l, m.val = false → m.time ≤ v m.by' ∧ ∀ u, m.view u ≤ v u

theorem Before.mono {s : State} {l : Nat} {v w : VC} (h : Before s l v) (hv : ∀ t, v t ≤ w t) : Before s l w :=
  fun m hm hf => ⟨Nat.le_trans (h m hm hf).1 (hv _), fun u => Nat.le_trans ((h m hm hf).2 u) (hv u)⟩

structure Inv (own : Nat → Nat) (m0 : Nat → Nat) (s : State) : Prop where
  alt : ∀ l, Alt (s.lk l)
  /-- a free lock: nobody has it, and its last value tells everything -/
  free : ∀ l m, (s.lk l).getLast? = some m → m.val = false → (∀ t, s.held t l = false) ∧ ∀ x, own x = l → Within s x m.view
  /-- a taken lock: one thread has it, and knows everything -/
  taken : ∀ l m, (s.lk l).getLast? = some m → m.val = true →
    s.held m.by' l = true ∧ (∀ t, s.held t l = true → t = m.by') ∧ m.time ≤ s.vw m.by' m.by' ∧
      ∀ x, own x = l → Within s x (s.vw m.by')
  before : ∀ l m, (s.lk l).getLast? = some m → Before s l (if m.val then s.vw m.by' else m.view)
  some' : ∀ l, s.lk l ≠ []
  hsome : ∀ x, s.hist x ≠ []
  norace : s.race = false
  sc : ∃ c, SC.run own ⟨fun _ => none, m0⟩ s.trace = some c ∧
    (∀ l t, c.holder l = some t ↔ s.held t l = true) ∧ ∀ x w, (s.hist x).getLast? = some w → w.val = c.mem x

variable {own m0 : Nat → Nat} {s s' : State}

theorem run_snoc {c : SC} {l : List Ev} {e : Ev} : SC.run own c (l ++ [e]) = (SC.run own c l).bind fun c' => c'.step own e := by
  induction l generalizing c with
  | nil =>
    simp only [List.nil_append, SC.run, Option.bind_some]
    cases c.step own e <;> rfl
  | cons a l ih =>
    simp only [List.cons_append, SC.run, Option.bind_assoc]
    congr 1
    funext c'
    exact ih

/-- what the holder of a lock knows -/
theorem Inv.held (h : Inv own m0 s) {t l : Nat} (hh : s.held t l = true) : ∃ pre m, s.lk l = pre ++ [m] ∧ m.val = true ∧
    m.by' = t ∧ m.time ≤ s.vw t t ∧ ∀ x, own x = l → Within s x (s.vw t) := by
  cases hl : (s.lk l).getLast? with
  | none => exact absurd (List.getLast?_eq_none_iff.1 hl) (h.some' l)
  | some m =>
    obtain ⟨pre, e⟩ := append_of_last hl
    cases hv : m.val with
    | false => exact absurd ((h.free l m hl hv).1 t) (by simp [hh])
    | true =>
      obtain ⟨h1, h2, h3, h4⟩ := h.taken l m hl hv
      have := h2 t hh
      subst this
      exact ⟨pre, m, e, hv, rfl, h3, h4⟩

/-- the holder stores at the end -/
theorem Inv.last (h : Inv own m0 s) {t l : Nat} (hh : s.held t l = true) {pre post : List Msg} (hm : s.lk l = pre ++ post)
    (hn : ∀ m' ∈ post, ¬ s.Knows t m'.by' m'.time) : post = [] := by
  obtain ⟨p, m, h1, -, rfl, h2, -⟩ := h.held hh
  rcases List.eq_nil_or_concat post with e | ⟨q, m', e⟩
  · exact e
  · subst e
    have : m' = m := by
      have := congrArg List.getLast? (hm.symm.trans h1)
      simpa using this
    subst this
    exact absurd h2 (hn m' (by simp))

/-- and reads the last value -/
theorem Inv.newest (h : Inv own m0 s) {t x : Nat} (hh : s.held t (own x) = true) {pre post : List Wr} (hm : s.hist x = pre ++ post)
    (hn : ∀ m' ∈ post, ¬ s.Knows t m'.by' m'.time) : post = [] := by
  obtain ⟨p, m, -, -, -, -, h2⟩ := h.held hh
  have h3 := (h2 x rfl).1
  cases post with
  | nil => rfl
  | cons a l => exact absurd (h3 a (by rw [hm]; simp)) (hn a (.head _))

theorem all_known {t x : Nat} (h : Within s x (s.vw t)) : ((s.hist x).all fun w => decide (s.Knows t w.by' w.time)) = true ∧
    ((s.reads x).all fun r => decide (s.Knows t r.1 r.2)) = true := by
  simp only [List.all_eq_true, decide_eq_true_eq]
  exact ⟨h.1, h.2⟩

theorem Inv.init : Inv own m0 (init m0) where
  alt _ := .singleton _
  free l m h hv := by
    simp [WL.init] at h
    subst h
    refine ⟨fun _ => rfl, fun x _ => ⟨?_, ?_⟩⟩
    · intro w hw
      simp [WL.init] at hw
      simp [hw]
    · intro w hw
      simp [WL.init] at hw
  taken l m h hv := by
    simp [WL.init] at h
    subst h
    cases hv
  before l m h m' hm' hv := by
    simp [WL.init] at h hm'
    subst h hm'
    exact ⟨Nat.le_refl _, fun _ => Nat.le_refl _⟩
  some' _ := by simp [WL.init]
  hsome _ := by simp [WL.init]
  norace := rfl
  sc := ⟨_, rfl, fun l t => by simp [WL.init], fun x w hw => by simp [WL.init] at hw; subst hw; rfl⟩

/-- a step that only moves a program counter or adds knowledge -/
theorem Inv.quiet (h : Inv own m0 s) {pc : Nat → Pc} {vw : Nat → VC} (hv : ∀ t u, s.vw t u ≤ vw t u) :
    Inv own m0 { s with pc := pc, vw := vw } where
  alt := h.alt
  free := h.free
  taken l m hl hm := by
    obtain ⟨h1, h2, h3, h4⟩ := h.taken l m hl hm
    exact ⟨h1, h2, Nat.le_trans h3 (hv _ _), fun x hx => (h4 x hx).mono (hv _)⟩
  before l m hl := by
    have := h.before l m hl
    revert this
    cases m.val
    · exact id
    · exact fun h => h.mono (hv _)
  some' := h.some'
  hsome := h.hsome
  norace := h.norace
  sc := h.sc

theorem Inv.step (h : Inv own m0 s) {t : Nat} (hs : Step code own t s s') : Inv own m0 s' := by
  cases hs with
  | enter hp hh => exact h.quiet (fun _ _ => Nat.le_refl _)
  | casFail hp => exact h.quiet (fun _ _ => Nat.le_refl _)
  | spinOn hp => exact h
  | spinDone hp hm hv hn => exact h.quiet (fun _ _ => Nat.le_refl _)
  | sync _ u =>
    refine h.quiet (pc := s.pc) fun t' u' => ?_
    by_cases e : t' = t
    · subst e
      rw [upd_same]
      exact Nat.le_trans (s.le_tick _ _) (VC.le_join_left _ _ _)
    · rw [upd_ne _ _ e]
  | @casOk _ _ l pre m post hp hm hv hn hr =>
    have ha := h.alt l
    rw [hm] at ha
    have := ha.next hv hr
    subst this
    have hlast : (s.lk l).getLast? = some m := by rw [hm]; simp
    obtain ⟨h1, h2⟩ := h.free l m hlast hv
    have hle : ∀ t' u, s.vw t' u ≤ upd s.vw t ((s.tick t).join m.view) t' u := by
      intro t' u
      by_cases e : t' = t
      · subst e
        rw [upd_same]
        exact Nat.le_trans (s.le_tick _ _) (VC.le_join_left _ _ _)
      · rw [upd_ne _ _ e]
    obtain ⟨c, h3, h4, h5⟩ := h.sc
    simp only [code, if_true]
    refine ⟨fun l' => ?_, fun l' m' hl hm' => ?_, fun l' m' hl hm' => ?_, fun l' m' hl => ?_, fun l' => ?_, h.hsome, h.norace, ?_⟩
    · dsimp only
      by_cases e : l' = l
      · subst e
        rw [upd_same]
        exact ha.snoc (by simp [hv]) rfl
      · rw [upd_ne _ _ e]
        exact h.alt l'
    · dsimp only at hl
      by_cases e : l' = l
      · subst e
        rw [upd_same] at hl
        simp at hl
        subst hl
        cases hm'
      · rw [upd_ne _ _ e] at hl
        obtain ⟨h6, h7⟩ := h.free l' m' hl hm'
        refine ⟨fun t' => ?_, h7⟩
        dsimp only
        by_cases e' : t' = t
        · subst e'
          rw [upd_same, upd_ne _ _ e]
          exact h6 _
        · rw [upd_ne _ _ e']
          exact h6 _
    · dsimp only at hl
      by_cases e : l' = l
      · subst e
        rw [upd_same] at hl
        simp at hl
        subst hl
        refine ⟨?_, fun t' ht' => ?_, ?_, fun x hx => ?_⟩
        · simp
        · dsimp only at ht' ⊢
          by_cases e' : t' = t
          · exact e'
          · rw [upd_ne _ _ e'] at ht'
            rw [h1 t'] at ht'
            cases ht'
        · dsimp only
          rw [upd_same, ← s.tick_self t]
          exact VC.le_join_left _ _ _
        · refine Within.mono (s := s) (h2 x hx) fun u => ?_
          dsimp only
          rw [upd_same]
          exact VC.le_join_right _ _ _
      · rw [upd_ne _ _ e] at hl
        obtain ⟨h6, h7, h8, h9⟩ := h.taken l' m' hl hm'
        refine ⟨?_, fun t' ht' => ?_, Nat.le_trans h8 (hle _ _), fun x hx => Within.mono (s := s) (h9 x hx) (hle _)⟩
        · dsimp only
          by_cases e' : m'.by' = t
          · rw [e', upd_same, upd_ne _ _ e, ← e']
            exact h6
          · rw [upd_ne _ _ e']
            exact h6
        · dsimp only at ht'
          by_cases e' : t' = t
          · subst e'
            rw [upd_same, upd_ne _ _ e] at ht'
            exact h7 _ ht'
          · rw [upd_ne _ _ e'] at ht'
            exact h7 _ ht'
    · dsimp only at hl
      by_cases e : l' = l
      · subst e
        rw [upd_same] at hl
        simp at hl
        subst hl
        have hb := h.before l' m hlast
        rw [hv] at hb
        intro m'' hm'' hv''
        dsimp only at hm''
        rw [upd_same] at hm''
        have hm3 : m'' ∈ s.lk l' := by
          rw [hm]
          simp at hm'' ⊢
          rcases hm'' with hm'' | hm'' | hm''
          · exact .inl hm''
          · exact .inr hm''
          · subst hm''
            cases hv''
        refine Before.mono (s := s) hb (fun u => ?_) m'' hm3 hv''
        simp only [if_true, upd_same]
        exact VC.le_join_right _ _ _
      · rw [upd_ne _ _ e] at hl
        have hb := h.before l' m' hl
        intro m'' hm'' hv''
        dsimp only at hm''
        rw [upd_ne _ _ e] at hm''
        cases hc : m'.val with
        | false =>
          rw [hc] at hb
          exact hb m'' hm'' hv''
        | true =>
          rw [hc] at hb
          exact hb.mono (hle _) m'' hm'' hv''
    · dsimp only
      by_cases e : l' = l
      · subst e
        rw [upd_same]
        simp
      · rw [upd_ne _ _ e]
        exact h.some' l'
    · have hfree : c.holder l = none := by
        cases hc : c.holder l with
        | none => rfl
        | some t' => exact absurd ((h4 l t').1 hc) (by simp [h1])
      refine ⟨{ c with holder := upd c.holder l (some t) }, ?_, fun l' t' => ?_, h5⟩
      · rw [run_snoc, h3]
        simp [SC.step, hfree]
      · dsimp only
        by_cases e : l' = l
        · subst e
          rw [upd_same]
          by_cases e' : t' = t
          · subst e'
            simp
          · rw [upd_ne _ _ e', h1]
            simp [Ne.symm e']
        · rw [upd_ne _ _ e, h4]
          by_cases e' : t' = t
          · subst e'
            rw [upd_same, upd_ne _ _ e]
          · rw [upd_ne _ _ e']
  | @unlock _ _ l pre post hp hh hm hn hr =>
    have := h.last hh hm hn
    subst this
    rw [List.append_nil] at hm
    obtain ⟨p, m, h1, h2, h3, h4, h5⟩ := h.held hh
    have hle : ∀ t' u, s.vw t' u ≤ upd s.vw t (s.tick t) t' u := by
      intro t' u
      by_cases e : t' = t
      · subst e
        rw [upd_same]
        exact s.le_tick _ _
      · rw [upd_ne _ _ e]
    have huniq : ∀ t', s.held t' l = true → t' = t := by
      intro t' ht'
      have := (h.taken l m (by rw [h1]; simp) h2).2.1
      exact (this t' ht').trans h3
    obtain ⟨c, h6, h7, h8⟩ := h.sc
    simp only [code, if_true]
    refine ⟨fun l' => ?_, fun l' m' hl hm' => ?_, fun l' m' hl hm' => ?_, fun l' m' hl => ?_, fun l' => ?_, h.hsome, h.norace, ?_⟩
    · dsimp only
      by_cases e : l' = l
      · subst e
        rw [upd_same, ← hm, h1]
        have ha := h.alt l'
        rw [h1] at ha
        rw [List.append_assoc]
        exact ha.snoc (by simp [h2]) rfl
      · rw [upd_ne _ _ e]
        exact h.alt l'
    · dsimp only at hl
      by_cases e : l' = l
      · subst e
        rw [upd_same] at hl
        simp at hl
        subst hl
        refine ⟨fun t' => ?_, fun x hx => Within.mono (s := s) (h5 x hx) fun u => s.le_tick t u⟩
        dsimp only
        by_cases e' : t' = t
        · subst e'
          simp
        · rw [upd_ne _ _ e']
          cases hc : s.held t' l' with
          | false => rfl
          | true => exact absurd (huniq t' hc) e'
      · rw [upd_ne _ _ e] at hl
        obtain ⟨h9, h10⟩ := h.free l' m' hl hm'
        refine ⟨fun t' => ?_, h10⟩
        dsimp only
        by_cases e' : t' = t
        · subst e'
          rw [upd_same, upd_ne _ _ e]
          exact h9 _
        · rw [upd_ne _ _ e']
          exact h9 _
    · dsimp only at hl
      by_cases e : l' = l
      · subst e
        rw [upd_same] at hl
        simp at hl
        subst hl
        cases hm'
      · rw [upd_ne _ _ e] at hl
        obtain ⟨h9, h10, h11, h12⟩ := h.taken l' m' hl hm'
        refine ⟨?_, fun t' ht' => ?_, Nat.le_trans h11 (hle _ _), fun x hx => Within.mono (s := s) (h12 x hx) (hle _)⟩
        · dsimp only
          by_cases e' : m'.by' = t
          · rw [e', upd_same, upd_ne _ _ e, ← e']
            exact h9
          · rw [upd_ne _ _ e']
            exact h9
        · dsimp only at ht'
          by_cases e' : t' = t
          · subst e'
            rw [upd_same, upd_ne _ _ e] at ht'
            exact h10 _ ht'
          · rw [upd_ne _ _ e'] at ht'
            exact h10 _ ht'
    · dsimp only at hl
      by_cases e : l' = l
      · subst e
        rw [upd_same] at hl
        simp at hl
        subst hl
        have hb := h.before l' m (by rw [h1]; simp)
        rw [h2, if_pos rfl, h3] at hb
        intro m'' hm'' hv''
        dsimp only at hm'' ⊢
        rw [upd_same] at hm''
        simp only [Bool.false_eq_true, if_false]
        rcases List.mem_append.1 hm'' with hm'' | hm''
        · rw [← hm] at hm''
          exact hb.mono (s.le_tick t) m'' hm'' hv''
        · simp at hm''
          subst hm''
          exact ⟨Nat.le_of_eq (s.tick_self t).symm, fun _ => Nat.le_refl _⟩
      · rw [upd_ne _ _ e] at hl
        have hb := h.before l' m' hl
        intro m'' hm'' hv''
        dsimp only at hm''
        rw [upd_ne _ _ e] at hm''
        cases hc : m'.val with
        | false =>
          rw [hc] at hb
          exact hb m'' hm'' hv''
        | true =>
          rw [hc] at hb
          exact hb.mono (hle _) m'' hm'' hv''
    · dsimp only
      by_cases e : l' = l
      · subst e
        rw [upd_same]
        simp
      · rw [upd_ne _ _ e]
        exact h.some' l'
    · have hc : c.holder l = some t := (h7 l t).2 hh
      refine ⟨{ c with holder := upd c.holder l none }, ?_, fun l' t' => ?_, h8⟩
      · rw [run_snoc, h6]
        simp [SC.step, hc]
      · dsimp only
        by_cases e : l' = l
        · subst e
          rw [upd_same]
          by_cases e' : t' = t
          · subst e'
            simp
          · rw [upd_ne _ _ e']
            constructor
            · intro h; cases h
            · intro h; exact absurd (huniq t' h) e'
        · rw [upd_ne _ _ e, h7]
          by_cases e' : t' = t
          · subst e'
            rw [upd_same, upd_ne _ _ e]
          · rw [upd_ne _ _ e']
  | @write _ _ x v hp hh =>
    obtain ⟨p, m, h1, h2, h3, h4, h5⟩ := h.held hh
    have hle : ∀ t' u, s.vw t' u ≤ upd s.vw t (s.tick t) t' u := by
      intro t' u
      by_cases e : t' = t
      · subst e
        rw [upd_same]
        exact s.le_tick _ _
      · rw [upd_ne _ _ e]
    obtain ⟨c, h6, h7, h8⟩ := h.sc
    refine ⟨h.alt, fun l' m' hl hm' => ?_, fun l' m' hl hm' => ?_, fun l' m' hl => ?_, h.some', fun x' => ?_, ?_, ?_⟩
    · obtain ⟨h9, h10⟩ := h.free l' m' hl hm'
      refine ⟨h9, fun x' hx' => ?_⟩
      have e : x' ≠ x := by
        rintro rfl
        rw [hx', h9] at hh
        cases hh
      have := h10 x' hx'
      exact ⟨by simpa only [upd_ne _ _ e] using this.1, this.2⟩
    · obtain ⟨h9, h10, h11, h12⟩ := h.taken l' m' hl hm'
      refine ⟨h9, h10, Nat.le_trans h11 (hle _ _), fun x' hx' => ?_⟩
      have hw := (h12 x' hx').mono (hle m'.by')
      by_cases e : x' = x
      · subst e
        refine ⟨?_, hw.2⟩
        dsimp only
        rw [upd_same]
        intro w hw'
        rcases List.mem_append.1 hw' with hw' | hw'
        · exact hw.1 w hw'
        · simp at hw'
          subst hw'
          have : t = m'.by' := h10 t (hx' ▸ hh)
          rw [← this, upd_same, s.tick_self]
      · exact ⟨by simpa only [upd_ne _ _ e] using hw.1, hw.2⟩
    · have hb := h.before l' m' hl
      cases hc : m'.val with
      | false =>
        rw [hc] at hb
        exact hb
      | true =>
        rw [hc] at hb
        exact Before.mono (s := s) hb (hle _)
    · dsimp only
      by_cases e : x' = x
      · subst e
        rw [upd_same]
        simp
      · rw [upd_ne _ _ e]
        exact h.hsome x'
    · have := all_known (h5 x rfl)
      simp [h.norace, this.1, this.2]
    · have hc : c.holder (own x) = some t := (h7 _ t).2 hh
      refine ⟨{ c with mem := upd c.mem x v }, ?_, h7, fun x' w hw => ?_⟩
      · rw [run_snoc, h6]
        simp [SC.step, hc]
      · dsimp only at hw ⊢
        by_cases e : x' = x
        · subst e
          rw [upd_same] at hw
          simp at hw
          rw [upd_same, ← hw]
        · rw [upd_ne _ _ e] at hw
          rw [upd_ne _ _ e]
          exact h8 x' w hw
  | @read _ _ x pre w post hp hh hm hn =>
    obtain ⟨p, m, h1, h2, h3, h4, h5⟩ := h.held hh
    have hpost : post = [] := h.newest hh (pre := pre ++ [w]) (by rw [hm]; simp) hn
    subst hpost
    have hle : ∀ t' u, s.vw t' u ≤ upd s.vw t (s.tick t) t' u := by
      intro t' u
      by_cases e : t' = t
      · subst e
        rw [upd_same]
        exact s.le_tick _ _
      · rw [upd_ne _ _ e]
    obtain ⟨c, h6, h7, h8⟩ := h.sc
    refine ⟨h.alt, fun l' m' hl hm' => ?_, fun l' m' hl hm' => ?_, fun l' m' hl => ?_, h.some', h.hsome, ?_, ?_⟩
    · obtain ⟨h9, h10⟩ := h.free l' m' hl hm'
      refine ⟨h9, fun x' hx' => ?_⟩
      have e : x' ≠ x := by
        rintro rfl
        rw [hx', h9] at hh
        cases hh
      have := h10 x' hx'
      exact ⟨this.1, by simpa only [upd_ne _ _ e] using this.2⟩
    · obtain ⟨h9, h10, h11, h12⟩ := h.taken l' m' hl hm'
      refine ⟨h9, h10, Nat.le_trans h11 (hle _ _), fun x' hx' => ?_⟩
      have hw := (h12 x' hx').mono (hle m'.by')
      by_cases e : x' = x
      · subst e
        refine ⟨hw.1, ?_⟩
        dsimp only
        rw [upd_same]
        intro r hr
        rcases List.mem_append.1 hr with hr | hr
        · exact hw.2 r hr
        · simp at hr
          subst hr
          have : t = m'.by' := h10 t (hx' ▸ hh)
          dsimp only
          rw [← this, upd_same, s.tick_self]
      · exact ⟨hw.1, by simpa only [upd_ne _ _ e] using hw.2⟩
    · have hb := h.before l' m' hl
      cases hc : m'.val with
      | false =>
        rw [hc] at hb
        exact hb
      | true =>
        rw [hc] at hb
        exact Before.mono (s := s) hb (hle _)
    · have := all_known (h5 x rfl)
      simp [h.norace, this.1]
    · have hc : c.holder (own x) = some t := (h7 _ t).2 hh
      refine ⟨c, ?_, h7, h8⟩
      have hv : c.mem x = w.val := (h8 x w (by rw [hm]; simp)).symm
      rw [run_snoc, h6]
      simp [SC.step, hc, hv]

theorem Inv.reach (h : Reach code own m0 s) : Inv own m0 s := by
  induction h with
  | init => exact .init
  | step _ hs ih => exact ih.step hs

end RG.WL
