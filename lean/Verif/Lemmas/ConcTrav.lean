import Verif.Lemmas.ConcOrder
/-
A traversal of the chunked list during which nothing is removed visits exactly the elements it has to, in order.
-/
set_option linter.unusedVariables false
namespace RG.CoL

open AL (own cur)

variable {N : Nat} {s s' : State} {t : Nat} {base L : List Slot}

/-- the elements of `L` that have not been visited -/
def rest (L S : List Slot) : List Slot := L.filter fun y => decide (y ∉ S)

/-- The elements thread `t` has to visit are `L`: those that are older than all in `base`. -/
structure Todo (s : State) (t : Nat) (base L : List Slot) : Prop where
  empt : s.empt t = false
  sorted : L.Pairwise (Later s.al)
  snap : ∀ y ∈ L, s.snap t y = true
  live : ∀ y ∈ L, s.removed y = false
  hid : ∀ y ∈ L, s.hid y = false
  compl : ∀ x, s.val x ≠ none → s.removed x = false → (∀ y ∈ base, Later s.al y x) → x ∈ L

/-- Thread `t` traverses the list and has to visit the elements `L`; it has begun by visiting those in `base`. -/
structure Trav (s : State) (t : Nat) (base L : List Slot) : Prop where
  it : isIter (s.pcs t) = true
  todo : Todo s t base L
  visited : ∀ y ∈ base, y ∈ s.seen t
  seenL : ∀ y ∈ s.seen t, y ∈ base ∨ y ∈ L
  cand : ∀ c p, s.pcs t = .iCand c p → s.removed (c, p) = false

theorem rest_cons {l : AL.State} {L S : List Slot} {x : Slot} (hs : L.Pairwise (Later l)) (hx : x ∈ L)
    (h1 : ∀ y ∈ L, Later l y x → y ∈ S) (h2 : ∀ y ∈ S, Later l y x) : rest L S = x :: rest L (x :: S) := by
  induction L with
  | nil => cases hx
  | cons a L ih =>
    rw [List.pairwise_cons] at hs
    by_cases e : a = x
    · subst e
      have hn : a ∉ S := fun h => (h2 a h).ne rfl
      unfold rest
      rw [List.filter_cons_of_pos (by simpa using hn), List.filter_cons_of_neg (by simp)]
      congr 1
      apply List.filter_congr
      intro y hy
      have : y ≠ a := fun e => by subst e; exact (hs.1 y hy).ne rfl
      simp [this]
    · have hx' : x ∈ L := by
        rcases List.mem_cons.1 hx with h | h
        · exact absurd h.symm e
        · exact h
      have ha : a ∈ S := h1 a (.head _) (hs.1 x hx')
      unfold rest at ih ⊢
      rw [List.filter_cons_of_neg (by simpa using ha), List.filter_cons_of_neg (by simp [ha])]
      exact ih hs.2 hx' fun y hy => h1 y (.tail _ hy)

/-- nothing is removed, and nothing is pushed behind `base` -/
theorem Todo.frame (h : Todo s t base L) (hm : Mono s s') (h3 : s'.snap t = s.snap t) (h4 : s'.empt t = s.empt t)
    (h5 : s'.removed = s.removed) (h6 : ∀ y ∈ L, s'.hid y = false)
    (h7 : ∀ x, s'.val x ≠ none → (∀ y ∈ base, Later s'.al y x) → s.val x ≠ none ∧ ∀ y ∈ base, Later s.al y x) :
    Todo s' t base L := by
  obtain ⟨g2, g3, g4, g5, g6, g7⟩ := h
  constructor
  · rw [h4]; exact g2
  · exact g3.imp fun h => h.mono hm
  · rw [h3]; exact g4
  · rw [h5]; exact g5
  · exact h6
  · intro x hx hr hb
    obtain ⟨k1, k2⟩ := h7 x hx hb
    exact g7 x k1 (by rw [← h5]; exact hr) k2

/-- `t` does nothing -/
theorem Trav.frame (h : Trav s t base L) (ht : Todo s' t base L) (h1 : s'.pcs t = s.pcs t) (h2 : s'.seen t = s.seen t)
    (h5 : s'.removed = s.removed) : Trav s' t base L := by
  obtain ⟨g1, -, g8, g9, g10⟩ := h
  constructor
  · rw [h1]; exact g1
  · exact ht
  · rw [h2]; exact g8
  · rw [h2]; exact g9
  · rw [h1, h5]; exact g10

/-- what the steps of an iterator leave as it is -/
theorem iter_eff (hA : InvA s) (hm : isIter (s.pcs t) = true) (hs : Step N t s s') (hi : isIter (s'.pcs t) = true) :
    s'.removed = s.removed ∧ s'.hid = s.hid ∧ s'.val = s.val ∧ s'.al.rank = s.al.rank ∧ s'.snap = s.snap ∧
      s'.empt = s.empt ∧ s'.off = s.off ∧ s'.log = s.log ∧ s'.nxt = s.nxt ∧ s'.al.head = s.al.head ∧
      ((∃ c p, s.pcs t = .iCand c p ∧ s'.pcs t = .iOn c p ∧ s'.seen t = (c, p) :: s.seen t) ∨
       (s'.seen t = s.seen t ∧ on (s'.pcs t) = none ∧ ∀ c p, s'.pcs t = .iCand c p → s.off (c, p) = 0)) := by
  have hk : Same s.al s'.al := by
    rcases alEff hA hs with h | ⟨n, -, -, -, -, -, -, -, -, -, -, -, -, -, -, -, -, -, w, e2, e3⟩
    · exact h
    · rcases e3 with ⟨e3, -⟩ | ⟨c, e3⟩ <;> rw [e3] at hm <;> cases hm
  obtain ⟨k1, k2, k3⟩ := hk
  cases hs with
  | last h | read h | visit h | next h | lastNone h => simp_all [on, isIter]
  | jump h => simp_all [on]
  | jumpOut h => simp_all [on]
  | nextOut h => simp_all [on]
  | hop h ha hd =>
    rename_i c a
    refine ⟨rfl, rfl, rfl, k2, rfl, rfl, rfl, rfl, rfl, k1, .inr ⟨rfl, ?_, ?_⟩⟩
    · simp only [upd_same]; cases a.pcs t <;> rfl
    · intro c' p' h'; exfalso; revert h'; simp only [upd_same]; cases a.pcs t <;> simp [arrive]
  | stop h => simp [isIter] at hi
  | push _ h | load h | loadNull h | full h | room h | slot h | over h | late h | assign h | remove h | readFirst h | readPred h
  | write h | free h | del h | begin h | beginNull h | copy h | first h | alloc h => rw [h] at hm; cases hm

theorem Later.congr {l l' : AL.State} {x y : Slot} (h : l'.rank = l.rank) : Later l' x y ↔ Later l x y := by
  unfold Later; rw [h]

/-- a step of the iterator to the next element -/
theorem Trav.move (hN : 0 < N) (hr : Reach N s) (h : Trav s t base L) (hm : moving (s.pcs t) = true)
    (hno : ∀ u, rm (s.pcs u) = none) (hs : Step N t s s') :
    Trav s' t base L ∧ ((on (s'.pcs t) = none ∧ s'.seen t = s.seen t) ∨
      ∃ x, on (s'.pcs t) = some x ∧ s'.seen t = x :: s.seen t ∧ rest L (s.seen t) = x :: rest L (s'.seen t)) := by
  have hA := invA hr
  have hE := invE hN hr t
  have hi : isIter (s'.pcs t) = true := by
    cases hs with
    | stop h => generalize s.pcs t = q at hm h; cases q <;> simp_all [on, moving]
    | hop h ha hd => rename_i c a; simp only [upd_same]; cases a.pcs t <;> rfl
    | last h | read h | visit h | next h | lastNone h | jump h | jumpOut h | nextOut h => simp [isIter]
    | push _ h | load h | loadNull h | full h | room h | slot h | over h | late h | assign h | remove h | readFirst h | readPred h
    | write h | free h | del h | begin h | beginNull h | copy h | first h | alloc h => rw [h] at hm; cases hm
  obtain ⟨e1, e2, e3, e4, e5, e6, e7, -, -, -, e8⟩ := iter_eff hA h.it hs hi
  have hl : ∀ x y, Later s'.al x y ↔ Later s.al x y := fun x y => Later.congr e4
  have hl' : Later s'.al = Later s.al := by funext x y; exact propext (hl x y)
  obtain ⟨g1, ⟨g2, g3, g4, g5, g6, g7⟩, g8, g9, g10⟩ := h
  rcases e8 with ⟨c, p, h1, h2, h3⟩ | ⟨h1, h2, h3⟩
  · have hpos : pos (s.pcs t) = some (c, p) := by rw [h1]; rfl
    have hxL : (c, p) ∈ L := g7 _ (hE.cand c p h1) (g10 c p h1) fun y hy => hE.atP _ hpos y (g8 y hy)
    refine ⟨⟨hi, ⟨by rw [e6]; exact g2, by rw [hl']; exact g3, by rw [e5]; exact g4, by rw [e1]; exact g5,
      by rw [e2]; exact g6, ?_⟩, ?_, ?_, ?_⟩, .inr ⟨(c, p), by rw [h2]; rfl, h3, ?_⟩⟩
    · rw [e3, e1, hl']; exact g7
    · intro y hy; rw [h3]; exact .tail _ (g8 y hy)
    · intro y hy
      rw [h3] at hy
      rcases List.mem_cons.1 hy with rfl | hy
      · exact .inr hxL
      · exact g9 y hy
    · rw [h2]; simp
    · rw [h3]
      refine rest_cons (l := s.al) g3 hxL ?_ (hE.atP _ hpos)
      exact fun y hy hlt => passed_done hN hr (.inl hpos) (g4 y hy) hlt (g5 y hy) (g6 y hy)
  · refine ⟨⟨hi, ⟨by rw [e6]; exact g2, by rw [hl']; exact g3, by rw [e5]; exact g4, by rw [e1]; exact g5,
      by rw [e2]; exact g6, ?_⟩, by rw [h1]; exact g8, by rw [h1]; exact g9, ?_⟩, .inl ⟨h2, h1⟩⟩
    · rw [e3, e1, hl']; exact g7
    · intro c p hc
      rw [e1]
      have h0 := h3 c p hc
      cases hrm : s.removed (c, p) with
      | false => rfl
      | true =>
        rcases rem_off hN hr _ hrm with h | ⟨u, h⟩
        · exact absurd h0 h
        · have := hno u
          rcases h with h | ⟨d, h⟩ <;> rw [h] at this <;> cases this

/-- the first step of `operator++` -/
theorem Trav.adv (hN : 0 < N) (hr : Reach N s) (h : Trav s t base L) {x : Slot} (hm : on (s.pcs t) = some x)
    (hs : Step N t s s') (hi : isIter (s'.pcs t) = true) :
    Trav s' t base L ∧ s'.seen t = s.seen t ∧ moving (s'.pcs t) = true := by
  have hA := invA hr
  obtain ⟨e1, e2, e3, e4, e5, e6, e7, -, -, -, e8⟩ := iter_eff hA h.it hs hi
  have hl' : Later s'.al = Later s.al := by funext x y; exact propext (Later.congr e4)
  obtain ⟨g1, ⟨g2, g3, g4, g5, g6, g7⟩, g8, g9, g10⟩ := h
  have hmv : moving (s'.pcs t) = true ∧ ∀ c p, s'.pcs t ≠ .iCand c p := by
    cases hs with
    | next h | nextOut h => simp [moving]
    | stop h => simp [isIter] at hi
    | jump h | jumpOut h => generalize s.pcs t = q at hm h; cases q <;> simp_all [pos, on]
    | push _ h | load h | loadNull h | full h | room h | slot h | over h | late h | assign h | remove h | readFirst h | readPred h
    | write h | free h | del h | begin h | beginNull h | copy h | first h | alloc h | last h | read h | visit h | lastNone h | hop h => rw [h] at hm; cases hm
  rcases e8 with ⟨c, p, h1, h2, h3⟩ | ⟨h1, h2, h3⟩
  · rw [h1] at hm; cases hm
  · refine ⟨⟨hi, ⟨by rw [e6]; exact g2, by rw [hl']; exact g3, by rw [e5]; exact g4, by rw [e1]; exact g5,
      by rw [e2]; exact g6, ?_⟩, by rw [h1]; exact g8, by rw [h1]; exact g9, ?_⟩, h1, hmv.1⟩
    · rw [e3, e1, hl']; exact g7
    · intro c p hc; exact absurd hc (hmv.2 c p)

theorem Trav.ended (hN : 0 < N) (hr : Reach N s) (h : Trav s t base L) (he : s.pcs t = .iEnd) :
    rest L (s.seen t) = [] := by
  unfold rest
  rw [List.filter_eq_nil_iff]
  intro y hy
  simpa using C28_iteration_complete_partial hN hr he h.todo.empt (h.todo.snap y hy) (h.todo.live y hy) (h.todo.hid y hy)

/-! ### Before `++it` in graph.cpp:57 -/

/-- The iterator has been copied from the entry `x`, or points to it. -/
structure First (s : State) (t : Nat) (x : Slot) (L : List Slot) : Prop where
  pc : ((s.pcs t = .iAt x.1 x.2 ∨ s.pcs t = .iCand x.1 x.2) ∧ s.seen t = []) ∨ (s.pcs t = .iOn x.1 x.2 ∧ s.seen t = [x])
  todo : Todo s t [x] L
  val : s.val x ≠ none
  live : s.removed x = false
  older : ∀ y ∈ L, Later s.al x y

theorem First.it {x : Slot} (h : First s t x L) : isIter (s.pcs t) = true := by
  rcases h.pc with ⟨h | h, -⟩ | ⟨h, -⟩ <;> rw [h] <;> rfl

theorem First.frame {x : Slot} (h : First s t x L) (ht : Todo s' t [x] L) (hm : Mono s s') (h1 : s'.pcs t = s.pcs t)
    (h2 : s'.seen t = s.seen t) (h5 : s'.removed = s.removed) : First s' t x L :=
  ⟨by rw [h1, h2]; exact h.pc, ht, hm.val x h.val, by rw [h5]; exact h.live,
    fun y hy => (h.older y hy).mono hm⟩

/-- nothing that concerns an iteration -/
theorem Todo.same (h : Todo s t base L) (e1 : s'.removed = s.removed) (e2 : s'.hid = s.hid) (e3 : s'.val = s.val)
    (e4 : s'.al.rank = s.al.rank) (e5 : s'.snap = s.snap) (e6 : s'.empt = s.empt) : Todo s' t base L := by
  have hl' : Later s'.al = Later s.al := by funext x y; exact propext (Later.congr e4)
  obtain ⟨g2, g3, g4, g5, g6, g7⟩ := h
  exact ⟨by rw [e6]; exact g2, by rw [hl']; exact g3, by rw [e5]; exact g4, by rw [e1]; exact g5, by rw [e2]; exact g6,
    by rw [e3, e1, hl']; exact g7⟩

theorem First.move {x : Slot} (hN : 0 < N) (hr : Reach N s) (h : First s t x L) (hm : moving (s.pcs t) = true)
    (hs : Step N t s s') : First s' t x L := by
  have hA := invA hr
  have hoff : s.off x = 0 := Decidable.not_not.1 fun e => by
    rcases (invC hN hr).offOk x e with h' | h'
    · exact h.val h'
    · rw [h.live] at h'; cases h'
  have hpc : ((s'.pcs t = .iAt x.1 x.2 ∨ s'.pcs t = .iCand x.1 x.2) ∧ s'.seen t = []) ∨
      (s'.pcs t = .iOn x.1 x.2 ∧ s'.seen t = [x]) := by
    obtain ⟨c, p⟩ := x
    rcases h.pc with ⟨h1, h2⟩ | ⟨h1, h2⟩
    · cases hs with
      | read h' => rw [h'] at h1; simp at h1; simp [h1, h2]
      | visit h' => rw [h'] at h1; simp at h1; simp [h1, h2]
      | jump h' ho | jumpOut h' ho =>
        exfalso
        have : pos (s.pcs t) = some (c, p) := by rcases h1 with h1 | h1 <;> rw [h1] <;> rfl
        rw [this] at h'; cases h'; omega
      | stop h' => rcases h1 with h1 | h1 <;> rw [h1] at h' <;> simp [on] at h'
      | push _ h | load h | loadNull h | full h | room h | slot h | over h | late h | assign h | remove h | readFirst h
      | readPred h | write h | free h | del h | begin h | beginNull h | copy h | first h | alloc h | last h | lastNone h
      | hop h | next h | nextOut h => rcases h1 with h1 | h1 <;> rw [h1] at h <;> cases h
    · rw [h1] at hm; cases hm
  have hi : isIter (s'.pcs t) = true := by
    rcases hpc with ⟨h | h, -⟩ | ⟨h, -⟩ <;> rw [h] <;> rfl
  obtain ⟨e1, e2, e3, e4, e5, e6, -⟩ := iter_eff hA h.it hs hi
  exact ⟨hpc, h.todo.same e1 e2 e3 e4 e5 e6, by rw [e3]; exact h.val, by rw [e1]; exact h.live,
    fun y hy => (Later.congr e4).2 (h.older y hy)⟩

/-- `++it` -/
theorem First.adv {x y : Slot} (hN : 0 < N) (hr : Reach N s) (h : First s t x L) (hm : on (s.pcs t) = some y)
    (hs : Step N t s s') (hi : isIter (s'.pcs t) = true) :
    Trav s' t [x] L ∧ rest L (s'.seen t) = L ∧ moving (s'.pcs t) = true := by
  have hA := invA hr
  have hpc : s.pcs t = .iOn x.1 x.2 ∧ s.seen t = [x] := by
    rcases h.pc with ⟨h | h, -⟩ | h
    · rw [h] at hm; cases hm
    · rw [h] at hm; cases hm
    · exact h
  have hT : Trav s t [x] L := by
    refine ⟨h.it, h.todo, by rw [hpc.2]; exact fun y hy => hy, by rw [hpc.2]; exact fun y hy => .inl hy, ?_⟩
    intro c p h'; rw [hpc.1] at h'; cases h'
  obtain ⟨h1, h2, h3⟩ := hT.adv hN hr hm hs hi
  refine ⟨h1, ?_, h3⟩
  rw [h2, hpc.2]
  unfold rest
  rw [List.filter_eq_self]
  intro y hy
  have := (h.older y hy).ne
  simpa using fun e => this e.symm

/-- the iterator is copied -/
theorem First.copy {x : Slot} (hr : Reach N s) (hs : Step N t s s') (h0 : s.pcs t = .idle)
    (h1 : s'.pcs t = .iAt x.1 x.2) (hsrt : L.Pairwise (Later s.al)) (hv : ∀ y ∈ L, s.val y ≠ none)
    (hl : ∀ y ∈ L, s.removed y = false) (hh : ∀ y ∈ L, s.hid y = false) (ho : ∀ y ∈ L, Later s.al x y)
    (hc : ∀ y, s.val y ≠ none → s.removed y = false → Later s.al x y → y ∈ L) (hx : s.val x ≠ none)
    (hxl : s.removed x = false) : First s' t x L := by
  obtain ⟨k1, k2⟩ := copy_snap hs h0 h1
  have hA := invA hr
  have he : s'.removed = s.removed ∧ s'.hid = s.hid ∧ s'.val = s.val ∧ s'.al.rank = s.al.rank ∧ s'.seen t = [] := by
    cases hs with
    | copy h hv' ha hp hrk hl' =>
      have := hA.inner t
      rw [h0] at this
      exact ⟨rfl, rfl, rfl, (eff_idle ha this).1.2.1, upd_same _ _ _⟩
    | _ => simp_all [pos, on]
  obtain ⟨e1, e2, e3, e4, e5⟩ := he
  have hl' : Later s'.al = Later s.al := by funext x y; exact propext (Later.congr e4)
  refine ⟨.inl ⟨.inl h1, e5⟩, ⟨k1, by rw [hl']; exact hsrt, ?_, by rw [e1]; exact hl, by rw [e2]; exact hh, ?_⟩,
    by rw [e3]; exact hx, by rw [e1]; exact hxl, by rw [hl']; exact ho⟩
  · intro y hy
    rw [k2, before_of (.inr (ho y hy)), Bool.and_true, Option.isSome_iff_ne_none]
    exact hv y hy
  · rw [e3, e1, hl']
    exact fun y h1 h2 h3 => hc y h1 h2 (h3 x (.head _))

/-- the iteration begins at the newest element while nothing is pushed -/
theorem Trav.begin (hr : Reach N s) (hs : Step N t s s') (h0 : s.pcs t = .idle)
    (h1 : s'.pcs t = .iEnd ∨ ∃ c, s'.pcs t = .iLast c) (hsrt : L.Pairwise (Later s.al)) (hv : ∀ y ∈ L, s.val y ≠ none)
    (hl : ∀ y ∈ L, s.removed y = false) (hh : ∀ y ∈ L, s.hid y = false)
    (hc : ∀ y, s.val y ≠ none → s.removed y = false → y ∈ L) (hp : ∀ u, pushing (s.pcs u) = false) :
    Trav s' t [] L ∧ s'.seen t = [] := by
  have hA := invA hr
  have he : s'.removed = s.removed ∧ s'.hid = s.hid ∧ s'.val = s.val ∧ s'.al.rank = s.al.rank ∧ s'.seen t = [] ∧
      (s'.snap t = fun x => (s.val x).isSome) ∧ s'.empt t = false := by
    cases hs with
    | begin h ha hp' hl' =>
      rename_i c a
      have := hA.inner t
      rw [h0] at this
      refine ⟨rfl, rfl, rfl, (eff_idle ha this).1.2.1, upd_same _ _ _, upd_same _ _ _, ?_⟩
      simp only [upd_same, decide_eq_false_iff_not]
      intro hn
      have hh : s.al.head = some c := by
        have h2 : s.al.pcs t = .idle := this
        have hAL := AL.inv hA.al
        cases ha with
        | rbegin h hh' => simp only [upd_same] at hp'; cases hp'; exact hh'
        | copy h hrk =>
          simp only [upd_same] at hp' hl'; cases hp'
          have h3 := hAL.lt _ _ hrk
          cases hhd : s.al.head with
          | none => have := hAL.headNone.1 hhd; omega
          | some d =>
            have h4 := hAL.headSome d hhd
            rw [hAL.inj c d _ hrk (by rw [h4]; congr 1; omega)]
        | _ => simp_all
      obtain ⟨u, h2, -⟩ := empty_head hr hh hn
      rw [hp u] at h2; cases h2
    | beginNull h ha hp' =>
      have := hA.inner t
      rw [h0] at this
      exact ⟨rfl, rfl, rfl, (eff_idle ha this).1.2.1, upd_same _ _ _, upd_same _ _ _, upd_same _ _ _⟩
    | _ => simp_all [pos, on]
  obtain ⟨e1, e2, e3, e4, e5, e6, e7⟩ := he
  have hl' : Later s'.al = Later s.al := by funext x y; exact propext (Later.congr e4)
  refine ⟨⟨?_, ⟨e7, by rw [hl']; exact hsrt, ?_, by rw [e1]; exact hl, by rw [e2]; exact hh, ?_⟩, by simp, by simp [e5],
    ?_⟩, e5⟩
  · rcases h1 with h1 | ⟨c, h1⟩ <;> rw [h1] <;> rfl
  · intro y hy; rw [e6]; simp only [Option.isSome_iff_ne_none]; exact hv y hy
  · rw [e3, e1]; exact fun y h1 h2 h3 => hc y h1 h2
  · intro c p h; rcases h1 with h1 | ⟨c, h1⟩ <;> rw [h1] at h <;> cases h

end RG.CoL
