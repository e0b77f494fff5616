import Verif.Lemmas.ConcList
/-
Invariants of removal and iteration in the chunked list used by several threads.
-/
set_option linter.unusedVariables false
namespace RG.CoL

open AL (own cur)

variable {N : Nat} {s s' : State}

/-- the slots over which an offset `d` at slot `x` jumps -/
def Jump (s : State) (x : Slot) (d : Nat) : Prop :=
  ∀ j, j < x.2 → x.2 < j + d → s.removed (x.1, j) = true ∨ s.hid (x.1, j) = true

/-- the slot a removal works on -/
def rm : Pc → Option Slot
  | .rRead x | .rWrite x _ | .rFree x => some x
  | _ => none

theorem rm_read {t : Nat} {x : Slot} (h : s.pcs t = .rRead x) : rm (s.pcs t) = some x := by rw [h]; rfl
theorem rm_write {t d : Nat} {x : Slot} (h : s.pcs t = .rWrite x d) : rm (s.pcs t) = some x := by rw [h]; rfl
theorem rm_free {t : Nat} {x : Slot} (h : s.pcs t = .rFree x) : rm (s.pcs t) = some x := by rw [h]; rfl
theorem rm_arrive (c : Nat) (q : AL.Pc) : rm (arrive c q) = none := by cases q <;> rfl

/-- what never changes back -/
structure Mono (s s' : State) : Prop where
  removed : ∀ x, s.removed x = true → s'.removed x = true
  hid : ∀ x, s.hid x = true → s'.hid x = true
  val : ∀ x, s.val x ≠ none → s'.val x ≠ none
  nxt : ∀ c, s.nxt c ≤ s'.nxt c
  rank : ∀ c r, s.al.rank c = some r → s'.al.rank c = some r

theorem mono {t : Nat} (hA : InvA s) (hs : Step N t s s') : Mono s s' := by
  constructor
  · cases hs <;> grind [upd]
  · cases hs <;> grind [upd]
  · cases hs <;> grind [upd]
  · cases hs <;> grind [upd]
  · rcases hs.al with h | h
    · rw [h]; exact fun _ _ h => h
    · exact ((AL.inv hA.al).ext h).rank

theorem Jump.mono {x : Slot} {d : Nat} (hm : Mono s s') (h : Jump s x d) : Jump s' x d := by
  intro j h1 h2
  rcases h j h1 h2 with h | h
  · exact .inl (hm.removed _ h)
  · exact .inr (hm.hid _ h)

theorem cnt_all {α} {n : Nat} {p : α → Bool} {f : Nat → α} (h : cnt n p f = n) : ∀ t, t < n → p (f t) = true := by
  induction n with
  | zero => intro t ht; omega
  | succ n ih =>
    rw [cnt_succ] at h
    have := cnt_le n p f
    intro t ht
    cases hp : p (f n) with
    | false => rw [hp] at h; simp at h; omega
    | true =>
      rw [hp] at h
      simp only [if_true, Nat.add_right_cancel_iff] at h
      by_cases e : t = n
      · subst e; exact hp
      · exact ih h t (by omega)

structure InvC (N : Nat) (s : State) : Prop where
  rem : ∀ t x, rm (s.pcs t) = some x → s.removed x = true ∧ s.fre x = false
  rmU : ∀ t u x, rm (s.pcs t) = some x → rm (s.pcs u) = some x → t = u
  remVal : ∀ x, s.removed x = true → s.val x ≠ none
  freRem : ∀ x, s.fre x = true → s.removed x = true
  offOk : ∀ x, s.off x ≠ 0 → s.val x = none ∨ s.removed x = true
  offNew : ∀ x, s.val x = none → s.off x = 1
  jump : ∀ x, Jump s x (s.off x)
  wr : ∀ t x d, s.pcs t = .rWrite x d → Jump s x d
  freed : ∀ c, s.freed c = cnt N id (fun i => s.fre (c, i))
  del : ∀ c, (∃ t, s.pcs t = .rDel c) ∨ s.al.deleted c = true → ∀ i, i < N → s.fre (c, i) = true

set_option maxHeartbeats 4000000 in
theorem invC (hN : 0 < N) (h : Reach N s) : InvC N s := by
  induction h with
  | init =>
    constructor <;> simp [init, AL.init, rm]
    · intro x j h1 h2; omega
    · unfold cnt; simp
  | @step s s' t hr hs hi =>
    have hA := invA hr
    have hB := invB hr
    have hm := mono hA hs
    have hJ : ∀ x d, Jump s x d → Jump s' x d := fun x d h => h.mono hm
    have hasg := hB.asg
    have hval := hB.valLt
    have hfre : ∀ x, s.fre x = true → s'.fre x = true := by
      clear hi hm hJ hasg hval hA hB
      cases hs <;> grind [upd]
    obtain ⟨h1, h2, h3, h4, h5, h6, h7, h8, h9, h10⟩ := hi
    constructor
    · clear h5 h6 h7 h8 h9 h10 hB hA hm hJ hfre
      cases hs <;> grind [upd, rm, rm_read, rm_write, rm_free, rm_arrive]
    · clear h5 h6 h7 h8 h9 h10 hB hA hm hJ hfre hval hasg
      cases hs <;> grind [upd, rm, rm_read, rm_write, rm_free, rm_arrive]
    · clear h1 h2 h5 h6 h7 h8 h9 h10 hB hA hm hJ hfre hval hasg
      cases hs <;> grind [upd]
    · clear h2 h5 h6 h7 h8 h9 h10 hB hA hm hJ hfre hval hasg
      cases hs <;> grind [upd, rm_free]
    · clear h2 h6 h7 h8 h9 h10 hB hA hm hJ hfre hval hasg
      cases hs <;> grind [upd, rm_write]
    · clear h2 h7 h8 h9 h10 hB hA hm hJ hfre hval
      cases hs <;> grind [upd, rm_write]
    · intro x
      cases hs with
      | assign h =>
        rename_i v c i
        by_cases e : x = (c, i)
        · subst e; intro j h1 h2; simp at h2; omega
        · have := hJ x _ (h7 x)
          simpa [upd, e] using this
      | write h =>
        rename_i y d
        by_cases e : x = y
        · subst e
          have := hJ x _ (h8 t x d h)
          simpa [upd] using this
        · have := hJ x _ (h7 x)
          simpa [upd, e] using this
      | _ => exact hJ x _ (h7 x)
    · intro u x d hd
      by_cases hu : u = t
      · subst hu
        cases hs with
        | readFirst h =>
          simp only [upd_same, Pc.rWrite.injEq] at hd
          obtain ⟨rfl, rfl⟩ := hd
          intro j h1 h2; simp at h1
        | readPred h =>
          rename_i c i
          simp only [upd_same, Pc.rWrite.injEq] at hd
          obtain ⟨rfl, rfl⟩ := hd
          intro j h1 h2
          simp only at h1 h2
          by_cases e : j = i
          · subst e
            rcases h5 (c, j) (by omega) with h | h
            · right; simp [h]
            · left; exact h
          · exact hJ (c, i) _ (h7 (c, i)) j (by simp only; omega) (by simp only; omega)
        | hop h => simp only [upd_same, arrive] at hd; split at hd <;> cases hd
        | first h => simp only [upd_same] at hd; split at hd <;> cases hd
        | alloc h => simp only [upd_same] at hd; split at hd <;> cases hd
        | free h => simp only [upd_same] at hd; split at hd <;> cases hd
        | _ => simp only [upd_same] at hd; cases hd
      · have : s'.pcs u = s.pcs u := by cases hs <;> simp [upd, hu]
        rw [this] at hd
        exact hJ x d (h8 u x d hd)
    · intro c
      cases hs with
      | free h =>
        rename_i x
        obtain ⟨c', i⟩ := x
        have hlt := (hval c' i (h3 _ (h1 t _ (rm_free h)).1)).1
        have hf := (h1 t _ (rm_free h)).2
        by_cases e : c = c'
        · subst e
          simp only [upd_same]
          rw [h9 c]
          have := cnt_update N id (fun j => s.fre (c, j)) i true hlt
          simp only [hf, id, Bool.false_eq_true, if_false, if_true, Nat.add_zero] at this
          rw [← this]
          apply cnt_congr
          intro j _
          simp [upd]
        · simp only [upd, e, if_false, h9 c]
          apply cnt_congr
          intro j _
          simp [e]
      | _ => exact h9 c
    · intro c hc i hlt
      have hold : ((∃ t, s.pcs t = .rDel c) ∨ s.al.deleted c = true) → s'.fre (c, i) = true :=
        fun h => hfre _ (h10 c h i hlt)
      have hdel : s'.al.deleted c = true → s.al.deleted c = true ∨ s.pcs t = .rDel c := by
        have hu := hA.inner t
        clear h1 h2 h3 h4 h5 h6 h7 h8 h9 h10 hold hfre hJ hasg hval hm hc
        have key : ∀ a, AL.Step t s.al a → s.al.pcs t ≠ a.pcs t → a.deleted = s.al.deleted := by
          intro a ha hne
          cases ha <;> first | rfl | exact absurd rfl hne
        cases hs with
        | first h ha hd => dsimp only; rw [moved ha hd]; exact .inl
        | alloc h ha hd => dsimp only; rw [moved ha hd]; exact .inl
        | hop h ha hd => dsimp only; rw [moved ha hd]; exact .inl
        | del h hr =>
          rename_i c' r
          dsimp only
          by_cases e : c = c'
          · subst e; intro _; exact .inr h
          · rw [upd_ne _ _ e]; exact .inl
        | loadNull h hh ha hp => rw [h] at hu; dsimp only; rw [key _ ha (by rw [hp, hu]; simp)]; exact .inl
        | over h hn ha hp => rw [h] at hu; dsimp only; rw [key _ ha (by rw [hp, hu]; simp)]; exact .inl
        | begin h ha hp => rw [h] at hu; dsimp only; rw [key _ ha (by rw [hp, hu]; simp)]; exact .inl
        | copy h hv ha hp => rw [h] at hu; dsimp only; rw [key _ ha (by rw [hp, hu]; simp)]; exact .inl
        | beginNull h ha hp => rw [h] at hu; dsimp only; rw [key _ ha (by rw [hp, hu]; simp)]; exact .inl
        | jumpOut h ho ha hp =>
          rename_i c' p a
          have : s.al.pcs t = .at c' := by
            generalize s.pcs t = q at *
            cases q <;> simp_all [pos, Inner]
          dsimp only; rw [key _ ha (by rw [hp, this]; simp)]; exact .inl
        | nextOut h ha hp => rw [h] at hu; dsimp only; rw [key _ ha (by rw [hp, hu]; simp)]; exact .inl
        | stop h ha hp =>
          have : s.al.pcs t ≠ .idle := by
            generalize s.pcs t = q at *
            cases q <;> simp_all [on, Inner]
            rcases hu with h | ⟨c, h⟩ <;> rw [h] <;> simp
          dsimp only; rw [key _ ha (by rw [hp]; exact this)]; exact .inl
        | _ => exact .inl
      rcases hc with ⟨u, hu⟩ | hc
      · by_cases e : u = t
        · subst e
          cases hs with
          | free h =>
            rename_i x
            obtain ⟨c', j⟩ := x
            simp only [upd_same] at hu
            split at hu
            · rename_i hf
              simp only [Pc.rDel.injEq] at hu
              subst hu
              have hlt' := (hval c' j (h3 _ (h1 u _ (rm_free h)).1)).1
              have hf' := (h1 u _ (rm_free h)).2
              simp only [h9] at hf
              have := cnt_update N id (fun k => s.fre (c', k)) j true hlt'
              simp only [hf', id, Bool.false_eq_true, if_false, if_true, Nat.add_zero] at this
              have := cnt_all (p := id) (by rw [this, hf]; omega) i hlt
              simpa [upd] using this
            · cases hu
          | hop h => simp only [upd_same, arrive] at hu; split at hu <;> cases hu
          | first h => simp only [upd_same] at hu; split at hu <;> cases hu
          | alloc h => simp only [upd_same] at hu; split at hu <;> cases hu
          | _ => simp only [upd_same] at hu; cases hu
        · have : s'.pcs u = s.pcs u := by cases hs <;> simp [upd, e]
          rw [this] at hu
          exact hold (.inl ⟨u, hu⟩)
      · rcases hdel hc with h | h
        · exact hold (.inr h)
        · exact hold (.inl ⟨t, h⟩)

/-! ### Iteration -/

/-- visited, removed, or overlooked by a removal -/
def Done (s : State) (t : Nat) (x : Slot) : Prop := x ∈ s.seen t ∨ s.removed x = true ∨ s.hid x = true

structure InvD (s : State) (t : Nat) : Prop where
  snapOk : isIter (s.pcs t) = true → ∀ x, s.snap t x = true →
    s.val x ≠ none ∧ ∃ r, s.al.rank x.1 = some r ∧ r < s.al.start t
  old : isIter (s.pcs t) = true → ∀ x, s.snap t x = true → x.1 ∈ s.al.vis t → cur (s.al.pcs t) ≠ some x.1 → Done s t x
  dAt : ∀ c p, pos (s.pcs t) = some (c, p) → ∀ i, s.snap t (c, i) = true → p < i → Done s t (c, i)
  dOn : ∀ c p, on (s.pcs t) = some (c, p) → ∀ i, s.snap t (c, i) = true → p ≤ i → Done s t (c, i)
  dHop : ∀ c, s.pcs t = .iHop c → ∀ i, s.snap t (c, i) = true → Done s t (c, i)
  nonEmpty : ∀ c, s.pcs t = .iLast c → s.empt t = false → 0 < s.nxt c
  ended : s.pcs t = .iEnd → s.empt t = false → s.al.pcs t = .atEnd

/-- the thread does nothing -/
theorem InvD.frame {t : Nat} (h : InvD s t) (hm : Mono s s') (h1 : s'.pcs t = s.pcs t) (h2 : s'.al.pcs t = s.al.pcs t)
    (h3 : s'.al.vis t = s.al.vis t) (h4 : s'.al.start t = s.al.start t) (h5 : s'.snap t = s.snap t)
    (h6 : s'.seen t = s.seen t) (h7 : s'.empt t = s.empt t) : InvD s' t := by
  obtain ⟨g1, g2, g3, g4, g5, g6, g7⟩ := h
  have hD : ∀ x, Done s t x → Done s' t x := by
    rintro x (h | h | h)
    · left; rw [h6]; exact h
    · exact .inr (.inl (hm.removed _ h))
    · exact .inr (.inr (hm.hid _ h))
  constructor
  · rw [h1, h5, h4]
    intro h x hx
    obtain ⟨h8, r, h9, h10⟩ := g1 h x hx
    exact ⟨hm.val x h8, r, hm.rank _ _ h9, h10⟩
  · rw [h1, h5, h3, h2]; exact fun h x k k' k'' => hD x (g2 h x k k' k'')
  · rw [h1, h5]; exact fun c p h i k k' => hD _ (g3 c p h i k k')
  · rw [h1, h5]; exact fun c p h i k k' => hD _ (g4 c p h i k k')
  · rw [h1, h5]; exact fun c h i k => hD _ (g5 c h i k)
  · rw [h1, h7]; exact fun c h k => Nat.lt_of_lt_of_le (g6 c h k) (hm.nxt c)
  · rw [h1, h7, h2]; exact g7

/-- the thread is not iterating -/
theorem InvD.none {t : Nat} (h : isIter (s.pcs t) = false) : InvD s t := by
  constructor
  · rw [h]; simp
  · rw [h]; simp
  · intro c p h'; generalize s.pcs t = q at *; cases q <;> simp_all [isIter, pos]
  · intro c p h'; generalize s.pcs t = q at *; cases q <;> simp_all [isIter, on]
  · intro c h'; rw [h'] at h; cases h
  · intro c h'; rw [h'] at h; cases h
  · intro h'; rw [h'] at h; cases h

theorem isIter_pos {q : Pc} {x : Slot} (h : pos q = some x) : isIter q = true := by
  cases q <;> simp_all [pos, isIter]

theorem inner_pos {q : Pc} {q' : AL.Pc} {c p : Nat} (h : pos q = some (c, p)) (h' : Inner q q') : q' = .at c := by
  cases q <;> simp_all [pos, Inner]

set_option maxHeartbeats 1000000 in
theorem invD (hN : 0 < N) (h : Reach N s) : ∀ t, InvD s t := by
  induction h with
  | init => exact fun t => .none rfl
  | @step s s' t hr hs hi =>
    have hA := invA hr
    have hA' := invA (hr.step hs)
    have hB := invB hr
    have hC := invC hN hr
    have hC' := invC hN (hr.step hs)
    have hm := mono hA hs
    have hin := hA.inner t
    have hAL := AL.inv hA.al
    intro u
    by_cases hu : u = t
    · subst hu
      obtain ⟨g1, g2, g3, g4, g5, g6, g7⟩ := hi u
      cases hs with
      | copy h hv ha hp hrk e7 =>
        rename_i c p r a
        rw [h] at hin
        obtain ⟨⟨e1, e2, e3⟩, e4, -⟩ := eff_idle ha hin
        have e6 := e4 c hp
        constructor <;> dsimp only <;> simp only [upd_same]
        · intro _ x hx
          rw [Bool.and_eq_true] at hx
          have hv : s.val x ≠ none := by
            intro h; rw [h] at hx; simp at hx
          refine ⟨hv, ?_⟩
          have hb := hx.2
          rw [e2, e7]
          unfold before at hb
          split at hb
          · rename_i e; rw [e]; exact ⟨r, hrk, by omega⟩
          · split at hb
            · rename_i r1 r2 h1 h2
              have h2' : s.al.rank c = some r2 := h2
              rw [hrk] at h2'; cases h2'
              exact ⟨r1, h1, by have := of_decide_eq_true hb; omega⟩
            · cases hb
        · intro _ x hx hm hne
          rw [e6] at hm
          rw [hp] at hne
          simp only [List.mem_singleton] at hm
          rw [hm] at hne; simp [cur] at hne
        · intro c' p' h' i hsn hlt
          simp only [pos, Option.some.injEq, Prod.mk.injEq] at h'
          obtain ⟨rfl, rfl⟩ := h'
          rw [Bool.and_eq_true] at hsn
          have hb := hsn.2
          simp only [before, if_true] at hb
          have := of_decide_eq_true hb
          omega
        · simp [on]
        · simp
        · simp
        · simp
      | begin h ha hp e7 =>
        rename_i c a
        rw [h] at hin
        obtain ⟨⟨e1, e2, e3⟩, e4, -⟩ := eff_idle ha hin
        have e6 := e4 c hp
        constructor <;> dsimp only <;> simp only [upd_same]
        · intro _ x hx
          have hv : s.val x ≠ none := by
            intro h; rw [h] at hx; simp at hx
          refine ⟨hv, ?_⟩
          have := (hB.valLt x.1 x.2 hv).2
          cases hr' : s.al.rank x.1 with
          | none => have := hB.unranked _ hr'; omega
          | some r =>
            refine ⟨r, by rw [e2]; exact hr', ?_⟩
            rw [e7]; exact (hAL.lt _ _ hr').1
        · intro _ x hx hm hne
          rw [e6] at hm
          rw [hp] at hne
          simp only [List.mem_singleton] at hm
          rw [hm] at hne; simp [cur] at hne
        · simp [pos]
        · simp [on]
        · simp
        · intro c' h'; cases h'; simp; omega
        · simp
      | beginNull h ha hp =>
        rw [h] at hin
        obtain ⟨⟨e1, e2, e3⟩, -, e4⟩ := eff_idle ha hin
        obtain ⟨e5, e6, e7⟩ := e4 hp
        constructor <;> dsimp only <;> simp only [upd_same]
        · intro _ x hx
          have hv : s.val x ≠ none := by
            intro h; rw [h] at hx; simp at hx
          have := (hB.valLt x.1 x.2 hv).2
          exfalso
          cases hr' : s.al.rank x.1 with
          | none => have := hB.unranked _ hr'; omega
          | some r => have := hAL.headNone.1 e5; have := hAL.lt _ _ hr'; omega
        · intro _ x hx hm
          rw [e6] at hm; cases hm
        · simp [pos]
        · simp [on]
        · simp
        · simp
        · intro _ _; exact hp
      | last h hn =>
        rename_i c
        have hit : isIter (s.pcs u) = true := by rw [h]; rfl
        constructor <;> dsimp only <;> simp only [upd_same]
        · exact fun _ => g1 hit
        · exact fun _ => g2 hit
        · intro c' p' h' i hsn hlt
          simp only [pos, Option.some.injEq, Prod.mk.injEq] at h'
          obtain ⟨rfl, rfl⟩ := h'
          have := hB.valLt _ _ (g1 hit _ hsn).1
          omega
        · simp [on]
        · simp
        · simp
        · simp
      | lastNone h hn =>
        rename_i c
        have hit : isIter (s.pcs u) = true := by rw [h]; rfl
        constructor <;> dsimp only <;> simp only [upd_same]
        · exact fun _ => g1 hit
        · exact fun _ => g2 hit
        · simp [pos]
        · simp [on]
        · simp
        · simp
        · intro _ he
          have := g6 c h he
          omega
      | read h ho =>
        rename_i c p
        have hit : isIter (s.pcs u) = true := by rw [h]; rfl
        constructor <;> dsimp only <;> simp only [upd_same]
        · exact fun _ => g1 hit
        · exact fun _ => g2 hit
        · rw [h] at g3; exact g3
        · simp [on]
        · simp
        · simp
        · simp
      | jump h ho hp =>
        rename_i c p
        have hit := isIter_pos h
        constructor <;> dsimp only <;> simp only [upd_same]
        · exact fun _ => g1 hit
        · exact fun _ => g2 hit
        · intro c' p' h' i hsn hlt
          simp only [pos, Option.some.injEq, Prod.mk.injEq] at h'
          obtain ⟨rfl, rfl⟩ := h'
          rcases Nat.lt_trichotomy i p with e | e | e
          · exact .inr (hC.jump (c, p) i e (by simp only; omega))
          · subst e
            rcases hC.offOk (c, i) (by omega) with h' | h'
            · exact absurd h' (g1 hit _ hsn).1
            · exact .inr (.inl h')
          · exact g3 c p h i hsn e
        · simp [on]
        · simp
        · simp
        · simp
      | jumpOut h ho ha hp =>
        rename_i c p a
        have hit := isIter_pos h
        have hin' := inner_pos h hin
        obtain ⟨⟨e1, e2, e3⟩, e4, e5⟩ := eff_cur ha (c := c) (by rw [hin']; rfl)
        have e6 : a.vis u = s.al.vis u := by simp [hp, cur] at e5; exact e5
        constructor <;> dsimp only <;> simp only [upd_same]
        · intro _; rw [e2, e4]; exact g1 hit
        · intro _; rw [e6, hp]
          intro x hx hm hne
          refine g2 hit x hx hm ?_
          rw [hin']; exact hne
        · simp [pos]
        · simp [on]
        · intro c' h' i hsn
          cases h'
          rcases Nat.lt_trichotomy i p with e | e | e
          · exact .inr (hC.jump (c, p) i e (by simp only; omega))
          · subst e
            rcases hC.offOk (c, i) (by omega) with h' | h'
            · exact absurd h' (g1 hit _ hsn).1
            · exact .inr (.inl h')
          · exact g3 c p h i hsn e
        · simp
        · simp
      | visit h =>
        rename_i c p
        have hit : isIter (s.pcs u) = true := by rw [h]; rfl
        have hD : ∀ x, Done s u x → Done { s with seen := upd s.seen u ((c, p) :: s.seen u), pcs := upd s.pcs u (.iOn c p) } u x := by
          rintro x (h | h | h)
          · left; simp [h]
          · exact .inr (.inl h)
          · exact .inr (.inr h)
        constructor <;> dsimp only <;> simp only [upd_same]
        · exact fun _ => g1 hit
        · exact fun _ x h k k' => hD x (g2 hit x h k k')
        · simp [pos]
        · intro c' p' h' i hsn hle
          simp only [on, Option.some.injEq, Prod.mk.injEq] at h'
          obtain ⟨rfl, rfl⟩ := h'
          by_cases e : i = p
          · subst e; left; simp
          · exact hD _ (g3 c p (by rw [h]; rfl) i hsn (by omega))
        · simp
        · simp
        · simp
      | next h =>
        rename_i c p
        have hit : isIter (s.pcs u) = true := by rw [h]; rfl
        constructor <;> dsimp only <;> simp only [upd_same]
        · exact fun _ => g1 hit
        · exact fun _ => g2 hit
        · intro c' p' h' i hsn hlt
          simp only [pos, Option.some.injEq, Prod.mk.injEq] at h'
          obtain ⟨rfl, rfl⟩ := h'
          exact g4 c (p + 1) (by rw [h]; rfl) i hsn (by omega)
        · simp [on]
        · simp
        · simp
        · simp
      | nextOut h ha hp =>
        rename_i c a
        have hit : isIter (s.pcs u) = true := by rw [h]; rfl
        rw [h] at hin
        have hin' : s.al.pcs u = .at c := hin
        obtain ⟨⟨e1, e2, e3⟩, e4, e5⟩ := eff_cur ha (c := c) (by rw [hin']; rfl)
        have e6 : a.vis u = s.al.vis u := by simp [hp, cur] at e5; exact e5
        constructor <;> dsimp only <;> simp only [upd_same]
        · intro _; rw [e2, e4]; exact g1 hit
        · intro _; rw [e6, hp]
          intro x hx hm hne
          refine g2 hit x hx hm ?_
          rw [hin']; exact hne
        · simp [pos]
        · simp [on]
        · intro c' h' i hsn
          cases h'
          exact g4 c 0 (by rw [h]; rfl) i hsn (by omega)
        · simp
        · simp
      | hop h ha hd =>
        rename_i c a
        have hit : isIter (s.pcs u) = true := by rw [h]; rfl
        rw [h] at hin
        have hin' : cur (s.al.pcs u) = some c ∧ s.al.pcs u ≠ .at c := hin
        obtain ⟨⟨e1, e2, e3⟩, e4, e5⟩ := eff_cur ha hin'.1
        have hold : ∀ x, s.snap u x = true → x.1 ∈ s.al.vis u → Done s u x := by
          intro x hx hm
          by_cases e : x.1 = c
          · have := g5 c h x.2 (by rw [← e]; exact hx)
            rw [← e] at this; exact this
          · exact g2 hit x hx hm (by rw [hin'.1]; simp; exact fun h => e h.symm)
        rcases e5 with ⟨k1, k2, k3⟩ | ⟨q, k1, k2, k3, k4⟩ | ⟨k1, k2, k3⟩ | ⟨k1, -⟩
        · have ear : arrive c (a.pcs u) = .iHop c := by
            have : a.pcs u ≠ .at c := fun h => hin'.2 (k3 h)
            generalize a.pcs u = q at *
            cases q <;> simp_all [arrive, cur]
          constructor <;> dsimp only <;> simp only [upd_same, ear]
          · intro _; rw [e2, e4]; exact g1 hit
          · intro _ x hx hm _; rw [k2] at hm; exact hold x hx hm
          · simp [pos]
          · simp [on]
          · intro c' h'; cases h'; exact g5 c h
          · simp
          · simp
        · have ear : arrive c (a.pcs u) = .iLast q := by rw [k1]; rfl
          constructor <;> dsimp only <;> simp only [upd_same, ear]
          · intro _; rw [e2, e4]; exact g1 hit
          · intro _ x hx hm hne
            rw [k2] at hm
            rw [k1] at hne
            rcases List.mem_cons.1 hm with e | e
            · rw [e] at hne; simp [cur] at hne
            · exact hold x hx e
          · simp [pos]
          · simp [on]
          · simp
          · intro c' h' _
            cases h'
            obtain ⟨r, hr'⟩ := hAL.curRank u c hin'.1
            have := hAL.older c r hr'
            rw [k3] at this
            obtain ⟨rq, h6, h7, -⟩ := this
            have := hB.old q (by rw [h6]; simp) (by
              intro hh
              have := hAL.headSome q hh
              rw [h6] at this
              cases this
              have := (hAL.lt c r hr').1
              omega)
            omega
          · simp
        · have ear : arrive c (a.pcs u) = .iEnd := by rw [k1]; rfl
          constructor <;> dsimp only <;> simp only [upd_same, ear]
          · intro _; rw [e2, e4]; exact g1 hit
          · intro _ x hx hm _; rw [k2] at hm; exact hold x hx hm
          · simp [pos]
          · simp [on]
          · simp
          · simp
          · intro _ _; exact k1
        · exact absurd k1 hin'.2
      | stop h ha hp => exact .none (by simp [isIter])
      | first h => exact .none (by simp only [upd_same]; split <;> rfl)
      | alloc h => exact .none (by simp only [upd_same]; split <;> rfl)
      | free h => exact .none (by simp only [upd_same]; split <;> rfl)
      | _ => exact .none (by simp [isIter])
    · have e1 : s'.pcs u = s.pcs u ∧ s'.snap u = s.snap u ∧ s'.seen u = s.seen u ∧ s'.empt u = s.empt u := by
        clear hi hA hA' hB hC hC' hm hin hAL
        cases hs <;> simp [upd, hu]
      have e2 : s'.al.pcs u = s.al.pcs u ∧ s'.al.vis u = s.al.vis u ∧ s'.al.start u = s.al.start u := by
        rcases hs.al with h | h
        · rw [h]; exact ⟨rfl, rfl, rfl⟩
        · exact CoL.frame h hu
      exact (hi u).frame hm e1.1 e2.1 e2.2.1 e2.2.2 e1.2.1 e1.2.2.1 e1.2.2.2

end RG.CoL
