import Verif.Model.ChunkedList
/-
Invariant and operations of the sequential list.
-/
set_option linter.unusedVariables false
set_option linter.unusedSectionVars false
namespace RG.CL

variable {α : Type}

/-- the greatest index below `k` that is alive -/
def below (alive : Nat → Bool) : Nat → Option Nat
  | 0 => none
  | k + 1 => if alive k then some k else below alive k

theorem below_skip {alive : Nat → Bool} {a b : Nat} (h : a ≤ b)
    (hd : ∀ j, a ≤ j → j < b → alive j = false) : below alive b = below alive a := by
  induction b with
  | zero => have : a = 0 := by omega
            subst this; rfl
  | succ b ih =>
    by_cases e : a = b + 1
    · subst e; rfl
    · rw [below, hd b (by omega) (by omega)]
      simp only [Bool.false_eq_true, if_false]
      exact ih (by omega) (fun j h1 h2 => hd j h1 (by omega))

theorem below_some {alive : Nat → Bool} {k j : Nat} (h : below alive k = some j) : j < k ∧ alive j = true := by
  induction k with
  | zero => cases h
  | succ k ih =>
    rw [below] at h
    split at h
    · cases h; exact ⟨by omega, by assumption⟩
    · have := ih h; exact ⟨by omega, this.2⟩

def posOf (N k : Nat) : Pos := ⟨k / N, k⟩

theorem div_chunk {N c p : Nat} (h1 : c * N ≤ p) (h2 : p < c * N + N) : p / N = c := by
  have hN : 0 < N := by omega
  apply Nat.div_eq_of_lt_le
  · exact h1
  · rw [Nat.succ_mul]; omega

theorem cnt_full {n : Nat} {β : Type} {p : β → Bool} {f : Nat → β} (h : cnt n p f = n) :
    ∀ t, t < n → p (f t) = true := by
  intro t ht
  induction n with
  | zero => omega
  | succ n ih =>
    rw [cnt_succ] at h
    have := cnt_le n p f
    by_cases hp : p (f n) = true
    · rw [if_pos hp] at h
      by_cases e : t = n
      · subst e; exact hp
      · exact ih (by omega) (by omega)
    · rw [if_neg hp] at h; omega

/-- slot `i` of chunk `c` has been used and its value removed -/
def isGone (N n : Nat) (alive : Nat → Bool) (c i : Nat) : Bool := decide (c * N + i < n) && !alive (c * N + i)

structure Inv (N : Nat) (l : LList α) (vals : List α) (alive : Nat → Bool) (H : Nat → Nat) : Prop where
  err : l.err = false
  head : l.head = if l.nch = 0 then none else some (l.nch - 1)
  empty : l.nch = 0 → vals = []
  len : ∀ m, l.nch = m + 1 → vals.length = m * N + l.next m ∧ l.next m ≤ N
  full : ∀ c, c + 1 < l.nch → l.next c = N + 1
  val : ∀ k, k < vals.length → (l.items k).val = vals[k]?
  aliveLt : ∀ k, alive k = true → k < vals.length
  holdLt : ∀ k, 0 < H k → k < vals.length
  live : ∀ k, alive k = true → (l.items k).off = 0 ∧ (l.items k).ref = H k ∧ (l.items k).dtors = 0
  gone : ∀ c i, i < N → c * N + i < vals.length → alive (c * N + i) = false →
    1 ≤ (l.items (c * N + i)).off ∧ (l.items (c * N + i)).off ≤ i + 1 ∧
    (∀ j, j ≤ i → i < j + (l.items (c * N + i)).off → alive (c * N + j) = false) ∧
    (l.items (c * N + i)).ref = (H (c * N + i) : Int) - 1 ∧
    (l.items (c * N + i)).dtors = if H (c * N + i) = 0 then 1 else 0
  fresh : ∀ k, vals.length ≤ k → k < l.nch * N → l.items k = Item.fresh
  freed : ∀ c, c < l.nch → l.freed c = cnt N id (isGone N vals.length alive c)
  deleted : ∀ c, c < l.nch → (l.deleted c = true ↔ l.freed c = N)
  prevSome : ∀ c q, c < l.nch → l.prev c = some q → q < c ∧ ∀ d, q < d → d < c → l.deleted d = true
  prevNone : ∀ c, c < l.nch → l.prev c = none → ∀ d, d < c → l.deleted d = true

variable {N : Nat} {l : LList α} {vals : List α} {alive : Nat → Bool} {H : Nat → Nat}

theorem Inv.dead_chunk (hi : Inv N l vals alive H) {c : Nat} (hc : c < l.nch) (hd : l.deleted c = true)
    {i : Nat} (hl : i < N) : alive (c * N + i) = false := by
  have h1 := (hi.deleted c hc).1 hd
  rw [hi.freed c hc] at h1
  have := cnt_full h1 i hl
  simp only [isGone, id, Bool.and_eq_true] at this
  simpa using this.2

/-- a slot in a dead chunk is not alive -/
theorem Inv.dead_slot (hi : Inv N l vals alive H) (hN : 0 < N) {k : Nat} (hc : k / N < l.nch)
    (hd : l.deleted (k / N) = true) : alive k = false := by
  have := hi.dead_chunk hc hd (i := k % N) (Nat.mod_lt _ hN)
  rwa [Nat.mul_comm, Nat.div_add_mod] at this

theorem len_bound (hi : Inv N l vals alive H) {c : Nat} (hc : c < l.nch) :
    (c + 1 < l.nch → c * N + N ≤ vals.length) ∧ vals.length ≤ l.nch * N := by
  obtain ⟨m, hm⟩ : ∃ m, l.nch = m + 1 := ⟨l.nch - 1, by omega⟩
  have := hi.len m hm
  have h1 : c * N ≤ m * N := Nat.mul_le_mul_right _ (by omega)
  refine ⟨?_, ?_⟩
  · intro h
    have : (c + 1) * N ≤ m * N := Nat.mul_le_mul_right _ (by omega)
    rw [Nat.succ_mul] at this
    omega
  · rw [hm, Nat.succ_mul]; omega

/-! ### nextChunk -/

theorem Inv.skip (hi : Inv N l vals alive H) : ∀ (n c : Nat) (p : Option Nat), c < l.nch → n = c + 1 →
    (∀ q, p = some q → q < c ∧ ∀ d, q < d → d < c → l.deleted d = true) →
    (p = none → ∀ d, d < c → l.deleted d = true) →
    ∀ m, (∀ q, p = some q → q < m) →
    (∀ q, l.skip m p = some q → q < c ∧ l.deleted q = false ∧ ∀ d, q < d → d < c → l.deleted d = true) ∧
    (l.skip m p = none → ∀ d, d < c → l.deleted d = true) := by
  intro n c p hc hn h1 h2 m hm
  induction m generalizing p with
  | zero =>
    cases p with
    | none => exact ⟨by simp [LList.skip], fun _ => h2 rfl⟩
    | some q => exact absurd (hm q rfl) (by omega)
  | succ m ih =>
    cases p with
    | none => exact ⟨by simp [LList.skip], fun _ => h2 rfl⟩
    | some q =>
      have hq := h1 q rfl
      simp only [LList.skip]
      by_cases hd : l.deleted q = true
      · rw [if_pos hd]
        apply ih
        · intro q' hq'
          have := hi.prevSome q q' (by omega) hq'
          refine ⟨by omega, fun d hd1 hd2 => ?_⟩
          rcases Nat.lt_trichotomy d q with h | h | h
          · exact this.2 d hd1 h
          · subst h; exact hd
          · exact hq.2 d h hd2
        · intro hn' d hd2
          rcases Nat.lt_trichotomy d q with h | h | h
          · exact hi.prevNone q (by omega) hn' d h
          · subst h; exact hd
          · exact hq.2 d h hd2
        · intro q' hq'
          have := (hi.prevSome q q' (by omega) hq').1
          have := hm q rfl
          omega
      · rw [if_neg hd]
        refine ⟨?_, by simp⟩
        intro q' hq'
        cases hq'
        exact ⟨hq.1, by simpa using hd, hq.2⟩

theorem Inv.nextChunk (hi : Inv N l vals alive H) {c : Nat} (hc : c < l.nch) :
    Inv N (l.nextChunk c).1 vals alive H ∧ (l.nextChunk c).1.nch = l.nch ∧
    (l.nextChunk c).1.items = l.items ∧ (l.nextChunk c).1.next = l.next ∧
    (∀ q, (l.nextChunk c).2 = some q → q < c ∧ ∀ d, q < d → d < c → l.deleted d = true) ∧
    ((l.nextChunk c).2 = none → ∀ d, d < c → l.deleted d = true) := by
  have hs := hi.skip (c + 1) c (l.prev c) hc rfl (fun q hq => hi.prevSome c q hc hq) (fun h => hi.prevNone c hc h)
    (c + 1) (fun q hq => by have := (hi.prevSome c q hc hq).1; omega)
  refine ⟨?_, rfl, rfl, rfl, fun q hq => ⟨(hs.1 q hq).1, (hs.1 q hq).2.2⟩, hs.2⟩
  refine { hi with prevSome := ?_, prevNone := ?_ }
  · intro c' q hc' hq
    simp only [LList.nextChunk] at hq ⊢
    rcases upd_eq hq with ⟨rfl, h⟩ | ⟨_, h⟩
    · exact ⟨(hs.1 q h).1, (hs.1 q h).2.2⟩
    · exact hi.prevSome c' q hc' h
  · intro c' hc' hq
    simp only [LList.nextChunk] at hq ⊢
    rcases upd_eq hq with ⟨rfl, h⟩ | ⟨_, h⟩
    · exact hs.2 h
    · exact hi.prevNone c' hc' h

/-! ### seek -/

theorem upd_self {κ β : Type} [DecidableEq κ] (f : κ → β) (i : κ) : upd f i (f i) = f := by
  funext x
  unfold upd
  split <;> simp_all

/-- the iterator that results from searching below `k` -/
def Found (N : Nat) (l' : LList α) (r : Option Pos) (vals : List α) (alive : Nat → Bool) (H : Nat → Nat)
    (b : Option Nat) : Prop :=
  match b with
  | none => r = none ∧ Inv N l' vals alive H
  | some k => r = some (posOf N k) ∧ Inv N l' vals alive (upd H k (H k + 1))

theorem Inv.acquire (hi : Inv N l vals alive H) {k : Nat} (hk : alive k = true) :
    Inv N { l with items := upd l.items k { l.items k with ref := (l.items k).ref + 1 } } vals alive
      (upd H k (H k + 1)) := by
  have hlt := hi.aliveLt k hk
  constructor
  · exact hi.err
  · exact hi.head
  · exact hi.empty
  · exact hi.len
  · exact hi.full
  · intro j hj
    have := hi.val j hj
    by_cases e : j = k
    · subst e; simpa using this
    · simpa [upd_ne _ _ e] using this
  · exact hi.aliveLt
  · intro j hj
    by_cases e : j = k
    · subst e; exact hlt
    · rw [upd_ne _ _ e] at hj; exact hi.holdLt j hj
  · intro j hj
    have := hi.live j hj
    by_cases e : j = k
    · subst e; simp only [upd_same]; omega
    · simpa [upd_ne _ _ e] using this
  · intro c i hiN hl hd
    have e : c * N + i ≠ k := by rintro rfl; rw [hk] at hd; cases hd
    have := hi.gone c i hiN hl hd
    simpa [upd_ne _ _ e] using this
  · intro j h1 h2
    have e : j ≠ k := by omega
    simpa [upd_ne _ _ e] using hi.fresh j h1 h2
  · exact hi.freed
  · exact hi.deleted
  · exact hi.prevSome
  · exact hi.prevNone

theorem lastItem_eq (hi : Inv N l vals alive H) (hN : 0 < N) {d : Nat} (hd : d + 1 < l.nch) :
    l.lastItem N d = some (d * N + N - 1) := by
  have := hi.full d hd
  unfold LList.lastItem
  rw [if_neg (by omega), this]
  congr 1
  omega

theorem Inv.seek (hN : 0 < N) : ∀ (n : Nat) (l : LList α) (c p : Nat), Inv N l vals alive H → c < l.nch →
    c * N ≤ p → p < c * N + N → p < vals.length → p < n →
    Found N (l.seek N n c p).1 (l.seek N n c p).2 vals alive H (below alive (p + 1)) := by
  intro n
  induction n with
  | zero => intros; omega
  | succ n ih =>
    intro l c p hi hc h1 h2 hp hn
    obtain ⟨i, rfl⟩ : ∃ i, p = c * N + i := ⟨p - c * N, by omega⟩
    by_cases ha : alive (c * N + i) = true
    · have hl := hi.live _ ha
      have hacq : (l.items (c * N + i)).acquire =
          ({ l.items (c * N + i) with ref := (l.items (c * N + i)).ref + 1 }, 0) := by
        unfold Item.acquire
        rw [if_pos ⟨hl.1, by omega⟩]
        exact Prod.ext rfl hl.1
      simp only [LList.seek, hacq, if_true]
      rw [below, if_pos ha]
      simp only [Found, posOf]
      exact ⟨by rw [div_chunk h1 h2], hi.acquire ha⟩
    · have ha : alive (c * N + i) = false := by simpa using ha
      have hg := hi.gone c i (by omega) hp ha
      have hacq : (l.items (c * N + i)).acquire = (l.items (c * N + i), (l.items (c * N + i)).off) := by
        unfold Item.acquire
        rw [if_neg (fun h => by omega)]
      rw [LList.seek]
      simp only [hacq, upd_self]
      rw [if_neg (by omega)]
      by_cases hstep : c * N + i < c * N + (l.items (c * N + i)).off
      · rw [if_pos hstep]
        have hall : ∀ j, c * N ≤ j → j < c * N + i + 1 → alive j = false := by
          intro j hj1 hj2
          obtain ⟨j', rfl⟩ : ∃ j', j = c * N + j' := ⟨j - c * N, by omega⟩
          exact hg.2.2.1 j' (by omega) (by omega)
        rw [below_skip (a := c * N) (by omega) hall]
        obtain ⟨hi', e1, e2, e3, e4, e5⟩ := hi.nextChunk hc
        have hsame : ({ l with items := l.items } : LList α) = l := rfl
        cases hnc : l.nextChunk c with
        | mk l' d =>
          rw [hnc] at hi' e1 e2 e3 e4 e5
          cases d with
          | none =>
            dsimp only
            rw [below_skip (a := 0) (by omega) ?_]
            · exact ⟨rfl, hi'⟩
            · intro j _ hj
              have hjc : j / N < c := (Nat.div_lt_iff_lt_mul hN).2 hj
              exact hi.dead_slot hN (by omega) (e5 rfl _ hjc)
          | some d =>
            have hd := e4 d rfl
            dsimp only at hi' e1 e2 e3 ⊢
            have hlast := lastItem_eq hi' hN (d := d) (by omega)
            rw [hlast]
            dsimp only
            have hb := len_bound hi' (c := d) (by omega)
            have hdc : d * N + N ≤ c * N := by
              have : (d + 1) * N ≤ c * N := Nat.mul_le_mul_right _ (by omega)
              rwa [Nat.succ_mul] at this
            rw [below_skip (a := d * N + N - 1 + 1) (by omega) ?_]
            · exact ih l' d _ hi' (by omega) (by omega) (by omega) (by have := hb.1 (by omega); omega) (by omega)
            · intro j hj1 hj2
              have hjc : j / N < c := (Nat.div_lt_iff_lt_mul hN).2 hj2
              have hjd : d < j / N := by
                rw [Nat.lt_iff_add_one_le, Nat.le_div_iff_mul_le hN, Nat.succ_mul]; omega
              exact hi.dead_slot hN (by omega) (hd.2 _ hjd hjc)
      · rw [if_neg hstep]
        rw [below_skip (a := c * N + i - (l.items (c * N + i)).off + 1) (by omega) ?_]
        · exact ih l c _ hi hc (by omega) (by omega) (by omega) (by omega)
        · intro j hj1 hj2
          obtain ⟨j', rfl⟩ : ∃ j', j = c * N + j' := ⟨j - c * N, by omega⟩
          exact hg.2.2.1 j' (by omega) (by omega)

theorem Inv.mkIter (hN : 0 < N) (hi : Inv N l vals alive H) {k : Nat} (hk : k < vals.length) (hc : k / N < l.nch) :
    Found N (l.mkIter N (k / N) k).1 (l.mkIter N (k / N) k).2 vals alive H (below alive (k + 1)) := by
  have h := Nat.div_add_mod k N
  have h' := Nat.mod_lt k hN
  rw [Nat.mul_comm] at h
  exact Inv.seek hN (k + 1) l (k / N) k hi hc (by omega) (by omega) hk (by omega)

theorem Inv.chunk_lt (hN : 0 < N) (hi : Inv N l vals alive H) {k : Nat} (hk : k < vals.length) : k / N < l.nch := by
  rw [Nat.div_lt_iff_lt_mul hN]
  obtain hz | ⟨m, hm⟩ : l.nch = 0 ∨ ∃ m, l.nch = m + 1 := by
    cases l.nch with
    | zero => exact .inl rfl
    | succ m => exact .inr ⟨m, rfl⟩
  · rw [hi.empty hz] at hk; cases hk
  · have := hi.len m hm
    rw [hm, Nat.succ_mul]; omega

/-! ### drop -/

theorem Inv.drop (hN : 0 < N) (hi : Inv N l vals alive H) {k : Nat} (hk : 0 < H k) :
    Inv N (l.drop (some (posOf N k))) vals alive (upd H k (H k - 1)) := by
  have hlt := hi.holdLt k hk
  have hm := Nat.div_add_mod k N
  have hm' := Nat.mod_lt k hN
  rw [Nat.mul_comm] at hm
  have hg := hi.gone (k / N) (k % N) hm' (by omega)
  rw [hm] at hg
  have hl := hi.live k
  unfold LList.drop posOf
  simp only [Item.release]
  cases ha : alive k with
  | true =>
    obtain ⟨h1, h2, h3⟩ := hl ha
    rw [if_neg (by omega)]
    constructor
    · simp only [hi.err]; simp; omega
    · exact hi.head
    · exact hi.empty
    · exact hi.len
    · exact hi.full
    · intro j hj
      have := hi.val j hj
      by_cases e : j = k
      · subst e; simpa using this
      · simpa [upd_ne _ _ e] using this
    · exact hi.aliveLt
    · intro j hj
      by_cases e : j = k
      · subst e; exact hlt
      · rw [upd_ne _ _ e] at hj; exact hi.holdLt j hj
    · intro j hj
      have := hi.live j hj
      by_cases e : j = k
      · subst e; simp only [upd_same]; omega
      · simpa [upd_ne _ _ e] using this
    · intro c i hiN hl hd
      have e : c * N + i ≠ k := by rintro rfl; rw [ha] at hd; cases hd
      have := hi.gone c i hiN hl hd
      simpa [upd_ne _ _ e] using this
    · intro j h1 h2
      have e : j ≠ k := by omega
      simpa [upd_ne _ _ e] using hi.fresh j h1 h2
    · exact hi.freed
    · exact hi.deleted
    · exact hi.prevSome
    · exact hi.prevNone
  | false =>
    obtain ⟨h1, h2, h3, h4, h5⟩ := hg ha
    rw [if_neg (by omega)] at h5
    have key : ∀ it : Item α, it.val = (l.items k).val → it.off = (l.items k).off → it.ref = (H k : Int) - 2 →
        it.dtors = (if H k = 1 then 1 else 0) →
        Inv N { l with items := upd l.items k it } vals alive (upd H k (H k - 1)) := by
      intro it e1 e2 e3 e4
      constructor
      · exact hi.err
      · exact hi.head
      · exact hi.empty
      · exact hi.len
      · exact hi.full
      · intro j hj
        have := hi.val j hj
        by_cases e : j = k
        · subst e; simpa [e1] using this
        · simpa [upd_ne _ _ e] using this
      · exact hi.aliveLt
      · intro j hj
        by_cases e : j = k
        · subst e; exact hlt
        · rw [upd_ne _ _ e] at hj; exact hi.holdLt j hj
      · intro j hj
        have e : j ≠ k := by rintro rfl; rw [ha] at hj; cases hj
        simpa [upd_ne _ _ e] using hi.live j hj
      · intro c i hiN hl hd
        have := hi.gone c i hiN hl hd
        by_cases e : c * N + i = k
        · rw [e] at this ⊢
          simp only [upd_same, e2, e3, e4]
          refine ⟨this.1, this.2.1, this.2.2.1, by omega, ?_⟩
          split <;> split <;> omega
        · simpa [upd_ne _ _ e] using this
      · intro j h1 h2
        have e : j ≠ k := by omega
        simpa [upd_ne _ _ e] using hi.fresh j h1 h2
      · exact hi.freed
      · exact hi.deleted
      · exact hi.prevSome
      · exact hi.prevNone
    by_cases h0 : (l.items k).ref = 0
    · rw [if_pos h0]
      have := key { l.items k with ref := (l.items k).ref - 1, dtors := (l.items k).dtors + 1 } rfl rfl
        (by dsimp only; omega) (by dsimp only; rw [if_pos (by omega)]; omega)
      simpa using this
    · rw [if_neg h0]
      have := key { l.items k with ref := (l.items k).ref - 1 } rfl rfl
        (by dsimp only; omega) (by dsimp only; rw [if_neg (by omega)]; omega)
      have h00 : decide (0 ≤ (l.items k).ref) = true := by simp; omega
      rw [h00]
      simpa using this

/-! ### remove -/

theorem Inv.remove (hN : 0 < N) (hi : Inv N l vals alive H) {k : Nat} (hk : alive k = true) :
    Inv N (l.remove N (posOf N k)) vals (upd alive k false) H := by
  have hlt := hi.aliveLt k hk
  have hm := Nat.div_add_mod k N
  have hm' := Nat.mod_lt k hN
  rw [Nat.mul_comm] at hm
  have hc := hi.chunk_lt hN hlt
  generalize k / N = c at hm hc
  generalize k % N = i at hm hm'
  subst hm
  obtain ⟨h1, h2, h3⟩ := hi.live _ hk
  -- the new offset
  obtain ⟨off, hoff⟩ : ∃ off, off = if c * N + i = c * N then 1 else (l.items (c * N + i - 1)).off + 1 := ⟨_, rfl⟩
  have hoff' : 1 ≤ off ∧ off ≤ i + 1 ∧ ∀ j, j ≤ i → i < j + off → upd alive (c * N + i) false (c * N + j) = false := by
    by_cases h0 : i = 0
    · subst h0
      simp only [Nat.add_zero, if_true] at hoff
      refine ⟨by omega, by omega, ?_⟩
      intro j hj _
      have : j = 0 := by omega
      subst this; simp
    · rw [if_neg (by omega)] at hoff
      have e : c * N + i - 1 = c * N + (i - 1) := by omega
      rw [e] at hoff
      cases ha : alive (c * N + (i - 1)) with
      | true =>
        have := (hi.live _ ha).1
        refine ⟨by omega, by omega, ?_⟩
        intro j hj h
        have : j = i := by omega
        subst this; simp
      | false =>
        obtain ⟨g1, g2, g3, -⟩ := hi.gone c (i - 1) (by omega) (by omega) ha
        refine ⟨by omega, by omega, ?_⟩
        intro j hj h
        by_cases e : j = i
        · subst e; simp
        · rw [upd_ne _ _ (by omega)]
          exact g3 j (by omega) (by omega)
  have hdiv : (c * N + i) / N = c := div_chunk (by omega) (by omega)
  have hgone : isGone N vals.length (upd alive (c * N + i) false) c =
      fun x => if x = i then true else isGone N vals.length alive c x := by
    funext x
    unfold isGone
    by_cases e : x = i
    · subst e; simp [hlt]
    · rw [upd_ne _ _ (by omega)]; simp [e]
  have hcnt : cnt N id (isGone N vals.length (upd alive (c * N + i) false) c) =
      cnt N id (isGone N vals.length alive c) + 1 := by
    rw [hgone]
    have := cnt_update N id (isGone N vals.length alive c) i true hm'
    have hf : isGone N vals.length alive c i = false := by simp [isGone, hk]
    simp only [id, hf, Bool.false_eq_true, if_false, if_true, Nat.add_zero] at this
    exact this
  have hcnt' : ∀ d, d ≠ c → cnt N id (isGone N vals.length (upd alive (c * N + i) false) d) =
      cnt N id (isGone N vals.length alive d) := by
    intro d hd
    apply cnt_congr
    intro x hx
    have : d * N + x ≠ c * N + i := by
      intro e
      have h1 := div_chunk (N := N) (c := d) (p := d * N + x) (by omega) (by omega)
      rw [e, hdiv] at h1
      exact hd h1.symm
    simp [isGone, upd_ne _ _ this]
  have hle := cnt_le N id (isGone N vals.length (upd alive (c * N + i) false) c)
  have key : ∀ it : Item α, it.val = (l.items (c * N + i)).val → it.off = off → it.ref = (H (c * N + i) : Int) - 1 →
      it.dtors = (if H (c * N + i) = 0 then 1 else 0) →
      Inv N (LList.releaseChunk N { l with items := upd l.items (c * N + i) it } c) vals
        (upd alive (c * N + i) false) H := by
    intro it e1 e2 e3 e4
    have hdel : ∀ d, (LList.releaseChunk N { l with items := upd l.items (c * N + i) it } c).deleted d = true ↔
        l.deleted d = true ∨ (d = c ∧ l.freed c = N - 1) := by
      intro d
      unfold LList.releaseChunk
      by_cases hf : l.freed c = N - 1
      · simp only [hf, if_true]
        by_cases e : d = c
        · subst e; simp
        · simp [upd_ne _ _ e, e]
      · simp [hf]
    constructor
    · exact hi.err
    · exact hi.head
    · exact hi.empty
    · exact hi.len
    · exact hi.full
    · intro j hj
      have := hi.val j hj
      dsimp only [LList.releaseChunk]
      by_cases e : j = c * N + i
      · subst e; simpa [e1] using this
      · simpa [upd_ne _ _ e] using this
    · intro j hj
      by_cases e : j = c * N + i
      · subst e; simp at hj
      · rw [upd_ne _ _ e] at hj; exact hi.aliveLt j hj
    · exact hi.holdLt
    · intro j hj
      by_cases e : j = c * N + i
      · subst e; simp at hj
      · rw [upd_ne _ _ e] at hj
        simpa [LList.releaseChunk, upd_ne _ _ e] using hi.live j hj
    · intro d j hjN hl hd
      dsimp only [LList.releaseChunk]
      by_cases e : d * N + j = c * N + i
      · have hdc : d = c := by
          have h1 := div_chunk (N := N) (c := d) (p := d * N + j) (by omega) (by omega)
          rw [e, hdiv] at h1
          exact h1.symm
        subst hdc
        have : j = i := by omega
        subst this
        simp only [upd_same, e2, e3, e4]
        exact ⟨hoff'.1, hoff'.2.1, hoff'.2.2, by simp⟩
      · rw [upd_ne _ _ e] at hd
        obtain ⟨g1, g2, g3, g4⟩ := hi.gone d j hjN hl hd
        rw [upd_ne _ _ e]
        refine ⟨g1, g2, ?_, g4⟩
        intro x hx1 hx2
        unfold upd
        split
        · rfl
        · exact g3 x hx1 hx2
    · intro j h1 h2
      have e : j ≠ c * N + i := by omega
      simpa [LList.releaseChunk, upd_ne _ _ e] using hi.fresh j h1 h2
    · intro d hd
      dsimp only [LList.releaseChunk]
      by_cases e : d = c
      · subst e; rw [upd_same, hcnt, hi.freed d hd]
      · rw [upd_ne _ _ e, hcnt' d e]; exact hi.freed d hd
    · intro d hd
      rw [hdel]
      dsimp only [LList.releaseChunk]
      have := hi.deleted d hd
      by_cases e : d = c
      · subst e
        rw [upd_same, this]
        have h1 := hi.freed d hd
        rw [hcnt] at hle
        simp only [true_and]
        omega
      · rw [upd_ne _ _ e, this]; simp [e]
    · intro d q hd hq
      obtain ⟨g1, g2⟩ := hi.prevSome d q hd hq
      exact ⟨g1, fun x hx1 hx2 => (hdel x).2 (.inl (g2 x hx1 hx2))⟩
    · intro d hd hq x hx
      exact (hdel x).2 (.inl (hi.prevNone d hd hq x hx))
  unfold LList.remove posOf
  rw [hdiv]
  dsimp only
  rw [← hoff]
  unfold Item.release
  by_cases h0 : (l.items (c * N + i)).ref = 0
  · rw [if_pos h0]
    have := key ⟨(l.items (c * N + i)).val, off, (l.items (c * N + i)).ref - 1,
      (l.items (c * N + i)).dtors + 1⟩ rfl rfl
      (by dsimp only; omega) (by dsimp only; rw [if_pos (by omega)]; omega)
    simpa using this
  · rw [if_neg h0]
    have := key ⟨(l.items (c * N + i)).val, off, (l.items (c * N + i)).ref - 1, (l.items (c * N + i)).dtors⟩ rfl rfl
      (by dsimp only; omega) (by dsimp only; rw [if_neg (by omega)]; omega)
    have h00 : decide (0 ≤ (l.items (c * N + i)).ref) = true := by
      rw [decide_eq_true_eq]; omega
    dsimp only
    rw [h00]
    simpa using this

/-! ### push -/

theorem Inv.alloc {l' : LList α} (hN : 0 < N) (hi : Inv N l vals alive H) (hfull : vals.length = l.nch * N)
    (hl' : l' = { l with next := l'.next }) (hnext : ∀ c, c < l.nch → l'.next c = N + 1) :
    Inv N (l'.allocChunk N) vals alive H ∧ (l'.allocChunk N).nch = l.nch + 1 ∧
      (l'.allocChunk N).next l.nch = 0 := by
  obtain ⟨nch, head, prev, deleted, next, freed, items, err⟩ := l'
  simp only [LList.mk.injEq] at hl'
  obtain ⟨rfl, rfl, rfl, rfl, -, rfl, rfl, rfl⟩ := hl'
  dsimp only at hnext
  have hitems : ∀ k, k < vals.length → ¬ (l.nch * N ≤ k ∧ k < l.nch * N + N) := by intro k hk; omega
  refine ⟨?_, rfl, by simp [LList.allocChunk]⟩
  constructor
  · exact hi.err
  · simp [LList.allocChunk]
  · intro h; simp [LList.allocChunk] at h
  · intro m hm
    simp only [LList.allocChunk] at hm ⊢
    have : m = l.nch := by omega
    subst this
    simp [hfull]
  · intro c hc
    simp only [LList.allocChunk] at hc ⊢
    rw [upd_ne _ _ (by omega)]
    exact hnext c (by omega)
  · intro k hk
    simp only [LList.allocChunk]
    rw [if_neg (hitems k hk)]
    exact hi.val k hk
  · exact hi.aliveLt
  · exact hi.holdLt
  · intro k hk
    simp only [LList.allocChunk]
    rw [if_neg (hitems k (hi.aliveLt k hk))]
    exact hi.live k hk
  · intro c i hiN hl hd
    simp only [LList.allocChunk]
    rw [if_neg (hitems _ hl)]
    exact hi.gone c i hiN hl hd
  · intro k h1 h2
    simp only [LList.allocChunk] at h2 ⊢
    rw [Nat.succ_mul] at h2
    rw [if_pos (by omega)]
  · intro c hc
    simp only [LList.allocChunk] at hc ⊢
    by_cases e : c = l.nch
    · subst e
      rw [upd_same]
      symm
      rw [cnt_eq_zero]
      intro t ht
      simp only [isGone, id, Bool.and_eq_false_iff, decide_eq_false_iff_not]
      left; omega
    · rw [upd_ne _ _ e]; exact hi.freed c (by omega)
  · intro c hc
    simp only [LList.allocChunk] at hc ⊢
    by_cases e : c = l.nch
    · subst e; simp; omega
    · rw [upd_ne _ _ e, upd_ne _ _ e]; exact hi.deleted c (by omega)
  · intro c q hc hq
    simp only [LList.allocChunk] at hc hq ⊢
    rcases upd_eq hq with ⟨rfl, h⟩ | ⟨e, h⟩
    · rw [hi.head] at h
      split at h
      · cases h
      · cases h
        exact ⟨by omega, fun d h1 h2 => by omega⟩
    · obtain ⟨g1, g2⟩ := hi.prevSome c q (by omega) h
      refine ⟨g1, fun d h1 h2 => ?_⟩
      rw [upd_ne _ _ (by omega)]; exact g2 d h1 h2
  · intro c hc hq d hd
    simp only [LList.allocChunk] at hc hq ⊢
    rcases upd_eq hq with ⟨rfl, h⟩ | ⟨e, h⟩
    · rw [hi.head] at h
      split at h
      · omega
      · cases h
    · rw [upd_ne _ _ (by omega)]; exact hi.prevNone c (by omega) h d hd

theorem Inv.assign (hi : Inv N l vals alive H) {m : Nat} (hm : l.nch = m + 1) (hlt : l.next m < N) (v : α) :
    Inv N { l with
        next := upd l.next m (l.next m + 1)
        items := upd l.items (m * N + l.next m) ⟨some v, 0, 0, 0⟩ } (vals ++ [v])
      (upd alive vals.length true) H := by
  have hlen := (hi.len m hm).1
  have hH : H vals.length = 0 := by
    have := hi.holdLt vals.length
    omega
  have hna : alive vals.length = false := by
    cases h : alive vals.length with
    | false => rfl
    | true => have := hi.aliveLt _ h; omega
  have hgone : ∀ c i, isGone N (vals ++ [v]).length (upd alive vals.length true) c i = isGone N vals.length alive c i := by
    intro c i
    unfold isGone
    simp only [List.length_append, List.length_singleton]
    by_cases e : c * N + i = vals.length
    · rw [e]; simp
    · rw [upd_ne _ _ e]
      by_cases h : c * N + i < vals.length
      · simp [h, Nat.lt_succ_of_lt h]
      · simp [h]; omega
  rw [← hlen]
  constructor
  · exact hi.err
  · exact hi.head
  · intro h; dsimp only at h; omega
  · intro m' hm'
    dsimp only at hm' ⊢
    have : m' = m := by omega
    subst this
    simp only [upd_same, List.length_append, List.length_singleton]
    omega
  · intro c hc
    dsimp only at hc ⊢
    rw [upd_ne _ _ (by omega)]
    exact hi.full c hc
  · intro k hk
    simp only [List.length_append, List.length_singleton] at hk
    by_cases e : k = vals.length
    · subst e; simp
    · dsimp only
      rw [upd_ne _ _ e, hi.val k (by omega), List.getElem?_append_left (by omega)]
  · intro k hk
    simp only [List.length_append, List.length_singleton]
    by_cases e : k = vals.length
    · omega
    · rw [upd_ne _ _ e] at hk
      have := hi.aliveLt k hk
      omega
  · intro k hk
    have := hi.holdLt k hk
    simp only [List.length_append, List.length_singleton]
    omega
  · intro k hk
    by_cases e : k = vals.length
    · subst e; simp [hH]
    · rw [upd_ne _ _ e] at hk
      dsimp only
      rw [upd_ne _ _ e]
      exact hi.live k hk
  · intro c i hiN hl hd
    simp only [List.length_append, List.length_singleton] at hl
    by_cases e : c * N + i = vals.length
    · rw [e] at hd; simp at hd
    · rw [upd_ne _ _ e] at hd
      dsimp only
      rw [upd_ne _ _ e]
      obtain ⟨g1, g2, g3, g4⟩ := hi.gone c i hiN (by omega) hd
      refine ⟨g1, g2, fun j h1 h2 => ?_, g4⟩
      rw [upd_ne _ _ (by omega)]
      exact g3 j h1 h2
  · intro k h1 h2
    simp only [List.length_append, List.length_singleton] at h1
    dsimp only at h2 ⊢
    rw [upd_ne _ _ (by omega)]
    exact hi.fresh k (by omega) h2
  · intro c hc
    dsimp only at hc ⊢
    rw [hi.freed c hc]
    apply cnt_congr
    intro t _
    rw [hgone]
  · exact hi.deleted
  · exact hi.prevSome
  · exact hi.prevNone

/-- the head chunk has an element -/
def NonEmpty (l : LList α) : Prop := ∀ m, l.nch = m + 1 → 1 ≤ l.next m

theorem seek_next (n : Nat) (l : LList α) (c p : Nat) : (l.seek N n c p).1.next = l.next ∧
    (l.seek N n c p).1.nch = l.nch := by
  induction n generalizing l c p with
  | zero => exact ⟨rfl, rfl⟩
  | succ n ih =>
    rw [LList.seek]
    dsimp only
    split
    · exact ⟨rfl, rfl⟩
    · split
      · split
        · rename_i h
          simp only [LList.nextChunk, Prod.mk.injEq] at h
          rw [← h.1]
          exact ⟨rfl, rfl⟩
        · rename_i h
          simp only [LList.nextChunk, Prod.mk.injEq] at h
          rw [← h.1]
          split
          · exact ⟨rfl, rfl⟩
          · exact ih _ _ _
      · exact ih _ _ _

theorem NonEmpty.congr {l' : LList α} (h : NonEmpty l) (h1 : l'.next = l.next) (h2 : l'.nch = l.nch) : NonEmpty l' := by
  intro m hm
  rw [h1]
  exact h m (by omega)

/-- one round of `push` that finds a free slot -/
theorem Inv.pushSlot (hN : 0 < N) (hi : Inv N l vals alive H) {m n : Nat} (hm : l.nch = m + 1) (hlt : l.next m < N) (v : α) :
    Found N (l.pushLoop N (n + 1) v).1 (l.pushLoop N (n + 1) v).2 (vals ++ [v]) (upd alive vals.length true) H
      (some vals.length) ∧ NonEmpty (l.pushLoop N (n + 1) v).1 := by
  have hh : l.head = some m := by rw [hi.head, if_neg (by omega)]; congr 1; omega
  have hlen := (hi.len m hm).1
  have hfr := hi.fresh (m * N + l.next m) (by omega) (by rw [hm, Nat.succ_mul]; omega)
  have ha := hi.assign hm hlt v
  rw [LList.pushLoop, hh]
  dsimp only
  rw [if_pos (by omega), if_pos hlt, hfr]
  simp only [Item.assign, Item.fresh]
  have herr : (l.err || !((1 : Nat) != 0 && (0 : Int) == 0)) = l.err := by simp
  rw [herr]
  have hk : vals.length / N = m := div_chunk (by omega) (by omega)
  have hs := ha.mkIter hN (k := vals.length) (by simp) (by rw [hk]; dsimp only; omega)
  rw [hk, below, if_pos (by simp)] at hs
  rw [← hlen]
  rw [← hlen] at hs
  rw [← hh]
  refine ⟨hs, ?_⟩
  intro m' hm'
  unfold LList.mkIter at hm' ⊢
  rw [(seek_next _ _ _ _).1]
  rw [(seek_next _ _ _ _).2] at hm'
  dsimp only at hm' ⊢
  have : m' = m := by omega
  subst this
  simp

theorem Inv.push (hN : 0 < N) (hi : Inv N l vals alive H) (v : α) :
    Found N (l.push N v).1 (l.push N v).2 (vals ++ [v]) (upd alive vals.length true) H (some vals.length) ∧
      NonEmpty (l.push N v).1 := by
  unfold LList.push
  cases hn : l.nch with
  | zero =>
    have hh : l.head = none := by rw [hi.head, if_pos hn]
    rw [LList.pushLoop, hh]
    dsimp only
    obtain ⟨h1, h2, h3⟩ := hi.alloc (l' := l) hN (by rw [hi.empty hn, hn]; simp) rfl (by intro c hc; omega)
    exact h1.pushSlot hN (m := 0) (by omega) (by rw [hn] at h3; omega) v
  | succ m =>
    have hh : l.head = some m := by rw [hi.head, if_neg (by omega)]; congr 1; omega
    obtain ⟨hlen, hle⟩ := hi.len m hn
    by_cases hlt : l.next m < N
    · exact hi.pushSlot hN hn hlt v
    · have heq : l.next m = N := by omega
      rw [LList.pushLoop, hh]
      dsimp only
      rw [if_pos hle, if_neg hlt, if_pos heq]
      obtain ⟨h1, h2, h3⟩ := hi.alloc (l' := { l with next := upd l.next m (l.next m + 1) }) hN
        (by rw [hn, Nat.succ_mul]; omega) rfl (by
          intro c hc
          dsimp only
          by_cases e : c = m
          · subst e; simp [heq]
          · rw [upd_ne _ _ e]; exact hi.full c (by omega))
      rw [← hh]
      refine h1.pushSlot hN (m := l.nch) (by omega) ?_ v
      rw [h3]; exact hN

/-! ### rbegin, next! -/

theorem Inv.rbegin (hN : 0 < N) (hi : Inv N l vals alive H) (hne : NonEmpty l) :
    Found N (l.rbegin N).1 (l.rbegin N).2 vals alive H (below alive vals.length) := by
  unfold LList.rbegin
  cases hn : l.nch with
  | zero =>
    rw [hi.head, if_pos hn, hi.empty hn]
    exact ⟨rfl, by rw [← hi.empty hn]; exact hi⟩
  | succ m =>
    obtain ⟨hlen, hle⟩ := hi.len m hn
    have h1 := hne m hn
    have hlast : l.lastItem N m = some (vals.length - 1) := by
      unfold LList.lastItem
      rw [if_neg (by omega)]
      congr 1
      omega
    rw [hi.head, if_neg (by omega), hn]
    dsimp only
    rw [Nat.add_sub_cancel, hlast]
    dsimp only
    have hk : (vals.length - 1) / N = m := div_chunk (by omega) (by omega)
    have hs := hi.mkIter hN (k := vals.length - 1) (by omega) (by omega)
    rw [hk, Nat.sub_add_cancel (by omega)] at hs
    exact hs

theorem Inv.next (hN : 0 < N) (hi : Inv N l vals alive H) {k : Nat} (hk : 0 < H k) :
    Found N (l.next! N (posOf N k)).1 (l.next! N (posOf N k)).2 vals alive (upd H k (H k - 1)) (below alive k) := by
  have hlt := hi.holdLt k hk
  have hc := hi.chunk_lt hN hlt
  have hd := hi.drop hN hk
  have hnch : (l.drop (some (posOf N k))).nch = l.nch := rfl
  have hm := Nat.div_add_mod k N
  have hm' := Nat.mod_lt k hN
  rw [Nat.mul_comm] at hm
  unfold LList.next!
  dsimp only
  generalize l.drop (some (posOf N k)) = l1 at hd hnch
  have hp : posOf N k = ⟨k / N, k⟩ := rfl
  rw [hp]
  dsimp only
  by_cases hfirst : k / N * N < k
  · rw [if_pos hfirst]
    have hk1 : (k - 1) / N = k / N := div_chunk (by omega) (by omega)
    have hs := hd.mkIter hN (k := k - 1) (by omega) (by omega)
    rw [hk1, Nat.sub_add_cancel (by omega)] at hs
    exact hs
  · rw [if_neg hfirst]
    have hkc : k = k / N * N := by omega
    generalize hcc : k / N = c at hkc hc
    obtain ⟨hi', e1, e2, e3, e4, e5⟩ := hd.nextChunk (c := c) (by omega)
    cases hnc : l1.nextChunk c with
    | mk l' d =>
      rw [hnc] at hi' e1 e2 e3 e4 e5
      cases d with
      | none =>
        dsimp only
        rw [below_skip (a := 0) (by omega) ?_]
        · exact ⟨rfl, hi'⟩
        · intro j _ hj
          have hjc : j / N < c := (Nat.div_lt_iff_lt_mul hN).2 (by omega)
          exact hd.dead_slot hN (by omega) (e5 rfl _ hjc)
      | some d =>
        have hd4 := e4 d rfl
        dsimp only at hi' e1 e2 e3 ⊢
        rw [lastItem_eq hi' hN (d := d) (by omega)]
        dsimp only
        have hb := len_bound hi' (c := d) (by omega)
        have hdc : d * N + N ≤ c * N := by
          have : (d + 1) * N ≤ c * N := Nat.mul_le_mul_right _ (by omega)
          rwa [Nat.succ_mul] at this
        rw [below_skip (a := d * N + N - 1 + 1) (by omega) ?_]
        · exact Inv.seek hN _ l' d _ hi' (by omega) (by omega) (by omega) (by have := hb.1 (by omega); omega) (by omega)
        · intro j hj1 hj2
          have hjc : j / N < c := (Nat.div_lt_iff_lt_mul hN).2 (by omega)
          have hjd : d < j / N := by
            rw [Nat.lt_iff_add_one_le, Nat.le_div_iff_mul_le hN, Nat.succ_mul]; omega
          exact hd.dead_slot hN (by omega) (hd4.2 _ hjd hjc)

theorem next_next (l : LList α) (p : Pos) : (l.next! N p).1.next = l.next ∧ (l.next! N p).1.nch = l.nch := by
  unfold LList.next!
  dsimp only
  split
  · exact seek_next _ _ _ _
  · split
    · rename_i h
      simp only [LList.nextChunk, Prod.mk.injEq] at h
      rw [← h.1]
      exact ⟨rfl, rfl⟩
    · rename_i h
      simp only [LList.nextChunk, Prod.mk.injEq] at h
      rw [← h.1]
      split
      · exact ⟨rfl, rfl⟩
      · exact seek_next _ _ _ _

/-! ### erase -/

theorem upd_add_sub (H : Nat → Nat) (k : Nat) :
    upd (upd H k (H k + 1)) k (upd H k (H k + 1) k - 1) = H := by
  funext x
  unfold upd
  split <;> simp_all

variable [DecidableEq α]

theorem Inv.eraseLoop (hN : 0 < N) (v : α) : ∀ (n : Nat) (l : LList α) (alive : Nat → Bool) (k : Nat),
    Inv N l vals alive (upd H k (H k + 1)) → alive k = true → k < n →
    Inv N (l.eraseLoop N v n (some (posOf N k))) vals (fun j => alive j && !(decide (j ≤ k) && vals[j]? == some v)) H := by
  intro n
  induction n with
  | zero => intros; omega
  | succ n ih =>
    intro l alive k hi ha hn
    rw [LList.eraseLoop]
    have hlt := hi.aliveLt k ha
    have hval : (l.items (posOf N k).slot).val = vals[k]? := hi.val k hlt
    rw [hval]
    obtain ⟨l1, hl1⟩ : ∃ l1, l1 = if vals[k]? = some v then l.remove N (posOf N k) else l := ⟨_, rfl⟩
    obtain ⟨a1, ha1⟩ : ∃ a1, a1 = if vals[k]? = some v then upd alive k false else alive := ⟨_, rfl⟩
    rw [← hl1]
    have hi1 : Inv N l1 vals a1 (upd H k (H k + 1)) := by
      rw [hl1, ha1]
      split
      · exact hi.remove hN ha
      · exact hi
    have hnext := hi1.next hN (k := k) (by simp)
    rw [upd_add_sub] at hnext
    have hother : ∀ j, j ≠ k → a1 j = alive j := by
      intro j hj
      rw [ha1]
      split
      · rw [upd_ne _ _ hj]
      · rfl
    have hself : a1 k = !(vals[k]? == some v) := by
      rw [ha1]
      by_cases h : vals[k]? = some v
      · rw [if_pos h]; simp [h]
      · rw [if_neg h, ha]; simp [h]
    cases hn1 : l1.next! N (posOf N k) with
    | mk l2 it =>
      rw [hn1] at hnext
      dsimp only at hnext ⊢
      cases hb : below a1 k with
      | none =>
        rw [hb] at hnext
        obtain ⟨rfl, h2⟩ := hnext
        have hdead : ∀ j, j < k → a1 j = false := by
          intro j hj
          cases h : a1 j with
          | false => rfl
          | true =>
            exfalso
            have : ∀ m, j < m → below a1 m ≠ none := by
              intro m
              induction m with
              | zero => omega
              | succ m ihm =>
                intro hjm
                rw [below]
                split
                · simp
                · rename_i hm
                  apply ihm
                  rcases Nat.lt_or_ge j m with h' | h'
                  · exact h'
                  · have : j = m := by omega
                    subst this; exact absurd h hm
            exact this k hj hb
        have : (fun j => alive j && !(decide (j ≤ k) && vals[j]? == some v)) = a1 := by
          funext j
          rcases Nat.lt_trichotomy j k with h | h | h
          · rw [hdead j h, ← hother j (by omega), hdead j h]; rfl
          · subst h; rw [hself, ha]; simp
          · rw [hother j (by omega)]; simp; omega
        rw [this]
        cases n <;> exact h2
      | some k' =>
        rw [hb] at hnext
        obtain ⟨rfl, h2⟩ := hnext
        obtain ⟨g1, g2⟩ := below_some hb
        have := ih l2 a1 k' h2 g2 (by omega)
        have he : (fun j => alive j && !(decide (j ≤ k) && vals[j]? == some v)) =
            (fun j => a1 j && !(decide (j ≤ k') && vals[j]? == some v)) := by
          funext j
          rcases Nat.lt_trichotomy j k with h | h | h
          · by_cases hj : j ≤ k'
            · rw [hother j (by omega)]; simp [hj, Nat.le_of_lt h]
            · have hdead : a1 j = false := by
                cases h' : a1 j with
                | false => rfl
                | true =>
                  exfalso
                  have : ∀ m, j < m → ∀ x, below a1 m = some x → j ≤ x := by
                    intro m
                    induction m with
                    | zero => omega
                    | succ m ihm =>
                      intro hjm x hx
                      rw [below] at hx
                      split at hx
                      · cases hx; omega
                      · rename_i hm
                        apply ihm _ x hx
                        rcases Nat.lt_or_ge j m with h'' | h''
                        · exact h''
                        · have : j = m := by omega
                          subst this; exact absurd h' hm
                  have := this k h k' hb
                  omega
              rw [hdead, ← hother j (by omega), hdead]; rfl
          · subst h
            rw [hself, ha]
            have : ¬ j ≤ k' := by omega
            simp [this]
          · rw [hother j (by omega)]
            have h1 : ¬ j ≤ k := by omega
            have h2 : ¬ j ≤ k' := by omega
            simp [h1, h2]
        rw [he]
        exact this

theorem erase_next (v : α) (n : Nat) (l : LList α) (r : Option Pos) :
    (l.eraseLoop N v n r).next = l.next ∧ (l.eraseLoop N v n r).nch = l.nch := by
  induction n generalizing l r with
  | zero => cases r <;> exact ⟨rfl, rfl⟩
  | succ n ih =>
    cases r with
    | none => exact ⟨rfl, rfl⟩
    | some p =>
      rw [LList.eraseLoop]
      dsimp only
      have h := ih (LList.next! N (if (l.items p.slot).val = some v then l.remove N p else l) p).1
        (LList.next! N (if (l.items p.slot).val = some v then l.remove N p else l) p).2
      have h2 := next_next (N := N) (if (l.items p.slot).val = some v then l.remove N p else l) p
      have h3 : (if (l.items p.slot).val = some v then l.remove N p else l).next = l.next ∧
          (if (l.items p.slot).val = some v then l.remove N p else l).nch = l.nch := by
        split <;> exact ⟨rfl, rfl⟩
      exact ⟨h.1.trans (h2.1.trans h3.1), h.2.trans (h2.2.trans h3.2)⟩

theorem rbegin_next (l : LList α) : (l.rbegin N).1.next = l.next ∧ (l.rbegin N).1.nch = l.nch := by
  unfold LList.rbegin
  split
  · exact ⟨rfl, rfl⟩
  · split
    · exact ⟨rfl, rfl⟩
    · exact seek_next _ _ _ _

theorem Inv.erase (hN : 0 < N) (hi : Inv N l vals alive H) (hne : NonEmpty l) (v : α) :
    Inv N (l.erase N v) vals (fun j => alive j && !(vals[j]? == some v)) H ∧ NonEmpty (l.erase N v) := by
  have h := hi.rbegin hN hne
  have hrn := rbegin_next (N := N) l
  unfold LList.erase
  cases hr : l.rbegin N with
  | mk l1 it =>
    rw [hr] at h hrn
    dsimp only at h hrn ⊢
    cases hb : below alive vals.length with
    | none =>
      rw [hb] at h
      obtain ⟨rfl, h2⟩ := h
      have hdead : alive = fun j => alive j && !(vals[j]? == some v) := by
        funext j
        cases h' : alive j with
        | false => rfl
        | true =>
          exfalso
          have : ∀ m, j < m → below alive m ≠ none := by
            intro m
            induction m with
            | zero => omega
            | succ m ihm =>
              intro hjm
              rw [below]
              split
              · simp
              · rename_i hm
                apply ihm
                rcases Nat.lt_or_ge j m with h'' | h''
                · exact h''
                · have : j = m := by omega
                  subst this; exact absurd h' hm
          exact this _ (hi.aliveLt j h') hb
      rw [← hdead]
      exact ⟨h2, hne.congr hrn.1 hrn.2⟩
    | some k =>
      rw [hb] at h
      obtain ⟨rfl, h2⟩ := h
      obtain ⟨g1, g2⟩ := below_some hb
      have := Inv.eraseLoop hN v ((posOf N k).slot + 1) l1 alive k h2 g2 (by simp [posOf])
      have he : (fun j => alive j && !(decide (j ≤ k) && vals[j]? == some v)) =
          (fun j => alive j && !(vals[j]? == some v)) := by
        funext j
        by_cases hj : j ≤ k
        · simp [hj]
        · have hdead : alive j = false := by
            cases h' : alive j with
            | false => rfl
            | true =>
              exfalso
              have : ∀ m, j < m → ∀ x, below alive m = some x → j ≤ x := by
                intro m
                induction m with
                | zero => omega
                | succ m ihm =>
                  intro hjm x hx
                  rw [below] at hx
                  split at hx
                  · cases hx; omega
                  · rename_i hm
                    apply ihm _ x hx
                    rcases Nat.lt_or_ge j m with h'' | h''
                    · exact h''
                    · have : j = m := by omega
                      subst this; exact absurd h' hm
              exact hj (this _ (hi.aliveLt j h') k hb)
          simp [hdead]
      rw [← he]
      refine ⟨this, ?_⟩
      have hen := erase_next (N := N) v ((posOf N k).slot + 1) l1 (some (posOf N k))
      exact hne.congr (hen.1.trans hrn.1) (hen.2.trans hrn.2)

theorem Inv.init (N : Nat) : Inv N (LList.empty : LList α) [] (fun _ => false) (fun _ => 0) := by
  constructor <;> simp [LList.empty]

end RG.CL
