import Verif.Model.AtomicList
/-
Property C30: concurrent appends to the list of chunks lose nothing.
-/
set_option linter.unusedVariables false
namespace RG.AL

variable {s s' : State}

/-- all appended chunks with a rank strictly between are deleted -/
def Between (s : State) (lo : Nat) (hi : Nat) : Prop :=
  ∀ y ry, s.rank y = some ry → lo ≤ ry → ry < hi → s.deleted y = true

/-- `p` may follow chunk `c` -/
def Older (s : State) (c : Nat) (p : Option Nat) : Prop :=
  ∀ r, s.rank c = some r →
    match p with
    | none => Between s 0 r
    | some q => ∃ rq, s.rank q = some rq ∧ rq < r ∧ Between s (rq + 1) r

def own : Pc → Option Nat
  | .appLoad n | .appStore n _ | .appCas n _ | .firstCas n => some n
  | _ => none

/-- the chunk an iterator is at -/
def cur : Pc → Option Nat
  | .at c | .skipLoad c | .skipTest c _ | .skipNext c _ | .skipStore c _ | .advance c => some c
  | _ => none

structure Inv (s : State) : Prop where
  headNone : s.head = none ↔ s.len = 0
  headSome : ∀ c, s.head = some c → s.rank c = some (s.len - 1)
  lt : ∀ c r, s.rank c = some r → r < s.len ∧ c < s.nalloc
  inj : ∀ c d r, s.rank c = some r → s.rank d = some r → c = d
  older : ∀ c, Older s c (s.prev c)
  fresh : ∀ n, s.nalloc ≤ n → s.prev n = none ∧ s.rank n = none
  ownNew : ∀ t n, own (s.pcs t) = some n → s.rank n = none ∧ n < s.nalloc
  ownInj : ∀ t u n, own (s.pcs t) = some n → own (s.pcs u) = some n → t = u
  first : ∀ t n, s.pcs t = .firstCas n → s.prev n = none
  cas : ∀ t n o, s.pcs t = .appCas n o → s.prev n = o
  test : ∀ t c p, s.pcs t = .skipTest c p ∨ s.pcs t = .skipStore c p → Older s c p
  skip : ∀ t c q, s.pcs t = .skipNext c q → Older s c (some q) ∧ s.deleted q = true
  curRank : ∀ t c, cur (s.pcs t) = some c → ∃ r, s.rank c = some r

/-- ranks and deletions only grow -/
structure Ext (s s' : State) : Prop where
  rank : ∀ c r, s.rank c = some r → s'.rank c = some r
  new : ∀ c r, s'.rank c = some r → s.rank c = some r ∨ (s.rank c = none ∧ r = s.len)
  del : ∀ c, s.deleted c = true → s'.deleted c = true

theorem Inv.ext (hi : Inv s) {t : Nat} (hs : Step t s s') : Ext s s' := by
  obtain ⟨h1, h2, h3, h4, h5, h6, h7, h8, h9, h10, h11, h12, h13⟩ := hi
  clear h1 h2 h3 h4 h5 h6 h8 h9 h10 h11 h12 h13
  constructor <;> cases hs <;> grind [upd, own]

theorem Between.mono (hi : Inv s) (he : Ext s s') {lo r : Nat} (hr : r ≤ s.len) (h : Between s lo r) : Between s' lo r := by
  intro y ry h1 h2 h3
  rcases he.new y ry h1 with h4 | h4
  · exact he.del y (h y ry h4 h2 h3)
  · omega

theorem Older.mono (hi : Inv s) (he : Ext s s') {c r : Nat} {p : Option Nat} (hc : s.rank c = some r)
    (h : Older s c p) : Older s' c p := by
  intro r' hr'
  have e : r' = r := by
    have := he.rank c r hc
    rw [this] at hr'; cases hr'; rfl
  subst e
  have hlt := (hi.lt c r' hc).1
  have := h r' hc
  cases p with
  | none => exact Between.mono hi he (by omega) this
  | some q =>
    obtain ⟨rq, h1, h2, h3⟩ := this
    exact ⟨rq, he.rank q rq h1, h2, Between.mono hi he (by omega) h3⟩

/-- skipping a deleted chunk -/
theorem Older.trans {c q : Nat} (h : Older s c (some q)) (hd : s.deleted q = true) (hi : Inv s)
    (h2 : Older s q (s.prev q)) : Older s c (s.prev q) := by
  intro r hr
  obtain ⟨rq, h3, h4, h5⟩ := h r hr
  have := h2 rq h3
  cases hp : s.prev q with
  | none =>
    rw [hp] at this
    intro y ry h6 h7 h8
    rcases Nat.lt_trichotomy ry rq with h | h | h
    · exact this y ry h6 h7 h
    · subst h; rw [hi.inj y q ry h6 h3]; exact hd
    · exact h5 y ry h6 (by omega) h8
  | some q' =>
    rw [hp] at this
    obtain ⟨rq', h6, h7, h8⟩ := this
    refine ⟨rq', h6, by omega, ?_⟩
    intro y ry h9 h10 h11
    rcases Nat.lt_trichotomy ry rq with h | h | h
    · exact h8 y ry h9 h10 h
    · subst h; rw [hi.inj y q ry h9 h3]; exact hd
    · exact h5 y ry h9 (by omega) h11

theorem older_unranked {c : Nat} {p : Option Nat} (h : s.rank c = none) : Older s c p := by
  intro r hr; rw [h] at hr; cases hr

theorem Older.keep (hi : Inv s) (he : Ext s s') {c : Nat} {p : Option Nat} (hc : s'.rank c = s.rank c)
    (h : Older s c p) : Older s' c p := by
  cases hr : s.rank c with
  | none => exact older_unranked (hc.trans hr)
  | some r => exact h.mono hi he hr

theorem own_first {t n : Nat} (h : s.pcs t = .firstCas n) : own (s.pcs t) = some n := by rw [h]; rfl
theorem own_load {t n : Nat} (h : s.pcs t = .appLoad n) : own (s.pcs t) = some n := by rw [h]; rfl
theorem own_store {t n : Nat} {o : Option Nat} (h : s.pcs t = .appStore n o) : own (s.pcs t) = some n := by rw [h]; rfl
theorem own_cas {t n : Nat} {o : Option Nat} (h : s.pcs t = .appCas n o) : own (s.pcs t) = some n := by rw [h]; rfl
theorem cur_test {t c : Nat} {p : Option Nat} (h : s.pcs t = .skipTest c p) : cur (s.pcs t) = some c := by rw [h]; rfl
theorem cur_store {t c : Nat} {p : Option Nat} (h : s.pcs t = .skipStore c p) : cur (s.pcs t) = some c := by rw [h]; rfl
theorem cur_next {t c q : Nat} (h : s.pcs t = .skipNext c q) : cur (s.pcs t) = some c := by rw [h]; rfl
theorem cur_load {t c : Nat} (h : s.pcs t = .skipLoad c) : cur (s.pcs t) = some c := by rw [h]; rfl
theorem cur_advance {t c : Nat} (h : s.pcs t = .advance c) : cur (s.pcs t) = some c := by rw [h]; rfl

set_option maxHeartbeats 4000000 in
theorem inv (h : Reach s) : Inv s := by
  induction h with
  | init =>
    constructor <;> simp [init, own, cur]
    intro c r hr; cases hr
  | @step s s' t _ hs hi =>
    have he := hi.ext hs
    have hmono := fun c r p => Older.mono (c := c) (r := r) (p := p) hi he
    have htrans : ∀ c q, s.pcs t = .skipNext c q → Older s c (s.prev q) := by
      intro c q h
      obtain ⟨h1, h2⟩ := hi.skip t c q h
      exact h1.trans h2 hi (hi.older q)
    have hi' := hi
    obtain ⟨h1, h2, h3, h4, h5, h6, h7, h8, h9, h10, h11, h12, h13⟩ := hi
    constructor
    · clear h2 h4 h5 h6 h7 h8 h9 h10 h11 h12 h13 htrans hmono
      cases hs <;> grind
    · clear h4 h5 h6 h8 h9 h10 h11 h12 h13 htrans hmono
      cases hs <;> grind [upd]
    · clear h4 h5 h6 h8 h9 h10 h11 h12 h13 htrans hmono
      cases hs <;> grind [upd, own]
    · clear h5 h6 h8 h9 h10 h11 h12 h13 htrans hmono
      cases hs <;> grind [upd, own]
    · intro c
      have hnew : ∀ n, s.head = s.prev n → (∃ u, own (s.pcs u) = some n) → Older { s with head := some n, pcs := upd s.pcs t .idle, len := s.len + 1, rank := upd s.rank n (some s.len) } n (s.prev n) := by
        intro n hn hun r hr
        simp only [upd_same, Option.some.injEq] at hr
        subst hr
        cases hp : s.prev n with
        | none =>
          intro y ry h _ h'
          have : s.len = 0 := h1.1 (by rw [hn, hp])
          omega
        | some q =>
          have hq := h2 q (by rw [hn, hp])
          have hlt := (h3 q _ hq).1
          have hqn : q ≠ n := by
            rintro rfl
            obtain ⟨u, hu⟩ := hun
            have := (h7 u q hu).1
            rw [hq] at this; cases this
          refine ⟨s.len - 1, by dsimp only; rw [upd_ne _ _ hqn]; exact hq, by omega, ?_⟩
          intro y ry h h' h''
          omega
      cases hs with
      | store h =>
        rename_i n o
        by_cases e : c = n
        · subst e
          exact older_unranked (h7 t c (by rw [h]; rfl)).1
        · dsimp only; rw [upd_ne _ _ e]; exact (h5 c).keep hi' he rfl
      | skipStore h =>
        rename_i x p
        by_cases e : c = x
        · subst e
          dsimp only; rw [upd_same]
          exact (h11 t c p (.inr h)).keep hi' he rfl
        · dsimp only; rw [upd_ne _ _ e]; exact (h5 c).keep hi' he rfl
      | casOk h hc =>
        rename_i n o
        by_cases e : c = n
        · subst e
          exact hnew c (by rw [hc]; exact (h10 t c o h).symm) ⟨t, own_cas h⟩
        · exact (h5 c).keep hi' he (upd_ne _ _ e)
      | firstOk h hc =>
        rename_i n
        by_cases e : c = n
        · subst e
          exact hnew c (by rw [hc]; exact (h9 t c h).symm) ⟨t, own_first h⟩
        · exact (h5 c).keep hi' he (upd_ne _ _ e)
      | _ => exact (h5 c).keep hi' he rfl
    · clear h1 h2 h4 h5 h8 h9 h10 h11 h12 htrans hmono
      cases hs <;> grind [upd, own, cur, own_first, own_load, own_store, own_cas, cur_test, cur_store, cur_next, cur_load, cur_advance]
    · clear h1 h2 h4 h5 h9 h10 h11 h12 htrans hmono
      cases hs <;> grind [upd, own, own_first, own_load, own_store, own_cas, cur_test, cur_store, cur_next, cur_load, cur_advance]
    · clear h1 h2 h3 h4 h5 h6 h9 h10 h11 h12 htrans hmono
      cases hs <;> grind [upd, own, own_first, own_load, own_store, own_cas, cur_test, cur_store, cur_next, cur_load, cur_advance]
    · clear h1 h2 h4 h5 h10 h11 h12 htrans hmono
      cases hs <;> grind [upd, own, cur, own_first, own_load, own_store, own_cas, cur_test, cur_store, cur_next, cur_load, cur_advance]
    · clear h1 h2 h3 h4 h5 h9 h11 h12 htrans hmono
      cases hs <;> grind [upd, own, cur, own_first, own_load, own_store, own_cas, cur_test, cur_store, cur_next, cur_load, cur_advance]
    · have k1 : ∀ u c p, s.pcs u = .skipTest c p ∨ s.pcs u = .skipStore c p → Older s' c p := by
        intro u c p h
        obtain ⟨r, hr⟩ := h13 u c (by rcases h with h | h <;> rw [h] <;> rfl)
        exact (h11 u c p h).mono hi' he hr
      have k2 : ∀ c, s.pcs t = .skipLoad c → Older s' c (s.prev c) := by
        intro c h
        obtain ⟨r, hr⟩ := h13 t c (cur_load h)
        exact (h5 c).mono hi' he hr
      have k3 : ∀ c q, s.pcs t = .skipNext c q → Older s' c (s.prev q) := by
        intro c q h
        obtain ⟨r, hr⟩ := h13 t c (cur_next h)
        exact (htrans c q h).mono hi' he hr
      clear h1 h2 h3 h4 h5 h6 h7 h8 h9 h10 h11 h12 h13 hmono htrans hi' he
      generalize Older s' = O at k1 k2 k3 ⊢
      cases hs <;> grind [upd]
    · have k1 : ∀ u c q, s.pcs u = .skipNext c q → Older s' c (some q) ∧ s'.deleted q = true := by
        intro u c q h
        obtain ⟨r, hr⟩ := h13 u c (cur_next h)
        exact ⟨(h12 u c q h).1.mono hi' he hr, he.del q (h12 u c q h).2⟩
      have k2 : ∀ c q, s.pcs t = .skipTest c (some q) → Older s' c (some q) := by
        intro c q h
        obtain ⟨r, hr⟩ := h13 t c (cur_test h)
        exact (h11 t c _ (.inl h)).mono hi' he hr
      clear h1 h2 h3 h4 h5 h6 h7 h8 h9 h10 h11 h12 h13 hmono htrans hi' he
      generalize Older s' = O at k1 k2 ⊢
      cases hs <;> grind [upd]
    · have k1 : ∀ u c, cur (s.pcs u) = some c → ∃ r, s'.rank c = some r := by
        intro u c h
        obtain ⟨r, hr⟩ := h13 u c h
        exact ⟨r, he.rank c r hr⟩
      have k2 : ∀ c, s.head = some c → ∃ r, s'.rank c = some r := by
        intro c h; exact ⟨_, he.rank c _ (h2 c h)⟩
      have k3 : ∀ c q, s.pcs t = .advance c → s.prev c = some q → ∃ r, s'.rank q = some r := by
        intro c q h hq
        obtain ⟨r, hr⟩ := h13 t c (cur_advance h)
        have := h5 c r hr
        rw [hq] at this
        obtain ⟨rq, h1, -⟩ := this
        exact ⟨rq, he.rank q rq h1⟩
      have k4 : ∀ c r, s.rank c = some r → ∃ r, s'.rank c = some r := fun c r h => ⟨r, he.rank c r h⟩
      clear h1 h2 h3 h4 h5 h6 h7 h8 h9 h10 h11 h12 h13 hmono htrans hi' he
      generalize s'.rank = rk at k1 k2 k3 k4 ⊢
      cases hs <;> grind [upd, cur]

/-! ### Iterations -/

/-- everything the iteration of `t` has passed and not visited is deleted -/
structure Trav (s : State) : Prop where
  head : ∀ t c, cur (s.pcs t) = some c → (s.vis t).head? = some c
  passed : ∀ t c r, cur (s.pcs t) = some c → s.rank c = some r → ∀ y ry, s.rank y = some ry → ry < s.start t →
    r ≤ ry → y ∈ s.vis t ∨ s.deleted y = true
  ended : ∀ t, s.pcs t = .atEnd → ∀ y ry, s.rank y = some ry → ry < s.start t → y ∈ s.vis t ∨ s.deleted y = true
  start : ∀ t, s.start t ≤ s.len
  sorted : ∀ t, (s.vis t).Pairwise fun a b => ∃ ra rb, s.rank a = some ra ∧ s.rank b = some rb ∧ ra < rb

theorem cur_at {t c : Nat} (h : s.pcs t = .at c) : cur (s.pcs t) = some c := by rw [h]; rfl

set_option maxHeartbeats 4000000 in
theorem trav (h : Reach s) : Trav s := by
  induction h with
  | init => constructor <;> simp [init, cur]
  | @step s s' t hr hs ih =>
    have hi := inv hr
    have he := hi.ext hs
    obtain ⟨h1, h2, h3, h4, h5⟩ := ih
    constructor
    · clear h2 h3 h4 h5 hi he
      cases hs <;> grind [upd, cur, cur_test, cur_store, cur_next, cur_load, cur_advance, cur_at]
    · intro u c r hc hcr y ry hy hlt hle
      -- the element was there before
      have hy' : s.rank y = some ry := by
        rcases he.new y ry hy with h | h
        · exact h
        · exfalso
          have : s'.start u ≤ s.len := by
            have hl := hi.lt
            clear h1 h2 h3 h5 hi he hc hcr hy hlt hle
            cases hs <;> grind [upd]
          omega
      have hold : ∀ c', cur (s.pcs u) = some c' → ∀ r', s.rank c' = some r' → r' ≤ ry → ry < s.start u →
          y ∈ s.vis u ∨ s'.deleted y = true := by
        intro c' h h' h'' h1 h3
        rcases h2 u c' h' h h'' y ry hy' h3 h1 with h4 | h4
        · exact .inl h4
        · exact .inr (he.del y h4)
      by_cases hu : u = t
      · subst hu
        have hcr' : s.rank c = some r ∨ (s.rank c = none ∧ r = s.len) := he.new c r hcr
        cases hs with
        | rbegin h hh =>
          rename_i c0
          have hc0 : c0 = c := by simpa [upd, cur] using hc
          subst hc0
          have := hi.headSome c0 hh
          have hlt' := (hi.lt y ry hy').1
          have hle' : r = s.len - 1 := by
            have : s.rank c0 = some r := hcr
            rw [this] at *; simp_all
          have : ry = r := by omega
          subst this
          left
          rw [hi.inj y c0 ry hy' hcr]
          simp
        | copy h hr0 =>
          rename_i c0 r0
          have hc0 : c0 = c := by simpa [upd, cur] using hc
          subst hc0
          have hlt' : ry < r0 + 1 := by simpa [upd_same] using hlt
          have hcr0 : s.rank c0 = some r := hcr
          have e : r0 = r := by rw [hr0] at hcr0; exact Option.some.inj hcr0
          have : ry = r := by omega
          subst this
          left
          rw [hi.inj y c0 ry hy' hcr]
          simp
        | advance h hp =>
          rename_i c0 q
          have hq : q = c := by simpa [upd, cur] using hc
          subst hq
          obtain ⟨r0, hr0⟩ := hi.curRank u c0 (cur_advance h)
          have := hi.older c0 r0 hr0
          rw [hp] at this
          obtain ⟨rq, h6, h7, h8⟩ := this
          have hrq : rq = r := by
            have : s.rank q = some r := hcr
            rw [h6] at this; cases this; rfl
          subst hrq
          rcases Nat.lt_trichotomy ry rq with h' | h' | h'
          · omega
          · subst h'; left; rw [hi.inj y q ry hy' h6]; simp
          · rcases Nat.lt_or_ge ry r0 with h'' | h''
            · exact .inr (h8 y ry hy' (by omega) h'')
            · rcases hold c0 (cur_advance h) r0 hr0 h'' hlt with h9 | h9
              · left; simp [h9]
              · exact .inr h9
        | erase h =>
          refine hold c hc r ?_ hle hlt
          exact hcr
        | alloc h => simp [upd, cur] at hc
        | allocFirst h => simp [upd, cur] at hc
        | load h => simp [upd, cur] at hc
        | store h => simp [upd, cur] at hc
        | casOk h => simp [upd, cur] at hc
        | casFail h => simp [upd, cur] at hc
        | firstOk h => simp [upd, cur] at hc
        | firstFail h => simp [upd, cur] at hc
        | rbeginEnd h => simp [upd, cur] at hc
        | advanceEnd h => simp [upd, cur] at hc
        | drop h => simp [upd, cur] at hc
        | dropEnd h => simp [upd, cur] at hc
        | next h => exact hold c (by rw [h]; simpa [upd, cur] using hc) r hcr hle hlt
        | skipLoad h => exact hold c (by rw [h]; simpa [upd, cur] using hc) r hcr hle hlt
        | testDeleted h => exact hold c (by rw [h]; simpa [upd, cur] using hc) r hcr hle hlt
        | testNot h => exact hold c (by rw [h]; simpa [upd, cur] using hc) r hcr hle hlt
        | testNull h => exact hold c (by rw [h]; simpa [upd, cur] using hc) r hcr hle hlt
        | skipNext h => exact hold c (by rw [h]; simpa [upd, cur] using hc) r hcr hle hlt
        | skipStore h => exact hold c (by rw [h]; simpa [upd, cur] using hc) r hcr hle hlt
      · have e1 : s'.pcs u = s.pcs u ∧ s'.vis u = s.vis u ∧ s'.start u = s.start u := by
          clear h1 h2 h3 h4 h5 hi he hold hc hcr hy hlt hle
          cases hs <;> simp [upd, hu]
        rw [e1.1] at hc
        obtain ⟨r', hr'⟩ := hi.curRank u c hc
        have : r' = r := by
          have := he.rank c r' hr'
          rw [this] at hcr; cases hcr; rfl
        subst this
        rw [e1.2.1]
        exact hold c hc r' hr' hle (by rw [← e1.2.2]; exact hlt)
    · intro u hc y ry hy hlt
      have hy' : s.rank y = some ry := by
        rcases he.new y ry hy with h | h
        · exact h
        · exfalso
          have : s'.start u ≤ s.len := by
            have hl := hi.lt
            clear h1 h2 h3 h5 hi he hc hy hlt
            cases hs <;> grind [upd]
          omega
      by_cases hu : u = t
      · subst hu
        cases hs with
        | rbeginEnd h hh =>
          have := (hi.lt y ry hy').1
          have := hi.headNone.1 hh
          omega
        | advanceEnd h hp =>
          rename_i c0
          obtain ⟨r0, hr0⟩ := hi.curRank u c0 (cur_advance h)
          have := hi.older c0 r0 hr0
          rw [hp] at this
          rcases Nat.lt_or_ge ry r0 with h'' | h''
          · exact .inr (this y ry hy' (by omega) h'')
          · exact h2 u c0 r0 (cur_advance h) hr0 y ry hy' hlt h''
        | erase h =>
          rcases h3 u hc y ry hy' hlt with h4 | h4
          · exact .inl h4
          · exact .inr (he.del y h4)
        | _ => simp [upd] at hc
      · have e1 : s'.pcs u = s.pcs u ∧ s'.vis u = s.vis u ∧ s'.start u = s.start u := by
          clear h1 h2 h3 h4 h5 hi he hc hlt hy
          cases hs <;> simp [upd, hu]
        rw [e1.1] at hc
        rcases h3 u hc y ry hy' (by rw [← e1.2.2]; exact hlt) with h4 | h4
        · rw [e1.2.1]; exact .inl h4
        · exact .inr (he.del y h4)
    · have hl := hi.lt
      clear h1 h2 h3 h5 hi he
      cases hs <;> grind [upd]
    · intro u
      have hmono : ∀ l : List Nat, l.Pairwise (fun a b => ∃ ra rb, s.rank a = some ra ∧ s.rank b = some rb ∧ ra < rb) →
          l.Pairwise (fun a b => ∃ ra rb, s'.rank a = some ra ∧ s'.rank b = some rb ∧ ra < rb) := by
        intro l hl
        refine hl.imp ?_
        rintro a b ⟨ra, rb, h, h', h''⟩
        exact ⟨ra, rb, he.rank a ra h, he.rank b rb h', h''⟩
      cases hs with
      | rbegin h hh =>
        by_cases hu : u = t
        · subst hu; simp
        · dsimp only; rw [upd_ne _ _ hu]; exact hmono _ (h5 u)
      | copy h hh =>
        by_cases hu : u = t
        · subst hu; simp
        · dsimp only; rw [upd_ne _ _ hu]; exact hmono _ (h5 u)
      | rbeginEnd h hh =>
        by_cases hu : u = t
        · subst hu; simp
        · dsimp only; rw [upd_ne _ _ hu]; exact hmono _ (h5 u)
      | advance h hp =>
        rename_i c0 q
        by_cases hu : u = t
        · subst hu
          dsimp only
          rw [upd_same]
          refine List.Pairwise.cons ?_ (hmono _ (h5 u))
          intro b hb
          obtain ⟨r0, hr0⟩ := hi.curRank u c0 (cur_advance h)
          have := hi.older c0 r0 hr0
          rw [hp] at this
          obtain ⟨rq, h6, h7, -⟩ := this
          obtain ⟨l, hl⟩ : ∃ l, s.vis u = c0 :: l := by
            have := h1 u c0 (cur_advance h)
            cases hv : s.vis u with
            | nil => rw [hv] at this; cases this
            | cons a l => rw [hv] at this; cases this; exact ⟨l, rfl⟩
          have hs5 := h5 u
          rw [hl] at hb hs5
          rcases List.mem_cons.1 hb with rfl | hb
          · exact ⟨rq, r0, h6, hr0, h7⟩
          · obtain ⟨ra, rb, h8, h9, h10⟩ := (List.pairwise_cons.1 hs5).1 b hb
            rw [hr0] at h8; cases h8
            exact ⟨rq, rb, h6, h9, by omega⟩
        · dsimp only; rw [upd_ne _ _ hu]; exact hmono _ (h5 u)
      | _ => exact hmono _ (h5 u)

/-! ### The properties -/

/-- The chunks found by following `prev` until it is null. -/
inductive Path (prev : Nat → Option Nat) : Option Nat → List Nat → Prop
  | nil : Path prev none []
  | cons {c l} : Path prev (prev c) l → Path prev (some c) (c :: l)

theorem path_of (hi : Inv s) : ∀ (n c r : Nat), s.rank c = some r → r < n →
    ∃ l, Path s.prev (some c) l ∧ (∀ x ∈ l, ∃ rx, s.rank x = some rx ∧ rx ≤ r) ∧
      l.Pairwise (fun a b => ∃ ra rb, s.rank a = some ra ∧ s.rank b = some rb ∧ rb < ra) ∧
      ∀ y ry, s.rank y = some ry → ry ≤ r → s.deleted y = false → y ∈ l := by
  intro n
  induction n with
  | zero => intros; omega
  | succ n ih =>
    intro c r hc hn
    have ho := hi.older c r hc
    cases hp : s.prev c with
    | none =>
      rw [hp] at ho
      refine ⟨[c], .cons (by rw [hp]; exact .nil), by simp [hc], by simp, ?_⟩
      intro y ry hy hle hd
      rcases Nat.lt_or_ge ry r with h | h
      · have := ho y ry hy (by omega) h; rw [hd] at this; cases this
      · have : ry = r := by omega
        subst this
        rw [hi.inj y c ry hy hc]; simp
    | some q =>
      rw [hp] at ho
      obtain ⟨rq, h1, h2, h3⟩ := ho
      obtain ⟨l, g1, g2, g3, g4⟩ := ih q rq h1 (by omega)
      refine ⟨c :: l, .cons (by rw [hp]; exact g1), ?_, ?_, ?_⟩
      · intro x hx
        rcases List.mem_cons.1 hx with rfl | hx
        · exact ⟨r, hc, by omega⟩
        · obtain ⟨rx, h4, h5⟩ := g2 x hx
          exact ⟨rx, h4, by omega⟩
      · refine List.Pairwise.cons ?_ g3
        intro b hb
        obtain ⟨rb, h4, h5⟩ := g2 b hb
        exact ⟨r, rb, hc, h4, by omega⟩
      · intro y ry hy hle hd
        rcases Nat.lt_trichotomy ry r with h | h | h
        · rcases Nat.lt_or_ge rq ry with h' | h'
          · have := h3 y ry hy (by omega) h; rw [hd] at this; cases this
          · exact List.mem_cons_of_mem _ (g4 y ry hy h' hd)
        · subst h; rw [hi.inj y c ry hy hc]; simp
        · omega

/-- **C30** At any time, following `prev` from the head ends and yields every appended chunk that is not deleted exactly
once, only appended chunks, and a later one before an earlier one. -/
theorem C30_reachable_once (h : Reach s) :
    ∃ l, Path s.prev s.head l ∧ l.Nodup ∧ (∀ c ∈ l, s.rank c ≠ none) ∧
      (∀ c, s.rank c ≠ none → s.deleted c = false → c ∈ l) ∧
      l.Pairwise (fun a b => ∃ ra rb, s.rank a = some ra ∧ s.rank b = some rb ∧ rb < ra) := by
  have hi := inv h
  cases hh : s.head with
  | none =>
    refine ⟨[], .nil, List.nodup_nil, by simp, ?_, .nil⟩
    intro c hc
    cases hr : s.rank c with
    | none => exact absurd hr hc
    | some r =>
      have := (hi.lt c r hr).1
      have := hi.headNone.1 hh
      omega
  | some c =>
    have hc := hi.headSome c hh
    obtain ⟨l, g1, g2, g3, g4⟩ := path_of hi _ c _ hc (Nat.lt_succ_self _)
    refine ⟨l, g1, ?_, ?_, ?_, g3⟩
    · refine g3.imp ?_
      rintro a b ⟨ra, rb, h1, h2, h3⟩ rfl
      rw [h1] at h2; cases h2; omega
    · intro x hx
      obtain ⟨rx, h1, -⟩ := g2 x hx
      rw [h1]; simp
    · intro x hx hd
      cases hr : s.rank x with
      | none => exact absurd hr hx
      | some r =>
        have := (hi.lt x r hr).1
        exact g4 x r hr (by omega) hd

/-- **C30** `++` of an iterator at chunk `c` goes to an earlier chunk, and every chunk appended between both is deleted;
it goes to the end only if all earlier chunks are deleted. -/
theorem C30_skips_only_deleted {t c : Nat} (h : Reach s) (hs : Step t s s') (hc : s.pcs t = .advance c) {r : Nat}
    (hr : s.rank c = some r) :
    (∀ q, s'.pcs t = .at q → ∃ rq, s.rank q = some rq ∧ rq < r ∧
      ∀ y ry, s.rank y = some ry → rq < ry → ry < r → s.deleted y = true) ∧
    (s'.pcs t = .atEnd → ∀ y ry, s.rank y = some ry → ry < r → s.deleted y = true) := by
  have ho := (inv h).older c r hr
  cases hs with
  | advance h hp =>
    rw [hc] at h; cases h
    rw [hp] at ho
    refine ⟨?_, by simp [upd]⟩
    intro q hq
    simp only [upd_same, Pc.at.injEq] at hq
    subst hq
    obtain ⟨rq, h1, h2, h3⟩ := ho
    exact ⟨rq, h1, h2, fun y ry h4 h5 h6 => h3 y ry h4 (by omega) h6⟩
  | advanceEnd h hp =>
    rw [hc] at h; cases h
    rw [hp] at ho
    refine ⟨by simp [upd], fun _ y ry h1 h2 => ho y ry h1 (by omega) h2⟩
  | erase h =>
    refine ⟨?_, ?_⟩
    · intro q hq; rw [hc] at hq; cases hq
    · intro hq; rw [hc] at hq; cases hq
  | _ => simp_all

/-- **C30** An iteration that has reached the end has visited, each of them once, all chunks that had been appended when
it began, except for deleted ones; whatever other threads did meanwhile. -/
theorem C30_iteration_complete {t : Nat} (h : Reach s) (hc : s.pcs t = .atEnd) :
    (s.vis t).Nodup ∧ ∀ c r, s.rank c = some r → r < s.start t → s.deleted c = false → c ∈ s.vis t := by
  have ht := trav h
  refine ⟨?_, ?_⟩
  · refine (ht.sorted t).imp ?_
    rintro a b ⟨ra, rb, h1, h2, h3⟩ rfl
    rw [h1] at h2; cases h2; omega
  · intro c r h1 h2 h3
    rcases ht.ended t hc c r h1 h2 with h4 | h4
    · exact h4
    · rw [h3] at h4; cases h4

/-! ### Example

Two threads append at the same time, the second one has to repeat; a third one iterates while the chunk of the first
one is deleted. -/

inductive Steps (s : State) : State → Prop
  | refl : Steps s s
  | step {s' s'' t} : Steps s s' → Step t s' s'' → Steps s s''

theorem Steps.reach {s s' : State} (h : Reach s) (hs : Steps s s') : Reach s' := by
  induction hs with
  | refl => exact h
  | step _ h2 ih => exact ih.step h2

example : ∃ s, Reach s ∧ s.pcs 2 = .atEnd ∧ s.start 2 = 2 ∧ s.vis 2 = [0, 1] ∧ s.deleted 1 = true ∧
    s.rank 1 = some 1 ∧ s.rank 0 = some 0 ∧ s.len = 3 := by
  refine ⟨_, Steps.reach (.step (.step (.step (.step (.step (.step (.step (.step (.step (.step (.step (.step (.step (.step (.step (.step (.step (.step (.step (.step .init
    (.alloc (t := 0) rfl)) (.alloc (t := 1) rfl)) (.load (t := 0) rfl)) (.load (t := 1) rfl)) (.store (t := 0) rfl)) (.store (t := 1) rfl))
    (.casOk (t := 0) rfl rfl)) (.casFail (t := 1) rfl (by simp [init]))) (.load (t := 1) rfl)) (.store (t := 1) rfl)) (.casOk (t := 1) rfl rfl))
    (.rbegin (t := 2) rfl rfl)) (.erase (t := 0) (c := 1) (r := 1) rfl)) (.alloc (t := 0) rfl)) (.load (t := 0) rfl)) (.store (t := 0) rfl)) (.casOk (t := 0) rfl rfl))
    (.next (t := 2) rfl)) (.skipLoad (t := 2) rfl)) (.testNot (t := 2) rfl rfl))
    (.step (.step (.step (.step (.step (.step .refl (.skipStore (t := 2) rfl)) (.advance (t := 2) rfl rfl)) (.next (t := 2) rfl)) (.skipLoad (t := 2) rfl)) (.testNull (t := 2) rfl))
      (.skipStore (t := 2) rfl)) |>.step (.advanceEnd (t := 2) rfl rfl), rfl, rfl, rfl, rfl, rfl, rfl, rfl⟩

end RG.AL
