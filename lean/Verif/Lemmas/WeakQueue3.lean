import Verif.Lemmas.WeakQueue2
/-
Lemmas for C92: what the values of the producer's objects carry, after every step.
-/
set_option linter.unusedVariables false
namespace RG.WQ
open RG.MQ

variable {B p : Nat} {fix : Bool} {s s' : State}

/-- nothing of importance for the producer's objects has changed -/
structure PSame (B p : Nat) (s s' : State) : Prop where
  tail : (s'.subs p).tail = (s.subs p).tail
  cur : (s'.subs p).cur = (s.subs p).cur
  hdrs : (s'.subs p).hdrs = (s.subs p).hdrs
  ent : (s'.subs p).ent = (s.subs p).ent
  ns : (s'.subs p).ns = (s.subs p).ns
  entries : (s'.subs p).entries = (s.subs p).entries
  blkOf : ∀ n, n < (s.subs p).ns → (s'.subs p).blkOf n = (s.subs p).blkOf n
  fin : ∀ i, (s.subs p).fin i = true → (s'.subs p).fin i = true
  hT : s'.c.hist (.tail p) = s.c.hist (.tail p)
  hC : s'.c.hist (.cur p) = s.c.hist (.cur p)
  hH : ∀ h, s'.c.hist (.htl p h) = s.c.hist (.htl p h)
  hK : ∀ e, s'.c.hist (.key p e) = s.c.hist (.key p e)
  hV : ∀ e, s'.c.hist (.val p e) = s.c.hist (.val p e)
  pubV : s'.pubV p = s.pubV p
  pushV : ∀ i, i < (s.subs p).tail → s'.pushV p i = s.pushV p i
  hdrW : s'.hdrW p = s.hdrW p
  keyT : s'.keyT p = s.keyT p
  vw : (s.c.vw (.prod p)).le (s'.c.vw (.prod p))
  wr : ∀ i, i < (s.subs p).tail → (s.subs p).fin i = false → s'.wr ((s.subs p).blkOf (i / B)) (i % B) = s.wr ((s.subs p).blkOf (i / B)) (i % B)

theorem PInv.frame (hB : 0 < B) (hb : BInv B p (s.subs p) s.mem) (h : PInv B p s) (f : PSame B p s s') : PInv B p s' where
  tailH := by
    rw [f.hT, f.tail, f.pubV]
    intro m hm
    obtain ⟨h1, h2, h3⟩ := h.tailH m hm
    exact ⟨h1, Nat.le_trans h2 (f.vw _), h3⟩
  pubLe := by
    rw [f.tail, f.pubV]
    intro i hi
    rw [f.pushV i hi]
    exact ⟨VC.le_trans (h.pubLe i hi).1 f.vw, (h.pubLe i hi).2⟩
  curH := by
    rw [f.hC, f.tail, f.pubV, f.cur, f.hdrs, f.hdrW]
    intro l1 m l2 e
    obtain ⟨h1, h2, h3⟩ := h.curH l1 m l2 e
    exact ⟨h1, Nat.le_trans h2 (f.vw _), h3⟩
  htlH := by
    rw [f.tail, f.pubV, f.cur, f.hdrs, f.hdrW, f.keyT]
    intro hd hhd l1 m l2 e
    rw [f.hH] at e
    obtain ⟨h1, h2, h3⟩ := h.htlH hd hhd l1 m l2 e
    exact ⟨h1, Nat.le_trans h2 (f.vw _), h3⟩
  keyTop := by
    intro e
    rw [f.hK, f.entries]
    exact h.keyTop e
  keyOk := by
    rw [f.cur, f.hdrs, f.ent, f.keyT]
    intro n hn hd
    rw [f.hK]
    exact h.keyOk n hn fun hd' => hd fun i hi => f.fin i (hd' i hi)
  valTop := by
    intro e
    rw [f.hV, f.entries]
    obtain ⟨m, l, h1, h2, h3⟩ := h.valTop e
    refine ⟨m, l, h1, h2, ?_⟩
    rcases h3 with h3 | ⟨h3, m', l', h4, h5, h6, h7⟩
    · exact .inl ⟨h3.1, Nat.le_trans h3.2 (f.vw _)⟩
    · exact .inr ⟨h3, m', l', h4, h5, Nat.le_trans h6 (f.vw _), h7⟩
  valOk := by
    rw [f.ns, f.ent, f.tail, f.pubV]
    intro n hn hd
    rw [f.hV]
    exact h.valOk n hn fun hd' => hd fun i hi => f.fin _ (hd' i hi)
  slot := by
    rw [f.tail, f.pubV]
    intro i hi hf
    have hf' : (s.subs p).fin i = false := by
      cases e : (s.subs p).fin i with
      | false => rfl
      | true => rw [f.fin i e] at hf; cases hf
    rw [f.blkOf _ (hb.blk_lt hB hi), f.wr i hi hf']
    exact h.slot i hi hf'
  hdrT := by
    rw [f.cur, f.hdrW]
    exact fun hd hhd => Nat.le_trans (h.hdrT hd hhd) (f.vw _)
  keyLe := by
    rw [f.keyT]
    exact fun n => Nat.le_trans (h.keyLe n) (f.vw _)

/-- A block of another sub-queue is written. -/
theorem SStep.wr_other (hB : 0 < B) (h : Inv B s) (hs : SStep B fix p s s') {b : Nat} (hb : ∀ k, (s.mem b).owner ≠ some (p, k)) :
    s'.wr b = s.wr b ∧ s'.rds b = s.rds b := by
  cases hs <;> try exact ⟨rfl, rfl⟩
  case read c i e b' hc =>
    have hpc := (h.q.b p).pc c
    simp only [State.q] at hpc
    rw [hc] at hpc
    obtain ⟨h1, h2, h3⟩ := h.hold_lt (c := c) (i := i) hB (by rw [hc]; rfl)
    have hV := ((h.q.b p).val _ h3 (not_full hB h2)).owner
    refine ⟨rfl, upd_ne _ _ ?_⟩
    rintro rfl
    rw [hpc.2] at hb
    exact hb _ hV
  case write x hc =>
    have hP := (h.q.b p).prod
    simp only [State.q] at hP
    rw [hc] at hP
    obtain ⟨hns, h1, h2, htb⟩ := hP
    have hV := ((h.q.b p).val ((s.subs p).tail / B) (by rw [Nat.div_lt_iff_lt_mul hB]; exact h1) (not_full hB (tail_not_fin (h.q.t p) (h.q.k p) (Nat.le_refl _)))).owner
    have hne : b ≠ (s.subs p).tailBlock := by
      rintro rfl
      rw [htb] at hb
      exact hb _ hV
    exact ⟨upd_ne _ _ hne, upd_ne _ _ hne⟩

theorem Inv.owner_of (hB : 0 < B) (h : Inv B s) {q i : Nat} (hi : i < (s.subs q).tail) (hf : (s.subs q).fin i = false) :
    (s.mem ((s.subs q).blkOf (i / B))).owner = some (q, i / B) :=
  ((h.q.b q).val _ ((h.q.b q).blk_lt hB hi) (not_full hB hf)).owner

theorem SStep.psame_other (hB : 0 < B) (h : Inv B s) (hs : SStep B fix p s s') {q : Nat} (hq : q ≠ p) : PSame B q s s' := by
  have hu := hs.subs_other hq
  obtain ⟨g1, g2, g3, g4, g5, g6⟩ := hs.ghost_other hq
  refine ⟨by rw [hu], by rw [hu], by rw [hu], by rw [hu], by rw [hu], by rw [hu], fun _ _ => by rw [hu], fun _ => by rw [hu]; exact id, hs.hist_other hq rfl, hs.hist_other hq rfl,
    fun _ => hs.hist_other hq rfl, fun _ => hs.hist_other hq rfl, fun _ => hs.hist_other hq rfl, g4, fun _ _ => by rw [g3], g1, g5, hs.vw_le _, fun i hi hf => ?_⟩
  rw [(hs.wr_other hB h fun k hk => ?_).1]
  rw [h.owner_of hB hi hf] at hk
  injection hk with hk
  injection hk with hk
  exact hq hk

/-- a consumer's step that does not touch the producer's objects, and some of the producer's -/
theorem psame_go {u : Sub} {c : CMem} (hsub : s'.subs p = u) (hcm : s'.c = c)
    (h1 : u.tail = (s.subs p).tail) (h2 : u.cur = (s.subs p).cur) (h3 : u.hdrs = (s.subs p).hdrs) (h4 : u.ent = (s.subs p).ent) (h5 : u.ns = (s.subs p).ns)
    (h6 : u.entries = (s.subs p).entries) (h7 : ∀ n, n < (s.subs p).ns → u.blkOf n = (s.subs p).blkOf n) (h8 : ∀ i, (s.subs p).fin i = true → u.fin i = true)
    (h9 : ∀ l, l.sub = some p → (∀ q, l ≠ .head q) → (∀ q, l ≠ .opt q) → (∀ q, l ≠ .over q) → c.hist l = s.c.hist l)
    (h10 : s'.pubV = s.pubV) (h11 : ∀ i, i < (s.subs p).tail → s'.pushV p i = s.pushV p i) (h12 : s'.hdrW = s.hdrW) (h13 : s'.keyT = s.keyT) (h14 : s'.wr = s.wr)
    (h15 : (s.c.vw (.prod p)).le (c.vw (.prod p))) : PSame B p s s' := by
  subst hsub hcm
  exact ⟨h1, h2, h3, h4, h5, h6, h7, h8, h9 _ rfl nofun nofun nofun, h9 _ rfl nofun nofun nofun, fun _ => h9 _ rfl nofun nofun nofun,
    fun _ => h9 _ rfl nofun nofun nofun, fun _ => h9 _ rfl nofun nofun nofun, by rw [h10], h11, by rw [h12], by rw [h13], h15, fun _ _ _ => by rw [h14]⟩

theorem hist_upd {c : CMem} {l0 l : Loc} {v : List Msg} (h : l ≠ l0) : upd c.hist l0 v l = c.hist l := upd_ne _ _ h

/-! ### The steps that change the producer's objects -/

theorem fin_false_of {u u' : Sub} (hf : ∀ i, u.fin i = true → u'.fin i = true) {i : Nat} (h : u'.fin i = false) : u.fin i = false := by
  cases e : u.fin i with
  | false => rfl
  | true => rw [hf i e] at h; cases h

theorem valTop_mono {e : Nat} {v v' : VC} (hv : v.le v') {hist : List Msg} {x : Option Nat}
    (h : ∃ m l, hist = m :: l ∧ m.val = x ∧ ((m.tid = .prod p ∧ m.time ≤ v (.prod p)) ∨
      (m.val = none ∧ ∃ m' l', l = m' :: l' ∧ m'.tid = .prod p ∧ m'.time ≤ v (.prod p) ∧ m'.val ≠ none))) :
    ∃ m l, hist = m :: l ∧ m.val = x ∧ ((m.tid = .prod p ∧ m.time ≤ v' (.prod p)) ∨
      (m.val = none ∧ ∃ m' l', l = m' :: l' ∧ m'.tid = .prod p ∧ m'.time ≤ v' (.prod p) ∧ m'.val ≠ none)) := by
  obtain ⟨m, l, h1, h2, h3⟩ := h
  refine ⟨m, l, h1, h2, ?_⟩
  rcases h3 with h3 | ⟨h3, m', l', h4, h5, h6, h7⟩
  · exact .inl ⟨h3.1, Nat.le_trans h3.2 (hv _)⟩
  · exact .inr ⟨h3, m', l', h4, h5, Nat.le_trans h6 (hv _), h7⟩

/-- line 2605 -/
theorem pinv_null (hB : 0 < B) (h : Inv B s) {c i e b x : Nat} (hc : (s.subs p).cons c = .nul i e b x) {m0 : Msg}
    (hu : s'.subs p = { s.subs p with cons := upd (s.subs p).cons c (.fre i b x), entries := upd (s.subs p).entries e { (s.subs p).entries e with value := none } })
    (hl : ∀ l, l ≠ .val p e → s'.c.hist l = s.c.hist l) (hm0 : m0.val = none) (hm : s'.c.hist (.val p e) = m0 :: s.c.hist (.val p e))
    (hv : s'.c.vw (.prod p) = s.c.vw (.prod p)) (g1 : s'.pubV p = s.pubV p) (g2 : s'.pushV p = s.pushV p) (g3 : s'.hdrW p = s.hdrW p) (g4 : s'.keyT p = s.keyT p)
    (g5 : s'.wr = s.wr) : PInv B p s' := by
  have hp := h.p p
  have hpc := (h.q.b p).pc c
  simp only [State.q] at hpc
  rw [hc] at hpc
  obtain ⟨hfull, hown, hkey, hval, hlt, hx⟩ := hpc
  refine ⟨?_, ?_, ?_, ?_, ?_, ?_, ?_, ?_, ?_, ?_, ?_⟩ <;> (try rw [hu]) <;> simp only [g1, g2, g3, g4, g5, hv]
  · rw [hl _ (by simp)]; exact hp.tailH
  · exact hp.pubLe
  · rw [hl _ (by simp)]; exact hp.curH
  · intro hd hhd; rw [hl _ (by simp)]; exact hp.htlH hd hhd
  · intro e'
    rw [hl _ (by simp)]
    obtain ⟨m, l, h1, h2⟩ := hp.keyTop e'
    refine ⟨m, l, h1, ?_⟩
    by_cases e2 : e' = e
    · subst e2; rw [upd_same]; exact h2
    · rw [upd_ne _ _ e2]; exact h2
  · intro n hn hd; rw [hl _ (by simp)]; exact hp.keyOk n hn hd
  · intro e'
    by_cases e2 : e' = e
    · subst e2
      rw [hm, upd_same]
      obtain ⟨m, l, h1, h2, h3⟩ := hp.valTop e'
      refine ⟨m0, _, rfl, hm0, .inr ⟨hm0, m, l, h1, ?_⟩⟩
      rw [hval] at h2
      rcases h3 with h3 | h3
      · exact ⟨h3.1, h3.2, by rw [h2]; exact nofun⟩
      · rw [h2] at h3; cases h3.1
    · rw [upd_ne _ _ e2, hl _ (by simp [e2])]; exact hp.valTop e'
  · intro n hn hf
    rw [hl]
    · exact hp.valOk n hn hf
    · intro e2
      injection e2 with _ e2
      have h2 := (h.q.b p).key n (Nat.lt_of_lt_of_le hn (h.q.b p).prod.ns_le) (fun hd => hf hd.full)
      simp only [State.q] at h2
      rw [e2, hkey] at h2
      have := Nat.eq_of_mul_eq_mul_right hB h2
      subst this
      exact hf hfull
  · exact hp.slot
  · exact hp.hdrT
  · exact hp.keyLe

/-- line 2912 or 2929 -/
theorem pinv_storeKey (hB : 0 < B) (h : Inv B s) {x e T : Nat} (hc : (s.subs p).prod = .skey x e T) {m0 : Msg}
    (hu : s'.subs p = { s.subs p with entries := upd (s.subs p).entries e { (s.subs p).entries e with key := (s.subs p).tail }, prod := .stl x e T })
    (hl : ∀ l, l ≠ .key p e → s'.c.hist l = s.c.hist l) (hm0 : m0.val = some (s.subs p).tail) (hm : s'.c.hist (.key p e) = m0 :: s.c.hist (.key p e))
    (hv : s'.c.vw (.prod p) = s.c.now (.prod p)) (g1 : s'.pubV p = s.pubV p) (g2 : s'.pushV p = s.pushV p) (g3 : s'.hdrW p = s.hdrW p)
    (g4 : s'.keyT p = upd (s.keyT p) ((s.subs p).hdrs (s.subs p).cur).nb (s.c.now (.prod p) (.prod p))) (g5 : s'.wr = s.wr) : PInv B p s' := by
  have hp := h.p p
  have hP := (h.q.b p).prod
  simp only [State.q] at hP
  rw [hc] at hP
  obtain ⟨hns, htl, hN, hinv⟩ := hP
  have hle := s.c.le_now (.prod p)
  have hnb := fun k hk => ((h.q.b p).hdr k hk).nb_le
  simp only [State.q] at hnb
  refine ⟨?_, ?_, ?_, ?_, ?_, ?_, ?_, ?_, ?_, ?_, ?_⟩ <;> (try rw [hu]) <;> simp only [g1, g2, g3, g4, g5, hv]
  · rw [hl _ (by simp)]
    intro m hm
    obtain ⟨h1, h2, h3⟩ := hp.tailH m hm
    exact ⟨h1, Nat.le_trans h2 (hle _), h3⟩
  · exact fun i hi => ⟨VC.le_trans (hp.pubLe i hi).1 hle, (hp.pubLe i hi).2⟩
  · rw [hl _ (by simp)]
    intro l1 m l2 e
    obtain ⟨h1, h2, h3⟩ := hp.curH l1 m l2 e
    exact ⟨h1, Nat.le_trans h2 (hle _), h3⟩
  · intro hd hhd l1 m l2 e
    rw [hl _ (by simp)] at e
    obtain ⟨h1, h2, h3, h4, h5, h6, h7⟩ := hp.htlH hd hhd l1 m l2 e
    refine ⟨h1, Nat.le_trans h2 (hle _), h3, h4, h5, fun h0 => ?_, h7⟩
    have := hnb hd hhd
    rw [upd_ne _ _ (by omega)]
    exact h6 h0
  · intro e'
    by_cases e2 : e' = e
    · subst e2; rw [hm, upd_same]; exact ⟨m0, _, rfl, hm0⟩
    · rw [hl _ (by simp [e2]), upd_ne _ _ e2]; exact hp.keyTop e'
  · intro n hn hd
    rw [hl, upd_ne _ _ (by omega)]
    · exact hp.keyOk n hn hd
    · intro e2; injection e2 with _ e2; exact (hN.far n hn hd).2 e2
  · intro e'
    rw [hl _ (by simp)]
    obtain ⟨m, l, h1, h2, h3⟩ := valTop_mono (e := e') hle (hp.valTop e')
    refine ⟨m, l, h1, ?_, h3⟩
    by_cases e2 : e' = e
    · subst e2; rw [upd_same]; exact h2
    · rw [upd_ne _ _ e2]; exact h2
  · intro n hn hf; rw [hl _ (by simp)]; exact hp.valOk n hn hf
  · exact hp.slot
  · exact fun hd hhd => Nat.le_trans (hp.hdrT hd hhd) (hle _)
  · intro n
    by_cases e2 : n = ((s.subs p).hdrs (s.subs p).cur).nb
    · subst e2; rw [upd_same]
    · rw [upd_ne _ _ e2]; exact Nat.le_trans (hp.keyLe n) (hle _)

/-- a newer value in front of a list of values -/
theorem split_cons {α} {m0 : α} {l l1 : List α} {m : α} {l2 : List α} (h : m0 :: l = l1 ++ m :: l2) :
    (l1 = [] ∧ m = m0 ∧ l2 = l) ∨ ∃ l1', l1 = m0 :: l1' ∧ l = l1' ++ m :: l2 := by
  cases l1 with
  | nil => injection h with h1 h2; exact .inl ⟨rfl, h1.symm, h2.symm⟩
  | cons y l1 => injection h with h1 h2; exact .inr ⟨l1, by rw [h1], h2⟩

/-- line 2913 or 2930 -/
theorem pinv_storeTail (hB : 0 < B) (h : Inv B s) {x e T : Nat} (hc : (s.subs p).prod = .stl x e T) {m0 : Msg}
    (hu : s'.subs p = { s.subs p with
        hdrs := upd (s.subs p).hdrs (s.subs p).cur { (s.subs p).hdrs (s.subs p).cur with tail := T, nb := ((s.subs p).hdrs (s.subs p).cur).nb + 1 }
        ent := upd (s.subs p).ent ((s.subs p).hdrs (s.subs p).cur).nb e
        prod := .blk x e })
    (hl : ∀ l, l ≠ .htl p (s.subs p).cur → s'.c.hist l = s.c.hist l)
    (hm0 : m0 = ⟨some T, .prod p, s.c.now (.prod p) (.prod p), s.c.now (.prod p), ((s.subs p).hdrs (s.subs p).cur).nb + 1⟩)
    (hm : s'.c.hist (.htl p (s.subs p).cur) = m0 :: s.c.hist (.htl p (s.subs p).cur))
    (hv : s'.c.vw (.prod p) = s.c.now (.prod p)) (g1 : s'.pubV p = s.pubV p) (g2 : s'.pushV p = s.pushV p) (g3 : s'.hdrW p = s.hdrW p)
    (g4 : s'.keyT p = s.keyT p) (g5 : s'.wr = s.wr) : PInv B p s' := by
  have hp := h.p p
  have hP := (h.q.b p).prod
  simp only [State.q] at hP
  rw [hc] at hP
  obtain ⟨hns, htl, hN, hkey⟩ := hP
  have hle := s.c.le_now (.prod p)
  have hnb := fun k hk => ((h.q.b p).hdr k hk).nb_le
  simp only [State.q] at hnb
  have hi : ∀ i, i < (s.subs p).tail → i / B < (s.subs p).ns := fun i hi => (h.q.b p).blk_lt hB hi
  refine ⟨?_, ?_, ?_, ?_, ?_, ?_, ?_, ?_, ?_, ?_, ?_⟩ <;> (try rw [hu]) <;> simp only [g1, g2, g3, g4, g5, hv, upd_same]
  · rw [hl _ (by simp)]
    intro m hm
    obtain ⟨h1, h2, h3⟩ := hp.tailH m hm
    exact ⟨h1, Nat.le_trans h2 (hle _), h3⟩
  · exact fun i hi => ⟨VC.le_trans (hp.pubLe i hi).1 hle, (hp.pubLe i hi).2⟩
  · rw [hl _ (by simp)]
    intro l1 m l2 e
    obtain ⟨h1, h2, hd, h3, h4, h5, h6, h7⟩ := hp.curH l1 m l2 e
    refine ⟨h1, Nat.le_trans h2 (hle _), hd, h3, h4, h5, h6, fun i hi hn => h7 i hi ?_⟩
    by_cases e2 : hd = (s.subs p).cur
    · subst e2; rw [upd_same] at hn; simp only at hn; omega
    · rw [upd_ne _ _ e2] at hn; exact hn
  · intro hd hhd l1 m l2 e'
    by_cases e2 : hd = (s.subs p).cur
    · subst e2
      rw [hm] at e'
      rw [upd_same]
      simp only
      rcases split_cons e' with ⟨rfl, rfl, rfl⟩ | ⟨l1', rfl, e3⟩
      · subst hm0
        refine ⟨rfl, Nat.le_refl _, Nat.le_refl _, fun _ => rfl, ⟨_, rfl⟩, fun _ => ⟨?_, .inl ?_⟩, fun i hi h1 h2 => ?_⟩
        · simp only [Nat.add_sub_cancel]; rw [← hN.eq]
        · simp only [Nat.add_sub_cancel]
          exact Nat.le_trans (hp.keyLe _) (hle _)
        · simp only at h1 h2; omega
      · obtain ⟨h1, h2, h3, h4, h5, h6, h7⟩ := hp.htlH _ hhd l1' m l2 e3
        refine ⟨h1, Nat.le_trans h2 (hle _), by omega, nofun, h5, h6, fun i hi' h8 h9 => ?_⟩
        obtain ⟨m', hm', h10⟩ := h7 i hi' (by have := hi i hi'; omega) h9
        exact ⟨m', List.mem_cons_of_mem _ hm', h10⟩
    · rw [hl _ (by simp [e2])] at e'
      rw [upd_ne _ _ e2]
      obtain ⟨h1, h2, h3⟩ := hp.htlH hd hhd l1 m l2 e'
      exact ⟨h1, Nat.le_trans h2 (hle _), h3⟩
  · intro e'; rw [hl _ (by simp)]; exact hp.keyTop e'
  · intro n hn hd
    rw [hl _ (by simp)]
    by_cases e2 : n = ((s.subs p).hdrs (s.subs p).cur).nb
    · subst e2
      rw [upd_same]
      exact (h.w p).key x e T hc
    · rw [upd_ne _ _ e2]; exact hp.keyOk n (by omega) hd
  · intro e'
    rw [hl _ (by simp)]
    exact valTop_mono (e := e') hle (hp.valTop e')
  · intro n hn hf; rw [hl _ (by simp), upd_ne _ _ (by omega)]; exact hp.valOk n hn hf
  · exact hp.slot
  · exact fun hd hhd => Nat.le_trans (hp.hdrT hd hhd) (hle _)
  · exact fun n => Nat.le_trans (hp.keyLe n) (hle _)

/-- line 2533 -/
theorem pinv_storeVal (hB : 0 < B) (h : Inv B s) {x e b : Nat} (hc : (s.subs p).prod = .sval x e b) {m0 : Msg}
    (hu : s'.subs p = { s.subs p with
        entries := upd (s.subs p).entries e { (s.subs p).entries e with value := some b }
        tailBlock := b
        ns := (s.subs p).ns + 1
        prod := .wr x })
    (hl : ∀ l, l ≠ .val p e → s'.c.hist l = s.c.hist l)
    (hm0 : m0 = ⟨some b, .prod p, s.c.now (.prod p) (.prod p), VC.bot, 0⟩)
    (hm : s'.c.hist (.val p e) = m0 :: s.c.hist (.val p e))
    (hv : s'.c.vw (.prod p) = s.c.now (.prod p)) (g1 : s'.pubV p = s.pubV p) (g2 : s'.pushV p = s.pushV p) (g3 : s'.hdrW p = s.hdrW p)
    (g4 : s'.keyT p = s.keyT p) (g5 : s'.wr = s.wr) : PInv B p s' := by
  have hp := h.p p
  have hP := (h.q.b p).prod
  simp only [State.q] at hP
  rw [hc] at hP
  obtain ⟨hns, htl, he, hbk, hown, hdone⟩ := hP
  have hle := s.c.le_now (.prod p)
  have hnf : ∀ j, (s.subs p).fin ((s.subs p).ns * B + j) = false := fun j => tail_not_fin (h.q.t p) (h.q.k p) (by simp only [State.q]; omega)
  have hnfull : ¬Full B (s.subs p).fin (s.subs p).ns := fun hf => by have := hf 0 hB; rw [hnf] at this; cases this
  have hkey := (h.q.b p).key (s.subs p).ns (by simp only [State.q]; omega) (fun hd => hnfull hd.full)
  simp only [State.q] at hkey
  refine ⟨?_, ?_, ?_, ?_, ?_, ?_, ?_, ?_, ?_, ?_, ?_⟩ <;> (try rw [hu]) <;> simp only [g1, g2, g3, g4, g5, hv, upd_same]
  · rw [hl _ (by simp)]
    intro m hm
    obtain ⟨h1, h2, h3⟩ := hp.tailH m hm
    exact ⟨h1, Nat.le_trans h2 (hle _), h3⟩
  · exact fun i hi => ⟨VC.le_trans (hp.pubLe i hi).1 hle, (hp.pubLe i hi).2⟩
  · rw [hl _ (by simp)]
    intro l1 m l2 e
    obtain ⟨h1, h2, h3⟩ := hp.curH l1 m l2 e
    exact ⟨h1, Nat.le_trans h2 (hle _), h3⟩
  · intro hd hhd l1 m l2 e'
    rw [hl _ (by simp)] at e'
    obtain ⟨h1, h2, h3⟩ := hp.htlH hd hhd l1 m l2 e'
    exact ⟨h1, Nat.le_trans h2 (hle _), h3⟩
  · intro e'
    rw [hl _ (by simp)]
    obtain ⟨m, l, h1, h2⟩ := hp.keyTop e'
    refine ⟨m, l, h1, ?_⟩
    by_cases e2 : e' = e
    · subst e2; rw [upd_same]; exact h2
    · rw [upd_ne _ _ e2]; exact h2
  · intro n hn hd; rw [hl _ (by simp)]; exact hp.keyOk n hn hd
  · intro e'
    by_cases e2 : e' = e
    · subst e2
      subst hm0
      rw [hm, upd_same]
      exact ⟨_, _, rfl, rfl, .inl ⟨rfl, Nat.le_refl _⟩⟩
    · rw [upd_ne _ _ e2, hl _ (by simp [e2])]; exact valTop_mono (e := e') hle (hp.valTop e')
  · intro n hn hf
    by_cases e2 : n = (s.subs p).ns
    · subst e2
      rw [← he, hm]
      refine ⟨m0, _, rfl, by rw [hm0], fun i hi e3 => ?_⟩
      have : i / B < (s.subs p).ns := (h.q.b p).blk_lt hB hi
      omega
    · rw [hl]
      · exact hp.valOk n (by omega) hf
      · intro e3
        injection e3 with _ e3
        have h2 := (h.q.b p).key n (by simp only [State.q]; omega) (fun hd => hf hd.full)
        simp only [State.q] at h2
        rw [e3, he, hkey] at h2
        exact e2 (Nat.eq_of_mul_eq_mul_right hB h2).symm
  · exact hp.slot
  · exact fun hd hhd => Nat.le_trans (hp.hdrT hd hhd) (hle _)
  · exact fun n => Nat.le_trans (hp.keyLe n) (hle _)

/-- line 2546 -/
theorem pinv_publish (hB : 0 < B) (h : Inv B s) {x : Nat} (hc : (s.subs p).prod = .pub x) {m0 : Msg}
    (hu : s'.subs p = { s.subs p with tail := (s.subs p).tail + 1, ins := (s.subs p).ins ++ [x], prod := .out })
    (hl : ∀ l, l ≠ .tail p → s'.c.hist l = s.c.hist l)
    (hm0 : m0 = ⟨some ((s.subs p).tail + 1), .prod p, s.c.now (.prod p) (.prod p), s.c.now (.prod p), 0⟩)
    (hm : s'.c.hist (.tail p) = m0 :: s.c.hist (.tail p))
    (hv : s'.c.vw (.prod p) = s.c.now (.prod p)) (g1 : s'.pubV p = upd (s.pubV p) (s.subs p).tail (s.c.now (.prod p))) (g2 : s'.pushV p = s.pushV p)
    (g3 : s'.hdrW p = s.hdrW p) (g4 : s'.keyT p = s.keyT p) (g5 : s'.wr = s.wr) : PInv B p s' := by
  have hp := h.p p
  have hP := (h.q.b p).prod
  simp only [State.q] at hP
  rw [hc] at hP
  obtain ⟨hns, h1, h2, htb, hsl⟩ := hP
  have hle := s.c.le_now (.prod p)
  have hdiv : (s.subs p).tail / B < (s.subs p).ns := by rw [Nat.div_lt_iff_lt_mul hB]; exact h1
  have hpub : ∀ i, i < (s.subs p).tail → upd (s.pubV p) (s.subs p).tail (s.c.now (.prod p)) i = s.pubV p i := fun i hi => upd_ne _ _ (by omega)
  have hcases : ∀ i, i < (s.subs p).tail + 1 → i < (s.subs p).tail ∨ i = (s.subs p).tail := fun i hi => by omega
  refine ⟨?_, ?_, ?_, ?_, ?_, ?_, ?_, ?_, ?_, ?_, ?_⟩ <;> (try rw [hu]) <;> simp only [g1, g2, g3, g4, g5, hv]
  · rw [hm]
    intro m hm
    rcases List.mem_cons.1 hm with rfl | hm
    · subst hm0
      refine ⟨rfl, Nat.le_refl _, _, rfl, Nat.le_refl _, fun i hi => ?_⟩
      rcases hcases i hi with h3 | rfl
      · rw [hpub i h3]; exact VC.le_trans (hp.pubLe i h3).1 hle
      · rw [upd_same]; exact VC.le_refl _
    · obtain ⟨h3, h4, v, h5, h6, h7⟩ := hp.tailH m hm
      exact ⟨h3, Nat.le_trans h4 (hle _), v, h5, by omega, fun i hi => by rw [hpub i (by omega)]; exact h7 i hi⟩
  · intro i hi
    rcases hcases i hi with h3 | rfl
    · rw [hpub i h3]; exact ⟨VC.le_trans (hp.pubLe i h3).1 hle, (hp.pubLe i h3).2⟩
    · rw [upd_same]; exact ⟨VC.le_refl _, VC.le_trans ((h.w p).push (by rw [hc]; exact nofun)) hle⟩
  · rw [hl _ (by simp)]
    intro l1 m l2 e
    obtain ⟨h3, h4, hd, h5, h6, h7, h8, h9⟩ := hp.curH l1 m l2 e
    refine ⟨h3, Nat.le_trans h4 (hle _), hd, h5, h6, h7, h8, fun i hi hn => ?_⟩
    rcases hcases i hi with h10 | rfl
    · rw [hpub i h10]; exact h9 i h10 hn
    · cases l1 with
      | nil =>
        have := h7 rfl
        subst this
        omega
      | cons m' l1 =>
        obtain ⟨h11, h12, _⟩ := hp.curH [] m' (l1 ++ m :: l2) (by rw [e]; rfl)
        exact ⟨m', List.mem_cons_self .., h11, by rw [upd_same]; exact Nat.le_trans h12 (hle _)⟩
  · intro hd hhd l1 m l2 e
    rw [hl _ (by simp)] at e
    obtain ⟨h3, h4, h5, h6, h7, h8, h9⟩ := hp.htlH hd hhd l1 m l2 e
    refine ⟨h3, Nat.le_trans h4 (hle _), h5, h6, h7, h8, fun i hi hn hn' => ?_⟩
    rcases hcases i hi with h10 | rfl
    · rw [hpub i h10]; exact h9 i h10 hn hn'
    · cases l1 with
      | nil => have := h6 rfl; omega
      | cons m' l1 =>
        obtain ⟨h11, h12, _⟩ := hp.htlH hd hhd [] m' (l1 ++ m :: l2) (by rw [e]; rfl)
        exact ⟨m', List.mem_cons_self .., h11, by rw [upd_same]; exact Nat.le_trans h12 (hle _)⟩
  · intro e'; rw [hl _ (by simp)]; exact hp.keyTop e'
  · intro n hn hd; rw [hl _ (by simp)]; exact hp.keyOk n hn hd
  · intro e'; rw [hl _ (by simp)]; exact valTop_mono (e := e') hle (hp.valTop e')
  · intro n hn hf
    rw [hl _ (by simp)]
    obtain ⟨m, l, h3, h4, h5⟩ := hp.valOk n hn hf
    refine ⟨m, l, h3, h4, fun i hi hn' => ?_⟩
    rcases hcases i hi with h10 | rfl
    · rw [hpub i h10]; exact h5 i h10 hn'
    · rw [upd_same]
      obtain ⟨m', l', h6, h7, h8⟩ := hp.valTop ((s.subs p).ent n)
      rw [h3] at h6
      injection h6 with h6 _
      subst h6
      have h9 := ((h.q.b p).val n hn hf).val
      simp only [State.q] at h9
      rw [h9] at h7
      rcases h8 with h8 | h8
      · exact Nat.le_trans h8.2 (hle _)
      · rw [h7] at h8; cases h8.1
  · intro i hi hf
    rcases hcases i hi with h10 | rfl
    · rw [hpub i h10]; exact hp.slot i h10 hf
    · rw [upd_same, ← htb]
      have := (h.w p).slot x hc
      exact ⟨this.1, Nat.le_trans this.2 (hle _)⟩
  · exact fun hd hhd => Nat.le_trans (hp.hdrT hd hhd) (hle _)
  · exact fun n => Nat.le_trans (hp.keyLe n) (hle _)

end RG.WQ
