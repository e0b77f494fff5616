import Verif.Lemmas.TaskQueue3
/-
Lemmas for C88: the steps of the producer, and all steps together.
-/
set_option linter.unusedVariables false
namespace RG.MQ

variable {B p : Nat} {s : Sub} {m : Mem}

/-- The producer goes on without touching anything. -/
theorem BInv.pgo (h : BInv B p s m) {q : PPc} (hq : PPos B p s m q) : BInv B p { s with prod := q } m where
  len := h.len
  hdr := fun k hk => ⟨(h.hdr k hk).1, (h.hdr k hk).2, (h.hdr k hk).3, (h.hdr k hk).4, (h.hdr k hk).5, (h.hdr k hk).6⟩
  inj := h.inj
  key := h.key
  val := fun b hb hf => ⟨(h.val b hb hf).1, (h.val b hb hf).2, (h.val b hb hf).3⟩
  slot := h.slot
  pc := by
    intro c
    have h1 := h.pc c
    simp only
    cases e : s.cons c with
    | ret r => rw [e] at h1; cases r <;> exact h1
    | _ => rw [e] at h1; exact h1
  prod := hq.mono rfl rfl rfl rfl rfl rfl rfl (fun _ h => h) (fun _ => rfl) (fun _ h => h) (fun _ _ => ⟨rfl, rfl⟩) (fun _ _ => rfl)
  uniq := h.uniq
  outs := h.outs

theorem mod_eq_far {cap base b n : Nat} (hc : 0 < cap) (h : (base + b) % cap = (base + n) % cap) (h1 : b < n) (h2 : n ≤ b + cap) : n = b + cap := by
  have h3 : (base + n - (base + b)) % cap = 0 := Nat.sub_mod_eq_zero_of_mod_eq h.symm
  have h4 : base + n - (base + b) = n - b := by omega
  rw [h4] at h3
  have h5 := Nat.le_of_dvd (by omega) (Nat.dvd_of_mod_eq_zero h3)
  omega

theorem succ_mod_cancel {n T a : Nat} (hT : T < n) (h : (T + 1) % n = (a + 1) % n) : T = a % n := by
  rw [← Nat.mod_add_mod a] at h
  have hr := Nat.mod_lt a (show 0 < n by omega)
  generalize a % n = r at *
  rcases Nat.lt_or_eq_of_le hT with h1 | h1 <;> rcases Nat.lt_or_eq_of_le hr with h2 | h2
  · rw [Nat.mod_eq_of_lt h1, Nat.mod_eq_of_lt h2] at h; omega
  · rw [show r + 1 = n from h2, Nat.mod_self, Nat.mod_eq_of_lt h1] at h; omega
  · rw [show T + 1 = n from h1, Nat.mod_self, Nat.mod_eq_of_lt h2] at h; omega
  · omega

/-- The entry at the next position, if it may be used, is not that of a block that is still needed. -/
theorem BInv.next (hB : 2 ≤ B) (h : BInv B p s m) (hns : s.ns = (s.hdrs s.cur).nb)
    (he : (s.entries ((s.hdrs s.cur).index (((s.hdrs s.cur).tail + 1) % (s.hdrs s.cur).capacity))).key = invalidBase ∨
        (s.entries ((s.hdrs s.cur).index (((s.hdrs s.cur).tail + 1) % (s.hdrs s.cur).capacity))).value = none) :
    Next B s ((s.hdrs s.cur).index (((s.hdrs s.cur).tail + 1) % (s.hdrs s.cur).capacity)) (((s.hdrs s.cur).tail + 1) % (s.hdrs s.cur).capacity) := by
  have hH := h.hdr s.cur (Nat.le_refl _)
  refine ⟨Nat.mod_lt _ hH.cap, hH.tail_eq, rfl, fun b hb hd => ?_⟩
  have hat := hH.at_ b hb hd
  have key : s.ent b ≠ (s.hdrs s.cur).index (((s.hdrs s.cur).tail + 1) % (s.hdrs s.cur).capacity) := by
    intro e
    rw [← e] at he
    have hv : (s.entries (s.ent b)).value = none := by
      rcases he with he | he
      · rw [h.key b hb hd] at he
        unfold invalidBase at he
        have : b = 0 ∨ 1 ≤ b := by omega
        rcases this with rfl | h1
        · omega
        · have := Nat.mul_le_mul h1 hB; omega
      · exact he
    have hfull : Full B s.fin b := by
      by_contra hf
      have := (h.val b (by omega) hf).val
      rw [hv] at this
      cases this
    rw [← hat.2] at e
    have hpos := h.inj _ _ (Nat.mod_lt _ hH.cap) (Nat.mod_lt _ hH.cap) e
    rw [hH.tail_eq] at hpos
    have hfar := mod_eq_far hH.cap hpos hb hat.1
    apply hd
    intro i hi
    by_cases hib : i < b * B
    · cases hf : s.fin i with
      | true => rfl
      | false =>
        have h1 : i / B < b := by rw [Nat.div_lt_iff_lt_mul (by omega)]; exact hib
        have h2 := (hH.at_ (i / B) (by omega) (not_dead (by omega) hf (Nat.le_refl _))).1
        omega
    · rw [Nat.succ_mul] at hi
      have := hfull (i - b * B) (by omega)
      rwa [show b * B + (i - b * B) = i by omega] at this
  refine ⟨?_, key⟩
  rcases Nat.lt_or_eq_of_le hat.1 with h1 | h1
  · exact h1
  · exfalso
    apply key
    rw [← hat.2, hH.tail_eq, h1]
    congr 1
    rw [← Nat.add_assoc, Nat.add_mod_right]

theorem grow_base {cap nb : Nat} (h : 0 < cap) : cap + 2 * cap * nb - nb + nb = cap + 2 * cap * nb := by
  have : 1 * nb ≤ 2 * cap * nb := Nat.mul_le_mul_right nb (by omega)
  omega

theorem grow_hok {nE : Nat} {h : Hdr} (hH : HOk B s h) (hnE : nE = s.nEnt) {s' : Sub} (hn : s'.nEnt = s.nEnt + h.capacity) (hf : s'.fin = s.fin) (he : s'.ent = s.ent)
    (hnb : (s'.hdrs s'.cur).nb = h.nb) : HOk B s' (h.grow nE) where
  cap := by show 0 < 2 * h.capacity; have := hH.cap; omega
  tail_lt := by show h.capacity - 1 < 2 * h.capacity; have := hH.cap; omega
  tail_eq := by
    show (h.capacity - 1 + 1) % (2 * h.capacity) = (h.capacity + 2 * h.capacity * h.nb - h.nb + h.nb) % (2 * h.capacity)
    rw [grow_base hH.cap, Nat.sub_add_cancel hH.cap, Nat.add_mul_mod_self_left]
  ent_lt := by
    intro j hj
    have hj : j < 2 * h.capacity := hj
    show (if j < h.capacity then h.index ((h.tail + 1 + j) % h.capacity) else nE + (j - h.capacity)) < s'.nEnt
    split
    · have := hH.ent_lt _ (Nat.mod_lt (h.tail + 1 + j) hH.cap); omega
    · omega
  nb_le := by rw [hnb]; exact Nat.le_refl _
  at_ := by
    intro b hb hd
    have hb : b < h.nb := hb
    rw [hf] at hd
    have h1 := hH.at_ b hb hd
    refine ⟨by show h.nb ≤ b + 2 * h.capacity; omega, ?_⟩
    have hc := hH.cap
    have e1 : (h.capacity + 2 * h.capacity * h.nb - h.nb + b) % (2 * h.capacity) = h.capacity + b - h.nb := by
      have h2 := grow_base (nb := h.nb) hc
      have : h.capacity + 2 * h.capacity * h.nb - h.nb + b = (h.capacity + b - h.nb) + 2 * h.capacity * h.nb := by omega
      rw [this, Nat.add_mul_mod_self_left, Nat.mod_eq_of_lt (by omega)]
    show (if (h.capacity + 2 * h.capacity * h.nb - h.nb + b) % (2 * h.capacity) < h.capacity then
      h.index ((h.tail + 1 + (h.capacity + 2 * h.capacity * h.nb - h.nb + b) % (2 * h.capacity)) % h.capacity) else _) = s'.ent b
    rw [e1, if_pos (by omega), he, ← h1.2]
    congr 1
    rw [Nat.add_mod, hH.tail_eq, ← Nat.add_mod]
    rw [show h.base + h.nb + (h.capacity + b - h.nb) = h.base + b + h.capacity by omega, Nat.add_mod_right]

theorem grow_inj {nE : Nat} {h : Hdr} (hc : 0 < h.capacity) (hlt : ∀ j, j < h.capacity → h.index j < nE)
    (hi : ∀ j j', j < h.capacity → j' < h.capacity → h.index j = h.index j' → j = j') :
    ∀ j j', j < (h.grow nE).capacity → j' < (h.grow nE).capacity → (h.grow nE).index j = (h.grow nE).index j' → j = j' := by
  have hr : ∀ j j', j < h.capacity → j' < h.capacity → j ≤ j' → (h.tail + 1 + j) % h.capacity = (h.tail + 1 + j') % h.capacity → j = j' := by
    intro j j' h1 h2 h3 h4
    have h5 : (h.tail + 1 + j' - (h.tail + 1 + j)) % h.capacity = 0 := Nat.sub_mod_eq_zero_of_mod_eq h4.symm
    rw [show h.tail + 1 + j' - (h.tail + 1 + j) = j' - j by omega, Nat.mod_eq_of_lt (by omega)] at h5
    omega
  intro j j' h1 h2 h3
  have h1 : j < 2 * h.capacity := h1
  have h2 : j' < 2 * h.capacity := h2
  have h3 : (if j < h.capacity then h.index ((h.tail + 1 + j) % h.capacity) else nE + (j - h.capacity)) =
    (if j' < h.capacity then h.index ((h.tail + 1 + j') % h.capacity) else nE + (j' - h.capacity)) := h3
  have l1 := hlt _ (Nat.mod_lt (h.tail + 1 + j) hc)
  have l2 := hlt _ (Nat.mod_lt (h.tail + 1 + j') hc)
  split at h3 <;> split at h3
  · rename_i a b
    have := hi _ _ (Nat.mod_lt _ hc) (Nat.mod_lt _ hc) h3
    rcases Nat.le_total j j' with h4 | h4
    · exact hr j j' a b h4 this
    · exact (hr j' j b a h4 this.symm).symm
  · omega
  · omega
  · omega

theorem binv_grow (hB : 0 < B) (ht : TInv s) (hk : KInv s) (h : BInv B p s m) {x : Nat} (hc : s.prod = .grow x) (g : Nat → Option Nat) :
    BInv B p { s with
        hdrs := upd s.hdrs (s.cur + 1) ((s.hdrs s.cur).grow s.nEnt)
        cur := s.cur + 1
        entries := fun e => if s.nEnt ≤ e then ⟨invalidBase, g e⟩ else s.entries e
        nEnt := s.nEnt + (s.hdrs s.cur).capacity
        prod := .skey x s.nEnt (s.hdrs s.cur).capacity } m := by
  have hH := h.hdr s.cur (Nat.le_refl _)
  have hP := h.prod
  rw [hc] at hP
  obtain ⟨hns, htl⟩ := hP
  have hent : ∀ e, e < s.nEnt → (if s.nEnt ≤ e then (⟨invalidBase, g e⟩ : Entry) else s.entries e) = s.entries e := by
    intro e he; rw [if_neg (by omega)]
  exact {
    len := h.len
    hdr := by
      intro k hk
      simp only at hk ⊢
      by_cases e : k = s.cur + 1
      · subst e
        rw [upd_same]
        exact grow_hok hH rfl rfl rfl rfl (by simp only [upd_same]; rfl)
      · rw [upd_ne _ _ e]
        have h1 := h.hdr k (by omega)
        exact ⟨h1.cap, h1.tail_lt, h1.tail_eq, fun j hj => Nat.lt_of_lt_of_le (h1.ent_lt j hj) (Nat.le_add_right _ _),
          by simp only [upd_same]; exact h1.nb_le, h1.at_⟩
    inj := by
      simp only [upd_same]
      exact grow_inj hH.cap hH.ent_lt h.inj
    key := by
      intro b hb hd
      simp only [upd_same] at hb ⊢
      rw [hent _ (h.ent_lt hb hd)]
      exact h.key b hb hd
    val := by
      intro b hb hf
      have h1 := h.val b hb hf
      refine ⟨?_, h1.owner, h1.done⟩
      simp only
      rw [hent _ (h.ent_lt (Nat.lt_of_lt_of_le hb h.prod.ns_le) (fun hd => hf hd.full))]
      exact h1.val
    slot := h.slot
    pc := by
      intro c'
      refine (h.pc c').mono (Nat.le_succ _) (fun k hk => ?_) (fun _ _ => rfl) (fun _ _ => rfl) (fun _ h => h) (fun _ _ h => h) (Nat.le_add_right _ _)
        (fun i e b x hcc => ?_) (fun _ _ => rfl) (fun i' hi' => hold_lt hB ht hk h hi')
      · simp only
        rw [upd_ne _ _ (by omega)]
        exact ⟨Nat.le_refl _, rfl, rfl⟩
      · have h1 := h.pc c'
        rw [hcc] at h1
        exact hent _ h1.2.2.2.2.1
    prod := by
      refine ⟨?_, htl, ⟨?_, ?_, ?_, ?_⟩, .inl ?_⟩ <;> simp only [upd_same]
      · exact hns
      · show (s.hdrs s.cur).capacity < 2 * (s.hdrs s.cur).capacity; have := hH.cap; omega
      · show (s.hdrs s.cur).capacity = ((s.hdrs s.cur).capacity + 2 * (s.hdrs s.cur).capacity * (s.hdrs s.cur).nb - (s.hdrs s.cur).nb + (s.hdrs s.cur).nb) %
            (2 * (s.hdrs s.cur).capacity)
        rw [grow_base hH.cap, Nat.add_mul_mod_self_left, Nat.mod_eq_of_lt]
        have := hH.cap; omega
      · show (if (s.hdrs s.cur).capacity < (s.hdrs s.cur).capacity then _ else s.nEnt + ((s.hdrs s.cur).capacity - (s.hdrs s.cur).capacity)) = s.nEnt
        rw [if_neg (Nat.lt_irrefl _), Nat.sub_self, Nat.add_zero]
      · intro b hb hd
        have hb : b < (s.hdrs s.cur).nb := hb
        have h1 := (hH.at_ b hb hd).1
        have h2 := h.ent_lt hb hd
        have := hH.cap
        exact ⟨by show (s.hdrs s.cur).nb < b + 2 * (s.hdrs s.cur).capacity; omega, by omega⟩
      · rw [if_pos (Nat.le_refl _)]
    uniq := h.uniq
    outs := h.outs }

theorem binv_storeKey (hB : 2 ≤ B) (ht : TInv s) (hk : KInv s) (h : BInv B p s m) {x e T : Nat} (hc : s.prod = .skey x e T) :
    BInv B p { s with
        entries := upd s.entries e { s.entries e with key := s.tail }
        prod := .stl x e T } m := by
  have hB0 : 0 < B := by omega
  have hP := h.prod
  rw [hc] at hP
  obtain ⟨hns, htl, hN, hinv⟩ := hP
  exact {
    len := h.len
    hdr := fun k hk => ⟨(h.hdr k hk).1, (h.hdr k hk).2, (h.hdr k hk).3, (h.hdr k hk).4, (h.hdr k hk).5, (h.hdr k hk).6⟩
    inj := h.inj
    key := by
      intro b hb hd
      simp only
      rw [upd_ne _ _ (hN.far b hb hd).2]
      exact h.key b hb hd
    val := by
      intro b hb hf
      have h1 := h.val b hb hf
      have hb : b < s.ns := hb
      have h2 := (hN.far b (by omega) (fun hd => hf hd.full)).2
      refine ⟨?_, h1.owner, h1.done⟩
      simp only
      rw [upd_ne _ _ h2]
      exact h1.val
    slot := h.slot
    pc := by
      intro c'
      refine (h.pc c').mono (Nat.le_refl _) (fun _ _ => ⟨Nat.le_refl _, rfl, rfl⟩) (fun _ _ => rfl) (fun _ _ => rfl) (fun _ h => h) (fun _ _ h => h) (Nat.le_refl _)
        (fun i e' b x hcc => ?_) (fun _ _ => rfl) (fun i' hi' => hold_lt hB0 ht hk h hi')
      have h1 := h.pc c'
      rw [hcc] at h1
      obtain ⟨h2, h3, h4, h5, h6⟩ := h1
      simp only
      rw [upd_ne]
      rintro rfl
      rcases hinv with h7 | h7
      · rw [h4] at h7
        unfold invalidBase at h7
        have : i / B = 0 ∨ 1 ≤ i / B := Nat.eq_zero_or_pos _
        rcases this with h8 | h8
        · rw [h8] at h7; omega
        · have := Nat.mul_le_mul h8 hB; omega
      · rw [h5] at h7; cases h7
    prod := ⟨hns, htl, ⟨hN.lt, hN.eq, hN.idx, hN.far⟩, by simp only [upd_same]⟩
    uniq := h.uniq
    outs := h.outs }

theorem binv_storeTail (hB : 0 < B) (ht : TInv s) (hk : KInv s) (h : BInv B p s m) {x e T : Nat} (hc : s.prod = .stl x e T) :
    BInv B p { s with
        hdrs := upd s.hdrs s.cur { s.hdrs s.cur with tail := T, nb := (s.hdrs s.cur).nb + 1 }
        ent := upd s.ent (s.hdrs s.cur).nb e
        prod := .blk x e } m := by
  have hP := h.prod
  rw [hc] at hP
  obtain ⟨hns, htl, hN, hkey⟩ := hP
  have hH := h.hdr s.cur (Nat.le_refl _)
  exact {
    len := h.len
    hdr := by
      intro k hk
      by_cases e' : k = s.cur
      · subst e'
        simp only [upd_same]
        refine ⟨hH.cap, hN.lt, ?_, hH.ent_lt, ?_, ?_⟩ <;> simp only [upd_same]
        · rw [hN.eq, Nat.mod_add_mod, Nat.add_assoc]
        · exact Nat.le_refl _
        · intro b hb hd
          by_cases e2 : b = (s.hdrs s.cur).nb
          · subst e2
            rw [upd_same]
            refine ⟨by have := hH.cap; omega, ?_⟩
            rw [← hN.eq]
            exact hN.idx
          · rw [upd_ne _ _ e2]
            have h1 := hN.far b (by omega) hd
            exact ⟨h1.1, (hH.at_ b (by omega) hd).2⟩
      · have h1 := h.hdr k hk
        simp only [upd_ne _ _ e']
        refine ⟨h1.cap, h1.tail_lt, h1.tail_eq, h1.ent_lt, ?_, ?_⟩ <;> simp only [upd_same]
        · exact Nat.le_succ_of_le h1.nb_le
        · intro b hb hd
          have := h1.nb_le
          rw [upd_ne _ _ (by omega)]
          exact h1.at_ b hb hd
    inj := by simp only [upd_same]; exact h.inj
    key := by
      intro b hb hd
      simp only [upd_same] at hb ⊢
      by_cases e2 : b = (s.hdrs s.cur).nb
      · subst e2
        rw [upd_same, hkey, ← htl, hns]
      · rw [upd_ne _ _ e2]
        exact h.key b (by omega) hd
    val := by
      intro b hb hf
      have hb : b < s.ns := hb
      have h1 := h.val b hb hf
      refine ⟨?_, h1.owner, h1.done⟩
      simp only
      rw [upd_ne _ _ (by omega)]
      exact h1.val
    slot := h.slot
    pc := by
      intro c'
      refine (h.pc c').mono (Nat.le_refl _) (fun k hk => ?_) (fun b hb => ?_) (fun _ _ => rfl) (fun _ h => h) (fun _ _ h => h) (Nat.le_refl _)
        (fun _ _ _ _ _ => rfl) (fun _ _ => rfl) (fun i' hi' => hold_lt hB ht hk h hi')
      · by_cases e' : k = s.cur
        · subst e'; simp only [upd_same]; exact ⟨Nat.le_succ _, trivial, trivial⟩
        · simp only [upd_ne _ _ e']; exact ⟨Nat.le_refl _, trivial, trivial⟩
      · simp only
        rw [upd_ne _ _ (by omega)]
    prod := by
      refine ⟨?_, htl, ?_⟩ <;> simp only [upd_same]
      · omega
      · rw [hns, upd_same]
    uniq := h.uniq
    outs := h.outs }

theorem binv_requisition (hB : 0 < B) (ht : TInv s) (hk : KInv s) (h : BInv B p s m) {x e : Nat} (hc : s.prod = .blk x e) {b : Nat} (hb : (m b).owner = none) :
    BInv B p { s with blkOf := upd s.blkOf s.ns b, prod := .rst x e b } (upd m b { m b with owner := some (p, s.ns) }) := by
  have hP := h.prod
  rw [hc] at hP
  obtain ⟨hns, htl, he⟩ := hP
  have hne : ∀ b' k, (m b').owner = some k → b' ≠ b := by
    rintro b' k h1 rfl
    rw [hb] at h1
    cases h1
  exact {
    len := h.len
    hdr := fun k hk => ⟨(h.hdr k hk).1, (h.hdr k hk).2, (h.hdr k hk).3, (h.hdr k hk).4, (h.hdr k hk).5, (h.hdr k hk).6⟩
    inj := h.inj
    key := h.key
    val := by
      intro b' hb' hf
      have hb' : b' < s.ns := hb'
      have h1 := h.val b' hb' hf
      refine ⟨?_, ?_, ?_⟩ <;> simp only [upd_ne s.blkOf b (show b' ≠ s.ns by omega)]
      · exact h1.val
      · rw [upd_ne _ _ (hne _ _ h1.owner)]; exact h1.owner
      · rw [upd_ne _ _ (hne _ _ h1.owner)]; exact h1.done
    slot := by
      intro i hi hf hcc
      have hlt := h.blk_lt hB hi
      simp only [upd_ne s.blkOf b (show i / B ≠ s.ns by omega)]
      rw [upd_ne _ _ (hne _ _ (h.val _ hlt (not_full hB hf)).owner)]
      exact h.slot i hi hf hcc
    pc := by
      intro c'
      refine (h.pc c').mono (Nat.le_refl _) (fun _ _ => ⟨Nat.le_refl _, rfl, rfl⟩) (fun _ _ => rfl) (fun b' hb' => ?_) (fun _ h => h) (fun _ _ h => h) (Nat.le_refl _)
        (fun _ _ _ _ _ => rfl) (fun b2 h2 => ?_) (fun i' hi' => hold_lt hB ht hk h hi')
      · simp only
        rw [upd_ne _ _ (by omega)]
      · obtain ⟨k, _, h3⟩ := h2
        rw [upd_ne _ _ (hne _ _ h3)]
    prod := by
      refine ⟨hns, htl, he, ?_, ?_⟩ <;> simp only [upd_same]
    uniq := h.uniq
    outs := h.outs }

theorem binv_resetEmpty (hB : 0 < B) (ht : TInv s) (hk : KInv s) (h : BInv B p s m) {x e b : Nat} (hc : s.prod = .rst x e b) :
    BInv B p { s with prod := .sval x e b } (upd m b { m b with done := 0 }) := by
  have hP := h.prod
  rw [hc] at hP
  obtain ⟨hns, htl, he, hbk, hown⟩ := hP
  have hne : ∀ b' k, (m b').owner = some (p, k) → k < s.ns → b' ≠ b := by
    rintro b' k h1 h2 rfl
    rw [hown] at h1
    injection h1 with h1
    injection h1 with _ h1
    omega
  have ho : ∀ b', ((upd m b { m b with done := 0 }) b').owner = (m b').owner := by
    intro b'
    by_cases e' : b' = b
    · rw [e', upd_same]
    · rw [upd_ne _ _ e']
  exact {
    len := h.len
    hdr := fun k hk => ⟨(h.hdr k hk).1, (h.hdr k hk).2, (h.hdr k hk).3, (h.hdr k hk).4, (h.hdr k hk).5, (h.hdr k hk).6⟩
    inj := h.inj
    key := h.key
    val := by
      intro b' hb' hf
      have h1 := h.val b' hb' hf
      refine ⟨h1.val, by rw [ho]; exact h1.owner, ?_⟩
      simp only
      rw [upd_ne _ _ (hne _ _ h1.owner hb')]; exact h1.done
    slot := by
      intro i hi hf hcc
      have hlt := h.blk_lt hB hi
      simp only
      rw [upd_ne _ _ (hne _ _ (h.val _ hlt (not_full hB hf)).owner hlt)]
      exact h.slot i hi hf hcc
    pc := by
      intro c'
      exact (h.pc c').mono (Nat.le_refl _) (fun _ _ => ⟨Nat.le_refl _, rfl, rfl⟩) (fun _ _ => rfl) (fun b' hb' => rfl) (fun _ h => h) (fun _ _ h => h) (Nat.le_refl _)
        (fun _ _ _ _ _ => rfl) (fun b2 h2 => ho _) (fun i' hi' => hold_lt hB ht hk h hi')
    prod := by
      refine ⟨hns, htl, he, hbk, ?_, ?_⟩
      · rw [ho]; exact hown
      · rw [upd_same]
    uniq := h.uniq
    outs := h.outs }

theorem binv_storeVal (hB : 0 < B) (ht : TInv s) (hk : KInv s) (h : BInv B p s m) {x e b : Nat} (hc : s.prod = .sval x e b) :
    BInv B p { s with
        entries := upd s.entries e { s.entries e with value := some b }
        tailBlock := b
        ns := s.ns + 1
        prod := .wr x } m := by
  have hP := h.prod
  rw [hc] at hP
  obtain ⟨hns, htl, he, hbk, hown, hdone⟩ := hP
  have hnf : ∀ j, s.fin (s.ns * B + j) = false := fun j => tail_not_fin ht hk (by omega)
  have hnfull : ¬Full B s.fin s.ns := fun hf => by have := hf 0 hB; rw [hnf] at this; cases this
  have hnd : ¬Dead B s.fin s.ns := fun hd => hnfull hd.full
  have hkey := h.key s.ns (by omega) hnd
  have hk' : ∀ e', ((upd s.entries e { s.entries e with value := some b }) e').key = (s.entries e').key := by
    intro e'
    by_cases e2 : e' = e
    · rw [e2, upd_same]
    · rw [upd_ne _ _ e2]
  have hdiv : s.tail / B = s.ns := by rw [← htl, Nat.mul_div_cancel _ hB]
  exact {
    len := h.len
    hdr := fun k hk => ⟨(h.hdr k hk).1, (h.hdr k hk).2, (h.hdr k hk).3, (h.hdr k hk).4, (h.hdr k hk).5, (h.hdr k hk).6⟩
    inj := h.inj
    key := fun b' hb' hd => by simp only; rw [hk']; exact h.key b' hb' hd
    val := by
      intro b' hb' hf
      have hb' : b' < s.ns + 1 := hb'
      by_cases e2 : b' = s.ns
      · subst e2
        refine ⟨?_, ?_, ?_⟩ <;> simp only
        · rw [← he, upd_same, hbk]
        · rw [← hbk]; exact hown
        · rw [← hbk, hdone]
          symm
          have : (fun j => s.fin (s.ns * B + j)) = fun _ => false := by funext j; exact hnf j
          rw [this]
          unfold cnt
          simp
      · have h1 := h.val b' (by omega) hf
        refine ⟨?_, h1.owner, h1.done⟩
        simp only
        rw [upd_ne]
        · exact h1.val
        · intro e3
          have h2 := h.key b' (by omega) (fun hd => hf hd.full)
          rw [e3, he, hkey] at h2
          exact e2 (Nat.eq_of_mul_eq_mul_right hB h2).symm
    slot := h.slot
    pc := by
      intro c'
      refine (h.pc c').mono (Nat.le_refl _) (fun _ _ => ⟨Nat.le_refl _, rfl, rfl⟩) (fun _ _ => rfl) (fun b' hb' => rfl) (fun _ h => h) (fun _ _ h => h) (Nat.le_refl _)
        (fun i e' b2 x2 hcc => ?_) (fun b2 h2 => rfl) (fun i' hi' => hold_lt hB ht hk h hi')
      have h1 := h.pc c'
      have h2 := past_lt hB ht hk h (c := c') (i := i) (x := x2) (by rw [hcc]; rfl)
      rw [hcc] at h1
      simp only
      rw [upd_ne]
      rintro rfl
      have h3 := h1.2.2.1
      rw [he, hkey] at h3
      have := Nat.eq_of_mul_eq_mul_right hB h3
      omega
    prod := by
      refine ⟨hns, ?_, ?_, ?_⟩ <;> simp only
      · rw [Nat.succ_mul]; omega
      · rw [Nat.succ_mul]; omega
      · rw [hdiv]; exact hbk
    uniq := h.uniq
    outs := h.outs }

theorem binv_write (hB : 0 < B) (ht : TInv s) (hk : KInv s) (h : BInv B p s m) {x : Nat} (hc : s.prod = .wr x) :
    BInv B p { s with prod := .pub x }
        (upd m s.tailBlock { m s.tailBlock with slots := upd (m s.tailBlock).slots (s.tail % B) (some x) }) := by
  have hP := h.prod
  rw [hc] at hP
  obtain ⟨hns, h1, h2, htb⟩ := hP
  have hlt : s.tail / B < s.ns := by rw [Nat.div_lt_iff_lt_mul hB]; exact h1
  have hnf := tail_not_fin ht hk (Nat.le_refl s.tail)
  have hown : ∀ b', ((upd m s.tailBlock { m s.tailBlock with slots := upd (m s.tailBlock).slots (s.tail % B) (some x) }) b').owner = (m b').owner := by
    intro b'
    by_cases e' : b' = s.tailBlock
    · rw [e', upd_same]
    · rw [upd_ne _ _ e']
  have hdone : ∀ b', ((upd m s.tailBlock { m s.tailBlock with slots := upd (m s.tailBlock).slots (s.tail % B) (some x) }) b').done = (m b').done := by
    intro b'
    by_cases e' : b' = s.tailBlock
    · rw [e', upd_same]
    · rw [upd_ne _ _ e']
  exact {
    len := h.len
    hdr := fun k hk => ⟨(h.hdr k hk).1, (h.hdr k hk).2, (h.hdr k hk).3, (h.hdr k hk).4, (h.hdr k hk).5, (h.hdr k hk).6⟩
    inj := h.inj
    key := h.key
    val := fun b' hb' hf => ⟨(h.val b' hb' hf).val, by rw [hown]; exact (h.val b' hb' hf).owner, by rw [hdone]; exact (h.val b' hb' hf).done⟩
    slot := by
      intro i hi hf hcc
      have hi : i < s.tail := hi
      refine Eq.trans ?_ (h.slot i hi hf hcc)
      simp only
      by_cases e' : s.blkOf (i / B) = s.tailBlock
      · have h3 := h.apart hB (h.blk_lt hB hi) hlt hf hnf (e'.trans htb)
        have h4 : i % B ≠ s.tail % B := fun e2 => by have := eq_of_div_mod h3 e2; omega
        rw [e', upd_same]
        simp only
        rw [upd_ne _ _ h4]
      · rw [upd_ne _ _ e']
    pc := by
      intro c'
      exact (h.pc c').mono (Nat.le_refl _) (fun _ _ => ⟨Nat.le_refl _, rfl, rfl⟩) (fun _ _ => rfl) (fun b' hb' => rfl) (fun _ h => h) (fun _ _ h => h) (Nat.le_refl _)
        (fun _ _ _ _ _ => rfl) (fun b2 h2 => hown _) (fun i' hi' => hold_lt hB ht hk h hi')
    prod := by
      refine ⟨hns, h1, h2, htb, ?_⟩
      simp only [upd_same]
    uniq := h.uniq
    outs := h.outs }

theorem binv_publish (hB : 0 < B) (ht : TInv s) (hk : KInv s) (h : BInv B p s m) {x : Nat} (hc : s.prod = .pub x) :
    BInv B p { s with tail := s.tail + 1, ins := s.ins ++ [x], prod := .out } m := by
  have hP := h.prod
  rw [hc] at hP
  obtain ⟨hns, h1, h2, htb, hsl⟩ := hP
  have hins : ∀ i y : Nat, s.ins[i]? = some y → (s.ins ++ [x])[i]? = some y := by
    intro i y hy
    rw [List.getElem?_append_left (List.getElem?_eq_some_iff.1 hy).1]
    exact hy
  exact {
    len := by simp only [List.length_append, List.length_singleton, h.len]
    hdr := fun k hk => ⟨(h.hdr k hk).1, (h.hdr k hk).2, (h.hdr k hk).3, (h.hdr k hk).4, (h.hdr k hk).5, (h.hdr k hk).6⟩
    inj := h.inj
    key := h.key
    val := fun b hb hf => ⟨(h.val b hb hf).1, (h.val b hb hf).2, (h.val b hb hf).3⟩
    slot := by
      intro i hi hf hcc
      have hi : i < s.tail + 1 := hi
      simp only
      by_cases e : i = s.tail
      · subst e
        rw [← htb, hsl, ← h.len]
        simp
      · rw [List.getElem?_append_left (by rw [h.len]; omega)]
        exact h.slot i (by omega) hf hcc
    pc := by
      intro c'
      exact (h.pc c').mono (Nat.le_refl _) (fun _ _ => ⟨Nat.le_refl _, rfl, rfl⟩) (fun _ _ => rfl) (fun b' hb' => rfl) (fun _ h => h) hins (Nat.le_refl _)
        (fun _ _ _ _ _ => rfl) (fun b2 h2 => rfl) (fun i' hi' => hold_lt hB ht hk h hi')
    prod := by
      refine ⟨hns, by simp only; omega, by simp only; omega, fun hm => ?_⟩
      simp only at hm ⊢
      rw [htb]
      have h3 := Nat.succ_div (a := s.tail) (b := B)
      rw [if_neg (fun hd => hm (Nat.mod_eq_zero_of_dvd hd))] at h3
      rw [h3]
      rfl
    uniq := h.uniq
    outs := fun i y hy => hins i y (h.outs i y hy) }

theorem SStep.binv (hB : 2 ≤ B) {s' : Sub} {m' : Mem} (ht : TInv s) (hk : KInv s) (h : BInv B p s m) (hs : SStep B p s m s' m') : BInv B p s' m' := by
  have hB0 : 0 < B := by omega
  cases hs with
  | call c hc => exact h.at s.head s.opt s.over s.fate trivial rfl (by rw [hc]; rfl) rfl
  | ldTail c hc => exact h.at s.head s.opt s.over s.fate trivial rfl (by rw [hc]; rfl) rfl
  | ldOver c hc => exact h.at s.head s.opt s.over s.fate trivial rfl (by rw [hc]; rfl) rfl
  | ldOpt c hc =>
    refine h.at s.head s.opt s.over s.fate ?_ ?_ (by rw [hc]; rfl) ?_
    · split <;> trivial
    · split <;> rfl
    · split <;> rfl
  | inc c hc => exact h.at s.head (s.opt + 1) s.over s.fate trivial rfl (by rw [hc]; rfl) rfl
  | chkOk c hc => exact h.at s.head s.opt s.over _ trivial rfl (by rw [hc]; rfl) rfl
  | chkNo c hc => exact h.at s.head s.opt s.over _ trivial rfl (by rw [hc]; rfl) rfl
  | overcommit c hc => exact h.at s.head s.opt (s.over + 1) _ trivial rfl (by rw [hc]; rfl) rfl
  | claim c hc => exact h.at (s.head + 1) s.opt s.over _ trivial rfl (by rw [hc]; rfl) rfl
  | @ldHdr c i hc =>
    refine h.at s.head s.opt s.over s.fate ⟨Nat.le_refl _, ?_⟩ rfl (by rw [hc]; rfl) rfl
    exact Nat.lt_of_lt_of_le (hold_lt hB0 ht hk h (c := c) (by rw [hc]; rfl)) h.prod.ns_le
  | @ldIdxTail c i hd hc =>
    have hp := h.pc c
    rw [hc] at hp
    have hH := h.hdr hd hp.1
    have h0 := Nat.zero_le (i / B)
    have h2 : i / B < (s.hdrs hd).nb := hp.2
    refine h.at s.head s.opt s.over s.fate ⟨hp.1, (s.hdrs hd).nb - 1, by omega, by omega, ?_⟩ rfl (by rw [hc]; rfl) rfl
    have h1 := hH.tail_eq
    have h3 : (s.hdrs hd).base + (s.hdrs hd).nb = (s.hdrs hd).base + ((s.hdrs hd).nb - 1) + 1 := by omega
    rw [h3] at h1
    exact succ_mod_cancel hH.tail_lt h1
  | @ldKey c i hd T hc =>
    have hp := h.pc c
    rw [hc] at hp
    obtain ⟨h1, n, h2, h3, h4⟩ := hp
    have hH := h.hdr hd h1
    have hi := (hk.hold c i (by rw [hc]; rfl)).2
    have hnd := not_dead hB0 hi h2
    have hat := hH.at_ n h3 hnd
    have hkey := h.key n (Nat.lt_of_lt_of_le h3 hH.nb_le) hnd
    have hkey' : (s.entries ((s.hdrs hd).index T)).key = n * B := by rw [h4, hat.2]; exact hkey
    have hne : n * B ≠ invalidBase := by
      unfold invalidBase
      have : n = 0 ∨ 1 ≤ n := by omega
      rcases this with h8 | h8
      · rw [h8]; omega
      · have := Nat.mul_le_mul h8 hB; omega
    rw [hkey', if_neg hne, h4, position_eq hB0 hH.cap h2]
    exact h.at s.head s.opt s.over s.fate (hH.at_ (i / B) (by omega) (not_dead hB0 hi (Nat.le_refl _))).2 rfl (by rw [hc]; rfl) rfl
  | @ldVal c i e hc =>
    have hp := h.pc c
    rw [hc] at hp
    have hp : e = s.ent (i / B) := hp
    have hi := (hk.hold c i (by rw [hc]; rfl)).2
    have hV := h.val _ (hold_lt hB0 ht hk h (c := c) (i := i) (by rw [hc]; rfl)) (not_full hB0 hi)
    have hv := hV.val
    rw [← hp] at hv
    rw [hv]
    exact h.at s.head s.opt s.over s.fate ⟨hp, rfl⟩ rfl (by rw [hc]; rfl) rfl
  | read c hc => exact binv_read hB0 ht hk h hc
  | setEmpty c hc => exact binv_setEmpty hB0 ht hk h hc
  | null c hc => exact binv_null hB0 ht hk h hc
  | free c hc => exact binv_free hB0 ht hk h hc
  | retSome c hc => exact binv_retSome h hc
  | retNone c hc => exact h.at s.head s.opt s.over s.fate trivial rfl (by rw [hc]; rfl) rfl
  | enqueue x hc =>
    have hP := h.prod
    rw [hc] at hP
    obtain ⟨h1, h2, h3, h4⟩ := hP
    refine h.pgo ?_
    split
    · rename_i h0
      refine ⟨h1, ?_⟩
      have h5 := Nat.div_add_mod' s.tail B
      rw [h0] at h5
      have h6 : s.tail / B ≤ s.ns := by
        by_contra hlt
        have := Nat.mul_le_mul_right B (show s.ns + 1 ≤ s.tail / B by omega)
        rw [Nat.succ_mul] at this
        omega
      have h7 : s.ns ≤ s.tail / B := by
        by_contra hlt
        have := Nat.mul_le_mul_right B (show s.tail / B + 1 ≤ s.ns by omega)
        rw [Nat.succ_mul] at this
        omega
      have h8 : s.ns = s.tail / B := by omega
      rw [h8]
      omega
    · rename_i h0
      refine ⟨h1, ?_, by omega, h4 h0⟩
      rcases Nat.lt_or_eq_of_le h3 with h5 | h5
      · exact h5
      · rw [h5, Nat.mul_mod_left] at h0
        exact absurd rfl h0
  | ldHead hc =>
    have hP := h.prod
    rw [hc] at hP
    rw [if_neg (Nat.not_lt.2 ht.head_le)]
    exact h.pgo hP
  | idxOk hc he =>
    have hP := h.prod
    rw [hc] at hP
    exact h.pgo ⟨hP.1, hP.2, h.next hB hP.1 he, he⟩
  | idxFull hc he hv =>
    have hP := h.prod
    rw [hc] at hP
    exact h.pgo hP
  | grow hc g => exact binv_grow hB0 ht hk h hc g
  | storeKey hc => exact binv_storeKey hB ht hk h hc
  | storeTail hc => exact binv_storeTail hB0 ht hk h hc
  | requisition hc b hb => exact binv_requisition hB0 ht hk h hc hb
  | resetEmpty hc => exact binv_resetEmpty hB0 ht hk h hc
  | storeVal hc => exact binv_storeVal hB0 ht hk h hc
  | write hc => exact binv_write hB0 ht hk h hc
  | publish hc => exact binv_publish hB0 ht hk h hc

/-- A step in one sub-queue leaves alone the blocks of the others. -/
theorem SStep.others (hB : 0 < B) {s' : Sub} {m' : Mem} (ht : TInv s) (hk : KInv s) (h : BInv B p s m) (hs : SStep B p s m s' m') {q : Nat} (hq : q ≠ p) :
    ∀ b k, (m b).owner = some (q, k) → m' b = m b := by
  have key : ∀ b0 k0 v, (m b0).owner = some (p, k0) → ∀ b k, (m b).owner = some (q, k) → upd m b0 v b = m b := by
    intro b0 k0 v h0 b k h1
    rw [upd_ne]
    rintro rfl
    rw [h0] at h1
    injection h1 with h1
    injection h1 with h1
    exact hq h1.symm
  cases hs with
  | @read c i e b hc =>
    have hp := h.pc c
    rw [hc] at hp
    have hV := h.val _ (hold_lt hB ht hk h (c := c) (i := i) (by rw [hc]; rfl)) (not_full hB (hk.hold c i (by rw [hc]; rfl)).2)
    exact key b _ _ (by rw [hp.2]; exact hV.owner)
  | @setEmpty c i e b x hc =>
    have hp := h.pc c
    rw [hc] at hp
    have hV := h.val _ (hold_lt hB ht hk h (c := c) (i := i) (by rw [hc]; rfl)) (not_full hB (hk.hold c i (by rw [hc]; rfl)).2)
    exact key b _ _ (by rw [hp.2.1]; exact hV.owner)
  | @free c i b x hc =>
    have hp := h.pc c
    rw [hc] at hp
    exact key b _ _ hp.2.1
  | requisition hc b0 hb =>
    intro b k h1
    rw [upd_ne]
    rintro rfl
    rw [hb] at h1
    cases h1
  | resetEmpty hc =>
    have hP := h.prod
    rw [hc] at hP
    exact key _ _ _ hP.2.2.2.2
  | write hc =>
    have hP := h.prod
    rw [hc] at hP
    obtain ⟨hns, h1, h2, htb⟩ := hP
    have hV := h.val (s.tail / B) (by rw [Nat.div_lt_iff_lt_mul hB]; exact h1) (not_full hB (tail_not_fin ht hk (Nat.le_refl s.tail)))
    exact key _ _ _ (by rw [htb]; exact hV.owner)
  | _ => exact fun _ _ _ => rfl

structure Inv (B : Nat) (s : State) : Prop where
  t : ∀ p, TInv (s.subs p)
  k : ∀ p, KInv (s.subs p)
  b : ∀ p, BInv B p (s.subs p) s.mem

theorem Inv.init {C : Nat} {s : State} (hB : 0 < B) (hC : 0 < C) (h : Init C s) : Inv B s := by
  refine ⟨fun p => ?_, fun p => ?_, fun p => ?_⟩ <;> obtain ⟨g, hg⟩ := h.subs p <;> rw [hg]
  · exact TInv.init C g
  · exact KInv.init C g
  · exact BInv.init hC g _ hB

theorem Step.inv {s s' : State} (hB : 2 ≤ B) (h : Inv B s) (hs : Step B p s s') : Inv B s' := by
  cases hs with
  | @mk _ _ u m hs =>
    refine ⟨fun q => ?_, fun q => ?_, fun q => ?_⟩ <;> simp only <;> by_cases e : q = p
    · subst e; rw [upd_same]; exact hs.tinv (h.t q)
    · rw [upd_ne _ _ e]; exact h.t q
    · subst e; rw [upd_same]; exact hs.kinv (h.k q)
    · rw [upd_ne _ _ e]; exact h.k q
    · subst e; rw [upd_same]; exact hs.binv hB (h.t q) (h.k q) (h.b q)
    · rw [upd_ne _ _ e]
      exact (h.b q).frame (by omega) (fin_lt_tail (h.t q) (h.k q)) (hs.others (by omega) (h.t p) (h.k p) (h.b p) e)

theorem Reach.inv {C : Nat} {s : State} (hB : 2 ≤ B) (hC : 0 < C) (h : Reach B C s) : Inv B s := by
  induction h with
  | init h => exact Inv.init (by omega) hC h
  | step _ hs ih => exact hs.inv hB ih

end RG.MQ
