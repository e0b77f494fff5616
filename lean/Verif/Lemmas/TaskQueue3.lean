import Verif.Lemmas.TaskQueue2
/-
Lemmas for C88: every step of a sub-queue keeps the index and the blocks in order.
-/
set_option linter.unusedVariables false
namespace RG.MQ

variable {B p : Nat} {s : Sub} {m : Mem}

theorem BInv.ent_lt (h : BInv B p s m) {b : Nat} (hb : b < (s.hdrs s.cur).nb) (hd : ¬Dead B s.fin b) : s.ent b < s.nEnt := by
  have h1 := h.hdr s.cur (Nat.le_refl _)
  rw [← (h1.at_ b hb hd).2]
  exact h1.ent_lt _ (Nat.mod_lt _ h1.cap)

theorem fin_lt_tail (ht : TInv s) (hk : KInv s) : ∀ i, s.fin i = true → i < s.tail :=
  fun i hi => Nat.lt_of_lt_of_le (hk.fin_lt i hi) ht.head_le

theorem tail_not_fin (ht : TInv s) (hk : KInv s) {i : Nat} (hi : s.tail ≤ i) : s.fin i = false := by
  cases hf : s.fin i with
  | false => rfl
  | true => have := fin_lt_tail ht hk i hf; omega

theorem hold_lt (hB : 0 < B) (ht : TInv s) (hk : KInv s) (h : BInv B p s m) {c i : Nat} (hc : (s.cons c).hold = some i) : i / B < s.ns :=
  h.blk_lt hB (Nat.lt_of_lt_of_le (hk.hold c i hc).1 ht.head_le)

/-- Two elements that have not been dequeued are not in the same place. -/
theorem BInv.apart (h : BInv B p s m) (hB : 0 < B) {i i' : Nat} (hi : i / B < s.ns) (hi' : i' / B < s.ns) (hf : s.fin i = false) (hf' : s.fin i' = false)
    (hb : s.blkOf (i / B) = s.blkOf (i' / B)) : i / B = i' / B := by
  have h1 := (h.val _ hi (not_full hB hf)).owner
  have h2 := (h.val _ hi' (not_full hB hf')).owner
  rw [hb, h2] at h1
  injection h1 with h1
  injection h1 with _ h1
  exact h1.symm

theorem eq_of_div_mod {B i i' : Nat} (h1 : i / B = i' / B) (h2 : i % B = i' % B) : i = i' := by
  rw [← Nat.div_add_mod i B, ← Nat.div_add_mod i' B, h1, h2]

theorem CPc.emptied_hold {pc : CPc} {i : Nat} (h : pc.emptied = some i) : pc.hold = some i := by
  cases pc <;> simp_all [CPc.emptied, CPc.hold]

theorem binv_read (hB : 0 < B) (ht : TInv s) (hk : KInv s) (h : BInv B p s m) {c i e b : Nat} (hc : s.cons c = .rd i e b) :
    BInv B p (s.at c (match (m b).slots (i % B) with | none => .fault i | some x => .emp i e b x))
      (upd m b { m b with slots := upd (m b).slots (i % B) none }) := by
  have hhold : (s.cons c).hold = some i := by rw [hc]; rfl
  have hi := hk.hold c i hhold
  have hit : i < s.tail := Nat.lt_of_lt_of_le hi.1 ht.head_le
  have hns := h.blk_lt hB hit
  have hp := h.pc c
  rw [hc] at hp
  obtain ⟨he, hb⟩ := hp
  have hne : ∀ c', (s.cons c').emptied ≠ some i := by
    intro c' e'
    have := hk.holdU c' c i (CPc.emptied_hold e') hhold
    subst this
    rw [hc] at e'
    cases e'
  have hsl := h.slot i hit hi.2 hne
  rw [← hb] at hsl
  have hlen : i < s.ins.length := by rw [h.len]; exact hit
  obtain ⟨x, hx⟩ : ∃ x, s.ins[i]? = some x := ⟨_, List.getElem?_eq_getElem hlen⟩
  rw [hx] at hsl
  rw [hsl]
  simp only
  have hown : ∀ b', ((upd m b { m b with slots := upd (m b).slots (i % B) none }) b').owner = (m b').owner := by
    intro b'
    by_cases e' : b' = b
    · rw [e', upd_same]
    · rw [upd_ne _ _ e']
  have hdone : ∀ b', ((upd m b { m b with slots := upd (m b).slots (i % B) none }) b').done = (m b').done := by
    intro b'
    by_cases e' : b' = b
    · rw [e', upd_same]
    · rw [upd_ne _ _ e']
  have hslots : ∀ i', i' ≠ i → s.fin i' = false → i' / B < s.ns →
      ((upd m b { m b with slots := upd (m b).slots (i % B) none }) (s.blkOf (i' / B))).slots (i' % B) = (m (s.blkOf (i' / B))).slots (i' % B) := by
    intro i' hi' hf' hlt
    by_cases e' : s.blkOf (i' / B) = b
    · have h1 := h.apart hB hlt hns hf' hi.2 (e'.trans hb)
      have h2 : i' % B ≠ i % B := fun e2 => hi' (eq_of_div_mod h1 e2)
      rw [e', upd_same]
      simp only
      rw [upd_ne _ _ h2]
    · rw [upd_ne _ _ e']
  exact {
    len := h.len
    hdr := fun k hk => ⟨(h.hdr k hk).1, (h.hdr k hk).2, (h.hdr k hk).3, (h.hdr k hk).4, (h.hdr k hk).5, (h.hdr k hk).6⟩
    inj := h.inj
    key := h.key
    val := fun b' hb' hf => ⟨(h.val b' hb' hf).val, by rw [hown]; exact (h.val b' hb' hf).owner, by rw [hdone]; exact (h.val b' hb' hf).done⟩
    slot := by
      intro i' hi' hf' hc'
      have hne' : i' ≠ i := by
        rintro rfl
        have := hc' c
        simp only [Sub.at, upd_same] at this
        exact this rfl
      have h1 : ∀ c', (s.cons c').emptied ≠ some i' := by
        intro c'
        by_cases e' : c' = c
        · subst e'; rw [hc]; exact fun h => nomatch h
        · have := hc' c'; simp only [Sub.at, upd_ne _ _ e'] at this; exact this
      exact (hslots i' hne' hf' (h.blk_lt hB hi')).trans (h.slot i' hi' hf' h1)
    pc := by
      intro c'
      simp only [Sub.at]
      by_cases e' : c' = c
      · subst e'; rw [upd_same]; exact ⟨he, hb, hx⟩
      · rw [upd_ne _ _ e']
        exact (h.pc c').mono (Nat.le_refl _) (fun _ _ => ⟨Nat.le_refl _, rfl, rfl⟩) (fun _ _ => rfl) (fun _ _ => rfl) (fun _ h => h) (fun _ _ h => h) (Nat.le_refl _)
          (fun _ _ _ _ _ => rfl) (fun _ _ => hown _) (fun i' hi' => hold_lt hB ht hk h hi')
    prod := by
      refine h.prod.mono rfl rfl rfl rfl rfl rfl rfl (fun _ h => h) (fun _ => rfl) (fun _ h => h) (fun _ _ => ⟨hown _, hdone _⟩) (fun x' hx' => ?_)
      have hP := h.prod
      rw [hx'] at hP
      obtain ⟨h1, h2, h3, h4, h5⟩ := hP
      rw [h4]
      exact hslots s.tail (by omega) (tail_not_fin ht hk (Nat.le_refl _)) (by rw [Nat.div_lt_iff_lt_mul hB]; exact h2)
    uniq := by
      intro c1 c2 b'
      simp only [Sub.at]
      by_cases e1 : c1 = c
      · subst e1; rw [upd_same]; exact fun h => nomatch h
      · by_cases e2 : c2 = c
        · subst e2; rw [upd_same]; exact fun _ h => nomatch h
        · rw [upd_ne _ _ e1, upd_ne _ _ e2]; exact h.uniq c1 c2 b'
    outs := h.outs }

theorem cnt_block_ne {B i b' : Nat} {fin : Nat → Bool} (hB : 0 < B) (hb : b' ≠ i / B) :
    cnt B id (fun j => upd fin i true (b' * B + j)) = cnt B id (fun j => fin (b' * B + j)) := by
  refine cnt_congr fun j hj => ?_
  have : b' * B + j ≠ i := by
    rintro rfl
    apply hb
    rw [Nat.add_comm, Nat.add_mul_div_right _ _ hB, Nat.div_eq_of_lt hj, Nat.zero_add]
  rw [upd_ne _ _ this]

theorem cnt_block_eq {B i : Nat} {fin : Nat → Bool} (hB : 0 < B) (hf : fin i = false) :
    cnt B id (fun j => upd fin i true (i / B * B + j)) = cnt B id (fun j => fin (i / B * B + j)) + 1 := by
  have h1 : (fun j => upd fin i true (i / B * B + j)) = upd (fun j => fin (i / B * B + j)) (i % B) true := by
    funext j
    have := Nat.div_add_mod' i B
    by_cases e : j = i % B
    · rw [e, upd_same, this, upd_same]
    · rw [upd_ne _ _ e, upd_ne _ _ (by omega)]
  rw [h1]
  have h2 := cnt_upd B id (fun j => fin (i / B * B + j)) (i % B) true (Nat.mod_lt _ hB)
  have h3 : fin (i / B * B + i % B) = false := by rw [Nat.div_add_mod']; exact hf
  simp only [id, h3, Bool.false_eq_true, if_false, if_true] at h2
  exact h2

theorem upd_true {fin : Nat → Bool} {i : Nat} : ∀ j, fin j = true → upd fin i true j = true := by
  intro j hj
  by_cases e : j = i
  · rw [e, upd_same]
  · rw [upd_ne _ _ e]; exact hj

theorem binv_setEmpty (hB : 0 < B) (ht : TInv s) (hk : KInv s) (h : BInv B p s m) {c i e b x : Nat} (hc : s.cons c = .emp i e b x) :
    BInv B p { s with cons := upd s.cons c (if (m b).done = B - 1 then .nul i e b x else .ret (some (i, x))), fin := upd s.fin i true }
        (upd m b { m b with done := (m b).done + 1 }) := by
  have hhold : (s.cons c).hold = some i := by rw [hc]; rfl
  have hi := hk.hold c i hhold
  have hit : i < s.tail := Nat.lt_of_lt_of_le hi.1 ht.head_le
  have hns := h.blk_lt hB hit
  have hnb : i / B < (s.hdrs s.cur).nb := Nat.lt_of_lt_of_le hns h.prod.ns_le
  have hp := h.pc c
  rw [hc] at hp
  obtain ⟨he, hb, hx⟩ := hp
  have hnf := not_full hB hi.2
  have hnd := not_dead hB hi.2 (Nat.le_refl _)
  have hV := h.val _ hns hnf
  have hown : ∀ b', ((upd m b { m b with done := (m b).done + 1 }) b').owner = (m b').owner := by
    intro b'
    by_cases e' : b' = b
    · rw [e', upd_same]
    · rw [upd_ne _ _ e']
  have hsl : ∀ b', ((upd m b { m b with done := (m b).done + 1 }) b').slots = (m b').slots := by
    intro b'
    by_cases e' : b' = b
    · rw [e', upd_same]
    · rw [upd_ne _ _ e']
  have hD : ∀ b', ¬Dead B (upd s.fin i true) b' → ¬Dead B s.fin b' := fun b' h1 h2 => h1 fun j hj => upd_true j (h2 j hj)
  have hF : ∀ b', ¬Full B (upd s.fin i true) b' → ¬Full B s.fin b' := fun b' h1 h2 => h1 fun j hj => upd_true _ (h2 j hj)
  have hpc1 : (if (m b).done = B - 1 then CPc.nul i e b x else .ret (some (i, x))).emptied = none := by split <;> rfl
  have hpc2 : ∀ k, (if (m b).done = B - 1 then CPc.nul i e b x else .ret (some (i, x))).blkno B = some k → k = i / B := by
    intro k
    split
    · intro h; injection h with h; exact h.symm
    · exact fun h => nomatch h
  have hpc3 : CPos B p { s with cons := upd s.cons c (if (m b).done = B - 1 then .nul i e b x else .ret (some (i, x))), fin := upd s.fin i true }
      (upd m b { m b with done := (m b).done + 1 }) (if (m b).done = B - 1 then CPc.nul i e b x else .ret (some (i, x))) := by
    split
    · rename_i hd
      refine ⟨?_, ?_, ?_, ?_, ?_, hx⟩ <;> simp only
      · have h1 := cnt_block_eq hB hi.2
        rw [← hV.done, ← hb, hd, Nat.sub_add_cancel hB] at h1
        exact cnt_full.1 h1
      · rw [hown, hb]; exact hV.owner
      · rw [he]; exact h.key _ hnb hnd
      · rw [he, hb]; exact hV.val
      · rw [he]; exact h.ent_lt hnb hnd
    · exact hx
  generalize (if (m b).done = B - 1 then CPc.nul i e b x else .ret (some (i, x))) = pc at hpc1 hpc2 hpc3
  have hnou : ∀ c', (s.cons c').blkno B ≠ some (i / B) := by
    intro c' e'
    have h1 := h.pc c'
    cases hcc : s.cons c' <;> rw [hcc] at e' h1 <;> simp only [CPc.blkno] at e' <;> try contradiction
    all_goals
      injection e' with e'
      have := h1.1
      rw [e'] at this
      exact hnf this
  exact {
    len := h.len
    hdr := fun k hk => ⟨(h.hdr k hk).1, (h.hdr k hk).2, (h.hdr k hk).3, (h.hdr k hk).4, (h.hdr k hk).5, fun b' hb' hd => (h.hdr k hk).6 b' hb' (hD b' hd)⟩
    inj := h.inj
    key := fun b' hb' hd => h.key b' hb' (hD b' hd)
    val := by
      intro b' hb' hf
      have h1 := h.val b' hb' (hF b' hf)
      refine ⟨h1.val, by rw [hown]; exact h1.owner, ?_⟩
      simp only
      by_cases e' : b' = i / B
      · rw [e', ← hb, upd_same]
        simp only
        rw [cnt_block_eq hB hi.2, hb, hV.done]
      · rw [cnt_block_ne hB e', upd_ne]
        · exact h1.done
        · intro e2
          have h2 := h1.owner
          rw [e2, hb, hV.owner] at h2
          injection h2 with h2
          injection h2 with _ h2
          exact e' h2.symm
    slot := by
      intro i' hi' hf' hc'
      simp only at hi' hf' hc' ⊢
      have hne' : i' ≠ i := by rintro rfl; rw [upd_same] at hf'; cases hf'
      rw [upd_ne _ _ hne'] at hf'
      rw [hsl]
      refine h.slot i' hi' hf' fun c' => ?_
      by_cases e' : c' = c
      · subst e'; rw [hc]; intro e'; injection e' with e'; exact hne' e'.symm
      · have := hc' c'; rw [upd_ne _ _ e'] at this; exact this
    pc := by
      intro c'
      by_cases e' : c' = c
      · subst e'; simp only [upd_same]; exact hpc3
      · simp only [upd_ne _ _ e']
        exact (h.pc c').mono (Nat.le_refl _) (fun _ _ => ⟨Nat.le_refl _, rfl, rfl⟩) (fun _ _ => rfl) (fun _ _ => rfl) upd_true (fun _ _ h => h) (Nat.le_refl _)
          (fun _ _ _ _ _ => rfl) (fun _ _ => hown _) (fun i' hi' => hold_lt hB ht hk h hi')
    prod := by
      refine h.prod.mono rfl rfl rfl rfl rfl rfl rfl upd_true (fun _ => rfl) (fun _ h => h) (fun b' hb' => ⟨hown _, ?_⟩) (fun x' hx' => by rw [hsl])
      rw [upd_ne]
      rintro rfl
      rw [hb, hV.owner] at hb'
      injection hb' with hb'
      injection hb' with _ hb'
      omega
    uniq := by
      intro c1 c2 b' h1 h2
      simp only at h1 h2
      by_cases e1 : c1 = c
      · by_cases e2 : c2 = c
        · rw [e1, e2]
        · subst e1
          rw [upd_same] at h1
          rw [upd_ne _ _ e2, hpc2 _ h1] at h2
          exact absurd h2 (hnou c2)
      · by_cases e2 : c2 = c
        · subst e2
          rw [upd_same] at h2
          rw [upd_ne _ _ e1, hpc2 _ h2] at h1
          exact absurd h1 (hnou c1)
        · rw [upd_ne _ _ e1] at h1; rw [upd_ne _ _ e2] at h2; exact h.uniq c1 c2 b' h1 h2
    outs := h.outs }

theorem past_lt (hB : 0 < B) (ht : TInv s) (hk : KInv s) (h : BInv B p s m) {c i x : Nat} (hc : (s.cons c).past = some (i, x)) : i / B < s.ns :=
  h.blk_lt hB (fin_lt_tail ht hk i (hk.past c i x hc))

theorem binv_null (hB : 0 < B) (ht : TInv s) (hk : KInv s) (h : BInv B p s m) {c i e b x : Nat} (hc : s.cons c = .nul i e b x) :
    BInv B p { s with cons := upd s.cons c (.fre i b x), entries := upd s.entries e { s.entries e with value := none } } m := by
  have hns : i / B < s.ns := past_lt hB ht hk h (c := c) (x := x) (by rw [hc]; rfl)
  have hp := h.pc c
  rw [hc] at hp
  obtain ⟨hfull, hown, hkey, hval, hlt, hx⟩ := hp
  have hk' : ∀ e', ((upd s.entries e { s.entries e with value := none }) e').key = (s.entries e').key := by
    intro e'
    by_cases e2 : e' = e
    · rw [e2, upd_same]
    · rw [upd_ne _ _ e2]
  exact {
    len := h.len
    hdr := fun k hk => ⟨(h.hdr k hk).1, (h.hdr k hk).2, (h.hdr k hk).3, (h.hdr k hk).4, (h.hdr k hk).5, (h.hdr k hk).6⟩
    inj := h.inj
    key := fun b' hb' hd => by simp only; rw [hk']; exact h.key b' hb' hd
    val := by
      intro b' hb' hf
      have h1 := h.val b' hb' hf
      refine ⟨?_, h1.owner, h1.done⟩
      simp only
      rw [upd_ne]
      · exact h1.val
      · intro e2
        have h2 := h.key b' (Nat.lt_of_lt_of_le hb' h.prod.ns_le) (fun hd => hf hd.full)
        rw [e2, hkey] at h2
        have := Nat.eq_of_mul_eq_mul_right hB h2
        subst this
        exact hf hfull
    slot := by
      intro i' hi' hf' hc'
      refine h.slot i' hi' hf' fun c' => ?_
      by_cases e' : c' = c
      · subst e'; rw [hc]; exact fun h => nomatch h
      · have := hc' c'; simp only [upd_ne _ _ e'] at this; exact this
    pc := by
      intro c'
      by_cases e' : c' = c
      · subst e'; simp only [upd_same]; exact ⟨hfull, hown, hx⟩
      · simp only [upd_ne _ _ e']
        refine (h.pc c').mono (Nat.le_refl _) (fun _ _ => ⟨Nat.le_refl _, rfl, rfl⟩) (fun _ _ => rfl) (fun _ _ => rfl) (fun _ h => h) (fun _ _ h => h) (Nat.le_refl _)
          (fun i2 e2 b2 x2 h2 => ?_) (fun _ _ => rfl) (fun i' hi' => hold_lt hB ht hk h hi')
        simp only
        rw [upd_ne]
        rintro rfl
        have h3 := h.pc c'
        rw [h2] at h3
        have h4 := h3.2.2.1
        rw [hkey] at h4
        have := Nat.eq_of_mul_eq_mul_right hB h4
        exact e' (h.uniq c' c (i / B) (by rw [h2, this]; rfl) (by rw [hc]; rfl))
    prod := by
      refine h.prod.mono rfl rfl rfl rfl rfl rfl rfl (fun _ h => h) hk' (fun e' hv => ?_) (fun _ _ => ⟨rfl, rfl⟩) (fun _ _ => rfl)
      simp only
      by_cases e2 : e' = e
      · rw [e2, upd_same]
      · rw [upd_ne _ _ e2]; exact hv
    uniq := by
      have hb : ∀ c', (upd s.cons c (.fre i b x) c').blkno B = (s.cons c').blkno B := by
        intro c'
        by_cases e2 : c' = c
        · subst e2; rw [upd_same, hc]; rfl
        · rw [upd_ne _ _ e2]
      intro c1 c2 b'
      simp only [hb]
      exact h.uniq c1 c2 b'
    outs := h.outs }

theorem binv_free (hB : 0 < B) (ht : TInv s) (hk : KInv s) (h : BInv B p s m) {c i b x : Nat} (hc : s.cons c = .fre i b x) :
    BInv B p (s.at c (.ret (some (i, x)))) (upd m b { m b with owner := none }) := by
  have hns : i / B < s.ns := past_lt hB ht hk h (c := c) (x := x) (by rw [hc]; rfl)
  have hp := h.pc c
  rw [hc] at hp
  obtain ⟨hfull, hown, hx⟩ := hp
  have hne : ∀ b' k, (m b').owner = some (p, k) → k ≠ i / B → b' ≠ b := by
    rintro b' k h1 h2 rfl
    rw [hown] at h1
    injection h1 with h1
    injection h1 with _ h1
    exact h2 h1.symm
  have hsl : ∀ b', ((upd m b { m b with owner := none }) b').slots = (m b').slots := by
    intro b'
    by_cases e' : b' = b
    · rw [e', upd_same]
    · rw [upd_ne _ _ e']
  exact {
    len := h.len
    hdr := fun k hk => ⟨(h.hdr k hk).1, (h.hdr k hk).2, (h.hdr k hk).3, (h.hdr k hk).4, (h.hdr k hk).5, (h.hdr k hk).6⟩
    inj := h.inj
    key := h.key
    val := by
      intro b' hb' hf
      have h1 := h.val b' hb' hf
      have h2 := hne _ _ h1.owner (by rintro rfl; exact hf hfull)
      refine ⟨h1.val, ?_, ?_⟩ <;> simp only [Sub.at] <;> rw [upd_ne _ _ h2]
      · exact h1.owner
      · exact h1.done
    slot := by
      intro i' hi' hf' hc'
      rw [hsl]
      refine h.slot i' hi' hf' fun c' => ?_
      by_cases e' : c' = c
      · subst e'; rw [hc]; exact fun h => nomatch h
      · have := hc' c'; simp only [Sub.at, upd_ne _ _ e'] at this; exact this
    pc := by
      intro c'
      by_cases e' : c' = c
      · subst e'; simp only [Sub.at, upd_same]; exact hx
      · simp only [Sub.at, upd_ne _ _ e']
        refine (h.pc c').mono (Nat.le_refl _) (fun _ _ => ⟨Nat.le_refl _, rfl, rfl⟩) (fun _ _ => rfl) (fun _ _ => rfl) (fun _ h => h) (fun _ _ h => h) (Nat.le_refl _)
          (fun _ _ _ _ _ => rfl) (fun b2 h2 => ?_) (fun i' hi' => hold_lt hB ht hk h hi')
        obtain ⟨k, h2, h3⟩ := h2
        rw [upd_ne _ _ (hne b2 k h3 (by rintro rfl; exact e' (h.uniq c' c _ h2 (by rw [hc]; rfl))))]
    prod := by
      refine h.prod.mono rfl rfl rfl rfl rfl rfl rfl (fun _ h => h) (fun _ => rfl) (fun _ h => h) (fun b' hb' => ?_) (fun _ _ => by rw [hsl])
      rw [upd_ne _ _ (hne b' _ hb' (by omega))]
      exact ⟨rfl, rfl⟩
    uniq := by
      intro c1 c2 b'
      simp only [Sub.at]
      by_cases e1 : c1 = c
      · subst e1; rw [upd_same]; exact fun h => nomatch h
      · by_cases e2 : c2 = c
        · subst e2; rw [upd_same]; exact fun _ h => nomatch h
        · rw [upd_ne _ _ e1, upd_ne _ _ e2]; exact h.uniq c1 c2 b'
    outs := h.outs }

theorem binv_retSome (h : BInv B p s m) {c i x : Nat} (hc : s.cons c = .ret (some (i, x))) :
    BInv B p { s with cons := upd s.cons c .out, outs := s.outs ++ [(i, x)] } m := by
  have h0 := h.at (c := c) (pc := .out) s.head s.opt s.over s.fate trivial rfl (by rw [hc]; rfl) rfl
  have hp := h.pc c
  rw [hc] at hp
  exact {
    len := h0.len
    hdr := fun k hk => ⟨(h.hdr k hk).1, (h.hdr k hk).2, (h.hdr k hk).3, (h.hdr k hk).4, (h.hdr k hk).5, (h.hdr k hk).6⟩
    inj := h0.inj
    key := h0.key
    val := fun b' hb' hf => ⟨(h.val b' hb' hf).1, (h.val b' hb' hf).2, (h.val b' hb' hf).3⟩
    slot := h0.slot
    pc := by
      intro c'
      have h1 := h0.pc c'
      simp only at h1 ⊢
      cases e : upd s.cons c CPc.out c' with
      | ret r => rw [e] at h1; cases r <;> exact h1
      | _ => rw [e] at h1; exact h1
    prod := h0.prod.mono rfl rfl rfl rfl rfl rfl rfl (fun _ h => h) (fun _ => rfl) (fun _ h => h) (fun _ _ => ⟨rfl, rfl⟩) (fun _ _ => rfl)
    uniq := h0.uniq
    outs := by
      intro i' x' h1
      rcases List.mem_append.1 h1 with h1 | h1
      · exact h.outs i' x' h1
      · cases List.mem_singleton.1 h1; exact hp }

end RG.MQ
