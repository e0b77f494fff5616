import Verif.Lemmas.TaskQueue
import Mathlib.Tactic.Ring
/-
Lemmas for C88: the index of blocks and the blocks of a sub-queue.
-/
set_option linter.unusedVariables false
namespace RG.MQ

/-- all elements of the block have been dequeued -/
def Full (B : Nat) (fin : Nat → Bool) (b : Nat) : Prop := ∀ j, j < B → fin (b * B + j) = true

/-- all elements of the block and of the blocks before it have been dequeued -/
def Dead (B : Nat) (fin : Nat → Bool) (b : Nat) : Prop := ∀ i, i < (b + 1) * B → fin i = true

theorem Dead.full {B : Nat} {fin : Nat → Bool} {b : Nat} (h : Dead B fin b) : Full B fin b := by
  intro j hj
  apply h
  rw [Nat.succ_mul]
  omega

theorem not_full {B : Nat} {fin : Nat → Bool} {i : Nat} (hB : 0 < B) (h : fin i = false) : ¬Full B fin (i / B) := by
  intro hf
  have := hf (i % B) (Nat.mod_lt _ hB)
  rw [Nat.div_add_mod' i B, h] at this
  cases this

theorem lt_succ_div {B i b : Nat} (hB : 0 < B) (hb : i / B ≤ b) : i < (b + 1) * B := by
  have h1 := Nat.div_add_mod' i B
  have h2 := Nat.mod_lt i hB
  have h3 := Nat.mul_le_mul_right B hb
  rw [Nat.succ_mul]
  omega

theorem not_dead {B : Nat} {fin : Nat → Bool} {i b : Nat} (hB : 0 < B) (h : fin i = false) (hb : i / B ≤ b) : ¬Dead B fin b := by
  intro hd
  have := hd i (lt_succ_div hB hb)
  rw [h] at this
  cases this

theorem cnt_full {B : Nat} {f : Nat → Bool} : cnt B id f = B ↔ ∀ j, j < B → f j = true := by
  unfold cnt
  constructor
  · intro h j hj
    have h1 := List.countP_eq_length (p := fun t => id (f t)) (l := List.range B)
    rw [List.length_range] at h1
    exact h1.1 h j (List.mem_range.2 hj)
  · intro h
    have h1 := List.countP_eq_length (p := fun t => id (f t)) (l := List.range B)
    rw [List.length_range] at h1
    exact h1.2 fun t ht => h t (List.mem_range.1 ht)

def CPc.emptied : CPc → Option Nat
  | .emp i _ _ _ => some i
  | _ => none

def CPc.blkno (B : Nat) : CPc → Option Nat
  | .nul i _ _ _ => some (i / B)
  | .fre i _ _ => some (i / B)
  | _ => none

def CPos (B p : Nat) (s : Sub) (m : Mem) : CPc → Prop
  | .itl i h => h ≤ s.cur ∧ i / B < (s.hdrs h).nb
  | .key i h T => h ≤ s.cur ∧ ∃ n, i / B ≤ n ∧ n < (s.hdrs h).nb ∧ T = ((s.hdrs h).base + n) % (s.hdrs h).capacity
  | .val i e => e = s.ent (i / B)
  | .rd i e b => e = s.ent (i / B) ∧ b = s.blkOf (i / B)
  | .emp i e b x => e = s.ent (i / B) ∧ b = s.blkOf (i / B) ∧ s.ins[i]? = some x
  | .nul i e b x => Full B s.fin (i / B) ∧ (m b).owner = some (p, i / B) ∧ (s.entries e).key = i / B * B ∧ (s.entries e).value = some b ∧
      e < s.nEnt ∧ s.ins[i]? = some x
  | .fre i b x => Full B s.fin (i / B) ∧ (m b).owner = some (p, i / B) ∧ s.ins[i]? = some x
  | .ret (some (i, x)) => s.ins[i]? = some x
  | .fault _ => False
  | _ => True

/-- where the entry for the next block is -/
structure Next (B : Nat) (s : Sub) (e T : Nat) : Prop where
  lt : T < (s.hdrs s.cur).capacity
  eq : T = ((s.hdrs s.cur).base + (s.hdrs s.cur).nb) % (s.hdrs s.cur).capacity
  idx : (s.hdrs s.cur).index T = e
  far : ∀ b, b < (s.hdrs s.cur).nb → ¬Dead B s.fin b → (s.hdrs s.cur).nb < b + (s.hdrs s.cur).capacity ∧ s.ent b ≠ e

def PPos (B p : Nat) (s : Sub) (m : Mem) : PPc → Prop
  | .out => s.ns = (s.hdrs s.cur).nb ∧ s.ns * B < s.tail + B ∧ s.tail ≤ s.ns * B ∧ (s.tail % B ≠ 0 → s.tailBlock = s.blkOf (s.tail / B))
  | .head _ => s.ns = (s.hdrs s.cur).nb ∧ s.ns * B = s.tail
  | .idx _ => s.ns = (s.hdrs s.cur).nb ∧ s.ns * B = s.tail
  | .grow _ => s.ns = (s.hdrs s.cur).nb ∧ s.ns * B = s.tail
  | .skey _ e T => s.ns = (s.hdrs s.cur).nb ∧ s.ns * B = s.tail ∧ Next B s e T ∧ ((s.entries e).key = invalidBase ∨ (s.entries e).value = none)
  | .stl _ e T => s.ns = (s.hdrs s.cur).nb ∧ s.ns * B = s.tail ∧ Next B s e T ∧ (s.entries e).key = s.tail
  | .blk _ e => s.ns + 1 = (s.hdrs s.cur).nb ∧ s.ns * B = s.tail ∧ e = s.ent s.ns
  | .rst _ e b => s.ns + 1 = (s.hdrs s.cur).nb ∧ s.ns * B = s.tail ∧ e = s.ent s.ns ∧ b = s.blkOf s.ns ∧ (m b).owner = some (p, s.ns)
  | .sval _ e b => s.ns + 1 = (s.hdrs s.cur).nb ∧ s.ns * B = s.tail ∧ e = s.ent s.ns ∧ b = s.blkOf s.ns ∧ (m b).owner = some (p, s.ns) ∧ (m b).done = 0
  | .wr _ => s.ns = (s.hdrs s.cur).nb ∧ s.tail < s.ns * B ∧ s.ns * B ≤ s.tail + B ∧ s.tailBlock = s.blkOf (s.tail / B)
  | .pub x => s.ns = (s.hdrs s.cur).nb ∧ s.tail < s.ns * B ∧ s.ns * B ≤ s.tail + B ∧ s.tailBlock = s.blkOf (s.tail / B) ∧
      (m s.tailBlock).slots (s.tail % B) = some x
  | .fault => False

structure HOk (B : Nat) (s : Sub) (h : Hdr) : Prop where
  cap : 0 < h.capacity
  tail_lt : h.tail < h.capacity
  tail_eq : (h.tail + 1) % h.capacity = (h.base + h.nb) % h.capacity
  ent_lt : ∀ j, j < h.capacity → h.index j < s.nEnt
  nb_le : h.nb ≤ (s.hdrs s.cur).nb
  at_ : ∀ b, b < h.nb → ¬Dead B s.fin b → h.nb ≤ b + h.capacity ∧ h.index ((h.base + b) % h.capacity) = s.ent b

structure VOk (B p : Nat) (s : Sub) (m : Mem) (b : Nat) : Prop where
  val : (s.entries (s.ent b)).value = some (s.blkOf b)
  owner : (m (s.blkOf b)).owner = some (p, b)
  done : (m (s.blkOf b)).done = cnt B id (fun j => s.fin (b * B + j))

structure BInv (B p : Nat) (s : Sub) (m : Mem) : Prop where
  len : s.ins.length = s.tail
  hdr : ∀ h, h ≤ s.cur → HOk B s (s.hdrs h)
  inj : ∀ j j', j < (s.hdrs s.cur).capacity → j' < (s.hdrs s.cur).capacity → (s.hdrs s.cur).index j = (s.hdrs s.cur).index j' → j = j'
  key : ∀ b, b < (s.hdrs s.cur).nb → ¬Dead B s.fin b → (s.entries (s.ent b)).key = b * B
  val : ∀ b, b < s.ns → ¬Full B s.fin b → VOk B p s m b
  slot : ∀ i, i < s.tail → s.fin i = false → (∀ c, (s.cons c).emptied ≠ some i) → (m (s.blkOf (i / B))).slots (i % B) = s.ins[i]?
  pc : ∀ c, CPos B p s m (s.cons c)
  prod : PPos B p s m s.prod
  uniq : ∀ c c' b, (s.cons c).blkno B = some b → (s.cons c').blkno B = some b → c = c'
  outs : ∀ i x, (i, x) ∈ s.outs → s.ins[i]? = some x

theorem PPos.ns_le {B p : Nat} {s : Sub} {m : Mem} (h : PPos B p s m s.prod) : s.ns ≤ (s.hdrs s.cur).nb := by
  cases e : s.prod <;> rw [e] at h <;> simp only [PPos] at h <;> omega

theorem PPos.tail_le {B p : Nat} {s : Sub} {m : Mem} (h : PPos B p s m s.prod) : s.tail ≤ s.ns * B := by
  cases e : s.prod <;> rw [e] at h <;> simp only [PPos] at h <;> omega

theorem BInv.blk_lt {B p : Nat} {s : Sub} {m : Mem} (hB : 0 < B) (h : BInv B p s m) {i : Nat} (hi : i < s.tail) : i / B < s.ns := by
  rw [Nat.div_lt_iff_lt_mul hB]
  exact Nat.lt_of_lt_of_le hi h.prod.tail_le

theorem BInv.init {B p C : Nat} (hC : 0 < C) (g : Nat → Option Nat) (m : Mem) (hB : 0 < B) : BInv B p (Sub.init C g) m where
  len := rfl
  hdr := by
    intro h _
    refine ⟨hC, Nat.sub_lt hC Nat.one_pos, ?_, fun j hj => hj, Nat.le_refl _, fun b hb => absurd hb (Nat.not_lt_zero b)⟩
    show (C - 1 + 1) % C = (0 + 0) % C
    rw [Nat.sub_add_cancel hC, Nat.mod_self, Nat.zero_mod]
  inj := fun _ _ _ _ h => h
  key := fun b hb => absurd hb (Nat.not_lt_zero b)
  val := fun b hb => absurd hb (Nat.not_lt_zero b)
  slot := fun i hi => absurd hi (Nat.not_lt_zero i)
  pc := fun _ => trivial
  prod := ⟨rfl, by show 0 * B < 0 + B; omega, Nat.zero_le _, fun h => absurd (Nat.zero_mod B) h⟩
  uniq := fun _ _ _ h => nomatch h
  outs := fun _ _ h => nomatch h

/-- Other sub-queues use other blocks. -/
theorem BInv.frame {B p : Nat} {s : Sub} {m m' : Mem} (hB : 0 < B) (h : BInv B p s m) (hfl : ∀ i, s.fin i = true → i < s.tail)
    (hm : ∀ b k, (m b).owner = some (p, k) → m' b = m b) : BInv B p s m' where
  len := h.len
  hdr := h.hdr
  inj := h.inj
  key := h.key
  val := by
    intro b hb hf
    have h1 := h.val b hb hf
    have h2 := hm _ _ h1.owner
    exact ⟨h1.val, by rw [h2]; exact h1.owner, by rw [h2]; exact h1.done⟩
  slot := by
    intro i hi hf hc
    rw [hm _ _ (h.val _ (h.blk_lt hB hi) (not_full hB hf)).owner]
    exact h.slot i hi hf hc
  pc := by
    intro c
    have h1 := h.pc c
    cases e : s.cons c <;> rw [e] at h1 <;> try exact h1
    · obtain ⟨h2, h3, h4⟩ := h1; exact ⟨h2, by rw [hm _ _ h3]; exact h3, h4⟩
    · obtain ⟨h2, h3, h4⟩ := h1; exact ⟨h2, by rw [hm _ _ h3]; exact h3, h4⟩
    · rename_i r; cases r <;> exact h1
  prod := by
    have h1 := h.prod
    cases e : s.prod <;> rw [e] at h1 <;> try exact h1
    · obtain ⟨h2, h3, h4, h5, h6⟩ := h1; exact ⟨h2, h3, h4, h5, by rw [hm _ _ h6]; exact h6⟩
    · obtain ⟨h2, h3, h4, h5, h6, h7⟩ := h1; exact ⟨h2, h3, h4, h5, by rw [hm _ _ h6]; exact h6, by rw [hm _ _ h6]; exact h7⟩
    · obtain ⟨h2, h3, h4, h5, h6⟩ := h1
      refine ⟨h2, h3, h4, h5, ?_⟩
      have hnf : ¬Full B s.fin (s.tail / B) := not_full hB (by
        cases hf : s.fin s.tail with
        | false => rfl
        | true => exact absurd (hfl _ hf) (Nat.lt_irrefl _))
      have := (h.val (s.tail / B) (by rw [Nat.div_lt_iff_lt_mul hB]; exact h3) hnf).owner
      rw [← h5] at this
      rw [hm _ _ this]
      exact h6
  uniq := h.uniq
  outs := h.outs

theorem CPos.mono {B p : Nat} {s s' : Sub} {m m' : Mem} {pc : CPc} (h : CPos B p s m pc) (hcur : s.cur ≤ s'.cur)
    (hh : ∀ h, h ≤ s.cur → (s.hdrs h).nb ≤ (s'.hdrs h).nb ∧ (s'.hdrs h).base = (s.hdrs h).base ∧ (s'.hdrs h).capacity = (s.hdrs h).capacity)
    (hent : ∀ b, b < s.ns → s'.ent b = s.ent b) (hblk : ∀ b, b < s.ns → s'.blkOf b = s.blkOf b)
    (hfin : ∀ i, s.fin i = true → s'.fin i = true) (hins : ∀ i x : Nat, s.ins[i]? = some x → s'.ins[i]? = some x) (hn : s.nEnt ≤ s'.nEnt)
    (he : ∀ i e b x, pc = .nul i e b x → s'.entries e = s.entries e)
    (ho : ∀ b, (∃ k, pc.blkno B = some k ∧ (m b).owner = some (p, k)) → (m' b).owner = (m b).owner)
    (hlt : ∀ i, pc.hold = some i → i / B < s.ns) : CPos B p s' m' pc := by
  cases pc <;> try exact trivial
  · exact ⟨Nat.le_trans h.1 hcur, Nat.lt_of_lt_of_le h.2 (hh _ h.1).1⟩
  · obtain ⟨h1, n, h2, h3, h4⟩ := h
    exact ⟨Nat.le_trans h1 hcur, n, h2, Nat.lt_of_lt_of_le h3 (hh _ h1).1, by rw [(hh _ h1).2.1, (hh _ h1).2.2]; exact h4⟩
  · show _ = s'.ent _; rw [hent _ (hlt _ rfl)]; exact h
  · exact ⟨by rw [hent _ (hlt _ rfl)]; exact h.1, by rw [hblk _ (hlt _ rfl)]; exact h.2⟩
  · exact ⟨by rw [hent _ (hlt _ rfl)]; exact h.1, by rw [hblk _ (hlt _ rfl)]; exact h.2.1, hins _ _ h.2.2⟩
  · obtain ⟨h1, h2, h3, h4, h5, h6⟩ := h
    refine ⟨fun j hj => hfin _ (h1 j hj), ?_, ?_, ?_, Nat.lt_of_lt_of_le h5 hn, hins _ _ h6⟩
    · rw [ho _ ⟨_, rfl, h2⟩]; exact h2
    · rw [he _ _ _ _ rfl]; exact h3
    · rw [he _ _ _ _ rfl]; exact h4
  · obtain ⟨h1, h2, h3⟩ := h
    exact ⟨fun j hj => hfin _ (h1 j hj), by rw [ho _ ⟨_, rfl, h2⟩]; exact h2, hins _ _ h3⟩
  · rename_i r
    cases r with
    | none => trivial
    | some r => exact hins _ _ h
  · exact h

/-- The producer's part does not depend on what consumers do. -/
theorem PPos.mono {B p : Nat} {s s' : Sub} {m m' : Mem} {pc : PPc} (h : PPos B p s m pc) (hcur : s'.cur = s.cur) (hh : s'.hdrs = s.hdrs)
    (hent : s'.ent = s.ent) (hblk : s'.blkOf = s.blkOf) (hns : s'.ns = s.ns) (htl : s'.tail = s.tail) (htb : s'.tailBlock = s.tailBlock)
    (hfin : ∀ i, s.fin i = true → s'.fin i = true) (hk : ∀ e, (s'.entries e).key = (s.entries e).key)
    (hv : ∀ e, (s.entries e).value = none → (s'.entries e).value = none)
    (ho : ∀ b, (m b).owner = some (p, s.ns) → (m' b).owner = (m b).owner ∧ (m' b).done = (m b).done)
    (hsl : ∀ x, pc = .pub x → (m' s.tailBlock).slots (s.tail % B) = (m s.tailBlock).slots (s.tail % B)) : PPos B p s' m' pc := by
  have hN : ∀ e T, Next B s e T → Next B s' e T := by
    intro e T hN
    refine ⟨by rw [hcur, hh]; exact hN.lt, by rw [hcur, hh]; exact hN.eq, by rw [hcur, hh]; exact hN.idx, ?_⟩
    rw [hcur, hh, hent]
    exact fun b hb hd => hN.far b hb fun hd' => hd fun i hi => hfin i (hd' i hi)
  cases pc <;> simp only [PPos, hcur, hh, hent, hblk, hns, htl, htb, hk] at h ⊢ <;> try exact h
  · exact ⟨h.1, h.2.1, hN _ _ h.2.2.1, h.2.2.2.imp id (hv _)⟩
  · exact ⟨h.1, h.2.1, hN _ _ h.2.2.1, h.2.2.2⟩
  · obtain ⟨h1, h2, h3, h4, h5⟩ := h
    exact ⟨h1, h2, h3, h4, by rw [(ho _ h5).1]; exact h5⟩
  · obtain ⟨h1, h2, h3, h4, h5, h6⟩ := h
    exact ⟨h1, h2, h3, h4, by rw [(ho _ h5).1]; exact h5, by rw [(ho _ h5).2]; exact h6⟩
  · obtain ⟨h1, h2, h3, h4, h5⟩ := h
    exact ⟨h1, h2, h3, h4, by rw [hsl _ rfl]; exact h5⟩

/-- A consumer goes on without touching the index or the blocks. -/
theorem BInv.at {B p : Nat} {s : Sub} {m : Mem} (h : BInv B p s m) {c : Nat} {pc : CPc} (hd o v : Nat) (f : Nat → Fate)
    (hp : CPos B p s m pc) (h1 : pc.emptied = none) (h2 : (s.cons c).emptied = none) (h3 : pc.blkno B = none) :
    BInv B p { s with cons := upd s.cons c pc, head := hd, opt := o, over := v, fate := f } m where
  len := h.len
  hdr := fun k hk => ⟨(h.hdr k hk).1, (h.hdr k hk).2, (h.hdr k hk).3, (h.hdr k hk).4, (h.hdr k hk).5, (h.hdr k hk).6⟩
  inj := h.inj
  key := h.key
  val := fun b hb hf => ⟨(h.val b hb hf).1, (h.val b hb hf).2, (h.val b hb hf).3⟩
  slot := by
    intro i hi hf hc
    refine h.slot i hi hf fun c' => ?_
    have := hc c'
    simp only at this
    by_cases e : c' = c
    · subst e; rw [h2]; exact fun h => nomatch h
    · rw [upd_ne _ _ e] at this; exact this
  pc := by
    intro c'
    have key : ∀ q, CPos B p s m q → CPos B p { s with cons := upd s.cons c pc, head := hd, opt := o, over := v, fate := f } m q := by
      intro q hq
      cases q with
      | ret r => cases r <;> exact hq
      | _ => exact hq
    apply key
    simp only
    by_cases e : c' = c
    · subst e; rw [upd_same]; exact hp
    · rw [upd_ne _ _ e]; exact h.pc c'
  prod := h.prod.mono rfl rfl rfl rfl rfl rfl rfl (fun _ h => h) (fun _ => rfl) (fun _ h => h) (fun _ _ => ⟨rfl, rfl⟩) (fun _ _ => rfl)
  uniq := by
    intro c1 c2 b
    simp only
    by_cases e1 : c1 = c
    · subst e1; rw [upd_same, h3]; exact fun h => nomatch h
    · by_cases e2 : c2 = c
      · subst e2; rw [upd_same, h3]; exact fun _ h => nomatch h
      · rw [upd_ne _ _ e1, upd_ne _ _ e2]; exact h.uniq c1 c2 b
  outs := h.outs

theorem mod_mod_mul (a n k : Nat) : (a + n * k) % n = a % n := Nat.add_mul_mod_self_left a n k

/-- where `get_block_index_index_for_index` finds the block, from the entry of a block that is not before it -/
theorem position_eq {B cap base n i : Nat} (hB : 0 < B) (hc : 0 < cap) (hn : i / B ≤ n) :
    position B cap ((base + n) % cap) (n * B) i = (base + i / B) % cap := by
  unfold position
  have e1 : i - i % B = i / B * B := by
    have := Nat.div_add_mod' i B
    omega
  rw [e1]
  obtain ⟨d, hd⟩ := Nat.exists_eq_add_of_le hn
  generalize i / B = q at *
  subst hd
  have e2 : (((q * B : Nat) : Int) - ((((q + d) * B : Nat)) : Int)) = -(d : Int) * (B : Int) := by
    push_cast; ring
  rw [e2, Int.mul_tdiv_cancel _ (by omega)]
  have e3 : ((((base + (q + d)) % cap : Nat) : Int) + -(d : Int)) % (cap : Int) = (((base + q) % cap : Nat) : Int) := by
    push_cast
    rw [Int.emod_add_emod]
    congr 1
    ring
  rw [e3]
  exact Int.toNat_natCast _

end RG.MQ
