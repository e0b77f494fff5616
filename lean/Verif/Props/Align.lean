import Verif.Props.AllocFalse
import Verif.Props.Roundup
/-
C98: where objects are placed. `ChunkedBumpAlloc::allocate` rounds sizes to powers of two (chunked_bump_alloc.hpp:85) and `BumpAllocator` hands out addresses from the
end of a chunk downwards (bump_allocator.cpp:31, 60); nothing in the code asks for the alignment of a type (task_builder.hpp:72, allocator.hpp:61-71).
The model is the one of C33-C35.
-/
namespace RG.Alloc

/-- Bytes of the blocks of `l` that are in chunk `c`. -/
def bytesIn (c : Nat) : List Blk → Nat
  | [] => 0
  | b :: l => (if b.chunk = c then b.len.toNat else 0) + bytesIn c l

/-- zero or a power of two -/
def Pow (x : Nat) : Prop := x = 0 ∨ ∃ j, x = 2 ^ j

theorem pow_roundup (r : Size) : Pow (roundup r).toNat := by
  rcases Nat.eq_zero_or_pos r.toNat with h | h
  · have : r = 0 := BitVec.eq_of_toNat_eq h
    subst this; left; decide +kernel
  · rcases Nat.lt_or_ge (2 ^ 63) r.toNat with h2 | h2
    · left; rw [roundup_huge r h2]; rfl
    · obtain ⟨k, e, _⟩ := C32_least_power_of_two r h h2
      exact .inr ⟨k, e⟩

theorem Pow.dvd {x k : Nat} (h : Pow x) (h1 : x = 0 ∨ 2 ^ k ≤ x) : 2 ^ k ∣ x := by
  rcases h with h | ⟨j, rfl⟩
  · rw [h]; exact Nat.dvd_zero _
  · rcases h1 with h1 | h1
    · rw [h1]; exact Nat.dvd_zero _
    · exact Nat.pow_dvd_pow 2 ((Nat.pow_le_pow_iff_right (by omega)).1 h1)

theorem bytesIn_dvd {c a : Nat} {l : List Blk} (h : ∀ b ∈ l, b.chunk = c → a ∣ b.len.toNat) : a ∣ bytesIn c l := by
  induction l with
  | nil => exact Nat.dvd_zero _
  | cons b l ih =>
    refine Nat.dvd_add ?_ (ih fun x hx => h x (List.mem_cons_of_mem _ hx))
    split
    · exact h b List.mem_cons_self ‹_›
    · exact Nat.dvd_zero _

/-- the blocks of a chunk fill it from the end, without gaps -/
structure Stack (cfg : Cfg) (s : State) : Prop where
  top : ∀ (i : Nat) (k : Chunk), s.chunks[i]? = some k → k.lower.toNat ≤ k.next.toNat →
    k.next.toNat + bytesIn i s.handed = k.base.toNat + cfg.capacity.toNat
  each : ∀ l b l', s.handed = l ++ b :: l' → ∃ k : Chunk, s.chunks[b.chunk]? = some k ∧
    b.addr.toNat + bytesIn b.chunk (b :: l') = k.base.toNat + cfg.capacity.toNat
  pow : ∀ b ∈ s.handed, Pow b.len.toNat
  pcs : ∀ t, Pow (pcSize (s.pcs t))

theorem Stack.setPc {cfg : Cfg} {s : State} (h : Stack cfg s) (t : Nat) (q : Pc) (hq : Pow (pcSize q)) :
    Stack cfg { s with pcs := setPc s.pcs t q } := by
  refine ⟨h.top, h.each, h.pow, ?_⟩
  intro x
  by_cases e : x = t
  · subst e; show Pow (pcSize (RG.Alloc.setPc _ _ _ _)); rw [setPc_same]; exact hq
  · show Pow (pcSize (RG.Alloc.setPc _ _ _ _)); rw [setPc_ne _ _ e]; exact h.pcs x

theorem Stack.setChunk {cfg : Cfg} {s : State} (h : Stack cfg s) {c : Nat} {k k' : Chunk} (hk : s.chunks[c]? = some k)
    (h1 : k'.base = k.base) (h2 : k'.lower = k.lower) (h3 : k'.next = k.next) :
    Stack cfg { s with chunks := s.chunks.set c k' } := by
  refine ⟨?_, ?_, h.pow, h.pcs⟩
  · intro i x hx hle
    rcases getElem?_set_some hx with ⟨rfl, rfl⟩ | ⟨_, hx⟩
    · rw [h2, h3] at hle; rw [h1, h3]; exact h.top _ k hk hle
    · exact h.top i x hx hle
  · intro l b l' e
    obtain ⟨x, g1, g2⟩ := h.each l b l' e
    by_cases ec : b.chunk = c
    · rw [ec, hk] at g1; cases g1
      refine ⟨k', ?_, by rw [h1]; exact g2⟩
      rw [ec]; exact List.getElem?_set_self (getElem?_lt_length hk)
    · refine ⟨x, ?_, g2⟩
      show (s.chunks.set c k')[b.chunk]? = _
      rw [List.getElem?_set_ne (fun e => ec e.symm)]; exact g1

theorem Stack.live {cfg : Cfg} {s : State} (h : Stack cfg s) (l : List Blk) : Stack cfg { s with live := l } :=
  ⟨h.top, h.each, h.pow, h.pcs⟩

theorem bytesIn_none {c : Nat} {l : List Blk} (h : ∀ b ∈ l, b.chunk ≠ c) : bytesIn c l = 0 := by
  induction l with
  | nil => rfl
  | cons b l ih =>
    rw [bytesIn, if_neg (h b List.mem_cons_self), ih fun x hx => h x (List.mem_cons_of_mem _ hx)]

theorem Stack.step {cfg : Cfg} {n : Nat} {s s' : State}
    (hcap : cfg.ctrl.toNat + cfg.header.toNat ≤ cfg.capacity.toNat) (hi : Inv cfg n s) (h : Stack cfg s)
    (hs : Step cfg n (n * cfg.capacity.toNat) s s') : Stack cfg s' := by
  cases hs with
  | @start t req ht hp hle => exact h.setPc t _ (pow_roundup req)
  | reject => exact h
  | @loadHead t sz hp hne =>
    have := h.pcs t; rw [hp] at this; exact h.setPc t _ this
  | @noHead t sz hp hne =>
    have := h.pcs t; rw [hp] at this; exact h.setPc t _ this
  | @fetchOk t sz c k hp hk hle =>
    obtain ⟨w1, w2⟩ := noWrap hi hp hk
    have hsz : Pow sz.toNat := by have := h.pcs t; rw [hp] at this; exact this
    rw [BitVec.le_def, w2] at hle
    have ht := h.top c k hk (by omega)
    have hnew : (k.next - sz).toNat + (sz.toNat + bytesIn c s.handed) = k.base.toNat + cfg.capacity.toNat := by
      rw [w2]; omega
    have hst : Stack cfg { s with pcs := RG.Alloc.setPc s.pcs t (.reserved sz c (k.next - sz)) } := h.setPc t _ hsz
    refine ⟨?_, ?_, ?_, hst.pcs⟩
    · intro i x hx hlx
      rcases getElem?_set_some hx with ⟨rfl, rfl⟩ | ⟨e, hx⟩
      · show (k.next - sz).toNat + ((if _ = _ then _ else _) + _) = _
        rw [if_pos rfl]; exact hnew
      · show x.next.toNat + ((if _ = _ then _ else _) + _) = _
        rw [if_neg (fun e' => e e'.symm), Nat.zero_add]; exact h.top i x hx hlx
    · intro l b l' e
      cases l with
      | nil =>
        rw [List.nil_append] at e
        injection e with e1 e2
        subst e1 e2
        refine ⟨k.fetchSub sz, List.getElem?_set_self (getElem?_lt_length hk), ?_⟩
        show (k.next - sz).toNat + ((if _ = _ then _ else _) + _) = _
        rw [if_pos rfl]; exact hnew
      | cons y l =>
        rw [List.cons_append] at e
        injection e with e1 e2
        obtain ⟨x, g1, g2⟩ := h.each l b l' e2
        by_cases ec : b.chunk = c
        · rw [ec, hk] at g1; cases g1
          refine ⟨k.fetchSub sz, ?_, g2⟩
          rw [ec]; exact List.getElem?_set_self (getElem?_lt_length hk)
        · refine ⟨x, ?_, g2⟩
          show (s.chunks.set c (k.fetchSub sz))[b.chunk]? = _
          rw [List.getElem?_set_ne (fun e => ec e.symm)]; exact g1
    · intro b hb
      rcases List.mem_cons.1 hb with rfl | hb
      · exact hsz
      · exact h.pow b hb
  | @fetchFail t sz c k hp hk hle =>
    obtain ⟨w1, w2⟩ := noWrap hi hp hk
    have hsz : Pow sz.toNat := by have := h.pcs t; rw [hp] at this; exact this
    rw [BitVec.le_def, w2] at hle
    have hst : Stack cfg { s with pcs := RG.Alloc.setPc s.pcs t (.needNew sz) } := h.setPc t _ hsz
    refine ⟨?_, ?_, h.pow, hst.pcs⟩
    · intro i x hx hlx
      rcases getElem?_set_some hx with ⟨rfl, rfl⟩ | ⟨e, hx⟩
      · exact absurd (w2 ▸ hlx) hle
      · exact h.top i x hx hlx
    · intro l b l' e
      obtain ⟨x, g1, g2⟩ := h.each l b l' e
      by_cases ec : b.chunk = c
      · rw [ec, hk] at g1; cases g1
        refine ⟨k.fetchSub sz, ?_, g2⟩
        rw [ec]; exact List.getElem?_set_self (getElem?_lt_length hk)
      · refine ⟨x, ?_, g2⟩
        show (s.chunks.set c (k.fetchSub sz))[b.chunk]? = _
        rw [List.getElem?_set_ne (fun e => ec e.symm)]; exact g1
  | @countUp t sz c addr k hp hk =>
    exact ((h.setChunk (k' := { k with count := k.count + 1 }) hk rfl rfl rfl).setPc t .idle (.inl rfl)).live _
  | @append t sz base hp hf =>
    have hsz : Pow sz.toNat := by have := h.pcs t; rw [hp] at this; exact this
    have hst : Stack cfg { s with pcs := RG.Alloc.setPc s.pcs t (.loop sz) } := h.setPc t _ hsz
    obtain ⟨f1, f2, _⟩ := hf
    have lay := C31_bump_chunk_layout cfg base hcap f2
    refine ⟨?_, ?_, h.pow, hst.pcs⟩
    · intro i x hx hlx
      rcases Nat.lt_or_ge i s.chunks.length with hl | hl
      · rw [show ({ s with chunks := s.chunks ++ [Chunk.mk' cfg base], pcs := RG.Alloc.setPc s.pcs t (.loop sz) } : State).chunks
          = s.chunks ++ [Chunk.mk' cfg base] from rfl, List.getElem?_append_left hl] at hx
        exact h.top i x hx hlx
      · rw [show ({ s with chunks := s.chunks ++ [Chunk.mk' cfg base], pcs := RG.Alloc.setPc s.pcs t (.loop sz) } : State).chunks
          = s.chunks ++ [Chunk.mk' cfg base] from rfl, List.getElem?_append_right hl] at hx
        have hi0 : i - s.chunks.length = 0 := by
          have := getElem?_lt_length hx; simpa using this
        rw [hi0] at hx
        cases hx
        have hno : bytesIn i s.handed = 0 := by
          apply bytesIn_none
          intro b hb e
          obtain ⟨k, g, _⟩ := hi.hand b hb
          have := getElem?_lt_length g
          omega
        show (Chunk.mk' cfg base).next.toNat + bytesIn i s.handed = _
        rw [hno]; exact lay.2.1
    · intro l b l' e
      obtain ⟨x, g1, g2⟩ := h.each l b l' e
      refine ⟨x, ?_, g2⟩
      show (s.chunks ++ [Chunk.mk' cfg base])[b.chunk]? = _
      rw [List.getElem?_append_left (getElem?_lt_length g1)]; exact g1
  | @dealloc t b c k ht hp hb hfo hk hcnt =>
    exact (h.setChunk (k' := { k with count := k.count - 1 }) hk rfl rfl rfl).live _
  | @deallocLast t b c k ht hp hb hfo hk hcnt =>
    exact ((h.setChunk (k' := { k with count := k.count - 1 }) hk rfl rfl rfl).setPc t (.erasing c) (.inl rfl)).live _
  | @deallocUnknown t b ht hp hb hfo => exact h.live _
  | @erase t c k hp hk =>
    exact (h.setChunk (k' := { k with deleted := k.deleted || k.full }) hk rfl rfl rfl).setPc t .idle (.inl rfl)

theorem Stack.reach {cfg : Cfg} {n : Nat} {s : State} (hcap : cfg.ctrl.toNat + cfg.header.toNat ≤ cfg.capacity.toNat)
    (h : Reach cfg n (n * cfg.capacity.toNat) s) : Stack cfg s := by
  induction h with
  | init => exact ⟨by simp [State.init], by simp [State.init], by simp [State.init], fun _ => .inl rfl⟩
  | step h1 hs ih => exact ih.step hcap (reach_inv hcap h1) hs

/-- C98: the address of every block, for any number of threads and any interleaving: it is the end of its chunk, minus the lengths of the blocks that
were taken from this chunk before, minus its own length. `handed` lists all blocks, the last one first. -/
theorem C98_addresses {cfg : Cfg} {n : Nat} {s : State} (hcap : cfg.ctrl.toNat + cfg.header.toNat ≤ cfg.capacity.toNat)
    (h : Reach cfg n (n * cfg.capacity.toNat) s) {l l' : List Blk} {b : Blk} (hb : s.handed = l ++ b :: l') :
    ∃ k : Chunk, s.chunks[b.chunk]? = some k ∧
      b.addr.toNat + b.len.toNat + ((l'.filter fun x => x.chunk = b.chunk).map fun x => x.len.toNat).sum =
        k.base.toNat + cfg.capacity.toNat := by
  obtain ⟨k, h1, h2⟩ := (Stack.reach hcap h).each l b l' hb
  refine ⟨k, h1, ?_⟩
  have : ∀ l : List Blk, bytesIn b.chunk l = ((l.filter fun x => x.chunk = b.chunk).map fun x => x.len.toNat).sum := by
    intro l
    induction l with
    | nil => rfl
    | cons y l ih =>
      by_cases e : y.chunk = b.chunk
      · rw [bytesIn, if_pos e, ih, List.filter_cons_of_pos (by simpa using e)]; simp
      · rw [bytesIn, if_neg e, ih, List.filter_cons_of_neg (by simpa using e)]; simp
  rw [← this]
  rw [bytesIn, if_pos rfl] at h2
  omega

/-- C98: if the operating system returns regions that are aligned to `2 ^ k` bytes (pages: `k = 12`), the chunk size is a multiple of `2 ^ k`, and no block of less than `2 ^ k` bytes was
taken from the chunk, then all blocks of the chunk are aligned to `2 ^ k` bytes, for any number of threads and any interleaving.
Hence objects with an alignment of at most `2 ^ k` are placed correctly.
Missing: objects whose alignment is larger than the smallest block in the chunk (see `C98_overaligned_false`). -/
theorem C98_aligned_partial {cfg : Cfg} {n : Nat} {s : State} (hcap : cfg.ctrl.toNat + cfg.header.toNat ≤ cfg.capacity.toNat)
    (h : Reach cfg n (n * cfg.capacity.toNat) s) (k c : Nat) (hpage : ∀ x : Chunk, s.chunks[c]? = some x → 2 ^ k ∣ x.base.toNat)
    (hsize : 2 ^ k ∣ cfg.capacity.toNat) (hmin : ∀ b ∈ s.handed, b.chunk = c → b.len.toNat = 0 ∨ 2 ^ k ≤ b.len.toNat) :
    ∀ b ∈ s.handed, b.chunk = c → 2 ^ k ∣ b.addr.toNat := by
  intro b hb hc
  have st := Stack.reach hcap h
  obtain ⟨l, l', e⟩ := List.append_of_mem hb
  obtain ⟨x, h1, h2⟩ := st.each l b l' e
  rw [hc] at h1 h2
  have h3 : 2 ^ k ∣ bytesIn c (b :: l') := bytesIn_dvd fun y hy hyc => by
    have hm : y ∈ s.handed := by rw [e]; exact List.mem_append_right _ hy
    exact (st.pow y hm).dvd (hmin y hm hyc)
  have h4 : 2 ^ k ∣ b.addr.toNat + bytesIn c (b :: l') := by
    rw [h2]; exact Nat.dvd_add (hpage x h1) hsize
  exact (Nat.dvd_add_left h3).1 h4

/-- One thread asks for `a` and then for `b` bytes. -/
theorem two_blocks (a b : Size) (ha : roundup a ≤ defaultCfg.capacity) (hb : roundup b ≤ defaultCfg.capacity)
    (h1 : (1049152 : Size) ≤ 1114112 - roundup a) (h2 : (1049152 : Size) ≤ 1114112 - roundup a - roundup b) :
    ∃ s, Reach defaultCfg 1 (1 * defaultCfg.capacity.toNat) s ∧
      s.live = [⟨0, 1114112 - roundup a - roundup b, roundup b⟩, ⟨0, 1114112 - roundup a, roundup a⟩] ∧
      s.handed = s.live ∧ ∃ k, s.chunks = [k] ∧ k.base = 1048576 := by
  refine ⟨_, .step (.step (.step (.step (.step (.step (.step (.step (.step (.step .init
    (.start (t := 0) (req := a) (by decide) rfl ha))
    (.noHead (t := 0) (sz := roundup a) rfl rfl))
    (.append (t := 0) (sz := roundup a) (base := 1048576) rfl
      (freshRegion_nil _ _ _ _ rfl (by decide) (by decide))))
    (.loadHead (t := 0) (sz := roundup a) rfl (by simp [State.init])))
    (.fetchOk (t := 0) (sz := roundup a) (c := 0) rfl rfl h1))
    (.countUp (t := 0) (sz := roundup a) (c := 0) rfl rfl))
    (.start (t := 0) (req := b) (by decide) rfl hb))
    (.loadHead (t := 0) (sz := roundup b) rfl (by simp [State.init])))
    (.fetchOk (t := 0) (sz := roundup b) (c := 0) rfl rfl h2))
    (.countUp (t := 0) (sz := roundup b) (c := 0) rfl rfl), ?_⟩
  exact ⟨rfl, rfl, _, rfl, rfl⟩

/-- 1 KiB and then 20 bytes: both are aligned to 32 bytes; the hypotheses of `C98_aligned_partial` are met with `k = 5` -/
example : ∃ s, Reach defaultCfg 1 (1 * defaultCfg.capacity.toNat) s ∧ s.handed.length = 2 ∧
    defaultCfg.ctrl.toNat + defaultCfg.header.toNat ≤ defaultCfg.capacity.toNat ∧
    (∀ x : Chunk, s.chunks[0]? = some x → 2 ^ 5 ∣ x.base.toNat) ∧ 2 ^ 5 ∣ defaultCfg.capacity.toNat ∧
    (∀ b ∈ s.handed, b.chunk = 0 → b.len.toNat = 0 ∨ 2 ^ 5 ≤ b.len.toNat) ∧ ∀ b ∈ s.handed, b.chunk = 0 → 2 ^ 5 ∣ b.addr.toNat := by
  obtain ⟨s, h, e1, e2, k, e3, e4⟩ := two_blocks 1024 20 (by decide +kernel) (by decide +kernel) (by decide +kernel) (by decide +kernel)
  have hp : ∀ x : Chunk, s.chunks[0]? = some x → 2 ^ 5 ∣ x.base.toNat := by
    intro x hx; rw [e3] at hx; cases hx; rw [e4]; decide
  have hm : ∀ b ∈ s.handed, b.chunk = 0 → b.len.toNat = 0 ∨ 2 ^ 5 ≤ b.len.toNat := by
    rw [e2, e1]; decide +kernel
  refine ⟨s, h, by rw [e2, e1]; rfl, by decide, hp, by decide, hm, ?_⟩
  exact C98_aligned_partial (by decide) h 5 0 hp (by decide) hm

/-- C98: objects with an alignment of at most 16 bytes (all types without `alignas`) are placed correctly if pages and the chunk size are multiples of 16 and every request was for
more than 8 bytes: the memory of a request of `r` bytes is a block of `roundup r` bytes. -/
theorem C98_ordinary_objects_partial {cfg : Cfg} {n : Nat} {s : State}
    (hcap : cfg.ctrl.toNat + cfg.header.toNat ≤ cfg.capacity.toNat) (h : Reach cfg n (n * cfg.capacity.toNat) s)
    (hpage : ∀ x ∈ s.chunks, 16 ∣ x.base.toNat) (hsize : 16 ∣ cfg.capacity.toNat)
    (hreq : ∀ b ∈ s.handed, ∃ r : Size, 8 < r.toNat ∧ b.len = roundup r) (al : Nat) (hal : al ∣ 16) :
    ∀ b ∈ s.live, al ∣ b.addr.toNat := by
  intro b hb
  refine Nat.dvd_trans hal (C98_aligned_partial hcap h 4 b.chunk (fun x hx => hpage x (List.mem_of_getElem? hx)) hsize ?_ b
    ((reach_inv hcap h).liveHand b hb) rfl)
  intro y hy _
  obtain ⟨r, hr, e⟩ := hreq y hy
  rcases Nat.lt_or_ge (2 ^ 63) r.toNat with h2 | h2
  · left; rw [e, roundup_huge r h2]; rfl
  · right
    obtain ⟨k, e1, e2, e3⟩ := C32_least_power_of_two r (by omega) h2
    rw [e, e1]
    refine Nat.pow_le_pow_right (by omega) ?_
    rcases Nat.lt_or_ge k 4 with hk | hk
    · have := Nat.pow_le_pow_right (n := 2) (by omega) (show k ≤ 3 by omega); omega
    · exact hk

/-- the hypotheses are met by a program that builds a task of 600 bytes and then a label of 17 bytes -/
example : ∃ s, Reach defaultCfg 1 (1 * defaultCfg.capacity.toNat) s ∧ s.live.length = 2 ∧
    (∀ x ∈ s.chunks, 16 ∣ x.base.toNat) ∧ 16 ∣ defaultCfg.capacity.toNat ∧
    ∀ b ∈ s.handed, ∃ r : Size, 8 < r.toNat ∧ b.len = roundup r := by
  obtain ⟨s, h, e1, e2, k, e3, e4⟩ := two_blocks 600 17 (by decide +kernel) (by decide +kernel) (by decide +kernel) (by decide +kernel)
  refine ⟨s, h, by rw [e1]; rfl, ?_, by decide, ?_⟩
  · intro x hx; rw [e3, List.mem_singleton] at hx; rw [hx, e4]; decide
  · intro b hb
    rw [e2, e1] at hb
    rcases List.mem_cons.1 hb with rfl | hb
    · exact ⟨17, by decide, rfl⟩
    · rw [List.mem_singleton] at hb; subst hb; exact ⟨600, by decide, rfl⟩

/-- C98 is false for types with a larger alignment: in the default configuration with a region of the operating system at a multiple of 1 MiB, a request of
24 bytes (e.g. a string or a small shared object) and then one of 64 bytes, for an object that must be at a multiple of 64
(`alignas(64)`, vectors of AVX-512). The object is at an odd multiple of 32. -/
theorem C98_overaligned_false : ∃ s, Reach defaultCfg 1 (1 * defaultCfg.capacity.toNat) s ∧
    (∀ x ∈ s.chunks, 2 ^ 20 ∣ x.base.toNat) ∧ ∃ b ∈ s.live, b.len = 64 ∧ b.addr.toNat % 64 = 32 := by
  obtain ⟨s, h, e1, e2, k, e3, e4⟩ := two_blocks 24 64 (by decide +kernel) (by decide +kernel) (by decide +kernel) (by decide +kernel)
  refine ⟨s, h, ?_, ⟨0, 1114112 - roundup 24 - roundup 64, roundup 64⟩, by rw [e1]; exact List.mem_cons_self, by decide +kernel, by decide +kernel⟩
  intro x hx; rw [e3, List.mem_singleton] at hx; rw [hx, e4]; decide

/-- C98 is false even for ordinary types if somebody asks for little memory, e.g. for one `double` through `memory::StdAllocator`: the next task, whose
objects may need 16 bytes (`long double`, SSE vectors, `max_align_t`), is at an odd multiple of 8. -/
theorem C98_small_request_false : ∃ s, Reach defaultCfg 1 (1 * defaultCfg.capacity.toNat) s ∧
    (∀ x ∈ s.chunks, 2 ^ 20 ∣ x.base.toNat) ∧ ∃ b ∈ s.live, b.len = 1024 ∧ b.addr.toNat % 16 = 8 := by
  obtain ⟨s, h, e1, e2, k, e3, e4⟩ := two_blocks 8 600 (by decide +kernel) (by decide +kernel) (by decide +kernel) (by decide +kernel)
  refine ⟨s, h, ?_, ⟨0, 1114112 - roundup 8 - roundup 600, roundup 600⟩, by rw [e1]; exact List.mem_cons_self, by decide +kernel, by decide +kernel⟩
  intro x hx; rw [e3, List.mem_singleton] at hx; rw [hx, e4]; decide

/-- C98: the items of lists (chunked_list.hpp:250-254, atomic_list.hpp:51-58, 172-179) are aligned to `a` if the memory of their chunk is, and the sizes of the control block, of the chunk
object and of an item are multiples of `a`. -/
theorem C98_list_items {n itemSize chunkSize ctrl base : Size} {a : Nat}
    (hmem : base.toNat + ctrl.toNat + chunkSize.toNat + n.toNat * itemSize.toNat < 2 ^ 64)
    (hb : a ∣ base.toNat) (hc : a ∣ ctrl.toNat) (hh : a ∣ chunkSize.toNat) (hi : a ∣ itemSize.toNat) {i : Nat} (hin : i < n.toNat) :
    a ∣ (itemAddr ⟨listCapacity n itemSize chunkSize, ctrl, chunkSize⟩ base itemSize i).toNat := by
  have hm : i * itemSize.toNat ≤ n.toNat * itemSize.toNat := Nat.mul_le_mul_right _ (by omega)
  have hin' : i % 2 ^ 64 = i := Nat.mod_eq_of_lt (by have := n.isLt; omega)
  have e : (itemAddr ⟨listCapacity n itemSize chunkSize, ctrl, chunkSize⟩ base itemSize i).toNat =
      base.toNat + ctrl.toNat + chunkSize.toNat + i * itemSize.toNat := by
    simp only [itemAddr, Cfg.dataAddr, Cfg.headerAddr, BitVec.toNat_add, BitVec.toNat_mul, BitVec.toNat_ofNat, hin']
    rw [Nat.mod_eq_of_lt (a := i * itemSize.toNat) (by omega), Nat.mod_eq_of_lt (a := base.toNat + ctrl.toNat) (by omega),
      Nat.mod_eq_of_lt (a := base.toNat + ctrl.toNat + chunkSize.toNat) (by omega), Nat.mod_eq_of_lt (by omega)]
  rw [e]
  exact Nat.dvd_add (Nat.dvd_add (Nat.dvd_add hb hc) hh) (Nat.dvd_trans hi (Nat.dvd_mul_left _ _))

example : (8 : Nat) ∣ (4096 : Size).toNat ∧ 8 ∣ (544 : Size).toNat ∧ 8 ∣ (24 : Size).toNat ∧ (3 : Nat) < (32 : Size).toNat := by decide

end RG.Alloc
