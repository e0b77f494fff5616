import Verif.Model.Alloc
import Verif.Util
import Verif.Props.Roundup
import Mathlib.Data.List.Perm.Subperm
/-
Properties C31, C33, C34, C35, C36: memory.
-/
namespace RG.Alloc

/-! ### C31 -/

/-- C31 for list chunks: whatever the number and the size of the items, the control block, the chunk
header and all item slots lie inside the requested memory and do not overlap. -/
theorem C31_list_chunk_layout (n itemSize chunkSize ctrl base : Size)
    (hmem : base.toNat + ctrl.toNat + chunkSize.toNat + n.toNat * itemSize.toNat < 2 ^ 64) :
    let cfg : Cfg := ⟨listCapacity n itemSize chunkSize, ctrl, chunkSize⟩
    -- the header follows the control block
    (cfg.headerAddr base).toNat = base.toNat + ctrl.toNat ∧
    ∀ i, i < n.toNat →
      -- items start behind the header and end inside the requested memory
      (cfg.headerAddr base).toNat + chunkSize.toNat ≤ (itemAddr cfg base itemSize i).toNat ∧
      (itemAddr cfg base itemSize i).toNat + itemSize.toNat ≤ base.toNat + cfg.allocSize.toNat ∧
      -- different items do not overlap
      ∀ j, i < j → j < n.toNat →
        (itemAddr cfg base itemSize i).toNat + itemSize.toNat ≤ (itemAddr cfg base itemSize j).toNat := by
  intro cfg
  have hhead : (cfg.headerAddr base).toNat = base.toNat + ctrl.toNat := by
    simp only [cfg, Cfg.headerAddr, BitVec.toNat_add]
    exact Nat.mod_eq_of_lt (by omega)
  have hitem : ∀ i, i < n.toNat → (itemAddr cfg base itemSize i).toNat =
      base.toNat + ctrl.toNat + chunkSize.toNat + i * itemSize.toNat := by
    intro i hi
    have hle : i * itemSize.toNat ≤ n.toNat * itemSize.toNat := Nat.mul_le_mul_right _ (by omega)
    have hni : i < 2 ^ 64 := by have := n.isLt; omega
    simp only [itemAddr, Cfg.dataAddr, BitVec.toNat_add, BitVec.toNat_mul, BitVec.toNat_ofNat, hhead]
    rw [Nat.mod_eq_of_lt hni, Nat.mod_eq_of_lt (a := i * itemSize.toNat) (by omega)]
    have : cfg.header = chunkSize := rfl
    rw [this]
    omega
  have hsize : cfg.allocSize.toNat = n.toNat * itemSize.toNat + chunkSize.toNat + ctrl.toNat := by
    simp only [cfg, Cfg.allocSize, listCapacity, BitVec.toNat_add, BitVec.toNat_mul]
    omega
  refine ⟨hhead, ?_⟩
  intro i hi
  rw [hitem i hi, hhead, hsize]
  have h1 : (i + 1) * itemSize.toNat ≤ n.toNat * itemSize.toNat := Nat.mul_le_mul_right _ (by omega)
  rw [Nat.add_mul] at h1
  refine ⟨by omega, by omega, ?_⟩
  intro j hij hj
  rw [hitem j hj]
  have h2 : (i + 1) * itemSize.toNat ≤ j * itemSize.toNat := Nat.mul_le_mul_right _ (by omega)
  rw [Nat.add_mul] at h2
  omega

/-- C31 for the chunks of the allocator: the managed region starts behind control block and header
and ends inside the requested memory. -/
theorem C31_bump_chunk_layout (cfg : Cfg) (base : Size)
    (hcap : cfg.ctrl.toNat + cfg.header.toNat ≤ cfg.capacity.toNat)
    (hmem : base.toNat + cfg.capacity.toNat + cfg.ctrl.toNat < 2 ^ 64) :
    (Chunk.mk' cfg base).lower.toNat = base.toNat + cfg.ctrl.toNat + cfg.header.toNat ∧
    (Chunk.mk' cfg base).upper.toNat = base.toNat + cfg.capacity.toNat ∧
    (Chunk.mk' cfg base).upper.toNat ≤ base.toNat + cfg.allocSize.toNat := by
  have h1 : (Chunk.mk' cfg base).lower.toNat = base.toNat + cfg.ctrl.toNat + cfg.header.toNat := by
    simp only [Chunk.mk', Cfg.dataAddr, Cfg.headerAddr, BitVec.toNat_add]; omega
  have h2 : (Chunk.mk' cfg base).upper.toNat = base.toNat + cfg.capacity.toNat := by
    simp only [Chunk.mk', Cfg.dataAddr, Cfg.headerAddr, Cfg.dataLen, BitVec.toNat_add,
      BitVec.toNat_sub]
    omega
  refine ⟨h1, h2, ?_⟩
  rw [h2]
  simp only [Cfg.allocSize, BitVec.toNat_add]
  omega

/-- a list with chunks of 16 items of 24 bytes, header 24 bytes, control block 544 bytes -/
example : (4096 : Size).toNat + (544 : Size).toNat + (24 : Size).toNat +
    (16 : Size).toNat * (24 : Size).toNat < 2 ^ 64 := by decide

/-! ### invariants of the chunked allocator -/

@[simp] theorem setPc_same (f : Nat → Pc) (t : Nat) (p : Pc) : setPc f t p t = p := by simp [setPc]
theorem setPc_ne (f : Nat → Pc) {t x : Nat} (p : Pc) (h : x ≠ t) : setPc f t p x = f x := by
  simp [setPc, h]

def isNeedNew : Pc → Bool
  | .needNew _ => true
  | _ => false

def isChosen (c : Nat) : Pc → Bool
  | .chosen _ c' => c' == c
  | _ => false

/-- Upper bound for the number of failed attempts on chunk `i`. -/
def M (n : Nat) (s : State) (i : Nat) : Nat :=
  if i + 1 = s.chunks.length then cnt n isNeedNew s.pcs else n - cnt n (isChosen i) s.pcs

/-- Two blocks (of the same chunk) do not overlap. -/
def Disj (a b : Blk) : Prop :=
  a.addr.toNat + a.len.toNat ≤ b.addr.toNat ∨ b.addr.toNat + b.len.toNat ≤ a.addr.toNat

def pcSize : Pc → Nat
  | .loop sz => sz.toNat
  | .chosen sz _ => sz.toNat
  | .reserved sz _ _ => sz.toNat
  | .needNew sz => sz.toNat
  | _ => 0

def pcChunk : Pc → Option Nat
  | .chosen _ c => some c
  | .reserved _ c _ => some c
  | .erasing c => some c
  | _ => none

structure Inv (cfg : Cfg) (n : Nat) (s : State) : Prop where
  thr : ∀ t, n ≤ t → s.pcs t = .idle
  szs : ∀ t, pcSize (s.pcs t) ≤ cfg.capacity.toNat
  idx : ∀ t c, pcChunk (s.pcs t) = some c → c < s.chunks.length
  geo : ∀ (i : Nat) (k : Chunk), s.chunks[i]? = some k →
    k.lower.toNat = k.base.toNat + cfg.ctrl.toNat + cfg.header.toNat ∧
    k.upper.toNat = k.base.toNat + cfg.capacity.toNat ∧
    n * cfg.capacity.toNat ≤ k.base.toNat ∧
    k.base.toNat + cfg.capacity.toNat + cfg.ctrl.toNat < 2 ^ 64 ∧ k.next.toNat ≤ k.upper.toNat
  pot : ∀ (i : Nat) (k : Chunk), s.chunks[i]? = some k →
    k.lower.toNat ≤ k.next.toNat + cfg.capacity.toNat * M n s i
  hand : ∀ b ∈ s.handed, ∃ k : Chunk, s.chunks[b.chunk]? = some k ∧
    k.lower.toNat ≤ b.addr.toNat ∧ k.next.toNat ≤ b.addr.toNat ∧
    b.addr.toNat + b.len.toNat ≤ k.upper.toNat
  disj : s.handed.Pairwise fun a b => a.chunk = b.chunk → Disj a b
  liveHand : ∀ b ∈ s.live, b ∈ s.handed
  resHand : ∀ t sz c a, s.pcs t = .reserved sz c a → ⟨c, a, sz⟩ ∈ s.handed
  liveDisj : s.live.Pairwise fun a b => a.chunk = b.chunk → Disj a b
  resDisj : ∀ t sz c a, s.pcs t = .reserved sz c a → ∀ b ∈ s.live, c = b.chunk → Disj ⟨c, a, sz⟩ b
  resRes : ∀ t t' sz a sz' a' c, t ≠ t' → s.pcs t = .reserved sz c a →
    s.pcs t' = .reserved sz' c a' → Disj ⟨c, a, sz⟩ ⟨c, a', sz'⟩
  /-- memory in use belongs to one chunk only -/
  reg : ∀ (i j : Nat) (k l : Chunk), i ≠ j → s.chunks[i]? = some k → s.chunks[j]? = some l →
    inUse s i → inUse s j →
    k.base.toNat + cfg.capacity.toNat + cfg.ctrl.toNat ≤ l.base.toNat ∨
    l.base.toNat + cfg.capacity.toNat + cfg.ctrl.toNat ≤ k.base.toNat

/-- The number of possible failures is below the number of threads as long as some thread is still
about to try. -/
theorem M_lt {n : Nat} {s : State} {t : Nat} {sz : Size} {c : Nat}
    (ht : t < n) (h : s.pcs t = .chosen sz c) : M n s c + 1 ≤ n := by
  unfold M
  have h1 : 0 < cnt n (isChosen c) s.pcs := cnt_pos ht (by simp [h, isChosen])
  have h2 := cnt_add_le n isNeedNew (isChosen c) s.pcs (by intro a; cases a <;> simp [isNeedNew, isChosen])
  split <;> omega

theorem inUse_of_step {s s' : State} {i : Nat} (h : inUse s' i)
    (hlen : s'.chunks.length = s.chunks.length)
    (hdel : ∀ k : Chunk, s'.chunks[i]? = some k → k.deleted = false →
      ∃ k0 : Chunk, s.chunks[i]? = some k0 ∧ k0.deleted = false)
    (hpc : ∀ t, pcChunk (s'.pcs t) = some i → pcChunk (s.pcs t) = some i ∨ inUse s i) :
    inUse s i := by
  rcases h with ⟨k, h1, h2⟩ | h | ⟨t, h⟩
  · obtain ⟨k0, h3, h4⟩ := hdel k h1 h2
    exact .inl ⟨k0, h3, h4⟩
  · exact .inr (.inl (by omega))
  · have hp : pcChunk (s'.pcs t) = some i := by
      rcases h with ⟨sz, h⟩ | ⟨sz, a, h⟩ | h <;> rw [h] <;> rfl
    rcases hpc t hp with h5 | h5
    · right; right
      refine ⟨t, ?_⟩
      cases hq : s.pcs t with
      | chosen sz c => rw [hq] at h5; cases h5; exact .inl ⟨sz, rfl⟩
      | reserved sz c a => rw [hq] at h5; cases h5; exact .inr (.inl ⟨sz, a, rfl⟩)
      | erasing c => rw [hq] at h5; cases h5; exact .inr (.inr rfl)
      | idle => rw [hq] at h5; cases h5
      | loop _ => rw [hq] at h5; cases h5
      | needNew _ => rw [hq] at h5; cases h5
    · exact h5

theorem findOwnerFrom_some {chunks : List Chunk} {addr : Size} {i c : Nat}
    (h : findOwnerFrom chunks addr i = some c) :
    ∃ k : Chunk, chunks[c]? = some k ∧ (k.deleted = false ∨ c + 1 = chunks.length) ∧
      k.owns addr = true := by
  induction i with
  | zero => simp [findOwnerFrom] at h
  | succ i ih =>
    simp only [findOwnerFrom] at h
    split at h
    · cases h
    · rename_i k hk
      split at h
      · rename_i hc
        cases h
        simp only [Bool.and_eq_true, Bool.or_eq_true, Bool.not_eq_true', beq_iff_eq] at hc
        exact ⟨k, hk, hc.1, hc.2⟩
      · exact ih h

theorem thr_lt {cfg : Cfg} {n : Nat} {s : State} (hi : Inv cfg n s) {t : Nat}
    (h : s.pcs t ≠ .idle) : t < n := by
  rcases Nat.lt_or_ge t n with h1 | h1
  · exact h1
  · exact absurd (hi.thr t h1) h

/-- The subtraction of a thread that is about to try does not wrap around. -/
theorem noWrap {cfg : Cfg} {n : Nat} {s : State} (hi : Inv cfg n s) {t c : Nat} {sz : Size}
    {k : Chunk} (hp : s.pcs t = .chosen sz c) (hk : s.chunks[c]? = some k) :
    sz.toNat ≤ k.next.toNat ∧ (k.next - sz).toNat = k.next.toNat - sz.toNat := by
  have ht : t < n := thr_lt hi (by rw [hp]; simp)
  have h1 := M_lt ht hp
  have h2 := hi.pot c k hk
  obtain ⟨g1, g2, g3, g4, g5⟩ := hi.geo c k hk
  have h3 := hi.szs t
  rw [hp] at h3
  simp only [pcSize] at h3
  have h4 : cfg.capacity.toNat * (M n s c + 1) ≤ cfg.capacity.toNat * n := Nat.mul_le_mul_left _ h1
  rw [Nat.mul_add, Nat.mul_comm _ n] at h4
  have h5 : sz.toNat ≤ k.next.toNat := by omega
  exact ⟨h5, BitVec.toNat_sub_of_le (by rw [BitVec.le_def]; exact h5)⟩

theorem cnt_setPc (n : Nat) (p : Pc → Bool) (f : Nat → Pc) (t : Nat) (v : Pc) (ht : t < n) :
    cnt n p (setPc f t v) + (if p (f t) then 1 else 0) = cnt n p f + (if p v then 1 else 0) :=
  cnt_update n p f t v ht

/-- Steps that neither append a chunk nor leave `needNew` do not decrease the bound. -/
theorem M_mono {n : Nat} {s s' : State} {t : Nat} {q : Pc} (ht : t < n)
    (hlen : s'.chunks.length = s.chunks.length) (hpcs : s'.pcs = setPc s.pcs t q)
    (hnn : isNeedNew (s.pcs t) = false) (hch : ∀ c, isChosen c q = true → c + 1 = s.chunks.length)
    (i : Nat) : M n s i ≤ M n s' i := by
  unfold M
  rw [hlen, hpcs]
  have h1 := cnt_setPc n isNeedNew s.pcs t q ht
  have h2 := cnt_setPc n (isChosen i) s.pcs t q ht
  rw [hnn] at h1
  simp only [Bool.false_eq_true, if_false] at h1
  split
  · omega
  · rename_i hne
    have : isChosen i q = false := by
      cases h : isChosen i q
      · rfl
      · exact absurd (hch i h) hne
    rw [this] at h2
    simp only [Bool.false_eq_true, if_false] at h2
    omega

/-- A failed attempt increases the bound for its chunk. -/
theorem M_fail {n : Nat} {s s' : State} {t c : Nat} {sz : Size} (ht : t < n)
    (hlen : s'.chunks.length = s.chunks.length) (hp : s.pcs t = .chosen sz c)
    (hpcs : s'.pcs = setPc s.pcs t (.needNew sz)) : M n s c + 1 ≤ M n s' c := by
  unfold M
  rw [hlen, hpcs]
  have h1 := cnt_setPc n isNeedNew s.pcs t (.needNew sz) ht
  have h2 := cnt_setPc n (isChosen c) s.pcs t (.needNew sz) ht
  have h3 := cnt_le n (isChosen c) s.pcs
  rw [hp] at h1 h2
  simp only [isNeedNew, isChosen, beq_self_eq_true, Bool.false_eq_true, if_false, if_true] at h1 h2
  split <;> omega

/-- Reading the program counters after a change. -/
theorem setPc_eq {f : Nat → Pc} {t x : Nat} {p q : Pc} (h : setPc f t p x = q) :
    (x = t ∧ p = q) ∨ (x ≠ t ∧ f x = q) := by
  unfold setPc at h
  split at h
  · exact .inl ⟨by assumption, h⟩
  · exact .inr ⟨by assumption, h⟩

theorem pairwise_erase {α} [BEq α] [LawfulBEq α] {R : α → α → Prop} {l : List α} (b : α)
    (h : l.Pairwise R) : (l.erase b).Pairwise R := h.sublist List.erase_sublist

/-- Steps that change only the program counter of one thread, to one without a reserved block. -/
theorem inv_setPc {cfg : Cfg} {n : Nat} {s : State} {t : Nat} {q : Pc} (hi : Inv cfg n s)
    (ht : t < n) (hsz : pcSize q ≤ cfg.capacity.toNat)
    (hq : ∀ c, pcChunk q = some c → c < s.chunks.length ∧ inUse s c)
    (hnn : isNeedNew (s.pcs t) = false) (hch : ∀ c, isChosen c q = true → c + 1 = s.chunks.length)
    (hres : ∀ sz c a, q ≠ .reserved sz c a) : Inv cfg n { s with pcs := setPc s.pcs t q } := by
  refine { hi with thr := ?_, szs := ?_, idx := ?_, pot := ?_, resHand := ?_, resDisj := ?_, resRes := ?_, reg := ?_ }
  · intro x hx; dsimp only; rw [setPc_ne _ _ (by omega)]; exact hi.thr x hx
  · intro x; dsimp only
    by_cases h : x = t
    · subst h; simpa using hsz
    · rw [setPc_ne _ _ h]; exact hi.szs x
  · intro x c h; dsimp only at h
    by_cases hx : x = t
    · subst hx; rw [setPc_same] at h; exact (hq c h).1
    · rw [setPc_ne _ _ hx] at h; exact hi.idx x c h
  · intro i k hk
    have h1 := hi.pot i k hk
    have h2 := M_mono (s := s) (s' := { s with pcs := setPc s.pcs t q }) ht rfl rfl hnn hch i
    have h3 := Nat.mul_le_mul_left cfg.capacity.toNat h2
    omega
  · intro x sz c a h
    rcases setPc_eq h with ⟨_, h⟩ | ⟨_, h⟩
    · exact absurd h (hres _ _ _)
    · exact hi.resHand x sz c a h
  · intro x sz c a h
    rcases setPc_eq h with ⟨_, h⟩ | ⟨_, h⟩
    · exact absurd h (hres _ _ _)
    · exact hi.resDisj x sz c a h
  · intro x y sz a sz' a' c hne h h'
    rcases setPc_eq h with ⟨_, h⟩ | ⟨_, h⟩
    · exact absurd h (hres _ _ _)
    rcases setPc_eq h' with ⟨_, h'⟩ | ⟨_, h'⟩
    · exact absurd h' (hres _ _ _)
    exact hi.resRes x y sz a sz' a' c hne h h'
  · intro i j k l hij hk hl hu hu'
    have tr : ∀ i, inUse { s with pcs := setPc s.pcs t q } i → inUse s i := fun i h =>
      inUse_of_step (s := s) h rfl (fun k h1 h2 => ⟨k, h1, h2⟩) (by
        intro x hx
        dsimp only at hx
        by_cases hxt : x = t
        · subst hxt; rw [setPc_same] at hx; exact .inr (hq i hx).2
        · rw [setPc_ne _ _ hxt] at hx; exact .inl hx)
    exact hi.reg i j k l hij hk hl (tr i hu) (tr j hu')

/-- Steps that change fields of one chunk other than its geometry and `next`. -/
theorem inv_setChunk {cfg : Cfg} {n : Nat} {s : State} {c : Nat} {k k' : Chunk} (hi : Inv cfg n s)
    (hk : s.chunks[c]? = some k) (hb : k'.base = k.base) (hl : k'.lower = k.lower)
    (hu : k'.upper = k.upper) (hn : k'.next = k.next)
    (hd : k'.deleted = false → k.deleted = false) :
    Inv cfg n { s with chunks := s.chunks.set c k' } := by
  have hM : ∀ i, M n { s with chunks := s.chunks.set c k' } i = M n s i := by
    intro i; simp only [M, List.length_set]
  have hget : ∀ (i : Nat) (x : Chunk), (s.chunks.set c k')[i]? = some x →
      ∃ y : Chunk, s.chunks[i]? = some y ∧ x.base = y.base ∧ x.lower = y.lower ∧ x.upper = y.upper ∧
        x.next = y.next ∧ (x.deleted = false → y.deleted = false) := by
    intro i x h
    rcases getElem?_set_some h with ⟨rfl, rfl⟩ | ⟨_, h⟩
    · exact ⟨k, hk, hb, hl, hu, hn, hd⟩
    · exact ⟨x, h, rfl, rfl, rfl, rfl, id⟩
  refine { hi with idx := ?_, geo := ?_, pot := ?_, hand := ?_, reg := ?_ }
  · intro x c' h; simpa using hi.idx x c' h
  · intro i x h
    obtain ⟨y, h0, e1, e2, e3, e4, _⟩ := hget i x h
    rw [e1, e2, e3, e4]
    exact hi.geo i y h0
  · intro i x h
    obtain ⟨y, h0, e1, e2, e3, e4, _⟩ := hget i x h
    rw [e2, e4, hM]
    exact hi.pot i y h0
  · intro b hbm
    obtain ⟨y, h0, h1, h2, h3⟩ := hi.hand b hbm
    by_cases hbc : c = b.chunk
    · have : y = k := by rw [← hbc, hk] at h0; exact (Option.some.inj h0).symm
      subst this
      refine ⟨k', ?_, ?_⟩
      · rw [← hbc]; exact List.getElem?_set_self (getElem?_lt_length hk)
      · rw [hl, hn, hu]; exact ⟨h1, h2, h3⟩
    · exact ⟨y, by rw [List.getElem?_set_ne hbc]; exact h0, h1, h2, h3⟩
  · intro i j x y hij hx hy hu hu'
    obtain ⟨x', h1, e1, _⟩ := hget i x hx
    obtain ⟨y', h2, e2, _⟩ := hget j y hy
    have tr : ∀ i, inUse { s with chunks := s.chunks.set c k' } i → inUse s i := fun i h =>
      inUse_of_step (s := s) h (by simp) (fun z h1 h2 => by
        obtain ⟨z', h3, _, _, _, _, h4⟩ := hget i z h1
        exact ⟨z', h3, h4 h2⟩) (fun x hx => .inl hx)
    rw [e1, e2]
    exact hi.reg i j x' y' hij h1 h2 (tr i hu) (tr j hu')

/-- Giving a block back. -/
theorem inv_eraseLive {cfg : Cfg} {n : Nat} {s : State} (b : Blk) (hi : Inv cfg n s) :
    Inv cfg n { s with live := s.live.erase b } := by
  refine { hi with liveHand := ?_, liveDisj := ?_, resDisj := ?_, reg := ?_ }
  · intro x hx; exact hi.liveHand x (List.mem_of_mem_erase hx)
  · exact pairwise_erase b hi.liveDisj
  · intro t sz c a h x hx; exact hi.resDisj t sz c a h x (List.mem_of_mem_erase hx)
  · exact hi.reg

theorem inv_step {cfg : Cfg} {n : Nat} {s s' : State}
    (hcap : cfg.ctrl.toNat + cfg.header.toNat ≤ cfg.capacity.toNat)
    (hi : Inv cfg n s) (hs : Step cfg n (n * cfg.capacity.toNat) s s') : Inv cfg n s' := by
  cases hs with
  | @start t req ht hp hle =>
    refine inv_setPc hi ht ?_ (by simp [pcChunk]) (by rw [hp]; rfl) (by simp [isChosen]) (by simp)
    rw [BitVec.le_def] at hle; exact hle
  | reject => exact hi
  | @loadHead t sz hp hne =>
    have hpos : 0 < s.chunks.length := List.length_pos_iff.2 hne
    have hsz := hi.szs t
    rw [hp] at hsz
    refine inv_setPc hi (thr_lt hi (by rw [hp]; simp)) hsz ?_ (by rw [hp]; rfl) ?_ (by simp)
    · intro c hc; cases hc; exact ⟨by omega, .inr (.inl (by omega))⟩
    · intro c hc; simp only [isChosen, beq_iff_eq] at hc; omega
  | @noHead t sz hp hne =>
    have hsz := hi.szs t
    rw [hp] at hsz
    exact inv_setPc hi (thr_lt hi (by rw [hp]; simp)) hsz (by simp [pcChunk]) (by rw [hp]; rfl)
      (by simp [isChosen]) (by simp)
  | @fetchOk t sz c k hp hk hle =>
    obtain ⟨w1, w2⟩ := noWrap hi hp hk
    obtain ⟨g1, g2, g3, g4, g5⟩ := hi.geo c k hk
    rw [BitVec.le_def, w2] at hle
    have ht : t < n := thr_lt hi (by rw [hp]; simp)
    have hclt := getElem?_lt_length hk
    have huse : inUse s c := .inr (.inr ⟨t, .inl ⟨sz, hp⟩⟩)
    have hget : ∀ (i : Nat) (x : Chunk), (s.chunks.set c (k.fetchSub sz))[i]? = some x →
        (i = c ∧ x = k.fetchSub sz) ∨ (i ≠ c ∧ s.chunks[i]? = some x) :=
      fun i x h => getElem?_set_some h
    have hold : ∀ b ∈ s.handed, c = b.chunk → Disj ⟨c, k.next - sz, sz⟩ b := by
      intro b hb hc
      obtain ⟨k1, h1, _, h3, _⟩ := hi.hand b hb
      rw [← hc, hk] at h1
      cases h1
      left
      dsimp only
      omega
    refine ⟨?_, ?_, ?_, ?_, ?_, ?_, ?_, ?_, ?_, ?_, ?_, ?_, ?_⟩
    · intro x hx; dsimp only; rw [setPc_ne _ _ (by omega)]; exact hi.thr x hx
    · intro x; dsimp only
      by_cases h : x = t
      · subst h
        have := hi.szs x
        rw [hp] at this
        simpa [pcSize] using this
      · rw [setPc_ne _ _ h]; exact hi.szs x
    · intro x c' h; dsimp only at h ⊢
      rw [List.length_set]
      by_cases hx : x = t
      · subst hx; rw [setPc_same] at h; cases h; exact hclt
      · rw [setPc_ne _ _ hx] at h; exact hi.idx x c' h
    · intro i x h
      rcases hget i x h with ⟨rfl, rfl⟩ | ⟨_, h⟩
      · refine ⟨g1, g2, g3, g4, ?_⟩
        show (k.next - sz).toNat ≤ k.upper.toNat
        omega
      · exact hi.geo i x h
    · intro i x h
      have hM := M_mono (s := s) (q := .reserved sz c (k.next - sz)) ht
        (s' := { s with
          chunks := s.chunks.set c (k.fetchSub sz)
          pcs := setPc s.pcs t (.reserved sz c (k.next - sz))
          handed := ⟨c, k.next - sz, sz⟩ :: s.handed }) (by simp) rfl (by rw [hp]; rfl)
          (by simp [isChosen]) i
      have h3 := Nat.mul_le_mul_left cfg.capacity.toNat hM
      rcases hget i x h with ⟨rfl, rfl⟩ | ⟨_, h⟩
      · show k.lower.toNat ≤ (k.next - sz).toNat + _
        omega
      · have := hi.pot i x h
        omega
    · intro b hb
      rcases List.mem_cons.1 hb with rfl | hb
      · refine ⟨k.fetchSub sz, List.getElem?_set_self hclt, ?_, ?_, ?_⟩
        · show k.lower.toNat ≤ (k.next - sz).toNat; omega
        · exact Nat.le_refl _
        · show (k.next - sz).toNat + sz.toNat ≤ k.upper.toNat; omega
      · obtain ⟨k1, h1, h2, h3, h4⟩ := hi.hand b hb
        by_cases hc : c = b.chunk
        · rw [← hc, hk] at h1
          cases h1
          refine ⟨k.fetchSub sz, by rw [← hc]; exact List.getElem?_set_self hclt, h2, ?_, h4⟩
          show (k.next - sz).toNat ≤ _
          omega
        · exact ⟨k1, by show (s.chunks.set c _)[b.chunk]? = _; rw [List.getElem?_set_ne hc]; exact h1, h2, h3, h4⟩
    · exact List.pairwise_cons.2 ⟨fun b hb hc => hold b hb hc, hi.disj⟩
    · intro b hb; exact List.mem_cons_of_mem _ (hi.liveHand b hb)
    · intro x sz' c' a h
      rcases setPc_eq h with ⟨_, h⟩ | ⟨_, h⟩
      · cases h; exact List.mem_cons_self
      · exact List.mem_cons_of_mem _ (hi.resHand x sz' c' a h)
    · exact hi.liveDisj
    · intro x sz' c' a h b hb hc
      rcases setPc_eq h with ⟨_, h⟩ | ⟨_, h⟩
      · cases h; exact hold b (hi.liveHand b hb) hc
      · exact hi.resDisj x sz' c' a h b hb hc
    · intro x y sz1 a1 sz2 a2 c' hne h h'
      rcases setPc_eq h with ⟨hx, h⟩ | ⟨hx, h⟩ <;> rcases setPc_eq h' with ⟨hy, h'⟩ | ⟨hy, h'⟩
      · omega
      · cases h; exact hold _ (hi.resHand y _ _ _ h') rfl
      · cases h'
        exact (hold _ (hi.resHand x _ _ _ h) rfl).symm
      · exact hi.resRes x y sz1 a1 sz2 a2 c' hne h h'
    · intro i j x y hij hx hy hu hu'
      have tr : ∀ i, inUse { s with
          chunks := s.chunks.set c (k.fetchSub sz)
          pcs := setPc s.pcs t (.reserved sz c (k.next - sz))
          handed := ⟨c, k.next - sz, sz⟩ :: s.handed } i → inUse s i := fun i h =>
        inUse_of_step (s := s) h (by simp) (fun z h1 h2 => by
          rcases hget i z h1 with ⟨rfl, rfl⟩ | ⟨_, h1⟩
          · exact ⟨k, hk, h2⟩
          · exact ⟨z, h1, h2⟩) (by
          intro x hx
          dsimp only at hx
          by_cases hxt : x = t
          · subst hxt; rw [setPc_same] at hx; cases hx; exact .inr huse
          · rw [setPc_ne _ _ hxt] at hx; exact .inl hx)
      have hb : ∀ (i : Nat) (x : Chunk), (s.chunks.set c (k.fetchSub sz))[i]? = some x →
          ∃ x', s.chunks[i]? = some x' ∧ x.base = x'.base := by
        intro i x h
        rcases hget i x h with ⟨rfl, rfl⟩ | ⟨_, h⟩
        · exact ⟨k, hk, rfl⟩
        · exact ⟨x, h, rfl⟩
      obtain ⟨x', h1, e1⟩ := hb i x hx
      obtain ⟨y', h2, e2⟩ := hb j y hy
      rw [e1, e2]
      exact hi.reg i j x' y' hij h1 h2 (tr i hu) (tr j hu')
  | @fetchFail t sz c k hp hk hnle =>
    obtain ⟨w1, w2⟩ := noWrap hi hp hk
    obtain ⟨g1, g2, g3, g4, g5⟩ := hi.geo c k hk
    have ht : t < n := thr_lt hi (by rw [hp]; simp)
    have hclt := getElem?_lt_length hk
    have hsz := hi.szs t
    rw [hp] at hsz
    simp only [pcSize] at hsz
    have hget : ∀ (i : Nat) (x : Chunk), (s.chunks.set c (k.fetchSub sz))[i]? = some x →
        (i = c ∧ x = k.fetchSub sz) ∨ (i ≠ c ∧ s.chunks[i]? = some x) :=
      fun i x h => getElem?_set_some h
    refine ⟨?_, ?_, ?_, ?_, ?_, ?_, hi.disj, hi.liveHand, ?_, hi.liveDisj, ?_, ?_, ?_⟩
    · intro x hx; dsimp only; rw [setPc_ne _ _ (by omega)]; exact hi.thr x hx
    · intro x; dsimp only
      by_cases h : x = t
      · subst h; simpa [pcSize] using hsz
      · rw [setPc_ne _ _ h]; exact hi.szs x
    · intro x c' h; dsimp only at h ⊢
      rw [List.length_set]
      by_cases hx : x = t
      · subst hx; rw [setPc_same] at h; cases h
      · rw [setPc_ne _ _ hx] at h; exact hi.idx x c' h
    · intro i x h
      rcases hget i x h with ⟨rfl, rfl⟩ | ⟨_, h⟩
      · refine ⟨g1, g2, g3, g4, ?_⟩
        show (k.next - sz).toNat ≤ k.upper.toNat
        omega
      · exact hi.geo i x h
    · intro i x h
      rcases hget i x h with ⟨rfl, rfl⟩ | ⟨hne, h⟩
      · have hM := M_fail (s := s) ht
          (s' := { s with
            chunks := s.chunks.set i (k.fetchSub sz)
            pcs := setPc s.pcs t (.needNew sz) }) (by simp) hp rfl
        have h3 := Nat.mul_le_mul_left cfg.capacity.toNat hM
        rw [Nat.mul_add] at h3
        have := hi.pot i k hk
        show k.lower.toNat ≤ (k.next - sz).toNat + _
        omega
      · have hM := M_mono (s := s) (q := .needNew sz) ht
          (s' := { s with
            chunks := s.chunks.set c (k.fetchSub sz)
            pcs := setPc s.pcs t (.needNew sz) }) (by simp) rfl (by rw [hp]; rfl)
            (by simp [isChosen]) i
        have h3 := Nat.mul_le_mul_left cfg.capacity.toNat hM
        have := hi.pot i x h
        omega
    · intro b hb
      obtain ⟨k1, h1, h2, h3, h4⟩ := hi.hand b hb
      by_cases hc : c = b.chunk
      · rw [← hc, hk] at h1
        cases h1
        refine ⟨k.fetchSub sz, by rw [← hc]; exact List.getElem?_set_self hclt, h2, ?_, h4⟩
        show (k.next - sz).toNat ≤ _
        omega
      · exact ⟨k1, by show (s.chunks.set c _)[b.chunk]? = _; rw [List.getElem?_set_ne hc]; exact h1, h2, h3, h4⟩
    · intro x sz' c' a h
      rcases setPc_eq h with ⟨_, h⟩ | ⟨_, h⟩
      · cases h
      · exact hi.resHand x sz' c' a h
    · intro x sz' c' a h b hb hc
      rcases setPc_eq h with ⟨_, h⟩ | ⟨_, h⟩
      · cases h
      · exact hi.resDisj x sz' c' a h b hb hc
    · intro x y sz1 a1 sz2 a2 c' hne h h'
      rcases setPc_eq h with ⟨hx, h⟩ | ⟨hx, h⟩ <;> rcases setPc_eq h' with ⟨hy, h'⟩ | ⟨hy, h'⟩
      · cases h
      · cases h
      · cases h'
      · exact hi.resRes x y sz1 a1 sz2 a2 c' hne h h'
    · intro i j x y hij hx hy hu hu'
      have tr : ∀ i, inUse { s with
          chunks := s.chunks.set c (k.fetchSub sz)
          pcs := setPc s.pcs t (.needNew sz) } i → inUse s i := fun i h =>
        inUse_of_step (s := s) h (by simp) (fun z h1 h2 => by
          rcases hget i z h1 with ⟨rfl, rfl⟩ | ⟨_, h1⟩
          · exact ⟨k, hk, h2⟩
          · exact ⟨z, h1, h2⟩) (by
          intro x hx
          dsimp only at hx
          by_cases hxt : x = t
          · subst hxt; rw [setPc_same] at hx; cases hx
          · rw [setPc_ne _ _ hxt] at hx; exact .inl hx)
      have hb : ∀ (i : Nat) (x : Chunk), (s.chunks.set c (k.fetchSub sz))[i]? = some x →
          ∃ x', s.chunks[i]? = some x' ∧ x.base = x'.base := by
        intro i x h
        rcases hget i x h with ⟨rfl, rfl⟩ | ⟨_, h⟩
        · exact ⟨k, hk, rfl⟩
        · exact ⟨x, h, rfl⟩
      obtain ⟨x', h1, e1⟩ := hb i x hx
      obtain ⟨y', h2, e2⟩ := hb j y hy
      rw [e1, e2]
      exact hi.reg i j x' y' hij h1 h2 (tr i hu) (tr j hu')
  | @countUp t sz c addr k hp hk =>
    have hnew := hi.resHand t sz c addr hp
    have hd := hi.resDisj t sz c addr hp
    have hrr := fun y hne sz' a' h => hi.resRes t y sz addr sz' a' c hne hp h
    have h1 := inv_setChunk (k' := { k with count := k.count + 1 }) hi hk rfl rfl rfl rfl id
    have h2 := inv_setPc (q := .idle) (t := t) h1 (thr_lt hi (by rw [hp]; simp)) (by simp [pcSize])
      (by simp [pcChunk]) (by show isNeedNew (s.pcs t) = false; rw [hp]; rfl) (by simp [isChosen])
      (by simp)
    refine { h2 with liveHand := ?_, liveDisj := ?_, resDisj := ?_, reg := ?_ }
    · intro b hb
      rcases List.mem_cons.1 hb with rfl | hb
      · exact hnew
      · exact hi.liveHand b hb
    · exact List.pairwise_cons.2 ⟨fun b hb hc => hd b hb hc, hi.liveDisj⟩
    · intro x sz' c' a h b hb hc
      rcases List.mem_cons.1 hb with rfl | hb
      · rcases setPc_eq (f := s.pcs) h with ⟨hx, hh⟩ | ⟨hx, hh⟩
        · cases hh
        · simp only at hc
          subst hc
          exact (hrr x (fun e => hx e.symm) sz' a hh).symm
      · exact h2.resDisj x sz' c' a h b hb hc
    · exact h2.reg
  | @append t sz base hp hf =>
    obtain ⟨f1, f2, f3⟩ := hf
    have ht : t < n := thr_lt hi (by rw [hp]; simp)
    have hsz := hi.szs t
    rw [hp] at hsz
    simp only [pcSize] at hsz
    obtain ⟨l1, l2, _⟩ := C31_bump_chunk_layout cfg base hcap f2
    have hupto : ∀ i, i < s.chunks.length → M n s i ≤
        M n { s with chunks := s.chunks ++ [Chunk.mk' cfg base], pcs := setPc s.pcs t (.loop sz) } i := by
      intro i hlt
      have c1 := cnt_setPc n (isChosen i) s.pcs t (.loop sz) ht
      have c2 := cnt_add_le n isNeedNew (isChosen i) s.pcs
        (by intro a; cases a <;> simp [isNeedNew, isChosen])
      rw [hp] at c1
      simp only [isChosen, Bool.false_eq_true, if_false] at c1
      unfold M
      simp only [List.length_append, List.length_singleton]
      rw [if_neg (by omega : ¬ i + 1 = s.chunks.length + 1)]
      split <;> omega
    refine ⟨?_, ?_, ?_, ?_, ?_, ?_, hi.disj, hi.liveHand, ?_, hi.liveDisj, ?_, ?_, ?_⟩
    · intro x hx; dsimp only; rw [setPc_ne _ _ (by omega)]; exact hi.thr x hx
    · intro x; dsimp only
      by_cases h : x = t
      · subst h; simpa [pcSize] using hsz
      · rw [setPc_ne _ _ h]; exact hi.szs x
    · intro x c' h; dsimp only at h ⊢
      rw [List.length_append]
      by_cases hx : x = t
      · subst hx; rw [setPc_same] at h; cases h
      · rw [setPc_ne _ _ hx] at h
        have := hi.idx x c' h
        omega
    · intro i x h
      rcases getElem?_concat_some h with ⟨_, h⟩ | ⟨_, rfl⟩
      · exact hi.geo i x h
      · exact ⟨l1, l2, f1, f2, Nat.le_refl _⟩
    · intro i x h
      rcases getElem?_concat_some h with ⟨hlt, h⟩ | ⟨_, rfl⟩
      · have h3 := Nat.mul_le_mul_left cfg.capacity.toNat (hupto i hlt)
        have := hi.pot i x h
        omega
      · have : (Chunk.mk' cfg base).next = (Chunk.mk' cfg base).upper := rfl
        rw [this, l1, l2]
        omega
    · intro b hb
      obtain ⟨k1, h1, h2⟩ := hi.hand b hb
      exact ⟨k1, by
        show (s.chunks ++ _)[b.chunk]? = _
        rw [List.getElem?_append_left (getElem?_lt_length h1)]; exact h1, h2⟩
    · intro x sz' c' a h
      rcases setPc_eq h with ⟨_, h⟩ | ⟨_, h⟩
      · cases h
      · exact hi.resHand x sz' c' a h
    · intro x sz' c' a h b hb hc
      rcases setPc_eq h with ⟨_, h⟩ | ⟨_, h⟩
      · cases h
      · exact hi.resDisj x sz' c' a h b hb hc
    · intro x y sz1 a1 sz2 a2 c' hne h h'
      rcases setPc_eq h with ⟨hx, h⟩ | ⟨hx, h⟩ <;> rcases setPc_eq h' with ⟨hy, h'⟩ | ⟨hy, h'⟩
      · cases h
      · cases h
      · cases h'
      · exact hi.resRes x y sz1 a1 sz2 a2 c' hne h h'
    · have tr : ∀ i, i < s.chunks.length → inUse { s with
          chunks := s.chunks ++ [Chunk.mk' cfg base], pcs := setPc s.pcs t (.loop sz) } i →
          inUse s i := by
        intro i hlt h
        rcases h with ⟨k, h1, h2⟩ | h | ⟨x, h⟩
        · rcases getElem?_concat_some h1 with ⟨_, h1⟩ | ⟨hc, _⟩
          · exact .inl ⟨k, h1, h2⟩
          · omega
        · simp only [List.length_append, List.length_singleton] at h
          omega
        · right; right
          refine ⟨x, ?_⟩
          rcases h with ⟨z, h⟩ | ⟨z, a, h⟩ | h <;> rcases setPc_eq h with ⟨_, h⟩ | ⟨_, h⟩
          · cases h
          · exact .inl ⟨z, h⟩
          · cases h
          · exact .inr (.inl ⟨z, a, h⟩)
          · cases h
          · exact .inr (.inr h)
      intro i j x y hij hx hy hu hu'
      rcases getElem?_concat_some hx with ⟨li, hx⟩ | ⟨ei, rfl⟩ <;>
        rcases getElem?_concat_some hy with ⟨lj, hy⟩ | ⟨ej, rfl⟩
      · exact hi.reg i j x y hij hx hy (tr i li hu) (tr j lj hu')
      · exact (f3 i x hx (tr i li hu)).symm
      · exact f3 j y hy (tr j lj hu')
      · omega
  | @dealloc t b c k ht hp hb hfo hk hcnt =>
    exact inv_eraseLive b (inv_setChunk (k' := { k with count := k.count - 1 }) hi hk rfl rfl rfl rfl id)
  | @deallocLast t b c k ht hp hb hfo hk hcnt =>
    obtain ⟨k1, e1, e2, _⟩ := findOwnerFrom_some hfo
    have h1 := inv_eraseLive b
      (inv_setChunk (k' := { k with count := k.count - 1 }) hi hk rfl rfl rfl rfl id)
    refine inv_setPc (q := .erasing c) (t := t) h1 ht (by simp [pcSize]) ?_
      (by show isNeedNew (s.pcs t) = false; rw [hp]; rfl) (by simp [isChosen]) (by simp)
    intro c' hc
    cases hc
    refine ⟨by simpa using getElem?_lt_length hk, ?_⟩
    rcases e2 with e2 | e2
    · left
      rw [hk] at e1; cases e1
      exact ⟨{ k with count := k.count - 1 }, List.getElem?_set_self (getElem?_lt_length hk), e2⟩
    · right; left; simpa using e2
  | @deallocUnknown t b ht hp hb hfo => exact inv_eraseLive b hi
  | @erase t c k hp hk =>
    have h1 := inv_setChunk (k' := { k with deleted := k.deleted || k.full }) hi hk rfl rfl rfl rfl
      (by intro h; simp only [Bool.or_eq_false_iff] at h; exact h.1)
    exact inv_setPc (q := .idle) (t := t) h1 (thr_lt hi (by rw [hp]; simp)) (by simp [pcSize])
      (by simp [pcChunk]) (by show isNeedNew (s.pcs t) = false; rw [hp]; rfl) (by simp [isChosen])
      (by simp)

theorem inv_init (cfg : Cfg) (n : Nat) : Inv cfg n State.init := by
  refine ⟨?_, ?_, ?_, ?_, ?_, ?_, ?_, ?_, ?_, ?_, ?_, ?_, ?_⟩ <;> simp [State.init, pcSize, pcChunk]

theorem reach_inv {cfg : Cfg} {n : Nat} {s : State}
    (hcap : cfg.ctrl.toNat + cfg.header.toNat ≤ cfg.capacity.toNat)
    (h : Reach cfg n (n * cfg.capacity.toNat) s) : Inv cfg n s := by
  induction h with
  | init => exact inv_init cfg n
  | step _ hs ih => exact inv_step hcap ih hs

/-! ### C33 -/

/-- C33: in every reachable state, after any interleaving of any number `n` of threads, all blocks
that were ever handed out by one chunk are pairwise disjoint and lie between the header of the chunk
and the end of the requested memory; and all blocks in use are pairwise disjoint, as long as the chunk
they came from is. The operating system is assumed not to hand out the lowest `n * capacity`
bytes of the address space. -/
theorem C33_blocks_disjoint {cfg : Cfg} {n : Nat} {s : State}
    (hcap : cfg.ctrl.toNat + cfg.header.toNat ≤ cfg.capacity.toNat)
    (h : Reach cfg n (n * cfg.capacity.toNat) s) :
    (∀ b ∈ s.handed, ∃ k : Chunk, s.chunks[b.chunk]? = some k ∧
      k.base.toNat + cfg.ctrl.toNat + cfg.header.toNat ≤ b.addr.toNat ∧
      b.addr.toNat + b.len.toNat ≤ k.base.toNat + cfg.capacity.toNat) ∧
    (s.handed.Pairwise fun a b => a.chunk = b.chunk →
      a.addr.toNat + a.len.toNat ≤ b.addr.toNat ∨ b.addr.toNat + b.len.toNat ≤ a.addr.toNat) ∧
    (s.live.Pairwise fun a b => inUse s a.chunk → inUse s b.chunk →
      a.addr.toNat + a.len.toNat ≤ b.addr.toNat ∨ b.addr.toNat + b.len.toNat ≤ a.addr.toNat) := by
  have hi := reach_inv hcap h
  have hin : ∀ b ∈ s.handed, ∃ k : Chunk, s.chunks[b.chunk]? = some k ∧
      k.base.toNat + cfg.ctrl.toNat + cfg.header.toNat ≤ b.addr.toNat ∧
      b.addr.toNat + b.len.toNat ≤ k.base.toNat + cfg.capacity.toNat := by
    intro b hb
    obtain ⟨k, h1, h2, h3, h4⟩ := hi.hand b hb
    obtain ⟨g1, g2, _⟩ := hi.geo _ k h1
    exact ⟨k, h1, by omega, by omega⟩
  refine ⟨hin, hi.disj, ?_⟩
  refine List.Pairwise.imp_of_mem ?_ hi.liveDisj
  intro a b ha hb hab ua ub
  by_cases hc : a.chunk = b.chunk
  · exact hab hc
  · obtain ⟨k, a1, a2, a3⟩ := hin a (hi.liveHand a ha)
    obtain ⟨l, b1, b2, b3⟩ := hin b (hi.liveHand b hb)
    have := hi.reg _ _ k l hc a1 b1 ua ub
    omega

/-- an execution in which a block is handed out; further ones, with two threads, are in
`AllocFalse.lean` -/
example : ∃ s, Reach ⟨64, 8, 8⟩ 1 (1 * (64 : Size).toNat) s ∧ s.live = [⟨0, 1048, 16⟩] :=
  ⟨_, .step (.step (.step (.step (.step (.step .init
    (.start (t := 0) (req := 16) (by decide) rfl (by decide)))
    (.noHead (t := 0) (sz := 16) (by decide) rfl))
    (.append (t := 0) (sz := 16) (base := 1000) (by decide)
      ⟨by decide, by decide, by intro i k hk; exact absurd hk (by simp [State.init])⟩))
    (.loadHead (t := 0) (sz := 16) (by decide) (by decide)))
    (.fetchOk (t := 0) (sz := 16) (c := 0) (by decide) rfl (by decide)))
    (.countUp (t := 0) (sz := 16) (c := 0) (addr := 1048) (by decide) rfl), rfl⟩

/-! ### C34 -/

/-- Bytes of a fresh chunk that can be handed out. -/
def usable (cfg : Cfg) : Nat := cfg.capacity.toNat - cfg.ctrl.toNat - cfg.header.toNat

/-- A step executed by thread `t` inside an operation. -/
def StepOf (cfg : Cfg) (n lowBound t : Nat) (s s' : State) : Prop :=
  Step cfg n lowBound s s' ∧ s.pcs t ≠ .idle ∧ s'.pcs t ≠ s.pcs t

/-- `k` consecutive steps of thread `t` inside an operation. -/
inductive Solo (cfg : Cfg) (n lowBound t : Nat) : Nat → State → State → Prop
  | refl {s} : Solo cfg n lowBound t 0 s s
  | step {k s s1 s2} : Solo cfg n lowBound t k s s1 → StepOf cfg n lowBound t s1 s2 →
      Solo cfg n lowBound t (k + 1) s s2

/-- Any sequence of steps of any threads. -/
inductive Steps (cfg : Cfg) (n lowBound : Nat) : State → State → Prop
  | refl {s} : Steps cfg n lowBound s s
  | step {s s1 s2} : Steps cfg n lowBound s s1 → Step cfg n lowBound s1 s2 → Steps cfg n lowBound s s2

/-- Is there room for `sz` bytes in chunk `c`? -/
def room (s : State) (c : Nat) (sz : Size) : Bool :=
  match s.chunks[c]? with
  | some k => decide (k.lower ≤ k.next - sz)
  | none => false

/-- Upper bound for the number of steps to the end of the operation. -/
def rank (s : State) : Pc → Nat
  | .idle => 0
  | .erasing _ => 1
  | .reserved _ _ _ => 1
  | .chosen sz c => if room s c sz then 2 else 5
  | .loop sz => if room s (s.chunks.length - 1) sz then 3 else 6
  | .needNew _ => 4

theorem rank_le (s : State) (p : Pc) : rank s p ≤ 6 := by
  cases p <;> simp only [rank] <;> (try split) <;> omega

/-- a thread that works on a request of `sz` bytes, or just got its block -/
def Working (sz : Size) (s : State) (t : Nat) : Prop :=
  s.pcs t = .loop sz ∨ (∃ c, s.pcs t = .chosen sz c) ∨ (∃ c a, s.pcs t = .reserved sz c a) ∨
  s.pcs t = .needNew sz ∨ (s.pcs t = .idle ∧ ∃ c a, ⟨c, a, sz⟩ ∈ s.live)

theorem fresh_room {cfg : Cfg} {base sz : Size}
    (hcap : cfg.ctrl.toNat + cfg.header.toNat ≤ cfg.capacity.toNat)
    (hmem : base.toNat + cfg.capacity.toNat + cfg.ctrl.toNat < 2 ^ 64)
    (hsz : sz.toNat ≤ usable cfg) :
    (Chunk.mk' cfg base).lower ≤ (Chunk.mk' cfg base).next - sz := by
  obtain ⟨l1, l2, _⟩ := C31_bump_chunk_layout cfg base hcap hmem
  have l3 : (Chunk.mk' cfg base).next.toNat = base.toNat + cfg.capacity.toNat := l2
  unfold usable at hsz
  have hle : sz.toNat ≤ (Chunk.mk' cfg base).next.toNat := by omega
  rw [BitVec.le_def, BitVec.toNat_sub_of_le (by rw [BitVec.le_def]; exact hle)]
  omega

/-- Each step of a thread brings it closer to the end of its operation. -/
theorem stepOf_rank {cfg : Cfg} {n lowBound t : Nat} {s s' : State} {sz : Size}
    (hcap : cfg.ctrl.toNat + cfg.header.toNat ≤ cfg.capacity.toNat) (hsz : sz.toNat ≤ usable cfg)
    (hs : StepOf cfg n lowBound t s s') (hw : Working sz s t) :
    rank s' (s'.pcs t) < rank s (s.pcs t) ∧ Working sz s' t := by
  obtain ⟨hs, hni, hch⟩ := hs
  have hset : ∀ {u : Nat} {q : Pc}, setPc s.pcs u q t ≠ s.pcs t → u = t := by
    intro u q h
    rcases Nat.decEq t u with e | e
    · exact absurd (setPc_ne _ _ e) h
    · exact e.symm
  cases hs with
  | @start u req ht hp hle =>
    obtain rfl := hset hch
    exact absurd hp hni
  | reject => exact absurd rfl hch
  | @loadHead u z hp hne =>
    obtain rfl := hset hch
    have hz : z = sz := by
      rcases hw with h | ⟨c, h⟩ | ⟨c, a, h⟩ | h | ⟨h, _⟩ <;> rw [hp] at h <;> cases h
      rfl
    subst hz
    refine ⟨?_, .inr (.inl ⟨_, setPc_same _ _ _⟩)⟩
    dsimp only
    rw [setPc_same, hp]
    have : ∀ b : Bool, (if b then 2 else 5) < (if b then 3 else 6) := by decide
    exact this _
  | @noHead u z hp he =>
    obtain rfl := hset hch
    have hz : z = sz := by
      rcases hw with h | ⟨c, h⟩ | ⟨c, a, h⟩ | h | ⟨h, _⟩ <;> rw [hp] at h <;> cases h
      rfl
    subst hz
    refine ⟨?_, .inr (.inr (.inr (.inl (setPc_same _ _ _))))⟩
    dsimp only
    rw [setPc_same, hp]
    simp [rank, room, he]
  | @fetchOk u z c k hp hk hle =>
    obtain rfl := hset hch
    have hz : z = sz := by
      rcases hw with h | ⟨c, h⟩ | ⟨c, a, h⟩ | h | ⟨h, _⟩ <;> rw [hp] at h <;> cases h
      rfl
    subst hz
    refine ⟨?_, .inr (.inr (.inl ⟨_, _, setPc_same _ _ _⟩))⟩
    dsimp only
    rw [setPc_same, hp]
    simp only [rank]
    split <;> omega
  | @fetchFail u z c k hp hk hnle =>
    obtain rfl := hset hch
    have hz : z = sz := by
      rcases hw with h | ⟨c, h⟩ | ⟨c, a, h⟩ | h | ⟨h, _⟩ <;> rw [hp] at h <;> cases h
      rfl
    subst hz
    refine ⟨?_, .inr (.inr (.inr (.inl (setPc_same _ _ _))))⟩
    dsimp only
    rw [setPc_same, hp]
    have hr : room s c z = false := by simp [room, hk, hnle]
    simp [rank, hr]
  | @countUp u z c a k hp hk =>
    obtain rfl := hset hch
    have hz : z = sz := by
      rcases hw with h | ⟨c, h⟩ | ⟨c, a, h⟩ | h | ⟨h, _⟩ <;> rw [hp] at h <;> cases h
      rfl
    subst hz
    refine ⟨?_, .inr (.inr (.inr (.inr ⟨setPc_same _ _ _, c, a, List.mem_cons_self⟩)))⟩
    dsimp only
    rw [setPc_same, hp]
    simp [rank]
  | @append u z base hp hf =>
    obtain rfl := hset hch
    have hz : z = sz := by
      rcases hw with h | ⟨c, h⟩ | ⟨c, a, h⟩ | h | ⟨h, _⟩ <;> rw [hp] at h <;> cases h
      rfl
    subst hz
    refine ⟨?_, .inl (setPc_same _ _ _)⟩
    dsimp only
    rw [setPc_same, hp]
    have := fresh_room (sz := z) hcap hf.2.1 hsz
    simp [rank, room, this]
  | dealloc => exact absurd rfl hch
  | @deallocLast u b c k ht hp =>
    obtain rfl := hset hch
    exact absurd hp hni
  | deallocUnknown => exact absurd rfl hch
  | @erase u c k hp hk =>
    obtain rfl := hset hch
    rcases hw with h | ⟨c, h⟩ | ⟨c, a, h⟩ | h | ⟨h, _⟩ <;> rw [hp] at h <;> cases h

theorem solo_rank {cfg : Cfg} {n lowBound t k : Nat} {s s' : State} {sz : Size}
    (hcap : cfg.ctrl.toNat + cfg.header.toNat ≤ cfg.capacity.toNat) (hsz : sz.toNat ≤ usable cfg)
    (hs : Solo cfg n lowBound t k s s') (hw : Working sz s t) :
    rank s' (s'.pcs t) + k ≤ rank s (s.pcs t) ∧ Working sz s' t := by
  induction hs with
  | refl => exact ⟨by omega, hw⟩
  | step _ h2 ih =>
    obtain ⟨h3, h4⟩ := ih hw
    obtain ⟨h5, h6⟩ := stepOf_rank hcap hsz h2 h4
    exact ⟨by omega, h6⟩

/-- The step a thread inside an operation can do. -/
theorem stepOf_exists {cfg : Cfg} {n lowBound t : Nat} {s : State} {sz : Size}
    (hi : Inv cfg n s) (hw : Working sz s t) (hni : s.pcs t ≠ .idle)
    (hmem : s.pcs t = .needNew sz → ∃ base, freshRegion cfg lowBound s base) :
    ∃ s', StepOf cfg n lowBound t s s' := by
  have hlen : ∀ {c : Nat}, pcChunk (s.pcs t) = some c → ∃ k, s.chunks[c]? = some k := by
    intro c hc
    exact ⟨_, List.getElem?_eq_getElem (hi.idx t c hc)⟩
  rcases hw with h | ⟨c, h⟩ | ⟨c, a, h⟩ | h | ⟨h, _⟩
  · by_cases he : s.chunks = []
    · exact ⟨_, .noHead h he, hni, by dsimp only; rw [setPc_same, h]; simp⟩
    · exact ⟨_, .loadHead h he, hni, by dsimp only; rw [setPc_same, h]; simp⟩
  · obtain ⟨k, hk⟩ := hlen (c := c) (by rw [h]; rfl)
    by_cases hl : k.lower ≤ k.next - sz
    · exact ⟨_, .fetchOk h hk hl, hni, by dsimp only; rw [setPc_same, h]; simp⟩
    · exact ⟨_, .fetchFail h hk hl, hni, by dsimp only; rw [setPc_same, h]; simp⟩
  · obtain ⟨k, hk⟩ := hlen (c := c) (by rw [h]; rfl)
    exact ⟨_, .countUp h hk, hni, by dsimp only; rw [setPc_same, h]; simp⟩
  · obtain ⟨base, hb⟩ := hmem h
    exact ⟨_, .append h hb, hni, by dsimp only; rw [setPc_same, h]; simp⟩
  · exact absurd h hni

/-- C34 (partial): a request whose rounded size fits into a fresh chunk is answered: whatever the
state of the allocator and of the other threads is, a thread that executes `allocate` is never stuck
(unless the system has no memory for another chunk) and, if the others pause, has its block after at
most six steps. Missing: requests between the usable size of a chunk and its nominal capacity, see
`C34_never_answered_false`; and, with other threads running, only some thread makes progress
(the others may use up each new chunk). -/
theorem C34_answered_partial {cfg : Cfg} {n t : Nat} {s : State} {sz : Size}
    (hcap : cfg.ctrl.toNat + cfg.header.toNat ≤ cfg.capacity.toNat)
    (h : Reach cfg n (n * cfg.capacity.toNat) s)
    (hp : s.pcs t = .loop sz) (hsz : sz.toNat ≤ usable cfg) :
    ∀ k s', Solo cfg n (n * cfg.capacity.toNat) t k s s' →
      k ≤ 6 ∧
      (s'.pcs t = .idle → ∃ c a, ⟨c, a, sz⟩ ∈ s'.live) ∧
      (s'.pcs t ≠ .idle →
        (s'.pcs t = .needNew sz → ∃ base, freshRegion cfg (n * cfg.capacity.toNat) s' base) →
        ∃ s'', StepOf cfg n (n * cfg.capacity.toNat) t s' s'') := by
  intro k s' hs
  obtain ⟨h1, h2⟩ := solo_rank hcap hsz hs (.inl hp)
  have h3 := rank_le s (s.pcs t)
  refine ⟨by omega, ?_, ?_⟩
  · intro hidle
    rcases h2 with h | ⟨c, h⟩ | ⟨c, a, h⟩ | h | ⟨_, h⟩
    · rw [hidle] at h; cases h
    · rw [hidle] at h; cases h
    · rw [hidle] at h; cases h
    · rw [hidle] at h; cases h
    · exact h
  · intro hni hmem
    have hr : Reach cfg n (n * cfg.capacity.toNat) s' := by
      clear h1 h2 hni hmem
      induction hs with
      | refl => exact h
      | step _ h2 ih => exact .step (ih h hp h3) h2.1
    exact stepOf_exists (reach_inv hcap hr) h2 hni hmem

/-- C34 does not hold for all requests: if the rounded size is larger than the usable part of a chunk
but not larger than the nominal capacity, it is accepted and the thread never leaves the loop, in any
execution (each round appends another chunk). -/
theorem C34_never_answered_false {cfg : Cfg} {n t : Nat} {s s' : State} {sz : Size}
    (hcap : cfg.ctrl.toNat + cfg.header.toNat ≤ cfg.capacity.toNat)
    (h : Reach cfg n (n * cfg.capacity.toNat) s)
    (hp : s.pcs t = .loop sz) (hsz : usable cfg < sz.toNat)
    (hs : Steps cfg n (n * cfg.capacity.toNat) s s') :
    s'.pcs t = .loop sz ∨ (∃ c, s'.pcs t = .chosen sz c) ∨ s'.pcs t = .needNew sz := by
  have key : Reach cfg n (n * cfg.capacity.toNat) s' ∧
      (s'.pcs t = .loop sz ∨ (∃ c, s'.pcs t = .chosen sz c) ∨ s'.pcs t = .needNew sz) := by
    induction hs with
    | refl => exact ⟨h, .inl hp⟩
    | @step s1 s2 _ h2 ih =>
      obtain ⟨hr, hw⟩ := ih
      refine ⟨.step hr h2, ?_⟩
      have hi := reach_inv hcap hr
      have hkeep : ∀ (u : Nat) (q : Pc), u ≠ t →
          (setPc s1.pcs u q t = .loop sz ∨ (∃ c, setPc s1.pcs u q t = .chosen sz c) ∨
            setPc s1.pcs u q t = .needNew sz) := by
        intro u q hne
        rw [setPc_ne _ _ (fun e => hne e.symm)]
        exact hw
      have hni : s1.pcs t ≠ .idle := by
        intro e
        rcases hw with h | ⟨c, h⟩ | h <;> rw [e] at h <;> cases h
      cases h2 with
      | @start u req ht hpu hle =>
        by_cases hu : u = t
        · subst hu; exact absurd hpu hni
        · exact hkeep u _ hu
      | reject => exact hw
      | @loadHead u z hpu hne =>
        by_cases hu : u = t
        · subst hu
          rcases hw with h | ⟨c, h⟩ | h <;> rw [hpu] at h <;> cases h
          exact .inr (.inl ⟨_, setPc_same _ _ _⟩)
        · exact hkeep u _ hu
      | @noHead u z hpu hne =>
        by_cases hu : u = t
        · subst hu
          rcases hw with h | ⟨c, h⟩ | h <;> rw [hpu] at h <;> cases h
          exact .inr (.inr (setPc_same _ _ _))
        · exact hkeep u _ hu
      | @fetchOk u z c k hpu hk hle =>
        by_cases hu : u = t
        · subst hu
          rcases hw with h | ⟨c, h⟩ | h <;> rw [hpu] at h <;> cases h
          exfalso
          obtain ⟨w1, w2⟩ := noWrap hi hpu hk
          obtain ⟨g1, g2, g3, g4, g5⟩ := hi.geo _ k hk
          rw [BitVec.le_def, w2] at hle
          unfold usable at hsz
          omega
        · exact hkeep u _ hu
      | @fetchFail u z c k hpu hk hle =>
        by_cases hu : u = t
        · subst hu
          rcases hw with h | ⟨c, h⟩ | h <;> rw [hpu] at h <;> cases h
          exact .inr (.inr (setPc_same _ _ _))
        · exact hkeep u _ hu
      | @countUp u z c a k hpu hk =>
        by_cases hu : u = t
        · subst hu
          rcases hw with h | ⟨c, h⟩ | h <;> rw [hpu] at h <;> cases h
        · exact hkeep u _ hu
      | @append u z base hpu hf =>
        by_cases hu : u = t
        · subst hu
          rcases hw with h | ⟨c, h⟩ | h <;> rw [hpu] at h <;> cases h
          exact .inl (setPc_same _ _ _)
        · exact hkeep u _ hu
      | dealloc => exact hw
      | @deallocLast u b c k ht hpu =>
        by_cases hu : u = t
        · subst hu; exact absurd hpu hni
        · exact hkeep u _ hu
      | deallocUnknown => exact hw
      | @erase u c k hpu hk =>
        by_cases hu : u = t
        · subst hu
          rcases hw with h | ⟨c, h⟩ | h <;> rw [hpu] at h <;> cases h
        · exact hkeep u _ hu
  exact key.2

/-- the default chunk size, with a control block of 544 and a header of 32 bytes -/
def defaultCfg : Cfg := ⟨65536, 544, 32⟩

/-- A request of 40000 bytes is accepted and never answered. -/
example : ∃ s, Reach defaultCfg 1 (1 * defaultCfg.capacity.toNat) s ∧
    s.pcs 0 = .loop (roundup 40000) ∧ usable defaultCfg < (roundup 40000).toNat ∧
    defaultCfg.ctrl.toNat + defaultCfg.header.toNat ≤ defaultCfg.capacity.toNat :=
  ⟨_, .step .init (.start (t := 0) (req := 40000) (by omega) rfl (by decide)), rfl, by decide, by decide⟩

/-- A request of 1000 bytes is accepted and fits. -/
example : ∃ s, Reach defaultCfg 1 (1 * defaultCfg.capacity.toNat) s ∧
    s.pcs 0 = .loop (roundup 1000) ∧ (roundup 1000).toNat ≤ usable defaultCfg ∧
    defaultCfg.ctrl.toNat + defaultCfg.header.toNat ≤ defaultCfg.capacity.toNat :=
  ⟨_, .step .init (.start (t := 0) (req := 1000) (by omega) rfl (by decide)), rfl, by decide, by decide⟩

/-- C34 does not hold for huge requests either: a request of more than 2^63 bytes is accepted as if it
were a request of 0 bytes. -/
theorem C34_huge_accepted_false (cfg : Cfg) (n lowBound t : Nat) (ht : t < n) (req : Size)
    (hreq : 2 ^ 63 < req.toNat) (s : State) (hp : s.pcs t = .idle) :
    Step cfg n lowBound s { s with pcs := setPc s.pcs t (.loop 0) } := by
  have h := roundup_huge req hreq
  have := Step.start (cfg := cfg) (n := n) (lowBound := lowBound) (req := req) ht hp
    (by rw [h, BitVec.le_def]; exact Nat.zero_le _)
  rwa [h] at this

example : 2 ^ 63 < (0xFFFFFFFFFFFFFFF0 : Size).toNat ∧ (0 : Nat) < 1 := by decide

/-! ### C35 -/

/-- Executions in which no thread reserves memory in a chunk while another thread decides about its
deletion, and no request asks for 0 (or more than 2^63) bytes. -/
def Guard (s : State) : Prop :=
  (∀ t u c sz a, s.pcs t = .erasing c → s.pcs u ≠ .reserved sz c a) ∧ ∀ t, s.pcs t ≠ .loop 0

inductive ReachEx (cfg : Cfg) (n lowBound : Nat) : State → Prop
  | init : ReachEx cfg n lowBound State.init
  | step {s s'} : ReachEx cfg n lowBound s → Step cfg n lowBound s s' → Guard s' →
      ReachEx cfg n lowBound s'

theorem ReachEx.reach {cfg : Cfg} {n lowBound : Nat} {s : State} (h : ReachEx cfg n lowBound s) :
    Reach cfg n lowBound s := by
  induction h with
  | init => exact .init
  | step _ h2 _ ih => exact .step ih h2

/-- Number of blocks in use of a chunk. -/
def liveIn (s : State) (c : Nat) : Nat := (s.live.filter fun b => b.chunk == c).length

/-- Disjoint nonempty blocks within a region are at most as many as its bytes. -/
theorem length_le_of_disj (l : List Blk) (lo hi : Nat) (hd : l.Pairwise Disj)
    (hin : ∀ b ∈ l, lo ≤ b.addr.toNat ∧ b.addr.toNat + b.len.toNat ≤ hi ∧ 1 ≤ b.len.toNat) :
    l.length ≤ hi - lo := by
  have hnd : (l.map fun b => b.addr.toNat).Nodup := by
    refine List.pairwise_map.2 ?_
    refine List.Pairwise.imp_of_mem ?_ hd
    intro a b ha hb hab
    have := hin a ha
    have := hin b hb
    rcases hab with h | h <;> omega
  have hsub : (l.map fun b => b.addr.toNat) ⊆ List.range' lo (hi - lo) := by
    intro x hx
    obtain ⟨b, hb, rfl⟩ := List.mem_map.1 hx
    have := hin b hb
    rw [List.mem_range'_1]
    omega
  have := (List.subperm_of_subset hnd hsub).length_le
  simpa using this

structure Inv2 (s : State) : Prop where
  pos : ∀ t sz, (s.pcs t = .loop sz ∨ (∃ c, s.pcs t = .chosen sz c) ∨
    (∃ c a, s.pcs t = .reserved sz c a) ∨ s.pcs t = .needNew sz) → 1 ≤ sz.toNat
  livePos : ∀ b ∈ s.live, 1 ≤ b.len.toNat
  count : ∀ (c : Nat) (k : Chunk), s.chunks[c]? = some k → k.count.toNat = liveIn s c
  erasing : ∀ t c, s.pcs t = .erasing c → liveIn s c = 0
  del : ∀ (c : Nat) (k : Chunk), s.chunks[c]? = some k → k.deleted = true →
    k.next.toNat ≤ k.lower.toNat ∧ liveIn s c = 0 ∧ ∀ t sz a, s.pcs t ≠ .reserved sz c a

theorem liveIn_zero {s : State} {c : Nat} : liveIn s c = 0 ↔ ∀ b ∈ s.live, b.chunk ≠ c := by
  simp [liveIn, List.filter_eq_nil_iff]

theorem findOwnerFrom_none {chunks : List Chunk} {addr : Size} {i c : Nat} {k : Chunk}
    (hle : i ≤ chunks.length)
    (h : findOwnerFrom chunks addr i = none) (hc : c < i) (hk : chunks[c]? = some k)
    (hd : k.deleted = false) : k.owns addr = false := by
  induction i with
  | zero => omega
  | succ i ih =>
    simp only [findOwnerFrom] at h
    have hi : chunks[i]? = some (chunks[i]'(by omega)) := List.getElem?_eq_getElem (by omega)
    rw [hi] at h
    simp only at h
    split at h
    · cases h
    · rename_i hcond
      by_cases hci : c = i
      · subst hci
        rw [hi] at hk
        cases hk
        cases ho : (chunks[c]'(by omega)).owns addr
        · rfl
        · exact absurd (by simp [hd, ho]) hcond
      · exact ih (by omega) h (by omega)

/-- In such executions the search finds the chunk a block came from. -/
theorem findOwner_eq {cfg : Cfg} {n : Nat} {s : State} (hi : Inv cfg n s) (h2 : Inv2 s) {b : Blk}
    (hb : b ∈ s.live) :
    (∃ k : Chunk, s.chunks[b.chunk]? = some k ∧ k.deleted = false) ∧
    findOwner s.chunks b.addr = some b.chunk := by
  obtain ⟨k, k1, k2, k3, k4⟩ := hi.hand b (hi.liveHand b hb)
  obtain ⟨g1, g2, g3, g4, g5⟩ := hi.geo _ k k1
  have hlen := h2.livePos b hb
  have hdel : k.deleted = false := by
    cases hd : k.deleted
    · rfl
    · exact absurd rfl (liveIn_zero.1 (h2.del _ k k1 hd).2.1 b hb)
  refine ⟨⟨k, k1, hdel⟩, ?_⟩
  have hown : k.owns b.addr = true := by
    simp only [Chunk.owns, Bool.and_eq_true, decide_eq_true_eq, BitVec.le_def, BitVec.lt_def]
    omega
  cases hf : findOwner s.chunks b.addr with
  | none =>
    have := findOwnerFrom_none (Nat.le_refl _) hf (getElem?_lt_length k1) k1 hdel
    rw [hown] at this; cases this
  | some c =>
    obtain ⟨l, l1, l2, l3⟩ := findOwnerFrom_some hf
    by_cases hc : c = b.chunk
    · rw [hc]
    · exfalso
      obtain ⟨f1, f2, f3, f4, f5⟩ := hi.geo _ l l1
      simp only [Chunk.owns, Bool.and_eq_true, decide_eq_true_eq, BitVec.le_def, BitVec.lt_def] at l3
      have uc : inUse s c := by
        rcases l2 with l2 | l2
        · exact .inl ⟨l, l1, l2⟩
        · exact .inr (.inl l2)
      have := hi.reg c b.chunk l k hc l1 k1 uc (.inl ⟨k, k1, hdel⟩)
      omega

theorem liveIn_erase {s : State} {b : Blk} (hb : b ∈ s.live) (c : Nat) :
    ((s.live.erase b).filter fun x => x.chunk == c).length + (if b.chunk = c then 1 else 0) =
      liveIn s c := by
  have hp := List.perm_cons_erase hb
  have := (hp.filter fun x => x.chunk == c).length_eq
  unfold liveIn
  rw [this, List.filter_cons]
  by_cases h : b.chunk = c
  · simp [h]
  · simp [h]

/-- The number of blocks in use of a chunk is bounded by its size. -/
theorem liveIn_le {cfg : Cfg} {n : Nat} {s : State} (hi : Inv cfg n s)
    (hpos : ∀ b ∈ s.live, 1 ≤ b.len.toNat) {c : Nat} {k : Chunk} (hk : s.chunks[c]? = some k) :
    liveIn s c ≤ usable cfg := by
  obtain ⟨g1, g2, _⟩ := hi.geo c k hk
  have := length_le_of_disj (s.live.filter fun b => b.chunk == c) k.lower.toNat k.upper.toNat
    (by
      refine List.Pairwise.imp_of_mem ?_ (hi.liveDisj.filter _)
      intro a b ha hb hab
      have h1 := (List.mem_filter.1 ha).2
      have h2 := (List.mem_filter.1 hb).2
      simp only [beq_iff_eq] at h1 h2
      exact hab (by omega))
    (by
      intro b hb
      obtain ⟨h1, h2⟩ := List.mem_filter.1 hb
      simp only [beq_iff_eq] at h2
      obtain ⟨l, l1, l2, l3, l4⟩ := hi.hand b (hi.liveHand b h1)
      rw [h2, hk] at l1
      cases l1
      exact ⟨l2, l4, hpos b h1⟩)
  unfold liveIn usable
  omega

theorem inv2_step {cfg : Cfg} {n : Nat} {s s' : State}
    (hcap : cfg.ctrl.toNat + cfg.header.toNat ≤ cfg.capacity.toNat) (husable : usable cfg < 2 ^ 16)
    (hi : Inv cfg n s) (h2 : Inv2 s) (hg : Guard s') (hgs : Guard s)
    (hs : Step cfg n (n * cfg.capacity.toNat) s s') : Inv2 s' := by
  have hi' := inv_step hcap hi hs
  have hset : ∀ {f : Nat → Pc} {u t : Nat} {q p : Pc}, setPc f u q t = p →
      (t = u ∧ q = p) ∨ (t ≠ u ∧ f t = p) := fun h => setPc_eq h
  cases hs with
  | @start t req ht hp hle =>
    refine ⟨?_, h2.livePos, h2.count, ?_, ?_⟩
    · intro u sz h
      rcases h with h | ⟨c, h⟩ | ⟨c, a, h⟩ | h <;> rcases hset h with ⟨_, e⟩ | ⟨_, e⟩
      · cases e
        have := hg.2 u
        rw [h] at this
        rcases Nat.eq_zero_or_pos (roundup req).toNat with h0 | h0
        · exact absurd (congrArg Pc.loop (BitVec.eq_of_toNat_eq h0)) this
        · exact h0
      · exact h2.pos u sz (.inl e)
      · cases e
      · exact h2.pos u sz (.inr (.inl ⟨c, e⟩))
      · cases e
      · exact h2.pos u sz (.inr (.inr (.inl ⟨c, a, e⟩)))
      · cases e
      · exact h2.pos u sz (.inr (.inr (.inr e)))
    · intro u c h
      rcases hset h with ⟨_, e⟩ | ⟨_, e⟩
      · cases e
      · exact h2.erasing u c e
    · intro c k hk hd
      obtain ⟨d1, d2, d3⟩ := h2.del c k hk hd
      refine ⟨d1, d2, ?_⟩
      intro u sz a h
      rcases hset h with ⟨_, e⟩ | ⟨_, e⟩
      · cases e
      · exact d3 u sz a e
  | reject => exact h2
  | @loadHead t z hp hne =>
    refine ⟨?_, h2.livePos, h2.count, ?_, ?_⟩
    · intro u sz h
      rcases h with h | ⟨c, h⟩ | ⟨c, a, h⟩ | h <;> rcases hset h with ⟨_, e⟩ | ⟨_, e⟩
      · cases e
      · exact h2.pos u sz (.inl e)
      · cases e; exact h2.pos t _ (.inl hp)
      · exact h2.pos u sz (.inr (.inl ⟨c, e⟩))
      · cases e
      · exact h2.pos u sz (.inr (.inr (.inl ⟨c, a, e⟩)))
      · cases e
      · exact h2.pos u sz (.inr (.inr (.inr e)))
    · intro u c h
      rcases hset h with ⟨_, e⟩ | ⟨_, e⟩
      · cases e
      · exact h2.erasing u c e
    · intro c k hk hd
      obtain ⟨d1, d2, d3⟩ := h2.del c k hk hd
      refine ⟨d1, d2, ?_⟩
      intro u sz a h
      rcases hset h with ⟨_, e⟩ | ⟨_, e⟩
      · cases e
      · exact d3 u sz a e
  | @noHead t z hp hne =>
    refine ⟨?_, h2.livePos, h2.count, ?_, ?_⟩
    · intro u sz h
      rcases h with h | ⟨c, h⟩ | ⟨c, a, h⟩ | h <;> rcases hset h with ⟨_, e⟩ | ⟨_, e⟩
      · cases e
      · exact h2.pos u sz (.inl e)
      · cases e
      · exact h2.pos u sz (.inr (.inl ⟨c, e⟩))
      · cases e
      · exact h2.pos u sz (.inr (.inr (.inl ⟨c, a, e⟩)))
      · cases e; exact h2.pos t _ (.inl hp)
      · exact h2.pos u sz (.inr (.inr (.inr e)))
    · intro u c h
      rcases hset h with ⟨_, e⟩ | ⟨_, e⟩
      · cases e
      · exact h2.erasing u c e
    · intro c k hk hd
      obtain ⟨d1, d2, d3⟩ := h2.del c k hk hd
      refine ⟨d1, d2, ?_⟩
      intro u sz a h
      rcases hset h with ⟨_, e⟩ | ⟨_, e⟩
      · cases e
      · exact d3 u sz a e
  | @fetchOk t z c k hp hk hle =>
    obtain ⟨w1, w2⟩ := noWrap hi hp hk
    have hz := h2.pos t z (.inr (.inl ⟨c, hp⟩))
    rw [BitVec.le_def, w2] at hle
    have hclt := getElem?_lt_length hk
    refine ⟨?_, h2.livePos, ?_, ?_, ?_⟩
    · intro u sz h
      rcases h with h | ⟨c, h⟩ | ⟨c, a, h⟩ | h <;> rcases hset h with ⟨_, e⟩ | ⟨_, e⟩
      · cases e
      · exact h2.pos u sz (.inl e)
      · cases e
      · exact h2.pos u sz (.inr (.inl ⟨c, e⟩))
      · cases e; exact hz
      · exact h2.pos u sz (.inr (.inr (.inl ⟨c, a, e⟩)))
      · cases e
      · exact h2.pos u sz (.inr (.inr (.inr e)))
    · intro i x h
      rcases getElem?_set_some h with ⟨rfl, rfl⟩ | ⟨_, h⟩
      · exact h2.count i k hk
      · exact h2.count i x h
    · intro u c h
      rcases hset h with ⟨_, e⟩ | ⟨_, e⟩
      · cases e
      · exact h2.erasing u c e
    · intro i x h hd
      rcases getElem?_set_some h with ⟨rfl, rfl⟩ | ⟨hne, h⟩
      · have := (h2.del i k hk hd).1
        exfalso; omega
      · obtain ⟨d1, d2, d3⟩ := h2.del i x h hd
        refine ⟨d1, d2, ?_⟩
        intro u sz a h
        rcases hset h with ⟨_, e⟩ | ⟨_, e⟩
        · cases e; exact hne rfl
        · exact d3 u sz a e
  | @fetchFail t z c k hp hk hnle =>
    obtain ⟨w1, w2⟩ := noWrap hi hp hk
    have hz := h2.pos t z (.inr (.inl ⟨c, hp⟩))
    refine ⟨?_, h2.livePos, ?_, ?_, ?_⟩
    · intro u sz h
      rcases h with h | ⟨c, h⟩ | ⟨c, a, h⟩ | h <;> rcases hset h with ⟨_, e⟩ | ⟨_, e⟩
      · cases e
      · exact h2.pos u sz (.inl e)
      · cases e
      · exact h2.pos u sz (.inr (.inl ⟨c, e⟩))
      · cases e
      · exact h2.pos u sz (.inr (.inr (.inl ⟨c, a, e⟩)))
      · cases e; exact hz
      · exact h2.pos u sz (.inr (.inr (.inr e)))
    · intro i x h
      rcases getElem?_set_some h with ⟨rfl, rfl⟩ | ⟨_, h⟩
      · exact h2.count i k hk
      · exact h2.count i x h
    · intro u c h
      rcases hset h with ⟨_, e⟩ | ⟨_, e⟩
      · cases e
      · exact h2.erasing u c e
    · intro i x h hd
      have hpc : ∀ u sz a, (∀ u sz a, s.pcs u ≠ .reserved sz i a) →
          setPc s.pcs t (.needNew z) u ≠ .reserved sz i a := by
        intro u sz a d3 h
        rcases hset h with ⟨_, e⟩ | ⟨_, e⟩
        · cases e
        · exact d3 u sz a e
      rcases getElem?_set_some h with ⟨rfl, rfl⟩ | ⟨hne, h⟩
      · obtain ⟨d1, d2, d3⟩ := h2.del i k hk hd
        refine ⟨?_, d2, fun u sz a => hpc u sz a d3⟩
        show (k.next - z).toNat ≤ k.lower.toNat
        omega
      · obtain ⟨d1, d2, d3⟩ := h2.del i x h hd
        exact ⟨d1, d2, fun u sz a => hpc u sz a d3⟩
  | @countUp t z c addr k hp hk =>
    have hz := h2.pos t z (.inr (.inr (.inl ⟨c, addr, hp⟩)))
    have hlp : ∀ b ∈ (⟨c, addr, z⟩ : Blk) :: s.live, 1 ≤ b.len.toNat := by
      intro b hb
      rcases List.mem_cons.1 hb with rfl | hb
      · exact hz
      · exact h2.livePos b hb
    have hle := liveIn_le hi' hlp (c := c) (k := { k with count := k.count + 1 })
      (List.getElem?_set_self (getElem?_lt_length hk))
    have hlive : ∀ i, liveIn { s with
          chunks := s.chunks.set c { k with count := k.count + 1 }
          pcs := setPc s.pcs t .idle
          live := ⟨c, addr, z⟩ :: s.live } i = liveIn s i + (if c = i then 1 else 0) := by
      intro i
      simp only [liveIn, List.filter_cons]
      by_cases h : c = i <;> simp [h]
    refine ⟨?_, hlp, ?_, ?_, ?_⟩
    · intro u sz h
      rcases h with h | ⟨c, h⟩ | ⟨c, a, h⟩ | h <;> rcases hset h with ⟨_, e⟩ | ⟨_, e⟩
      · cases e
      · exact h2.pos u sz (.inl e)
      · cases e
      · exact h2.pos u sz (.inr (.inl ⟨c, e⟩))
      · cases e
      · exact h2.pos u sz (.inr (.inr (.inl ⟨c, a, e⟩)))
      · cases e
      · exact h2.pos u sz (.inr (.inr (.inr e)))
    · intro i x h
      rw [hlive]
      rcases getElem?_set_some h with ⟨rfl, rfl⟩ | ⟨hne, h⟩
      · have h1 := h2.count i k hk
        have hl := hlive i
        rw [if_pos rfl] at hl ⊢
        rw [hl] at hle
        show (k.count + 1).toNat = _
        rw [BitVec.toNat_add, h1]
        have : (1 : BitVec 16).toNat = 1 := rfl
        rw [this]
        omega
      · rw [if_neg (fun e => hne e.symm)]
        exact h2.count i x h
    · intro u i h
      rw [hlive]
      rcases hset h with ⟨_, e⟩ | ⟨_, e⟩
      · cases e
      · have := h2.erasing u i e
        have hne : c ≠ i := by
          intro e2
          subst e2
          exact hgs.1 u t c z addr e hp
        rw [if_neg hne]; omega
    · intro i x h hd
      rw [hlive]
      have hpc : ∀ u sz a, (∀ u sz a, s.pcs u ≠ .reserved sz i a) →
          setPc s.pcs t .idle u ≠ .reserved sz i a := by
        intro u sz a d3 h
        rcases hset h with ⟨_, e⟩ | ⟨_, e⟩
        · cases e
        · exact d3 u sz a e
      rcases getElem?_set_some h with ⟨rfl, rfl⟩ | ⟨hne, h⟩
      · exact absurd hp ((h2.del i k hk hd).2.2 t z addr)
      · obtain ⟨d1, d2, d3⟩ := h2.del i x h hd
        rw [if_neg (fun e => hne e.symm)]
        exact ⟨d1, d2, fun u sz a => hpc u sz a d3⟩
  | @append t z base hp hf =>
    refine ⟨?_, h2.livePos, ?_, ?_, ?_⟩
    · intro u sz h
      rcases h with h | ⟨c, h⟩ | ⟨c, a, h⟩ | h <;> rcases hset h with ⟨_, e⟩ | ⟨_, e⟩
      · cases e; exact h2.pos t _ (.inr (.inr (.inr hp)))
      · exact h2.pos u sz (.inl e)
      · cases e
      · exact h2.pos u sz (.inr (.inl ⟨c, e⟩))
      · cases e
      · exact h2.pos u sz (.inr (.inr (.inl ⟨c, a, e⟩)))
      · cases e
      · exact h2.pos u sz (.inr (.inr (.inr e)))
    · intro i x h
      rcases getElem?_concat_some h with ⟨_, h⟩ | ⟨hlen, rfl⟩
      · exact h2.count i x h
      · have : liveIn s i = 0 := by
          rw [liveIn_zero]
          intro b hb e
          obtain ⟨k, h1, _⟩ := hi.hand b (hi.liveHand b hb)
          have := getElem?_lt_length h1
          omega
        exact this.symm
    · intro u c h
      rcases hset h with ⟨_, e⟩ | ⟨_, e⟩
      · cases e
      · exact h2.erasing u c e
    · intro i x h hd
      rcases getElem?_concat_some h with ⟨_, h⟩ | ⟨hlen, rfl⟩
      · obtain ⟨d1, d2, d3⟩ := h2.del i x h hd
        refine ⟨d1, d2, ?_⟩
        intro u sz a h
        rcases hset h with ⟨_, e⟩ | ⟨_, e⟩
        · cases e
        · exact d3 u sz a e
      · cases hd
  | @dealloc t b c k ht hp hb hfo hk hcnt =>
    have hown := (findOwner_eq hi h2 hb).2
    rw [hfo] at hown
    have hc : c = b.chunk := Option.some.inj hown
    subst hc
    have hlive : ∀ i, liveIn { s with
          chunks := s.chunks.set b.chunk { k with count := k.count - 1 }
          live := s.live.erase b } i + (if b.chunk = i then 1 else 0) = liveIn s i :=
      fun i => liveIn_erase hb i
    refine ⟨h2.pos, fun x hx => h2.livePos x (List.mem_of_mem_erase hx), ?_, ?_, ?_⟩
    · intro i x h
      have hl := hlive i
      rcases getElem?_set_some h with ⟨rfl, rfl⟩ | ⟨hne, h⟩
      · have h1 := h2.count _ k hk
        rw [if_pos rfl] at hl
        show (k.count - 1).toNat = _
        rw [BitVec.toNat_sub_of_le (by
          rw [BitVec.le_def]
          have : (1 : BitVec 16).toNat = 1 := rfl
          omega), h1]
        have : (1 : BitVec 16).toNat = 1 := rfl
        omega
      · rw [if_neg (fun e => hne e.symm)] at hl
        have := h2.count i x h
        omega
    · intro u i h
      have := h2.erasing u i h
      have := hlive i
      omega
    · intro i x h hd
      have hl := hlive i
      rcases getElem?_set_some h with ⟨rfl, rfl⟩ | ⟨hne, h⟩
      · obtain ⟨d1, d2, d3⟩ := h2.del _ k hk hd
        exact ⟨d1, by omega, d3⟩
      · obtain ⟨d1, d2, d3⟩ := h2.del i x h hd
        exact ⟨d1, by omega, d3⟩
  | @deallocLast t b c k ht hp hb hfo hk hcnt =>
    have hown := (findOwner_eq hi h2 hb).2
    rw [hfo] at hown
    have hc : c = b.chunk := Option.some.inj hown
    subst hc
    have hlive : ∀ i, liveIn { s with
          chunks := s.chunks.set b.chunk { k with count := k.count - 1 }
          pcs := setPc s.pcs t (.erasing b.chunk)
          live := s.live.erase b } i + (if b.chunk = i then 1 else 0) = liveIn s i :=
      fun i => liveIn_erase hb i
    have hone : (1 : BitVec 16).toNat = 1 := rfl
    have hpc : ∀ i u sz a, (∀ u sz a, s.pcs u ≠ .reserved sz i a) →
        setPc s.pcs t (.erasing b.chunk) u ≠ .reserved sz i a := by
      intro i u sz a d3 h
      rcases hset h with ⟨_, e⟩ | ⟨_, e⟩
      · cases e
      · exact d3 u sz a e
    refine ⟨?_, fun x hx => h2.livePos x (List.mem_of_mem_erase hx), ?_, ?_, ?_⟩
    · intro u sz h
      rcases h with h | ⟨c, h⟩ | ⟨c, a, h⟩ | h <;> rcases hset h with ⟨_, e⟩ | ⟨_, e⟩
      · cases e
      · exact h2.pos u sz (.inl e)
      · cases e
      · exact h2.pos u sz (.inr (.inl ⟨c, e⟩))
      · cases e
      · exact h2.pos u sz (.inr (.inr (.inl ⟨c, a, e⟩)))
      · cases e
      · exact h2.pos u sz (.inr (.inr (.inr e)))
    · intro i x h
      have hl := hlive i
      rcases getElem?_set_some h with ⟨rfl, rfl⟩ | ⟨hne, h⟩
      · have h1 := h2.count _ k hk
        rw [if_pos rfl] at hl
        show (k.count - 1).toNat = _
        rw [BitVec.toNat_sub_of_le (by rw [BitVec.le_def]; omega), h1]
        omega
      · rw [if_neg (fun e => hne e.symm)] at hl
        have := h2.count i x h
        omega
    · intro u i h
      have hl := hlive i
      rcases hset h with ⟨_, e⟩ | ⟨_, e⟩
      · cases e
        rw [if_pos rfl] at hl
        have h1 := h2.count _ k hk
        rw [hcnt] at h1
        omega
      · have := h2.erasing u i e
        omega
    · intro i x h hd
      have hl := hlive i
      rcases getElem?_set_some h with ⟨rfl, rfl⟩ | ⟨hne, h⟩
      · obtain ⟨d1, d2, d3⟩ := h2.del _ k hk hd
        exact ⟨d1, by omega, fun u sz a => hpc _ u sz a d3⟩
      · obtain ⟨d1, d2, d3⟩ := h2.del i x h hd
        exact ⟨d1, by omega, fun u sz a => hpc _ u sz a d3⟩
  | @deallocUnknown t b ht hp hb hfo =>
    have hown := (findOwner_eq hi h2 hb).2
    rw [hfo] at hown
    cases hown
  | @erase t c k hp hk =>
    refine ⟨?_, h2.livePos, ?_, ?_, ?_⟩
    · intro u sz h
      rcases h with h | ⟨c, h⟩ | ⟨c, a, h⟩ | h <;> rcases hset h with ⟨_, e⟩ | ⟨_, e⟩
      · cases e
      · exact h2.pos u sz (.inl e)
      · cases e
      · exact h2.pos u sz (.inr (.inl ⟨c, e⟩))
      · cases e
      · exact h2.pos u sz (.inr (.inr (.inl ⟨c, a, e⟩)))
      · cases e
      · exact h2.pos u sz (.inr (.inr (.inr e)))
    · intro i x h
      rcases getElem?_set_some h with ⟨rfl, rfl⟩ | ⟨_, h⟩
      · exact h2.count i k hk
      · exact h2.count i x h
    · intro u c h
      rcases hset h with ⟨_, e⟩ | ⟨_, e⟩
      · cases e
      · exact h2.erasing u c e
    · intro i x h hd
      have hpc : ∀ u sz a, (∀ u sz a, s.pcs u ≠ .reserved sz i a) →
          setPc s.pcs t .idle u ≠ .reserved sz i a := by
        intro u sz a d3 h
        rcases hset h with ⟨_, e⟩ | ⟨_, e⟩
        · cases e
        · exact d3 u sz a e
      rcases getElem?_set_some h with ⟨rfl, rfl⟩ | ⟨hne, h⟩
      · have hres : ∀ u sz a, s.pcs u ≠ .reserved sz i a := fun u sz a => hgs.1 t u i sz a hp
        refine ⟨?_, h2.erasing t i hp, fun u sz a => hpc u sz a hres⟩
        simp only [Bool.or_eq_true] at hd
        rcases hd with hd | hd
        · exact (h2.del i k hk hd).1
        · simp only [Chunk.full, decide_eq_true_eq, BitVec.le_def] at hd
          exact hd
      · obtain ⟨d1, d2, d3⟩ := h2.del i x h hd
        exact ⟨d1, d2, fun u sz a => hpc u sz a d3⟩

theorem guard_init : Guard State.init := ⟨by simp [State.init], by simp [State.init]⟩

theorem inv2_init : Inv2 State.init := by
  refine ⟨?_, ?_, ?_, ?_, ?_⟩ <;> simp [State.init]

theorem reachEx_inv2 {cfg : Cfg} {n : Nat} {s : State}
    (hcap : cfg.ctrl.toNat + cfg.header.toNat ≤ cfg.capacity.toNat) (husable : usable cfg < 2 ^ 16)
    (h : ReachEx cfg n (n * cfg.capacity.toNat) s) : Inv2 s ∧ Guard s := by
  induction h with
  | init => exact ⟨inv2_init, guard_init⟩
  | step h1 hs hg ih => exact ⟨inv2_step hcap husable (reach_inv hcap h1.reach) ih.1 hg ih.2 hs, hg⟩

/-- C35 (partial): in executions in which no thread is between the two atomic updates of an
allocation in a chunk while another one decides about the deletion of that chunk, the chunk of a block
in use is still part of the allocator, it is the one that is found when the block is given back, and
its counter is the number of its blocks in use. Missing: the excluded executions, for which
the claim is false (`C35_live_chunk_released_false`). -/
theorem C35_live_memory_kept_partial {cfg : Cfg} {n : Nat} {s : State}
    (hcap : cfg.ctrl.toNat + cfg.header.toNat ≤ cfg.capacity.toNat) (husable : usable cfg < 2 ^ 16)
    (h : ReachEx cfg n (n * cfg.capacity.toNat) s) :
    (∀ b ∈ s.live, (∃ k : Chunk, s.chunks[b.chunk]? = some k ∧ k.deleted = false) ∧
      findOwner s.chunks b.addr = some b.chunk) ∧
    ∀ (c : Nat) (k : Chunk), s.chunks[c]? = some k →
      k.count.toNat = (s.live.filter fun b => b.chunk == c).length := by
  have hi := reach_inv hcap h.reach
  have h2 := (reachEx_inv2 hcap husable h).1
  exact ⟨fun b hb => findOwner_eq hi h2 hb, h2.count⟩

end RG.Alloc
