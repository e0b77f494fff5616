import Verif.Props.Alloc
/-
Witnesses against C35 and C56, the provable part of C56, and C36.
-/
namespace RG.Alloc

/-! ### C35: the race -/

/-- small chunks, to keep the witness readable: 48 usable bytes -/
def smallCfg : Cfg := ⟨64, 8, 8⟩

theorem freshRegion_nil (cfg : Cfg) (lb : Nat) (s : State) (base : Size) (h : s.chunks = [])
    (h1 : lb ≤ base.toNat) (h2 : base.toNat + cfg.capacity.toNat + cfg.ctrl.toNat < 2 ^ 64) :
    freshRegion cfg lb s base := ⟨h1, h2, by intro i k hk; simp [h] at hk⟩

theorem freshRegion_one (cfg : Cfg) (lb : Nat) (s : State) (base : Size) (c : Chunk)
    (h : s.chunks = [c])
    (h1 : lb ≤ base.toNat) (h2 : base.toNat + cfg.capacity.toNat + cfg.ctrl.toNat < 2 ^ 64)
    (h3 : c.base.toNat + cfg.capacity.toNat + cfg.ctrl.toNat ≤ base.toNat) :
    freshRegion cfg lb s base := by
  refine ⟨h1, h2, ?_⟩
  intro i k hk _
  rw [h] at hk
  have hi : i < 1 := by simpa using getElem?_lt_length hk
  obtain rfl : i = 0 := by omega
  cases hk
  exact .inr h3

/-- C35 is false without restriction: two threads, one of which is between reserving its block and
counting it while the other gives back the last counted block of the chunk. The result is a block in
use whose chunk is no longer part of the allocator (nor found when the block is given back). -/
theorem C35_live_chunk_released_false :
    ∃ s, Reach smallCfg 2 (2 * smallCfg.capacity.toNat) s ∧
      ∃ b ∈ s.live, (∃ k : Chunk, s.chunks[b.chunk]? = some k ∧ k.deleted = true) ∧
        ¬ inUse s b.chunk ∧ findOwner s.chunks b.addr = none := by
  refine ⟨_, .step (.step (.step (.step (.step (.step (.step (.step (.step (.step (.step (.step
    (.step (.step (.step (.step .init
    -- thread 0 allocates 16 bytes in the first chunk
    (.start (t := 0) (req := 16) (by decide) rfl (by decide)))
    (.noHead (t := 0) (sz := 16) (by decide) rfl))
    (.append (t := 0) (sz := 16) (base := 1000) (by decide)
      (freshRegion_nil _ _ _ _ rfl (by decide) (by decide))))
    (.loadHead (t := 0) (sz := 16) (by decide) (by decide)))
    (.fetchOk (t := 0) (sz := 16) (c := 0) (by decide) rfl (by decide)))
    (.countUp (t := 0) (sz := 16) (c := 0) (addr := 1048) (by decide) rfl))
    -- thread 1 reserves the remaining 32 bytes, without counting them yet
    (.start (t := 1) (req := 32) (by decide) (by decide) (by decide)))
    (.loadHead (t := 1) (sz := 32) (by decide) (by decide)))
    (.fetchOk (t := 1) (sz := 32) (c := 0) (by decide) rfl (by decide)))
    -- thread 0 gives its block back, the chunk is full and gets deleted
    (.deallocLast (t := 0) (b := ⟨0, 1048, 16⟩) (c := 0) (by decide) (by decide) (by decide)
      (by decide) rfl (by decide)))
    (.erase (t := 0) (c := 0) (by decide) rfl))
    -- thread 1 returns with its block
    (.countUp (t := 1) (sz := 32) (c := 0) (addr := 1016) (by decide) rfl))
    -- thread 0 allocates again, in a new chunk
    (.start (t := 0) (req := 16) (by decide) (by decide) (by decide)))
    (.loadHead (t := 0) (sz := 16) (by decide) (by decide)))
    (.fetchFail (t := 0) (sz := 16) (c := 0) (by decide) rfl (by decide)))
    (.append (t := 0) (sz := 16) (base := 2000) (by decide)
      (freshRegion_one _ _ _ _ _ rfl (by decide) (by decide) (by decide))),
    ⟨0, 1016, 32⟩, by decide, ⟨_, rfl, by decide⟩, ?_, by decide⟩
  rintro (⟨k, h1, h2⟩ | h | ⟨t, h⟩)
  · cases h1
    exact absurd h2 (by decide)
  · exact absurd h (by decide)
  · have hpc : ∀ t, ∀ p, setPc (setPc (setPc (setPc (setPc (setPc (setPc (setPc (setPc (setPc (setPc (setPc (setPc
        (setPc (setPc (setPc State.init.pcs 0 (.loop 16)) 0 (.needNew 16)) 0 (.loop 16)) 0 (.chosen 16 0))
        0 (.reserved 16 0 1048)) 0 .idle) 1 (.loop 32)) 1 (.chosen 32 0)) 1 (.reserved 32 0 1016))
        0 (.erasing 0)) 0 .idle) 1 .idle) 0 (.loop 16)) 0 (.chosen 16 0)) 0 (.needNew 16)) 0 (.loop 16) t = p →
        p = .idle ∨ p = .loop 16 := by
      intro t p h
      by_cases h0 : t = 0
      · subst h0; exact .inr h.symm
      · by_cases h1 : t = 1
        · subst h1; exact .inl h.symm
        · left
          simp [setPc, h0, h1, State.init] at h
          exact h.symm
    rcases h with ⟨z, h⟩ | ⟨z, a, h⟩ | h
    · rcases hpc t _ h with h | h <;> cases h
    · rcases hpc t _ h with h | h <;> cases h
    · rcases hpc t _ h with h | h <;> cases h

/-- The hypotheses of `C35_live_memory_kept_partial` are met by an execution in which a block is
allocated. -/
example : ∃ s, ReachEx smallCfg 1 (1 * smallCfg.capacity.toNat) s ∧ s.live = [⟨0, 1048, 16⟩] ∧
    smallCfg.ctrl.toNat + smallCfg.header.toNat ≤ smallCfg.capacity.toNat ∧
    usable smallCfg < 2 ^ 16 := by
  have hg : ∀ p : Pc, (∀ c, p ≠ .erasing c) → p ≠ .loop 0 → ∀ (s : State) , s.pcs = setPc State.init.pcs 0 p → Guard s := by
    intro p hp hp0 s hs
    constructor
    · intro t u c sz a h
      rw [hs] at h
      rcases setPc_eq h with ⟨_, e⟩ | ⟨_, e⟩
      · exact absurd e (hp c)
      · cases e
    · intro t h
      rw [hs] at h
      rcases setPc_eq h with ⟨_, e⟩ | ⟨_, e⟩
      · exact hp0 e
      · cases e
  have hcol : ∀ (f : Nat → Pc) (p q : Pc), setPc (setPc f 0 p) 0 q = setPc f 0 q := by
    intro f p q
    funext x
    simp only [setPc]
    split <;> rfl
  refine ⟨_, .step (.step (.step (.step (.step (.step .init
    (.start (t := 0) (req := 16) (by decide) rfl (by decide)) (hg (.loop 16) (by simp) (by decide) _ rfl))
    (.noHead (t := 0) (sz := 16) (by decide) rfl) (hg (.needNew 16) (by simp) (by simp) _ (hcol _ _ _)))
    (.append (t := 0) (sz := 16) (base := 1000) (by decide)
      (freshRegion_nil _ _ _ _ rfl (by decide) (by decide)))
      (hg (.loop 16) (by simp) (by decide) _ (by simp only [hcol])))
    (.loadHead (t := 0) (sz := 16) (by decide) (by decide))
      (hg (.chosen 16 0) (by simp) (by simp) _ (by simp only [hcol]; rfl)))
    (.fetchOk (t := 0) (sz := 16) (c := 0) (by decide) rfl (by decide))
      (hg (.reserved 16 0 1048) (by simp) (by simp) _ (by simp only [hcol]; rfl)))
    (.countUp (t := 0) (sz := 16) (c := 0) (addr := 1048) (by decide) rfl)
      (hg .idle (by simp) (by simp) _ (by simp only [hcol])), rfl, by decide, by decide⟩

/-! ### C56: memory that is not needed is given back -/

/-- Executions as in C35 in which, in addition, the last block of a chunk is only given back when the
chunk is full. -/
def Guard3 (s : State) : Prop :=
  Guard s ∧ ∀ (t c : Nat) (k : Chunk), s.pcs t = .erasing c → s.chunks[c]? = some k → k.full = true

inductive ReachEx3 (cfg : Cfg) (n lowBound : Nat) : State → Prop
  | init : ReachEx3 cfg n lowBound State.init
  | step {s s'} : ReachEx3 cfg n lowBound s → Step cfg n lowBound s s' → Guard3 s' →
      ReachEx3 cfg n lowBound s'

theorem ReachEx3.reachEx {cfg : Cfg} {n lowBound : Nat} {s : State}
    (h : ReachEx3 cfg n lowBound s) : ReachEx cfg n lowBound s := by
  induction h with
  | init => exact .init
  | step _ h2 h3 ih => exact .step ih h2 h3.1

/-- Some thread is working on chunk `c`. -/
def Busy (s : State) (c : Nat) : Prop :=
  (∃ t sz a, s.pcs t = .reserved sz c a) ∨ ∃ t, s.pcs t = .erasing c

theorem busy_setPc {s : State} {t c : Nat} {q : Pc} {f : Nat → Pc} (hf : f = s.pcs)
    (h : Busy s c) (h1 : ∀ sz a, s.pcs t ≠ .reserved sz c a) (h2 : s.pcs t ≠ .erasing c)
    {ch : List Chunk} {l hd : List Blk} : Busy ⟨ch, setPc f t q, l, hd⟩ c := by
  subst hf
  rcases h with ⟨u, sz, a, h⟩ | ⟨u, h⟩
  · refine .inl ⟨u, sz, a, ?_⟩
    have : u ≠ t := by intro e; subst e; exact h1 _ _ h
    show setPc s.pcs t q u = _
    rw [setPc_ne _ _ this]; exact h
  · refine .inr ⟨u, ?_⟩
    have : u ≠ t := by intro e; subst e; exact h2 h
    show setPc s.pcs t q u = _
    rw [setPc_ne _ _ this]; exact h

/-- C56 (partial): in such executions a chunk that has handed out blocks, none of which is in use, and
on which no thread is working, is given back. Missing: the excluded executions, see
`C56_unbounded_leak_false`. -/
theorem C56_released_partial {cfg : Cfg} {n : Nat} {s : State}
    (hcap : cfg.ctrl.toNat + cfg.header.toNat ≤ cfg.capacity.toNat) (husable : usable cfg < 2 ^ 16)
    (h : ReachEx3 cfg n (n * cfg.capacity.toNat) s) :
    ∀ (c : Nat) (k : Chunk), s.chunks[c]? = some k → (∃ b ∈ s.handed, b.chunk = c) →
      (∀ b ∈ s.live, b.chunk ≠ c) → ¬ Busy s c → k.deleted = true := by
  induction h with
  | init => intro c k hk; simp [State.init] at hk
  | @step s s' h1 hs hg3 ih =>
    have hr := h1.reachEx
    have hi := reach_inv hcap hr.reach
    obtain ⟨h2, hgs⟩ := reachEx_inv2 hcap husable hr
    have hg3s : Guard3 s := by
      cases h1 with
      | init => exact ⟨guard_init, by intro t c k h; simp [State.init] at h⟩
      | step _ _ h => exact h
    intro c k hk hh hl hb
    cases hs with
    | @start t req ht hp hle =>
      exact ih c k hk hh hl fun hB => hb (busy_setPc rfl hB (by rw [hp]; simp) (by rw [hp]; simp))
    | reject => exact ih c k hk hh hl hb
    | @loadHead t z hp hne =>
      exact ih c k hk hh hl fun hB => hb (busy_setPc rfl hB (by rw [hp]; simp) (by rw [hp]; simp))
    | @noHead t z hp hne =>
      exact ih c k hk hh hl fun hB => hb (busy_setPc rfl hB (by rw [hp]; simp) (by rw [hp]; simp))
    | @fetchOk t z c0 k0 hp hk0 hle =>
      by_cases hc : c = c0
      · subst hc
        exact absurd (.inl ⟨t, z, _, setPc_same _ _ _⟩) hb
      · have hk' : s.chunks[c]? = some k := by
          rcases getElem?_set_some hk with ⟨e, _⟩ | ⟨_, h⟩
          · exact absurd e hc
          · exact h
        obtain ⟨b, hbm, hbc⟩ := hh
        have hh' : ∃ b ∈ s.handed, b.chunk = c := by
          rcases List.mem_cons.1 hbm with rfl | hbm
          · exact absurd hbc.symm hc
          · exact ⟨b, hbm, hbc⟩
        exact ih c k hk' hh' hl fun hB =>
          hb (busy_setPc rfl hB (by rw [hp]; simp) (by rw [hp]; simp))
    | @fetchFail t z c0 k0 hp hk0 hle =>
      have hb' : ¬ Busy s c := fun hB =>
          hb (busy_setPc rfl hB (by rw [hp]; simp) (by rw [hp]; simp))
      rcases getElem?_set_some hk with ⟨rfl, rfl⟩ | ⟨_, h⟩
      · exact ih c k0 hk0 hh hl hb'
      · exact ih c k h hh hl hb'
    | @countUp t z c0 a k0 hp hk0 =>
      have hc : c0 ≠ c := hl _ List.mem_cons_self
      have hb' : ¬ Busy s c := fun hB =>
          hb (busy_setPc rfl hB (by rw [hp]; intro sz a e; cases e; exact hc rfl) (by rw [hp]; simp))
      rcases getElem?_set_some hk with ⟨e, _⟩ | ⟨_, h⟩
      · exact absurd e.symm hc
      · exact ih c k h hh (fun b hbm => hl b (List.mem_cons_of_mem _ hbm)) hb'
    | @append t z base hp hf =>
      have hb' : ¬ Busy s c := fun hB =>
          hb (busy_setPc rfl hB (by rw [hp]; simp) (by rw [hp]; simp))
      rcases getElem?_concat_some hk with ⟨_, h⟩ | ⟨hlen, rfl⟩
      · exact ih c k h hh hl hb'
      · obtain ⟨b, hbm, hbc⟩ := hh
        obtain ⟨k1, e1, _⟩ := hi.hand b hbm
        have := getElem?_lt_length e1
        omega
    | @dealloc t b c0 k0 ht hp hbm hfo hk0 hcnt =>
      have hown := (findOwner_eq hi h2 hbm).2
      rw [hfo] at hown
      have hc0 : c0 = b.chunk := Option.some.inj hown
      subst hc0
      have hle := liveIn_erase hbm c
      have hz : ((s.live.erase b).filter fun x => x.chunk == c).length = 0 := by
        simp only [List.length_eq_zero_iff, List.filter_eq_nil_iff, beq_iff_eq]
        exact hl
      by_cases hc : b.chunk = c
      · rw [if_pos hc, hz] at hle
        subst hc
        have := h2.count _ k0 hk0
        rw [← hle] at this
        exact absurd (BitVec.eq_of_toNat_eq this) hcnt
      · have hl' : ∀ x ∈ s.live, x.chunk ≠ c := by
          intro x hx e
          rw [if_neg hc, hz] at hle
          exact liveIn_zero.1 hle.symm x hx e
        rcases getElem?_set_some hk with ⟨e, _⟩ | ⟨_, h⟩
        · exact absurd e.symm hc
        · exact ih c k h hh hl' hb
    | @deallocLast t b c0 k0 ht hp hbm hfo hk0 hcnt =>
      have hown := (findOwner_eq hi h2 hbm).2
      rw [hfo] at hown
      have hc0 : c0 = b.chunk := Option.some.inj hown
      subst hc0
      by_cases hc : b.chunk = c
      · subst hc
        exact absurd (.inr ⟨t, setPc_same _ _ _⟩) hb
      · have hle := liveIn_erase hbm c
        have hz : ((s.live.erase b).filter fun x => x.chunk == c).length = 0 := by
          simp only [List.length_eq_zero_iff, List.filter_eq_nil_iff, beq_iff_eq]
          exact hl
        have hl' : ∀ x ∈ s.live, x.chunk ≠ c := by
          intro x hx e
          rw [if_neg hc, hz] at hle
          exact liveIn_zero.1 hle.symm x hx e
        have hb' : ¬ Busy s c := fun hB =>
          hb (busy_setPc rfl hB (by rw [hp]; simp) (by rw [hp]; simp))
        rcases getElem?_set_some hk with ⟨e, _⟩ | ⟨_, h⟩
        · exact absurd e.symm hc
        · exact ih c k h hh hl' hb'
    | @deallocUnknown t b ht hp hbm hfo =>
      have hown := (findOwner_eq hi h2 hbm).2
      rw [hfo] at hown
      cases hown
    | @erase t c0 k0 hp hk0 =>
      rcases getElem?_set_some hk with ⟨rfl, rfl⟩ | ⟨hne, h⟩
      · have := hg3s.2 t c k0 hp hk0
        show (k0.deleted || k0.full) = true
        rw [this]; simp
      · have hb' : ¬ Busy s c := fun hB =>
          hb (busy_setPc rfl hB (by rw [hp]; simp) (by rw [hp]; intro e; cases e; exact hne rfl))
        exact ih c k h hh hl hb'

/-- The hypotheses of `C56_released_partial` are met by an execution in which a chunk is used up by
one block, which is then given back. -/
example : ∃ s, ReachEx3 ⟨48, 8, 8⟩ 1 (1 * (48 : Size).toNat) s ∧ s.handed = [⟨0, 1016, 32⟩] ∧
    s.live = [] ∧ s.chunks.length = 1 ∧ (∀ t, s.pcs t = .idle) := by
  have hg : ∀ p : Pc, p ≠ .loop 0 → ∀ (s : State), s.pcs = setPc State.init.pcs 0 p →
      ((∀ c, p ≠ .erasing c) ∨ ∀ (i : Nat) (k : Chunk), s.chunks[i]? = some k → k.full = true) →
      Guard3 s := by
    intro p hp0 s hs hp
    refine ⟨⟨?_, ?_⟩, ?_⟩
    · intro t u c sz a h h'
      rw [hs] at h h'
      rcases setPc_eq h with ⟨_, e⟩ | ⟨_, e⟩
      · rcases setPc_eq h' with ⟨_, e'⟩ | ⟨_, e'⟩
        · rw [e] at e'; cases e'
        · cases e'
      · cases e
    · intro t h
      rw [hs] at h
      rcases setPc_eq h with ⟨_, e⟩ | ⟨_, e⟩
      · exact hp0 e
      · cases e
    · intro t c k h hk
      rw [hs] at h
      rcases setPc_eq h with ⟨_, e⟩ | ⟨_, e⟩
      · rcases hp with hp | hp
        · exact absurd e (hp c)
        · exact hp c k hk
      · cases e
  have hcol : ∀ (f : Nat → Pc) (p q : Pc), setPc (setPc f 0 p) 0 q = setPc f 0 q := by
    intro f p q
    funext x
    simp only [setPc]
    split <;> rfl
  refine ⟨_, .step (.step (.step (.step (.step (.step (.step (.step .init
    (.start (t := 0) (req := 32) (by decide) rfl (by decide))
      (hg (.loop 32) (by decide) _ rfl (.inl (by simp))))
    (.noHead (t := 0) (sz := 32) (by decide) rfl)
      (hg (.needNew 32) (by simp) _ (hcol _ _ _) (.inl (by simp))))
    (.append (t := 0) (sz := 32) (base := 1000) (by decide)
      (freshRegion_nil _ _ _ _ rfl (by decide) (by decide)))
      (hg (.loop 32) (by decide) _ (by simp only [hcol]) (.inl (by simp))))
    (.loadHead (t := 0) (sz := 32) (by decide) (by decide))
      (hg (.chosen 32 0) (by simp) _ (by simp only [hcol]; rfl) (.inl (by simp))))
    (.fetchOk (t := 0) (sz := 32) (c := 0) (by decide) rfl (by decide))
      (hg (.reserved 32 0 1016) (by simp) _ (by simp only [hcol]; rfl) (.inl (by simp))))
    (.countUp (t := 0) (sz := 32) (c := 0) (addr := 1016) (by decide) rfl)
      (hg .idle (by simp) _ (by simp only [hcol]) (.inl (by simp))))
    (.deallocLast (t := 0) (b := ⟨0, 1016, 32⟩) (c := 0) (by decide) (by decide) (by decide)
      (by decide) rfl (by decide))
      (hg (.erasing 0) (by simp) _ (by simp only [hcol]) (.inr (by
        intro i k hk
        have hi : i < 1 := by simpa [State.init] using getElem?_lt_length hk
        obtain rfl : i = 0 := by omega
        cases hk
        decide))))
    (.erase (t := 0) (c := 0) (by decide) rfl)
      (hg .idle (by simp) _ (by simp only [hcol]) (.inl (by simp))), rfl, by decide, rfl, ?_⟩
  intro t
  dsimp only
  simp only [hcol]
  by_cases ht : t = 0
  · subst ht; rfl
  · simp [setPc, ht, State.init]

/-- One round of the leak: all threads idle, no block in use, the head chunk has 16 bytes left. -/
structure LeakSt (k : Nat) (s : State) : Prop where
  reach : Reach smallCfg 1 64 s
  live : s.live = []
  idle : ∀ t, s.pcs t = .idle
  len : s.chunks.length = k + 1
  alive : ∀ (i : Nat) (c : Chunk), s.chunks[i]? = some c → c.deleted = false
  bases : ∀ (i : Nat) (c : Chunk), s.chunks[i]? = some c → c.base.toNat = 4096 * (i + 1)
  head : ∀ c : Chunk, s.chunks[k]? = some c → c.lower.toNat = c.base.toNat + 16 ∧
    c.next.toNat = c.base.toNat + 32
  full : ∀ (i : Nat) (c : Chunk), s.chunks[i]? = some c → i < k → c.full = true

theorem ofNat_toNat {x : Nat} (h : x < 2 ^ 64) : (BitVec.ofNat 64 x : Size).toNat = x := by
  rw [BitVec.toNat_ofNat, Nat.mod_eq_of_lt h]

theorem small_chunk (base : Size) (h : base.toNat + 64 + 8 < 2 ^ 64) :
    (Chunk.mk' smallCfg base).lower.toNat = base.toNat + 16 ∧
    (Chunk.mk' smallCfg base).upper.toNat = base.toNat + 64 ∧
    (Chunk.mk' smallCfg base).next.toNat = base.toNat + 64 := by
  obtain ⟨h1, h2, _⟩ := C31_bump_chunk_layout smallCfg base (by decide) h
  have h3 : (Chunk.mk' smallCfg base).next.toNat = (Chunk.mk' smallCfg base).upper.toNat := rfl
  have e1 : smallCfg.ctrl.toNat = 8 := rfl
  have e2 : smallCfg.header.toNat = 8 := rfl
  have e3 : smallCfg.capacity.toNat = 64 := rfl
  rw [h3]
  omega

/-- From a thread that is about to look at a fresh head chunk to the end of a round. -/
theorem leak_tail {k : Nat} {s : State} {base : Size} (hbase : base.toNat = 4096 * (k + 1))
    (hk : 4096 * (k + 1) < 2 ^ 63)
    (hr : Reach smallCfg 1 64 s) (hlive : s.live = []) (hpc : s.pcs 0 = .loop 32)
    (hidle : ∀ t, t ≠ 0 → s.pcs t = .idle)
    (hlen : s.chunks.length = k + 1)
    (hhead : s.chunks[k]? = some (Chunk.mk' smallCfg base))
    (halive : ∀ (i : Nat) (c : Chunk), s.chunks[i]? = some c → c.deleted = false)
    (hbases : ∀ (i : Nat) (c : Chunk), s.chunks[i]? = some c → c.base.toNat = 4096 * (i + 1))
    (hfull : ∀ (i : Nat) (c : Chunk), s.chunks[i]? = some c → i < k → c.full = true) :
    ∃ s', LeakSt k s' := by
  obtain ⟨b1, b2, b3⟩ := small_chunk base (by omega)
  have h32 : (32 : Size).toNat = 32 := rfl
  have hsub : ((Chunk.mk' smallCfg base).next - 32).toNat = base.toNat + 32 := by
    rw [BitVec.toNat_sub_of_le (by rw [BitVec.le_def]; omega)]
    omega
  have hne : s.chunks ≠ [] := by intro e; rw [e] at hlen; simp at hlen
  have hklt : k < s.chunks.length := by omega
  -- load head
  have r1 := hr.step (.loadHead hpc hne)
  rw [show s.chunks.length - 1 = k by omega] at r1
  -- reserve
  have r2 := r1.step (.fetchOk (t := 0) (sz := 32) (c := k) (by simp [setPc]) hhead
    (by rw [BitVec.le_def, hsub]; omega))
  -- count
  have r3 := r2.step (.countUp (t := 0) (sz := 32) (c := k)
    (addr := (Chunk.mk' smallCfg base).next - 32) (by simp [setPc])
    (List.getElem?_set_self hklt))
  -- give back
  have r4 := r3.step (.deallocLast (t := 0) (b := ⟨k, (Chunk.mk' smallCfg base).next - 32, 32⟩)
    (c := k) (by omega) (by simp [setPc]) List.mem_cons_self
    (by
      simp only [findOwner, List.length_set, hlen, findOwnerFrom]
      rw [List.getElem?_set_self (by simpa using hklt)]
      simp only [Bool.or_true, beq_self_eq_true, Bool.true_and, Chunk.owns, Chunk.fetchSub,
        BitVec.le_def, BitVec.lt_def, hsub]
      rw [if_pos]
      simp only [Bool.and_eq_true, decide_eq_true_eq]
      omega)
    (List.getElem?_set_self (by simpa using hklt)) rfl)
  have r5 := r4.step (.erase (t := 0) (c := k) (by simp [setPc])
    (List.getElem?_set_self (by simpa using hklt)))
  refine ⟨_, r5, ?_, ?_, ?_, ?_, ?_, ?_, ?_⟩
  · simp [hlive]
  · intro t
    dsimp only
    by_cases ht : t = 0
    · subst ht; exact setPc_same _ _ _
    · simp only [setPc, if_neg ht]; exact hidle t ht
  · simp [hlen]
  · intro i c h
    simp only [List.set_set] at h
    rcases getElem?_set_some h with ⟨rfl, rfl⟩ | ⟨_, h⟩
    · simp only [Chunk.full, Chunk.fetchSub, BitVec.le_def, hsub, Bool.or_eq_false_iff,
        decide_eq_false_iff_not]
      refine ⟨rfl, ?_⟩
      show ¬ base.toNat + 32 ≤ (Chunk.mk' smallCfg base).lower.toNat
      omega
    · exact halive i c h
  · intro i c h
    simp only [List.set_set] at h
    rcases getElem?_set_some h with ⟨rfl, rfl⟩ | ⟨_, h⟩
    · exact hbase
    · exact hbases i c h
  · intro c h
    simp only [List.set_set] at h
    rcases getElem?_set_some h with ⟨_, rfl⟩ | ⟨hne, _⟩
    · exact ⟨b1, hsub⟩
    · exact absurd rfl hne
  · intro i c h hik
    simp only [List.set_set] at h
    rcases getElem?_set_some h with ⟨rfl, rfl⟩ | ⟨_, h⟩
    · omega
    · exact hfull i c h hik

theorem leak (k : Nat) (hk : 4096 * (k + 1) < 2 ^ 63) : ∃ s, LeakSt k s := by
  induction k with
  | zero =>
    have r1 : Reach smallCfg 1 64 _ := .step .init
      (.start (t := 0) (req := 32) (by decide) rfl (by decide))
    rw [show roundup 32 = 32 by decide] at r1
    have r2 := r1.step (.noHead (t := 0) (sz := 32) (by decide) rfl)
    have r3 := r2.step (.append (t := 0) (sz := 32) (base := 4096) (by decide)
      (freshRegion_nil _ _ _ _ rfl (by decide) (by decide)))
    refine leak_tail (base := 4096) rfl hk r3 rfl (by simp [setPc]) ?_ rfl rfl ?_ ?_ ?_
    · intro t ht
      simp [setPc, ht, State.init]
    · intro i c h
      have hi := getElem?_lt_length h
      simp only [State.init, List.nil_append, List.length_singleton] at hi
      obtain rfl : i = 0 := by omega
      cases h; rfl
    · intro i c h
      have hi := getElem?_lt_length h
      simp only [State.init, List.nil_append, List.length_singleton] at hi
      obtain rfl : i = 0 := by omega
      cases h; rfl
    · intro i c _ h; omega
  | succ k ih =>
    obtain ⟨s, hs⟩ := ih (by omega)
    have hklt : k < s.chunks.length := by have := hs.len; omega
    obtain ⟨c, hc⟩ : ∃ c, s.chunks[k]? = some c := ⟨_, List.getElem?_eq_getElem hklt⟩
    obtain ⟨n1, n2⟩ := hs.head c hc
    have n3 := hs.bases k c hc
    have h32 : (32 : Size).toNat = 32 := rfl
    have hsub : (c.next - 32).toNat = c.base.toNat := by
      rw [BitVec.toNat_sub_of_le (by rw [BitVec.le_def]; omega)]
      omega
    have hne : s.chunks ≠ [] := by intro e; rw [e] at hklt; simp at hklt
    have hb : (BitVec.ofNat 64 (4096 * (k + 1 + 1)) : Size).toNat = 4096 * (k + 1 + 1) :=
      ofNat_toNat (by omega)
    have r1 := hs.reach.step (.start (t := 0) (req := 32) (by decide) (hs.idle 0) (by decide))
    rw [show roundup 32 = 32 by decide] at r1
    have r2 := r1.step (.loadHead (t := 0) (sz := 32) (by simp [setPc]) hne)
    rw [show s.chunks.length - 1 = k by have := hs.len; omega] at r2
    have r3 := r2.step (.fetchFail (t := 0) (sz := 32) (c := k) (by simp [setPc]) hc
      (by rw [BitVec.le_def, hsub]; omega))
    have e1 : smallCfg.ctrl.toNat = 8 := rfl
    have e3 : smallCfg.capacity.toNat = 64 := rfl
    have hbases : ∀ (i : Nat) (x : Chunk), (s.chunks.set k (c.fetchSub 32))[i]? = some x →
        x.base.toNat = 4096 * (i + 1) := by
      intro i x h
      rcases getElem?_set_some h with ⟨rfl, rfl⟩ | ⟨_, h⟩
      · exact n3
      · exact hs.bases i x h
    have r4 := r3.step (.append (t := 0) (sz := 32)
      (base := BitVec.ofNat 64 (4096 * (k + 1 + 1))) (by simp [setPc])
      (by
        refine ⟨by omega, by omega, ?_⟩
        intro i x h _
        have := hbases i x h
        have hlt := getElem?_lt_length h
        simp only [List.length_set, hs.len] at hlt
        omega))
    refine leak_tail hb hk r4 hs.live (by simp [setPc]) ?_ ?_ ?_ ?_ ?_ ?_
    · intro t ht
      simp only [setPc, if_neg ht]; exact hs.idle t
    · simp [hs.len]
    · simp [hs.len]
    · intro i x h
      rcases getElem?_concat_some h with ⟨_, h⟩ | ⟨_, rfl⟩
      · rcases getElem?_set_some h with ⟨rfl, rfl⟩ | ⟨_, h⟩
        · exact hs.alive i c hc
        · exact hs.alive i x h
      · rfl
    · intro i x h
      rcases getElem?_concat_some h with ⟨_, h⟩ | ⟨hl, rfl⟩
      · exact hbases i x h
      · simp only [List.length_set, hs.len] at hl
        subst hl
        exact hb
    · intro i x h hik
      rcases getElem?_concat_some h with ⟨_, h⟩ | ⟨hl, rfl⟩
      · rcases getElem?_set_some h with ⟨rfl, rfl⟩ | ⟨hne, h⟩
        · simp only [Chunk.full, Chunk.fetchSub, decide_eq_true_eq, BitVec.le_def, hsub]
          omega
        · exact hs.full i x h (by omega)
      · simp only [List.length_set, hs.len] at hl
        omega

/-- C56 is false without restriction: one thread that repeatedly takes and gives back a block makes
the allocator hold any number `k` of exhausted chunks, with no block in use. -/
theorem C56_unbounded_leak_false (k : Nat) (hk : 4096 * (k + 1) < 2 ^ 63) :
    ∃ s, Reach smallCfg 1 (1 * smallCfg.capacity.toNat) s ∧ s.live = [] ∧ (∀ t, s.pcs t = .idle) ∧
      s.chunks.length = k + 1 ∧
      ∀ (i : Nat) (c : Chunk), s.chunks[i]? = some c →
        c.deleted = false ∧ (i < k → c.full = true) := by
  obtain ⟨s, hs⟩ := leak k hk
  exact ⟨s, hs.reach, hs.live, hs.idle, hs.len,
    fun i c h => ⟨hs.alive i c h, fun hik => hs.full i c h hik⟩⟩

example : 4096 * (1000000 + 1) < 2 ^ 63 := by decide

/-! ### C36 -/

/-- C36 (partial): if there are no more workers than processing units, the memory of a task is given
back to the allocator it was taken from. Missing: more workers than processing units, see
`C36_other_allocator_false`. -/
theorem C36_same_allocator_partial (nWorkers nPus arena : Nat) (hle : nWorkers ≤ nPus)
    (ha : arena < nWorkers) : taskFreeTo nPus arena = taskAllocFrom nWorkers arena := by
  unfold taskFreeTo taskAllocFrom workerAlloc
  rw [Nat.mod_eq_of_lt ha, Nat.mod_eq_of_lt (by omega)]

example : (3 : Nat) ≤ 4 ∧ 2 < 3 := by decide

/-- C36 is false for every worker beyond the number of processing units: its tasks' memory comes from
one allocator and is given back to another one. -/
theorem C36_other_allocator_false (nWorkers nPus arena : Nat) (hp : 0 < nPus) (hge : nPus ≤ arena)
    (ha : arena < nWorkers) : taskFreeTo nPus arena ≠ taskAllocFrom nWorkers arena := by
  unfold taskFreeTo taskAllocFrom workerAlloc
  rw [Nat.mod_eq_of_lt ha]
  have := Nat.mod_lt arena hp
  omega

example : 0 < 4 ∧ 4 ≤ 5 ∧ 5 < 8 := by decide

end RG.Alloc
