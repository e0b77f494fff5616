import Verif.Lemmas.TaskQueue4
/-
Lemmas for C88: an executor for concrete runs; tickets; a consumer alone; bounds for the number of steps.
-/
set_option linter.unusedVariables false
namespace RG.MQ

variable {B p : Nat} {s : Sub} {m : Mem}

/-! ### Concrete runs -/

/-- the next step of consumer `c` (`call` if it is outside) -/
def exC (B : Nat) (c : Nat) (s : Sub) (m : Mem) : Option (Sub × Mem) :=
  match s.cons c with
  | .out => some (s.at c .start, m)
  | .start => some (s.at c (.over s.tail), m)
  | .over t => some (s.at c (.opt t s.over), m)
  | .opt t o => some (s.at c (if s.opt - o < t then .inc o else .ret none), m)
  | .inc o => some ({ s with cons := upd s.cons c (.chk s.opt o), opt := s.opt + 1 }, m)
  | .chk k o => if k - o < s.tail then some ({ s with cons := upd s.cons c (.clm k), fate := upd s.fate k .pass }, m)
      else some ({ s with cons := upd s.cons c (.ovr k), fate := upd s.fate k .failP }, m)
  | .ovr k => some ({ s with cons := upd s.cons c (.ret none), over := s.over + 1, fate := upd s.fate k .failD }, m)
  | .clm k => some ({ s with cons := upd s.cons c (.hdr s.head), head := s.head + 1, fate := upd s.fate k .got }, m)
  | .hdr i => some (s.at c (.itl i s.cur), m)
  | .itl i hd => some (s.at c (.key i hd (s.hdrs hd).tail), m)
  | .key i hd T => some (s.at c (
        if (s.entries ((s.hdrs hd).index T)).key = invalidBase then .fault i
        else .val i ((s.hdrs hd).index (position B (s.hdrs hd).capacity T (s.entries ((s.hdrs hd).index T)).key i))), m)
  | .val i e => some (s.at c (match (s.entries e).value with | none => .fault i | some b => .rd i e b), m)
  | .rd i e b => some (s.at c (match (m b).slots (i % B) with | none => .fault i | some x => .emp i e b x),
        upd m b { m b with slots := upd (m b).slots (i % B) none })
  | .emp i e b x => some ({ s with cons := upd s.cons c (if (m b).done = B - 1 then .nul i e b x else .ret (some (i, x))), fin := upd s.fin i true },
        upd m b { m b with done := (m b).done + 1 })
  | .nul i e b x => some ({ s with cons := upd s.cons c (.fre i b x), entries := upd s.entries e { s.entries e with value := none } }, m)
  | .fre i b x => some (s.at c (.ret (some (i, x))), upd m b { m b with owner := none })
  | .ret (some (i, x)) => some ({ s with cons := upd s.cons c .out, outs := s.outs ++ [(i, x)] }, m)
  | .ret none => some (s.at c .out, m)
  | .fault _ => none

theorem exC_sound {c : Nat} {r : Sub × Mem} (h : exC B c s m = some r) : SStep B p s m r.1 r.2 := by
  unfold exC at h
  split at h
  case h_1 hc => cases h; exact .call c hc
  case h_2 hc => cases h; exact .ldTail c hc
  case h_3 hc => cases h; exact .ldOver c hc
  case h_4 hc => cases h; exact .ldOpt c hc
  case h_5 hc => cases h; exact .inc c hc
  case h_6 hc =>
    split at h <;> rename_i ht <;> cases h
    · exact .chkOk c hc ht
    · exact .chkNo c hc ht
  case h_7 hc => cases h; exact .overcommit c hc
  case h_8 hc => cases h; exact .claim c hc
  case h_9 hc => cases h; exact .ldHdr c hc
  case h_10 hc => cases h; exact .ldIdxTail c hc
  case h_11 hc => cases h; exact .ldKey c hc
  case h_12 hc => cases h; exact .ldVal c hc
  case h_13 hc => cases h; exact .read c hc
  case h_14 hc => cases h; exact .setEmpty c hc
  case h_15 hc => cases h; exact .null c hc
  case h_16 hc => cases h; exact .free c hc
  case h_17 hc => cases h; exact .retSome c hc
  case h_18 hc => cases h; exact .retNone c hc
  case h_19 => cases h

/-- the next step of the producer; `x` the element if it is outside, the block if it needs one -/
def exP (B p : Nat) (x : Nat) (s : Sub) (m : Mem) : Option (Sub × Mem) :=
  match s.prod with
  | .out => some ({ s with prod := if s.tail % B = 0 then .head x else .wr x }, m)
  | .head y => some ({ s with prod := if s.tail < s.head then .fault else .idx y }, m)
  | .idx y =>
    if (s.entries ((s.hdrs s.cur).index (((s.hdrs s.cur).tail + 1) % (s.hdrs s.cur).capacity))).key = invalidBase ∨
        (s.entries ((s.hdrs s.cur).index (((s.hdrs s.cur).tail + 1) % (s.hdrs s.cur).capacity))).value = none then
      some ({ s with
        prod := .skey y ((s.hdrs s.cur).index (((s.hdrs s.cur).tail + 1) % (s.hdrs s.cur).capacity))
          (((s.hdrs s.cur).tail + 1) % (s.hdrs s.cur).capacity) }, m)
    else some ({ s with prod := .grow y }, m)
  | .grow y => some ({ s with
        hdrs := upd s.hdrs (s.cur + 1) ((s.hdrs s.cur).grow s.nEnt)
        cur := s.cur + 1
        entries := fun e => if s.nEnt ≤ e then ⟨invalidBase, none⟩ else s.entries e
        nEnt := s.nEnt + (s.hdrs s.cur).capacity
        prod := .skey y s.nEnt (s.hdrs s.cur).capacity }, m)
  | .skey y e T => some ({ s with
        entries := upd s.entries e { s.entries e with key := s.tail }
        prod := .stl y e T }, m)
  | .stl y e T => some ({ s with
        hdrs := upd s.hdrs s.cur { s.hdrs s.cur with tail := T, nb := (s.hdrs s.cur).nb + 1 }
        ent := upd s.ent (s.hdrs s.cur).nb e
        prod := .blk y e }, m)
  | .blk y e => if (m x).owner = none then
      some ({ s with blkOf := upd s.blkOf s.ns x, prod := .rst y e x }, upd m x { m x with owner := some (p, s.ns) }) else none
  | .rst y e b => some ({ s with prod := .sval y e b }, upd m b { m b with done := 0 })
  | .sval y e b => some ({ s with
        entries := upd s.entries e { s.entries e with value := some b }
        tailBlock := b
        ns := s.ns + 1
        prod := .wr y }, m)
  | .wr y => some ({ s with prod := .pub y },
        upd m s.tailBlock { m s.tailBlock with slots := upd (m s.tailBlock).slots (s.tail % B) (some y) })
  | .pub y => some ({ s with tail := s.tail + 1, ins := s.ins ++ [y], prod := .out }, m)
  | .fault => none

theorem exP_sound {x : Nat} {r : Sub × Mem} (h : exP B p x s m = some r) : SStep B p s m r.1 r.2 := by
  unfold exP at h
  split at h
  case h_1 hc => cases h; exact .enqueue x hc
  case h_2 hc => cases h; exact .ldHead hc
  case h_3 hc =>
    split at h <;> rename_i he <;> cases h
    · exact .idxOk hc he
    · exact .idxFull hc (fun h => he (.inl h)) (fun h => he (.inr h))
  case h_4 hc => cases h; exact .grow hc (fun _ => none)
  case h_5 hc => cases h; exact .storeKey hc
  case h_6 hc => cases h; exact .storeTail hc
  case h_7 hc =>
    split at h <;> rename_i hb <;> cases h
    exact .requisition hc _ hb
  case h_8 hc => cases h; exact .resetEmpty hc
  case h_9 hc => cases h; exact .storeVal hc
  case h_10 hc => cases h; exact .write hc
  case h_11 hc => cases h; exact .publish hc
  case h_12 => cases h

/-- Of a concrete run: consumer `c` goes on in the sub-queue `p`, or the producer of `p` does. -/
inductive Act
  | c (p c : Nat)
  | p (p x : Nat)

def ex (B : Nat) (s : State) : Act → Option State
  | .c p c => (exC B c (s.subs p) s.mem).map fun r => ⟨upd s.subs p r.1, r.2⟩
  | .p p x => (exP B p x (s.subs p) s.mem).map fun r => ⟨upd s.subs p r.1, r.2⟩

def run (B : Nat) : List Act → State → Option State
  | [], s => some s
  | a :: l, s => (ex B s a).bind (run B l)

theorem ex_sound {s s' : State} {a : Act} (h : ex B s a = some s') : ∃ p, Step B p s s' := by
  cases a with
  | c p c =>
    simp only [ex, Option.map_eq_some_iff] at h
    obtain ⟨r, h1, rfl⟩ := h
    exact ⟨p, .mk (exC_sound h1)⟩
  | p p x =>
    simp only [ex, Option.map_eq_some_iff] at h
    obtain ⟨r, h1, rfl⟩ := h
    exact ⟨p, .mk (exP_sound h1)⟩

theorem run_reach {C : Nat} {l : List Act} {s s' : State} (h0 : Reach B C s) (h : run B l s = some s') : Reach B C s' := by
  induction l generalizing s with
  | nil => cases h; exact h0
  | cons a l ih =>
    simp only [run, Option.bind_eq_some_iff] at h
    obtain ⟨s1, h1, h2⟩ := h
    obtain ⟨p, h3⟩ := ex_sound h1
    exact ih (.step h0 h3) h2

def State.init (C : Nat) : State := ⟨fun _ => Sub.init C (fun _ => none), fun _ => ⟨fun _ => none, 0, none⟩⟩

theorem State.init_reach (B C : Nat) : Reach B C (State.init C) := .init ⟨fun _ => ⟨_, rfl⟩, fun _ => rfl⟩

/-- `n` times -/
def rep (n : Nat) (a : Act) : List Act := List.replicate n a

/-! ### Tickets -/

def QInv (s : Sub) : Prop := ∀ k, k < s.opt → s.fate k = .failD ∨ s.fate k = .got ∨ ∃ c, (s.cons c).ticket = some k

theorem QInv.init (C : Nat) (g : Nat → Option Nat) : QInv (Sub.init C g) := fun k h => absurd h (Nat.not_lt_zero k)

theorem QInv.at {s s' : Sub} (h : QInv s) {c : Nat} {pc : CPc} (h1 : pc.ticket = (s.cons c).ticket) (h2 : s'.opt = s.opt)
    (h3 : ∀ k, s.fate k = .failD ∨ s.fate k = .got → s'.fate k = s.fate k) (h4 : s'.cons = upd s.cons c pc) : QInv s' := by
  intro k hk
  rw [h2] at hk
  rcases h k hk with h5 | h5 | ⟨c', h5⟩
  · exact .inl (by rw [h3 k (.inl h5)]; exact h5)
  · exact .inr (.inl (by rw [h3 k (.inr h5)]; exact h5))
  · refine .inr (.inr ⟨c', ?_⟩)
    rw [h4]
    by_cases e : c' = c
    · subst e; rw [upd_same, h1]; exact h5
    · rw [upd_ne _ _ e]; exact h5

theorem SStep.qinv {s' : Sub} {m' : Mem} (ht : TInv s) (h : QInv s) (hs : SStep B p s m s' m') : QInv s' := by
  have keep : ∀ (k : Nat) (v : Fate), (s.fate k = .failD ∨ s.fate k = .got → False) → ∀ k', s.fate k' = .failD ∨ s.fate k' = .got → upd s.fate k v k' = s.fate k' := by
    intro k v hk k' hk'
    rw [upd_ne]
    rintro rfl
    exact hk hk'
  have gone : ∀ c k v, (v = Fate.failD ∨ v = .got) → (s.cons c).ticket = some k → ∀ pc, QInv { s with cons := upd s.cons c pc, fate := upd s.fate k v } := by
    intro c k v hv hc pc k' hk'
    simp only
    by_cases e : k' = k
    · subst e; rw [upd_same]; exact hv.imp id .inl
    · rw [upd_ne _ _ e]
      rcases h k' hk' with h5 | h5 | ⟨c', h5⟩
      · exact .inl h5
      · exact .inr (.inl h5)
      · refine .inr (.inr ⟨c', ?_⟩)
        rw [upd_ne]
        · exact h5
        · rintro rfl
          rw [hc] at h5
          injection h5 with h5
          exact e h5.symm
  cases hs with
  | call c hc => exact h.at (pc := .start) (by rw [hc]; rfl) rfl (fun _ _ => rfl) rfl
  | ldTail c hc => exact h.at (pc := .over _) (by rw [hc]; rfl) rfl (fun _ _ => rfl) rfl
  | ldOver c hc => exact h.at (pc := .opt _ _) (by rw [hc]; rfl) rfl (fun _ _ => rfl) rfl
  | ldOpt c hc => exact h.at (c := c) (by rw [hc]; split <;> rfl) rfl (fun _ _ => rfl) rfl
  | @inc c o hc =>
    intro k hk
    have hk : k < s.opt + 1 := hk
    simp only
    by_cases e : k = s.opt
    · subst e; exact .inr (.inr ⟨c, by rw [upd_same]; rfl⟩)
    · rcases h k (by omega) with h5 | h5 | ⟨c', h5⟩
      · exact .inl h5
      · exact .inr (.inl h5)
      · refine .inr (.inr ⟨c', ?_⟩)
        rw [upd_ne]
        · exact h5
        · rintro rfl
          rw [hc] at h5
          cases h5
  | @chkOk c k o hc =>
    have hp := ht.pc c
    rw [hc] at hp
    refine h.at (pc := .clm _) (by rw [hc]; rfl) rfl (keep k _ ?_) rfl
    rw [hp.2.1]
    rintro (h | h) <;> cases h
  | @chkNo c k o hc =>
    have hp := ht.pc c
    rw [hc] at hp
    refine h.at (pc := .ovr _) (by rw [hc]; rfl) rfl (keep k _ ?_) rfl
    rw [hp.2.1]
    rintro (h | h) <;> cases h
  | overcommit c hc => exact gone c _ _ (.inl rfl) (by rw [hc]; rfl) _
  | claim c hc => exact gone c _ _ (.inr rfl) (by rw [hc]; rfl) _
  | ldHdr c hc => exact h.at (pc := .itl _ _) (by rw [hc]; rfl) rfl (fun _ _ => rfl) rfl
  | ldIdxTail c hc => exact h.at (pc := .key _ _ _) (by rw [hc]; rfl) rfl (fun _ _ => rfl) rfl
  | ldKey c hc => exact h.at (c := c) (by rw [hc]; split <;> rfl) rfl (fun _ _ => rfl) rfl
  | ldVal c hc => exact h.at (c := c) (by rw [hc]; split <;> rfl) rfl (fun _ _ => rfl) rfl
  | read c hc => exact h.at (c := c) (by rw [hc]; split <;> rfl) rfl (fun _ _ => rfl) rfl
  | setEmpty c hc => exact h.at (c := c) (by rw [hc]; split <;> rfl) rfl (fun _ _ => rfl) rfl
  | null c hc => exact h.at (pc := .fre _ _ _) (by rw [hc]; rfl) rfl (fun _ _ => rfl) rfl
  | free c hc => exact h.at (pc := .ret _) (by rw [hc]; rfl) rfl (fun _ _ => rfl) rfl
  | retSome c hc => exact h.at (pc := .out) (by rw [hc]; rfl) rfl (fun _ _ => rfl) rfl
  | retNone c hc => exact h.at (pc := .out) (by rw [hc]; rfl) rfl (fun _ _ => rfl) rfl
  | _ => exact h

theorem Reach.qinv {C : Nat} {s : State} (hB : 2 ≤ B) (hC : 0 < C) (h : Reach B C s) : ∀ p, QInv (s.subs p) := by
  induction h with
  | init h => intro p; obtain ⟨g, hg⟩ := h.subs p; rw [hg]; exact QInv.init C g
  | @step _ _ p h0 hs ih =>
    intro q
    cases hs with
    | mk hs =>
      simp only
      by_cases e : q = p
      · subst e; rw [upd_same]; exact hs.qinv ((h0.inv hB hC).t q) (ih q)
      · rw [upd_ne _ _ e]; exact ih q

/-- Without consumers inside, what has been counted has been taken or given back. -/
theorem counts_quiet (ht : TInv s) (hq : QInv s) (hout : ∀ c, (s.cons c).ticket = none) : s.opt = s.over + s.head := by
  rw [ht.over_eq, ht.head_eq]
  have key : ∀ n, n ≤ s.opt → n = cnt n isFail s.fate + cnt n isGot s.fate := by
    intro n
    induction n with
    | zero => intro _; rfl
    | succ n ih =>
      intro hn
      have h1 := ih (by omega)
      rw [cnt_succ, cnt_succ]
      rcases hq n (by omega) with h2 | h2 | ⟨c, h2⟩
      · rw [h2]; simp only [isFail, isGot]; simp; omega
      · rw [h2]; simp only [isFail, isGot]; simp; omega
      · rw [hout c] at h2; cases h2
  exact key _ (Nat.le_refl _)

end RG.MQ
