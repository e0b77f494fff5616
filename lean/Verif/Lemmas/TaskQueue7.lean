import Verif.Lemmas.TaskQueue6
import Mathlib.Data.List.Perm.Subperm
/-
Lemmas for C88: every block that is in use is needed.
-/
set_option linter.unusedVariables false
namespace RG.MQ

variable {B p : Nat} {s : Sub} {m : Mem}

/-- the block, with its number, that the consumer is going to give back -/
def CPc.frees (B : Nat) : CPc → Option (Nat × Nat)
  | .nul i _ b _ => some (i / B, b)
  | .fre i b _ => some (i / B, b)
  | _ => none

/-- the block the producer is going to use -/
def PPc.gets : PPc → Option Nat
  | .rst _ _ b => some b
  | .sval _ _ b => some b
  | _ => none

def LInv (B p : Nat) (s : Sub) (m : Mem) : Prop := ∀ b k, (m b).owner = some (p, k) →
  (k < s.ns ∧ ¬ Full B s.fin k ∧ b = s.blkOf k) ∨ (∃ c, (s.cons c).frees B = some (k, b)) ∨ (s.prod.gets = some b ∧ k = s.ns)

theorem LInv.at (h : LInv B p s m) {s' : Sub} {m' : Mem} {c : Nat} {pc : CPc} (hc : s'.cons = upd s.cons c pc) (h1 : pc.frees B = (s.cons c).frees B)
    (hm : ∀ b, (m' b).owner = (m b).owner) (hn : s'.ns = s.ns) (hf : s'.fin = s.fin) (hb : s'.blkOf = s.blkOf) (hp : s'.prod = s.prod) : LInv B p s' m' := by
  intro b k ho
  rw [hm] at ho
  rw [hn, hf, hb, hp]
  rcases h b k ho with h2 | ⟨d, h2⟩ | h2
  · exact .inl h2
  · refine .inr (.inl ⟨d, ?_⟩)
    rw [hc]
    by_cases e : d = c
    · subst e; rw [upd_same, h1]; exact h2
    · rw [upd_ne _ _ e]; exact h2
  · exact .inr (.inr h2)

theorem LInv.pgo (h : LInv B p s m) {s' : Sub} {m' : Mem} (hc : s'.cons = s.cons) (hm : ∀ b, (m' b).owner = (m b).owner) (hn : s'.ns = s.ns) (hf : s'.fin = s.fin)
    (hb : s'.blkOf = s.blkOf) (hp : s'.prod.gets = s.prod.gets) : LInv B p s' m' := by
  intro b k ho
  rw [hm] at ho
  rw [hn, hf, hb, hp, hc]
  exact h b k ho

theorem owner_upd {b b' : Nat} {v : Blk} (h : v.owner = (m b).owner) : (upd m b v b').owner = (m b').owner := by
  by_cases e : b' = b
  · subst e; rw [upd_same, h]
  · rw [upd_ne _ _ e]

theorem SStep.linv (hB : 2 ≤ B) {s' : Sub} {m' : Mem} (ht : TInv s) (hk : KInv s) (h : BInv B p s m) (hl : LInv B p s m) (hs : SStep B p s m s' m') : LInv B p s' m' := by
  cases hs with
  | call c hc => exact hl.at rfl (by rw [hc]; rfl) (fun _ => rfl) rfl rfl rfl rfl
  | ldTail c hc => exact hl.at rfl (by rw [hc]; rfl) (fun _ => rfl) rfl rfl rfl rfl
  | ldOver c hc => exact hl.at rfl (by rw [hc]; rfl) (fun _ => rfl) rfl rfl rfl rfl
  | ldOpt c hc => exact hl.at rfl (by rw [hc]; split <;> rfl) (fun _ => rfl) rfl rfl rfl rfl
  | inc c hc => exact hl.at rfl (by rw [hc]; rfl) (fun _ => rfl) rfl rfl rfl rfl
  | chkOk c hc => exact hl.at rfl (by rw [hc]; rfl) (fun _ => rfl) rfl rfl rfl rfl
  | chkNo c hc => exact hl.at rfl (by rw [hc]; rfl) (fun _ => rfl) rfl rfl rfl rfl
  | overcommit c hc => exact hl.at rfl (by rw [hc]; rfl) (fun _ => rfl) rfl rfl rfl rfl
  | claim c hc => exact hl.at rfl (by rw [hc]; rfl) (fun _ => rfl) rfl rfl rfl rfl
  | ldHdr c hc => exact hl.at rfl (by rw [hc]; rfl) (fun _ => rfl) rfl rfl rfl rfl
  | ldIdxTail c hc => exact hl.at rfl (by rw [hc]; rfl) (fun _ => rfl) rfl rfl rfl rfl
  | ldKey c hc => exact hl.at rfl (by rw [hc]; split <;> rfl) (fun _ => rfl) rfl rfl rfl rfl
  | ldVal c hc => exact hl.at rfl (by rw [hc]; split <;> rfl) (fun _ => rfl) rfl rfl rfl rfl
  | read c hc => exact hl.at rfl (by rw [hc]; split <;> rfl) (fun _ => owner_upd rfl) rfl rfl rfl rfl
  | @setEmpty c i e b x hc =>
    have hp := h.pc c
    rw [hc] at hp
    have hfi : s.fin i = false := (hk.hold c i (by rw [hc]; rfl)).2
    have hlt := hold_lt (by omega) ht hk h (c := c) (i := i) (by rw [hc]; rfl)
    have hV := h.val _ hlt (not_full (by omega) hfi)
    intro b' k ho
    rw [owner_upd (by rfl)] at ho
    rcases hl b' k ho with ⟨h1, h2, h3⟩ | ⟨d, h2⟩ | h2
    · by_cases hF : Full B (upd s.fin i true) k
      · have hki : k = i / B := by
          by_contra hne
          apply h2
          intro j hj
          have := hF j hj
          rwa [upd_ne] at this
          rintro rfl
          apply hne
          rw [Nat.mul_comm, Nat.mul_add_div (by omega), Nat.div_eq_of_lt hj, Nat.add_zero]
        subst hki
        have hcnt := (cnt_full (B := B) (f := fun j => upd s.fin i true (i / B * B + j))).2 hF
        have heq := cnt_block_eq (B := B) (by omega) hfi
        rw [hcnt] at heq
        have hd := hV.done
        rw [← hp.2.1] at hd
        refine .inr (.inl ⟨c, ?_⟩)
        have : (m b).done = B - 1 := by omega
        simp only [upd_same, this, if_true, CPc.frees]
        rw [h3, hp.2.1]
      · exact .inl ⟨h1, hF, h3⟩
    · refine .inr (.inl ⟨d, ?_⟩)
      have : d ≠ c := by rintro rfl; rw [hc] at h2; exact nomatch h2
      simp only [upd_ne _ _ this]; exact h2
    · exact .inr (.inr h2)
  | null c hc => exact hl.at rfl (by rw [hc]; rfl) (fun _ => rfl) rfl rfl rfl rfl
  | @free c i b x hc =>
    intro b' k ho
    by_cases e : b' = b
    · subst e; rw [upd_same] at ho; exact nomatch ho
    rw [upd_ne _ _ e] at ho
    rcases hl b' k ho with h1 | ⟨d, h2⟩ | h2
    · exact .inl h1
    · refine .inr (.inl ⟨d, ?_⟩)
      have : d ≠ c := by rintro rfl; rw [hc] at h2; injection h2 with h2; injection h2 with _ h2; exact e h2.symm
      simp only [Sub.at, upd_ne _ _ this]; exact h2
    · exact .inr (.inr h2)
  | retSome c hc => exact hl.at rfl (by rw [hc]; rfl) (fun _ => rfl) rfl rfl rfl rfl
  | retNone c hc => exact hl.at rfl (by rw [hc]; rfl) (fun _ => rfl) rfl rfl rfl rfl
  | enqueue x hc => exact hl.pgo rfl (fun _ => rfl) rfl rfl rfl (by rw [hc]; simp only; split <;> rfl)
  | ldHead hc => exact hl.pgo rfl (fun _ => rfl) rfl rfl rfl (by rw [hc]; simp only; split <;> rfl)
  | idxOk hc => exact hl.pgo rfl (fun _ => rfl) rfl rfl rfl (by rw [hc]; rfl)
  | idxFull hc => exact hl.pgo rfl (fun _ => rfl) rfl rfl rfl (by rw [hc]; rfl)
  | grow hc => exact hl.pgo rfl (fun _ => rfl) rfl rfl rfl (by rw [hc]; rfl)
  | storeKey hc => exact hl.pgo rfl (fun _ => rfl) rfl rfl rfl (by rw [hc]; rfl)
  | storeTail hc => exact hl.pgo rfl (fun _ => rfl) rfl rfl rfl (by rw [hc]; rfl)
  | @requisition x e hc b hb =>
    intro b' k ho
    by_cases e : b' = b
    · subst e; rw [upd_same] at ho; cases ho; exact .inr (.inr ⟨rfl, rfl⟩)
    rw [upd_ne _ _ e] at ho
    rcases hl b' k ho with ⟨h1, h2, h3⟩ | h2 | h2
    · exact .inl ⟨h1, h2, by simp only; rw [upd_ne _ _ (by omega)]; exact h3⟩
    · exact .inr (.inl h2)
    · rw [hc] at h2; exact nomatch h2.1
  | resetEmpty hc => exact hl.pgo rfl (fun _ => owner_upd rfl) rfl rfl rfl (by rw [hc]; rfl)
  | @storeVal x e b hc =>
    have hP := h.prod
    rw [hc] at hP
    intro b' k ho
    rcases hl b' k ho with ⟨h1, h2, h3⟩ | h2 | h2
    · exact .inl ⟨Nat.lt_succ_of_lt h1, h2, h3⟩
    · exact .inr (.inl h2)
    · rw [hc] at h2
      obtain ⟨h2, rfl⟩ := h2
      cases h2
      refine .inl ⟨Nat.lt_succ_self _, fun hF => ?_, hP.2.2.2.1⟩
      have := hF 0 (by omega)
      have h3 := fin_lt_tail ht hk _ this
      have := hP.2.1
      omega
  | write hc => exact hl.pgo rfl (fun _ => owner_upd rfl) rfl rfl rfl (by rw [hc]; rfl)
  | publish hc => exact hl.pgo rfl (fun _ => rfl) rfl rfl rfl (by rw [hc]; rfl)

/-- A step in one sub-queue gives no block to the others. -/
theorem SStep.owners {s' : Sub} {m' : Mem} (hs : SStep B p s m s' m') {q : Nat} (hq : q ≠ p) :
    ∀ b k, (m' b).owner = some (q, k) → (m b).owner = some (q, k) := by
  cases hs with
  | read c hc => intro b k h; rwa [owner_upd (by rfl)] at h
  | setEmpty c hc => intro b k h; rwa [owner_upd (by rfl)] at h
  | resetEmpty hc => intro b k h; rwa [owner_upd (by rfl)] at h
  | write hc => intro b k h; rwa [owner_upd (by rfl)] at h
  | @free c i b x hc =>
    intro b' k h
    by_cases e : b' = b
    · subst e; rw [upd_same] at h; exact nomatch h
    · rwa [upd_ne _ _ e] at h
  | @requisition x e hc b hb =>
    intro b' k h
    by_cases e : b' = b
    · subst e; rw [upd_same] at h; injection h with h; injection h with h; exact absurd h.symm hq
    · rwa [upd_ne _ _ e] at h
  | _ => exact fun _ _ h => h

theorem Reach.linv {C : Nat} {s : State} (hB : 2 ≤ B) (hC : 0 < C) (h : Reach B C s) : ∀ p, LInv B p (s.subs p) s.mem := by
  induction h with
  | init h => intro p b k ho; rw [h.mem] at ho; exact nomatch ho
  | @step s s' p hr hs ih =>
    cases hs with
    | @mk _ _ u m hs =>
      have I := hr.inv hB hC
      intro q
      simp only
      by_cases e : q = p
      · subst e; rw [upd_same]; exact hs.linv hB (I.t q) (I.k q) (I.b q) (ih q)
      · rw [upd_ne _ _ e]
        exact fun b k ho => ih q b k (hs.owners e b k ho)

/-- what the accesses of the blocks are based on -/
theorem Inv.no_use_after_free {s : State} (hinv : Inv B s) (hB : 2 ≤ B) (p : Nat) :
    (∀ c, match (s.subs p).cons c with
      | .val i e => ((s.subs p).entries e).key = i - i % B ∧ ∃ b, ((s.subs p).entries e).value = some b
      | .rd i _ b | .emp i _ b _ | .nul i _ b _ | .fre i b _ => (s.mem b).owner = some (p, i / B)
      | _ => True) ∧
    (match (s.subs p).prod with
      | .rst _ _ b | .sval _ _ b => (s.mem b).owner = some (p, (s.subs p).tail / B)
      | .wr _ => (s.mem (s.subs p).tailBlock).owner = some (p, (s.subs p).tail / B)
      | _ => True) := by
  have hB0 : 0 < B := by omega
  have own : ∀ c i, ((s.subs p).cons c).hold = some i → VOk B p (s.subs p) s.mem (i / B) ∧ ((s.subs p).entries ((s.subs p).ent (i / B))).key = i / B * B := by
    intro c i h'
    have h1 := hold_lt hB0 (hinv.t p) (hinv.k p) (hinv.b p) h'
    have h2 := ((hinv.k p).hold c i h').2
    exact ⟨(hinv.b p).val _ h1 (not_full hB0 h2), (hinv.b p).key _ (Nat.lt_of_lt_of_le h1 (hinv.b p).prod.ns_le) (not_dead hB0 h2 (Nat.le_refl _))⟩
  constructor
  · intro c
    have hp := (hinv.b p).pc c
    have ho := own c
    cases hc : (s.subs p).cons c with
    | val i e =>
      rw [hc] at hp ho
      have h1 := ho i rfl
      have hp : e = _ := hp
      refine ⟨?_, _, by rw [hp]; exact h1.1.val⟩
      have := Nat.div_add_mod' i B
      rw [hp, h1.2]
      omega
    | rd i e b => rw [hc] at hp ho; rw [hp.2]; exact (ho i rfl).1.owner
    | emp i e b x => rw [hc] at hp ho; rw [hp.2.1]; exact (ho i rfl).1.owner
    | nul i e b x => rw [hc] at hp; exact hp.2.1
    | fre i b x => rw [hc] at hp; exact hp.2.1
    | _ => trivial
  · have hP := (hinv.b p).prod
    cases hc : (s.subs p).prod with
    | rst x e b => rw [hc] at hP; obtain ⟨_, h1, _, _, h2⟩ := hP; show (s.mem b).owner = _; rw [h2, ← h1, Nat.mul_div_cancel _ hB0]
    | sval x e b => rw [hc] at hP; obtain ⟨_, h1, _, _, h2, _⟩ := hP; show (s.mem b).owner = _; rw [h2, ← h1, Nat.mul_div_cancel _ hB0]
    | wr x =>
      rw [hc] at hP
      obtain ⟨h1, h2, h3, h4⟩ := hP
      show (s.mem _).owner = _
      rw [h4]
      exact ((hinv.b p).val ((s.subs p).tail / B) (by rw [Nat.div_lt_iff_lt_mul hB0]; exact h2)
        (not_full hB0 (tail_not_fin (hinv.t p) (hinv.k p) (Nat.le_refl _)))).owner
    | _ => trivial

end RG.MQ
