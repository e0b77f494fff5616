import Verif.Model.TaskQueue
/-
Lemmas for C88: the sub-queues of a task queue.
-/
set_option linter.unusedVariables false
namespace RG.MQ

def isFail : Fate → Bool
  | .failD => true
  | _ => false

def isGot : Fate → Bool
  | .got => true
  | _ => false

def isPass : Fate → Bool
  | .pass => true
  | .got => true
  | _ => false

def CPc.ticket : CPc → Option Nat
  | .chk k _ => some k
  | .ovr k => some k
  | .clm k => some k
  | _ => none

theorem cnt_upd {α} (n : Nat) (p : α → Bool) (f : Nat → α) (k : Nat) (v : α) (h : k < n) :
    cnt n p (upd f k v) + (if p (f k) then 1 else 0) = cnt n p f + (if p v then 1 else 0) :=
  cnt_update n p f k v h

theorem cnt_upd_out {α} (n : Nat) (p : α → Bool) (f : Nat → α) (k : Nat) (v : α) (h : n ≤ k) :
    cnt n p (upd f k v) = cnt n p f :=
  cnt_congr fun t ht => by rw [upd_ne _ _ (by omega)]

/-- counting with a value that is not counted replaced by another one -/
theorem cnt_upd_mono {α} (n : Nat) (p : α → Bool) (f : Nat → α) (k : Nat) (v : α) (h : p (f k) = false) :
    cnt n p f ≤ cnt n p (upd f k v) := by
  by_cases hk : k < n
  · have := cnt_upd n p f k v hk
    simp only [h, Bool.false_eq_true, if_false] at this
    omega
  · rw [cnt_upd_out _ _ _ _ _ (by omega)]
    exact Nat.le_refl _

def TPc (s : Sub) : CPc → Prop
  | .opt _ o => o ≤ s.over
  | .inc o => o ≤ s.over
  | .chk k o => k < s.opt ∧ s.fate k = .und ∧ o ≤ cnt k isFail s.fate
  | .ovr k => k < s.opt ∧ s.fate k = .failP
  | .clm k => k < s.opt ∧ s.fate k = .pass
  | _ => True

/-- the counters -/
structure TInv (s : Sub) : Prop where
  over_eq : s.over = cnt s.opt isFail s.fate
  head_eq : s.head = cnt s.opt isGot s.fate
  pass_le : ∀ k, k < s.opt → isPass (s.fate k) = true → k + 1 ≤ s.tail + cnt k isFail s.fate
  fresh : ∀ k, s.opt ≤ k → s.fate k = .und
  pc : ∀ c, TPc s (s.cons c)
  uniq : ∀ c c' k, (s.cons c).ticket = some k → (s.cons c').ticket = some k → c = c'

theorem cnt_pass_le {s : Sub} (h : TInv s) (n : Nat) (hn : n ≤ s.opt) : cnt n isPass s.fate ≤ s.tail := by
  induction n with
  | zero => exact Nat.zero_le _
  | succ n ih =>
    rw [cnt_succ]
    have ih := ih (by omega)
    split
    · rename_i hp
      have h1 := h.pass_le n (by omega) hp
      have h2 : cnt n isPass s.fate + cnt n isFail s.fate ≤ n :=
        cnt_add_le n isPass isFail s.fate (by intro f; cases f <;> simp [isPass, isFail])
      omega
    · omega

/-- The head does not overtake the tail, even if all that may go on do so. -/
theorem TInv.head_le {s : Sub} (h : TInv s) : s.head ≤ s.tail := by
  rw [h.head_eq]
  have h2 := cnt_pass_le h s.opt (Nat.le_refl _)
  have h3 : cnt s.opt isGot s.fate ≤ cnt s.opt isPass s.fate := by
    unfold cnt
    exact List.countP_mono_left fun t _ => by cases s.fate t <;> simp [isPass, isGot]
  omega

theorem TInv.head_lt {s : Sub} (h : TInv s) {k : Nat} (hk : k < s.opt) (hp : s.fate k = .pass) : s.head < s.tail := by
  rw [h.head_eq]
  have h2 := cnt_pass_le h s.opt (Nat.le_refl _)
  have h3 : cnt s.opt isGot s.fate + cnt s.opt (fun f => f == .pass) s.fate ≤ cnt s.opt isPass s.fate := by
    clear h h2 hk hp
    generalize s.opt = n
    induction n with
    | zero => simp [cnt]
    | succ n ih =>
      rw [cnt_succ, cnt_succ, cnt_succ]
      cases s.fate n <;> simp [isPass, isGot] <;> omega
  have h4 : 0 < cnt s.opt (fun f => f == .pass) s.fate := cnt_pos hk (by rw [hp]; rfl)
  omega

theorem TInv.init (C : Nat) (g : Nat → Option Nat) : TInv (Sub.init C g) where
  over_eq := rfl
  head_eq := rfl
  pass_le := fun k h => absurd h (Nat.not_lt_zero k)
  fresh := fun _ _ => rfl
  pc := fun _ => trivial
  uniq := fun _ _ _ h => nomatch h

/-- A consumer goes on without touching the counters. -/
theorem TInv.at {s : Sub} (h : TInv s) {c : Nat} {pc : CPc} (hp : TPc s pc) (ht : pc.ticket = none) : TInv (s.at c pc) where
  over_eq := h.over_eq
  head_eq := h.head_eq
  pass_le := h.pass_le
  fresh := h.fresh
  pc := by
    intro c'
    by_cases e : c' = c
    · subst e
      show TPc _ (upd s.cons c' pc c')
      rw [upd_same]
      cases pc <;> exact hp
    · show TPc _ (upd s.cons c pc c')
      rw [upd_ne _ _ e]
      have := h.pc c'
      revert this
      cases s.cons c' <;> exact id
  uniq := by
    intro c1 c2 k h1 h2
    simp only [Sub.at] at h1 h2
    by_cases e1 : c1 = c
    · subst e1; rw [upd_same, ht] at h1; cases h1
    · by_cases e2 : c2 = c
      · subst e2; rw [upd_same, ht] at h2; cases h2
      · rw [upd_ne _ _ e1] at h1; rw [upd_ne _ _ e2] at h2
        exact h.uniq c1 c2 k h1 h2

/-- Only the parts that the counters do not depend on have changed. -/
theorem TInv.congr {s s' : Sub} (h : TInv s) (h1 : s'.over = s.over) (h2 : s'.head = s.head) (h3 : s'.opt = s.opt)
    (h4 : s.tail ≤ s'.tail) (h5 : s'.fate = s.fate) (h6 : s'.cons = s.cons) : TInv s' where
  over_eq := by rw [h1, h3, h5]; exact h.over_eq
  head_eq := by rw [h2, h3, h5]; exact h.head_eq
  pass_le := by
    intro k hk hp
    rw [h3] at hk
    rw [h5] at hp ⊢
    have := h.pass_le k hk hp
    omega
  fresh := by rw [h3, h5]; exact h.fresh
  pc := by
    intro c
    rw [h6]
    have := h.pc c
    revert this
    cases s.cons c <;> simp only [TPc, h1, h3, h5] <;> exact id
  uniq := by rw [h6]; exact h.uniq

/-- The second test fails, whatever the value of the tail. -/
theorem tinv_chkNo {s : Sub} (h : TInv s) {c k o : Nat} (hc : s.cons c = .chk k o) :
    TInv { s with cons := upd s.cons c (.ovr k), fate := upd s.fate k .failP } := by
  have hp := h.pc c
  rw [hc] at hp
  obtain ⟨hk, hu, ho⟩ := hp
  have hother : ∀ c', c' ≠ c → (s.cons c').ticket ≠ some k := fun c' e ht' => e (h.uniq c' c k ht' (by rw [hc]; rfl))
  have hcf : ∀ n, cnt n isFail (upd s.fate k .failP) = cnt n isFail s.fate := by
    intro n
    by_cases hkn : k < n
    · have := cnt_upd n isFail s.fate k .failP hkn; rw [hu] at this; simpa [isFail] using this
    · exact cnt_upd_out _ _ _ _ _ (by omega)
  refine ⟨?_, ?_, ?_, ?_, ?_, ?_⟩
  · show s.over = cnt s.opt isFail (upd s.fate k .failP); rw [hcf]; exact h.over_eq
  · show s.head = cnt s.opt isGot (upd s.fate k .failP)
    have := cnt_upd s.opt isGot s.fate k .failP hk; rw [hu] at this
    simp [isGot] at this; rw [this]; exact h.head_eq
  · intro k' hk' hp'
    simp only at hp' ⊢
    show k' + 1 ≤ s.tail + cnt k' isFail (upd s.fate k .failP)
    rw [hcf]
    by_cases e : k' = k
    · subst e; rw [upd_same] at hp'; cases hp'
    · rw [upd_ne _ _ e] at hp'; exact h.pass_le k' hk' hp'
  · intro k' hk'
    show upd s.fate k .failP k' = _
    have hk'' : s.opt ≤ k' := hk'
    rw [upd_ne _ _ (by omega)]; exact h.fresh k' hk'
  · intro c'
    by_cases e : c' = c
    · subst e; simp only [Sub.at, upd_same, TPc]; exact ⟨hk, trivial⟩
    · simp only [Sub.at, upd_ne _ _ e]
      have h1 := h.pc c'
      have h2 := hother c' e
      revert h1 h2
      cases s.cons c' <;> simp only [TPc, CPc.ticket, hcf, ne_eq, Option.some.injEq] <;> intro h1 h2 <;> (try exact h1) <;>
        (rw [upd_ne _ _ h2]; exact h1)
  · intro c1 c2 k' h1 h2
    simp only [Sub.at] at h1 h2
    by_cases e1 : c1 = c
    · subst e1
      rw [upd_same] at h1; cases h1
      by_cases e2 : c2 = c1
      · exact e2.symm
      · rw [upd_ne _ _ e2] at h2; exact absurd h2 (hother c2 e2)
    · rw [upd_ne _ _ e1] at h1
      by_cases e2 : c2 = c
      · subst e2; rw [upd_same] at h2; cases h2; exact absurd h1 (hother c1 e1)
      · rw [upd_ne _ _ e2] at h2; exact h.uniq c1 c2 k' h1 h2

theorem SStep.tinv {B p : Nat} {s s' : Sub} {m m' : Mem} (h : TInv s) (hs : SStep B p s m s' m') : TInv s' := by
  cases hs with
  | call c hc => exact h.at trivial rfl
  | ldTail c hc => exact h.at trivial rfl
  | ldOver c hc => exact h.at (Nat.le_refl _) rfl
  | @ldOpt c t o hc =>
    split
    · have := h.pc c; rw [hc] at this; exact h.at this rfl
    · exact h.at trivial rfl
  | @inc c o hc =>
    have ho : o ≤ s.over := by have := h.pc c; rw [hc] at this; exact this
    have hf := h.fresh s.opt (Nat.le_refl _)
    refine ⟨?_, ?_, ?_, ?_, ?_, ?_⟩
    · show s.over = cnt (s.opt + 1) isFail s.fate
      rw [cnt_succ, hf, h.over_eq]; rfl
    · show s.head = cnt (s.opt + 1) isGot s.fate
      rw [cnt_succ, hf, h.head_eq]; rfl
    · intro k hk hp
      by_cases e : k = s.opt
      · subst e; have hp : isPass (s.fate s.opt) = true := hp; rw [hf] at hp; cases hp
      · exact h.pass_le k (by simp at hk; omega) hp
    · intro k hk
      exact h.fresh k (by simp at hk; omega)
    · intro c'
      by_cases e : c' = c
      · subst e
        simp only [Sub.at, upd_same, TPc]
        exact ⟨by omega, hf, by rw [← h.over_eq]; exact ho⟩
      · simp only [Sub.at, upd_ne _ _ e]
        have := h.pc c'
        revert this
        cases s.cons c' <;> simp only [TPc] <;> first | exact id | (rintro ⟨h1, h2⟩; exact ⟨by omega, h2⟩)
    · intro c1 c2 k h1 h2
      simp only [Sub.at] at h1 h2
      have hlt : ∀ c', c' ≠ c → (s.cons c').ticket ≠ some s.opt := by
        intro c' e ht
        have := h.pc c'
        revert this ht
        cases s.cons c' <;> simp [TPc, CPc.ticket] <;> omega
      by_cases e1 : c1 = c
      · subst e1
        rw [upd_same] at h1
        by_cases e2 : c2 = c1
        · exact e2.symm
        · rw [upd_ne _ _ e2] at h2; cases h1; exact absurd h2 (hlt c2 e2)
      · rw [upd_ne _ _ e1] at h1
        by_cases e2 : c2 = c
        · subst e2; rw [upd_same] at h2; cases h2; exact absurd h1 (hlt c1 e1)
        · rw [upd_ne _ _ e2] at h2; exact h.uniq c1 c2 k h1 h2
  | @chkOk c k o hc ht =>
    have hp := h.pc c
    rw [hc] at hp
    obtain ⟨hk, hu, ho⟩ := hp
    have hother : ∀ c', c' ≠ c → (s.cons c').ticket ≠ some k := fun c' e ht' => e (h.uniq c' c k ht' (by rw [hc]; rfl))
    have hcf : ∀ n, cnt n isFail (upd s.fate k .pass) = cnt n isFail s.fate := by
      intro n
      by_cases hkn : k < n
      · have := cnt_upd n isFail s.fate k .pass hkn; rw [hu] at this; simpa [isFail] using this
      · exact cnt_upd_out _ _ _ _ _ (by omega)
    refine ⟨?_, ?_, ?_, ?_, ?_, ?_⟩
    · show s.over = cnt s.opt isFail (upd s.fate k .pass); rw [hcf]; exact h.over_eq
    · show s.head = cnt s.opt isGot (upd s.fate k .pass)
      have := cnt_upd s.opt isGot s.fate k .pass hk; rw [hu] at this
      simp [isGot] at this; rw [this]; exact h.head_eq
    · intro k' hk' hp'
      simp only at hp' ⊢
      show k' + 1 ≤ s.tail + cnt k' isFail (upd s.fate k .pass)
      rw [hcf]
      by_cases e : k' = k
      · subst e; omega
      · rw [upd_ne _ _ e] at hp'; exact h.pass_le k' hk' hp'
    · intro k' hk'
      show upd s.fate k .pass k' = _
      have hk'' : s.opt ≤ k' := hk'
      rw [upd_ne _ _ (by omega)]; exact h.fresh k' hk'
    · intro c'
      by_cases e : c' = c
      · subst e; simp only [Sub.at, upd_same, TPc]; exact ⟨hk, trivial⟩
      · simp only [Sub.at, upd_ne _ _ e]
        have h1 := h.pc c'
        have h2 := hother c' e
        revert h1 h2
        cases s.cons c' <;> simp only [TPc, CPc.ticket, hcf, ne_eq, Option.some.injEq] <;> intro h1 h2 <;> (try exact h1) <;>
          (rw [upd_ne _ _ h2]; exact h1)
    · intro c1 c2 k' h1 h2
      simp only [Sub.at] at h1 h2
      by_cases e1 : c1 = c
      · subst e1
        rw [upd_same] at h1; cases h1
        by_cases e2 : c2 = c1
        · exact e2.symm
        · rw [upd_ne _ _ e2] at h2; exact absurd h2 (hother c2 e2)
      · rw [upd_ne _ _ e1] at h1
        by_cases e2 : c2 = c
        · subst e2; rw [upd_same] at h2; cases h2; exact absurd h1 (hother c1 e1)
        · rw [upd_ne _ _ e2] at h2; exact h.uniq c1 c2 k' h1 h2
  | @chkNo c k o hc ht => exact tinv_chkNo h hc
  | @overcommit c k hc =>
    have hp := h.pc c
    rw [hc] at hp
    obtain ⟨hk, hu⟩ := hp
    have hother : ∀ c', c' ≠ c → (s.cons c').ticket ≠ some k := fun c' e ht' => e (h.uniq c' c k ht' (by rw [hc]; rfl))
    have hmono : ∀ n, cnt n isFail s.fate ≤ cnt n isFail (upd s.fate k .failD) := fun n =>
      cnt_upd_mono n isFail s.fate k .failD (by rw [hu]; rfl)
    refine ⟨?_, ?_, ?_, ?_, ?_, ?_⟩
    · show s.over + 1 = cnt s.opt isFail (upd s.fate k .failD)
      have := cnt_upd s.opt isFail s.fate k .failD hk; rw [hu] at this
      simp [isFail] at this; rw [this, h.over_eq]
    · show s.head = cnt s.opt isGot (upd s.fate k .failD)
      have := cnt_upd s.opt isGot s.fate k .failD hk; rw [hu] at this
      simp [isGot] at this; rw [this]; exact h.head_eq
    · intro k' hk' hp'
      simp only at hp' ⊢
      show k' + 1 ≤ s.tail + cnt k' isFail (upd s.fate k .failD)
      by_cases e : k' = k
      · subst e; rw [upd_same] at hp'; cases hp'
      · rw [upd_ne _ _ e] at hp'; have := h.pass_le k' hk' hp'; have := hmono k'; omega
    · intro k' hk'
      show upd s.fate k .failD k' = _
      have hk'' : s.opt ≤ k' := hk'
      rw [upd_ne _ _ (by omega)]; exact h.fresh k' hk'
    · intro c'
      by_cases e : c' = c
      · subst e; simp only [Sub.at, upd_same, TPc]
      · simp only [Sub.at, upd_ne _ _ e]
        have h1 := h.pc c'
        have h2 := hother c' e
        revert h1 h2
        cases s.cons c' with
        | opt t o => intro h1 h2; simp only [TPc] at *; omega
        | inc o => intro h1 h2; simp only [TPc] at *; omega
        | chk k' o =>
          simp only [TPc, CPc.ticket, ne_eq, Option.some.injEq]
          intro h1 h2
          rw [upd_ne _ _ h2]
          exact ⟨h1.1, h1.2.1, Nat.le_trans h1.2.2 (hmono k')⟩
        | ovr k' =>
          simp only [TPc, CPc.ticket, ne_eq, Option.some.injEq]; intro h1 h2; rw [upd_ne _ _ h2]; exact h1
        | clm k' =>
          simp only [TPc, CPc.ticket, ne_eq, Option.some.injEq]; intro h1 h2; rw [upd_ne _ _ h2]; exact h1
        | _ => intro _ _; trivial
    · intro c1 c2 k' h1 h2
      simp only [Sub.at] at h1 h2
      by_cases e1 : c1 = c
      · subst e1; rw [upd_same] at h1; cases h1
      · rw [upd_ne _ _ e1] at h1
        by_cases e2 : c2 = c
        · subst e2; rw [upd_same] at h2; cases h2
        · rw [upd_ne _ _ e2] at h2; exact h.uniq c1 c2 k' h1 h2
  | @claim c k hc =>
    have hp := h.pc c
    rw [hc] at hp
    obtain ⟨hk, hu⟩ := hp
    have hother : ∀ c', c' ≠ c → (s.cons c').ticket ≠ some k := fun c' e ht' => e (h.uniq c' c k ht' (by rw [hc]; rfl))
    have hcf : ∀ n, cnt n isFail (upd s.fate k .got) = cnt n isFail s.fate := by
      intro n
      by_cases hkn : k < n
      · have := cnt_upd n isFail s.fate k .got hkn; rw [hu] at this; simpa [isFail] using this
      · exact cnt_upd_out _ _ _ _ _ (by omega)
    refine ⟨?_, ?_, ?_, ?_, ?_, ?_⟩
    · show s.over = cnt s.opt isFail (upd s.fate k .got); rw [hcf]; exact h.over_eq
    · show s.head + 1 = cnt s.opt isGot (upd s.fate k .got)
      have := cnt_upd s.opt isGot s.fate k .got hk; rw [hu] at this
      simp [isGot] at this; rw [this, h.head_eq]
    · intro k' hk' hp'
      simp only at hp' ⊢
      show k' + 1 ≤ s.tail + cnt k' isFail (upd s.fate k .got)
      rw [hcf]
      by_cases e : k' = k
      · subst e; exact h.pass_le k' hk (by rw [hu]; rfl)
      · rw [upd_ne _ _ e] at hp'; exact h.pass_le k' hk' hp'
    · intro k' hk'
      show upd s.fate k .got k' = _
      have hk'' : s.opt ≤ k' := hk'
      rw [upd_ne _ _ (by omega)]; exact h.fresh k' hk'
    · intro c'
      by_cases e : c' = c
      · subst e; simp only [Sub.at, upd_same, TPc]
      · simp only [Sub.at, upd_ne _ _ e]
        have h1 := h.pc c'
        have h2 := hother c' e
        revert h1 h2
        cases s.cons c' <;> simp only [TPc, CPc.ticket, hcf, ne_eq, Option.some.injEq] <;> intro h1 h2 <;> (try exact h1) <;>
          (rw [upd_ne _ _ h2]; exact h1)
    · intro c1 c2 k' h1 h2
      simp only [Sub.at] at h1 h2
      by_cases e1 : c1 = c
      · subst e1; rw [upd_same] at h1; cases h1
      · rw [upd_ne _ _ e1] at h1
        by_cases e2 : c2 = c
        · subst e2; rw [upd_same] at h2; cases h2
        · rw [upd_ne _ _ e2] at h2; exact h.uniq c1 c2 k' h1 h2
  | ldHdr c hc => exact h.at trivial rfl
  | ldIdxTail c hc => exact h.at trivial rfl
  | ldKey c hc => split <;> exact h.at trivial rfl
  | ldVal c hc => split <;> exact h.at trivial rfl
  | read c hc => split <;> exact h.at trivial rfl
  | @setEmpty c i e b x hc =>
    refine TInv.congr (s := s.at c (if (m b).done = B - 1 then .nul i e b x else .ret (some (i, x)))) ?_ rfl rfl rfl (Nat.le_refl _) rfl rfl
    split <;> exact h.at trivial rfl
  | @null c i e b x hc =>
    exact TInv.congr (s := s.at c (.fre i b x)) (h.at trivial rfl) rfl rfl rfl (Nat.le_refl _) rfl rfl
  | free c hc => exact h.at trivial rfl
  | retSome c hc => exact TInv.congr (s := s.at c .out) (h.at trivial rfl) rfl rfl rfl (Nat.le_refl _) rfl rfl
  | retNone c hc => exact h.at trivial rfl
  | publish hp => exact h.congr rfl rfl rfl (Nat.le_succ _) rfl rfl
  | _ => exact h.congr rfl rfl rfl (Nat.le_refl _) rfl rfl

/-! ### Who has which index -/

/-- an element that is being dequeued -/
def CPc.hold : CPc → Option Nat
  | .hdr i => some i
  | .itl i _ => some i
  | .key i _ _ => some i
  | .val i _ => some i
  | .rd i _ _ => some i
  | .emp i _ _ _ => some i
  | .fault i => some i
  | _ => none

/-- an element that has been dequeued and is being returned -/
def CPc.past : CPc → Option (Nat × Nat)
  | .nul i _ _ x => some (i, x)
  | .fre i _ x => some (i, x)
  | .ret (some (i, x)) => some (i, x)
  | _ => none

structure KInv (s : Sub) : Prop where
  hold : ∀ c i, (s.cons c).hold = some i → i < s.head ∧ s.fin i = false
  past : ∀ c i x, (s.cons c).past = some (i, x) → s.fin i = true
  holdU : ∀ c c' i, (s.cons c).hold = some i → (s.cons c').hold = some i → c = c'
  pastU : ∀ c c' i x x', (s.cons c).past = some (i, x) → (s.cons c').past = some (i, x') → c = c'
  fin_lt : ∀ i, s.fin i = true → i < s.head
  held : ∀ i, i < s.head → s.fin i = false → ∃ c, (s.cons c).hold = some i
  outs : ∀ i x, (i, x) ∈ s.outs → s.fin i = true ∧ ∀ c x', (s.cons c).past ≠ some (i, x')
  nodup : (s.outs.map Prod.fst).Nodup
  done : ∀ i, s.fin i = true → (∃ x, (i, x) ∈ s.outs) ∨ ∃ c x, (s.cons c).past = some (i, x)

theorem KInv.init (C : Nat) (g : Nat → Option Nat) : KInv (Sub.init C g) where
  hold := fun _ _ h => nomatch h
  past := fun _ _ _ h => nomatch h
  holdU := fun _ _ _ h => nomatch h
  pastU := fun _ _ _ _ _ h => nomatch h
  fin_lt := fun _ h => nomatch h
  held := fun i h => absurd h (Nat.not_lt_zero i)
  outs := fun _ _ h => nomatch h
  nodup := List.nodup_nil
  done := fun _ h => nomatch h

/-- nothing has changed for the indices -/
theorem KInv.same {s s' : Sub} (h : KInv s) (h1 : ∀ c, (s'.cons c).hold = (s.cons c).hold) (h2 : ∀ c, (s'.cons c).past = (s.cons c).past)
    (h3 : s'.head = s.head) (h4 : s'.fin = s.fin) (h5 : s'.outs = s.outs) : KInv s' where
  hold := by intro c i; rw [h1, h3, h4]; exact h.hold c i
  past := by intro c i x; rw [h2, h4]; exact h.past c i x
  holdU := by intro c c' i; rw [h1, h1]; exact h.holdU c c' i
  pastU := by intro c c' i x x'; rw [h2, h2]; exact h.pastU c c' i x x'
  fin_lt := by rw [h3, h4]; exact h.fin_lt
  held := by intro i; rw [h3, h4]; simp only [h1]; exact h.held i
  outs := by intro i x; rw [h5, h4]; simp only [h2]; exact h.outs i x
  nodup := by rw [h5]; exact h.nodup
  done := by intro i; rw [h4, h5]; simp only [h2]; exact h.done i

theorem KInv.at {s s' : Sub} (h : KInv s) {c : Nat} {pc : CPc} (h1 : pc.hold = (s.cons c).hold) (h2 : pc.past = (s.cons c).past)
    (h3 : s'.head = s.head) (h4 : s'.fin = s.fin) (h5 : s'.outs = s.outs) (h6 : s'.cons = upd s.cons c pc) : KInv s' := by
  refine h.same (fun c' => ?_) (fun c' => ?_) h3 h4 h5 <;> rw [h6] <;> by_cases e : c' = c
  · subst e; rw [upd_same, h1]
  · rw [upd_ne _ _ e]
  · subst e; rw [upd_same, h2]
  · rw [upd_ne _ _ e]

theorem SStep.kinv {B p : Nat} {s s' : Sub} {m m' : Mem} (h : KInv s) (hs : SStep B p s m s' m') : KInv s' := by
  cases hs with
  | call c hc => exact h.at (pc := .start) (by rw [hc]; rfl) (by rw [hc]; rfl) rfl rfl rfl rfl
  | ldTail c hc => exact h.at (pc := .over _) (by rw [hc]; rfl) (by rw [hc]; rfl) rfl rfl rfl rfl
  | ldOver c hc => exact h.at (pc := .opt _ _) (by rw [hc]; rfl) (by rw [hc]; rfl) rfl rfl rfl rfl
  | ldOpt c hc => exact h.at (c := c) (by rw [hc]; split <;> rfl) (by rw [hc]; split <;> rfl) rfl rfl rfl rfl
  | inc c hc => exact h.at (pc := .chk _ _) (by rw [hc]; rfl) (by rw [hc]; rfl) rfl rfl rfl rfl
  | chkOk c hc => exact h.at (pc := .clm _) (by rw [hc]; rfl) (by rw [hc]; rfl) rfl rfl rfl rfl
  | chkNo c hc => exact h.at (pc := .ovr _) (by rw [hc]; rfl) (by rw [hc]; rfl) rfl rfl rfl rfl
  | overcommit c hc => exact h.at (pc := .ret none) (by rw [hc]; rfl) (by rw [hc]; rfl) rfl rfl rfl rfl
  | @claim c k hc =>
    have hnf : s.fin s.head = false := by
      cases hf : s.fin s.head with
      | false => rfl
      | true => exact absurd (h.fin_lt _ hf) (Nat.lt_irrefl _)
    have hnh : ∀ c', (s.cons c').hold ≠ some s.head := fun c' e => Nat.lt_irrefl _ (h.hold c' _ e).1
    refine ⟨?_, ?_, ?_, ?_, ?_, ?_, ?_, h.nodup, ?_⟩ <;> simp only
    · intro c' i hi
      by_cases e : c' = c
      · subst e; rw [upd_same] at hi; cases hi; exact ⟨Nat.lt_succ_self _, hnf⟩
      · rw [upd_ne _ _ e] at hi; exact ⟨Nat.lt_succ_of_lt (h.hold c' i hi).1, (h.hold c' i hi).2⟩
    · intro c' i x hi
      by_cases e : c' = c
      · subst e; rw [upd_same] at hi; cases hi
      · rw [upd_ne _ _ e] at hi; exact h.past c' i x hi
    · intro c1 c2 i h1 h2
      by_cases e1 : c1 = c
      · subst e1
        rw [upd_same] at h1; cases h1
        by_cases e2 : c2 = c1
        · exact e2.symm
        · rw [upd_ne _ _ e2] at h2; exact absurd h2 (hnh c2)
      · rw [upd_ne _ _ e1] at h1
        by_cases e2 : c2 = c
        · subst e2; rw [upd_same] at h2; cases h2; exact absurd h1 (hnh c1)
        · rw [upd_ne _ _ e2] at h2; exact h.holdU c1 c2 i h1 h2
    · intro c1 c2 i x x' h1 h2
      by_cases e1 : c1 = c
      · subst e1; rw [upd_same] at h1; cases h1
      · rw [upd_ne _ _ e1] at h1
        by_cases e2 : c2 = c
        · subst e2; rw [upd_same] at h2; cases h2
        · rw [upd_ne _ _ e2] at h2; exact h.pastU c1 c2 i x x' h1 h2
    · intro i hi; exact Nat.lt_succ_of_lt (h.fin_lt i hi)
    · intro i hi hf
      by_cases e : i = s.head
      · subst e; exact ⟨c, by rw [upd_same]; rfl⟩
      · obtain ⟨c', hc'⟩ := h.held i (by omega) hf
        have : c' ≠ c := by rintro rfl; rw [hc] at hc'; cases hc'
        exact ⟨c', by rw [upd_ne _ _ this]; exact hc'⟩
    · intro i x hx
      refine ⟨(h.outs i x hx).1, fun c' x' => ?_⟩
      by_cases e : c' = c
      · subst e; rw [upd_same]; exact fun h => nomatch h
      · rw [upd_ne _ _ e]; exact (h.outs i x hx).2 c' x'
    · intro i hi
      rcases h.done i hi with h1 | ⟨c', x, h1⟩
      · exact .inl h1
      · have : c' ≠ c := by rintro rfl; rw [hc] at h1; cases h1
        exact .inr ⟨c', x, by rw [upd_ne _ _ this]; exact h1⟩
  | ldHdr c hc => exact h.at (pc := .itl _ _) (by rw [hc]; rfl) (by rw [hc]; rfl) rfl rfl rfl rfl
  | ldIdxTail c hc => exact h.at (pc := .key _ _ _) (by rw [hc]; rfl) (by rw [hc]; rfl) rfl rfl rfl rfl
  | ldKey c hc => exact h.at (c := c) (by rw [hc]; split <;> rfl) (by rw [hc]; split <;> rfl) rfl rfl rfl rfl
  | ldVal c hc => exact h.at (c := c) (by rw [hc]; split <;> rfl) (by rw [hc]; split <;> rfl) rfl rfl rfl rfl
  | read c hc => exact h.at (c := c) (by rw [hc]; split <;> rfl) (by rw [hc]; split <;> rfl) rfl rfl rfl rfl
  | @setEmpty c i e b x hc =>
    have hi := h.hold c i (by rw [hc]; rfl)
    have hp : ∀ c' x', (s.cons c').past ≠ some (i, x') := by
      intro c' x' e'; have := h.past c' i x' e'; rw [hi.2] at this; cases this
    have hpc1 : (if (m b).done = B - 1 then CPc.nul i e b x else .ret (some (i, x))).hold = none := by split <;> rfl
    have hpc2 : (if (m b).done = B - 1 then CPc.nul i e b x else .ret (some (i, x))).past = some (i, x) := by split <;> rfl
    generalize (if (m b).done = B - 1 then CPc.nul i e b x else .ret (some (i, x))) = pc at hpc1 hpc2
    refine ⟨?_, ?_, ?_, ?_, ?_, ?_, ?_, h.nodup, ?_⟩ <;> simp only
    · intro c' i' hi'
      by_cases e : c' = c
      · subst e; rw [upd_same, hpc1] at hi'; cases hi'
      · rw [upd_ne _ _ e] at hi'
        have hne : i' ≠ i := by rintro rfl; exact e (h.holdU c' c i' hi' (by rw [hc]; rfl))
        rw [upd_ne _ _ hne]; exact h.hold c' i' hi'
    · intro c' i' x' hi'
      by_cases e : c' = c
      · subst e; rw [upd_same, hpc2] at hi'; cases hi'; rw [upd_same]
      · rw [upd_ne _ _ e] at hi'
        by_cases e' : i' = i
        · rw [e', upd_same]
        · rw [upd_ne _ _ e']; exact h.past c' i' x' hi'
    · intro c1 c2 i' h1 h2
      by_cases e1 : c1 = c
      · subst e1; rw [upd_same, hpc1] at h1; cases h1
      · rw [upd_ne _ _ e1] at h1
        by_cases e2 : c2 = c
        · subst e2; rw [upd_same, hpc1] at h2; cases h2
        · rw [upd_ne _ _ e2] at h2; exact h.holdU c1 c2 i' h1 h2
    · intro c1 c2 i' x1 x2 h1 h2
      by_cases e1 : c1 = c
      · subst e1
        rw [upd_same, hpc2] at h1; cases h1
        by_cases e2 : c2 = c1
        · exact e2.symm
        · rw [upd_ne _ _ e2] at h2; exact absurd h2 (hp c2 x2)
      · rw [upd_ne _ _ e1] at h1
        by_cases e2 : c2 = c
        · subst e2; rw [upd_same, hpc2] at h2; cases h2; exact absurd h1 (hp c1 x1)
        · rw [upd_ne _ _ e2] at h2; exact h.pastU c1 c2 i' x1 x2 h1 h2
    · intro i' hi'
      by_cases e' : i' = i
      · rw [e']; exact hi.1
      · rw [upd_ne _ _ e'] at hi'; exact h.fin_lt i' hi'
    · intro i' hi' hf
      have e' : i' ≠ i := by rintro rfl; rw [upd_same] at hf; cases hf
      rw [upd_ne _ _ e'] at hf
      obtain ⟨c', hc'⟩ := h.held i' hi' hf
      have : c' ≠ c := by rintro rfl; rw [hc] at hc'; cases hc'; exact e' rfl
      exact ⟨c', by rw [upd_ne _ _ this]; exact hc'⟩
    · intro i' x' hx
      have hne : i' ≠ i := by rintro rfl; have := (h.outs i' x' hx).1; rw [hi.2] at this; cases this
      refine ⟨by rw [upd_ne _ _ hne]; exact (h.outs i' x' hx).1, fun c' x'' => ?_⟩
      by_cases e : c' = c
      · subst e; rw [upd_same, hpc2]; intro e'; cases e'; exact hne rfl
      · rw [upd_ne _ _ e]; exact (h.outs i' x' hx).2 c' x''
    · intro i' hi'
      by_cases e' : i' = i
      · subst e'; exact .inr ⟨c, x, by rw [upd_same, hpc2]⟩
      · rw [upd_ne _ _ e'] at hi'
        rcases h.done i' hi' with h1 | ⟨c', x', h1⟩
        · exact .inl h1
        · have : c' ≠ c := by rintro rfl; rw [hc] at h1; cases h1
          exact .inr ⟨c', x', by rw [upd_ne _ _ this]; exact h1⟩
  | null c hc => exact h.at (pc := .fre _ _ _) (by rw [hc]; rfl) (by rw [hc]; rfl) rfl rfl rfl rfl
  | free c hc => exact h.at (pc := .ret (some (_, _))) (by rw [hc]; rfl) (by rw [hc]; rfl) rfl rfl rfl rfl
  | @retSome c i x hc =>
    have hpc : (s.cons c).past = some (i, x) := by rw [hc]; rfl
    have hfi := h.past c i x hpc
    have hother : ∀ c', c' ≠ c → ∀ x', (s.cons c').past ≠ some (i, x') := fun c' e x' h' => e (h.pastU c' c i x' x h' hpc)
    refine ⟨?_, ?_, ?_, ?_, h.fin_lt, ?_, ?_, ?_, ?_⟩ <;> simp only
    · intro c' i' hi'
      by_cases e : c' = c
      · subst e; rw [upd_same] at hi'; cases hi'
      · rw [upd_ne _ _ e] at hi'; exact h.hold c' i' hi'
    · intro c' i' x' hi'
      by_cases e : c' = c
      · subst e; rw [upd_same] at hi'; cases hi'
      · rw [upd_ne _ _ e] at hi'; exact h.past c' i' x' hi'
    · intro c1 c2 i' h1 h2
      by_cases e1 : c1 = c
      · subst e1; rw [upd_same] at h1; cases h1
      · rw [upd_ne _ _ e1] at h1
        by_cases e2 : c2 = c
        · subst e2; rw [upd_same] at h2; cases h2
        · rw [upd_ne _ _ e2] at h2; exact h.holdU c1 c2 i' h1 h2
    · intro c1 c2 i' x1 x2 h1 h2
      by_cases e1 : c1 = c
      · subst e1; rw [upd_same] at h1; cases h1
      · rw [upd_ne _ _ e1] at h1
        by_cases e2 : c2 = c
        · subst e2; rw [upd_same] at h2; cases h2
        · rw [upd_ne _ _ e2] at h2; exact h.pastU c1 c2 i' x1 x2 h1 h2
    · intro i' hi' hf
      obtain ⟨c', hc'⟩ := h.held i' hi' hf
      have : c' ≠ c := by rintro rfl; rw [hc] at hc'; cases hc'
      exact ⟨c', by rw [upd_ne _ _ this]; exact hc'⟩
    · intro i' x' hx
      rcases List.mem_append.1 hx with hx | hx
      · refine ⟨(h.outs i' x' hx).1, fun c' x'' => ?_⟩
        by_cases e : c' = c
        · subst e; rw [upd_same]; exact fun h => nomatch h
        · rw [upd_ne _ _ e]; exact (h.outs i' x' hx).2 c' x''
      · cases List.mem_singleton.1 hx
        refine ⟨hfi, fun c' x'' => ?_⟩
        by_cases e : c' = c
        · subst e; rw [upd_same]; exact fun h => nomatch h
        · rw [upd_ne _ _ e]; exact hother c' e x''
    · rw [List.map_append, List.nodup_append]
      refine ⟨h.nodup, by simp, ?_⟩
      rintro a ha b hb rfl
      simp only [List.map_cons, List.map_nil, List.mem_singleton] at hb
      obtain ⟨⟨i', x'⟩, hx, rfl⟩ := List.mem_map.1 ha
      subst hb
      exact (h.outs _ x' hx).2 c x hpc
    · intro i' hi'
      rcases h.done i' hi' with ⟨x', h1⟩ | ⟨c', x', h1⟩
      · exact .inl ⟨x', List.mem_append.2 (.inl h1)⟩
      · by_cases e : c' = c
        · subst e; rw [hpc] at h1; cases h1; exact .inl ⟨x, List.mem_append.2 (.inr (List.mem_singleton.2 rfl))⟩
        · exact .inr ⟨c', x', by rw [upd_ne _ _ e]; exact h1⟩
  | retNone c hc => exact h.at (pc := .out) (by rw [hc]; rfl) (by rw [hc]; rfl) rfl rfl rfl rfl
  | _ => exact h.same (fun _ => rfl) (fun _ => rfl) rfl rfl rfl

end RG.MQ
