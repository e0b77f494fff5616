import Verif.Lemmas.TaskQueue5
import Mathlib.Data.List.Perm.Subperm
/-
Lemmas for C88: consequences of the invariants.
-/
set_option linter.unusedVariables false
namespace RG.MQ

/-- A path all of whose states satisfy `Q`. -/
inductive Along (B : Nat) (Q : State → Prop) : State → State → Prop
  | refl {s} (h : Q s) : Along B Q s s
  | step {s s' s'' p} : Along B Q s s' → Step B p s' s'' → Q s'' → Along B Q s s''

variable {B p : Nat} {s : Sub} {m : Mem}

theorem Along.steps {Q : State → Prop} {s s' : State} (h : Along B Q s s') : Steps B s s' := by
  induction h with
  | refl => exact .refl
  | step _ hs _ ih => exact .step ih hs

theorem Along.mono {Q Q' : State → Prop} {s s' : State} (h : Along B Q s s') (hq : ∀ t, Q t → Q' t) : Along B Q' s s' := by
  induction h with
  | refl h => exact .refl (hq _ h)
  | step _ hs h ih => exact .step ih hs (hq _ h)

theorem Along.last {Q : State → Prop} {s s' : State} (h : Along B Q s s') : Q s' := by
  cases h with
  | refl h => exact h
  | step _ _ h => exact h

theorem Steps.reach {C : Nat} {s s' : State} (h0 : Reach B C s) (h : Steps B s s') : Reach B C s' := by
  induction h with
  | refl => exact h0
  | step _ hs ih => exact .step ih hs

def CPc.tok : CPc → Option Nat
  | .hdr i => some i
  | .itl i _ => some i
  | .key i _ _ => some i
  | .val i _ => some i
  | .rd i _ _ => some i
  | .emp i _ _ _ => some i
  | .fault i => some i
  | .nul i _ _ _ => some i
  | .fre i _ _ => some i
  | .ret (some (i, _)) => some i
  | _ => none

/-- A step changes at most one consumer; a new index is the head. -/
theorem SStep.tok {s' : Sub} {m' : Mem} (hs : SStep B p s m s' m') (c : Nat) :
    s.head ≤ s'.head ∧ ∀ i, (s'.cons c).tok = some i → (s.cons c).tok = some i ∨ (i = s.head ∧ s'.head = s.head + 1) := by
  have key : ∀ c0 pc, (∀ i, pc.tok = some i → (s.cons c0).tok = some i) → ∀ i, (upd s.cons c0 pc c).tok = some i →
      (s.cons c).tok = some i ∨ (i = s.head ∧ s'.head = s.head + 1) := by
    intro c0 pc h i hi
    by_cases e : c = c0
    · subst e; rw [upd_same] at hi; exact .inl (h i hi)
    · rw [upd_ne _ _ e] at hi; exact .inl hi
  cases hs with
  | call c0 hc => exact ⟨Nat.le_refl _, key c0 _ (fun i h => nomatch h)⟩
  | ldTail c0 hc => exact ⟨Nat.le_refl _, key c0 _ (fun i h => nomatch h)⟩
  | ldOver c0 hc => exact ⟨Nat.le_refl _, key c0 _ (fun i h => nomatch h)⟩
  | ldOpt c0 hc => exact ⟨Nat.le_refl _, key c0 _ (fun i h => by split at h <;> cases h)⟩
  | inc c0 hc => exact ⟨Nat.le_refl _, key c0 _ (fun i h => nomatch h)⟩
  | chkOk c0 hc => exact ⟨Nat.le_refl _, key c0 _ (fun i h => nomatch h)⟩
  | chkNo c0 hc => exact ⟨Nat.le_refl _, key c0 _ (fun i h => nomatch h)⟩
  | overcommit c0 hc => exact ⟨Nat.le_refl _, key c0 _ (fun i h => nomatch h)⟩
  | claim c0 hc =>
    refine ⟨Nat.le_succ _, fun i hi => ?_⟩
    simp only at hi
    by_cases e : c = c0
    · subst e; rw [upd_same] at hi; cases hi; exact .inr ⟨rfl, rfl⟩
    · rw [upd_ne _ _ e] at hi; exact .inl hi
  | ldHdr c0 hc => exact ⟨Nat.le_refl _, key c0 _ (fun i h => by rw [hc]; exact h)⟩
  | ldIdxTail c0 hc => exact ⟨Nat.le_refl _, key c0 _ (fun i h => by rw [hc]; exact h)⟩
  | ldKey c0 hc => exact ⟨Nat.le_refl _, key c0 _ (fun i h => by rw [hc]; split at h <;> exact h)⟩
  | ldVal c0 hc => exact ⟨Nat.le_refl _, key c0 _ (fun i h => by rw [hc]; split at h <;> exact h)⟩
  | read c0 hc => exact ⟨Nat.le_refl _, key c0 _ (fun i h => by rw [hc]; split at h <;> exact h)⟩
  | setEmpty c0 hc => exact ⟨Nat.le_refl _, key c0 _ (fun i h => by rw [hc]; split at h <;> exact h)⟩
  | null c0 hc => exact ⟨Nat.le_refl _, key c0 _ (fun i h => by rw [hc]; exact h)⟩
  | free c0 hc => exact ⟨Nat.le_refl _, key c0 _ (fun i h => by rw [hc]; exact h)⟩
  | retSome c0 hc => exact ⟨Nat.le_refl _, key c0 _ (fun i h => nomatch h)⟩
  | retNone c0 hc => exact ⟨Nat.le_refl _, key c0 _ (fun i h => nomatch h)⟩
  | _ => exact ⟨Nat.le_refl _, fun i h => .inl h⟩

theorem Steps.tok {s s' : State} (h : Steps B s s') {q c : Nat} (h0 : ((s.subs q).cons c).tok = none) :
    (s.subs q).head ≤ (s'.subs q).head ∧ ∀ i, ((s'.subs q).cons c).tok = some i → (s.subs q).head ≤ i := by
  induction h with
  | refl => exact ⟨Nat.le_refl _, fun i hi => by rw [h0] at hi; cases hi⟩
  | @step _ _ p _ hs ih =>
    obtain ⟨h1, h2⟩ := ih
    cases hs with
    | mk hs =>
      simp only
      by_cases e : q = p
      · subst e
        rw [upd_same]
        obtain ⟨h3, h4⟩ := hs.tok c
        refine ⟨Nat.le_trans h1 h3, fun i hi => ?_⟩
        rcases h4 i hi with h5 | h5
        · exact h2 i h5
        · rw [h5.1]; exact h1
      · rw [upd_ne _ _ e]; exact ⟨h1, h2⟩

/-! ### A consumer alone -/

/-- what consumer `c`, alone since its call when the tail was `t0` and the other counters `h0`, `o0`, knows -/
def Alone (t0 h0 o0 : Nat) (s : Sub) (c : Nat) : Prop :=
  t0 ≤ s.tail ∧ match s.cons c with
  | .out => False
  | .start => s.opt = o0 + h0 ∧ s.over = o0 ∧ s.head = h0
  | .over t => s.opt = o0 + h0 ∧ s.over = o0 ∧ s.head = h0 ∧ t0 ≤ t
  | .opt t o => s.opt = o0 + h0 ∧ s.over = o0 ∧ s.head = h0 ∧ t0 ≤ t ∧ o = o0
  | .inc o => s.opt = o0 + h0 ∧ s.over = o0 ∧ s.head = h0 ∧ o = o0
  | .chk k o => s.head = h0 ∧ k = o0 + h0 ∧ o = o0
  | .clm _ => s.head = h0
  | .ovr _ => t0 ≤ h0
  | .ret none => t0 ≤ h0
  | .ret (some (i, _)) => i = h0
  | .hdr i => i = h0
  | .itl i _ => i = h0
  | .key i _ _ => i = h0
  | .val i _ => i = h0
  | .rd i _ _ => i = h0
  | .emp i _ _ _ => i = h0
  | .nul i _ _ _ => i = h0
  | .fre i _ _ => i = h0
  | .fault i => i = h0

theorem SStep.alone {t0 h0 o0 : Nat} {s' : Sub} {m' : Mem} {c : Nat} (h : Alone t0 h0 o0 s c) (hout : ∀ c', c' ≠ c → s.cons c' = .out)
    (hout' : ∀ c', c' ≠ c → s'.cons c' = .out) (hin : s'.cons c ≠ .out) (hs : SStep B p s m s' m') : Alone t0 h0 o0 s' c := by
  have me : ∀ c0 (pc : CPc), s.cons c0 = pc → pc ≠ .out → c0 = c := by
    intro c0 pc h1 h2
    by_contra e
    rw [hout c0 e] at h1
    exact h2 h1.symm
  cases hs with
  | call c0 hc =>
    by_cases e : c0 = c
    · subst e; unfold Alone at h; rw [hc] at h; exact h.2.elim
    · have := hout' c0 e
      simp only [Sub.at, upd_same] at this
      cases this
  | ldTail c0 hc =>
    cases me c0 _ hc (by simp)
    unfold Alone at h ⊢; rw [hc] at h; simp only [Sub.at, upd_same] at h ⊢; omega
  | ldOver c0 hc =>
    cases me c0 _ hc (by simp)
    unfold Alone at h ⊢; rw [hc] at h; simp only [Sub.at, upd_same] at h ⊢; omega
  | @ldOpt c0 t o hc =>
    cases me c0 _ hc (by simp)
    unfold Alone at h ⊢; rw [hc] at h; simp only [Sub.at, upd_same] at h ⊢
    obtain ⟨h1, h2, h3, h4, h5, h6⟩ := h
    refine ⟨h1, ?_⟩
    by_cases hlt : s.opt - o < t
    · rw [if_pos hlt]; exact ⟨h2, h3, h4, h6⟩
    · rw [if_neg hlt]; simp only; omega
  | inc c0 hc =>
    cases me c0 _ hc (by simp)
    unfold Alone at h ⊢; rw [hc] at h; simp only [upd_same] at h ⊢; omega
  | chkOk c0 hc =>
    cases me c0 _ hc (by simp)
    unfold Alone at h ⊢; rw [hc] at h; simp only [upd_same] at h ⊢; omega
  | chkNo c0 hc =>
    cases me c0 _ hc (by simp)
    unfold Alone at h ⊢; rw [hc] at h; simp only [upd_same] at h ⊢; omega
  | overcommit c0 hc =>
    cases me c0 _ hc (by simp)
    unfold Alone at h ⊢; rw [hc] at h; simp only [upd_same] at h ⊢; omega
  | claim c0 hc =>
    cases me c0 _ hc (by simp)
    unfold Alone at h ⊢; rw [hc] at h; simp only [upd_same] at h ⊢; omega
  | ldHdr c0 hc =>
    cases me c0 _ hc (by simp)
    unfold Alone at h ⊢; rw [hc] at h; simp only [Sub.at, upd_same] at h ⊢; exact h
  | ldIdxTail c0 hc =>
    cases me c0 _ hc (by simp)
    unfold Alone at h ⊢; rw [hc] at h; simp only [Sub.at, upd_same] at h ⊢; exact h
  | ldKey c0 hc =>
    cases me c0 _ hc (by simp)
    unfold Alone at h ⊢; rw [hc] at h; simp only [Sub.at, upd_same] at h ⊢
    refine ⟨h.1, ?_⟩
    split <;> rename_i e <;> split at e <;> cases e <;> exact h.2
  | ldVal c0 hc =>
    cases me c0 _ hc (by simp)
    unfold Alone at h ⊢; rw [hc] at h; simp only [Sub.at, upd_same] at h ⊢
    refine ⟨h.1, ?_⟩
    split <;> rename_i e <;> split at e <;> cases e <;> exact h.2
  | read c0 hc =>
    cases me c0 _ hc (by simp)
    unfold Alone at h ⊢; rw [hc] at h; simp only [Sub.at, upd_same] at h ⊢
    refine ⟨h.1, ?_⟩
    split <;> rename_i e <;> split at e <;> cases e <;> exact h.2
  | setEmpty c0 hc =>
    cases me c0 _ hc (by simp)
    unfold Alone at h ⊢; rw [hc] at h; simp only [upd_same] at h ⊢
    refine ⟨h.1, ?_⟩
    split <;> rename_i e <;> split at e <;> cases e <;> exact h.2
  | null c0 hc =>
    cases me c0 _ hc (by simp)
    unfold Alone at h ⊢; rw [hc] at h; simp only [upd_same] at h ⊢; exact h
  | free c0 hc =>
    cases me c0 _ hc (by simp)
    unfold Alone at h ⊢; rw [hc] at h; simp only [Sub.at, upd_same] at h ⊢; exact h
  | retSome c0 hc =>
    cases me c0 _ hc (by simp)
    simp only [upd_same, ne_eq, not_true_eq_false] at hin
  | retNone c0 hc =>
    cases me c0 _ hc (by simp)
    simp only [Sub.at, upd_same, ne_eq, not_true_eq_false] at hin
  | publish hc => exact ⟨Nat.le_succ_of_le h.1, h.2⟩
  | _ => exact h

/-! ### Counting what has been returned -/

theorem getD_of {l : List Nat} {i x : Nat} (h : l[i]? = some x) : l.getD i 0 = x := by
  rw [List.getD_eq_getElem?_getD, h]; rfl

theorem outs_map (h : BInv B p s m) : s.outs.map Prod.snd = (s.outs.map Prod.fst).map (fun i => s.ins.getD i 0) := by
  rw [List.map_map]
  refine List.map_congr_left fun r hr => ?_
  exact (getD_of (h.outs r.1 r.2 hr)).symm

theorem map_range_take (l : List Nat) (n : Nat) (hn : n ≤ l.length) : (List.range n).map (fun i => l.getD i 0) = l.take n := by
  apply List.ext_getElem
  · simp [hn]
  · intro i h1 h2
    simp only [List.length_map, List.length_range] at h1
    have : i < l.length := by omega
    simp [this]

theorem outs_subperm (h : BInv B p s m) (hk : KInv s) (ht : TInv s) : (s.outs.map Prod.snd).Subperm s.ins := by
  have h1 : (s.outs.map Prod.fst).Subperm (List.range s.ins.length) := by
    apply List.subperm_of_subset hk.nodup
    intro i hi
    obtain ⟨⟨j, x⟩, hx, rfl⟩ := List.mem_map.1 hi
    rw [List.mem_range, h.len]
    exact fin_lt_tail ht hk _ (hk.outs _ _ hx).1
  obtain ⟨l, hp, hs⟩ := h1
  have h2 : (List.range s.ins.length).map (fun i => s.ins.getD i 0) = s.ins := by
    rw [map_range_take _ _ (Nat.le_refl _), List.take_length]
  rw [← h2, outs_map h]
  exact ⟨l.map _, hp.map _, hs.map _⟩

theorem outs_perm (h : BInv B p s m) (hk : KInv s) (ht : TInv s) (hout : ∀ c, s.cons c = .out) :
    s.outs.length = s.head ∧ (s.outs.map Prod.snd).Perm (s.ins.take s.head) := by
  have h1 : (s.outs.map Prod.fst).Perm (List.range s.head) := by
    rw [List.perm_ext_iff_of_nodup hk.nodup List.nodup_range]
    intro i
    rw [List.mem_range]
    constructor
    · intro hi
      obtain ⟨⟨j, x⟩, hx, rfl⟩ := List.mem_map.1 hi
      exact hk.fin_lt _ (hk.outs _ _ hx).1
    · intro hi
      have hf : s.fin i = true := by
        cases hf : s.fin i with
        | true => rfl
        | false =>
          obtain ⟨c, hc⟩ := hk.held i hi hf
          rw [hout c] at hc
          cases hc
      rcases hk.done i hf with ⟨x, hx⟩ | ⟨c, x, hx⟩
      · exact List.mem_map.2 ⟨(i, x), hx, rfl⟩
      · rw [hout c] at hx; cases hx
  refine ⟨by have := h1.length_eq; simpa using this, ?_⟩
  have h2 := h1.map (fun i => s.ins.getD i 0)
  rw [← outs_map h, map_range_take _ _ (by rw [h.len]; exact ht.head_le)] at h2
  exact h2

/-! ### Numbers of steps -/

def CPc.rank : CPc → Nat
  | .out => 0
  | .start => 16
  | .over _ => 15
  | .opt _ _ => 14
  | .inc _ => 13
  | .chk _ _ => 12
  | .ovr _ => 2
  | .clm _ => 11
  | .hdr _ => 10
  | .itl _ _ => 9
  | .key _ _ _ => 8
  | .val _ _ => 7
  | .rd _ _ _ => 6
  | .emp _ _ _ _ => 5
  | .nul _ _ _ _ => 3
  | .fre _ _ _ => 2
  | .ret _ => 1
  | .fault _ => 0

theorem SStep.rank {s' : Sub} {m' : Mem} (hs : SStep B p s m s' m') (c : Nat) (hin : s.cons c ≠ .out) :
    s'.cons c = s.cons c ∨ (s'.cons c).rank < (s.cons c).rank := by
  have key : ∀ c0 pc, (s.cons c0 = .out ∨ pc.rank < (s.cons c0).rank) → upd s.cons c0 pc c = s.cons c ∨ (upd s.cons c0 pc c).rank < (s.cons c).rank := by
    intro c0 pc h
    by_cases e : c = c0
    · subst e; rw [upd_same]; exact .inr (h.resolve_left hin)
    · rw [upd_ne _ _ e]; exact .inl rfl
  cases hs with
  | call c0 hc => exact key c0 _ (.inl hc)
  | ldTail c0 hc => exact key c0 _ (.inr (by rw [hc]; simp [CPc.rank]))
  | ldOver c0 hc => exact key c0 _ (.inr (by rw [hc]; simp [CPc.rank]))
  | ldOpt c0 hc => exact key c0 _ (.inr (by rw [hc]; split <;> simp [CPc.rank]))
  | inc c0 hc => exact key c0 _ (.inr (by rw [hc]; simp [CPc.rank]))
  | chkOk c0 hc => exact key c0 _ (.inr (by rw [hc]; simp [CPc.rank]))
  | chkNo c0 hc => exact key c0 _ (.inr (by rw [hc]; simp [CPc.rank]))
  | overcommit c0 hc => exact key c0 _ (.inr (by rw [hc]; simp [CPc.rank]))
  | claim c0 hc => exact key c0 _ (.inr (by rw [hc]; simp [CPc.rank]))
  | ldHdr c0 hc => exact key c0 _ (.inr (by rw [hc]; simp [CPc.rank]))
  | ldIdxTail c0 hc => exact key c0 _ (.inr (by rw [hc]; simp [CPc.rank]))
  | ldKey c0 hc => exact key c0 _ (.inr (by rw [hc]; split <;> simp [CPc.rank]))
  | ldVal c0 hc => exact key c0 _ (.inr (by rw [hc]; split <;> simp [CPc.rank]))
  | read c0 hc => exact key c0 _ (.inr (by rw [hc]; split <;> simp [CPc.rank]))
  | setEmpty c0 hc => exact key c0 _ (.inr (by rw [hc]; split <;> simp [CPc.rank]))
  | null c0 hc => exact key c0 _ (.inr (by rw [hc]; simp [CPc.rank]))
  | free c0 hc => exact key c0 _ (.inr (by rw [hc]; simp [CPc.rank]))
  | retSome c0 hc => exact key c0 _ (.inr (by rw [hc]; simp [CPc.rank]))
  | retNone c0 hc => exact key c0 _ (.inr (by rw [hc]; simp [CPc.rank]))
  | _ => exact .inl rfl

def PPc.rank : PPc → Nat
  | .out => 0
  | .head _ => 10
  | .idx _ => 9
  | .grow _ => 8
  | .skey _ _ _ => 7
  | .stl _ _ _ => 6
  | .blk _ _ => 5
  | .rst _ _ _ => 4
  | .sval _ _ _ => 3
  | .wr _ => 2
  | .pub _ => 1
  | .fault => 0

theorem SStep.prank {s' : Sub} {m' : Mem} (hs : SStep B p s m s' m') (hin : s.prod ≠ .out) :
    s'.prod = s.prod ∨ s'.prod.rank < s.prod.rank := by
  cases hs with
  | enqueue x hc => exact absurd hc hin
  | ldHead hc => right; rw [hc]; simp only; split <;> simp [PPc.rank]
  | idxOk hc he => right; rw [hc]; simp [PPc.rank]
  | idxFull hc he hv => right; rw [hc]; simp [PPc.rank]
  | grow hc g => right; rw [hc]; simp [PPc.rank]
  | storeKey hc => right; rw [hc]; simp [PPc.rank]
  | storeTail hc => right; rw [hc]; simp [PPc.rank]
  | requisition hc b hb => right; rw [hc]; simp [PPc.rank]
  | resetEmpty hc => right; rw [hc]; simp [PPc.rank]
  | storeVal hc => right; rw [hc]; simp [PPc.rank]
  | write hc => right; rw [hc]; simp [PPc.rank]
  | publish hc => right; rw [hc]; simp [PPc.rank]
  | _ => exact .inl rfl

/-- A consumer inside can go on. -/
theorem exC_some {c : Nat} (h : ∀ i, s.cons c ≠ .fault i) : ∃ r, exC B c s m = some r ∧ (s.cons c ≠ .out → r.1.cons c ≠ s.cons c) := by
  unfold exC
  split
  case h_19 i hc => exact absurd hc (h i)
  case h_6 hc =>
    split <;> exact ⟨_, rfl, fun _ => by simp only [upd_same, hc]; simp⟩
  all_goals
    rename_i hc
    refine ⟨_, rfl, fun _ => ?_⟩
    simp only [Sub.at, upd_same, hc]
    try split
    all_goals simp

theorem exP_some (x : Nat) (h : s.prod ≠ .fault) (hb : (m x).owner = none) : ∃ r, exP B p x s m = some r ∧ (s.prod ≠ .out → r.1.prod ≠ s.prod) := by
  unfold exP
  split
  case h_12 hc => exact absurd hc h
  case h_3 hc =>
    split <;> exact ⟨_, rfl, fun _ => by simp only [hc]; simp⟩
  case h_7 hc =>
    rw [if_pos hb]; exact ⟨_, rfl, fun _ => by simp only [hc]; simp⟩
  all_goals
    rename_i hc
    refine ⟨_, rfl, fun _ => ?_⟩
    simp only [hc]
    try split
    all_goals simp

theorem SStep.ins {s' : Sub} {m' : Mem} (hs : SStep B p s m s' m') : ∃ l, s'.ins = s.ins ++ l := by
  cases hs with
  | publish hc => exact ⟨[_], rfl⟩
  | _ => exact ⟨[], (List.append_nil _).symm⟩

/-! ### Concrete runs all of whose states satisfy a condition -/

def runQ (B : Nat) (Q : State → Bool) : List Act → State → Option State
  | [], s => if Q s then some s else none
  | a :: l, s => if Q s then (ex B s a).bind (runQ B Q l) else none

theorem Along.trans {Q : State → Prop} {s s' s'' : State} (h : Along B Q s s') (h' : Along B Q s' s'') : Along B Q s s'' := by
  induction h' with
  | refl => exact h
  | step _ hs hq ih => exact .step ih hs hq

theorem runQ_along {Q : State → Bool} {l : List Act} {s s' : State} (h : runQ B Q l s = some s') : Along B (fun t => Q t = true) s s' := by
  induction l generalizing s with
  | nil =>
    simp only [runQ] at h
    split at h
    · rename_i hq; cases h; exact .refl hq
    · cases h
  | cons a l ih =>
    simp only [runQ] at h
    split at h
    · rename_i hq
      rw [Option.bind_eq_some_iff] at h
      obtain ⟨s1, h1, h2⟩ := h
      obtain ⟨p, h3⟩ := ex_sound h1
      have h4 := ih h2
      have hq1 : Q s1 = true := by
        cases l with
        | nil => simp only [runQ] at h2; split at h2 <;> first | assumption | cases h2
        | cons b l => simp only [runQ] at h2; split at h2 <;> first | assumption | cases h2
      exact (Along.step (.refl hq) h3 hq1).trans h4
    · cases h

theorem exC_other {c c' : Nat} {r : Sub × Mem} (h : exC B c s m = some r) (hc : c' ≠ c) : r.1.cons c' = s.cons c' := by
  unfold exC at h
  split at h
  case h_6 => split at h <;> cases h <;> exact upd_ne _ _ hc
  all_goals first | cases h; exact upd_ne _ _ hc | cases h

theorem exP_other {x : Nat} {r : Sub × Mem} (h : exP B p x s m = some r) : r.1.cons = s.cons := by
  unfold exP at h
  split at h
  case h_3 => split at h <;> cases h <;> rfl
  case h_7 => split at h <;> cases h; rfl
  all_goals first | cases h; rfl | cases h

/-- consumers that do not occur in the run stay outside -/
theorem ex_out {s s' : State} {a : Act} {q : Nat} (h : ex B s a = some s') {L : List Nat} (ha : ∀ c, a = .c q c → c ∈ L)
    (h0 : ∀ c, c ∉ L → (s.subs q).cons c = .out) : ∀ c, c ∉ L → (s'.subs q).cons c = .out := by
  intro c hc
  cases a with
  | c p c0 =>
    simp only [ex, Option.map_eq_some_iff] at h
    obtain ⟨r, h1, rfl⟩ := h
    simp only
    by_cases e : q = p
    · subst e
      rw [upd_same, exC_other h1 (by rintro rfl; exact hc (ha c rfl))]
      exact h0 c hc
    · rw [upd_ne _ _ e]; exact h0 c hc
  | p p x =>
    simp only [ex, Option.map_eq_some_iff] at h
    obtain ⟨r, h1, rfl⟩ := h
    simp only
    by_cases e : q = p
    · subst e
      rw [upd_same, exP_other h1]
      exact h0 c hc
    · rw [upd_ne _ _ e]; exact h0 c hc

theorem run_out {l : List Act} {s s' : State} {q : Nat} (h : run B l s = some s') {L : List Nat} (ha : ∀ a, a ∈ l → ∀ c, a = .c q c → c ∈ L)
    (h0 : ∀ c, c ∉ L → (s.subs q).cons c = .out) : ∀ c, c ∉ L → (s'.subs q).cons c = .out := by
  induction l generalizing s with
  | nil => cases h; exact h0
  | cons a l ih =>
    simp only [run, Option.bind_eq_some_iff] at h
    obtain ⟨s1, h1, h2⟩ := h
    exact ih h2 (fun b hb => ha b (List.mem_cons_of_mem _ hb)) (ex_out h1 (ha a List.mem_cons_self) h0)

theorem runQ_out {Q : State → Bool} {l : List Act} {s s' : State} {q : Nat} (h : runQ B Q l s = some s') {L : List Nat}
    (ha : ∀ a, a ∈ l → ∀ c, a = .c q c → c ∈ L) (h0 : ∀ c, c ∉ L → (s.subs q).cons c = .out) :
    Along B (fun t => Q t = true ∧ ∀ c, c ∉ L → (t.subs q).cons c = .out) s s' := by
  induction l generalizing s with
  | nil =>
    simp only [runQ] at h
    split at h
    · rename_i hq; cases h; exact .refl ⟨hq, h0⟩
    · cases h
  | cons a l ih =>
    simp only [runQ] at h
    split at h
    · rename_i hq
      rw [Option.bind_eq_some_iff] at h
      obtain ⟨s1, h1, h2⟩ := h
      obtain ⟨p, h3⟩ := ex_sound h1
      have h5 := ex_out h1 (ha a List.mem_cons_self) h0
      have h4 := ih h2 (fun b hb => ha b (List.mem_cons_of_mem _ hb)) h5
      have hq1 : Q s1 = true := by
        cases l with
        | nil => simp only [runQ] at h2; split at h2 <;> first | assumption | cases h2
        | cons b l => simp only [runQ] at h2; split at h2 <;> first | assumption | cases h2
      exact (Along.step (.refl ⟨hq, h0⟩) h3 ⟨hq1, h5⟩).trans h4
    · cases h

/-- the consumers of the sub-queue `q` in a run -/
def Act.who (q : Nat) : Act → List Nat
  | .c a b => if a = q then [b] else []
  | .p _ _ => []

theorem who_sound {q : Nat} {l : List Act} {L : List Nat} (h : ∀ c, c ∈ l.flatMap (Act.who q) → c ∈ L) : ∀ a, a ∈ l → ∀ c, a = .c q c → c ∈ L := by
  rintro a ha c rfl
  exact h c (List.mem_flatMap.2 ⟨_, ha, by simp [Act.who]⟩)

end RG.MQ
