import Verif.Lemmas.TaskQueue7
/-
C88: the task queue (moodycamel::ConcurrentQueue with one sub-queue per pushing thread), for every block size `B ≥ 2` and initial index size `C ≥ 1` (32 and 32 in the code),
any number of pushing and popping threads and every interleaving of their atomic accesses.

`(s.subs p).ins` are the elements that `push` of thread `p` has completely pushed, in order; `(s.subs p).outs` those that `pop` has returned from its sub-queue.
-/
set_option linter.unusedVariables false
namespace RG.MQ

variable {B C : Nat}

/-- Nothing uses a null pointer, a missing block or a destroyed element, and the assertion in `enqueue` holds. -/
theorem C88_no_fault (hB : 2 ≤ B) (hC : 0 < C) {s : State} (h : Reach B C s) (p : Nat) :
    (∀ c i, (s.subs p).cons c ≠ .fault i) ∧ (s.subs p).prod ≠ .fault := by
  have hb := (h.inv hB hC).b p
  constructor
  · intro c i e
    have := hb.pc c
    rw [e] at this
    exact this
  · intro e
    have := hb.prod
    rw [e] at this
    exact this

/-- Every block that is accessed belongs to the sub-queue in which it is accessed: no thread uses a block after it has been given back - to the pool or, if it has been allocated, to the heap - and no block is given back twice.
The entry of the index that a `pop` has found is the one of the block of its element (the assertion in line 2962). -/
theorem C88_no_use_after_free (hB : 2 ≤ B) (hC : 0 < C) {s : State} (h : Reach B C s) (p : Nat) :
    (∀ c, match (s.subs p).cons c with
      | .val i e => ((s.subs p).entries e).key = i - i % B ∧ ∃ b, ((s.subs p).entries e).value = some b
      | .rd i _ b | .emp i _ b _ | .nul i _ b _ | .fre i b _ => (s.mem b).owner = some (p, i / B)
      | _ => True) ∧
    (match (s.subs p).prod with
      | .rst _ _ b | .sval _ _ b => (s.mem b).owner = some (p, (s.subs p).tail / B)
      | .wr _ => (s.mem (s.subs p).tailBlock).owner = some (p, (s.subs p).tail / B)
      | _ => True) :=
  (h.inv hB hC).no_use_after_free hB p

/-- Threads that are about to access an element - to move it out or to construct it - access different ones, in whatever sub-queues they are: there is no data race on elements. -/
theorem C88_elements_exclusive (hB : 2 ≤ B) (hC : 0 < C) {s : State} (h : Reach B C s) {p c i e b : Nat} (hc : (s.subs p).cons c = .rd i e b) :
    (∀ q c' i' e', (s.subs q).cons c' = .rd i' e' b → i' % B = i % B → q = p ∧ c' = c) ∧
    (∀ q x, (s.subs q).prod = .wr x → (s.subs q).tailBlock = b → (s.subs q).tail % B ≠ i % B) := by
  have hB0 : 0 < B := by omega
  have hinv := h.inv hB hC
  have own : ∀ q c' i' e', (s.subs q).cons c' = .rd i' e' b → (s.mem b).owner = some (q, i' / B) := by
    intro q c' i' e' h'
    have hp := (hinv.b q).pc c'
    rw [h'] at hp
    rw [hp.2]
    exact ((hinv.b q).val _ (hold_lt hB0 (hinv.t q) (hinv.k q) (hinv.b q) (c := c') (i := i') (by rw [h']; rfl))
      (not_full hB0 ((hinv.k q).hold c' i' (by rw [h']; rfl)).2)).owner
  have h0 := own p c i e hc
  constructor
  · intro q c' i' e' h' hm
    have h1 := own q c' i' e' h'
    rw [h0] at h1
    injection h1 with h1
    injection h1 with h1 h2
    subst h1
    have hi : i = i' := eq_of_div_mod h2 hm.symm
    subst hi
    exact ⟨rfl, (hinv.k p).holdU c' c i (by rw [h']; rfl) (by rw [hc]; rfl)⟩
  · intro q x hx hb hm
    have hP := (hinv.b q).prod
    rw [hx] at hP
    obtain ⟨h1, h2, h3, h4⟩ := hP
    have h5 := ((hinv.b q).val ((s.subs q).tail / B) (by rw [Nat.div_lt_iff_lt_mul hB0]; exact h2)
      (not_full hB0 (tail_not_fin (hinv.t q) (hinv.k q) (Nat.le_refl _)))).owner
    rw [← h4, hb, h0] at h5
    injection h5 with h5
    injection h5 with h5 h6
    subst h5
    have hi := (hinv.k p).hold c i (by rw [hc]; rfl)
    have h7 := Nat.lt_of_lt_of_le hi.1 (hinv.t p).head_le
    have := eq_of_div_mod h6 hm.symm
    omega

/-- Every element is returned at most as often as it has been pushed, and nothing else is returned. -/
theorem C88_returned_at_most_once (hB : 2 ≤ B) (hC : 0 < C) {s : State} (h : Reach B C s) (p : Nat) :
    ((s.subs p).outs.map Prod.snd).Subperm (s.subs p).ins :=
  outs_subperm ((h.inv hB hC).b p) ((h.inv hB hC).k p) ((h.inv hB hC).t p)

/-- Nothing is lost: when no `pop` is under way, what has been returned are the oldest elements pushed; the others are still there (they are returned by `C88_fails_only_if_empty_partial`). -/
theorem C88_nothing_lost (hB : 2 ≤ B) (hC : 0 < C) {s : State} (h : Reach B C s) (p : Nat) (hout : ∀ c, (s.subs p).cons c = .out) :
    ((s.subs p).outs.map Prod.snd).Perm ((s.subs p).ins.take (s.subs p).outs.length) := by
  have h1 := outs_perm ((h.inv hB hC).b p) ((h.inv hB hC).k p) ((h.inv hB hC).t p) hout
  rw [h1.1]
  exact h1.2

/-- No block is kept longer than needed: when no call is under way, each block that a sub-queue has is the only one for its elements, and at least one of these has not been returned.
(The others are in the pool, from where they are taken again: C90.) -/
theorem C88_no_leak (hB : 2 ≤ B) (hC : 0 < C) {s : State} (h : Reach B C s) (p : Nat) (hout : ∀ c, (s.subs p).cons c = .out) (hp : (s.subs p).prod = .out)
    {b k : Nat} (hb : (s.mem b).owner = some (p, k)) :
    (∃ i, k * B ≤ i ∧ i < (k + 1) * B ∧ i ∉ (s.subs p).outs.map Prod.fst) ∧ ∀ b', (s.mem b').owner = some (p, k) → b' = b := by
  have own : ∀ b, (s.mem b).owner = some (p, k) → b = (s.subs p).blkOf k := by
    intro b hb
    rcases h.linv hB hC p b k hb with h1 | ⟨c, h2⟩ | h2
    · exact h1.2.2
    · rw [hout c] at h2; exact nomatch h2
    · rw [hp] at h2; exact nomatch h2.1
  rcases h.linv hB hC p b k hb with ⟨h1, h2, h3⟩ | ⟨c, h2⟩ | h2
  · refine ⟨?_, fun b' hb' => by rw [own b' hb', ← h3]⟩
    unfold Full at h2
    push Not at h2
    obtain ⟨j, hj, hf⟩ := h2
    refine ⟨k * B + j, by omega, by rw [Nat.succ_mul]; omega, fun hm => hf ?_⟩
    obtain ⟨⟨i, x⟩, hx, e⟩ := List.mem_map.1 hm
    have := (((h.inv hB hC).k p).outs i x hx).1
    rw [show i = k * B + j from e] at this
    exact this
  · rw [hout c] at h2; exact nomatch h2
  · rw [hp] at h2; exact nomatch h2.1

/-- The memory a sub-queue has depends on what is in it: with `n` elements in it, when no call is under way, fewer than `n / B + 2` blocks. Every list of different blocks is that short. -/
theorem C88_bounded_memory (hB : 2 ≤ B) (hC : 0 < C) {s : State} (h : Reach B C s) (p : Nat) (hout : ∀ c, (s.subs p).cons c = .out) (hp : (s.subs p).prod = .out)
    {L : List Nat} (hL : L.Nodup) (hb : ∀ b, b ∈ L → ∃ k, (s.mem b).owner = some (p, k)) :
    L.length * B < (s.subs p).ins.length - (s.subs p).outs.length + 2 * B := by
  have I := h.inv hB hC
  have ho := (outs_perm (I.b p) (I.k p) (I.t p) hout).1
  have hfin : ∀ i, i < (s.subs p).head → (s.subs p).fin i = true := by
    intro i hi
    cases hf : (s.subs p).fin i with
    | true => rfl
    | false =>
      obtain ⟨c, hc⟩ := (I.k p).held i hi hf
      rw [hout c] at hc
      exact nomatch hc
  have hsub : L ⊆ ((List.range (s.subs p).ns).drop ((s.subs p).head / B)).map (s.subs p).blkOf := by
    intro b hbL
    obtain ⟨k, hk⟩ := hb b hbL
    rcases h.linv hB hC p b k hk with ⟨h1, h2, h3⟩ | ⟨c, h2⟩ | h2
    · refine List.mem_map.2 ⟨k, ?_, h3.symm⟩
      rw [List.mem_drop_iff_getElem]
      have hge : (s.subs p).head / B ≤ k := by
        refine Nat.le_of_not_lt fun hlt => h2 fun j hj => hfin _ ?_
        have h4 := Nat.mul_le_mul_right B hlt
        rw [Nat.succ_mul] at h4
        have := Nat.div_mul_le_self (s.subs p).head B
        omega
      exact ⟨k - (s.subs p).head / B, by rw [List.length_range]; omega, by rw [List.getElem_range]; omega⟩
    · rw [hout c] at h2; exact nomatch h2
    · rw [hp] at h2; exact nomatch h2.1
  have hlen := (List.subperm_of_subset hL hsub).length_le
  rw [List.length_map, List.length_drop, List.length_range] at hlen
  have hP := (I.b p).prod
  rw [hp] at hP
  have h1 := hP.2.1
  have h2 := (I.b p).len
  have h3 := (I.t p).head_le
  have h4 := Nat.div_add_mod' (s.subs p).head B
  have h5 := Nat.mod_lt (s.subs p).head (show 0 < B by omega)
  have h6 := Nat.mul_le_mul_right B hlen
  rw [Nat.sub_mul] at h6
  rw [ho, h2]
  have h7 : (s.subs p).head / B * B ≤ (s.subs p).ns * B := Nat.le_trans (by omega) hP.2.2.1
  omega

/-- First in, first out for each pushing thread: what a `pop` returns has been pushed after everything that had been returned before the `pop` began. -/
theorem C88_fifo (hB : 2 ≤ B) (hC : 0 < C) {s s' : State} (h : Reach B C s) (h' : Steps B s s') {p c : Nat} (hc : (s.subs p).cons c = .out)
    {i x j y : Nat} (hi : (i, x) ∈ (s.subs p).outs) (hj : (s'.subs p).cons c = .ret (some (j, y))) :
    i < j ∧ (s'.subs p).ins[i]? = some x ∧ (s'.subs p).ins[j]? = some y := by
  have hinv := h.inv hB hC
  have hinv' := (h'.reach h).inv hB hC
  have h1 := (h'.tok (q := p) (c := c) (by rw [hc]; rfl)).2 j (by rw [hj]; rfl)
  have h2 := (hinv.k p).fin_lt i ((hinv.k p).outs i x hi).1
  refine ⟨by omega, ?_, ?_⟩
  · have key : ∀ t, Steps B s t → ∃ l, (t.subs p).ins = (s.subs p).ins ++ l := by
      intro t ht
      induction ht with
      | refl => exact ⟨[], (List.append_nil _).symm⟩
      | @step _ _ q _ hs ih =>
        obtain ⟨l, hl⟩ := ih
        cases hs with
        | mk hs =>
          simp only
          by_cases e : p = q
          · subst e
            rw [upd_same]
            obtain ⟨l', hl'⟩ := hs.ins
            exact ⟨l ++ l', by rw [hl', hl, List.append_assoc]⟩
          · rw [upd_ne _ _ e]; exact ⟨l, hl⟩
    obtain ⟨l, hl⟩ := key s' h'
    have h3 := (hinv.b p).outs i x hi
    rw [hl, List.getElem?_append_left (List.getElem?_eq_some_iff.1 h3).1]
    exact h3
  · have := (hinv'.b p).pc c
    rw [hj] at this
    exact this

/-- The part that holds of "`pop` finds nothing only if there is nothing": a `pop` that no other `pop` of the same sub-queue overlaps
returns nothing only if everything pushed before its call had been returned, and otherwise the oldest element that had not. -/
theorem C88_fails_only_if_empty_partial (hB : 2 ≤ B) (hC : 0 < C) {s s' : State} (h : Reach B C s) {p c : Nat} (hc : (s.subs p).cons c = .start)
    (hp : Along B (fun t => (t.subs p).cons c ≠ .out ∧ ∀ c', c' ≠ c → (t.subs p).cons c' = .out) s s') {r : Option (Nat × Nat)} (hr : (s'.subs p).cons c = .ret r) :
    match r with
    | none => (s.subs p).outs.length = (s.subs p).ins.length
    | some (_, x) => (s.subs p).ins[(s.subs p).outs.length]? = some x ∨
        (s.subs p).ins.length ≤ (s.subs p).outs.length ∧ (s'.subs p).ins[(s.subs p).outs.length]? = some x := by
  have hinv := h.inv hB hC
  have hinv' := (hp.steps.reach h).inv hB hC
  have hfirst : ∀ c', c' ≠ c → (s.subs p).cons c' = .out := by
    have : ∀ {t}, Along B (fun t => (t.subs p).cons c ≠ .out ∧ ∀ c', c' ≠ c → (t.subs p).cons c' = .out) s t → ∀ c', c' ≠ c → (s.subs p).cons c' = .out := by
      intro t ht
      induction ht with
      | refl h => exact h.2
      | step _ _ _ ih => exact ih
    exact this hp
  have htick : ∀ c', ((s.subs p).cons c').ticket = none := by
    intro c'
    by_cases e : c' = c
    · rw [e, hc]; rfl
    · rw [hfirst c' e]; rfl
  have hcount := counts_quiet (hinv.t p) (h.qinv hB hC p) htick
  have hlen : (s.subs p).outs.length = (s.subs p).head := by
    -- the caller of `pop` has no element yet
    have h1 : ((s.subs p).outs.map Prod.fst).Perm (List.range (s.subs p).head) := by
      rw [List.perm_ext_iff_of_nodup (hinv.k p).nodup List.nodup_range]
      intro i
      rw [List.mem_range]
      constructor
      · intro hi
        obtain ⟨⟨j, x⟩, hx, rfl⟩ := List.mem_map.1 hi
        exact (hinv.k p).fin_lt _ ((hinv.k p).outs _ _ hx).1
      · intro hi
        have hf : (s.subs p).fin i = true := by
          cases hf : (s.subs p).fin i with
          | true => rfl
          | false =>
            obtain ⟨c', hc'⟩ := (hinv.k p).held i hi hf
            by_cases e : c' = c
            · rw [e, hc] at hc'; cases hc'
            · rw [hfirst c' e] at hc'; cases hc'
        rcases (hinv.k p).done i hf with ⟨x, hx⟩ | ⟨c', x, hx⟩
        · exact List.mem_map.2 ⟨(i, x), hx, rfl⟩
        · by_cases e : c' = c
          · rw [e, hc] at hx; cases hx
          · rw [hfirst c' e] at hx; cases hx
    have := h1.length_eq
    simpa using this
  have key : ∀ {t}, Along B (fun t => (t.subs p).cons c ≠ .out ∧ ∀ c', c' ≠ c → (t.subs p).cons c' = .out) s t →
      Alone (s.subs p).tail (s.subs p).head (s.subs p).over (t.subs p) c ∧ ∃ l, (t.subs p).ins = (s.subs p).ins ++ l := by
    intro t ht
    induction ht with
    | refl _ =>
      refine ⟨?_, [], (List.append_nil _).symm⟩
      unfold Alone
      rw [hc]
      exact ⟨Nat.le_refl _, hcount, rfl, rfl⟩
    | @step _ _ q ha hs hQ ih =>
      have hl := ha.last
      obtain ⟨h1, l, h2⟩ := ih
      cases hs with
      | mk hs =>
        simp only at hQ ⊢
        by_cases e : p = q
        · subst e
          rw [upd_same] at hQ ⊢
          refine ⟨hs.alone h1 hl.2 hQ.2 hQ.1, ?_⟩
          obtain ⟨l', hl'⟩ := hs.ins
          exact ⟨l ++ l', by rw [hl', h2, List.append_assoc]⟩
        · rw [upd_ne _ _ e]; exact ⟨h1, l, h2⟩
  obtain ⟨h1, l, h2⟩ := key hp
  unfold Alone at h1
  rw [hr] at h1
  cases r with
  | none =>
    simp only at h1 ⊢
    have := (hinv.t p).head_le
    rw [hlen, (hinv.b p).len]
    omega
  | some r =>
    obtain ⟨i, x⟩ := r
    simp only at h1 ⊢
    have h3 := (hinv'.b p).pc c
    rw [hr] at h3
    have h3 : (s'.subs p).ins[i]? = some x := h3
    rw [h1.2, ← hlen] at h3
    by_cases hlt : (s.subs p).outs.length < (s.subs p).ins.length
    · left
      rw [h2, List.getElem?_append_left hlt] at h3
      exact h3
    · right
      exact ⟨by omega, h3⟩

/-- the run of `C88_fails_only_if_empty_false`: thread 0 pushes 7; threads 1 and 2 both see it; 1 takes it, 2 finds that it is too late but has not corrected the count yet; thread 0 pushes 8;
then thread 3 calls `pop` -/
def spuriousRun : List Act :=
  rep 1 (.p 0 7) ++ rep 9 (.p 0 0) ++ rep 4 (.c 0 1) ++ rep 4 (.c 0 2) ++ rep 10 (.c 0 1) ++ rep 2 (.c 0 2) ++ rep 3 (.p 0 8)

/-- "`pop` finds nothing only if, at some moment during the call, there is nothing that no other `pop` has taken" is false: an element that has been pushed before the call may be overlooked,
although it is there all the time, nobody takes it, and no other thread makes a step. -/
theorem C88_fails_only_if_empty_false :
    ∃ s s', Reach 32 32 s ∧ (s.subs 0).cons 3 = .start ∧ (s.subs 0).ins = [7, 8] ∧
      Along 32 (fun t => (t.subs 0).cons 3 ≠ .out ∧ (t.subs 0).outs = [(0, 7)] ∧ (t.subs 0).ins = [7, 8] ∧ (t.subs 0).head < (t.subs 0).tail) s s' ∧
      (s'.subs 0).cons 3 = .ret none := by
  obtain ⟨s, hs⟩ : ∃ s, run 32 (spuriousRun ++ [.c 0 3]) (State.init 32) = some s := Option.isSome_iff_exists.1 (by decide +kernel)
  have h1 : ((run 32 (spuriousRun ++ [.c 0 3]) (State.init 32)).map fun s => ((s.subs 0).cons 3, (s.subs 0).ins)) = some (.start, [7, 8]) := by decide +kernel
  rw [hs] at h1
  injection h1 with h1
  injection h1 with h1 h2
  have h3 : ((run 32 (spuriousRun ++ [.c 0 3]) (State.init 32)).bind fun s => (runQ 32 (fun t => decide ((t.subs 0).cons 3 ≠ .out ∧ (t.subs 0).outs = [(0, 7)] ∧
    (t.subs 0).ins = [7, 8] ∧ (t.subs 0).head < (t.subs 0).tail)) (rep 3 (.c 0 3)) s).map fun s' => (s'.subs 0).cons 3) = some (.ret none) := by decide +kernel
  rw [hs, Option.bind_some, Option.map_eq_some_iff] at h3
  obtain ⟨s', h4, h5⟩ := h3
  refine ⟨s, s', run_reach (State.init_reach 32 32) hs, h1, h2, ?_, h5⟩
  have := runQ_along h4
  simpa only [decide_eq_true_eq] using this

/-- `n` of the steps of the path are steps of the `pop` that thread `c` has called in the sub-queue `p`. -/
inductive PopSteps (B p c : Nat) : Nat → State → State → Prop
  | refl {s} : PopSteps B p c 0 s s
  | own {n s s' s'' q} : PopSteps B p c n s s' → (s'.subs p).cons c ≠ .out → Step B q s' s'' → (s''.subs p).cons c ≠ (s'.subs p).cons c → PopSteps B p c (n + 1) s s''
  | other {n s s' s'' q} : PopSteps B p c n s s' → Step B q s' s'' → (s''.subs p).cons c = (s'.subs p).cons c → PopSteps B p c n s s''

/-- likewise for the `push` of thread `p` -/
inductive PushSteps (B p : Nat) : Nat → State → State → Prop
  | refl {s} : PushSteps B p 0 s s
  | own {n s s' s'' q} : PushSteps B p n s s' → (s'.subs p).prod ≠ .out → Step B q s' s'' → (s''.subs p).prod ≠ (s'.subs p).prod → PushSteps B p (n + 1) s s''
  | other {n s s' s'' q} : PushSteps B p n s s' → Step B q s' s'' → (s''.subs p).prod = (s'.subs p).prod → PushSteps B p n s s''

/-- No thread waits for another one: a `pop` of a sub-queue ends after at most 16 steps of its own whatever the other threads do, and it can always make its next step. -/
theorem C88_pop_wait_free (hB : 2 ≤ B) (hC : 0 < C) {s : State} (h : Reach B C s) {p c : Nat} (hc : (s.subs p).cons c ≠ .out) :
    (∀ n s', PopSteps B p c n s s' → n ≤ 16) ∧ ∃ s', Step B p s s' ∧ (s'.subs p).cons c ≠ (s.subs p).cons c := by
  constructor
  · intro n s' hn
    have key : n + ((s'.subs p).cons c).rank ≤ ((s.subs p).cons c).rank := by
      clear h hc
      induction hn with
      | refl => omega
      | @own n _ s1 s2 q _ hin hs hne ih =>
        cases hs with
        | mk hs =>
          simp only at hne ⊢
          by_cases e : p = q
          · subst e
            rw [upd_same] at hne ⊢
            have := (hs.rank c hin).resolve_left hne
            omega
          · rw [upd_ne _ _ e] at hne; exact absurd rfl hne
      | other _ hs heq ih => rw [heq]; exact ih
    have : ((s.subs p).cons c).rank ≤ 16 := by
      cases (s.subs p).cons c <;> simp [CPc.rank]
    omega
  · obtain ⟨r, h1, h2⟩ := exC_some (B := B) (m := s.mem) (c := c) (s := s.subs p) (fun i => (C88_no_fault hB hC h p).1 c i)
    exact ⟨⟨upd s.subs p r.1, r.2⟩, .mk (exC_sound h1), by simp only [upd_same]; exact h2 hc⟩

/-- Likewise for `push`, after at most 10 steps, as long as a block is free or can be allocated. -/
theorem C88_push_wait_free (hB : 2 ≤ B) (hC : 0 < C) {s : State} (h : Reach B C s) {p : Nat} (hc : (s.subs p).prod ≠ .out) :
    (∀ n s', PushSteps B p n s s' → n ≤ 10) ∧ ((∃ b, (s.mem b).owner = none) → ∃ s', Step B p s s' ∧ (s'.subs p).prod ≠ (s.subs p).prod) := by
  constructor
  · intro n s' hn
    have key : n + ((s'.subs p).prod).rank ≤ ((s.subs p).prod).rank := by
      clear h hc
      induction hn with
      | refl => omega
      | @own n _ s1 s2 q _ hin hs hne ih =>
        cases hs with
        | mk hs =>
          simp only at hne ⊢
          by_cases e : p = q
          · subst e
            rw [upd_same] at hne ⊢
            have := (hs.prank hin).resolve_left hne
            omega
          · rw [upd_ne _ _ e] at hne; exact absurd rfl hne
      | other _ hs heq ih => rw [heq]; exact ih
    have : ((s.subs p).prod).rank ≤ 10 := by
      cases (s.subs p).prod <;> simp [PPc.rank]
    omega
  · rintro ⟨b, hb⟩
    obtain ⟨r, h1, h2⟩ := exP_some (B := B) (p := p) (s := s.subs p) b (C88_no_fault hB hC h p).2 hb
    exact ⟨⟨upd s.subs p r.1, r.2⟩, .mk (exP_sound h1), by simp only [upd_same]; exact h2 hc⟩

/-! ### Examples -/

/-- blocks of two elements and an index of one entry: thread 0 pushes 5 elements into three blocks (so that the index is replaced twice) while threads 1 and 2 pop;
thread 3 pushes as well. Thread 1 has taken the elements 10 and 12, the block of 10 and 11 goes back to the pool with thread 2's pop of 11 -/
def exampleRun : List Act :=
  [.p 0 10] ++ rep 9 (.p 0 0) ++ rep 3 (.p 0 11) ++ rep 5 (.c 0 1) ++ [.p 0 12] ++ rep 4 (.p 0 1) ++ rep 9 (.c 0 1) ++ rep 6 (.p 0 1) ++ rep 3 (.p 0 13) ++
  [.p 3 20] ++ rep 9 (.p 3 3) ++ rep 7 (.c 0 2) ++ rep 14 (.c 0 1) ++ [.p 0 14] ++ rep 10 (.p 0 2) ++ rep 4 (.c 0 2)

/-- thread 2 is about to move the element 11 out, in a state with two sub-queues in use, three blocks in use in the first, and an index of capacity 4 -/
example : ((run 2 exampleRun (State.init 1)).map fun s => ((s.subs 0).ins, (s.subs 0).outs, (s.subs 3).ins)) = some ([10, 11, 12, 13, 14], [(0, 10), (2, 12)], [20]) ∧
    ((run 2 exampleRun (State.init 1)).map fun s => ((s.subs 0).cons 2, (s.subs 0).cons 1, ((s.subs 0).hdrs (s.subs 0).cur).capacity)) = some (.rd 1 0 0, .out, 4) := by
  constructor <;> decide +kernel

/-- the same state is one to which `C88_elements_exclusive` applies; `C88_pop_wait_free` does as well -/
example : ∃ s, Reach 2 1 s ∧ (s.subs 0).cons 2 = .rd 1 0 0 ∧ (s.subs 0).cons 2 ≠ .out := by
  obtain ⟨s, hs⟩ : ∃ s, run 2 exampleRun (State.init 1) = some s := Option.isSome_iff_exists.1 (by decide +kernel)
  have h1 : ((run 2 exampleRun (State.init 1)).map fun s => (s.subs 0).cons 2) = some (.rd 1 0 0) := by decide +kernel
  rw [hs] at h1
  injection h1 with h1
  have h1 : (s.subs 0).cons 2 = .rd 1 0 0 := h1
  exact ⟨s, run_reach (State.init_reach 2 1) hs, h1, by rw [h1]; simp⟩

/-- and thread 2 ends its call: nobody is inside, 10, 11 and 12 have been returned, the block 0 is in the pool again, for the next block of thread 3 or 0: `C88_nothing_lost`, `C88_no_leak`, `C88_bounded_memory` (blocks 1 and 2 for the elements 13 and 14) -/
example : ((run 2 (exampleRun ++ rep 5 (.c 0 2)) (State.init 1)).map fun s => ((s.subs 0).outs, (s.subs 0).cons 2, (s.mem 0).owner, (s.mem 1).owner)) =
    some ([(0, 10), (2, 12), (1, 11)], .out, none, some (0, 1)) ∧
    ((run 2 (exampleRun ++ rep 5 (.c 0 2)) (State.init 1)).map fun s => ((s.subs 0).prod, (s.mem 2).owner)) = some (.out, some (0, 2)) := by
  constructor <;> decide +kernel

/-- `C88_fifo`: thread 1 begins its second `pop` after its first one has returned 10, and gets 12 -/
example : ∃ s s', Reach 2 1 s ∧ Steps 2 s s' ∧ (s.subs 0).cons 1 = .out ∧ (0, 10) ∈ (s.subs 0).outs ∧ (s'.subs 0).cons 1 = .ret (some (2, 12)) := by
  obtain ⟨s, hs⟩ : ∃ s, run 2 (exampleRun.take 58) (State.init 1) = some s := Option.isSome_iff_exists.1 (by decide +kernel)
  have h1 : ((run 2 (exampleRun.take 58) (State.init 1)).map fun s => ((s.subs 0).cons 1, (s.subs 0).outs)) = some (.out, [(0, 10)]) := by decide +kernel
  have h3 : ((run 2 (exampleRun.take 58) (State.init 1)).bind fun s => (runQ 2 (fun _ => true) (rep 13 (.c 0 1)) s).map fun s' => (s'.subs 0).cons 1) = some (.ret (some (2, 12))) := by
    decide +kernel
  rw [hs] at h1
  injection h1 with h1
  injection h1 with h1 h2
  rw [hs, Option.bind_some, Option.map_eq_some_iff] at h3
  obtain ⟨s', h4, h5⟩ := h3
  exact ⟨s, s', run_reach (State.init_reach 2 1) hs, (runQ_along h4).steps, h1, by rw [h2]; exact List.mem_singleton.2 rfl, h5⟩

/-- `C88_fails_only_if_empty_partial`: after the run above (thread 2 has ended its call), thread 1 pops alone and gets 13, while thread 0 pushes 15 -/
example : ∃ s s', Reach 2 1 s ∧ (s.subs 0).cons 1 = .start ∧
    Along 2 (fun t => (t.subs 0).cons 1 ≠ .out ∧ ∀ c', c' ≠ 1 → (t.subs 0).cons c' = .out) s s' ∧ (s'.subs 0).cons 1 = .ret (some (3, 13)) ∧ (s'.subs 0).ins = [10, 11, 12, 13, 14, 15] := by
  obtain ⟨s, hs⟩ : ∃ s, run 2 (exampleRun ++ rep 5 (.c 0 2) ++ [.c 0 1]) (State.init 1) = some s := Option.isSome_iff_exists.1 (by decide +kernel)
  have h1 : ((run 2 (exampleRun ++ rep 5 (.c 0 2) ++ [.c 0 1]) (State.init 1)).map fun s => ((s.subs 0).cons 1)) = some .start := by decide +kernel
  have h3 : ((run 2 (exampleRun ++ rep 5 (.c 0 2) ++ [.c 0 1]) (State.init 1)).bind fun s =>
    (runQ 2 (fun t => decide ((t.subs 0).cons 1 ≠ .out ∧ (t.subs 0).cons 2 = .out)) (rep 3 (.p 0 15) ++ rep 14 (.c 0 1)) s).map
      fun s' => ((s'.subs 0).cons 1, (s'.subs 0).ins)) = some (.ret (some (3, 13)), [10, 11, 12, 13, 14, 15]) := by
    decide +kernel
  rw [hs] at h1
  injection h1 with h1
  rw [hs, Option.bind_some, Option.map_eq_some_iff] at h3
  obtain ⟨s', h4, h5⟩ := h3
  injection h5 with h5 h6
  refine ⟨s, s', run_reach (State.init_reach 2 1) hs, h1, ?_, h5, h6⟩
  have h7 := run_out (q := 0) (L := [1, 2]) hs (who_sound (by decide +kernel)) (fun _ _ => rfl)
  refine (runQ_out (q := 0) (L := [1, 2]) h4 (who_sound (by decide +kernel)) h7).mono fun t ht => ?_
  obtain ⟨h8, h9⟩ := ht
  rw [decide_eq_true_eq] at h8
  refine ⟨h8.1, fun c' hc' => ?_⟩
  by_cases e : c' = 2
  · rw [e]; exact h8.2
  · exact h9 c' (by simp [hc', e])

/-- `C88_push_wait_free`: thread 0 is inside `push`, and block 3 is free -/
example : ((run 2 ([.p 0 10] ++ rep 5 (.p 0 0)) (State.init 1)).map fun s => ((s.subs 0).prod, (s.mem 3).owner)) = some (.rst 10 0 0, none) := by decide +kernel

end RG.MQ
