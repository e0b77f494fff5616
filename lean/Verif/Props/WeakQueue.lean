import Verif.Lemmas.WeakQueueExec
import Verif.Lemmas.TaskQueue7
/-
C92: the task queue (C88) under the memory model of C++: atomic objects have a history of values, a load may read an old one unless the thread knows of a newer one, and only release and acquire order hand over knowledge.
For every block size `B ≥ 2` and initial index size `C ≥ 1`, any number of pushing and popping threads and every execution. `fix` says whether `set_empty` is taken to acquire as well; in the code it does not (`fix = false`).

`s.c.vw t` is what the thread `t` knows: for every thread how many of its steps happen before the next step of `t`.
-/
set_option linter.unusedVariables false
namespace RG.WQ
open RG.MQ

variable {B C : Nat} {fix : Bool} {s s' : State}

/-- Nothing uses a null pointer, a missing block or a destroyed element, and the assertion in `enqueue` holds. -/
theorem C92_no_fault (hB : 2 ≤ B) (hC : 0 < C) (h : Reach B C fix s) (p : Nat) :
    (∀ c i, (s.subs p).cons c ≠ .fault i) ∧ (s.subs p).prod ≠ .fault := by
  have hb := (h.inv hB hC).q.b p
  constructor
  · intro c i e
    have := hb.pc c
    simp only [State.q] at this
    rw [e] at this
    exact this
  · intro e
    have := hb.prod
    simp only [State.q] at this
    rw [e] at this
    exact this

/-- No thread uses a block that does not belong to its sub-queue or has been given back, although the loads that have led there may have read old values; the entry of the index that a `pop` has found is the one of its element. -/
theorem C92_no_use_after_free (hB : 2 ≤ B) (hC : 0 < C) (h : Reach B C fix s) (p : Nat) :
    (∀ c, match (s.subs p).cons c with
      | .val i e => ((s.subs p).entries e).key = i - i % B ∧ ∃ b, ((s.subs p).entries e).value = some b
      | .rd i _ b | .emp i _ b _ | .nul i _ b _ | .fre i b _ => (s.mem b).owner = some (p, i / B)
      | _ => True) ∧
    (match (s.subs p).prod with
      | .rst _ _ b | .sval _ _ b => (s.mem b).owner = some (p, (s.subs p).tail / B)
      | .wr _ => (s.mem (s.subs p).tailBlock).owner = some (p, (s.subs p).tail / B)
      | _ => True) :=
  (h.inv hB hC).q.no_use_after_free hB p

/-- Every element is returned at most as often as it has been pushed, and nothing else is returned. -/
theorem C92_returned_at_most_once (hB : 2 ≤ B) (hC : 0 < C) (h : Reach B C fix s) (p : Nat) :
    ((s.subs p).outs.map Prod.snd).Subperm (s.subs p).ins :=
  outs_subperm ((h.inv hB hC).q.b p) ((h.inv hB hC).q.k p) ((h.inv hB hC).q.t p)

/-- Nothing is lost: when no `pop` is under way, what has been returned are the oldest elements pushed. -/
theorem C92_nothing_lost (hB : 2 ≤ B) (hC : 0 < C) (h : Reach B C fix s) (p : Nat) (hout : ∀ c, (s.subs p).cons c = .out) :
    ((s.subs p).outs.map Prod.snd).Perm ((s.subs p).ins.take (s.subs p).outs.length) := by
  have h1 := outs_perm ((h.inv hB hC).q.b p) ((h.inv hB hC).q.k p) ((h.inv hB hC).q.t p) hout
  simp only [State.q] at h1
  rw [h1.1]
  exact h1.2

/-- First in, first out for each pushing thread: what a `pop` returns has been pushed after everything that had been returned before the `pop` began - whether or not the thread knows of these. -/
theorem C92_fifo (hB : 2 ≤ B) (hC : 0 < C) (h : Reach B C fix s) (h' : Steps B fix s s') {p c : Nat} (hc : (s.subs p).cons c = .out)
    {i x j y : Nat} (hi : (i, x) ∈ (s.subs p).outs) (hj : (s'.subs p).cons c = .ret (some (j, y))) :
    i < j ∧ (s'.subs p).ins[i]? = some x ∧ (s'.subs p).ins[j]? = some y := by
  have hinv := (h.inv hB hC).q
  have hinv' := ((h'.reach h).inv hB hC).q
  have h1 := (h'.tok (q := p) (c := c) (by rw [hc]; rfl)).2 j (by rw [hj]; rfl)
  have h2 := (hinv.k p).fin_lt i ((hinv.k p).outs i x hi).1
  simp only [State.q] at h2
  refine ⟨by omega, ?_, ?_⟩
  · obtain ⟨l, hl⟩ := h'.ins p
    have h3 := (hinv.b p).outs i x hi
    simp only [State.q] at h3
    rw [hl, List.getElem?_append_left (List.getElem?_eq_some_iff.1 h3).1]
    exact h3
  · have := (hinv'.b p).pc c
    simp only [State.q] at this
    rw [hj] at this
    exact this

/-- The queue hands over what the pushing thread has done: everything that happens before the call of `push` (in state `s`, for the element number `(s.subs p).tail`) happens before the return of the `pop` that returns the element.
In particular what has been written to the task before it has been made ready is there when a worker has got it. -/
theorem C92_handover (hB : 2 ≤ B) (hC : 0 < C) (h : Reach B C fix s) (h' : Steps B fix s s') {p c x : Nat} (hp : (s.subs p).prod = .out)
    (hc : (s'.subs p).cons c = .ret (some ((s.subs p).tail, x))) : (s.c.vw (.prod p)).le (s'.c.vw (.cons p c)) := by
  have hi := (h'.reach h).inv hB hC
  have h1 := (hi.q.k p).past c _ x (by simp only [State.q]; rw [hc]; rfl)
  have h2 := fin_lt_tail (hi.q.t p) (hi.q.k p) _ h1
  have h3 := (hi.c p).past c _ x (by rw [hc]; rfl)
  have h4 := ((hi.p p).pubLe _ h2).2
  have h5 := h'.pushed (p := p) hp
  rcases h5 with ⟨h5, _⟩ | ⟨h5, _⟩
  · have : (s.subs p).tail < (s'.subs p).tail := h2
    omega
  · exact VC.le_trans h5 (VC.le_trans h4 h3)

/-- The reads of the plain memory - of elements and of the members of an index - happen after the writes of what they read: no data race there. -/
theorem C92_reads_race_free (hB : 2 ≤ B) (hC : 0 < C) (h : Reach B C fix s) : s.raceR = false := (h.inv hB hC).race

/-- Values are written one after the other: a store that is not a read-modify-write operation replaces a value that its thread knows of, so that it cannot come before it in the order of the values.
The exception is the entry of an index that the pushing thread uses again after it has read that the entry is free. -/
theorem C92_stores_last (hB : 2 ≤ B) (hC : 0 < C) (h : Reach B C fix s) {p : Nat} (hs : SStep B fix p s s') {l : Loc} {n m : Msg} {old : List Msg}
    (h1 : s'.c.hist l = n :: s.c.hist l) (h2 : s.c.hist l = m :: old) (hl : ∀ q, l ≠ .head q ∧ l ≠ .opt q ∧ l ≠ .over q) (hd : ∀ b, l = .done b → n.val = some 0) :
    m.time ≤ s.c.vw n.tid m.tid ∨ ∃ e x b, l = .val p e ∧ n.tid = .prod p ∧ (s.subs p).prod = .sval x e b ∧ s.seen p = (m.tid, m.time) :=
  hs.stores_last hB (h.inv hB hC) (h.oinv hB hC p) (h.finv hB hC) h1 h2 hl hd

/-- The part that holds of "there is no data race on the elements": as long as only one thread pops. -/
theorem C92_no_race_partial (hB : 2 ≤ B) (hC : 0 < C) (h : Solo B C fix s) : s.raceR = false ∧ s.raceW = false :=
  ⟨(h.reach.inv hB hC).race, (h.inv hB hC).2.2⟩

/-- It would hold for any number of popping threads if `set_empty` (line 1607) had acquire order as well as release order. -/
theorem C92_no_race_acq_rel (hB : 2 ≤ B) (hC : 0 < C) (h : Reach B C true s) : s.raceR = false ∧ s.raceW = false :=
  ⟨(h.inv hB hC).race, h.raceW hB hC⟩

/-- two threads pop the elements of the first block, the second one of them gives it back, and the pushing thread gets it again -/
def raceRun : List Op := push1 10 ++ push2 11 ++ popRead 0 ++ [.c 0 0] ++ popRead 1 ++ [.c 1 0, .c 1 0, .c 1 0, .c 1 0] ++ push1 12

/-- As it is, there is a data race with two popping threads: thread 1, which takes the last element of a block and gives the block back, does not know that thread 0 has moved out the first one; the pushing thread that gets the block
constructs a new element in its place, and this does not happen after. -/
theorem C92_no_race_false : ∃ s, Reach 2 1 false s ∧ s.raceW = true := by
  have h : ((run 2 false (s0 1) raceRun).map fun s => s.raceW) = some true := by decide +kernel
  rw [Option.map_eq_some_iff] at h
  obtain ⟨s, h1, h2⟩ := h
  exact ⟨s, run_reach h1, h2⟩

/-- A `pop` finds what its thread knows of: with one popping thread, a call that begins when the thread knows that the oldest element that is still there has been pushed does not come back without an element. -/
theorem C92_pop_finds_partial (h : Solo B C fix s) (h' : SoloSteps B fix s s') {p : Nat} (hc : (s.subs p).cons 0 = .start) (ht : (s.subs p).head < (s.subs p).tail)
    (hk : (s.pubV p (s.subs p).head).le (s.c.vw (.cons p 0))) (he : (s'.subs p).cons 0 = .ret none) : (s.subs p).head < (s'.subs p).head := by
  have hf : Found p (s.subs p).head s := .inr ⟨rfl, ht, hk, by unfold Finds; rw [hc]; trivial⟩
  rcases h'.found h hf with h1 | ⟨_, _, _, h4⟩
  · exact h1
  · unfold Finds at h4; rw [he] at h4; exact h4.elim

/-- Knowledge is needed: a `pop` may read an old tail of the queue and come back with nothing although the `push` of an element has ended before in the order of the interleaving, and although no other thread pops. -/
theorem C92_pop_finds_false : ∃ s s', Solo 2 1 false s ∧ SoloSteps 2 false s s' ∧ (s.subs 0).cons 0 = .start ∧ (s.subs 0).prod = .out ∧ (s.subs 0).ins = [10] ∧
    (s'.subs 0).cons 0 = .ret none ∧ (s'.subs 0).outs = [] ∧ (s'.subs 0).head = (s.subs 0).head := by
  have h : ((run 2 false (s0 1) (push1 10 ++ [.c 0 0])).bind fun s => (run 2 false s [.c 0 1, .c 0 0, .c 0 0]).map fun s' =>
      (((s.subs 0).cons 0, (s.subs 0).prod, (s.subs 0).ins), ((s'.subs 0).cons 0, (s'.subs 0).outs), (s'.subs 0).head, (s.subs 0).head)) = some ((.start, .out, [10]), (.ret none, []), 0, 0) := by decide +kernel
  rw [Option.bind_eq_some_iff] at h
  obtain ⟨s, h1, h2⟩ := h
  rw [Option.map_eq_some_iff] at h2
  obtain ⟨s', h2, h3⟩ := h2
  simp only [Prod.mk.injEq] at h3
  obtain ⟨⟨e1, e2, e3⟩, ⟨e4, e5⟩, e6, e7⟩ := h3
  have hs : Solo 2 1 false s := run_solo' (by decide) h1
  exact ⟨s, s', hs, run_solo (by decide) h2 (fun p c hc => hs.out p hc) .refl, e1, e2, e3, e4, e5, by rw [e6, e7]⟩

/-! ### Examples -/

/-- thread 1 is about to move the element 11 out (`C92_no_fault`, `C92_no_use_after_free`, `C92_returned_at_most_once`, `C92_reads_race_free`), thread 0 has returned 10; both read some values that are not the newest ones -/
example : ∃ s, Reach 2 1 false s ∧ (s.subs 0).cons 1 = .rd 1 0 0 ∧ (s.subs 0).outs = [(0, 10)] ∧ (s.subs 0).ins = [10, 11] := by
  have h : ((run 2 false (s0 1) (push1 10 ++ push2 11 ++ [.c 0 0, .c 0 1] ++ (popRead 0).drop 2 ++ [.c 0 0, .c 0 0] ++ [.c 1 0, .c 1 0, .c 1 0, .c 1 0] ++ (popRead 1).drop 5)).map fun s =>
      ((s.subs 0).cons 1, (s.subs 0).outs, (s.subs 0).ins)) = some (.rd 1 0 0, [(0, 10)], [10, 11]) := by decide +kernel
  rw [Option.map_eq_some_iff] at h
  obtain ⟨s, h1, h2⟩ := h
  simp only [Prod.mk.injEq] at h2
  exact ⟨s, run_reach h1, h2.1, h2.2.1, h2.2.2⟩

/-- `C92_nothing_lost`, `C92_no_race_partial`: one thread pops both elements of a block, and this is used again -/
example : ∃ s, Solo 2 1 false s ∧ (∀ c, (s.subs 0).cons c = .out) ∧ (s.subs 0).outs = [(0, 10), (1, 11)] ∧ (s.subs 0).ins = [10, 11, 12] ∧ (s.mem 0).owner = some (0, 1) := by
  have h : ((run 2 false (s0 1) (push1 10 ++ push2 11 ++ popRead 0 ++ [.c 0 0, .c 0 0] ++ popRead 0 ++ [.c 0 0, .c 0 0, .c 0 0, .c 0 0] ++ push1 12)).map fun s =>
      ((s.subs 0).cons 0, (s.subs 0).outs, (s.subs 0).ins, (s.mem 0).owner)) = some (.out, [(0, 10), (1, 11)], [10, 11, 12], some (0, 1)) := by decide +kernel
  rw [Option.map_eq_some_iff] at h
  obtain ⟨s, h1, h2⟩ := h
  simp only [Prod.mk.injEq] at h2
  have hs : Solo 2 1 false s := run_solo' (by decide) h1
  refine ⟨s, hs, fun c => ?_, h2.2.1, h2.2.2.1, h2.2.2.2⟩
  by_cases e : c = 0
  · rw [e]; exact h2.1
  · exact hs.out 0 e

/-- `C92_no_race_acq_rel`: the run of `C92_no_race_false` with acquire order -/
example : ∃ s, Reach 2 1 true s ∧ (s.subs 0).outs = [(1, 11)] ∧ (s.subs 0).ins = [10, 11, 12] := by
  have h : ((run 2 true (s0 1) raceRun).map fun s => ((s.subs 0).outs, (s.subs 0).ins)) = some ([(1, 11)], [10, 11, 12]) := by decide +kernel
  rw [Option.map_eq_some_iff] at h
  obtain ⟨s, h1, h2⟩ := h
  simp only [Prod.mk.injEq] at h2
  exact ⟨s, run_reach h1, h2⟩

/-- `C92_fifo`: thread 1 begins after 10 has been returned and gets 11 -/
example : ∃ s s', Reach 2 1 false s ∧ Steps 2 false s s' ∧ (s.subs 0).cons 1 = .out ∧ (0, 10) ∈ (s.subs 0).outs ∧ (s'.subs 0).cons 1 = .ret (some (1, 11)) := by
  have h : ((run 2 false (s0 1) (push1 10 ++ push2 11 ++ popRead 0 ++ [.c 0 0, .c 0 0])).bind fun s => (run 2 false s (popRead 1 ++ [.c 1 0, .c 1 0, .c 1 0])).map fun s' =>
      ((s.subs 0).cons 1, (s.subs 0).outs, (s'.subs 0).cons 1)) = some (.out, [(0, 10)], .ret (some (1, 11))) := by decide +kernel
  rw [Option.bind_eq_some_iff] at h
  obtain ⟨s, h1, h2⟩ := h
  rw [Option.map_eq_some_iff] at h2
  obtain ⟨s', h2, h3⟩ := h2
  simp only [Prod.mk.injEq] at h3
  exact ⟨s, s', run_reach h1, run_steps h2 .refl, h3.1, by rw [h3.2.1]; exact List.mem_singleton.2 rfl, h3.2.2⟩

/-- `C92_handover`: the pushing thread has got knowledge from another one (the popping thread 7) before it pushes the element 0, which thread 0 gets -/
example : ∃ s s', Reach 2 1 false s ∧ Steps 2 false s s' ∧ (s.subs 0).prod = .out ∧ (s'.subs 0).cons 0 = .ret (some ((s.subs 0).tail, 10)) ∧ s.c.vw (.prod 0) (.cons 0 7) = 1 ∧
    s.c.vw (.cons 0 0) (.cons 0 7) = 0 := by
  have h : ((run 2 false (s0 1) [.c 7 0, .l (.prod 0) (.cons 0 7)]).bind fun s => (run 2 false s (push1 10 ++ popRead 0 ++ [.c 0 0])).map fun s' =>
      ((s.subs 0).prod, (s'.subs 0).cons 0, (s.subs 0).tail, s.c.vw (.prod 0) (.cons 0 7), s.c.vw (.cons 0 0) (.cons 0 7))) = some (.out, .ret (some (0, 10)), 0, 1, 0) := by decide +kernel
  rw [Option.bind_eq_some_iff] at h
  obtain ⟨s, h1, h2⟩ := h
  rw [Option.map_eq_some_iff] at h2
  obtain ⟨s', h2, h3⟩ := h2
  simp only [Prod.mk.injEq] at h3
  exact ⟨s, s', run_reach h1, run_steps h2 .refl, h3.1, by rw [h3.2.1, h3.2.2.1], h3.2.2.2⟩

/-- `C92_pop_finds_partial`: thread 0 has learned from the pushing thread that 10 is there; it takes it, and only its second call comes back with nothing -/
example : ∃ s s', Solo 2 1 false s ∧ SoloSteps 2 false s s' ∧ (s.subs 0).cons 0 = .start ∧ (s.subs 0).head < (s.subs 0).tail ∧ (s.pubV 0 (s.subs 0).head).le (s.c.vw (.cons 0 0)) ∧
    (s'.subs 0).cons 0 = .ret none ∧ (s'.subs 0).outs = [(0, 10)] := by
  have h : ((run 2 false (s0 1) (push1 10 ++ [.c 0 0])).bind fun s =>
      (run 2 false s ([.l (.cons 0 0) (.prod 0)] ++ (popRead 0).drop 1 ++ [.c 0 0, .c 0 0, .c 0 0, .c 0 0, .c 0 0, .c 0 0])).map fun s' =>
      (((s.subs 0).cons 0, (s.subs 0).head, (s.subs 0).tail), (s'.subs 0).cons 0, (s'.subs 0).outs)) = some ((.start, 0, 1), .ret none, [(0, 10)]) := by decide +kernel
  rw [Option.bind_eq_some_iff] at h
  obtain ⟨t, h1, h2⟩ := h
  rw [Option.map_eq_some_iff] at h2
  obtain ⟨s', h2, h3⟩ := h2
  simp only [Prod.mk.injEq] at h3
  obtain ⟨⟨e1, e2, e3⟩, e4, e5⟩ := h3
  have ht : Solo 2 1 false t := run_solo' (by decide) h1
  have hs := Solo.step ht (.learn (.cons 0 0) (.prod 0)) (fun p c hc => ht.out p hc)
  refine ⟨_, s', hs, run_solo (l := (popRead 0).drop 1 ++ [.c 0 0, .c 0 0, .c 0 0, .c 0 0, .c 0 0, .c 0 0]) (by decide) h2 (fun p c hc => hs.out p hc) .refl, e1, by rw [e2, e3]; decide, ?_, e4, e5⟩
  simp only [upd_same, e2]
  exact VC.le_trans (((ht.reach.inv (by decide) (by decide)).p 0).pubLe 0 (by rw [e3]; decide)).1 (VC.le_join_right _ _)

/-- `C92_stores_last`: the pushing thread stores the tail for the second element -/
example : ∃ s s', Reach 2 1 false s ∧ SStep 2 false 0 s s' ∧ (∃ n, s'.c.hist (.tail 0) = n :: s.c.hist (.tail 0)) ∧ (s'.subs 0).tail = 2 := by
  have h : ((run 2 false (s0 1) (push1 10 ++ (push2 11).take 2)).map fun s => ((s.subs 0).prod, (s.subs 0).tail)) = some (.pub 11, 1) := by decide +kernel
  rw [Option.map_eq_some_iff] at h
  obtain ⟨s, h1, h2⟩ := h
  simp only [Prod.mk.injEq] at h2
  refine ⟨s, _, run_reach h1, .publish h2.1, ⟨_, by simp only [State.go, CMem.storeRel]; rw [upd_same]⟩, ?_⟩
  simp only [State.go, upd_same, h2.2]

end RG.WQ
