import Verif.Lemmas.WeakQueue5
/-
Lemmas for C92: the invariant holds in every state.
-/
set_option linter.unusedVariables false
namespace RG.WQ
open RG.MQ

variable {B C p : Nat} {fix : Bool} {s s' : State}

theorem SStep.raceR (h : Inv B s) (hB : 0 < B) (hs : SStep B fix p s s') : s'.raceR = false := by
  have hr := h.race
  cases hs
  case ldIdxTail c i hd m T hcc hm hv =>
    have h1 := (h.c p).itl c i hd hcc
    simp only [State.go, hr, unk, Bool.false_or, decide_eq_false_iff_not]
    omega
  case read c i e b hcc =>
    have hh : ((s.subs p).cons c).hold = some i := by rw [hcc]; rfl
    have h1 := (h.c p).hold c i hh
    have h2 := h.hold_lt hB hh
    have h3 := (h.p p).slot i h2.1 h2.2.1
    have h4 := (h.q.b p).pc c
    simp only [State.q] at h4
    rw [hcc] at h4
    obtain ⟨h4, h5⟩ := h4
    simp only [State.go, hr, unk, Bool.false_or, decide_eq_false_iff_not]
    rw [h5, h3.1]
    have := h1 (.prod p)
    omega
  all_goals exact hr

/-- the block at the end is in use while an element is put there -/
theorem Inv.tailBlock_owner (hB : 0 < B) (h : Inv B s) {q x : Nat} (hp : (s.subs q).prod = .pub x ∨ (s.subs q).prod = .wr x) :
    (s.subs q).tailBlock = (s.subs q).blkOf ((s.subs q).tail / B) ∧ (s.mem (s.subs q).tailBlock).owner = some (q, (s.subs q).tail / B) := by
  have h1 := (h.q.b q).prod
  have h2 := (h.q.b q).val
  have h3 := fin_lt_tail (h.q.t q) (h.q.k q)
  simp only [State.q] at h1 h2 h3
  have hpos : (s.subs q).tail < (s.subs q).ns * B ∧ (s.subs q).tailBlock = (s.subs q).blkOf ((s.subs q).tail / B) := by
    rcases hp with hp | hp <;> rw [hp] at h1 <;> exact ⟨h1.2.1, by first | exact h1.2.2.2.1 | exact h1.2.2.2⟩
  refine ⟨hpos.2, ?_⟩
  rw [hpos.2]
  refine (h2 _ ((Nat.div_lt_iff_lt_mul hB).2 hpos.1) ?_).owner
  intro hfull
  have h4 := hfull ((s.subs q).tail % B) (Nat.mod_lt _ hB)
  have h5 : (s.subs q).tail / B * B + (s.subs q).tail % B = (s.subs q).tail := Nat.div_add_mod' _ _
  rw [h5] at h4
  exact absurd (h3 _ h4) (Nat.lt_irrefl _)

theorem SStep.pw_other (hB : 0 < B) (h : Inv B s) (hs : SStep B fix p s s') {q : Nat} (hq : q ≠ p) : PW B q s' (s'.subs q).prod := by
  have hu := hs.subs_other hq
  obtain ⟨g1, g2, g3, g4, g5, g6⟩ := hs.ghost_other hq
  rw [hu]
  refine PW.frame (h.w q) (by rw [hu]) (by rw [hu]) (by rw [hu]) (by rw [hu]) g3 g5 (fun e => hs.hist_other hq rfl) ?_ (hs.vw_le _)
  intro x hx
  have h1 := (h.tailBlock_owner hB (.inl hx)).2
  exact (hs.wr_other hB h (fun k hk => by rw [h1] at hk; cases hk; exact hq rfl)).1

theorem Step.inv (hB : 2 ≤ B) (h : Inv B s) (hs : Step B fix s s') : Inv B s' := by
  have hB0 : 0 < B := by omega
  cases hs with
  | mk p hs =>
    refine ⟨hs.base hB h, fun q => ?_, fun q => ?_, fun q => ?_, hs.raceR h hB0⟩ <;> by_cases e : q = p
    · subst e; exact hs.pinv hB0 h
    · exact PInv.frame hB0 (h.q.b q) (h.p q) (hs.psame_other hB0 h e)
    · subst e; exact hs.pw h
    · exact hs.pw_other hB0 h e
    · subst e; exact hs.cinv hB0 h
    · exact CInv.frame hB0 h (hs.csame_other e)
  | learn t t' =>
    have hv : ∀ w, (s.c.vw w).le (upd s.c.vw t ((s.c.vw t).join (s.c.vw t')) w) := by
      intro w
      by_cases e : w = t
      · subst e; rw [upd_same]; exact VC.le_join_left _ _
      · rw [upd_ne _ _ e]; exact VC.le_refl _
    refine ⟨h.q, fun q => ?_, fun q => ?_, fun q => ?_, h.race⟩
    · refine PInv.frame hB0 (h.q.b q) (h.p q) (psame_go rfl rfl rfl rfl rfl rfl rfl rfl (fun _ _ => rfl) (fun _ h => h) (fun _ _ _ _ _ => rfl) rfl (fun _ _ => rfl) rfl rfl rfl (hv _))
    · exact PW.frame (h.w q) rfl rfl rfl rfl rfl rfl (fun _ => rfl) (fun _ _ => rfl) (hv _)
    · exact CInv.frame hB0 h ⟨rfl, rfl, rfl, rfl, rfl, Nat.le_refl _, fun _ _ => ⟨Nat.le_refl _, rfl, rfl⟩, rfl, rfl, rfl, fun _ _ => rfl, fun _ _ => rfl, fun _ _ => rfl, fun c => hv _⟩

theorem single_split {α} {a m : α} {l1 l2 : List α} (h : [a] = l1 ++ m :: l2) : l1 = [] ∧ m = a := by
  cases l1 with
  | nil => simp at h; exact ⟨rfl, h.1.symm⟩
  | cons b l1 => simp at h

theorem Inv.init (hB : 0 < B) (hC : 0 < C) (h : Init C s) : Inv B s := by
  obtain ⟨g, d, hg, hh, hd⟩ := h.subs
  have hq : MQ.Inv B s.q := MQ.Inv.init hB hC ⟨fun p => ⟨g p, hg p⟩, h.mem⟩
  refine ⟨hq, fun p => ?_, fun p => ?_, fun p => ?_, h.race.1⟩
  · refine ⟨?_, ?_, ?_, ?_, ?_, ?_, ?_, ?_, ?_, ?_, ?_⟩ <;> (try rw [hg p]) <;> (try rw [hh])
    · intro m hm
      simp only [hist0, List.mem_singleton] at hm
      subst hm
      exact ⟨rfl, Nat.zero_le _, 0, rfl, Nat.zero_le _, fun i hi => absurd hi (Nat.not_lt_zero i)⟩
    · exact fun i hi => absurd hi (Nat.not_lt_zero i)
    · intro l1 m l2 e
      obtain ⟨e1, e2⟩ := single_split e
      subst e2
      exact ⟨rfl, Nat.zero_le _, 0, rfl, Nat.zero_le _, fun _ => rfl, by rw [h.hdrW]; exact Nat.zero_le _, fun i hi => absurd hi (Nat.not_lt_zero i)⟩
    · intro hd hhd l1 m l2 e
      obtain ⟨e1, e2⟩ := single_split e
      subst e2
      exact ⟨rfl, Nat.zero_le _, Nat.zero_le _, fun _ => rfl, ⟨_, rfl⟩, fun h0 => absurd h0 (Nat.lt_irrefl 0), fun i hi => absurd hi (Nat.not_lt_zero i)⟩
    · exact fun e => ⟨_, [], rfl, rfl⟩
    · exact fun n hn => absurd hn (Nat.not_lt_zero n)
    · exact fun e => ⟨_, [], rfl, rfl, .inl ⟨rfl, Nat.zero_le _⟩⟩
    · exact fun n hn => absurd hn (Nat.not_lt_zero n)
    · exact fun n hn => absurd hn (Nat.not_lt_zero n)
    · intro hd _; rw [h.hdrW]; exact Nat.zero_le _
    · intro n; rw [h.keyT]; exact Nat.zero_le _
  · rw [hg p]; exact PW.next (fun h0 => absurd rfl h0) nofun nofun
  · refine ⟨?_, ?_, ?_, ?_, ?_, ?_, ?_, ?_, ?_⟩ <;> (try rw [hg p]) <;> (try rw [hh])
    · exact fun k hk => absurd hk (Nat.not_lt_zero k)
    · exact ⟨_, [], rfl, fun k hk => absurd hk (Nat.not_lt_zero k)⟩
    · intro m hm
      simp only [hist0, List.mem_singleton] at hm
      subst hm
      exact ⟨0, rfl, Nat.zero_le _⟩
    · intro m hm
      simp only [hist0, List.mem_singleton] at hm
      subst hm
      exact ⟨0, rfl, Nat.zero_le _⟩
    all_goals intro c; nofun

theorem Reach.inv (hB : 2 ≤ B) (hC : 0 < C) (h : Reach B C fix s) : Inv B s := by
  induction h with
  | init h => exact Inv.init (by omega) hC h
  | step _ hs ih => exact hs.inv hB ih

end RG.WQ
