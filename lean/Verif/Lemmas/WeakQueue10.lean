import Verif.Lemmas.WeakQueue9
import Verif.Lemmas.TaskQueue6
/-
Lemmas for C92: which elements a `pop` finds.
-/
set_option linter.unusedVariables false
namespace RG.WQ
open RG.MQ

variable {B C p : Nat} {fix : Bool} {s s' : State}

theorem le_learn (m : CMem) (t t' u : Tid) : (m.vw u).le (upd m.vw t ((m.vw t).join (m.vw t')) u) := by
  by_cases e : u = t
  · subst e; rw [upd_same]; exact VC.le_join_left _ _
  · rw [upd_ne _ _ e]; exact VC.le_refl _

/-- Which element a consumer takes. -/
theorem SStep.tok (hs : SStep B fix p s s') (c : Nat) :
    (s.subs p).head ≤ (s'.subs p).head ∧ ∀ i, ((s'.subs p).cons c).tok = some i → ((s.subs p).cons c).tok = some i ∨ i = (s.subs p).head := by
  have key : ∀ c0 pc, (∀ i, pc.tok = some i → ((s.subs p).cons c0).tok = some i) → ∀ i, (upd (s.subs p).cons c0 pc c).tok = some i → ((s.subs p).cons c).tok = some i ∨ i = (s.subs p).head := by
    intro c0 pc h i
    by_cases e : c = c0
    · subst e; rw [upd_same]; exact fun h1 => .inl (h i h1)
    · rw [upd_ne _ _ e]; exact .inl
  cases hs
  case claim c0 k hc =>
    simp only [State.go, upd_same]
    refine ⟨Nat.le_succ _, fun i => ?_⟩
    by_cases e : c = c0
    · subst e; rw [upd_same]; intro h1; simp only [CPc.tok, Option.some.injEq] at h1; exact .inr h1.symm
    · rw [upd_ne _ _ e]; exact .inl
  all_goals
    simp only [State.go, upd_same, Sub.at]
    refine ⟨Nat.le_refl _, ?_⟩
    first
    | exact fun i h => .inl h
    | (refine key _ _ (fun i h => ?_)
       first
       | (cases h; done)
       | (revert h; split <;> (intro h; first | (cases h; done) | simp_all [CPc.tok]; done))
       | (simp_all [CPc.tok]; done))

theorem Steps.tok (h : Steps B fix s s') {q c : Nat} (h0 : ((s.subs q).cons c).tok = none) :
    (s.subs q).head ≤ (s'.subs q).head ∧ ∀ i, ((s'.subs q).cons c).tok = some i → (s.subs q).head ≤ i := by
  induction h with
  | refl => exact ⟨Nat.le_refl _, fun i h => by rw [h0] at h; cases h⟩
  | @step s1 s2 _ hs ih =>
    cases hs with
    | learn t t' => exact ih
    | mk p hs =>
      obtain ⟨h1, h2⟩ := ih
      by_cases e : q = p
      · subst e
        obtain ⟨h3, h4⟩ := hs.tok c
        refine ⟨Nat.le_trans h1 h3, fun i hi => ?_⟩
        rcases h4 i hi with h5 | rfl
        · exact h2 i h5
        · exact h1
      · rw [hs.subs_other e]; exact ⟨h1, h2⟩

theorem Steps.reach (h : Steps B fix s s') (hr : Reach B C fix s) : Reach B C fix s' := by
  induction h with
  | refl => exact hr
  | step _ hs ih => exact .step ih hs

theorem SStep.ins (hs : SStep B fix p s s') : ∃ l, (s'.subs p).ins = (s.subs p).ins ++ l := by
  cases hs
  case publish x hp => exact ⟨[x], by simp only [State.go, upd_same]⟩
  all_goals exact ⟨[], by simp only [State.go, upd_same, Sub.at, List.append_nil]⟩

theorem Steps.ins (h : Steps B fix s s') (q : Nat) : ∃ l, (s'.subs q).ins = (s.subs q).ins ++ l := by
  induction h with
  | refl => exact ⟨[], (List.append_nil _).symm⟩
  | @step s1 s2 _ hs ih =>
    cases hs with
    | learn t t' => exact ih
    | mk p hs =>
      obtain ⟨l, hl⟩ := ih
      by_cases e : q = p
      · subst e
        obtain ⟨l', hl'⟩ := hs.ins
        exact ⟨l ++ l', by rw [hl', hl, List.append_assoc]⟩
      · rw [hs.subs_other e]; exact ⟨l, hl⟩

/-- What the pushing thread knows when it calls `push`. -/
theorem SStep.pushed (hs : SStep B fix p s s') {v : VC} {n : Nat} (h : ((s.subs p).tail = n ∧ (s.subs p).prod = .out ∧ v.le (s.c.vw (.prod p))) ∨
      (v.le (s.pushV p n) ∧ n ≤ (s.subs p).tail ∧ ((s.subs p).prod = .out → n < (s.subs p).tail))) :
    ((s'.subs p).tail = n ∧ (s'.subs p).prod = .out ∧ v.le (s'.c.vw (.prod p))) ∨ (v.le (s'.pushV p n) ∧ n ≤ (s'.subs p).tail ∧ ((s'.subs p).prod = .out → n < (s'.subs p).tail)) := by
  have hv := hs.vw_le (.prod p)
  cases hs
  case enqueue x hp =>
    right
    simp only [State.go, upd_same]
    refine ⟨?_, ?_, fun e => ?_⟩
    · rcases h with ⟨rfl, _, h3⟩ | ⟨h1, h2, h3⟩
      · rw [upd_same]; exact h3
      · rw [upd_ne _ _ (by have := h3 hp; omega)]; exact h1
    · rcases h with ⟨rfl, _, h3⟩ | ⟨h1, h2, h3⟩ <;> omega
    · split at e <;> cases e
  case publish x hp =>
    right
    simp only [State.go, upd_same]
    rcases h with ⟨_, h2, _⟩ | ⟨h1, h2, h3⟩
    · rw [hp] at h2; cases h2
    · exact ⟨h1, by omega, fun _ => by omega⟩
  all_goals
    simp only [State.go, upd_same, Sub.at] at hv ⊢
    first
    | exact h.imp (fun h => ⟨h.1, h.2.1, VC.le_trans h.2.2 hv⟩) id
    | (right
       have hne : (s.subs p).prod ≠ .out := by
         rw [show (s.subs p).prod = _ by assumption]
         simp
       rcases h with ⟨_, h2, _⟩ | ⟨h1, h2, h3⟩
       · exact absurd h2 hne
       · refine ⟨h1, h2, fun e => ?_⟩
         first
         | (cases e; done)
         | (split at e <;> cases e))

theorem Steps.pushed (h : Steps B fix s s') (hp : (s.subs p).prod = .out) :
    ((s'.subs p).tail = (s.subs p).tail ∧ (s'.subs p).prod = .out ∧ (s.c.vw (.prod p)).le (s'.c.vw (.prod p))) ∨
    ((s.c.vw (.prod p)).le (s'.pushV p (s.subs p).tail) ∧ (s.subs p).tail ≤ (s'.subs p).tail ∧ ((s'.subs p).prod = .out → (s.subs p).tail < (s'.subs p).tail)) := by
  induction h with
  | refl => exact .inl ⟨rfl, hp, VC.le_refl _⟩
  | @step s1 s2 _ hs ih =>
    cases hs with
    | learn t t' => exact ih.imp (fun h => ⟨h.1, h.2.1, VC.le_trans h.2.2 (le_learn _ _ _ _)⟩) id
    | mk q hs =>
      by_cases e : p = q
      · subst e; exact hs.pushed ih
      · rw [hs.subs_other e, (hs.ghost_other e).2.2.1]
        exact ih.imp (fun h => ⟨h.1, h.2.1, VC.le_trans h.2.2 (hs.vw_le _)⟩) id

/-! ### The order of the values of the tail -/

/-- Older values of the tail are not read by a thread that knows of a newer one. -/
def TailOrd (p : Nat) (s : State) : Prop := ∀ l1 m l2 v, s.c.hist (.tail p) = l1 ++ m :: l2 → m.val = some v →
  ∀ i, v ≤ i → i < (s.subs p).tail → ∃ m', m' ∈ l1 ∧ m'.tid = .prod p ∧ m'.time ≤ s.pubV p i (.prod p)

theorem SStep.tailH (hs : SStep B fix p s s') : (s'.c.hist (.tail p) = s.c.hist (.tail p) ∧ s'.pubV p = s.pubV p ∧ (s'.subs p).tail = (s.subs p).tail) ∨
    (∃ m, s'.c.hist (.tail p) = m :: s.c.hist (.tail p) ∧ m.val = some ((s.subs p).tail + 1) ∧ m.tid = .prod p ∧ (s'.subs p).tail = (s.subs p).tail + 1 ∧
      s'.pubV p = upd (s.pubV p) (s.subs p).tail (s.c.now (.prod p)) ∧ m.time = s.c.now (.prod p) (.prod p)) := by
  cases hs
  case publish x hp =>
    exact .inr ⟨_, by simp only [State.go, CMem.storeRel]; rw [upd_same], rfl, rfl, by simp only [State.go, upd_same], by simp only [State.go, upd_same], rfl⟩
  case setEmpty c i e b x hcc =>
    left
    refine ⟨?_, rfl, by simp only [State.go, upd_same]⟩
    cases fix <;> simp only [Bool.false_eq_true, if_true, if_false, CMem.rmwAcqRel, CMem.rmwRel, State.go] <;> exact upd_ne _ _ (by simp)
  all_goals
    left
    refine ⟨?_, rfl, by simp only [State.go, upd_same, Sub.at]⟩
    first
    | rfl
    | (simp only [State.go, CMem.store, CMem.storeRel, CMem.rmw, CMem.rmwRel, CMem.rmwAcqRel, CMem.grow]; rw [upd_ne _ _ (by simp)]; done)
    | (simp only [State.go, CMem.store, CMem.storeRel, CMem.rmw, CMem.rmwRel, CMem.rmwAcqRel, CMem.grow]; rw [upd_ne _ _ (by simp)]; rfl)

theorem SStep.tailOrd (h : TailOrd p s) (hs : SStep B fix p s s') : TailOrd p s' := by
  intro l1 m l2 v e1 e2 i hi hit
  rcases hs.tailH with ⟨h1, h2, h3⟩ | ⟨m0, h1, h2, h3, h4, h5, h6⟩
  · rw [h1] at e1; rw [h2]; rw [h3] at hit; exact h l1 m l2 v e1 e2 i hi hit
  · rw [h1] at e1
    rw [h4] at hit
    rcases split_cons e1 with ⟨rfl, rfl, rfl⟩ | ⟨l1', rfl, e3⟩
    · rw [h2] at e2; cases e2; omega
    · rw [h5]
      by_cases e : i = (s.subs p).tail
      · subst e
        rw [upd_same]
        exact ⟨m0, List.mem_cons_self, h3, by rw [h6]⟩
      · rw [upd_ne _ _ e]
        obtain ⟨m', h7, h8⟩ := h l1' m l2 v e3 e2 i hi (by omega)
        exact ⟨m', List.mem_cons_of_mem _ h7, h8⟩

theorem Reach.tailOrd (h : Reach B C fix s) (q : Nat) : TailOrd q s := by
  induction h with
  | init h =>
    obtain ⟨g, d, hg, hh, hd⟩ := h.subs
    intro l1 m l2 v _ _ i _ hi
    rw [hg] at hi
    exact absurd hi (Nat.not_lt_zero i)
  | step _ hs ih =>
    cases hs with
    | learn t t' => exact ih
    | mk p hs =>
      by_cases e : q = p
      · subst e; exact hs.tailOrd ih
      · intro l1 m l2 v e1
        rw [hs.hist_other e rfl] at e1
        rw [hs.subs_other e, (hs.ghost_other e).2.2.2.1]
        exact ih l1 m l2 v e1

theorem TailOrd.sees (h : TailOrd p s) {v : VC} {m : Msg} {t i : Nat} (hm : Sees v (s.c.hist (.tail p)) m) (hv : m.val = some t) (hi : i < (s.subs p).tail)
    (hk : (s.pubV p i).le v) : i < t := by
  by_contra hlt
  obtain ⟨l1, l2, e, hn⟩ := hm
  obtain ⟨m', h1, h2, h3⟩ := h l1 m l2 t e hv i (by omega) hi
  have h4 := hn m' h1
  have h5 := hk (.prod p)
  rw [h2] at h4
  omega

/-! ### One thread that pops -/

/-- Its own counters are known to it. -/
structure ZInv (p : Nat) (s : State) : Prop where
  opt : ∃ m l, s.c.hist (.opt p) = m :: l ∧ m.val = some (s.subs p).opt ∧ m.time ≤ s.c.vw (.cons p 0) m.tid
  over : ∃ m l, s.c.hist (.over p) = m :: l ∧ m.val = some (s.subs p).over ∧ m.time ≤ s.c.vw (.cons p 0) m.tid
  count : (s.subs p).opt = (s.subs p).over + (s.subs p).head + (if ((s.subs p).cons 0).ticket = none then 0 else 1)

theorem sees_known {v : VC} {m m' : Msg} {l : List Msg} (h : Sees v (m :: l) m') (hk : m.time ≤ v m.tid) : m' = m := by
  obtain ⟨l1, l2, e, hn⟩ := h
  rcases split_cons e with ⟨rfl, rfl, rfl⟩ | ⟨l1', rfl, e3⟩
  · rfl
  · have := hn m List.mem_cons_self; omega

/-- the counters of the attempts to take something -/
theorem SStep.optH (hs : SStep B fix p s s') (hout : ∀ c, c ≠ 0 → (s.subs p).cons c = .out) :
    (s'.c.hist (.opt p) = s.c.hist (.opt p) ∧ (s'.subs p).opt = (s.subs p).opt) ∨
    ∃ m, s'.c.hist (.opt p) = m :: s.c.hist (.opt p) ∧ m.val = some (s'.subs p).opt ∧ m.tid = .cons p 0 ∧ m.time ≤ s'.c.vw (.cons p 0) (.cons p 0) := by
  cases hs
  case inc c o hc =>
    by_cases e : c = 0
    · subst e
      exact .inr ⟨_, by simp only [State.go, CMem.rmw]; rw [upd_same], by simp only [State.go, upd_same], rfl, by simp only [State.go, CMem.rmw, upd_same]; exact Nat.le_refl _⟩
    · rw [hout c e] at hc; cases hc
  case setEmpty c i e b x hcc =>
    left
    refine ⟨?_, by simp only [State.go, upd_same]⟩
    cases fix <;> simp only [Bool.false_eq_true, if_true, if_false, CMem.rmwAcqRel, CMem.rmwRel, State.go] <;> exact upd_ne _ _ (by simp)
  all_goals
    left
    refine ⟨?_, by simp only [State.go, upd_same, Sub.at]⟩
    first
    | rfl
    | (simp only [State.go, CMem.store, CMem.storeRel, CMem.rmw, CMem.rmwRel, CMem.rmwAcqRel, CMem.grow]; rw [upd_ne _ _ (by simp)]; done)
    | (simp only [State.go, CMem.store, CMem.storeRel, CMem.rmw, CMem.rmwRel, CMem.rmwAcqRel, CMem.grow]; rw [upd_ne _ _ (by simp)]; rfl)

theorem SStep.overH (hs : SStep B fix p s s') (hout : ∀ c, c ≠ 0 → (s.subs p).cons c = .out) :
    (s'.c.hist (.over p) = s.c.hist (.over p) ∧ (s'.subs p).over = (s.subs p).over) ∨
    ∃ m, s'.c.hist (.over p) = m :: s.c.hist (.over p) ∧ m.val = some (s'.subs p).over ∧ m.tid = .cons p 0 ∧ m.time ≤ s'.c.vw (.cons p 0) (.cons p 0) := by
  cases hs
  case overcommit c k hc =>
    by_cases e : c = 0
    · subst e
      exact .inr ⟨_, by simp only [State.go, CMem.rmwRel]; rw [upd_same], by simp only [State.go, upd_same], rfl, by simp only [State.go, CMem.rmwRel, upd_same]; exact Nat.le_refl _⟩
    · rw [hout c e] at hc; cases hc
  case setEmpty c i e b x hcc =>
    left
    refine ⟨?_, by simp only [State.go, upd_same]⟩
    cases fix <;> simp only [Bool.false_eq_true, if_true, if_false, CMem.rmwAcqRel, CMem.rmwRel, State.go] <;> exact upd_ne _ _ (by simp)
  all_goals
    left
    refine ⟨?_, by simp only [State.go, upd_same, Sub.at]⟩
    first
    | rfl
    | (simp only [State.go, CMem.store, CMem.storeRel, CMem.rmw, CMem.rmwRel, CMem.rmwAcqRel, CMem.grow]; rw [upd_ne _ _ (by simp)]; done)
    | (simp only [State.go, CMem.store, CMem.storeRel, CMem.rmw, CMem.rmwRel, CMem.rmwAcqRel, CMem.grow]; rw [upd_ne _ _ (by simp)]; rfl)

theorem SStep.zinv (hz : ZInv p s) (hout : ∀ c, c ≠ 0 → (s.subs p).cons c = .out) (hs : SStep B fix p s s') : ZInv p s' := by
  have hv := hs.vw_le
  refine ⟨?_, ?_, ?_⟩
  · rcases hs.optH hout with ⟨h1, h2⟩ | ⟨m, h1, h2, h3, h4⟩
    · obtain ⟨m, l, e1, e2, e3⟩ := hz.opt
      exact ⟨m, l, by rw [h1]; exact e1, by rw [h2]; exact e2, Nat.le_trans e3 (hv _ _)⟩
    · exact ⟨m, _, h1, h2, by rw [h3]; exact h4⟩
  · rcases hs.overH hout with ⟨h1, h2⟩ | ⟨m, h1, h2, h3, h4⟩
    · obtain ⟨m, l, e1, e2, e3⟩ := hz.over
      exact ⟨m, l, by rw [h1]; exact e1, by rw [h2]; exact e2, Nat.le_trans e3 (hv _ _)⟩
    · exact ⟨m, _, h1, h2, by rw [h3]; exact h4⟩
  · have hc := hz.count
    have key : ∀ {c : Nat} {pc pc' : CPc}, (s.subs p).cons c = pc → pc ≠ .out → (c = 0 ∧ ((s.subs p).cons 0).ticket = pc.ticket ∧ (upd (s.subs p).cons c pc' 0).ticket = pc'.ticket) := by
      intro c pc pc' h1 h2
      have e : c = 0 := by
        by_contra e
        exact h2 (h1.symm.trans (hout c e))
      subst e
      exact ⟨rfl, by rw [h1], by rw [upd_same]⟩
    cases hs <;> simp only [State.go, upd_same, Sub.at]
    case call c hcc =>
      by_cases e : c = 0
      · subst e
        rw [upd_same]
        rw [hcc] at hc
        exact hc
      · rw [upd_ne _ _ (Ne.symm e)]; exact hc
    all_goals
      first
      | exact hc
      | (obtain ⟨rfl, h1, h2⟩ := key (by assumption) (by simp)
         rw [h2]
         rw [h1] at hc
         simp only [CPc.ticket, reduceCtorEq, if_true, if_false] at hc ⊢
         first | exact hc | omega)
      | (obtain ⟨rfl, h1, h2⟩ := key (by assumption) (by simp)
         rw [h2]
         rw [h1] at hc
         split <;> (simp only [CPc.ticket, reduceCtorEq, if_true, if_false] at hc ⊢; first | exact hc | omega))

theorem Solo.zinv (h : Solo B C fix s) (q : Nat) : ZInv q s := by
  induction h with
  | init h =>
    obtain ⟨g, d, hg, hh, hd⟩ := h.subs
    refine ⟨⟨_, _, by rw [hh]; rfl, by rw [hg]; rfl, Nat.zero_le _⟩, ⟨_, _, by rw [hh]; rfl, by rw [hg]; rfl, Nat.zero_le _⟩, ?_⟩
    rw [hg]; rfl
  | @step s s' h hs ho ih =>
    cases hs with
    | learn t t' =>
      obtain ⟨m, l, e1, e2, e3⟩ := ih.opt
      obtain ⟨m', l', e1', e2', e3'⟩ := ih.over
      exact ⟨⟨m, l, e1, e2, Nat.le_trans e3 (le_learn _ _ _ _ _)⟩, ⟨m', l', e1', e2', Nat.le_trans e3' (le_learn _ _ _ _ _)⟩, ih.count⟩
    | mk p hs =>
      by_cases e : q = p
      · subst e; exact hs.zinv ih (fun c hc => h.out q hc)
      · have hu := hs.subs_other e
        have hv := hs.vw_le
        obtain ⟨m, l, e1, e2, e3⟩ := ih.opt
        obtain ⟨m', l', e1', e2', e3'⟩ := ih.over
        refine ⟨⟨m, l, ?_, ?_, Nat.le_trans e3 (hv _ _)⟩, ⟨m', l', ?_, ?_, Nat.le_trans e3' (hv _ _)⟩, ?_⟩
        · rw [hs.hist_other e rfl]; exact e1
        · rw [hu]; exact e2
        · rw [hs.hist_other e rfl]; exact e1'
        · rw [hu]; exact e2'
        · rw [hu]; exact ih.count

theorem SoloSteps.solo (h : SoloSteps B fix s s') (h0 : Solo B C fix s) : Solo B C fix s' := by
  induction h with
  | refl => exact h0
  | step _ hs ho ih => exact .step ih hs ho

/-- where the pop is as long as the element `i` is the next one -/
def Finds (p i : Nat) (s : State) : Prop :=
  match (s.subs p).cons 0 with
  | .start => True
  | .over t => i < t
  | .opt t o => i < t ∧ o = (s.subs p).over
  | .inc o => o = (s.subs p).over
  | .chk k o => k - o = i
  | .clm _ => True
  | _ => False

/-- The pop has taken the element `i`, or it is the next one, it is in the queue, the thread knows, and it has not given up. -/
def Found (p i : Nat) (s : State) : Prop :=
  i < (s.subs p).head ∨ ((s.subs p).head = i ∧ i < (s.subs p).tail ∧ (s.pubV p i).le (s.c.vw (.cons p 0)) ∧ Finds p i s)

theorem SStep.found (hz : ZInv p s) (hto : TailOrd p s) (hout : ∀ c, c ≠ 0 → (s.subs p).cons c = .out) {i : Nat} (h : Found p i s) (hs : SStep B fix p s s') : Found p i s' := by
  rcases h with h | ⟨h1, h2, h3, h4⟩
  · exact .inl (Nat.lt_of_lt_of_le h (hs.tok 0).1)
  have hv := hs.vw_le (.cons p 0)
  have hpub : s'.pubV p i = s.pubV p i ∧ (s.subs p).tail ≤ (s'.subs p).tail := by
    rcases hs.tailH with ⟨_, e2, e3⟩ | ⟨m, _, _, _, e4, e5, _⟩
    · exact ⟨by rw [e2], by omega⟩
    · exact ⟨by rw [e5, upd_ne _ _ (by omega)], by omega⟩
  have hz0 : ∀ {c : Nat} {pc : CPc}, (s.subs p).cons c = pc → pc ≠ .out → c = 0 := by
    intro c pc e1 e2
    by_contra e
    exact e2 (e1.symm.trans (hout c e))
  have fin : (s'.subs p).head = i → Finds p i s' → Found p i s' := fun e1 e2 =>
    .inr ⟨e1, Nat.lt_of_lt_of_le h2 hpub.2, by rw [hpub.1]; exact VC.le_trans h3 hv, e2⟩
  unfold Finds at h4
  obtain ⟨m1, l1, o1, o2, o3⟩ := hz.over
  obtain ⟨m2, l2, q1, q2, q3⟩ := hz.opt
  have hcount := hz.count
  cases hs
  case call c hc =>
    refine fin (by simp only [State.go, upd_same, Sub.at]; exact h1) ?_
    unfold Finds
    simp only [State.go, upd_same, Sub.at]
    by_cases e : c = 0
    · subst e; rw [upd_same]; trivial
    · rw [upd_ne _ _ (Ne.symm e)]; exact h4
  case ldTail c m t hc hm hvv =>
    obtain rfl := hz0 hc (by simp)
    refine fin (by simp only [State.go, upd_same, Sub.at]; exact h1) ?_
    unfold Finds
    simp only [State.go, upd_same, Sub.at]
    exact hto.sees hm hvv h2 h3
  case ldOver c t m o hc hm hvv =>
    obtain rfl := hz0 hc (by simp)
    refine fin (by simp only [State.go, upd_same, Sub.at]; exact h1) ?_
    unfold Finds
    simp only [State.go, upd_same, Sub.at]
    rw [hc] at h4
    rw [o1] at hm
    rw [sees_known hm o3, o2] at hvv
    cases hvv
    exact ⟨h4, rfl⟩
  case ldOpt c t o m k hc hm hvv =>
    obtain rfl := hz0 hc (by simp)
    refine fin (by simp only [State.go, upd_same, Sub.at]; exact h1) ?_
    unfold Finds
    simp only [State.go, upd_same, Sub.at]
    rw [hc] at h4 hcount
    rw [q1] at hm
    rw [sees_known hm q3, q2] at hvv
    cases hvv
    simp only [CPc.ticket, if_true] at hcount
    obtain ⟨h5, h6⟩ := h4
    rw [if_pos (by omega)]
    exact h6
  case inc c o hc =>
    obtain rfl := hz0 hc (by simp)
    refine fin (by simp only [State.go, upd_same, Sub.at]; exact h1) ?_
    unfold Finds
    simp only [State.go, upd_same, Sub.at]
    rw [hc] at h4 hcount
    simp only [CPc.ticket, if_true] at hcount
    have h4 : o = (s.subs p).over := h4
    omega
  case chkOk c k o m t hc hm hvv ht =>
    obtain rfl := hz0 hc (by simp)
    refine fin (by simp only [State.go, upd_same, Sub.at]; exact h1) ?_
    unfold Finds
    simp only [State.go, upd_same, Sub.at]
  case chkNo c k o m t hc hm hvv ht =>
    obtain rfl := hz0 hc (by simp)
    rw [hc] at h4
    have h4 : k - o = i := h4
    have := hto.sees hm hvv h2 h3
    omega
  case claim c k hc =>
    left
    simp only [State.go, upd_same]
    omega
  all_goals
    first
    | (refine fin (by simp only [State.go, upd_same, Sub.at]; exact h1) ?_
       unfold Finds
       simp only [State.go, upd_same, Sub.at]
       exact h4)
    | (have hc := hz0 (by assumption) (by simp)
       subst hc
       rw [show (s.subs p).cons 0 = _ by assumption] at h4
       exact h4.elim)

theorem SoloSteps.found (h0 : Solo B C fix s) {i : Nat} (hf : Found p i s) (h : SoloSteps B fix s s') : Found p i s' := by
  induction h with
  | refl => exact hf
  | @step s1 s2 h hs ho ih =>
    have h1 := h.solo h0
    cases hs with
    | learn t t' =>
      rcases ih with h | ⟨h2, h3, h4, h5⟩
      · exact .inl h
      · exact .inr ⟨h2, h3, VC.le_trans h4 (le_learn _ _ _ _), h5⟩
    | mk q hs =>
      by_cases e : p = q
      · subst e; exact hs.found (h1.zinv p) (h1.reach.tailOrd p) (fun c hc => h1.out p hc) ih
      · unfold Found Finds at ih ⊢
        rw [hs.subs_other e, (hs.ghost_other e).2.2.2.1]
        rcases ih with h | ⟨h2, h3, h4, h5⟩
        · exact .inl h
        · exact .inr ⟨h2, h3, VC.le_trans h4 (hs.vw_le _), h5⟩

end RG.WQ
