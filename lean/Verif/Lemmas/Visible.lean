import Verif.Lemmas.VisibleBase
import Verif.Lemmas.GraphWait
/-
Happens-before in the task graph: what is known.
-/
set_option linter.unusedVariables false
namespace RG.Vis
open RG.Graph
open RG.Dyn (owner)

variable {cfg : Cfg} {x x' : V}

/-! ### operations -/

theorem ops_nil (k : Clk) : k.ops [] = k := rfl
theorem ops_cons (k : Clk) (o : Op) (l : List Op) : k.ops (o :: l) = (k.op o).ops l := rfl

theorem know_decPost {k : Clk} {s : State} {a : Agent} {q : Nat} {b : Agent} {e : Ev} :
    (k.ops (decPost s a q)).know b e ↔ k.know b e ∨ (b = a ∧ k.loc (.post q) e) ∨
      (s.post q = 1 ∧ b = .flush q ∧ (k.know a e ∨ k.loc (.post q) e)) := by
  unfold decPost
  split <;> simp only [Clk.ops, List.foldl, Clk.op] <;> grind

theorem loc_decPost {k : Clk} {s : State} {a : Agent} {q : Nat} {l : Loc} {e : Ev} :
    (k.ops (decPost s a q)).loc l e ↔ k.loc l e ∨ (l = .post q ∧ k.know a e) := by
  unfold decPost
  split <;> simp only [Clk.ops, List.foldl, Clk.op]

theorem know_decCd {k : Clk} {s : State} {a : Agent} {q : Nat} {b : Agent} {e : Ev} :
    (k.ops (decCd s a q)).know b e ↔ k.know b e ∨ (b = a ∧ k.loc (.cd q) e) ∨
      (s.cd q = 1 ∧ b = .free q ∧ (k.know a e ∨ k.loc (.cd q) e)) := by
  unfold decCd
  split <;> simp only [Clk.ops, List.foldl, Clk.op] <;> grind

theorem loc_decCd {k : Clk} {s : State} {a : Agent} {q : Nat} {l : Loc} {e : Ev} :
    (k.ops (decCd s a q)).loc l e ↔ k.loc l e ∨ (l = .cd q ∧ k.know a e) := by
  unfold decCd
  split <;> simp only [Clk.ops, List.foldl, Clk.op]

/-! ### what is done by a task and its descendants -/

/-- what is known to a body or on behalf of the events that it has created -/
def knows (x : V) (c : Nat) (e : Ev) : Prop :=
  x.k.know (.body (c + 1)) e ∨ ∃ k, k < x.g.nExt ∧ x.g.owner k = c ∧ x.k.know (.ext k) e

/-- what is known to a task and its descendants -/
def pay (cfg : Cfg) (x : V) (p : Nat) (e : Ev) : Prop :=
  ∃ c, c < x.g.n ∧ Descends cfg c p ∧ knows x c e

theorem child_done {s : State} (hd : Dom cfg s) (hi : Core cfg s) {c q : Nat} (hc : c < s.n)
    (hp : cfg.parentOf c = some q) (h : s.post q = 0) :
    s.ph c = .inited ∧ .post q ∉ s.pnd c ∧ s.post c = 0 := by
  have h1 : s.ex q = .ended := by
    apply Decidable.not_not.1
    intro h'
    exact hi.runPos q h' h
  have h2 := hi.kids c q hc hp h1
  have h3 : .post q ∉ s.pnd c := by
    intro h3
    have h4 := hi.postEq q
    have h5 := le_sumTo (f := wpost s.pnd s.ph q) hc
    have h6 : 1 ≤ wpost s.pnd s.ph q c := by
      have : 1 ≤ (s.pnd c).count (.post q) := List.count_pos_iff.2 h3
      simp [wpost, h2, this]
    unfold cpost at h4
    omega
  refine ⟨h2, h3, ?_⟩
  rcases hi.finalI c q hp (.inr h2) with h4 | h4
  · exact h4
  · exact absurd h4 h3

theorem desc_done {s : State} (hd : Dom cfg s) (hi : Core cfg s) {c p : Nat} (h : Descends cfg c p)
    (hc : c < s.n) (h0 : s.post p = 0) : s.post c = 0 := by
  induction h with
  | refl => exact h0
  | @child c q p hp h' ih =>
    exact (child_done hd hi hc hp (ih (Nat.lt_trans (hd.par c q hc hp).1 hc) h0)).2.2

theorem ended_of {s : State} (hi : Core cfg s) {c : Nat} (h : s.post c = 0) : s.ex c = .ended := by
  apply Decidable.not_not.1
  intro h'
  exact hi.runPos c h' h

theorem ext_of {s : State} (hd : Dom cfg s) (hi : Core cfg s) {k : Nat} (hk : k < s.nExt) (h : s.post (s.owner k) = 0) :
    s.ext k = .done := by
  apply Decidable.not_not.1
  intro h'
  have h4 := hi.postEq (s.owner k)
  have h5 := le_sumTo (f := wext s.owner s.ext (s.owner k)) hk
  have h6 : wext s.owner s.ext (s.owner k) k = 1 := by simp [wext, h']
  unfold cext at h4
  omega

/-! ### the steps -/

theorem Step.g (h : Step cfg x x') : x'.g = x.g ∨ ∃ l, Graph.Step cfg l x.g x'.g := by
  cases h with
  | graph h => exact .inr (exec_step h)
  | _ => exact .inl rfl

theorem Reach.g (h : Reach cfg x) : Graph.Reach cfg x.g := by
  induction h with
  | init => exact .init
  | step _ hs ih =>
    rcases hs.g with h | ⟨l, h⟩
    · rw [h]; exact ih
    · exact .step ih h

/-- `know` and `loc` after the operations of a step -/
macro "clk" : tactic => `(tactic|
  simp only [ops_nil, ops_cons, Clk.op, know_decPost, loc_decPost, know_decCd, loc_decCd, V.act, Act.born, State.decPost, State.decPre, State.decCd] at *)

/-- the holder of a lock knows what is in the lock -/
def LockK (x : V) : Prop := ∀ r t, x.g.lock r = some t → ∀ e, x.k.loc (.lock r) e → x.k.know (.init t) e

theorem Step.know (h : Step cfg x x') {a e} (hk : x.k.know a e) : x'.k.know a e := by
  cases h with
  | @graph a s' h hb hr =>
    have hd := does h
    clear h
    revert hd
    generalize sync cfg x.g a = l
    intro hd
    cases hd <;> clk <;> grind
  | _ => clk; grind

theorem Step.loc (hi : Core cfg x.g) (hl : LockK x) (h : Step cfg x x') {l e} (hq : ∀ t, l ≠ .queue t)
    (hk : x.k.loc l e) : x'.k.loc l e := by
  cases h with
  | @graph a s' h hb hr =>
    have hd := does h
    clear h
    revert hd
    generalize sync cfg x.g a = l
    have h1 := hi.lockUnlock
    unfold LockK at hl
    intro hd
    cases hd <;> clk <;> grind
  | _ => clk; grind

/-- what is known after a finished task does not change any more -/
theorem Step.frozen (ht : Dom cfg x.g) (hi : Core cfg x.g) (h : Step cfg x x') {p e} (h0 : x.g.post p = 0)
    (hp : pay cfg x' p e) : pay cfg x p e := by
  obtain ⟨c, hc, hde, hk⟩ := hp
  have key : c < x.g.n → x.g.post c = 0 ∧ x.g.ex c = .ended ∧ ∀ k, k < x.g.nExt → x.g.owner k = c → x.g.ext k = .done := by
    intro hc
    have h1 := desc_done ht hi hde hc h0
    exact ⟨h1, ended_of hi h1, fun k hk ho => ext_of ht hi hk (by rw [ho]; exact h1)⟩
  suffices hs : c < x.g.n ∧ knows x c e from ⟨c, hs.1, hde, hs.2⟩
  unfold knows at *
  cases h with
  | @graph a s' h hb hr =>
    have hd := does h
    clear h
    revert hk hd
    generalize sync cfg x.g a = l
    intro hk hd
    have h2 := hi.handedEq
    cases hd with
    | beginSubmit h1 =>
      have hcn : c < x.g.n := by
        refine Nat.lt_of_le_of_ne (Nat.lt_succ_iff.1 hc) ?_
        rintro rfl
        obtain ⟨q, hq, hq'⟩ := Descends.up hde (by
          rintro rfl
          have := ht.post _ (Nat.le_refl x.g.n)
          omega)
        have h3 := h1 q hq
        have h4 : q < x.g.n := Nat.lt_of_not_le fun h' => by rw [ht.ex q h'] at h3; cases h3
        rw [ended_of hi (desc_done ht hi hq' h4 h0)] at h3
        cases h3
      clk
      grind
    | start h1 =>
      have := key hc
      clk
      grind
    | createEvent h1 =>
      have := key hc
      clk
      grind [upd]
    | _ =>
      have := key hc
      clk
      grind
  | act h1 =>
    rename_i i
    have := key hc
    clk
    cases i <;> grind [Busy]
  | get w h1 h2 =>
    rename_i i
    have := key hc
    clk
    cases i <;> grind [Busy]
  | fin h1 =>
    have := key hc
    clk
    grind [Busy]
  | _ =>
    have := key hc
    clk
    grind

/-! ### invariants about single pieces of code -/

structure Base (cfg : Cfg) (x : V) : Prop where
  own : ∀ a j, j < x.cnt a → x.k.know a (a, j)
  lockK : ∀ r t, x.g.lock r = some t → ∀ e, x.k.loc (.lock r) e → x.k.know (.init t) e
  ended : ∀ t, x.g.ex t = .ended → ∀ e, x.k.know (.body (t + 1)) e → x.k.loc (.post t) e
  extd : ∀ k, x.g.ext k = .done → ∀ e, x.k.know (.ext k) e → x.k.loc (.post (x.g.owner k)) e
  flush : ∀ t, x.g.post t = 0 → ∀ e, x.k.loc (.post t) e → x.k.know (.flush t) e
  unqueued : ∀ t, x.g.n ≤ t → ∀ e, ¬ x.k.know (.sub t) e
  queued : ∀ t, x.g.ph t = .queued → ∀ e, x.k.know (.sub t) e → x.k.loc (.queue t) e
  begunI : ∀ t, begun (x.g.ph t) = true → ∀ e, x.k.know (.sub t) e → x.k.know (.init t) e
  initedI : ∀ t, x.g.ph t = .inited → ∀ e, x.k.know (.init t) e → x.k.loc (.pre t) e
  started : ∀ t, x.g.ex t ≠ .none → ∀ e, x.k.loc (.pre t) e → x.k.know (.body (t + 1)) e
  bornI : ∀ t j, t < x.g.n → j < x.born t → x.k.know (.sub t) (.body (owner cfg t), j)
  kid : ∀ c t, c < x.g.n → cfg.parentOf c = some t → ∀ e, x.k.loc (.pre t) e → x.k.know (.sub c) e
  finEx : ∀ t, x.fin t = true → x.g.ex t ≠ .none
  fins : ∀ t, x.fin t = true → ∀ e, x.k.know (.body (t + 1)) e → x.k.loc (.result t) e

/-- a case for every step -/
macro "vis" h:ident "[" ls:Lean.Parser.Tactic.grindParam,* "]" : tactic => `(tactic|
  (cases $h:ident with
   | @graph a s' h hb hr =>
     have hd := does h
     clear h
     revert hd
     generalize sync cfg x.g a = l
     intro hd
     cases hd <;> clk <;> grind [upd, begun, $ls,*]
   | @act i h =>
     clk
     cases i <;> grind [upd, Busy, $ls,*]
   | @get i w h hw =>
     clk
     cases i <;> grind [upd, Busy, $ls,*]
   | _ =>
     clk
     grind [upd, Busy, $ls,*]))

theorem Base.step_own (hb : Base cfg x) (h : Step cfg x x') : ∀ a j, j < x'.cnt a → x'.k.know a (a, j) := by
  have h0 := hb.own
  vis h []

theorem Base.step_lockK (hi : Core cfg x.g) (hb : Base cfg x) (h : Step cfg x x') :
    ∀ r t, x'.g.lock r = some t → ∀ e, x'.k.loc (.lock r) e → x'.k.know (.init t) e := by
  have h0 := hb.lockK
  have h1 := hi.lockUnlock
  vis h []

theorem Base.step_ended (hd : Dom cfg x.g) (hi : Core cfg x.g) (hb : Base cfg x) (h : Step cfg x x') :
    ∀ t, x'.g.ex t = .ended → ∀ e, x'.k.know (.body (t + 1)) e → x'.k.loc (.post t) e := by
  have h0 := hb.ended
  have h1 := hi.handedEq
  have h2 := hi.exI
  vis h []

theorem Base.step_extd (hd : Dom cfg x.g) (hi : Core cfg x.g) (hb : Base cfg x) (h : Step cfg x x') :
    ∀ k, x'.g.ext k = .done → ∀ e, x'.k.know (.ext k) e → x'.k.loc (.post (x'.g.owner k)) e := by
  have h0 := hb.extd
  have h1 := hd.ext
  vis h []

theorem Base.step_flush (hd : Dom cfg x.g) (hi : Core cfg x.g) (hb : Base cfg x) (h : Step cfg x x') :
    ∀ t, x'.g.post t = 0 → ∀ e, x'.k.loc (.post t) e → x'.k.know (.flush t) e := by
  have h0 := hb.flush
  have h1 := hi.runPos
  have h2 := hi.pincrPos hd
  have h3 := hi.firedPos hd
  have h4 := hi.notifyPostPos hd
  vis h []

theorem Base.step_unqueued (hd : Dom cfg x.g) (hi : Core cfg x.g) (hb : Base cfg x) (h : Step cfg x x') :
    ∀ t, x'.g.n ≤ t → ∀ e, ¬ x'.k.know (.sub t) e := by
  have h0 := hb.unqueued
  vis h []

theorem Base.step_queued (hd : Dom cfg x.g) (hi : Core cfg x.g) (hb : Base cfg x) (h : Step cfg x x') :
    ∀ t, x'.g.ph t = .queued → ∀ e, x'.k.know (.sub t) e → x'.k.loc (.queue t) e := by
  have h0 := hb.queued
  vis h []

theorem Base.step_begun (hd : Dom cfg x.g) (hi : Core cfg x.g) (hb : Base cfg x) (h : Step cfg x x') :
    ∀ t, begun (x'.g.ph t) = true → ∀ e, x'.k.know (.sub t) e → x'.k.know (.init t) e := by
  have h0 := hb.begunI
  have h1 := hb.queued
  have h2 := hd.lt_ph
  vis h []

theorem Base.step_inited (hd : Dom cfg x.g) (hi : Core cfg x.g) (hb : Base cfg x) (h : Step cfg x x') :
    ∀ t, x'.g.ph t = .inited → ∀ e, x'.k.know (.init t) e → x'.k.loc (.pre t) e := by
  have h0 := hb.initedI
  vis h []

theorem Base.step_started (hd : Dom cfg x.g) (hi : Core cfg x.g) (hb : Base cfg x) (h : Step cfg x x') :
    ∀ t, x'.g.ex t ≠ .none → ∀ e, x'.k.loc (.pre t) e → x'.k.know (.body (t + 1)) e := by
  have h0 := hb.started
  have h1 := hi.exI
  have h2 : ∀ p t rem, x.g.fl p = .notifying (.pre t :: rem) → x.g.ex t = .none := by
    intro p t rem hf
    apply Decidable.not_not.1
    intro hx
    refine started_not_pending hd hi hx (p := p) ?_
    rw [hi.pndNot p _ hf]
    exact .head _
  vis h []

theorem Base.step_born (hd : Dom cfg x.g) (hi : Core cfg x.g) (hb : Base cfg x) (h : Step cfg x x') :
    ∀ t j, t < x'.g.n → j < x'.born t → x'.k.know (.sub t) (.body (owner cfg t), j) := by
  have h0 := hb.bornI
  have h1 := hb.own
  vis h []

theorem Base.step_kid (hd : Dom cfg x.g) (hi : Core cfg x.g) (hb : Base cfg x) (h : Step cfg x x') :
    ∀ c t, c < x'.g.n → cfg.parentOf c = some t → ∀ e, x'.k.loc (.pre t) e → x'.k.know (.sub c) e := by
  have h0 := hb.kid
  have h1 := hb.started
  have h2 := hd.par
  have h3 := hi.exI
  have h4 : ∀ p t rem, x.g.fl p = .notifying (.pre t :: rem) → x.g.ex t = .none := by
    intro p t rem hf
    apply Decidable.not_not.1
    intro hx
    refine started_not_pending hd hi hx (p := p) ?_
    rw [hi.pndNot p _ hf]
    exact .head _
  have h5 : ∀ t, x.g.handed t ≠ 0 → x.g.ex t = .none := by
    intro t ht
    rw [hi.handedEq] at ht
    grind
  have h6 : ∀ c t, cfg.parentOf c = some t → owner cfg c = t + 1 := by
    intro c t hp
    simp [owner, hp]
  have h7 : ∀ c t, c < x.g.n → cfg.parentOf c = some t → x.g.ex t ≠ .none ∧ x.g.ph t = .inited :=
    fun c t hc hp => ⟨(hd.par c t hc hp).2, (hi.exI t (hd.par c t hc hp).2).1⟩
  clear h2 h3
  vis h []

theorem Base.step_finEx (hd : Dom cfg x.g) (hi : Core cfg x.g) (hb : Base cfg x) (h : Step cfg x x') :
    ∀ t, x'.fin t = true → x'.g.ex t ≠ .none := by
  have h0 := hb.finEx
  vis h []

theorem Base.step_fins (hd : Dom cfg x.g) (hi : Core cfg x.g) (hb : Base cfg x) (h : Step cfg x x') :
    ∀ t, x'.fin t = true → ∀ e, x'.k.know (.body (t + 1)) e → x'.k.loc (.result t) e := by
  have h0 := hb.fins
  have h1 := hb.finEx
  have h5 : ∀ t, x.g.handed t ≠ 0 → x.g.ex t = .none := by
    intro t ht
    rw [hi.handedEq] at ht
    grind
  vis h []

theorem Base.init : Base cfg init := by
  constructor <;> simp [Vis.init, Graph.init, begun]

theorem Base.step (hd : Dom cfg x.g) (hi : Core cfg x.g) (hb : Base cfg x) (h : Step cfg x x') : Base cfg x' :=
  ⟨hb.step_own h, hb.step_lockK hi h, hb.step_ended hd hi h, hb.step_extd hd hi h, hb.step_flush hd hi h,
   hb.step_unqueued hd hi h, hb.step_queued hd hi h, hb.step_begun hd hi h, hb.step_inited hd hi h,
   hb.step_started hd hi h, hb.step_born hd hi h, hb.step_kid hd hi h, hb.step_finEx hd hi h, hb.step_fins hd hi h⟩

/-! ### what happens to followers -/

/-- a follower is forgotten when it is notified -/
theorem Step.pnd (hi : Core cfg x.g) (h : Step cfg x x') {c : Nat} {f : Fol} (hm : f ∈ x.g.pnd c) (hm' : f ∉ x'.g.pnd c) :
    (∃ rem, x.g.fl c = .notifying (f :: rem)) ∧
    (∀ q, f = .post q → ∀ e, x.k.know (.flush c) e → x'.k.loc (.post q) e) ∧
    (∀ u, f = .pre u → ∀ e, x.k.know (.flush c) e → x'.k.loc (.pre u) e) := by
  have h0 := hi.pndNot
  cases h with
  | @graph a s' h hb hr =>
    have hd := does h
    clear h
    revert hd
    generalize sync cfg x.g a = l
    intro hd
    cases hd with
    | @notifyPre p t rem h =>
      by_cases e : c = p
      · subst e
        have h1 := h0 c _ h
        clk
        rw [upd_same, h1] at hm'
        rw [h1] at hm
        rcases List.mem_cons.1 hm with rfl | h2
        · refine ⟨⟨rem, h⟩, by simp, ?_⟩
          rintro u ⟨⟩ e he
          exact .inr ⟨rfl, he⟩
        · exact absurd h2 hm'
      · clk
        rw [upd_ne _ _ e] at hm'
        exact absurd hm hm'
    | @notifyPost p q rem h =>
      by_cases e : c = p
      · subst e
        have h1 := h0 c _ h
        clk
        rw [upd_same, h1] at hm'
        rw [h1] at hm
        rcases List.mem_cons.1 hm with rfl | h2
        · refine ⟨⟨rem, h⟩, ?_, by simp⟩
          rintro u ⟨⟩ e he
          exact .inr ⟨rfl, he⟩
        · exact absurd h2 hm'
      · clk
        rw [upd_ne _ _ e] at hm'
        exact absurd hm hm'
    | @link t i p rem h =>
      by_cases e : c = p.1
      · subst e
        dsimp only at hm'
        rw [upd_same] at hm'
        exact absurd (.tail _ hm) hm'
      · dsimp only at hm'
        rw [upd_ne _ _ e] at hm'
        exact absurd hm hm'
    | @parentPush t q h hp =>
      by_cases e : c = t
      · subst e
        dsimp only at hm'
        rw [upd_same] at hm'
        exact absurd (.tail _ hm) hm'
      · dsimp only at hm'
        rw [upd_ne _ _ e] at hm'
        exact absurd hm hm'
    | _ => exact absurd hm hm'
  | _ => exact absurd hm hm'

theorem Step.final (hi : Core cfg x.g) (h : Step cfg x x') {c q : Nat} (hp : cfg.parentOf c = some q)
    (h1 : x'.g.ph c = .initing .final ∨ x'.g.ph c = .inited) :
    (x.g.ph c = .initing .final ∨ x.g.ph c = .inited) ∨ .post q ∈ x.g.pnd c := by
  have h0 := hi.pincrI
  vis h []

theorem Step.post0 (hd : Dom cfg x.g) (hi : Core cfg x.g) (h : Step cfg x x') {p : Nat} (h0 : x.g.post p = 0) :
    x'.g.post p = 0 := by
  rcases h.g with e | ⟨l, hs⟩
  · rw [e]; exact h0
  · have h1 := hi.pincrPos hd
    have h2 := hi.runPos
    revert hs
    generalize x'.g = s'
    intro hs
    cases hs <;> first | exact h0 | (dsimp only [State.decPost, State.decPre, State.decCd]; grind [upd])

/-! ### invariants about finished tasks -/

structure Pay (cfg : Cfg) (x : V) : Prop where
  child : ∀ c q, c < x.g.n → cfg.parentOf c = some q → x.g.ph c = .initing .final ∨ x.g.ph c = .inited →
    .post q ∈ x.g.pnd c ∨ (x.g.post c = 0 ∧ ∀ e, pay cfg x c e → x.k.loc (.post q) e)
  del : ∀ r t i, (cfg.res t)[i]? = some r → notDel (x.g.fl t) i = false → ∀ e, pay cfg x t e → x.k.loc (.lock r) e
  cdI : ∀ t, x.g.fl t = .done → ∀ e, pay cfg x t e → x.k.loc (.cd t) e
  freeI : ∀ t, x.g.mem t ≠ .alive → ∀ e, pay cfg x t e → x.k.know (.free t) e
  countI : ∀ t, counts (x.g.mem t) = false → ∀ e, pay cfg x t e → x.k.loc (.count (cfg.space t)) e

theorem up_of {s : State} (hd : Dom cfg s) : Up cfg s.n := fun c q hc hp => (hd.par c q hc hp).1

/-- what a finished task and its descendants have done is known to the one who sees that it has finished -/
theorem done_loc (hd : Dom cfg x.g) (hi : Core cfg x.g) (hb : Base cfg x) (hp : Pay cfg x) {t : Nat}
    (h0 : x.g.post t = 0) {e : Ev} (h : pay cfg x t e) : x.k.loc (.post t) e := by
  obtain ⟨c, hc, hde, hk⟩ := h
  by_cases hct : c = t
  · subst hct
    rcases hk with hk | ⟨k, hk, ho, hk'⟩
    · exact hb.ended c (ended_of hi h0) e hk
    · subst ho
      exact hb.extd k (ext_of hd hi hk h0) e hk'
  · obtain ⟨c', h1, h2⟩ := Descends.viaChild hde hct
    have hc' : c' < x.g.n := Nat.lt_of_le_of_lt (Descends.le (up_of hd) h2 hc) hc
    obtain ⟨h3, h4, h5⟩ := child_done hd hi hc' h1 h0
    rcases hp.child c' t hc' h1 (.inr h3) with h6 | ⟨_, h6⟩
    · exact absurd h6 h4
    · exact h6 e ⟨c, hc, h2, hk⟩

theorem done_flush (hd : Dom cfg x.g) (hi : Core cfg x.g) (hb : Base cfg x) (hp : Pay cfg x) {t : Nat}
    (h0 : x.g.post t = 0) {e : Ev} (h : pay cfg x t e) : x.k.know (.flush t) e :=
  hb.flush t h0 e (done_loc hd hi hb hp h0 h)

theorem post_of_fl {s : State} (hi : Core cfg s) {t : Nat} (h : s.fl t ≠ .idle) : s.post t = 0 := by
  apply Decidable.not_not.1
  intro h'
  exact h ((hi.flPost t).2 h')

theorem Pay.step_child (hd : Dom cfg x.g) (hi : Core cfg x.g) (hi' : Core cfg x'.g) (hb : Base cfg x) (hp : Pay cfg x)
    (h : Step cfg x x') : ∀ c q, c < x'.g.n → cfg.parentOf c = some q →
    x'.g.ph c = .initing .final ∨ x'.g.ph c = .inited →
    .post q ∈ x'.g.pnd c ∨ (x'.g.post c = 0 ∧ ∀ e, pay cfg x' c e → x'.k.loc (.post q) e) := by
  intro c q hc hpa hph
  by_cases hm' : .post q ∈ x'.g.pnd c
  · exact .inl hm'
  refine .inr ⟨(hi'.finalI c q hpa hph).resolve_right hm', ?_⟩
  by_cases hm : .post q ∈ x.g.pnd c
  · obtain ⟨⟨rem, h1⟩, h2, _⟩ := h.pnd hi hm hm'
    have h0 := post_of_fl hi (t := c) (by rw [h1]; simp)
    intro e he
    exact h2 q rfl e (done_flush hd hi hb hp h0 (h.frozen hd hi h0 he))
  · rcases h.final hi hpa hph with h1 | h1
    · have hcn : c < x.g.n := hd.lt_ph c (by rcases h1 with h1 | h1 <;> rw [h1] <;> simp)
      rcases hp.child c q hcn hpa h1 with h2 | ⟨h2, h3⟩
      · exact absurd h2 hm
      · intro e he
        exact h.loc hi hb.lockK (by simp) (h3 e (h.frozen hd hi h2 he))
    · exact absurd h1 hm

theorem Pay.step_del (hd : Dom cfg x.g) (hi : Core cfg x.g) (hb : Base cfg x) (hp : Pay cfg x)
    (h : Step cfg x x') : ∀ r t i, (cfg.res t)[i]? = some r → notDel (x'.g.fl t) i = false →
    ∀ e, pay cfg x' t e → x'.k.loc (.lock r) e := by
  intro r t i hr hn e he
  by_cases hn0 : notDel (x.g.fl t) i = false
  · have h0 := hi.gone (e := (t, i)) hn0
    exact h.loc hi hb.lockK (by simp) (hp.del r t i hr hn0 e (h.frozen hd hi h0 he))
  · have key : x.g.fl t = .deleting i ∧ (∀ e, x.k.know (.flush t) e → x'.k.loc (.lock r) e) := by
      clear he
      have h1 := hi.idxDel
      have h2 := getElem?_lt_length hr
      have h3 := hi.flPost'
      clear hb hp hd
      vis h [notDel]
    have h0 := post_of_fl hi (t := t) (by rw [key.1]; simp)
    exact key.2 e (done_flush hd hi hb hp h0 (h.frozen hd hi h0 he))

theorem Pay.step_cd (hd : Dom cfg x.g) (hi : Core cfg x.g) (hb : Base cfg x) (hp : Pay cfg x)
    (h : Step cfg x x') : ∀ t, x'.g.fl t = .done → ∀ e, pay cfg x' t e → x'.k.loc (.cd t) e := by
  intro t hf e he
  by_cases hf0 : x.g.fl t = .done
  · have h0 := post_of_fl hi (t := t) (by rw [hf0]; simp)
    exact h.loc hi hb.lockK (by simp) (hp.cdI t hf0 e (h.frozen hd hi h0 he))
  · have key : x.g.fl t = .counting ∧ (∀ e, x.k.know (.flush t) e → x'.k.loc (.cd t) e) := by
      clear he hb hp hd
      vis h []
    have h0 := post_of_fl hi (t := t) (by rw [key.1]; simp)
    exact key.2 e (done_flush hd hi hb hp h0 (h.frozen hd hi h0 he))

theorem mem_post {s : State} (hi : Core cfg s) (hl : Life cfg s) {t : Nat} (h : s.mem t ≠ .alive) :
    s.fl t = .done ∧ s.post t = 0 := by
  have h1 : s.cd t = 0 := by
    apply Decidable.not_not.1
    intro h'
    exact h ((hl.memEq t).2 h')
  have h2 := hl.cdEq t
  have h3 : s.fl t = .done := by
    apply Decidable.not_not.1
    intro h'
    rw [if_neg h'] at h2
    omega
  exact ⟨h3, post_of_fl hi (by rw [h3]; simp)⟩

theorem Pay.step_free (hd : Dom cfg x.g) (hi : Core cfg x.g) (hl : Life cfg x.g) (hb : Base cfg x) (hp : Pay cfg x)
    (h : Step cfg x x') : ∀ t, x'.g.mem t ≠ .alive → ∀ e, pay cfg x' t e → x'.k.know (.free t) e := by
  intro t hm e he
  by_cases hm0 : x.g.mem t = .alive
  · have key : x.g.cd t = 1 ∧ ((x.g.fl t = .counting ∧ ∀ e, x.k.know (.flush t) e → x'.k.know (.free t) e) ∨
        (x.g.fut t = .taken ∧ ∀ e, x.k.loc (.cd t) e → x'.k.know (.free t) e)) := by
      clear he hb hp hd
      vis h []
    obtain ⟨h1, ⟨h2, h3⟩ | ⟨h2, h3⟩⟩ := key
    · have h0 := post_of_fl hi (t := t) (by rw [h2]; simp)
      exact h3 e (done_flush hd hi hb hp h0 (h.frozen hd hi h0 he))
    · have h4 := hl.cdEq t
      have h5 : x.g.fl t = .done := by
        apply Decidable.not_not.1
        intro h'
        rw [if_neg h', if_neg (by rw [h2]; simp)] at h4
        omega
      have h0 := post_of_fl hi (t := t) (by rw [h5]; simp)
      exact h3 e (hp.cdI t h5 e (h.frozen hd hi h0 he))
  · exact h.know (hp.freeI t hm0 e (h.frozen hd hi (mem_post hi hl hm0).2 he))

theorem Pay.step_count (hd : Dom cfg x.g) (hi : Core cfg x.g) (hl : Life cfg x.g) (hb : Base cfg x) (hp : Pay cfg x)
    (h : Step cfg x x') : ∀ t, counts (x'.g.mem t) = false → ∀ e, pay cfg x' t e → x'.k.loc (.count (cfg.space t)) e := by
  intro t hm e he
  by_cases hm0 : counts (x.g.mem t) = false
  · have h1 : x.g.mem t ≠ .alive := by intro h'; rw [h'] at hm0; cases hm0
    exact h.loc hi hb.lockK (by simp) (hp.countI t hm0 e (h.frozen hd hi (mem_post hi hl h1).2 he))
  · have key : x.g.mem t = .freeing ∧ ∀ e, x.k.know (.free t) e → x'.k.loc (.count (cfg.space t)) e := by
      have h1 := hl.memEq
      clear he hb hp hd
      vis h [counts]
    have h1 : x.g.mem t ≠ .alive := by rw [key.1]; simp
    exact key.2 e (hp.freeI t h1 e (h.frozen hd hi (mem_post hi hl h1).2 he))

end RG.Vis
