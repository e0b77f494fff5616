import Verif.Model.DemotionsBodies
import Verif.Lemmas.Bodies
import Verif.Props.Demotions
/-
Lemmas for C82: what is known about the events of an execution.
-/
set_option linter.unusedVariables false
namespace RG.Demoting
open RG.Graph
open RG.Bodies (Ev runs ap block sorted Indep Exec Change)

variable {cfg0 : Cfg} {R : Runtime} {M : Type} {P : Prog M} {m0 : M}

/-- the states of the machine -/
inductive Runtime.Reach (R : Runtime) : R.S → Prop
  | init : Runtime.Reach R R.init
  | step {s s'} : Runtime.Reach R s → R.step s s' → Runtime.Reach R s'

theorem Reach.rt {x : St R M} (h : Reach R P m0 x) : R.Reach x.s := by
  induction h with
  | init => exact .init
  | step _ hs ih =>
    cases hs with
    | rt h => exact .step ih h
    | _ => exact ih

/-- The machine implements Model/Demotions. -/
structure Sound (cfg0 : Cfg) (R : Runtime) : Prop where
  init : R.cfg R.init = cfg0 ∧ R.g R.init = Graph.init
  sim : ∀ s s', R.Reach s → R.step s s' →
    (R.cfg s' = R.cfg s ∧ R.g s' = R.g s) ∨ DStep (R.cfg s) (R.g s) (R.cfg s') (R.g s')

theorem graph_sound : Sound cfg0 (graph cfg0) := ⟨⟨rfl, rfl⟩, fun _ _ _ h => .inr h⟩

theorem Sound.reach (hR : Sound cfg0 R) {s : R.S} (h : R.Reach s) : DReach cfg0 (R.cfg s) (R.g s) := by
  induction h with
  | init => rw [hR.init.1, hR.init.2]; exact .init
  | step h hs ih =>
    rcases hR.sim _ _ h hs with ⟨e1, e2⟩ | hl
    · rw [e1, e2]; exact ih
    · exact .step ih hl

theorem workers_reach {s : (workers cfg0 1).S} (h : (workers cfg0 1).Reach s) : Sys.DReach 1 cfg0 s.1 s.2 := by
  induction h with
  | init => exact .init
  | step _ hs ih => exact .step ih hs

theorem workers_sound (hw : cfg0.WellFormed) (ht : NestingOk cfg0) (h1 : cfg0.ShareOne) :
    Sound cfg0 (workers cfg0 1) := by
  refine ⟨⟨rfl, rfl⟩, fun s s' h hs => ?_⟩
  obtain ⟨h2, h3⟩ := (workers_reach h).graph hw.policy ht h1
  exact (Sys.DStep.graph hw.policy ht h1 h2 h3 hs).1

theorem DStep.change {cfg cfg' : Cfg} {g g' : State} (hi : Core cfg g) (hs : DStep cfg g cfg' g') :
    Change cfg g g' := by
  cases hs with
  | step h => exact Bodies.change_of hi h
  | @demote _ _ _ p patch hp hrm h hc =>
    obtain ⟨-, e⟩ := updateProperties_ok h
    have h1 := updateLoop_spec cfg' p (g.fol p) g
    rw [← e] at h1
    have h2 := h1.2.2.2.2.2.1
    have h3 := h1.2.2.2.2.2.2.2.1
    exact ⟨fun _ h => by rw [← h2]; exact h, fun _ h => by rw [h2]; exact h, fun _ h => .inl (by rw [h2]; exact h),
      fun _ h => .inl (by rw [← h2]; exact h), .inl h3⟩
  | rejected hp hrm h => rw [C22_rejected_releases_nobody_partial h]; exact .refl

/-- phase `k` of task `q` has begun -/
def Begun (x : St R M) (q k : Nat) : Prop := k < x.cur q ∨ (k = x.cur q ∧ x.on q = true)

/-- The assumptions on the program: what a user has to observe. Phases of different tasks are independent, or make
use of accesses that conflict. -/
structure Proper (cfg0 : Cfg) (P : Prog M) : Prop where
  wf : cfg0.WellFormed
  single : cfg0.single = true
  flat : ∀ sp, cfg0.parent sp = none
  one : ∀ t u, cfg0.space t = cfg0.space u
  declared : ∀ t u k j, t ≠ u → ¬ Indep P.next (t, k) (u, j) →
    ∃ a ∈ P.need (t, k), ∃ b ∈ P.need (u, j), a.isSerial b = true

structure Inv (P : Prog M) (m0 : M) (x : St R M) (tr : List Ev) : Prop where
  mem : runs P.next tr m0 = some x.m
  blk : ∀ t k, ∃ j, block tr (t, k) =
    if k < x.cur t then List.replicate j (.act (t, k)) ++ [.stop (t, k)]
    else if k = x.cur t ∧ x.on t = true then List.replicate j (.act (t, k)) else []
  onR : ∀ t, x.on t = true → (R.g x.s).ex t = .running ∧ x.cur t < P.len t ∧
    P.need (t, x.cur t) ⊆ ((R.cfg x.s).user t).access
  curL : ∀ t, x.cur t ≤ P.len t
  none : ∀ t, (R.g x.s).ex t = .none → x.cur t = 0
  ended : ∀ t, (R.g x.s).ex t = .ended → x.cur t = P.len t
  /-- what a later task has made use of has been given up by earlier ones -/
  given : ∀ u j, Begun x u j → ∀ t, t < u → (R.g x.s).ex t ≠ .ended → ∀ a ∈ ((R.cfg x.s).user t).access,
    ∀ b ∈ P.need (u, j), a.isSerial b = false
  good : tr.Pairwise fun f e => e.key.1 < f.key.1 ∨ (e.key.1 = f.key.1 ∧ e.key.2 < f.key.2) → Indep P.next f.key e.key

theorem Inv.started {x : St R M} {tr : List Ev} (h : Inv P m0 x tr) {q k : Nat} (hb : Begun x q k) :
    Started (R.g x.s) q := by
  intro he
  have h0 := h.none q he
  rcases hb with hb | ⟨_, hb⟩
  · omega
  · have := (h.onR q hb).1
    rw [he] at this
    cases this

theorem Inv.begun {x : St R M} {tr : List Ev} (h : Inv P m0 x tr) {f : Ev} (hf : f ∈ tr) :
    Begun x f.key.1 f.key.2 := by
  obtain ⟨j, hj⟩ := h.blk f.key.1 f.key.2
  have hm : f ∈ block tr (f.key.1, f.key.2) := Bodies.mem_block.2 ⟨hf, rfl⟩
  rw [hj] at hm
  split at hm
  · exact .inl (by assumption)
  · split at hm
    · exact .inr (by assumption)
    · cases hm

/-- the events of the tasks that come later in the sequential program are independent of the next event -/
theorem Inv.next (hP : Proper cfg0 P) {x : St R M} {tr : List Ev} (h : Inv P m0 x tr) {t : Nat}
    (ho : x.on t = true) {f : Ev} (hf : f ∈ tr)
    (hp : t < f.key.1 ∨ (t = f.key.1 ∧ x.cur t < f.key.2)) : Indep P.next f.key (t, x.cur t) := by
  apply Classical.byContradiction
  intro hi
  have hb := h.begun hf
  rcases hp with h1 | ⟨h1, h2⟩
  · obtain ⟨hx, hl, hn⟩ := h.onR t ho
    obtain ⟨a, ha, b, hb', hc⟩ := hP.declared t f.key.1 (x.cur t) f.key.2 (by omega) fun h' => hi h'.symm
    have := h.given _ _ hb t h1 (by rw [hx]; simp) a (hn ha) b hb'
    rw [hc] at this
    cases this
  · rw [← h1] at hb
    rcases hb with hb | hb <;> omega

theorem good_concat {tr : List Ev} {e : Ev}
    (h : tr.Pairwise fun f e => e.key.1 < f.key.1 ∨ (e.key.1 = f.key.1 ∧ e.key.2 < f.key.2) → Indep P.next f.key e.key)
    (h' : ∀ f ∈ tr, e.key.1 < f.key.1 ∨ (e.key.1 = f.key.1 ∧ e.key.2 < f.key.2) → Indep P.next f.key e.key) :
    (tr ++ [e]).Pairwise fun f e => e.key.1 < f.key.1 ∨ (e.key.1 = f.key.1 ∧ e.key.2 < f.key.2) →
      Indep P.next f.key e.key := by
  refine List.pairwise_append.2 ⟨h, by simp, ?_⟩
  intro f hf e' he'
  rw [List.mem_singleton.1 he']
  exact h' f hf

theorem runs_concat {tr : List Ev} {e : Ev} {m m1 m2 : M} (h1 : runs P.next tr m = some m1)
    (h2 : ap P.next e m1 = some m2) : runs P.next (tr ++ [e]) m = some m2 :=
  Bodies.runs_append.2 ⟨m1, h1, by simp [runs, h2]⟩

/-- a task that needs a conflicting access starts when an earlier one has returned or given up its access -/
theorem begin_given (hP : Proper cfg0 P) (hR : Sound cfg0 R) {s : R.S} (hs : R.Reach s) {t u : Nat} (hlt : t < u)
    (hx : Started (R.g s) u) (he : (R.g s).ex t ≠ .ended) {a b : RAccess} (ha : a ∈ ((R.cfg s).user t).access)
    (hb : b ∈ ((R.cfg s).user u).access) : a.isSerial b = false := by
  rw [← Bool.not_eq_true]
  intro hc
  have hr := hR.reach hs
  have hser : ((R.cfg s).user t).isSerial ((R.cfg s).user u) = true := by
    simp only [User.isSerial, List.any_eq_true, List.mem_reverse]
    exact ⟨a, ha, b, hb, hc⟩
  have := C81_submission_order_partial hP.wf (.inr hP.flat) hP.single hr hlt
    (by rw [hr.less.space]; exact hP.one t u) hser hx
  cases this with
  | mk h _ _ => exact he h

theorem Inv.step (hP : Proper cfg0 P) (hR : Sound cfg0 R) {x x' : St R M} {tr : List Ev}
    (hxr : R.Reach x.s) (h : Inv P m0 x tr) (hs : Step R P x x') : ∃ tr', Inv P m0 x' tr' := by
  cases hs with
  | @rt s' hst hret hkeep =>
    have hi := (hR.reach hxr).inv hP.wf.policy (.inr hP.flat)
    have hc : Change (R.cfg x.s) (R.g x.s) (R.g s') := by
      rcases hR.sim _ _ hxr hst with ⟨_, e⟩ | hl
      · rw [e]; exact .refl
      · exact DStep.change hi.core hl
    have hl : Less (R.cfg x.s) (R.cfg s') := by
      rcases hR.sim _ _ hxr hst with ⟨e, _⟩ | hl
      · rw [e]; exact .refl
      · exact hl.less
    refine ⟨tr, ?_⟩
    constructor
    · exact h.mem
    · exact h.blk
    · intro t ho
      obtain ⟨h1, h2, h4⟩ := h.onR t ho
      refine ⟨?_, h2, hkeep t ho h4⟩
      apply Classical.byContradiction
      intro h3
      have := (hret t h1 h3).2
      dsimp only at ho
      rw [ho] at this
      cases this
    · exact h.curL
    · exact fun t he => h.none t (hc.none t he)
    · intro t he
      rcases hc.was t he with h1 | h1
      · exact h.ended t h1
      · exact (hret t h1 (by dsimp only at he; rw [he]; simp)).1
    · intro u j hb t hlt he a ha b hb'
      exact h.given u j hb t hlt (fun h' => he (hc.ended t h')) a (hl.access t ha) b hb'
    · exact h.good
  | @begin t hx ho hl hm =>
    refine ⟨tr, ?_⟩
    constructor
    · exact h.mem
    · intro u k
      obtain ⟨j, hj⟩ := h.blk u k
      by_cases e : u = t
      · subst e
        rw [ho] at hj
        simp only [Bool.false_eq_true, and_false, if_false] at hj
        by_cases h1 : k < x.cur u
        · exact ⟨j, by rw [hj, if_pos h1, if_pos h1]⟩
        · refine ⟨0, ?_⟩
          rw [hj, if_neg h1, if_neg h1]
          simp
      · exact ⟨j, by simp only [upd_ne _ _ e]; exact hj⟩
    · intro u hu
      by_cases e : u = t
      · subst e; exact ⟨hx, hl, hm⟩
      · simp only [upd_ne _ _ e] at hu; exact h.onR u hu
    · exact h.curL
    · exact h.none
    · exact h.ended
    · intro u j hb v hlt he a ha b hb'
      rcases hb with hb | ⟨hb, hb2⟩
      · exact h.given u j (.inl hb) v hlt he a ha b hb'
      · by_cases e : u = t
        · subst e
          dsimp only at hb
          subst hb
          exact begin_given hP hR hxr hlt (by unfold Started; rw [hx]; simp) he ha (hm hb')
        · simp only [upd_ne _ _ e] at hb2
          exact h.given u j (.inr ⟨hb, hb2⟩) v hlt he a ha b hb'
    · exact h.good
  | @act t m' hx ho hn =>
    refine ⟨tr ++ [.act (t, x.cur t)], ?_⟩
    constructor
    · exact runs_concat h.mem hn
    · intro u k
      obtain ⟨j, hj⟩ := h.blk u k
      by_cases e : (t, x.cur t) = (u, k)
      · obtain ⟨rfl, rfl⟩ := Prod.mk.inj e
        simp only [Nat.lt_irrefl, if_false, ho, and_self, if_true] at hj ⊢
        refine ⟨j + 1, ?_⟩
        have := Bodies.block_concat_same (tr := tr) (e := .act (t, x.cur t))
        simp only [Bodies.Ev.key] at this
        rw [this, hj, List.replicate_succ']
      · refine ⟨j, ?_⟩
        rw [Bodies.block_concat_ne (e := .act (t, x.cur t)) e]
        exact hj
    · exact h.onR
    · exact h.curL
    · exact h.none
    · exact h.ended
    · exact h.given
    · exact good_concat h.good fun f hf hp => h.next hP ho hf hp
  | @stop t hx ho hn =>
    have hl := (h.onR t ho).2.1
    refine ⟨tr ++ [.stop (t, x.cur t)], ?_⟩
    constructor
    · exact runs_concat h.mem (Bodies.ap_stop.2 ⟨hn, rfl⟩)
    · intro u k
      obtain ⟨j, hj⟩ := h.blk u k
      by_cases e : (t, x.cur t) = (u, k)
      · obtain ⟨rfl, rfl⟩ := Prod.mk.inj e
        simp only [Nat.lt_irrefl, if_false, ho, and_self, if_true] at hj
        refine ⟨j, ?_⟩
        have := Bodies.block_concat_same (tr := tr) (e := .stop (t, x.cur t))
        simp only [Bodies.Ev.key] at this
        rw [this, hj]
        simp
      · refine ⟨j, ?_⟩
        rw [Bodies.block_concat_ne (e := .stop (t, x.cur t)) e, hj]
        by_cases e' : u = t
        · subst e'
          have hk : k ≠ x.cur u := fun h => e (by rw [h])
          by_cases h1 : k < x.cur u
          · rw [if_pos h1, if_pos]
            simp only [upd_same]; omega
          · rw [if_neg h1, if_neg, if_neg, if_neg]
            · simp
            · simp only [upd_same]; omega
            · exact fun h => hk h.1
        · simp only [upd_ne _ _ e']
    · intro u hu
      by_cases e : u = t
      · subst e; simp at hu
      · simp only [upd_ne _ _ e] at hu ⊢; exact h.onR u hu
    · intro u
      by_cases e : u = t
      · subst e; simp only [upd_same]; omega
      · simp only [upd_ne _ _ e]; exact h.curL u
    · intro u hu
      by_cases e : u = t
      · subst e; dsimp only at hu; rw [hx] at hu; cases hu
      · simp only [upd_ne _ _ e]; exact h.none u hu
    · intro u hu
      by_cases e : u = t
      · subst e; dsimp only at hu; rw [hx] at hu; cases hu
      · simp only [upd_ne _ _ e]; exact h.ended u hu
    · intro u j hb
      refine h.given u j ?_
      by_cases e : u = t
      · subst e
        rcases hb with hb | ⟨_, hb⟩
        · simp only [upd_same] at hb
          rcases Nat.lt_or_ge j (x.cur u) with h1 | h1
          · exact .inl h1
          · exact .inr ⟨by omega, ho⟩
        · simp at hb
      · simpa only [Begun, upd_ne _ _ e] using hb
    · exact good_concat h.good fun f hf hp => h.next hP ho hf hp

theorem Inv.of_reach (hP : Proper cfg0 P) (hR : Sound cfg0 R) {x : St R M} (h : Reach R P m0 x) :
    ∃ tr, Inv P m0 x tr := by
  induction h with
  | init =>
    refine ⟨[], ?_⟩
    constructor
    · rfl
    · intro t k; exact ⟨0, by simp [block]⟩
    · intro t h; cases h
    · intro t; exact Nat.zero_le _
    · intro t _; rfl
    · rw [hR.init.2]; intro t h; cases h
    · intro u j hb
      rcases hb with hb | ⟨_, hb⟩
      · exact absurd hb (Nat.not_lt_zero _)
      · cases hb
    · exact .nil
  | step hx hs ih =>
    obtain ⟨tr, ih⟩ := ih
    exact ih.step hP hR hx.rt hs

theorem mem_program {n : Nat} {a : Nat × Nat} : a ∈ program P n ↔ a.1 < n ∧ a.2 < P.len a.1 := by
  obtain ⟨t, k⟩ := a
  simp [program]

theorem pairwise_program (n : Nat) :
    (program P n).Pairwise fun e f => e.1 < f.1 ∨ (e.1 = f.1 ∧ e.2 < f.2) := by
  unfold program
  rw [List.pairwise_flatMap]
  constructor
  · intro t _
    rw [List.pairwise_map]
    exact List.pairwise_lt_range.imp fun h => .inr ⟨rfl, h⟩
  · refine List.pairwise_lt_range.imp fun {a b} h => ?_
    intro x hx y hy
    obtain ⟨k, -, rfl⟩ := List.mem_map.1 hx
    obtain ⟨j, -, rfl⟩ := List.mem_map.1 hy
    exact .inl h

theorem nodup_program (n : Nat) : (program P n).Nodup :=
  (pairwise_program n).imp fun {a b} h e => by subst e; omega

/-- the memory after all bodies have returned -/
theorem sequential (hP : Proper cfg0 P) (hR : Sound cfg0 R) {x : St R M} (h : Reach R P m0 x)
    (he : ∀ t, t < (R.g x.s).n → (R.g x.s).ex t = .ended) : Exec P.next (program P (R.g x.s).n) m0 x.m := by
  obtain ⟨tr, hi⟩ := Inv.of_reach hP hR h
  have hd := (hR.reach h.rt).inv hP.wf.policy (.inr hP.flat)
  have keys : ∀ e ∈ tr, e.key ∈ program P (R.g x.s).n := by
    intro e hm
    have hb := hi.begun hm
    refine mem_program.2 ⟨hd.dom.lt_ph _ (by rw [(hd.core.exI _ (hi.started hb)).1]; simp), ?_⟩
    rcases hb with hb | ⟨hb, hb'⟩
    · have := hi.curL e.key.1; omega
    · have := (hi.onR _ hb').2.1; omega
  refine Bodies.exec_sorted (tr := tr) ?_ ?_
  · intro a ha
    obtain ⟨h1, h2⟩ := mem_program.1 ha
    obtain ⟨j, hj⟩ := hi.blk a.1 a.2
    rw [if_pos (by rw [hi.ended a.1 (he a.1 h1)]; exact h2)] at hj
    exact ⟨j, hj⟩
  · have hs0 : ∀ l : List (Nat × Nat), sorted l [] = [] := by
      intro l
      induction l with
      | nil => rfl
      | cons a l ih => simp [sorted, block]
    have := Bodies.runs_sorted (pairwise_program _) (nodup_program _) tr [] keys hi.good
      (m := m0) (m1 := m0) (by rw [hs0]; rfl) hi.mem
    simpa using this

end RG.Demoting
