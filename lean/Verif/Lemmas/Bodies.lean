import Verif.Lemmas.InlineOrder
import Verif.Props.Race
/-
Lemmas for C76: what is known about the events of an execution.
-/
set_option linter.unusedVariables false
namespace RG.Bodies
open RG.Graph

variable {cfg : Cfg} {R : Runtime} {M : Type} {P : Prog M} {m0 : M}

/-- the states of the machine -/
inductive Runtime.Reach (R : Runtime) : R.S → Prop
  | init : Runtime.Reach R R.init
  | step {s s'} : Runtime.Reach R s → R.step s s' → Runtime.Reach R s'

theorem Reach.rt {x : St R M} (h : Reach cfg R P m0 x) : R.Reach x.s := by
  induction h with
  | init => exact .init
  | step _ hs ih =>
    cases hs with
    | rt h => exact .step ih h
    | _ => exact ih

/-- The machine implements Model/Graph. -/
structure Sound (cfg : Cfg) (R : Runtime) : Prop where
  init : R.g R.init = Graph.init
  sim : ∀ s s', R.Reach s → R.step s s' → R.g s' = R.g s ∨ ∃ l, Graph.Step cfg l (R.g s) (R.g s')

theorem graph_sound : Sound cfg (graph cfg) := ⟨rfl, fun _ _ _ h => .inr h⟩

theorem Sound.reach (hR : Sound cfg R) {s : R.S} (h : R.Reach s) : Graph.Reach cfg (R.g s) := by
  induction h with
  | init => rw [hR.init]; exact .init
  | step h hs ih =>
    rcases hR.sim _ _ h hs with e | ⟨l, hl⟩
    · rw [e]; exact ih
    · exact .step ih hl

/-- executions of a machine that implements another one -/
theorem Reach.map {R' : Runtime} (f : R.S → R'.S) (hi : f R.init = R'.init) (hg : ∀ s, R'.g (f s) = R.g s)
    (hs : ∀ s s', R.Reach s → R.step s s' → f s' = f s ∨ R'.step (f s) (f s')) {x : St R M}
    (h : Reach cfg R P m0 x) : Reach cfg R' P m0 ⟨f x.s, x.m, x.cur, x.on⟩ := by
  induction h with
  | init => rw [hi]; exact .init
  | @step x x' hx hst ih =>
    cases hst with
    | @rt s' h hret hsub =>
      rcases hs _ _ hx.rt h with e | h'
      · dsimp only at ih ⊢; rw [e]; exact ih
      · exact .step ih (.rt (R := R') (x := ⟨f x.s, x.m, x.cur, x.on⟩) h' (by simpa only [hg] using hret)
          (by simpa only [hg] using hsub))
    | begin h ho hl hm =>
      exact .step ih (.begin (R := R') (x := ⟨f x.s, x.m, x.cur, x.on⟩) (by simpa only [hg] using h) ho hl
        (by simpa only [hg] using hm))
    | act h ho hn =>
      exact .step ih (.act (R := R') (x := ⟨f x.s, x.m, x.cur, x.on⟩) (by simpa only [hg] using h) ho hn)
    | stop h ho hn =>
      exact .step ih (.stop (R := R') (x := ⟨f x.s, x.m, x.cur, x.on⟩) (by simpa only [hg] using h) ho hn)

/-- how the bodies and the number of tasks change in a step -/
structure Change (cfg : Cfg) (g g' : State) : Prop where
  none : ∀ t, g'.ex t = .none → g.ex t = .none
  ended : ∀ t, g.ex t = .ended → g'.ex t = .ended
  running : ∀ t, g.ex t = .running → g'.ex t = .running ∨ g'.ex t = .ended
  was : ∀ t, g'.ex t = .ended → g.ex t = .ended ∨ g.ex t = .running
  n : g'.n = g.n ∨ (g'.n = g.n + 1 ∧ ∀ q, cfg.parentOf g.n = some q → g.ex q = .running)

theorem Change.refl {g : State} : Change cfg g g :=
  ⟨fun _ h => h, fun _ h => h, fun _ h => .inl h, fun _ h => .inl h, .inl rfl⟩

theorem change_of {g g' : State} {l : Lbl} (hi : Core cfg g) (hs : Graph.Step cfg l g g') : Change cfg g g' := by
  cases hs with
  | beginSubmit hp h1 => exact ⟨fun _ h => h, fun _ h => h, fun _ h => .inl h, fun _ h => .inl h, .inr ⟨rfl, hp⟩⟩
  | @start _ t h =>
    have h1 := hi.handedEq t
    have h2 := hi.startsEq t
    have h3 : g.ex t = .none := by grind
    refine ⟨fun u hu => ?_, fun u hu => ?_, fun u hu => ?_, fun u hu => ?_, .inl rfl⟩ <;>
    · by_cases e : u = t
      · subst e; simp_all
      · simp only [upd_ne _ _ e] at hu ⊢; simp [hu]
  | @bodyEnd _ t h hc hst =>
    refine ⟨fun u hu => ?_, fun u hu => ?_, fun u hu => ?_, fun u hu => ?_, .inl rfl⟩ <;>
    · by_cases e : u = t
      · subst e; simp_all [State.decPost]
      · simp only [State.decPost, upd_ne _ _ e] at hu ⊢; simp [hu]
  | _ => exact ⟨fun _ h => h, fun _ h => h, fun _ h => .inl h, fun _ h => .inl h, .inl rfl⟩

theorem change (ht : NestingOk cfg) {g g' : State} {l : Lbl} (hr : Graph.Reach cfg g) (hs : Graph.Step cfg l g g') :
    Change cfg g g' :=
  change_of (Core.reach ht hr) hs

/-- phase `k` of task `q` has begun -/
def Begun (x : St R M) (q k : Nat) : Prop := k < x.cur q ∨ (k = x.cur q ∧ x.on q = true)

structure Inv (cfg : Cfg) (P : Prog M) (m0 : M) (x : St R M) (tr : List Ev) : Prop where
  reach : Graph.Reach cfg (R.g x.s)
  mem : runs P.next tr m0 = some x.m
  blk : ∀ t k, ∃ j, block tr (t, k) =
    if k < x.cur t then List.replicate j (.act (t, k)) ++ [.stop (t, k)]
    else if k = x.cur t ∧ x.on t = true then List.replicate j (.act (t, k)) else []
  onR : ∀ t, x.on t = true → (R.g x.s).ex t = .running ∧ x.cur t < P.len t
  curL : ∀ t, x.cur t ≤ P.len t
  none : ∀ t, (R.g x.s).ex t = .none → x.cur t = 0
  ended : ∀ t, (R.g x.s).ex t = .ended → x.cur t = P.len t
  kids : ∀ c q, c < (R.g x.s).n → cfg.parentOf c = some q → P.after c ≤ x.cur q
  mono : ∀ c c' q, c < c' → c' < (R.g x.s).n → cfg.parentOf c = some q → cfg.parentOf c' = some q →
    P.after c ≤ P.after c'
  disc : ∀ q k c d j, Begun x q k → cfg.parentOf c = some q → Descends cfg d c → P.after c ≤ k →
    ¬ Indep P.next (q, k) (d, j) → c < (R.g x.s).n → Over cfg (R.g x.s) c
  good : tr.Pairwise fun f e => Pre cfg P e.key f.key → Indep P.next f.key e.key

/-- Phases of tasks of which none is an ancestor of the other are independent, or the tasks have declared a conflict
that concerns a resource created outside of both. -/
def Declared (cfg : Cfg) (P : Prog M) : Prop :=
  ∀ t u k j, ¬ Descends cfg t u → ¬ Descends cfg u t → ¬ Indep P.next (t, k) (u, j) →
    ∃ r, ConflictAt cfg t u r ∧ Shared cfg t u r

/-- The assumptions on the program: what a user has to observe. -/
structure Proper (cfg : Cfg) (P : Prog M) : Prop where
  wf : cfg.WellFormed
  single : cfg.single = true
  one : OneSpace cfg
  covered : ∀ c q, cfg.parentOf c = some q → (cfg.user q).isSuperset (cfg.user c) = true
  declared : Declared cfg P

/-- a task that conflicts with an earlier one starts when the earlier one has returned -/
theorem left_done (hP : Proper cfg P) (ht : NestingOk cfg) {g : State} (hr : Graph.Reach cfg g) {t u k j : Nat}
    (htn : t < g.n) (hx : Started g u) (h : Left cfg t u) (hi : ¬ Indep P.next (t, k) (u, j)) : g.ex t = .ended := by
  have hd := Dom.reach hr
  have hc := Core.reach ht hr
  have hu := Up.reach hr
  have hun : u < g.n := hd.lt_ph u (by rw [(hc.exI u hx).1]; simp)
  have hnd : ¬ Descends cfg t u ∧ ¬ Descends cfg u t := by
    obtain ⟨a, b, h1, h2, h3, h4⟩ := h
    exact ⟨fun h5 => apart hu h3 (h5.trans' h4) htn (by omega) h2,
      fun h5 => apart hu (h5.trans' h3) h4 hun (by omega) h2⟩
  obtain ⟨r, h1, h2⟩ := hP.declared t u k j hnd.1 hnd.2 hi
  obtain ⟨p, q, h3, h4, h5, h6, h7⟩ := h.conflict hu (fun c q _ h => hP.covered c q h) htn hun h1 h2
  have := C12_descendants_partial hP.wf ht hP.single hr h3 (hP.one _ _ h4) h7 h5 h6 htn hx
  cases this with
  | mk h _ _ => exact h

theorem Inv.started {x : St R M} {tr : List Ev} (h : Inv cfg P m0 x tr) {q k : Nat} (hb : Begun x q k) :
    Started (R.g x.s) q := by
  intro he
  have h0 := h.none q he
  rcases hb with hb | ⟨_, hb⟩
  · omega
  · have := (h.onR q hb).1
    rw [he] at this
    cases this

theorem Inv.begun {x : St R M} {tr : List Ev} (h : Inv cfg P m0 x tr) {f : Ev} (hf : f ∈ tr) :
    Begun x f.key.1 f.key.2 := by
  obtain ⟨j, hj⟩ := h.blk f.key.1 f.key.2
  have hm : f ∈ block tr (f.key.1, f.key.2) := mem_block.2 ⟨hf, rfl⟩
  rw [hj] at hm
  split at hm
  · exact .inl (by assumption)
  · split at hm
    · exact .inr (by assumption)
    · cases hm

theorem lt_of_started (ht : NestingOk cfg) {g : State} (hr : Graph.Reach cfg g) {t : Nat} (h : Started g t) :
    t < g.n :=
  (Dom.reach hr).lt_ph t (by rw [((Core.reach ht hr).exI t h).1]; simp)

/-- the events of the tasks that come later in the sequential program are independent of the next event -/
theorem Inv.next (hP : Proper cfg P) (ht : NestingOk cfg) {x : St R M} {tr : List Ev} (h : Inv cfg P m0 x tr)
    {t : Nat} (hx : (R.g x.s).ex t = .running) (ho : x.on t = true) {f : Ev} (hf : f ∈ tr)
    (hp : Pre cfg P (t, x.cur t) f.key) : Indep P.next f.key (t, x.cur t) := by
  apply Classical.byContradiction
  intro hi
  have hb := h.begun hf
  have hu := Up.reach h.reach
  have htn : t < (R.g x.s).n := lt_of_started ht h.reach (by unfold Started; rw [hx]; simp)
  have hun := lt_of_started ht h.reach (h.started hb)
  rcases hp with ⟨h1, h2⟩ | h1 | ⟨c, h1, h2, h3⟩ | ⟨c, h1, h2, h3⟩
  · dsimp only at h1 h2
    rw [← h1] at hb
    rcases hb with hb | hb <;> omega
  · have := left_done hP ht h.reach (k := x.cur t) (j := f.key.2) htn (h.started hb) h1 fun h' => hi h'.symm
    rw [hx] at this
    cases this
  · have hc : c < (R.g x.s).n := Nat.lt_of_le_of_lt (h2.le hu hun) hun
    have := h.kids c t hc h1
    dsimp only at h3
    omega
  · have hc : c < (R.g x.s).n := Nat.lt_of_le_of_lt (h2.le hu htn) htn
    have := h.disc f.key.1 f.key.2 c t (x.cur t) hb h1 h2 h3 hi hc t htn h2
    rw [hx] at this
    cases this

theorem runs_concat {tr : List Ev} {e : Ev} {m m1 m2 : M} (h1 : runs P.next tr m = some m1)
    (h2 : ap P.next e m1 = some m2) : runs P.next (tr ++ [e]) m = some m2 :=
  runs_append.2 ⟨m1, h1, by simp [runs, h2]⟩

theorem good_concat {tr : List Ev} {e : Ev}
    (h : tr.Pairwise fun f e => Pre cfg P e.key f.key → Indep P.next f.key e.key)
    (h' : ∀ f ∈ tr, Pre cfg P e.key f.key → Indep P.next f.key e.key) :
    (tr ++ [e]).Pairwise fun f e => Pre cfg P e.key f.key → Indep P.next f.key e.key := by
  refine List.pairwise_append.2 ⟨h, by simp, ?_⟩
  intro f hf e' he'
  rw [List.mem_singleton.1 he']
  exact h' f hf

theorem Inv.step (hP : Proper cfg P) (ht : NestingOk cfg) (hR : Sound cfg R) {x x' : St R M} {tr : List Ev}
    (hx : R.Reach x.s) (h : Inv cfg P m0 x tr) (hs : Step cfg R P x x') : ∃ tr', Inv cfg P m0 x' tr' := by
  cases hs with
  | @rt s' hst hret hsub =>
    have hr' : Graph.Reach cfg (R.g s') := by
      rcases hR.sim _ _ hx hst with e | ⟨l, hl⟩
      · rw [e]; exact h.reach
      · exact .step h.reach hl
    have hc : Change cfg (R.g x.s) (R.g s') := by
      rcases hR.sim _ _ hx hst with e | ⟨l, hl⟩
      · rw [e]; exact .refl
      · exact change ht h.reach hl
    have hu := Up.reach h.reach
    have hu' := Up.reach hr'
    refine ⟨tr, ?_⟩
    constructor
    · exact hr'
    · exact h.mem
    · exact h.blk
    · intro t ho
      obtain ⟨h1, h2⟩ := h.onR t ho
      refine ⟨?_, h2⟩
      apply Classical.byContradiction
      intro h3
      have := (hret t h1 h3).2
      dsimp only at ho
      rw [ho] at this
      cases this
    · exact h.curL
    · exact fun t he => h.none t (hc.none t he)
    · intro t he
      rcases hc.was t he with h1 | h1
      · exact h.ended t h1
      · exact (hret t h1 (by dsimp only at he; rw [he]; simp)).1
    · intro c q hcn hp
      rcases Nat.lt_or_ge c (R.g x.s).n with h1 | h1
      · exact h.kids c q h1 hp
      · dsimp only at hcn
        rcases hc.n with h2 | ⟨h2, _⟩
        · omega
        · have h3 : c = (R.g x.s).n := by omega
          subst h3
          rw [(hsub q (by omega) hp).1]
          exact Nat.le_refl _
    · intro c c' q hlt hcn hp hp'
      rcases Nat.lt_or_ge c' (R.g x.s).n with h1 | h1
      · exact h.mono c c' q hlt h1 hp hp'
      · dsimp only at hcn
        rcases hc.n with h2 | ⟨h2, _⟩
        · omega
        · have h3 : c' = (R.g x.s).n := by omega
          subst h3
          have := (hsub q (by omega) hp').1
          have := h.kids c q hlt hp
          omega
    · intro q k c d j hb hp hd ha hi hcn
      dsimp only at hcn
      have hb' : Begun x q k := hb
      have old : c < (R.g x.s).n := by
        apply Classical.byContradiction
        intro h1
        rcases hc.n with h2 | ⟨h2, _⟩
        · omega
        · have h3 : c = (R.g x.s).n := by omega
          subst h3
          obtain ⟨h4, h5⟩ := hsub q (by omega) hp
          rcases hb' with h6 | ⟨_, h6⟩
          · omega
          · rw [h5] at h6; cases h6
      have ho := h.disc q k c d j hb' hp hd ha hi old
      intro v hv hvd
      dsimp only at hv
      rcases Nat.lt_or_ge v (R.g x.s).n with h1 | h1
      · exact hc.ended v (ho v h1 hvd)
      · rcases hc.n with h2 | ⟨h2, h3⟩
        · omega
        · have h4 : v = (R.g x.s).n := by omega
          subst h4
          obtain ⟨q', h5, h6⟩ := hvd.up (by omega)
          have h7 := hu' _ q' (by omega) h5
          have h8 := ho q' (by omega) h6
          rw [h3 q' h5] at h8
          cases h8
    · exact h.good
  | @begin t hx ho hl hm =>
    refine ⟨tr, ?_⟩
    constructor
    · exact h.reach
    · exact h.mem
    · intro u k
      obtain ⟨j, hj⟩ := h.blk u k
      by_cases e : u = t
      · subst e
        rw [ho] at hj
        simp only [Bool.false_eq_true, and_false, if_false] at hj
        by_cases h1 : k < x.cur u
        · exact ⟨j, by rw [hj, if_pos h1, if_pos h1]⟩
        · refine ⟨0, ?_⟩
          rw [hj, if_neg h1, if_neg h1]
          simp
      · exact ⟨j, by simp only [upd_ne _ _ e]; exact hj⟩
    · intro u hu
      by_cases e : u = t
      · subst e; exact ⟨hx, hl⟩
      · simp only [upd_ne _ _ e] at hu; exact h.onR u hu
    · exact h.curL
    · exact h.none
    · exact h.ended
    · exact h.kids
    · exact h.mono
    · intro q k c d j hb hp hd ha hi hcn
      rcases hb with hb | ⟨hb, hb'⟩
      · exact h.disc q k c d j (.inl hb) hp hd ha hi hcn
      · by_cases e : q = t
        · subst e
          dsimp only at hb
          subst hb
          exact hm c d j hp hd ha hi hcn
        · simp only [upd_ne _ _ e] at hb'
          exact h.disc q k c d j (.inr ⟨hb, hb'⟩) hp hd ha hi hcn
    · exact h.good
  | @act t m' hx ho hn =>
    refine ⟨tr ++ [.act (t, x.cur t)], ?_⟩
    constructor
    · exact h.reach
    · exact runs_concat h.mem hn
    · intro u k
      obtain ⟨j, hj⟩ := h.blk u k
      by_cases e : (t, x.cur t) = (u, k)
      · obtain ⟨rfl, rfl⟩ := Prod.mk.inj e
        simp only [Nat.lt_irrefl, if_false, ho, and_self, if_true] at hj ⊢
        refine ⟨j + 1, ?_⟩
        have := block_concat_same (tr := tr) (e := .act (t, x.cur t))
        simp only [Ev.key] at this
        rw [this, hj, List.replicate_succ']
      · refine ⟨j, ?_⟩
        rw [block_concat_ne (e := .act (t, x.cur t)) e]
        exact hj
    · exact h.onR
    · exact h.curL
    · exact h.none
    · exact h.ended
    · exact h.kids
    · exact h.mono
    · exact h.disc
    · exact good_concat h.good fun f hf hp => h.next hP ht hx ho hf hp
  | @stop t hx ho hn =>
    have hl := (h.onR t ho).2
    refine ⟨tr ++ [.stop (t, x.cur t)], ?_⟩
    constructor
    · exact h.reach
    · exact runs_concat h.mem (ap_stop.2 ⟨hn, rfl⟩)
    · intro u k
      obtain ⟨j, hj⟩ := h.blk u k
      by_cases e : (t, x.cur t) = (u, k)
      · obtain ⟨rfl, rfl⟩ := Prod.mk.inj e
        simp only [Nat.lt_irrefl, if_false, ho, and_self, if_true] at hj
        refine ⟨j, ?_⟩
        have := block_concat_same (tr := tr) (e := .stop (t, x.cur t))
        simp only [Ev.key] at this
        rw [this, hj]
        simp
      · refine ⟨j, ?_⟩
        rw [block_concat_ne (e := .stop (t, x.cur t)) e, hj]
        by_cases e' : u = t
        · subst e'
          have hk : k ≠ x.cur u := fun h => e (by rw [h])
          by_cases h1 : k < x.cur u
          · rw [if_pos h1, if_pos]
            simp only [upd_same]; omega
          · rw [if_neg h1, if_neg, if_neg, if_neg]
            · simp
            · simp only [upd_same]; omega
            · exact fun h => hk h.1
        · simp only [upd_ne _ _ e']
    · intro u hu
      by_cases e : u = t
      · subst e; simp at hu
      · simp only [upd_ne _ _ e] at hu ⊢; exact h.onR u hu
    · intro u
      by_cases e : u = t
      · subst e; simp only [upd_same]; omega
      · simp only [upd_ne _ _ e]; exact h.curL u
    · intro u hu
      by_cases e : u = t
      · subst e; dsimp only at hu; rw [hx] at hu; cases hu
      · simp only [upd_ne _ _ e]; exact h.none u hu
    · intro u hu
      by_cases e : u = t
      · subst e; dsimp only at hu; rw [hx] at hu; cases hu
      · simp only [upd_ne _ _ e]; exact h.ended u hu
    · intro c q hc hp
      have := h.kids c q hc hp
      by_cases e : q = t
      · subst e; simp only [upd_same]; omega
      · simp only [upd_ne _ _ e]; exact this
    · exact h.mono
    · intro q k c d j hb hp hd ha hi hcn
      refine h.disc q k c d j ?_ hp hd ha hi hcn
      by_cases e : q = t
      · subst e
        rcases hb with hb | ⟨_, hb⟩
        · simp only [upd_same] at hb
          rcases Nat.lt_or_ge k (x.cur q) with h1 | h1
          · exact .inl h1
          · exact .inr ⟨by omega, ho⟩
        · simp at hb
      · simpa only [Begun, upd_ne _ _ e] using hb
    · exact good_concat h.good fun f hf hp => h.next hP ht hx ho hf hp

theorem Inv.of_reach (hP : Proper cfg P) (ht : NestingOk cfg) (hR : Sound cfg R) {x : St R M}
    (h : Reach cfg R P m0 x) : ∃ tr, Inv cfg P m0 x tr := by
  induction h with
  | init =>
    refine ⟨[], ?_⟩
    constructor
    · rw [hR.init]; exact .init
    · rfl
    · intro t k; exact ⟨0, by simp [block]⟩
    · intro t h; cases h
    · intro t; exact Nat.zero_le _
    · intro t _; rfl
    · rw [hR.init]; intro t h; cases h
    · rw [hR.init]; intro c q h; exact absurd h (Nat.not_lt_zero _)
    · rw [hR.init]; intro c c' q _ h; exact absurd h (Nat.not_lt_zero _)
    · rw [hR.init]; intro q k c d j _ _ _ _ _ h; exact absurd h (Nat.not_lt_zero _)
    · exact .nil
  | step hx hs ih =>
    obtain ⟨tr, ih⟩ := ih
    exact ih.step hP ht hR hx.rt hs

/-- the memory after all bodies have returned -/
theorem sequential (hP : Proper cfg P) (ht : NestingOk cfg) (hR : Sound cfg R) {x : St R M}
    (h : Reach cfg R P m0 x) (he : ∀ t, t < (R.g x.s).n → (R.g x.s).ex t = .ended) :
    Exec P.next (program cfg P (R.g x.s).n) m0 x.m := by
  obtain ⟨tr, hi⟩ := Inv.of_reach hP ht hR h
  have hu := Up.reach hi.reach
  have hl : ∀ c q, c < (R.g x.s).n → cfg.parentOf c = some q → P.after c ≤ P.len q := fun c q h1 h2 =>
    Nat.le_trans (hi.kids c q h1 h2) (hi.curL q)
  have hm : ∀ c c' q, c < (R.g x.s).n → c' < (R.g x.s).n → cfg.parentOf c = some q → cfg.parentOf c' = some q →
      P.after c < P.after c' → c < c' := by
    intro c c' q h1 h2 h3 h4 h5
    apply Classical.byContradiction
    intro h6
    by_cases e : c = c'
    · subst e; omega
    · have := hi.mono c' c q (by omega) h1 h4 h3
      omega
  have keys : ∀ e ∈ tr, e.key ∈ program cfg P (R.g x.s).n := by
    intro e hm
    have hb := hi.begun hm
    refine (mem_program hu hl _).2 ⟨lt_of_started ht hi.reach (hi.started hb), ?_⟩
    rcases hb with hb | ⟨hb, hb'⟩
    · have := hi.curL e.key.1; omega
    · have := (hi.onR _ hb').2; omega
  refine exec_sorted (tr := tr) ?_ ?_
  · intro a ha
    obtain ⟨h1, h2⟩ := (mem_program hu hl a).1 ha
    obtain ⟨j, hj⟩ := hi.blk a.1 a.2
    rw [if_pos (by rw [hi.ended a.1 (he a.1 h1)]; exact h2)] at hj
    exact ⟨j, hj⟩
  · have hs0 : ∀ l : List (Nat × Nat), sorted l [] = [] := by
      intro l
      induction l with
      | nil => rfl
      | cons a l ih => simp [sorted, block]
    have := runs_sorted (pairwise_program hu hl hm) (nodup_program hu hl hm) tr [] keys hi.good
      (m := m0) (m1 := m0) (by rw [hs0]; rfl) hi.mem
    simpa using this

end RG.Bodies
