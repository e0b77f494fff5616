import Verif.Model.Dynamic
import Verif.Lemmas.Sort
import Verif.Lemmas.Bodies
/-
Lemmas for C77: what is known about the events of an execution of a program whose tasks depend on the data.
-/
set_option linter.unusedVariables false
namespace RG.Dyn
open RG.Graph
open RG.Bodies (Runtime Sound Change change inline program children Pre apart mem_inline pairwise_inline lt_of_started)

variable {cfg : Cfg} {R : Runtime} {M : Type} {P : Prog M} {m0 : M} {careful : Bool}

/-! ### The main program as a task -/

/-- The main program becomes task 0. -/
def plus (cfg : Cfg) : Cfg where
  user t := cfg.user (t - 1)
  space
    | 0 => 0
    | t + 1 => cfg.space t + 1
  parent
    | 0 => none
    | sp + 1 => some (match cfg.parent sp with
      | none => 0
      | some q => q + 1)
  strict := cfg.strict
  single := cfg.single

theorem parent_zero : (plus cfg).parentOf 0 = none := rfl

theorem parent_succ (t : Nat) : (plus cfg).parentOf (t + 1) = some (owner cfg t) := rfl

theorem parent_some {t q : Nat} (h : cfg.parentOf t = some q) : (plus cfg).parentOf (t + 1) = some (q + 1) := by
  rw [parent_succ, owner, h]

theorem owner_some {t q : Nat} (h : owner cfg t = q + 1) : cfg.parentOf t = some q := by
  unfold owner at h
  cases hp : cfg.parentOf t with
  | none => rw [hp] at h; cases h
  | some q' => rw [hp] at h; cases h; rfl

theorem desc_plus {a b : Nat} : Descends (plus cfg) (a + 1) (b + 1) ↔ Descends cfg a b := by
  constructor
  · intro h
    generalize hx : a + 1 = x at h
    generalize hy : b + 1 = y at h
    induction h generalizing a with
    | refl => have : a = b := by omega
              subst this; exact .refl
    | @child c q p hp h ih =>
      subst hx hy
      rw [parent_succ] at hp
      cases q with
      | zero =>
        cases h with
        | child h' _ => rw [parent_zero] at h'; cases h'
      | succ q =>
        exact .child (owner_some (Option.some.inj hp)) (ih rfl rfl)
  · intro h
    induction h with
    | refl => exact .refl
    | child h _ ih => exact .child (parent_some h) ih

theorem desc_zero {b : Nat} (h : Descends (plus cfg) 0 b) : b = 0 := by
  cases h with
  | refl => rfl
  | child h _ => rw [parent_zero] at h; cases h

theorem up_plus {n : Nat} (hu : Up cfg n) : Up (plus cfg) (n + 1) := by
  intro c q hc hp
  cases c with
  | zero => rw [parent_zero] at hp; cases hp
  | succ c =>
    rw [parent_succ] at hp
    cases q with
    | zero => omega
    | succ q => have := hu c q (by omega) (owner_some (Option.some.inj hp)); omega

theorem left_plus {a b : Nat} (h : Left (plus cfg) a b) :
    ∃ t u, a = t + 1 ∧ b = u + 1 ∧ Left cfg t u := by
  obtain ⟨p, q, h1, h2, h3, h4⟩ := h
  cases q with
  | zero => omega
  | succ q =>
    cases p with
    | zero => rw [parent_zero, parent_succ] at h2; cases h2
    | succ p =>
      cases a with
      | zero => have := desc_zero h3; omega
      | succ t =>
        cases b with
        | zero => have := desc_zero h4; omega
        | succ u =>
          refine ⟨t, u, rfl, rfl, p, q, by omega, ?_, desc_plus.1 h3, desc_plus.1 h4⟩
          rw [parent_succ, parent_succ] at h2
          have h2 := Option.some.inj h2
          unfold owner at h2
          cases hp : cfg.parentOf p <;> cases hq : cfg.parentOf q <;> rw [hp, hq] at h2 <;> simp_all

theorem below_plus {d i c : Nat} {n : Nat} (hu : Up (plus cfg) n) (hd : d + 1 < n) (hp : (plus cfg).parentOf c = some i)
    (h : Descends (plus cfg) (d + 1) c) : Below cfg d i := by
  cases i with
  | zero => trivial
  | succ t =>
    have h1 := h.le hu hd
    have h2 := hu c _ (by omega) hp
    refine ⟨by omega, desc_plus.1 ?_⟩
    exact h.trans' (.child hp .refl)

/-! ### Events -/

/-- an action, or the end of waiting -/
structure Ev (B : Type) where
  t : Nat
  k : Nat
  b : B
  b' : B

def Ev.key {B : Type} (e : Ev B) : Nat × Nat := (e.t, e.k)

def ap (P : Prog M) (e : Ev P.B) (m m' : M) : Prop :=
  (∃ f, P.pt e.b = .act f ∧ f m = (e.b', m')) ∨ ((∃ w, P.pt e.b = .join w e.b') ∧ m' = m)

theorem Free.symm {b b' : P.B} (h : Free P b b') : Free P b' b := by
  intro f f' h1 h2 m
  obtain ⟨h3, h4, h5⟩ := h f' f h2 h1 m
  exact ⟨h4, h3, h5.symm⟩

theorem swap {e f : Ev P.B} (h : Free P e.b f.b) : Swap (ap P) e f := by
  rintro m m1 m2 (⟨g, h1, h2⟩ | ⟨h1, rfl⟩) (⟨g', h3, h4⟩ | ⟨h3, rfl⟩)
  · obtain ⟨h5, h6, h7⟩ := h g g' h1 h3 m
    rw [h2] at h5 h7
    dsimp only at h5 h7
    rw [h4] at h5 h7
    dsimp only at h5 h7
    refine ⟨(g' m).2, .inl ⟨g', h3, ?_⟩, .inl ⟨g, h1, ?_⟩⟩
    · rw [h5]
    · rw [← h7]
      rw [h2] at h6
      dsimp only at h6
      rw [← h6]
  · exact ⟨m, .inr ⟨h3, rfl⟩, .inl ⟨g, h1, h2⟩⟩
  · exact ⟨m2, .inl ⟨g', h3, h4⟩, .inr ⟨h1, rfl⟩⟩
  · exact ⟨_, .inr ⟨h3, rfl⟩, .inr ⟨h1, rfl⟩⟩

/-- the states of a body between the events -/
inductive Chain {B : Type} : B → List (Ev B) → B → Prop
  | nil {b} : Chain b [] b
  | cons {e l b} (h : Chain e.b' l b) : Chain e.b (e :: l) b

theorem Chain.concat {B : Type} {b b2 : B} {l : List (Ev B)} {e : Ev B} (h : Chain b l b2) (he : e.b = b2) :
    Chain b (l ++ [e]) e.b' := by
  induction h with
  | nil => subst he; exact .cons .nil
  | cons _ ih => exact .cons (ih he)

theorem Chain.seq {b b2 : P.B} {l : List (Ev P.B)} (h : Chain b l b2) {m m1 m2 : M} (hr : Runs (ap P) l m m1)
    (hs : Seq P b2 m1 m2) : Seq P b m m2 := by
  induction h generalizing m with
  | nil => cases hr; exact hs
  | @cons e l b h ih =>
    cases hr with
    | cons ha hr =>
      have := ih hr hs
      rcases ha with ⟨f, h1, h2⟩ | ⟨h1, rfl⟩
      · exact .act h1 (by rw [h2]; exact this)
      · exact .join h1.choose_spec this

/-! ### The invariant -/

/-- what is remembered of an execution -/
structure Ghost (B : Type) where
  tr : List (Ev B)
  /-- the state of a body after it has submitted so many tasks -/
  st : Nat → Nat → B
  /-- how many tasks a body has submitted -/
  cur : Nat → Nat
  /-- which of the tasks of its owner a task is, beginning with 1 -/
  aft : Nat → Nat
  path : Nat → List Nat

/-- the phases are the parts between the submissions -/
def Ghost.prog {B : Type} (γ : Ghost B) : Bodies.Prog Unit := ⟨fun t => γ.cur t + 1, γ.aft, fun _ _ => none⟩

def usr (cfg : Cfg) : Nat → Option User
  | 0 => none
  | t + 1 => some (cfg.user t)

structure Inv (cfg : Cfg) (P : Prog M) (m0 : M) (x : St R P) (γ : Ghost P.B) : Prop where
  reach : Graph.Reach cfg (R.g x.s)
  mem : Runs (ap P) γ.tr m0 x.m
  main : γ.st 0 0 = P.main
  blk : ∀ t k, t ≤ (R.g x.s).n → k ≤ γ.cur t → ∃ b, Chain (γ.st t k) (block Ev.key γ.tr (t, k)) b ∧
    (k = γ.cur t → b = x.loc t) ∧ (k < γ.cur t → ∃ c d, c ≤ (R.g x.s).n ∧ (plus cfg).parentOf c = some t ∧
      γ.aft c = k + 1 ∧ P.pt b = .spawn d (γ.st c 0) (γ.st t (k + 1)))
  evs : ∀ e ∈ γ.tr, e.t ≤ (R.g x.s).n ∧ e.k ≤ γ.cur e.t ∧ ∀ u, e.t = u + 1 → Started (R.g x.s) u
  kids : ∀ c q, c ≤ (R.g x.s).n → (plus cfg).parentOf c = some q → 1 ≤ γ.aft c ∧ γ.aft c ≤ γ.cur q
  mono : ∀ c c' q, c < c' → c' ≤ (R.g x.s).n → (plus cfg).parentOf c = some q → (plus cfg).parentOf c' = some q →
    γ.aft c < γ.aft c'
  path0 : γ.path 0 = []
  pathS : ∀ c q, c ≤ (R.g x.s).n → (plus cfg).parentOf c = some q → γ.path c = γ.path q ++ [γ.aft c]
  occ : ∀ t, t ≤ (R.g x.s).n → Occ P (γ.path t) (usr cfg t) (γ.cur t) (x.loc t)
  occE : ∀ e ∈ γ.tr, Occ P (γ.path e.t) (usr cfg e.t) e.k e.b
  ended : ∀ t, (R.g x.s).ex t = .ended → P.pt (x.loc (t + 1)) = .done
  disc : ∀ e ∈ γ.tr, ∀ c d, (plus cfg).parentOf c = some e.t → Descends (plus cfg) d c → d ≤ (R.g x.s).n →
    γ.aft c ≤ e.k → ∀ b, From P (x.loc d) b → Free P e.b b
  good : γ.tr.Pairwise fun f e => Pre (plus cfg) γ.prog e.key f.key → Free P f.b e.b
  covered : ∀ c q, c < (R.g x.s).n → cfg.parentOf c = some q → (cfg.user q).isSuperset (cfg.user c) = true

/-- What the bodies of tasks of which none is an ancestor of the other do is independent, or the tasks have declared a
conflict that concerns a resource created outside of both. -/
def Declared (cfg : Cfg) (P : Prog M) : Prop :=
  ∀ t u p q k j b b', Occ P p (some (cfg.user t)) k b → Occ P q (some (cfg.user u)) j b' → ¬ p <+: q → ¬ q <+: p →
    ¬ Free P b b' → ∃ r, ConflictAt cfg t u r ∧ Shared cfg t u r

/-- The accesses of a task include the ones of the tasks that it submits. -/
def Covered (P : Prog M) : Prop :=
  ∀ p d k b d' c b', Occ P p (some d) k b → P.pt b = .spawn d' c b' → d.isSuperset d' = true

/-- The assumptions on the program: what a user has to observe. -/
structure Proper (cfg : Cfg) (P : Prog M) : Prop where
  wf : cfg.WellFormed
  single : cfg.single = true
  one : OneSpace cfg
  covered : Covered P
  declared : Declared cfg P

theorem Inv.path_prefix {x : St R P} {γ : Ghost P.B} (h : Inv cfg P m0 x γ) :
    ∀ b a, a ≤ (R.g x.s).n → b ≤ (R.g x.s).n → γ.path a <+: γ.path b → Descends (plus cfg) b a := by
  have hu := up_plus (Up.reach h.reach)
  -- names are unique
  have inj : ∀ b a, a ≤ (R.g x.s).n → b ≤ (R.g x.s).n → γ.path a = γ.path b → a = b := by
    intro b
    induction b using Nat.strongRecOn with
    | ind b ih =>
      intro a ha hb he
      cases a with
      | zero =>
        cases b with
        | zero => rfl
        | succ b =>
          rw [h.path0, h.pathS _ _ hb (parent_succ b)] at he
          simp at he
      | succ a =>
        cases b with
        | zero =>
          rw [h.path0, h.pathS _ _ ha (parent_succ a)] at he
          simp at he
        | succ b =>
          have ea := h.pathS _ _ ha (parent_succ a)
          have eb := h.pathS _ _ hb (parent_succ b)
          rw [ea, eb] at he
          obtain ⟨h1, h2⟩ := List.append_inj' he rfl
          have la := hu (a + 1) _ (by omega) (parent_succ a)
          have lb := hu (b + 1) _ (by omega) (parent_succ b)
          have h3 := ih _ lb _ (by omega) (by omega) h1
          have h4 := parent_succ (cfg := cfg) a
          rw [h3] at h4
          apply Classical.byContradiction
          intro hne
          rcases Nat.lt_or_ge a b with hlt | hlt
          · have := h.mono _ _ _ (by omega) hb h4 (parent_succ b)
            simp at h2
            omega
          · have := h.mono _ _ _ (by omega) ha (parent_succ b) h4
            simp at h2
            omega
  intro b
  induction b using Nat.strongRecOn with
  | ind b ih =>
    intro a ha hb hp
    cases b with
    | zero =>
      rw [h.path0] at hp
      have h1 := List.prefix_nil.1 hp
      rw [inj 0 a ha hb (by rw [h1, h.path0])]
      exact .refl
    | succ b =>
      have eb := h.pathS _ _ hb (parent_succ b)
      rw [eb] at hp
      rcases List.prefix_concat_iff.1 hp with h1 | h1
      · rw [inj (b + 1) a ha hb (by rw [h1, eb])]
        exact .refl
      · have lb := hu (b + 1) _ (by omega) (parent_succ b)
        exact .child (parent_succ b) (ih _ lb a ha (by omega) h1)

/-- a task that conflicts with an earlier one starts when the earlier one has returned -/
theorem Inv.left_done (hP : Proper cfg P) (ht : NestingOk cfg) {x : St R P} {γ : Ghost P.B} (h : Inv cfg P m0 x γ)
    {t u : Nat} (htn : t < (R.g x.s).n) (hx : Started (R.g x.s) u) (hl : Left cfg t u) {k j : Nat} {b b' : P.B}
    (ho : Occ P (γ.path (t + 1)) (some (cfg.user t)) k b) (ho' : Occ P (γ.path (u + 1)) (some (cfg.user u)) j b')
    (hi : ¬ Free P b b') : (R.g x.s).ex t = .ended := by
  have hu := Up.reach h.reach
  have hun := lt_of_started ht h.reach hx
  have hnd : ¬ Descends cfg t u ∧ ¬ Descends cfg u t := by
    obtain ⟨a, b, h1, h2, h3, h4⟩ := hl
    exact ⟨fun h5 => apart hu h3 (h5.trans' h4) htn (by omega) h2,
      fun h5 => apart hu (h5.trans' h3) h4 hun (by omega) h2⟩
  obtain ⟨r, h1, h2⟩ := hP.declared t u _ _ k j b b' ho ho'
    (fun hp => hnd.2 (desc_plus.1 (h.path_prefix _ _ (by omega) (by omega) hp)))
    (fun hp => hnd.1 (desc_plus.1 (h.path_prefix _ _ (by omega) (by omega) hp))) hi
  obtain ⟨p, q, h3, h4, h5, h6, h7⟩ := hl.conflict hu h.covered htn hun h1 h2
  have := C12_descendants_partial hP.wf ht hP.single h.reach h3 (hP.one _ _ h4) h7 h5 h6 htn hx
  cases this with
  | mk h _ _ => exact h

/-- the events that come later in the sequential program are independent of the next event -/
theorem Inv.next (hP : Proper cfg P) (ht : NestingOk cfg) {x : St R P} {γ : Ghost P.B} (h : Inv cfg P m0 x γ)
    {i : Nat} (hx : Active (R.g x.s) i) {f : Ev P.B} (hf : f ∈ γ.tr)
    (hp : Pre (plus cfg) γ.prog (i, γ.cur i) f.key) : Free P f.b (x.loc i) := by
  have hu := up_plus (Up.reach h.reach)
  have hin : i ≤ (R.g x.s).n := by
    cases i with
    | zero => omega
    | succ t =>
      have : t < (R.g x.s).n := lt_of_started ht h.reach (by
        unfold Started; simp only [Active] at hx; rw [hx]; simp)
      omega
  obtain ⟨h1, h2, h3⟩ := h.evs f hf
  rcases hp with ⟨h4, h5⟩ | h4 | ⟨c, h4, h5, h6⟩ | ⟨c, h4, h5, h6⟩
  · simp only [Ev.key] at h4 h5
    rw [← h4] at h2
    omega
  · obtain ⟨t, u, h5, h6, h7⟩ := left_plus h4
    simp only [Ev.key] at h5 h6
    subst h5
    apply Classical.byContradiction
    intro hi
    have h8 := h.occE f hf
    rw [h6] at h8
    have := h.left_done hP ht (by omega) (h3 u h6) h7 (h.occ _ hin) h8 fun h' => hi h'.symm
    simp only [Active] at hx
    rw [hx] at this
    cases this
  · simp only [Ev.key] at h5
    have hc : c ≤ (R.g x.s).n := by have := h5.le hu (by omega); omega
    have := (h.kids c i hc h4).2
    simp only [Ghost.prog] at h6
    omega
  · exact h.disc f hf c i h4 h5 hin h6 _ .refl

theorem good_concat {γ : Ghost P.B} {tr : List (Ev P.B)} {e : Ev P.B}
    (h : tr.Pairwise fun f e => Pre (plus cfg) γ.prog e.key f.key → Free P f.b e.b)
    (h' : ∀ f ∈ tr, Pre (plus cfg) γ.prog e.key f.key → Free P f.b e.b) :
    (tr ++ [e]).Pairwise fun f e => Pre (plus cfg) γ.prog e.key f.key → Free P f.b e.b := by
  refine List.pairwise_append.2 ⟨h, by simp, ?_⟩
  intro f hf e' he'
  rw [List.mem_singleton.1 he']
  exact h' f hf

theorem From.trans {b b1 b2 : P.B} (h1 : From P b b1) (h2 : From P b1 b2) : From P b b2 := by
  induction h2 with
  | refl => exact h1
  | act _ h ih => exact .act ih h
  | next _ h ih => exact .next ih h
  | child _ h ih => exact .child ih h
  | join _ h ih => exact .join ih h

/-- an event of body `i` -/
theorem Inv.event (hP : Proper cfg P) (ht : NestingOk cfg) {x : St R P} {γ : Ghost P.B} (h : Inv cfg P m0 x γ)
    {i : Nat} (hx : Active (R.g x.s) i) {b : P.B} {m : M} (ha : ap P ⟨i, γ.cur i, x.loc i, b⟩ x.m m)
    (hd : ∀ d, d < (R.g x.s).n → Below cfg d i → ∀ b, From P (x.loc (d + 1)) b → Free P (x.loc i) b) :
    Inv cfg P m0 { x with m := m, loc := upd x.loc i b }
      { γ with tr := γ.tr ++ [⟨i, γ.cur i, x.loc i, b⟩] } := by
  have hu := up_plus (Up.reach h.reach)
  have hst : ∀ u, i = u + 1 → Started (R.g x.s) u := by
    rintro u rfl
    unfold Started
    simp only [Active] at hx
    rw [hx]
    simp
  have hin : i ≤ (R.g x.s).n := by
    cases i with
    | zero => omega
    | succ t =>
      have : t < (R.g x.s).n := lt_of_started ht h.reach (hst t rfl)
      omega
  have hocc : Occ P (γ.path i) (usr cfg i) (γ.cur i) b := by
    rcases ha with ⟨f, h1, h2⟩ | ⟨h1, _⟩
    · have := (h.occ i hin).act (m := x.m) h1
      rw [h2] at this
      exact this
    · exact (h.occ i hin).join h1.choose_spec
  have hfrom : From P (x.loc i) b := by
    rcases ha with ⟨f, h1, h2⟩ | ⟨h1, _⟩
    · have := From.act (m := x.m) (.refl (b := x.loc i)) h1
      rw [h2] at this
      exact this
    · exact .join .refl h1.choose_spec
  have hfrom' : ∀ d b', From P (upd x.loc i b d) b' → From P (x.loc d) b' := by
    intro d b' hb
    by_cases e : d = i
    · subst e
      rw [upd_same] at hb
      exact hfrom.trans hb
    · rw [upd_ne _ _ e] at hb
      exact hb
  constructor
  · exact h.reach
  · exact runs_concat h.mem ha
  · exact h.main
  · intro t k htn hk
    obtain ⟨b0, h1, h2, h3⟩ := h.blk t k htn hk
    by_cases e : (i, γ.cur i) = (t, k)
    · obtain ⟨rfl, rfl⟩ := Prod.mk.inj e
      refine ⟨b, ?_, fun _ => (upd_same _ _ _).symm, fun h => absurd h (Nat.lt_irrefl _)⟩
      have := block_concat_same (key := Ev.key) (tr := γ.tr) (e := ⟨i, γ.cur i, x.loc i, b⟩)
      dsimp only [Ev.key] at this ⊢
      rw [this]
      exact h1.concat (h2 rfl).symm
    · refine ⟨b0, ?_, ?_, h3⟩
      · dsimp only
        rw [block_concat_ne (key := Ev.key) (e := ⟨i, γ.cur i, x.loc i, b⟩) e]
        exact h1
      · intro hkt
        have : t ≠ i := by
          rintro rfl
          exact e (by rw [hkt])
        dsimp only
        rw [upd_ne _ _ this]
        exact h2 hkt
  · intro e he
    rcases List.mem_append.1 he with he | he
    · exact h.evs e he
    · rw [List.mem_singleton.1 he]
      exact ⟨hin, Nat.le_refl _, hst⟩
  · exact h.kids
  · exact h.mono
  · exact h.path0
  · exact h.pathS
  · intro t htn
    by_cases e : t = i
    · subst e; dsimp only; rw [upd_same]; exact hocc
    · dsimp only; rw [upd_ne _ _ e]; exact h.occ t htn
  · intro e he
    rcases List.mem_append.1 he with he | he
    · exact h.occE e he
    · rw [List.mem_singleton.1 he]
      exact h.occ i hin
  · intro t hte
    have : t + 1 ≠ i := by
      rintro rfl
      simp only [Active] at hx
      rw [hx] at hte
      cases hte
    dsimp only
    rw [upd_ne _ _ this]
    exact h.ended t hte
  · intro e he c d hc hdc hdn hac b' hb'
    rcases List.mem_append.1 he with he | he
    · exact h.disc e he c d hc hdc hdn hac b' (hfrom' d b' hb')
    · rw [List.mem_singleton.1 he] at hc hac ⊢
      dsimp only at hc hac hdn ⊢
      cases d with
      | zero => rw [desc_zero hdc] at hc; rw [parent_zero] at hc; cases hc
      | succ d => exact hd d (by omega) (below_plus hu (by omega) hc hdc) b' (hfrom' _ _ hb')
  · exact good_concat h.good fun f hf hp => h.next hP ht hx hf hp
  · exact h.covered

/-- `emplace_task` -/
theorem Inv.submit (hP : Proper cfg P) (ht : NestingOk cfg) {x : St R P} {γ : Ghost P.B} (h : Inv cfg P m0 x γ)
    {s' : R.S} {d : User} {c b : P.B} (hr' : Graph.Reach cfg (R.g s')) (hc : Change cfg (R.g x.s) (R.g s'))
    (hn : (R.g s').n = (R.g x.s).n + 1)
    (hret : ∀ t, (R.g x.s).ex t = .running → (R.g s').ex t ≠ .running → P.pt (x.loc (t + 1)) = .done)
    (hp : P.pt (x.loc (owner cfg (R.g x.s).n)) = .spawn d c b) (hd : cfg.user (R.g x.s).n = d) :
    ∃ γ', Inv cfg P m0 { x with
      s := s', loc := upd (upd x.loc (owner cfg (R.g x.s).n) b) ((R.g x.s).n + 1) c } γ' := by
  have hu := up_plus (Up.reach h.reach)
  have hu' := up_plus (Up.reach hr')
  rw [hn] at hu'
  have hpar : (plus cfg).parentOf ((R.g x.s).n + 1) = some (owner cfg (R.g x.s).n) := parent_succ _
  have hon := hu' _ _ (by omega) hpar
  generalize ho : owner cfg (R.g x.s).n = o at *
  generalize hN : (R.g x.s).n = n at *
  have hone : o ≠ n + 1 := by omega
  have loc_o : upd (upd x.loc o b) (n + 1) c o = b := by rw [upd_ne _ _ hone, upd_same]
  have loc_n : upd (upd x.loc o b) (n + 1) c (n + 1) = c := by rw [upd_same]
  have loc_t : ∀ t, t ≠ o → t ≠ n + 1 → upd (upd x.loc o b) (n + 1) c t = x.loc t := fun t h1 h2 => by
    rw [upd_ne _ _ h2, upd_ne _ _ h1]
  have cur_o : upd (upd γ.cur o (γ.cur o + 1)) (n + 1) 0 o = γ.cur o + 1 := by rw [upd_ne _ _ hone, upd_same]
  have cur_n : upd (upd γ.cur o (γ.cur o + 1)) (n + 1) 0 (n + 1) = 0 := by rw [upd_same]
  have cur_t : ∀ t, t ≠ o → t ≠ n + 1 → upd (upd γ.cur o (γ.cur o + 1)) (n + 1) 0 t = γ.cur t := fun t h1 h2 => by
    rw [upd_ne _ _ h2, upd_ne _ _ h1]
  have cur_le : ∀ t, t ≤ n → γ.cur t ≤ upd (upd γ.cur o (γ.cur o + 1)) (n + 1) 0 t := by
    intro t htn
    by_cases e : t = o
    · subst e; rw [cur_o]; omega
    · rw [cur_t t e (by omega)]; exact Nat.le_refl _
  have empty : ∀ t k, (t ≤ n → γ.cur t < k) → block Ev.key γ.tr (t, k) = [] := by
    intro t k htk
    apply List.eq_nil_iff_forall_not_mem.2
    intro e he
    obtain ⟨h1, h2⟩ := mem_block.1 he
    obtain ⟨h3, h4, _⟩ := h.evs e h1
    simp only [Ev.key, Prod.mk.injEq] at h2
    rw [hN] at h3
    rw [h2.1, h2.2] at h4
    have := htk (by omega)
    omega
  refine ⟨{ tr := γ.tr
            st := fun t k => if t = n + 1 then c else if t = o ∧ k = γ.cur o + 1 then b else γ.st t k
            cur := upd (upd γ.cur o (γ.cur o + 1)) (n + 1) 0
            aft := upd γ.aft (n + 1) (γ.cur o + 1)
            path := upd γ.path (n + 1) (γ.path o ++ [γ.cur o + 1]) }, hr', h.mem, ?_, ?_, ?_, ?_, ?_, ?_, ?_, ?_,
    ?_, ?_, ?_, ?_, ?_⟩
  · dsimp only
    rw [if_neg (by omega), if_neg (by omega)]
    exact h.main
  · intro t k htn hk
    dsimp only at hk htn ⊢
    rw [hn] at htn ⊢
    have old : ∀ c', c' ≤ n → (if c' = n + 1 then c else if c' = o ∧ 0 = γ.cur o + 1 then b else γ.st c' 0) =
        γ.st c' 0 := by
      intro c' hc'
      rw [if_neg (by omega), if_neg (by omega)]
    by_cases e : t = n + 1
    · subst e
      rw [cur_n] at hk ⊢
      have : k = 0 := by omega
      subst this
      refine ⟨c, ?_, fun _ => loc_n.symm, fun h => absurd h (Nat.lt_irrefl _)⟩
      rw [if_pos rfl, empty _ _ (by omega)]
      exact .nil
    · rw [if_neg e]
      by_cases e' : t = o
      · subst e'
        rw [cur_o] at hk ⊢
        by_cases hk' : k = γ.cur t + 1
        · subst hk'
          refine ⟨b, ?_, fun _ => loc_o.symm, fun h => absurd h (Nat.lt_irrefl _)⟩
          rw [if_pos ⟨rfl, rfl⟩, empty _ _ (by omega)]
          exact .nil
        · rw [if_neg (by omega)]
          obtain ⟨b0, h1, h2, h3⟩ := h.blk t k (by omega) (by omega)
          refine ⟨b0, h1, by omega, fun _ => ?_⟩
          by_cases hk2 : k = γ.cur t
          · subst hk2
            refine ⟨n + 1, d, by omega, hpar, upd_same _ _ _, ?_⟩
            rw [h2 rfl, if_pos rfl, if_neg e, if_pos ⟨rfl, rfl⟩]
            exact hp
          · obtain ⟨c', d', h4, h5, h6, h7⟩ := h3 (by omega)
            rw [hN] at h4
            refine ⟨c', d', by omega, h5, by rw [upd_ne _ _ (by omega)]; exact h6, ?_⟩
            rw [old c' h4, if_neg e, if_neg (by omega)]
            exact h7
      · rw [if_neg (by omega)]
        rw [cur_t t e' e] at hk ⊢
        obtain ⟨b0, h1, h2, h3⟩ := h.blk t k (by omega) (by omega)
        refine ⟨b0, h1, fun h4 => by rw [loc_t t e' e]; exact h2 h4, fun h4 => ?_⟩
        obtain ⟨c', d', h4, h5, h6, h7⟩ := h3 h4
        rw [hN] at h4
        refine ⟨c', d', by omega, h5, by rw [upd_ne _ _ (by omega)]; exact h6, ?_⟩
        rw [old c' h4, if_neg e, if_neg (by omega)]
        exact h7
  · intro e he
    obtain ⟨h1, h2, h3⟩ := h.evs e he
    rw [hN] at h1
    exact ⟨by dsimp only; omega, Nat.le_trans h2 (cur_le _ h1), fun u hu => fun h4 => h3 u hu (hc.none u h4)⟩
  · intro c' q hcn hq
    dsimp only at hcn ⊢
    rw [hn] at hcn
    have hqc := hu' c' q (by omega) hq
    by_cases e : c' = n + 1
    · subst e
      rw [hpar] at hq
      cases hq
      rw [upd_same, cur_o]
      omega
    · rw [upd_ne _ _ e]
      obtain ⟨h1, h2⟩ := h.kids c' q (by omega) hq
      exact ⟨h1, Nat.le_trans h2 (cur_le q (by omega))⟩
  · intro c1 c2 q hlt hcn h1 h2
    dsimp only at hcn ⊢
    rw [hn] at hcn
    rw [upd_ne _ _ (show c1 ≠ n + 1 by omega)]
    by_cases e : c2 = n + 1
    · subst e
      rw [hpar] at h2
      cases h2
      rw [upd_same]
      have := (h.kids c1 o (by omega) h1).2
      omega
    · rw [upd_ne _ _ e]
      exact h.mono c1 c2 q hlt (by omega) h1 h2
  · dsimp only
    rw [upd_ne _ _ (by omega)]
    exact h.path0
  · intro c' q hcn hq
    dsimp only at hcn ⊢
    rw [hn] at hcn
    have hqc := hu' c' q (by omega) hq
    rw [upd_ne γ.path _ (show q ≠ n + 1 by omega)]
    by_cases e : c' = n + 1
    · subst e
      rw [hpar] at hq
      cases hq
      rw [upd_same, upd_same]
    · rw [upd_ne _ _ e, upd_ne _ _ e]
      exact h.pathS c' q (by omega) hq
  · intro t htn
    dsimp only at htn ⊢
    rw [hn] at htn
    by_cases e : t = n + 1
    · subst e
      rw [upd_same, cur_n, loc_n]
      have := (h.occ o (by omega)).child hp
      simp only [usr]
      rw [hd]
      exact this
    · rw [upd_ne _ _ e]
      by_cases e' : t = o
      · subst e'
        rw [cur_o, loc_o]
        exact (h.occ t (by omega)).next hp
      · rw [cur_t t e' e, loc_t t e' e]
        exact h.occ t (by omega)
  · intro e he
    dsimp only
    have := (h.evs e he).1
    rw [upd_ne _ _ (by omega)]
    exact h.occE e he
  · intro t hte
    dsimp only at hte ⊢
    have hold : P.pt (x.loc (t + 1)) = .done := by
      rcases hc.was t hte with h1 | h1
      · exact h.ended t h1
      · exact hret t h1 (by rw [hte]; simp)
    have htn : t < n := by
      rw [← hN]
      refine lt_of_started ht h.reach ?_
      unfold Started
      rcases hc.was t hte with h1 | h1 <;> rw [h1] <;> simp
    have e : t + 1 ≠ o := by
      intro e
      rw [e, hp] at hold
      cases hold
    rw [loc_t _ e (by omega)]
    exact hold
  · intro e he c' d' hc' hdc hdn hac b' hb'
    dsimp only at hdn hac hb' ⊢
    rw [hn] at hdn
    obtain ⟨h1, h2, _⟩ := h.evs e he
    have hcd := hdc.le hu' (by omega)
    by_cases ed : d' = n + 1
    · subst ed
      rw [loc_n] at hb'
      by_cases ec : c' = n + 1
      · subst ec
        rw [hpar] at hc'
        rw [upd_same] at hac
        rw [Option.some.inj hc'] at hac
        omega
      · rw [upd_ne _ _ ec] at hac
        cases hdc with
        | refl => exact absurd rfl ec
        | @child _ q _ h3 h4 =>
          rw [hpar] at h3
          cases h3
          exact h.disc e he c' o hc' h4 (by omega) hac b' (From.trans (.child .refl hp) hb')
    · rw [upd_ne _ _ (by omega)] at hac
      by_cases eo : d' = o
      · subst eo
        rw [loc_o] at hb'
        exact h.disc e he c' d' hc' hdc (by omega) hac b' (From.trans (.next .refl hp) hb')
      · rw [loc_t d' eo ed] at hb'
        exact h.disc e he c' d' hc' hdc (by omega) hac b' hb'
  · refine (List.Pairwise.and_mem.1 h.good).imp ?_
    rintro f e ⟨hf, he, h1⟩ h2
    refine h1 ?_
    have hfn := (h.evs f hf).1
    have hen := (h.evs e he).1
    rcases h2 with h2 | h2 | ⟨c', h3, h4, h5⟩ | ⟨c', h3, h4, h5⟩
    · exact .inl h2
    · exact .inr (.inl h2)
    · have := h4.le hu' (by simp only [Ev.key]; omega)
      simp only [Ghost.prog, Ev.key] at h5 this
      rw [upd_ne _ _ (by omega)] at h5
      exact .inr (.inr (.inl ⟨c', h3, h4, h5⟩))
    · have := h4.le hu' (by simp only [Ev.key]; omega)
      simp only [Ghost.prog, Ev.key] at h5 this
      rw [upd_ne _ _ (by omega)] at h5
      exact .inr (.inr (.inr ⟨c', h3, h4, h5⟩))
  · intro c' q hcn hq
    dsimp only at hcn
    rw [hn] at hcn
    by_cases e : c' = n
    · subst e
      have := parent_some hq
      rw [hpar] at this
      have := Option.some.inj this
      subst this
      have h1 := h.occ (q + 1) (by omega)
      rw [hd]
      exact hP.covered _ _ _ _ _ _ _ h1 hp
    · exact h.covered c' q (by omega) hq

theorem Inv.step (hP : Proper cfg P) (ht : NestingOk cfg) (hR : Sound cfg R) {x x' : St R P} {γ : Ghost P.B}
    (hx : R.Reach x.s) (h : Inv cfg P m0 x γ) (hs : Step cfg R P true x x') : ∃ γ', Inv cfg P m0 x' γ' := by
  cases hs with
  | @rt s' hst hn hret =>
    have hr' : Graph.Reach cfg (R.g s') := by
      rcases hR.sim _ _ hx hst with e | ⟨l, hl⟩
      · rw [e]; exact h.reach
      · exact .step h.reach hl
    have hc : Change cfg (R.g x.s) (R.g s') := by
      rcases hR.sim _ _ hx hst with e | ⟨l, hl⟩
      · rw [e]; exact .refl
      · exact change ht h.reach hl
    refine ⟨γ, hr', h.mem, h.main, ?_, ?_, ?_, ?_, h.path0, ?_, ?_, h.occE, ?_, ?_, h.good, ?_⟩
    · dsimp only; rw [hn]; exact h.blk
    · intro e he
      obtain ⟨h1, h2, h3⟩ := h.evs e he
      exact ⟨by dsimp only; rw [hn]; exact h1, h2, fun u hu => fun h4 => h3 u hu (hc.none u h4)⟩
    · dsimp only; rw [hn]; exact h.kids
    · dsimp only; rw [hn]; exact h.mono
    · dsimp only; rw [hn]; exact h.pathS
    · dsimp only; rw [hn]; exact h.occ
    · intro t he
      rcases hc.was t he with h1 | h1
      · exact h.ended t h1
      · exact hret t h1 (by dsimp only at he; rw [he]; simp)
    · dsimp only; rw [hn]; exact h.disc
    · dsimp only; rw [hn]; exact h.covered
  | @submit s' d c b hst hn hret hp hd =>
    have hr' : Graph.Reach cfg (R.g s') := by
      rcases hR.sim _ _ hx hst with e | ⟨l, hl⟩
      · rw [e]; exact h.reach
      · exact .step h.reach hl
    have hc : Change cfg (R.g x.s) (R.g s') := by
      rcases hR.sim _ _ hx hst with e | ⟨l, hl⟩
      · rw [e]; exact .refl
      · exact change ht h.reach hl
    exact h.submit hP ht hr' hc hn hret hp hd
  | @act i f hx' hp hm =>
    exact ⟨_, h.event hP ht hx' (.inl ⟨f, hp, rfl⟩) (hm rfl)⟩
  | @join i w b hx' hp hc =>
    refine ⟨_, h.event (m := x.m) hP ht hx' (.inr ⟨⟨w, hp⟩, rfl⟩) fun d _ _ b' _ f f' h1 => ?_⟩
    rw [hp] at h1
    cases h1

theorem Reach.rt {x : St R P} (h : Reach cfg R P careful m0 x) : R.Reach x.s := by
  induction h with
  | init => exact .init
  | step _ hs ih =>
    cases hs with
    | rt h => exact .step ih h
    | submit h => exact .step ih h
    | _ => exact ih

theorem Inv.of_reach (hP : Proper cfg P) (ht : NestingOk cfg) (hR : Sound cfg R) {x : St R P}
    (h : Reach cfg R P true m0 x) : ∃ γ, Inv cfg P m0 x γ := by
  induction h with
  | init =>
    refine ⟨⟨[], fun _ _ => P.main, fun _ => 0, fun _ => 0, fun _ => []⟩, ?_⟩
    have hn : (R.g R.init).n = 0 := by rw [hR.init]; rfl
    have hx : ∀ t, (R.g R.init).ex t = .none := by rw [hR.init]; intro t; rfl
    constructor
    · rw [hR.init]; exact .init
    · exact .nil
    · rfl
    · intro t k htn hk
      exact ⟨P.main, .nil, fun _ => rfl, fun h => absurd h (by dsimp only at hk ⊢; omega)⟩
    · intro e he; cases he
    · intro c q hc hq
      dsimp only at hc
      have : c = 0 := by omega
      subst this
      rw [parent_zero] at hq; cases hq
    · intro c c' q h1 h2
      dsimp only at h2
      omega
    · rfl
    · intro c q hc hq
      dsimp only at hc
      have : c = 0 := by omega
      subst this
      rw [parent_zero] at hq; cases hq
    · intro t htn
      dsimp only at htn
      have : t = 0 := by omega
      subst this
      exact .main
    · intro e he; cases he
    · intro t he
      dsimp only at he
      rw [hx t] at he; cases he
    · intro e he; cases he
    · exact .nil
    · intro c q hc
      dsimp only at hc
      omega
  | step hx hs ih =>
    obtain ⟨γ, ih⟩ := ih
    exact ih.step hP ht hR hx.rt hs

/-! ### The sequential program -/

theorem filter_single {p : Nat → Bool} {N c : Nat} (hc : c < N) (h1 : p c = true)
    (h2 : ∀ a, a < N → p a = true → a = c) : (List.range N).filter p = [c] := by
  have hn : ((List.range N).filter p).Nodup := List.nodup_range.filter _
  have hm : ∀ a, a ∈ (List.range N).filter p ↔ a = c := by
    intro a
    simp only [List.mem_filter, List.mem_range]
    exact ⟨fun h => h2 a h.1 h.2, fun h => by subst h; exact ⟨hc, h1⟩⟩
  match hl : (List.range N).filter p with
  | [] =>
    have := (hm c).2 rfl
    rw [hl] at this
    cases this
  | [a] => rw [(hm a).1 (by rw [hl]; simp)]
  | a :: b :: l =>
    rw [hl] at hn
    have ha := (hm a).1 (by rw [hl]; simp)
    have hb := (hm b).1 (by rw [hl]; simp)
    subst ha hb
    simp at hn

theorem seq_inline {x : St R P} {γ : Ghost P.B} (h : Inv cfg P m0 x γ)
    (he : ∀ t, t < (R.g x.s).n → (R.g x.s).ex t = .ended) : ∀ d t, (R.g x.s).n + 1 - t ≤ d → t ≤ (R.g x.s).n →
      ∀ m m' m'', Runs (ap P) ((inline (plus cfg) γ.prog ((R.g x.s).n + 1) d t).flatMap (block Ev.key γ.tr)) m m' →
        Seq P (x.loc t) m' m'' → Seq P (γ.st t 0) m m'' := by
  have hu := up_plus (Up.reach h.reach)
  intro d
  induction d with
  | zero => intro t h1 h2; omega
  | succ d ih =>
    intro t hd htn m m' m'' hr hs
    generalize hN : (R.g x.s).n = n at *
    -- from the part after `j` submissions
    have part : ∀ i j, j + i = γ.cur t → ∀ m, Runs (ap P) (block Ev.key γ.tr (t, j) ++
        ((List.range' (j + 1) (i + 1)).flatMap fun k =>
          (children (plus cfg) γ.prog (n + 1) t k).flatMap (inline (plus cfg) γ.prog (n + 1) d) ++
            if k < γ.cur t + 1 then [(t, k)] else []).flatMap (block Ev.key γ.tr)) m m' →
        Seq P (γ.st t j) m m'' := by
      intro i
      induction i with
      | zero =>
        intro j hj m hr
        obtain ⟨b, h1, h2, _⟩ := h.blk t j (by omega) (by omega)
        have hch : children (plus cfg) γ.prog (n + 1) t (j + 1) = [] := by
          simp only [children, List.filter_eq_nil_iff, List.mem_range, Bool.and_eq_true, decide_eq_true_eq,
            beq_iff_eq, not_and, Ghost.prog]
          intro c hc hp
          have := (h.kids c t (by omega) hp).2
          omega
        simp only [List.range'_succ, List.range'_zero, List.flatMap_cons, List.flatMap_nil, hch, List.nil_append,
          List.append_nil] at hr
        rw [if_neg (by omega)] at hr
        simp only [List.flatMap_nil, List.append_nil] at hr
        refine h1.seq hr ?_
        rw [h2 (by omega)]
        exact hs
      | succ i ihi =>
        intro j hj m hr
        obtain ⟨b, h1, _, h2⟩ := h.blk t j (by omega) (by omega)
        obtain ⟨c, d', h3, h4, h5, h6⟩ := h2 (by omega)
        have hch : children (plus cfg) γ.prog (n + 1) t (j + 1) = [c] := by
          apply filter_single (by omega)
          · simp [Ghost.prog, h4, h5]
          · intro a ha
            simp only [Bool.and_eq_true, decide_eq_true_eq, beq_iff_eq, Ghost.prog]
            rintro ⟨h7, h8⟩
            apply Classical.byContradiction
            intro hne
            rcases Nat.lt_or_ge a c with hlt | hlt
            · have := h.mono a c t hlt h3 h7 h4; omega
            · have := h.mono c a t (by omega) (by omega) h4 h7; omega
        rw [List.range'_succ, List.flatMap_cons, hch, if_pos (by omega)] at hr
        simp only [List.flatMap_cons, List.flatMap_nil, List.append_nil, List.flatMap_append] at hr
        obtain ⟨m1, hr1, hr⟩ := runs_append.1 hr
        rw [List.append_assoc] at hr
        obtain ⟨m2, hr2, hr3⟩ := runs_append.1 hr
        refine h1.seq hr1 (.spawn h6 (m1 := m2) ?_ ?_)
        · have hct := hu c t (by omega) h4
          refine ih c (by omega) (by omega) m1 m2 m2 hr2 (.done ?_)
          cases c with
          | zero => omega
          | succ c => exact h.ended c (he c (by omega))
        · exact ihi (j + 1) (by omega) m2 hr3
    have hch : children (plus cfg) γ.prog (n + 1) t 0 = [] := by
      simp only [children, List.filter_eq_nil_iff, List.mem_range, Bool.and_eq_true, decide_eq_true_eq,
        beq_iff_eq, not_and, Ghost.prog]
      intro c hc hp
      have := (h.kids c t (by omega) hp).1
      omega
    refine part (γ.cur t) 0 (by omega) m ?_
    have e1 : inline (plus cfg) γ.prog (n + 1) (d + 1) t = (t, 0) ::
        (List.range' 1 (γ.cur t + 1)).flatMap fun k =>
          (children (plus cfg) γ.prog (n + 1) t k).flatMap (inline (plus cfg) γ.prog (n + 1) d) ++
            if k < γ.cur t + 1 then [(t, k)] else [] := by
      have e2 : γ.prog.len t = γ.cur t + 1 := rfl
      simp only [Bodies.inline, e2]
      rw [List.range_eq_range', List.range'_succ, List.flatMap_cons, hch, if_pos (by omega)]
      rfl
    rw [e1, List.flatMap_cons] at hr
    exact hr

/-- When all tasks have returned, the rest of the main program, executed sequentially, completes an execution of the
sequential program. -/
theorem sequential (hP : Proper cfg P) (ht : NestingOk cfg) (hR : Sound cfg R) {x : St R P}
    (h : Reach cfg R P true m0 x) (he : ∀ t, t < (R.g x.s).n → (R.g x.s).ex t = .ended) {m : M}
    (hm : Seq P (x.loc 0) x.m m) : Seq P P.main m0 m := by
  obtain ⟨γ, hi⟩ := Inv.of_reach hP ht hR h
  have hu := up_plus (Up.reach hi.reach)
  have hl : ∀ c q, c < (R.g x.s).n + 1 → (plus cfg).parentOf c = some q → γ.prog.after c ≤ γ.prog.len q :=
    fun c q h1 h2 => by
      have := (hi.kids c q (by omega) h2).2
      simp only [Ghost.prog]
      omega
  have hmo : ∀ c c' q, c < (R.g x.s).n + 1 → c' < (R.g x.s).n + 1 → (plus cfg).parentOf c = some q →
      (plus cfg).parentOf c' = some q → γ.prog.after c < γ.prog.after c' → c < c' := by
    intro c c' q h1 h2 h3 h4 h5
    simp only [Ghost.prog] at h5
    apply Classical.byContradiction
    intro h6
    by_cases e : c = c'
    · subst e; omega
    · have := hi.mono c' c q (by omega) (by omega) h4 h3
      omega
  have hin := mem_inline hu hl ((R.g x.s).n + 1) 0 (by omega) (by omega)
  have root : ∀ a, a ≤ (R.g x.s).n → Descends (plus cfg) a 0 := by
    intro a ha
    obtain ⟨r, h1, h2⟩ := root_exists hu a (by omega)
    cases r with
    | zero => exact h2
    | succ r => rw [parent_succ] at h1; cases h1
  have keys : ∀ e ∈ γ.tr, e.key ∈ inline (plus cfg) γ.prog ((R.g x.s).n + 1) ((R.g x.s).n + 1) 0 := by
    intro e hm
    obtain ⟨h1, h2, _⟩ := hi.evs e hm
    exact (hin _).2 ⟨by simp only [Ev.key]; omega, root _ h1, by simp only [Ev.key, Ghost.prog]; omega⟩
  have hpw := pairwise_inline hu hl hmo ((R.g x.s).n + 1) 0 (by omega) (by omega)
  have hnd : (inline (plus cfg) γ.prog ((R.g x.s).n + 1) ((R.g x.s).n + 1) 0).Nodup := by
    refine (List.Pairwise.and_mem.1 hpw).imp ?_
    rintro a b ⟨h1, _, h2⟩ rfl
    exact Pre.irrefl hu ((hin a).1 h1).1 h2
  have hr := runs_sorted (ap := ap P) (key := Ev.key) hpw hnd γ.tr [] keys (by
    refine hi.good.imp ?_
    intro f e h1 h2
    exact swap (h1 h2)) (m := m0) (m1 := m0) (by
    have e1 : sorted Ev.key (inline (plus cfg) γ.prog ((R.g x.s).n + 1) ((R.g x.s).n + 1) 0) ([] : List (Ev P.B)) = [] := by
      simp [sorted, block]
    rw [e1]
    exact .nil) hi.mem
  have := seq_inline hi he ((R.g x.s).n + 1) 0 (by omega) (by omega) m0 x.m m hr hm
  rw [hi.main] at this
  exact this

theorem Seq.det {b : P.B} {m m1 m2 : M} (h1 : Seq P b m m1) (h2 : Seq P b m m2) : m1 = m2 := by
  induction h1 generalizing m2 with
  | act h _ ih =>
    cases h2 with
    | act h' h2 => rw [h] at h'; cases h'; exact ih h2
    | spawn h' => rw [h] at h'; cases h'
    | join h' => rw [h] at h'; cases h'
    | done h' => rw [h] at h'; cases h'
  | spawn h _ _ ih1 ih2 =>
    cases h2 with
    | act h' h2 => rw [h] at h'; cases h'
    | spawn h' h3 h4 =>
      rw [h] at h'; cases h'
      rw [← ih1 h3] at h4
      exact ih2 h4
    | join h' => rw [h] at h'; cases h'
    | done h' => rw [h] at h'; cases h'
  | join h _ ih =>
    cases h2 with
    | act h' h2 => rw [h] at h'; cases h'
    | spawn h' => rw [h] at h'; cases h'
    | join h' h2 => rw [h] at h'; cases h'; exact ih h2
    | done h' => rw [h] at h'; cases h'
  | done h =>
    cases h2 with
    | act h' h2 => rw [h] at h'; cases h'
    | spawn h' => rw [h] at h'; cases h'
    | join h' => rw [h] at h'; cases h'
    | done h' => rfl

/-! ### Structured programs -/

/-- executions of a machine that implements Model/Graph -/
theorem Reach.graph (hR : Sound cfg R) {x : St R P} (h : Reach cfg R P careful m0 x) :
    Reach cfg (Bodies.graph cfg) P careful m0 ⟨R.g x.s, x.m, x.loc⟩ := by
  induction h with
  | init => rw [hR.init]; exact .init
  | @step x x' hx hs ih =>
    cases hs with
    | @rt s' h hn hret =>
      rcases hR.sim _ _ hx.rt h with e | h'
      · dsimp only; rw [e]; exact ih
      · exact .step ih (.rt (R := Bodies.graph cfg) (x := ⟨R.g x.s, x.m, x.loc⟩) h' hn hret)
    | @submit s' d c b h hn hret hp hd =>
      rcases hR.sim _ _ hx.rt h with e | h'
      · rw [e] at hn; omega
      · exact .step ih (.submit (R := Bodies.graph cfg) (x := ⟨R.g x.s, x.m, x.loc⟩) h' hn hret hp hd)
    | act h hp hm => exact .step ih (.act (R := Bodies.graph cfg) (x := ⟨R.g x.s, x.m, x.loc⟩) h hp hm)
    | join h hp hc => exact .step ih (.join (R := Bodies.graph cfg) (x := ⟨R.g x.s, x.m, x.loc⟩) h hp hc)

theorem From.of_done {b b' : P.B} (hb : P.pt b = .done) (h : From P b b') : b' = b := by
  induction h with
  | refl => rfl
  | act _ h1 ih => subst ih; rw [hb] at h1; cases h1
  | next _ h1 ih => subst ih; rw [hb] at h1; cases h1
  | child _ h1 ih => subst ih; rw [hb] at h1; cases h1
  | join _ h1 ih => subst ih; rw [hb] at h1; cases h1

/-- how many of the first `n` tasks were submitted by body `i` -/
def count (cfg : Cfg) (n i : Nat) : Nat := ((List.range n).filter fun c => owner cfg c = i).length

theorem count_succ (n i : Nat) : count cfg (n + 1) i = count cfg n i + if owner cfg n = i then 1 else 0 := by
  unfold count
  rw [List.range_succ, List.filter_append, List.length_append]
  by_cases h : owner cfg n = i <;> simp [h]

theorem count_lt {c n : Nat} (h : c < n) : rank cfg c < count cfg n (owner cfg c) := by
  induction n with
  | zero => omega
  | succ n ih =>
    rw [count_succ]
    by_cases e : c = n
    · subst e
      rw [if_pos rfl]
      exact Nat.lt_succ_self _
    · have := ih (by omega)
      omega

/-- `o` tells which bodies may have tasks that have not returned, `birth` is how a body begins -/
structure Tidy (cfg : Cfg) (P : Prog M) (g : State) (loc : Nat → P.B) (o : Nat → Nat → Option P.B) (birth : Nat → P.B) :
    Prop where
  has : ∀ i, i ≤ g.n → Has P (count cfg g.n i) (o i) (loc i)
  kids : ∀ c, c < g.n → o (owner cfg c) (rank cfg c) = none → g.ex c ≠ .none ∧ P.pt (loc (c + 1)) = .done
  out : ∀ c, c < g.n → ∀ b, o (owner cfg c) (rank cfg c) = some b → b = birth c
  frm : ∀ c, c < g.n → From P (birth c) (loc (c + 1))
  up : ∀ c, c < g.n → ∀ q, owner cfg c = q + 1 → From P (birth q) (birth c)

theorem Tidy.over (hS : ∀ k o b, Has P k o b → P.pt b = .done → ∀ j, o j = none) {g : State} (hr : Graph.Reach cfg g) {loc : Nat → P.B}
    {o : Nat → Nat → Option P.B} {birth : Nat → P.B} (h : Tidy cfg P g loc o birth) {d c : Nat} (hd : Descends cfg d c)
    (hn : d < g.n) (hc : P.pt (loc (c + 1)) = .done) : P.pt (loc (d + 1)) = .done := by
  induction hd with
  | refl => exact hc
  | @child d q _ hp _ ih =>
    have hq := Up.reach hr d q hn hp
    have := hS _ _ _ (h.has (q + 1) (by omega)) (ih (by omega) hc) (rank cfg d)
    have ho : owner cfg d = q + 1 := by rw [owner, hp]
    rw [← ho] at this
    exact (h.kids d hn this).2

theorem Tidy.from {g : State} (hr : Graph.Reach cfg g) {loc : Nat → P.B}
    {o : Nat → Nat → Option P.B} {birth : Nat → P.B} (h : Tidy cfg P g loc o birth) {d c : Nat} (hd : Descends cfg d c)
    (hn : d < g.n) : From P (birth c) (loc (d + 1)) := by
  have : From P (birth c) (birth d) := by
    induction hd with
    | refl => exact .refl
    | @child d q _ hp _ ih =>
      have hq := Up.reach hr d q hn hp
      exact (ih (by omega)).trans (h.up d hn q (by rw [owner, hp]))
  exact this.trans (h.frm d hn)

/-- the task of a body to which a task below it belongs -/
theorem below_child {g : State} (hr : Graph.Reach cfg g) {i : Nat} (d : Nat) (hd : d < g.n) (hb : Below cfg d i) :
    ∃ c, c ≤ d ∧ owner cfg c = i ∧ Descends cfg d c := by
  induction d using Nat.strongRecOn with
  | ind d ih =>
    by_cases e : owner cfg d = i
    · exact ⟨d, Nat.le_refl _, e, .refl⟩
    · cases ho : owner cfg d with
      | zero =>
        cases i with
        | zero => exact absurd ho e
        | succ t =>
          obtain ⟨h1, h2⟩ := hb
          obtain ⟨q, h3, h4⟩ := h2.up h1
          have := parent_some h3
          rw [parent_succ, ho] at this
          cases this
      | succ q =>
        have hq := owner_some ho
        have hlt := Up.reach hr d q hd hq
        obtain ⟨c, h1, h2, h3⟩ := ih q hlt (by omega) (by
          cases i with
          | zero => trivial
          | succ t =>
            obtain ⟨h1, h2⟩ := hb
            obtain ⟨q', h3, h4⟩ := h2.up h1
            rw [hq] at h3
            cases h3
            exact ⟨fun h5 => e (by rw [ho, h5]), h4⟩)
        exact ⟨c, by omega, h2, .child hq h3⟩

/-- what a body does next is independent of everything below it -/
theorem Tidy.free (hS : Structured P) {g : State} (hr : Graph.Reach cfg g) {loc : Nat → P.B}
    {o : Nat → Nat → Option P.B} {birth : Nat → P.B} (h : Tidy cfg P g loc o birth) {i : Nat} (hi : i ≤ g.n) :
    MayAct cfg P g loc i := by
  intro d hd hb b hfb
  obtain ⟨c, h1, rfl, h3⟩ := below_child hr d hd hb
  cases ho : o (owner cfg c) (rank cfg c) with
  | none =>
    have hdone := h.over hS.done hr h3 hd (h.kids c (by omega) ho).2
    rw [hfb.of_done hdone]
    intro f1 f2 _ h2
    rw [hdone] at h2
    cases h2
  | some b0 =>
    have hb0 := h.out c (by omega) b0 ho
    subst hb0
    intro f f' hf hf'
    exact hS.act _ _ _ (h.has _ hi) f hf _ _ ho b ((h.from hr h3 hd).trans hfb) f f' hf hf'

theorem desc_strict {a b : Nat} : Descends { cfg with strict := true } a b ↔ Descends cfg a b := by
  constructor
  · intro h
    induction h with
    | refl => exact .refl
    | child h _ ih => exact .child h ih
  · intro h
    induction h with
    | refl => exact .refl
    | child h _ ih => exact .child h ih

/-- a step of the runtime system -/
theorem Tidy.rt {g g' : State} {loc : Nat → P.B} {o : Nat → Nat → Option P.B} {birth : Nat → P.B}
    (hw : Tidy cfg P g loc o birth) (hn : g'.n = g.n) (hnone : ∀ c, g'.ex c = .none → g.ex c = .none) :
    Tidy cfg P g' loc o birth := by
  constructor <;> rw [hn]
  · exact hw.has
  · intro c hcn ho
    obtain ⟨h1, h2⟩ := hw.kids c hcn ho
    exact ⟨fun h3 => h1 (hnone c h3), h2⟩
  · exact hw.out
  · exact hw.frm
  · exact hw.up

/-- `emplace_task` -/
theorem Tidy.submit {g g' : State} {loc : Nat → P.B} {o : Nat → Nat → Option P.B} {birth : Nat → P.B}
    (hw : Tidy cfg P g loc o birth) (hr : Graph.Reach cfg g') (hn : g'.n = g.n + 1)
    (hnone : ∀ c, g'.ex c = .none → g.ex c = .none) {d : User} {c b : P.B}
    (hp : P.pt (loc (owner cfg g.n)) = .spawn d c b) :
    Tidy cfg P g' (upd (upd loc (owner cfg g.n) b) (g.n + 1) c)
      (upd (upd o (owner cfg g.n) (upd (o (owner cfg g.n)) (count cfg g.n (owner cfg g.n)) (some c))) (g.n + 1)
        (fun _ => none))
      (upd birth g.n c) := by
  have hu' := up_plus (Up.reach hr)
  rw [hn] at hu'
  have hpar : (plus cfg).parentOf (g.n + 1) = some (owner cfg g.n) := parent_succ _
  have hon := hu' _ _ (by omega) hpar
  have hle : ∀ c, c ≤ g.n → owner cfg c ≤ c := by
    intro c hc
    have := hu' (c + 1) _ (by omega) (parent_succ (cfg := cfg) c)
    omega
  have hown : ∀ c', c' < g.n → upd (upd o (owner cfg g.n) (upd (o (owner cfg g.n))
      (count cfg g.n (owner cfg g.n)) (some c))) (g.n + 1) (fun _ => none) (owner cfg c')
      (rank cfg c') = o (owner cfg c') (rank cfg c') := by
    intro c' hc'
    have := hle c' (by omega)
    rw [upd_ne _ _ (by omega)]
    by_cases e : owner cfg c' = owner cfg g.n
    · have hlt := count_lt (cfg := cfg) hc'
      rw [← e, upd_same, upd_ne _ _ (by omega)]
    · rw [upd_ne _ _ e]
  have hnew : upd (upd o (owner cfg g.n) (upd (o (owner cfg g.n))
      (count cfg g.n (owner cfg g.n)) (some c))) (g.n + 1) (fun _ => none)
      (owner cfg g.n) (rank cfg g.n) = some c := by
    have := hle g.n (by omega)
    rw [upd_ne _ _ (by omega), upd_same]
    exact upd_same _ _ _
  constructor
  all_goals rw [hn]
  · intro i hin
    rw [count_succ]
    by_cases e : i = g.n + 1
    · subst e
      rw [upd_same, upd_same, if_neg (by omega)]
      have : count cfg g.n (g.n + 1) = 0 := by
        unfold count
        rw [List.length_eq_zero_iff, List.filter_eq_nil_iff]
        intro c' hc' h
        have := hle c' (by have := List.mem_range.1 hc'; omega)
        have h := of_decide_eq_true h
        have := List.mem_range.1 hc'
        omega
      rw [this]
      exact (hw.has _ (by omega)).child hp
    · rw [upd_ne _ _ e, upd_ne _ _ e]
      by_cases e' : i = owner cfg g.n
      · subst e'
        rw [upd_same, upd_same, if_pos rfl]
        exact (hw.has _ (by omega)).next hp
      · rw [upd_ne _ _ e', upd_ne _ _ e', if_neg (fun h => e' h.symm)]
        exact hw.has i (by omega)
  · intro c' hcn hoc
    by_cases e : c' = g.n
    · subst e
      rw [hnew] at hoc
      cases hoc
    · rw [hown c' (by omega)] at hoc
      obtain ⟨h1, h2⟩ := hw.kids c' (by omega) hoc
      have e2 : c' + 1 ≠ owner cfg g.n := by
        intro e2
        rw [e2, hp] at h2
        cases h2
      exact ⟨fun h3 => h1 (hnone c' h3), by rw [upd_ne _ _ (by omega), upd_ne _ _ e2]; exact h2⟩
  · intro c' hcn b' hb
    by_cases e : c' = g.n
    · subst e
      rw [hnew] at hb
      cases hb
      rw [upd_same]
    · rw [hown c' (by omega)] at hb
      rw [upd_ne _ _ e]
      exact hw.out c' (by omega) b' hb
  · intro c' hcn
    by_cases e : c' = g.n
    · subst e
      rw [upd_same, upd_same]
      exact .refl
    · rw [upd_ne _ _ e, upd_ne _ _ (by omega)]
      by_cases e' : c' + 1 = owner cfg g.n
      · have := hw.frm c' (by omega)
        rw [e'] at this
        rw [e', upd_same]
        exact this.next hp
      · rw [upd_ne _ _ e']
        exact hw.frm c' (by omega)
  · intro c' hcn q ho
    have h1 := hle c' (by omega)
    rw [upd_ne birth _ (show q ≠ g.n by omega)]
    by_cases e : c' = g.n
    · subst e
      rw [upd_same]
      have := hw.frm q (by omega)
      rw [← ho] at this
      exact this.child hp
    · rw [upd_ne _ _ e]
      exact hw.up c' (by omega) q ho

/-- an action of a body -/
theorem Tidy.act {g : State} {loc : Nat → P.B} {o : Nat → Nat → Option P.B} {birth : Nat → P.B}
    (hw : Tidy cfg P g loc o birth) {i : Nat} {f : M → P.B × M} (hp : P.pt (loc i) = .act f) (m : M) :
    Tidy cfg P g (upd loc i (f m).1) o birth := by
  refine ⟨?_, ?_, hw.out, ?_, hw.up⟩
  · intro j hj
    by_cases e : j = i
    · subst e
      rw [upd_same]
      exact (hw.has j hj).act hp
    · rw [upd_ne _ _ e]
      exact hw.has j hj
  · intro c hcn ho
    obtain ⟨h1, h2⟩ := hw.kids c hcn ho
    have e : c + 1 ≠ i := by
      intro e
      rw [e, hp] at h2
      cases h2
    exact ⟨h1, by rw [upd_ne _ _ e]; exact h2⟩
  · intro c hcn
    have := hw.frm c hcn
    by_cases e : c + 1 = i
    · rw [e] at this
      rw [e, upd_same]
      exact this.act hp
    · rw [upd_ne _ _ e]
      exact this

/-- waiting for tasks -/
theorem Tidy.join {g : State} {loc : Nat → P.B} {o : Nat → Nat → Option P.B} {birth : Nat → P.B}
    (hw : Tidy cfg P g loc o birth) {i : Nat} {w : Nat → Bool} {b : P.B} (hp : P.pt (loc i) = .join w b)
    (hc : ∀ t, t < g.n → owner cfg t = i → w (rank cfg t) = true → g.ex t ≠ .none ∧ P.pt (loc (t + 1)) = .done) :
    Tidy cfg P g (upd loc i b) (upd o i fun j => if w j then none else o i j) birth := by
  refine ⟨?_, ?_, ?_, ?_, hw.up⟩
  · intro j hj
    by_cases e : j = i
    · subst e
      rw [upd_same, upd_same]
      exact (hw.has j hj).join hp
    · rw [upd_ne _ _ e, upd_ne _ _ e]
      exact hw.has j hj
  · intro c hcn ho
    have h1 : g.ex c ≠ .none ∧ P.pt (loc (c + 1)) = .done := by
      by_cases e : owner cfg c = i
      · rw [e, upd_same] at ho
        by_cases hwc : w (rank cfg c) = true
        · exact hc c hcn e hwc
        · rw [if_neg hwc, ← e] at ho
          exact hw.kids c hcn ho
      · rw [upd_ne _ _ e] at ho; exact hw.kids c hcn ho
    have e : c + 1 ≠ i := by
      intro e
      rw [e, hp] at h1
      cases h1.2
    exact ⟨h1.1, by rw [upd_ne _ _ e]; exact h1.2⟩
  · intro c hcn b' hb
    apply hw.out c hcn b'
    by_cases e : owner cfg c = i
    · rw [e, upd_same] at hb
      by_cases hwc : w (rank cfg c) = true
      · rw [if_pos hwc] at hb; cases hb
      · rw [if_neg hwc, ← e] at hb; exact hb
    · rw [upd_ne _ _ e] at hb; exact hb
  · intro c hcn
    have := hw.frm c hcn
    by_cases e : c + 1 = i
    · rw [e] at this
      rw [e, upd_same]
      exact this.join hp
    · rw [upd_ne _ _ e]
      exact this

theorem Tidy.init : Tidy cfg P Graph.init (fun _ => P.main) (fun _ _ => none) (fun _ => P.main) := by
  refine ⟨fun i _ => .main, ?_, ?_, ?_, ?_⟩ <;> exact fun c hc => absurd hc (Nat.not_lt_zero _)

theorem structured_careful (hS : Structured P) {x : St (Bodies.graph cfg) P}
    (h : Reach cfg (Bodies.graph cfg) P careful m0 x) :
    Reach { cfg with strict := true } (Bodies.graph { cfg with strict := true }) P true m0 ⟨x.s, x.m, x.loc⟩ ∧
      ∃ o birth, Tidy cfg P x.s x.loc o birth := by
  induction h with
  | init =>
    exact ⟨.init, _, _, Tidy.init⟩
  | @step x x' hx hs ih =>
    obtain ⟨ih, o, birth, hw⟩ := ih
    have hr : Graph.Reach { cfg with strict := true } x.s := Sound.reach (R := Bodies.graph _) Bodies.graph_sound ih.rt
    have hi := Core.reach (.inl rfl) hr
    have hr' : Graph.Reach cfg x.s := Sound.reach (R := Bodies.graph _) Bodies.graph_sound hx.rt
    have hu := Up.reach hr'
    have hin : ∀ i, Active x.s i → i ≤ State.n x.s := by
      intro i h
      cases i with
      | zero => omega
      | succ t =>
        have : t < State.n x.s := lt_of_started (.inl rfl) hr (by
          unfold Started
          dsimp only [Active, Bodies.graph] at h
          rw [h]; simp)
        omega
    have hst : ∀ {s' : State}, (∃ l, Graph.Step cfg l x.s s') →
        (∀ t, State.ex x.s t = .running → s'.ex t ≠ .running → P.pt (x.loc (t + 1)) = .done) →
        ∃ l, Graph.Step { cfg with strict := true } l x.s s' := by
      rintro s' ⟨l, hl⟩ hret
      refine ⟨l, hl.to_strict fun t c h3 h4 h5 h6 => ?_⟩
      have hd := hret t h3 (by rw [h4]; simp)
      have htn : t < State.n x.s := lt_of_started (.inl rfl) hr (by unfold Started; rw [h3]; simp)
      have := hS.done _ _ _ (hw.has (t + 1) htn) hd (rank cfg c)
      have ho : owner cfg c = t + 1 := by rw [owner, h6]
      rw [← ho] at this
      exact (hi.exI c (hw.kids c h5 this).1).1
    cases hs with
    | @rt s' h hn hret =>
      obtain ⟨l, hl⟩ := hst h hret
      have hc := change (.inl rfl) hr hl
      exact ⟨.step ih (.rt (cfg := { cfg with strict := true }) (R := Bodies.graph { cfg with strict := true }) (x := ⟨x.s, x.m, x.loc⟩) ⟨l, hl⟩ hn hret), o, birth, hw.rt hn hc.none⟩
    | @submit s' d c b h hn hret hp hd =>
      obtain ⟨l, hl⟩ := hst h hret
      have hc := change (.inl rfl) hr hl
      exact ⟨.step ih (.submit (cfg := { cfg with strict := true }) (R := Bodies.graph { cfg with strict := true }) (x := ⟨x.s, x.m, x.loc⟩) ⟨l, hl⟩ hn hret hp hd),
        _, _, hw.submit (h.elim fun _ h => Graph.Reach.step hr' h) hn hc.none hp⟩
    | @act i f h hp hm =>
      refine ⟨.step ih (.act (cfg := { cfg with strict := true }) (R := Bodies.graph { cfg with strict := true }) (x := ⟨x.s, x.m, x.loc⟩) h hp fun _ => ?_), o, birth, hw.act hp x.m⟩
      intro d hdn hb b hfb
      refine hw.free hS hr' (hin i h) d hdn ?_ b hfb
      cases i with
      | zero => trivial
      | succ t => exact ⟨hb.1, desc_strict.1 hb.2⟩
    | @join i w b h hp hc =>
      exact ⟨.step ih (.join (cfg := { cfg with strict := true }) (R := Bodies.graph { cfg with strict := true }) (x := ⟨x.s, x.m, x.loc⟩) h hp hc), _, _, hw.join hp hc⟩

theorem proper_strict (hP : Proper cfg P) : Proper { cfg with strict := true } P where
  wf := WellFormed.strict hP.wf
  single := hP.single
  one := hP.one
  covered := hP.covered
  declared t u p q k j b b' h1 h2 h3 h4 h5 := by
    obtain ⟨r, h6, h7⟩ := hP.declared t u p q k j b b' h1 h2 h3 h4 h5
    refine ⟨r, h6, fun a h8 h9 h10 => h7 a h8 h9 ?_⟩
    rcases h10 with ⟨h10, h11⟩ | ⟨h10, h11⟩
    · exact .inl ⟨desc_strict.1 h10, fun h => h11 (desc_strict.2 h)⟩
    · exact .inr ⟨desc_strict.1 h10, fun h => h11 (desc_strict.2 h)⟩

/-- for structured programs nothing has to be assumed about the execution -/
theorem sequential_structured (hP : Proper cfg P) (hS : Structured P) (hR : Sound cfg R) {x : St R P}
    (h : Reach cfg R P careful m0 x) (he : ∀ t, t < (R.g x.s).n → (R.g x.s).ex t = .ended) {m : M}
    (hm : Seq P (x.loc 0) x.m m) : Seq P P.main m0 m :=
  sequential (cfg := { cfg with strict := true }) (R := Bodies.graph { cfg with strict := true }) (x := ⟨R.g x.s, x.m, x.loc⟩) (proper_strict hP) (.inl rfl) Bodies.graph_sound
    (structured_careful hS (h.graph hR)).1 he hm

end RG.Dyn
