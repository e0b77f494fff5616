import Verif.Model.VisibleProg
import Verif.Lemmas.VisibleCov
import Verif.Lemmas.Dynamic
/-
Lemmas for C85: conflicting actions of a program are ordered by happens-before.
-/
set_option linter.unusedVariables false
namespace RG.Vis
open RG.Graph
open RG.Dyn (owner rank count Prog Occ Has From Tidy Covered Below plus usr up_plus parent_succ parent_zero parent_some
  owner_some desc_plus desc_zero left_plus below_child desc_strict)
open RG.Bodies (Change change lt_of_started apart)

variable {cfg : Cfg} {x x' : V} {M : Type} {P : Prog M} {m0 : M}

/-! ### Tasks that conflict -/

/-- What a task and its descendants have done is known to a later task of the same space that conflicts with it, and to
its descendants, when they start; and nothing is done afterwards. -/
theorem conflict_known (hw : cfg.WellFormed) (ht : NestingOk cfg) (hs : cfg.single = true) (hr : Reach cfg x)
    {p t d : Nat} (hlt : p < t) (hsp : cfg.space p = cfg.space t) (hc : (cfg.user p).isSerial (cfg.user t) = true)
    (hd : Descends cfg d t) (hx : Started x.g d) {e : Ev} (he : pay cfg x p e) : x.k.know (.body (d + 1)) e := by
  obtain ⟨ha, ho⟩ := all_reach ht hr
  have hdn := lt_of_started ht hr.g hx
  have up : ∀ c q, Descends cfg c q → Started x.g c → Started x.g q := by
    intro c q h
    induction h with
    | refl => exact fun h => h
    | @child c q p hq _ ih =>
      intro hx
      exact ih (ha.dom.par c q (lt_of_started ht hr.g hx) hq).2
  have hxt := up d t hd hx
  have hn := lt_of_started ht hr.g hxt
  obtain ⟨s1, h1, h2, h3, h4⟩ := hr.g.submission ht hn
  obtain ⟨r, hcr⟩ := serial_conflictOn (cfg := cfg) hc
  obtain ⟨ty, y, z, h5, h6, h7⟩ := id hcr
  have reg : ∀ u ra, ra ∈ (cfg.user u).access → ∃ i : Nat, (cfg.res u)[i]? = some ra.res := by
    intro u ra hm
    obtain ⟨sd, ds, hb⟩ := hw.built u
    have := (C54_registered_iff_accessed sd ds ra.res).2 ⟨ra, hb ▸ hm, rfl⟩
    exact List.mem_iff_getElem?.1 (List.mem_reverse.2 (hb ▸ this))
  obtain ⟨j, hj⟩ := reg p _ h5
  obtain ⟨i, hi'⟩ := reg t _ h6
  have hinit := (ha.core.exI t hxt).1
  have hm : (t, i) ∈ x.g.hist r := (ha.core.histMem r t i).2 ⟨hi', by rw [hinit]; trivial⟩
  have hold := submitted_older ht h1 h3 (by omega) (fun i => h4 hs p i hlt hsp) (by omega) hj hm
  exact (pre_down ha hd hdn hx (known_key hw.policy ha ho r _ t i (Nat.le_refl _) hi' hxt (p, j) hold hsp hcr e he)).1

/-! ### Programs -/

variable {y y' : H P}

theorem HStep.vis (h : HStep cfg P y y') : Step cfg y.v y'.v := by
  cases h with
  | graph h ha hr => exact .graph h (fun e => absurd e ha) hr
  | submit h hb hp hd => exact .graph h (fun _ => hb) (fun t e => by cases e)
  | act h hp => exact .act h
  | fin h hp => exact .fin h
  | get h hp hw => exact .get (x := y.v) _ h hw
  | barrier hp h hw => exact .barrier h

theorem HReach.vis (h : HReach cfg P m0 y) : Reach cfg y.v := by
  induction h with
  | init => exact .init
  | step _ hs ih => exact .step ih hs.vis

/-- simple facts about the bodies -/
structure HBase (P : Prog M) (y : H P) : Prop where
  finDone : ∀ t, y.v.fin t = true → P.pt (y.loc (t + 1)) = .done
  endFin : ∀ t, y.v.g.ex t = .ended → y.v.fin t = true
  started : ∀ t, 0 < y.v.cnt (.body (t + 1)) → y.v.g.ex t ≠ .none

/-- how the execution of a body changes -/
theorem exec_ex {s s' : State} {a : Act} (h : exec cfg s a = some s') (t : Nat) :
    (s'.ex t = .none → s.ex t = .none) ∧ (s'.ex t = .ended → s.ex t = .ended ∨ (s.ex t = .running ∧ a = .ret t)) := by
  have hd := does h
  clear h
  revert hd
  generalize sync cfg s a = l
  intro hd
  cases hd <;> simp only [State.decPost, State.decPre, State.decCd, upd] <;> grind

theorem exec_n {s s' : State} {a : Act} (h : exec cfg s a = some s') :
    (a = .submit → s'.n = s.n + 1) ∧ (a ≠ .submit → s'.n = s.n) := by
  have hd := does h
  clear h
  revert hd
  generalize sync cfg s a = l
  intro hd
  cases hd <;> simp [State.decPost, State.decPre, State.decCd]

theorem owner_le {n : Nat} (hu : Up cfg n) {c : Nat} (hc : c < n) : owner cfg c ≤ c := by
  have := up_plus hu (c + 1) _ (by omega) (parent_succ (cfg := cfg) c)
  omega

theorem rank_lt {c c' : Nat} (h : c < c') (he : owner cfg c = owner cfg c') : rank cfg c < rank cfg c' := by
  have := Dyn.count_lt (cfg := cfg) h
  rw [he] at this
  exact this

/-- the tasks that have not been waited for, after a submission -/
def outNew (cfg : Cfg) {B : Type} (n : Nat) (o : Nat → Nat → Option B) (c : B) : Nat → Nat → Option B :=
  upd (upd o (owner cfg n) (upd (o (owner cfg n)) (count cfg n (owner cfg n)) (some c))) (n + 1) (fun _ => none)

theorem out_old {B : Type} {n : Nat} {o : Nat → Nat → Option B} {b : B} {c : Nat} (hc : c < n) (hle : owner cfg c ≤ c) :
    outNew cfg n o b (owner cfg c) (rank cfg c) = o (owner cfg c) (rank cfg c) := by
  unfold outNew
  rw [upd_ne _ _ (by omega)]
  by_cases e : owner cfg c = owner cfg n
  · have hlt := Dyn.count_lt (cfg := cfg) hc
    rw [← e, upd_same, upd_ne _ _ (by omega)]
  · rw [upd_ne _ _ e]

theorem out_new {B : Type} {n : Nat} {o : Nat → Nat → Option B} {b : B} (hle : owner cfg n ≤ n) :
    outNew cfg n o b (owner cfg n) (rank cfg n) = some b := by
  unfold outNew
  rw [upd_ne _ _ (by omega), upd_same]
  exact upd_same _ _ _

/-! ### Names of bodies -/

/-- `name` are the names of the bodies, see `Occ` -/
structure Named (cfg : Cfg) (n : Nat) (name : Nat → List Nat) : Prop where
  main : name 0 = []
  task : ∀ t, t < n → name (t + 1) = name (owner cfg t) ++ [rank cfg t + 1]

theorem Named.inj {n : Nat} {name : Nat → List Nat} (h : Named cfg n name) (hu : Up cfg n) :
    ∀ b a, a ≤ n → b ≤ n → name a = name b → a = b := by
  intro b
  induction b using Nat.strongRecOn with
  | ind b ih =>
    intro a ha hb he
    cases a with
    | zero =>
      cases b with
      | zero => rfl
      | succ b =>
        rw [h.main, h.task b (by omega)] at he
        simp at he
    | succ a =>
      cases b with
      | zero =>
        rw [h.main, h.task a (by omega)] at he
        simp at he
      | succ b =>
        rw [h.task a (by omega), h.task b (by omega)] at he
        obtain ⟨h1, h2⟩ := List.append_inj' he rfl
        have la := owner_le hu (show a < n by omega)
        have lb := owner_le hu (show b < n by omega)
        have h3 := ih _ (by omega) _ (by omega) (by omega) h1
        have h4 : rank cfg a = rank cfg b := by simpa using h2
        apply Classical.byContradiction
        intro hne
        rcases Nat.lt_or_ge a b with hlt | hlt
        · have := rank_lt hlt h3
          omega
        · have := rank_lt (show b < a by omega) h3.symm
          omega

theorem Named.prefix {n : Nat} {name : Nat → List Nat} (h : Named cfg n name) (hu : Up cfg n) :
    ∀ b a, a ≤ n → b ≤ n → name a <+: name b → Descends (plus cfg) b a := by
  intro b
  induction b using Nat.strongRecOn with
  | ind b ih =>
    intro a ha hb hp
    cases b with
    | zero =>
      rw [h.main] at hp
      have h1 := List.prefix_nil.1 hp
      rw [h.inj hu 0 a ha hb (by rw [h1, h.main])]
      exact .refl
    | succ b =>
      have eb := h.task b (by omega)
      rw [eb] at hp
      rcases List.prefix_concat_iff.1 hp with h1 | h1
      · rw [h.inj hu (b + 1) a ha hb (by rw [h1, eb])]
        exact .refl
      · have lb := owner_le hu (show b < n by omega)
        exact .child (parent_succ b) (ih _ (by omega) a ha (by omega) h1)

theorem Named.submit {n : Nat} {name : Nat → List Nat} (h : Named cfg n name) (hu : Up cfg (n + 1)) :
    Named cfg (n + 1) (upd name (n + 1) (name (owner cfg n) ++ [rank cfg n + 1])) := by
  refine ⟨by rw [upd_ne _ _ (by omega)]; exact h.main, fun t ht => ?_⟩
  have := owner_le hu ht
  rw [upd_ne name _ (show owner cfg t ≠ n + 1 by omega)]
  by_cases e : t = n
  · subst e; rw [upd_same]
  · rw [upd_ne _ _ (by omega)]
    exact h.task t (by omega)

/-! ### What the user has to observe

`Cf b b'` says that the next actions of two bodies conflict, e.g. that they access the same location and one of them
writes. -/

/-- If what the bodies of tasks do conflicts, and none of them is an ancestor of the other, then the tasks have declared a
conflict that concerns a resource created outside of both. -/
def DeclaresFor (cfg : Cfg) (P : Prog M) (Cf : P.B → P.B → Prop) : Prop :=
  ∀ t u p q k j b b', Occ P p (some (cfg.user t)) k b → Occ P q (some (cfg.user u)) j b' → ¬ p <+: q → ¬ q <+: p →
    Cf b b' → ∃ r, ConflictAt cfg t u r ∧ Shared cfg t u r

/-- Bodies wait for the tasks that they have submitted before they return, and before they do something that conflicts
with what these tasks, and the tasks that these submit, may do. -/
structure WaitsFor (P : Prog M) (Cf : P.B → P.B → Prop) : Prop where
  act : ∀ k o b, Has P k o b → ∀ f, P.pt b = .act f → ∀ j c, o j = some c → ∀ b', From P c b' → ¬ Cf b b'
  done : ∀ k o b, Has P k o b → P.pt b = .done → ∀ j, o j = none

/-- The assumptions on the program. -/
structure ProperFor (cfg : Cfg) (P : Prog M) (Cf : P.B → P.B → Prop) : Prop where
  wf : cfg.WellFormed
  single : cfg.single = true
  one : OneSpace cfg
  covered : Covered P
  symm : ∀ b b', Cf b b' → Cf b' b
  declares : DeclaresFor cfg P Cf
  waits : WaitsFor P Cf

variable {Cf : P.B → P.B → Prop}

/-! ### The invariant -/

structure HInv (cfg : Cfg) (P : Prog M) (Cf : P.B → P.B → Prop) (y : H P) (o : Nat → Nat → Option P.B) (birth : Nat → P.B)
    (name : Nat → List Nat) : Prop where
  base : HBase P y
  tidy : Tidy cfg P y.v.g y.loc o birth
  named : Named cfg y.v.g.n name
  occ : ∀ i, i ≤ y.v.g.n → Occ P (name i) (usr cfg i) (count cfg y.v.g.n i) (y.loc i)
  occE : ∀ i k, k < y.v.cnt (.body i) → ∃ j, Occ P (name i) (usr cfg i) j (y.log (.body i, k))
  cov : ∀ c q, c < y.v.g.n → cfg.parentOf c = some q → (cfg.user q).isSuperset (cfg.user c) = true
  frm : ∀ t k, k < y.v.cnt (.body (t + 1)) → From P (birth t) (y.log (.body (t + 1), k))
  disc : ∀ i k, k < y.v.cnt (.body i) → ∀ c, c < y.v.g.n → owner cfg c = i → y.v.born c ≤ k →
    ∀ d, d < y.v.g.n → Descends cfg d c → ∀ b f, From P (y.loc (d + 1)) b → P.pt b = .act f →
      ¬ Cf (y.log (.body i, k)) b
  known : ∀ c, c < y.v.g.n → o (owner cfg c) (rank cfg c) = none → ∀ d, d < y.v.g.n → Descends cfg d c →
    ∀ k, k < y.v.cnt (.body (d + 1)) → y.v.k.know (.body (owner cfg c)) (.body (d + 1), k)

/-- the child to which a task below another one belongs -/
theorem via_child {g : State} (hr : Graph.Reach cfg g) {d c : Nat} (hd : d < g.n) (h : Descends cfg d c) (hne : d ≠ c) :
    ∃ c', c' ≤ d ∧ owner cfg c' = c + 1 ∧ Descends cfg d c' :=
  below_child (i := c + 1) hr d hd ⟨hne, h⟩

theorem busy_lt (ha : All cfg x) {i : Nat} (h : Busy x i) : i ≤ x.g.n := by
  cases i with
  | zero => omega
  | succ t =>
    apply Classical.byContradiction
    intro hn
    have h1 := h.1
    rw [ha.dom.ex t (by omega)] at h1
    cases h1

theorem HBase.step (ha : All cfg y.v) (hb : HBase P y) (h : HStep cfg P y y') : HBase P y' := by
  have hfx := ha.base.finEx
  cases h with
  | @graph a s' h hna hr =>
    refine ⟨hb.finDone, fun t he => ?_, fun t hc he => hb.started t hc ((exec_ex h t).1 he)⟩
    rcases (exec_ex h t).2 he with h1 | ⟨-, h1⟩
    · exact hb.endFin t h1
    · exact hr t h1
  | @submit s' d c b h hbu hp hd =>
    refine ⟨fun t hf => ?_, fun t he => ?_, fun t hc he => hb.started t hc ((exec_ex h t).1 he)⟩
    · have h1 : t < y.v.g.n := by
        apply Classical.byContradiction
        intro h'
        exact hfx t hf (ha.dom.ex t (by omega))
      have h2 := hb.finDone t hf
      dsimp only
      rw [upd_ne _ _ (by omega)]
      by_cases e : t + 1 = owner cfg y.v.g.n
      · rw [e, hp] at h2; cases h2
      · rw [upd_ne _ _ e]; exact h2
    · rcases (exec_ex h t).2 he with h1 | ⟨-, h1⟩
      · exact hb.endFin t h1
      · cases h1
  | @act i f h hp =>
    refine ⟨fun t hf => ?_, hb.endFin, fun t hc => ?_⟩
    · have h2 := hb.finDone t hf
      dsimp only
      by_cases e : t + 1 = i
      · rw [e, hp] at h2; cases h2
      · rw [upd_ne _ _ e]; exact h2
    · by_cases e : i = t + 1
      · subst e
        show y.v.g.ex t ≠ .none
        rw [h.1]; simp
      · refine hb.started t ?_
        simp only [V.act] at hc
        rw [if_neg (by simpa using fun e' => e e'.symm)] at hc
        exact hc
  | @fin t h hp =>
    refine ⟨fun u hf => ?_, fun u he => ?_, hb.started⟩
    · by_cases e : u = t
      · subst e; exact hp
      · dsimp only at hf
        rw [upd_ne _ _ e] at hf
        exact hb.finDone u hf
    · by_cases e : u = t
      · subst e; exact upd_same _ _ _
      · dsimp only
        rw [upd_ne _ _ e]
        exact hb.endFin u he
  | @get i w b h hp hw =>
    refine ⟨fun t hf => ?_, hb.endFin, hb.started⟩
    have h2 := hb.finDone t hf
    dsimp only
    by_cases e : t + 1 = i
    · rw [e, hp] at h2; cases h2
    · rw [upd_ne _ _ e]; exact h2
  | @barrier w b sp hp h hw =>
    refine ⟨fun t hf => ?_, hb.endFin, hb.started⟩
    have h2 := hb.finDone t hf
    dsimp only
    rw [upd_ne _ _ (by omega)]; exact h2

theorem from_upd {loc : Nat → P.B} {i : Nat} {b : P.B} (h : From P (loc i) b) {d : Nat} {b' : P.B}
    (hb : From P (upd loc i b d) b') : From P (loc d) b' := by
  by_cases e : d = i
  · subst e
    rw [upd_same] at hb
    exact h.trans hb
  · rw [upd_ne _ _ e] at hb
    exact hb

theorem occ_upd {loc : Nat → P.B} {i : Nat} {b : P.B} {n : Nat} {name : Nat → List Nat}
    (ho : ∀ i, i ≤ n → Occ P (name i) (usr cfg i) (count cfg n i) (loc i))
    (h : i ≤ n → Occ P (name i) (usr cfg i) (count cfg n i) b) :
    ∀ j, j ≤ n → Occ P (name j) (usr cfg j) (count cfg n j) (upd loc i b j) := by
  intro j hj
  by_cases e : j = i
  · subst e; rw [upd_same]; exact h hj
  · rw [upd_ne _ _ e]; exact ho j hj

/-- the tasks of a space in which there are none have ended -/
theorem space_done (ha : All cfg x) {sp t : Nat} (h0 : x.g.tasks sp = 0) (ht : t < x.g.n) (hs : cfg.space t = sp) :
    counts (x.g.mem t) = false ∧ x.g.ex t = .ended := by
  have h1 : counts (x.g.mem t) = false := by
    have h2 := ha.life.tasksEq sp
    apply Bool.eq_false_iff.2
    intro h3
    rw [h0] at h2
    have h4 := le_sumTo (f := wtask cfg x.g.mem sp) ht
    have h5 : wtask cfg x.g.mem sp t = 1 := by simp [wtask, hs, h3]
    omega
  refine ⟨h1, ended_of ha.core (mem_post ha.core ha.life ?_).2⟩
  intro h'
  rw [h'] at h1
  cases h1

/-- waiting for tasks: `S` are the ones that the body knows about -/
theorem HInv.join (hS : WaitsFor P Cf) (ha : All cfg y.v) {o birth name} (hi : HInv cfg P Cf y o birth name) {i w b}
    (hp : P.pt (y.loc i) = .join w b) (hin : i ≤ y.v.g.n) {k : Clk}
    (hw : ∀ t, Waited cfg y.v i w t → y.v.g.ex t ≠ .none ∧ P.pt (y.loc (t + 1)) = .done ∧
      ∀ d, d < y.v.g.n → Descends cfg d t → ∀ j, j < y.v.cnt (.body (d + 1)) → k.know (.body i) (.body (d + 1), j))
    (hk : ∀ a e, y.v.k.know a e → k.know a e) (hb : HBase P { y with v := { y.v with k := k }, loc := upd y.loc i b }) :
    HInv cfg P Cf { y with v := { y.v with k := k }, loc := upd y.loc i b }
      (upd o i fun j => if w j then none else o i j) birth name := by
  have hf : From P (y.loc i) b := .join .refl hp
  refine ⟨hb, hi.tidy.join hp fun t h1 h2 h3 => ⟨(hw t ⟨h1, h2, h3⟩).1, (hw t ⟨h1, h2, h3⟩).2.1⟩, hi.named,
    occ_upd hi.occ fun h => (hi.occ i h).join hp, hi.occE, hi.cov, hi.frm, ?_, ?_⟩
  · intro i' k' hk' c hc ho hb' d hd hdc b' f' hfb
    exact hi.disc i' k' hk' c hc ho hb' d hd hdc b' f' (from_upd hf hfb)
  · intro c hc ho d hd hdc j hj
    dsimp only at hc ho hd hj ⊢
    by_cases e : owner cfg c = i
    · rw [e, upd_same] at ho
      by_cases hwc : w (rank cfg c) = true
      · rw [e]
        exact (hw c ⟨hc, e, hwc⟩).2.2 d hd hdc j hj
      · rw [if_neg hwc, ← e] at ho
        exact hk _ _ (hi.known c hc ho d hd hdc j hj)
    · rw [upd_ne _ _ e] at ho
      exact hk _ _ (hi.known c hc ho d hd hdc j hj)

theorem HInv.step (hP : ProperFor cfg P Cf) (hr : HReach cfg P m0 y) (ha : All cfg y.v) {o birth name}
    (hi : HInv cfg P Cf y o birth name) (h : HStep cfg P y y') : ∃ o' birth' name', HInv cfg P Cf y' o' birth' name' := by
  have hS := hP.waits
  have hb' := hi.base.step ha h
  have hknow : ∀ {a e}, y.v.k.know a e → y'.v.k.know a e := fun hk => h.vis.know hk
  have hgr := hr.vis.g
  have hgr' : Graph.Reach cfg y'.v.g := (HReach.step hr h).vis.g
  have hu := Up.reach hgr
  have hst : ∀ t k, k < y.v.cnt (.body (t + 1)) → t < y.v.g.n := by
    intro t k hk
    apply Classical.byContradiction
    intro h'
    exact hi.base.started t (by omega) (ha.dom.ex t (by omega))
  cases h with
  | @graph a s' h hna hrt =>
    have hn := (exec_n h).2 hna
    have hborn : Act.born cfg y.v a = y.v.born := by cases a <;> first | rfl | exact absurd rfl hna
    refine ⟨o, birth, name, hb', hi.tidy.rt hn fun c => (exec_ex h c).1, ?_, ?_, hi.occE, ?_, hi.frm, ?_, ?_⟩
    · dsimp only; rw [hn]; exact hi.named
    · dsimp only; rw [hn]; exact hi.occ
    · dsimp only; rw [hn]; exact hi.cov
    · dsimp only; rw [hn, hborn]; exact hi.disc
    · dsimp only at hknow ⊢; rw [hn]
      exact fun c hc ho d hd hdc j hj => hknow (hi.known c hc ho d hd hdc j hj)
  | @submit s' d c b h hbu hp hd =>
    have hn := (exec_n h).1 rfl
    have hu' := Up.reach hgr'
    dsimp only at hu'
    rw [hn] at hu'
    have hle : owner cfg y.v.g.n ≤ y.v.g.n := owner_le hu' (by omega)
    refine ⟨outNew cfg y.v.g.n o c, upd birth y.v.g.n c,
      upd name (y.v.g.n + 1) (name (owner cfg y.v.g.n) ++ [rank cfg y.v.g.n + 1]), hb',
      hi.tidy.submit hgr' hn (fun c => (exec_ex h c).1) hp, ?_, ?_, ?_, ?_, ?_, ?_, ?_⟩
    · dsimp only; rw [hn]; exact hi.named.submit hu'
    · dsimp only; rw [hn]
      intro i hin
      rw [Dyn.count_succ]
      by_cases e : i = y.v.g.n + 1
      · subst e
        rw [upd_same, upd_same, if_neg (by omega)]
        have : count cfg y.v.g.n (y.v.g.n + 1) = 0 := by
          unfold count
          rw [List.length_eq_zero_iff, List.filter_eq_nil_iff]
          intro c' hc' h
          have h1 := List.mem_range.1 hc'
          have := owner_le hu h1
          have h := of_decide_eq_true h
          omega
        rw [this]
        have := (hi.occ _ hle).child hp
        simp only [usr]
        rw [hd]
        exact this
      · rw [upd_ne _ _ e, upd_ne _ _ e]
        by_cases e' : i = owner cfg y.v.g.n
        · subst e'
          rw [upd_same, if_pos rfl]
          exact (hi.occ _ hle).next hp
        · rw [upd_ne _ _ e', if_neg (fun h => e' h.symm)]
          exact hi.occ i (by omega)
    · intro i k hk
      dsimp only at hk ⊢
      have : i ≠ y.v.g.n + 1 := by
        rintro rfl
        have := hst _ _ hk
        omega
      rw [upd_ne _ _ this]
      exact hi.occE i k hk
    · intro c' q hcn hq
      dsimp only at hcn
      rw [hn] at hcn
      by_cases e : c' = y.v.g.n
      · subst e
        have ho : owner cfg y.v.g.n = q + 1 := by rw [owner, hq]
        have h1 := hi.occ _ hle
        rw [ho] at h1 hp
        rw [hd]
        exact hP.covered _ _ _ _ _ _ _ h1 hp
      · exact hi.cov c' q (by omega) hq
    · intro t k hk
      dsimp only at hk ⊢
      rw [upd_ne _ _ (by have := hst _ _ hk; omega)]
      exact hi.frm t k hk
    · intro i k hk c' hc' ho hbo d' hd' hdc b' f' hfb hpb
      dsimp only at hk hc' hbo hd' hfb ⊢
      rw [hn] at hc' hd'
      by_cases e : c' = y.v.g.n
      · subst e ho
        simp only [Act.born] at hbo
        rw [upd_same] at hbo
        omega
      · simp only [Act.born] at hbo
        rw [upd_ne _ _ e] at hbo
        by_cases ed : d' = y.v.g.n
        · subst ed
          rw [upd_same] at hfb
          cases hdc with
          | refl => exact absurd rfl e
          | @child _ q _ h3 h4 =>
            have hq := hu' _ _ hd' h3
            have hoq : owner cfg y.v.g.n = q + 1 := by rw [owner, h3]
            refine hi.disc i k hk c' (by omega) ho hbo q (by omega) h4 b' f' (.trans ?_ hfb) hpb
            rw [hoq] at hp
            exact .child .refl hp
        · rw [upd_ne _ _ (by omega)] at hfb
          exact hi.disc i k hk c' (by omega) ho hbo d' (by omega) hdc b' f' (from_upd (.next .refl hp) hfb) hpb
    · intro c' hc' ho d' hd' hdc k hk
      dsimp only at hc' hd' hk hknow ⊢
      rw [hn] at hc' hd'
      by_cases e : c' = y.v.g.n
      · subst e
        rw [out_new hle] at ho
        cases ho
      · rw [out_old (by omega) (owner_le hu (by omega))] at ho
        have hdn := hst _ _ hk
        exact hknow (hi.known c' (by omega) ho d' hdn hdc k hk)
  | @act i f h hp =>
    have hin := busy_lt ha h
    have hf : From P (y.loc i) (f y.m).1 := .act .refl hp
    refine ⟨o, birth, name, hb', hi.tidy.act hp y.m, hi.named, occ_upd hi.occ fun h => (hi.occ i h).act hp, ?_, hi.cov,
      ?_, ?_, ?_⟩
    · intro j k hk
      dsimp only
      split
      · rename_i e
        simp only [Prod.mk.injEq, Agent.body.injEq] at e
        rw [e.1]
        exact ⟨_, hi.occ i hin⟩
      · rename_i e
        refine hi.occE j k ?_
        simp only [V.act] at hk
        grind
    · intro t k hk
      dsimp only
      split
      · rename_i e
        simp only [Prod.mk.injEq, Agent.body.injEq] at e
        obtain ⟨rfl, -⟩ := e
        exact hi.tidy.frm t (by omega)
      · rename_i e
        refine hi.frm t k ?_
        simp only [V.act] at hk
        grind
    · intro j k hk c hc ho hbo d hd hdc b' f' hfb hpb
      replace hfb := from_upd hf hfb
      dsimp only
      split
      · rename_i e
        simp only [Prod.mk.injEq, Agent.body.injEq] at e
        have ho' := ho
        rw [e.1] at ho
        subst ho
        cases hoc : o (owner cfg c) (rank cfg c) with
        | none =>
          have hdone := hi.tidy.over hS.done hgr hdc hd (hi.tidy.kids c hc hoc).2
          rw [hfb.of_done hdone, hdone] at hpb
          cases hpb
        | some b0 =>
          have hb0 := hi.tidy.out c hc b0 hoc
          subst hb0
          exact hS.act _ _ _ (hi.tidy.has _ hin) f hp _ _ hoc b' ((hi.tidy.from hgr hdc hd).trans hfb)
      · rename_i e
        refine hi.disc j k ?_ c hc ho hbo d hd hdc b' f' hfb hpb
        simp only [V.act] at hk
        grind
    · intro c hc ho d hd hdc k hk
      refine hknow (hi.known c hc ho d hd hdc k ?_)
      have e : d + 1 ≠ i := by
        intro e
        have hdone := hi.tidy.over hS.done hgr hdc hd (hi.tidy.kids c hc ho).2
        rw [e, hp] at hdone
        cases hdone
      simp only [V.act] at hk
      rw [if_neg (by simpa using e)] at hk
      exact hk
  | @fin t h hp =>
    exact ⟨o, birth, name, hb', hi.tidy, hi.named, hi.occ, hi.occE, hi.cov, hi.frm, hi.disc,
      fun c hc ho d hd hdc k hk => hknow (hi.known c hc ho d hd hdc k hk)⟩
  | @get i w b h hp hw =>
    refine ⟨_, birth, name, hi.join hS ha hp (busy_lt ha h) ?_ (fun a e hk => .inl hk) hb'⟩
    intro t ht
    have h1 := hw t ht
    have h2 := hi.base.finDone t h1
    refine ⟨ha.base.finEx t h1, h2, fun d hd hdt j hj => .inr ⟨rfl, t, ht, ha.base.fins t h1 _ ?_⟩⟩
    by_cases e : d = t
    · subst e; exact ha.base.own _ _ hj
    · obtain ⟨c, h3, h4, h5⟩ := via_child hgr hd hdt e
      have := hS.done _ _ _ (hi.tidy.has (t + 1) ht.1) h2 (rank cfg c)
      rw [← h4] at this ⊢
      exact hi.known c (by omega) this d hd h5 j hj
  | @barrier w b sp hp h hw =>
    refine ⟨_, birth, name, hi.join hS ha hp (by omega) ?_ (fun a e hk => .inl hk) hb'⟩
    intro t ht
    have h1 := space_done ha h ht.1 (hw t ht)
    refine ⟨by rw [h1.2]; simp, hi.base.finDone t (hi.base.endFin t h1.2), fun d hd hdt j hj => .inr ⟨rfl, ?_⟩⟩
    have := ha.pay.countI t h1.1 (.body (d + 1), j) ⟨d, hd, hdt, .inl (ha.base.own _ _ hj)⟩
    rw [hw t ht] at this
    exact this

theorem HInv.init : HInv cfg P Cf (hinit P m0) (fun _ _ => none) (fun _ => P.main) (fun _ => []) where
  base := { finDone := fun t h => (nomatch h), endFin := fun t h => (nomatch h)
            started := fun t h => absurd h (Nat.lt_irrefl _) }
  tidy := Tidy.init
  named := ⟨rfl, fun t h => absurd h (Nat.not_lt_zero _)⟩
  occ i hi := by
    have : i = 0 := Nat.le_zero.1 hi
    subst this
    exact .main
  occE i k h := absurd h (Nat.not_lt_zero _)
  cov c q h := absurd h (Nat.not_lt_zero _)
  frm t k h := absurd h (Nat.not_lt_zero _)
  disc i k h := absurd h (Nat.not_lt_zero _)
  known c h := absurd h (Nat.not_lt_zero _)

theorem HInv.reach (hP : ProperFor cfg P Cf) (ht : NestingOk cfg) (h : HReach cfg P m0 y) :
    ∃ o birth name, HInv cfg P Cf y o birth name := by
  induction h with
  | init => exact ⟨_, _, _, HInv.init⟩
  | step hr hs ih =>
    obtain ⟨o, birth, name, ih⟩ := ih
    exact ih.step hP hr (all_reach ht hr.vis).1 hs

/-! ### Conflicting actions are ordered -/

/-- tasks that do something that conflicts belong to siblings that conflict -/
theorem HInv.left (hP : ProperFor cfg P Cf) {o birth name} (hi : HInv cfg P Cf y o birth name)
    (hgr : Graph.Reach cfg y.v.g) {t u : Nat} (htn : t < y.v.g.n) (hun : u < y.v.g.n) (hl : Left cfg t u) {k j : Nat}
    {b b' : P.B} (ho : Occ P (name (t + 1)) (some (cfg.user t)) k b)
    (ho' : Occ P (name (u + 1)) (some (cfg.user u)) j b') (hc : Cf b b') :
    ∃ p q, p < q ∧ cfg.parentOf p = cfg.parentOf q ∧ Descends cfg t p ∧ Descends cfg u q ∧
      (cfg.user p).isSerial (cfg.user q) = true := by
  have hu := Up.reach hgr
  have hnd : ¬ Descends cfg t u ∧ ¬ Descends cfg u t := by
    obtain ⟨a, b, h1, h2, h3, h4⟩ := hl
    exact ⟨fun h5 => apart hu h3 (h5.trans' h4) htn (by omega) h2,
      fun h5 => apart hu (h5.trans' h3) h4 hun (by omega) h2⟩
  obtain ⟨r, h1, h2⟩ := hP.declares t u _ _ k j b b' ho ho'
    (fun hp => hnd.2 (desc_plus.1 (hi.named.prefix hu _ _ (by omega) (by omega) hp)))
    (fun hp => hnd.1 (desc_plus.1 (hi.named.prefix hu _ _ (by omega) (by omega) hp))) hc
  exact hl.conflict hu hi.cov htn hun h1 h2

theorem HInv.ordered (hP : ProperFor cfg P Cf) (ht : NestingOk cfg) (hr : HReach cfg P m0 y) {o birth name}
    (hi : HInv cfg P Cf y o birth name) {i j k : Nat} {f : M → P.B × M} (hb : Busy y.v i) (hp : P.pt (y.loc i) = .act f)
    (hk : k < y.v.cnt (.body j)) (hc : Cf (y.log (.body j, k)) (y.loc i)) : y.v.k.know (.body i) (.body j, k) := by
  obtain ⟨ha, hko⟩ := all_reach ht hr.vis
  have hgr := hr.vis.g
  have hu := Up.reach hgr
  have hup := up_plus hu
  have hin := busy_lt ha hb
  have hjn : j ≤ y.v.g.n := by
    cases j with
    | zero => omega
    | succ t =>
      apply Classical.byContradiction
      intro h'
      exact hi.base.started t (by omega) (ha.dom.ex t (by omega))
  by_cases hij : i = j
  · subst hij; exact ha.base.own _ _ hk
  have below : ∀ d i, d + 1 ≠ i → Descends (plus cfg) (d + 1) i → d < y.v.g.n →
      ∃ c, c ≤ d ∧ owner cfg c = i ∧ Descends cfg d c := by
    intro d i hne hd hdn
    refine below_child hgr d hdn ?_
    cases i with
    | zero => trivial
    | succ t => exact ⟨by omega, desc_plus.1 hd⟩
  rcases related hup (show i < y.v.g.n + 1 by omega) j (by omega) with h | h | h | h
  · -- `j` is below `i`
    cases j with
    | zero => exact absurd (desc_zero h) hij
    | succ d =>
      obtain ⟨c, h1, h2, h3⟩ := below d i (by omega) h (by omega)
      subst h2
      cases hoc : o (owner cfg c) (rank cfg c) with
      | none => exact hi.known c (by omega) hoc d (by omega) h3 k hk
      | some b0 =>
        exfalso
        have hb0 := hi.tidy.out c (by omega) b0 hoc
        subst hb0
        refine hP.waits.act _ _ _ (hi.tidy.has _ hin) f hp _ _ hoc (y.log (.body (d + 1), k)) (.trans ?_ (hi.frm d k hk))
          (hP.symm _ _ hc)
        have : ∀ d c, Descends cfg d c → d < y.v.g.n → From P (birth c) (birth d) := by
          intro d c hd
          induction hd with
          | refl => exact fun _ => .refl
          | @child d q _ hpq _ ih =>
            intro hdn
            have hq := hu d q hdn hpq
            exact (ih (by omega)).trans (hi.tidy.up d hdn q (by rw [owner, hpq]))
        exact this d c h3 (by omega)
  · -- `i` is below `j`
    cases i with
    | zero => exact absurd (desc_zero h).symm hij
    | succ d =>
      obtain ⟨c, h1, h2, h3⟩ := below d j (by omega) h (by omega)
      subst h2
      by_cases hbo : y.v.born c ≤ k
      · exact absurd hc (hi.disc _ k hk c (by omega) rfl hbo d (by omega) h3 _ f .refl hp)
      · have hx : y.v.g.ex d ≠ .none := by rw [hb.1]; simp
        have up : ∀ d c, Descends cfg d c → y.v.g.ex d ≠ .none → y.v.g.ex c ≠ .none := by
          intro d c h
          induction h with
          | refl => exact fun h => h
          | @child c q p hq _ ih =>
            intro hx
            exact ih (ha.dom.par c q (lt_of_started ht hgr hx) hq).2
        have hxc := up d c h3 hx
        have h4 := ha.base.bornI c k (by omega) (by omega)
        have h5 := (ha.core.exI c hxc).1
        exact (pre_down ha h3 (by omega) hx (ha.base.initedI c h5 _ (ha.base.begunI c (by rw [h5]; rfl) _ h4))).1
  · -- `j` is before `i`
    obtain ⟨t, u, rfl, rfl, hl⟩ := left_plus h
    have hx : y.v.g.ex u ≠ .none := by rw [hb.1]; simp
    obtain ⟨p, q, h1, h2, h3, h4, h5⟩ := hi.left hP hgr (by omega) (by omega) hl (hi.occE _ _ hk).choose_spec (hi.occ _ hin) hc
    exact conflict_known hP.wf ht hP.single hr.vis h1 (hP.one _ _ h2) h5 h4 hx
      ⟨t, by omega, h3, .inl (ha.base.own _ _ hk)⟩
  · -- `i` is before `j`
    obtain ⟨u, t, rfl, rfl, hl⟩ := left_plus h
    exfalso
    obtain ⟨p, q, h1, h2, h3, h4, h5⟩ := hi.left hP hgr (by omega) (by omega) hl (hi.occ _ hin) (hi.occE _ _ hk).choose_spec
      (hP.symm _ _ hc)
    have := C12_descendants_partial hP.wf ht hP.single hgr h1 (hP.one _ _ h2) h5 h3 h4 (by omega)
      (hi.base.started t (by omega))
    cases this with
    | mk h _ _ => rw [hb.1] at h; cases h

end RG.Vis
