import Verif.Lemmas.VisibleLift
import Verif.Lemmas.VisibleExec
import Verif.Props.DynamicFull
/-
C85: what redGrapes orders happens before in the sense of C++, so that programs have no data races.
-/
set_option linter.unusedVariables false
namespace RG.Vis
open RG.Graph
open RG.Dyn (owner rank Prog Occ Has From Covered usr Code code Place Use Apart Uses Conf PReach FConf FReach TableOk users
  dynAcc dynCode dynCfg dynTag aPlace bPlace)
open RG.Bodies (Sound)

variable {cfg : Cfg} {x : V} {M : Type} {P : Prog M} {m0 : M} {y : H P} {Cf : P.B → P.B → Prop} {N : Nat}

/-! ### What the synchronization of redGrapes orders -/

/-- `e` is an action of the body of task `p`, of one of its descendants, or on behalf of an event that one of them has created
(`create_event`). -/
def Did (cfg : Cfg) (x : V) (p : Nat) (e : Ev) : Prop :=
  ∃ c, c < x.g.n ∧ Descends cfg c p ∧
    ((∃ k, k < x.cnt (.body (c + 1)) ∧ e = (.body (c + 1), k)) ∨
      ∃ j k, j < x.g.nExt ∧ x.g.owner j = c ∧ k < x.cnt (.ext j) ∧ e = (.ext j, k))

theorem Did.pay (ha : All cfg x) {p : Nat} {e : Ev} (h : Did cfg x p e) : pay cfg x p e := by
  obtain ⟨c, h1, h2, ⟨k, h3, rfl⟩ | ⟨j, k, h3, h4, h5, rfl⟩⟩ := h
  · exact ⟨c, h1, h2, .inl (ha.base.own _ _ h3)⟩
  · exact ⟨c, h1, h2, .inr ⟨j, h3, h4, ha.base.own _ _ h5⟩⟩

/-- C85: While a task, or a task below it, is executed, everything that was done for an earlier task of the same space with which it conflicts
happens before what it does; this includes the descendants of that task and its events.
Partial: nested programs are restricted by `NestingOk`, see `C85_no_data_race` for programs. -/
theorem C85_conflict_partial (hw : cfg.WellFormed) (ht : NestingOk cfg) (hs : cfg.single = true) (hr : Reach cfg x)
    {p t d : Nat} (hlt : p < t) (hsp : cfg.space p = cfg.space t) (hc : (cfg.user p).isSerial (cfg.user t) = true)
    (hd : Descends cfg d t) (hx : Started x.g d) {e : Ev} (he : Did cfg x p e) : x.k.know (.body (d + 1)) e :=
  conflict_known hw ht hs hr hlt hsp hc hd hx (he.pay (all_reach ht hr).1)

/-- C85: What a body did before it submitted a task happens before what this task, and the tasks below it, do. -/
theorem C85_submit_partial (ht : NestingOk cfg) (hr : Reach cfg x) {t d k : Nat} (hd : Descends cfg d t) (hx : Started x.g d)
    (hk : k < x.born t) : x.k.know (.body (d + 1)) (.body (owner cfg t), k) := by
  have ha := (all_reach ht hr).1
  have up : ∀ d t, Descends cfg d t → Started x.g d → Started x.g t ∧ t < x.g.n := by
    intro d t h
    induction h with
    | refl => exact fun h => ⟨h, Bodies.lt_of_started ht hr.g h⟩
    | @child c q p hq _ ih => exact fun hx => ih (ha.dom.par c q (Bodies.lt_of_started ht hr.g hx) hq).2
  obtain ⟨hxt, htn⟩ := up d t hd hx
  have h5 := (ha.core.exI t hxt).1
  exact (pre_down ha hd (Bodies.lt_of_started ht hr.g hx) hx
    (ha.base.initedI t h5 _ (ha.base.begunI t (by rw [h5]; rfl) _ (ha.base.bornI t k htn hk)))).1

/-- C85: What the body of a task did happens before everything that follows after `get()` of its future. -/
theorem C85_get_partial (ht : NestingOk cfg) (hr : Reach cfg x) {i t k : Nat} {w : Nat → Prop} {x' : V}
    (hx : x' = { x with k := { x.k with
      know := fun b e => x.k.know b e ∨ (b = .body i ∧ ∃ t, w t ∧ x.k.loc (.result t) e) } }) (hw : w t)
    (hf : x.fin t = true) (hk : k < x.cnt (.body (t + 1))) : x'.k.know (.body i) (.body (t + 1), k) := by
  subst hx
  have ha := (all_reach ht hr).1
  exact .inr ⟨rfl, t, hw, ha.base.fins t hf _ (ha.base.own _ _ hk)⟩

/-- C85: When `barrier()` finds that there are no tasks in the space, everything that was done for the tasks of the space, for the tasks
below them and for their events happens before what follows. -/
theorem C85_barrier_partial (ht : NestingOk cfg) (hr : Reach cfg x) {sp t : Nat} (h0 : x.g.tasks sp = 0) (hn : t < x.g.n)
    (hsp : cfg.space t = sp) {e : Ev} (he : Did cfg x t e) : (x.k.op (.acq (.body 0) (.count sp))).know (.body 0) e := by
  have ha := (all_reach ht hr).1
  subst hsp
  exact .inr ⟨rfl, ha.pay.countI t (space_done ha h0 hn rfl).1 e (he.pay ha)⟩

/-- C85: When a task is freed, everything that was done for it, for the tasks below it and for their events happens before: its memory is
not used any more. -/
theorem C85_free_partial (ht : NestingOk cfg) (hr : Reach cfg x) {t : Nat} (hm : x.g.mem t ≠ .alive) {e : Ev}
    (he : Did cfg x t e) : x.k.know (.free t) e := by
  have ha := (all_reach ht hr).1
  exact ha.pay.freeI t hm e (he.pay ha)

/-! ### Programs have no data races -/

/-- C85: If conflicting actions are declared and bodies wait for the tasks that they have submitted before they do something that
conflicts with them (`ProperFor`), then all conflicting actions are ordered by the happens-before relation of C++: when
body `i` is about to do something that conflicts with the `k`-th action of body `j`, then that action happens before. -/
theorem C85_no_data_race (hP : ProperFor cfg P Cf) (hr : HReach cfg P m0 y) {i j k : Nat} {f : M → P.B × M} (hb : Busy y.v i)
    (hp : P.pt (y.loc i) = .act f) (hk : k < y.v.cnt (.body j)) (hc : Cf (y.log (.body j, k)) (y.loc i)) :
    y.v.k.know (.body i) (.body j, k) :=
  ordered hP hr hb hp hk hc

/-- C85: nothing is lost by looking at these executions: every execution of the program on a machine that implements the
task graph is one of them. -/
theorem C85_every_execution {R : Bodies.Runtime} (hP : ProperFor cfg P Cf) (hR : Sound cfg R) {careful : Bool} {x : Dyn.St R P}
    (h : Dyn.Reach cfg R P careful m0 x) :
    ∃ y, HReach cfg P m0 y ∧ y.v.g = R.g x.s ∧ y.m = x.m ∧ y.loc = x.loc := by
  obtain ⟨y, h1, h2, h3, h4, -⟩ := lift hP (h.graph hR)
  exact ⟨y, h1.of_strict, h2, h3, h4⟩

/-! ### The small programming language -/

variable {ι : Type} {tbl : ι → User} {c : Code ι}

/-- how a body uses which location next -/
def use : Code ι → Option (Use × Place)
  | .get x _ => some (.reads, x)
  | .put x _ _ => some (.writes, x)
  | .add x _ _ => some (.adds, x)
  | _ => none

/-- Two bodies are about to use the same location, and not both of them only read it or only add to it atomically. -/
def Races (b b' : Code ι) : Prop := ∃ a a' x, use b = some (a, x) ∧ use b' = some (a', x) ∧ (a = a' → a = .writes)

theorem Races.symm {b b' : Code ι} (h : Races b b') : Races b' b := by
  obtain ⟨a, a', x, h1, h2, h3⟩ := h
  exact ⟨a', a, x, h2, h1, fun e => e ▸ h3 e.symm⟩

theorem only_use {ok : Use → Place → Prop} {b : Code ι} (h : b.Only ok) {a : Use} {x : Place} (hu : use b = some (a, x)) :
    ok a x := by
  cases b <;> cases hu <;> exact h.1

theorem fits_use {b : Code ι} {p : List Nat} {d : ι} {k : Nat} (h : b.Fits tbl p (some d) k) {a : Use} {x : Place}
    (hu : use b = some (a, x)) : ∃ o, Uses (tbl d) p o x ∧ (o = .write ∨ (a = .reads ∧ o = .read) ∨ (a = .adds ∧ o = .aadd)) := by
  cases b <;> cases hu
  · rcases h.1 d rfl with h | h
    · exact ⟨_, h, .inr (.inl ⟨rfl, rfl⟩)⟩
    · exact ⟨_, h, .inl rfl⟩
  · exact ⟨_, h.1 d rfl, .inl rfl⟩
  · rcases h.1 d rfl with h | h
    · exact ⟨_, h, .inr (.inr ⟨rfl, rfl⟩)⟩
    · exact ⟨_, h, .inl rfl⟩

theorem fits_put {b : Code ι} {p : List Nat} {d : ι} {k : Nat} (h : b.Fits tbl p (some d) k) {x : Place}
    (hu : use b = some (.writes, x)) : Uses (tbl d) p .write x := by
  cases b <;> cases hu
  exact h.1 d rfl

/-- tasks that race conflict -/
theorem races_serial {b b' : Code ι} {p q : List Nat} {d d' : ι} {k j : Nat} (h : b.Fits tbl p (some d) k)
    (h' : b'.Fits tbl q (some d') j) (hty : ∀ a ∈ (tbl d).access, ∀ b ∈ (tbl d').access, a.res = b.res → a.ty = b.ty)
    (hpq : ¬ p <+: q) (hqp : ¬ q <+: p) (hr : Races b b') : (tbl d).isSerial (tbl d') = true := by
  apply Classical.byContradiction
  intro hs
  have hc := @Dyn.compatible _ _ p q hty (Bool.eq_false_iff.2 hs) hpq hqp
  obtain ⟨a, a', x, h1, h2, h3⟩ := hr
  obtain ⟨o, h4, h5⟩ := fits_use h h1
  obtain ⟨o', h6, h7⟩ := fits_use h' h2
  have h8 := hc h4 h6
  have h9 : a = a' := by
    rcases h5 with rfl | ⟨rfl, rfl⟩ | ⟨rfl, rfl⟩
    · exact absurd rfl h8.2
    · rcases h7 with rfl | ⟨rfl, rfl⟩ | ⟨rfl, rfl⟩
      · cases h8.1
      · rfl
      · cases h8.1
    · rcases h7 with rfl | ⟨rfl, rfl⟩ | ⟨rfl, rfl⟩
      · cases h8.1
      · cases h8.1
      · rfl
  have h10 := h3 h9
  subst h10
  exact (hc (fits_put h h1) h6).2 rfl

theorem code_properFor (hf : c.Fits tbl [] none 0) (hj : c.Waits) (hw : cfg.WellFormed) (hs : cfg.single = true)
    (ho : OneSpace cfg) (hroot : ∀ t, ∀ ra ∈ (cfg.user t).access, ra.res.scope = 0) :
    ProperFor cfg (code tbl c) Races where
  wf := hw
  single := hs
  one := ho
  covered := (Dyn.code_proper hf hw hs ho hroot).covered
  symm b b' := Races.symm
  declares t u p q k j b b' h1 h2 h3 h4 h5 := by
    obtain ⟨a, e, hb⟩ := Dyn.occ_fits hf h1
    obtain ⟨a', e', hb'⟩ := Dyn.occ_fits hf h2
    cases a with
    | none => cases e
    | some a =>
      cases a' with
      | none => cases e'
      | some a' =>
        simp only [Option.map_some, Option.some.injEq] at e e'
        have := races_serial hb hb' (by rw [← e, ← e']; exact fun a ha b hb => hw.policy t u a b ha hb) h3 h4 h5
        rw [← e, ← e'] at this
        obtain ⟨ty, r, x, y, h8, h9, h10⟩ := (C07_conflict_iff _ _).1 this
        exact ⟨r, ⟨ty, x, y, h8, h9, h10⟩, shared_of_root (hroot t _ h8)⟩
  waits :=
    { act := fun k o b ho f hf j d hd b' hb hr => by
        have hj := Dyn.has_joined hj ho
        obtain ⟨a, a', x, h1, h2, h3⟩ := hr
        have key : Apart a x a' x := by
          cases b <;> cases h1 <;> exact only_use (Dyn.from_only hb (hj.1 j d hd)) h2
        rcases key with h | ⟨h, h'⟩
        · exact h rfl
        · exact h' (h3 h)
      done := (Dyn.code_structured hj).done }

/-- C85: Programs in which every task does only what it has declared (`Fits`), and bodies wait for the tasks that they have
submitted before they use their data and before they return (`Waits`), have no data races: if a body is about to use a
location, then all previous uses of the location by others happen before, except that reads are not ordered among each other, and neither
are atomic additions. -/
theorem C85_checked_programs (hf : c.Fits tbl [] none 0) (hj : c.Waits) (hw : cfg.WellFormed) (hs : cfg.single = true)
    (ho : OneSpace cfg) (hroot : ∀ t, ∀ ra ∈ (cfg.user t).access, ra.res.scope = 0) {m0 : Dyn.Mem} {y : H (code tbl c)}
    (hr : HReach cfg (code tbl c) m0 y) {i j k : Nat} (hb : Busy y.v i) (hk : k < y.v.cnt (.body j))
    (hc : Races (y.log (.body j, k)) (y.loc i)) : y.v.k.know (.body i) (.body j, k) := by
  have hp : ∃ f, (code tbl c).pt (y.loc i) = .act f := by
    obtain ⟨a, a', x, -, h2, -⟩ := hc
    revert h2
    generalize y.loc i = b
    intro h2
    cases b <;> cases h2 <;> exact ⟨_, rfl⟩
  obtain ⟨f, hp⟩ := hp
  exact C85_no_data_race (code_properFor hf hj hw hs ho hroot) hr hb hp hk hc

/-- the state of an execution on workers belongs to an execution with happens-before, in which nothing races -/
def Ordered (cfg : Cfg) (tbl : ι → User) (c : Code ι) (m0 : Dyn.Mem) (g : State) (m : Dyn.Mem) (loc : Nat → Code ι) : Prop :=
  ∃ y : H (code tbl c), HReach cfg (code tbl c) m0 y ∧ y.v.g = g ∧ y.m = m ∧ y.loc = loc ∧
    ∀ i j k, Busy y.v i → k < y.v.cnt (.body j) → Races (y.log (.body j, k)) (loc i) → y.v.k.know (.body i) (.body j, k)

/-- C85: likewise for whole programs on any number of workers; nothing is assumed about the execution. -/
theorem C85_workers (ht : TableOk tbl) (hf : c.Fits tbl [] none 0) (hj : c.Waits) {m0 : Dyn.Mem} {x : Conf (code tbl c)}
    (hr : PReach N (code tbl c) m0 x) : Ordered x.cfg tbl c m0 x.s.x.g x.m x.loc := by
  have hD := Dyn.code_disciplined ht hf hj
  have hp := hD.proper Dyn.natOp_comm hr.recorded
  have hroot : ∀ t, ∀ ra ∈ (x.cfg.user t).access, ra.res.scope = 0 := by
    intro t ra hra
    rcases hr.recorded.user t with h1 | h1
    · exact absurd (show ra ∈ Dyn.noUser.access from h1 ▸ hra) List.not_mem_nil
    · exact hD.root _ h1 ra hra
  have hP := code_properFor hf hj hp.wf hp.single hp.one hroot
  obtain ⟨y, h1, h2, h3, h4⟩ := C85_every_execution hP Dyn.workers_sound (hr.wreach.reach hD.structured)
  refine ⟨y, h1, h2, h3, h4, fun i j k hb hk hc => ?_⟩
  rw [show x.loc = y.loc from h4.symm] at hc
  exact C85_checked_programs hf hj hp.wf hp.single hp.one hroot h1 hb hk hc

/-- C85: with `barrier()`, `finalize()` and the individual steps of pausing, see C84. -/
theorem C85_whole_programs (ht : TableOk tbl) (hf : c.Fits tbl [] none 0) (hj : c.Waits) {m0 : Dyn.Mem} {a : Bool}
    {x : FConf (code tbl c)} (hr : FReach N a (code tbl c) m0 x) (hn : x.n < 2 ^ 32) :
    Ordered x.cfg tbl c m0 x.s.p.y.x.g x.m x.loc :=
  C85_workers ht hf hj (Dyn.C84_refines hr hn)

/-- C85: programs that access the data through guards and are accepted by the compiler, see C83: what a task has to declare is
derived from its arguments. -/
theorem C85_guards [Dyn.EvalOrder] {kind : Res → Option Nat} {main : Dyn.GCode} {env : List Dyn.AGuard}
    (ht : main.Typed false (env.map Dyn.AGuard.ty) 0) (hg : ∀ g ∈ env, g.Good kind)
    (hj : main.Joins (env.map Dyn.AGuard.ty) 0 fun _ => none) {m0 : Dyn.Mem} {a : Bool}
    {x : FConf (Dyn.program kind main env)} (hr : FReach N a (Dyn.program kind main env) m0 x) (hn : x.n < 2 ^ 32) :
    Ordered x.cfg (Dyn.argsUser kind) (main.steps kind [] 0 env) m0 x.s.p.y.x.g x.m x.loc := by
  have hs : Dyn.Scope kind (env.map Dyn.AGuard.ty) env := ⟨rfl, hg⟩
  exact C85_whole_programs Dyn.args_ok (Dyn.typed_fits (d := none) main ht hs fun a h => by cases h)
    (Dyn.typed_joined main (p := []) ht hs hj fun j d h => by cases h) hr hn

/-! ### Examples -/

deriving instance DecidableEq for Dyn.Use

theorem races_of {b b' : Code} {a a' : Use} {x : Place} (h : use b = some (a, x)) (h' : use b' = some (a', x)) (hn : a ≠ a') :
    Races b b' := ⟨a, a', x, h, h', fun e => absurd e hn⟩

/-- the program of C77: the first task has written A, and the second one is about to read it. The tasks 1 and 3 may overlap in their
execution. -/
def visActs2 : List LAct :=
  gs (doSubmit 0 ++ doSubmit 1 ++ doSubmit 2 ++ doInit 0 ++ doInit 1 ++ doInit 2 ++ [.start 0]) ++ [.act 1, .fin 0] ++
  gs ([.ret 0] ++ doFlush 0 ++ [.start 1])

def vis2 : LH := lrun (dynCfg 3 dynTag false) dynTag (lstart dynCode) visActs2

theorem vis2_reach : HReach (dynCfg 3 dynTag false) (code (users dynAcc) dynCode) (fun _ => 0)
    (vis2.toH (users dynAcc) dynCode) := lrun_reach (cfg := dynCfg 3 dynTag false) (tbl := users dynAcc) (c := dynCode) (tag := dynTag) (fun _ => rfl) visActs2

set_option maxRecDepth 100000 in
theorem vis2_facts : busy vis2 2 = true ∧ vis2.cnt (.body 1) = 1 ∧
    use (vis2.log (.body 1, 0)) = some (.writes, aPlace) ∧ use (vis2.loc 2) = some (.reads, aPlace) :=
  ⟨by decide +kernel, by decide +kernel, by decide +kernel, by decide +kernel⟩

attribute [irreducible] vis2

/-- the hypotheses of `C85_no_data_race` and `C85_checked_programs` -/
example : dynCode.Fits (users dynAcc) [] none 0 ∧ dynCode.Waits ∧
    ProperFor (dynCfg 3 dynTag false) (code (users dynAcc) dynCode) Races ∧
    ∃ y : H (code (users dynAcc) dynCode), HReach (dynCfg 3 dynTag false) (code (users dynAcc) dynCode) (fun _ => 0) y ∧
      Busy y.v 2 ∧ 0 < y.v.cnt (.body 1) ∧ Races (y.log (.body 1, 0)) (y.loc 2) :=
  ⟨Dyn.dyn_fits, Dyn.dyn_joined, code_properFor Dyn.dyn_fits Dyn.dyn_joined (prog_wellFormed _ _ _ _ _) rfl
    (Dyn.dyn_oneSpace _ _ _) (Dyn.dyn_root _ _ _), vis2.toH _ _, vis2_reach, busy_iff vis2_facts.1,
    by show 0 < vis2.cnt (.body 1); rw [vis2_facts.2.1]; exact Nat.one_pos,
    races_of vis2_facts.2.2.1 vis2_facts.2.2.2 (by decide)⟩

/-- the hypotheses of `C85_every_execution` -/
example : ∃ x, Dyn.Reach (dynCfg 3 dynTag false) (Bodies.graph (dynCfg 3 dynTag false)) (code (users dynAcc) dynCode)
    false (fun _ => 0) x ∧ x.m (.own [] 0) = 8 := ⟨Dyn.dyn2, Dyn.dyn2_reach, Dyn.dyn2_facts.2.2.2⟩

/-- the same program in another execution, until `barrier()` -/
def visActs1 : List LAct :=
  gs (doSubmit 0 ++ doSubmit 1 ++ doInit 0 ++ doInit 1 ++ [.start 0]) ++ [.act 1, .fin 0] ++
  gs ([.ret 0] ++ doFlush 0 ++ [.start 1]) ++ [.act 2] ++ gs (doSubmit 2 ++ doInit 2 ++ [.start 2]) ++ [.act 3, .fin 2] ++
  gs [.ret 2] ++ [.get 2, .fin 1] ++ gs ([.ret 1] ++ doFlush 2 ++ doFlush 1 ++ doSubmit 3 ++ doInit 3 ++ [.start 3]) ++
  [.act 4, .act 4, .fin 3] ++ gs ([.ret 3] ++ doFlush 3 ++ (List.range 4).flatMap fun t => times 2 (.take t) ++ times 2 (.free t)) ++
  [.get 0, .act 0, .act 0]

def vis1 : LH := lrun (dynCfg 2 id true) id (lstart dynCode) visActs1

theorem vis1_reach : HReach (dynCfg 2 id true) (code (users dynAcc) dynCode) (fun _ => 0)
    (vis1.toH (users dynAcc) dynCode) := lrun_reach (cfg := dynCfg 2 id true) (tbl := users dynAcc) (c := dynCode) (tag := id) (fun _ => rfl) visActs1

set_option maxRecDepth 100000 in
theorem vis1_facts : vis1.g.n = 4 ∧ vis1.g.tasks 0 = 0 ∧ vis1.g.mem 1 = .freed ∧ (∀ t, t < 4 → vis1.g.ex t = .ended) ∧
    vis1.fin 3 = true ∧ vis1.cnt (.body 1) = 1 ∧ vis1.cnt (.body 2) = 1 ∧ vis1.cnt (.body 3) = 1 ∧ vis1.cnt (.body 4) = 2 ∧
    vis1.cnt (.body 0) = 2 ∧ vis1.born 2 = 1 ∧ vis1.m (.own [] 0) = 8 :=
  ⟨by decide +kernel, by decide +kernel, by decide +kernel, by decide +kernel, by decide +kernel, by decide +kernel,
    by decide +kernel, by decide +kernel, by decide +kernel, by decide +kernel, by decide +kernel, by decide +kernel⟩

attribute [irreducible] vis1

/-- The hypotheses of `C85_conflict_partial`, `C85_submit_partial`, `C85_get_partial`, `C85_barrier_partial` and `C85_free_partial`: task 2 is the child of task 1,
which conflicts with task 0. -/
example : ∃ x, Reach (dynCfg 2 id true) x ∧ (dynCfg 2 id true).WellFormed ∧ NestingOk (dynCfg 2 id true) ∧
    (dynCfg 2 id true).single = true ∧ (dynCfg 2 id true).space 0 = (dynCfg 2 id true).space 1 ∧
    ((dynCfg 2 id true).user 0).isSerial ((dynCfg 2 id true).user 1) = true ∧ Descends (dynCfg 2 id true) 2 1 ∧
    Started x.g 2 ∧ Did (dynCfg 2 id true) x 0 (.body 1, 0) ∧ 0 < x.born 2 ∧ owner (dynCfg 2 id true) 2 = 2 ∧
    x.fin 3 = true ∧ 1 < x.cnt (.body 4) ∧ x.g.tasks 0 = 0 ∧ Did (dynCfg 2 id true) x 1 (.body 3, 0) ∧ x.g.mem 1 ≠ .alive := by
  obtain ⟨h1, h2, h3, h4, h5, h6, h7, h8, h9, h10, h11, h12⟩ := vis1_facts
  have hd : Descends (dynCfg 2 id true) 2 1 := .child rfl .refl
  refine ⟨(vis1.toH _ _).v, vis1_reach.vis, prog_wellFormed _ _ _ _ _, .inl rfl, rfl, by decide +kernel, by decide +kernel, hd, ?_, ?_, ?_,
    rfl, h5, ?_, h2, ?_, ?_⟩
  · show vis1.g.ex 2 ≠ .none
    rw [h4 2 (by omega)]; simp
  · exact ⟨0, by show 0 < vis1.g.n; omega, .refl, .inl ⟨0, by show 0 < vis1.cnt (.body 1); omega, rfl⟩⟩
  · show 0 < vis1.born 2
    omega
  · show 1 < vis1.cnt (.body 4)
    omega
  · exact ⟨2, by show 2 < vis1.g.n; omega, hd, .inl ⟨0, by show 0 < vis1.cnt (.body 3); omega, rfl⟩⟩
  · show vis1.g.mem 1 ≠ .alive
    rw [h3]; simp

/-- the hypotheses of `C85_workers`, `C85_whole_programs` and `C85_guards`; for executions see C80, C83 and C84 -/
example : TableOk (users dynAcc) ∧ dynCode.Fits (users dynAcc) [] none 0 ∧ dynCode.Waits :=
  ⟨Dyn.dyn_ok, Dyn.dyn_fits, Dyn.dyn_joined⟩

/-! ### What is not ordered -/

/-- two tasks that write A without having declared it -/
def raceCode : Code := .call 0 (.put aPlace 1 .ret) <| .call 0 (.put aPlace 2 .ret) <| .all .ret

def raceCfg : Cfg := prog (fun _ => []) (fun _ => 0) (fun _ => none) false true

def raceActs : List LAct := gs (doSubmit 0 ++ doSubmit 1 ++ doInit 0 ++ doInit 1 ++ [.start 0, .start 1]) ++ [.act 1]

def race : LH := lrun raceCfg (fun _ => 0) (lstart raceCode) raceActs

theorem race_reach : HReach raceCfg (code (users fun _ => []) raceCode) (fun _ => 0) (race.toH _ raceCode) :=
  lrun_reach (cfg := raceCfg) (tbl := users fun _ => []) (c := raceCode) (tag := fun _ => 0) (fun _ => rfl) raceActs

set_option maxRecDepth 100000 in
theorem race_facts : busy race 2 = true ∧ race.cnt (.body 1) = 1 ∧ use (race.log (.body 1, 0)) = some (.writes, aPlace) ∧
    use (race.loc 2) = some (.writes, aPlace) ∧ (.body 1, 0) ∉ race.k.know (.body 2) :=
  ⟨by decide +kernel, by decide +kernel, by decide +kernel, by decide +kernel, by decide +kernel⟩

attribute [irreducible] race

/-- C85: The assumption that tasks declare what they do (`Fits`) cannot be left out: two tasks write to the same location, and
neither happens before the other. -/
theorem C85_undeclared_false : raceCode.Waits ∧ ∃ y : H (code (users fun _ => []) raceCode),
    HReach raceCfg (code (users fun _ => []) raceCode) (fun _ => 0) y ∧ Busy y.v 2 ∧ 0 < y.v.cnt (.body 1) ∧
      Races (y.log (.body 1, 0)) (y.loc 2) ∧ ¬ y.v.k.know (.body 2) (.body 1, 0) := by
  obtain ⟨h1, h2, h3, h4, h5⟩ := race_facts
  refine ⟨?_, race.toH _ _, race_reach, busy_iff h1, ?_, ⟨_, _, _, h3, h4, fun _ => rfl⟩, h5⟩
  · have no : ∀ {p : Nat → Code → Prop} (j : Nat) (d : Code), none = some d → p j d := fun j d h => by cases h
    exact ⟨⟨no, fun j => rfl⟩, ⟨no, fun j => rfl⟩, fun j => rfl⟩
  · show 0 < race.cnt (.body 1)
    omega

/-- a task writes A, and the main program reads A without waiting for the task -/
def hastyCode : Code := .call 0 (.put aPlace 1 .ret) <| .get aPlace fun _ => .all .ret

def hastyCfg : Cfg := prog (fun _ => dynAcc 0) (fun _ => 0) (fun _ => none) false true

def hastyActs : List LAct := gs (doSubmit 0 ++ doInit 0 ++ [.start 0]) ++ [.act 1, .fin 0]

def hasty : LH := lrun hastyCfg (fun _ => 0) (lstart hastyCode) hastyActs

theorem hasty_reach : HReach hastyCfg (code (users dynAcc) hastyCode) (fun _ => 0) (hasty.toH _ hastyCode) :=
  lrun_reach (cfg := hastyCfg) (tbl := users dynAcc) (c := hastyCode) (tag := fun _ => 0) (fun _ => rfl) hastyActs

set_option maxRecDepth 100000 in
theorem hasty_facts : hasty.cnt (.body 1) = 1 ∧ use (hasty.log (.body 1, 0)) = some (.writes, aPlace) ∧
    use (hasty.loc 0) = some (.reads, aPlace) ∧ (.body 1, 0) ∉ hasty.k.know (.body 0) ∧ hasty.fin 0 = true :=
  ⟨by decide +kernel, by decide +kernel, by decide +kernel, by decide +kernel, by decide +kernel⟩

attribute [irreducible] hasty

/-- C85: The assumption that bodies wait before they use the data of their tasks (`Waits`) cannot be left out, either: the task has
even returned, but what it has written does not happen before what the main program reads. -/
theorem C85_not_waiting_false : hastyCode.Fits (users dynAcc) [] none 0 ∧ ∃ y : H (code (users dynAcc) hastyCode),
    HReach hastyCfg (code (users dynAcc) hastyCode) (fun _ => 0) y ∧ Busy y.v 0 ∧ y.v.fin 0 = true ∧ 0 < y.v.cnt (.body 1) ∧
      Races (y.log (.body 1, 0)) (y.loc 0) ∧ ¬ y.v.k.know (.body 0) (.body 1, 0) := by
  obtain ⟨h1, h2, h3, h4, h5⟩ := hasty_facts
  refine ⟨?_, hasty.toH _ _, hasty_reach, trivial, h5, ?_, races_of h2 h3 (by decide), h4⟩
  · have no : ∀ {p : Nat → Prop} (a : Nat), none = some a → p a := fun a h => by cases h
    refine ⟨no, ⟨?_, trivial⟩, no, fun v => trivial⟩
    rintro a ⟨⟩
    exact Dyn.uses dynAcc (by decide)
  · show 0 < hasty.cnt (.body 1)
    omega

/-- two tasks that read A -/
def readersCode : Code := .call 0 (.get aPlace fun _ => .ret) <| .call 0 (.get aPlace fun _ => .ret) <| .all .ret

def readersCfg : Cfg := prog (fun _ => [(rA, .read)]) (fun _ => 0) (fun _ => none) false true

def readers : LH := lrun readersCfg (fun _ => 0) (lstart readersCode)
  (gs (doSubmit 0 ++ doSubmit 1 ++ doInit 0 ++ doInit 1 ++ [.start 0, .start 1]) ++ [.act 1, .act 2])

set_option maxRecDepth 100000 in
/-- what does not conflict is not ordered -/
example : (.body 1, 0) ∈ readers.k.know (.body 1) ∧ (.body 2, 0) ∈ readers.k.know (.body 2) ∧
    (.body 1, 0) ∉ readers.k.know (.body 2) ∧ (.body 2, 0) ∉ readers.k.know (.body 1) := by decide +kernel

end RG.Vis
