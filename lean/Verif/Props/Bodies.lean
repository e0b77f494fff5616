import Verif.Lemmas.Bodies
import Verif.Lemmas.BodiesExec
import Verif.Props.Field
/-
C76: the parallel program computes the same as the sequential program.
-/
set_option linter.unusedVariables false
namespace RG.Bodies
open RG.Graph

variable {cfg : Cfg} {M : Type} {P : Prog M} {m0 : M}

/-! ### Memory locations, and what a task may do with them -/

/-- A location of the memory: an element of a resource (with its position), or a variable of a task. -/
inductive Loc
  | shared (r : Res) (pos : List Size)
  | own (t : Nat) (i : Nat)
  deriving DecidableEq

/-- The access allows to use the element at the position with mode `o`. -/
inductive Covers : RAccess → Mode → List Size → Prop
  /-- io.hpp: the whole resource -/
  | io {r o pos} : Covers ⟨.io, r, o⟩ o pos
  /-- field.hpp: an area of the field -/
  | field {r dim o A pos} (h : InBox (dim := dim) A fun d => pos.getD d 0) :
      Covers ⟨fieldPolicy dim, r, fieldAcc o A⟩ o pos

/-- The accesses in the list, which belong to task `t`, allow to use the location with mode `o`; the variables of the
task can always be used. -/
def Uses (l : List RAccess) (t : Nat) (o : Mode) : Loc → Prop
  | .shared r pos => ∃ ra ∈ l, ra.res = r ∧ Covers ra o pos
  | .own u _ => u = t ∧ o = .write

/-- Task `t` has declared that it uses the location with mode `o`. -/
def May (cfg : Cfg) (t : Nat) : Mode → Loc → Prop := Uses (cfg.user t).access t

/-- The phases do with the memory what they are allowed to, and nothing else. `op o` is the operation that is applied
with mode `o` (atomic addition or multiplication, io.hpp:30-31). -/
structure Keeps {V : Type} (may : Nat × Nat → Mode → Loc → Prop) (op : Mode → V → V → V)
    (next : Nat × Nat → (Loc → V) → Option (Loc → V)) : Prop where
  /-- additions can be exchanged, multiplications too -/
  comm : ∀ o v a b, op o (op o v a) b = op o (op o v b) a
  /-- locations that are only read or not mentioned at all do not change -/
  frame : ∀ p m m' x, next p m = some m' → (∀ o, may p o x → o = .read) → m' x = m x
  /-- what a phase does depends only on the locations that it reads or writes -/
  stops : ∀ p m1 m2, (∀ x, may p .read x ∨ may p .write x → m1 x = m2 x) → next p m1 = none → next p m2 = none
  /-- the new value of a location depends only on these and its old value -/
  value : ∀ p m1 m2 m1' m2' x, (∀ x, may p .read x ∨ may p .write x → m1 x = m2 x) →
    next p m1 = some m1' → next p m2 = some m2' → m1 x = m2 x → m1' x = m2' x
  /-- a location with atomic additions only is only added to, and likewise for multiplications -/
  update : ∀ p m1 m2 m1' m2' x o, (∀ x, may p .read x ∨ may p .write x → m1 x = m2 x) →
    next p m1 = some m1' → next p m2 = some m2' → (∀ o', may p o' x → o' = o) → may p o x →
    o ≠ .read → o ≠ .write → ∃ a, m1' x = op o (m1 x) a ∧ m2' x = op o (m2 x) a

/-- The bodies do with the memory what the tasks have declared, and nothing else. `op o` is the operation that tasks
with mode `o` (atomic addition or multiplication, io.hpp:30-31) apply. -/
structure Respects {V : Type} (cfg : Cfg) (op : Mode → V → V → V) (P : Prog (Loc → V)) : Prop where
  /-- additions can be exchanged, multiplications too -/
  comm : ∀ o v a b, op o (op o v a) b = op o (op o v b) a
  /-- locations that are only read or not mentioned at all do not change -/
  frame : ∀ t k m m' x, P.next (t, k) m = some m' → (∀ o, May cfg t o x → o = .read) → m' x = m x
  /-- what a body does depends only on the locations that it reads or writes -/
  stops : ∀ t k m1 m2, (∀ x, May cfg t .read x ∨ May cfg t .write x → m1 x = m2 x) → P.next (t, k) m1 = none →
    P.next (t, k) m2 = none
  /-- the new value of a location depends only on these and its old value -/
  value : ∀ t k m1 m2 m1' m2' x, (∀ x, May cfg t .read x ∨ May cfg t .write x → m1 x = m2 x) →
    P.next (t, k) m1 = some m1' → P.next (t, k) m2 = some m2' → m1 x = m2 x → m1' x = m2' x
  /-- a location with atomic additions only is only added to, and likewise for multiplications -/
  update : ∀ t k m1 m2 m1' m2' x o, (∀ x, May cfg t .read x ∨ May cfg t .write x → m1 x = m2 x) →
    P.next (t, k) m1 = some m1' → P.next (t, k) m2 = some m2' → (∀ o', May cfg t o' x → o' = o) → May cfg t o x →
    o ≠ .read → o ≠ .write → ∃ a, m1' x = op o (m1 x) a ∧ m2' x = op o (m2 x) a

/-- accesses without a conflict do not interfere -/
theorem uses_compatible {la lb : List RAccess} {t u : Nat} (hne : t ≠ u)
    (hpol : ∀ ra ∈ la, ∀ rb ∈ lb, ra.res = rb.res → ra.ty = rb.ty)
    (hc : ∀ ra ∈ la, ∀ rb ∈ lb, ra.isSerial rb = false) {a b : Mode}
    {x : Loc} (ha : Uses la t a x) (hb : Uses lb u b x) : Compatible a b := by
  cases x with
  | own v i => exact absurd (ha.1.symm.trans hb.1) hne
  | shared r pos =>
    obtain ⟨ra, h1, h2, h3⟩ := ha
    obtain ⟨rb, h4, h5, h6⟩ := hb
    have hty := hpol ra h1 rb h4 (by rw [h2, h5])
    have no : ∀ (p : Policy) (x y : Acc p), (⟨p, r, x⟩ : RAccess) ∈ la →
        (⟨p, r, y⟩ : RAccess) ∈ lb → Acc.isSerial p x y = false := by
      intro p x y hx hy
      have := hc _ hx _ hy
      rw [← Bool.not_eq_true, RAccess.isSerial_iff] at this
      rw [← Bool.not_eq_true]
      exact fun h => this ⟨p, r, x, y, rfl, rfl, h⟩
    cases h3 with
    | io =>
      cases h6 with
      | io =>
        cases h2
        cases h5
        exact (Mode.not_serial_iff _ _).1 (no .io _ _ h1 h4)
      | field h => cases hty
    | @field r' dim o A pos h =>
      cases h6 with
      | io => cases hty
      | @field r'' dim' o' A' pos' h' =>
        cases h2
        cases h5
        cases hty
        exact C06_no_conflict_no_shared_element _ _ _ _ (no _ _ _ h1 h4) _ h h'

/-- tasks that have declared no conflict do not interfere -/
theorem compatible (hw : cfg.WellFormed) {t u : Nat} (hne : t ≠ u) (hc : ¬ ∃ r, ConflictAt cfg t u r) {a b : Mode}
    {x : Loc} (ha : May cfg t a x) (hb : May cfg u b x) : Compatible a b := by
  refine uses_compatible hne (fun ra h1 rb h2 => hw.policy t u ra rb h1 h2) (fun ra h1 rb h2 => ?_) ha hb
  rw [← Bool.not_eq_true, RAccess.isSerial_iff]
  rintro ⟨p, r, x, y, rfl, rfl, h⟩
  exact hc ⟨r, p, x, y, h1, h2, h⟩

theorem Keeps.half {V : Type} {may : Nat × Nat → Mode → Loc → Prop} {op : Mode → V → V → V}
    {next : Nat × Nat → (Loc → V) → Option (Loc → V)} (h : Keeps may op next) {p q : Nat × Nat}
    (hc : ∀ a b x, may p a x → may q b x → Compatible a b) {m m' : Loc → V}
    (hn : next p m = some m') : (next q m = none ↔ next q m' = none) ∧
      ∀ m2, next q m' = some m2 → ∃ m1, next q m = some m1 ∧ next p m1 = some m2 := by
  -- the one does not change what the other reads
  have e1 : ∀ x, may q .read x ∨ may q .write x → m x = m' x := by
    intro x hx
    refine (h.frame p m m' x hn fun o ho => ?_).symm
    rcases hx with hx | hx
    · exact (hc _ _ _ ho hx).1
    · have := hc _ _ _ ho hx
      exact absurd this.1 this.2
  refine ⟨⟨h.stops q m m' e1, h.stops q m' m fun x hx => (e1 x hx).symm⟩, fun m2 h2 => ?_⟩
  cases h1 : next q m with
  | none => rw [h.stops q m m' e1 h1] at h2; cases h2
  | some m1 =>
    refine ⟨m1, rfl, ?_⟩
    have e2 : ∀ x, may p .read x ∨ may p .write x → m x = m1 x := by
      intro x hx
      refine (h.frame q m m1 x h1 fun o ho => ?_).symm
      rcases hx with hx | hx
      · exact (hc _ _ _ hx ho).1.symm
      · exact absurd rfl (hc _ _ _ hx ho).2
    cases h3 : next p m1 with
    | none => rw [h.stops p m1 m (fun x hx => (e2 x hx).symm) h3] at hn; cases hn
    | some m3 =>
      congr 1
      funext x
      by_cases ht : ∀ o, may p o x → o = .read
      · -- only the other one changes it
        rw [h.frame p m1 m3 x h3 ht]
        exact h.value q m m' m1 m2 x e1 h1 h2 (h.frame p m m' x hn ht).symm
      · by_cases hu : ∀ o, may q o x → o = .read
        · rw [h.frame q m' m2 x h2 hu]
          exact h.value p m1 m m3 m' x (fun x hx => (e2 x hx).symm) h3 hn (h.frame q m m1 x h1 hu)
        · -- both update it
          have ht' : ∃ o, may p o x ∧ o ≠ .read := by
            apply Classical.byContradiction
            intro h'
            exact ht fun o ho => Classical.byContradiction fun h'' => h' ⟨o, ho, h''⟩
          have hu' : ∃ o, may q o x ∧ o ≠ .read := by
            apply Classical.byContradiction
            intro h'
            exact hu fun o ho => Classical.byContradiction fun h'' => h' ⟨o, ho, h''⟩
          obtain ⟨o, ho, hor⟩ := ht'
          obtain ⟨o', ho', _⟩ := hu'
          have hoo := hc _ _ _ ho ho'
          have hot : ∀ o2, may p o2 x → o2 = o := fun o2 hp => by
            rw [(hc _ _ _ hp ho').1, hoo.1]
          have hou : ∀ o2, may q o2 x → o2 = o := fun o2 hp => ((hc _ _ _ ho hp).1).symm
          have ho'' : may q o x := by rw [hoo.1]; exact ho'
          obtain ⟨a, h4, h5⟩ := h.update p m m1 m' m3 x o e2 hn h3 hot ho hor hoo.2
          obtain ⟨b, h6, h7⟩ := h.update q m m' m1 m2 x o e1 h1 h2 hou ho'' hor hoo.2
          rw [h5, h6, h7, h4, h.comm]

theorem Keeps.indep {V : Type} {may : Nat × Nat → Mode → Loc → Prop} {op : Mode → V → V → V}
    {next : Nat × Nat → (Loc → V) → Option (Loc → V)} (h : Keeps may op next) {p q : Nat × Nat}
    (hc : ∀ a b x, may p a x → may q b x → Compatible a b)
    (hc' : ∀ a b x, may q a x → may p b x → Compatible a b) : Indep next p q :=
  fun _ _ => ⟨fun hn => h.half hc hn, fun hn => h.half hc' hn⟩

theorem Respects.keeps {V : Type} {op : Mode → V → V → V} {P : Prog (Loc → V)} (h : Respects cfg op P) :
    Keeps (fun p => May cfg p.1) op P.next :=
  ⟨h.comm, fun p => h.frame p.1 p.2, fun p => h.stops p.1 p.2, fun p => h.value p.1 p.2, fun p => h.update p.1 p.2⟩

/-- C76: if the bodies do only what the tasks have declared, then bodies of tasks without a conflict are independent
of each other. -/
theorem C76_declared_is_enough {V : Type} {op : Mode → V → V → V} {P : Prog (Loc → V)} (hw : cfg.WellFormed)
    (h : Respects cfg op P) {t u : Nat} (hne : t ≠ u) (hc : ¬ ∃ r, ConflictAt cfg t u r) (k j : Nat) :
    Indep P.next (t, k) (u, j) := by
  refine h.keeps.indep (fun a b x => compatible hw hne hc) (fun a b x => compatible hw (Ne.symm hne) ?_)
  rintro ⟨r, hr⟩
  exact hc ⟨r, hr.symm⟩

/-- the same if all resources were created outside of tasks -/
theorem Respects.declared {V : Type} {op : Mode → V → V → V} {P : Prog (Loc → V)} (hw : cfg.WellFormed)
    (h : Respects cfg op P) (hroot : ∀ t, ∀ ra ∈ (cfg.user t).access, ra.res.scope = 0) : Declared cfg P := by
  intro t u k j h1 h2 h3
  apply Classical.byContradiction
  intro h4
  refine h3 (C76_declared_is_enough hw h (fun e => h1 (by rw [e]; exact .refl)) ?_ k j)
  rintro ⟨r, hr⟩
  refine h4 ⟨r, hr, shared_of_root ?_⟩
  obtain ⟨p, x, y, h5, _⟩ := hr
  exact hroot t _ h5

/-! ### The theorems -/

/-- C76: when all tasks have returned, the memory is the one that the sequential program computes, in which every
task is executed right away when it is submitted.
Partial: nested programs are restricted by `NestingOk`, see `C76_early_return_false`. -/
theorem C76_like_sequential_partial (hP : Proper cfg P) (ht : NestingOk cfg) {x : St (graph cfg) M}
    (hr : Reach cfg (graph cfg) P m0 x) (he : ∀ t, t < State.n x.s → State.ex x.s t = .ended) :
    Exec P.next (program cfg P (State.n x.s)) m0 x.m :=
  sequential hP ht graph_sound hr he

/-- C76: likewise when `barrier()` returns. -/
theorem C76_after_barrier_partial (hP : Proper cfg P) (ht : NestingOk cfg) {x : St (graph cfg) M}
    (hr : Reach cfg (graph cfg) P m0 x) {sp : Nat} (hroot : ∀ t, cfg.parentOf t = none → cfg.space t = sp)
    (h : State.empty x.s sp = true) : Exec P.next (program cfg P (State.n x.s)) m0 x.m := by
  obtain ⟨tr, hi⟩ := Inv.of_reach hP ht graph_sound hr
  refine C76_like_sequential_partial hP ht hr fun t htn => ?_
  have hr' : Graph.Reach cfg x.s := hi.reach
  have hu := Up.reach hr'
  obtain ⟨b, h1, h2⟩ := root_exists hu t htn
  have hb : b < State.n x.s := Nat.lt_of_le_of_lt (h2.le hu htn) htn
  have hf := (C21_barrier_waits_for_all_partial ht hr' h b hb (hroot b h1)).1
  have all : ∀ c b, Descends cfg c b → c < State.n x.s → Finished cfg x.s b → Finished cfg x.s c := by
    intro c b hd
    induction hd with
    | refl => exact fun _ h => h
    | @child c q p hq hd ih =>
      intro hc hf
      have := ih (by have := hu c q hc hq; omega) hf
      cases this with
      | mk _ _ h3 => exact h3 c hc hq
  cases all t b h2 htn hf with
  | mk h _ _ => exact h

/-- C76: two executions of the same program compute the same. -/
theorem C76_deterministic_partial (hP : Proper cfg P) (ht : NestingOk cfg) {x y : St (graph cfg) M}
    (hx : Reach cfg (graph cfg) P m0 x) (hy : Reach cfg (graph cfg) P m0 y) (hn : State.n x.s = State.n y.s)
    (hex : ∀ t, t < State.n x.s → State.ex x.s t = .ended) (hey : ∀ t, t < State.n y.s → State.ex y.s t = .ended) :
    x.m = y.m := by
  have h1 := C76_like_sequential_partial hP ht hx hex
  have h2 := C76_like_sequential_partial hP ht hy hey
  rw [← hn] at h2
  exact h1.det h2

theorem program_flat (hp : ∀ t, cfg.parentOf t = none) (n : Nat) :
    program cfg P n = (List.range n).flatMap fun t => (List.range (P.len t)).map fun k => (t, k) := by
  have h1 : ∀ t l, (List.range (l + 1)).flatMap (fun k => if k < l then [((t : Nat), k)] else []) =
      (List.range l).map fun k => (t, k) := by
    intro t l
    have h2 : ∀ L : List Nat, (∀ k ∈ L, k < l) → L.flatMap (fun k => if k < l then [((t : Nat), k)] else []) =
        L.map fun k => (t, k) := by
      intro L
      induction L with
      | nil => intro _; rfl
      | cons a L ih =>
        intro h
        simp only [List.flatMap_cons, List.map_cons]
        rw [if_pos (h a (List.mem_cons_self ..)), ih fun k hk => h k (List.mem_cons_of_mem _ hk)]
        rfl
    rw [List.range_succ, List.flatMap_append, h2 _ fun k hk => List.mem_range.1 hk]
    simp
  have h3 : ∀ d t, inline cfg P n (d + 1) t = (List.range (P.len t)).map fun k => (t, k) := by
    intro d t
    have h4 : ∀ k, children cfg P n t k = [] := by
      intro k
      simp [children, hp]
    simp only [inline, h4, List.flatMap_nil, List.nil_append]
    exact h1 t _
  have h5 : (List.range n).filter (fun t => decide (cfg.parentOf t = none)) = List.range n := by
    rw [List.filter_eq_self]
    intro a _
    simp [hp]
  unfold program
  rw [h5]
  cases n with
  | zero => rfl
  | succ n =>
    congr 1
    funext t
    exact h3 n t

/-- C76 for programs without nested tasks: no assumption on the schedule. The tasks are executed as if in the order
in which they have been submitted. -/
theorem C76_flat_like_sequential (hw : cfg.WellFormed) (hflat : ∀ sp, cfg.parent sp = none) (hs : cfg.single = true)
    (ho : ∀ t u, cfg.space t = cfg.space u)
    (hd : ∀ t u k j, t ≠ u → ¬ Indep P.next (t, k) (u, j) → (cfg.user t).isSerial (cfg.user u) = true)
    {x : St (graph cfg) M} (hr : Reach cfg (graph cfg) P m0 x)
    (he : ∀ t, t < State.n x.s → State.ex x.s t = .ended) :
    Exec P.next ((List.range (State.n x.s)).flatMap fun t => (List.range (P.len t)).map fun k => (t, k)) m0 x.m := by
  have hp : ∀ t, cfg.parentOf t = none := fun t => hflat _
  have noDesc : ∀ {t u}, Descends cfg t u → t = u := by
    intro t u h
    cases h with
    | refl => rfl
    | child h _ => rw [hp] at h; cases h
  have hP : Proper cfg P := by
    refine ⟨hw, hs, fun a b _ => ho a b, fun c q h => ?_, ?_⟩
    · rw [hp] at h; cases h
    intro t u k j h1 h2 h3
    have hne : t ≠ u := fun e => h1 (by rw [e]; exact .refl)
    obtain ⟨p, r, a, b, h4, h5, h6⟩ := (C07_conflict_iff _ _).1 (hd t u k j hne h3)
    refine ⟨r, ⟨p, a, b, h4, h5, h6⟩, ?_⟩
    rintro v h7 h8 (⟨h9, _⟩ | ⟨h9, _⟩)
    · exact absurd (noDesc h9).symm h7
    · exact absurd (noDesc h9).symm h8
  have h := C76_like_sequential_partial hP (.inr hflat) hr he
  rw [program_flat hp] at h
  exact h

theorem desc_strict {a b : Nat} : Descends { cfg with strict := true } a b ↔ Descends cfg a b := by
  constructor
  · intro h
    induction h with
    | refl => exact .refl
    | child h _ ih => exact .child h ih
  · intro h
    induction h with
    | refl => exact .refl
    | child h _ ih => exact .child h ih

theorem over_strict {g : State} {c : Nat} : Over { cfg with strict := true } g c ↔ Over cfg g c :=
  ⟨fun h d hd h' => h d hd (desc_strict.2 h'), fun h d hd h' => h d hd (desc_strict.1 h')⟩

theorem mayBegin_strict {g : State} {t k : Nat} (h : MayBegin cfg P g t k) :
    MayBegin { cfg with strict := true } P g t k :=
  fun c d j h1 h2 h3 h4 h5 => over_strict.2 (h c d j h1 (desc_strict.1 h2) h3 h4 h5)

theorem proper_strict (hP : Proper cfg P) : Proper { cfg with strict := true } P where
  wf := WellFormed.strict hP.wf
  single := hP.single
  one := hP.one
  covered := hP.covered
  declared t u k j h1 h2 h3 := by
    obtain ⟨r, h4, h5⟩ := hP.declared t u k j (fun h => h1 (desc_strict.2 h)) (fun h => h2 (desc_strict.2 h)) h3
    refine ⟨r, h4, fun a h6 h7 h8 => h5 a h6 h7 ?_⟩
    rcases h8 with ⟨h8, h9⟩ | ⟨h8, h9⟩
    · exact .inl ⟨desc_strict.1 h8, fun h => h9 (desc_strict.2 h)⟩
    · exact .inr ⟨desc_strict.1 h8, fun h => h9 (desc_strict.2 h)⟩

theorem reach_strict (hP : Proper cfg P) {x : St (waiting cfg) M} (hr : Reach cfg (waiting cfg) P m0 x) :
    Reach { cfg with strict := true } (graph { cfg with strict := true }) P m0 ⟨x.s, x.m, x.cur, x.on⟩ := by
  induction hr with
  | init => exact .init
  | @step x x' _ hs ih =>
    obtain ⟨tr, hi⟩ := Inv.of_reach (proper_strict hP) (.inl rfl) graph_sound ih
    have hi' := Core.reach (.inl rfl) hi.reach
    refine .step ih ?_
    cases hs with
    | @rt s' h hret hsub =>
      obtain ⟨⟨l, h1⟩, h2⟩ := h
      refine .rt (R := graph _) (x := ⟨x.s, x.m, x.cur, x.on⟩) ⟨l, h1.to_strict fun t c h3 h4 h5 h6 => ?_⟩ hret hsub
      exact (hi'.exI c (by dsimp only [graph]; rw [h2 t c h3 h4 h5 h6]; simp)).1
    | begin h ho hl hm => exact .begin (R := graph _) (x := ⟨x.s, x.m, x.cur, x.on⟩) h ho hl (mayBegin_strict hm)
    | act h ho hn => exact .act (R := graph _) (x := ⟨x.s, x.m, x.cur, x.on⟩) h ho hn
    | stop h ho hn => exact .stop (R := graph _) (x := ⟨x.s, x.m, x.cur, x.on⟩) h ho hn

theorem program_strict {n : Nat} : program { cfg with strict := true } P n = program cfg P n := by
  have h : ∀ d t, inline { cfg with strict := true } P n d t = inline cfg P n d t := by
    intro d
    induction d with
    | zero => intro t; rfl
    | succ d ih =>
      intro t
      simp only [inline]
      congr 1
      funext k
      congr 1
      have : inline { cfg with strict := true } P n d = inline cfg P n d := funext ih
      rw [this]
      rfl
  have h' : inline { cfg with strict := true } P n n = inline cfg P n n := funext (h n)
  unfold program
  rw [h']
  rfl

/-- C76 for programs in which task bodies wait for the results of their children before they return: no assumption
on the workers. -/
theorem C76_waiting_parents_like_sequential (hP : Proper cfg P) {x : St (waiting cfg) M}
    (hr : Reach cfg (waiting cfg) P m0 x) (he : ∀ t, t < State.n x.s → State.ex x.s t = .ended) :
    Exec P.next (program cfg P (State.n x.s)) m0 x.m := by
  have h := C76_like_sequential_partial (proper_strict hP) (.inl rfl) (reach_strict hP hr) he
  rw [program_strict] at h
  exact h

theorem waiting_inv {s : (waiting cfg).S} (h : (waiting cfg).Reach s) : Graph.Reach { cfg with strict := true } s ∧
    ∀ c q, c < State.n s → cfg.parentOf c = some q → State.ex s q = .ended → State.ex s c = .ended := by
  induction h with
  | init => exact ⟨.init, fun c q h => absurd h (Nat.not_lt_zero _)⟩
  | @step s s' _ hs ih =>
    obtain ⟨ih1, ih2⟩ := ih
    obtain ⟨⟨l, h1⟩, h2⟩ := hs
    have hi := Core.reach (.inl rfl) ih1
    have hst := h1.to_strict fun t c h3 h4 h5 h6 => (hi.exI c (by rw [h2 t c h3 h4 h5 h6]; simp)).1
    have hc := change (.inl rfl) ih1 hst
    refine ⟨.step ih1 hst, fun c q h3 h4 h5 => ?_⟩
    rcases hc.n with e | ⟨e, hq⟩
    · rw [e] at h3
      rcases hc.was q h5 with h6 | h6
      · exact hc.ended c (ih2 c q h3 h4 h6)
      · exact hc.ended c (h2 q c h6 h5 h3 h4)
    · by_cases h6 : c < s.n
      · rcases hc.was q h5 with h7 | h7
        · exact hc.ended c (ih2 c q h6 h4 h7)
        · exact hc.ended c (h2 q c h7 h5 h6 h4)
      · have : c = s.n := by omega
        subst this
        have h7 := hq q h4
        cases hst with
        | beginSubmit => dsimp only at h5; rw [h7] at h5; cases h5
        | _ =>
          first
          | (exact absurd h3 h6)

/-- C76: in such programs the next phase of a body may begin, whatever it accesses, if the body has waited for the results
of the children that it has submitted. -/
theorem C76_waiting_is_enough {s : State} (h : (waiting cfg).Reach s) {t k : Nat}
    (hk : ∀ c, c < s.n → cfg.parentOf c = some t → s.ex c = .ended) : MayBegin cfg P s t k := by
  intro c d j h1 h6 h7 h8 h2 e he hd
  have h3 := hk c h2 h1
  obtain ⟨h4, h5⟩ := waiting_inv h
  have hu := Up.reach h4
  clear h2 h1 h6 h7 h8
  induction hd with
  | refl => exact h3
  | @child e q p hq hd ih => exact h5 e q he hq (ih (Nat.lt_trans (hu e q he hq) he) h3)

/-! ### Examples -/

/-- one assignment or atomic addition; the expression is evaluated in the same action -/
inductive Cmd
  | set (dst : Loc) (f : (Loc → Nat) → Nat)
  | add (dst : Loc) (f : (Loc → Nat) → Nat)

def put (x : Loc) (v : Nat) (m : Loc → Nat) : Loc → Nat := fun y => if y = x then v else m y

def Cmd.run : Cmd → (Loc → Nat) → Loc → Nat
  | .set dst f, m => put dst (f m) m
  | .add dst f, m => put dst (m dst + f m) m

/-- phase `k` of task `t` is one command; variable 0 of a task counts its commands -/
def cmds (len after : Nat → Nat) (code : Nat × Nat → Option Cmd) : Prog (Loc → Nat) where
  len := len
  after := after
  next a m := match code a with
    | some c => if m (.own a.1 0) = a.2 then some (put (.own a.1 0) (a.2 + 1) (c.run m)) else none
    | none => none

/-- what the command does is allowed -/
def Cmd.Fits (t : Nat) (may : Mode → Loc → Prop) : Cmd → Prop
  | .set dst f => dst ≠ .own t 0 ∧ may .write dst ∧
      ∀ m1 m2, (∀ x, may .read x ∨ may .write x → m1 x = m2 x) → f m1 = f m2
  | .add dst f => dst ≠ .own t 0 ∧ may .aadd dst ∧
      ∀ m1 m2, (∀ x, may .read x ∨ may .write x → m1 x = m2 x) → f m1 = f m2

/-- what the command does is declared -/
def Cmd.Ok (cfg : Cfg) (t : Nat) (c : Cmd) : Prop := c.Fits t (May cfg t)

def natOp : Mode → Nat → Nat → Nat
  | .amul => fun a b => a * b
  | _ => fun a b => a + b

theorem cmds_keeps {len after : Nat → Nat} {code : Nat × Nat → Option Cmd} {may : Nat × Nat → Mode → Loc → Prop}
    (own : ∀ a, may a .write (.own a.1 0)) (h : ∀ a c, code a = some c → c.Fits a.1 (may a)) :
    Keeps may natOp (cmds len after code).next := by
  have nx : ∀ t k m m', (cmds len after code).next (t, k) m = some m' → ∃ c, code (t, k) = some c ∧
      c.Fits t (may (t, k)) ∧ m (.own t 0) = k ∧ m' = put (.own t 0) (k + 1) (c.run m) := by
    intro t k m m' hn
    simp only [cmds] at hn
    cases hc : code (t, k) with
    | none => rw [hc] at hn; cases hn
    | some c =>
      rw [hc] at hn
      simp only at hn
      split at hn
      · cases hn; exact ⟨c, rfl, h (t, k) c hc, by assumption, rfl⟩
      · cases hn
  constructor
  · intro o v a b
    cases o <;> simp only [natOp]
    · omega
    · omega
    · omega
    · rw [Nat.mul_assoc, Nat.mul_comm a b, Nat.mul_assoc]
  · intro ⟨t, k⟩ m m' x hn hx
    obtain ⟨c, _, hok, _, rfl⟩ := nx t k m m' hn
    have h1 : x ≠ .own t 0 := by
      rintro rfl
      cases hx _ (own (t, k))
    cases c with
    | set dst f =>
      have h2 : x ≠ dst := by
        rintro rfl
        cases hx _ hok.2.1
      simp [put, Cmd.run, h1, h2]
    | add dst f =>
      have h2 : x ≠ dst := by
        rintro rfl
        cases hx _ hok.2.1
      simp [put, Cmd.run, h1, h2]
  · intro ⟨t, k⟩ m1 m2 he hn
    have h0 := he _ (.inr (own (t, k)))
    simp only [cmds] at hn ⊢
    cases hc : code (t, k) with
    | none => rfl
    | some c =>
      rw [hc] at hn
      simp only [h0] at hn ⊢
      split at hn
      · cases hn
      · rename_i h'; rw [if_neg h']
  · intro ⟨t, k⟩ m1 m2 m1' m2' x he h1 h2 hx
    obtain ⟨c, e1, hok, _, rfl⟩ := nx t k m1 m1' h1
    obtain ⟨c', e2, _, _, rfl⟩ := nx t k m2 m2' h2
    rw [e1] at e2
    cases e2
    cases c with
    | set dst f =>
      have := hok.2.2 m1 m2 he
      simp only [put, Cmd.run, this]
      split
      · rfl
      · split
        · rfl
        · exact hx
    | add dst f =>
      have := hok.2.2 m1 m2 he
      simp only [put, Cmd.run, this]
      split
      · rfl
      · split
        · rename_i h3; subst h3; rw [hx]
        · exact hx
  · intro ⟨t, k⟩ m1 m2 m1' m2' x o he h1 h2 hu ho hor how
    obtain ⟨c, e1, hok, _, rfl⟩ := nx t k m1 m1' h1
    obtain ⟨c', e2, _, _, rfl⟩ := nx t k m2 m2' h2
    rw [e1] at e2
    cases e2
    have h0 : x ≠ .own t 0 := by
      rintro rfl
      exact how (hu _ (own (t, k))).symm
    cases c with
    | set dst f =>
      have h3 : x ≠ dst := by
        rintro rfl
        exact how (hu _ hok.2.1).symm
      cases o with
      | read => exact absurd rfl hor
      | write => exact absurd rfl how
      | aadd => exact ⟨0, by simp [put, Cmd.run, h0, h3, natOp], by simp [put, Cmd.run, h0, h3, natOp]⟩
      | amul => exact ⟨1, by simp [put, Cmd.run, h0, h3, natOp], by simp [put, Cmd.run, h0, h3, natOp]⟩
    | add dst f =>
      have hf := hok.2.2 m1 m2 he
      by_cases h3 : x = dst
      · subst h3
        have := hu _ hok.2.1
        subst this
        exact ⟨f m1, by simp [put, Cmd.run, h0, natOp], by simp [put, Cmd.run, h0, natOp, hf]⟩
      · cases o with
        | read => exact absurd rfl hor
        | write => exact absurd rfl how
        | aadd => exact ⟨0, by simp [put, Cmd.run, h0, h3, natOp], by simp [put, Cmd.run, h0, h3, natOp]⟩
        | amul => exact ⟨1, by simp [put, Cmd.run, h0, h3, natOp], by simp [put, Cmd.run, h0, h3, natOp]⟩

theorem cmds_respects {len after : Nat → Nat} {code : Nat × Nat → Option Cmd}
    (h : ∀ t k c, code (t, k) = some c → c.Ok cfg t) : Respects cfg natOp (cmds len after code) := by
  have := cmds_keeps (len := len) (after := after) (may := fun a => May cfg a.1) (fun a => ⟨rfl, rfl⟩)
    fun a c hc => h a.1 a.2 c hc
  exact ⟨this.comm, fun t k => this.frame (t, k), fun t k => this.stops (t, k), fun t k => this.value (t, k),
    fun t k => this.update (t, k)⟩

def aLoc : Loc := .shared rA []
def bLoc : Loc := .shared rB []

/-! Without nested tasks: task 0 writes A, task 1 reads A and writes B, task 2 reads B, task 3 writes A. -/

def flatCode : Nat × Nat → Option Cmd
  | (0, 0) => some (.set aLoc fun _ => 5)
  | (1, 0) => some (.set bLoc fun m => m aLoc + 1)
  | (2, 0) => some (.set (.own 2 1) fun m => 2 * m bLoc)
  | (3, 0) => some (.set aLoc fun m => m aLoc + 10)
  | _ => none

def flatProg : Prog (Loc → Nat) := cmds (fun _ => 1) (fun _ => 0) flatCode

theorem flat_may {t : Nat} {r : Res} {o : Mode} (pos : List Size) (h : (r, o) ∈ flatAcc t) :
    May flat t o (.shared r pos) :=
  ⟨⟨.io, r, o⟩, List.mem_map.2 ⟨(r, o), h, rfl⟩, rfl, .io⟩

theorem flat_respects : Respects flat natOp flatProg := by
  apply cmds_respects
  intro t k c h
  match t, k, h with
  | 0, 0, h =>
    cases h
    exact ⟨by decide, flat_may [] (by decide), fun _ _ _ => rfl⟩
  | 1, 0, h =>
    cases h
    refine ⟨by decide, flat_may [] (by decide), fun m1 m2 he => ?_⟩
    dsimp only
    rw [he aLoc (.inl (flat_may [] (by decide)))]
  | 2, 0, h =>
    cases h
    refine ⟨by decide, ⟨rfl, rfl⟩, fun m1 m2 he => ?_⟩
    dsimp only
    rw [he bLoc (.inl (flat_may [] (by decide)))]
  | 3, 0, h =>
    cases h
    refine ⟨by decide, flat_may [] (by decide), fun m1 m2 he => ?_⟩
    dsimp only
    rw [he aLoc (.inr (flat_may [] (by decide)))]

theorem flat_declared (t u k j : Nat) (hne : t ≠ u) (h : ¬ Indep flatProg.next (t, k) (u, j)) :
    (flat.user t).isSerial (flat.user u) = true := by
  apply Classical.byContradiction
  intro h'
  refine h (C76_declared_is_enough (prog_wellFormed _ _ _ _ _) flat_respects hne ?_ k j)
  rintro ⟨r, p, x, y, h1, h2, h3⟩
  exact h' ((C07_conflict_iff _ _).2 ⟨p, r, x, y, h1, h2, h3⟩)

theorem flat_mayBegin (g : State) (t k : Nat) : MayBegin flat flatProg g t k := by
  intro c d j h
  cases h

/-- tasks 2 and 3 are executed in the other order -/
def flatActs : List (Act Graph.Act) :=
  gs (doSubmit 0 ++ doSubmit 1 ++ doSubmit 2 ++ doSubmit 3 ++ doInit 0 ++ doInit 1 ++ doInit 2 ++ doInit 3 ++
    [.start 0]) ++ doBody 0 1 ++ gs ([.ret 0] ++ doFlush 0 ++ [.start 1]) ++ doBody 1 1 ++
  gs ([.ret 1] ++ doFlush 1 ++ [.start 3, .start 2]) ++ doBody 3 1 ++ doBody 2 1 ++ gs [.ret 3, .ret 2]

set_option maxRecDepth 100000 in
example : ∃ x : St (graph flat) (Loc → Nat), Reach flat (graph flat) flatProg (fun _ => 0) x ∧
    State.n x.s = 4 ∧ (∀ t, t < 4 → State.ex x.s t = .ended) ∧
    x.m aLoc = 15 ∧ x.m bLoc = 6 ∧ x.m (.own 2 1) = 12 ∧ flat.WellFormed ∧ (∀ sp, flat.parent sp = none) ∧
    flat.single = true ∧ (∀ t u, flat.space t = flat.space u) ∧
    (∀ t u k j, t ≠ u → ¬ Indep flatProg.next (t, k) (u, j) → (flat.user t).isSerial (flat.user u) = true) :=
  ⟨run flat flatProg (graphExc flat) (fun _ _ _ => true) (start (graph flat) fun _ => 0) flatActs,
    run_reach fun g t k _ => flat_mayBegin g t k,
    by decide +kernel, by decide +kernel, by decide +kernel, by decide +kernel, by decide +kernel,
    prog_wellFormed _ _ _ _ _, fun _ => rfl, rfl, fun _ _ => rfl, flat_declared⟩

/-! Tasks 0 and 1 add to A; task 2 reads A. -/

def addAcc : Nat → List (Res × Mode)
  | 0 => [(rA, .aadd)]
  | 1 => [(rA, .aadd)]
  | 2 => [(rA, .read)]
  | _ => []

def adds : Cfg := prog addAcc (fun _ => 0) (fun _ => none) true true

def addCode : Nat × Nat → Option Cmd
  | (0, 0) => some (.add aLoc fun _ => 3)
  | (0, 1) => some (.add aLoc fun _ => 5)
  | (1, 0) => some (.add aLoc fun _ => 7)
  | (2, 0) => some (.set (.own 2 1) fun m => m aLoc)
  | _ => none

def addProg : Prog (Loc → Nat) := cmds (fun t => if t = 0 then 2 else 1) (fun _ => 0) addCode

theorem add_may {t : Nat} {r : Res} {o : Mode} (pos : List Size) (h : (r, o) ∈ addAcc t) :
    May adds t o (.shared r pos) :=
  ⟨⟨.io, r, o⟩, List.mem_map.2 ⟨(r, o), h, rfl⟩, rfl, .io⟩

theorem add_respects : Respects adds natOp addProg := by
  apply cmds_respects
  intro t k c h
  match t, k, h with
  | 0, 0, h => cases h; exact ⟨by decide, add_may [] (by decide), fun _ _ _ => rfl⟩
  | 0, 1, h => cases h; exact ⟨by decide, add_may [] (by decide), fun _ _ _ => rfl⟩
  | 1, 0, h => cases h; exact ⟨by decide, add_may [] (by decide), fun _ _ _ => rfl⟩
  | 2, 0, h =>
    cases h
    exact ⟨by decide, ⟨rfl, rfl⟩, fun m1 m2 he => he aLoc (.inl (add_may [] (by decide)))⟩

theorem add_noconflict : ¬ ∃ r, ConflictAt adds 0 1 r := by
  rintro ⟨r, p, x, y, h1, h2, h3⟩
  have : (adds.user 0).isSerial (adds.user 1) = true := (C07_conflict_iff _ _).2 ⟨p, r, x, y, h1, h2, h3⟩
  revert this
  decide +kernel

/-- the additions of the two tasks interleave -/
def addActs : List (Act Graph.Act) :=
  gs (doSubmit 0 ++ doSubmit 1 ++ doSubmit 2 ++ doInit 0 ++ doInit 1 ++ doInit 2 ++ [.start 0, .start 1]) ++
  doBody 0 1 ++ doBody 1 1 ++ doBody 0 1 ++ gs ([.ret 0] ++ doFlush 0 ++ [.ret 1] ++ doFlush 1 ++ [.start 2]) ++
  doBody 2 1 ++ gs [.ret 2]

set_option maxRecDepth 100000 in
example : adds.WellFormed ∧ Respects adds natOp addProg ∧ (¬ ∃ r, ConflictAt adds 0 1 r) ∧
    ∃ x : St (graph adds) (Loc → Nat), Reach adds (graph adds) addProg (fun _ => 0) x ∧
      State.n x.s = 3 ∧ (∀ t, t < 3 → State.ex x.s t = .ended) ∧ x.m aLoc = 15 ∧ x.m (.own 2 1) = 15 :=
  ⟨prog_wellFormed _ _ _ _ _, add_respects, add_noconflict,
    run adds addProg (graphExc adds) (fun _ _ _ => true) (start (graph adds) fun _ => 0) addActs,
    run_reach (fun g t k _ c d j h => by cases h), by decide +kernel, by decide +kernel, by decide +kernel,
    by decide +kernel⟩

/-! With nested tasks: task 0 writes A, submits task 1, which reads A, waits for it and writes A again; task 2 writes
A, too. -/

def nestCode : Nat × Nat → Option Cmd
  | (0, 0) => some (.set aLoc fun _ => 5)
  | (0, 1) => some (.set aLoc fun m => m aLoc + 1)
  | (1, 0) => some (.set (.own 1 1) fun m => m aLoc)
  | (2, 0) => some (.set aLoc fun m => m aLoc + 10)
  | _ => none

def nestProg : Prog (Loc → Nat) := cmds (fun t => if t = 0 then 2 else 1) (fun _ => 1) nestCode

theorem nest_may {b : Bool} {t : Nat} {r : Res} {o : Mode} (pos : List Size) (h : (r, o) ∈ nestAcc t) :
    May (nest b) t o (.shared r pos) :=
  ⟨⟨.io, r, o⟩, List.mem_map.2 ⟨(r, o), h, rfl⟩, rfl, .io⟩

theorem nest_root (b : Bool) (t : Nat) : ∀ ra ∈ ((nest b).user t).access, ra.res.scope = 0 := by
  intro ra h
  obtain ⟨x, hx, rfl⟩ := List.mem_map.1 (show ra ∈ (nestAcc t).map fun x => (⟨.io, x.1, x.2⟩ : RAccess) from h)
  match t, hx with
  | 0, hx => cases List.mem_singleton.1 hx; rfl
  | 1, hx => cases List.mem_singleton.1 hx; rfl
  | 2, hx => cases List.mem_singleton.1 hx; rfl

theorem nest_proper {b : Bool} {P : Prog (Loc → Nat)} (h : Respects (nest b) natOp P) : Proper (nest b) P where
  wf := prog_wellFormed _ _ _ _ _
  single := rfl
  one := nest_oneSpace b
  covered c q h := nest_covered b { Graph.init with n := c + 1 } c q (Nat.lt_succ_self c) h
  declared := h.declared (prog_wellFormed _ _ _ _ _) (nest_root b)

theorem nest_respects (b : Bool) : Respects (nest b) natOp nestProg := by
  apply cmds_respects
  intro t k c h
  match t, k, h with
  | 0, 0, h =>
    cases h
    exact ⟨by decide, nest_may [] (by decide), fun _ _ _ => rfl⟩
  | 0, 1, h =>
    cases h
    refine ⟨by decide, nest_may [] (by decide), fun m1 m2 he => ?_⟩
    dsimp only
    rw [he aLoc (.inr (nest_may [] (by decide)))]
  | 1, 0, h =>
    cases h
    refine ⟨by decide, ⟨rfl, rfl⟩, fun m1 m2 he => ?_⟩
    dsimp only
    rw [he aLoc (.inl (nest_may [] (by decide)))]
  | 2, 0, h =>
    cases h
    refine ⟨by decide, nest_may [] (by decide), fun m1 m2 he => ?_⟩
    dsimp only
    rw [he aLoc (.inr (nest_may [] (by decide)))]

theorem nest_child {b : Bool} {c q : Nat} (h : (nest b).parentOf c = some q) : c = 1 ∧ q = 0 := by
  match c, h with
  | 1, h => cases h; exact ⟨rfl, rfl⟩

/-- the second phase of task 0 begins after task 1 has returned -/
def nestChk (g : State) (t k : Nat) : Bool := t != 0 || k == 0 || decide (g.ex 1 = .ended)

theorem nest_mayBegin {b : Bool} (g : State) (t k : Nat) (h : nestChk g t k = true) :
    MayBegin (nest b) nestProg g t k := by
  intro c d j h1 _ h3 _ h5 v hv hvd
  obtain ⟨rfl, rfl⟩ := nest_child h1
  have hv1 : v = 1 := by
    cases hvd with
    | refl => rfl
    | child h6 h7 =>
      obtain ⟨rfl, rfl⟩ := nest_child h6
      rfl
  subst hv1
  simp only [nestProg, cmds] at h3
  have hk : k ≠ 0 := by omega
  simpa [nestChk, hk] using h

def nestActs : List (Act Graph.Act) :=
  gs (doSubmit 0 ++ doInit 0 ++ [.start 0]) ++ doBody 0 1 ++ gs (doSubmit 1 ++ doSubmit 2 ++ doInit 1 ++ doInit 2 ++
    [.start 1]) ++ doBody 1 1 ++ gs [.ret 1] ++ doBody 0 1 ++ gs ([.ret 0] ++ doFlush 1 ++ doFlush 0 ++ [.start 2]) ++
  doBody 2 1 ++ gs ([.ret 2] ++ doFlush 2 ++ (List.range 3).flatMap fun t => times 2 (.take t) ++ times 2 (.free t))

set_option maxRecDepth 100000 in
example : ∃ x : St (graph (nest true)) (Loc → Nat), Reach (nest true) (graph (nest true)) nestProg (fun _ => 0) x ∧
    State.n x.s = 3 ∧ (∀ t, t < 3 → State.ex x.s t = .ended) ∧ State.empty x.s 0 = true ∧ x.m aLoc = 16 ∧
    x.m (.own 1 1) = 5 ∧ Proper (nest true) nestProg ∧ NestingOk (nest true) ∧
    (∀ t, (nest true).parentOf t = none → (nest true).space t = 0) ∧
    program (nest true) nestProg 3 = [(0, 0), (1, 0), (0, 1), (2, 0)] :=
  ⟨run (nest true) nestProg (graphExc (nest true)) nestChk (start (graph (nest true)) fun _ => 0) nestActs,
    run_reach nest_mayBegin,
    by decide +kernel, by decide +kernel, by decide +kernel, by decide +kernel, by decide +kernel,
    nest_proper (nest_respects _), .inl rfl, fun t h => by
      match t, h with
      | 0, _ => rfl
      | _ + 2, _ => rfl, by decide +kernel⟩

set_option maxRecDepth 100000 in
example : ∃ x : St (waiting (nest false)) (Loc → Nat),
    Reach (nest false) (waiting (nest false)) nestProg (fun _ => 0) x ∧ State.n x.s = 3 ∧
      (∀ t, t < 3 → State.ex x.s t = .ended) ∧ x.m aLoc = 16 ∧ Proper (nest false) nestProg :=
  ⟨run (nest false) nestProg (waitExc (nest false)) nestChk (start (waiting (nest false)) fun _ => 0) nestActs,
    run_reach nest_mayBegin,
    by decide +kernel, by decide +kernel, by decide +kernel, nest_proper (nest_respects _)⟩

set_option maxRecDepth 100000 in
/-- those of `C76_waiting_is_enough`: task 0 has waited for task 1 -/
example : ∃ x : St (waiting (nest false)) (Loc → Nat),
    Reach (nest false) (waiting (nest false)) nestProg (fun _ => 0) x ∧ (waiting (nest false)).Reach x.s ∧
      State.n x.s = 3 ∧ (nest false).parentOf 1 = some 0 ∧
      (∀ c, c < 3 → (nest false).parentOf c = some 0 → State.ex x.s c = .ended) ∧ State.ex x.s 0 = .running :=
  ⟨_, run_reach (E := waitExc (nest false)) (as := gs (doSubmit 0 ++ doInit 0 ++ [.start 0]) ++ doBody 0 1 ++
      gs (doSubmit 1 ++ doSubmit 2 ++ doInit 1 ++ doInit 2 ++ [.start 1]) ++ doBody 1 1 ++ gs [.ret 1]) nest_mayBegin,
    (run_reach nest_mayBegin).rt, by decide +kernel, rfl, by decide +kernel, by decide +kernel⟩

/-! If the body of a task returns before its children have been initialised: task 1, the child of task 0, reads A,
task 2 writes it. -/

def lateCode : Nat × Nat → Option Cmd
  | (1, 0) => some (.set (.own 1 1) fun m => m aLoc)
  | (2, 0) => some (.set aLoc fun _ => 7)
  | _ => none

def lateProg : Prog (Loc → Nat) := cmds (fun t => if t = 0 then 0 else 1) (fun _ => 0) lateCode

theorem late_respects (b : Bool) : Respects (nest b) natOp lateProg := by
  apply cmds_respects
  intro t k c h
  match t, k, h with
  | 1, 0, h =>
    cases h
    refine ⟨by decide, ⟨rfl, rfl⟩, fun m1 m2 he => ?_⟩
    dsimp only
    rw [he aLoc (.inl (nest_may [] (by decide)))]
  | 2, 0, h =>
    cases h
    exact ⟨by decide, nest_may [] (by decide), fun _ _ _ => rfl⟩

theorem late_mayBegin {b : Bool} (g : State) (t k : Nat) (h : (t != 0) = true) : MayBegin (nest b) lateProg g t k := by
  intro c d j h1
  obtain ⟨rfl, rfl⟩ := nest_child h1
  cases h

def lateActs : List (Act Graph.Act) :=
  gs (doSubmit 0 ++ doInit 0 ++ [.start 0] ++ doSubmit 1 ++ [.ret 0] ++ doFlush 0 ++ doSubmit 2 ++ doInit 2 ++
    [.start 2]) ++ doBody 2 1 ++ gs ([.ret 2] ++ doInit 1 ++ [.start 1]) ++ doBody 1 1 ++ gs [.ret 1]

def late : St (graph (nest false)) (Loc → Nat) :=
  run (nest false) lateProg (graphExc (nest false)) (fun _ t _ => t != 0) (start (graph (nest false)) fun _ => 0) lateActs

set_option maxRecDepth 100000 in
/-- C76 is false for programs whose task bodies return before their children are initialised: task 1 reads what task 2
has written, although task 2 was submitted after the parent of task 1. -/
theorem C76_early_return_false : Proper (nest false) lateProg ∧
    ∃ x : St (graph (nest false)) (Loc → Nat), Reach (nest false) (graph (nest false)) lateProg (fun _ => 0) x ∧
      (∀ t, t < State.n x.s → State.ex x.s t = .ended) ∧
      ¬ Exec lateProg.next (program (nest false) lateProg (State.n x.s)) (fun _ => 0) x.m := by
  refine ⟨nest_proper (late_respects _), late, run_reach late_mayBegin, by decide +kernel,
    fun h => ?_⟩
  have hn : State.n late.s = 3 := by
    decide +kernel
  have hp : program (nest false) lateProg 3 = [(1, 0), (2, 0)] := by decide +kernel
  have hv : late.m (.own 1 1) = 7 := by
    decide +kernel
  rw [hn, hp] at h
  have h' : Exec lateProg.next [(1, 0), (2, 0)] (fun _ => 0)
      (put (.own 2 0) 1 (put aLoc 7 (put (.own 1 0) 1 (put (.own 1 1) 0 fun _ => 0)))) :=
    .cons (.step rfl (.done rfl)) (.cons (.step rfl (.done rfl)) .nil)
  rw [h.det h'] at hv
  revert hv
  decide

end RG.Bodies
