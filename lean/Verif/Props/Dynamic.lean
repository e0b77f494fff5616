import Verif.Lemmas.DynamicExec
import Verif.Model.Code
import Verif.Props.Bodies
/-
C77: programs whose tasks depend on the data compute the same as the sequential program.
-/
set_option linter.unusedVariables false
namespace RG.Dyn
open RG.Graph
open RG.Bodies (Runtime Sound graph_sound graphExc natOp)

variable {cfg cfg' : Cfg} {R : Runtime} {M : Type} {P : Prog M} {m0 : M} {careful : Bool}

/-! ### Memory locations, and what a body may do with them -/

/-- The body with the name `p`, whose task has declared the accesses `d`, may use the location with mode `o`. The
variables of a body can be used by the bodies above it, too. -/
def Uses (d : User) (p : List Nat) (o : Mode) : Place → Prop
  | .shared r pos => ∃ ra ∈ d.access, ra.res = r ∧ Bodies.Covers ra o pos
  | .own q _ => p <+: q ∧ o = .write

/-- The action does what the task has declared, and nothing else. `op o` is the operation that tasks with mode `o`
(atomic addition or multiplication, io.hpp:30-31) apply. -/
structure Keeps {V B : Type} (op : Mode → V → V → V) (d : User) (p : List Nat) (f : (Place → V) → B × (Place → V)) :
    Prop where
  /-- locations that are only read or not mentioned at all do not change -/
  frame : ∀ m x, (∀ o, Uses d p o x → o = .read) → (f m).2 x = m x
  /-- what happens next depends only on the locations that the body reads or writes -/
  goes : ∀ m1 m2, (∀ x, Uses d p .read x ∨ Uses d p .write x → m1 x = m2 x) → (f m1).1 = (f m2).1
  /-- the new value of a location depends only on these and its old value -/
  value : ∀ m1 m2 x, (∀ x, Uses d p .read x ∨ Uses d p .write x → m1 x = m2 x) → m1 x = m2 x → (f m1).2 x = (f m2).2 x
  /-- a location with atomic additions only is only added to, and likewise for multiplications -/
  update : ∀ m1 m2 x o, (∀ x, Uses d p .read x ∨ Uses d p .write x → m1 x = m2 x) → (∀ o', Uses d p o' x → o' = o) →
    Uses d p o x → o ≠ .read → o ≠ .write → ∃ a, (f m1).2 x = op o (m1 x) a ∧ (f m2).2 x = op o (m2 x) a

/-- The bodies of the tasks do what the tasks have declared. (The main program is not a task, and may do anything.) -/
def Honest {V : Type} (op : Mode → V → V → V) (P : Prog (Place → V)) : Prop :=
  ∀ p d k b f, Occ P p (some d) k b → P.pt b = .act f → Keeps op d p f

theorem compatible {d d' : User} {p q : List Nat} (hty : ∀ a ∈ d.access, ∀ b ∈ d'.access, a.res = b.res → a.ty = b.ty)
    (hc : d.isSerial d' = false) (hpq : ¬ p <+: q) (hqp : ¬ q <+: p) {a b : Mode} {x : Place} (ha : Uses d p a x)
    (hb : Uses d' q b x) : Compatible a b := by
  cases x with
  | own v i =>
    rcases Nat.le_total p.length q.length with h | h
    · exact absurd (List.prefix_of_prefix_length_le ha.1 hb.1 h) hpq
    · exact absurd (List.prefix_of_prefix_length_le hb.1 ha.1 h) hqp
  | shared r pos =>
    obtain ⟨ra, h1, h2, h3⟩ := ha
    obtain ⟨rb, h4, h5, h6⟩ := hb
    have hty := hty ra h1 rb h4 (by rw [h2, h5])
    have no : ∀ (p : Policy) (x y : Acc p), (⟨p, r, x⟩ : RAccess) ∈ d.access →
        (⟨p, r, y⟩ : RAccess) ∈ d'.access → Acc.isSerial p x y = false := by
      intro p x y hx hy
      apply Bool.eq_false_iff.2
      intro h
      rw [(C07_conflict_iff d d').2 ⟨p, r, x, y, hx, hy, h⟩] at hc
      cases hc
    cases h3 with
    | io =>
      cases h6 with
      | io =>
        cases h2
        cases h5
        exact (Mode.not_serial_iff _ _).1 (no .io _ _ h1 h4)
      | field h => cases hty
    | @field r' dim o A pos h =>
      cases h6 with
      | io => cases hty
      | @field r'' dim' o' A' pos' h' =>
        cases h2
        cases h5
        cases hty
        exact C06_no_conflict_no_shared_element _ _ _ _ (no _ _ _ h1 h4) _ h h'

/-- C77: actions of bodies of which none is above the other are independent of each other if the bodies do only what
their tasks have declared and if the tasks do not conflict. -/
theorem C77_declared_is_enough {V : Type} {op : Mode → V → V → V} {P : Prog (Place → V)}
    (hop : ∀ o v a b, op o (op o v a) b = op o (op o v b) a) {d d' : User} {p q : List Nat}
    (hty : ∀ a ∈ d.access, ∀ b ∈ d'.access, a.res = b.res → a.ty = b.ty) (hc : d.isSerial d' = false)
    (hpq : ¬ p <+: q) (hqp : ¬ q <+: p) {b b' : P.B} (hb : ∀ f, P.pt b = .act f → Keeps op d p f)
    (hb' : ∀ f, P.pt b' = .act f → Keeps op d' q f) : Free P b b' := by
  intro f f' hf hf' m
  have h := hb f hf
  have h' := hb' f' hf'
  have hc : ∀ {a b : Mode} {x : Place}, Uses d p a x → Uses d' q b x → Compatible a b := compatible hty hc hpq hqp
  have e1 : ∀ x, Uses d' q .read x ∨ Uses d' q .write x → (f m).2 x = m x := by
    intro x hx
    refine h.frame m x fun o ho => ?_
    rcases hx with hx | hx
    · exact (hc ho hx).1
    · have := hc ho hx
      exact absurd this.1 this.2
  have e2 : ∀ x, Uses d p .read x ∨ Uses d p .write x → (f' m).2 x = m x := by
    intro x hx
    refine h'.frame m x fun o ho => ?_
    rcases hx with hx | hx
    · exact (hc hx ho).1.symm
    · exact absurd rfl (hc hx ho).2
  refine ⟨h'.goes _ _ e1, h.goes _ _ e2, ?_⟩
  funext x
  by_cases ht : ∀ o, Uses d p o x → o = .read
  · rw [h.frame _ x ht]
    exact h'.value _ _ x (fun x hx => (e1 x hx).symm) (h.frame m x ht).symm
  · by_cases hu : ∀ o, Uses d' q o x → o = .read
    · rw [h'.frame _ x hu]
      exact h.value _ _ x e2 (h'.frame m x hu)
    · have ht' : ∃ o, Uses d p o x ∧ o ≠ .read := by
        apply Classical.byContradiction
        intro h'
        exact ht fun o ho => Classical.byContradiction fun h'' => h' ⟨o, ho, h''⟩
      have hu' : ∃ o, Uses d' q o x ∧ o ≠ .read := by
        apply Classical.byContradiction
        intro h'
        exact hu fun o ho => Classical.byContradiction fun h'' => h' ⟨o, ho, h''⟩
      obtain ⟨o, ho, hor⟩ := ht'
      obtain ⟨o', ho', _⟩ := hu'
      have hoo := hc ho ho'
      have hot : ∀ a, Uses d p a x → a = o := fun a ha => by
        rw [(hc ha ho').1, hoo.1]
      have hou : ∀ a, Uses d' q a x → a = o := fun a ha => ((hc ho ha).1).symm
      have ho'' : Uses d' q o x := by rw [hoo.1]; exact ho'
      obtain ⟨a, h4, h5⟩ := h.update m (f' m).2 x o (fun x hx => (e2 x hx).symm) hot ho hor hoo.2
      obtain ⟨b, h6, h7⟩ := h'.update m (f m).2 x o (fun x hx => (e1 x hx).symm) hou ho'' hor hoo.2
      rw [h5, h6, h7, h4, hop]

/-- the same for a program if all resources were created outside of tasks -/
theorem Honest.declared {V : Type} {op : Mode → V → V → V} {P : Prog (Place → V)} (h : Honest op P)
    (hop : ∀ o v a b, op o (op o v a) b = op o (op o v b) a) (hw : cfg.WellFormed)
    (hroot : ∀ t, ∀ ra ∈ (cfg.user t).access, ra.res.scope = 0) : Declared cfg P := by
  intro t u p q k j b b' h1 h2 h3 h4 h5
  apply Classical.byContradiction
  intro h6
  refine h5 (C77_declared_is_enough hop (fun a ha b hb => hw.policy t u a b ha hb) ?_ h3 h4
    (fun f => h p _ k b f h1) (fun f => h q _ j b' f h2))
  apply Bool.eq_false_iff.2
  intro h7
  obtain ⟨ty, r, x, y, h8, h9, h10⟩ := (C07_conflict_iff _ _).1 h7
  exact h6 ⟨r, ⟨ty, x, y, h8, h9, h10⟩, shared_of_root (hroot t _ h8)⟩

/-! ### The theorems -/

/-- C77: when the main program is complete and all tasks have returned, the memory is the one that the sequential
program computes, in which every task is executed right away when it is submitted.
Partial: the execution has to be `careful`, and nested programs are restricted by `NestingOk`, see
`C77_early_return_false` and `C77_careless_false`; for structured programs see `C77_structured_like_sequential`. -/
theorem C77_like_sequential_partial (hP : Proper cfg P) (ht : NestingOk cfg) {x : St (Bodies.graph cfg) P}
    (hr : Reach cfg (Bodies.graph cfg) P true m0 x) (he : ∀ t, t < State.n x.s → State.ex x.s t = .ended)
    (hm : P.pt (x.loc 0) = .done) : Seq P P.main m0 x.m :=
  sequential hP ht graph_sound hr he (.done hm)

theorem all_ended {s : State} (ht : NestingOk cfg) (hr : Graph.Reach cfg s) {sp : Nat}
    (hroot : ∀ t, cfg.parentOf t = none → cfg.space t = sp) (h : s.empty sp = true) :
    ∀ t, t < s.n → s.ex t = .ended := by
  intro t htn
  have hu := Up.reach hr
  obtain ⟨b, h1, h2⟩ := root_exists hu t htn
  have hb : b < s.n := Nat.lt_of_le_of_lt (h2.le hu htn) htn
  have hf := (C21_barrier_waits_for_all_partial ht hr h b hb (hroot b h1)).1
  have all : ∀ c b, Descends cfg c b → c < s.n → Finished cfg s b → Finished cfg s c := by
    intro c b hd
    induction hd with
    | refl => exact fun _ h => h
    | @child c q p hq hd ih =>
      intro hc hf
      have := ih (by have := hu c q hc hq; omega) hf
      cases this with
      | mk _ _ h3 => exact h3 c hc hq
  cases all t b h2 htn hf with
  | mk h _ _ => exact h

/-- C77: when `barrier()` returns in the midst of the main program, the rest of the main program will find the memory
as it is in the sequential program: the rest, executed sequentially, leads to the result of the sequential program. -/
theorem C77_after_barrier_partial (hP : Proper cfg P) (ht : NestingOk cfg) {x : St (Bodies.graph cfg) P}
    (hr : Reach cfg (Bodies.graph cfg) P true m0 x) {sp : Nat} (hroot : ∀ t, cfg.parentOf t = none → cfg.space t = sp)
    (h : State.empty x.s sp = true) {m : M} (hm : Seq P (x.loc 0) x.m m) : Seq P P.main m0 m :=
  sequential hP ht graph_sound hr (all_ended ht (Sound.reach graph_sound hr.rt) hroot h) hm

/-- C77: two executions compute the same, also if the tasks have been submitted in different orders, because
different bodies have submitted them. -/
theorem C77_deterministic_partial (hP : Proper cfg P) (hP' : Proper cfg' P) (ht : NestingOk cfg) (ht' : NestingOk cfg')
    {x : St (Bodies.graph cfg) P} {y : St (Bodies.graph cfg') P} (hx : Reach cfg (Bodies.graph cfg) P true m0 x)
    (hy : Reach cfg' (Bodies.graph cfg') P true m0 y) (hex : ∀ t, t < State.n x.s → State.ex x.s t = .ended)
    (hey : ∀ t, t < State.n y.s → State.ex y.s t = .ended) (hmx : P.pt (x.loc 0) = .done)
    (hmy : P.pt (y.loc 0) = .done) : x.m = y.m :=
  (C77_like_sequential_partial hP ht hx hex hmx).det (C77_like_sequential_partial hP' ht' hy hey hmy)

/-- C77: if the bodies wait for the tasks that they have submitted before they use the shared memory again and before
they return, then nothing else has to be assumed about the execution. -/
theorem C77_structured_like_sequential (hP : Proper cfg P) (hS : Structured P) {x : St (Bodies.graph cfg) P}
    (hr : Reach cfg (Bodies.graph cfg) P careful m0 x) (he : ∀ t, t < State.n x.s → State.ex x.s t = .ended)
    (hm : P.pt (x.loc 0) = .done) : Seq P P.main m0 x.m :=
  sequential_structured hP hS graph_sound hr he (.done hm)

/-- C77: likewise two executions of such a program compute the same. -/
theorem C77_structured_deterministic (hP : Proper cfg P) (hP' : Proper cfg' P) (hS : Structured P)
    {x : St (Bodies.graph cfg) P} {y : St (Bodies.graph cfg') P} (hx : Reach cfg (Bodies.graph cfg) P false m0 x)
    (hy : Reach cfg' (Bodies.graph cfg') P false m0 y) (hex : ∀ t, t < State.n x.s → State.ex x.s t = .ended)
    (hey : ∀ t, t < State.n y.s → State.ex y.s t = .ended) (hmx : P.pt (x.loc 0) = .done)
    (hmy : P.pt (y.loc 0) = .done) : x.m = y.m :=
  (C77_structured_like_sequential hP hS hx hex hmx).det (C77_structured_like_sequential hP' hS hy hey hmy)

/-! ### A small programming language -/

variable {ι : Type}

/-- The body with the name `p`, whose task has the accesses number `d`, keeps to its declaration, and so do the tasks
that it submits; their accesses are included in its own. `k` tasks have been submitted already. -/
def Code.Fits (tbl : ι → User) : Code ι → List Nat → Option ι → Nat → Prop
  | .get x c, p, d, k => (∀ a, d = some a → Uses (tbl a) p .read x ∨ Uses (tbl a) p .write x) ∧
      ∀ v, (c v).Fits tbl p d k
  | .put x _ c, p, d, k => (∀ a, d = some a → Uses (tbl a) p .write x) ∧ c.Fits tbl p d k
  | .add x _ c, p, d, k => (∀ a, d = some a → Uses (tbl a) p .aadd x ∨ Uses (tbl a) p .write x) ∧ c.Fits tbl p d k
  | .call a c1 c, p, d, k => (∀ a', d = some a' → (tbl a').isSuperset (tbl a) = true) ∧
      c1.Fits tbl (p ++ [k + 1]) (some a) 0 ∧ c.Fits tbl p d (k + 1)
  | .wait _ c, p, d, k => c.Fits tbl p d k
  | .ret, _, _, _ => True

inductive Use | reads | writes | adds

/-- Two uses of locations can be exchanged. -/
def Apart (a : Use) (x : Place) (b : Use) (y : Place) : Prop := x ≠ y ∨ (a = b ∧ a ≠ .writes)

/-- Everything that the body and the tasks that it submits use is allowed. -/
def Code.Only (ok : Use → Place → Prop) : Code ι → Prop
  | .get x k => ok .reads x ∧ ∀ v, (k v).Only ok
  | .put x _ k => ok .writes x ∧ k.Only ok
  | .add x _ k => ok .adds x ∧ k.Only ok
  | .call _ c k => c.Only ok ∧ k.Only ok
  | .wait _ k => k.Only ok
  | .ret => True

/-- Bodies wait for the tasks that they have submitted before they use locations that these tasks use, and before they
return. `k` tasks have been submitted, `o` are those that the body has not waited for. -/
def Code.Joined : Code ι → Nat → (Nat → Option (Code ι)) → Prop
  | .get x c, k, o => (∀ j d, o j = some d → d.Only (Apart .reads x)) ∧ ∀ v, (c v).Joined k o
  | .put x _ c, k, o => (∀ j d, o j = some d → d.Only (Apart .writes x)) ∧ c.Joined k o
  | .add x _ c, k, o => (∀ j d, o j = some d → d.Only (Apart .adds x)) ∧ c.Joined k o
  | .call _ c1 c, k, o => c1.Joined 0 (fun _ => none) ∧ c.Joined (k + 1) (upd o k (some c1))
  | .wait w c, k, o => c.Joined k fun j => if w j then none else o j
  | .ret, _, o => ∀ j, o j = none

/-- the same for the main program -/
def Code.Waits (c : Code ι) : Prop := c.Joined 0 fun _ => none

variable {tbl : ι → User} {c : Code ι}

theorem seq_code : ∀ (b : Code ι) (m : Mem), Seq (code tbl c) b m (b.run m) := by
  intro b
  induction b with
  | get x k ih => exact fun m => .act (f := fun m => (k (m x), m)) rfl (ih _ m)
  | put x v k ih => exact fun m => .act (f := fun m => (k, store x v m)) rfl (ih (store x v m))
  | add x v k ih => exact fun m => .act (f := fun m => (k, store x (m x + v) m)) rfl (ih (store x (m x + v) m))
  | call a c1 k ih1 ih2 => exact fun m => .spawn rfl (ih1 m) (ih2 (c1.run m))
  | wait w k ih => exact fun m => .join rfl (ih m)
  | ret => exact fun m => .done rfl

theorem occ_fits (h : c.Fits tbl [] none 0) {p : List Nat} {d : Option User} {k : Nat} {b : (code tbl c).B}
    (ho : Occ (code tbl c) p d k b) : ∃ a : Option ι, d = a.map tbl ∧ Code.Fits tbl b p a k := by
  induction ho with
  | main => exact ⟨none, rfl, h⟩
  | @act p d k b f m ho h1 ih =>
    obtain ⟨a, e, hf⟩ := ih
    refine ⟨a, e, ?_⟩
    cases b <;> cases h1
    · exact hf.2 _
    · exact hf.2
    · exact hf.2
  | @next p d k b d' c1 b' ho h1 ih =>
    obtain ⟨a, e, hf⟩ := ih
    refine ⟨a, e, ?_⟩
    cases b <;> cases h1
    exact hf.2.2
  | @child p d k b d' c1 b' ho h1 ih =>
    obtain ⟨a, e, hf⟩ := ih
    cases b <;> cases h1
    exact ⟨some _, rfl, hf.2.1⟩
  | @join p d k b w b' ho h1 ih =>
    obtain ⟨a, e, hf⟩ := ih
    refine ⟨a, e, ?_⟩
    cases b <;> cases h1
    exact hf

theorem has_joined (h : c.Waits) {k : Nat} {o : Nat → Option (code tbl c).B} {b : (code tbl c).B}
    (ho : Has (code tbl c) k o b) : Code.Joined b k o := by
  induction ho with
  | main => exact h
  | @act k o b f m ho h1 ih =>
    cases b <;> cases h1
    · exact ih.2 _
    · exact ih.2
    · exact ih.2
  | @next k o b d c1 b' ho h1 ih => cases b <;> cases h1; exact ih.2
  | @child k o b d c1 b' ho h1 ih => cases b <;> cases h1; exact ih.1
  | @join k o b w b' ho h1 ih => cases b <;> cases h1; exact ih

theorem from_only {ok : Use → Place → Prop} {b b' : (code tbl c).B} (h : From (code tbl c) b b')
    (hb : Code.Only ok b) : Code.Only ok b' := by
  induction h with
  | refl => exact hb
  | @act b1 f m h h1 ih =>
    cases b1 <;> cases h1
    · exact ih.2 _
    · exact ih.2
    · exact ih.2
  | @next b1 d c1 b2 h h1 ih => cases b1 <;> cases h1; exact ih.2
  | @child b1 d c1 b2 h h1 ih => cases b1 <;> cases h1; exact ih.1
  | @join b1 w b2 h h1 ih => cases b1 <;> cases h1; exact ih

theorem store_comm {x y : Place} (h : x ≠ y) (v w : Nat) (m : Mem) :
    store x v (store y w m) = store y w (store x v m) := by
  funext z
  unfold store
  by_cases h1 : z = x
  · subst h1; simp [h]
  · by_cases h2 : z = y
    · subst h2; simp [h1]
    · simp [h1, h2]

theorem store_ne {x y : Place} (h : x ≠ y) (v : Nat) (m : Mem) : store x v m y = m y :=
  if_neg fun e => h e.symm

theorem add_comm_store (x : Place) (v w : Nat) (m : Mem) :
    store x (store x (m x + w) m x + v) (store x (m x + w) m) =
      store x (store x (m x + v) m x + w) (store x (m x + v) m) := by
  funext z
  unfold store
  by_cases h1 : z = x
  · subst h1; simp; omega
  · simp [h1]

theorem apart_free {b b' : (code tbl c).B} {ok : Use → Place → Prop} (hb : Code.Only ok b')
    (h : match b with
      | Code.get x _ => ∀ u y, ok u y → Apart .reads x u y
      | Code.put x _ _ => ∀ u y, ok u y → Apart .writes x u y
      | Code.add x _ _ => ∀ u y, ok u y → Apart .adds x u y
      | _ => True) : Free (code tbl c) b b' := by
  intro f f' hf hf' m
  cases b <;> cases hf <;> cases b' <;> cases hf' <;> rcases h _ _ hb.1 with h1 | ⟨h1, h2⟩ <;>
    first
    | cases h1; done
    | exact absurd rfl h2
    | skip
  all_goals dsimp only
  all_goals first
    | exact ⟨rfl, rfl, rfl⟩
    | exact ⟨rfl, congrArg _ (store_ne h1.symm _ _), rfl⟩
    | exact ⟨congrArg _ (store_ne h1 _ _), rfl, rfl⟩
    | exact ⟨rfl, rfl, store_comm h1 _ _ _⟩
    | (refine ⟨rfl, rfl, ?_⟩; rw [store_ne h1]; exact store_comm h1 _ _ _)
    | (refine ⟨rfl, rfl, ?_⟩; rw [store_ne h1.symm]; exact store_comm h1 _ _ _)
    | (refine ⟨rfl, rfl, ?_⟩; rw [store_ne h1, store_ne h1.symm]; exact store_comm h1 _ _ _)
    | skip
  rename_i x v k y w k'
  by_cases e : x = y
  · subst e
    exact ⟨rfl, rfl, add_comm_store _ _ _ _⟩
  · refine ⟨rfl, rfl, ?_⟩
    rw [store_ne e, store_ne (Ne.symm e)]
    exact store_comm e _ _ _

theorem code_structured (h : c.Waits) : Structured (code tbl c) where
  act k o b ho f hf j d hd b' hb := by
    have hj := has_joined h ho
    refine apart_free (ok := match b with
      | Code.get x _ => Apart .reads x
      | Code.put x _ _ => Apart .writes x
      | Code.add x _ _ => Apart .adds x
      | _ => fun _ _ => True) ?_ ?_
    · cases b <;> cases hf <;> exact from_only hb (hj.1 j d hd)
    · cases b <;> cases hf <;> exact fun _ _ h => h
  done k o b ho hd := by
    have := has_joined h ho
    cases b <;> cases hd
    exact this

theorem natOp_comm (o : Mode) (v a b : Nat) : natOp o (natOp o v a) b = natOp o (natOp o v b) a := by
  cases o <;> simp only [natOp]
  · omega
  · omega
  · omega
  · rw [Nat.mul_assoc, Nat.mul_comm a b, Nat.mul_assoc]

theorem unit (o : Mode) : ∃ a : Nat, ∀ v, v = natOp o v a := by
  cases o
  · exact ⟨0, fun v => rfl⟩
  · exact ⟨0, fun v => rfl⟩
  · exact ⟨0, fun v => rfl⟩
  · exact ⟨1, fun v => (Nat.mul_one v).symm⟩

theorem code_honest (h : c.Fits tbl [] none 0) : Honest natOp (code tbl c) := by
  intro p d k b f ho hf
  obtain ⟨a, e, hb⟩ := occ_fits h ho
  cases a with
  | none => cases e
  | some a =>
    cases e
    cases b <;> cases hf
    · rename_i x kk
      constructor
      · exact fun m y _ => rfl
      · exact fun m1 m2 he => congrArg kk (he x (hb.1 a rfl))
      · exact fun m1 m2 y _ hy => hy
      · intro m1 m2 y o _ _ _ _ _
        obtain ⟨a, ha⟩ := unit o
        exact ⟨a, ha _, ha _⟩
    · rename_i x v kk
      have hw := hb.1 a rfl
      constructor
      · intro m y hy
        have : y ≠ x := by
          rintro rfl
          cases hy _ hw
        exact if_neg this
      · exact fun m1 m2 _ => rfl
      · intro m1 m2 y _ hy
        simp only [store, hy]
      · intro m1 m2 y o _ ho' _ hr hwr
        have : y ≠ x := by
          rintro rfl
          exact hwr (ho' _ hw).symm
        obtain ⟨a, ha⟩ := unit o
        exact ⟨a, (if_neg this).trans (ha _), (if_neg this).trans (ha _)⟩
    · rename_i x v kk
      have hw := hb.1 a rfl
      constructor
      · intro m y hy
        have : y ≠ x := by
          rintro rfl
          rcases hw with hw | hw <;> cases hy _ hw
        exact if_neg this
      · exact fun m1 m2 _ => rfl
      · intro m1 m2 y _ hy
        simp only [store]
        split
        · rename_i e; subst e; rw [hy]
        · exact hy
      · intro m1 m2 y o _ ho' _ hr hwr
        by_cases hy : y = x
        · subst hy
          rcases hw with hw | hw
          · cases ho' _ hw
            exact ⟨v, if_pos rfl, if_pos rfl⟩
          · exact absurd (ho' _ hw).symm hwr
        · obtain ⟨a, ha⟩ := unit o
          exact ⟨a, (if_neg hy).trans (ha _), (if_neg hy).trans (ha _)⟩

theorem code_proper (h : c.Fits tbl [] none 0) (hw : cfg.WellFormed) (hs : cfg.single = true) (ho : OneSpace cfg)
    (hroot : ∀ t, ∀ ra ∈ (cfg.user t).access, ra.res.scope = 0) : Proper cfg (code tbl c) where
  wf := hw
  single := hs
  one := ho
  covered p d k b d' c1 b' hoc hb := by
    obtain ⟨a, e, hf⟩ := occ_fits h hoc
    cases b <;> cases hb
    cases a <;> cases e
    exact hf.1 _ rfl
  declared := (code_honest h).declared natOp_comm hw hroot

/-- C77: If every task does what it has declared (`Fits`) and bodies wait for the tasks that they have submitted before
they use their data and before they return (`Waits`), then every execution that comes to its end has computed what the sequential program computes. -/
theorem C77_checked_programs (hf : c.Fits tbl [] none 0) (hj : c.Waits) (hw : cfg.WellFormed)
    (hs : cfg.single = true) (ho : OneSpace cfg) (hroot : ∀ t, ∀ ra ∈ (cfg.user t).access, ra.res.scope = 0)
    {m0 : Mem} {x : St (Bodies.graph cfg) (code tbl c)} (hr : Reach cfg (Bodies.graph cfg) (code tbl c) false m0 x)
    (he : ∀ t, t < State.n x.s → State.ex x.s t = .ended) (hm : x.loc 0 = Code.ret) : x.m = c.run m0 :=
  (C77_structured_like_sequential (code_proper hf hw hs ho hroot) (code_structured hj) hr he
    (by rw [hm]; rfl)).det (seq_code c m0)

/-! ### Examples -/

/-- accesses of tasks -/
def users (acc : Nat → List (Res × Mode)) (a : Nat) : User :=
  declare 0 [.resources ((acc a).map fun x => ⟨.io, x.1, x.2⟩)]

theorem uses (acc : Nat → List (Res × Mode)) {a : Nat} {p : List Nat} {r : Res} {o : Mode} (h : (r, o) ∈ acc a) :
    Uses (users acc a) p o (.shared r []) :=
  ⟨⟨.io, r, o⟩, List.mem_map.2 ⟨(r, o), h, rfl⟩, rfl, .io⟩

/-- A task is submitted with the accesses number `tag n`. -/
def declared (tag : Nat → Nat) (n : Nat) : Code → Bool
  | .call a _ _ => a == tag n
  | _ => false

theorem declared_user {acc : Nat → List (Res × Mode)} {c : Code} {tag space : Nat → Nat} {parent : Nat → Option Nat}
    {strict single : Bool} (n : Nat) (b : Code) (d : User) (c1 b' : Code) (h : declared tag n b = true)
    (hp : (code (users acc) c).pt b = .spawn d c1 b') :
    (prog (fun n => acc (tag n)) space parent strict single).user n = d := by
  cases b with
  | call a _ _ =>
    cases hp
    simp only [declared, beq_iff_eq] at h
    subst h
    rfl
  | _ => cases h

def aPlace : Place := .shared rA []
def bPlace : Place := .shared rB []

/-- 0 writes A, 1 reads A and writes B, 2 writes B, 3 reads B -/
def dynAcc : Nat → List (Res × Mode)
  | 0 => [(rA, .write)]
  | 1 => [(rA, .read), (rB, .write)]
  | 2 => [(rB, .write)]
  | 3 => [(rB, .read)]
  | _ => []

/-- The second task submits a task if it finds 2 in A. The third task returns the value of B. The main program waits
for the third task and uses its result, and then it waits for all tasks. -/
def dynCode : Code :=
  .call 0 (.put aPlace 2 .ret) <|
  .call 1 (.get aPlace fun v => if v = 2 then .call 2 (.put bPlace 7 .ret) (.all .ret) else .ret) <|
  .call 3 (.get bPlace fun w => .put (.own [3] 0) w .ret) <|
  .fut 2 <| .get (.own [3] 0) fun v => .put (.own [] 0) (v + 1) <| .all .ret

theorem dyn_fits : dynCode.Fits (users dynAcc) [] none 0 := by
  have no : ∀ {p : Nat → Prop} (a : Nat), none = some a → p a := fun a h => by cases h
  refine ⟨no, ⟨?_, trivial⟩, no, ⟨?_, ?_⟩, no, ⟨?_, ?_⟩, no, fun v => ⟨no, trivial⟩⟩
  · rintro a ⟨⟩
    exact uses dynAcc (by decide)
  · rintro a ⟨⟩
    exact .inl (uses dynAcc (by decide))
  · intro v
    dsimp only
    split
    · refine ⟨?_, ⟨?_, trivial⟩, trivial⟩
      · rintro a ⟨⟩
        decide +kernel
      · rintro a ⟨⟩
        exact uses dynAcc (by decide)
    · trivial
  · rintro a ⟨⟩
    exact .inl (uses dynAcc (by decide))
  · intro v
    refine ⟨?_, trivial⟩
    rintro a ⟨⟩
    exact ⟨List.prefix_refl _, rfl⟩

theorem dyn_joined : dynCode.Waits := by
  have no : ∀ {p : Nat → Code → Prop} (j : Nat) (d : Code), none = some d → p j d := fun j d h => by cases h
  have nl : ∀ (j : Nat), (none : Option Code) = none := fun _ => rfl
  have na : ∀ {l x}, Place.own l x ≠ aPlace := fun h => by cases h
  have nb : ∀ {l x}, Place.own l x ≠ bPlace := fun h => by cases h
  have key : ∀ (u : Use) (l : List Nat) (x : Nat) (j : Nat) (d : Code),
      (if (j == 2) = true then none else upd (upd (upd (fun _ => none) 0 (some (Code.put aPlace 2 .ret))) 1
        (some (.get aPlace fun v => if v = 2 then .call 2 (.put bPlace 7 .ret) (.all .ret) else .ret))) 2
        (some (.get bPlace fun w => .put (.own [3] 0) w .ret)) j) = some d → d.Only (Apart u (.own l x)) := by
    intro u l x j d h
    match j, h with
    | 0, h => cases h; exact ⟨.inl na, trivial⟩
    | 1, h =>
      cases h
      refine ⟨.inl na, fun v => ?_⟩
      dsimp only
      split
      · exact ⟨⟨.inl nb, trivial⟩, trivial⟩
      · trivial
    | 2, h => cases h
    | _ + 3, h => cases h
  refine ⟨⟨no, nl⟩, ⟨no, fun v => ?_⟩, ⟨no, fun v => ⟨no, nl⟩⟩, key _ _ _, fun v => ⟨key _ _ _, fun j => rfl⟩⟩
  dsimp only
  split
  · exact ⟨⟨no, nl⟩, fun j => rfl⟩
  · exact nl

/-- one of the tasks with the numbers 2 and 3 is the child of task 1 -/
def dynCfg (child : Nat) (tag : Nat → Nat) (strict : Bool) : Cfg :=
  prog (fun n => dynAcc (tag n)) (fun n => if n = child then 1 else 0) (fun sp => if sp = 1 then some 1 else none)
    strict true

/-- the child of task 1 is submitted before the third task of the main program -/
def dynActs1 : List (Act Graph.Act) :=
  gs (doSubmit 0 ++ doSubmit 1 ++ doInit 0 ++ doInit 1 ++ [.start 0]) ++ [.act 1] ++
  gs ([.ret 0] ++ doFlush 0 ++ [.start 1]) ++ [.act 2] ++ gs (doSubmit 2 ++ doInit 2 ++ [.start 2]) ++ [.act 3] ++
  gs [.ret 2] ++ [.join 2] ++ gs ([.ret 1] ++ doFlush 2 ++ doFlush 1 ++ doSubmit 3 ++ doInit 3 ++ [.start 3]) ++
  [.act 4, .act 4] ++ gs ([.ret 3] ++ doFlush 3 ++ (List.range 4).flatMap fun t => times 2 (.take t) ++ times 2 (.free t)) ++
  [.join 0, .act 0, .act 0, .join 0]

def dyn1 : St (Bodies.graph (dynCfg 2 id true)) (code (users dynAcc) dynCode) :=
  run (dynCfg 2 id true) (code (users dynAcc) dynCode) (graphExc _) (declared id) false (start _ _ fun _ => 0) dynActs1

/-- the third task of the main program is submitted before the child of task 1, but it is executed after it -/
def dynTag : Nat → Nat
  | 2 => 3
  | 3 => 2
  | n => n

def dynActs2 : List (Act Graph.Act) :=
  gs (doSubmit 0 ++ doSubmit 1 ++ doSubmit 2 ++ doInit 0 ++ doInit 1 ++ doInit 2 ++ [.start 0]) ++ [.act 1] ++
  gs ([.ret 0] ++ doFlush 0 ++ [.start 1]) ++ [.act 2] ++ gs (doSubmit 3 ++ doInit 3 ++ [.start 3]) ++ [.act 4] ++
  gs [.ret 3] ++ [.join 2] ++ gs ([.ret 1] ++ doFlush 3 ++ doFlush 1 ++ [.start 2]) ++
  [.act 3, .act 3, .join 0, .act 0, .act 0] ++ gs ([.ret 2] ++ doFlush 2) ++ [.join 0]

def dyn2 : St (Bodies.graph (dynCfg 3 dynTag false)) (code (users dynAcc) dynCode) :=
  run (dynCfg 3 dynTag false) (code (users dynAcc) dynCode) (graphExc _) (declared dynTag) false (start _ _ fun _ => 0)
    dynActs2


theorem dyn_oneSpace (child : Nat) (tag : Nat → Nat) (b : Bool) : OneSpace (dynCfg child tag b) := by
  intro x y h
  simp only [dynCfg, prog, Cfg.parentOf] at h ⊢
  by_cases hx : x = child <;> by_cases hy : y = child <;> simp [hx, hy] at h ⊢

theorem users_root {acc : Nat → List (Res × Mode)} (h : ∀ a, ∀ x ∈ acc a, x.1.scope = 0) (a : Nat) :
    ∀ ra ∈ (users acc a).access, ra.res.scope = 0 := by
  intro ra hm
  obtain ⟨x, hx, rfl⟩ := List.mem_map.1 (show ra ∈ (acc a).map fun x => (⟨.io, x.1, x.2⟩ : RAccess) from hm)
  exact h a x hx

theorem dyn_root (child : Nat) (tag : Nat → Nat) (b : Bool) (t : Nat) :
    ∀ ra ∈ ((dynCfg child tag b).user t).access, ra.res.scope = 0 := by
  refine users_root (acc := fun n => dynAcc (tag n)) (fun a x hx => ?_) t
  generalize tag a = a at hx
  match a, hx with
  | 0, hx => cases List.mem_singleton.1 hx; rfl
  | 1, hx =>
    rcases List.mem_cons.1 hx with rfl | hx
    · rfl
    · cases List.mem_singleton.1 hx; rfl
  | 2, hx => cases List.mem_singleton.1 hx; rfl
  | 3, hx => cases List.mem_singleton.1 hx; rfl

theorem dyn_proper (child : Nat) (tag : Nat → Nat) (b : Bool) :
    Proper (dynCfg child tag b) (code (users dynAcc) dynCode) :=
  code_proper dyn_fits (prog_wellFormed _ _ _ _ _) rfl (dyn_oneSpace _ _ _) (dyn_root _ _ _)

theorem dyn1_reach : Reach (dynCfg 2 id true) (Bodies.graph (dynCfg 2 id true)) (code (users dynAcc) dynCode) false
    (fun _ => 0) dyn1 := run_reach (by simp) declared_user

theorem dyn2_reach : Reach (dynCfg 3 dynTag false) (Bodies.graph (dynCfg 3 dynTag false)) (code (users dynAcc) dynCode)
    false (fun _ => 0) dyn2 := run_reach (by simp) declared_user

set_option maxRecDepth 100000 in
theorem dyn1_facts : State.n dyn1.s = 4 ∧ (∀ t, t < 4 → State.ex dyn1.s t = .ended) ∧
    (code (users dynAcc) dynCode).pt (dyn1.loc 0) = .done ∧ dyn1.m (.own [] 0) = 8 ∧
    State.empty dyn1.s 0 = true :=
  ⟨by decide +kernel, by decide +kernel, isDone_iff.1 (by decide +kernel), by decide +kernel, by decide +kernel⟩

set_option maxRecDepth 100000 in
theorem dyn2_facts : State.n dyn2.s = 4 ∧ (∀ t, t < 4 → State.ex dyn2.s t = .ended) ∧
    (code (users dynAcc) dynCode).pt (dyn2.loc 0) = .done ∧ dyn2.m (.own [] 0) = 8 :=
  ⟨by decide +kernel, by decide +kernel, isDone_iff.1 (by decide +kernel), by decide +kernel⟩

/-- the hypotheses of `C77_structured_like_sequential` and `C77_structured_deterministic`: the tasks have different
numbers in the two executions -/
example : Proper (dynCfg 2 id true) (code (users dynAcc) dynCode) ∧
    Proper (dynCfg 3 dynTag false) (code (users dynAcc) dynCode) ∧ Structured (code (users dynAcc) dynCode) ∧
    (∃ x : St (Bodies.graph (dynCfg 2 id true)) (code (users dynAcc) dynCode),
      Reach (dynCfg 2 id true) (Bodies.graph (dynCfg 2 id true)) (code (users dynAcc) dynCode) false (fun _ => 0) x ∧
      State.n x.s = 4 ∧ (∀ t, t < 4 → State.ex x.s t = .ended) ∧
      (code (users dynAcc) dynCode).pt (x.loc 0) = .done ∧ x.m (.own [] 0) = 8 ∧ State.empty x.s 0 = true) ∧
    ∃ x : St (Bodies.graph (dynCfg 3 dynTag false)) (code (users dynAcc) dynCode),
      Reach (dynCfg 3 dynTag false) (Bodies.graph (dynCfg 3 dynTag false)) (code (users dynAcc) dynCode) false
        (fun _ => 0) x ∧
      State.n x.s = 4 ∧ (∀ t, t < 4 → State.ex x.s t = .ended) ∧
      (code (users dynAcc) dynCode).pt (x.loc 0) = .done ∧ x.m (.own [] 0) = 8 :=
  ⟨dyn_proper _ _ _, dyn_proper _ _ _, code_structured dyn_joined, ⟨dyn1, dyn1_reach, dyn1_facts⟩,
    dyn2, dyn2_reach, dyn2_facts⟩

/-- those of `C77_checked_programs` -/
example : dynCode.Fits (users dynAcc) [] none 0 ∧ dynCode.Waits ∧ (dynCfg 3 dynTag false).WellFormed ∧
    (dynCfg 3 dynTag false).single = true ∧ OneSpace (dynCfg 3 dynTag false) ∧
    (∀ t, ∀ ra ∈ ((dynCfg 3 dynTag false).user t).access, ra.res.scope = 0) ∧
    dynCode.run (fun _ => 0) (.own [] 0) = 8 :=
  ⟨dyn_fits, dyn_joined, prog_wellFormed _ _ _ _ _, rfl, dyn_oneSpace _ _ _, dyn_root _ _ _, rfl⟩

theorem careful_of_structured (hS : Structured P) (hst : cfg.strict = true) {x : St (Bodies.graph cfg) P}
    (h : Reach cfg (Bodies.graph cfg) P careful m0 x) : Reach cfg (Bodies.graph cfg) P true m0 x := by
  cases cfg
  cases hst
  exact (structured_careful hS h).1

/-- those of `C77_like_sequential_partial`, `C77_after_barrier_partial` and `C77_deterministic_partial`: structured
programs are careful -/
example : NestingOk (dynCfg 2 id true) ∧ (∀ t, (dynCfg 2 id true).parentOf t = none → (dynCfg 2 id true).space t = 0) ∧
    ∃ x : St (Bodies.graph (dynCfg 2 id true)) (code (users dynAcc) dynCode),
      Reach (dynCfg 2 id true) (Bodies.graph (dynCfg 2 id true)) (code (users dynAcc) dynCode) true (fun _ => 0) x ∧
      State.n x.s = 4 ∧ (∀ t, t < 4 → State.ex x.s t = .ended) ∧
      (code (users dynAcc) dynCode).pt (x.loc 0) = .done ∧ x.m (.own [] 0) = 8 ∧ State.empty x.s 0 = true :=
  ⟨.inl rfl, fun t h => by
    simp only [dynCfg, prog, Cfg.parentOf] at h ⊢
    by_cases ht : t = 2 <;> simp [ht] at h ⊢, dyn1,
    careful_of_structured (code_structured dyn_joined) rfl dyn1_reach, dyn1_facts⟩

/-- those of `C77_declared_is_enough`: the first and the third task of the main program -/
example : (∀ a ∈ (users dynAcc 0).access, ∀ b ∈ (users dynAcc 3).access, a.res = b.res → a.ty = b.ty) ∧
    (users dynAcc 0).isSerial (users dynAcc 3) = false ∧ ¬ [1] <+: [3] ∧ ¬ [3] <+: [1] ∧
    (∀ f, (code (users dynAcc) dynCode).pt (.put aPlace 2 .ret) = .act f → Keeps natOp (users dynAcc 0) [1] f) ∧
    (∀ f, (code (users dynAcc) dynCode).pt (.put (.own [3] 0) 7 .ret) = .act f →
      Keeps natOp (users dynAcc 3) [3] f) := by
  have h1 : Occ (code (users dynAcc) dynCode) [1] (some (users dynAcc 0)) 0 (Code.put aPlace 2 .ret) :=
    .child .main rfl
  have h2 : Occ (code (users dynAcc) dynCode) [3] (some (users dynAcc 3)) 0
      ((fun w => Code.put (.own [3] 0) w .ret) ((fun _ => 7 : Mem) bPlace)) :=
    Occ.act (P := code (users dynAcc) dynCode)
      (f := fun m => ((fun w => Code.put (.own [3] 0) w .ret) (m bPlace), m)) (m := fun _ => 7)
      (.child (.next (.next .main rfl) rfl) rfl) rfl
  exact ⟨fun a ha b hb _ => by
    obtain ⟨x, _, rfl⟩ := List.mem_map.1
      (show a ∈ (dynAcc 0).map fun x => (⟨.io, x.1, x.2⟩ : RAccess) from ha)
    obtain ⟨y, _, rfl⟩ := List.mem_map.1
      (show b ∈ (dynAcc 3).map fun x => (⟨.io, x.1, x.2⟩ : RAccess) from hb)
    rfl, by decide +kernel, by decide, by decide, fun f => code_honest dyn_fits _ _ _ _ f h1,
    fun f => code_honest dyn_fits _ _ _ _ f h2⟩

/-! A body returns without waiting for its child, which reads A. -/

def lateCode : Code :=
  .call 0 (.call 1 (.get aPlace fun v => .put (.own [1, 1] 0) v .ret) .ret) <| .call 2 (.put aPlace 7 .ret) .ret

def lateActs : List (Act Graph.Act) :=
  gs (doSubmit 0 ++ doInit 0 ++ [.start 0] ++ doSubmit 1 ++ [.ret 0] ++ doFlush 0 ++ doSubmit 2 ++ doInit 2 ++
    [.start 2]) ++ [.act 3] ++ gs ([.ret 2] ++ doInit 1 ++ [.start 1]) ++ [.act 2, .act 2] ++ gs [.ret 1]

def late : St (Bodies.graph (nest false)) (code (users nestAcc) lateCode) :=
  run (nest false) (code (users nestAcc) lateCode) (graphExc _) (declared id) true (start _ _ fun _ => 0) lateActs


theorem late_fits : lateCode.Fits (users nestAcc) [] none 0 := by
  have no : ∀ {p : Nat → Prop} (a : Nat), none = some a → p a := fun a h => by cases h
  refine ⟨no, ⟨?_, ⟨?_, fun v => ⟨?_, trivial⟩⟩, trivial⟩, no, ⟨?_, trivial⟩, trivial⟩
  · rintro a ⟨⟩
    decide +kernel
  · rintro a ⟨⟩
    exact .inl (uses nestAcc (by decide))
  · rintro a ⟨⟩
    exact ⟨List.prefix_refl _, rfl⟩
  · rintro a ⟨⟩
    exact uses nestAcc (by decide)

set_option maxRecDepth 100000 in
/-- C77 is false for bodies that return before the tasks that they have submitted are initialised: the child reads
what a task has written that comes later in the sequential program. -/
theorem C77_early_return_false : Proper (nest false) (code (users nestAcc) lateCode) ∧
    ∃ x : St (Bodies.graph (nest false)) (code (users nestAcc) lateCode),
      Reach (nest false) (Bodies.graph (nest false)) (code (users nestAcc) lateCode) true (fun _ => 0) x ∧
      (∀ t, t < State.n x.s → State.ex x.s t = .ended) ∧ (code (users nestAcc) lateCode).pt (x.loc 0) = .done ∧
      ¬ Seq (code (users nestAcc) lateCode) lateCode (fun _ => 0) x.m := by
  refine ⟨code_proper late_fits (prog_wellFormed _ _ _ _ _) rfl (nest_oneSpace _) (Bodies.nest_root _), late,
    run_reach (fun _ => graph_sound) (declared_user (tag := id)), by decide +kernel, isDone_iff.1 (by decide +kernel),
    fun h => ?_⟩
  have hv : late.m (.own [1, 1] 0) = 7 := by decide +kernel
  rw [h.det (seq_code lateCode _)] at hv
  revert hv
  decide

/-! The main program uses A without waiting for the task that writes A. -/

def carelessCode : Code := .call 0 (.put aPlace 5 .ret) <| .get aPlace fun v => .put (.own [] 0) v .ret

def careless : St (Bodies.graph flat) (code (users flatAcc) carelessCode) :=
  run flat (code (users flatAcc) carelessCode) (graphExc _) (declared id) false (start _ _ fun _ => 0)
    (gs (doSubmit 0 ++ doInit 0) ++ [.act 0, .act 0] ++ gs [.start 0] ++ [.act 1] ++ gs [.ret 0])

theorem careless_fits : carelessCode.Fits (users flatAcc) [] none 0 := by
  have no : ∀ {p : Nat → Prop} (a : Nat), none = some a → p a := fun a h => by cases h
  refine ⟨no, ⟨?_, trivial⟩, no, fun v => ⟨no, trivial⟩⟩
  rintro a ⟨⟩
  exact uses flatAcc (by decide)

set_option maxRecDepth 100000 in
/-- C77 is false if the main program (or a body) uses the data of a task that it has submitted without waiting for
it. -/
theorem C77_careless_false : Proper flat (code (users flatAcc) carelessCode) ∧ NestingOk flat ∧
    ∃ x : St (Bodies.graph flat) (code (users flatAcc) carelessCode),
      Reach flat (Bodies.graph flat) (code (users flatAcc) carelessCode) false (fun _ => 0) x ∧
      (∀ t, t < State.n x.s → State.ex x.s t = .ended) ∧ (code (users flatAcc) carelessCode).pt (x.loc 0) = .done ∧
      ¬ Seq (code (users flatAcc) carelessCode) carelessCode (fun _ => 0) x.m := by
  refine ⟨code_proper careless_fits (prog_wellFormed _ _ _ _ _) rfl (fun _ _ _ => rfl) ?_, .inl rfl, careless,
    run_reach (by simp) (declared_user (tag := id)), by decide +kernel, isDone_iff.1 (by decide +kernel), fun h => ?_⟩
  · refine users_root fun a x hx => ?_
    match a, hx with
    | 0, hx => cases List.mem_singleton.1 hx; rfl
    | 1, hx =>
      rcases List.mem_cons.1 hx with rfl | hx
      · rfl
      · cases List.mem_singleton.1 hx; rfl
    | 2, hx => cases List.mem_singleton.1 hx; rfl
    | _ + 3, hx => cases List.mem_singleton.1 hx; rfl
  · have hv : careless.m (.own [] 0) = 0 := by decide +kernel
    rw [h.det (seq_code carelessCode _)] at hv
    revert hv
    decide

end RG.Dyn
