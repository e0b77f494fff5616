import Verif.Lemmas.DynamicRun
/-
C80: total correctness of programs on workers.
-/
set_option linter.unusedVariables false
namespace RG.Dyn
open RG.Graph

variable {N : Nat} {M : Type} {P : Prog M} {m0 : M}

/-- C80: a state in which no worker and no other thread can make a step is one in which the main program is complete,
all tasks have completely finished, and all workers sleep with empty queues. -/
theorem C80_no_deadlock (hS : Structured P) (ho : Orderly P) (hN : 0 < N) {x : Conf P} (hr : PReach N P m0 x)
    (hq : ∀ x', ¬ PStep N P (fun c => Sys.OwnWork c N) x x') :
    P.pt (x.loc 0) = .done ∧ (∀ t, t < x.n → Finished x.cfg x.s.x.g t ∧ x.s.x.w t = none) ∧
    ∀ w, w < N → x.s.pc w = .waiting ∧ (x.s.cv w).ws 0 = .asleep ∧ x.s.ready w = [] ∧ x.s.new w = [] :=
  run_no_deadlock hS hN ho hr hq

/-- C80: there are no infinite executions, if bodies can not run forever by themselves (`Next`) and do not create events
forever, except for idle steps: tests of the condition that a worker waits for, and wake-ups for no reason. -/
theorem C80_ends (hw : WellFounded (Next P)) {x : Conf P} (hr : PReach N P m0 x) :
    ¬ ∃ f : Nat → Conf P, f 0 = x ∧ ∀ i, PStep N P (fun c => Sys.Work c N) (f i) (f (i + 1)) :=
  run_no_infinite hw hr

theorem preach_own {x y : Conf P} (hr : PReach N P m0 x)
    (h : Relation.ReflTransGen (PStep N P fun c => Sys.OwnWork c N) x y) : PReach N P m0 y := by
  induction h with
  | refl => exact hr
  | tail _ hs ih => exact .step ih hs.any

/-- C80: from every state on, the execution can be continued to one in which no thread can make a step. -/
theorem C80_comes_to_rest (hw : WellFounded (Next P)) {x : Conf P} (hr : PReach N P m0 x) :
    ∃ y, Relation.ReflTransGen (PStep N P fun c => Sys.OwnWork c N) x y ∧
      ∀ x', ¬ PStep N P (fun c => Sys.OwnWork c N) y x' := by
  apply Classical.byContradiction
  intro hno
  have go : ∀ y : { y // Relation.ReflTransGen (PStep N P fun c => Sys.OwnWork c N) x y },
      ∃ z : { y // Relation.ReflTransGen (PStep N P fun c => Sys.OwnWork c N) x y },
        PStep N P (fun c => Sys.OwnWork c N) y.1 z.1 := by
    intro y
    apply Classical.byContradiction
    intro h
    exact hno ⟨y.1, y.2, fun z hz => h ⟨⟨z, y.2.tail hz⟩, hz⟩⟩
  let F : Nat → { y // Relation.ReflTransGen (PStep N P fun c => Sys.OwnWork c N) x y } :=
    fun i => Nat.rec ⟨x, .refl⟩ (fun _ y => Classical.choose (go y)) i
  have hF : ∀ i, PStep N P (fun c => Sys.OwnWork c N) (F i).1 (F (i + 1)).1 := fun i => Classical.choose_spec (go (F i))
  exact C80_ends hw hr ⟨fun i => (F i).1, rfl, fun i => (hF i).mono fun _ _ _ h => h.1⟩

section
variable {V : Type} {op : Mode → V → V → V} {P : Prog (Place → V)} {m0 : Place → V}

/-- What a user has to observe: the bodies do what their tasks have declared, the accesses of a task include the ones of
the tasks that it submits, and bodies wait for the tasks that they have submitted before they use their data and before
they return. All resources are created outside of tasks. -/
structure Disciplined (op : Mode → V → V → V) (P : Prog (Place → V)) : Prop where
  orderly : Orderly P
  honest : Honest op P
  covered : Covered P
  structured : Structured P
  root : ∀ d, Declares P d → ∀ ra ∈ d.access, ra.res.scope = 0

theorem Disciplined.proper (h : Disciplined op P) (hop : ∀ o v a b, op o (op o v a) b = op o (op o v b) a)
    {x : Conf P} (hx : Recorded x) : Proper x.cfg P where
  wf := h.orderly.wf hx
  single := rfl
  one := oneSpace_tasks
  covered := h.covered
  declared := h.honest.declared hop (h.orderly.wf hx) fun t ra hra => by
    rcases hx.user t with h1 | h1
    · exact absurd (show ra ∈ noUser.access from h1 ▸ hra) List.not_mem_nil
    · exact h.root _ h1 ra hra

/-- C80: what the workers have computed when the main program is complete and all tasks have ended is what the
sequential program computes. -/
theorem C80_like_sequential (hP : Disciplined op P) (hop : ∀ o v a b, op o (op o v a) b = op o (op o v b) a)
    {x : Conf P} (hr : PReach N P m0 x) (he : ∀ t, t < x.n → x.s.x.g.ex t = .ended) (hm : P.pt (x.loc 0) = .done) :
    Seq P P.main m0 x.m :=
  C79_like_sequential (hP.proper hop hr.recorded) hP.structured hr.wreach he hm

/-- C80: total correctness. There is one result `m`, the one of the sequential program, such that on every number of
workers every execution ends, and when nothing more can happen, then all tasks have finished and the memory is `m`. -/
theorem C80_total (hP : Disciplined op P) (hop : ∀ o v a b, op o (op o v a) b = op o (op o v b) a)
    (hw : WellFounded (Next P)) (m0 : Place → V) : ∃ m, Seq P P.main m0 m ∧ ∀ N, 0 < N → ∀ x, PReach N P m0 x →
      (¬ ∃ f : Nat → Conf P, f 0 = x ∧ ∀ i, PStep N P (fun c => Sys.Work c N) (f i) (f (i + 1))) ∧
      ((∀ x', ¬ PStep N P (fun c => Sys.OwnWork c N) x x') →
        (∀ t, t < x.n → Finished x.cfg x.s.x.g t) ∧ x.m = m) := by
  have fin : ∀ N, 0 < N → ∀ x, PReach N P m0 x → (∀ x', ¬ PStep N P (fun c => Sys.OwnWork c N) x x') →
      (∀ t, t < x.n → Finished x.cfg x.s.x.g t) ∧ Seq P P.main m0 x.m := by
    intro N hN x hr hq
    obtain ⟨h1, h2, -⟩ := C80_no_deadlock hP.structured hP.orderly hN hr hq
    refine ⟨fun t ht => (h2 t ht).1, C80_like_sequential hP hop hr (fun t ht => ?_) h1⟩
    cases (h2 t ht).1 with
    | mk h _ _ => exact h
  obtain ⟨y, h1, h2⟩ := C80_comes_to_rest hw (PReach.init (N := 1) (P := P) (m0 := m0))
  have hy := (fin 1 Nat.one_pos y (preach_own .init h1) h2).2
  refine ⟨y.m, hy, fun N hN x hr => ⟨C80_ends hw hr, fun hq => ?_⟩⟩
  obtain ⟨h3, h4⟩ := fin N hN x hr hq
  exact ⟨h3, h4.det hy⟩

end

variable {ι : Type} {tbl : ι → User} {c : Code ι}

theorem code_declares {d : User} (h : Declares (code tbl c) d) : ∃ a, d = tbl a := by
  obtain ⟨b, c1, b', -, h⟩ := h
  cases b <;> cases h
  exact ⟨_, rfl⟩

/-- What is assumed about the accesses of the tasks, `tbl a` being those of the tasks with the name `a`. -/
structure TableOk (tbl : ι → User) : Prop where
  built : ∀ a, ∃ sd ds, tbl a = declare sd ds
  policy : ∀ a b, ∀ x ∈ (tbl a).access, ∀ y ∈ (tbl b).access, x.res = y.res → x.ty = y.ty
  once : ∀ a, (tbl a).unique.Nodup ∨ (tbl a).isSerial (tbl a) = false
  root : ∀ a, ∀ x ∈ (tbl a).access, x.res.scope = 0

theorem code_disciplined (ht : TableOk tbl) (hf : c.Fits tbl [] none 0) (hj : c.Waits) :
    Disciplined Bodies.natOp (code tbl c) where
  orderly :=
    { built := fun d h => by obtain ⟨a, rfl⟩ := code_declares h; exact ht.built a
      policy := fun d d' h h' => by
        obtain ⟨a, rfl⟩ := code_declares h
        obtain ⟨b, rfl⟩ := code_declares h'
        exact ht.policy a b
      once := fun d h => by obtain ⟨a, rfl⟩ := code_declares h; exact ht.once a }
  honest := code_honest hf
  covered p d k b d' c1 b' hoc hb := by
    obtain ⟨a, e, hf⟩ := occ_fits hf hoc
    cases b <;> cases hb
    cases a <;> cases e
    exact hf.1 _ rfl
  structured := code_structured hj
  root d h := by obtain ⟨a, rfl⟩ := code_declares h; exact ht.root a

/-- C80: Every execution of a checked program, on any number of workers, ends. When nothing more can happen, all tasks
have finished, and the memory is what the sequential program computes. -/
theorem C80_checked_programs (ht : TableOk tbl) (hf : c.Fits tbl [] none 0) (hj : c.Waits) (hN : 0 < N) {m0 : Mem}
    {x : Conf (code tbl c)} (hr : PReach N (code tbl c) m0 x) :
    (¬ ∃ f : Nat → Conf (code tbl c), f 0 = x ∧ ∀ i, PStep N (code tbl c) (fun c => Sys.Work c N) (f i) (f (i + 1))) ∧
    ((∀ x', ¬ PStep N (code tbl c) (fun c => Sys.OwnWork c N) x x') →
      (∀ t, t < x.n → Finished x.cfg x.s.x.g t) ∧ x.m = c.run m0) := by
  obtain ⟨m, h1, h2⟩ := C80_total (code_disciplined ht hf hj) natOp_comm code_next m0
  obtain ⟨h3, h4⟩ := h2 N hN x hr
  exact ⟨h3, fun hq => ⟨(h4 hq).1, (h4 hq).2.trans (h1.det (seq_code c m0))⟩⟩

/-! ### Examples -/

theorem users_ok {acc : Nat → List (Res × Mode)} (hs : ∀ a, ∀ x ∈ acc a, x.1.scope = 0) : TableOk (users acc) where
  built a := ⟨_, _, rfl⟩
  policy a b x hx y hy _ := by
    obtain ⟨x', -, rfl⟩ := List.mem_map.1 hx
    obtain ⟨y', -, rfl⟩ := List.mem_map.1 hy
    rfl
  once a := .inl (C54_resources_registers_once 0 [] _)
  root a x hx := by
    obtain ⟨x', hx', rfl⟩ := List.mem_map.1 hx
    exact hs a x' hx'

theorem dyn_ok : TableOk (users dynAcc) := users_ok fun a x hx => by
  match a with
  | 0 => revert x; decide
  | 1 => revert x; decide
  | 2 => revert x; decide
  | 3 => revert x; decide
  | _ + 4 => cases hx

set_option maxRecDepth 100000 in
/-- the hypotheses of the theorems hold for `dynCode`, whose tasks depend on the data: on any number of workers it comes
to its end with the result 8 -/
example (N : Nat) (hN : 0 < N) : Disciplined Bodies.natOp (code (users dynAcc) dynCode) ∧
    WellFounded (Next (code (users dynAcc) dynCode)) ∧
    ∃ x : Conf (code (users dynAcc) dynCode), PReach N (code (users dynAcc) dynCode) (fun _ => 0) x ∧
      (∀ x', ¬ PStep N (code (users dynAcc) dynCode) (fun c => Sys.OwnWork c N) x x') ∧ x.m (.own [] 0) = 8 := by
  refine ⟨code_disciplined dyn_ok dyn_fits dyn_joined, code_next, ?_⟩
  obtain ⟨y, h1, h2⟩ := C80_comes_to_rest code_next (PReach.init (N := N) (P := code (users dynAcc) dynCode))
  refine ⟨y, preach_own .init h1, h2, ?_⟩
  rw [((C80_checked_programs dyn_ok dyn_fits dyn_joined hN (preach_own .init h1)).2 h2).2]
  decide +kernel

end RG.Dyn
