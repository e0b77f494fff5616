import Verif.Lemmas.DynamicProgress
import Verif.Props.Dynamic
/-
C78: programs whose tasks depend on the data come to their end.
-/
set_option linter.unusedVariables false
namespace RG.Dyn
open RG.Graph
open RG.Bodies (Sound graph_sound graphExc)

variable {cfg : Cfg} {M : Type} {P : Prog M} {m0 : M} {careful : Bool}

/-- C78: a state in which no thread can make a step, and in which no body is about to submit a task, is one in which
the main program is complete and all tasks have completely finished. In particular, bodies that wait for tasks do not
wait for each other.
Partial: nested programs are restricted by `NestingOk`; for structured programs see `C78_structured_no_deadlock`. -/
theorem C78_no_deadlock_partial (ht : NestingOk cfg) (hs : cfg.Safe) {x : St (Bodies.graph cfg) P}
    (hr : Reach cfg (Bodies.graph cfg) P careful m0 x) (hq : ∀ x', ¬ Own cfg P x x')
    (hsp : ∀ i d c b, Active x.s i → P.pt (x.loc i) ≠ .spawn d c b) :
    P.pt (x.loc 0) = .done ∧ ∀ t, t < State.n x.s → Finished cfg x.s t := no_deadlock ht hs hr hq hsp

/-- C78: the same for programs whose bodies wait for the tasks that they have submitted. -/
theorem C78_structured_no_deadlock (hS : Structured P) (hs : cfg.Safe) {x : St (Bodies.graph cfg) P}
    (hr : Reach cfg (Bodies.graph cfg) P careful m0 x) (hq : ∀ x', ¬ Own cfg P x x')
    (hsp : ∀ i d c b, Active x.s i → P.pt (x.loc i) ≠ .spawn d c b) :
    P.pt (x.loc 0) = .done ∧ ∀ t, t < State.n x.s → Finished cfg x.s t := no_deadlock_structured hS hs hr hq hsp

/-- C78: a body that is about to submit a task is not kept from doing so: if the next task of the execution is this one,
then a step is possible. -/
theorem C78_submission_possible (hS : Structured P) {x : St (Bodies.graph cfg) P}
    (hr : Reach cfg (Bodies.graph cfg) P careful m0 x) {d : User} {c b : P.B}
    (ha : Active x.s (owner cfg (State.n x.s))) (hp : P.pt (x.loc (owner cfg (State.n x.s))) = .spawn d c b)
    (hd : cfg.user (State.n x.s) = d) : ∃ x', Own cfg P x x' := by
  have hg : Graph.Reach { cfg with strict := true } x.s :=
    Sound.reach (R := Bodies.graph _) graph_sound (structured_careful hS hr).1.rt
  have hi := Core.reach (.inl rfl) hg
  by_cases h : ∃ t i, State.ph x.s t = .submitting i
  · obtain ⟨t, i, h⟩ := h
    have hle : i ≤ (cfg.res t).length := hi.idxSub t i h
    rcases Nat.lt_or_ge i (cfg.res t).length with hlt | hge
    · exact ⟨{ x with s := _ }, .rt (R := Bodies.graph cfg) ⟨_, .pushUser h (List.getElem?_eq_getElem hlt)⟩ rfl
        (fun t h1 h2 => absurd h1 h2), rfl, fun _ h => h⟩
    · refine ⟨{ x with s := _ }, .rt (R := Bodies.graph cfg) ⟨_, .emplace h (by omega)⟩ rfl
        (fun t h1 h2 => absurd h1 h2), rfl, fun u hu => ?_⟩
      by_cases e : u = t
      · subst e; exact upd_same _ _ _
      · exact (upd_ne _ _ e).trans hu
  · refine ⟨{ x with s := _, loc := _ }, .submit (R := Bodies.graph cfg) ⟨_, .beginSubmit ?_ ?_⟩ rfl
      (fun t h1 h2 => absurd h1 h2) hp hd, rfl, fun _ h => h⟩
    · intro q hq
      unfold owner at ha
      rw [hq] at ha
      exact ha
    · exact fun _ t i _ _ h1 => h ⟨t, i, h1⟩

/-- C78: there are no infinite executions, if bodies can not run forever by themselves (`Next`) and do not create events
forever. Partial: as above. -/
theorem C78_ends_partial (ht : NestingOk cfg) (hw : WellFounded (Next P)) {x : St (Bodies.graph cfg) P}
    (hr : Reach cfg (Bodies.graph cfg) P careful m0 x) :
    ¬ ∃ f : Nat → St (Bodies.graph cfg) P, f 0 = x ∧ ∀ i, Step cfg (Bodies.graph cfg) P false (f i) (f (i + 1)) ∧
      State.nExt (f (i + 1)).s = State.nExt (f i).s :=
  no_infinite ht hw (Sound.reach (R := Bodies.graph cfg) graph_sound hr.rt)

/-- C78: the same for programs whose bodies wait for the tasks that they have submitted. -/
theorem C78_structured_ends (hS : Structured P) (hw : WellFounded (Next P)) {x : St (Bodies.graph cfg) P}
    (hr : Reach cfg (Bodies.graph cfg) P false m0 x) :
    ¬ ∃ f : Nat → St (Bodies.graph cfg) P, f 0 = x ∧ ∀ i, Step cfg (Bodies.graph cfg) P false (f i) (f (i + 1)) ∧
      State.nExt (f (i + 1)).s = State.nExt (f i).s := by
  rintro ⟨f, h0, h⟩
  have hreach : ∀ i, Reach cfg (Bodies.graph cfg) P false m0 (f i) := by
    intro i
    induction i with
    | zero => rw [h0]; exact hr
    | succ i ih => exact .step ih (h i).1
  exact no_infinite (cfg := { cfg with strict := true }) (.inl rfl) hw (x := ⟨x.s, x.m, x.loc⟩)
    (Sound.reach (R := Bodies.graph _) graph_sound (structured_careful hS hr).1.rt)
    ⟨fun i => ⟨(f i).s, (f i).m, (f i).loc⟩, by subst h0; rfl, fun i => ⟨step_strict hS (hreach i) (h i).1, (h i).2⟩⟩

theorem reach_own {x y : St (Bodies.graph cfg) P} (hr : Reach cfg (Bodies.graph cfg) P false m0 x)
    (h : Relation.ReflTransGen (Own cfg P) x y) : Reach cfg (Bodies.graph cfg) P false m0 y := by
  induction h with
  | refl => exact hr
  | tail _ hs ih => exact .step ih hs.1

/-- C78: from every state on, the execution can be continued to one in which no thread can make a step. -/
theorem C78_comes_to_rest (hS : Structured P) (hw : WellFounded (Next P)) {x : St (Bodies.graph cfg) P}
    (hr : Reach cfg (Bodies.graph cfg) P false m0 x) :
    ∃ y, Relation.ReflTransGen (Own cfg P) x y ∧ ∀ x', ¬ Own cfg P y x' := by
  apply Classical.byContradiction
  intro hno
  have go : ∀ y : { y // Relation.ReflTransGen (Own cfg P) x y }, ∃ z : { y // Relation.ReflTransGen (Own cfg P) x y },
      Own cfg P y.1 z.1 := by
    intro y
    apply Classical.byContradiction
    intro h
    exact hno ⟨y.1, y.2, fun z hz => h ⟨⟨z, y.2.tail hz⟩, hz⟩⟩
  let F : Nat → { y // Relation.ReflTransGen (Own cfg P) x y } :=
    fun i => Nat.rec ⟨x, .refl⟩ (fun _ y => Classical.choose (go y)) i
  have hF : ∀ i, Own cfg P (F i).1 (F (i + 1)).1 := fun i => Classical.choose_spec (go (F i))
  exact C78_structured_ends hS hw hr ⟨fun i => (F i).1, rfl, fun i => ⟨(hF i).1, (hF i).2.1⟩⟩

/-! ### Checked programs -/

variable {ι : Type} {tbl : ι → User} {c : Code ι}

theorem code_next : WellFounded (Next (code tbl c)) := by
  have acc : ∀ b : Code ι, _root_.Acc (Next (code tbl c)) b := by
    intro b
    induction b with
    | get x k ih =>
      constructor
      intro y hy
      generalize hb : Code.get x k = b at hy
      cases hy with
      | act m h => subst hb; cases h; exact ih _
      | next h => subst hb; cases h
      | child h => subst hb; cases h
      | join h => subst hb; cases h
    | put x v k ih =>
      constructor
      intro y hy
      generalize hb : Code.put x v k = b at hy
      cases hy with
      | act m h => subst hb; cases h; exact ih
      | next h => subst hb; cases h
      | child h => subst hb; cases h
      | join h => subst hb; cases h
    | add x v k ih =>
      constructor
      intro y hy
      generalize hb : Code.add x v k = b at hy
      cases hy with
      | act m h => subst hb; cases h; exact ih
      | next h => subst hb; cases h
      | child h => subst hb; cases h
      | join h => subst hb; cases h
    | call a c1 k ih1 ih2 =>
      constructor
      intro y hy
      generalize hb : Code.call a c1 k = b at hy
      cases hy with
      | act m h => subst hb; cases h
      | next h => subst hb; cases h; exact ih2
      | child h => subst hb; cases h; exact ih1
      | join h => subst hb; cases h
    | wait w k ih =>
      constructor
      intro y hy
      generalize hb : Code.wait w k = b at hy
      cases hy with
      | act m h => subst hb; cases h
      | next h => subst hb; cases h
      | child h => subst hb; cases h
      | join h => subst hb; cases h; exact ih
    | ret =>
      constructor
      intro y hy
      generalize hb : Code.ret = b at hy
      cases hy with
      | act m h => subst hb; cases h
      | next h => subst hb; cases h
      | child h => subst hb; cases h
      | join h => subst hb; cases h
  exact ⟨acc⟩

/-- C78: Every execution of a checked program ends. When nothing more can happen, all tasks have finished, and the
memory is what the sequential program computes. -/
theorem C78_checked_programs_end (hf : c.Fits tbl [] none 0) (hj : c.Waits) (hw : cfg.WellFormed)
    (hs : cfg.Safe) (ho : OneSpace cfg) (hroot : ∀ t, ∀ ra ∈ (cfg.user t).access, ra.res.scope = 0)
    {m0 : Mem} {x : St (Bodies.graph cfg) (code tbl c)} (hr : Reach cfg (Bodies.graph cfg) (code tbl c) false m0 x) :
    (¬ ∃ f : Nat → St (Bodies.graph cfg) (code tbl c), f 0 = x ∧ ∀ i,
      Step cfg (Bodies.graph cfg) (code tbl c) false (f i) (f (i + 1)) ∧
        State.nExt (f (i + 1)).s = State.nExt (f i).s) ∧
    ((∀ x', ¬ Own cfg (code tbl c) x x') → (∀ i a c' b, Active x.s i → x.loc i ≠ Code.call a c' b) →
      (∀ t, t < State.n x.s → Finished cfg x.s t) ∧ x.m = c.run m0) := by
  refine ⟨C78_structured_ends (code_structured hj) code_next hr, fun hq hsp => ?_⟩
  have key := C78_structured_no_deadlock (code_structured hj) hs hr hq fun i d c1 b ha hp => by
    cases hl : (x.loc i : Code ι) with
    | call a c' k => exact hsp i a c' k ha hl
    | _ => rw [hl] at hp; cases hp
  refine ⟨key.2, ?_⟩
  refine C77_checked_programs hf hj hw hs.single ho hroot hr (fun t ht => ?_) ?_
  · cases key.2 t ht with
    | mk h _ _ => exact h
  · have := key.1
    cases hl : (x.loc 0 : Code ι) with
    | ret => rfl
    | _ => rw [hl] at this; cases this

/-! ### Examples -/

theorem active_le {x : St (Bodies.graph cfg) P} (hr : Reach cfg (Bodies.graph cfg) P careful m0 x) {i : Nat}
    (ha : Active x.s i) : i ≤ State.n x.s := by
  match i, ha with
  | 0, _ => exact Nat.zero_le _
  | t + 1, ha =>
    apply Classical.byContradiction
    intro hlt
    have : State.ex x.s t = .none := (Dom.reach (Sound.reach (R := Bodies.graph cfg) graph_sound hr.rt)).ex t
      (by show State.n x.s ≤ t; omega)
    exact absurd (this.symm.trans ha) (by simp)

/-- when the bodies have returned, nothing is submitted any more, and the memory stays as it is -/
theorem rest_keeps {x y : St (Bodies.graph cfg) P} {n : Nat}
    (hr : Reach cfg (Bodies.graph cfg) P false m0 x) (hn : State.n x.s = n) (hl : ∀ i, i ≤ n → P.pt (x.loc i) = .done)
    (ho : owner cfg n ≤ n) (h : Relation.ReflTransGen (Own cfg P) x y) :
    State.n y.s = n ∧ (∀ i, i ≤ n → P.pt (y.loc i) = .done) ∧ y.m = x.m := by
  induction h with
  | refl => exact ⟨hn, hl, rfl⟩
  | @tail y z hxy hs ih =>
    obtain ⟨h1, h2, h3⟩ := ih
    have act : ∀ i, Active y.s i → i ≤ n := fun i ha => h1 ▸ active_le (reach_own hr hxy) ha
    obtain ⟨hs, _, _⟩ := hs
    cases hs with
    | rt h hn' hret => exact ⟨hn'.trans h1, h2, h3⟩
    | submit h hn' hret hp hd =>
      have := h2 (owner cfg n) ho
      rw [show (Bodies.graph cfg).g y.s = y.s from rfl, show State.n y.s = n from h1, this] at hp
      cases hp
    | act h hp hm => rw [h2 _ (act _ h)] at hp; cases hp
    | join h hp hc => rw [h2 _ (act _ h)] at hp; cases hp

theorem dyn_safe (child : Nat) (tag : Nat → Nat) (b : Bool) : (dynCfg child tag b).Safe :=
  ⟨rfl, fun t => .inl (by
    show ((users dynAcc (tag t)).unique).Nodup
    generalize tag t = a
    match a with
    | 0 => decide +kernel
    | 1 => decide +kernel
    | 2 => decide +kernel
    | 3 => decide +kernel
    | _ + 4 => exact C54_resources_registers_once 0 [] _)⟩

set_option maxRecDepth 100000 in
theorem dyn1_done : ∀ i, i ≤ 4 → (code (users dynAcc) dynCode).pt (dyn1.loc i) = .done := by
  intro i hi
  have : ∀ i < 5, isDone ((code (users dynAcc) dynCode).pt (dyn1.loc i)) = true := by decide +kernel
  exact isDone_iff.1 (this i (by omega))

set_option maxRecDepth 100000 in
/-- the hypotheses of `C78_no_deadlock_partial`, `C78_structured_no_deadlock`, `C78_ends_partial`,
`C78_structured_ends`, `C78_comes_to_rest` and `C78_checked_programs_end`: there is a state in which the four tasks of
the program have been submitted and no thread can make a step -/
example : dynCode.Fits (users dynAcc) [] none 0 ∧ dynCode.Waits ∧ (dynCfg 2 id true).WellFormed ∧
    (dynCfg 2 id true).Safe ∧ OneSpace (dynCfg 2 id true) ∧ NestingOk (dynCfg 2 id true) ∧
    (∀ t, ∀ ra ∈ ((dynCfg 2 id true).user t).access, ra.res.scope = 0) ∧
    Structured (code (users dynAcc) dynCode) ∧ WellFounded (Next (code (users dynAcc) dynCode)) ∧
    ∃ x : St (Bodies.graph (dynCfg 2 id true)) (code (users dynAcc) dynCode),
      Reach (dynCfg 2 id true) (Bodies.graph (dynCfg 2 id true)) (code (users dynAcc) dynCode) false (fun _ => 0) x ∧
      State.n x.s = 4 ∧ (∀ x', ¬ Own (dynCfg 2 id true) (code (users dynAcc) dynCode) x x') ∧
      (∀ i a c b, Active x.s i → x.loc i ≠ Code.call a c b) ∧ x.m (.own [] 0) = 8 := by
  refine ⟨dyn_fits, dyn_joined, prog_wellFormed _ _ _ _ _, dyn_safe _ _ _, dyn_oneSpace _ _ _, .inl rfl, dyn_root _ _ _,
    code_structured dyn_joined, code_next, ?_⟩
  obtain ⟨y, h1, h2⟩ := C78_comes_to_rest (code_structured dyn_joined) code_next dyn1_reach
  obtain ⟨h3, h4, h5⟩ := rest_keeps dyn1_reach dyn1_facts.1 dyn1_done (by decide) h1
  refine ⟨y, reach_own dyn1_reach h1, h3, h2, fun i a c b ha hb => ?_, h5 ▸ dyn1_facts.2.2.2.1⟩
  have hle : i ≤ 4 := h3 ▸ active_le (reach_own dyn1_reach h1) ha
  have := h4 i hle
  rw [hb] at this
  cases this

set_option maxRecDepth 100000 in
/-- the hypotheses of `C78_submission_possible`: task 1 is about to submit its child -/
example : ∃ x : St (Bodies.graph (dynCfg 2 id true)) (code (users dynAcc) dynCode), ∃ d c b,
    Reach (dynCfg 2 id true) (Bodies.graph (dynCfg 2 id true)) (code (users dynAcc) dynCode) false (fun _ => 0) x ∧
    State.n x.s = 2 ∧ Active x.s (owner (dynCfg 2 id true) (State.n x.s)) ∧
    (code (users dynAcc) dynCode).pt (x.loc (owner (dynCfg 2 id true) (State.n x.s))) = .spawn d c b ∧
    (dynCfg 2 id true).user (State.n x.s) = d :=
  ⟨run (dynCfg 2 id true) (code (users dynAcc) dynCode) (graphExc _) (declared id) false (start _ _ fun _ => 0)
    (gs (doSubmit 0 ++ doSubmit 1 ++ doInit 0 ++ doInit 1 ++ [.start 0]) ++ [.act 1] ++
      gs ([.ret 0] ++ doFlush 0 ++ [.start 1]) ++ [.act 2]), _, _, _,
    run_reach (by simp) declared_user, by decide +kernel, active_of (by decide +kernel), rfl, rfl⟩

end RG.Dyn
