import Verif.Lemmas.DynamicWorkersExec
import Verif.Props.DynamicProgress
/-
C79: programs whose tasks depend on the data come to their end on workers.
-/
set_option linter.unusedVariables false
namespace RG.Dyn
open RG.Graph
open RG.Bodies (Sound graph_sound workers)

variable {cfg : Cfg} {N : Nat} {M : Type} {P : Prog M} {m0 : M}

/-- C79: a state in which no worker and no other thread can make a step, and in which no body that is being executed is
about to submit a task, is one in which the main program is complete, all tasks have completely finished, and all
workers sleep with empty queues. In particular it does not happen that all workers hold bodies that wait for tasks for
which no worker is left. -/
theorem C79_no_deadlock (hS : Structured P) (hN : 0 < N) (hs : cfg.Safe) {x : St (workers cfg N) P}
    (hr : WReach cfg N P m0 x) (hq : ∀ x', ¬ WStep cfg N P (Sys.OwnWork cfg N) x x')
    (hsp : ∀ i d c b, OnWorker N x.sys i → P.pt (x.loc i) ≠ .spawn d c b) :
    P.pt (x.loc 0) = .done ∧ (∀ t, t < x.sys.x.g.n → Finished cfg x.sys.x.g t ∧ x.sys.x.w t = none) ∧
    ∀ w, w < N → x.sys.pc w = .waiting ∧ (x.sys.cv w).ws 0 = .asleep ∧ x.sys.ready w = [] ∧ x.sys.new w = [] :=
  workers_no_deadlock hS hN hs hr (fun x' h => absurd h (hq x')) hsp

/-- C79: a body that is being executed and is about to submit a task is not kept from doing so: if the next task of the
execution is this one, then a step is possible. -/
theorem C79_submission_possible (hN : 0 < N) {x : St (workers cfg N) P} (hr : WReach cfg N P m0 x) {d : User}
    {c b : P.B} (ha : OnWorker N x.sys (owner cfg x.sys.x.g.n))
    (hp : P.pt (x.loc (owner cfg x.sys.x.g.n)) = .spawn d c b) (hd : cfg.user x.sys.x.g.n = d) :
    ∃ x', WStep cfg N P (Sys.OwnWork cfg N) x x' := by
  apply Classical.byContradiction
  intro hno
  have sub0 := sub_done hN hr.sys fun s' h1 h2 h3 => hno ⟨_, .rt h1.1.1 h1 h1.1.2.2.1
    (fun t h4 h5 => by rw [h2] at h5; exact absurd h4 h5) (fun t u h4 h5 => by rw [h3, h4] at h5; cases h5)⟩
  have hdom := Dom.reach hr.sys.graph
  cases hpar : cfg.parentOf x.sys.x.g.n with
  | none =>
    have hst : Graph.Step cfg _ x.sys.x.g _ := .beginSubmit (fun q hq => by rw [hpar] at hq; cases hq)
      (fun _ t i _ _ => sub0 t i)
    refine hno ⟨_, .submit (.graph (.submitOut (ks := []) hst rfl hpar (by simp))
      (Sys.samePh_stage rfl (by rw [hdom.ph _ (Nat.le_refl _)]; rfl) (by simp [Sys.stage])) rfl rfl rfl ?_ ?_) rfl hp hd⟩
    · intro q _ hq; rw [hpar] at hq; cases hq
    · exact fun h => absurd rfl h
  | some q =>
    have ho : owner cfg x.sys.x.g.n = q + 1 := by rw [owner, hpar]
    rw [ho] at ha
    have ha' := ha
    obtain ⟨w, hw, hpc⟩ := ha
    obtain ⟨h1, h2⟩ := Sys.exec_running hr.sys hw hpc
    have hst : Graph.Step cfg _ x.sys.x.g _ := .beginSubmit (fun q' hq => by rw [hpar] at hq; cases hq; exact h1)
      (fun _ t i _ _ => sub0 t i)
    refine hno ⟨_, .submit (.graph (.submitIn (ks := []) hst rfl hpar h2 (by simp))
      (Sys.samePh_stage rfl (by rw [hdom.ph _ (Nat.le_refl _)]; rfl) (by simp [Sys.stage])) rfl rfl rfl ?_ ?_) rfl hp hd⟩
    · intro q' _ hq; rw [hpar] at hq; cases hq; exact ⟨w, hw, hpc⟩
    · exact fun h => absurd rfl h

/-- C79: there are no infinite executions, if bodies can not run forever by themselves (`Next`) and do not create events
forever, except for idle steps: tests of the condition that a worker waits for, and wake-ups for no reason. -/
theorem C79_ends (hw : WellFounded (Next P)) {x : St (workers cfg N) P} (hr : WReach cfg N P m0 x) :
    ¬ ∃ f : Nat → St (workers cfg N) P, f 0 = x ∧ ∀ i, WStep cfg N P (Sys.Work cfg N) (f i) (f (i + 1)) :=
  workers_no_infinite hw hr.sys

theorem wreach_own {x y : St (workers cfg N) P} (hr : WReach cfg N P m0 x)
    (h : Relation.ReflTransGen (WStep cfg N P (Sys.OwnWork cfg N)) x y) : WReach cfg N P m0 y := by
  induction h with
  | refl => exact hr
  | tail _ hs ih => exact .step ih hs.any

/-- C79: from every state on, the execution can be continued to one in which no thread can make a step. -/
theorem C79_comes_to_rest (hw : WellFounded (Next P)) {x : St (workers cfg N) P} (hr : WReach cfg N P m0 x) :
    ∃ y, Relation.ReflTransGen (WStep cfg N P (Sys.OwnWork cfg N)) x y ∧
      ∀ x', ¬ WStep cfg N P (Sys.OwnWork cfg N) y x' := by
  apply Classical.byContradiction
  intro hno
  have go : ∀ y : { y // Relation.ReflTransGen (WStep cfg N P (Sys.OwnWork cfg N)) x y },
      ∃ z : { y // Relation.ReflTransGen (WStep cfg N P (Sys.OwnWork cfg N)) x y },
        WStep cfg N P (Sys.OwnWork cfg N) y.1 z.1 := by
    intro y
    apply Classical.byContradiction
    intro h
    exact hno ⟨y.1, y.2, fun z hz => h ⟨⟨z, y.2.tail hz⟩, hz⟩⟩
  let F : Nat → { y // Relation.ReflTransGen (WStep cfg N P (Sys.OwnWork cfg N)) x y } :=
    fun i => Nat.rec ⟨x, .refl⟩ (fun _ y => Classical.choose (go y)) i
  have hF : ∀ i, WStep cfg N P (Sys.OwnWork cfg N) (F i).1 (F (i + 1)).1 := fun i => Classical.choose_spec (go (F i))
  exact C79_ends hw hr ⟨fun i => (F i).1, rfl, fun i => (hF i).mono fun _ _ h => h.1⟩

/-- C79: what the workers have computed when all tasks have ended -/
theorem C79_like_sequential (hP : Proper cfg P) (hS : Structured P) {x : St (workers cfg N) P}
    (hr : WReach cfg N P m0 x) (he : ∀ t, t < x.sys.x.g.n → x.sys.x.g.ex t = .ended) (hm : P.pt (x.loc 0) = .done) :
    Seq P P.main m0 x.m := C77_workers_like_sequential hP hS (hr.reach hS) he hm

variable {ι : Type} {tbl : ι → User} {c : Code ι}

/-- C79: Every execution of a checked program on any number of workers ends. When nothing more can happen, all tasks
have finished, and the memory is what the sequential program computes. -/
theorem C79_checked_programs_end (hf : c.Fits tbl [] none 0) (hj : c.Waits) (hw : cfg.WellFormed) (hN : 0 < N)
    (hs : cfg.Safe) (ho : OneSpace cfg) (hroot : ∀ t, ∀ ra ∈ (cfg.user t).access, ra.res.scope = 0)
    {m0 : Mem} {x : St (workers cfg N) (code tbl c)} (hr : WReach cfg N (code tbl c) m0 x) :
    (¬ ∃ f : Nat → St (workers cfg N) (code tbl c), f 0 = x ∧ ∀ i,
      WStep cfg N (code tbl c) (Sys.Work cfg N) (f i) (f (i + 1))) ∧
    ((∀ x', ¬ WStep cfg N (code tbl c) (Sys.OwnWork cfg N) x x') →
      (∀ i a c' b, OnWorker N x.sys i → x.loc i ≠ Code.call a c' b) →
      (∀ t, t < x.sys.x.g.n → Finished cfg x.sys.x.g t) ∧ x.m = c.run m0) := by
  refine ⟨C79_ends code_next hr, fun hq hsp => ?_⟩
  have key := C79_no_deadlock (code_structured hj) hN hs hr hq fun i d c1 b ha hp => by
    cases hl : (x.loc i : Code ι) with
    | call a c' k => exact hsp i a c' k ha hl
    | _ => rw [hl] at hp; cases hp
  refine ⟨fun t ht => (key.2.1 t ht).1, ?_⟩
  have h1 := C79_like_sequential (code_proper hf hw hs.single ho hroot) (code_structured hj) hr (fun t ht => by
    cases (key.2.1 t ht).1 with
    | mk h _ _ => exact h) key.1
  exact h1.det (seq_code c m0)

/-! ### Examples -/

/-- when the bodies have returned, nothing is submitted any more, and the memory stays as it is -/
theorem wrest_keeps {x y : St (workers cfg N) P} {n : Nat} (hr : WReach cfg N P m0 x) (hn : x.sys.x.g.n = n)
    (hl : ∀ i, i ≤ n → P.pt (x.loc i) = .done) (ho : owner cfg n ≤ n)
    (h : Relation.ReflTransGen (WStep cfg N P (Sys.OwnWork cfg N)) x y) :
    y.sys.x.g.n = n ∧ (∀ i, i ≤ n → P.pt (y.loc i) = .done) ∧ y.m = x.m := by
  induction h with
  | refl => exact ⟨hn, hl, rfl⟩
  | @tail y z hxy hs ih =>
    obtain ⟨h1, h2, h3⟩ := ih
    have act : ∀ i, OnWorker N y.sys i → i ≤ n := fun i ha => h1 ▸ ha.le (wreach_own hr hxy).sys
    cases hs with
    | rt h hk hn' hret hw => exact ⟨hn'.trans h1, h2, h3⟩
    | submit h hn' hp hd =>
      have := h2 (owner cfg n) ho
      rw [h1, this] at hp
      cases hp
    | act h hp => rw [h2 _ (act _ h)] at hp; cases hp
    | join h hp hc => rw [h2 _ (act _ h)] at hp; cases hp

/-- worker `w` takes task `t` from its queue of new tasks and executes it -/
def takeNew (w t : Nat) : List WAct :=
  ([.noReady w, .popNew w t] ++ List.replicate 12 (.init w t) ++ [.start w t] : List Sys.SAct).map .g

/-- the two tasks of `pairCode` on one worker: it executes task 1 while task 0 waits -/
def oneActs : List WAct :=
  ([.graph .submit, .graph (.sub 0), .emplace 0 0, .sleep 0, .noise 0, .notify 0 0, .wait 0, .wait 0, .woken 0].map .g) ++
  takeNew 0 0 ++ [.act 1] ++ ([.graph .submit, .graph (.sub 1), .emplace 0 1].map .g) ++ [.pause 0 0 1] ++
  takeNew 0 1 ++ [.act 2, .act 2, .g (.bodyEnd 0 1), .unpause 0, .activate 0 0, .popReady 0 0, .resume 0 0, .join 1,
    .act 1, .act 1, .g (.bodyEnd 0 0), .join 0, .act 0, .act 0]

def one (k : Nat) : St (workers (nest true) 1) (code (users nestAcc) pairCode) :=
  wrun (nest true) 1 (code (users nestAcc) pairCode) (declared id) (wstart _ _ _ fun _ => 0) (oneActs.take k)

theorem one_reach (k : Nat) : WReach (nest true) 1 (code (users nestAcc) pairCode) (fun _ => 0) (one k) :=
  wrun_reach (declared_user (tag := id))

set_option maxRecDepth 100000 in
theorem one_facts : (one 100).sys.x.g.n = 2 ∧ (∀ t, t < 2 → (one 100).sys.x.g.ex t = .ended) ∧
    (one 100).m (.own [] 0) = 6 ∧ (∀ i, i < 3 → isDone ((code (users nestAcc) pairCode).pt ((one 100).loc i)) = true) := by
  decide +kernel

theorem one_done : ∀ i, i ≤ 2 → (code (users nestAcc) pairCode).pt ((one 100).loc i) = .done :=
  fun i hi => isDone_iff.1 (one_facts.2.2.2 i (by omega))

theorem pair_joined : pairCode.Waits :=
  have no : ∀ {p : Nat → Code → Prop} (j : Nat) (d : Code), none = some d → p j d := fun j d h => by cases h
  ⟨⟨no, ⟨no, fun v => ⟨no, fun _ => rfl⟩⟩, no, fun v => ⟨no, fun _ => rfl⟩⟩, no, fun v => ⟨no, fun _ => rfl⟩⟩

/-- the hypotheses of `C79_like_sequential` -/
example : Proper (nest true) (code (users nestAcc) pairCode) ∧ Structured (code (users nestAcc) pairCode) ∧
    ∃ x : St (workers (nest true) 1) (code (users nestAcc) pairCode),
      WReach (nest true) 1 (code (users nestAcc) pairCode) (fun _ => 0) x ∧ x.sys.x.g.n = 2 ∧
      (∀ t, t < x.sys.x.g.n → x.sys.x.g.ex t = .ended) ∧ (code (users nestAcc) pairCode).pt (x.loc 0) = .done ∧
      x.m (.own [] 0) = 6 :=
  ⟨pair_proper _, pair_structured, one 100, one_reach _, one_facts.1, by rw [one_facts.1]; exact one_facts.2.1,
    one_done 0 (by omega), one_facts.2.2.1⟩

/-- those of `C79_no_deadlock`, `C79_ends`, `C79_comes_to_rest` and `C79_checked_programs_end`: there is a state in which
the two tasks of the program have been submitted and no thread can make a step -/
example : pairCode.Fits (users nestAcc) [] none 0 ∧ pairCode.Waits ∧ (nest true).WellFormed ∧ (nest true).Safe ∧
    OneSpace (nest true) ∧ (∀ t, ∀ ra ∈ ((nest true).user t).access, ra.res.scope = 0) ∧
    Structured (code (users nestAcc) pairCode) ∧ WellFounded (Next (code (users nestAcc) pairCode)) ∧
    ∃ x : St (workers (nest true) 1) (code (users nestAcc) pairCode),
      WReach (nest true) 1 (code (users nestAcc) pairCode) (fun _ => 0) x ∧ x.sys.x.g.n = 2 ∧
      (∀ x', ¬ WStep (nest true) 1 (code (users nestAcc) pairCode) (Sys.OwnWork (nest true) 1) x x') ∧
      (∀ i a c b, OnWorker 1 x.sys i → x.loc i ≠ Code.call a c b) ∧ x.m (.own [] 0) = 6 := by
  refine ⟨pair_fits, pair_joined, prog_wellFormed _ _ _ _ _, Full.nest_safe, nest_oneSpace _, Bodies.nest_root _,
    pair_structured, code_next, ?_⟩
  obtain ⟨y, h1, h2⟩ := C79_comes_to_rest code_next (one_reach 100)
  obtain ⟨h3, h4, h5⟩ := wrest_keeps (one_reach 100) one_facts.1 one_done (by decide) h1
  refine ⟨y, wreach_own (one_reach 100) h1, h3, h2, fun i a c b ha hb => ?_, (congrFun h5 _).trans one_facts.2.2.1⟩
  have hle : i ≤ 2 := h3 ▸ ha.le (wreach_own (one_reach 100) h1).sys
  have := h4 i hle
  rw [hb] at this
  cases this

set_option maxRecDepth 100000 in
/-- those of `C79_submission_possible`: task 0 is about to submit its child -/
example : ∃ x : St (workers (nest true) 1) (code (users nestAcc) pairCode), ∃ d c b,
    WReach (nest true) 1 (code (users nestAcc) pairCode) (fun _ => 0) x ∧ x.sys.x.g.n = 1 ∧
    OnWorker 1 x.sys (owner (nest true) x.sys.x.g.n) ∧
    (code (users nestAcc) pairCode).pt (x.loc (owner (nest true) x.sys.x.g.n)) = .spawn d c b ∧
    (nest true).user x.sys.x.g.n = d :=
  ⟨one 25, _, _, _, one_reach _, by decide +kernel, onWorker_iff (by decide +kernel), rfl, rfl⟩

set_option maxRecDepth 100000 in
/-- the only worker executes task 1 while task 0 is paused -/
example : (one 45).sys.pc 0 = .exec 1 ∧ (one 45).sys.x.w 0 = some 1 ∧ (one 45).sys.x.g.ex 0 = .running := by
  decide +kernel

end RG.Dyn
