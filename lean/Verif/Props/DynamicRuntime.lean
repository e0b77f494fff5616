import Verif.Props.Dynamic
import Verif.Props.BodiesRuntime
/-
C77 for the machines that are closer to the code: workers, main thread, pausing, lock-free lists.
-/
set_option linter.unusedVariables false
namespace RG.Dyn
open RG.Graph
open RG.Bodies (Runtime Sound graph_sound workers whole lists)

variable {cfg cfg' : Cfg} {N : Nat} {M : Type} {P : Prog M} {m0 : M} {careful : Bool}

theorem workers_sound : Sound cfg (workers cfg N) where
  init := rfl
  sim _ _ _ h := by
    rcases Bodies.sys_waits h with e | h
    · exact .inl e
    · exact .inr h.1

/-- C77: the workers compute the same as the sequential program, for every number of workers. -/
theorem C77_workers_like_sequential (hP : Proper cfg P) (hS : Structured P) {x : St (workers cfg N) P}
    (hr : Reach cfg (workers cfg N) P careful m0 x)
    (he : ∀ t, t < (Sys.State.x x.s).g.n → (Sys.State.x x.s).g.ex t = .ended) (hm : P.pt (x.loc 0) = .done) :
    Seq P P.main m0 x.m :=
  sequential_structured hP hS workers_sound hr he (.done hm)

/-- C77: two executions compute the same, also with different numbers of workers. -/
theorem C77_workers_deterministic {N' : Nat} (hP : Proper cfg P) (hP' : Proper cfg' P) (hS : Structured P)
    {x : St (workers cfg N) P} {y : St (workers cfg' N') P} (hx : Reach cfg (workers cfg N) P false m0 x)
    (hy : Reach cfg' (workers cfg' N') P false m0 y)
    (hex : ∀ t, t < (Sys.State.x x.s).g.n → (Sys.State.x x.s).g.ex t = .ended)
    (hey : ∀ t, t < (Sys.State.x y.s).g.n → (Sys.State.x y.s).g.ex t = .ended) (hmx : P.pt (x.loc 0) = .done)
    (hmy : P.pt (y.loc 0) = .done) : x.m = y.m :=
  (C77_workers_like_sequential hP hS hx hex hmx).det (C77_workers_like_sequential hP' hS hy hey hmy)

/-- C77: the same with the main thread, if bodies are paused in any way. Executions in which a body is continued twice
(C71) end there. -/
theorem C77_pausing_like_sequential {a : Bool} (hP : Proper cfg P) (hS : Structured P) {x : St (whole cfg N a) P}
    (hr : Reach cfg (whole cfg N a) P careful m0 x)
    (he : ∀ t, t < ((whole cfg N a).g x.s).n → ((whole cfg N a).g x.s).ex t = .ended) (hm : P.pt (x.loc 0) = .done) :
    Seq P P.main m0 x.m :=
  sequential_structured hP hS Bodies.whole_sound hr he (.done hm)

/-- C77: when `barrier()` returns, also as a part of `finalize()`, the rest of the main program will find the memory as
it is in the sequential program. -/
theorem C77_barrier_like_sequential {a : Bool} (hP : Proper cfg P) (hS : Structured P) (hro : Prog.Rooted cfg)
    {x x' : St (whole cfg N a) P} (hr : Reach cfg (whole cfg N a) P careful m0 x)
    (hn : ((whole cfg N a).g x.s).n < 2 ^ 32) (hs : Step cfg (whole cfg N a) P careful x x')
    {fin : Bool} (h : (Full.State.p x.s).mpc = .check fin ∨ (Full.State.p x.s).mpc = .idle fin)
    (h' : (Full.State.p x'.s).mpc ≠ .check fin ∧ (Full.State.p x'.s).mpc ≠ .idle fin) {m : M}
    (hm : Seq P (x'.loc 0) x'.m m) : Seq P P.main m0 m := by
  refine sequential_structured hP hS Bodies.whole_sound (.step hr hs) (Bodies.ended_of_finished (cfg := cfg) ?_) hm
  have same : (Full.State.p x'.s).mpc ≠ (Full.State.p x.s).mpc := by
    intro e
    rw [e] at h'
    rcases h with h | h
    · exact h'.1 h
    · exact h'.2 h
  have rt : ∀ s' : Full.State, (whole cfg N a).step x.s s' → s'.p.mpc ≠ (Full.State.p x.s).mpc →
      s'.p.mpc ≠ .check fin ∧ s'.p.mpc ≠ .idle fin → ∀ t, t < s'.p.y.x.g.n → Finished cfg s'.p.y.x.g t := by
    rintro s' ⟨l, hst⟩ same h'
    cases hst with
    | prog _ hp =>
      exact (Prog.C73_barrier_returns_after_all_tasks hro (Full.Base.reach (Bodies.full_reach hr.rt)).pr hn hp h h').1
    | notify _ _ hn => exact absurd (Bodies.notify_mpc hn) same
    | visit _ _ hn => exact absurd (Bodies.notify_mpc hn) same
    | _ => exact absurd rfl same
  cases hs with
  | rt hst => exact rt _ hst same h'
  | submit hst => exact rt _ hst same h'
  | _ => exact absurd rfl same

/-- C77: when `finalize()` begins to stop the workers, and from then on. -/
theorem C77_finalize_like_sequential {a : Bool} (hP : Proper cfg P) (hS : Structured P) (hro : Prog.Rooted cfg)
    {x : St (whole cfg N a) P} (hr : Reach cfg (whole cfg N a) P careful m0 x)
    (hn : ((whole cfg N a).g x.s).n < 2 ^ 32) (h : (Full.State.p x.s).mpc.closing = true)
    (hm : P.pt (x.loc 0) = .done) : Seq P P.main m0 x.m := by
  refine C77_pausing_like_sequential hP hS hr (Bodies.ended_of_finished (cfg := cfg) fun t ht => ?_) hm
  exact ((Prog.C73_stopped_after_all_tasks hro (Full.Base.reach (Bodies.full_reach hr.rt)).pr hn h).1 t ht).1

/-- C77: with the lock-free lists of the code, if at most one thread at a time submits tasks that use the same resource.
Partial: nested programs are restricted by `NestingOk`; what happens otherwise is shown by
`C76_two_threads_false`. -/
theorem C77_lists_like_sequential_partial (hN : 0 < N) (ht : NestingOk cfg) (hP : Proper cfg P) (hS : Structured P)
    {x : St (lists cfg N true) P} (hr : Reach cfg (lists cfg N true) P careful m0 x)
    (he : ∀ t, t < ((lists cfg N true).g x.s).n → ((lists cfg N true).g x.s).ex t = .ended)
    (hm : P.pt (x.loc 0) = .done) : Seq P P.main m0 x.m :=
  sequential_structured hP hS
    ⟨rfl, fun s s' h hs => GList.Step.sim ht hN (GList.Inv.of ht hN (Bodies.lists_reach h)) hs⟩ hr he (.done hm)

/-! ### Examples -/

/-- a task writes A, submits a task that reads A, waits for its result, and writes A again -/
def pairCode : Code :=
  .call 0 (.put aPlace 5 <| .call 1 (.get aPlace fun v => .put (.own [1, 1] 0) v .ret) <| .all <|
    .get (.own [1, 1] 0) fun v => .put aPlace (v + 1) .ret) <|
  .all <| .get aPlace fun v => .put (.own [] 0) v .ret

theorem pair_fits : pairCode.Fits (users nestAcc) [] none 0 := by
  have no : ∀ {p : Nat → Prop} (a : Nat), none = some a → p a := fun a h => by cases h
  refine ⟨no, ⟨?_, ?_, ⟨?_, fun v => ⟨?_, trivial⟩⟩, ?_, fun v => ⟨?_, trivial⟩⟩, no, fun v => ⟨no, trivial⟩⟩
  · rintro a ⟨⟩
    exact uses nestAcc (by decide)
  · rintro a ⟨⟩
    decide +kernel
  · rintro a ⟨⟩
    exact .inl (uses nestAcc (by decide))
  · rintro a ⟨⟩
    exact ⟨List.prefix_refl _, rfl⟩
  · rintro a ⟨⟩
    exact .inr ⟨⟨[1], rfl⟩, rfl⟩
  · rintro a ⟨⟩
    exact uses nestAcc (by decide)

theorem pair_structured : Structured (code (users nestAcc) pairCode) :=
  have no : ∀ {p : Nat → Code → Prop} (j : Nat) (d : Code), none = some d → p j d := fun j d h => by cases h
  code_structured ⟨⟨no, ⟨no, fun v => ⟨no, fun _ => rfl⟩⟩, no, fun v => ⟨no, fun _ => rfl⟩⟩, no,
    fun v => ⟨no, fun _ => rfl⟩⟩

theorem pair_proper (b : Bool) : Proper (nest b) (code (users nestAcc) pairCode) :=
  code_proper pair_fits (prog_wellFormed _ _ _ _ _) rfl (nest_oneSpace b) (Bodies.nest_root b)

/-- the two tasks are executed by the workers 0 and 1 -/
def pairActs : List (Act Full.FAct) :=
  gs (Full.doSubmit 0 0 ++ Full.doRun 0 0) ++ [.act 1] ++ gs (Full.doSubmit 1 1 ++ Full.doRun 1 1) ++
  [.act 2, .act 2] ++ gs [.sys (.bodyEnd 1 1)] ++ [.join 1, .act 1, .act 1] ++ gs ([.sys (.bodyEnd 0 0)] ++
    (Graph.doFlush 1 ++ Graph.doFlush 0 ++ (List.range 2).flatMap fun t =>
      times 2 (.take t) ++ times 2 (.free t)).map fun a => .sys (.graph a)) ++ [.join 0, .act 0, .act 0]

def pair : St (whole (nest true) 2 false) (code (users nestAcc) pairCode) :=
  run (nest true) (code (users nestAcc) pairCode) (Bodies.wholeExc (nest true) 2) (declared id) false
    (start (whole (nest true) 2 false) _ fun _ => 0) pairActs

theorem pair_reach : Reach (nest true) (whole (nest true) 2 false) (code (users nestAcc) pairCode) false
    (fun _ => 0) pair := run_reach (by simp) (declared_user (tag := id))

set_option maxRecDepth 100000 in
theorem pair_facts : ((whole (nest true) 2 false).g pair.s).n = 2 ∧
    (∀ t, t < 2 → ((whole (nest true) 2 false).g pair.s).ex t = .ended) ∧
    ((whole (nest true) 2 false).g pair.s).tasks 0 = 0 ∧ (Full.State.p pair.s).mpc = .run ∧
    Full.State.bad pair.s = false ∧ pair.m aPlace = 6 ∧ pair.m (.own [] 0) = 6 := by decide +kernel

set_option maxRecDepth 100000 in
theorem pair_done : (code (users nestAcc) pairCode).pt (pair.loc 0) = .done := isDone_iff.1 (by decide +kernel)

/-- the hypotheses of `C77_pausing_like_sequential` -/
example : ∃ x : St (whole (nest true) 2 false) (code (users nestAcc) pairCode),
    Proper (nest true) (code (users nestAcc) pairCode) ∧ Structured (code (users nestAcc) pairCode) ∧
    Reach (nest true) (whole (nest true) 2 false) (code (users nestAcc) pairCode) false (fun _ => 0) x ∧
    ((whole (nest true) 2 false).g x.s).n = 2 ∧ (∀ t, t < 2 → ((whole (nest true) 2 false).g x.s).ex t = .ended) ∧
    (code (users nestAcc) pairCode).pt (x.loc 0) = .done ∧ x.m (.own [] 0) = 6 :=
  ⟨pair, pair_proper _, pair_structured, pair_reach, pair_facts.1, pair_facts.2.1, pair_done,
    pair_facts.2.2.2.2.2.2⟩

/-- those of `C77_barrier_like_sequential` and `C77_finalize_like_sequential`: the main thread calls `finalize()` -/
example : ∃ x x' : St (whole (nest true) 2 false) (code (users nestAcc) pairCode), Prog.Rooted (nest true) ∧
    Reach (nest true) (whole (nest true) 2 false) (code (users nestAcc) pairCode) false (fun _ => 0) x ∧
    Step (nest true) (whole (nest true) 2 false) (code (users nestAcc) pairCode) false x x' ∧
    ((whole (nest true) 2 false).g x.s).n = 2 ∧ (Full.State.p x.s).mpc = .check true ∧
    (Full.State.p x'.s).mpc.closing = true ∧ (code (users nestAcc) pairCode).pt (x'.loc 0) = .done ∧
    x'.m (.own [] 0) = 6 := by
  have hr := pair_reach
  obtain ⟨h1, h2, h3, h4, h5, h6, h7⟩ := pair_facts
  have h8 := pair_done
  generalize pair = x at hr h1 h2 h3 h4 h5 h6 h7 h8
  obtain ⟨s, m, loc⟩ := x
  obtain ⟨p, pz, ppre, rfol, rn, bad, ys⟩ := s
  dsimp only [whole] at h1 h2 h3 h4 h5 h6 h7 h8
  subst h5
  let s1 : Full.State := ⟨{ p with mpc := .check true }, pz, Full.resumed p p ppre, rfol, Full.fired p p rn, false, ys⟩
  let s2 : Full.State :=
    ⟨{ p with mpc := .stop 0 }, pz, Full.resumed p p (Full.resumed p p ppre), rfol, Full.fired p p (Full.fired p p rn), false, ys⟩
  refine ⟨⟨s1, m, loc⟩, ⟨s2, m, loc⟩, Full.nest_rooted, .step hr (.rt (R := whole (nest true) 2 false)
    (x := ⟨⟨p, pz, ppre, rfol, rn, false, ys⟩, m, loc⟩) (s' := s1) ⟨_, .prog rfl
    (.call (fin := true) h4) rfl (fun _ _ _ => rfl) (fun h => by cases h)⟩ rfl (fun t h h' => absurd h h')),
    .rt (R := whole (nest true) 2 false) (x := ⟨s1, m, loc⟩) (s' := s2) ⟨_, .prog rfl
    (.empty (fin := true) rfl ?_) rfl (fun _ _ _ => rfl) (fun h => by cases h)⟩ rfl (fun t h h' => absurd h h'),
    h1, rfl, rfl, h8, h7⟩
  show Barrier.isZero (p.y.x.g.tasks 0) = true
  rw [h3]
  rfl

def workersExc (cfg : Cfg) (N : Nat) : Bodies.Exc (workers cfg N) Sys.SAct :=
  workers_sound.exc (fun s a => Sys.exec cfg N s a) fun _ _ _ hs h => (Sys.exec_step (Bodies.workers_reach hs) h).1

/-- the same execution without the main thread -/
def sysActs : List (Act Sys.SAct) := pairActs.filterMap fun
  | .g (.sys a) => some (.g a)
  | .g _ => none
  | .act i => some (.act i)
  | .join i => some (.join i)

def workersRun (N : Nat) : St (workers (nest true) N) (code (users nestAcc) pairCode) :=
  run (nest true) (code (users nestAcc) pairCode) (workersExc (nest true) N) (declared id) false
    (start (workers (nest true) N) _ fun _ => 0) sysActs

set_option maxRecDepth 100000 in
/-- those of `C77_workers_like_sequential` and `C77_workers_deterministic`: with two and with three workers -/
example : (∃ x : St (workers (nest true) 2) (code (users nestAcc) pairCode),
      Reach (nest true) (workers (nest true) 2) (code (users nestAcc) pairCode) false (fun _ => 0) x ∧
      (Sys.State.x x.s).g.n = 2 ∧ (∀ t, t < 2 → (Sys.State.x x.s).g.ex t = .ended) ∧
      (code (users nestAcc) pairCode).pt (x.loc 0) = .done ∧ x.m (.own [] 0) = 6) ∧
    ∃ x : St (workers (nest true) 3) (code (users nestAcc) pairCode),
      Reach (nest true) (workers (nest true) 3) (code (users nestAcc) pairCode) false (fun _ => 0) x ∧
      (Sys.State.x x.s).g.n = 2 ∧ (∀ t, t < 2 → (Sys.State.x x.s).g.ex t = .ended) ∧
      (code (users nestAcc) pairCode).pt (x.loc 0) = .done ∧ x.m (.own [] 0) = 6 :=
  ⟨⟨workersRun 2, run_reach (by simp) (declared_user (tag := id)), by decide +kernel, by decide +kernel,
    isDone_iff.1 (by decide +kernel), by decide +kernel⟩,
   workersRun 3, run_reach (by simp) (declared_user (tag := id)), by decide +kernel, by decide +kernel,
    isDone_iff.1 (by decide +kernel), by decide +kernel⟩

def listActs : List (Act GList.Act) :=
  gs (GList.doSub 0 ++ GList.doInit 0 ++ [.g (.start 0)]) ++ [.act 1] ++ gs (GList.doSub 1 ++ GList.doInit 1 ++
    [.g (.start 1)]) ++ [.act 2, .act 2] ++ gs [.g (.ret 1)] ++ [.join 1, .act 1, .act 1] ++ gs [.g (.ret 0)] ++
  [.join 0, .act 0, .act 0]

set_option maxRecDepth 100000 in
/-- those of `C77_lists_like_sequential_partial` -/
example : ∃ x : St (lists (nest true) 2 true) (code (users nestAcc) pairCode), NestingOk (nest true) ∧
    Reach (nest true) (lists (nest true) 2 true) (code (users nestAcc) pairCode) false (fun _ => 0) x ∧
    ((lists (nest true) 2 true).g x.s).n = 2 ∧ (∀ t, t < 2 → ((lists (nest true) 2 true).g x.s).ex t = .ended) ∧
    (code (users nestAcc) pairCode).pt (x.loc 0) = .done ∧ x.m (.own [] 0) = 6 :=
  ⟨run (nest true) (code (users nestAcc) pairCode) (Bodies.listsExc (nest true) 2 true) (declared id) false
      (start (lists (nest true) 2 true) _ fun _ => 0) listActs, .inl rfl,
    run_reach (by simp) (declared_user (tag := id)), by decide +kernel, by decide +kernel,
    isDone_iff.1 (by decide +kernel), by decide +kernel⟩

end RG.Dyn
