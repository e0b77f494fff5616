import Verif.Model.BodiesRuntime
import Verif.Props.Bodies
import Verif.Props.Full
import Verif.Props.GraphList
/-
C76 for the machines that are closer to the code: workers, main thread, pausing, lock-free lists.
-/
set_option linter.unusedVariables false
namespace RG.Bodies
open RG.Graph

variable {cfg : Cfg} {N : Nat} {M : Type} {P : Prog M} {m0 : M}

theorem wstep_g {x x' : WState} (h : WStep cfg x x') : x'.g = x.g ∨ ∃ l, Graph.Step cfg l x.g x'.g := by
  cases h with
  | submitOut h => exact .inr ⟨_, h⟩
  | submitIn h => exact .inr ⟨_, h⟩
  | other h => exact .inr ⟨_, h⟩
  | _ => exact .inl rfl

theorem sys_waits {s s' : Sys.State} (h : Sys.Step cfg N s s') :
    s'.x.g = s.x.g ∨ (waiting cfg).step s.x.g s'.x.g := by
  have same : ∀ {x x' : WState}, WStep cfg x x' → x'.g.ex = x.g.ex →
      x'.g = x.g ∨ (waiting cfg).step x.g x'.g := by
    intro x x' h1 h2
    rcases wstep_g h1 with e | h3
    · exact .inl e
    · refine .inr ⟨h3, fun t c h4 h5 => ?_⟩
      rw [h2, h4] at h5
      cases h5
  cases h with
  | graph h _ _ he => exact same h he
  | emplace _ h _ _ _ _ he => exact same h he
  | ready h _ _ he => exact same h he
  | unpause _ hg => exact .inl hg
  | popNew _ _ _ h _ _ _ he => exact same h he
  | initStep _ _ h _ _ _ _ he => exact same h he
  | initReady _ _ h _ _ _ he => exact same h he
  | initBlocked _ _ h _ _ _ he => exact same h he
  | stolenBlocked _ _ h _ _ _ he => exact same h he
  | stealNew _ _ _ _ h _ _ _ he => exact same h he
  | @start x' w t _ _ h _ _ h0 he =>
    rcases wstep_g h with e | h3
    · exact .inl e
    · refine .inr ⟨h3, fun u c h4 h5 => ?_⟩
      dsimp only at h5
      rw [he] at h5
      by_cases e : u = t
      · subst e; simp at h5
      · rw [upd_ne _ _ e, h4] at h5; cases h5
  | pause _ _ _ hg => exact .inl hg
  | @bodyEnd x' w t _ _ h _ _ h0 he hk =>
    rcases wstep_g h with e | h3
    · exact .inl e
    · refine .inr ⟨h3, fun u c h4 h5 h6 h7 => ?_⟩
      dsimp only at h5
      rw [he] at h5
      by_cases e : u = t
      · subst e; exact hk c h6 h7
      · rw [upd_ne _ _ e, h4] at h5; cases h5
  | _ => exact .inl rfl

theorem prog_waits {s s' : Prog.State} {l : Prog.Lbl} (h : Prog.Step cfg N l s s') :
    s'.y.x.g = s.y.x.g ∨ (waiting cfg).step s.y.x.g s'.y.x.g := by
  cases h with
  | sys h => exact sys_waits h
  | _ => exact .inl rfl

theorem hand_g {p p' : Prog.State} {t : Nat} {b : Bool} (h : Full.Hand cfg p t p' b) : p'.y.x.g = p.y.x.g := by
  cases h with
  | ok _ hg => exact hg
  | bad => rfl

theorem notify_g {s s' : Full.State} {t : Nat} (h : Full.Notify cfg s t s') : s'.p.y.x.g = s.p.y.x.g := by
  cases h with
  | ready _ hh => exact hand_g hh
  | not => rfl

theorem notify_mpc {s s' : Full.State} {t : Nat} (h : Full.Notify cfg s t s') : s'.p.mpc = s.p.mpc := by
  cases h with
  | ready _ hh => cases hh <;> rfl
  | not => rfl

theorem full_waits {s s' : Full.State} {a : Bool} {l : Option Prog.Lbl} (h : Full.Step cfg N a l s s') :
    s'.p.y.x.g = s.p.y.x.g ∨ (waiting cfg).step s.p.y.x.g s'.p.y.x.g := by
  cases h with
  | prog _ h => exact prog_waits h
  | yield _ _ _ _ hg => exact .inl hg
  | notify _ _ hn =>
    have h := notify_g hn
    exact .inl h
  | visit _ _ hn =>
    have h := notify_g hn
    exact .inl h
  | _ => exact .inl rfl

/-- the states of the machine are the reachable ones -/
theorem lists_reach {s : (lists cfg N true).S} (h : (lists cfg N true).Reach s) : GList.Reach cfg N true s := by
  induction h with
  | init => exact .init
  | step _ hs ih => exact .step ih hs

theorem full_reach {a : Bool} {s : (whole cfg N a).S} (h : (whole cfg N a).Reach s) : Full.Reach cfg N a s := by
  induction h with
  | init => exact .init
  | step _ hs ih => exact hs.elim fun _ hs => .step ih hs

theorem workers_reach {s : (workers cfg N).S} (h : (workers cfg N).Reach s) : Sys.Reach cfg N s := by
  induction h with
  | init => exact .init
  | step _ hs ih => exact .step ih hs

/-- C76: the workers compute the same as the sequential program, for every number of workers. -/
theorem C76_workers_like_sequential (hP : Proper cfg P) {x : St (workers cfg N) M}
    (hr : Reach cfg (workers cfg N) P m0 x) (he : ∀ t, t < (Sys.State.x x.s).g.n → (Sys.State.x x.s).g.ex t = .ended) :
    Exec P.next (program cfg P (Sys.State.x x.s).g.n) m0 x.m :=
  C76_waiting_parents_like_sequential hP
    (hr.map (R := workers cfg N) (R' := waiting cfg) (fun s => (Sys.State.x s).g) rfl (fun _ => rfl) fun _ _ _ h => sys_waits h) he

/-- C76: after all tasks have returned, also if bodies were paused in any way. Executions in which a body is continued
twice (C71) end there. -/
theorem C76_pausing_like_sequential {a : Bool} (hP : Proper cfg P) {x : St (whole cfg N a) M}
    (hr : Reach cfg (whole cfg N a) P m0 x)
    (he : ∀ t, t < ((whole cfg N a).g x.s).n → ((whole cfg N a).g x.s).ex t = .ended) :
    Exec P.next (program cfg P ((whole cfg N a).g x.s).n) m0 x.m :=
  C76_waiting_parents_like_sequential hP
    (hr.map (R := whole cfg N a) (R' := waiting cfg) (fun s => (Full.State.p s).y.x.g) rfl (fun _ => rfl) fun _ _ _ h => h.elim fun _ h => full_waits h) he

theorem ended_of_finished {g : State} (h : ∀ t, t < g.n → Finished cfg g t) : ∀ t, t < g.n → g.ex t = .ended := by
  intro t ht
  cases h t ht with
  | mk h _ _ => exact h

/-- C76: when `barrier()` returns, also as a part of `finalize()`, the memory is the one that the sequential program
computes. -/
theorem C76_barrier_like_sequential {a : Bool} (hP : Proper cfg P) (hro : Prog.Rooted cfg) {x x' : St (whole cfg N a) M}
    (hr : Reach cfg (whole cfg N a) P m0 x) (hn : ((whole cfg N a).g x.s).n < 2 ^ 32) (hs : Step cfg (whole cfg N a) P x x')
    {fin : Bool} (h : (Full.State.p x.s).mpc = .check fin ∨ (Full.State.p x.s).mpc = .idle fin)
    (h' : (Full.State.p x'.s).mpc ≠ .check fin ∧ (Full.State.p x'.s).mpc ≠ .idle fin) :
    Exec P.next (program cfg P ((whole cfg N a).g x'.s).n) m0 x'.m := by
  refine C76_pausing_like_sequential hP (.step hr hs) (ended_of_finished (cfg := cfg) ?_)
  have same : (Full.State.p x'.s).mpc ≠ (Full.State.p x.s).mpc := by
    intro e
    rw [e] at h'
    rcases h with h | h
    · exact h'.1 h
    · exact h'.2 h
  cases hs with
  | @rt s' hst =>
    obtain ⟨l, hst⟩ := hst
    cases hst with
    | prog _ hp => exact (Prog.C73_barrier_returns_after_all_tasks hro (Full.Base.reach (full_reach hr.rt)).pr hn hp h h').1
    | notify _ _ hn => exact absurd (notify_mpc hn) same
    | visit _ _ hn => exact absurd (notify_mpc hn) same
    | _ => exact absurd rfl same
  | _ => exact absurd rfl same

/-- C76: when `finalize()` begins to stop the workers, and from then on. -/
theorem C76_finalize_like_sequential {a : Bool} (hP : Proper cfg P) (hro : Prog.Rooted cfg) {x : St (whole cfg N a) M}
    (hr : Reach cfg (whole cfg N a) P m0 x) (hn : ((whole cfg N a).g x.s).n < 2 ^ 32)
    (h : (Full.State.p x.s).mpc.closing = true) :
    Exec P.next (program cfg P ((whole cfg N a).g x.s).n) m0 x.m := by
  refine C76_pausing_like_sequential hP hr (ended_of_finished (cfg := cfg) fun t ht => ?_)
  exact ((Prog.C73_stopped_after_all_tasks hro (Full.Base.reach (full_reach hr.rt)).pr hn h).1 t ht).1

/-- C76: with the lock-free lists of the code, if at most one thread at a time submits tasks that use the same resource.
Partial: nested programs are restricted by `NestingOk`, see `C76_early_return_false`. -/
theorem C76_lists_like_sequential_partial (hN : 0 < N) (ht : NestingOk cfg) (hP : Proper cfg P) {x : St (lists cfg N true) M}
    (hr : Reach cfg (lists cfg N true) P m0 x) (he : ∀ t, t < ((lists cfg N true).g x.s).n → ((lists cfg N true).g x.s).ex t = .ended) :
    Exec P.next (program cfg P ((lists cfg N true).g x.s).n) m0 x.m :=
  sequential hP ht ⟨rfl, fun s s' h hs => GList.Step.sim ht hN (GList.Inv.of ht hN (lists_reach h)) hs⟩ hr he

/-! ### Examples -/

theorem whole_sound {a : Bool} : Sound cfg (whole cfg N a) where
  init := rfl
  sim _ _ _ h := h.elim fun _ h => by
    rcases full_waits h with e | h
    · exact .inl e
    · exact .inr h.1

def wholeExc (cfg : Cfg) (N : Nat) : Exc (whole cfg N false) Full.FAct :=
  whole_sound.exc (fun s a => Full.exec cfg N s a) fun _ _ _ hs h => Full.exec_step (full_reach hs) h

/-- two workers: task 0 writes A, submits task 1, which reads A; worker 1 executes it; then task 0 writes A again -/
def pairActs : List (Act Full.FAct) :=
  gs (Full.doSubmit 0 0 ++ Full.doRun 0 0) ++ doBody 0 1 ++ gs (Full.doSubmit 1 1 ++ Full.doRun 1 1) ++ doBody 1 1 ++
  gs [.sys (.bodyEnd 1 1)] ++ doBody 0 1 ++ gs ([.sys (.bodyEnd 0 0)] ++
    (Graph.doFlush 1 ++ Graph.doFlush 0 ++ (List.range 2).flatMap fun t =>
      times 2 (.take t) ++ times 2 (.free t)).map fun a => .sys (.graph a))

def pair : St (whole (nest true) 2 false) (Loc → Nat) :=
  run (nest true) nestProg (wholeExc (nest true) 2) nestChk (start (whole (nest true) 2 false) fun _ => 0) pairActs

theorem pair_reach : Reach (nest true) (whole (nest true) 2 false) nestProg (fun _ => 0) pair :=
  run_reach nest_mayBegin

set_option maxRecDepth 100000 in
theorem pair_facts : ((whole (nest true) 2 false).g pair.s).n = 2 ∧
    (∀ t, t < 2 → ((whole (nest true) 2 false).g pair.s).ex t = .ended) ∧
    ((whole (nest true) 2 false).g pair.s).tasks 0 = 0 ∧ (Full.State.p pair.s).mpc = .run ∧
    Full.State.bad pair.s = false ∧ pair.m aLoc = 6 ∧ pair.m (.own 1 1) = 5 := by decide +kernel

/-- those of `C76_pausing_like_sequential` -/
example : ∃ x : St (whole (nest true) 2 false) (Loc → Nat), Proper (nest true) nestProg ∧
    Reach (nest true) (whole (nest true) 2 false) nestProg (fun _ => 0) x ∧ ((whole (nest true) 2 false).g x.s).n = 2 ∧
    (∀ t, t < 2 → ((whole (nest true) 2 false).g x.s).ex t = .ended) ∧ x.m aLoc = 6 ∧ x.m (.own 1 1) = 5 :=
  ⟨pair, nest_proper (nest_respects _), pair_reach, pair_facts.1, pair_facts.2.1, pair_facts.2.2.2.2.2.1,
    pair_facts.2.2.2.2.2.2⟩

/-- those of `C76_barrier_like_sequential` and `C76_finalize_like_sequential`: the main thread calls `finalize()` -/
example : ∃ x x' : St (whole (nest true) 2 false) (Loc → Nat), Prog.Rooted (nest true) ∧
    Reach (nest true) (whole (nest true) 2 false) nestProg (fun _ => 0) x ∧
    Step (nest true) (whole (nest true) 2 false) nestProg x x' ∧ ((whole (nest true) 2 false).g x.s).n = 2 ∧
    (Full.State.p x.s).mpc = .check true ∧ (Full.State.p x'.s).mpc.closing = true ∧ x'.m aLoc = 6 := by
  have hr := pair_reach
  obtain ⟨h1, h2, h3, h4, h5, h6, h7⟩ := pair_facts
  generalize pair = x at hr h1 h2 h3 h4 h5 h6 h7
  obtain ⟨s, m, cur, on⟩ := x
  obtain ⟨p, pz, ppre, rfol, rn, bad, ys⟩ := s
  dsimp only [whole] at h1 h2 h3 h4 h5 h6 h7
  subst h5
  let s1 : Full.State := ⟨{ p with mpc := .check true }, pz, Full.resumed p p ppre, rfol, Full.fired p p rn, false, ys⟩
  let s2 : Full.State :=
    ⟨{ p with mpc := .stop 0 }, pz, Full.resumed p p (Full.resumed p p ppre), rfol, Full.fired p p (Full.fired p p rn), false, ys⟩
  refine ⟨⟨s1, m, cur, on⟩, ⟨s2, m, cur, on⟩, Full.nest_rooted, .step hr (.rt (R := whole (nest true) 2 false) (x := ⟨⟨p, pz, ppre, rfol, rn, false, ys⟩, m, cur, on⟩) (s' := s1) ⟨_, .prog rfl
    (.call (fin := true) h4) rfl (fun _ _ _ => rfl) (fun h => by cases h)⟩ (fun t h h' => absurd h h')
    (fun q h => absurd rfl h)), .rt (R := whole (nest true) 2 false) (x := ⟨s1, m, cur, on⟩) (s' := s2) ⟨_, .prog rfl
    (.empty (fin := true) rfl ?_) rfl (fun _ _ _ => rfl) (fun h => by cases h)⟩ (fun t h h' => absurd h h')
    (fun q h => absurd rfl h), h1, rfl, rfl, h6⟩
  show Barrier.isZero (p.y.x.g.tasks 0) = true
  rw [h3]
  rfl

theorem execG_ends {s s' : GList.State} {a : Graph.Act} {t : Nat} (h : GList.execG cfg s a = some s')
    (h1 : s.g.ex t = .running) (h2 : s'.g.ex t ≠ .running) : a = .ret t := by
  unfold GList.execG at h
  split at h
  · rename_i g' hg
    split at h <;> cases h
    exact exec_ends hg h1 h2
  · cases h

theorem execSub_ex {excl : Bool} {s s' : GList.State} {t : Nat} (h : GList.execSub cfg N excl s t = some s') :
    s'.g.ex = s.g.ex := by
  unfold GList.execSub at h
  repeat' split at h
  all_goals first | (cases h; done) | (cases h; rfl)

theorem execPush_ex {s s' : GList.State} {t : Nat} (h : GList.execPush cfg N s t = some s') : s'.g.ex = s.g.ex := by
  unfold GList.execPush at h
  repeat' split at h
  all_goals first | (cases h; done) | (cases h; rfl)

theorem execScan_ex {s s' : GList.State} {t : Nat} (h : GList.execScan cfg N s t = some s') : s'.g.ex = s.g.ex := by
  unfold GList.execScan at h
  repeat' split at h
  all_goals first | (cases h; done) | (cases h; rfl)

theorem execNotify_ex {s s' : GList.State} {t : Nat} {rem : List Fol} (h : GList.execNotify N s t rem = some s') :
    s'.g.ex = s.g.ex := by
  unfold GList.execNotify at h
  repeat' split at h
  all_goals first | (cases h; done) | (cases h; rfl)

theorem execDelete_ex {s s' : GList.State} {t i : Nat} (h : GList.execDelete cfg N s t i = some s') :
    s'.g.ex = s.g.ex := by
  unfold GList.execDelete GList.execRemove at h
  repeat' split at h
  all_goals first | (cases h; done) | (cases h; rfl)

def listsExc (cfg : Cfg) (N : Nat) (excl : Bool) : Exc (lists cfg N excl) GList.Act where
  ex s a := GList.exec cfg N excl s a
  cand _ a := match a with
    | .g (.ret t) => [t]
    | _ => []
  J := GList.Small
  init := fun _ _ _ => rfl
  step _ _ _ h h' := GList.exec_step h h'
  ends s a s' t _ h h1 h2 := by
    have same : ∀ {s' : GList.State}, s'.g.ex = s.g.ex → s'.g.ex t ≠ .running → False := by
      intro s' e h2
      rw [e] at h2
      exact h2 h1
    cases a with
    | g a =>
      have := execG_ends h h1 h2
      subst this
      simp
    | sub u =>
      simp only [GList.exec] at h
      split at h
      · rename_i hs; cases h; exact (same (execSub_ex hs) h2).elim
      · have := execG_ends h h1 h2; cases this
    | init u =>
      simp only [GList.exec, GList.execInit] at h
      split at h
      · rename_i hs; cases h; exact (same (execScan_ex hs) h2).elim
      · split at h
        · rename_i hs; cases h; exact (same (execPush_ex hs) h2).elim
        · have := execG_ends h h1 h2; cases this
    | flush u =>
      simp only [GList.exec, GList.execFlush] at h
      split at h
      · exact (same (execDelete_ex h) h2).elim
      · exact (same (execNotify_ex h) h2).elim
      · have := execG_ends h h1 h2; cases this

def nestLists : List (Act GList.Act) :=
  gs (GList.doSub 0 ++ GList.doInit 0 ++ [.g (.start 0)]) ++ doBody 0 1 ++ gs (GList.doSub 1 ++ GList.doSub 2 ++
    GList.doInit 1 ++ GList.doInit 2 ++ [.g (.start 1)]) ++ doBody 1 1 ++ gs [.g (.ret 1)] ++ doBody 0 1 ++
  gs ([.g (.ret 0)] ++ GList.times 40 (.flush 1) ++ GList.times 40 (.flush 0) ++ [.g (.start 2)]) ++
  doBody 2 1 ++ gs [.g (.ret 2)]

set_option maxRecDepth 100000 in
/-- those of `C76_lists_like_sequential_partial` -/
example : ∃ x : St (lists (nest true) 2 true) (Loc → Nat), NestingOk (nest true) ∧ Proper (nest true) nestProg ∧
    Reach (nest true) (lists (nest true) 2 true) nestProg (fun _ => 0) x ∧ ((lists (nest true) 2 true).g x.s).n = 3 ∧
    (∀ t, t < 3 → ((lists (nest true) 2 true).g x.s).ex t = .ended) ∧ x.m aLoc = 16 ∧ x.m (.own 1 1) = 5 :=
  ⟨run (nest true) nestProg (listsExc (nest true) 2 true) nestChk (start (lists (nest true) 2 true) fun _ => 0) nestLists,
    .inl rfl, nest_proper (nest_respects _), run_reach nest_mayBegin, by decide +kernel, by decide +kernel,
    by decide +kernel, by decide +kernel⟩

/-! ### Several threads register tasks with a resource -/

/-- tasks 1 and 3 increment A, in two steps -/
def incrCode : Nat × Nat → Option Cmd
  | (1, 0) => some (.set (.own 1 1) fun m => m aLoc)
  | (1, 1) => some (.set aLoc fun m => m (.own 1 1) + 1)
  | (3, 0) => some (.set (.own 3 1) fun m => m aLoc)
  | (3, 1) => some (.set aLoc fun m => m (.own 3 1) + 1)
  | _ => none

def incrProg : Prog (Loc → Nat) := cmds (fun t => if t = 1 ∨ t = 3 then 2 else 0) (fun _ => 0) incrCode

theorem lost_may (t : Nat) (o : Mode) (h : o = .write) : May GList.lost t o aLoc :=
  ⟨⟨.io, rA, .write⟩, by exact List.mem_singleton.2 rfl, rfl, h ▸ .io⟩

theorem incr_respects : Respects GList.lost natOp incrProg := by
  apply cmds_respects
  intro t k c h
  match t, k, h with
  | 1, 0, h =>
    cases h
    refine ⟨by decide, ⟨rfl, rfl⟩, fun m1 m2 he => ?_⟩
    exact he aLoc (.inr (lost_may _ _ rfl))
  | 1, 1, h =>
    cases h
    refine ⟨by decide, lost_may _ _ rfl, fun m1 m2 he => ?_⟩
    dsimp only
    rw [he (.own 1 1) (.inr ⟨rfl, rfl⟩)]
  | 3, 0, h =>
    cases h
    refine ⟨by decide, ⟨rfl, rfl⟩, fun m1 m2 he => ?_⟩
    exact he aLoc (.inr (lost_may _ _ rfl))
  | 3, 1, h =>
    cases h
    refine ⟨by decide, lost_may _ _ rfl, fun m1 m2 he => ?_⟩
    dsimp only
    rw [he (.own 3 1) (.inr ⟨rfl, rfl⟩)]

theorem lost_child {c q : Nat} (h : GList.lost.parentOf c = some q) : c = 2 ∧ q = 0 := by
  by_cases e : c = 2
  · subst e; cases h; exact ⟨rfl, rfl⟩
  · simp [GList.lost, prog, Cfg.parentOf, e] at h

theorem lost_root (t : Nat) : ∀ ra ∈ (GList.lost.user t).access, ra.res.scope = 0 := by
  intro ra h
  obtain ⟨x, hx, rfl⟩ := List.mem_map.1 (show ra ∈ [(rA, Mode.write)].map fun x => (⟨.io, x.1, x.2⟩ : RAccess) from h)
  cases List.mem_singleton.1 hx
  rfl

theorem lost_proper : Proper GList.lost incrProg where
  wf := prog_wellFormed _ _ _ _ _
  single := rfl
  one a b h := by
    by_cases e : a = 2 <;> by_cases e' : b = 2 <;> simp [GList.lost, prog, Cfg.parentOf, e, e'] at h ⊢
  covered c q h := by
    obtain ⟨rfl, rfl⟩ := lost_child h
    decide +kernel
  declared := incr_respects.declared (prog_wellFormed _ _ _ _ _) lost_root

theorem lost_mayBegin (g : State) (t k : Nat) (h : (t != 0) = true) : MayBegin GList.lost incrProg g t k := by
  intro c d j h1
  obtain ⟨rfl, rfl⟩ := lost_child h1
  cases h

/-- the execution of `GList.C74_conflicting_tasks_run_together_false`, and then -/
def lostActs : List (Act GList.Act) :=
  gs (GList.lostRun1 ++ GList.lostRun2) ++ doBody 1 1 ++ doBody 3 1 ++ doBody 1 1 ++ doBody 3 1 ++
    gs [.g (.ret 1), .g (.ret 3)]

def lostSt : St (lists GList.lost 8 false) (Loc → Nat) :=
  run GList.lost incrProg (listsExc GList.lost 8 false) (fun _ t _ => t != 0) (start (lists GList.lost 8 false) fun _ => 0)
    lostActs

set_option maxRecDepth 100000 in
theorem lost_facts : ((lists GList.lost 8 false).g lostSt.s).n = 4 ∧
    (∀ t, t < 4 → ((lists GList.lost 8 false).g lostSt.s).ex t = .ended) ∧ lostSt.m aLoc = 1 := by decide +kernel

set_option maxRecDepth 100000 in
/-- C76 is false if two threads register tasks with the same resource at the same time: two tasks increment a variable,
one of the increments is lost. -/
theorem C76_two_threads_false : Proper GList.lost incrProg ∧ NestingOk GList.lost ∧
    ∃ x : St (lists GList.lost 8 false) (Loc → Nat), Reach GList.lost (lists GList.lost 8 false) incrProg (fun _ => 0) x ∧
      (∀ t, t < ((lists GList.lost 8 false).g x.s).n → ((lists GList.lost 8 false).g x.s).ex t = .ended) ∧
      ¬ Exec incrProg.next (program GList.lost incrProg ((lists GList.lost 8 false).g x.s).n) (fun _ => 0) x.m := by
  obtain ⟨h1, h2, h3⟩ := lost_facts
  refine ⟨lost_proper, .inl rfl, lostSt, run_reach lost_mayBegin, by rw [h1]; exact h2, fun h => ?_⟩
  have hp : program GList.lost incrProg 4 = [(1, 0), (1, 1), (3, 0), (3, 1)] := by decide +kernel
  rw [h1, hp] at h
  have h' : ∃ m, Exec incrProg.next [(1, 0), (1, 1), (3, 0), (3, 1)] (fun _ => 0) m ∧ m aLoc = 2 :=
    ⟨_, .cons (.step rfl (.done rfl)) (.cons (.step rfl (.done rfl)) (.cons (.step rfl (.done rfl))
      (.cons (.step rfl (.done rfl)) .nil))), by decide⟩
  obtain ⟨m, h4, h5⟩ := h'
  rw [← h.det h4, h3] at h5
  cases h5

end RG.Bodies
