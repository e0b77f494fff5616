import Verif.Lemmas.DemotionsBodies
import Verif.Props.Bodies
/-
Property C82: programs whose tasks give up accesses while they run compute the same as the sequential program.
-/
set_option linter.unusedVariables false
namespace RG.Demoting
open RG.Graph
open RG.Bodies (Indep Exec Run Keeps Uses Loc)

variable {cfg0 : Cfg} {R : Runtime} {M : Type} {P : Prog M} {m0 : M}

/-! ### The theorems -/

/-- C82: when all tasks have returned, the memory is the one that the sequential program computes, in which the tasks
are executed one after the other in the order in which they have been submitted: whatever the tasks have given up in
the meantime, and whether or not `update_properties` has thrown exceptions.
Partial: every demotion has to happen in the circumstances `Calm` (without them C22 has counterexamples); there are no
nested tasks. -/
theorem C82_like_sequential_partial (hP : Proper cfg0 P) {x : St (graph cfg0) M} (hr : Reach (graph cfg0) P m0 x)
    (he : ∀ t, t < (x.s.2 : State).n → (x.s.2 : State).ex t = .ended) :
    Exec P.next ((List.range (x.s.2 : State).n).flatMap fun t => (List.range (P.len t)).map fun k => (t, k)) m0 x.m :=
  sequential hP graph_sound hr he

/-- C82 with one worker: there is no assumption on the interleaving of the threads, if no two tasks have more than one
resource in common.
Partial: with several workers it is false (see C22); there are no nested tasks. -/
theorem C82_one_worker_partial (hP : Proper cfg0 P) (h1 : cfg0.ShareOne) {x : St (workers cfg0 1) M}
    (hr : Reach (workers cfg0 1) P m0 x)
    (he : ∀ t, t < (x.s.2 : Sys.State).x.g.n → (x.s.2 : Sys.State).x.g.ex t = .ended) :
    Exec P.next ((List.range (x.s.2 : Sys.State).x.g.n).flatMap fun t => (List.range (P.len t)).map fun k => (t, k))
      m0 x.m :=
  sequential hP (workers_sound hP.wf (.inr hP.flat) h1) hr he

/-- C82: two executions of the same program compute the same, also if different accesses have been given up.
Partial: see `C82_like_sequential_partial`. -/
theorem C82_deterministic_partial (hP : Proper cfg0 P) {x y : St (graph cfg0) M} (hx : Reach (graph cfg0) P m0 x)
    (hy : Reach (graph cfg0) P m0 y) (hn : (x.s.2 : State).n = (y.s.2 : State).n)
    (hex : ∀ t, t < (x.s.2 : State).n → (x.s.2 : State).ex t = .ended)
    (hey : ∀ t, t < (y.s.2 : State).n → (y.s.2 : State).ex t = .ended) : x.m = y.m := by
  have h1 := C82_like_sequential_partial hP hx hex
  have h2 := C82_like_sequential_partial hP hy hey
  rw [← hn] at h2
  exact h1.det h2

/-- C82: phases of different tasks that are executed at the same time are independent: there are no data races.
Partial: see `C82_like_sequential_partial`. -/
theorem C82_no_race_partial (hP : Proper cfg0 P) {x : St (graph cfg0) M} (hr : Reach (graph cfg0) P m0 x) {t u : Nat}
    (hne : t ≠ u) (ht : x.on t = true) (hu : x.on u = true) : Indep P.next (t, x.cur t) (u, x.cur u) := by
  apply Classical.byContradiction
  intro hi
  obtain ⟨a, ha, b, hb, hc⟩ := hP.declared t u _ _ hne hi
  obtain ⟨tr, h⟩ := Inv.of_reach hP graph_sound hr
  obtain ⟨h1, -, h2⟩ := h.onR t ht
  obtain ⟨h3, -, h4⟩ := h.onR u hu
  have hd := graph_sound.reach hr.rt
  have nf : ∀ {v}, State.ex x.s.2 v = .running → ¬ Finished x.s.1 x.s.2 v := by
    intro v hv hf
    cases hf with
    | mk h _ _ => rw [hv] at h; cases h
  have := C81_exclusion_partial hP.wf (.inr hP.flat) hd hne (by rw [hd.less.space]; exact hP.one t u)
    (by unfold Started; rw [h1]; simp) (by unfold Started; rw [h3]; simp) (nf h1) (nf h3)
  rw [← Bool.not_eq_true] at this
  refine this ?_
  simp only [User.isSerial, List.any_eq_true, List.mem_reverse]
  exact ⟨a, h2 ha, b, h4 hb, hc⟩

/-- C82: if every phase does with the memory only what the accesses that it needs allow, and these have been declared,
then phases of different tasks are independent unless they need accesses that conflict: the last assumption of
`Proper` holds. -/
theorem C82_declared_is_enough {V : Type} {op : Mode → V → V → V} {P : Prog (Loc → V)} (hw : cfg0.WellFormed)
    (h : Keeps (fun a => Uses (P.need a) a.1) op P.next) (hsub : ∀ a, P.need a ⊆ (cfg0.user a.1).access) (t u k j : Nat)
    (hne : t ≠ u) (hi : ¬ Indep P.next (t, k) (u, j)) :
    ∃ a ∈ P.need (t, k), ∃ b ∈ P.need (u, j), a.isSerial b = true := by
  apply Classical.byContradiction
  intro hn
  have pol : ∀ p q : Nat × Nat, ∀ ra ∈ P.need p, ∀ rb ∈ P.need q, ra.res = rb.res → ra.ty = rb.ty :=
    fun p q ra ha rb hb => hw.policy p.1 q.1 ra rb (hsub _ ha) (hsub _ hb)
  have no : ∀ ra ∈ P.need (t, k), ∀ rb ∈ P.need (u, j), ra.isSerial rb = false := by
    intro ra ha rb hb
    rw [← Bool.not_eq_true]
    exact fun hc => hn ⟨ra, ha, rb, hb, hc⟩
  have comm : ∀ ra rb : RAccess, ra.isSerial rb = true → rb.isSerial ra = true := by
    intro ra rb
    rw [RAccess.isSerial_iff, RAccess.isSerial_iff]
    rintro ⟨p, r, x, y, h1, h2, h3⟩
    exact ⟨p, r, y, x, h2, h1, by rw [C01_conflict_symmetric]; exact h3⟩
  refine hi (h.indep (fun a b x => Bodies.uses_compatible hne (pol _ _) no)
    (fun a b x => Bodies.uses_compatible (Ne.symm hne) (pol _ _) ?_))
  intro ra ha rb hb
  rw [← Bool.not_eq_true]
  intro hc
  have := no rb hb ra ha
  rw [comm _ _ hc] at this
  cases this

/-! ### Completion -/

inductive Steps (R : Runtime) (P : Prog M) : St R M → St R M → Prop
  | refl {x} : Steps R P x x
  | step {x x' x''} (h : Steps R P x x') (hs : Step R P x' x'') : Steps R P x x''

theorem Steps.trans {x y z : St R M} (h : Steps R P x y) (h' : Steps R P y z) : Steps R P x z := by
  induction h' with
  | refl => exact h
  | step _ hs ih => exact .step ih hs

theorem Steps.reach {x y : St R M} (h : Steps R P x y) (hr : Reach R P m0 x) : Reach R P m0 y := by
  induction h with
  | refl => exact hr
  | step _ hs ih => exact .step ih hs

/-- a phase that has begun is completed -/
theorem finish_phase {x : St R M} {t : Nat} (hx : (R.g x.s).ex t = .running) (ho : x.on t = true) {m' : M}
    (h : Run P.next (t, x.cur t) x.m m') :
    Steps R P x { x with m := m', cur := upd x.cur t (x.cur t + 1), on := upd x.on t false } := by
  obtain ⟨s, m, cur, on⟩ := x
  dsimp only at hx ho h ⊢
  induction h with
  | done hn => exact .step .refl (.stop (x := ⟨s, _, cur, on⟩) hx ho hn)
  | step hn _ ih => exact Steps.trans (.step .refl (.act (x := ⟨s, _, cur, on⟩) hx ho hn)) ih

/-- all the accesses that the remaining phases of `t` need have been kept -/
def Keeping (P : Prog M) (x : St R M) (t : Nat) : Prop :=
  ∀ k, x.cur t ≤ k → k < P.len t → P.need (t, k) ⊆ ((R.cfg x.s).user t).access

/-- a running body is completed -/
theorem finish_body (hterm : ∀ a m, ∃ m', Run P.next a m m') {t : Nat} : ∀ (d : Nat) (x : St R M),
    (R.g x.s).ex t = .running → P.len t - x.cur t ≤ d → x.cur t ≤ P.len t → (x.on t = true → x.cur t < P.len t) →
    Keeping P x t → ∃ x', Steps R P x x' ∧ x'.s = x.s ∧ x'.cur t = P.len t ∧ x'.on t = false ∧
      ∀ u, u ≠ t → x'.cur u = x.cur u ∧ x'.on u = x.on u := by
  intro d
  induction d with
  | zero =>
    intro x hx hd hc ho hk
    refine ⟨x, .refl, rfl, by omega, ?_, fun _ _ => ⟨rfl, rfl⟩⟩
    rw [← Bool.not_eq_true]
    intro h
    have := ho h
    omega
  | succ d ih =>
    intro x hx hd hc ho hk
    by_cases hl : x.cur t = P.len t
    · refine ⟨x, .refl, rfl, hl, ?_, fun _ _ => ⟨rfl, rfl⟩⟩
      rw [← Bool.not_eq_true]
      intro h
      have := ho h
      omega
    · have key : ∃ y : St R M, Steps R P x y ∧ y.s = x.s ∧ y.cur = upd x.cur t (x.cur t + 1) ∧ y.on t = false ∧
          ∀ u, u ≠ t → y.on u = x.on u := by
        cases hon : x.on t with
        | true =>
          obtain ⟨m', hm⟩ := hterm (t, x.cur t) x.m
          exact ⟨_, finish_phase hx hon hm, rfl, rfl, upd_same _ _ _, fun u hu => upd_ne _ _ hu⟩
        | false =>
          obtain ⟨m', hm⟩ := hterm (t, x.cur t) x.m
          have hb : Step R P x { x with on := upd x.on t true } := .begin hx hon (by omega) (hk _ (Nat.le_refl _) (by omega))
          refine ⟨_, Steps.trans (.step .refl hb) (finish_phase (x := { x with on := upd x.on t true }) hx
            (upd_same _ _ _) hm), rfl, rfl, upd_same _ _ _, fun u hu => ?_⟩
          dsimp only
          rw [upd_ne _ _ hu, upd_ne _ _ hu]
      obtain ⟨y, h1, h2, h3, h4, h5⟩ := key
      have e : y.cur t = x.cur t + 1 := by rw [h3, upd_same]
      obtain ⟨z, h6, h7, h8, h9, h10⟩ := ih y (by rw [h2]; exact hx) (by omega) (by omega)
        (fun h => by rw [h4] at h; cases h) (fun k hk1 hk2 => by rw [h2]; exact hk k (by omega) hk2)
      refine ⟨z, h1.trans h6, h7.trans h2, h8, h9, fun u hu => ?_⟩
      obtain ⟨h11, h12⟩ := h10 u hu
      exact ⟨by rw [h11, h3, upd_ne _ _ hu], by rw [h12, h5 u hu]⟩

/-- all running bodies are completed -/
theorem finish_bodies (hterm : ∀ a m, ∃ m', Run P.next a m m') (x : St R M)
    (hc : ∀ t, x.cur t ≤ P.len t) (ho : ∀ t, x.on t = true → x.cur t < P.len t) (hk : ∀ t, Keeping P x t) :
    ∀ n, ∃ x', Steps R P x x' ∧ x'.s = x.s ∧ (∀ t, x.cur t ≤ x'.cur t) ∧
      (∀ t, t < n → (R.g x.s).ex t = .running → x'.cur t = P.len t ∧ x'.on t = false) ∧
      ∀ t, n ≤ t → x'.cur t = x.cur t ∧ x'.on t = x.on t := by
  intro n
  induction n with
  | zero => exact ⟨x, .refl, rfl, fun _ => Nat.le_refl _, fun t h => absurd h (Nat.not_lt_zero _), fun _ _ => ⟨rfl, rfl⟩⟩
  | succ n ih =>
    obtain ⟨y, h1, h2, h3, h4, h5⟩ := ih
    by_cases hx : (R.g x.s).ex n = .running
    · obtain ⟨e1, e2⟩ := h5 n (Nat.le_refl _)
      obtain ⟨z, h6, h7, h8, h9, h10⟩ := finish_body hterm (P.len n) y (t := n) (by rw [h2]; exact hx) (by omega)
        (by rw [e1]; exact hc n) (by rw [e1, e2]; exact ho n)
        (fun k hk1 hk2 => by rw [h2]; exact hk n k (by omega) hk2)
      refine ⟨z, h1.trans h6, h7.trans h2, fun t => ?_, fun t ht hr => ?_, fun t ht => ?_⟩
      · by_cases e : t = n
        · subst e; rw [h8]; exact hc t
        · rw [(h10 t e).1]; exact h3 t
      · by_cases e : t = n
        · subst e; exact ⟨h8, h9⟩
        · rw [(h10 t e).1, (h10 t e).2]; exact h4 t (by omega) hr
      · rw [(h10 t (by omega)).1, (h10 t (by omega)).2]; exact h5 t (by omega)
    · refine ⟨y, h1, h2, h3, fun t ht hr => ?_, fun t ht => h5 t (by omega)⟩
      by_cases e : t = n
      · subst e; exact absurd hr hx
      · exact h4 t (by omega) hr

/-- C82: from any state on, the bodies of the tasks submitted so far can be executed to their end without further
demotions, if they have kept the accesses that they need, and then the memory is the one that the sequential program
computes.
Partial: see `C82_like_sequential_partial`. -/
theorem C82_completion_partial (hP : Proper cfg0 P) (hnd : ∀ t, (cfg0.user t).unique.Nodup)
    (hterm : ∀ a m, ∃ m', Run P.next a m m') {x : St (graph cfg0) M} (hr : Reach (graph cfg0) P m0 x)
    (hk : ∀ t k, x.cur t ≤ k → k < P.len t → P.need (t, k) ⊆ ((x.s.1 : Cfg).user t).access) :
    ∃ x', Steps (graph cfg0) P x x' ∧ (x'.s.2 : State).n = (x.s.2 : State).n ∧
      (∀ t, t < (x'.s.2 : State).n → (x'.s.2 : State).ex t = .ended) ∧
      Exec P.next ((List.range (x'.s.2 : State).n).flatMap fun t => (List.range (P.len t)).map fun k => (t, k))
        m0 x'.m := by
  have main : ∀ d (x : St (graph cfg0) M), Reach (graph cfg0) P m0 x → (∀ t, Keeping P x t) →
      measure x.s.1 x.s.2 ≤ d → ∃ x', Steps (graph cfg0) P x x' ∧ (x'.s.2 : State).n = (x.s.2 : State).n ∧
        (∀ t, t < (x'.s.2 : State).n → (x'.s.2 : State).ex t = .ended) := by
    intro d
    induction d with
    | zero =>
      intro x hr hk hm
      have hd := graph_sound.reach hr.rt
      have hi := hd.inv hP.wf.policy (.inr hP.flat)
      refine ⟨x, .refl, rfl, fun t ht => ?_⟩
      have := (C81_no_deadlock_partial hP.wf (.inr hP.flat) hP.single hnd hd (fun s' hw => ?_) t ht).1
      · cases this with
        | mk h _ _ => exact h
      · obtain ⟨⟨⟨l, h⟩, h1, h2⟩, h3⟩ := hw
        have := measure_decreases_of hi.dom hi.core hi.life h h1 h2
        dsimp only [graph] at this hm
        omega
    | succ d ih =>
      intro x hr hk hm
      have hd := graph_sound.reach hr.rt
      have hi := hd.inv hP.wf.policy (.inr hP.flat)
      by_cases hq : ∃ s', OwnWork x.s.1 x.s.2 s'
      · obtain ⟨s', ⟨⟨⟨l, h⟩, h1, h2⟩, h3⟩⟩ := hq
        obtain ⟨tr, hv⟩ := Inv.of_reach hP graph_sound hr
        obtain ⟨y, g1, g2, g3, g4, g5⟩ := finish_bodies hterm x hv.curL (fun t h => (hv.onR t h).2.1) hk
          (x.s.2 : State).n
        have dec := measure_decreases_of hi.dom hi.core hi.life h h1 h2
        have hst : Step (graph cfg0) P y { y with s := (x.s.1, s') } := by
          refine .rt (R := graph cfg0) (x := y) ?_ ?_ ?_
          · rw [g2]; exact .step h
          · intro t ht _
            rw [g2] at ht
            exact g4 t ((running_facts' hi.dom hi.core ht).1) ht
          · intro t _ hn
            rw [g2] at hn
            exact hn
        obtain ⟨z, h4, h5, h6⟩ := ih _ (.step (g1.reach hr) hst)
          (fun t k hk1 hk2 => hk t k (Nat.le_trans (g3 t) hk1) hk2) (by dsimp only [graph] at dec hm ⊢; omega)
        exact ⟨z, (Steps.step g1 hst).trans h4, h5.trans h1, h6⟩
      · refine ⟨x, .refl, rfl, fun t ht => ?_⟩
        have := (C81_no_deadlock_partial hP.wf (.inr hP.flat) hP.single hnd hd (fun s' hw => hq ⟨s', hw⟩) t ht).1
        cases this with
        | mk h _ _ => exact h
  obtain ⟨x', h1, h2, h3⟩ := main _ x hr (fun t => hk t) (Nat.le_refl _)
  exact ⟨x', h1, h2, h3, C82_like_sequential_partial hP (h1.reach hr) h3⟩

/-! ### The hypotheses can be met -/

/-- the steps of the task graph between the phases: the bodies that have ended were complete -/
theorem lift (hP : cfg0.WellFormed) (hflat : ∀ sp, cfg0.parent sp = none) {x : St (graph cfg0) M}
    (hr : Reach (graph cfg0) P m0 x) {s' : State} (h : Graph.Steps x.s.1 x.s.2 s')
    (he : ∀ t, s'.ex t = .ended → x.cur t = P.len t ∧ x.on t = false) :
    Reach (graph cfg0) P m0 { x with s := (x.s.1, s') } := by
  induction h with
  | refl => exact hr
  | @step s1 s2 l h hs ih =>
    have hd : DReach cfg0 x.s.1 s1 := DReach.steps (graph_sound.reach hr.rt) h
    have hc := Bodies.change_of (hd.inv hP.policy (.inr hflat)).core hs
    refine .step (ih fun t ht => he t (hc.ended t ht)) (.rt (R := graph cfg0) (x := { x with s := (x.s.1, s1) })
      (.step hs) (fun t h1 h2 => he t ?_) fun t _ h => h)
    rcases hc.running t h1 with h3 | h3
    · exact absurd h3 h2
    · exact h3

/-- a whole phase at once -/
theorem phase {x : St R M} (hr : Reach R P m0 x) (t : Nat) (m' : M) (hx : (R.g x.s).ex t = .running)
    (ho : x.on t = false) (hl : x.cur t < P.len t) (hm : P.need (t, x.cur t) ⊆ ((R.cfg x.s).user t).access)
    (hn : Run P.next (t, x.cur t) x.m m') :
    Reach R P m0 { x with m := m', cur := upd x.cur t (x.cur t + 1) } := by
  have := finish_phase (x := { x with on := upd x.on t true }) hx (upd_same _ _ _) hn
  have e : upd (upd x.on t true) t false = x.on := by
    funext u
    by_cases e : u = t
    · subst e; rw [upd_same, ho]
    · rw [upd_ne _ _ e, upd_ne _ _ e]
  dsimp only at this
  rw [e] at this
  exact this.reach (.step hr (.begin hx ho hl hm))

open RG.Bodies (Cmd aLoc bLoc put)

/-- Task 0 of `flat` writes A. Then it gives up A, and executes the command `c`. Task 1 reads A and writes B. -/
def demCode (c : Cmd) : Nat × Nat → Option Cmd
  | (0, 0) => some (.set aLoc fun _ => 5)
  | (0, 1) => some c
  | (1, 0) => some (.set bLoc fun m => m aLoc + 1)
  | _ => none

def demProg (c : Cmd) : Prog (Loc → Nat) where
  len t := if t = 0 then 2 else 1
  next := (Bodies.cmds (fun _ => 0) (fun _ => 0) (demCode c)).next
  need a := if a.2 = 0 then (flat.user a.1).access else []

/-- the command only changes a variable of task 0 -/
def careful : Cmd := .set (.own 0 1) fun _ => 7

/-- the command writes A, which has been given up -/
def careless : Cmd := .set aLoc fun _ => 9

theorem careful_keeps : Keeps (fun a => Uses ((demProg careful).need a) a.1) Bodies.natOp (demProg careful).next := by
  have hA : ∀ t r o, (r, o) ∈ flatAcc t → ∀ pos, Uses ((demProg careful).need (t, 0)) t o (.shared r pos) :=
    fun t r o h pos => Bodies.flat_may pos h
  refine Bodies.cmds_keeps (len := fun _ => 0) (after := fun _ => 0) (fun a => ⟨rfl, rfl⟩) ?_
  · rintro ⟨t, k⟩ c h
    match t, k, h with
    | 0, 0, h =>
      cases h
      exact ⟨by decide, hA 0 rA .write (by decide +kernel) [], fun _ _ _ => rfl⟩
    | 0, 1, h =>
      cases h
      exact ⟨by decide, ⟨rfl, rfl⟩, fun _ _ _ => rfl⟩
    | 1, 0, h =>
      cases h
      refine ⟨by decide, hA 1 rB .write (by decide +kernel) [], fun m1 m2 he => ?_⟩
      have := he aLoc (.inl (hA 1 rA .read (by decide +kernel) []))
      simp only [this]

theorem careful_proper : Proper flat (demProg careful) where
  wf := prog_wellFormed ..
  single := rfl
  flat _ := rfl
  one _ _ := rfl
  declared := C82_declared_is_enough (prog_wellFormed ..) careful_keeps (by
    rintro ⟨t, k⟩ ra h
    simp only [demProg] at h
    split at h
    · exact h
    · cases h)

/-- the bodies of `demProg c` are executed: phase 0 of task 0, task 1, phase 1 of task 0 -/
def dem1 (m : Loc → Nat) : Loc → Nat := put (.own 0 0) 1 ((Cmd.set aLoc fun _ => 5).run m)
def dem2 (m : Loc → Nat) : Loc → Nat := put (.own 1 0) 1 ((Cmd.set bLoc fun m => m aLoc + 1).run m)
def dem3 (c : Cmd) (m : Loc → Nat) : Loc → Nat := put (.own 0 0) 2 (c.run m)

def demMem (c : Cmd) : Loc → Nat := dem3 c (dem2 (dem1 fun _ => 0))

def demStart : State := run givenUp.1 givenUp.2.1 [.start 1]

def demEnd : State := run givenUp.1 demStart [.ret 1, .ret 0]

theorem only_two {cfg : Cfg} {s : State} (hr : DReach flat cfg s) (hn : s.n = 2) {t : Nat} (h : s.ex t ≠ .none) :
    t = 0 ∨ t = 1 := by
  have hd := (hr.inv (prog_wellFormed ..).policy (.inl rfl)).dom
  rcases Nat.lt_or_ge t 2 with h1 | h1
  · omega
  · exact absurd (hd.ex t (by omega)) h

theorem dem_run1 (c : Cmd) : Run (demProg c).next (0, 0) (fun _ => 0) (dem1 fun _ => 0) :=
  .step (m1 := dem1 fun _ => 0) rfl (.done rfl)

theorem dem_run2 (c : Cmd) : Run (demProg c).next (1, 0) (dem1 fun _ => 0) (dem2 (dem1 fun _ => 0)) :=
  .step (m1 := dem2 (dem1 fun _ => 0)) rfl (.done rfl)

theorem dem_run3 (c : Cmd) {m : Loc → Nat} (hm : m (.own 0 0) = 1) : Run (demProg c).next (0, 1) m (dem3 c m) :=
  .step (m1 := dem3 c m) (by
    show (match demCode c (0, 1) with
      | some c => if m (.own 0 0) = 1 then some (put (.own 0 0) (1 + 1) (c.run m)) else none
      | none => none) = some (dem3 c m)
    simp only [demCode]
    rw [if_pos hm]
    rfl) (.done (by
    show (match demCode c (0, 1) with
      | some c => if dem3 c m (.own 0 0) = 1 then some (put (.own 0 0) (1 + 1) (c.run (dem3 c m))) else none
      | none => none) = none
    simp only [demCode]
    rw [if_neg]
    simp [dem3, put]))

set_option maxRecDepth 100000 in
theorem dem_reach (c : Cmd) : ∃ cur, Reach (graph flat) (demProg c) (fun _ => 0)
    ⟨(givenUp.1, demEnd), demMem c, cur, fun _ => false⟩ := by
  have hw : flat.WellFormed := prog_wellFormed ..
  have hf : ∀ sp, flat.parent sp = none := fun _ => rfl
  have hn : demoteRun.n = 2 := by decide +kernel
  have e0 : demoteRun.ex 0 = .running := by decide +kernel
  have e1 : demoteRun.ex 1 = .none := by decide +kernel
  -- the tasks are submitted and task 0 is started
  have r1 : Reach (graph flat) (demProg c) (fun _ => 0) ⟨(flat, demoteRun), fun _ => 0, fun _ => 0, fun _ => false⟩ := by
    refine lift hw hf .init (run_steps _ _) fun t h => ?_
    exfalso
    change demoteRun.ex t = .ended at h
    rcases only_two demoteRun_reach.demotions hn (t := t) (by rw [h]; simp) with rfl | rfl
    · rw [e0] at h; cases h
    · rw [e1] at h; cases h
  -- phase 0 of task 0
  have r2 := phase r1 0 (dem1 fun _ => 0) e0 rfl (by show _ < 2; decide) (fun _ h => h) (dem_run1 c)
  -- the demotion
  have r3 : Reach (graph flat) (demProg c) (fun _ => 0)
      ⟨(givenUp.1, givenUp.2.1), dem1 fun _ => 0, upd (fun _ => 0) 0 1, fun _ => false⟩ := by
    refine .step r2 (.rt (R := graph flat) (s' := (givenUp.1, givenUp.2.1)) (.demote e0
      (fun d hd => ⟨⟨.io, rA, Mode.write⟩, List.mem_singleton.1 hd⟩) givenUp_ok givenUp_calm) (fun t h1 h2 => ?_)
      fun t h => by cases h)
    exfalso
    refine h2 ?_
    have h3 := (updateLoop_spec givenUp.1 0 (demoteRun.fol 0) demoteRun).2.2.2.2.2.1
    rw [← (updateProperties_ok givenUp_ok).2] at h3
    dsimp only [graph] at h1 ⊢
    rw [h3]
    exact h1
  -- task 1
  have hs := givenUp_reach.steps (run_steps (cfg := givenUp.1) [.start 1] givenUp.2.1)
  have r4 : Reach (graph flat) (demProg c) (fun _ => 0)
      ⟨(givenUp.1, demStart), dem1 fun _ => 0, upd (fun _ => 0) 0 1, fun _ => false⟩ := by
    refine lift hw hf r3 (run_steps _ _) fun t h => ?_
    exfalso
    change demStart.ex t = .ended at h
    rcases only_two hs (by decide +kernel) (t := t) (by change demStart.ex t ≠ _; rw [h]; simp) with rfl | rfl
    · rw [show demStart.ex 0 = .running from by decide +kernel] at h; cases h
    · rw [show demStart.ex 1 = .running from by decide +kernel] at h; cases h
  have r5 := phase r4 1 (dem2 (dem1 fun _ => 0)) (by decide +kernel) rfl (by show _ < 1; decide) (fun _ h => h) (dem_run2 c)
  -- phase 1 of task 0
  have r6 := phase r5 0 (demMem c) (by decide +kernel) rfl (by show _ < 2; decide) (fun _ h => by cases h) (dem_run3 c rfl)
  -- the bodies end
  refine ⟨_, lift hw hf r6 (run_steps [.ret 1, .ret 0] _) fun t h => ?_⟩
  change demEnd.ex t = .ended at h
  rcases only_two (hs.steps (run_steps (cfg := givenUp.1) [.ret 1, .ret 0] demStart)) (by decide +kernel) (t := t)
    (by change demEnd.ex t ≠ _; rw [h]; simp) with rfl | rfl
  · exact ⟨rfl, rfl⟩
  · exact ⟨rfl, rfl⟩

theorem demEnd_ended : demEnd.n = 2 ∧ demEnd.ex 0 = .ended ∧ demEnd.ex 1 = .ended := by decide +kernel

/-- task 1, which conflicts with task 0, is executed between the two phases of task 0 -/
example : Proper flat (demProg careful) ∧ flat.ShareOne ∧ (∀ t, (flat.user t).unique.Nodup) ∧
    (∀ a m, ∃ m', Run (demProg careful).next a m m') ∧ (flat.user 0).isSerial (flat.user 1) = true ∧
    ∃ x : St (graph flat) (Loc → Nat), Reach (graph flat) (demProg careful) (fun _ => 0) x ∧
      (x.s.2 : State).n = 2 ∧ (∀ t, t < (x.s.2 : State).n → (x.s.2 : State).ex t = .ended) ∧
      x.m aLoc = 5 ∧ x.m bLoc = 6 ∧ x.m (.own 0 1) = 7 := by
  obtain ⟨cur, h⟩ := dem_reach careful
  obtain ⟨h1, h2, h3⟩ := demEnd_ended
  refine ⟨careful_proper, flat_shareOne, flat_shareOne.nodup, ?_, by decide +kernel, _, h, h1, ?_, rfl, rfl, rfl⟩
  · rintro ⟨t, k⟩ m
    cases hn : (demProg careful).next (t, k) m with
    | none => exact ⟨m, .done hn⟩
    | some m1 =>
      refine ⟨m1, .step hn (.done ?_)⟩
      simp only [demProg, Bodies.cmds] at hn ⊢
      cases hc : demCode careful (t, k) with
      | none => rfl
      | some c =>
        rw [hc] at hn
        simp only at hn ⊢
        split at hn
        · cases hn
          rw [if_neg]
          simp [put]
        · cases hn
  · intro t ht
    dsimp only at ht ⊢
    rw [h1] at ht
    match t with
    | 0 => exact h2
    | 1 => exact h3

/-- C82 is false for bodies that go on to use what they have given up, although all that they do was declared when the
tasks were submitted: task 0 writes A a second time, after it has given it up, and task 1 has already read it. -/
theorem C82_careless_false : ∃ (P : Prog (Loc → Nat)) (x : St (graph flat) (Loc → Nat)), flat.WellFormed ∧
    flat.single = true ∧ (∀ sp, flat.parent sp = none) ∧ (∀ t u, flat.space t = flat.space u) ∧
    (∀ t u k j, t ≠ u → ¬ Indep P.next (t, k) (u, j) → (flat.user t).isSerial (flat.user u) = true) ∧
    Reach (graph flat) P (fun _ => 0) x ∧ (∀ t, t < (x.s.2 : State).n → (x.s.2 : State).ex t = .ended) ∧
    ¬ Exec P.next ((List.range (x.s.2 : State).n).flatMap fun t => (List.range (P.len t)).map fun k => (t, k))
      (fun _ => 0) x.m := by
  obtain ⟨cur, h⟩ := dem_reach careless
  obtain ⟨h1, h2, h3⟩ := demEnd_ended
  refine ⟨demProg careless, _, prog_wellFormed .., rfl, fun _ => rfl, fun _ _ => rfl, ?_, h, ?_, ?_⟩
  · intro t u k j hne hi
    have hA : ∀ t r o, (r, o) ∈ flatAcc t → ∀ pos, Bodies.May flat t o (.shared r pos) :=
      fun t r o h pos => Bodies.flat_may pos h
    have hk : Keeps (fun a => Bodies.May flat a.1) Bodies.natOp (demProg careless).next := by
      refine Bodies.cmds_keeps (len := fun _ => 0) (after := fun _ => 0) (fun a => ⟨rfl, rfl⟩) ?_
      rintro ⟨t, k⟩ c h
      match t, k, h with
      | 0, 0, h =>
        cases h
        exact ⟨by decide, hA 0 rA .write (by decide +kernel) [], fun _ _ _ => rfl⟩
      | 0, 1, h =>
        cases h
        exact ⟨by decide, hA 0 rA .write (by decide +kernel) [], fun _ _ _ => rfl⟩
      | 1, 0, h =>
        cases h
        refine ⟨by decide, hA 1 rB .write (by decide +kernel) [], fun m1 m2 he => ?_⟩
        have := he aLoc (.inl (hA 1 rA .read (by decide +kernel) []))
        simp only [this]
    obtain ⟨a, ha, b, hb, hc⟩ := C82_declared_is_enough (cfg0 := flat)
      (P := { demProg careless with need := fun a => (flat.user a.1).access }) (prog_wellFormed ..) hk (fun _ _ h => h)
      t u k j hne hi
    simp only [User.isSerial, List.any_eq_true, List.mem_reverse]
    exact ⟨a, ha, b, hb, hc⟩
  · intro t ht
    dsimp only at ht ⊢
    rw [h1] at ht
    match t with
    | 0 => exact h2
    | 1 => exact h3
  · dsimp only
    rw [h1]
    intro he
    have hseq : Exec (demProg careless).next [(0, 0), (0, 1), (1, 0)] (fun _ => 0)
        (dem2 (dem3 careless (dem1 fun _ => 0))) :=
      .cons (dem_run1 _) (.cons (dem_run3 _ rfl)
        (.cons (.step (m1 := dem2 (dem3 careless (dem1 fun _ => 0))) rfl (.done rfl)) .nil))
    have := congrFun (he.det hseq) bLoc
    exact absurd this (by decide +kernel)

end RG.Demoting

/-! ### One worker -/

namespace RG.Demoting
open RG.Graph
open RG.Bodies (Indep Exec Run Keeps Uses Loc Cmd aLoc bLoc put)

theorem xrun_steps {cfg : Cfg} {N : Nat} (as : List Sys.XAct) : ∀ {s : Sys.State}, Sys.Reach cfg N s →
    Sys.Steps cfg N s (Sys.xrun cfg N s as) := by
  induction as with
  | nil => exact fun _ => .refl
  | cons a as ih =>
    intro s h
    simp only [Sys.xrun]
    split
    · rename_i s' hs
      have := Sys.xexec_step h hs
      exact Sys.Steps.trans (.step .refl this) (ih (.step h this))
    · exact ih h

/-- the steps of the runtime between the phases: the bodies that have ended were complete -/
theorem liftW {cfg0 : Cfg} {M : Type} {P : Prog M} {m0 : M} (hw : cfg0.WellFormed) (ht : NestingOk cfg0)
    (h1 : cfg0.ShareOne) {x : St (workers cfg0 1) M} (hr : Reach (workers cfg0 1) P m0 x) {s' : Sys.State}
    (h : Sys.Steps x.s.1 1 x.s.2 s') (he : ∀ t, s'.x.g.ex t = .ended → x.cur t = P.len t ∧ x.on t = false) :
    Reach (workers cfg0 1) P m0 { x with s := (x.s.1, s') } := by
  induction h with
  | refl => exact hr
  | @step s1 s2 h hs ih =>
    have hd : Sys.DReach 1 cfg0 x.s.1 s1 := by
      clear ih he hs
      induction h with
      | refl => exact workers_reach hr.rt
      | step _ hs ih => exact .step ih (.step hs)
    have hc : Bodies.Change x.s.1 s1.x.g s2.x.g := by
      rcases Sys.step_graph hs with e | ⟨l, h2⟩
      · rw [e]; exact .refl
      · exact Bodies.change_of ((hd.graph hw.policy ht h1).1.inv hw.policy ht).core h2
    refine .step (ih fun t ht => he t (hc.ended t ht)) (.rt (R := workers cfg0 1) (x := { x with s := (x.s.1, s1) })
      (.step hs) (fun t h1 h2 => he t ?_) fun t _ h => h)
    rcases hc.running t h1 with h3 | h3
    · exact absurd h3 h2
    · exact h3

/-- as `demProg`; both tasks have two phases, the second one of task 1 is empty -/
def oneProg : Prog (Loc → Nat) := { demProg careful with len := fun _ => 2 }

theorem oneProg_proper : Proper flat oneProg := ⟨careful_proper.wf, rfl, fun _ => rfl, fun _ _ => rfl, careful_proper.declared⟩

/-- task 0 is started -/
def one1 : Sys.State := Sys.xrun flat 1 Sys.init
  (([.graph .submit, .graph (.sub 0), .emplace 0 0, .sleep 0, .noise 0, .notify 0 0, .wait 0, .wait 0, .woken 0].map .s) ++
    Sys.take1 0)

/-- task 0 has ended, task 1 is started -/
def one2 : Sys.State := Sys.xrun flat 1 one1
  ((([.bodyEnd 0 0] ++ (doFlush 0).map .graph ++ (doSubmit 1).map .graph ++ [.emplace 0 1] : List Sys.SAct).map .s) ++
    Sys.take1 1)

/-- what task 1 gives up -/
def patch1 : List Diff := [.remove ⟨.io, rA, Mode.read⟩, .remove ⟨.io, rB, Mode.write⟩]

def one3 : Cfg × State × Bool := updateProperties flat 1 patch1 one2.x.g

/-- task 1 has ended -/
def oneEnd : Sys.State :=
  { one2 with x := { one2.x with g := State.decPost { one2.x.g with ex := upd one2.x.g.ex 1 .ended } 1 }
              pc := upd one2.pc 0 .popReady }

set_option maxRecDepth 100000 in
theorem one_facts : one1.x.g.n = 1 ∧ one1.x.g.ex 0 = .running ∧ one2.x.g.n = 2 ∧ one2.x.g.ex 0 = .ended ∧
    one2.x.g.ex 1 = .running ∧ one2.pc 0 = .exec 1 ∧ one2.x.g.fol 1 = [] ∧ one3.2.2 = true ∧ one2.x.w 0 = none ∧
    one2.x.w 1 = none := by
  decide +kernel

theorem one3_ok : updateProperties flat 1 patch1 one2.x.g = (one3.1, one2.x.g, true) := by
  obtain ⟨-, -, -, -, -, -, h1, h2, -⟩ := one_facts
  have h3 : updateProperties flat 1 patch1 one2.x.g = (one3.1, one3.2.1, true) := by rw [← h2]; rfl
  have h4 := (updateProperties_ok h3).2
  rw [h1] at h4
  rw [h3, h4, updateLoop]

/-- the example for one worker: task 0 is executed, then task 1, which gives up its accesses between its phases -/
theorem one_reach : ∃ cur, Reach (workers flat 1) oneProg (fun _ => 0)
    ⟨(one3.1, oneEnd), dem2 (dem3 careful (dem1 fun _ => 0)), cur, fun _ => false⟩ := by
  have hw : flat.WellFormed := prog_wellFormed ..
  have ht : NestingOk flat := .inl rfl
  obtain ⟨f1, f2, f3, f4, f5, f6, f7, f8, f9, f10⟩ := one_facts
  have g1 : Sys.Reach flat 1 one1 := Sys.xrun_reach _ .init
  have g2 : Sys.Reach flat 1 one2 := Sys.xrun_reach _ g1
  have d1 := Dom.reach (Sys.Inv.reach g1).wr.graph
  have d2 := Dom.reach (Sys.Inv.reach g2).wr.graph
  have r1 : Reach (workers flat 1) oneProg (fun _ => 0) ⟨(flat, one1), fun _ => 0, fun _ => 0, fun _ => false⟩ := by
    refine liftW hw ht flat_shareOne .init (xrun_steps _ .init) fun t h => ?_
    exfalso
    change one1.x.g.ex t = .ended at h
    by_cases e : t = 0
    · subst e; rw [f2] at h; cases h
    · rw [d1.ex t (by omega)] at h; cases h
  have r2 := phase r1 0 (dem1 fun _ => 0) f2 rfl (by decide) (fun _ h => h) (dem_run1 careful)
  have r3 := phase r2 0 (dem3 careful (dem1 fun _ => 0)) f2 rfl (by decide) (fun _ h => by cases h) (dem_run3 careful rfl)
  have r4 : Reach (workers flat 1) oneProg (fun _ => 0)
      ⟨(flat, one2), dem3 careful (dem1 fun _ => 0), upd (upd (fun _ => 0) 0 1) 0 2, fun _ => false⟩ := by
    refine liftW hw ht flat_shareOne r3 (xrun_steps _ g1) fun t h => ?_
    change one2.x.g.ex t = .ended at h
    by_cases e : t = 0
    · subst e; exact ⟨rfl, rfl⟩
    · exfalso
      by_cases e' : t = 1
      · subst e'; rw [f5] at h; cases h
      · rw [d2.ex t (by omega)] at h; cases h
  have r5 := phase r4 1 (dem2 (dem3 careful (dem1 fun _ => 0))) f5 rfl (by decide) (fun _ h => h)
    (.step (m1 := dem2 (dem3 careful (dem1 fun _ => 0))) rfl (.done rfl))
  have r6 : Reach (workers flat 1) oneProg (fun _ => 0)
      ⟨(one3.1, one2), dem2 (dem3 careful (dem1 fun _ => 0)), upd (upd (upd (fun _ => 0) 0 1) 0 2) 1 1,
        fun _ => false⟩ := by
    refine .step r5 (.rt (R := workers flat 1) (s' := (one3.1, one2)) (.demote (w := 0) (p := 1) (rel := [])
      (by omega) f6 f5 (patch := patch1) ?_ one3_ok (fun q hq => by cases hq) (fun t => rfl)) (fun t h1 h2 => ?_)
      fun t h => by cases h)
    · intro d hd
      simp only [patch1, List.mem_cons, List.not_mem_nil, or_false] at hd
      rcases hd with rfl | rfl
      · exact ⟨_, rfl⟩
      · exact ⟨_, rfl⟩
    · exact absurd h1 h2
  have r7 := phase r6 1 (dem2 (dem3 careful (dem1 fun _ => 0))) f5 rfl (by decide) (fun _ h => by cases h) (.done rfl)
  refine ⟨_, .step r7 (.rt (R := workers flat 1) (s' := (one3.1, oneEnd)) (.step (.bodyEnd (w := 0) (t := 1) (by omega) f6
    (.other (.bodyEnd f5 (fun c i _ h => by cases h) fun _ c _ h => by cases h) rfl ?_ (.inl rfl)) ?_ rfl f5 rfl
    (fun c _ h => by cases h) rfl)) ?_ fun t h => by cases h)⟩
  · intro t h1 h2
    exfalso
    by_cases e : t = 0
    · subst e; exact h1 f9
    · by_cases e' : t = 1
      · subst e'; exact h1 f10
      · rw [d2.ex t (by omega)] at h2; cases h2
  · exact ⟨fun _ _ => rfl, fun _ _ _ => rfl⟩
  · intro t h1 h2
    by_cases e : t = 1
    · subst e; exact ⟨rfl, rfl⟩
    · exfalso
      refine h2 ?_
      show upd one2.x.g.ex 1 .ended t = .running
      rw [upd_ne _ _ e]
      exact h1

example : Proper flat oneProg ∧ flat.ShareOne ∧ ∃ x : St (workers flat 1) (Loc → Nat),
    Reach (workers flat 1) oneProg (fun _ => 0) x ∧ (x.s.2 : Sys.State).x.g.n = 2 ∧
    (∀ t, t < (x.s.2 : Sys.State).x.g.n → (x.s.2 : Sys.State).x.g.ex t = .ended) ∧
    x.m aLoc = 5 ∧ x.m bLoc = 6 ∧ x.m (.own 0 1) = 7 := by
  obtain ⟨cur, h⟩ := one_reach
  obtain ⟨f1, f2, f3, f4, f5, f6, f7, f8, f9, f10⟩ := one_facts
  refine ⟨oneProg_proper, flat_shareOne, _, h, f3, fun t ht => ?_, rfl, rfl, rfl⟩
  have ht' : t < one2.x.g.n := ht
  rw [f3] at ht'
  show upd one2.x.g.ex 1 .ended t = .ended
  match t with
  | 0 => exact f4
  | 1 => rfl

end RG.Demoting
