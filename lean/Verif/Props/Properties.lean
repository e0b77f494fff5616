import Verif.Lemmas.Properties
import Verif.Props.Demote
/-
C87: The properties of a task are the ones that were given, and patches change what they say.
-/
set_option linter.unusedVariables false
namespace RG.TaskProps
open RG.Graph

/-! ### What a patch does -/

theorem applyPatch_false {k : Kind} {ks : List Kind} {d : Data (k :: ks)} {p : Patch (k :: ks)} {x : k.Data}
    (hx : k.apply d.1 p.1 = (x, false)) : applyPatch (k :: ks) d p = ((x, d.2), false) := by
  unfold applyPatch; rw [hx]; rfl

theorem applyPatch_true {k : Kind} {ks : List Kind} {d : Data (k :: ks)} {p : Patch (k :: ks)} {x : k.Data}
    (hx : k.apply d.1 p.1 = (x, true)) :
    applyPatch (k :: ks) d p = ((x, (applyPatch ks d.2 p.2).1), (applyPatch ks d.2 p.2).2) := by
  conv => lhs; unfold applyPatch
  rw [hx]; rfl

/-- C87: a patch for a task is accepted iff the part for every property is accepted by this property. -/
theorem C87_accepted_iff {ks : List Kind} (d : Data ks) (p : Patch ks) :
    (applyPatch ks d p).2 = true ↔ ∀ i (h : i < ks.length), (ks[i].apply (d.get i h) (p.get i h)).2 = true := by
  induction ks with
  | nil => exact ⟨fun _ i h => absurd h (Nat.not_lt_zero i), fun _ => rfl⟩
  | cons k ks ih =>
    unfold applyPatch
    constructor
    · intro h i hi
      split at h
      · cases h
      · rename_i x hx
        cases i with
        | zero => show (k.apply d.1 p.1).2 = true; rw [hx]
        | succ i => exact (ih d.2 p.2).1 h i (Nat.lt_of_succ_lt_succ hi)
    · intro h
      have h0 : (k.apply d.1 p.1).2 = true := h 0 (Nat.zero_lt_succ _)
      split
      · rename_i x hx; rw [hx] at h0; cases h0
      · exact (ih d.2 p.2).2 fun i hi => h (i + 1) (Nat.succ_lt_succ hi)

/-- C87: an accepted patch changes every property as this property's part of the patch says. -/
theorem C87_accepted_effect {ks : List Kind} (d : Data ks) (p : Patch ks) (ha : (applyPatch ks d p).2 = true) (i : Nat)
    (h : i < ks.length) : (applyPatch ks d p).1.get i h = (ks[i].apply (d.get i h) (p.get i h)).1 := by
  induction ks generalizing i with
  | nil => exact absurd h (Nat.not_lt_zero i)
  | cons k ks ih =>
    cases hx : k.apply d.1 p.1 with
    | mk x b =>
      cases b with
      | false => rw [applyPatch_false hx] at ha; cases ha
      | true =>
        rw [applyPatch_true hx] at ha ⊢
        cases i with
        | zero => exact (congrArg Prod.fst hx).symm
        | succ i => exact ih d.2 p.2 ha i (Nat.lt_of_succ_lt_succ h)

/-- C87 (partial): if a patch is rejected, then by one property; the properties after it are not changed. (The ones before it, and itself, are: see
`C87_rejected_keeps_changes_false`.) -/
theorem C87_rejected_effect_partial {ks : List Kind} (d : Data ks) (p : Patch ks) (hr : (applyPatch ks d p).2 = false) :
    ∃ (i : Nat) (h : i < ks.length), (ks[i].apply (d.get i h) (p.get i h)).2 = false ∧
      (∀ j (hj : j < ks.length), j < i → (ks[j].apply (d.get j hj) (p.get j hj)).2 = true) ∧
      (∀ j (hj : j < ks.length), j ≤ i → (applyPatch ks d p).1.get j hj = (ks[j].apply (d.get j hj) (p.get j hj)).1) ∧
      ∀ j (hj : j < ks.length), i < j → (applyPatch ks d p).1.get j hj = d.get j hj := by
  induction ks with
  | nil => cases hr
  | cons k ks ih =>
    cases hx : k.apply d.1 p.1 with
    | mk x b =>
      cases b with
      | false =>
        have e : applyPatch (k :: ks) d p = ((x, d.2), false) := applyPatch_false hx
        refine ⟨0, Nat.zero_lt_succ _, congrArg Prod.snd hx, fun j hj h => absurd h (Nat.not_lt_zero _), ?_, ?_⟩
        · intro j hj h
          cases Nat.le_zero.1 h
          rw [e]
          exact (congrArg Prod.fst hx).symm
        · intro j hj h
          rw [e]
          cases j with
          | zero => exact absurd h (Nat.lt_irrefl _)
          | succ j => rfl
      | true =>
        have e : applyPatch (k :: ks) d p = ((x, (applyPatch ks d.2 p.2).1), (applyPatch ks d.2 p.2).2) := applyPatch_true hx
        rw [e] at hr
        obtain ⟨i, hi, h1, h2, h3, h4⟩ := ih d.2 p.2 hr
        refine ⟨i + 1, Nat.succ_lt_succ hi, h1, ?_, ?_, ?_⟩
        · intro j hj h
          cases j with
          | zero => exact congrArg Prod.snd hx
          | succ j => exact h2 j (Nat.lt_of_succ_lt_succ hj) (by omega)
        · intro j hj h
          rw [e]
          cases j with
          | zero => exact (congrArg Prod.fst hx).symm
          | succ j => exact h3 j (Nat.lt_of_succ_lt_succ hj) (by omega)
        · intro j hj h
          rw [e]
          cases j with
          | zero => omega
          | succ j => exact h4 j (Nat.lt_of_succ_lt_succ hj) (by omega)

/-- C87: for a task of redGrapes: id, queue and graph are never changed by a patch; the accesses are changed as `ResourceProperty` says; and the classes of the user are
not reached if the change of the accesses is rejected. -/
theorem C87_task_patch {I G : Type} {us : List Kind} (d : Data (taskProperties I G us)) (p : Patch (taskProperties I G us)) :
    (applyPatch _ d p).1.1 = d.1 ∧ (applyPatch _ d p).1.2.1 = (User.applyPatch d.2.1 p.2.1).1 ∧
      (applyPatch _ d p).1.2.2.1 = d.2.2.1 ∧ (applyPatch _ d p).1.2.2.2.1 = d.2.2.2.1 ∧
      ((applyPatch _ d p).2 = true ↔
        (User.applyPatch d.2.1 p.2.1).2 = true ∧ (applyPatch us d.2.2.2.2 p.2.2.2.2).2 = true) ∧
      (applyPatch _ d p).1.2.2.2.2 =
        if (User.applyPatch d.2.1 p.2.1).2 = true then (applyPatch us d.2.2.2.2 p.2.2.2.2).1 else d.2.2.2.2 := by
  have e : applyPatch (taskProperties I G us) d p =
      if (User.applyPatch d.2.1 p.2.1).2 = true then
        ((d.1, (User.applyPatch d.2.1 p.2.1).1, d.2.2.1, d.2.2.2.1, (applyPatch us d.2.2.2.2 p.2.2.2.2).1),
          (applyPatch us d.2.2.2.2 p.2.2.2.2).2)
      else ((d.1, (User.applyPatch d.2.1 p.2.1).1, d.2.2), false) := by
    unfold taskProperties
    simp only [applyPatch, Kind.fixed, Kind.resource]
    cases hx : User.applyPatch d.2.1 p.2.1 with
    | mk x b => cases b <;> rfl
  rw [e]
  by_cases h : (User.applyPatch d.2.1 p.2.1).2 = true
  · rw [if_pos h]; exact ⟨rfl, rfl, rfl, rfl, ⟨fun e => ⟨h, e⟩, fun e => e.2⟩, (if_pos h).symm⟩
  · rw [if_neg h]; exact ⟨rfl, rfl, rfl, rfl, ⟨fun e => Bool.noConfusion e, fun e => absurd e.1 h⟩, (if_neg h).symm⟩

/-- C87: `Patch::operator+=` (resource.hpp:89-92). The sum of two patches does what they do one after the other; it is accepted iff the second one would be. -/
theorem C87_sum_of_patches (u : User) (p q : List Diff) :
    (u.applyPatch (p ++ q)).1 = ((u.applyPatch p).1.applyPatch q).1 ∧
      ((u.applyPatch (p ++ q)).2 = true ↔ ((u.applyPatch p).1.applyPatch q).2 = true) := by
  have sc : ∀ (p : List Diff) (u : User), (p.foldl Diff.apply u).scope = u.scope := by
    intro p
    induction p with
    | nil => exact fun _ => rfl
    | cons x p ih => intro u; rw [List.foldl_cons, ih]; cases x <;> rfl
  simp [User.applyPatch, List.foldl_append, User.copy, sc]

/-! ### A rejected patch -/

/-- C87 is false: a patch that is rejected has changed the task. -/
theorem C87_rejected_keeps_changes_false :
    ∃ (d : Data (taskProperties Nat Unit [])) (p : Patch (taskProperties Nat Unit [])),
      (applyPatch _ d p).2 = false ∧ (applyPatch _ d p).1.2.1.access ≠ d.2.1.access := by
  obtain ⟨u, patch, -, h2, h3⟩ := C09_false_demotion_rejected
  let d : Data (taskProperties Nat Unit []) := (show Nat from 0, u, (), (), ())
  let p : Patch (taskProperties Nat Unit []) := ((), patch, (), (), ())
  refine ⟨d, p, ?_, ?_⟩
  · cases hx : (applyPatch _ d p).2 with
    | false => rfl
    | true =>
      have := ((C87_task_patch (us := []) d p).2.2.2.2.1.1 hx).1
      rw [h2] at this
      cases this
  · rw [(C87_task_patch (us := []) d p).2.1]
    exact h3

/-- The task 0 has been submitted, initialised and started. -/
def rejRun : State := run flat init (doSubmit 0 ++ doInit 0 ++ [.start 0])

/-- C87 is false, and this has consequences: a task that writes asks for an access that only reads; the patch is rejected with an exception. Although the task
still has its guard for writing, a task that is submitted later and reads the same resource is started while the first one runs. -/
theorem C87_rejected_patch_no_exclusion_false :
    ∃ (cfg cfg' : Cfg) (s s' : State) (p t : Nat) (patch : List Diff), cfg.WellFormed ∧ NestingOk cfg ∧ Reach cfg s ∧
      s.ex p = .running ∧ updateProperties cfg p patch s = (cfg', s, false) ∧
      ConflictOnSomeResource (cfg.user p).access (cfg.user t).access ∧ cfg.space p = cfg.space t ∧ p < t ∧
      Steps cfg' s s' ∧ s'.ex p = .running ∧ s'.ex t = .running := by
  have h0 : (updateProperties flat 0 demotePatch rejRun).2.2 = false := by decide +kernel
  have hup : updateProperties flat 0 demotePatch rejRun =
      ((updateProperties flat 0 demotePatch rejRun).1, (updateProperties flat 0 demotePatch rejRun).2.1, false) := by
    rw [← h0]
  have hs := C22_rejected_releases_nobody_partial hup
  rw [hs] at hup
  refine ⟨flat, _, rejRun, _, 0, 1, demotePatch, prog_wellFormed .., .inl rfl, run_init _, by decide +kernel, hup, ?_, rfl, by decide,
    run_steps (doSubmit 1 ++ doInit 1 ++ [.start 1]) _, by decide +kernel, by decide +kernel⟩
  rw [← C07_conflict_iff]
  decide +kernel

/-! ### Building a patch -/

section
variable {P : Type}

/-- Builders of patches as values: no object knows about another one. -/
def vstep (empty : P) (h : List (Option P)) : POp P → Option (List (Option P))
  | .construct => some (h ++ [some empty])
  | .copy b =>
    match h[b]? with
    | some (some p) => some (h ++ [some p])
    | _ => none
  | .call b f =>
    match h[b]? with
    | some (some p) => some (h.set b (some (f p)) ++ [some (f p)])
    | _ => none
  | .destroy b =>
    match h[b]? with
    | some (some _) => some (h.set b none)
    | _ => none

def vrun (empty : P) (h : List (Option P)) : List (POp P) → Option (List (Option P))
  | [] => some h
  | o :: os => (vstep empty h o).bind fun h' => vrun empty h' os

/-- the patches of the objects -/
def patches (h : List (Option (PBuilder P))) : List (Option P) := h.map (·.map PBuilder.patch)

theorem step_value {empty : P} {h : List (Option (PBuilder P))} (ho : Own h) (o : POp P) :
    vstep empty (patches h) o = (pstep empty h o).map patches ∧ ∀ h', pstep empty h o = some h' → Own h' := by
  cases o with
  | construct =>
    refine ⟨by simp [vstep, pstep, patches], fun h' e => ?_⟩
    cases e
    exact ho.append _
  | copy b =>
    simp only [vstep, pstep, patches, List.getElem?_map]
    rcases hb : h[b]? with _ | _ | x
    · simp
    · simp
    · refine ⟨by simp [patches], fun h' e => ?_⟩
      cases e
      exact ho.append _
  | call b f =>
    simp only [vstep, pstep, patches, List.getElem?_map]
    rcases hb : h[b]? with _ | _ | x
    · simp
    · simp
    · have ht := ho b x hb
      simp only [ht, hb]
      refine ⟨by simp [patches, List.map_set], fun h' e => ?_⟩
      cases e
      have := (ho.set b (some { x with patch := f x.patch }) (by intro o e; cases e; exact ht)).append (f x.patch)
      rw [List.length_set, ht] at this
      exact this
  | destroy b =>
    simp only [vstep, pstep, patches, List.getElem?_map]
    rcases hb : h[b]? with _ | _ | x
    · simp
    · simp
    · refine ⟨by simp [patches, List.map_set], fun h' e => ?_⟩
      cases e
      exact ho.set b none (by intro o e; cases e)

/-- C87: builders of patches behave like values although their parts refer to objects: for every program that constructs, copies, changes
and destroys builders in any order, a call changes the builder that it is called for and the builder it returns, and no other one; and no reference
to an object that does not exist any more is followed, unless the program itself uses such an object. -/
theorem C87_patch_builders_are_values (empty : P) (ops : List (POp P)) :
    (prun empty [] ops).map patches = vrun empty [] ops := by
  have main : ∀ (ops : List (POp P)) h, Own h → (prun empty h ops).map patches = vrun empty (patches h) ops := by
    intro ops
    induction ops with
    | nil => exact fun h _ => rfl
    | cons o ops ih =>
      intro h ho
      obtain ⟨h1, h2⟩ := step_value (empty := empty) ho o
      unfold prun vrun
      rw [h1]
      cases he : pstep empty h o with
      | none => rfl
      | some h' => exact ih h' (h2 h' he)
  exact main ops [] (by intro b o h; simp at h)

end

/-- the changes a call asks for, in the order of the list -/
def PCall.diffs : PCall → List Diff
  | .add l => l.map .add
  | .remove l => l.map .remove

theorem PCall.apply_eq (p : List Diff) (c : PCall) : c.apply p = p ++ c.diffs := by
  have main : ∀ (f : RAccess → Diff) (l : List RAccess) (p : List Diff),
      l.foldl (fun p a => p ++ [f a]) p = p ++ l.map f := by
    intro f l
    induction l with
    | nil => simp
    | cons a l ih => intro p; rw [List.foldl_cons, ih]; simp
  cases c <;> exact main _ _ _

/-- C87: the expression `Patch::Builder().remove_resources({…}).add_resources({…})…` is valid, and the patch it yields consists of the changes of all
calls in their order. -/
theorem C87_chain (cs : List PCall) :
    ∃ h b, prun [] [] (chain cs) = some h ∧ h.getLast? = some (some b) ∧ b.patch = cs.flatMap PCall.diffs := by
  have main : ∀ (cs : List PCall) (h : List (Option (PBuilder (List Diff)))) (b : PBuilder (List Diff)), Own h →
      h.getLast? = some (some b) →
      ∃ h' b', prun [] h ((cs.zipIdx (h.length - 1)).map fun (c, i) => .call i c.apply) = some h' ∧
        h'.getLast? = some (some b') ∧ b'.patch = b.patch ++ cs.flatMap PCall.diffs := by
    intro cs
    induction cs with
    | nil => exact fun h b _ hb => ⟨h, b, rfl, hb, by simp⟩
    | cons c cs ih =>
      intro h b ho hb
      have hb' : h[h.length - 1]? = some (some b) := by rw [← List.getLast?_eq_getElem?]; exact hb
      have hl : h.length ≠ 0 := by rintro e; rw [List.length_eq_zero_iff.1 e] at hb; cases hb
      have ht := ho _ _ hb'
      have hs : pstep [] h (.call (h.length - 1) c.apply) =
          some (h.set (h.length - 1) (some { b with patch := c.apply b.patch }) ++ [some ⟨c.apply b.patch, h.length⟩]) := by
        simp only [pstep, hb', ht]
      have ho' := (step_value (empty := []) ho (.call (h.length - 1) c.apply)).2 _ hs
      obtain ⟨h', b', h1, h2, h3⟩ := ih _ ⟨c.apply b.patch, h.length⟩ ho' (by simp)
      refine ⟨h', b', ?_, h2, ?_⟩
      · rw [List.zipIdx_cons, List.map_cons]
        unfold prun
        rw [hs, Option.bind_some, ← h1]
        congr 3
        simp
        omega
      · rw [h3, PCall.apply_eq, List.flatMap_cons, List.append_assoc]
  obtain ⟨h, b, h1, h2, h3⟩ := main cs [some ⟨[], 0⟩] ⟨[], 0⟩ (by
    intro b o hb
    cases b with
    | zero => cases hb; rfl
    | succ b => simp at hb) rfl
  exact ⟨h, b, h1, h2, by simpa using h3⟩

/-! ### Building a task -/

/-- C87: the label is the one of the last call of `label` -/
theorem C87_label (depth : BitVec 32) (args : List RAccess) (cs cs' : List Call) (l : String)
    (h : ∀ l', Call.label l' ∉ cs') : (build depth args (cs ++ .label l :: cs')).label = l := by
  unfold build
  rw [List.foldl_append, List.foldl_cons]
  generalize cs.foldl Call.apply (Props.start depth args) = p
  have main : ∀ (cs' : List Call) (p : Props), (∀ l', Call.label l' ∉ cs') → (cs'.foldl Call.apply p).label = p.label := by
    intro cs'
    induction cs' with
    | nil => exact fun p _ => rfl
    | cons c cs ih =>
      intro p h
      rw [List.foldl_cons, ih _ fun l' hl => h l' (List.mem_cons_of_mem _ hl)]
      cases c <;> first | rfl | exact absurd List.mem_cons_self (h _)
  rw [main cs' _ h]
  rfl

/-- C87: a task requires exactly the tags that were given in some call of `scheduling_tags`, and its stack is switched iff this was asked for. -/
theorem C87_tags (depth : BitVec 32) (args : List RAccess) (cs : List Call) :
    (∀ i, (build depth args cs).tags.getLsbD i = true ↔ ∃ b, Call.tags b ∈ cs ∧ b.getLsbD i = true) ∧
      ((build depth args cs).stackSwitching = true ↔ Call.enableStackSwitching ∈ cs) := by
  have main : ∀ (cs : List Call) (p : Props),
      (∀ i, (cs.foldl Call.apply p).tags.getLsbD i = true ↔
        p.tags.getLsbD i = true ∨ ∃ b, Call.tags b ∈ cs ∧ b.getLsbD i = true) ∧
      ((cs.foldl Call.apply p).stackSwitching = true ↔ p.stackSwitching = true ∨ Call.enableStackSwitching ∈ cs) := by
    intro cs
    induction cs with
    | nil => simp
    | cons c cs ih =>
      intro p
      rw [List.foldl_cons]
      refine ⟨fun i => ?_, ?_⟩
      · rw [(ih _).1]
        cases c <;> simp [Call.apply, or_assoc]
      · rw [(ih _).2]
        cases c <;> simp [Call.apply]
  unfold build
  refine ⟨fun i => ?_, ?_⟩
  · rw [(main cs _).1]; simp [Props.start]
  · rw [(main cs _).2]; simp [Props.start]

/-- C87: a task has exactly the accesses of its arguments and of the calls, and is registered with exactly their resources. -/
theorem C87_accesses (depth : BitVec 32) (args : List RAccess) (cs : List Call) (ra : RAccess) :
    (ra ∈ (build depth args cs).user.access ↔
      ra ∈ args ∨ (∃ l, Call.resources l ∈ cs ∧ ra ∈ l) ∨ Call.addResource ra ∈ cs) ∧
    (ra.res ∈ (build depth args cs).user.unique ↔ ∃ x ∈ (build depth args cs).user.access, x.res = ra.res) := by
  constructor
  · rw [build_access]
    simp only [List.mem_append, List.mem_flatMap]
    constructor
    · rintro (h | ⟨c, hc, h⟩)
      · exact .inl h
      · cases c with
        | resources l => exact .inr (.inl ⟨l, hc, h⟩)
        | addResource a => cases List.mem_singleton.1 h; exact .inr (.inr hc)
        | label l => cases h
        | tags b => cases h
        | enableStackSwitching => cases h
    · rintro (h | ⟨l, hc, h⟩ | hc)
      · exact .inl h
      · exact .inr ⟨_, hc, h⟩
      · exact .inr ⟨_, hc, List.mem_singleton.2 rfl⟩
  · -- calls for other properties do not touch the user
    have main : ∀ (cs : List Call) (p : Props), ∃ ds : List Decl, (cs.foldl Call.apply p).user = ds.foldl Decl.apply p.user := by
      intro cs
      induction cs with
      | nil => exact fun p => ⟨[], rfl⟩
      | cons c cs ih =>
        intro p
        obtain ⟨ds, h⟩ := ih (c.apply p)
        rw [List.foldl_cons, h]
        cases c with
        | resources l => exact ⟨.resources l :: ds, rfl⟩
        | addResource a => exact ⟨.arg a :: ds, rfl⟩
        | label l => exact ⟨ds, rfl⟩
        | tags b => exact ⟨ds, rfl⟩
        | enableStackSwitching => exact ⟨ds, rfl⟩
    obtain ⟨ds, h⟩ := main cs (Props.start depth args)
    have e : (build depth args cs).user = declare depth (args.map Decl.arg ++ ds) := by
      unfold build declare
      rw [h, List.foldl_append, List.foldl_map]
      rfl
    rw [e]
    exact C54_registered_iff_accessed depth _ _

/-- C87: neither the order in which the arguments are evaluated (which C++ leaves open) nor the order of the calls makes a difference for the scheduling: the task has conflicts with the same
tasks, may be the parent of the same tasks, is registered with the same resources, and needs the same tags. -/
theorem C87_order_does_not_matter (depth : BitVec 32) {args args' : List RAccess} {cs cs' : List Call} (ha : args.Perm args')
    (hc : cs.Perm cs') (u : User) (r : Res) :
    (build depth args cs).user.isSerial u = (build depth args' cs').user.isSerial u ∧
      u.isSerial (build depth args cs).user = u.isSerial (build depth args' cs').user ∧
      (build depth args cs).user.isSuperset u = (build depth args' cs').user.isSuperset u ∧
      u.isSuperset (build depth args cs).user = u.isSuperset (build depth args' cs').user ∧
      (build depth args cs).user.hasSync r = (build depth args' cs').user.hasSync r ∧
      (r ∈ (build depth args cs).user.unique ↔ r ∈ (build depth args' cs').user.unique) ∧
      (build depth args cs).tags = (build depth args' cs').tags ∧
      (build depth args cs).stackSwitching = (build depth args' cs').stackSwitching := by
  have hp : (build depth args cs).user.access.Perm (build depth args' cs').user.access := by
    rw [build_access, build_access]
    exact ha.append (hc.flatMap_right _)
  have hs : (build depth args cs).user.scope = (build depth args' cs').user.scope := by rw [build_scope, build_scope]
  have hm : ∀ x, x ∈ (build depth args cs).user.access ↔ x ∈ (build depth args' cs').user.access := fun x => hp.mem_iff
  refine ⟨?_, ?_, ?_, ?_, ?_, ?_, ?_, ?_⟩
  · rw [Bool.eq_iff_iff]; simp only [User.isSerial, List.any_eq_true, List.mem_reverse, hm]
  · rw [Bool.eq_iff_iff]; simp only [User.isSerial, List.any_eq_true, List.mem_reverse, hm]
  · rw [Bool.eq_iff_iff]
    simp only [User.isSuperset, List.all_eq_true, List.any_eq_true, Bool.or_eq_true, List.mem_reverse, hm, hs]
  · rw [Bool.eq_iff_iff]
    simp only [User.isSuperset, List.all_eq_true, List.any_eq_true, Bool.or_eq_true, List.mem_reverse, hm]
  · rw [Bool.eq_iff_iff]; simp only [User.hasSync, List.any_eq_true, List.mem_reverse, hm]
  · have h1 := (C87_accesses depth args cs ⟨.io, r, Mode.read⟩).2
    have h2 := (C87_accesses depth args' cs' ⟨.io, r, Mode.read⟩).2
    simp only at h1 h2
    rw [h1, h2]
    simp only [hm]
  · apply BitVec.eq_of_getLsbD_eq
    intro i _
    rw [Bool.eq_iff_iff, (C87_tags depth args cs).1, (C87_tags depth args' cs').1]
    simp only [hc.mem_iff]
  · rw [Bool.eq_iff_iff, (C87_tags depth args cs).2, (C87_tags depth args' cs').2, hc.mem_iff]

/-! ### Examples -/

/-- a patch with a part for a class of the user: a priority that may only be lowered -/
def prio : Kind := ⟨Nat, Nat, fun d p => if p ≤ d then (p, true) else (d, false)⟩

/-- a task that writes a resource that it has created itself (scope 1) and reads one of the main program -/
def exUser : User := User.ofList 0 [⟨.io, ⟨5, 1⟩, Mode.write⟩]

def exTask : Data (taskProperties Nat Unit [prio]) := (show Nat from 7, exUser, (), (), (show Nat from 9, ()))

def exPatch (l : List Diff) (n : Nat) : Patch (taskProperties Nat Unit [prio]) := ((), l, (), (), (n, ()))

/-- accepted: both parts have an effect -/
example : (applyPatch _ exTask (exPatch [.remove ⟨.io, ⟨5, 1⟩, Mode.write⟩, .add ⟨.io, ⟨5, 1⟩, Mode.read⟩] 4)).2 = true ∧
    (applyPatch _ exTask (exPatch [.remove ⟨.io, ⟨5, 1⟩, Mode.write⟩, .add ⟨.io, ⟨5, 1⟩, Mode.read⟩] 4)).1.2.2.2.2.1 = (show Nat from 4) :=
  ⟨by decide +kernel, rfl⟩

/-- rejected by the class of the user after the accesses have been changed -/
example : (applyPatch _ exTask (exPatch [.remove ⟨.io, ⟨5, 1⟩, Mode.write⟩] 12)).2 = false ∧
    (User.access (applyPatch _ exTask (exPatch [.remove ⟨.io, ⟨5, 1⟩, Mode.write⟩] 12)).1.2.1).length = 0 := by
  decide +kernel

/-- two builders that have been copied from each other and then changed in different ways; the first one is destroyed -/
example : (prun [] [] [.construct, .call 0 (1 :: ·), .call 1 (2 :: ·), .destroy 0, .call 1 (3 :: ·), .copy 2]).map patches =
    some [none, some [3, 2, 1], some [2, 1], some [3, 2, 1], some [2, 1]] := by decide +kernel

/-- the calls in two orders -/
example : [Call.resources [⟨.io, rA, Mode.read⟩], .label "x", .tags 3].Perm [.tags 3, .resources [⟨.io, rA, Mode.read⟩], .label "x"] ∧
    (build 0 [⟨.io, rB, Mode.write⟩] [.resources [⟨.io, rA, Mode.read⟩], .label "x", .tags 3, .label "y"]).label = "y" := by
  refine ⟨?_, by decide +kernel⟩
  exact ((List.Perm.swap _ _ _).cons _).trans (List.Perm.swap _ _ _)

end RG.TaskProps
