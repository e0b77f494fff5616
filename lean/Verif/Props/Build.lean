import Verif.Model.Build
import Verif.Props.AllocFalse
/- C100: building tasks and resources if something fails. -/
namespace RG.BD
open RG.Alloc

theorem run_fine (ps : List Nat) (l : List (Option Nat)) (h : none ∉ l) : run ps l = (ps ++ l.filterMap id, true) := by
  induction l generalizing ps with
  | nil => simp [run]
  | cons x l ih =>
    cases x with
    | none => exact absurd List.mem_cons_self h
    | some p =>
      rw [run, ih _ (fun hm => h (List.mem_cons_of_mem _ hm))]
      simp

theorem run_throws (ps : List Nat) (l : List (Option Nat)) (h : none ∈ l) : (run ps l).2 = false := by
  induction l generalizing ps with
  | nil => cases h
  | cons x l ih =>
    cases x with
    | none => rfl
    | some p =>
      rcases List.mem_cons.1 h with h | h
      · cases h
      · exact ih _ h

/-- C100: `allocate` is what the allocator of C33-C35 does, for any number of threads: (1) a request whose answer is a block is answered as soon as its
thread takes six steps without being disturbed, (2) a request that "hangs" is never answered, in no execution, and (3) a request whose answer is null is refused at once. -/
theorem C100_allocate_is_the_machine {cfg : Cfg} {n t : Nat} {s : State} {size : Size}
    (hcap : cfg.ctrl.toNat + cfg.header.toNat ≤ cfg.capacity.toNat) (h : RG.Alloc.Reach cfg n (n * cfg.capacity.toNat) s)
    (ht : t < n) :
    (allocate cfg size = .block → s.pcs t = .loop (roundup size) → ∀ k s', Solo cfg n (n * cfg.capacity.toNat) t k s s' →
      k ≤ 6 ∧ (s'.pcs t = .idle → ∃ c a, ⟨c, a, roundup size⟩ ∈ s'.live)) ∧
    (allocate cfg size = .hang → s.pcs t = .loop (roundup size) → ∀ s', Steps cfg n (n * cfg.capacity.toNat) s s' →
      s'.pcs t ≠ .idle) ∧
    (allocate cfg size = .null → s.pcs t = .idle → RG.Alloc.Step cfg n (n * cfg.capacity.toNat) s s ∧ ¬ roundup size ≤ cfg.capacity) := by
  refine ⟨?_, ?_, ?_⟩
  · intro ha hp k s' hs
    unfold allocate at ha
    split at ha
    · split at ha
      · next h2 => exact ⟨(C34_answered_partial hcap h hp h2 k s' hs).1, (C34_answered_partial hcap h hp h2 k s' hs).2.1⟩
      · cases ha
    · cases ha
  · intro ha hp s' hs
    unfold allocate at ha
    split at ha
    · split at ha
      · cases ha
      · next h2 =>
        rcases C34_never_answered_false hcap h hp (by omega) hs with h3 | ⟨c, h3⟩ | h3 <;> rw [h3] <;> exact Pc.noConfusion
    · cases ha
  · intro ha hp
    unfold allocate at ha
    split at ha
    · split at ha <;> cases ha
    · next h2 => exact ⟨.reject (req := size) ht hp h2, h2⟩

/-- C100: if the task fits into a chunk and nothing throws, exactly one task is submitted, with all properties, a new identifier and memory of its own. -/
theorem C100_success {cfg : Cfg} {r : Runtime} {p : Plan} (hm : (roundup p.size).toNat ≤ usable cfg) (hf : p.fine) :
    statement cfg r p = .ok ⟨r.nextWorker + 1, r.nextId + 1, r.blocks + 1, r.lost, ⟨r.nextId, p.intended⟩ :: r.submitted⟩ := by
  obtain ⟨h1, h2, h3⟩ := hf
  have ha : allocate cfg p.size = .block := by
    unfold allocate
    rw [if_pos, if_pos hm]
    rw [BitVec.le_def]
    unfold usable at hm
    omega
  unfold statement construct
  simp only [ha, run_fine _ _ h1, h2, run_fine _ _ h3, submit, Plan.intended, List.filterMap_append, List.nil_append]
  rfl

/-- C100: a statement that fails before the builder is complete (memory, hooks of the arguments, copies) submits nothing and leaves all other tasks as they are.
Missing: exceptions afterwards (see `C100_half_built_false`), memory that is lost (`C100_memory_lost_false`), tasks of medium size (`C100_hang_false`). -/
theorem C100_failure_submits_nothing_partial {cfg : Cfg} {r r' : Runtime} {p : Plan} (h : statement cfg r p = .thrown r')
    (hc : none ∉ p.calls) : r'.submitted = r.submitted := by
  unfold statement construct at h
  cases ha : allocate cfg p.size with
  | hang => simp [ha] at h
  | null => simp only [ha] at h; cases h; rfl
  | block =>
    simp only [ha] at h
    by_cases h1 : (run [] p.hooks).2 = false
    · simp only [h1, if_true] at h; cases h; rfl
    · simp only [h1, if_false] at h
      by_cases h2 : p.copies = true
      · simp only [h2, if_true, run_fine _ _ hc] at h
        cases h
      · simp only [h2, if_false] at h
        simp at h
        rw [← h]

/-- C100: a task that is too large for the allocator (rounded size above the chunk size) throws and changes nothing but the counter of the round robin. -/
theorem C100_too_large {cfg : Cfg} {r : Runtime} {p : Plan} (h : cfg.capacity.toNat < (roundup p.size).toNat) :
    statement cfg r p = .thrown { r with nextWorker := r.nextWorker + 1 } := by
  have ha : allocate cfg p.size = .null := by
    unfold allocate
    rw [if_neg]
    rw [BitVec.le_def]
    omega
  unfold statement construct
  simp only [ha]

/-- C100: whatever happens, a task is submitted only with memory of its own, and each statement submits at most one task, whose identifier is new. -/
theorem C100_at_most_one {cfg : Cfg} {r r' : Runtime} {p : Plan} (h : statement cfg r p = .ok r' ∨ statement cfg r p = .thrown r') :
    (r'.submitted = r.submitted ∧ r'.blocks - r'.lost = r.blocks - r.lost ∧ r.nextId ≤ r'.nextId) ∨
    (∃ ps, r'.submitted = ⟨r.nextId, ps⟩ :: r.submitted ∧ r'.nextId = r.nextId + 1 ∧ r'.blocks = r.blocks + 1 ∧ r'.lost = r.lost) := by
  unfold statement construct at h
  cases ha : allocate cfg p.size with
  | hang => simp [ha] at h
  | null =>
    simp only [ha] at h
    rcases h with h | h
    · cases h
    · cases h; exact .inl ⟨rfl, rfl, Nat.le_refl _⟩
  | block =>
    simp only [ha] at h
    by_cases h1 : (run [] p.hooks).2 = false
    · simp only [h1, if_true] at h
      rcases h with h | h
      · cases h
      · cases h; exact .inl ⟨rfl, by dsimp only; omega, Nat.le_refl _⟩
    · simp only [h1, if_false] at h
      by_cases h2 : p.copies = true
      · have h3 : (run [] p.hooks).2 = true := by simpa using h1
        simp only [h2, h3, if_true, Bool.true_eq_false, if_false] at h
        right
        refine ⟨(run (run [] p.hooks).1 p.calls).1, ?_⟩
        rcases h with h | h
        · split at h
          · cases h; exact ⟨rfl, rfl, rfl, rfl⟩
          · cases h
        · split at h
          · cases h
          · cases h; exact ⟨rfl, rfl, rfl, rfl⟩
      · left
        simp only [h2] at h
        rcases h with h | h
        · simp at h
        · simp at h; rw [← h]; exact ⟨rfl, by dsimp only; omega, by dsimp only; omega⟩

/-- a task of 1000 bytes with one access from an argument and a label, on the default configuration -/
example : (roundup 1000).toNat ≤ usable defaultCfg ∧ Plan.fine ⟨1000, [some 1], true, [some 2]⟩ ∧
    statement defaultCfg ⟨0, 0, 0, 0, []⟩ ⟨1000, [some 1], true, [some 2]⟩ = .ok ⟨1, 1, 1, 0, [⟨0, [1, 2]⟩]⟩ := by
  refine ⟨by decide +kernel, ?_, by decide +kernel⟩
  exact ⟨by decide, rfl, by decide⟩

/-- a task of 70000 bytes is rejected by an exception, one whose copy throws as well -/
example : statement defaultCfg ⟨5, 3, 2, 0, []⟩ ⟨70000, [], true, []⟩ = .thrown ⟨6, 3, 2, 0, []⟩ ∧
    statement defaultCfg ⟨5, 3, 2, 0, []⟩ ⟨1000, [some 1], false, []⟩ = .thrown ⟨6, 4, 3, 1, []⟩ ∧
    defaultCfg.capacity.toNat < (roundup 70000).toNat := by
  refine ⟨by decide +kernel, by decide +kernel, by decide +kernel⟩

/-- C100: false for exceptions in calls on the builder. `emplace_task(f).label("a").resources({g()});` where `g` throws: the exception can be caught, but the task
is submitted nevertheless, and without the resources that it was about to get. It is executed without being synchronized. -/
theorem C100_half_built_false : ∃ (p : Plan) (r : Runtime), p.intended = [1, 2] ∧
    statement defaultCfg r ⟨p.size, p.hooks, p.copies, [some 1, none, some 2]⟩ =
      .thrown ⟨r.nextWorker + 1, r.nextId + 1, r.blocks + 1, r.lost, [⟨r.nextId, [1]⟩]⟩ :=
  ⟨⟨1000, [], true, [some 1, some 2]⟩, ⟨0, 0, 0, 0, []⟩, by decide +kernel, by decide +kernel⟩

/-- C100: false for tasks of medium size: with the default chunk size, `emplace_task` never returns for every task whose object has more than 32 KiB and at most 64 KiB, and neither does the
creation of a resource of this size. -/
theorem C100_hang_false (size : Size) (h1 : 32768 < size.toNat) (h2 : size.toNat ≤ 65536) (r : Runtime) (p : Plan)
    (hp : p.size = size) : statement defaultCfg r p = .hang ∧ allocShared defaultCfg r size = .hang := by
  obtain ⟨k, e1, e2, e3⟩ := C32_least_power_of_two size (by omega) (by omega)
  have hk : k ≤ 16 := e3 16 (by omega)
  have hk' : 16 ≤ k := by
    rcases Nat.lt_or_ge k 16 with h | h
    · have := Nat.pow_le_pow_right (n := 2) (by omega) (show k ≤ 15 by omega); omega
    · exact h
  obtain rfl : k = 16 := by omega
  have hu : usable defaultCfg = 64960 := by decide
  have hc : defaultCfg.capacity.toNat = 65536 := by decide
  have ha : allocate defaultCfg size = .hang := by
    unfold allocate
    rw [if_pos (by rw [BitVec.le_def, e1, hc]; decide), if_neg (by rw [e1, hu]; omega)]
  constructor
  · unfold statement construct; simp only [hp, ha]
  · unfold allocShared; simp only [ha]

example : 32768 < (40000 : Size).toNat ∧ (40000 : Size).toNat ≤ 65536 := by decide

/-- C100: false for large resources: every resource or container object of more than 64 KiB (e.g. `IOResource<std::array<double, 10000>>`) is constructed at a null pointer. -/
theorem C100_null_resource_false (size : Size) (h1 : 65536 < size.toNat) (h2 : size.toNat ≤ 2 ^ 63) (r : Runtime) :
    allocShared defaultCfg r size = .ub := by
  obtain ⟨h3, _⟩ := C32_bounds size (by omega) h2
  have hc : defaultCfg.capacity.toNat = 65536 := by decide
  have ha : allocate defaultCfg size = .null := by
    unfold allocate
    rw [if_neg (by rw [BitVec.le_def, hc]; omega)]
  unfold allocShared; simp only [ha]

example : 65536 < (80016 : Size).toNat ∧ (80016 : Size).toNat ≤ 2 ^ 63 := by decide

/-- C100: false for memory: a copy or a hook that throws loses the block of the task for ever. -/
theorem C100_memory_lost_false : ∃ (r r' : Runtime) (p : Plan), statement defaultCfg r p = .thrown r' ∧ r'.lost = r.lost + 1 ∧
    r'.blocks = r.blocks + 1 :=
  ⟨⟨0, 0, 0, 0, []⟩, ⟨1, 1, 1, 1, []⟩, ⟨1000, [], false, []⟩, by decide +kernel, rfl, rfl⟩

end RG.BD
