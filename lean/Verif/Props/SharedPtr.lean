import Verif.Lemmas.SharedPtr
/-
C95: A chunk of a list lives exactly as long as somebody refers to it.
-/
namespace RG.SP
variable {s : State}

theorem inv (h : Reach true noRace s ∨ Reach false anyOrder s) : Inv s := by
  rcases h with h | h
  · exact Inv.reach h
  · exact (Inv.reachAtomic h).1

/-- C95, partial: no thread accesses the memory of a chunk that has been destroyed, in executions without a data race on
`prev`; and in all executions if line 243 is replaced by an atomic load. -/
theorem C95_no_use_after_free_partial (h : Reach true noRace s ∨ Reach false anyOrder s) : s.fault = false :=
  (inv h).core.nofault

/-- C95, partial: a chunk is destroyed as soon as no shared pointer refers to it, and not earlier. -/
theorem C95_life_time_partial (h : Reach true noRace s ∨ Reach false anyOrder s) {x : Nat} (hx : x < s.n) :
    s.freed x = true ↔ ∀ c, s.cell c ≠ some x := by
  have hi := (inv h).core
  constructor
  · intro hf c hc
    have := (hi.live hc).2
    rw [hf] at this; cases this
  · intro hn
    by_contra hf
    have hf' : s.freed x = false := by simpa using hf
    have h1 := (hi.pos x).2 ⟨hx, hf'⟩
    have h2 := hi.cnt x
    have : holders s.cell x = ∅ := by
      ext c
      rw [mem_holders]
      simp [hn c]
    rw [this] at h2
    simp only [Set.encard_empty] at h2
    exact h1 (by exact_mod_cast h2.symm)

/-- C95, partial: the count of a chunk is the number of shared pointers to it. -/
theorem C95_count_partial (h : Reach true noRace s ∨ Reach false anyOrder s) (x : Nat) :
    {c | s.cell c = some x}.encard = s.rc x := (inv h).core.cnt x

/-- C95, partial: the destructor of a chunk is called once. -/
theorem C95_destroyed_once_partial (h : Reach true noRace s ∨ Reach false anyOrder s) :
    s.log.Nodup ∧ ∀ x, x ∈ s.log ↔ s.freed x = true := ⟨(inv h).core.nodup, (inv h).core.log⟩

/-- The chunks that are found by going from the head along `prev`. -/
inductive InList (s : State) : Nat → Prop
  | head {x} (h : s.cell .head = some x) : InList s x
  | prev {x y} (h : InList s y) (hp : s.cell (.prev y) = some x) : InList s x

/-- C95, partial: no chunk leaks: when no thread is in the middle of an operation and there are no iterators any more, then
the chunks that exist are those of the list. -/
theorem C95_no_leak_partial (h : Reach true noRace s ∨ Reach false anyOrder s) (hi : ∀ t, s.pc t = .idle)
    (hd : ∀ t, s.cell (.reg t .drop) = none) (hk : ∀ t k, s.cell (.reg t (.it k)) = none) {x : Nat} (hx : x < s.n) :
    s.freed x = false ↔ InList s x := by
  have hv := inv h
  have hreg : ∀ t r, s.cell (.reg t r) = none := by
    intro t r
    have := hv.pcs t
    unfold PcOk at this
    rw [hi t] at this
    cases r with
    | it k => exact hk t k
    | p => exact this.1
    | nw => exact this.2.1
    | old => exact this.2.2
    | drop => exact hd t
  have hholder : ∀ {x : Nat}, x < s.n → s.freed x = false → s.cell .head = some x ∨ ∃ y, s.cell (.prev y) = some x := by
    intro x hx hf
    have : ¬ ∀ c, s.cell c ≠ some x := fun hn => by
      rw [(C95_life_time_partial h hx).2 hn] at hf; cases hf
    simp only [ne_eq, not_forall, not_not] at this
    obtain ⟨c, hc⟩ := this
    cases c with
    | head => exact .inl hc
    | prev y => exact .inr ⟨y, hc⟩
    | reg t r => rw [hreg] at hc; cases hc
  have hlive : ∀ y, s.cell (.prev y) ≠ none → y < s.n ∧ s.freed y = false := by
    intro y hy
    constructor
    · by_contra hn
      exact hy (hv.core.fresh y (by omega)).2
    · cases hf : s.freed y with
      | false => rfl
      | true => exact absurd (hv.core.dead y hf) hy
  constructor
  · intro hf
    -- chunks appended later than `x` are in the list already
    have key : ∀ m x, x < s.n → s.freed x = false → (∀ r, s.rank x = some r → s.len ≤ r + m) → InList s x := by
      intro m
      induction m with
      | zero =>
        intro x hx hf hr
        rcases hholder hx hf with h1 | ⟨y, h1⟩
        · exact .head h1
        · obtain ⟨r, h2, -⟩ := hv.ord.prev y x h1
          have := hv.ord.lt x r h2
          have := hr r h2
          omega
      | succ m ih =>
        intro x hx hf hr
        rcases hholder hx hf with h1 | ⟨y, h1⟩
        · exact .head h1
        · obtain ⟨r, h2, h3⟩ := hv.ord.prev y x h1
          have h4 := hlive y (by rw [h1]; simp)
          refine .prev (ih y h4.1 h4.2 fun r' hr' => ?_) h1
          have := h3 r' hr'
          have := hr r h2
          omega
    exact key s.len x hx hf fun r _ => by omega
  · intro hl
    cases hl with
    | head h1 => exact (hv.core.live h1).2
    | prev _ h1 => exact (hv.core.live h1).2

/-- C95, partial: giving up a shared pointer ends, although it may destroy a chunk, and with it the preceding one, and so
on: the thread makes at most as many steps as there are chunks that have not been destroyed, plus one. -/
theorem C95_release_ends_partial (h : Reach true noRace s ∨ Reach false anyOrder s) (plain : Bool) (t : Nat) :
    ∃ k s', k ≤ s.n - s.log.length + 1 ∧ run plain (List.replicate k (t, .go)) s = some s' ∧
      s'.cell (.reg t .drop) = none ∧ s'.pc = s.pc := (inv h).releases

/-! ### The code -/

/-- thread `t` continues `k` times -/
def go (t k : Nat) : List (Nat × Act) := List.replicate k (t, .go)

/-- three chunks are appended -/
def three : List (Nat × Act) := [(0, .append)] ++ go 0 6 ++ [(0, .append)] ++ go 0 8 ++ [(0, .append)] ++ go 0 8

/-- Thread 1 goes from the last chunk (2) to the one before (1) and has read the pointer `prev`. Thread 2 frees the last
block in chunk 1 (chunked_bump_alloc.hpp:132-155): it goes to this chunk, erases it, and `optimize` of the chunk behind it
removes it from the list. When the iterator of thread 2 goes out of scope the chunk is destroyed. Then thread 1 increments
the count of the chunk that does not exist any more. -/
def twoFrees : List (Nat × Act) := three ++
  [(1, .rbegin 0), (1, .next 0)] ++ go 1 7 ++
  [(2, .rbegin 0), (2, .rbegin 1), (2, .copy 0 2 1)] ++ go 2 1 ++ [(2, .next 1)] ++ go 2 9 ++
  [(2, .erase 1), (2, .optimize 0)] ++ go 2 9 ++ [(2, .fin 1)] ++ go 2 2 ++ go 1 1

/-- C95 is false of the code: line 243 copies a shared pointer while another thread stores to it. Two threads that free
memory of one arena at the same time can access a chunk that has been given back to the operating system. -/
theorem C95_use_after_free_false : ∃ s, Reach true anyOrder s ∧ s.fault = true := by
  have h : (run true twoFrees init).map (fun s => s.fault) = some true := by decide +kernel
  obtain ⟨s, h1, h2⟩ := Option.map_eq_some_iff.1 h
  exact ⟨s, run_reach .init h1, h2⟩

/-- With an atomic load in line 243 the same steps (with one step less for each advance) are harmless. -/
example : ∃ s, Reach false anyOrder s ∧ s.fault = false ∧ s.freed 1 = true ∧ s.freed 2 = false ∧ s.cell (.prev 2) = some 0 := by
  have h : (run false (three ++ [(1, .rbegin 0), (1, .next 0)] ++ go 1 6 ++
      [(2, .rbegin 0), (2, .rbegin 1), (2, .copy 0 2 1)] ++ go 2 1 ++ [(2, .next 1)] ++ go 2 8 ++
      [(2, .erase 1), (2, .optimize 0)] ++ go 2 9 ++ [(2, .fin 1)] ++ go 2 2 ++ go 1 1) init).map
      (fun s => (s.fault, s.freed 1, s.freed 2, s.cell (.prev 2))) = some (false, true, false, some 0) := by decide +kernel
  obtain ⟨s, h1, h2⟩ := Option.map_eq_some_iff.1 h
  simp only [Prod.mk.injEq] at h2
  exact ⟨s, run_reach .init h1, h2⟩

/-- one thread appends three chunks, erases the middle one, and all its iterators end -/
def oneThread : List Act :=
  [.append] ++ List.replicate 6 .go ++ [.append] ++ List.replicate 8 .go ++ [.append] ++ List.replicate 8 .go ++
  [.rbegin 0, .copy 1 0 0, .next 1] ++ List.replicate 9 .go ++ [.erase 1, .optimize 0] ++ List.replicate 9 .go ++
  [.fin 1] ++ List.replicate 2 .go ++ [.fin 0, .go]

set_option synthInstance.maxSize 1000 in
/-- The code without a race. -/
example : ∃ s, Reach true noRace s ∧ s.n = 3 ∧ s.freed 1 = true ∧ s.log = [1] ∧ s.cell .head = some 2 ∧
    s.cell (.prev 2) = some 0 ∧ s.pc 0 = .idle ∧ s.cell (.reg 0 (.it 0)) = none ∧ s.cell (.reg 0 .drop) = none := by
  have h : (run true (oneThread.map fun a => (0, a)) init).map (fun s => (s.n, s.freed 1, s.log, s.cell .head,
      s.cell (.prev 2), s.pc 0, s.cell (.reg 0 (.it 0)), s.cell (.reg 0 .drop))) =
      some (3, true, [1], some 2, some 0, .idle, none, none) := by decide +kernel
  obtain ⟨s, h1, h2⟩ := Option.map_eq_some_iff.1 h
  simp only [Prod.mk.injEq] at h2
  exact ⟨s, run_solo .init (fun _ _ => rfl) h1, h2⟩

end RG.SP
