import Verif.Model.Lifecycle
/-
C69: the runtime may be started and stopped repeatedly, objects may be dropped at any time in between.
-/
namespace RG.Life

/-! ### specification -/

/-- What the user knows: whether the runtime is running, and which objects they still hold. -/
structure Spec where
  running : Bool
  held : List Bool

/-- The rules for the user: start with at least one worker, and only if the runtime is not running and no
object is left from earlier; create objects and tasks while the runtime is running; drop objects at any
time. -/
inductive Rule : Spec → Op → Spec → Prop
  | init {k n} (hk : k.running = false) (hh : ∀ o : Nat, k.held[o]? ≠ some true) (hn : 0 < n) :
      Rule k (.init n) ⟨true, k.held⟩
  | finalize {k} (hk : k.running = true) : Rule k .finalize ⟨false, k.held⟩
  | barrier {k} (hk : k.running = true) : Rule k .barrier k
  | newResource {k i} (hk : k.running = true) : Rule k (.newResource i) ⟨true, k.held ++ [true]⟩
  | makeAccess {k r} (hk : k.running = true) (hr : k.held[r]? = some true) :
      Rule k (.makeAccess r) ⟨true, k.held ++ [true]⟩
  | pushUser {k r} (hk : k.running = true) (hr : k.held[r]? = some true) : Rule k (.pushUser r) k
  | drop {k o} (ho : k.held[o]? = some true) : Rule k (.drop o) ⟨k.running, k.held.set o false⟩
  | emplaceTask {k n} (hk : k.running = true) : Rule k (.emplaceTask n) k

/-- Sequences of calls that obey the rules. -/
inductive Rules : Spec → List Op → Spec → Prop
  | nil {k} : Rules k [] k
  | cons {k k' k'' o os} : Rule k o k' → Rules k' os k'' → Rules k (o :: os) k''

/-! ### invariant -/

/-- the memory of an object, if it has not been dropped -/
def mem : Option Obj → List Blk
  | some x => x.blocks
  | none => []

/-- all blocks of objects that have not been dropped -/
def liveBlocks (s : State) : List Blk := s.objs.flatMap mem

/-- how many blocks of allocator `a` are in use -/
def used (a : Nat) (objs : List (Option Obj)) : Nat := (objs.flatMap mem).countP fun b => b.arena == a

structure Inv (s : State) (k : Spec) : Prop where
  held : k.held = s.objs.map Option.isSome
  root : s.root = k.running
  size : ∀ p, s.pool = some p → p.size = if k.running then s.nWorkers else 0
  nw : k.running = true → 0 < s.nWorkers
  pool : k.running = true → s.pool ≠ none
  emp : s.pool = none → s.objs = []
  len : ∀ p, s.pool = some p → p.allocs.length = s.nWorkers
  gen : ∀ p, s.pool = some p → ∀ x, some x ∈ s.objs →
    x.arena < s.nWorkers ∧ ∀ b ∈ x.blocks, b.gen = p.gen ∧ b.arena < s.nWorkers
  cnt : ∀ p, s.pool = some p → ∀ a : Nat, a < s.nWorkers → p.allocs[a]? = some (used a s.objs)

theorem inv_init : Inv State.init ⟨false, []⟩ := by
  constructor <;> simp [State.init]

theorem used_append (a : Nat) (l : List (Option Obj)) (x : Option Obj) :
    used a (l ++ [x]) = used a l + (mem x).countP fun b => b.arena == a := by
  simp [used, List.flatMap_append]

theorem used_set (a : Nat) (l : List (Option Obj)) (o : Nat) (x y : Option Obj) (h : l[o]? = some x) :
    used a (l.set o y) + ((mem x).countP fun b => b.arena == a) =
      used a l + (mem y).countP fun b => b.arena == a := by
  induction l generalizing o with
  | nil => simp at h
  | cons z l ih =>
    cases o with
    | zero =>
      simp only [List.getElem?_cons_zero, Option.some.injEq] at h
      subst h
      simp only [used, List.set_cons_zero, List.flatMap_cons, List.countP_append]
      omega
    | succ o =>
      simp only [List.getElem?_cons_succ] at h
      have := ih o h
      simp only [used, List.set_cons_succ, List.flatMap_cons, List.countP_append] at this ⊢
      omega

theorem held_some {s : State} {k : Spec} (hi : Inv s k) {o : Nat} (h : k.held[o]? = some true) :
    ∃ x, s.objs[o]? = some (some x) := by
  rw [hi.held, List.getElem?_map] at h
  cases hx : s.objs[o]? with
  | none => simp [hx] at h
  | some y =>
    cases y with
    | none => simp [hx] at h
    | some x => exact ⟨x, rfl⟩

theorem pool_some {s : State} {k : Spec} (hi : Inv s k) {o : Nat} {x : Option Obj}
    (h : s.objs[o]? = some x) : ∃ p, s.pool = some p := by
  cases hp : s.pool with
  | none => rw [hi.emp hp] at h; simp at h
  | some p => exact ⟨p, rfl⟩

theorem touch_ok {s : State} {k : Spec} (hi : Inv s k) {o : Nat} {x : Obj}
    (h : s.objs[o]? = some (some x)) : touch s o = .ok x := by
  obtain ⟨p, hp⟩ := pool_some hi h
  simp only [touch, h, hp]
  rw [if_pos]
  rw [List.all_eq_true]
  intro b hb
  have := ((hi.gen p hp x (List.mem_of_getElem? h)).2 b hb).1
  simp [this]

theorem run_pool {s : State} {k : Spec} (hi : Inv s k) (hk : k.running = true) :
    ∃ p, s.pool = some p ∧ p.size = s.nWorkers ∧ 0 < s.nWorkers := by
  cases hp : s.pool with
  | none => exact absurd hp (hi.pool hk)
  | some p => exact ⟨p, rfl, by rw [hi.size p hp, if_pos hk], hi.nw hk⟩

/-- giving back the blocks of an object -/
theorem dealloc_all {s : State} {p : Pool} (hp : s.pool = some p) (bs : List Blk)
    (hb : ∀ b ∈ bs, b.gen = p.gen ∧ b.arena < p.allocs.length) (f : Nat → Nat)
    (hc : ∀ a : Nat, a < p.allocs.length →
      p.allocs[a]? = some (f a + bs.countP fun b => b.arena == a)) :
    ∃ p', deallocateAll s bs = .ok { s with pool := some p' } ∧ p'.gen = p.gen ∧ p'.size = p.size ∧
      p'.allocs.length = p.allocs.length ∧ ∀ a : Nat, a < p.allocs.length → p'.allocs[a]? = some (f a) := by
  induction bs generalizing s p with
  | nil =>
    refine ⟨p, ?_, rfl, rfl, rfl, ?_⟩
    · cases s; simp only at hp; subst hp; rfl
    · intro a ha; simpa using hc a ha
  | cons b bs ih =>
    obtain ⟨hg, ha⟩ := hb b (List.mem_cons_self ..)
    have hcb := hc b.arena ha
    obtain ⟨m, hm⟩ : ∃ m, m = f b.arena + (b :: bs).countP (fun c => c.arena == b.arena) - 1 := ⟨_, rfl⟩
    have hd : deallocate s b = .ok { s with
        pool := some { p with allocs := p.allocs.set b.arena m } } := by
      simp only [deallocate, hp, hcb]
      rw [if_neg (by simpa using hg), hm]
    obtain ⟨p', h1, h2, h3, h4, h5⟩ := ih
      (s := { s with pool := some { p with allocs := p.allocs.set b.arena m } }) rfl
      (by
        intro c hcm
        have := hb c (List.mem_cons_of_mem _ hcm)
        simpa using this)
      (by
        intro a ha'
        simp only [List.length_set] at ha'
        simp only
        by_cases hab : a = b.arena
        · subst hab
          rw [List.getElem?_set_self ha, hm]
          simp
        · rw [List.getElem?_set_ne (fun e => hab e.symm), hc a ha']
          have : (b.arena == a) = false := by simpa using fun e => hab e.symm
          simp [this])
    refine ⟨p', ?_, h2, h3, by simpa using h4, ?_⟩
    · simp only [deallocateAll, hd]
      exact h1
    · intro a ha'
      exact h5 a (by simpa using ha')

set_option maxHeartbeats 1000000 in
theorem inv_step {s : State} {k k' : Spec} {o : Op} (hi : Inv s k) (h : Rule k o k') :
    ∃ s', step s o = .ok s' ∧ Inv s' k' := by
  cases h with
  | @init n hk hh hn =>
    have hemp : ∀ x, some x ∉ s.objs := by
      intro x hx
      obtain ⟨i, hi', e⟩ := List.mem_iff_getElem.1 hx
      apply hh i
      rw [hi.held, List.getElem?_map, List.getElem?_eq_getElem hi', e]
      rfl
    have hu : ∀ a, used a s.objs = 0 := by
      intro a
      rw [used, List.countP_eq_zero]
      intro b hb
      obtain ⟨x, hx, hb⟩ := List.mem_flatMap.1 hb
      cases x with
      | none => simp [mem] at hb
      | some x => exact absurd hx (hemp x)
    have hok : step s (.init n) = .ok { s with
        nWorkers := n, pool := some ⟨s.gens, n, List.replicate n 0⟩, root := true,
        gens := s.gens + 1 } := by
      simp only [step, doInit]
      cases hp : s.pool with
      | none => rfl
      | some p =>
        simp only
        rw [if_neg]
        rw [hi.size p hp, hk]
        simp
    refine ⟨_, hok, ?_⟩
    constructor
    · exact hi.held
    · rfl
    · intro p e; cases e; rfl
    · intro _; exact hn
    · intro _; simp
    · intro e; cases e
    · intro p e; cases e; simp
    · intro p e x hx; exact absurd hx (hemp x)
    · intro p e a ha
      cases e
      simp only at ha ⊢
      rw [hu, List.getElem?_replicate, if_pos ha]
  | finalize hk =>
    obtain ⟨p, hp, hs, hn⟩ := run_pool hi hk
    refine ⟨{ s with pool := some { p with size := 0 }, root := false }, ?_, ?_⟩
    · simp [step, doFinalize, doBarrier, hi.root, hk, hp, Except.bind]
    · constructor
      · exact hi.held
      · rfl
      · intro p' e; cases e; rfl
      · intro e; cases e
      · intro e; cases e
      · intro e; cases e
      · intro p' e; cases e; exact hi.len p hp
      · intro p' e; cases e; exact hi.gen p hp
      · intro p' e; cases e; exact hi.cnt p hp
  | barrier hk =>
    exact ⟨s, by simp [step, doBarrier, hi.root, hk], hi⟩
  | @newResource i hk =>
    obtain ⟨p, hp, hs, hn⟩ := run_pool hi hk
    have hn0 : s.nWorkers ≠ 0 := by omega
    have ha : i % s.nWorkers < s.nWorkers := Nat.mod_lt _ hn
    have hl : s.ids % s.nWorkers < s.nWorkers := Nat.mod_lt _ hn
    have hc := hi.cnt p hp _ ha
    refine ⟨{ s with
        pool := some { p with allocs := p.allocs.set (i % s.nWorkers) (used (i % s.nWorkers) s.objs + 1) }
        ids := s.ids + 1
        objs := s.objs ++ [some ⟨s.ids, s.ids % s.nWorkers, [⟨p.gen, i % s.nWorkers⟩]⟩] }, ?_, ?_⟩
    · simp [step, newResource, allocator, allocate, arenaId, hp, hc, hs, hn0, bind, Except.bind, pure,
        Except.pure]
    · constructor
      · simp [hi.held]
      · show s.root = true
        rw [hi.root, hk]
      · intro p' e; cases e; exact hs
      · intro _; exact hn
      · intro _; simp
      · intro e; cases e
      · intro p' e; cases e; simpa using hi.len p hp
      · intro p' e x hx
        cases e
        simp only [List.mem_append, List.mem_singleton, Option.some.injEq] at hx
        rcases hx with hx | rfl
        · exact hi.gen p hp x hx
        · exact ⟨hl, by simpa using ha⟩
      · intro p' e a ha'
        cases e
        simp only at ha' ⊢
        rw [used_append]
        by_cases e : a = i % s.nWorkers
        · subst e
          rw [List.getElem?_set_self (by rw [hi.len p hp]; exact ha)]
          simp [mem]
        · rw [List.getElem?_set_ne (fun e' => e e'.symm), hi.cnt p hp a ha']
          simpa [mem] using fun e' => e e'.symm
  | @makeAccess r hk hr =>
    obtain ⟨p, hp, hs, hn⟩ := run_pool hi hk
    obtain ⟨x, hx⟩ := held_some hi hr
    have ht := touch_ok hi hx
    have hn0 : s.nWorkers ≠ 0 := by omega
    have ha : x.id % s.nWorkers < s.nWorkers := Nat.mod_lt _ hn
    have hc := hi.cnt p hp _ ha
    refine ⟨{ s with
        pool := some { p with
          allocs := p.allocs.set (x.id % s.nWorkers) (used (x.id % s.nWorkers) s.objs + 1) }
        objs := s.objs ++ [some ⟨x.id, x.id % s.nWorkers, [⟨p.gen, x.id % s.nWorkers⟩]⟩] }, ?_, ?_⟩
    · simp [step, makeAccess, ht, allocator, allocate, arenaId, hp, hc, hs, hn0, bind, Except.bind, pure,
        Except.pure]
    · constructor
      · simp [hi.held]
      · show s.root = true
        rw [hi.root, hk]
      · intro p' e; cases e; exact hs
      · intro _; exact hn
      · intro _; simp
      · intro e; cases e
      · intro p' e; cases e; simpa using hi.len p hp
      · intro p' e y hy
        cases e
        simp only [List.mem_append, List.mem_singleton, Option.some.injEq] at hy
        rcases hy with hy | rfl
        · exact hi.gen p hp y hy
        · exact ⟨ha, by simpa using ha⟩
      · intro p' e a ha'
        cases e
        simp only at ha' ⊢
        rw [used_append]
        by_cases e : a = x.id % s.nWorkers
        · subst e
          rw [List.getElem?_set_self (by rw [hi.len p hp]; exact ha)]
          simp [mem]
        · rw [List.getElem?_set_ne (fun e' => e e'.symm), hi.cnt p hp a ha']
          simpa [mem] using fun e' => e e'.symm
  | @pushUser r hk hr =>
    obtain ⟨p, hp, hs, hn⟩ := run_pool hi hk
    obtain ⟨x, hx⟩ := held_some hi hr
    have ht := touch_ok hi hx
    obtain ⟨ha, hbs⟩ := hi.gen p hp x (List.mem_of_getElem? hx)
    have hc := hi.cnt p hp _ ha
    have hlen : r < s.objs.length := (List.getElem?_eq_some_iff.1 hx).1
    refine ⟨{ s with
        pool := some { p with allocs := p.allocs.set x.arena (used x.arena s.objs + 1) }
        objs := s.objs.set r (some { x with blocks := ⟨p.gen, x.arena⟩ :: x.blocks }) }, ?_, ?_⟩
    · simp [step, pushUser, ht, allocate, hp, hc, bind, Except.bind, pure, Except.pure]
    · constructor
      · show k.held = (s.objs.set r _).map Option.isSome
        rw [hi.held]
        apply List.ext_getElem?
        intro j
        simp only [List.getElem?_map, List.getElem?_set]
        split
        · rename_i e; subst e; rw [hx]; simp
        · rfl
      · exact hi.root
      · intro p' e; cases e; exact hi.size p hp
      · exact hi.nw
      · intro _; simp
      · intro e; cases e
      · intro p' e; cases e; simpa using hi.len p hp
      · intro p' e y hy
        cases e
        rcases List.mem_or_eq_of_mem_set hy with hy | hy
        · exact hi.gen p hp y hy
        · cases hy
          refine ⟨ha, ?_⟩
          intro b hb
          simp only [List.mem_cons] at hb
          rcases hb with rfl | hb
          · exact ⟨rfl, ha⟩
          · exact hbs b hb
      · intro p' e a ha'
        cases e
        simp only at ha' ⊢
        have hset := used_set a s.objs r _ (some { x with blocks := ⟨p.gen, x.arena⟩ :: x.blocks }) hx
        simp only [mem, List.countP_cons] at hset
        by_cases e : a = x.arena
        · subst e
          rw [List.getElem?_set_self (by rw [hi.len p hp]; exact ha)]
          simp at hset ⊢
          omega
        · rw [List.getElem?_set_ne (fun e' => e e'.symm), hi.cnt p hp a ha']
          have : (x.arena == a) = false := by simpa using fun e' => e e'.symm
          simp [this] at hset ⊢
          omega
  | @drop o ho =>
    obtain ⟨x, hx⟩ := held_some hi ho
    obtain ⟨p, hp⟩ := pool_some hi hx
    have ht := touch_ok hi hx
    obtain ⟨ha, hbs⟩ := hi.gen p hp x (List.mem_of_getElem? hx)
    have hlen : o < s.objs.length := (List.getElem?_eq_some_iff.1 hx).1
    obtain ⟨p', h1, h2, h3, h4, h5⟩ := dealloc_all hp x.blocks
      (by intro b hb; rw [hi.len p hp]; exact hbs b hb) (fun a => used a (s.objs.set o none)) (by
        intro a ha'
        rw [hi.len p hp] at ha'
        rw [hi.cnt p hp a ha']
        have := used_set a s.objs o _ none hx
        simp only [mem, List.countP_nil] at this
        congr 1
        omega)
    refine ⟨{ s with pool := some p', objs := s.objs.set o none }, ?_, ?_⟩
    · simp [step, dropObj, ht, h1, bind, Except.bind, pure, Except.pure]
    · have hlp := hi.len p hp
      constructor
      · show k.held.set o false = (s.objs.set o none).map Option.isSome
        rw [hi.held, List.map_set]
        rfl
      · exact hi.root
      · intro q e; cases e; rw [h3]; exact hi.size p hp
      · exact hi.nw
      · intro _; simp
      · intro e; cases e
      · intro q e; cases e; rw [h4]; exact hlp
      · intro q e y hy
        cases e
        rcases List.mem_or_eq_of_mem_set hy with hy | hy
        · rw [h2]; exact hi.gen p hp y hy
        · cases hy
      · intro q e a ha'
        cases e
        exact h5 a (by rw [hlp]; exact ha')
  | @emplaceTask next hk =>
    obtain ⟨p, hp, hs, hn⟩ := run_pool hi hk
    refine ⟨s, ?_, hi⟩
    have : s.nWorkers ≠ 0 := by omega
    have hlt := Nat.mod_lt next (Nat.pos_of_ne_zero this)
    simp [step, emplaceTask, arenaId, getWorker, hp, hs, this, hlt, bind, Except.bind, pure, Except.pure]

theorem inv_run {s : State} {k k' : Spec} {ops : List Op} (hi : Inv s k) (h : Rules k ops k') :
    ∃ s', run s ops = .ok s' ∧ Inv s' k' := by
  induction h generalizing s with
  | nil => exact ⟨s, rfl, hi⟩
  | cons h1 _ ih =>
    obtain ⟨s1, e1, i1⟩ := inv_step hi h1
    obtain ⟨s2, e2, i2⟩ := ih i1
    exact ⟨s2, by simp [run, e1, Except.bind, e2], i2⟩

/-! ### C69 -/

/-- C69: whatever sequence of calls obeys the rules - start with at least one worker, create objects only
while the runtime is running, drop all of them before the next start, but drop them at any time, also after
`finalize` - nothing undefined happens, and every allocator of the present worker pool has handed out as
many blocks as belong to objects that are still held. -/
theorem C69_rules_suffice_partial {ops : List Op} {k : Spec} (h : Rules ⟨false, []⟩ ops k) :
    ∃ s, run State.init ops = .ok s ∧
      ∀ p, s.pool = some p → ∀ a c, p.allocs[a]? = some c →
        c = ((s.objs.filterMap id).flatMap Obj.blocks).countP fun b => b.gen == p.gen && b.arena == a := by
  obtain ⟨s, hs, hi⟩ := inv_run inv_init h
  refine ⟨s, hs, ?_⟩
  intro p hp a c hc
  have ha : a < s.nWorkers := by
    rw [← hi.len p hp]; exact (List.getElem?_eq_some_iff.1 hc).1
  have := hi.cnt p hp a ha
  rw [hc] at this
  cases this
  have e : (s.objs.filterMap id).flatMap Obj.blocks = s.objs.flatMap mem := by
    generalize s.objs = l
    induction l with
    | nil => rfl
    | cons x l ih => cases x <;> simp [mem, ih]
  rw [e, used]
  apply List.countP_congr
  intro b hb
  obtain ⟨x, hx, hb⟩ := List.mem_flatMap.1 hb
  cases x with
  | none => simp [mem] at hb
  | some x =>
    have := ((hi.gen p hp x hx).2 b hb).1
    simp [this]

/-- C69, consequence: once all objects have been dropped, every allocator has got back all of its blocks. -/
theorem C69_everything_given_back_partial {ops : List Op} {k : Spec} (h : Rules ⟨false, []⟩ ops k)
    (hd : ∀ o : Nat, k.held[o]? ≠ some true) :
    ∃ s, run State.init ops = .ok s ∧ ∀ p, s.pool = some p → ∀ c ∈ p.allocs, c = 0 := by
  obtain ⟨s, hs, hi⟩ := inv_run inv_init h
  refine ⟨s, hs, ?_⟩
  intro p hp c hc
  obtain ⟨a, ha, e⟩ := List.mem_iff_getElem.1 hc
  have hc := hi.cnt p hp a (by rw [← hi.len p hp]; exact ha)
  rw [List.getElem?_eq_getElem ha, e] at hc
  cases hc
  rw [used, List.countP_eq_zero]
  intro b hb
  obtain ⟨x, hx, hb⟩ := List.mem_flatMap.1 hb
  cases x with
  | none => simp [mem] at hb
  | some x =>
    exfalso
    obtain ⟨i, hi', e⟩ := List.mem_iff_getElem.1 hx
    apply hd i
    rw [hi.held, List.getElem?_map, List.getElem?_eq_getElem hi', e]
    rfl

/-- The calls of a typical test program: start, two resources, an access, a registered task, stop, the
objects go out of scope, and all of it once more with another number of workers. -/
def typical : List Op :=
  [.init 2, .newResource 0, .newResource 1, .makeAccess 1, .pushUser 0, .emplaceTask 7, .barrier, .drop 2,
   .finalize, .drop 1, .drop 0, .init 3, .newResource 2, .pushUser 3, .finalize, .drop 3]

example : Rules ⟨false, []⟩ typical ⟨false, [false, false, false, false]⟩ :=
  .cons (.init rfl (by simp) (by decide)) <| .cons (.newResource rfl) <| .cons (.newResource rfl) <|
  .cons (.makeAccess rfl rfl) <| .cons (.pushUser rfl rfl) <| .cons (.emplaceTask rfl) <|
  .cons (.barrier rfl) <| .cons (.drop rfl) <| .cons (.finalize rfl) <| .cons (.drop rfl) <|
  .cons (.drop rfl) <|
  .cons (.init rfl (by
    intro o
    show [false, false, false][o]? ≠ some true
    intro h
    have := List.mem_of_getElem? h
    simp at this) (by decide)) <|
  .cons (.newResource rfl) <| .cons (.pushUser rfl rfl) <| .cons (.finalize rfl) <| .cons (.drop rfl) .nil

example : (run State.init (typical.take 8)).toOption.bind (·.pool) = some ⟨0, 2, [2, 1]⟩ := by decide

/-- C69 is false for resources that are created before the runtime is started: the arena is computed modulo
the number of workers, which is still 0. -/
theorem C69_before_start_false (i : Nat) : run State.init [.newResource i] = .error .divByZero := rfl

/-- C69 is false for resources and accesses that are created after `finalize`: the vector of workers is
empty, and its size is used as a divisor. -/
theorem C69_after_stop_false (n i j : Nat) (hn : 0 < n) :
    run State.init [.init n, .newResource i, .finalize, .newResource j] = .error .divByZero ∧
    run State.init [.init n, .newResource i, .finalize, .makeAccess 0] = .error .divByZero ∧
    run State.init [.init n, .newResource i, .finalize, .emplaceTask j] = .error .divByZero := by
  have hn0 : n ≠ 0 := by omega
  have hj : j % n < n := Nat.mod_lt _ hn
  have hi : i % n < n := Nat.mod_lt _ hn
  refine ⟨?_, ?_, ?_⟩ <;>
  simp [run, step, doInit, newResource, makeAccess, emplaceTask, touch, doFinalize, doBarrier, allocator,
    allocate, arenaId, State.init, hn0, hi, hj, bind, Except.bind, pure, Except.pure]

/-- C69 is false for objects that are kept while the runtime is stopped and started again: `init` destroys
the old worker pool together with the memory of all objects. -/
theorem C69_kept_over_restart_false (n m i : Nat) (hn : 0 < n) :
    run State.init [.init n, .newResource i, .finalize, .init m, .drop 0] = .error .freedMemory ∧
    run State.init [.init n, .newResource i, .finalize, .init m, .makeAccess 0] = .error .freedMemory ∧
    run State.init [.init n, .newResource i, .finalize, .init m, .pushUser 0] = .error .freedMemory := by
  have hn0 : n ≠ 0 := by omega
  have hi : i % n < n := Nat.mod_lt _ hn
  refine ⟨?_, ?_, ?_⟩ <;>
  simp [run, step, doInit, newResource, makeAccess, dropObj, pushUser, touch, doFinalize, doBarrier,
    allocator, allocate, arenaId, State.init, hn0, hi, bind, Except.bind, pure, Except.pure]

/-- C69 is false for a runtime that is started with no workers; this is the default if
`std::thread::hardware_concurrency` does not know the number of processing units and returns 0
(redGrapes.hpp:37, 119). -/
theorem C69_no_workers_false (i : Nat) :
    run State.init [.init 0, .newResource i] = .error .divByZero ∧
    run State.init [.init 0, .emplaceTask i] = .error .divByZero := ⟨rfl, rfl⟩

/-- C69 is false if `finalize` or `barrier` is called after `finalize`, or `init` twice without `finalize`
in between: null pointer, and destruction of running threads. -/
theorem C69_repeated_false (n m : Nat) (hn : 0 < n) :
    run State.init [.init n, .finalize, .finalize] = .error .nullPtr ∧
    run State.init [.init n, .finalize, .barrier] = .error .nullPtr ∧
    run State.init [.finalize] = .error .nullPtr ∧
    run State.init [.init n, .init m] = .error .workersRunning := by
  have hn0 : n ≠ 0 := by omega
  refine ⟨rfl, rfl, rfl, ?_⟩
  simp [run, step, doInit, State.init, hn0, Except.bind]

end RG.Life
