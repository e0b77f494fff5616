import Verif.Props.ConcList
/-
Property C67: the initialisation of a task finds all earlier users of its resources.

The users of a resource are in a chunked list (resource.hpp: `users`). `TaskSpace::submit` pushes the task and keeps the
iterator (task_space.cpp:81-84); `init_graph` copies this iterator and goes on from there (graph.cpp:55-58), while other
threads push and remove.
-/
set_option linter.unusedVariables false
namespace RG.CoL

open AL (own cur)

variable {N : Nat} {s s' : State}

/-! ### The order of a traversal -/

/-- slot `x` was reserved later than slot `y` -/
def Later (l : AL.State) (x y : Slot) : Prop :=
  ∃ rx ry, l.rank x.1 = some rx ∧ l.rank y.1 = some ry ∧ (ry < rx ∨ (x.1 = y.1 ∧ y.2 < x.2))

/-- slot `x` is in a chunk appended after chunk `c`, or `k` chunks before -/
def Above (l : AL.State) (c k : Nat) (x : Slot) : Prop :=
  ∃ rx r, l.rank x.1 = some rx ∧ l.rank c = some r ∧ r < rx + k

structure InvE (s : State) (t : Nat) : Prop where
  sorted : (s.seen t).Pairwise fun a b => Later s.al b a
  atP : ∀ x, pos (s.pcs t) = some x → ∀ y ∈ s.seen t, Later s.al y x
  onP : ∀ x, on (s.pcs t) = some x → ∃ l, s.seen t = x :: l
  last : ∀ c, s.pcs t = .iLast c → ∀ y ∈ s.seen t, Above s.al c 0 y
  hop : ∀ c, s.pcs t = .iHop c → ∀ y ∈ s.seen t, Above s.al c 1 y
  val : ∀ x ∈ s.seen t, s.val x ≠ none
  cand : ∀ c p, s.pcs t = .iCand c p → s.val (c, p) ≠ none

theorem Later.mono {x y : Slot} (hm : Mono s s') (h : Later s.al x y) : Later s'.al x y := by
  obtain ⟨rx, ry, h1, h2, h3⟩ := h
  exact ⟨rx, ry, hm.rank _ _ h1, hm.rank _ _ h2, h3⟩

theorem Above.mono {c k : Nat} {x : Slot} (hm : Mono s s') (h : Above s.al c k x) : Above s'.al c k x := by
  obtain ⟨rx, r, h1, h2, h3⟩ := h
  exact ⟨rx, r, hm.rank _ _ h1, hm.rank _ _ h2, h3⟩

/-- the position does not change -/
theorem InvE.keep {t : Nat} (h : InvE s t) (hm : Mono s s') (h1 : s'.pcs t = s.pcs t) (h2 : s'.seen t = s.seen t) :
    InvE s' t := by
  obtain ⟨g1, g2, g3, g4, g5, g6, g7⟩ := h
  constructor
  · rw [h2]; exact g1.imp fun h => h.mono hm
  · rw [h1, h2]; exact fun x h y hy => (g2 x h y hy).mono hm
  · rw [h1, h2]; exact g3
  · rw [h1, h2]; exact fun x h y hy => (g4 x h y hy).mono hm
  · rw [h1, h2]; exact fun x h y hy => (g5 x h y hy).mono hm
  · rw [h2]; exact fun x hx => hm.val x (g6 x hx)
  · rw [h1]; exact fun c p h => hm.val _ (g7 c p h)

/-- the thread is not at a chunk -/
theorem InvE.none {t : Nat} (h : InvE s t) (hm : Mono s s') (h2 : s'.seen t = s.seen t)
    (h3 : pos (s'.pcs t) = none) (h4 : on (s'.pcs t) = none) (h5 : ∀ c, s'.pcs t ≠ .iLast c)
    (h6 : ∀ c, s'.pcs t ≠ .iHop c) : InvE s' t := by
  obtain ⟨g1, g2, g3, g4, g5, g6, g7⟩ := h
  constructor
  · rw [h2]; exact g1.imp fun h => h.mono hm
  · rw [h3]; simp
  · rw [h4]; simp
  · intro c h; exact absurd h (h5 c)
  · intro c h; exact absurd h (h6 c)
  · rw [h2]; exact fun x hx => hm.val x (g6 x hx)
  · intro c p h; rw [h] at h3; cases h3

set_option maxHeartbeats 1000000 in
theorem invE (hN : 0 < N) (h : Reach N s) : ∀ t, InvE s t := by
  induction h with
  | init => intro t; constructor <;> simp [init, pos, on]
  | @step s s' t hr hs hi =>
    have hA := invA hr
    have hB := invB hr
    have hC := invC hN hr
    have hm := mono hA hs
    have hin := hA.inner t
    have hAL := AL.inv hA.al
    have hrank : ∀ c, s.al.pcs t = .at c → ∃ r, s.al.rank c = some r :=
      fun c h => hAL.curRank t c (by rw [h]; rfl)
    intro u
    by_cases hu : u = t
    · subst hu
      have hi := hi u
      obtain ⟨g1, g2, g3, g4, g5, g6, g7⟩ := hi
      cases hs with
      | begin h ha hp hl => constructor <;> simp [pos, on]
      | beginNull h ha hp => constructor <;> simp [pos, on]
      | copy h hv ha hp hrk hl => constructor <;> simp [pos, on]
      | last h hn =>
        rename_i c
        constructor <;> dsimp only <;> try simp only [upd_same]
        · exact g1
        · intro x hx y hy
          cases hx
          obtain ⟨rx, r, h1, h2, h3⟩ := g4 c h y hy
          exact ⟨rx, r, h1, h2, .inl (by omega)⟩
        · simp [on]
        · simp
        · simp
        · exact g6
        · simp
      | read h ho =>
        rename_i c p
        constructor <;> dsimp only <;> try simp only [upd_same]
        · exact g1
        · intro x hx; rw [h] at g2; exact g2 x hx
        · simp [on]
        · simp
        · simp
        · exact g6
        · intro c' p' h' hv
          cases h'
          have := hC.offNew _ hv
          omega
      | jump h ho hp =>
        rename_i c p
        constructor <;> dsimp only <;> try simp only [upd_same]
        · exact g1
        · intro x hx y hy
          cases hx
          obtain ⟨rx, r, h1, h2, h3⟩ := g2 _ h y hy
          refine ⟨rx, r, h1, h2, ?_⟩
          rcases h3 with h3 | ⟨h3, h4⟩
          · exact .inl h3
          · exact .inr ⟨h3, by simp only at h4 ⊢; omega⟩
        · simp [on]
        · simp
        · simp
        · exact g6
        · simp
      | jumpOut h ho ha hp =>
        rename_i c p a
        have hin' := inner_pos h hin
        obtain ⟨⟨e1, e2, e3⟩, -⟩ := eff_cur ha (c := c) (by rw [hin']; rfl)
        constructor <;> dsimp only <;> try simp only [upd_same]
        · exact g1.imp fun h => h.mono hm
        · simp [pos]
        · simp [on]
        · simp
        · intro c' h' y hy
          cases h'
          obtain ⟨rx, r, h1, h2, h3⟩ := g2 _ h y hy
          refine ⟨rx, r, by rw [e2]; exact h1, by rw [e2]; exact h2, ?_⟩
          rcases h3 with h3 | ⟨h3, h4⟩
          · omega
          · rw [h3] at h1; simp only at h2; rw [h1] at h2; cases h2; omega
        · exact g6
        · simp
      | visit h =>
        rename_i c p
        have hpos : pos (s.pcs u) = some (c, p) := by rw [h]; rfl
        constructor <;> dsimp only <;> try simp only [upd_same]
        · exact List.Pairwise.cons (fun y hy => g2 _ hpos y hy) g1
        · simp [pos]
        · intro x hx; cases hx; exact ⟨_, rfl⟩
        · simp
        · simp
        · intro x hx
          rcases List.mem_cons.1 hx with rfl | hx
          · exact g7 c p h
          · exact g6 x hx
        · simp
      | next h =>
        rename_i c p
        obtain ⟨l, hl⟩ := g3 (c, p + 1) (by rw [h]; rfl)
        rw [h] at hin
        obtain ⟨r, hr'⟩ := hrank c hin
        constructor <;> dsimp only <;> try simp only [upd_same]
        · exact g1
        · intro x hx y hy
          cases hx
          rw [hl] at hy g1
          rcases List.mem_cons.1 hy with rfl | hy
          · exact ⟨r, r, hr', hr', .inr ⟨rfl, by simp⟩⟩
          · obtain ⟨rx, ry, h1, h2, h3⟩ := (List.pairwise_cons.1 g1).1 y hy
            refine ⟨rx, ry, h1, h2, ?_⟩
            rcases h3 with h3 | ⟨h3, h4⟩
            · exact .inl h3
            · exact .inr ⟨h3, by simp only at h4 ⊢; omega⟩
        · simp [on]
        · simp
        · simp
        · exact g6
        · simp
      | nextOut h ha hp =>
        rename_i c a
        obtain ⟨l, hl⟩ := g3 (c, 0) (by rw [h]; rfl)
        rw [h] at hin
        obtain ⟨r, hr'⟩ := hrank c hin
        have hin' : s.al.pcs u = .at c := hin
        obtain ⟨⟨e1, e2, e3⟩, -⟩ := eff_cur ha (c := c) (by rw [hin']; rfl)
        constructor <;> dsimp only <;> try simp only [upd_same]
        · exact g1.imp fun h => h.mono hm
        · simp [pos]
        · simp [on]
        · simp
        · intro c' h' y hy
          cases h'
          rw [hl] at hy g1
          rcases List.mem_cons.1 hy with rfl | hy
          · exact ⟨r, r, by rw [e2]; exact hr', by rw [e2]; exact hr', by omega⟩
          · obtain ⟨rx, ry, h1, h2, h3⟩ := (List.pairwise_cons.1 g1).1 y hy
            simp only at h2
            refine ⟨rx, ry, by rw [e2]; exact h1, by rw [e2]; exact h2, ?_⟩
            rcases h3 with h3 | ⟨h3, h4⟩
            · omega
            · rw [h3] at h1; simp only at h1; rw [h1] at h2; cases h2; omega
        · exact g6
        · simp
      | hop h ha hd =>
        rename_i c a
        rw [h] at hin
        have hin' : cur (s.al.pcs u) = some c ∧ s.al.pcs u ≠ .at c := hin
        obtain ⟨⟨e1, e2, e3⟩, e4, e5⟩ := eff_cur ha hin'.1
        have key := g5 c h
        rcases e5 with ⟨k1, k2, k3⟩ | ⟨q, k1, k2, k3, k4⟩ | ⟨k1, k2, k3⟩ | ⟨k1, -⟩
        · have ear : arrive c (a.pcs u) = .iHop c := by
            have : a.pcs u ≠ .at c := fun h => hin'.2 (k3 h)
            generalize a.pcs u = q at *
            cases q <;> simp_all [arrive, cur]
          constructor <;> dsimp only <;> try simp only [upd_same, ear]
          · exact g1.imp fun h => h.mono hm
          · simp [pos]
          · simp [on]
          · simp
          · intro c' h' y hy; cases h'; exact (key y hy).mono hm
          · exact g6
          · simp
        · have ear : arrive c (a.pcs u) = .iLast q := by rw [k1]; rfl
          constructor <;> dsimp only <;> try simp only [upd_same, ear]
          · exact g1.imp fun h => h.mono hm
          · simp [pos]
          · simp [on]
          · intro c' h' y hy
            cases h'
            obtain ⟨rx, r, h1, h2, h3⟩ := key y hy
            have := hAL.older c r h2
            rw [k3] at this
            obtain ⟨rq, h6, h7, -⟩ := this
            exact ⟨rx, rq, by rw [e2]; exact h1, by rw [e2]; exact h6, by omega⟩
          · simp
          · exact g6
          · simp
        · have ear : arrive c (a.pcs u) = .iEnd := by rw [k1]; rfl
          exact InvE.none ⟨g1, g2, g3, g4, g5, g6, g7⟩ hm rfl (by simp [ear, pos]) (by simp [ear, on]) (by simp [ear])
            (by simp [ear])
        · exact absurd k1 hin'.2
      | first h =>
        refine InvE.none ⟨g1, g2, g3, g4, g5, g6, g7⟩ hm rfl ?_ ?_ ?_ ?_ <;> simp only [upd_same] <;> split <;> simp [pos, on]
      | alloc h =>
        refine InvE.none ⟨g1, g2, g3, g4, g5, g6, g7⟩ hm rfl ?_ ?_ ?_ ?_ <;> simp only [upd_same] <;> split <;> simp [pos, on]
      | free h =>
        refine InvE.none ⟨g1, g2, g3, g4, g5, g6, g7⟩ hm rfl ?_ ?_ ?_ ?_ <;> simp only [upd_same] <;> split <;> simp [pos, on]
      | _ =>
        refine InvE.none ⟨g1, g2, g3, g4, g5, g6, g7⟩ hm rfl ?_ ?_ ?_ ?_ <;> simp [pos, on]
    · have e1 : s'.pcs u = s.pcs u ∧ s'.seen u = s.seen u := by
        clear hi hA hB hC hm hin hAL hrank
        cases hs <;> simp [upd, hu]
      exact (hi u).keep hm e1.1 e1.2

/-! ### One push at a time -/

/-- at most one thread is inside of `push` -/
def OnePush (s : State) : Prop := ∀ t u, pushing (s.pcs t) = true → pushing (s.pcs u) = true → t = u

/-- Executions in which `P` holds in all states. -/
inductive ReachP (N : Nat) (P : State → Prop) : State → Prop
  | init : ReachP N P init
  | step {s s' t} : ReachP N P s → Step N t s s' → P s' → ReachP N P s'

theorem ReachP.reach {P : State → Prop} (h : ReachP N P s) : Reach N s := by
  induction h with
  | init => exact .init
  | step _ h _ ih => exact ih.step h

theorem pushing_asg {t v c i : Nat} (h : s.pcs t = .pAsg v c i) : pushing (s.pcs t) = true := by rw [h]; rfl
theorem pushing_add {t v c : Nat} (h : s.pcs t = .pAdd v c) : pushing (s.pcs t) = true := by rw [h]; rfl

theorem asg_last (h : ReachP N OnePush s) : OnePush s ∧ ∀ t v c i, s.pcs t = .pAsg v c i → s.nxt c = i + 1 := by
  induction h with
  | init => exact ⟨by intro t u h; simp [init, pushing] at h, by simp [init]⟩
  | @step s s' t hr hs hp ih =>
    refine ⟨hp, ?_⟩
    obtain ⟨h1, h2⟩ := ih
    unfold OnePush at h1
    clear hr hp
    cases hs <;> grind [upd, pushing, pushing_asg, pushing_add, arrive_cases]

theorem not_hidden (hN : 0 < N) (h : ReachP N OnePush s) (x : Slot) : s.hid x = false := by
  induction h with
  | init => rfl
  | @step s s' t hr hs hp ih =>
    cases hs with
    | readPred h =>
      rename_i c i
      dsimp only
      split
      · rename_i hv
        exfalso
        have hC := invC hN hr.reach
        have hB := invB hr.reach
        have h1 := hB.valLt _ _ (hC.remVal _ (hC.rem t _ (rm_read h)).1)
        obtain ⟨u, v, hu⟩ := hB.reserved c i (by omega) (by omega) hv
        have := (asg_last hr).2 u v c i hu
        omega
      · exact ih
    | _ => exact ih

/-! ### The traversal of one thread -/

/-- Executions in which thread `t` goes on with its iteration, while the others do anything, and `P` holds in all states. -/
inductive Along (N : Nat) (P : State → Prop) (t : Nat) (s : State) : State → Prop
  | refl : Along N P t s s
  | step {s' s'' u} : Along N P t s s' → Step N u s' s'' → isIter (s''.pcs t) = true → P s'' → Along N P t s s''

theorem Along.reach {P : State → Prop} {t : Nat} (h : ReachP N P s) (ha : Along N P t s s') : ReachP N P s' := by
  induction ha with
  | refl => exact h
  | step _ h _ hp ih => exact ih.step h hp

theorem Along.snap {P : State → Prop} {t : Nat} (hit : isIter (s.pcs t) = true) (ha : Along N P t s s') :
    isIter (s'.pcs t) = true ∧ s'.snap t = s.snap t ∧ s'.empt t = s.empt t := by
  induction ha with
  | refl => exact ⟨hit, rfl, rfl⟩
  | @step s' s'' u _ hs h _ ih =>
    refine ⟨h, ?_⟩
    rw [← ih.2.1, ← ih.2.2]
    have := ih.1
    by_cases e : u = t
    · subst e
      cases hs <;> first | exact ⟨rfl, rfl⟩ | skip
      all_goals
        rename_i h' _ _
        first | (rw [h'] at this; cases this) | skip
      all_goals simp_all [isIter]
    · cases hs <;> simp [upd, Ne.symm e]

theorem copy_snap {t c p : Nat} (hs : Step N t s s') (h0 : s.pcs t = .idle) (h1 : s'.pcs t = .iAt c p) :
    s'.empt t = false ∧ ∀ y, s'.snap t y = ((s.val y).isSome && before s.al (c, p) y) := by
  cases hs <;> simp_all [pos, on]

theorem before_of {l : AL.State} {x y : Slot} (h : y = x ∨ Later l x y) : before l x y = true := by
  unfold before
  rcases h with rfl | ⟨rx, ry, h1, h2, h3⟩
  · simp
  · split
    · rename_i e
      rcases h3 with h3 | h3
      · rw [e] at h2; rw [h1] at h2; cases h2; omega
      · exact decide_eq_true (by omega)
    · rename_i e
      rw [h1, h2]
      rcases h3 with h3 | h3
      · exact decide_eq_true h3
      · exact absurd h3.1.symm e

/-- **C67 (partial)** If tasks are registered with the resource one after the other, a traversal that starts at the entry
of a task (slot `(c, p)`) and has reached the end has visited all entries registered earlier, except for those removed
meanwhile, whatever the other threads do. Missing: with overlapping registrations this is false, see
`C67_earlier_user_missed_false`. -/
theorem C67_finds_earlier_users_partial {s0 s1 s : State} {t c p : Nat} (hN : 0 < N) (h : ReachP N OnePush s0)
    (hs : Step N t s0 s1) (h0 : s0.pcs t = .idle) (h1 : s1.pcs t = .iAt c p) (hP : OnePush s1)
    (ha : Along N OnePush t s1 s) (he : s.pcs t = .iEnd) {y : Slot} (hv : s0.val y ≠ none)
    (hy : y = (c, p) ∨ Later s0.al (c, p) y) (hr : s.removed y = false) : y ∈ s.seen t := by
  have hit : isIter (s1.pcs t) = true := by rw [h1]; rfl
  have hreach := ha.reach (h.step hs hP)
  obtain ⟨-, k1, k2⟩ := ha.snap hit
  obtain ⟨k3, k4⟩ := copy_snap hs h0 h1
  refine C28_iteration_complete_partial hN hreach.reach he (by rw [k2, k3]) ?_ hr (not_hidden hN hreach y)
  rw [k1, k4, before_of hy, Bool.and_true]
  cases hv' : s0.val y with
  | none => exact absurd hv' hv
  | some v => rfl

/-- **C67** In all interleavings, a traversal visits the entries in the opposite order of their registration, each at most
once, and only entries to which a task has been assigned. -/
theorem C67_newest_first (hN : 0 < N) (h : Reach N s) (t : Nat) :
    (s.seen t).Pairwise (fun a b => Later s.al b a) ∧ (s.seen t).Nodup ∧ ∀ x ∈ s.seen t, s.val x ≠ none := by
  have hE := invE hN h t
  refine ⟨hE.sorted, hE.sorted.imp ?_, hE.val⟩
  rintro a b ⟨ra, rb, h1, h2, h3⟩ rfl
  rw [h1] at h2; cases h2
  rcases h3 with h3 | h3 <;> omega

/-- The execution for `C67_earlier_user_missed_false` up to the copy of the iterator. -/
theorem missed_run : ∃ s0 s1 s, Reach 4 s0 ∧ Step 4 4 s0 s1 ∧ s0.pcs 4 = .idle ∧ s1.pcs 4 = .iAt 0 2 ∧
    Along 4 (fun _ => True) 4 s1 s ∧ s.pcs 4 = .iEnd ∧ s0.val (0, 0) = some 7 ∧ s0.al.rank 0 = some 0 ∧
    (∀ t, s0.pcs t = .idle) ∧ s.removed (0, 0) = false ∧ s.seen 4 = [(0, 2)] := by
  refine ⟨_, _, _, Steps.reach (N := 4) .init (.step (.step (.step (.step (.step (.step (.step (.step (.step (.step (.step (.step (.step (.step (.step (.step (.step (.step (.step (.step (.step .refl
    (.push (t := 0) 7 rfl)) (.loadNull (t := 0) rfl rfl (.allocFirst rfl) rfl)) (.first (t := 0) rfl (.firstOk rfl rfl) (by decide)))
    (.load (t := 0) rfl rfl)) (.room (t := 0) rfl (by decide))) (.slot (t := 0) rfl (by decide)))
    (.push (t := 1) 8 rfl)) (.load (t := 1) rfl rfl)) (.room (t := 1) rfl (by decide))) (.slot (t := 1) rfl (by decide))) (.assign (t := 1) rfl))
    (.remove (t := 2) (x := (0, 1)) rfl (by decide) rfl)) (.readPred (t := 2) rfl)) (.write (t := 2) rfl)) (.free (t := 2) rfl))
    (.assign (t := 0) rfl))
    (.push (t := 3) 9 rfl)) (.load (t := 3) rfl rfl)) (.room (t := 3) rfl (by decide))) (.slot (t := 3) rfl (by decide))) (.assign (t := 3) rfl)),
    .copy (c := 0) (p := 2) (r := 0) rfl (by decide) (.copy (c := 0) (r := 0) rfl rfl) rfl rfl rfl, rfl, rfl,
    .step (.step (.step (.step (.step (.step (.step (.step .refl
      (.read (t := 4) rfl rfl) rfl trivial) (.visit (t := 4) rfl) rfl trivial) (.next (t := 4) rfl) rfl trivial)
      (.jumpOut (t := 4) rfl (by decide) (.next rfl) rfl) rfl trivial)
      (.hop (t := 4) rfl (.skipLoad rfl) (by decide)) rfl trivial) (.hop (t := 4) rfl (.testNull rfl) (by decide)) rfl trivial)
      (.hop (t := 4) rfl (.skipStore rfl) (by decide)) rfl trivial) (.hop (t := 4) rfl (.advanceEnd rfl rfl) (by decide)) rfl trivial,
    rfl, rfl, rfl, ?_, rfl, rfl⟩
  intro t
  by_cases h0 : t = 0 <;> by_cases h1 : t = 1 <;> by_cases h2 : t = 2 <;> by_cases h3 : t = 3 <;> simp [upd, init, h0, h1, h2, h3]

/-- **C67 is false** if tasks of different task spaces are registered with a resource at the same time: a task whose
entry was reserved before, and assigned while, a task in the following entry was finished and removed, is missed by all
traversals afterwards, even though all registrations and removals have ended when the traversal begins. `init_graph` then
does not link the new task to this earlier task: two conflicting tasks of one space run in any order (C12). -/
theorem C67_earlier_user_missed_false :
    ¬ ∀ (N : Nat) (s0 s1 s : State) (t c p : Nat) (y : Slot), 0 < N → Reach N s0 → Step N t s0 s1 → s0.pcs t = .idle →
      (∀ u, s0.pcs u = .idle) → s1.pcs t = .iAt c p → Along N (fun _ => True) t s1 s → s.pcs t = .iEnd →
      s0.val y ≠ none → (y = (c, p) ∨ Later s0.al (c, p) y) → s.removed y = false → y ∈ s.seen t := by
  intro h
  obtain ⟨s0, s1, s, h1, h2, h3, h4, h5, h6, h7, h8, h9, h10, h11⟩ := missed_run
  have := h 4 s0 s1 s 4 0 2 (0, 0) (by decide) h1 h2 h3 h9 h4 h5 h6 (by rw [h7]; simp)
    (.inr ⟨0, 0, h8, h8, .inr ⟨rfl, by decide⟩⟩) h10
  rw [h11] at this
  simp at this

/-! ### Example

Thread 0 registers 7, 8, 9 and then 10; thread 1 removes 8 while thread 2 traverses the list from 9 to 7. -/

theorem onePush_of (h : ∀ t, t ≠ 0 → pushing (s.pcs t) = false) : OnePush s := by
  intro t u ht hu
  have h1 : t = 0 := Classical.byContradiction fun e => by rw [h t e] at ht; cases ht
  have h2 : u = 0 := Classical.byContradiction fun e => by rw [h u e] at hu; cases hu
  rw [h1, h2]

local macro "one_push" : term => `(onePush_of (by
  intro t ht
  by_cases h1 : t = 1 <;> by_cases h2 : t = 2 <;> simp_all [upd, init, pushing, arrive]))

set_option maxHeartbeats 4000000 in
set_option maxRecDepth 4000 in
example : ∃ s0 s1 s, ReachP 4 OnePush s0 ∧ Step 4 2 s0 s1 ∧ s0.pcs 2 = .idle ∧ s1.pcs 2 = .iAt 0 2 ∧ OnePush s1 ∧
    Along 4 OnePush 2 s1 s ∧ s.pcs 2 = .iEnd ∧ s0.val (0, 0) = some 7 ∧ Later s0.al (0, 2) (0, 0) ∧
    s.removed (0, 0) = false ∧ s.removed (0, 1) = true ∧ s.seen 2 = [(0, 0), (0, 2)] := by
  refine ⟨_, _, _, (.step (.step (.step (.step (.step (.step (.step (.step (.step (.step (.step (.step (.step (.step (.step (.step (.step (.step (.step (.step (.step (.step .init
    (.push (t := 0) 7 rfl) one_push)
    (.loadNull (t := 0) rfl rfl (.allocFirst rfl) rfl) one_push)
    (.first (t := 0) rfl (.firstOk rfl rfl) (by decide)) one_push)
    (.load (t := 0) rfl rfl) one_push)
    (.room (t := 0) rfl (by decide)) one_push)
    (.slot (t := 0) rfl (by decide)) one_push)
    (.assign (t := 0) rfl) one_push)
    (.push (t := 0) 8 rfl) one_push)
    (.load (t := 0) rfl rfl) one_push)
    (.room (t := 0) rfl (by decide)) one_push)
    (.slot (t := 0) rfl (by decide)) one_push)
    (.assign (t := 0) rfl) one_push)
    (.push (t := 0) 9 rfl) one_push)
    (.load (t := 0) rfl rfl) one_push)
    (.room (t := 0) rfl (by decide)) one_push)
    (.slot (t := 0) rfl (by decide)) one_push)
    (.assign (t := 0) rfl) one_push)
    (.remove (t := 1) (x := (0, 1)) rfl (by decide) rfl) one_push)
    (.readPred (t := 1) rfl) one_push)
    (.push (t := 0) 10 rfl) one_push)
    (.load (t := 0) rfl rfl) one_push)
    (.room (t := 0) rfl (by decide)) one_push),
    .copy (c := 0) (p := 2) (r := 0) rfl (by decide) (.copy (c := 0) (r := 0) rfl rfl) rfl rfl rfl, rfl, rfl, one_push,
    (.step (.step (.step (.step (.step (.step (.step (.step (.step (.step (.step (.step (.step .refl
      (.read (t := 2) rfl rfl) rfl one_push)
      (.visit (t := 2) rfl) rfl one_push)
      (.write (t := 1) rfl) rfl one_push)
      (.next (t := 2) rfl) rfl one_push)
      (.slot (t := 0) rfl (by decide)) rfl one_push)
      (.jump (t := 2) rfl (by decide) (by decide)) rfl one_push)
      (.read (t := 2) rfl rfl) rfl one_push)
      (.visit (t := 2) rfl) rfl one_push)
      (.nextOut (t := 2) rfl (.next rfl) rfl) rfl one_push)
      (.hop (t := 2) rfl (.skipLoad rfl) (by decide)) rfl one_push)
      (.hop (t := 2) rfl (.testNull rfl) (by decide)) rfl one_push)
      (.hop (t := 2) rfl (.skipStore rfl) (by decide)) rfl one_push)
      (.hop (t := 2) rfl (.advanceEnd rfl rfl) (by decide)) rfl one_push),
    rfl, rfl, ⟨0, 0, rfl, rfl, .inr ⟨rfl, by decide⟩⟩, rfl, rfl, rfl⟩

end RG.CoL
