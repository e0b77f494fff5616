import Verif.Lemmas.Cuda
/- Invariants of Model/Cuda: the commands of the streams. -/
namespace RG.Cuda

variable {deps edges : Nat → List Nat} {H S : Nat} {s s' : State}

/-! ### The device -/

/-- the body has been called -/
def Pc.ran : Pc → Bool
  | .new | .enter .. | .waits .. => false
  | _ => true

structure Dev (s : State) : Prop where
  own : ∀ k c t, c ∈ s.q k → c.op = .work t → (s.pc t).stream = some k ∧ s.recd t = false ∧ (s.pc t).ran = true
  rc : ∀ k c t, c ∈ s.q k → c.op = .record t → (s.pc t).stream = some k ∧ (s.pc t).returned = true ∧ s.recd t = false
  recd : ∀ t, s.recd t = true → (s.pc t).returned = true
  after : ∀ k c d t, c ∈ s.q k → d ∈ s.q k → c.op = .record t → d.op = .work t ∨ d.op = .record t → d.n ≤ c.n
  sorted : ∀ k, (s.q k).Pairwise fun c d => c.n < d.n
  lt : ∀ k c, c ∈ s.q k → c.n < s.clock
  wt : ∀ k c u, c ∈ s.q k → c.op = .wait (some u) → s.recd u = true ∨ ∃ k' d, d ∈ s.q k' ∧ d.op = .record u ∧ d.n < c.n
  subm : ∀ t, (s.pc t).returned = true → s.recd t = true ∨ ∃ k c, c ∈ s.q k ∧ c.op = .record t

theorem mem_add {k k' : Nat} {o : Op} {c : Cmd} : c ∈ s.add k o k' ↔ c ∈ s.q k' ∨ (k' = k ∧ c = ⟨s.clock, o⟩) := by
  unfold State.add
  by_cases e : k' = k
  · subst e; rw [upd_same]; simp
  · rw [upd_ne _ _ e]; simp [e]

/-- the first command has been completed -/
theorem mem_tail {q : Nat → List Cmd} {k k' : Nat} {d c : Cmd} {l : List Cmd} (h : q k = d :: l) :
    c ∈ q k' ↔ (k' = k ∧ c = d) ∨ c ∈ upd q k l k' := by
  by_cases e : k' = k
  · subst e; rw [upd_same, h]; simp
  · rw [upd_ne _ _ e]; simp [e]

theorem sorted_add {k : Nat} {o : Op} (h : Dev s) (k' : Nat) : (s.add k o k').Pairwise fun c d => c.n < d.n := by
  unfold State.add
  by_cases e : k' = k
  · subst e; rw [upd_same, List.pairwise_append]
    refine ⟨h.sorted k', by simp, ?_⟩
    intro a ha b hb
    rw [List.mem_singleton.mp hb]
    exact h.lt k' a ha
  · rw [upd_ne _ _ e]; exact h.sorted k'

theorem sorted_tail {k : Nat} {d : Cmd} {l : List Cmd} (h : Dev s) (hq : s.q k = d :: l) :
    (∀ k', (upd s.q k l k').Pairwise fun c d => c.n < d.n) ∧ ∀ c ∈ l, d.n < c.n := by
  have := h.sorted k
  rw [hq] at this
  have := List.pairwise_cons.mp this
  refine ⟨fun k' => ?_, this.1⟩
  by_cases e : k' = k
  · subst e; rw [upd_same]; exact this.2
  · rw [upd_ne _ _ e]; exact h.sorted k'

/-- A command has been submitted. -/
theorem Dev.add (D : Dev s) {k : Nat} {o : Op} {s' : State} (hq : s'.q = s.add k o) (hc : s'.clock = s.clock + 1) (hr : s'.recd = s.recd)
    (hpc : ∀ u, (∀ k, (s.pc u).stream = some k → (s'.pc u).stream = some k) ∧ ((s.pc u).returned = true → (s'.pc u).returned = true) ∧
        ((s.pc u).ran = true → (s'.pc u).ran = true) ∧ ((s'.pc u).returned = true → (s.pc u).returned = true ∨ o = .record u))
    (h1 : ∀ t, o = .work t ∨ o = .record t → (s'.pc t).stream = some k ∧ (s'.pc t).ran = true ∧ (s.pc t).returned = false)
    (h2 : ∀ t, o = .record t → (s'.pc t).returned = true)
    (h3 : ∀ u, o = .wait (some u) → s.recd u = true ∨ ∃ k' d, d ∈ s.q k' ∧ d.op = .record u) : Dev s' := by
  have nr : ∀ t, (s.pc t).returned = false → s.recd t = false := by
    intro t h
    cases c : s.recd t
    · rfl
    · rw [D.recd t c] at h; cases h
  constructor
  · intro k' c t hm ho
    rw [hq, mem_add] at hm
    rw [hr]
    rcases hm with hm | ⟨e1, e2⟩
    · have := D.own k' c t hm ho
      exact ⟨(hpc t).1 _ this.1, this.2.1, (hpc t).2.2.1 this.2.2⟩
    · rw [e2] at ho
      have := h1 t (.inl ho)
      exact ⟨e1 ▸ this.1, nr t this.2.2, this.2.1⟩
  · intro k' c t hm ho
    rw [hq, mem_add] at hm
    rw [hr]
    rcases hm with hm | ⟨e1, e2⟩
    · have := D.rc k' c t hm ho
      exact ⟨(hpc t).1 _ this.1, (hpc t).2.1 this.2.1, this.2.2⟩
    · rw [e2] at ho
      have := h1 t (.inr ho)
      exact ⟨e1 ▸ this.1, h2 t ho, nr t this.2.2⟩
  · intro t h; rw [hr] at h; exact (hpc t).2.1 (D.recd t h)
  · intro k' c d t hm hd ho hod
    rw [hq, mem_add] at hm hd
    rcases hm with hm | ⟨e1, e2⟩ <;> rcases hd with hd | ⟨e3, e4⟩
    · exact D.after k' c d t hm hd ho hod
    · rw [e4] at hod
      have := (h1 t hod).2.2
      rw [(D.rc k' c t hm ho).2.1] at this
      cases this
    · rw [e2]; exact Nat.le_of_lt (D.lt k' d hd)
    · rw [e2, e4]; exact Nat.le_refl _
  · intro k'; rw [hq]; exact sorted_add D k'
  · intro k' c hm
    rw [hq, mem_add] at hm
    rw [hc]
    rcases hm with hm | ⟨-, e⟩
    · exact Nat.lt_succ_of_lt (D.lt k' c hm)
    · rw [e]; exact Nat.lt_succ_self _
  · intro k' c u hm ho
    rw [hq, mem_add] at hm
    rw [hr]
    rcases hm with hm | ⟨-, e⟩
    · rcases D.wt k' c u hm ho with h | ⟨x, d, hd, h⟩
      · exact .inl h
      · exact .inr ⟨x, d, by rw [hq, mem_add]; exact .inl hd, h⟩
    · rw [e] at ho ⊢
      rcases h3 u ho with h | ⟨x, d, hd, h⟩
      · exact .inl h
      · exact .inr ⟨x, d, by rw [hq, mem_add]; exact .inl hd, h, D.lt x d hd⟩
  · intro t h
    rw [hr]
    rcases (hpc t).2.2.2 h with h | h
    · rcases D.subm t h with h | ⟨x, d, hd, h⟩
      · exact .inl h
      · exact .inr ⟨x, d, by rw [hq, mem_add]; exact .inl hd, h⟩
    · exact .inr ⟨k, ⟨s.clock, o⟩, by rw [hq, mem_add]; exact .inr ⟨rfl, rfl⟩, h⟩

/-- The first command of a stream has been completed. -/
theorem Dev.tail (D : Dev s) {k : Nat} {d : Cmd} {l : List Cmd} {s' : State} (hd : s.q k = d :: l) (hq : s'.q = upd s.q k l) (hc : s'.clock = s.clock)
    (hp : s'.pc = s.pc) (hr : ∀ t, s'.recd t = true ↔ s.recd t = true ∨ d.op = .record t) : Dev s' := by
  have sub : ∀ k' c, c ∈ s'.q k' → c ∈ s.q k' := fun k' c h => (mem_tail hd).mpr (.inr (hq ▸ h))
  have st := sorted_tail D hd
  have later : ∀ t, d.op = .record t → ∀ k' c, c ∈ s'.q k' → ¬ (c.op = .work t ∨ c.op = .record t) := by
    intro t ho k' c hm h
    have hm0 : d ∈ s.q k := by rw [hd]; exact List.mem_cons_self
    have hk := (D.rc k d t hm0 ho).1
    have ek : k' = k := by
      rcases h with h | h
      · have := (D.own k' c t (sub k' c hm) h).1; rw [hk] at this; exact (Option.some.inj this).symm
      · have := (D.rc k' c t (sub k' c hm) h).1; rw [hk] at this; exact (Option.some.inj this).symm
    subst ek
    have h1 := D.after k' d c t hm0 (sub k' c hm) ho h
    rw [hq, upd_same] at hm
    exact absurd (st.2 c hm) (by omega)
  have rf : ∀ t, s.recd t = false → d.op ≠ .record t → s'.recd t = false := by
    intro t h1 h2
    cases c : s'.recd t
    · rfl
    · rcases (hr t).mp c with h | h
      · rw [h] at h1; cases h1
      · exact absurd h h2
  constructor
  · intro k' c t hm ho
    rw [hp]
    have := D.own k' c t (sub k' c hm) ho
    exact ⟨this.1, rf t this.2.1 (fun h => later t h k' c hm (.inl ho)), this.2.2⟩
  · intro k' c t hm ho
    rw [hp]
    have := D.rc k' c t (sub k' c hm) ho
    exact ⟨this.1, this.2.1, rf t this.2.2 (fun h => later t h k' c hm (.inr ho))⟩
  · intro t h
    rw [hp]
    rcases (hr t).mp h with h | h
    · exact D.recd t h
    · exact (D.rc k d t (by rw [hd]; exact List.mem_cons_self) h).2.1
  · intro k' c e t h1 h2; exact D.after k' c e t (sub k' c h1) (sub k' e h2)
  · rw [hq]; exact st.1
  · intro k' c h; rw [hc]; exact D.lt k' c (sub k' c h)
  · intro k' c u h ho
    rcases D.wt k' c u (sub k' c h) ho with h | ⟨x, e, he, h⟩
    · exact .inl ((hr u).mpr (.inl h))
    · rcases (mem_tail hd).mp he with ⟨-, e1⟩ | he
      · exact .inl ((hr u).mpr (.inr (e1 ▸ h.1)))
      · exact .inr ⟨x, e, by rw [hq]; exact he, h⟩
  · intro t h
    rw [hp] at h
    rcases D.subm t h with h | ⟨x, e, he, h⟩
    · exact .inl ((hr t).mpr (.inl h))
    · rcases (mem_tail hd).mp he with ⟨-, e1⟩ | he
      · exact .inl ((hr t).mpr (.inr (e1 ▸ h)))
      · exact .inr ⟨x, e, by rw [hq]; exact he, h⟩

theorem dev (h : Reach deps edges H S s) : Dev s := by
  induction h with
  | init => constructor <;> simp [init, Pc.returned]
  | @step s s' hr hs ih =>
    have I := inv hr
    have ih' := ih
    obtain ⟨own, rc, recd, after, sorted, lt, wt, subm⟩ := ih'
    have pconly : ∀ (t : Nat) (c : Pc), (∀ k, (s.pc t).stream = some k → c.stream = some k) → c.returned = (s.pc t).returned → ((s.pc t).ran = true → c.ran = true) →
        ∀ u, (∀ k, (s.pc u).stream = some k → (upd s.pc t c u).stream = some k) ∧ (upd s.pc t c u).returned = (s.pc u).returned ∧
          ((s.pc u).ran = true → (upd s.pc t c u).ran = true) := by
      intro t c h1 h2 h3 u
      by_cases e : u = t
      · rw [e, upd_same]; exact ⟨h1, h2, h3⟩
      · rw [upd_ne _ _ e]; exact ⟨fun _ h => h, rfl, fun h => h⟩
    have pcs : ∀ (pc : Nat → Pc), (∀ u, (∀ k, (s.pc u).stream = some k → (pc u).stream = some k) ∧ (pc u).returned = (s.pc u).returned ∧
        ((s.pc u).ran = true → (pc u).ran = true)) → ∀ s' : State, s'.pc = pc → s'.q = s.q → s'.recd = s.recd → s'.clock = s.clock → Dev s' := by
      intro pc hpc s' e1 e2 e3 e4
      constructor <;> (try rw [e2]) <;> (try rw [e1]) <;> (try rw [e3]) <;> (try rw [e4])
      · intro k c t h1 h2; have := own k c t h1 h2; exact ⟨(hpc t).1 _ this.1, this.2.1, (hpc t).2.2 this.2.2⟩
      · intro k c t h1 h2; have := rc k c t h1 h2; exact ⟨(hpc t).1 _ this.1, (hpc t).2.1.trans this.2.1, this.2.2⟩
      · intro t h; exact (hpc t).2.1.trans (recd t h)
      · exact after
      · exact sorted
      · exact lt
      · exact wt
      · intro t h; exact subm t ((hpc t).2.1.symm.trans h)
    cases hs with
    | @call h k t hh hk hn hd hc =>
      exact pcs _ (pconly _ _ (by rw [hn]; nofun) (by rw [hn]; rfl) (by rw [hn]; nofun)) _ rfl rfl rfl rfl
    | @lock h k t r ht hp ha | @skip h k t r p ps ht hp he | @run h k t r ht hp | @set h k t r e ht hp | @push h k t r e ht hp | @post h k t r e ht hp | @pop h k t r e ht hp =>
      exact pcs _ (pconly _ _ (by rw [hp]; exact fun _ h => h) (by rw [hp]; rfl) (by rw [hp]; simp [Pc.ran])) _ rfl rfl rfl rfl
    | @poll h k e t l hh ht ha he hq =>
      have hp := I.front ht ha he
      exact pcs _ (pconly _ _ (by rw [hp]; exact fun _ h => h) (by rw [hp]; rfl) (by rw [hp]; simp [Pc.ran])) _ rfl rfl rfl rfl
    | @wait h k t r p ps e ht hp he =>
      have hpc := pconly t (.waits h k ps) (by rw [hp]; exact fun _ h => h) (by rw [hp]; rfl) (by rw [hp]; simp [Pc.ran])
      refine ih.add (k := k) (o := .wait (s.last e)) rfl rfl rfl ?_ ?_ ?_ ?_
      · intro u
        exact ⟨(hpc u).1, fun h => (hpc u).2.1.trans h, (hpc u).2.2, fun h => .inl ((hpc u).2.1.symm.trans h)⟩
      · rintro t (h | h) <;> cases h
      · intro t h; cases h
      · intro u hu
        exact subm u (I.lastlt e u (Op.wait.inj hu)).2
    | @launch h k t r ht hp =>
      refine ih.add (k := k) (o := .work t) rfl rfl rfl (fun u => ⟨fun _ h => h, fun h => h, fun h => h, fun h => .inl h⟩) ?_ nofun nofun
      rintro u (h | h) <;> cases h
      dsimp only
      rw [hp]
      exact ⟨rfl, rfl, rfl⟩
    | @reuse h k t r e f ht hp hf | @create h k t r ht hp hf =>
      refine ih.add (k := k) (o := .record t) rfl rfl rfl ?_ ?_ ?_ nofun
      · intro u
        by_cases c : u = t
        · dsimp only
          rw [c, upd_same, hp]
          exact ⟨fun _ h => h, nofun, fun _ => rfl, fun _ => .inr rfl⟩
        · dsimp only
          rw [upd_ne _ _ c]
          exact ⟨fun _ h => h, fun h => h, fun h => h, fun h => .inl h⟩
      · rintro u (h | h) <;> cases h
        dsimp only
        rw [upd_same, hp]
        exact ⟨rfl, rfl, rfl⟩
      · intro u h
        cases h
        dsimp only
        rw [upd_same]
        rfl
    | @start k n t l hq hb => exact pcs _ (fun u => ⟨fun _ h => h, rfl, fun h => h⟩) _ rfl rfl rfl rfl
    | @finish k n t l hq hb => exact ih.tail hq rfl rfl rfl (fun u => by simp)
    | @record k n t l hq =>
      refine ih.tail hq rfl rfl rfl (fun u => ?_)
      dsimp only
      by_cases c : u = t
      · subst c; simp
      · rw [upd_ne _ _ c]
        simp only [Op.record.injEq]
        exact ⟨.inl, fun h => h.elim (fun h => h) (fun h => absurd h.symm c)⟩
    | @await k n r l hq hr => exact ih.tail hq rfl rfl rfl (fun u => by simp)

end RG.Cuda
