import Verif.Lemmas.CudaDev
/- Invariants of Model/Cuda: the order of the work, and how much of it there is. -/
namespace RG.Cuda

variable {deps edges : Nat → List Nat} {H S : Nat} {s s' : State}

/-- the command waits for the record of `p`, or is this record -/
def Op.waits (o : Op) (p : Nat) : Prop := o = .wait (some p) ∨ o = .record p

/-- the record of `p` has been completed or the stream will wait for it -/
def Waits (s : State) (k p : Nat) : Prop := s.recd p = true ∨ ∃ w ∈ s.q k, w.op.waits p

/-- `in_edges` contains the dependencies, or there is one stream only -/
def Enough (deps edges : Nat → List Nat) (S : Nat) : Prop := (∀ t, ∀ p ∈ deps t, p ∈ edges t) ∨ S ≤ 1

structure Ord (deps : Nat → List Nat) (s : State) : Prop where
  order : ∀ k c t p, c ∈ s.q k → c.op = .work t ∨ c.op = .record t → p ∈ deps t →
    s.recd p = true ∨ ∃ w ∈ s.q k, w.op.waits p ∧ w.n < c.n
  waits : ∀ t h k ps p, s.pc t = .waits h k ps → p ∈ deps t → p ∈ ps ∨ Waits s k p
  runs : ∀ t h k p, s.pc t = .run h k → p ∈ deps t → Waits s k p
  pre : ∀ t p, s.pc t ≠ .new → p ∈ deps t → (s.pc p).pre = true
  rdeps : ∀ t p, s.recd t = true → p ∈ deps t → s.recd p = true
  sdeps : ∀ t p, 0 < s.started t → p ∈ deps t → s.recd p = true

/-- nothing is submitted and nothing is completed, the task moves on -/
theorem Ord.move (D : Ord deps s) {t : Nat} {c : Pc} {s' : State} (hp : s'.pc = upd s.pc t c) (hq : s'.q = s.q) (hr : s'.recd = s.recd)
    (hs : s'.started = s.started) (h1 : (s.pc t).pre = true → c.pre = true) (h2 : s.pc t = .new → ∀ p ∈ deps t, (s.pc p).pre = true)
    (h3 : ∀ h k ps, c = .waits h k ps → ∀ p ∈ deps t, p ∈ ps ∨ Waits s k p) (h4 : ∀ h k, c = .run h k → ∀ p ∈ deps t, Waits s k p) : Ord deps s' := by
  constructor
  · rw [hq, hr]; exact D.order
  · intro u h k ps p hu hd
    unfold Waits
    rw [hr, hq]
    rw [hp] at hu
    by_cases e : u = t
    · subst e; rw [upd_same] at hu; exact h3 h k ps hu p hd
    · rw [upd_ne _ _ e] at hu; exact D.waits u h k ps p hu hd
  · intro u h k p hu hd
    unfold Waits
    rw [hr, hq]
    rw [hp] at hu
    by_cases e : u = t
    · subst e; rw [upd_same] at hu; exact h4 h k hu p hd
    · rw [upd_ne _ _ e] at hu; exact D.runs u h k p hu hd
  · intro u p hu hd
    have key : (s.pc p).pre = true := by
      by_cases e : u = t
      · subst e
        by_cases n : s.pc u = .new
        · exact h2 n p hd
        · exact D.pre u p n hd
      · rw [hp, upd_ne _ _ e] at hu; exact D.pre u p hu hd
    rw [hp]
    by_cases e : p = t
    · subst e; rw [upd_same]; exact h1 key
    · rw [upd_ne _ _ e]; exact key
  · rw [hr]; exact D.rdeps
  · rw [hr, hs]; exact D.sdeps

/-- a command is submitted -/
theorem Ord.add (D : Ord deps s) {k : Nat} {o : Op} {s' : State} (hq : s'.q = s.add k o) (hr : s'.recd = s.recd) (hs : s'.started = s.started) (hp : s'.pc = s.pc)
    (V : Dev s) (h : ∀ t, o = .work t ∨ o = .record t → ∀ p ∈ deps t, Waits s k p) : Ord deps s' := by
  have W : ∀ k p, Waits s k p → Waits s' k p := by
    rintro k p (h | ⟨w, h, ho⟩)
    · exact .inl (hr ▸ h)
    · exact .inr ⟨w, by rw [hq, mem_add]; exact .inl h, ho⟩
  constructor
  · intro k' c t p hm ho hd
    rw [hq, mem_add] at hm
    rcases hm with hm | ⟨e1, e2⟩
    · rcases D.order k' c t p hm ho hd with h | ⟨w, h, ho⟩
      · exact .inl (hr ▸ h)
      · exact .inr ⟨w, by rw [hq, mem_add]; exact .inl h, ho⟩
    · rw [e2] at ho
      rcases h t ho p hd with h | ⟨w, h, ho⟩
      · exact .inl (hr ▸ h)
      · exact .inr ⟨w, by rw [hq, mem_add, e1]; exact .inl h, ho, by rw [e2]; exact V.lt k w h⟩
  · intro t h k ps p h1 h2
    rw [hp] at h1
    exact (D.waits t h k ps p h1 h2).imp id (W k p)
  · intro t h k p h1 h2
    rw [hp] at h1
    exact W k p (D.runs t h k p h1 h2)
  · rw [hp]; exact D.pre
  · rw [hr]; exact D.rdeps
  · rw [hr, hs]; exact D.sdeps

/-- what the first command of a stream belongs to has been waited for -/
theorem Ord.head (D : Ord deps s) (V : Dev s) {k : Nat} {c : Cmd} {l : List Cmd} (hq : s.q k = c :: l) {t : Nat} (ho : c.op = .work t ∨ c.op = .record t) :
    ∀ p ∈ deps t, s.recd p = true := by
  intro p hd
  rcases D.order k c t p (hq ▸ List.mem_cons_self) ho hd with h | ⟨w, h, -, hlt⟩
  · exact h
  · rw [hq] at h
    rcases List.mem_cons.mp h with h | h
    · rw [h] at hlt; omega
    · have := (sorted_tail V hq).2 w h; omega

/-- the first command of a stream is completed -/
theorem Ord.tail (D : Ord deps s) {k : Nat} {d : Cmd} {l : List Cmd} {s' : State} (V : Dev s) (hd : s.q k = d :: l) (hq : s'.q = upd s.q k l)
    (hp : s'.pc = s.pc) (hs : s'.started = s.started) (hr : ∀ t, s'.recd t = true ↔ s.recd t = true ∨ d.op = .record t)
    (hw : ∀ u, d.op = .wait (some u) → s.recd u = true) : Ord deps s' := by
  have W : ∀ k p, Waits s k p → Waits s' k p := by
    rintro k p (h | ⟨w, h, ho⟩)
    · exact .inl ((hr p).mpr (.inl h))
    · rcases (mem_tail hd).mp h with ⟨-, e⟩ | h
      · exact .inl ((hr p).mpr ((e ▸ ho : d.op.waits p).imp (hw p) id))
      · exact .inr ⟨w, by rw [hq]; exact h, ho⟩
  constructor
  · intro k' c t p hm ho hdp
    rcases D.order k' c t p ((mem_tail hd).mpr (.inr (hq ▸ hm))) ho hdp with h | ⟨w, h, ho, hlt⟩
    · exact .inl ((hr p).mpr (.inl h))
    · rcases (mem_tail hd).mp h with ⟨-, e⟩ | h
      · exact .inl ((hr p).mpr ((e ▸ ho : d.op.waits p).imp (hw p) id))
      · exact .inr ⟨w, by rw [hq]; exact h, ho, hlt⟩
  · intro t h k ps p h1 h2
    rw [hp] at h1
    exact (D.waits t h k ps p h1 h2).imp id (W k p)
  · intro t h k p h1 h2
    rw [hp] at h1
    exact W k p (D.runs t h k p h1 h2)
  · rw [hp]; exact D.pre
  · intro t p h1 h2
    refine (hr p).mpr (.inl ?_)
    rcases (hr t).mp h1 with h | h
    · exact D.rdeps t p h h2
    · exact D.head V hd (.inr h) p h2
  · intro t p h1 h2
    rw [hs] at h1
    exact (hr p).mpr (.inl (D.sdeps t p h1 h2))

theorem ord (hE : Enough deps edges S) (h : Reach deps edges H S s) : Ord deps s := by
  induction h with
  | init => constructor <;> simp [init]
  | @step s s' hr hs ih =>
    have I := inv hr
    have V := dev hr
    cases hs with
    | @call h k t hh hk hn hd hc => exact ih.move rfl rfl rfl rfl (by rw [hn]; nofun) (fun _ => hd) nofun nofun
    | @lock h k t r ht hp ha =>
      refine ih.move rfl rfl rfl rfl (by rw [hp]; nofun) (by rw [hp]; nofun) ?_ nofun
      intro h' k' ps e p hd
      cases e
      rcases hE with hE | hE
      · exact .inl (hE t p hd)
      · right
        have hpre := ih.pre t p (by rw [hp]; nofun) hd
        have hret : (s.pc p).returned = true := by cases hc : s.pc p <;> rw [hc] at hpre <;> first | rfl | cases hpre
        rcases V.subm p hret with h1 | ⟨x, c, h1, h2⟩
        · exact .inl h1
        · have e1 := I.stream p x (V.rc x c p h1 h2).1
          have e2 := I.stream t k (by rw [hp]; rfl)
          have e3 : x = k := by omega
          exact .inr ⟨c, e3 ▸ h1, .inr h2⟩
    | @wait h k t r p ps e ht hp he =>
      let s1 : State := { s with q := s.add k (.wait (s.last e)), clock := s.clock + 1 }
      have O1 : Ord deps s1 := ih.add (k := k) (o := .wait (s.last e)) rfl rfl rfl rfl V (by rintro t (h | h) <;> cases h)
      refine O1.move (t := t) (c := .waits h k ps) rfl rfl rfl rfl ?_ ?_ ?_ nofun
      · intro h; rw [show s1.pc t = s.pc t from rfl, hp] at h; cases h
      · intro h; rw [show s1.pc t = s.pc t from rfl, hp] at h; cases h
      · intro h' k' ps' e1 p' hd
        cases e1
        rcases O1.waits t h k (p :: ps) p' hp hd with h | h
        · rcases List.mem_cons.mp h with h | h
          · right
            rw [h]
            rcases I.ev p e he with h | h
            · exact .inr ⟨⟨s.clock, .wait (s.last e)⟩, mem_add.mpr (.inr ⟨rfl, rfl⟩), .inl (by rw [h])⟩
            · exact .inl h
          · exact .inl h
        · exact .inr h
    | @skip h k t r p ps ht hp he =>
      refine ih.move rfl rfl rfl rfl (by rw [hp]; nofun) (by rw [hp]; nofun) ?_ nofun
      intro h' k' ps' e1 p' hd
      cases e1
      rcases ih.waits t h k (p :: ps) p' hp hd with h | h
      · rcases List.mem_cons.mp h with h | h
        · obtain ⟨e, h1⟩ := I.evpre p' (ih.pre t p' (by rw [hp]; nofun) hd)
          rw [h, he] at h1; cases h1
        · exact .inl h
      · exact .inr h
    | @run h k t r ht hp =>
      refine ih.move rfl rfl rfl rfl (by rw [hp]; nofun) (by rw [hp]; nofun) nofun ?_
      intro h' k' e1 p hd
      cases e1
      rcases ih.waits t h k [] p hp hd with h | h
      · cases h
      · exact h
    | @launch h k t r ht hp =>
      refine ih.add (k := k) (o := .work t) rfl rfl rfl rfl V ?_
      rintro u (h | h) <;> cases h
      exact fun p hd => ih.runs t _ k p hp hd
    | @reuse h k t r e f ht hp hf =>
      let s1 : State := { s with q := s.add k (.record t), clock := s.clock + 1 }
      have O1 : Ord deps s1 := by
        refine ih.add (k := k) (o := .record t) rfl rfl rfl rfl V ?_
        rintro u (h | h) <;> cases h
        exact fun p hd => ih.runs t _ k p hp hd
      exact O1.move (t := t) (c := .set h k e) rfl rfl rfl rfl (fun _ => by rename_i h; rw [show s1.pc t = s.pc t from rfl, hp] at h; cases h)
        (fun h => by rw [show s1.pc t = s.pc t from rfl, hp] at h; cases h) nofun nofun
    | @create h k t r ht hp hf =>
      let s1 : State := { s with q := s.add k (.record t), clock := s.clock + 1 }
      have O1 : Ord deps s1 := by
        refine ih.add (k := k) (o := .record t) rfl rfl rfl rfl V ?_
        rintro u (h | h) <;> cases h
        exact fun p hd => ih.runs t _ k p hp hd
      exact O1.move (t := t) (c := .set h k s.fresh) rfl rfl rfl rfl (fun _ => by rename_i h; rw [show s1.pc t = s.pc t from rfl, hp] at h; cases h)
        (fun h => by rw [show s1.pc t = s.pc t from rfl, hp] at h; cases h) nofun nofun
    | @set h k t r e ht hp | @push h k t r e ht hp | @post h k t r e ht hp | @pop h k t r e ht hp =>
      exact ih.move rfl rfl rfl rfl (fun _ => rfl) (by rw [hp]; nofun) nofun nofun
    | @poll h k e t l hh ht ha he hq =>
      have hp := I.front ht ha he
      exact ih.move rfl rfl rfl rfl (fun _ => rfl) (by rw [hp]; nofun) nofun nofun
    | @start k n t l hq hb =>
      obtain ⟨order, waits, runs, pre, rdeps, sdeps⟩ := ih
      refine ⟨order, waits, runs, pre, rdeps, fun u p hu hd => ?_⟩
      by_cases e : u = t
      · subst e
        exact Ord.head ⟨order, waits, runs, pre, rdeps, sdeps⟩ V hq (.inl rfl) p hd
      · dsimp only at hu; rw [upd_ne _ _ e] at hu; exact sdeps u p hu hd
    | @finish k n t l hq hb => exact ih.tail V hq rfl rfl rfl (fun u => by simp) nofun
    | @record k n t l hq =>
      refine ih.tail V hq rfl rfl rfl (fun u => ?_) nofun
      dsimp only
      by_cases c : u = t
      · subst c; simp
      · rw [upd_ne _ _ c]
        simp only [Op.record.injEq]
        exact ⟨.inl, fun h => h.elim (fun h => h) (fun h => absurd h.symm c)⟩
    | @await k n r l hq hr => exact ih.tail V hq rfl rfl rfl (fun u => by simp) (fun u h => hr u (Op.wait.inj h))

end RG.Cuda
