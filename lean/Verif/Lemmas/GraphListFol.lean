import Verif.Lemmas.GraphListUsers
/-
The task graph with lock-free lists refines the task graph with atomic lists: the steps on the followers of a
post-event, and the whole.
-/
set_option linter.unusedVariables false
namespace RG.GList

open RG.Graph (Cfg Entry IPc Ph Fol Fl olderThan notDel Core Tame held holding Pushed)
open CoL (Slot Later Trav Todo First rest on pushed pushing moving removing isIter ReachP OnePush Mono mono invA invB)

variable {cfg : Cfg} {N : Nat} {g g' : Graph.State} {ent ent' : Entry → Slot} {r : Res} {l l' f f' : CoL.State}

theorem code_inj {a b : Fol} (h : code a = code b) : a = b := by
  cases a <;> cases b <;> simp only [code] at h <;> first | (congr 1; omega) | omega

theorem Inv.foll {s s' : State} (hI : Inv cfg N s) (hg : Graph.Reach cfg s'.g)
    (hU : ∀ r, UL cfg N s'.g s'.ent (s'.lk r) r (s'.l r)) (p : Nat) (hF : FL cfg N s'.g p (s'.f p))
    (h1 : ∀ q, q ≠ p → s'.f q = s.f q ∧ SameF cfg s.g s'.g (s.f q) q) : Inv cfg N s' := by
  refine ⟨hg, hU, ?_⟩
  intro q
  by_cases e : q = p
  · subst e; exact hF
  · rw [(h1 q e).1]; exact (hI.fl q).frame (h1 q e).2

/-- followers are pushed before the task is removed from all its resources -/
theorem tgt_fl (hi : Core cfg g) {t q : Nat} (h : (∃ F, target cfg g t = some (q, F)) ∨ target' g t = some q) :
    g.fl q = .idle ∨ ∃ k, g.fl q = .deleting k ∧ k < (cfg.res q).length := by
  have key : ∀ (e : Entry) r, e ∈ g.users r → g.fl e.1 = .idle ∨ ∃ k, g.fl e.1 = .deleting k ∧ k < (cfg.res e.1).length := by
    rintro ⟨a, b⟩ r he
    have h1 := hi.user_fl he
    have h2 := ((hi.histMem r a b).1 (users_hist hi he)).1
    rw [List.getElem?_eq_some_iff] at h2
    have := h2.1
    simp only at h1 ⊢
    cases hf : g.fl a with
    | idle => exact .inl rfl
    | deleting k => rw [hf] at h1; simp [notDel] at h1; exact .inr ⟨k, rfl, by omega⟩
    | notifying _ | counting | done => rw [hf] at h1; cases h1
  rcases h with ⟨F, h⟩ | h
  · unfold target at h
    split at h
    · rename_i i p rem hp
      obtain ⟨r, hr⟩ := hi.holdR t i (by rw [hp]; rfl)
      cases h
      exact key _ _ (hi.linkI _ _ _ _ _ hp hr).1
    · rename_i hp
      left
      simp only [Option.map_eq_some_iff, Prod.mk.injEq] at h
      obtain ⟨a, h1, h2, h3⟩ := h
      subst h2
      exact hi.idle_of_ph t (by rw [hp]; simp)
    · cases h
  · unfold target' at h
    split at h
    · rename_i i p rem hp
      obtain ⟨r, hr⟩ := hi.holdR t i (by rw [hp]; rfl)
      cases h
      exact key _ _ (hi.incrI _ _ _ _ _ hp hr).1
    · rename_i q' hp
      cases h
      exact .inl (hi.idle_of_ph t (by rw [hp]; simp))
    · cases h

theorem FL.idle' {p t : Nat} (h : FL cfg N g p f) (h1 : ∀ F, target cfg g t ≠ some (p, F)) (h2 : target' g t ≠ some p) :
    f.pcs (t + 1) = .idle := by
  apply Classical.byContradiction
  intro e
  rcases h.thr t e with ⟨F, a, -⟩ | ⟨a, -⟩
  · exact h1 F a
  · exact h2 a

/-- event.cpp:74, before a slot is reserved -/
theorem FL.push (hi : Core cfg g) {q t : Nat} {F : Fol} (h : FL cfg N g q f) (ht : target cfg g t = some (q, F))
    (hs : CoL.Step N (t + 1) f f') (hv : pushed (f'.pcs (t + 1)) = some (code F)) (hn : ∀ v c k, f'.pcs (t + 1) ≠ .pAsg v c k) :
    FL cfg N g q f' := by
  obtain ⟨h1, h2, h3, ⟨Q, q1, q2, q3, q4, q5⟩, h5, h6⟩ := h
  obtain ⟨e1, e2, e3, e4, e5, e6, e7, -⟩ := CoL.push_eff hs hv
  have hpc : ∀ u, u ≠ t + 1 → f'.pcs u = f.pcs u := fun u hu => CoL.pcs_frame hs hu
  have hm := mono (invA h1) hs
  have hasg : ∀ u v c k, f'.pcs u = .pAsg v c k ↔ f.pcs u = .pAsg v c k := by
    intro u v c k
    by_cases e : u = t + 1
    · subst e
      refine ⟨fun h => absurd h (hn v c k), fun h => ?_⟩
      rw [CoL.assign_eff hs h] at hv
      simp [pushed] at hv
    · rw [hpc u e]
  have hfl := tgt_fl hi (.inl ⟨F, ht⟩)
  refine ⟨h1.step hs, by rw [e3, e4]; exact h2, ?_, ⟨Q, q1, q2.imp fun h => h.mono hm, ?_, by rw [e1]; exact q4, ?_⟩, ?_, ?_⟩
  · intro u hu
    by_cases e : u = t
    · subst e; exact .inl ⟨F, ht, hv, hn⟩
    · rw [hpc (u + 1) (by omega)] at hu ⊢; exact h3 u hu
  · intro x hx
    rcases q3 x hx with a | ⟨u, a⟩
    · exact .inl (by rw [e1]; exact a)
    · exact .inr ⟨u, (hasg _ _ _ _).2 a⟩
  · intro u v c k h; exact q5 u v c k ((hasg _ _ _ _).1 h)
  · intro rem hr; rw [hr] at hfl; simp at hfl
  · intro hr; rw [hpc 0 (by omega)]; exact h6 hr

/-- event.cpp:74: a slot is reserved -/
theorem FL.slot {q t : Nat} {F : Fol} (hi : Core cfg g) (h : FL cfg N g q f) (ht : target cfg g t = some (q, F)) (ht' : target' g t = none)
    {v c k : Nat} (hs : CoL.Step N (t + 1) f f') (ha : f'.pcs (t + 1) = .pAsg v c k) {X : Ph}
    (e1 : g'.ph = upd g.ph t X) (e2 : g'.fol q = F :: g.fol q) (e3 : g'.fl = g.fl) (e4 : target' g' t = some q) :
    FL cfg N g' q f' := by
  have hfl := tgt_fl hi (.inl ⟨F, ht⟩)
  obtain ⟨h1, h2, h3, ⟨Q, q1, q2, q3, q4, q5⟩, h5, h6⟩ := h
  have hB := invB h1
  have hadd : f.pcs (t + 1) = .pAdd v c ∧ f.nxt c < N ∧ k = f.nxt c := by
    rcases CoL.asg_new hs ha with h | ⟨-, h⟩
    · rw [CoL.assign_eff hs h] at ha; simp at ha
    · exact h
  obtain ⟨hadd, hlt, rfl⟩ := hadd
  have hv : v = code F := by
    rcases h3 t (by rw [hadd]; simp) with ⟨F', a, b, -⟩ | ⟨a, -⟩
    · rw [ht] at a; cases a
      rw [hadd] at b; simpa [pushed] using b
    · rw [ht'] at a; cases a
  subst hv
  obtain ⟨f1, f2, f3, f4, f5, f6, f7, -⟩ := CoL.push_eff hs (v := code F) (by rw [ha]; rfl)
  have hpc : ∀ u, u ≠ t + 1 → f'.pcs u = f.pcs u := fun u hu => CoL.pcs_frame hs hu
  have hm := mono (invA h1) hs
  refine ⟨h1.step hs, by rw [f3, f4]; exact h2, ?_, ⟨((c, f.nxt c), F) :: Q, by simp [e2, q1], .cons ?_ (q2.imp fun h => h.mono hm),
    ?_, ?_, ?_⟩, ?_, ?_⟩
  · intro u hu
    by_cases e : u = t
    · subst e; exact .inr ⟨e4, _, _, _, ha⟩
    · rw [hpc (u + 1) (by omega)] at hu ⊢
      have hph : g'.ph u = g.ph u := by rw [e1, upd_ne _ _ e]
      rw [target_congr hph, target'_congr hph]
      exact h3 u hu
  · intro y hy
    refine (CoL.slot_later h1 hadd hlt ?_).mono hm
    rcases q3 y hy with a | ⟨u, a⟩
    · exact (hB.valLt y.1.1 y.1.2 (by rw [a]; simp)).2
    · exact (hB.asg _ _ _ _ a).2.1
  · intro x hx
    rcases List.mem_cons.1 hx with rfl | hx
    · exact .inr ⟨_, ha⟩
    · rcases q3 x hx with a | ⟨u, a⟩
      · exact .inl (by rw [f1]; exact a)
      · refine .inr ⟨u, ?_⟩
        rw [hpc u (by rintro rfl; rw [hadd] at a; cases a)]; exact a
  · intro x hx
    rw [f1] at hx
    obtain ⟨F', h⟩ := q4 x hx
    exact ⟨F', .tail _ h⟩
  · intro u v' c' k' h
    by_cases e : u = t + 1
    · subst e; rw [ha] at h; cases h; exact ⟨F, .head _⟩
    · rw [hpc u e] at h
      obtain ⟨F', h⟩ := q5 u v' c' k' h
      exact ⟨F', .tail _ h⟩
  · intro rem hr; rw [e3] at hr; rw [hr] at hfl; simp at hfl
  · intro hr; rw [hpc 0 (by omega)]; exact h6 (by rw [← e3]; exact hr)

/-- event.cpp:74: the value is stored -/
theorem FL.assign (hi : Core cfg g) {q t : Nat} (h : FL cfg N g q f) (ht : target' g t = some q)
    {v c k : Nat} (ha : f.pcs (t + 1) = .pAsg v c k) (hs : CoL.Step N (t + 1) f f') : FL cfg N g q f' := by
  have hfl := tgt_fl (cfg := cfg) hi (.inr ht)
  obtain ⟨h1, h2, h3, ⟨Q, q1, q2, q3, q4, q5⟩, h5, h6⟩ := h
  have hB := invB h1
  have hpc : ∀ u, u ≠ t + 1 → f'.pcs u = f.pcs u := fun u hu => CoL.pcs_frame hs hu
  have e := CoL.assign_eff hs ha
  have hid : f'.pcs (t + 1) = .idle := by rw [e]; simp
  refine ⟨h1.step hs, by rw [e]; exact h2, ?_, ⟨Q, q1, by rw [e]; exact q2, ?_, ?_, ?_⟩, ?_, ?_⟩
  · intro u hu
    by_cases eu : u = t
    · subst eu; exact absurd hid hu
    · rw [hpc (u + 1) (by omega)] at hu ⊢; exact h3 u hu
  · intro x hx
    by_cases ex : x.1 = (c, k)
    · left
      have hx' := q3 x hx
      rcases hx' with a | ⟨u, a⟩
      · rw [ex, (hB.asg _ _ _ _ ha).2.2] at a; cases a
      · rw [ex] at a
        have := hB.asgU _ _ _ _ _ _ a ha
        subst this
        rw [ha] at a; cases a
        rw [e, ex]; simp
    · rcases q3 x hx with a | ⟨u, a⟩
      · left; rw [e]; simpa [upd_ne _ _ ex] using a
      · refine .inr ⟨u, ?_⟩
        rw [hpc u]
        · exact a
        · rintro rfl
          rw [ha] at a; cases a
          exact ex rfl
  · intro x hx
    by_cases ex : x = (c, k)
    · subst ex; exact q5 _ _ _ _ ha
    · refine q4 x ?_
      rw [e] at hx
      simpa [upd_ne _ _ ex] using hx
  · intro u v' c' k' h
    by_cases eu : u = t + 1
    · subst eu; rw [hid] at h; cases h
    · rw [hpc u eu] at h; exact q5 u v' c' k' h
  · intro rem hr; rw [hr] at hfl; simp at hfl
  · intro hr; rw [hpc 0 (by omega)]; exact h6 hr

theorem Inv.fpush (ht : Tame cfg) {s : State} (hI : Inv cfg N s) {t q : Nat} {F : Fol} {f' : CoL.State}
    (h : target cfg s.g t = some (q, F)) (hs : CoL.Step N (t + 1) (s.f q) f')
    (hv : CoL.pushed (f'.pcs (t + 1)) = some (code F)) (hn : ∀ v c k, f'.pcs (t + 1) ≠ .pAsg v c k) :
    Inv cfg N { s with f := upd s.f q f' } := by
  refine hI.foll hI.reach hI.ul q ?_ fun p hp => ⟨upd_ne _ _ hp, .refl _ _ _ _⟩
  simp only [upd_same]
  exact (hI.fl q).push (Core.reach ht hI.reach) h hs hv hn

theorem Inv.fassign (ht : Tame cfg) {s : State} (hI : Inv cfg N s) {t q : Nat} {f' : CoL.State} {v c k : Nat}
    (h : target' s.g t = some q) (ha : (s.f q).pcs (t + 1) = .pAsg v c k)
    (hs : CoL.Step N (t + 1) (s.f q) f') : Inv cfg N { s with f := upd s.f q f' } := by
  refine hI.foll hI.reach hI.ul q ?_ fun p hp => ⟨upd_ne _ _ hp, .refl _ _ _ _⟩
  simp only [upd_same]
  exact (hI.fl q).assign (Core.reach ht hI.reach) h ha hs

theorem Inv.link (ht : Tame cfg) {s : State} (hI : Inv cfg N s) {t i : Nat} {p : Entry} {rem : List Entry} {f' : CoL.State} {v c k : Nat}
    (h : s.g.ph t = .initing (.link i p rem)) (hs : CoL.Step N (t + 1) (s.f p.1) f') (ha : f'.pcs (t + 1) = .pAsg v c k) :
    Inv cfg N { s with
        g := { s.g with
          ph := upd s.g.ph t (.initing (.incr i p rem))
          fol := upd s.g.fol p.1 (.pre t :: s.g.fol p.1)
          pnd := upd s.g.pnd p.1 (.pre t :: s.g.pnd p.1) }
        f := upd s.f p.1 f' } := by
  have hi := Core.reach ht hI.reach
  obtain ⟨r, hr⟩ := hi.holdR t i (by rw [h]; rfl)
  obtain ⟨hlk, L, hT, hR⟩ := (hI.ul r).crit.of_held hi (i := i) (by rw [h]; rfl) hr
  have hst := Graph.Step.link (cfg := cfg) h
  refine hI.foll (hI.reach.step hst) ?_ p.1 ?_ ?_
  · refine hI.stay (P := .initing (.incr i p rem)) ht hr (by rw [h]; rfl) hlk hst ?_ ?_ ?_ ?_ ?_ hT ?_ <;> try rfl
    rw [h] at hR; exact hR
  · simp only [upd_same]
    refine (hI.fl p.1).slot (X := .initing (.incr i p rem)) (F := .pre t) hi (by simp [target, h]) (by simp [target', h]) hs ha
      rfl (by simp) rfl (by simp [target'])
  · intro q hq
    refine ⟨upd_ne _ _ hq, SameF.step (X := .initing (.incr i p rem)) (by simp [upd_ne _ _ hq]) (fun _ => .rfl) rfl (.inl ?_)⟩
    refine (hI.fl q).idle' ?_ (by simp [target', h])
    intro F; simp only [target, h]
    intro e; cases e; exact hq rfl

theorem Inv.parentPush (ht : Tame cfg) {s : State} (hI : Inv cfg N s) {t q : Nat} {f' : CoL.State} {v c k : Nat}
    (h : s.g.ph t = .initing .parent) (hp : cfg.parentOf t = some q)
    (hs : CoL.Step N (t + 1) (s.f t) f') (ha : f'.pcs (t + 1) = .pAsg v c k) :
    Inv cfg N { s with
        g := { s.g with
          ph := upd s.g.ph t (.initing (.pincr q))
          fol := upd s.g.fol t (.post q :: s.g.fol t)
          pnd := upd s.g.pnd t (.post q :: s.g.pnd t) }
        f := upd s.f t f' } := by
  have hi := Core.reach ht hI.reach
  refine hI.foll (hI.reach.step (.parentPush h hp)) ?_ t ?_ ?_
  · intro r
    refine (hI.ul r).frame hi ⟨rfl, rfl, rfl, fun _ _ => rfl, ?_, fun _ _ => rfl⟩
    intro u i hu _
    by_cases e : u = t
    · subst e; rw [h] at hu; cases hu
    · exact upd_ne _ _ e
  · simp only [upd_same]
    exact (hI.fl t).slot (X := .initing (.pincr q)) (F := .post q) hi (by simp [target, h, hp]) (by simp [target', h]) hs ha
      rfl (by simp) rfl (by simp [target'])
  · intro p hq
    refine ⟨upd_ne _ _ hq, SameF.step (X := .initing (.pincr q)) (by simp [upd_ne _ _ hq]) (fun _ => .rfl) rfl (.inl ?_)⟩
    refine (hI.fl p).idle' ?_ (by simp [target', h])
    intro F; simp only [target, h, hp]
    intro e; simp at e; exact hq e.1.symm

theorem Inv.parentIncr (ht : Tame cfg) {s : State} (hI : Inv cfg N s) {t q : Nat} (h : s.g.ph t = .initing (.pincr q))
    (hd : (s.f t).pcs (t + 1) = .idle) :
    Inv cfg N { s with
        g := { s.g with ph := upd s.g.ph t (.initing .final), post := upd s.g.post q (s.g.post q + 1) } } := by
  have hi := Core.reach ht hI.reach
  refine ⟨hI.reach.step (.parentIncr h), ?_, ?_⟩
  · intro r
    refine (hI.ul r).frame hi ⟨rfl, rfl, rfl, fun _ _ => rfl, ?_, fun _ _ => rfl⟩
    intro u i hu _
    by_cases e : u = t
    · subst e; rw [h] at hu; cases hu
    · exact upd_ne _ _ e
  · intro p
    refine (hI.fl p).frame (SameF.step (X := .initing .final) rfl (fun _ => .rfl) rfl (.inl ?_))
    by_cases e : p = t
    · subst e; exact hd
    · refine (hI.fl p).idle' (by simp [target, h]) ?_
      simp only [target', h]
      intro e'; cases e'; exact e rfl

theorem Inv.incr (ht : Tame cfg) (hN : 0 < N) {s : State} (hI : Inv cfg N s) {t i : Nat} {p : Entry} {rem : List Entry} {r : Res} {l' : CoL.State}
    (h : s.g.ph t = .initing (.incr i p rem)) (hr : (cfg.res t)[i]? = some r)
    (hd : (s.f p.1).pcs (t + 1) = .idle) (ha : if cfg.sync p.1 r then l' = s.l r else Adv N (s.l r) l') :
    Inv cfg N { s with
        g := { s.g with
          ph := upd s.g.ph t (.initing (if cfg.sync p.1 r then .unlock i else .scan i rem))
          pre := upd s.g.pre t (s.g.pre t + 1) }
        l := upd s.l r l' } := by
  have hi := Core.reach ht hI.reach
  obtain ⟨hlk, L, hT, hR⟩ := (hI.ul r).crit.of_held hi (i := i) (by rw [h]; rfl) hr
  rw [h] at hR
  obtain ⟨-, ho, hR⟩ := hR
  have hst := Graph.Step.incr (cfg := cfg) h hr
  refine ⟨hI.reach.step hst, ?_, ?_⟩
  · cases hsy : cfg.sync p.1 r with
    | true =>
      rw [hsy, if_pos rfl] at ha
      subst ha
      rw [hsy] at hst
      have : upd s.l r (s.l r) = s.l := by
        funext x; by_cases e : x = r
        · subst e; simp
        · rw [upd_ne _ _ e]
      simp only [this]
      refine hI.stay (P := .initing (.unlock i)) ht hr (by rw [h]; rfl) hlk hst ?_ ?_ ?_ ?_ ?_ hT ?_ <;> try rfl
      exact ⟨rfl, .inl (by rw [ho]; rfl)⟩
    | false =>
      simp only [hsy, Bool.false_eq_true, if_false] at ha hst ⊢
      refine hI.advance (rem := rem) ht hN hr (by rw [h]; rfl) hlk hst ?_ ?_ ?_ ?_ ?_ hT hR ha <;> try rfl
  · intro q
    refine (hI.fl q).frame (SameF.step (X := .initing (if cfg.sync p.1 r then .unlock i else .scan i rem)) rfl (fun _ => .rfl) rfl (.inl ?_))
    by_cases e : q = p.1
    · subst e; exact hd
    · refine (hI.fl q).idle' (by simp [target, h]) ?_
      simp only [target', h]
      intro e'; cases e'; exact e rfl

/-! ### graph.cpp:58-71 -/

theorem upd_self {α β} [DecidableEq α] (f : α → β) (a : α) : upd f a (f a) = f := by
  funext x; by_cases e : x = a
  · subst e; simp
  · rw [upd_ne _ _ e]

theorem Inv.scanParent (ht : Tame cfg) {s : State} (hI : Inv cfg N s) {t i : Nat} {rem : List Entry} {r : Res} {x : Slot} {p : Nat}
    (h : s.g.ph t = .initing (.scan i rem)) (hr : (cfg.res t)[i]? = some r)
    (ho : CoL.on ((s.l r).pcs 0) = some x) (hv : (s.l r).val x = some p) (hp : cfg.parentOf t = some p) :
    Inv cfg N { s with g := { s.g with ph := upd s.g.ph t (.initing (.unlock i)) } } := by
  have hi := Core.reach ht hI.reach
  obtain ⟨hlk, L, hT, hR⟩ := (hI.ul r).crit.of_held hi (i := i) (by rw [h]; rfl) hr
  obtain ⟨h1, h2, h3⟩ := hR.scan hi (hI.ul r) h hr ho hv
  have hst := Graph.Step.scanParent (cfg := cfg) h1 hp
  refine ⟨hI.reach.step hst, ?_, fun q => (hI.fl q).frame (SameF.step rfl (fun _ => .rfl) rfl (.inr ⟨by simp [target, h], by simp [target', h]⟩))⟩
  refine hI.stay (P := .initing (.unlock i)) ht hr (by rw [h]; rfl) hlk hst ?_ ?_ ?_ ?_ ?_ hT ?_ <;> try rfl
  exact ⟨rfl, .inl (by rw [ho]; rfl)⟩

theorem Inv.scanSkip (ht : Tame cfg) (hN : 0 < N) {s : State} (hI : Inv cfg N s) {t i : Nat} {rem : List Entry} {r : Res} {x : Slot} {p : Nat} {l' : CoL.State}
    (h : s.g.ph t = .initing (.scan i rem)) (hr : (cfg.res t)[i]? = some r)
    (ho : CoL.on ((s.l r).pcs 0) = some x) (hv : (s.l r).val x = some p) (hp : cfg.parentOf t ≠ some p)
    (hc : ¬ (cfg.space p = cfg.space t ∧ cfg.serial p t = true)) (ha : Adv N (s.l r) l') :
    Inv cfg N { s with
        g := { s.g with ph := upd s.g.ph t (.initing (.scan i rem.tail)) }
        l := upd s.l r l' } := by
  have hi := Core.reach ht hI.reach
  obtain ⟨hlk, L, hT, hR⟩ := (hI.ul r).crit.of_held hi (i := i) (by rw [h]; rfl) hr
  obtain ⟨h1, h2, h3⟩ := hR.scan hi (hI.ul r) h hr ho hv
  have hst := Graph.Step.scanSkip (cfg := cfg) h1 hp hc
  refine ⟨hI.reach.step hst, ?_, fun q => (hI.fl q).frame (SameF.step rfl (fun _ => .rfl) rfl (.inr ⟨by simp [target, h], by simp [target', h]⟩))⟩
  refine hI.advance (rem := rem.tail) ht hN hr (by rw [h]; rfl) hlk hst ?_ ?_ ?_ ?_ ?_ hT h3 ha <;> rfl

theorem Inv.scanReached (ht : Tame cfg) (hN : 0 < N) {s : State} (hI : Inv cfg N s) {t i : Nat} {rem : List Entry} {r : Res} {x : Slot} {p : Nat} {l' : CoL.State}
    (h : s.g.ph t = .initing (.scan i rem)) (hr : (cfg.res t)[i]? = some r)
    (ho : CoL.on ((s.l r).pcs 0) = some x) (hv : (s.l r).val x = some p) (hp : cfg.parentOf t ≠ some p)
    (hc : cfg.space p = cfg.space t ∧ cfg.serial p t = true) (h0 : s.g.post p = 0)
    (ha : if cfg.sync p r then l' = s.l r else Adv N (s.l r) l') :
    Inv cfg N { s with
        g := { s.g with ph := upd s.g.ph t (.initing (if cfg.sync p r then .unlock i else .scan i rem.tail)) }
        l := upd s.l r l' } := by
  have hi := Core.reach ht hI.reach
  obtain ⟨hlk, L, hT, hR⟩ := (hI.ul r).crit.of_held hi (i := i) (by rw [h]; rfl) hr
  obtain ⟨h1, h2, h3⟩ := hR.scan hi (hI.ul r) h hr ho hv
  have hst := Graph.Step.scanReached (cfg := cfg) h1 hr hp hc h0
  refine ⟨hI.reach.step hst, ?_, fun q => (hI.fl q).frame (SameF.step rfl (fun _ => .rfl) rfl (.inr ⟨by simp [target, h], by simp [target', h]⟩))⟩
  have hsy' : ∀ b, cfg.sync p r = b → cfg.sync (entry p rem).1 r = b := fun _ h => h
  cases hsy : cfg.sync p r with
  | true =>
    rw [hsy, if_pos rfl] at ha
    subst ha
    rw [hsy' _ hsy] at hst
    simp only [upd_self]
    refine hI.stay (P := .initing (.unlock i)) ht hr (by rw [h]; rfl) hlk hst ?_ ?_ ?_ ?_ ?_ hT ?_ <;> try rfl
    exact ⟨rfl, .inl (by rw [ho]; rfl)⟩
  | false =>
    rw [hsy' _ hsy] at hst
    simp only [hsy, Bool.false_eq_true, if_false] at ha hst ⊢
    refine hI.advance (rem := rem.tail) ht hN hr (by rw [h]; rfl) hlk hst ?_ ?_ ?_ ?_ ?_ hT h3 ha <;> rfl

theorem Inv.scanLink (ht : Tame cfg) {s : State} (hI : Inv cfg N s) {t i : Nat} {rem : List Entry} {r : Res} {x : Slot} {p : Nat}
    (h : s.g.ph t = .initing (.scan i rem)) (hr : (cfg.res t)[i]? = some r)
    (ho : CoL.on ((s.l r).pcs 0) = some x) (hv : (s.l r).val x = some p) (hp : cfg.parentOf t ≠ some p)
    (hc : cfg.space p = cfg.space t ∧ cfg.serial p t = true) (h0 : s.g.post p ≠ 0) :
    Inv cfg N { s with g := { s.g with ph := upd s.g.ph t (.initing (.link i (entry p rem) rem.tail)) } } := by
  have hi := Core.reach ht hI.reach
  obtain ⟨hlk, L, hT, hR⟩ := (hI.ul r).crit.of_held hi (i := i) (by rw [h]; rfl) hr
  obtain ⟨h1, h2, h3⟩ := hR.scan hi (hI.ul r) h hr ho hv
  have hst := Graph.Step.scanLink (cfg := cfg) h1 hp hc h0
  refine ⟨hI.reach.step hst, ?_, fun q => (hI.fl q).frame (SameF.step rfl (fun _ => .rfl) rfl (.inr ⟨by simp [target, h], by simp [target', h]⟩))⟩
  refine hI.stay (P := .initing (.link i (entry p rem) rem.tail)) ht hr (by rw [h]; rfl) hlk hst ?_ ?_ ?_ ?_ ?_ hT ?_ <;> try rfl
  exact ⟨rfl, h2, h3⟩

theorem Inv.scanEnd (ht : Tame cfg) (hN : 0 < N) {s : State} (hI : Inv cfg N s) {t i : Nat} {rem : List Entry} {r : Res}
    (h : s.g.ph t = .initing (.scan i rem)) (hr : (cfg.res t)[i]? = some r) (he : (s.l r).pcs 0 = .iEnd) :
    Inv cfg N { s with g := { s.g with ph := upd s.g.ph t (.initing (.unlock i)) } } := by
  have hi := Core.reach ht hI.reach
  obtain ⟨hlk, L, hT, hR⟩ := (hI.ul r).crit.of_held hi (i := i) (by rw [h]; rfl) hr
  have hrem : rem = [] := by
    rw [h] at hR
    have := hR.2
    unfold front at this
    rw [he, hT.ended hN (hI.ul r).reach.reach he] at this
    simpa [on] using this
  subst hrem
  have hst := Graph.Step.scanEnd (cfg := cfg) h
  refine ⟨hI.reach.step hst, ?_, fun q => (hI.fl q).frame (SameF.step rfl (fun _ => .rfl) rfl (.inr ⟨by simp [target, h], by simp [target', h]⟩))⟩
  refine hI.stay (P := .initing (.unlock i)) ht hr (by rw [h]; rfl) hlk hst ?_ ?_ ?_ ?_ ?_ hT ?_ <;> try rfl
  exact ⟨rfl, .inr he⟩

/-! ### event.cpp:91-92 -/

/-- nothing is pushed while the followers are notified -/
theorem FL.quiet (hi : Core cfg g) {p : Nat} (h : FL cfg N g p f) (h1 : g.fl p ≠ .idle)
    (h2 : ∀ k, g.fl p = .deleting k → (cfg.res p).length ≤ k) (t : Nat) : f.pcs (t + 1) = .idle := by
  apply Classical.byContradiction
  intro e
  have : (∃ F, target cfg g t = some (p, F)) ∨ target' g t = some p := by
    rcases h.thr t e with ⟨F, a, -⟩ | ⟨a, -⟩
    · exact .inl ⟨F, a⟩
    · exact .inr a
  rcases tgt_fl hi this with h' | ⟨k, h', h''⟩
  · exact h1 h'
  · have := h2 k h'; omega

/-- only `fl` changes -/
theorem Inv.notify (ht : Tame cfg) {s : State} (hI : Inv cfg N s) {p : Nat} {f' : CoL.State} {g' : Graph.State} {lb : Graph.Lbl}
    (hst : Graph.Step cfg lb s.g g') (e1 : g'.ph = s.g.ph) (e2 : g'.hist = s.g.hist) (e3 : g'.users = s.g.users)
    (e4 : g'.lock = s.g.lock) (e5 : g'.fol = s.g.fol)
    (e6 : ∀ t i, i < (cfg.res t).length → notDel (g'.fl t) i = notDel (s.g.fl t) i)
    (e7 : ∀ t, t ≠ p → ∀ rem, g'.fl t = .notifying rem ↔ s.g.fl t = .notifying rem)
    (hF : FL cfg N g' p f') : Inv cfg N { s with g := g', f := upd s.f p f' } := by
  have hi := Core.reach ht hI.reach
  refine hI.foll (hI.reach.step hst) ?_ p (by simpa using hF) ?_
  · intro r
    refine (hI.ul r).frame hi ⟨by rw [e2], by rw [e3], by rw [e4], ?_, fun t i _ _ => by rw [e1], fun _ _ => rfl⟩
    rintro ⟨t, i⟩ he
    have := ((hi.histMem r t i).1 he).1
    rw [List.getElem?_eq_some_iff] at this
    exact e6 t i this.1
  · intro q hq
    refine ⟨upd_ne _ _ hq, by rw [e5], e7 q hq, fun t F _ h => ?_, fun t _ h => ?_⟩
    · rw [target_congr (g := s.g) (by rw [e1])]; exact h
    · rw [target'_congr (g := s.g) (by rw [e1])]; exact h

theorem rest_nil (L : List Slot) : rest L [] = L := by
  unfold rest; rw [List.filter_eq_self]; simp

theorem Inv.notifyBegin (ht : Tame cfg) (hN : 0 < N) {s : State} (hI : Inv cfg N s) {t i : Nat} {f' : CoL.State}
    (h : s.g.fl t = .deleting i) (hr : i = (cfg.res t).length)
    (h0 : (s.f t).pcs 0 = .idle) (hs : CoL.Step N 0 (s.f t) f')
    (h1 : f'.pcs 0 = .iEnd ∨ ∃ c, f'.pcs 0 = .iLast c) :
    Inv cfg N { s with
        g := { s.g with fl := upd s.g.fl t (.notifying (s.g.fol t)) }
        f := upd s.f t f' } := by
  have hi := Core.reach ht hI.reach
  have hq := (hI.fl t).quiet hi (by rw [h]; simp) (by intro k hk; rw [h] at hk; cases hk; omega)
  have hidle : ∀ u, (s.f t).pcs u = .idle := by
    intro u; cases u with
    | zero => exact h0
    | succ u => exact hq u
  refine hI.notify ht (.deleteEnd h hr) rfl rfl rfl rfl rfl ?_ ?_ ?_
  · intro u j hj
    by_cases e : u = t
    · subst e; simp only [upd_same, h, notDel]; simp; omega
    · simp only [upd_ne _ _ e]
  · intro u hu rem; simp only [upd_ne _ _ hu]
  · obtain ⟨k1, k2, k3, ⟨Q, q1, q2, q3, q4, q5⟩, k5, k6⟩ := hI.fl t
    have hm := mono (invA k1) hs
    have hval : ∀ q ∈ Q, (s.f t).val q.1 = some (code q.2) := by
      intro q hq
      rcases q3 q hq with a | ⟨u, a⟩
      · exact a
      · rw [hidle u] at a; cases a
    obtain ⟨hT, hseen⟩ := Trav.begin (L := Q.map (·.1)) k1 hs h0 h1 (by rw [List.pairwise_map]; exact q2)
      (by
        intro y hy
        obtain ⟨q, hq, rfl⟩ := List.mem_map.1 hy
        rw [hval q hq]; simp)
      (fun y _ => (k2 y).1) (fun y _ => (k2 y).2)
      (by
        intro y hy _
        obtain ⟨F, hF⟩ := q4 y hy
        exact List.mem_map.2 ⟨_, hF, rfl⟩)
      (by intro u; rw [hidle u]; rfl)
    have heff : f'.val = (s.f t).val ∧ f'.removed = (s.f t).removed ∧ f'.hid = (s.f t).hid := by
      cases hs with
      | begin | beginNull => exact ⟨rfl, rfl, rfl⟩
      | _ => simp_all [CoL.pos, on]
    obtain ⟨v1, v2, v3⟩ := heff
    have hpc : ∀ u, f'.pcs (u + 1) = .idle := fun u => by rw [CoL.pcs_frame hs (by omega)]; exact hq u
    refine ⟨k1.step hs, by rw [v2, v3]; exact k2, fun u hu => absurd (hpc u) hu,
      ⟨Q, q1, q2.imp fun h => h.mono hm, fun q hq => .inl (by rw [v1]; exact hval q hq), by rw [v1]; exact q4, ?_⟩, ?_, ?_⟩
    · intro u v c k hu
      exfalso
      cases u with
      | zero => rcases h1 with h1 | ⟨c, h1⟩ <;> rw [h1] at hu <;> cases hu
      | succ u => rw [hpc u] at hu; cases hu
    · intro rem hrem
      simp only [upd_same, Fl.notifying.injEq] at hrem
      refine ⟨_, hT, Q, by rw [v1]; exact hval, by rw [q1, hrem], ?_⟩
      rw [hseen, rest_nil]
      unfold front
      rcases h1 with h1 | ⟨c, h1⟩ <;> rw [h1] <;> rfl
    · intro hn; exact absurd (upd_same _ _ _) (hn _)

theorem FL.no_rm {p : Nat} (h : FL cfg N g p f) (h0 : isIter (f.pcs 0) = true) (u : Nat) : CoL.rm (f.pcs u) = none := by
  cases u with
  | zero => revert h0; cases f.pcs 0 <;> simp [isIter, CoL.rm]
  | succ t =>
    by_cases e : f.pcs (t + 1) = .idle
    · rw [e]; rfl
    · rcases h.thr t e with ⟨F, -, b, -⟩ | ⟨-, v, c, k, b⟩
      · revert b; cases f.pcs (t + 1) <;> simp [pushed, CoL.rm]
      · rw [b]; rfl

/-- thread 0 makes a step of its iteration -/
theorem FL.iter {p : Nat} {rem : List Fol} (h : FL cfg N g p f) (e1 : g'.ph = g.ph) (e2 : g'.fol p = g.fol p) (hfl : g'.fl p = .notifying rem)
    (hs : CoL.Step N 0 f f') (h0 : isIter (f.pcs 0) = true) (h0' : isIter (f'.pcs 0) = true)
    (h1 : ∃ L, Trav f' 0 [] L ∧ ∃ R : List (Slot × Fol),
      (∀ q ∈ R, f.val q.1 = some (code q.2)) ∧ R.map (·.2) = rem ∧ R.map (·.1) = front (f'.pcs 0) (rest L (f'.seen 0))) :
    FL cfg N g' p f' := by
  obtain ⟨k1, k2, k3, ⟨Q, q1, q2, q3, q4, q5⟩, k5, k6⟩ := h
  obtain ⟨f1, f2, f3, f4, f5, f6, f7, f8, -⟩ := CoL.iter_eff (invA k1) h0 hs h0'
  have hm := mono (invA k1) hs
  have hpc : ∀ u, u ≠ 0 → f'.pcs u = f.pcs u := fun u hu => CoL.pcs_frame hs hu
  refine ⟨k1.step hs, by rw [f1, f2]; exact k2, ?_, ⟨Q, by rw [e2]; exact q1, q2.imp fun h => h.mono hm, ?_, by rw [f3]; exact q4, ?_⟩, ?_, ?_⟩
  · intro t ht
    rw [hpc (t + 1) (by omega)] at ht ⊢
    rw [target_congr (g := g) (by rw [e1]), target'_congr (g := g) (by rw [e1])]
    exact k3 t ht
  · intro q hq
    rcases q3 q hq with a | ⟨u, a⟩
    · exact .inl (by rw [f3]; exact a)
    · refine .inr ⟨u, ?_⟩
      rw [hpc u (by rintro rfl; rw [a] at h0; cases h0)]; exact a
  · intro u v c k hu
    by_cases e : u = 0
    · subst e; rw [hu] at h0'; cases h0'
    · rw [hpc u e] at hu; exact q5 u v c k hu
  · intro rem' hrem
    rw [hfl] at hrem; cases hrem
    rw [f3]
    exact h1
  · intro hn; exact absurd hfl (hn _)

theorem Inv.notifyMove (ht : Tame cfg) (hN : 0 < N) {s : State} (hI : Inv cfg N s) {t : Nat} {rem : List Fol} {f' : CoL.State}
    (h : s.g.fl t = .notifying rem) (hm : CoL.moving ((s.f t).pcs 0) = true)
    (hs : CoL.Step N 0 (s.f t) f') : Inv cfg N { s with f := upd s.f t f' } := by
  have hF := hI.fl t
  obtain ⟨m1, m2, m3, m4⟩ := moving_on hm
  obtain ⟨L, hT, R, r1, r2, r3⟩ := hF.ntf rem h
  obtain ⟨hT', hh⟩ := hT.move hN hF.reach hm (hF.no_rm m3) hs
  refine hI.foll hI.reach hI.ul t ?_ fun p hp => ⟨upd_ne _ _ hp, .refl _ _ _ _⟩
  simp only [upd_same]
  refine hF.iter rfl rfl h hs m3 hT'.it ⟨L, hT', R, r1, r2, ?_⟩
  rw [r3]
  unfold front
  rw [m1]
  rcases hh with ⟨k1, k2⟩ | ⟨x, k1, k2, k3⟩
  · rw [k1, k2]
  · rw [k1, k3]

theorem FL.head {p : Nat} {rem : List Fol} {x : Slot} {F : Fol} (h : FL cfg N g p f) (hf : g.fl p = .notifying rem)
    (ho : on (f.pcs 0) = some x) (hv : f.val x = some (code F)) : g.fl p = .notifying (F :: rem.tail) := by
  obtain ⟨L, hT, R, r1, r2, r3⟩ := h.ntf rem hf
  unfold front at r3
  rw [ho] at r3
  cases R with
  | nil => cases r3
  | cons q R =>
    simp only [List.map_cons, List.cons.injEq] at r3
    have hq := r1 q (.head _)
    rw [r3.1, hv] at hq
    have hF : F = q.2 := code_inj (by simpa using hq)
    subst hF
    subst r2
    exact hf

/-- event.cpp:92: the follower the iterator points to -/
theorem FL.cur {p : Nat} {rem : List Fol} {x : Slot} {F : Fol} (hN : 0 < N) (h : FL cfg N g p f) (hf : g.fl p = .notifying rem) (ho : on (f.pcs 0) = some x)
    (hv : f.val x = some (code F)) (ha : Adv N f f') :
    g.fl p = .notifying (F :: rem.tail) ∧ isIter (f.pcs 0) = true ∧ isIter (f'.pcs 0) = true ∧ ∃ L, Trav f' 0 [] L ∧ ∃ R : List (Slot × Fol),
      (∀ q ∈ R, f.val q.1 = some (code q.2)) ∧ R.map (·.2) = rem.tail ∧ R.map (·.1) = front (f'.pcs 0) (rest L (f'.seen 0)) := by
  obtain ⟨L, hT, R, r1, r2, r3⟩ := h.ntf rem hf
  obtain ⟨a1, a2, a3⟩ := ha
  obtain ⟨hT', k1, k2⟩ := hT.adv hN h.reach ho a1 a3
  unfold front at r3
  rw [ho] at r3
  cases R with
  | nil => cases r3
  | cons q R =>
    simp only [List.map_cons, List.cons.injEq] at r3
    have hq := r1 q (.head _)
    rw [r3.1, hv] at hq
    have hF : F = q.2 := code_inj (by simpa using hq)
    subst hF
    subst r2
    refine ⟨hf, hT.it, a3, L, hT', R, fun q hq => r1 q (.tail _ hq), rfl, ?_⟩
    unfold front
    rw [(moving_on k2).1, k1]
    exact r3.2

theorem Inv.notifyPre (ht : Tame cfg) (hN : 0 < N) {s : State} (hI : Inv cfg N s) {p t : Nat} {rem : List Fol} {x : Slot} {f' : CoL.State}
    (h : s.g.fl p = .notifying rem) (ho : CoL.on ((s.f p).pcs 0) = some x)
    (hv : (s.f p).val x = some (code (.pre t))) (ha : Adv N (s.f p) f') :
    Inv cfg N { s with
        g := Graph.State.decPre { s.g with fl := upd s.g.fl p (.notifying rem.tail), pnd := upd s.g.pnd p (s.g.pnd p).tail } t
        f := upd s.f p f' } := by
  obtain ⟨k1, k2, k3, k4⟩ := (hI.fl p).cur hN h ho hv ha
  refine hI.notify ht (.notifyPre k1) rfl rfl rfl rfl rfl ?_ ?_ ?_
  · intro u j hj
    by_cases e : u = p
    · subst e; simp [Graph.State.decPre, h, notDel]
    · simp only [Graph.State.decPre, upd_ne _ _ e]
  · intro u hu rem; simp only [Graph.State.decPre, upd_ne _ _ hu]
  · exact (hI.fl p).iter (rem := rem.tail) rfl rfl (by simp [Graph.State.decPre]) ha.1 k2 k3 k4

theorem Inv.notifyPost (ht : Tame cfg) (hN : 0 < N) {s : State} (hI : Inv cfg N s) {p q : Nat} {rem : List Fol} {x : Slot} {f' : CoL.State}
    (h : s.g.fl p = .notifying rem) (ho : CoL.on ((s.f p).pcs 0) = some x)
    (hv : (s.f p).val x = some (code (.post q))) (ha : Adv N (s.f p) f') :
    Inv cfg N { s with
        g := Graph.State.decPost { s.g with fl := upd s.g.fl p (.notifying rem.tail), pnd := upd s.g.pnd p (s.g.pnd p).tail } q
        f := upd s.f p f' } := by
  have hi := Core.reach ht hI.reach
  obtain ⟨k1, k2, k3, k4⟩ := (hI.fl p).cur hN h ho hv ha
  have hp : s.g.post p ≠ 1 := by
    intro e; rw [hi.flPost' p e] at h; cases h
  have hq := hi.flPost' q
  refine hI.notify ht (.notifyPost k1) rfl rfl rfl rfl rfl ?_ ?_ ?_
  · intro u j hj
    simp only [Graph.State.decPost, upd]
    split
    · rename_i e; subst e
      split
      · rename_i e; rw [hq e]; simp [notDel]
      · split
        · rename_i e; subst e; simp [h, notDel]
        · rfl
    · split
      · rename_i e; subst e; simp [h, notDel]
      · rfl
  · intro u hu rem
    simp only [Graph.State.decPost, upd, if_neg hu]
    split
    · rename_i e; subst e
      rw [if_neg hu]
      split
      · rename_i e; rw [hq e]; simp
      · exact .rfl
    · exact .rfl
  · refine (hI.fl p).iter (rem := rem.tail) rfl rfl ?_ ha.1 k2 k3 k4
    simp only [Graph.State.decPost, upd]
    split
    · rename_i e; subst e; rw [if_neg hp]; simp
    · simp

theorem Inv.notifyEnd (ht : Tame cfg) (hN : 0 < N) {s : State} (hI : Inv cfg N s) {t : Nat} {rem : List Fol} {f' : CoL.State}
    (h : s.g.fl t = .notifying rem) (he : (s.f t).pcs 0 = .iEnd) (hs : CoL.Step N 0 (s.f t) f')
    (hd : f'.pcs 0 = .idle) :
    Inv cfg N { s with
        g := { s.g with fl := upd s.g.fl t .counting }
        f := upd s.f t f' } := by
  have hF := hI.fl t
  obtain ⟨L, hT, R, r1, r2, r3⟩ := hF.ntf rem h
  have hR : R = [] := by
    unfold front at r3
    rw [he, hT.ended hN hF.reach he] at r3
    simpa [on] using r3
  subst hR
  subst r2
  refine hI.notify ht (.notifyEnd h) rfl rfl rfl rfl rfl ?_ ?_ ?_
  · intro u j hj
    by_cases e : u = t
    · subst e; simp [h, notDel]
    · simp only [upd_ne _ _ e]
  · intro u hu rem; simp only [upd_ne _ _ hu]
  · obtain ⟨k1, k2, k3, ⟨Q, q1, q2, q3, q4, q5⟩, k5, k6⟩ := hF
    obtain ⟨f1, f2, f3, -, f5, f6⟩ := CoL.stop_eff hs hT.it hd
    have hm := mono (invA k1) hs
    have hpc : ∀ u, u ≠ 0 → f'.pcs u = (s.f t).pcs u := fun u hu => CoL.pcs_frame hs hu
    refine ⟨k1.step hs, by rw [f1, f5]; exact k2, ?_, ⟨Q, q1, q2.imp fun h => h.mono hm, ?_, by rw [f2]; exact q4, ?_⟩, ?_, fun _ => hd⟩
    · intro u hu
      rw [hpc (u + 1) (by omega)] at hu ⊢
      exact k3 u hu
    · intro q hq
      rcases q3 q hq with a | ⟨u, a⟩
      · exact .inl (by rw [f2]; exact a)
      · refine .inr ⟨u, ?_⟩
        rw [hpc u (by rintro rfl; rw [a] at he; cases he)]; exact a
    · intro u v c k hu
      by_cases e : u = 0
      · subst e; rw [hd] at hu; cases hu
      · rw [hpc u e] at hu; exact q5 u v c k hu
    · intro rem' hrem; simp at hrem

/-! ### The whole -/

theorem Inv.init : Inv cfg N init := by
  refine ⟨.init, fun r => ⟨.init, rfl, (by intro e he; cases he), (by intro t h; exact absurd rfl h), .free rfl rfl⟩,
    fun p => ⟨.init, fun x => ⟨rfl, rfl⟩, (by intro t h; exact absurd rfl h), ⟨[], rfl, .nil, by simp, ?_, ?_⟩, ?_, fun _ => rfl⟩⟩
  · intro x hx; exact absurd rfl hx
  · intro u v c k h; cases h
  · intro rem h; cases h

theorem Inv.step (ht : Tame cfg) (hN : 0 < N) {s s' : State} (hI : Inv cfg N s) (h : Step cfg N true s s') : Inv cfg N s' := by
  cases h with
  | other h hp hf => exact hI.other ht h hp hf
  | push h hr hs hv hx => exact hI.push ht h hr hs hv (hx rfl)
  | assign h hr ha hs => exact hI.assign ht h hr ha hs
  | lock h hr hl h0 hs h1 => exact hI.lock ht hN h hr hl h0 hs h1
  | move hl hm hs => exact hI.move ht hN hl hm hs
  | first h hr hl ha => exact hI.first ht hN h hr hl ha
  | scanParent h hr ho hv hp => exact hI.scanParent ht h hr ho hv hp
  | scanSkip h hr ho hv hp hc ha => exact hI.scanSkip ht hN h hr ho hv hp hc ha
  | scanReached h hr ho hv hp hc h0 ha => exact hI.scanReached ht hN h hr ho hv hp hc h0 ha
  | scanLink h hr ho hv hp hc h0 => exact hI.scanLink ht h hr ho hv hp hc h0
  | fpush h hs hv hn => exact hI.fpush ht h hs hv hn
  | link h hs ha => exact hI.link ht h hs ha
  | parentPush h hp hs ha => exact hI.parentPush ht h hp hs ha
  | fassign h ha hs => exact hI.fassign ht h ha hs
  | incr h hr hd ha => exact hI.incr ht hN h hr hd ha
  | parentIncr h hd => exact hI.parentIncr ht h hd
  | scanEnd h hr he => exact hI.scanEnd ht hN h hr he
  | unlock h hr hs hd => exact hI.unlock ht h hr hs hd
  | delete h hr hl hn h0 hs h1 => exact hI.delete ht h hr hl h0 hs h1
  | remove hl hm hs => exact hI.remove ht hl hm hs
  | notifyBegin h hr hn h0 hs h1 => exact hI.notifyBegin ht hN h hr h0 hs h1
  | notifyMove h hm hs => exact hI.notifyMove ht hN h hm hs
  | notifyPre h ho hv ha => exact hI.notifyPre ht hN h ho hv ha
  | notifyPost h ho hv ha => exact hI.notifyPost ht hN h ho hv ha
  | notifyEnd h he hs hd => exact hI.notifyEnd ht hN h he hs hd

theorem Inv.of (ht : Tame cfg) (hN : 0 < N) {s : State} (h : Reach cfg N true s) : Inv cfg N s := by
  induction h with
  | init => exact .init
  | step _ h ih => exact ih.step ht hN h

/-- the task the iterator points to is the next one to visit -/
theorem Inv.scan_head (ht : Tame cfg) {s : State} (hI : Inv cfg N s) {t i : Nat} {rem : List Entry} {r : Res} {x : Slot} {p : Nat}
    (h : s.g.ph t = .initing (.scan i rem)) (hr : (cfg.res t)[i]? = some r)
    (ho : CoL.on ((s.l r).pcs 0) = some x) (hv : (s.l r).val x = some p) :
    s.g.ph t = .initing (.scan i (entry p rem :: rem.tail)) := by
  have hi := Core.reach ht hI.reach
  obtain ⟨hlk, L, hT, hR⟩ := (hI.ul r).crit.of_held hi (i := i) (by rw [h]; rfl) hr
  exact (hR.scan hi (hI.ul r) h hr ho hv).1

/-- the graph makes a step, or nothing happens to it -/
theorem Step.sim (ht : Tame cfg) (hN : 0 < N) {s s' : State} (hI : Inv cfg N s) (h : Step cfg N true s s') :
    s'.g = s.g ∨ ∃ lb, Graph.Step cfg lb s.g s'.g := by
  have hi := Core.reach ht hI.reach
  cases h with
  | other h hp hf => exact .inr ⟨_, h⟩
  | push h hr hs hv hx => exact .inl rfl
  | assign h hr ha hs => exact .inr ⟨_, .pushUser h hr⟩
  | lock h hr hl h0 hs h1 => exact .inl rfl
  | move hl hm hs => exact .inl rfl
  | @first t i r l' h hr hl ha =>
    refine .inr ⟨_, .lockRes h hr ?_⟩
    have hc := (hI.ul r).crit
    rw [hl] at hc
    cases hc with
    | copied hp hr' hlk hF => exact hlk
    | del hlk _ => exact hlk
    | @trav _ j L hr hT hR => rw [h] at hR; exact hR.elim
  | scanParent h hr ho hv hp => exact .inr ⟨_, .scanParent (hI.scan_head ht h hr ho hv) hp⟩
  | scanSkip h hr ho hv hp hc ha => exact .inr ⟨_, .scanSkip (hI.scan_head ht h hr ho hv) hp hc⟩
  | scanReached h hr ho hv hp hc h0 ha => exact .inr ⟨_, .scanReached (hI.scan_head ht h hr ho hv) hr hp hc h0⟩
  | scanLink h hr ho hv hp hc h0 => exact .inr ⟨_, .scanLink (hI.scan_head ht h hr ho hv) hp hc h0⟩
  | fpush h hs hv hn => exact .inl rfl
  | link h hs ha => exact .inr ⟨_, .link h⟩
  | parentPush h hp hs ha => exact .inr ⟨_, .parentPush h hp⟩
  | fassign h ha hs => exact .inl rfl
  | incr h hr hd ha => exact .inr ⟨_, .incr h hr⟩
  | parentIncr h hd => exact .inr ⟨_, .parentIncr h⟩
  | @scanEnd t i rem r h hr he =>
    refine .inr ⟨_, .scanEnd (i := i) ?_⟩
    obtain ⟨hlk, L, hT, hR⟩ := (hI.ul r).crit.of_held hi (i := i) (by rw [h]; rfl) hr
    rw [h] at hR
    have := hR.2
    unfold front at this
    rw [he, hT.ended hN (hI.ul r).reach.reach he] at this
    have : rem = [] := by simpa [on] using this
    rw [h, this]
  | unlock h hr hs hd => exact .inr ⟨_, .unlock h hr⟩
  | @delete t i r l' h hr hl hn h0 hs h1 =>
    refine .inr ⟨_, .delete h hr ?_⟩
    have := (hI.ul r).crit
    rw [hl] at this
    cases this with
    | free _ h => exact h
  | remove hl hm hs => exact .inl rfl
  | notifyBegin h hr hn h0 hs h1 => exact .inr ⟨_, .deleteEnd h hr⟩
  | notifyMove h hm hs => exact .inl rfl
  | notifyPre h ho hv ha => exact .inr ⟨_, .notifyPre ((hI.fl _).cur hN h ho hv ha).1⟩
  | notifyPost h ho hv ha => exact .inr ⟨_, .notifyPost ((hI.fl _).cur hN h ho hv ha).1⟩
  | @notifyEnd t rem f' h he hs hd =>
    refine .inr ⟨_, .notifyEnd ?_⟩
    have hF := hI.fl t
    obtain ⟨L, hT, R, r1, r2, r3⟩ := hF.ntf rem h
    unfold front at r3
    rw [he, hT.ended hN hF.reach he] at r3
    have : R = [] := by simpa [on] using r3
    subst this; subst r2
    exact h

end RG.GList
