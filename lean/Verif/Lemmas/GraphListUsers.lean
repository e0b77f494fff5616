import Verif.Lemmas.GraphList
/-
The task graph with lock-free lists refines the task graph with atomic lists: the steps on the users of a resource.
-/
set_option linter.unusedVariables false
namespace RG.GList

open RG.Graph (Cfg Entry IPc Ph Fol Fl olderThan notDel Core Tame held holding Pushed)
open CoL (Slot Later Trav Todo First rest on pushed pushing moving removing isIter ReachP OnePush Mono mono invA invB)

variable {cfg : Cfg} {N : Nat} {g g' : Graph.State} {ent ent' : Entry → Slot} {r : Res} {l l' f f' : CoL.State}

theorem SameU.refl (cfg : Cfg) (g : Graph.State) (ent : Entry → Slot) (r : Res) : SameU cfg g g ent ent r :=
  ⟨rfl, rfl, rfl, fun _ _ => rfl, fun _ _ _ _ => rfl, fun _ _ => rfl⟩

theorem SameF.refl (cfg : Cfg) (g : Graph.State) (f : CoL.State) (p : Nat) : SameF cfg g g f p :=
  ⟨rfl, fun _ => .rfl, fun _ _ _ h => h, fun _ _ h => h⟩

theorem Inv.user (ht : Tame cfg) {s s' : State} (hI : Inv cfg N s) (hg : Graph.Reach cfg s'.g) (r : Res)
    (hU : UL cfg N s'.g s'.ent (s'.lk r) r (s'.l r))
    (h1 : ∀ r', r' ≠ r → s'.l r' = s.l r' ∧ s'.lk r' = s.lk r' ∧ SameU cfg s.g s'.g s.ent s'.ent r') (hf : s'.f = s.f)
    (hF : ∀ p, SameF cfg s.g s'.g (s.f p) p) : Inv cfg N s' := by
  refine ⟨hg, ?_, ?_⟩
  · intro r'
    by_cases e : r' = r
    · subst e; exact hU
    · obtain ⟨e1, e2, e3⟩ := h1 r' e
      rw [e1, e2]
      exact (hI.ul r').frame (Core.reach ht hI.reach) e3
  · intro p; rw [hf]; exact (hI.fl p).frame (hF p)

/-- task `t`, which is busy with `r`, goes on -/
theorem SameU.step {t i : Nat} {X : Ph} (ha : at' (g.ph t) = some i) (hr : (cfg.res t)[i]? = some r)
    (h1 : ∀ r', r' ≠ r → g'.hist r' = g.hist r') (h2 : ∀ r', r' ≠ r → g'.users r' = g.users r')
    (h3 : ∀ r', r' ≠ r → g'.lock r' = g.lock r') (h4 : g'.fl = g.fl) (h5 : g'.ph = upd g.ph t X) :
    ∀ r', r' ≠ r → SameU cfg g g' ent ent r' := by
  intro r' hn
  refine ⟨h1 r' hn, h2 r' hn, h3 r' hn, fun e _ => by rw [h4], ?_, fun _ _ => rfl⟩
  intro u j h h'
  by_cases e : u = t
  · subst e; rw [ha] at h; cases h; rw [hr] at h'; cases h'; exact absurd rfl hn
  · rw [h5, upd_ne _ _ e]

/-- task `t`, which is not busy with the followers of `p`, goes on -/
theorem SameF.step {t p : Nat} {X : Ph} (h1 : g'.fol p = g.fol p) (h2 : ∀ rem, g'.fl p = .notifying rem ↔ g.fl p = .notifying rem)
    (h3 : g'.ph = upd g.ph t X)
    (h4 : f.pcs (t + 1) = .idle ∨ (target cfg g t = none ∧ target' g t = none)) : SameF cfg g g' f p := by
  refine ⟨h1, h2, ?_, ?_⟩
  · intro u F hn h
    by_cases e : u = t
    · subst e
      rcases h4 with h4 | h4
      · exact absurd h4 hn
      · rw [h4.1] at h; cases h
    · rw [target_congr (g := g) (by rw [h3, upd_ne _ _ e])]; exact h
  · intro u hn h
    by_cases e : u = t
    · subst e
      rcases h4 with h4 | h4
      · exact absurd h4 hn
      · rw [h4.2] at h; cases h
    · rw [target'_congr (g := g) (by rw [h3, upd_ne _ _ e])]; exact h

theorem UL.val {lk : Option Nat} (h : UL cfg N g ent lk r l) {e : Entry} (he : e ∈ g.hist r) : l.val (ent e) = some e.1 := by
  rw [← (invB h.reach.reach).log, h.log]
  exact List.mem_map.2 ⟨e, he, rfl⟩

theorem UL.val' {lk : Option Nat} (h : UL cfg N g ent lk r l) {e : Entry} (he : e ∈ g.hist r) : l.val (ent e) ≠ none := by
  rw [h.val he]; simp

theorem UL.mem {lk : Option Nat} (h : UL cfg N g ent lk r l) {x : Slot} (hx : l.val x ≠ none) :
    ∃ e ∈ g.hist r, ent e = x := by
  obtain ⟨v, hv⟩ := Option.ne_none_iff_exists'.1 hx
  have := ((invB h.reach.reach).log x v).2 hv
  rw [h.log, List.mem_map] at this
  obtain ⟨e, he, hh⟩ := this
  cases hh
  exact ⟨e, he, rfl⟩

theorem UL.sorted {lk : Option Nat} (h : UL cfg N g ent lk r l) :
    (g.hist r).Pairwise fun a b => Later l.al (ent a) (ent b) := by
  have := CoL.log_sorted h.reach
  rw [h.log, List.pairwise_map] at this
  exact this

/-- the iterator has passed by, or is at, an element in the middle of the list -/
theorem Crit.keep {lk : Option Nat} (hi : Core cfg g) (h : Crit cfg g ent r l lk) (hm : Mono l l') (h1 : l'.pcs 0 = l.pcs 0)
    (h2 : l'.seen 0 = l.seen 0) (h3 : l'.removed = l.removed) (hv : ∀ e ∈ g.hist r, l.val (ent e) ≠ none)
    (h4 : ∀ x L, l.val x ≠ none → Todo l 0 [x] L → Todo l' 0 [x] L) : Crit cfg g ent r l' lk := by
  cases h with
  | free h hl => exact .free (by rw [h1]; exact h) hl
  | @copied t i hp hr hl hF => exact .copied hp hr hl (hF.frame (h4 _ _ hF.val hF.todo) hm h1 h2 h3)
  | @trav t i L hr hT hR =>
    have hm : (t, i) ∈ g.hist r := (hi.histMem r t i).2 ⟨hr, hR.pushed⟩
    exact .trav hr (hT.frame (h4 _ _ (hv _ hm) hT.todo) h1 h2 h3) (by rw [h1, h2]; exact hR)
  | del hl hd => exact .del hl (by rw [h1]; exact hd)

theorem onePush_of {u : Nat} (h : ∀ w, w ≠ u → pushing (l.pcs w) = false) : OnePush l := by
  intro a b ha hb
  have h1 : a = u := Classical.byContradiction fun e => by rw [h a e] at ha; cases ha
  have h2 : b = u := Classical.byContradiction fun e => by rw [h b e] at hb; cases hb
  rw [h1, h2]

/-- task_space.cpp:83, before the value is stored -/
theorem UL.push {lk : Option Nat} (hi : Core cfg g) (h : UL cfg N g ent lk r l) {t i : Nat} (hp : g.ph t = .submitting i)
    (hr : (cfg.res t)[i]? = some r) (hs : CoL.Step N (t + 1) l l') (hv : pushed (l'.pcs (t + 1)) = some t)
    (hx : ∀ u, u ≠ t + 1 → pushing (l.pcs u) = false) : UL cfg N g ent lk r l' := by
  obtain ⟨e1, e2, e3, e4, e5, e6, e7, -⟩ := CoL.push_eff hs hv
  have hpc : ∀ u, u ≠ t + 1 → l'.pcs u = l.pcs u := fun u hu => CoL.pcs_frame hs hu
  refine ⟨h.reach.step hs (onePush_of (u := t + 1) fun w hw => by rw [hpc w hw]; exact hx w hw), by rw [e2]; exact h.log,
    by rw [e3]; exact h.rmv, ?_, ?_⟩
  · intro u hu
    by_cases e : u = t
    · subst e; exact ⟨hv, i, hp, hr⟩
    · rw [hpc (u + 1) (by omega)] at hu ⊢; exact h.usr u hu
  · exact h.crit.keep hi (mono (invA h.reach.reach) hs) (hpc 0 (by omega)) (by rw [e6]) e3 (fun e he => h.val' he)
      fun x L hx hT => hT.push h.reach.reach hs hv (by simpa using hx)

theorem Inv.push (ht : Tame cfg) {s : State} (hI : Inv cfg N s) {t i : Nat} {r : Res} {l' : CoL.State}
    (h : s.g.ph t = .submitting i) (hr : (cfg.res t)[i]? = some r)
    (hs : CoL.Step N (t + 1) (s.l r) l') (hv : CoL.pushed (l'.pcs (t + 1)) = some t)
    (hx : ∀ u, u ≠ t + 1 → CoL.pushing ((s.l r).pcs u) = false) : Inv cfg N { s with l := upd s.l r l' } := by
  have hi := Core.reach ht hI.reach
  refine hI.user ht hI.reach r ?_ (fun r' hn => ⟨upd_ne _ _ hn, rfl, .refl _ _ _ _⟩) rfl fun p => .refl _ _ _ _
  simp only [upd_same]
  exact (hI.ul r).push hi h hr hs hv hx

theorem older_cons {e x : Entry} {l : List Entry} (h : x ≠ e) : olderThan e (x :: l) = olderThan e l := by
  simp [olderThan, h]

/-- task_space.cpp:83, the value is stored -/
theorem Inv.assign (ht : Tame cfg) {s : State} (hI : Inv cfg N s) {t i : Nat} {r : Res} {l' : CoL.State} {v c k : Nat}
    (h : s.g.ph t = .submitting i) (hr : (cfg.res t)[i]? = some r)
    (ha : (s.l r).pcs (t + 1) = .pAsg v c k) (hs : CoL.Step N (t + 1) (s.l r) l') :
    Inv cfg N { s with
        g := { s.g with
          ph := upd s.g.ph t (.submitting (i + 1))
          users := upd s.g.users r ((t, i) :: s.g.users r)
          hist := upd s.g.hist r ((t, i) :: s.g.hist r) }
        l := upd s.l r l'
        ent := upd s.ent (t, i) (c, k) } := by
  have hi := Core.reach ht hI.reach
  have hU := hI.ul r
  have hnew : ∀ r' e, e ∈ s.g.hist r' → e ≠ (t, i) := by
    rintro r' e he rfl
    have := ((hi.histMem r' t i).1 he).2
    rw [h] at this; simp [Pushed] at this
  have hent : ∀ r' e, e ∈ s.g.hist r' → upd s.ent (t, i) (c, k) e = s.ent e := fun r' e he => upd_ne _ _ (hnew r' e he)
  refine hI.user ht (hI.reach.step (.pushUser h hr)) r ?_ (fun r' hn => ⟨upd_ne _ _ hn, rfl, ?_⟩) rfl
    fun p => SameF.step rfl (fun _ => .rfl) rfl (.inr ⟨by simp [target, h], by simp [target', h]⟩)
  · simp only [upd_same]
    have e := CoL.assign_eff hs ha
    have hv : v = t := by
      have := (hU.usr t (by rw [ha]; simp)).1
      rw [ha] at this; simpa [pushed] using this
    subst hv
    have hpc : ∀ u, u ≠ v + 1 → l'.pcs u = (s.l r).pcs u := fun u hu => CoL.pcs_frame hs hu
    have hone := (CoL.asg_last hU.reach).1
    refine ⟨hU.reach.step hs (onePush_of (u := v + 1) ?_), ?_, ?_, ?_, ?_⟩
    · intro w hw
      rw [hpc w hw]
      cases hh : pushing ((s.l r).pcs w) with
      | false => rfl
      | true => exact absurd (hone w (v + 1) hh (by rw [ha]; rfl)) hw
    · rw [e]
      simp only [upd_same, List.map_cons, hU.log]
      exact congrArg _ (List.map_congr_left fun e he => by rw [hent r e he])
    · rw [e]
      simp only [upd_same]
      intro e' he'
      rcases List.mem_cons.1 he' with rfl | he'
      · simp only [upd_same]
        have hl : (s.l r).removed (c, k) = false := by
          cases hh : (s.l r).removed (c, k) with
          | false => rfl
          | true =>
            have hB := (invB hU.reach.reach).asg (v + 1) v c k ha
            exact absurd hB.2.2 ((CoL.invC (by omega) hU.reach.reach).remVal _ hh)
        rw [hl, hi.idle_of_ph v (by rw [h]; simp)]
        rfl
      · rw [hent r e' he']; exact hU.rmv e' he'
    · intro u hu
      by_cases eu : u = v
      · subst eu; rw [e] at hu; simp at hu
      · rw [hpc (u + 1) (by omega)] at hu ⊢
        simp only [upd_ne _ _ eu]
        exact hU.usr u hu
    · have k1 : Crit cfg s.g s.ent r l' (s.lk r) :=
        hU.crit.keep hi (mono (invA hU.reach.reach) hs) (hpc 0 (by omega)) (by rw [e]) (by rw [e]) (fun e he => hU.val' he)
          fun x L hx hT => hT.assign hU.reach hs ha (by simpa using hx) (by simp)
      refine k1.congr hi rfl ?_ ?_ (hent r)
      · intro e he
        simp only [upd_same]
        exact older_cons fun e' => hnew r e he e'.symm
      · intro u j hnr hlk hat hres
        by_cases eu : u = v
        · subst eu
          exfalso
          rw [hlk] at k1
          cases k1 with
          | copied hp => rw [h] at hp; cases hp
          | trav hr hT hR => rw [h] at hR; exact hR
          | del hl hd => rw [hd] at hnr; cases hnr
        · exact upd_ne _ _ eu
  · refine ⟨upd_ne _ _ hn, upd_ne _ _ hn, rfl, fun _ _ => rfl, ?_, hent r'⟩
    intro u j hu hj
    by_cases e : u = t
    · subst e
      rw [h] at hu; cases hu
      rw [hr] at hj; cases hj
      exact absurd rfl hn
    · exact upd_ne _ _ e

/-! ### Traversal -/

/-- only thread 0 removes elements -/
theorem UL.no_rm {lk : Option Nat} (h : UL cfg N g ent lk r l) (h0 : isIter (l.pcs 0) = true) (u : Nat) :
    CoL.rm (l.pcs u) = none := by
  cases u with
  | zero => revert h0; cases l.pcs 0 <;> simp [isIter, CoL.rm]
  | succ t =>
    by_cases e : l.pcs (t + 1) = .idle
    · rw [e]; rfl
    · have := (h.usr t e).1
      revert this; cases l.pcs (t + 1) <;> simp [pushed, CoL.rm]

theorem not_pushing_iter {q : CoL.Pc} (h : isIter q = true) : pushing q = false := by cases q <;> simp_all [isIter, pushing]

/-- thread 0 makes a step that is not part of a push -/
theorem UL.one {lk : Option Nat} (h : UL cfg N g ent lk r l) (hs : CoL.Step N 0 l l') (hn : pushing (l'.pcs 0) = false) :
    ReachP N OnePush l' := by
  refine h.reach.step hs ?_
  intro a b ha hb
  have h0 : a ≠ 0 := fun e => by subst e; rw [hn] at ha; cases ha
  have h1 : b ≠ 0 := fun e => by subst e; rw [hn] at hb; cases hb
  rw [CoL.pcs_frame hs h0] at ha
  rw [CoL.pcs_frame hs h1] at hb
  exact (CoL.asg_last h.reach).1 a b ha hb

/-- thread 0 makes a step of an iteration -/
theorem UL.iter {lk lk' : Option Nat} (h : UL cfg N g ent lk r l) (hs : CoL.Step N 0 l l') (hn : pushing (l'.pcs 0) = false)
    (h1 : l'.log = l.log) (h2 : l'.removed = l.removed) (hc : Crit cfg g ent r l' lk') : UL cfg N g ent lk' r l' := by
  refine ⟨h.one hs hn, by rw [h1]; exact h.log, by rw [h2]; exact h.rmv, ?_, hc⟩
  intro t ht
  rw [CoL.pcs_frame hs (by omega)] at ht ⊢
  exact h.usr t ht

theorem mem_older {e x : Entry} {l : List Entry} {R : Entry → Entry → Prop} (h : l.Pairwise R) (he : e ∈ l) (hx : x ∈ l)
    (hne : x ≠ e) (hn : ¬ R x e) : x ∈ olderThan e l := by
  induction l with
  | nil => cases hx
  | cons a l ih =>
    rw [List.pairwise_cons] at h
    unfold olderThan
    split
    · rename_i e'
      rcases List.mem_cons.1 hx with rfl | hx
      · exact absurd e' hne
      · exact hx
    · rename_i e'
      have he' : e ∈ l := by
        rcases List.mem_cons.1 he with rfl | he
        · exact absurd rfl e'
        · exact he
      rcases List.mem_cons.1 hx with rfl | hx
      · exact absurd (h.1 e he') hn
      · exact ih h.2 he' hx

theorem older_rel {e x : Entry} {l : List Entry} {R : Entry → Entry → Prop} (h : l.Pairwise R) (hx : x ∈ olderThan e l) :
    R e x := by
  induction l with
  | nil => cases hx
  | cons a l ih =>
    rw [List.pairwise_cons] at h
    unfold olderThan at hx
    split at hx
    · rename_i e'; subst e'; exact h.1 x hx
    · exact ih h.2 hx

/-- graph.cpp:52-55 -/
theorem Inv.lock (ht : Tame cfg) (hN : 0 < N) {s : State} (hI : Inv cfg N s) {t i : Nat} {r : Res} {l' : CoL.State}
    (h : s.g.ph t = .initing (.next i)) (hr : (cfg.res t)[i]? = some r) (hl : s.lk r = none)
    (h0 : (s.l r).pcs 0 = .idle) (hs : CoL.Step N 0 (s.l r) l')
    (h1 : l'.pcs 0 = .iAt (s.ent (t, i)).1 (s.ent (t, i)).2) :
    Inv cfg N { s with l := upd s.l r l', lk := upd s.lk r (some t) } := by
  have hi := Core.reach ht hI.reach
  have hU := hI.ul r
  refine hI.user ht hI.reach r ?_ (fun r' hn => ⟨upd_ne _ _ hn, upd_ne _ _ hn, .refl _ _ _ _⟩) rfl fun p => .refl _ _ _ _
  simp only [upd_same]
  have hlk : s.g.lock r = none := by
    have := hU.crit
    rw [hl] at this
    cases this with
    | free _ h => exact h
  have heff : l'.log = (s.l r).log ∧ l'.removed = (s.l r).removed := by
    cases hs with
    | copy => exact ⟨rfl, rfl⟩
    | _ => simp_all [CoL.pos, on]
  refine hU.iter hs (by rw [h1]; rfl) heff.1 heff.2 (.copied h hr hlk ?_)
  have hm : (t, i) ∈ s.g.hist r := (hi.histMem r t i).2 ⟨hr, by rw [h]; trivial⟩
  have hlive : ∀ e ∈ s.g.users r, (s.l r).removed (s.ent e) = false := by
    intro e he
    rw [hU.rmv e (users_hist hi he), hi.user_fl he]; rfl
  have hmu : (t, i) ∈ s.g.users r := by
    rw [hi.usersEq, List.mem_filter]
    exact ⟨hm, by rw [hi.idle_of_ph t (by rw [h]; simp)]; rfl⟩
  have hso : (s.g.users r).Pairwise fun a b => Later (s.l r).al (s.ent a) (s.ent b) := by
    rw [hi.usersEq]; exact hU.sorted.filter _
  have hsub : ∀ e ∈ olderThan (t, i) (s.g.users r), e ∈ s.g.users r := fun e he => (older_sub _ _).subset he
  refine First.copy hU.reach.reach hs h0 h1 ?_ ?_ ?_ ?_ ?_ ?_ (hU.val' hm) (hlive _ hmu)
  · rw [List.pairwise_map]; exact hso.sublist (older_sub _ _)
  · intro y hy
    obtain ⟨e, he, rfl⟩ := List.mem_map.1 hy
    exact hU.val' (users_hist hi (hsub e he))
  · intro y hy
    obtain ⟨e, he, rfl⟩ := List.mem_map.1 hy
    exact hlive _ (hsub e he)
  · intro y hy
    exact CoL.not_hidden hN hU.reach y
  · intro y hy
    obtain ⟨e, he, rfl⟩ := List.mem_map.1 hy
    exact older_rel (R := fun a b => Later (s.l r).al (s.ent a) (s.ent b)) hso he
  · intro y hy hrm hlt
    obtain ⟨e, he, rfl⟩ := hU.mem hy
    refine List.mem_map.2 ⟨e, mem_older hso hmu ?_ ?_ hlt.asymm, rfl⟩
    · rw [hi.usersEq, List.mem_filter]
      refine ⟨he, ?_⟩
      have := hU.rmv e he
      rw [hrm] at this
      simpa using this.symm
    · rintro rfl; exact hlt.ne rfl

theorem moving_on {q : CoL.Pc} (h : moving q = true) : on q = none ∧ q ≠ .iEnd ∧ isIter q = true ∧ removing q = false := by
  cases q <;> simp_all [moving, on, isIter, removing]

theorem on_not {q : CoL.Pc} {x : Slot} (h : on q = some x) : moving q = false ∧ removing q = false ∧ isIter q = true ∧ q ≠ .iEnd := by
  cases q <;> simp_all [moving, on, isIter, removing]

/-- graph.cpp:55-58 -/
theorem Inv.move (ht : Tame cfg) (hN : 0 < N) {s : State} (hI : Inv cfg N s) {t : Nat} {r : Res} {l' : CoL.State}
    (hl : s.lk r = some t) (hm : moving ((s.l r).pcs 0) = true) (hs : CoL.Step N 0 (s.l r) l') :
    Inv cfg N { s with l := upd s.l r l' } := by
  have hi := Core.reach ht hI.reach
  have hU := hI.ul r
  refine hI.user ht hI.reach r ?_ (fun r' hn => ⟨upd_ne _ _ hn, rfl, .refl _ _ _ _⟩) rfl fun p => .refl _ _ _ _
  simp only [upd_same]
  have hR := hU.reach.reach
  obtain ⟨m1, m2, m3, m4⟩ := moving_on hm
  rw [hl]
  have hc := hU.crit
  rw [hl] at hc
  cases hc with
  | @copied _ i hp hr hlk hF =>
    have hF' := hF.move hN hR hm hs
    obtain ⟨e1, e2, e3, e4, e5, e6, e7, e8, -⟩ := CoL.iter_eff (invA hR) m3 hs hF'.it
    exact hU.iter hs (not_pushing_iter hF'.it) e8 e1 (.copied hp hr hlk hF')
  | @trav _ i L hr hT hRem =>
    obtain ⟨hT', hh⟩ := hT.move hN hR hm (hU.no_rm m3) hs
    obtain ⟨e1, e2, e3, e4, e5, e6, e7, e8, -⟩ := CoL.iter_eff (invA hR) m3 hs hT'.it
    refine hU.iter hs (not_pushing_iter hT'.it) e8 e1 (.trav hr hT' ?_)
    unfold Rem at hRem ⊢
    generalize s.g.ph t = P at hRem
    split at hRem
    · refine ⟨hRem.1, ?_⟩
      have h2 := hRem.2
      unfold front at h2 ⊢
      rw [m1] at h2
      rcases hh with ⟨k1, k2⟩ | ⟨x, k1, k2, k3⟩
      · rw [k1, k2]; exact h2
      · rw [k1]; rw [k3] at h2; exact h2
    · rw [m1] at hRem; simp at hRem
    · rw [m1] at hRem; simp at hRem
    · rw [m1] at hRem; simp [m2] at hRem
    · cases hRem
  | del hlk hd => rw [m4] at hd; cases hd

theorem holding_held {t i : Nat} {P : Ph} (h : holding P = some i) : held cfg t P = (cfg.res t)[i]? := by
  unfold holding at h
  unfold held
  split at h <;> simp_all

theorem Rem.holding {q : CoL.Pc} {R : List Slot} {i : Nat} {P : Ph} (h : Rem ent q R i P) : holding P = some i := by
  unfold Rem at h
  split at h
  · rw [← h.1]; rfl
  · rw [← h.1]; rfl
  · rw [← h.1]; rfl
  · rw [← h.1]; rfl
  · cases h

theorem Crit.of_held (hi : Core cfg g) {lk : Option Nat} (h : Crit cfg g ent r l lk) {t i : Nat} (hh : Graph.holding (g.ph t) = some i)
    (hr : (cfg.res t)[i]? = some r) :
    lk = some t ∧ ∃ L, Trav l 0 [ent (t, i)] L ∧ Rem ent (l.pcs 0) (rest L (l.seen 0)) i (g.ph t) := by
  have hk : g.lock r = some t := (hi.lockI r t).2 (by rw [holding_held hh, hr])
  cases h with
  | free h hl => rw [hl] at hk; cases hk
  | copied hp hr hl hF => rw [hl] at hk; cases hk
  | del hl hd => rw [hl] at hk; cases hk
  | @trav u j L hr' hT hR =>
    have : g.lock r = some u := (hi.lockI r u).2 (by rw [holding_held hR.holding, hr'])
    rw [hk] at this; cases this
    have := hR.holding
    rw [hh] at this; cases this
    exact ⟨rfl, L, hT, hR⟩

/-- the element the iterator points to -/
theorem Rem.scan {lk : Option Nat} (hi : Core cfg g) (hU : UL cfg N g ent lk r l) {t i : Nat} {rem : List Entry} {R : List Slot} {x : Slot} {p : Nat}
    (h : g.ph t = .initing (.scan i rem)) (hr : (cfg.res t)[i]? = some r) (hR : Rem ent (l.pcs 0) R i (g.ph t))
    (ho : on (l.pcs 0) = some x) (hv : l.val x = some p) :
    g.ph t = .initing (.scan i (entry p rem :: rem.tail)) ∧ on (l.pcs 0) = some (ent (entry p rem)) ∧ rem.tail.map ent = R := by
  rw [h] at hR
  obtain ⟨-, hR⟩ := hR
  unfold front at hR
  rw [ho] at hR
  cases rem with
  | nil => cases hR
  | cons e rem =>
    simp only [List.map_cons, List.cons.injEq] at hR
    have he := users_hist hi (hi.scanI t i _ r h hr e (.head _))
    have := hU.val he
    rw [hR.1, hv] at this
    have hp : entry p (e :: rem) = e := by
      obtain ⟨a, b⟩ := e
      simp only [Option.some.injEq] at this
      rw [this]; rfl
    rw [hp]
    exact ⟨h, by rw [ho, hR.1], hR.2⟩

/-- the steps of a task with the lock that do not move the iterator -/
theorem Inv.stay (ht : Tame cfg) {s : State} (hI : Inv cfg N s) {t i : Nat} {r : Res} {L : List Slot} {P : Ph}
    {g' : Graph.State} {lb : Graph.Lbl}
    (hr : (cfg.res t)[i]? = some r) (hh : holding (s.g.ph t) = some i) (hlk : s.lk r = some t)
    (hg : Graph.Step cfg lb s.g g') (e1 : g'.ph = upd s.g.ph t P)
    (e2 : g'.hist = s.g.hist) (e3 : g'.users = s.g.users) (e4 : g'.lock = s.g.lock) (e5 : g'.fl = s.g.fl)
    (hT : Trav (s.l r) 0 [s.ent (t, i)] L) (hR : Rem s.ent ((s.l r).pcs 0) (rest L ((s.l r).seen 0)) i P) :
    ∀ r', UL cfg N g' s.ent (s.lk r') r' (s.l r') := by
  have hi := Core.reach ht hI.reach
  have hat : at' (s.g.ph t) = some i := by
    revert hh; cases s.g.ph t with
    | initing pc => cases pc <;> simp [at', holding]
    | _ => simp [holding]
  intro r'
  have hU := hI.ul r'
  by_cases e : r' = r
  · subst e
    refine ⟨hU.reach, by rw [e2]; exact hU.log, by rw [e2, e5]; exact hU.rmv, ?_, ?_⟩
    · intro u hu
      obtain ⟨a, j, b, c⟩ := hU.usr u hu
      refine ⟨a, j, ?_, c⟩
      have : u ≠ t := by rintro rfl; rw [b] at hh; simp [holding] at hh
      rw [e1, upd_ne _ _ this]; exact b
    · rw [hlk]
      exact .trav hr hT (by rw [e1, upd_same]; exact hR)
  · exact hU.frame hi (SameU.step (X := P) hat hr (fun _ _ => by rw [e2]) (fun _ _ => by rw [e3]) (fun _ _ => by rw [e4]) e5 e1 r' e)

/-- the steps of a task with the lock that move the iterator away from an element -/
theorem Inv.advance (ht : Tame cfg) (hN : 0 < N) {s : State} (hI : Inv cfg N s) {t i : Nat} {r : Res} {L : List Slot} {rem : List Entry}
    {g' : Graph.State} {l' : CoL.State} {lb : Graph.Lbl}
    (hr : (cfg.res t)[i]? = some r) (hh : holding (s.g.ph t) = some i) (hlk : s.lk r = some t)
    (hg : Graph.Step cfg lb s.g g') (e1 : g'.ph = upd s.g.ph t (.initing (.scan i rem)))
    (e2 : g'.hist = s.g.hist) (e3 : g'.users = s.g.users) (e4 : g'.lock = s.g.lock) (e5 : g'.fl = s.g.fl)
    (hT : Trav (s.l r) 0 [s.ent (t, i)] L) (hR : rem.map s.ent = rest L ((s.l r).seen 0))
    (ha : Adv N (s.l r) l') :
    ∀ r', UL cfg N g' s.ent (s.lk r') r' (upd s.l r l' r') := by
  have hi := Core.reach ht hI.reach
  have hat : at' (s.g.ph t) = some i := by
    revert hh; cases s.g.ph t with
    | initing pc => cases pc <;> simp [at', holding]
    | _ => simp [holding]
  intro r'
  have hU := hI.ul r'
  by_cases e : r' = r
  · subst e
    simp only [upd_same, hlk]
    obtain ⟨a1, a2, a3⟩ := ha
    obtain ⟨x, hx⟩ := Option.isSome_iff_exists.1 a2
    obtain ⟨hT', k1, k2⟩ := hT.adv hN hU.reach.reach hx a1 a3
    obtain ⟨f1, f2, f3, f4, f5, f6, f7, f8, -⟩ := CoL.iter_eff (invA hU.reach.reach) hT.it a1 a3
    refine ⟨hU.one a1 (not_pushing_iter a3), by rw [f8, e2]; exact hU.log, by rw [f1, e2, e5]; exact hU.rmv, ?_, .trav hr hT' ?_⟩
    · intro u hu
      rw [CoL.pcs_frame a1 (by omega)] at hu ⊢
      obtain ⟨a, j, b, c⟩ := hU.usr u hu
      refine ⟨a, j, ?_, c⟩
      have : u ≠ t := by rintro rfl; rw [b] at hh; simp [holding] at hh
      rw [e1, upd_ne _ _ this]; exact b
    · rw [e1, upd_same]
      refine ⟨rfl, ?_⟩
      unfold front
      rw [(moving_on k2).1, k1]
      exact hR
  · rw [upd_ne _ _ e]
    exact hU.frame hi (SameU.step (X := .initing (.scan i rem)) hat hr (fun _ _ => by rw [e2]) (fun _ _ => by rw [e3])
      (fun _ _ => by rw [e4]) e5 e1 r' e)

/-- graph.cpp:57 -/
theorem Inv.first (ht : Tame cfg) (hN : 0 < N) {s : State} (hI : Inv cfg N s) {t i : Nat} {r : Res} {l' : CoL.State}
    (h : s.g.ph t = .initing (.next i)) (hr : (cfg.res t)[i]? = some r) (hl : s.lk r = some t) (ha : Adv N (s.l r) l') :
    Inv cfg N { s with
        g := { s.g with
          ph := upd s.g.ph t (.initing (.scan i (olderThan (t, i) (s.g.users r))))
          lock := upd s.g.lock r (some t) }
        l := upd s.l r l' } := by
  have hi := Core.reach ht hI.reach
  have hU := hI.ul r
  obtain ⟨a1, a2, a3⟩ := ha
  obtain ⟨x, hx⟩ := Option.isSome_iff_exists.1 a2
  have hc := hU.crit
  rw [hl] at hc
  cases hc with
  | @copied _ j hp hr' hlk hF =>
    rw [h] at hp; cases hp
    refine hI.user ht (hI.reach.step (.lockRes h hr hlk)) r ?_ (fun r' hn => ⟨upd_ne _ _ hn, rfl, by
      refine SameU.step (X := .initing (.scan i (olderThan (t, i) (s.g.users r)))) (i := i) (t := t) (by rw [h]; rfl) hr ?_ ?_ ?_ ?_ ?_ r' hn <;> first | rfl | exact fun _ _ => rfl | exact fun _ hn => upd_ne _ _ hn⟩)
      rfl fun p => SameF.step rfl (fun _ => .rfl) rfl (.inr ⟨by simp [target, h], by simp [target', h]⟩)
    simp only [upd_same, hl]
    obtain ⟨hT, k1, k2⟩ := hF.adv hN hU.reach.reach hx a1 a3
    obtain ⟨f1, f2, f3, f4, f5, f6, f7, f8, -⟩ := CoL.iter_eff (invA hU.reach.reach) hF.it a1 a3
    refine ⟨hU.one a1 (not_pushing_iter a3), by rw [f8]; exact hU.log, by rw [f1]; exact hU.rmv, ?_, .trav hr hT ?_⟩
    · intro u hu
      rw [CoL.pcs_frame a1 (by omega)] at hu ⊢
      obtain ⟨a, j, b, c⟩ := hU.usr u hu
      refine ⟨a, j, ?_, c⟩
      have : u ≠ t := by rintro rfl; rw [b] at h; cases h
      simp only [upd_ne _ _ this]; exact b
    · simp only [upd_same]
      refine ⟨rfl, ?_⟩
      unfold front
      rw [(moving_on k2).1, k1]
  | trav hr hT hR => rw [h] at hR; exact hR.elim
  | del hlk hd => rw [(on_not hx).2.1] at hd; cases hd

/-- graph.cpp:73 -/
theorem Inv.unlock (ht : Tame cfg) {s : State} (hI : Inv cfg N s) {t i : Nat} {r : Res} {l' : CoL.State}
    (h : s.g.ph t = .initing (.unlock i)) (hr : (cfg.res t)[i]? = some r)
    (hs : CoL.Step N 0 (s.l r) l') (hd : l'.pcs 0 = .idle) :
    Inv cfg N { s with
        g := { s.g with ph := upd s.g.ph t (.initing (.next (i + 1))), lock := upd s.g.lock r none }
        l := upd s.l r l'
        lk := upd s.lk r none } := by
  have hi := Core.reach ht hI.reach
  have hU := hI.ul r
  obtain ⟨hlk, L, hT, hR⟩ := hU.crit.of_held hi (i := i) (by rw [h]; rfl) hr
  refine hI.user ht (hI.reach.step (.unlock h hr)) r ?_ (fun r' hn => ⟨upd_ne _ _ hn, upd_ne _ _ hn, by
    refine SameU.step (X := .initing (.next (i + 1))) (i := i) (t := t) (by rw [h]; rfl) hr ?_ ?_ ?_ ?_ ?_ r' hn <;> first | rfl | exact fun _ _ => rfl | exact fun _ hn => upd_ne _ _ hn⟩)
    rfl fun p => SameF.step rfl (fun _ => .rfl) rfl (.inr ⟨by simp [target, h], by simp [target', h]⟩)
  simp only [upd_same]
  obtain ⟨f1, f2, f3, -⟩ := CoL.stop_eff hs hT.it hd
  refine ⟨hU.one hs (by rw [hd]; rfl), by rw [f3]; exact hU.log, by rw [f1]; exact hU.rmv, ?_, .free hd (by simp)⟩
  intro u hu
  rw [CoL.pcs_frame hs (by omega)] at hu ⊢
  obtain ⟨a, j, b, c⟩ := hU.usr u hu
  refine ⟨a, j, ?_, c⟩
  have : u ≠ t := by rintro rfl; rw [b] at h; cases h
  simp only [upd_ne _ _ this]; exact b

theorem UL.inj {lk : Option Nat} (h : UL cfg N g ent lk r l) {a b : Entry} (ha : a ∈ g.hist r) (hb : b ∈ g.hist r) (he : ent a = ent b) :
    a = b := by
  have hs := h.sorted
  generalize g.hist r = H at hs ha hb
  induction H with
  | nil => cases ha
  | cons x H ih =>
    rw [List.pairwise_cons] at hs
    rcases List.mem_cons.1 ha with ha' | ha' <;> rcases List.mem_cons.1 hb with hb' | hb'
    · rw [ha', hb']
    · exact absurd he (ha' ▸ (hs.1 b hb').ne)
    · exact absurd he.symm (hb' ▸ (hs.1 a ha').ne)
    · exact ih hs.2 ha' hb'

/-- graph.cpp:91-94 -/
theorem Inv.delete (ht : Tame cfg) {s : State} (hI : Inv cfg N s) {t i : Nat} {r : Res} {l' : CoL.State}
    (h : s.g.fl t = .deleting i) (hr : (cfg.res t)[i]? = some r) (hl : s.lk r = none) (h0 : (s.l r).pcs 0 = .idle)
    (hs : CoL.Step N 0 (s.l r) l') (h1 : l'.pcs 0 = .rRead (s.ent (t, i))) :
    Inv cfg N { s with
        g := { s.g with
          fl := upd s.g.fl t (.deleting (i + 1)), users := upd s.g.users r ((s.g.users r).erase (t, i)) }
        l := upd s.l r l'
        lk := upd s.lk r (some t) } := by
  have hi := Core.reach ht hI.reach
  have hU := hI.ul r
  have hlk : s.g.lock r = none := by
    have := hU.crit
    rw [hl] at this
    cases this with
    | free _ h => exact h
  have hdel : ∀ e : Entry, e ≠ (t, i) → notDel (upd s.g.fl t (.deleting (i + 1)) e.1) e.2 = notDel (s.g.fl e.1) e.2 := by
    rintro ⟨a, b⟩ hne
    by_cases e : a = t
    · subst e
      have : b ≠ i := fun e => hne (by rw [e])
      simp only [upd_same, h, notDel]
      congr 1
      apply propext
      omega
    · rw [upd_ne _ _ e]
  refine hI.user ht (hI.reach.step (.delete h hr hlk)) r ?_ (fun r' hn => ⟨upd_ne _ _ hn, upd_ne _ _ hn, ?_⟩)
    rfl fun p => ?_
  · simp only [upd_same]
    obtain ⟨f1, f2, f3, f4, f5⟩ := CoL.remove_eff hs h0 h1
    have hm : (t, i) ∈ s.g.hist r := (hi.histMem r t i).2 ⟨hr, by
      have : s.g.ph t = .inited := by
        apply Classical.byContradiction
        intro e
        rw [hi.idle_of_ph t e] at h; cases h
      rw [this]; trivial⟩
    refine ⟨hU.one hs (by rw [h1]; rfl), by rw [f3]; exact hU.log, ?_, ?_, .del hlk (by rw [h1]; rfl)⟩
    · intro e he
      by_cases e' : e = (t, i)
      · subst e'
        rw [f1, upd_same]
        simp [notDel]
      · rw [f1, upd_ne _ _ (fun h => e' (hU.inj he hm h))]
        simp only [hdel e e']
        exact hU.rmv e he
    · intro u hu
      rw [CoL.pcs_frame hs (by omega)] at hu ⊢
      exact hU.usr u hu
  · refine ⟨rfl, upd_ne _ _ hn, rfl, ?_, fun _ _ _ _ => rfl, fun _ _ => rfl⟩
    intro e he
    refine hdel e ?_
    rintro rfl
    have := ((hi.histMem r' t i).1 he).1
    rw [hr] at this; cases this; exact hn rfl
  · refine ⟨rfl, ?_, fun _ _ _ h => h, fun _ _ h => h⟩
    intro rem
    by_cases e : p = t
    · subst e; simp [h]
    · simp [upd_ne _ _ e]

/-- graph.cpp:94-95 -/
theorem Inv.remove (ht : Tame cfg) {s : State} (hI : Inv cfg N s) {t : Nat} {r : Res} {l' : CoL.State}
    (hl : s.lk r = some t) (hm : removing ((s.l r).pcs 0) = true) (hs : CoL.Step N 0 (s.l r) l') :
    Inv cfg N { s with l := upd s.l r l', lk := if l'.pcs 0 = .idle then upd s.lk r none else s.lk } := by
  have hi := Core.reach ht hI.reach
  have hU := hI.ul r
  refine hI.user ht hI.reach r ?_ (fun r' hn => ⟨upd_ne _ _ hn, ?_, .refl _ _ _ _⟩) rfl fun p => .refl _ _ _ _
  · simp only [upd_same]
    obtain ⟨f1, f2, f3, f4⟩ := CoL.removing_eff hs hm
    have hc := hU.crit
    rw [hl] at hc
    have hlk : s.g.lock r = none := by
      cases hc with
      | copied hp hr hlk hF => exact hlk
      | trav hr hT hR => rw [iter_not_removing hT.it] at hm; cases hm
      | del hlk hd => exact hlk
    split
    · rename_i e
      refine hU.iter hs (by rw [e]; rfl) f3 f1 ?_
      rw [upd_same]
      exact .free e hlk
    · rename_i e
      have : removing (l'.pcs 0) = true := by
        rcases f4 with f4 | f4
        · exact f4
        · exact absurd f4 e
      refine hU.iter hs (by revert this; cases l'.pcs 0 <;> simp [removing, pushing]) f3 f1 ?_
      rw [hl]
      exact .del hlk this
  · simp only; split
    · exact upd_ne _ _ hn
    · rfl

end RG.GList
