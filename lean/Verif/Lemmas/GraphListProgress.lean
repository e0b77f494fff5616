import Verif.Lemmas.GraphListFol
import Verif.Lemmas.GraphListExec
import Verif.Props.GraphProgress
import Verif.Props.ConcListProgress
/-
The task graph with lock-free lists: whatever state the lists are in, a step of the graph is possible after some steps of
the lists.
-/
set_option linter.unusedVariables false
namespace RG.GList

open RG.Graph (Cfg Entry IPc Ph Fol Fl olderThan notDel Core Tame held holding Pushed OwnWork Work)
open CoL (Slot Later Trav Todo First rest on pushed pushing moving removing isIter ReachP OnePush Mono mono invA invB Only Stored)

variable {cfg : Cfg} {N : Nat} {s s1 s2 s' : State}

theorem Steps.trans {a b c : State} {e : Bool} (h : Steps cfg N e a b) (h' : Steps cfg N e b c) : Steps cfg N e a c := by
  induction h' with
  | refl => exact h
  | step _ h2 ih => exact ih.step h2

/-- the graph gets on -/
def Goes (cfg : Cfg) (N : Nat) (s : State) : Prop := ∃ s', Steps cfg N true s s' ∧ OwnWork cfg s.g s'.g

theorem Goes.of {s s' : State} (h : Steps cfg N true s s') (e : s'.g = s.g) (h' : Goes cfg N s') : Goes cfg N s := by
  obtain ⟨s2, h1, h2⟩ := h'
  rw [e] at h2
  exact ⟨s2, h.trans h1, h2⟩

/-- a step that changes the graph -/
theorem Goes.step (ht : Tame cfg) (hN : 0 < N) (hI : Inv cfg N s) (h : Step cfg N true s s')
    (hne : (∃ t, s'.g.ph t ≠ s.g.ph t) ∨ ∃ t, s'.g.fl t ≠ s.g.fl t) (h1 : s'.g.n = s.g.n) (h2 : s'.g.nExt = s.g.nExt)
    (h3 : s'.g.fut = s.g.fut) : Goes cfg N s := by
  refine ⟨s', .step .refl h, ⟨?_, h1, h2⟩, fun t ht => by rw [h3]; exact ht⟩
  rcases h.sim ht hN hI with e | ⟨lb, e⟩
  · rw [e] at hne
    rcases hne with ⟨t, h⟩ | ⟨t, h⟩ <;> exact absurd rfl h
  · exact ⟨lb, e⟩

/-! ### Iterators -/

theorem moving_not_idle {q : CoL.Pc} (h : moving q = true) : CoL.isIter q = true ∧ q ≠ .iEnd := by
  cases q <;> simp_all [moving, isIter]

/-- a step of a moving iterator -/
theorem iter_step {l : CoL.State} (hN : 0 < N) (h : CoL.Reach N l) (hm : moving (l.pcs 0) = true) :
    ∃ l', CoL.Step N 0 l l' ∧ isIter (l'.pcs 0) = true ∧ CoL.left N l' 0 < CoL.left N l 0 := by
  have hit : CoL.Iterating l 0 := moving_not_idle hm
  obtain ⟨l', hs, hni⟩ := CoL.C68_iteration_not_stuck hN h hit
  refine ⟨l', hs, ?_, CoL.left_own hN h hs hit hni⟩
  cases hs with
  | push _ h | loadNull h | load h | first h | full h | room h | slot h | over h | late h | alloc h | assign h | remove h
  | readFirst h | readPred h | write h | free h | del h | begin h | beginNull h | copy h | next h | nextOut h =>
    rw [h] at hm; simp [moving] at hm
  | stop h => exact absurd (by simp) hni
  | last h | lastNone h | read h | jump h | jumpOut h | visit h => simp [isIter]
  | hop h ha hd =>
    simp only [upd_same]
    rcases CoL.arrive_cases _ _ with h | h | ⟨d, h⟩ <;> rw [h.1] <;> rfl

/-- what stays as it is while an iterator moves or a removal goes on -/
structure Same (s s' : State) (r : Res) : Prop where
  g : s'.g = s.g
  f : s'.f = s.f
  ent : s'.ent = s.ent
  l : ∀ r', r' ≠ r → s'.l r' = s.l r'
  lk : ∀ r', r' ≠ r → s'.lk r' = s.lk r'

theorem Same.refl (s : State) (r : Res) : Same s s r := ⟨rfl, rfl, rfl, fun _ _ => rfl, fun _ _ => rfl⟩

theorem Same.trans {s s1 s2 : State} {r : Res} (h : Same s s1 r) (h' : Same s1 s2 r) : Same s s2 r :=
  ⟨h'.g.trans h.g, h'.f.trans h.f, h'.ent.trans h.ent, fun r' hr => (h'.l r' hr).trans (h.l r' hr),
    fun r' hr => (h'.lk r' hr).trans (h.lk r' hr)⟩

/-- the iterator of a resource moves to the next element or to the end -/
theorem drive (ht : Tame cfg) (hN : 0 < N) {t : Nat} {r : Res} (hr : Reach cfg N true s) (hl : s.lk r = some t)
    (hit : isIter ((s.l r).pcs 0) = true) :
    ∃ s', Steps cfg N true s s' ∧ Same s s' r ∧ s'.lk r = some t ∧
      ((∃ x, on ((s'.l r).pcs 0) = some x) ∨ (s'.l r).pcs 0 = .iEnd) := by
  have key : ∀ k (s : State), Reach cfg N true s → s.lk r = some t → isIter ((s.l r).pcs 0) = true → CoL.left N (s.l r) 0 ≤ k →
      ∃ s', Steps cfg N true s s' ∧ Same s s' r ∧ s'.lk r = some t ∧
      ((∃ x, on ((s'.l r).pcs 0) = some x) ∨ (s'.l r).pcs 0 = .iEnd) := by
    intro k
    induction k with
    | zero =>
      intro s hr hl hit hk
      refine ⟨s, .refl, .refl _ _, hl, ?_⟩
      by_cases hm : moving ((s.l r).pcs 0) = true
      · obtain ⟨l', h1, h2, h3⟩ := iter_step hN (((Inv.of ht hN hr).ul r).reach.reach) hm
        omega
      · revert hit hm; cases (s.l r).pcs 0 <;> simp [isIter, moving, on]
    | succ k ih =>
      intro s hr hl hit hk
      by_cases hm : moving ((s.l r).pcs 0) = true
      · obtain ⟨l', h1, h2, h3⟩ := iter_step hN (((Inv.of ht hN hr).ul r).reach.reach) hm
        have st : Step cfg N true s _ := .move hl hm h1
        obtain ⟨s', k1, k2, k3, k4⟩ := ih _ (hr.step st) hl (by simpa using h2) (by simp; omega)
        refine ⟨s', Steps.trans (.step .refl st) k1, Same.trans (s1 := { s with l := upd s.l r l' }) ⟨rfl, rfl, rfl, ?_, fun _ _ => rfl⟩ k2, k3, k4⟩
        intro r' hr'; exact upd_ne _ _ hr'
      · refine ⟨s, .refl, .refl _ _, hl, ?_⟩
        revert hit hm; cases (s.l r).pcs 0 <;> simp [isIter, moving, on]
  exact key _ s hr hl hit (Nat.le_refl _)

/-- the iterator over the followers of a post-event moves to the next element or to the end -/
theorem driveF (ht : Tame cfg) (hN : 0 < N) {t : Nat} {rem : List Fol} (hr : Reach cfg N true s) (hl : s.g.fl t = .notifying rem) :
    ∃ s', Steps cfg N true s s' ∧ s'.g = s.g ∧
      ((∃ x, on ((s'.f t).pcs 0) = some x) ∨ (s'.f t).pcs 0 = .iEnd) := by
  have key : ∀ k (s : State), Reach cfg N true s → s.g.fl t = .notifying rem → CoL.left N (s.f t) 0 ≤ k →
      ∃ s', Steps cfg N true s s' ∧ s'.g = s.g ∧
      ((∃ x, on ((s'.f t).pcs 0) = some x) ∨ (s'.f t).pcs 0 = .iEnd) := by
    intro k
    induction k with
    | zero =>
      intro s hr hl hk
      refine ⟨s, .refl, rfl, ?_⟩
      have hF := (Inv.of ht hN hr).fl t
      obtain ⟨L, hT, -⟩ := hF.ntf rem hl
      by_cases hm : moving ((s.f t).pcs 0) = true
      · obtain ⟨l', h1, h2, h3⟩ := iter_step hN hF.reach hm
        omega
      · have hit := hT.it
        revert hit hm; cases (s.f t).pcs 0 <;> simp [isIter, moving, on]
    | succ k ih =>
      intro s hr hl hk
      have hF := (Inv.of ht hN hr).fl t
      obtain ⟨L, hT, -⟩ := hF.ntf rem hl
      by_cases hm : moving ((s.f t).pcs 0) = true
      · obtain ⟨l', h1, h2, h3⟩ := iter_step hN hF.reach hm
        have st : Step cfg N true s _ := .notifyMove hl hm h1
        obtain ⟨s', k1, k2, k3⟩ := ih _ (hr.step st) hl (by simp; omega)
        exact ⟨s', Steps.trans (.step .refl st) k1, k2, k3⟩
      · refine ⟨s, .refl, rfl, ?_⟩
        have hit := hT.it
        revert hit hm; cases (s.f t).pcs 0 <;> simp [isIter, moving, on]
  exact key _ s hr hl (Nat.le_refl _)

/-- `++it` -/
theorem adv_exists {l : CoL.State} {x : Slot} (h : CoL.Reach N l) (ho : on (l.pcs 0) = some x) : ∃ l', Adv N l l' := by
  have hin := (invA h).inner 0
  cases hq : l.pcs 0 <;> rw [hq] at ho hin <;> simp [on] at ho
  rename_i c p
  have hin' : l.al.pcs 0 = .at c := hin
  cases p with
  | zero => exact ⟨_, .nextOut hq (.next hin') (by simp), by simp [hq, on], by simp [isIter]⟩
  | succ p => exact ⟨_, .next hq, by simp [hq, on], by simp [isIter]⟩

/-- the iterator goes out of scope -/
theorem stop_exists {l : CoL.State} (h : CoL.Reach N l) (ho : (on (l.pcs 0)).isSome ∨ l.pcs 0 = .iEnd) :
    ∃ l', CoL.Step N 0 l l' ∧ l'.pcs 0 = .idle := by
  have hin := (invA h).inner 0
  rcases ho with ho | ho
  · cases hq : l.pcs 0 <;> rw [hq] at ho hin <;> simp [on] at ho
    rename_i c p
    have hin' : l.al.pcs 0 = .at c := hin
    exact ⟨_, .stop (.inl (by simp [hq, on])) (.drop hin') (by simp), by simp⟩
  · rw [ho] at hin
    rcases hin with hin | ⟨c, hin⟩
    · exact ⟨_, .stop (.inr ho) (.dropEnd hin) (by simp), by simp⟩
    · exact ⟨_, .stop (.inr ho) (.drop hin) (by simp), by simp⟩

/-! ### Removals -/

theorem rmLeft_pos {q : CoL.Pc} : 0 < CoL.rmLeft q ↔ removing q = true := by cases q <;> simp [CoL.rmLeft, removing]

/-- a removal is completed, the lock is released -/
theorem finish (ht : Tame cfg) (hN : 0 < N) {t : Nat} {r : Res} (hr : Reach cfg N true s) (hl : s.lk r = some t)
    (hd : removing ((s.l r).pcs 0) = true) :
    ∃ s', Steps cfg N true s s' ∧ Same s s' r ∧ s'.lk r = none := by
  have key : ∀ k (s : State), Reach cfg N true s → s.lk r = some t → removing ((s.l r).pcs 0) = true → CoL.rmLeft ((s.l r).pcs 0) ≤ k →
      ∃ s', Steps cfg N true s s' ∧ Same s s' r ∧ s'.lk r = none := by
    intro k
    induction k with
    | zero => intro s hr hl hd hk; have := rmLeft_pos.2 hd; omega
    | succ k ih =>
      intro s hr hl hd hk
      obtain ⟨⟨l', h1⟩, h2⟩ := CoL.C68_remove_wait_free hN (((Inv.of ht hN hr).ul r).reach.reach) (rmLeft_pos.2 hd)
      obtain ⟨h3, h4⟩ := h2 l' h1
      have st : Step cfg N true s _ := .remove hl hd h1
      by_cases e : l'.pcs 0 = .idle
      · refine ⟨_, .step .refl st, ⟨rfl, rfl, rfl, fun r' hr' => upd_ne _ _ hr', ?_⟩, ?_⟩
        · intro r' hr'; simp only [e, if_true]; exact upd_ne _ _ hr'
        · simp [e]
      · have hd' : removing (l'.pcs 0) = true := by
          rw [← rmLeft_pos]
          rcases Nat.eq_zero_or_pos (CoL.rmLeft (l'.pcs 0)) with h | h
          · exact absurd (h4 h) e
          · exact h
        obtain ⟨s', k1, k2, k3⟩ := ih _ (hr.step st) (by simp only [e, if_false]; exact hl) (by simpa using hd') (by simp; omega)
        refine ⟨s', Steps.trans (.step .refl st) k1, Same.trans (s1 := { s with l := upd s.l r l', lk := if l'.pcs 0 = .idle then upd s.lk r none else s.lk }) ⟨rfl, rfl, rfl, fun r' hr' => upd_ne _ _ hr', ?_⟩ k2, k3⟩
        intro r' hr'; simp only [e, if_false]
  exact key _ s hr hl hd (Nat.le_refl _)

/-- who holds a lock without the graph knowing it -/
theorem lk_cases (ht : Tame cfg) (hI : Inv cfg N s) {r : Res} (hl : s.g.lock r = none) :
    (s.lk r = none ∧ (s.l r).pcs 0 = .idle) ∨
    (∃ t i, s.lk r = some t ∧ s.g.ph t = .initing (.next i) ∧ (cfg.res t)[i]? = some r ∧
      First (s.l r) 0 (s.ent (t, i)) ((olderThan (t, i) (s.g.users r)).map s.ent)) ∨
    ∃ t, s.lk r = some t ∧ removing ((s.l r).pcs 0) = true := by
  have hi := Core.reach ht hI.reach
  have hc := (hI.ul r).crit
  generalize hk : s.lk r = k at hc
  cases hc with
  | free h _ => exact .inl ⟨rfl, h⟩
  | @copied t i hp hr _ hF => exact .inr (.inl ⟨t, i, rfl, hp, hr, hF⟩)
  | @del t _ hd => exact .inr (.inr ⟨t, rfl, hd⟩)
  | @trav u j L hr' hT hR =>
    have : s.g.lock r = some u := (hi.lockI r u).2 (by rw [holding_held hR.holding, hr'])
    rw [hl] at this; cases this

/-- graph.cpp:55-57: the traversal begins -/
theorem copied_goes (ht : Tame cfg) (hN : 0 < N) {t i : Nat} {r : Res} (hr : Reach cfg N true s) (hl : s.g.lock r = none)
    (h1 : s.lk r = some t) (h2 : s.g.ph t = .initing (.next i)) (h3 : (cfg.res t)[i]? = some r)
    (h4 : isIter ((s.l r).pcs 0) = true) : Goes cfg N s := by
  obtain ⟨s1, k1, k2, k3, k4⟩ := drive ht hN hr h1 h4
  have hI1 := Inv.of ht hN (k1.reach hr)
  refine .of k1 k2.g ?_
  have hx : ∃ x, on ((s1.l r).pcs 0) = some x := by
    rcases k4 with h | h
    · exact h
    · rcases lk_cases ht hI1 (r := r) (by rw [k2.g]; exact hl) with ⟨a, b⟩ | ⟨u, j, a, b, c, d⟩ | ⟨u, a, b⟩
      · rw [b] at h; cases h
      · rcases d.pc with ⟨e | e, -⟩ | ⟨e, -⟩ <;> rw [h] at e <;> cases e
      · rw [h] at b; cases b
  obtain ⟨x, hx⟩ := hx
  obtain ⟨l', ha⟩ := adv_exists (hI1.ul r).reach.reach hx
  refine .step ht hN hI1 (.first (i := i) (by rw [k2.g]; exact h2) h3 k3 ha) (.inl ⟨t, ?_⟩) rfl rfl rfl
  rw [k2.g, h2]; simp

/-- the lock can be acquired, or the graph gets on -/
theorem get_lock (ht : Tame cfg) (hN : 0 < N) {r : Res} (hr : Reach cfg N true s) (hl : s.g.lock r = none) :
    Goes cfg N s ∨ ∃ s', Steps cfg N true s s' ∧ Same s s' r ∧ s'.lk r = none ∧ (s'.l r).pcs 0 = .idle := by
  have hI := Inv.of ht hN hr
  rcases lk_cases ht hI hl with ⟨h1, h2⟩ | ⟨t, i, h1, h2, h3, h4⟩ | ⟨t, h1, h2⟩
  · exact .inr ⟨s, .refl, .refl _ _, h1, h2⟩
  · exact .inl (copied_goes ht hN hr hl h1 h2 h3 h4.it)
  · right
    obtain ⟨s1, k1, k2, k3⟩ := finish ht hN hr h1 h2
    refine ⟨s1, k1, k2, k3, ?_⟩
    rcases lk_cases ht (Inv.of ht hN (k1.reach hr)) (r := r) (by rw [k2.g]; exact hl) with ⟨a, b⟩ | ⟨u, j, a, -⟩ | ⟨u, a, -⟩
    · exact b
    · rw [k3] at a; cases a
    · rw [k3] at a; cases a

/-- a task that has finished completes its removals -/
theorem release (ht : Tame cfg) (hN : 0 < N) {t : Nat} (rs : List Res) (hr : Reach cfg N true s) (h : s.g.fl t ≠ .idle) :
    ∃ s', Steps cfg N true s s' ∧ s'.g = s.g ∧ ∀ r ∈ rs, s'.lk r ≠ some t := by
  have key : ∀ s : State, Reach cfg N true s → s.g.fl t ≠ .idle →
      ∃ s', Steps cfg N true s s' ∧ s'.g = s.g ∧ (∀ r, s'.lk r = some t → s.lk r = some t) ∧ ∀ r ∈ rs, s'.lk r ≠ some t := by
    induction rs with
    | nil => intro s hr h; exact ⟨s, .refl, rfl, fun _ h => h, fun _ h => nomatch h⟩
    | cons r rs ih =>
      intro s hr h
      have hI := Inv.of ht hN hr
      have hi := Core.reach ht hI.reach
      by_cases e : s.lk r = some t
      · have hin : s.g.ph t = .inited := Decidable.byContradiction fun e => h (hi.idle_of_ph t e)
        have hrm : removing ((s.l r).pcs 0) = true := by
          have hc := (hI.ul r).crit
          rw [e] at hc
          cases hc with
          | copied hp => rw [hin] at hp; cases hp
          | trav hr' hT hR => rw [hin] at hR; exact hR.elim
          | del _ hd => exact hd
        obtain ⟨s1, k1, k2, k3⟩ := finish ht hN hr e hrm
        obtain ⟨s', j1, j2, j3, j4⟩ := ih s1 (k1.reach hr) (by rw [k2.g]; exact h)
        refine ⟨s', k1.trans j1, j2.trans k2.g, ?_, ?_⟩
        · intro r' hr'
          have := j3 r' hr'
          by_cases e' : r' = r
          · subst e'; exact e
          · rw [← k2.lk r' e']; exact this
        · intro r' hm
          rcases List.mem_cons.1 hm with rfl | hm
          · intro e'; have := j3 r' e'; rw [k3] at this; cases this
          · exact j4 r' hm
      · obtain ⟨s', j1, j2, j3, j4⟩ := ih s hr h
        refine ⟨s', j1, j2, j3, ?_⟩
        intro r' hm
        rcases List.mem_cons.1 hm with rfl | hm
        · exact fun e' => e (j3 r' e')
        · exact j4 r' hm
  obtain ⟨s', h1, h2, -, h3⟩ := key s hr h
  exact ⟨s', h1, h2, h3⟩

/-! ### Pushes -/

/-- a step inside of `push` that does not store the value -/
theorem push_step {l l' : CoL.State} {t v : Nat} (hp : pushed (l.pcs t) = some v) (hn : ∀ c k, l.pcs t ≠ .pAsg v c k)
    (hr : CoL.Reach N l) (hs : CoL.Step N t l l') : pushed (l'.pcs t) = some v ∧ l'.log = l.log := by
  rcases CoL.C27_returns_after_storing hr hp hs with ⟨a, b, -⟩ | ⟨a, x, b, -⟩
  · exact ⟨a, b⟩
  · cases hs with
    | assign h => rw [h] at hp; simp [pushed] at hp; subst hp; exact absurd h (hn _ _)
    | push _ h | loadNull h | load h | first h | full h | room h | slot h | over h | late h | alloc h | remove h
    | readFirst h | readPred h | write h | free h | del h | begin h | beginNull h | copy h | last h | lastNone h | read h
    | visit h | next h | nextOut h | hop h | jump h | jumpOut h | stop h =>
      have := congrArg List.length b
      simp at this

/-- a push to the users that has begun -/
theorem users_push (ht : Tame cfg) (hN : 0 < N) {t i : Nat} {r : Res} (hr : Reach cfg N true s)
    (h : s.g.ph t = .submitting i) (hi : (cfg.res t)[i]? = some r) (hp : pushed ((s.l r).pcs (t + 1)) = some t) :
    Goes cfg N s := by
  have hI := Inv.of ht hN hr
  obtain ⟨u, l', hu, ho, -, x, hst, -⟩ := CoL.C68_push_completes hN (hI.ul r).reach.reach hp
  have one := (CoL.asg_last (hI.ul r).reach).1
  have hu' : u = t + 1 := by
    rcases hu with hu | ⟨w, c, hu⟩
    · exact hu
    · exact one u (t + 1) (by rw [hu]; rfl) (CoL.pushing_iff.2 ⟨t, hp⟩)
  subst hu'
  have key : ∀ l l', Only N (fun x => x = t + 1 ∨ x = t + 1) l l' → ∀ s, s.l r = l → Reach cfg N true s → s.g.ph t = .submitting i →
      pushed (l.pcs (t + 1)) = some t → l'.log ≠ l.log → Goes cfg N s := by
    intro l l' ho
    induction ho with
    | refl => intro s _ _ _ _ h; exact absurd rfl h
    | @step u l l1 l2 hu hs _ ih =>
      have hu : u = t + 1 := hu.elim id id
      subst hu
      intro s e hr h hp hl
      subst e
      have hI := Inv.of ht hN hr
      have one := (CoL.asg_last (hI.ul r).reach).1
      by_cases ha : ∃ c k, (s.l r).pcs (t + 1) = .pAsg t c k
      · obtain ⟨c, k, ha⟩ := ha
        refine .step ht hN hI (.assign h hi ha hs) (.inl ⟨t, ?_⟩) rfl rfl rfl
        rw [h]; simp
      · obtain ⟨p1, p2⟩ := push_step hp (fun c k e => ha ⟨c, k, e⟩) (hI.ul r).reach.reach hs
        have st : Step cfg N true s _ := .push h hi hs p1 fun _ u hu => by
          cases hq : pushing ((s.l r).pcs u) with
          | false => rfl
          | true => exact absurd (one u (t + 1) hq (CoL.pushing_iff.2 ⟨t, hp⟩)) hu
        exact .of (.step .refl st) rfl (ih _ (upd_same _ _ _) (hr.step st) h p1 (by rw [p2]; exact hl))
  exact key _ _ ho s rfl hr h hp (by rw [hst]; simp)

/-- the followers: a slot will be reserved -/
theorem fol_push (ht : Tame cfg) (hN : 0 < N) {t q : Nat} {F : Fol} (hr : Reach cfg N true s)
    (h : target cfg s.g t = some (q, F)) : Goes cfg N s := by
  have main : ∀ s : State, Reach cfg N true s → target cfg s.g t = some (q, F) → pushed ((s.f q).pcs (t + 1)) = some (code F) →
      Goes cfg N s := by
    intro s hr h hp
    have hF := (Inv.of ht hN hr).fl q
    obtain ⟨u, f', hu, ho, -, x, hst, -⟩ := CoL.C68_push_completes hN hF.reach hp
    -- `P`: the threads that run
    have key : ∀ P : Nat → Prop, ∀ f f', Only N P f f' → ∀ s, s.f q = f → Reach cfg N true s →
        (∀ x, P x → ∃ t F, x = t + 1 ∧ target cfg s.g t = some (q, F) ∧ pushed (f.pcs x) = some (code F) ∧
          ∀ v c k, f.pcs x ≠ .pAsg v c k) → f'.log ≠ f.log → Goes cfg N s := by
      intro P f f' ho
      induction ho with
      | refl => intro s _ _ _ h; exact absurd rfl h
      | @step u f f1 f2 hu hs _ ih =>
        intro s e hr hP hl
        subst e
        have hI := Inv.of ht hN hr
        obtain ⟨t, F, rfl, h, hp, hn⟩ := hP u hu
        obtain ⟨p1, p2⟩ := push_step hp (fun c k => hn _ c k) (hI.fl q).reach hs
        by_cases ha : ∃ v c k, f1.pcs (t + 1) = .pAsg v c k
        · obtain ⟨v, c, k, ha⟩ := ha
          unfold target at h
          split at h
          · rename_i i p rem e
            simp only [Option.some.injEq, Prod.mk.injEq] at h
            obtain ⟨rfl, rfl⟩ := h
            refine .step ht hN hI (.link e hs ha) (.inl ⟨t, ?_⟩) rfl rfl rfl
            rw [e]; simp
          · rename_i e
            cases hq : cfg.parentOf t with
            | none => rw [hq] at h; cases h
            | some p =>
              rw [hq] at h
              simp only [Option.map_some, Option.some.injEq, Prod.mk.injEq] at h
              obtain ⟨rfl, rfl⟩ := h
              refine .step ht hN hI (.parentPush e hq hs ha) (.inl ⟨t, ?_⟩) rfl rfl rfl
              rw [e]; simp
          · cases h
        · have hn' : ∀ v c k, f1.pcs (t + 1) ≠ .pAsg v c k := fun v c k e => ha ⟨v, c, k, e⟩
          have st : Step cfg N true s _ := .fpush h hs p1 hn'
          refine .of (.step .refl st) rfl (ih _ (upd_same _ _ _) (hr.step st) ?_ (by rw [p2]; exact hl))
          intro x hx
          by_cases e : x = t + 1
          · subst e; exact ⟨t, F, rfl, h, p1, hn'⟩
          · obtain ⟨t', F', h1, h2, h3, h4⟩ := hP x hx
            rw [CoL.pcs_frame hs e]
            exact ⟨t', F', h1, h2, h3, h4⟩
    have hthr : ∀ x v, pushed ((s.f q).pcs x) = some v → (∀ v c k, (s.f q).pcs x ≠ .pAsg v c k) →
        ∃ t F, x = t + 1 ∧ target cfg s.g t = some (q, F) ∧ pushed ((s.f q).pcs x) = some (code F) ∧
          ∀ v c k, (s.f q).pcs x ≠ .pAsg v c k := by
      intro x v hx hn
      cases x with
      | zero =>
        exfalso
        by_cases hne : ∃ rem, s.g.fl q = .notifying rem
        · obtain ⟨rem, hne⟩ := hne
          obtain ⟨L, hT, -⟩ := hF.ntf rem hne
          have := hT.it
          revert hx this; cases (s.f q).pcs 0 <;> simp [isIter, pushed]
        · rw [hF.idl fun rem e => hne ⟨rem, e⟩] at hx; cases hx
      | succ t' =>
        rcases hF.thr t' (fun e => by rw [e] at hx; cases hx) with ⟨F, a, b, c⟩ | ⟨a, v, c, k, b⟩
        · exact ⟨t', F, rfl, a, b, c⟩
        · exact absurd b (hn _ _ _)
    have hnt : ∀ v c k, (s.f q).pcs (t + 1) ≠ .pAsg v c k := by
      rcases hF.thr t (fun e => by rw [e] at hp; cases hp) with ⟨F, a, b, c⟩ | ⟨a, -⟩
      · exact c
      · unfold target at h
        unfold target' at a
        split at h <;> simp_all
    refine key _ _ _ ho s rfl hr ?_ (by rw [hst]; simp)
    intro x hx
    rcases hx with rfl | rfl
    · exact hthr _ _ hp hnt
    · rcases hu with rfl | ⟨w, c, hu⟩
      · exact hthr _ _ hp hnt
      · exact hthr _ w (by rw [hu]; rfl) (by rw [hu]; simp)
  by_cases e : (s.f q).pcs (t + 1) = .idle
  · have st : Step cfg N true s _ := .fpush h (.push (code F) e) (by simp [pushed]) (by simp)
    exact .of (.step .refl st) rfl (main _ (hr.step st) h (by simp [pushed]))
  · refine main s hr h ?_
    have hF := (Inv.of ht hN hr).fl q
    rcases hF.thr t e with ⟨F', a, b, c⟩ | ⟨a, -⟩
    · rw [h] at a; cases a; exact b
    · unfold target at h
      unfold target' at a
      split at h <;> simp_all

/-- the value has been stored -/
theorem fol_stored (ht : Tame cfg) (hN : 0 < N) {t q : Nat} (hr : Reach cfg N true s) (h : target' s.g t = some q) :
    ∃ s', Steps cfg N true s s' ∧ s'.g = s.g ∧ s'.l = s.l ∧ s'.lk = s.lk ∧ s'.ent = s.ent ∧ (s'.f q).pcs (t + 1) = .idle := by
  by_cases e : (s.f q).pcs (t + 1) = .idle
  · exact ⟨s, .refl, rfl, rfl, rfl, rfl, e⟩
  · rcases ((Inv.of ht hN hr).fl q).thr t e with ⟨F', a, b, c⟩ | ⟨a, v, c, k, b⟩
    · unfold target at a
      unfold target' at h
      split at a <;> simp_all
    · have st : Step cfg N true s _ := .fassign h b (.assign b)
      exact ⟨_, .step .refl st, rfl, rfl, rfl, rfl, by simp⟩

/-! ### All steps of the graph -/

/-- a step that is not part of an operation on a list -/
theorem other_goes {lb : Graph.Lbl} {g1 : Graph.State} (h : Graph.Step cfg lb s.g g1)
    (hp : ∀ t, busy cfg s.g t = true → g1.ph t = s.g.ph t) (hf : ∀ t, flBusy s.g t = true → g1.fl t = s.g.fl t)
    (hw : OwnWork cfg s.g g1) : Goes cfg N s :=
  ⟨_, .step .refl (.other h hp hf), hw⟩

/-- the traversal of the users gets on -/
theorem scan_goes (ht : Tame cfg) (hN : 0 < N) {t i : Nat} {rem : List Entry} (hr : Reach cfg N true s)
    (h : s.g.ph t = .initing (.scan i rem)) : Goes cfg N s := by
  have hI := Inv.of ht hN hr
  have hi := Core.reach ht hI.reach
  obtain ⟨r, hri⟩ := hi.holdR t i (by rw [h]; rfl)
  obtain ⟨hlk, L, hT, -⟩ := (hI.ul r).crit.of_held hi (i := i) (by rw [h]; rfl) hri
  obtain ⟨s1, k1, k2, k3, k4⟩ := drive ht hN hr hlk hT.it
  refine .of k1 k2.g ?_
  have hI1 := Inv.of ht hN (k1.reach hr)
  have hi1 := Core.reach ht hI1.reach
  rw [← k2.g] at h
  obtain ⟨-, L1, hT1, hR1⟩ := (hI1.ul r).crit.of_held hi1 (i := i) (by rw [h]; rfl) hri
  rcases k4 with ⟨x, hx⟩ | he
  · rw [h] at hR1
    have hR2 := hR1.2
    unfold front at hR2
    rw [hx] at hR2
    cases rem with
    | nil => cases hR2
    | cons e rem =>
      simp only [List.map_cons, List.cons.injEq] at hR2
      have hm := users_hist hi1 (hi1.scanI t i _ r h hri e (.head _))
      have hv := (hI1.ul r).val hm
      rw [hR2.1] at hv
      obtain ⟨l', ha⟩ := adv_exists (hI1.ul r).reach.reach hx
      have ne : ∀ q : IPc, q ≠ .scan i (e :: rem) → upd s1.g.ph t (.initing q) t ≠ s1.g.ph t := by
        intro q hq e'; rw [h] at e'; simp at e'; exact hq e'
      have ne' : rem ≠ e :: rem := fun e' => by have := congrArg List.length e'; simp at this
      by_cases hp : cfg.parentOf t = some e.1
      · exact .step ht hN hI1 (.scanParent h hri hx hv hp) (.inl ⟨t, ne _ (by simp)⟩) rfl rfl rfl
      · by_cases hc : cfg.space e.1 = cfg.space t ∧ cfg.serial e.1 t = true
        · by_cases h0 : s1.g.post e.1 = 0
          · refine .step ht hN hI1 (.scanReached (l' := if cfg.sync e.1 r then s1.l r else l') h hri hx hv hp hc h0 ?_)
              (.inl ⟨t, ne _ ?_⟩) rfl rfl rfl
            · split
              · rfl
              · exact ha
            · split
              · simp
              · simp [ne']
          · exact .step ht hN hI1 (.scanLink h hri hx hv hp hc h0) (.inl ⟨t, ne _ (by simp)⟩) rfl rfl rfl
        · exact .step ht hN hI1 (.scanSkip h hri hx hv hp hc ha) (.inl ⟨t, ne _ (by simp [ne'])⟩) rfl rfl rfl
  · refine .step ht hN hI1 (.scanEnd h hri he) (.inl ⟨t, ?_⟩) rfl rfl rfl
    rw [h]; simp

/-- the notification of the followers gets on -/
theorem notify_goes (ht : Tame cfg) (hN : 0 < N) {p : Nat} {rem : List Fol} (hr : Reach cfg N true s)
    (h : s.g.fl p = .notifying rem) : Goes cfg N s := by
  obtain ⟨s1, k1, k2, k3⟩ := driveF ht hN hr h
  refine .of k1 k2 ?_
  have hI1 := Inv.of ht hN (k1.reach hr)
  rw [← k2] at h
  have hF := hI1.fl p
  obtain ⟨L, hT, R, r1, r2, r3⟩ := hF.ntf rem h
  rcases k3 with ⟨x, hx⟩ | he
  · unfold front at r3
    rw [hx] at r3
    cases R with
    | nil => cases r3
    | cons q R =>
      simp only [List.map_cons, List.cons.injEq] at r3
      have hv := r1 q (.head _)
      rw [r3.1] at hv
      obtain ⟨f', ha⟩ := adv_exists hF.reach hx
      have ne' : rem.tail ≠ rem := fun e' => by subst r2; have := congrArg List.length e'; simp at this
      obtain ⟨y, F⟩ := q
      cases F with
      | pre t =>
        refine .step ht hN hI1 (.notifyPre h hx hv ha) (.inr ⟨p, ?_⟩) rfl rfl rfl
        rw [h]; simp [Graph.State.decPre, ne']
      | post q =>
        refine .step ht hN hI1 (.notifyPost h hx hv ha) (.inr ⟨p, ?_⟩) rfl rfl rfl
        rw [h]
        simp only [Graph.State.decPost, upd]
        split
        · split
          · simp
          · simp_all
        · simp [ne']
  · obtain ⟨f', h1, h2⟩ := stop_exists hF.reach (.inr he)
    refine .step ht hN hI1 (.notifyEnd h he h1 h2) (.inr ⟨p, ?_⟩) rfl rfl rfl
    rw [h]; simp

theorem val_rank {l : CoL.State} (h : CoL.Reach N l) {x : Slot} (hv : l.val x ≠ none) : ∃ k, l.al.rank x.1 = some k := by
  have := (invB h).valLt _ _ hv
  cases hr : l.al.rank x.1 with
  | none => have := (invB h).unranked x.1 hr; omega
  | some r => exact ⟨r, rfl⟩

/-- If the graph could make a step with lists whose operations are atomic, then it gets on with the lock-free lists. -/
theorem goes (ht : Tame cfg) (hN : 0 < N) (hr : Reach cfg N true s) {g1 : Graph.State} (hw : OwnWork cfg s.g g1) :
    Goes cfg N s := by
  have hI := Inv.of ht hN hr
  have hi := Core.reach ht hI.reach
  have hw' := hw
  obtain ⟨⟨⟨lb, h⟩, hn, hnE⟩, hfut⟩ := hw'
  have hst := h
  have ph1 : ∀ t q x, s.g.ph t = q → (∀ i, q = .submitting i → i = (cfg.res t).length) →
      (∀ i, q = .initing (.next i) → i = (cfg.res t).length) → (q = .initing .parent → cfg.parentOf t = none) →
      (q = .submitting (cfg.res t).length ∨ q = .queued ∨ q = .initing (.next (cfg.res t).length) ∨ q = .initing .parent ∨ q = .initing .final) →
      ∀ u, busy cfg s.g u = true → upd s.g.ph t x u = s.g.ph u := by
    intro t q x e a1 a2 a3 a4 u hu
    by_cases e' : u = t
    · subst e'
      exfalso
      unfold busy at hu
      rw [e] at hu
      rcases a4 with rfl | rfl | rfl | rfl | rfl <;> simp_all
    · exact upd_ne _ _ e'
  cases h with
  | beginSubmit _ _ => simp at hn
  | createEvent _ => simp at hnE
  | emplace h hr' =>
    subst hr'
    exact other_goes hst (ph1 _ _ _ h (by simp) (by simp) (by simp) (by simp)) (fun _ _ => rfl) hw
  | startInit h => exact other_goes hst (ph1 _ _ _ h (by simp) (by simp) (by simp) (by simp)) (fun _ _ => rfl) hw
  | resEnd h hr' =>
    subst hr'
    exact other_goes hst (ph1 _ _ _ h (by simp) (by simp) (by simp) (by simp)) (fun _ _ => rfl) hw
  | noParent h hp => exact other_goes hst (ph1 _ _ _ h (by simp) (by simp) (fun _ => hp) (by simp)) (fun _ _ => rfl) hw
  | final h => exact other_goes hst (ph1 _ _ _ h (by simp) (by simp) (by simp) (by simp)) (fun _ _ => rfl) hw
  | start _ | extNotify _ | takeFuture _ | countGet _ | freeCount _ | free _ | lateRead _ =>
    exact other_goes hst (fun _ _ => rfl) (fun _ _ => rfl) hw
  | extFollower h =>
    refine other_goes hst (fun _ _ => rfl) ?_ hw
    intro t hb
    have := hi.flPost' t
    simp only [Graph.State.decPost, upd]
    split <;> (try split) <;> simp_all [flBusy]
  | bodyEnd h _ _ =>
    refine other_goes hst (fun _ _ => rfl) ?_ hw
    intro t hb
    have := hi.flPost' t
    simp only [Graph.State.decPost, upd]
    split <;> (try split) <;> simp_all [flBusy]
  | @countPost _ t h =>
    refine other_goes hst (fun _ _ => rfl) ?_ hw
    intro u hb
    have hne : u ≠ t := fun e => by rw [e] at hb; simp [flBusy, h] at hb
    simp only [Graph.State.decCd]
    exact upd_ne _ _ hne
  | @pushUser _ t i r h hr' =>
    by_cases hx : ∃ u, u ≠ t + 1 ∧ pushing ((s.l r).pcs u) = true
    · obtain ⟨u, -, hu⟩ := hx
      cases u with
      | zero =>
        exfalso
        have hc := (hI.ul r).crit
        generalize s.lk r = k at hc
        cases hc with
        | free h _ => rw [h] at hu; cases hu
        | copied _ _ _ hF => have := not_pushing_iter hF.it; rw [hu] at this; cases this
        | trav _ hT _ => have := not_pushing_iter hT.it; rw [hu] at this; cases this
        | del _ hd => revert hu hd; cases (s.l r).pcs 0 <;> simp [pushing, removing]
      | succ u =>
        obtain ⟨a, j, b, c⟩ := (hI.ul r).usr u (fun e => by rw [e] at hu; cases hu)
        exact users_push ht hN hr b c a
    · have hx' : ∀ u, u ≠ t + 1 → pushing ((s.l r).pcs u) = false := by
        intro u hu
        cases hq : pushing ((s.l r).pcs u) with
        | false => rfl
        | true => exact absurd ⟨u, hu, hq⟩ hx
      by_cases e : (s.l r).pcs (t + 1) = .idle
      · have st : Step cfg N true s _ := .push h hr' (.push t e) (by simp [pushed]) fun _ => hx'
        exact .of (.step .refl st) rfl (users_push ht hN (hr.step st) h hr' (by simp [pushed]))
      · exact users_push ht hN hr h hr' ((hI.ul r).usr t e).1
  | @lockRes _ t i r h hr' hl =>
    rcases get_lock ht hN hr hl with hg | ⟨s1, k1, k2, k3, k4⟩
    · exact hg
    · refine .of k1 k2.g ?_
      have hr1 := k1.reach hr
      have hI1 := Inv.of ht hN hr1
      have hi1 := Core.reach ht hI1.reach
      rw [← k2.g] at h hl
      have hm : (t, i) ∈ s1.g.hist r := (hi1.histMem r t i).2 ⟨hr', by rw [h]; trivial⟩
      have hv := (hI1.ul r).val' hm
      have hR := (hI1.ul r).reach.reach
      obtain ⟨k, hk⟩ := val_rank hR hv
      have hin := (invA hR).inner 0
      rw [k4] at hin
      have hs : CoL.Step N 0 (s1.l r) _ := .copy (c := (s1.ent (t, i)).1) (p := (s1.ent (t, i)).2) k4 hv
        (.copy hin hk) (by simp) hk (by simp)
      have st : Step cfg N true s1 _ := .lock h hr' k3 k4 hs (by simp)
      refine .of (.step .refl st) rfl ?_
      exact copied_goes ht hN (hr1.step st) hl (by simp) h hr' (by simp [isIter])
  | scanParent h _ | scanSkip h _ _ | scanReached h _ _ _ _ | scanLink h _ _ _ | scanEnd h => exact scan_goes ht hN hr h
  | link h => exact fol_push ht hN hr (by unfold target; rw [h])
  | parentPush h hp => exact fol_push ht hN hr (by unfold target; rw [h, hp]; rfl)
  | @incr _ t i p rem r h hr' =>
    obtain ⟨s1, k1, k2, k3, k4, k5, k6⟩ := fol_stored ht hN (t := t) (q := p.1) hr (by unfold target'; rw [h])
    refine .of k1 k2 ?_
    have hI1 := Inv.of ht hN (k1.reach hr)
    have hi1 := Core.reach ht hI1.reach
    rw [← k2] at h
    obtain ⟨-, L1, hT1, hR1⟩ := (hI1.ul r).crit.of_held hi1 (i := i) (by rw [h]; rfl) hr'
    rw [h] at hR1
    obtain ⟨l', ha⟩ := adv_exists (hI1.ul r).reach.reach hR1.2.1
    refine .step ht hN hI1 (.incr (l' := if cfg.sync p.1 r then s1.l r else l') h hr' k6 ?_) (.inl ⟨t, ?_⟩) rfl rfl rfl
    · split
      · rfl
      · exact ha
    · rw [h]; simp only [upd_same]; split <;> simp
  | @parentIncr _ t q h =>
    obtain ⟨s1, k1, k2, k3, k4, k5, k6⟩ := fol_stored ht hN (t := t) (q := t) hr (by unfold target'; rw [h])
    refine .of k1 k2 ?_
    have hI1 := Inv.of ht hN (k1.reach hr)
    rw [← k2] at h
    refine .step ht hN hI1 (.parentIncr h k6) (.inl ⟨t, ?_⟩) rfl rfl rfl
    rw [h]; simp
  | @unlock _ t i r h hr' =>
    obtain ⟨-, L, hT, hR⟩ := (hI.ul r).crit.of_held hi (i := i) (by rw [h]; rfl) hr'
    rw [h] at hR
    obtain ⟨l', h1, h2⟩ := stop_exists (hI.ul r).reach.reach hR.2
    refine .step ht hN hI (.unlock h hr' h1 h2) (.inl ⟨t, ?_⟩) rfl rfl rfl
    rw [h]; simp
  | @delete _ t i r h hr' hl =>
    obtain ⟨s0, j1, j2, j3⟩ := release ht hN (t := t) (cfg.res t) hr (by rw [h]; simp)
    refine .of j1 j2 ?_
    rw [← j2] at h hl
    have hr0 := j1.reach hr
    rcases get_lock ht hN hr0 hl with hg | ⟨s1, k1, k2, k3, k4⟩
    · exact hg
    · refine .of k1 k2.g ?_
      have hI1 := Inv.of ht hN (k1.reach hr0)
      have hi1 := Core.reach ht hI1.reach
      rw [← k2.g] at h hl
      have hin : s1.g.ph t = .inited := Decidable.byContradiction fun e => by
        have := hi1.idle_of_ph t e
        rw [h] at this; cases this
      have hm : (t, i) ∈ s1.g.hist r := (hi1.histMem r t i).2 ⟨hr', by rw [hin]; trivial⟩
      have hv := (hI1.ul r).val' hm
      have hrm : (s1.l r).removed (s1.ent (t, i)) = false := by
        rw [(hI1.ul r).rmv _ hm, h]; simp [notDel]
      have hs : CoL.Step N 0 (s1.l r) _ := .remove k4 hv hrm
      refine .step ht hN hI1 (.delete h hr' k3 ?_ k4 hs (by simp)) (.inr ⟨t, ?_⟩) rfl rfl rfl
      · intro r' hm' e
        by_cases e' : r' = r
        · subst e'; rw [k3] at e; cases e
        · rw [k2.lk r' e'] at e; exact j3 r' hm' e
      · rw [h]; simp
  | @deleteEnd _ t i h hr' =>
    obtain ⟨s0, j1, j2, j3⟩ := release ht hN (t := t) (cfg.res t) hr (by rw [h]; simp)
    refine .of j1 j2 ?_
    rw [← j2] at h
    have hI0 := Inv.of ht hN (j1.reach hr)
    have hF := hI0.fl t
    have h0 := hF.idl (fun rem e => by rw [h] at e; cases e)
    have hin := (invA hF.reach).inner 0
    rw [h0] at hin
    have ne : upd s0.g.fl t (Fl.notifying (s0.g.fol t)) t ≠ s0.g.fl t := by rw [h]; simp
    cases hh : (s0.f t).al.head with
    | none =>
      have hs : CoL.Step N 0 (s0.f t) _ := .beginNull h0 (.rbeginEnd hin hh) (by simp)
      exact .step ht hN hI0 (.notifyBegin h hr' j3 h0 hs (by simp)) (.inr ⟨t, ne⟩) rfl rfl rfl
    | some c =>
      have hs : CoL.Step N 0 (s0.f t) _ := .begin (c := c) h0 (.rbegin hin hh) (by simp) (by simp)
      exact .step ht hN hI0 (.notifyBegin h hr' j3 h0 hs (.inr ⟨c, by simp⟩)) (.inr ⟨t, ne⟩) rfl rfl rfl
  | notifyPre h | notifyPost h | notifyEnd h => exact notify_goes ht hN hr h

end RG.GList
