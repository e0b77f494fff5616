import Verif.Lemmas.GraphDom
/-
Invariants of the task graph, part 2: lists, locks, counters and life cycle.
-/
set_option linter.unusedVariables false
namespace RG.Graph

/-- entry `i` of a task in phase `p` has been pushed to the users of its resource -/
def Pushed : Ph → Nat → Prop
  | .unsub, _ => False
  | .submitting k, i => i < k
  | _, _ => True

/-- entry `i` of a task has not been removed from the users of its resource -/
def notDel : Fl → Nat → Bool
  | .idle, _ => true
  | .deleting k, i => decide (k ≤ i)
  | _, _ => false

/-- the resource whose lock is held by the initialisation of task `t` -/
def held (cfg : Cfg) (t : Nat) : Ph → Option Res
  | .initing (.scan i _) => (cfg.res t)[i]?
  | .initing (.link i _ _) => (cfg.res t)[i]?
  | .initing (.incr i _ _) => (cfg.res t)[i]?
  | .initing (.unlock i) => (cfg.res t)[i]?
  | _ => none

/-- the index of this resource -/
def holding : Ph → Option Nat
  | .initing (.scan i _) => some i
  | .initing (.link i _ _) => some i
  | .initing (.incr i _ _) => some i
  | .initing (.unlock i) => some i
  | _ => none

/-- the initialisation of the task has begun -/
def begun : Ph → Bool
  | .initing _ => true
  | .inited => true
  | _ => false

def own (x : Ex) : Nat := if x = .none then 1 else 0

def body (x : Ex) : Nat := if x = .ended then 0 else 1

def guard : Ph → Nat
  | .initing _ => 1
  | _ => 0

/-- the predecessor to which the task has been added as a follower before its own counter -/
def linking : Ph → Option Nat
  | .initing (.incr _ p _) => some p.1
  | _ => none

/-- what predecessor `p` contributes to the counter of task `t` -/
def wpre (pnd : Nat → List Fol) (ph : Nat → Ph) (t p : Nat) : Nat :=
  (pnd p).count (.pre t) - (if linking (ph t) = some p then 1 else 0)

/-- what child `c` contributes to the counter of task `t` -/
def wpost (pnd : Nat → List Fol) (ph : Nat → Ph) (t c : Nat) : Nat :=
  (pnd c).count (.post t) - (if ph c = .initing (.pincr t) then 1 else 0)

/-- what event `k` contributes to the counter of task `t` -/
def wext (owner : Nat → Nat) (ext : Nat → Ext) (t k : Nat) : Nat :=
  if owner k = t ∧ ext k ≠ .done then 1 else 0

def cpre (n : Nat) (pnd : Nat → List Fol) (ph : Nat → Ph) (t : Nat) : Nat := sumTo n (wpre pnd ph t)
def cpost (n : Nat) (pnd : Nat → List Fol) (ph : Nat → Ph) (t : Nat) : Nat := sumTo n (wpost pnd ph t)
def cext (n : Nat) (owner : Nat → Nat) (ext : Nat → Ext) (t : Nat) : Nat := sumTo n (wext owner ext t)

/-- either task bodies wait until their children are initialised, or there are no child tasks -/
def Tame (cfg : Cfg) : Prop := cfg.strict = true ∨ ∀ sp, cfg.parent sp = none

structure Core (cfg : Cfg) (s : State) : Prop where
  pndIdle : ∀ p, s.fl p = .idle → s.pnd p = s.fol p
  pndDel : ∀ p i, s.fl p = .deleting i → s.pnd p = s.fol p
  pndNot : ∀ p rem, s.fl p = .notifying rem → s.pnd p = rem
  pndCnt : ∀ p, s.fl p = .counting → s.pnd p = []
  pndDone : ∀ p, s.fl p = .done → s.pnd p = []
  histMem : ∀ r t i, (t, i) ∈ s.hist r ↔ (cfg.res t)[i]? = some r ∧ Pushed (s.ph t) i
  histNodup : ∀ r, (s.hist r).Nodup
  usersEq : ∀ r, s.users r = (s.hist r).filter fun e => notDel (s.fl e.1) e.2
  lockI : ∀ r t, s.lock r = some t ↔ held cfg t (s.ph t) = some r
  holdR : ∀ t i, holding (s.ph t) = some i → ∃ r, (cfg.res t)[i]? = some r
  idxSub : ∀ t i, s.ph t = .submitting i → i ≤ (cfg.res t).length
  idxNext : ∀ t i, s.ph t = .initing (.next i) → i ≤ (cfg.res t).length
  idxDel : ∀ t i, s.fl t = .deleting i → i ≤ (cfg.res t).length
  scanI : ∀ t i rem r, s.ph t = .initing (.scan i rem) → (cfg.res t)[i]? = some r → ∀ e ∈ rem, e ∈ s.users r
  linkI : ∀ t i p rem r, s.ph t = .initing (.link i p rem) → (cfg.res t)[i]? = some r → p ∈ s.users r ∧ ∀ e ∈ rem, e ∈ s.users r
  incrI : ∀ t i p rem r, s.ph t = .initing (.incr i p rem) → (cfg.res t)[i]? = some r → p ∈ s.users r ∧ .pre t ∈ s.pnd p.1 ∧ ∀ e ∈ rem, e ∈ s.users r
  tgtPre : ∀ p t, .pre t ∈ s.pnd p → begun (s.ph t) = true
  tgtPost : ∀ p q, .post q ∈ s.pnd p → cfg.parentOf p = some q
  preEq : ∀ t, s.pre t = own (s.ex t) + guard (s.ph t) + cpre s.n s.pnd s.ph t
  postEq : ∀ t, s.post t = body (s.ex t) + cext s.nExt s.owner s.ext t + cpost s.n s.pnd s.ph t
  flPost : ∀ t, s.fl t = .idle ↔ s.post t ≠ 0
  handedEq : ∀ t, s.handed t = if s.ph t = .inited ∧ s.ex t = .none ∧ s.pre t = 1 then 1 else 0
  startsEq : ∀ t, s.starts t = if s.ex t = .none then 0 else 1
  exI : ∀ t, s.ex t ≠ .none → s.ph t = .inited ∧ s.pre t = 0
  kids : ∀ c q, c < s.n → cfg.parentOf c = some q → s.ex q = .ended → s.ph c = .inited
  pincrI : ∀ c q, s.ph c = .initing (.pincr q) → cfg.parentOf c = some q ∧ .post q ∈ s.pnd c
  finalI : ∀ c q, cfg.parentOf c = some q → s.ph c = .initing .final ∨ s.ph c = .inited → s.post c = 0 ∨ .post q ∈ s.pnd c
  fault : s.fault = false

variable {cfg : Cfg} {s s' : State} {l : Lbl}

/-- the same as `pres` with more definitions -/
macro "pres2" hs:ident h:ident : tactic => `(tactic| (cases $hs:ident <;> first | exact $h | (try dsimp only [State.decPost, State.decPre, State.decCd]) <;> grind [upd, List.mem_of_mem_erase, List.mem_of_mem_tail, own, body, guard, holding, begun, linking, Pushed, notDel]))

theorem Core.user_fl (hi : Core cfg s) {r e} (h : e ∈ s.users r) : notDel (s.fl e.1) e.2 = true := by
  rw [hi.usersEq r, List.mem_filter] at h
  exact h.2

theorem Core.linkFl (hi : Core cfg s) : ∀ t i p rem, s.ph t = .initing (.link i p rem) →
    notDel (s.fl p.1) p.2 = true := by
  intro t i p rem h
  obtain ⟨r, hr⟩ := hi.holdR t i (by rw [h]; rfl)
  exact hi.user_fl (hi.linkI t i p rem r h hr).1

theorem Core.incrFl (hi : Core cfg s) : ∀ t i p rem, s.ph t = .initing (.incr i p rem) →
    notDel (s.fl p.1) p.2 = true ∧ .pre t ∈ s.pnd p.1 := by
  intro t i p rem h
  obtain ⟨r, hr⟩ := hi.holdR t i (by rw [h]; rfl)
  exact ⟨hi.user_fl (hi.incrI t i p rem r h hr).1, (hi.incrI t i p rem r h hr).2.1⟩

/-- the post-event of a task is reached only after its body, its events and its children -/
theorem Core.idle_of_body (hi : Core cfg s) : ∀ t, s.ex t ≠ .ended → s.fl t = .idle := by
  intro t h
  rw [hi.flPost, hi.postEq]
  simp [body, h]

theorem Core.idle_of_ph (hi : Core cfg s) : ∀ t, s.ph t ≠ .inited → s.fl t = .idle := by
  intro t h
  apply hi.idle_of_body
  intro h'
  exact h (hi.exI t (by rw [h']; simp)).1

theorem Core.flPost' (hi : Core cfg s) : ∀ t, s.post t = 1 → s.fl t = .idle := by
  intro t h
  rw [hi.flPost]; omega

theorem kidsTame (ht : Tame cfg) : cfg.strict = true ∨ ∀ c, cfg.parentOf c = none := by
  rcases ht with h | h
  · exact .inl h
  · exact .inr fun c => h _

theorem Dom.tgtPre (hd : Dom cfg s) : ∀ p t, .pre t ∈ s.pnd p → t < s.n :=
  fun p _ h => hd.tgt p _ h

theorem Core.pincrPos (hd : Dom cfg s) (hi : Core cfg s) :
    ∀ t q, s.ph t = .initing (.pincr q) → s.post q ≠ 0 := by
  intro t q h
  rw [hi.postEq]
  have : s.ex q ≠ .ended := by
    intro h'
    have := hi.kids t q (hd.lt_ph t (by rw [h]; simp)) (hi.pincrI t q h).1 h'
    rw [h] at this; cases this
  simp [body, this]

theorem linking_eq {p : Ph} {q : Nat} (h : linking p = some q) :
    ∃ i j rem, p = .initing (.incr i (q, j) rem) := by
  unfold linking at h
  split at h
  · rename_i i p rem
    obtain ⟨a, b⟩ := p
    simp only [Option.some.injEq] at h
    exact ⟨i, b, rem, by rw [← h]⟩
  · cases h

theorem Core.notifyPrePos (hd : Dom cfg s) (hi : Core cfg s) :
    ∀ p t rem, s.fl p = .notifying (.pre t :: rem) → 1 ≤ cpre s.n s.pnd s.ph t := by
  intro p t rem h
  refine Nat.le_trans ?_ (le_sumTo (f := wpre s.pnd s.ph t) (t := p) ?_)
  · have h1 := hi.pndNot p _ h
    have h2 : linking (s.ph t) ≠ some p := by
      intro h2
      obtain ⟨i, j, rem', h3⟩ := linking_eq h2
      have h4 := (hi.incrFl t _ _ _ h3).1
      rw [h] at h4; cases h4
    simp [wpre, h1, h2]
  · apply Nat.lt_of_not_le
    intro h'
    rw [hd.fl p h'] at h; cases h

theorem Core.notifyPostPos (hd : Dom cfg s) (hi : Core cfg s) :
    ∀ p q rem, s.fl p = .notifying (.post q :: rem) → s.post q ≠ 0 := by
  intro p q rem h
  rw [hi.postEq]
  have : 1 ≤ cpost s.n s.pnd s.ph q := by
    refine Nat.le_trans ?_ (le_sumTo (f := wpost s.pnd s.ph q) (t := p) ?_)
    · have h1 := hi.pndNot p _ h
      have h2 : s.ph p ≠ .initing (.pincr q) := by
        intro h2
        have h3 := hi.idle_of_ph p
        grind
      simp [wpost, h1, h2]
    · apply Nat.lt_of_not_le
      intro h'
      rw [hd.fl p h'] at h; cases h
  omega

theorem Core.firedPos (hd : Dom cfg s) (hi : Core cfg s) :
    ∀ k, s.ext k = .fired → s.post (s.owner k) ≠ 0 := by
  intro k h
  rw [hi.postEq]
  have : 1 ≤ cext s.nExt s.owner s.ext (s.owner k) := by
    refine Nat.le_trans ?_ (le_sumTo (f := wext s.owner s.ext (s.owner k)) (t := k) ?_)
    · simp [wext, h]
    · apply Nat.lt_of_not_le
      intro h'
      rw [hd.ext k h'] at h; cases h
  omega

theorem Core.runPos (hi : Core cfg s) : ∀ t, s.ex t ≠ .ended → s.post t ≠ 0 := by
  intro t h
  rw [hi.postEq]
  simp [body, h]

theorem erase_filter {l : List Entry} (hn : l.Nodup) (f : Entry → Bool) (a : Entry) :
    (l.filter f).erase a = l.filter fun e => f e && e != a := by
  rw [List.Nodup.erase_eq_filter (hn.filter f), List.filter_filter]
  congr 1
  funext e
  rw [Bool.and_comm]

theorem cpre_ph {n pnd ph t v u} (h : linking v = linking (ph t)) :
    cpre n pnd (upd ph t v) u = cpre n pnd ph u := by
  apply sumTo_congr
  intro p hp
  unfold wpre upd
  grind

theorem cpost_ph {n pnd ph t v u} (h : ∀ q, v ≠ .initing (.pincr q)) (h' : ∀ q, ph t ≠ .initing (.pincr q)) :
    cpost n pnd (upd ph t v) u = cpost n pnd ph u := by
  apply sumTo_congr
  intro p hp
  unfold wpost upd
  grind

/-- a change of the followers of one task -/
theorem cpre_pnd {n pnd ph u p w} (hp : p < n) :
    cpre n (upd pnd p w) ph u + wpre pnd ph u p = cpre n pnd ph u + wpre (upd pnd p w) ph u p :=
  sumTo_change hp (fun v _ hne => by simp [wpre, upd_ne _ _ hne])

theorem cpost_pnd {n pnd ph u p w} (hp : p < n) :
    cpost n (upd pnd p w) ph u + wpost pnd ph u p = cpost n pnd ph u + wpost (upd pnd p w) ph u p :=
  sumTo_change hp (fun v _ hne => by simp [wpost, upd_ne _ _ hne])

theorem Core.lockScan (hi : Core cfg s) : ∀ t i rem r, s.ph t = .initing (.scan i rem) →
    (cfg.res t)[i]? = some r → s.lock r = some t :=
  fun t i _ r h h' => (hi.lockI r t).2 (by rw [h]; exact h')

theorem Core.lockLink (hi : Core cfg s) : ∀ t i p rem r, s.ph t = .initing (.link i p rem) →
    (cfg.res t)[i]? = some r → s.lock r = some t :=
  fun t i _ _ r h h' => (hi.lockI r t).2 (by rw [h]; exact h')

theorem Core.lockIncr (hi : Core cfg s) : ∀ t i p rem r, s.ph t = .initing (.incr i p rem) →
    (cfg.res t)[i]? = some r → s.lock r = some t :=
  fun t i _ _ r h h' => (hi.lockI r t).2 (by rw [h]; exact h')

theorem Core.lockUnlock (hi : Core cfg s) : ∀ t i r, s.ph t = .initing (.unlock i) →
    (cfg.res t)[i]? = some r → s.lock r = some t :=
  fun t i r h h' => (hi.lockI r t).2 (by rw [h]; exact h')

theorem Core.notifyPre3 (hd : Dom cfg s) (hi : Core cfg s) :
    ∀ p t rem, s.fl p = .notifying (.pre t :: rem) → s.ph t ≠ .inited → 3 ≤ s.pre t := by
  intro p t rem h hp
  have h1 := hi.notifyPrePos hd p t rem h
  have h2 := hi.tgtPre p t (by rw [hi.pndNot p _ h]; exact .head _)
  have h3 : s.ex t = .none := Decidable.not_not.1 fun h' => hp (hi.exI t h').1
  have h4 := hi.preEq t
  have h5 : guard (s.ph t) = 1 := by
    revert h2 hp; cases s.ph t <;> simp [begun, guard]
  have h6 : own (s.ex t) = 1 := by rw [h3]; rfl
  omega

theorem Core.scanHead (hi : Core cfg s) : ∀ t i p rem r, s.ph t = .initing (.scan i (p :: rem)) →
    (cfg.res t)[i]? = some r → p ∈ s.users r ∧ ∀ e ∈ rem, e ∈ s.users r :=
  fun t i _ _ r h h' => ⟨hi.scanI t i _ r h h' _ (.head _), fun _ he => hi.scanI t i _ r h h' _ (.tail _ he)⟩

theorem Core.step_pndIdle (ht : Tame cfg) (hd : Dom cfg s) (hi : Core cfg s) (hs : Step cfg l s s') :
    ∀ p, s'.fl p = .idle → s'.pnd p = s'.fol p := by
  have h := hi.pndIdle
  have h1 := hi.linkFl
  pres2 hs h

theorem Core.step_pndDel (ht : Tame cfg) (hd : Dom cfg s) (hi : Core cfg s) (hs : Step cfg l s s') :
    ∀ p i, s'.fl p = .deleting i → s'.pnd p = s'.fol p := by
  have h := hi.pndDel
  have h1 := hi.linkFl
  have h2 := hi.idle_of_ph
  have h3 := hi.pndIdle
  have h4 := hi.flPost'
  pres2 hs h

theorem Core.step_pndNot (ht : Tame cfg) (hd : Dom cfg s) (hi : Core cfg s) (hs : Step cfg l s s') :
    ∀ p rem, s'.fl p = .notifying rem → s'.pnd p = rem := by
  have h := hi.pndNot
  have h1 := hi.linkFl
  have h2 := hi.idle_of_ph
  have h3 := hi.pndDel
  pres2 hs h

theorem Core.step_pndCnt (ht : Tame cfg) (hd : Dom cfg s) (hi : Core cfg s) (hs : Step cfg l s s') :
    ∀ p, s'.fl p = .counting → s'.pnd p = [] := by
  have h := hi.pndCnt
  have h1 := hi.linkFl
  have h2 := hi.idle_of_ph
  have h3 := hi.pndNot
  pres2 hs h

theorem Core.step_pndDone (ht : Tame cfg) (hd : Dom cfg s) (hi : Core cfg s) (hs : Step cfg l s s') :
    ∀ p, s'.fl p = .done → s'.pnd p = [] := by
  have h := hi.pndDone
  have h1 := hi.linkFl
  have h2 := hi.idle_of_ph
  have h3 := hi.pndCnt
  pres2 hs h

theorem Core.step_histMem (ht : Tame cfg) (hd : Dom cfg s) (hi : Core cfg s) (hs : Step cfg l s s') :
    ∀ r t i, (t, i) ∈ s'.hist r ↔ (cfg.res t)[i]? = some r ∧ Pushed (s'.ph t) i := by
  have h := hi.histMem
  have h1 := hd.ph
  pres2 hs h

theorem Core.step_histNodup (ht : Tame cfg) (hd : Dom cfg s) (hi : Core cfg s) (hs : Step cfg l s s') :
    ∀ r, (s'.hist r).Nodup := by
  have h := hi.histNodup
  have h1 := hi.histMem
  pres2 hs h

theorem Core.step_usersEq (ht : Tame cfg) (hd : Dom cfg s) (hi : Core cfg s) (hs : Step cfg l s s') :
    ∀ r, s'.users r = (s'.hist r).filter fun e => notDel (s'.fl e.1) e.2 := by
  have h := hi.usersEq
  have h1 := hi.idle_of_ph
  have h2 := hi.flPost'
  cases hs with
  | @pushUser _ t i r hp hr =>
    intro r'
    dsimp only
    have := h1 t (by rw [hp]; simp)
    grind [upd, notDel]
  | @delete _ t i r hf hr hl =>
    intro r'
    dsimp only
    have hm := hi.histMem r'
    by_cases e : r' = r
    · subst e
      rw [upd_same, h, erase_filter (hi.histNodup _)]
      apply List.filter_congr
      grind [upd, notDel]
    · rw [upd_ne _ _ e, h]
      apply List.filter_congr
      grind [upd, notDel]
  | _ =>
    first
    | exact h
    | (intro r'
       have hm := hi.histMem r'
       dsimp only [State.decPost, State.decPre, State.decCd]
       rw [h r']
       apply List.filter_congr
       grind [upd, notDel])

theorem Core.step_lockI (ht : Tame cfg) (hd : Dom cfg s) (hi : Core cfg s) (hs : Step cfg l s s') :
    ∀ r t, s'.lock r = some t ↔ held cfg t (s'.ph t) = some r := by
  have h := hi.lockI
  have h1 := hd.ph
  have h2 := hi.lockUnlock
  cases hs <;> first | exact h | (try dsimp only [State.decPost, State.decPre, State.decCd]) <;> grind [upd, held]

theorem Core.step_holdR (ht : Tame cfg) (hd : Dom cfg s) (hi : Core cfg s) (hs : Step cfg l s s') :
    ∀ t i, holding (s'.ph t) = some i → ∃ r, (cfg.res t)[i]? = some r := by
  have h := hi.holdR
  pres2 hs h
theorem Core.step_idxSub (ht : Tame cfg) (hd : Dom cfg s) (hi : Core cfg s) (hs : Step cfg l s s') :
    ∀ t i, s'.ph t = .submitting i → i ≤ (cfg.res t).length := by
  have h := hi.idxSub
  pres2 hs h
theorem Core.step_idxNext (ht : Tame cfg) (hd : Dom cfg s) (hi : Core cfg s) (hs : Step cfg l s s') :
    ∀ t i, s'.ph t = .initing (.next i) → i ≤ (cfg.res t).length := by
  have h := hi.idxNext
  have h' := hi.holdR
  pres2 hs h
theorem Core.step_idxDel (ht : Tame cfg) (hd : Dom cfg s) (hi : Core cfg s) (hs : Step cfg l s s') :
    ∀ t i, s'.fl t = .deleting i → i ≤ (cfg.res t).length := by
  have h := hi.idxDel
  pres2 hs h
theorem Core.step_scanI (ht : Tame cfg) (hd : Dom cfg s) (hi : Core cfg s) (hs : Step cfg l s s') :
    ∀ t i rem r, s'.ph t = .initing (.scan i rem) → (cfg.res t)[i]? = some r → ∀ e ∈ rem, e ∈ s'.users r := by
  have h := hi.scanI
  have h1 := hi.lockScan
  have h2 := hi.incrI
  have h8 : ∀ r e (x : Entry), x ∈ olderThan e (s.users r) → x ∈ s.users r := fun _ _ _ => olderThan_sub
  cases hs with
  | @incr _ t i p rem r hp hr =>
    intro u j rem' r' hu hr'
    dsimp only at hu ⊢
    rcases upd_eq hu with ⟨e, hv⟩ | ⟨e, hv⟩
    · subst e
      split at hv
      · cases hv
      · cases hv
        exact (h2 u i p rem r' hp hr').2.2
    · exact h u j rem' r' hv hr'
  | _ =>
    first
    | exact h
    | (try dsimp only [State.decPost, State.decPre, State.decCd]) <;>
        grind [upd, List.mem_of_mem_erase, List.mem_of_mem_tail]

theorem Core.step_linkI (ht : Tame cfg) (hd : Dom cfg s) (hi : Core cfg s) (hs : Step cfg l s s') :
    ∀ t i p rem r, s'.ph t = .initing (.link i p rem) → (cfg.res t)[i]? = some r → p ∈ s'.users r ∧ ∀ e ∈ rem, e ∈ s'.users r := by
  have h := hi.linkI
  have h1 := hi.lockLink
  have h2 := hi.scanHead
  pres2 hs h

theorem Core.step_incrI (ht : Tame cfg) (hd : Dom cfg s) (hi : Core cfg s) (hs : Step cfg l s s') :
    ∀ t i p rem r, s'.ph t = .initing (.incr i p rem) → (cfg.res t)[i]? = some r → p ∈ s'.users r ∧ .pre t ∈ s'.pnd p.1 ∧ ∀ e ∈ rem, e ∈ s'.users r := by
  have h := hi.incrI
  have h1 := hi.lockIncr
  have h2 := hi.linkI
  have h3 := hi.incrFl
  pres2 hs h

theorem Core.step_tgtPre (ht : Tame cfg) (hd : Dom cfg s) (hi : Core cfg s) (hs : Step cfg l s s') :
    ∀ p t, .pre t ∈ s'.pnd p → begun (s'.ph t) = true := by
  have h := hi.tgtPre
  have h1 := hd.tgtPre
  pres2 hs h

theorem Core.step_tgtPost (ht : Tame cfg) (hd : Dom cfg s) (hi : Core cfg s) (hs : Step cfg l s s') :
    ∀ p q, .post q ∈ s'.pnd p → cfg.parentOf p = some q := by
  have h := hi.tgtPost
  pres2 hs h
theorem Core.step_preEq (ht : Tame cfg) (hd : Dom cfg s) (hi : Core cfg s) (hs : Step cfg l s s') :
    ∀ t, s'.pre t = own (s'.ex t) + guard (s'.ph t) + cpre s'.n s'.pnd s'.ph t := by
  have h := hi.preEq
  have h1 := hi.handedEq
  cases hs with
  | beginSubmit hp h1 => 
    intro u
    dsimp only
    have : cpre (s.n + 1) s.pnd (upd s.ph s.n (.submitting 0)) u = cpre s.n s.pnd s.ph u := by
      rw [cpre_ph (by rw [hd.ph _ (Nat.le_refl _)]; rfl)]
      simp [cpre, sumTo, wpre, hd.pnd _ (Nat.le_refl _)]
    have := hd.ph _ (Nat.le_refl _)
    grind [upd, guard]
  | @link _ t i p rem hp =>
    intro u
    dsimp only
    have hl := hd.linkP t _ _ _ hp
    have : cpre s.n (upd s.pnd p.1 (.pre t :: s.pnd p.1)) (upd s.ph t (.initing (.incr i p rem))) u
        = cpre s.n s.pnd s.ph u := by
      apply sumTo_congr
      intro q hq
      unfold wpre
      grind [linking, upd]
    grind [upd, guard]
  | @incr _ t i p rem r hp hr =>
    intro u
    dsimp only
    have hl := hd.incrP t _ _ _ hp
    have hc := (hi.incrFl t _ _ _ hp).2
    by_cases e : u = t
    · subst e
      have hlk : linking (.initing (.incr i p rem)) = some p.1 := rfl
      have : ∀ v, linking v = none → cpre s.n s.pnd (upd s.ph u v) u = cpre s.n s.pnd s.ph u + 1 := by
        intro v hv
        have := sumTo_change (f := wpre s.pnd s.ph u) (g := wpre s.pnd (upd s.ph u v) u) hl (by
          intro q hq hne
          have : p.1 ≠ q := fun e => hne e.symm
          simp [wpre, hv, hp, hlk, this])
        have h2 : 1 ≤ (s.pnd p.1).count (.pre u) := List.one_le_count_iff.2 hc
        simp [wpre, hv, hp, hlk] at this
        unfold cpre
        omega
      have := this (.initing (if cfg.sync p.1 r then .unlock i else .scan i rem)) (by split <;> rfl)
      grind [upd, guard, linking]
    · have : ∀ v, cpre s.n s.pnd (upd s.ph t v) u = cpre s.n s.pnd s.ph u := by
        intro v
        apply sumTo_congr
        intro q hq
        simp [wpre, upd_ne _ _ e]
      grind [upd]
  | @notifyPre _ p t rem hf =>
    intro u
    dsimp only [State.decPre]
    have hl : p < s.n := by
      apply Nat.lt_of_not_le
      intro h'
      rw [hd.fl p h'] at hf; cases hf
    have hpn := hi.pndNot p _ hf
    have h2 : ∀ t, linking (s.ph t) ≠ some p := by
      intro t h2
      obtain ⟨i, j, rem', h3⟩ := linking_eq h2
      have h4 := (hi.incrFl t _ _ _ h3).1
      rw [hf] at h4; cases h4
    have := cpre_pnd (pnd := s.pnd) (ph := s.ph) (u := u) (w := (s.pnd p).tail) hl
    grind [upd, wpre]
  | @notifyPost _ p q rem hf =>
    intro u
    dsimp only [State.decPost]
    have hl : p < s.n := by
      apply Nat.lt_of_not_le
      intro h'
      rw [hd.fl p h'] at hf; cases hf
    have hpn := hi.pndNot p _ hf
    have := cpre_pnd (pnd := s.pnd) (ph := s.ph) (u := u) (w := (s.pnd p).tail) hl
    grind [upd, wpre]
  | @scanReached _ t i p rem r hp hr hpar hsr h0 =>
    intro u
    dsimp only
    rw [cpre_ph (by rw [hp]; split <;> rfl)]
    grind [upd, guard]
  | @parentPush _ t q hp hq =>
    intro u
    dsimp only
    rw [cpre_ph (by rw [hp]; rfl)]
    have hl : t < s.n := hd.lt_ph t (by rw [hp]; simp)
    have := cpre_pnd (pnd := s.pnd) (ph := s.ph) (u := u) (w := .post q :: s.pnd t) hl
    grind [upd, wpre, guard]
  | _ =>
    first
    | exact h
    | (intro u
       dsimp only [State.decPost, State.decPre, State.decCd]
       grind [own, guard, upd, cpre_ph, linking])
theorem Core.step_postEq (ht : Tame cfg) (hd : Dom cfg s) (hi : Core cfg s) (hs : Step cfg l s s') :
    ∀ t, s'.post t = body (s'.ex t) + cext s'.nExt s'.owner s'.ext t + cpost s'.n s'.pnd s'.ph t := by
  have h := hi.postEq
  have hc : ∀ {u q w v}, s.ph u = w → (∀ q, w ≠ .initing (.pincr q)) → (∀ q, v ≠ .initing (.pincr q)) →
      cpost s.n s.pnd (upd s.ph u v) q = cpost s.n s.pnd s.ph q := by
    intro u q w v h1 h2 h3
    exact cpost_ph h3 (by rw [h1]; exact h2)
  cases hs with
  | beginSubmit hp h1 =>
    intro u
    dsimp only
    have : cpost (s.n + 1) s.pnd (upd s.ph s.n (.submitting 0)) u = cpost s.n s.pnd s.ph u := by
      rw [cpost_ph (by simp) (by rw [hd.ph _ (Nat.le_refl _)]; simp)]
      simp [cpost, sumTo, wpost, hd.pnd _ (Nat.le_refl _)]
    grind
  | @link _ t i p rem hp =>
    intro u
    dsimp only
    rw [cpost_ph (by simp) (by rw [hp]; simp)]
    have := cpost_pnd (pnd := s.pnd) (ph := s.ph) (u := u) (w := .pre t :: s.pnd p.1) (hd.linkP t _ _ _ hp)
    grind [upd, wpost]
  | @parentPush _ t q hp hq =>
    intro u
    dsimp only
    have : cpost s.n (upd s.pnd t (.post q :: s.pnd t)) (upd s.ph t (.initing (.pincr q))) u
        = cpost s.n s.pnd s.ph u := by
      apply sumTo_congr
      intro c hq
      unfold wpost
      grind [upd]
    grind
  | @parentIncr _ t q hp =>
    intro u
    dsimp only
    have hl : t < s.n := hd.lt_ph t (by rw [hp]; simp)
    have hm := (hi.pincrI t q hp).2
    have h2 : 1 ≤ (s.pnd t).count (.post q) := List.one_le_count_iff.2 hm
    have := sumTo_change (f := wpost s.pnd s.ph u) (g := wpost s.pnd (upd s.ph t (.initing .final)) u) hl (by
      intro c hc hne
      simp [wpost, upd_ne _ _ hne])
    have h3 := h u
    unfold cpost at *
    grind [upd, wpost]
  | @createEvent _ t hx =>
    intro u
    dsimp only
    have : cext (s.nExt + 1) (upd s.owner s.nExt t) (upd s.ext s.nExt .pending) u =
        cext s.nExt s.owner s.ext u + if t = u then 1 else 0 := by
      unfold cext
      rw [sumTo]
      congr 1
      · apply sumTo_congr
        intro k hk
        simp [wext, upd_ne _ _ (Nat.ne_of_lt hk)]
      · simp [wext]
    grind [upd]
  | @extNotify _ k hx =>
    intro u
    dsimp only
    have : cext s.nExt s.owner (upd s.ext k .fired) u = cext s.nExt s.owner s.ext u := by
      apply sumTo_congr
      intro k hk
      unfold wext
      grind [upd]
    grind
  | @extFollower _ k hx =>
    intro u
    dsimp only [State.decPost]
    have hl : k < s.nExt := by
      apply Nat.lt_of_not_le
      intro h'
      rw [hd.ext k h'] at hx; cases hx
    have := sumTo_change (f := wext s.owner s.ext u) (g := wext s.owner (upd s.ext k .done) u) hl (by
      intro c hc hne
      simp [wext, upd_ne _ _ hne])
    have h3 := h u
    unfold cext at *
    grind [upd, wext]
  | @bodyEnd _ t hx =>
    intro u
    dsimp only [State.decPost]
    grind [upd, body]
  | @start _ t hh =>
    intro u
    dsimp only
    have h1 := hi.handedEq t
    grind [upd, body]
  | @notifyPre _ p t rem hf =>
    intro u
    dsimp only [State.decPre]
    have hl : p < s.n := by
      apply Nat.lt_of_not_le
      intro h'
      rw [hd.fl p h'] at hf; cases hf
    have hpn := hi.pndNot p _ hf
    have := cpost_pnd (pnd := s.pnd) (ph := s.ph) (u := u) (w := (s.pnd p).tail) hl
    grind [upd, wpost]
  | @notifyPost _ p q rem hf =>
    intro u
    dsimp only [State.decPost]
    have hl : p < s.n := by
      apply Nat.lt_of_not_le
      intro h'
      rw [hd.fl p h'] at hf; cases hf
    have hpn := hi.pndNot p _ hf
    have h1 := hi.idle_of_ph p
    have := cpost_pnd (pnd := s.pnd) (ph := s.ph) (u := u) (w := (s.pnd p).tail) hl
    grind [upd, wpost]
  | _ =>
    first
    | exact h
    | (intro u
       dsimp only [State.decPost, State.decPre, State.decCd]
       rw [hc (by assumption) (by simp) (by grind)]
       exact h u)

theorem Core.step_flPost (ht : Tame cfg) (hd : Dom cfg s) (hi : Core cfg s) (hs : Step cfg l s s') :
    ∀ t, s'.fl t = .idle ↔ s'.post t ≠ 0 := by
  have h := hi.flPost
  have h1 := hi.firedPos hd
  have h2 := hi.notifyPostPos hd
  have h3 := hi.runPos
  have h4 := hi.pincrPos hd
  pres2 hs h

theorem Core.step_handedEq (ht : Tame cfg) (hd : Dom cfg s) (hi : Core cfg s) (hs : Step cfg l s s') :
    ∀ t, s'.handed t = if s'.ph t = .inited ∧ s'.ex t = .none ∧ s'.pre t = 1 then 1 else 0 := by
  have h := hi.handedEq
  have h1 := hi.exI
  have h2 := hi.notifyPre3 hd
  have h3 := hi.preEq
  have h4 := hd.ph
  have h5 := hi.notifyPrePos hd
  pres2 hs h

theorem Core.step_startsEq (ht : Tame cfg) (hd : Dom cfg s) (hi : Core cfg s) (hs : Step cfg l s s') :
    ∀ t, s'.starts t = if s'.ex t = .none then 0 else 1 := by
  have h := hi.startsEq
  have h1 := hi.handedEq
  pres2 hs h
theorem Core.step_exI (ht : Tame cfg) (hd : Dom cfg s) (hi : Core cfg s) (hs : Step cfg l s s') :
    ∀ t, s'.ex t ≠ .none → s'.ph t = .inited ∧ s'.pre t = 0 := by
  have h := hi.exI
  have h1 := hi.handedEq
  have h2 := hi.notifyPrePos hd
  have h3 := hi.preEq
  have h4 := hd.ex
  pres2 hs h

theorem Core.step_kids (ht : Tame cfg) (hd : Dom cfg s) (hi : Core cfg s) (hs : Step cfg l s s') :
    ∀ c q, c < s'.n → cfg.parentOf c = some q → s'.ex q = .ended → s'.ph c = .inited := by
  have h := hi.kids
  have h1 := hi.handedEq
  have h2 := hi.exI
  have h3 := kidsTame ht
  pres2 hs h

theorem Core.step_pincrI (ht : Tame cfg) (hd : Dom cfg s) (hi : Core cfg s) (hs : Step cfg l s s') :
    ∀ c q, s'.ph c = .initing (.pincr q) → cfg.parentOf c = some q ∧ .post q ∈ s'.pnd c := by
  have h := hi.pincrI
  have h1 := hi.idle_of_ph
  pres2 hs h

theorem Core.step_finalI (ht : Tame cfg) (hd : Dom cfg s) (hi : Core cfg s) (hs : Step cfg l s s') :
    ∀ c q, cfg.parentOf c = some q → s'.ph c = .initing .final ∨ s'.ph c = .inited → s'.post c = 0 ∨ .post q ∈ s'.pnd c := by
  have h := hi.finalI
  have h1 := hi.pincrI
  have h2 := hi.flPost
  have h3 := hi.pincrPos hd
  have h4 := hd.old
  have h5 := hi.notifyPostPos hd
  have h6 := hi.runPos
  pres2 hs h

theorem Core.step_fault (ht : Tame cfg) (hd : Dom cfg s) (hi : Core cfg s) (hs : Step cfg l s s') :
    s'.fault = false := by
  have h := hi.fault
  have h1 := hi.firedPos hd
  have h2 := hi.notifyPostPos hd
  have h3 := hi.runPos
  have h4 := hi.notifyPrePos hd
  have h5 := hi.preEq
  have h6 := hi.handedEq
  pres2 hs h


theorem Core.step (ht : Tame cfg) (hd : Dom cfg s) (hi : Core cfg s) (hs : Step cfg l s s') :
    Core cfg s' :=
  ⟨hi.step_pndIdle ht hd hs,
   hi.step_pndDel ht hd hs,
   hi.step_pndNot ht hd hs,
   hi.step_pndCnt ht hd hs,
   hi.step_pndDone ht hd hs,
   hi.step_histMem ht hd hs,
   hi.step_histNodup ht hd hs,
   hi.step_usersEq ht hd hs,
   hi.step_lockI ht hd hs,
   hi.step_holdR ht hd hs,
   hi.step_idxSub ht hd hs,
   hi.step_idxNext ht hd hs,
   hi.step_idxDel ht hd hs,
   hi.step_scanI ht hd hs,
   hi.step_linkI ht hd hs,
   hi.step_incrI ht hd hs,
   hi.step_tgtPre ht hd hs,
   hi.step_tgtPost ht hd hs,
   hi.step_preEq ht hd hs,
   hi.step_postEq ht hd hs,
   hi.step_flPost ht hd hs,
   hi.step_handedEq ht hd hs,
   hi.step_startsEq ht hd hs,
   hi.step_exI ht hd hs,
   hi.step_kids ht hd hs,
   hi.step_pincrI ht hd hs,
   hi.step_finalI ht hd hs,
   hi.step_fault ht hd hs⟩

theorem Core.init : Core cfg init := by
  constructor <;> simp [Graph.init, Pushed, held, holding, own, body, guard, cpre, cpost, cext, sumTo]

theorem Core.reach (ht : Tame cfg) (h : Reach cfg s) : Core cfg s := by
  induction h with
  | init => exact Core.init
  | step h hs ih => exact ih.step ht (Dom.reach h) hs

end RG.Graph
