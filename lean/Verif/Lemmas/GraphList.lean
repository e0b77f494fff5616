import Verif.Model.GraphList
import Verif.Lemmas.ConcEff
import Verif.Lemmas.GraphCore
/-
The task graph with lock-free lists refines the task graph with atomic lists: the invariant.
-/
set_option linter.unusedVariables false
namespace RG.GList

open RG.Graph (Cfg Entry IPc Ph Fol Fl olderThan notDel Core Tame held holding Pushed)
open CoL (Slot Later Trav Todo First rest on pushed pushing moving removing isIter ReachP OnePush Mono mono invA invB)

/-- the entry of `unique_resources` with which a task is busy -/
def at' : Ph → Option Nat
  | .submitting i | .initing (.next i) | .initing (.scan i _) | .initing (.link i _ _) | .initing (.incr i _ _)
  | .initing (.unlock i) => some i
  | _ => none

/-- the iterator points to the current element, `R` are the elements after it -/
def front (q : CoL.Pc) (R : List Slot) : List Slot :=
  match on q with
  | some x => x :: R
  | none => R

/-- the elements that a task in its initialisation has not visited, in the two machines -/
def Rem (ent : Entry → Slot) (q : CoL.Pc) (R : List Slot) (i : Nat) : Ph → Prop
  | .initing (.scan j rem) => j = i ∧ rem.map ent = front q R
  | .initing (.link j p rem) | .initing (.incr j p rem) => j = i ∧ on q = some (ent p) ∧ rem.map ent = R
  | .initing (.unlock j) => j = i ∧ ((on q).isSome ∨ q = .iEnd)
  | _ => False

/-- the critical section of a resource -/
inductive Crit (cfg : Cfg) (g : Graph.State) (ent : Entry → Slot) (r : Res) (l : CoL.State) : Option Nat → Prop
  | free (h : l.pcs 0 = .idle) (hl : g.lock r = none) : Crit cfg g ent r l none
  | copied {t i} (hp : g.ph t = .initing (.next i)) (hr : (cfg.res t)[i]? = some r) (hl : g.lock r = none)
      (hF : First l 0 (ent (t, i)) ((olderThan (t, i) (g.users r)).map ent)) : Crit cfg g ent r l (some t)
  | trav {t i L} (hr : (cfg.res t)[i]? = some r) (hT : Trav l 0 [ent (t, i)] L)
      (hR : Rem ent (l.pcs 0) (rest L (l.seen 0)) i (g.ph t)) : Crit cfg g ent r l (some t)
  | del {t} (hl : g.lock r = none) (hd : removing (l.pcs 0) = true) : Crit cfg g ent r l (some t)

/-- the users of a resource -/
structure UL (cfg : Cfg) (N : Nat) (g : Graph.State) (ent : Entry → Slot) (lk : Option Nat) (r : Res) (l : CoL.State) :
    Prop where
  reach : ReachP N OnePush l
  log : l.log = (g.hist r).map fun e => (ent e, e.1)
  rmv : ∀ e ∈ g.hist r, l.removed (ent e) = !notDel (g.fl e.1) e.2
  usr : ∀ t, l.pcs (t + 1) ≠ .idle → pushed (l.pcs (t + 1)) = some t ∧
    ∃ i, g.ph t = .submitting i ∧ (cfg.res t)[i]? = some r
  crit : Crit cfg g ent r l lk

/-- a follower has been pushed, perhaps its value has not been stored yet -/
def Written (f : CoL.State) (q : Slot × Fol) : Prop :=
  f.val q.1 = some (code q.2) ∨ ∃ u, f.pcs u = .pAsg (code q.2) q.1.1 q.1.2

/-- the followers of a post-event -/
structure FL (cfg : Cfg) (N : Nat) (g : Graph.State) (p : Nat) (f : CoL.State) : Prop where
  reach : CoL.Reach N f
  keep : ∀ x, f.removed x = false ∧ f.hid x = false
  thr : ∀ t, f.pcs (t + 1) ≠ .idle →
    (∃ F, target cfg g t = some (p, F) ∧ pushed (f.pcs (t + 1)) = some (code F) ∧ ∀ v c k, f.pcs (t + 1) ≠ .pAsg v c k) ∨
    (target' g t = some p ∧ ∃ v c k, f.pcs (t + 1) = .pAsg v c k)
  que : ∃ Q : List (Slot × Fol), Q.map (·.2) = g.fol p ∧ Q.Pairwise (fun a b => Later f.al a.1 b.1) ∧
    (∀ q ∈ Q, Written f q) ∧ (∀ x, f.val x ≠ none → ∃ F, (x, F) ∈ Q) ∧
    ∀ u v c k, f.pcs u = .pAsg v c k → ∃ F, ((c, k), F) ∈ Q
  ntf : ∀ rem, g.fl p = .notifying rem → ∃ L, Trav f 0 [] L ∧ ∃ R : List (Slot × Fol),
    (∀ q ∈ R, f.val q.1 = some (code q.2)) ∧ R.map (·.2) = rem ∧ R.map (·.1) = front (f.pcs 0) (rest L (f.seen 0))
  idl : (∀ rem, g.fl p ≠ .notifying rem) → f.pcs 0 = .idle

structure Inv (cfg : Cfg) (N : Nat) (s : State) : Prop where
  reach : Graph.Reach cfg s.g
  ul : ∀ r, UL cfg N s.g s.ent (s.lk r) r (s.l r)
  fl : ∀ p, FL cfg N s.g p (s.f p)

variable {cfg : Cfg} {N : Nat} {g g' : Graph.State} {ent ent' : Entry → Slot} {r : Res} {l l' f f' : CoL.State}

/-! ### Steps that do not concern a list -/

theorem users_hist (hi : Core cfg g) {r : Res} {e : Entry} (h : e ∈ g.users r) : e ∈ g.hist r := by
  rw [hi.usersEq] at h; exact (List.mem_filter.1 h).1

theorem older_sub (e : Entry) (l : List Entry) : (olderThan e l).Sublist l := by
  induction l with
  | nil => exact .slnil
  | cons a l ih =>
    unfold olderThan
    split
    · exact List.sublist_cons_self _ _
    · exact ih.cons _

theorem map_congr' {l : List Entry} (h : ∀ e ∈ l, ent' e = ent e) : l.map ent' = l.map ent := List.map_congr_left h

theorem Rem.congr (hi : Core cfg g) {t i : Nat} {q : CoL.Pc} {R : List Slot} (hr : (cfg.res t)[i]? = some r)
    (he : ∀ e ∈ g.hist r, ent' e = ent e) (h : Rem ent q R i (g.ph t)) : Rem ent' q R i (g.ph t) := by
  generalize hp : g.ph t = P at h ⊢
  unfold Rem at h ⊢
  split at h
  · rename_i j rem
    obtain ⟨rfl, h⟩ := h
    refine ⟨rfl, ?_⟩
    rw [← h]
    exact map_congr' fun e hh => he e (users_hist hi (hi.scanI _ _ _ _ hp hr e hh))
  · rename_i j p rem
    obtain ⟨rfl, h1, h2⟩ := h
    have k := hi.linkI _ _ _ _ _ hp hr
    exact ⟨rfl, by rw [h1, he p (users_hist hi k.1)], by rw [← h2]; exact map_congr' fun e hh => he e (users_hist hi (k.2 e hh))⟩
  · rename_i j p rem
    obtain ⟨rfl, h1, h2⟩ := h
    have k := hi.incrI _ _ _ _ _ hp hr
    exact ⟨rfl, by rw [h1, he p (users_hist hi k.1)], by rw [← h2]; exact map_congr' fun e hh => he e (users_hist hi (k.2.2 e hh))⟩
  · exact h
  · exact h

theorem Rem.at' {q : CoL.Pc} {R : List Slot} {i : Nat} {P : Ph} (h : Rem ent q R i P) : at' P = some i := by
  unfold Rem at h
  split at h
  · rw [← h.1]; rfl
  · rw [← h.1]; rfl
  · rw [← h.1]; rfl
  · rw [← h.1]; rfl
  · cases h

theorem Rem.pushed {q : CoL.Pc} {R : List Slot} {i : Nat} {P : Ph} (h : Rem ent q R i P) : Pushed P i := by
  unfold Rem at h; split at h <;> first | trivial | cases h

theorem iter_not_removing {q : CoL.Pc} (h : isIter q = true) : removing q = false := by
  cases q <;> simp_all [isIter, removing]

/-- the critical section, if its own task does nothing -/
theorem Crit.congr (hi : Core cfg g) {lk : Option Nat} (h : Crit cfg g ent r l lk) (k3 : g'.lock r = g.lock r)
    (k2 : ∀ e ∈ g.hist r, olderThan e (g'.users r) = olderThan e (g.users r))
    (k5 : ∀ t i, removing (l.pcs 0) = false → lk = some t → at' (g.ph t) = some i → (cfg.res t)[i]? = some r → g'.ph t = g.ph t)
    (k6 : ∀ e ∈ g.hist r, ent' e = ent e) : Crit cfg g' ent' r l lk := by
  cases h with
  | free h hl => exact .free h (by rw [k3]; exact hl)
  | @copied t i hp hr hl hF =>
    have hm : (t, i) ∈ g.hist r := (hi.histMem r t i).2 ⟨hr, by rw [hp]; trivial⟩
    refine .copied (by rw [k5 t i (iter_not_removing hF.it) rfl (by rw [hp]; rfl) hr]; exact hp) hr (by rw [k3]; exact hl) ?_
    rw [k6 _ hm, k2 _ hm, map_congr' (ent := ent) fun e he => k6 e (users_hist hi ((older_sub _ _).subset he))]
    exact hF
  | @trav t i L hr hT hR =>
    have hm : (t, i) ∈ g.hist r := (hi.histMem r t i).2 ⟨hr, hR.pushed⟩
    rw [← k6 _ hm] at hT
    refine .trav hr hT ?_
    rw [k5 t i (iter_not_removing hT.it) rfl hR.at' hr]
    exact hR.congr hi hr k6
  | del hl hd => exact .del (by rw [k3]; exact hl) hd

/-- what has to stay as it is for the users of `r` -/
structure SameU (cfg : Cfg) (g g' : Graph.State) (ent ent' : Entry → Slot) (r : Res) : Prop where
  hist : g'.hist r = g.hist r
  users : g'.users r = g.users r
  lock : g'.lock r = g.lock r
  del : ∀ e ∈ g.hist r, notDel (g'.fl e.1) e.2 = notDel (g.fl e.1) e.2
  ph : ∀ t i, at' (g.ph t) = some i → (cfg.res t)[i]? = some r → g'.ph t = g.ph t
  ent : ∀ e ∈ g.hist r, ent' e = ent e

theorem UL.frame (hi : Core cfg g) {lk : Option Nat} (h : UL cfg N g ent lk r l) (hs : SameU cfg g g' ent ent' r) :
    UL cfg N g' ent' lk r l := by
  obtain ⟨h1, h2, h3, h4, h5⟩ := h
  obtain ⟨k1, k2, k3, k4, k5, k6⟩ := hs
  refine ⟨h1, ?_, ?_, ?_, h5.congr hi k3 (fun e _ => by rw [k2]) (fun t i _ _ => k5 t i) k6⟩
  · rw [h2, k1]; exact List.map_congr_left fun e he => by rw [k6 e he]
  · intro e he
    rw [k1] at he
    rw [k6 e he, k4 e he]; exact h3 e he
  · intro t ht
    obtain ⟨a, i, b, c⟩ := h4 t ht
    exact ⟨a, i, by rw [k5 t i (by rw [b]; rfl) c]; exact b, c⟩

/-- what has to stay as it is for the followers of `p` -/
structure SameF (cfg : Cfg) (g g' : Graph.State) (f : CoL.State) (p : Nat) : Prop where
  fol : g'.fol p = g.fol p
  ntf : ∀ rem, g'.fl p = .notifying rem ↔ g.fl p = .notifying rem
  tgt : ∀ t F, f.pcs (t + 1) ≠ .idle → target cfg g t = some (p, F) → target cfg g' t = some (p, F)
  tgt' : ∀ t, f.pcs (t + 1) ≠ .idle → target' g t = some p → target' g' t = some p

theorem FL.frame {p : Nat} (h : FL cfg N g p f) (hs : SameF cfg g g' f p) : FL cfg N g' p f := by
  obtain ⟨h1, h2, h3, h4, h5, h6⟩ := h
  obtain ⟨k1, k2, k3, k4⟩ := hs
  refine ⟨h1, h2, ?_, ?_, ?_, ?_⟩
  · intro t ht
    rcases h3 t ht with ⟨F, a, b, c⟩ | ⟨a, b⟩
    · exact .inl ⟨F, k3 t F ht a, b, c⟩
    · exact .inr ⟨k4 t ht a, b⟩
  · rw [k1]; exact h4
  · intro rem hr; exact h5 rem ((k2 rem).1 hr)
  · intro hr; exact h6 fun rem hh => hr rem ((k2 rem).2 hh)

theorem busy_ph {t i : Nat} (h : at' (g.ph t) = some i) (hr : (cfg.res t)[i]? = some r) : busy cfg g t = true := by
  unfold at' at h
  unfold busy
  have : i < (cfg.res t).length := by
    rw [List.getElem?_eq_some_iff] at hr; exact hr.1
  split at h <;> simp_all

theorem busy_target {t : Nat} {x : Nat × Fol} (h : target cfg g t = some x) : busy cfg g t = true := by
  unfold target at h
  unfold busy
  split at h <;> simp_all
  obtain ⟨q, h, -⟩ := h
  simp [h]

theorem busy_target' {t p : Nat} (h : target' g t = some p) : busy cfg g t = true := by
  unfold target' at h
  unfold busy
  split at h <;> simp_all

theorem target_congr {t : Nat} (h : g'.ph t = g.ph t) : target cfg g' t = target cfg g t := by
  unfold target; rw [h]

theorem target'_congr {t : Nat} (h : g'.ph t = g.ph t) : target' g' t = target' g t := by
  unfold target'; rw [h]

/-- the steps that are not part of an operation on a list -/
theorem other_eff (hi : Core cfg g) {lb : Graph.Lbl} (h : Graph.Step cfg lb g g')
    (hp : ∀ t, busy cfg g t = true → g'.ph t = g.ph t) (hf : ∀ t, flBusy g t = true → g'.fl t = g.fl t) :
    g'.hist = g.hist ∧ g'.users = g.users ∧ g'.lock = g.lock ∧ g'.fol = g.fol ∧
      (∀ t i, i < (cfg.res t).length → notDel (g'.fl t) i = notDel (g.fl t) i) ∧
      ∀ t rem, g'.fl t = .notifying rem ↔ g.fl t = .notifying rem := by
  have lt : ∀ {t i : Nat} {r : Res}, (cfg.res t)[i]? = some r → i < (cfg.res t).length := by
    intro t i r hr; rw [List.getElem?_eq_some_iff] at hr; exact hr.1
  have fl1 := hi.flPost'
  have key : ∀ t x, g.ph t = x → g'.ph t ≠ x → busy cfg g t = true → False := by
    intro t x h1 h2 h3; exact h2 (by rw [hp t h3, h1])
  have key' : ∀ t x, g.fl t = x → g'.fl t ≠ x → flBusy g t = true → False := by
    intro t x h1 h2 h3; exact h2 (by rw [hf t h3, h1])
  cases h with
  | beginSubmit _ _ | emplace _ _ | startInit _ | resEnd _ _ | noParent _ _ | final _ | start _ | createEvent _ | extNotify _
  | takeFuture _ | countGet _ | freeCount _ | free _ | lateRead _ =>
    exact ⟨rfl, rfl, rfl, rfl, fun _ _ _ => rfl, fun _ _ => .rfl⟩
  | pushUser h hr => exact (key _ _ h (by simp) (by simp [busy, h, lt hr])).elim
  | lockRes h hr _ => exact (key _ _ h (by simp) (by simp [busy, h, lt hr])).elim
  | scanParent h _ | scanLink h _ _ _ | link h | scanEnd h | unlock h _ | parentIncr h =>
    exact (key _ _ h (by simp) (by simp [busy, h])).elim
  | scanSkip h _ _ => exact (key _ _ h (by simp) (by simp [busy, h])).elim
  | scanReached h _ _ _ _ => exact (key _ _ h (by simp only [upd_same]; split <;> simp) (by simp [busy, h])).elim
  | incr h _ => exact (key _ _ h (by simp only [upd_same]; split <;> simp) (by simp [busy, h])).elim
  | parentPush h hq => exact (key _ _ h (by simp) (by simp [busy, h, hq])).elim
  | delete h _ _ | deleteEnd h _ | notifyEnd h => exact (key' _ _ h (by simp) (by simp [flBusy, h])).elim
  | notifyPre h => exact (key' _ _ h (by simp [Graph.State.decPre]) (by simp [flBusy, h])).elim
  | notifyPost h =>
    refine (key' _ _ h ?_ (by simp [flBusy, h])).elim
    simp only [Graph.State.decPost, upd]
    split
    · rename_i e
      split
      · simp
      · rw [if_pos e.symm]; simp
    · simp
  | countPost h =>
    refine ⟨rfl, rfl, rfl, rfl, ?_, ?_⟩
    · intro t i _; simp only [Graph.State.decCd, upd]; split <;> simp_all [notDel]
    · intro t rem; simp only [Graph.State.decCd, upd]; split <;> simp_all
  | extFollower h | bodyEnd h _ _ =>
    refine ⟨rfl, rfl, rfl, rfl, ?_, ?_⟩
    · intro t i hl; simp only [Graph.State.decPost, upd]; split <;> (try split) <;> simp_all [notDel]
    · intro t rem; simp only [Graph.State.decPost, upd]; split <;> (try split) <;> simp_all

theorem Inv.other (ht : Tame cfg) {s : State} {lb : Graph.Lbl} {g' : Graph.State} (hI : Inv cfg N s)
    (h : Graph.Step cfg lb s.g g')
    (hp : ∀ t, busy cfg s.g t = true → g'.ph t = s.g.ph t) (hf : ∀ t, flBusy s.g t = true → g'.fl t = s.g.fl t) :
    Inv cfg N { s with g := g' } := by
  have hi := Core.reach ht hI.reach
  obtain ⟨e1, e2, e3, e4, e5, e6⟩ := other_eff hi h hp hf
  refine ⟨hI.reach.step h, fun r => (hI.ul r).frame hi ⟨by rw [e1], by rw [e2], by rw [e3], ?_, ?_, fun _ _ => rfl⟩,
    fun p => (hI.fl p).frame ⟨by rw [e4], e6 p, ?_, ?_⟩⟩
  · rintro ⟨t, i⟩ he
    have := ((hi.histMem r t i).1 he).1
    rw [List.getElem?_eq_some_iff] at this
    exact e5 t i this.1
  · intro t i h1 h2; exact hp t (busy_ph h1 h2)
  · intro t F _ h1; rw [target_congr (hp t (busy_target h1))]; exact h1
  · intro t _ h1; rw [target'_congr (hp t (busy_target' (cfg := cfg) h1))]; exact h1

end RG.GList
