import Verif.Model.Graph
/-
Invariants of the task graph, part 1: tasks that have not been submitted are untouched, and every
reference is to a submitted task.
-/
namespace RG.Graph

def Fol.tgt : Fol → Nat
  | .pre t => t
  | .post t => t

structure Dom (cfg : Cfg) (s : State) : Prop where
  ph : ∀ t, s.n ≤ t → s.ph t = .unsub
  ex : ∀ t, s.n ≤ t → s.ex t = .none
  pre : ∀ t, s.n ≤ t → s.pre t = 1
  post : ∀ t, s.n ≤ t → s.post t = 1
  handed : ∀ t, s.n ≤ t → s.handed t = 0
  starts : ∀ t, s.n ≤ t → s.starts t = 0
  fol : ∀ t, s.n ≤ t → s.fol t = []
  pnd : ∀ t, s.n ≤ t → s.pnd t = []
  fl : ∀ t, s.n ≤ t → s.fl t = .idle
  fut : ∀ t, s.n ≤ t → s.fut t = .none
  cd : ∀ t, s.n ≤ t → s.cd t = 2
  mem : ∀ t, s.n ≤ t → s.mem t = .alive
  frees : ∀ t, s.n ≤ t → s.frees t = 0
  ext : ∀ k, s.nExt ≤ k → s.ext k = .none
  old : ∀ t, t < s.n → s.ph t ≠ .unsub
  extOld : ∀ k, k < s.nExt → s.owner k < s.n ∧ s.ext k ≠ .none
  par : ∀ c q, c < s.n → cfg.parentOf c = some q → q < c ∧ s.ex q ≠ .none
  tgt : ∀ p x, x ∈ s.pnd p → x.tgt < s.n
  folT : ∀ p x, x ∈ s.fol p → x.tgt < s.n
  flT : ∀ p rem x, s.fl p = .notifying rem → x ∈ rem → x.tgt < s.n
  usersT : ∀ r (e : Entry), e ∈ s.users r → e.1 < s.n
  scanT : ∀ t i rem (e : Entry), s.ph t = .initing (.scan i rem) → e ∈ rem → e.1 < s.n
  linkT : ∀ t i p rem (e : Entry), s.ph t = .initing (.link i p rem) → e ∈ p :: rem → e.1 < s.n
  incrT : ∀ t i p rem (e : Entry), s.ph t = .initing (.incr i p rem) → e ∈ p :: rem → e.1 < s.n
  pincrT : ∀ t q, s.ph t = .initing (.pincr q) → q < s.n

theorem olderThan_sub {e x : Entry} {l : List Entry} (h : x ∈ olderThan e l) : x ∈ l := by
  induction l with
  | nil => exact h
  | cons a l ih =>
    simp only [olderThan] at h
    split at h
    · exact List.mem_cons_of_mem _ h
    · exact List.mem_cons_of_mem _ (ih h)

variable {cfg : Cfg} {s s' : State} {l : Lbl}

macro "pres" hs:ident h:ident : tactic => `(tactic| (cases $hs:ident <;> first | exact $h | (try dsimp only [State.decPost, State.decPre, State.decCd]) <;> grind [upd, olderThan_sub, List.mem_of_mem_erase, List.mem_of_mem_tail, Fol.tgt]))

theorem Dom.flPre (hi : Dom cfg s) : ∀ p t rem, s.fl p = .notifying (.pre t :: rem) → t < s.n :=
  fun p _ _ h => hi.flT p _ _ h (.head _)
theorem Dom.flPost (hi : Dom cfg s) : ∀ p t rem, s.fl p = .notifying (.post t :: rem) → t < s.n :=
  fun p _ _ h => hi.flT p _ _ h (.head _)
theorem Dom.scanP (hi : Dom cfg s) :
    ∀ t i (p : Entry) rem, s.ph t = .initing (.scan i (p :: rem)) → p.1 < s.n :=
  fun t _ _ _ h => hi.scanT t _ _ _ h (.head _)
theorem Dom.linkP (hi : Dom cfg s) :
    ∀ t i (p : Entry) rem, s.ph t = .initing (.link i p rem) → p.1 < s.n :=
  fun t _ _ _ h => hi.linkT t _ _ _ _ h (.head _)
theorem Dom.incrP (hi : Dom cfg s) :
    ∀ t i (p : Entry) rem, s.ph t = .initing (.incr i p rem) → p.1 < s.n :=
  fun t _ _ _ h => hi.incrT t _ _ _ _ h (.head _)
theorem Dom.lt_ph (hi : Dom cfg s) : ∀ t, s.ph t ≠ .unsub → t < s.n := fun t h =>
  Nat.lt_of_not_le fun h' => h (hi.ph t h')

theorem Dom.incrR (hi : Dom cfg s) :
    ∀ t i (p : Entry) rem e, s.ph t = .initing (.incr i p rem) → e ∈ rem → e.1 < s.n :=
  fun t _ _ _ _ h h' => hi.incrT t _ _ _ _ h (.tail _ h')
theorem Dom.olderT (hi : Dom cfg s) : ∀ r e (x : Entry), x ∈ olderThan e (s.users r) → x.1 < s.n :=
  fun r _ _ h => hi.usersT r _ (olderThan_sub h)

theorem Dom.step_ph (hi : Dom cfg s) (hs : Step cfg l s s') : ∀ t, s'.n ≤ t → s'.ph t = .unsub := by
  have h := hi.ph
  have h0 := hi.handed
  pres hs h

theorem Dom.step_ex (hi : Dom cfg s) (hs : Step cfg l s s') : ∀ t, s'.n ≤ t → s'.ex t = .none := by
  have h := hi.ex
  have h0 := hi.handed
  pres hs h

theorem Dom.step_pre (hi : Dom cfg s) (hs : Step cfg l s s') : ∀ t, s'.n ≤ t → s'.pre t = 1 := by
  have h := hi.pre
  have h0 := hi.ph
  have h1 := hi.handed
  have h2 := hi.flPre
  pres hs h

theorem Dom.step_post (hi : Dom cfg s) (hs : Step cfg l s s') : ∀ t, s'.n ≤ t → s'.post t = 1 := by
  have h := hi.post
  have h0 := hi.ph
  have h1 := hi.ex
  have h2 := hi.flPost
  have h3 := hi.extOld
  have h4 := hi.ext
  have h5 := hi.pincrT
  pres hs h

theorem Dom.step_handed (hi : Dom cfg s) (hs : Step cfg l s s') : ∀ t, s'.n ≤ t → s'.handed t = 0 := by
  have h := hi.handed
  have h0 := hi.ph
  have h1 := hi.flPre
  pres hs h

theorem Dom.step_starts (hi : Dom cfg s) (hs : Step cfg l s s') : ∀ t, s'.n ≤ t → s'.starts t = 0 := by
  have h := hi.starts
  have h0 := hi.handed
  pres hs h

theorem Dom.step_fol (hi : Dom cfg s) (hs : Step cfg l s s') : ∀ t, s'.n ≤ t → s'.fol t = [] := by
  have h := hi.fol
  have h0 := hi.ph
  have h1 := hi.linkP
  pres hs h

theorem Dom.step_pnd (hi : Dom cfg s) (hs : Step cfg l s s') : ∀ t, s'.n ≤ t → s'.pnd t = [] := by
  have h := hi.pnd
  have h0 := hi.ph
  have h1 := hi.linkP
  have h2 := hi.fl
  pres hs h

theorem Dom.step_fl (hi : Dom cfg s) (hs : Step cfg l s s') : ∀ t, s'.n ≤ t → s'.fl t = .idle := by
  have h := hi.fl
  have h0 := hi.flPost
  have h1 := hi.extOld
  have h2 := hi.ex
  have h3 := hi.ext
  pres hs h

theorem Dom.step_fut (hi : Dom cfg s) (hs : Step cfg l s s') : ∀ t, s'.n ≤ t → s'.fut t = .none := by
  have h := hi.fut
  have h0 := hi.ph
  pres hs h

theorem Dom.step_cd (hi : Dom cfg s) (hs : Step cfg l s s') : ∀ t, s'.n ≤ t → s'.cd t = 2 := by
  have h := hi.cd
  have h0 := hi.fl
  have h1 := hi.fut
  pres hs h

theorem Dom.step_mem (hi : Dom cfg s) (hs : Step cfg l s s') : ∀ t, s'.n ≤ t → s'.mem t = .alive := by
  have h := hi.mem
  have h0 := hi.fl
  have h1 := hi.fut
  pres hs h

theorem Dom.step_frees (hi : Dom cfg s) (hs : Step cfg l s s') : ∀ t, s'.n ≤ t → s'.frees t = 0 := by
  have h := hi.frees
  have h0 := hi.fl
  have h1 := hi.fut
  pres hs h

theorem Dom.step_ext (hi : Dom cfg s) (hs : Step cfg l s s') : ∀ k, s'.nExt ≤ k → s'.ext k = .none := by
  have h := hi.ext
  pres hs h

theorem Dom.step_old (hi : Dom cfg s) (hs : Step cfg l s s') : ∀ t, t < s'.n → s'.ph t ≠ .unsub := by
  have h := hi.old
  pres hs h

theorem Dom.step_extOld (hi : Dom cfg s) (hs : Step cfg l s s') : ∀ k, k < s'.nExt → s'.owner k < s'.n ∧ s'.ext k ≠ .none := by
  have h := hi.extOld
  have h0 := hi.ex
  pres hs h

theorem Dom.step_par (hi : Dom cfg s) (hs : Step cfg l s s') : ∀ c q, c < s'.n → cfg.parentOf c = some q → q < c ∧ s'.ex q ≠ .none := by
  have h := hi.par
  have h0 := hi.ex
  pres hs h

theorem Dom.step_tgt (hi : Dom cfg s) (hs : Step cfg l s s') : ∀ p x, x ∈ s'.pnd p → x.tgt < s'.n := by
  have h := hi.tgt
  have h0 := hi.par
  have h1 := hi.lt_ph
  have h2 := hi.linkP
  pres hs h

theorem Dom.step_folT (hi : Dom cfg s) (hs : Step cfg l s s') : ∀ p x, x ∈ s'.fol p → x.tgt < s'.n := by
  have h := hi.folT
  have h0 := hi.par
  have h1 := hi.ph
  have h2 := hi.ex
  pres hs h

theorem Dom.step_flT (hi : Dom cfg s) (hs : Step cfg l s s') : ∀ p rem x, s'.fl p = .notifying rem → x ∈ rem → x.tgt < s'.n := by
  have h := hi.flT
  have h0 := hi.folT
  pres hs h

theorem Dom.step_usersT (hi : Dom cfg s) (hs : Step cfg l s s') : ∀ r (e : Entry), e ∈ s'.users r → e.1 < s'.n := by
  have h := hi.usersT
  have h0 := hi.ph
  pres hs h

theorem Dom.step_scanT (hi : Dom cfg s) (hs : Step cfg l s s') : ∀ t i rem (e : Entry), s'.ph t = .initing (.scan i rem) → e ∈ rem → e.1 < s'.n := by
  have h := hi.scanT
  have h0 := hi.olderT
  have h1 := hi.incrR
  pres hs h

theorem Dom.step_linkT (hi : Dom cfg s) (hs : Step cfg l s s') : ∀ t i p rem (e : Entry), s'.ph t = .initing (.link i p rem) → e ∈ p :: rem → e.1 < s'.n := by
  have h := hi.linkT
  have h0 := hi.scanT
  pres hs h

theorem Dom.step_incrT (hi : Dom cfg s) (hs : Step cfg l s s') : ∀ t i p rem (e : Entry), s'.ph t = .initing (.incr i p rem) → e ∈ p :: rem → e.1 < s'.n := by
  have h := hi.incrT
  have h0 := hi.linkT
  pres hs h

theorem Dom.step_pincrT (hi : Dom cfg s) (hs : Step cfg l s s') : ∀ t q, s'.ph t = .initing (.pincr q) → q < s'.n := by
  have h := hi.pincrT
  have h0 := hi.par
  have h1 := hi.ph
  pres hs h

theorem Dom.step (hi : Dom cfg s) (hs : Step cfg l s s') : Dom cfg s' :=
  ⟨hi.step_ph hs,
   hi.step_ex hs,
   hi.step_pre hs,
   hi.step_post hs,
   hi.step_handed hs,
   hi.step_starts hs,
   hi.step_fol hs,
   hi.step_pnd hs,
   hi.step_fl hs,
   hi.step_fut hs,
   hi.step_cd hs,
   hi.step_mem hs,
   hi.step_frees hs,
   hi.step_ext hs,
   hi.step_old hs,
   hi.step_extOld hs,
   hi.step_par hs,
   hi.step_tgt hs,
   hi.step_folT hs,
   hi.step_flT hs,
   hi.step_usersT hs,
   hi.step_scanT hs,
   hi.step_linkT hs,
   hi.step_incrT hs,
   hi.step_pincrT hs⟩

theorem Dom.init : Dom cfg init := by
  constructor <;> simp [Graph.init]

theorem Dom.reach (h : Reach cfg s) : Dom cfg s := by
  induction h with
  | init => exact Dom.init
  | step _ hs ih => exact ih.step hs

end RG.Graph
