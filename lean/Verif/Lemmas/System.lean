import Verif.Model.System
import Verif.Lemmas.GraphWait
import Verif.Lemmas.GraphMeasure
import Verif.Props.Sync
/-
Invariants of the whole runtime.
-/
set_option linter.unusedVariables false
namespace RG.Sys

open RG.Graph (Cfg WState WStep WReach Ph sumTo_upd KInv)

/-- the worker initialises task `t` -/
def initW (t : Nat) : Pc → Nat
  | .initing u => if u = t then 1 else 0
  | .initingStolen u => if u = t then 1 else 0
  | _ => 0

/-- the worker is going to execute task `t` -/
def runW (t : Nat) : Pc → Nat
  | .run u => if u = t then 1 else 0
  | _ => 0

/-- the worker executes task `t` -/
def execW (t : Nat) : Pc → Nat
  | .exec u => if u = t then 1 else 0
  | _ => 0

@[simp] theorem initW_top (t : Nat) : initW t .top = 0 := rfl
@[simp] theorem initW_waiting (t : Nat) : initW t .waiting = 0 := rfl
@[simp] theorem initW_popReady (t : Nat) : initW t .popReady = 0 := rfl
@[simp] theorem initW_popNew (t : Nat) : initW t .popNew = 0 := rfl
@[simp] theorem initW_stealReady (t : Nat) : initW t .stealReady = 0 := rfl
@[simp] theorem initW_stealNew (t : Nat) : initW t .stealNew = 0 := rfl
@[simp] theorem initW_initing (t u : Nat) : initW t (.initing u) = if u = t then 1 else 0 := rfl
@[simp] theorem initW_initingStolen (t u : Nat) : initW t (.initingStolen u) = if u = t then 1 else 0 := rfl
@[simp] theorem initW_run (t u : Nat) : initW t (.run u) = 0 := rfl
@[simp] theorem initW_exec (t u : Nat) : initW t (.exec u) = 0 := rfl
@[simp] theorem runW_top (t : Nat) : runW t .top = 0 := rfl
@[simp] theorem runW_waiting (t : Nat) : runW t .waiting = 0 := rfl
@[simp] theorem runW_popReady (t : Nat) : runW t .popReady = 0 := rfl
@[simp] theorem runW_popNew (t : Nat) : runW t .popNew = 0 := rfl
@[simp] theorem runW_stealReady (t : Nat) : runW t .stealReady = 0 := rfl
@[simp] theorem runW_stealNew (t : Nat) : runW t .stealNew = 0 := rfl
@[simp] theorem runW_initing (t u : Nat) : runW t (.initing u) = 0 := rfl
@[simp] theorem runW_initingStolen (t u : Nat) : runW t (.initingStolen u) = 0 := rfl
@[simp] theorem runW_run (t u : Nat) : runW t (.run u) = if u = t then 1 else 0 := rfl
@[simp] theorem runW_exec (t u : Nat) : runW t (.exec u) = 0 := rfl
@[simp] theorem execW_top (t : Nat) : execW t .top = 0 := rfl
@[simp] theorem execW_waiting (t : Nat) : execW t .waiting = 0 := rfl
@[simp] theorem execW_popReady (t : Nat) : execW t .popReady = 0 := rfl
@[simp] theorem execW_popNew (t : Nat) : execW t .popNew = 0 := rfl
@[simp] theorem execW_stealReady (t : Nat) : execW t .stealReady = 0 := rfl
@[simp] theorem execW_stealNew (t : Nat) : execW t .stealNew = 0 := rfl
@[simp] theorem execW_initing (t u : Nat) : execW t (.initing u) = 0 := rfl
@[simp] theorem execW_initingStolen (t u : Nat) : execW t (.initingStolen u) = 0 := rfl
@[simp] theorem execW_run (t u : Nat) : execW t (.run u) = 0 := rfl
@[simp] theorem execW_exec (t u : Nat) : execW t (.exec u) = if u = t then 1 else 0 := rfl

/-- the worker looks into its ready queue before it waits -/
def looksReady : Pc → Cv.WPc → Bool
  | .waiting, .out => true
  | .popReady, _ => true
  | .run _, _ => true
  | .exec _, _ => true
  | _, _ => false

/-- the worker looks into its emplacement queue before it waits -/
def looksNew : Pc → Cv.WPc → Bool
  | .popNew, _ => true
  | .initing _, _ => true
  | p, q => looksReady p q

/-- the worker is going to be woken -/
def Sig (s : State) (w : Nat) : Prop :=
  0 < s.wk w ∨ (∃ j, (s.cv w).ns j = .cas) ∨ (s.cv w).pend = true

structure Inv (cfg : Cfg) (N : Nat) (s : State) : Prop where
  wr : WReach cfg s.x
  cvr : ∀ w, Cv.Reach 1 (s.cv w)
  cvn : ∀ w j, s.nn w ≤ j → (s.cv w).ns j = .out
  cvw : ∀ w, s.pc w ≠ .waiting → (s.cv w).ws 0 = .out
  sigR : ∀ w, s.ready w ≠ [] → Sig s w ∨ looksReady (s.pc w) ((s.cv w).ws 0) = true
  sigN : ∀ w, s.new w ≠ [] → Sig s w ∨ looksNew (s.pc w) ((s.cv w).ws 0) = true
  cntNew : ∀ t, sumTo N (fun w => (s.new w).count t) = if stage (s.x.g.ph t) = .queued then 1 else 0
  cntInit : ∀ t, sumTo N (fun w => initW t (s.pc w)) = if stage (s.x.g.ph t) = .initing then 1 else 0
  cntTok : ∀ t, s.act.count t + sumTo N (fun w => (s.ready w).count t) + sumTo N (fun w => runW t (s.pc w)) =
    s.x.g.handed t + if s.res t = true then 1 else 0
  cntExec : ∀ t, sumTo N (fun w => execW t (s.pc w)) =
    if s.x.g.ex t = .running ∧ s.x.w t = none ∧ s.res t = false then 1 else 0
  resI : ∀ t, s.res t = true → s.x.g.ex t = .running ∧ s.x.w t = none
  kids : ∀ c t, c < s.x.g.n → cfg.parentOf c = some t → c ∈ s.x.know t

variable {cfg : Cfg} {N : Nat} {s s' : State}

theorem sumPc {F : Pc → Nat} (pc : Nat → Pc) {w : Nat} (p : Pc) (hw : w < N) :
    sumTo N (fun v => F (upd pc w p v)) + F (pc w) = sumTo N (fun v => F (pc v)) + F p :=
  sumTo_upd (fun _ p => F p) pc p hw

theorem sumQ (t : Nat) (q : Nat → List Nat) {w : Nat} (l : List Nat) (hw : w < N) :
    sumTo N (fun v => (upd q w l v).count t) + (q w).count t = sumTo N (fun v => (q v).count t) + l.count t :=
  sumTo_upd (fun _ l => l.count t) q l hw

theorem kids_step {x x' : WState} (h : WStep cfg x x')
    (hk : ∀ c t, c < x.g.n → cfg.parentOf c = some t → c ∈ x.know t) (hx : WReach cfg x) :
    ∀ c t, c < x'.g.n → cfg.parentOf c = some t → c ∈ x'.know t := by
  intro c t hc hp
  cases h with
  | @submitOut l g' ks h hn hp' hk' =>
    dsimp only at hc ⊢
    have hu := RG.Graph.Up.reach (RG.Graph.Reach.step hx.graph h)
    have htc := hu c t hc hp
    have e : c ≠ x.g.n := by rintro rfl; rw [hp'] at hp; cases hp
    rw [upd_ne _ _ (by omega)]
    exact hk c t (by omega) hp
  | @submitIn l g' ks q h hn hp' hw hk' =>
    dsimp only at hc ⊢
    have hu := RG.Graph.Up.reach (RG.Graph.Reach.step hx.graph h)
    have htc := hu c t hc hp
    rw [upd_ne _ _ (by omega)]
    by_cases e : c = x.g.n
    · subst e
      rw [hp'] at hp
      cases hp
      simp
    · by_cases e' : t = q
      · subst e'
        rw [upd_same]
        exact .tail _ (hk c t (by omega) hp)
      · rw [upd_ne _ _ e']
        exact hk c t (by omega) hp
  | @other l g' h hn he hx' =>
    dsimp only at hc ⊢
    rw [hn] at hc
    exact hk c t hc hp
  | wait => exact hk c t hc hp
  | @wake t' u ks hw hu hk' =>
    dsimp only at hc ⊢
    by_cases e' : t = t'
    · subst e'
      rw [upd_same]
      exact List.mem_append_right _ (hk c t hc hp)
    · rw [upd_ne _ _ e']
      exact hk c t hc hp
  | readOut => exact hk c t hc hp

theorem Inv.init : Inv cfg N init := by
  have z : ∀ n, sumTo n (fun _ => 0) = 0 := by intro n; induction n <;> simp_all [sumTo]
  constructor <;> try (intros; simp_all [Sys.init, WState.init, RG.Graph.init, stage, initW, runW, execW, Cv.init]; done)
  · exact .init
  · intro w; exact .init

theorem Inv.step_cvr (hi : Inv cfg N s) (hs : Step cfg N s s') : ∀ w, Cv.Reach 1 (s'.cv w) := by
  intro v
  have h := hi.cvr
  have key : ∀ {w cv' l}, Cv.Step l (s.cv w) cv' → (∀ i, l.waiter? = some i → i < 1) →
      Cv.Reach 1 (upd s.cv w cv' v) := by
    intro w cv' l hc hl
    by_cases e : v = w
    · subst e; rw [upd_same]; exact .step (h v) hc hl
    · rw [upd_ne _ _ e]; exact h v
  cases hs with
  | wake hw h hc => exact key hc (by simp [Cv.Lbl.waiter?])
  | noise hw hc => exact key hc (by simp [Cv.Lbl.waiter?])
  | notify hw hc => exact key hc (by simp [Cv.Lbl.waiter?])
  | spurious hw hc => exact key hc (by simp [Cv.Lbl.waiter?])
  | sleep hw h hc => exact key hc (by simp [Cv.Lbl.waiter?])
  | wait hw hc => exact key hc (by simp [Cv.Lbl.waiter?])
  | _ => exact h v

theorem Inv.step_wr (hi : Inv cfg N s) (hs : Step cfg N s s') : WReach cfg s'.x := by
  have h := hi.wr
  cases hs <;> first | exact h | exact .step h (by assumption)

theorem Inv.step_kids (hi : Inv cfg N s) (hs : Step cfg N s s') :
    ∀ c t, c < s'.x.g.n → cfg.parentOf c = some t → c ∈ s'.x.know t := by
  have h := hi.kids
  cases hs <;> first | exact h | exact kids_step (by assumption) h hi.wr

theorem cv_ns {l : Cv.Lbl} {c c' : Cv.State} (h : Cv.Step l c c') (j : Nat)
    (hj : ∀ i, l = .notifyCall i → j ≠ i) (hn : c.ns j = .out) : c'.ns j = .out := by
  cases h with
  | @notifyCall _ k h => dsimp only; rw [upd_ne _ _ (hj k rfl)]; exact hn
  | @cas _ k h =>
    dsimp only; rw [upd_ne]; exact hn
    rintro rfl; rw [hn] at h; cases h
  | @nLockM _ k h =>
    dsimp only; rw [upd_ne]; exact hn
    rintro rfl; rw [hn] at h; cases h
  | @notifyAll _ k h =>
    dsimp only; rw [upd_ne]; exact hn
    rintro rfl; rw [hn] at h; cases h
  | @nUnlockM _ k h =>
    dsimp only; rw [upd_ne]; exact hn
    rintro rfl; rw [hn] at h; cases h
  | _ => exact hn

theorem Inv.step_cvn (hi : Inv cfg N s) (hs : Step cfg N s s') :
    ∀ w j, s'.nn w ≤ j → (s'.cv w).ns j = .out := by
  intro v j hj
  have h := hi.cvn
  have key : ∀ {w cv' l}, Cv.Step l (s.cv w) cv' → (∀ i, l ≠ .notifyCall i) → s.nn v ≤ j →
      (upd s.cv w cv' v).ns j = .out := by
    intro w cv' l hc hl hj
    by_cases e : v = w
    · subst e; rw [upd_same]; exact cv_ns hc j (fun i e => absurd e (hl i)) (h v j hj)
    · rw [upd_ne _ _ e]; exact h v j hj
  have key2 : ∀ {w cv'}, Cv.Step (.notifyCall (s.nn w)) (s.cv w) cv' → upd s.nn w (s.nn w + 1) v ≤ j →
      (upd s.cv w cv' v).ns j = .out := by
    intro w cv' hc hj
    by_cases e : v = w
    · subst e
      rw [upd_same] at hj ⊢
      exact cv_ns hc j (fun i e => by cases e; omega) (h v j (by omega))
    · rw [upd_ne _ _ e] at hj ⊢; exact h v j hj
  cases hs with
  | wake hw h hc => exact key2 hc hj
  | noise hw hc => exact key2 hc hj
  | notify hw hc => exact key hc (by simp) hj
  | spurious hw hc => exact key hc (by simp) hj
  | sleep hw h hc => exact key hc (by simp) hj
  | wait hw hc => exact key hc (by simp) hj
  | _ => exact h v j hj

/-- a step of a notifier or a spurious wake-up does not change whether the waiter is waiting -/
theorem cv_out {l : Cv.Lbl} {c c' : Cv.State} (h : Cv.Step l c c') (hl : ∀ i, l ≠ .waitCall i)
    (ho : c.ws 0 = .out) : c'.ws 0 = .out := by
  have key : ∀ {i p q}, c.ws i = p → p ≠ .out → upd c.ws i q 0 = .out := by
    intro i p q h1 h2
    rw [upd_ne]; exact ho
    rintro rfl; rw [ho] at h1; exact h2 h1.symm
  cases h with
  | waitCall => exact absurd rfl (hl _)
  | notifyAll => dsimp only; rw [ho]; rfl
  | timeout h => exact key h (by simp)
  | leave h => exact key h (by simp)
  | check2T h => exact key h (by simp)
  | check2F h => exact key h (by simp)
  | lockM h => exact key h (by simp)
  | sleep h => exact key h (by simp)
  | predT h => exact key h (by simp)
  | unlockM h => exact key h (by simp)
  | relock h => exact key h (by simp)
  | spurious h => exact key h (by simp)
  | store h => exact key h (by simp)
  | _ => exact ho

theorem cv_out' {c c' : Cv.State} {l : Cv.Lbl} (h : Cv.Step l c c') (hl : l.waiter? = none)
    : (c'.ws 0 = .out ↔ c.ws 0 = .out) := by
  cases h with
  | notifyAll =>
    dsimp only
    cases c.ws 0 <;> simp [Cv.wakeUp]
  | _ => first | simp [Cv.Lbl.waiter?] at hl; done | exact Iff.rfl

theorem Inv.step_cvw (hi : Inv cfg N s) (hs : Step cfg N s s') :
    ∀ w, s'.pc w ≠ .waiting → (s'.cv w).ws 0 = .out := by
  intro v hv
  have h := hi.cvw
  have key : ∀ {w cv' l}, Cv.Step l (s.cv w) cv' → (∀ i, l ≠ .waitCall i) → s.pc v ≠ .waiting →
      (upd s.cv w cv' v).ws 0 = .out := by
    intro w cv' l hc hl hj
    by_cases e : v = w
    · subst e; rw [upd_same]; exact cv_out hc hl (h v hj)
    · rw [upd_ne _ _ e]; exact h v hj
  have key2 : ∀ {w p}, (s.pc w ≠ .waiting ∨ (s.cv w).ws 0 = .out) → upd s.pc w p v ≠ .waiting →
      (s.cv v).ws 0 = .out := by
    intro w p h1 h2
    by_cases e : v = w
    · subst e
      rcases h1 with h1 | h1
      · exact h v h1
      · exact h1
    · rw [upd_ne _ _ e] at h2; exact h v h2
  cases hs with
  | wake hw h hc => exact key hc (by simp) hv
  | noise hw hc => exact key hc (by simp) hv
  | notify hw hc => exact key hc (by simp) hv
  | spurious hw hc => exact key hc (by simp) hv
  | @sleep w cv' hw h' hc =>
    dsimp only at hv ⊢
    by_cases e : v = w
    · subst e; rw [upd_same] at hv; exact absurd rfl hv
    · rw [upd_ne _ _ e] at hv ⊢; exact h v hv
  | wait hw hc => exact key hc (by simp) hv
  | woken hw h1 h2 => exact key2 (.inr h2) hv
  | popReady hw h1 => exact key2 (.inl (by rw [h1]; simp)) hv
  | noReady hw h1 => exact key2 (.inl (by rw [h1]; simp)) hv
  | popNew hw h1 => exact key2 (.inl (by rw [h1]; simp)) hv
  | noNew hw h1 => exact key2 (.inl (by rw [h1]; simp)) hv
  | initReady hw h1 => exact key2 (.inl (by rcases h1 with h1 | h1 <;> rw [h1] <;> simp)) hv
  | initBlocked hw h1 => exact key2 (.inl (by rw [h1]; simp)) hv
  | stolenBlocked hw h1 => exact key2 (.inl (by rw [h1]; simp)) hv
  | stealReady hw _ h1 => exact key2 (.inl (by rw [h1]; simp)) hv
  | noStealReady hw h1 => exact key2 (.inl (by rw [h1]; simp)) hv
  | stealNew hw _ h1 => exact key2 (.inl (by rw [h1]; simp)) hv
  | noStealNew hw h1 => exact key2 (.inl (by rw [h1]; simp)) hv
  | start hw h1 => exact key2 (.inl (by rw [h1]; simp)) hv
  | resume hw h1 => exact key2 (.inl (by rw [h1]; simp)) hv
  | pause hw h1 => exact key2 (.inl (by rw [h1]; simp)) hv
  | bodyEnd hw h1 => exact key2 (.inl (by rw [h1]; simp)) hv
  | _ => exact h v hv

theorem Inv.step_resI (hi : Inv cfg N s) (hs : Step cfg N s s') :
    ∀ t, s'.res t = true → s'.x.g.ex t = .running ∧ s'.x.w t = none := by
  intro t ht
  have h := hi.resI
  have hk := (KInv.reach hi.wr).w
  have hc := hi.cntExec
  cases hs with
  | graph h1 h2 h3 h4 h5 => dsimp only at *; rw [h4, h5]; exact h t ht
  | emplace _ h1 h2 _ _ h3 h4 h5 => dsimp only at *; rw [h4, h5]; exact h t ht
  | ready h1 h2 h3 h4 h5 => dsimp only at *; rw [h4, h5]; exact h t ht
  | @unpause x' u h1 h2 h3 h4 =>
    dsimp only at *
    rw [h4, h2]
    by_cases e : t = u
    · subst e
      rw [upd_same]
      cases hw : s.x.w t with
      | none => exact absurd hw h3
      | some v => exact ⟨(hk t v hw).2, rfl⟩
    · rw [upd_ne _ _ e] at ht ⊢; exact h t ht
  | popNew _ _ _ h1 h2 _ h3 h4 h5 => dsimp only at *; rw [h4, h5]; exact h t ht
  | initStep _ _ h1 h2 _ _ h3 h4 h5 => dsimp only at *; rw [h4, h5]; exact h t ht
  | initReady _ _ h1 h2 _ h3 h4 h5 => dsimp only at *; rw [h4, h5]; exact h t ht
  | initBlocked _ _ h1 h2 _ h3 h4 h5 => dsimp only at *; rw [h4, h5]; exact h t ht
  | stolenBlocked _ _ h1 h2 _ h3 h4 h5 => dsimp only at *; rw [h4, h5]; exact h t ht
  | stealNew _ _ _ _ h1 h2 _ h3 h4 h5 => dsimp only at *; rw [h4, h5]; exact h t ht
  | @start x' w u _ _ h1 h2 h3 h0 h4 h5 =>
    dsimp only at *
    rw [h4, h5]
    by_cases e : t = u
    · subst e; rw [upd_same]; exact ⟨rfl, (h t ht).2⟩
    · rw [upd_ne _ _ e]; exact h t ht
  | @resume w u _ h1 h2 =>
    dsimp only at *
    by_cases e : t = u
    · subst e; rw [upd_same] at ht; cases ht
    · rw [upd_ne _ _ e] at ht; exact h t ht
  | @pause x' w u v hw h1 h2 h3 h4 h5 h6 =>
    dsimp only at *
    rw [h3, h6]
    by_cases e : t = u
    · subst e
      exfalso
      have h7 := le_sumTo (f := fun w => execW t (s.pc w)) hw
      rw [hc t, ht] at h7
      simp [h1] at h7
    · rw [upd_ne _ _ e]; exact h t ht
  | @bodyEnd x' w u hw h1 h2 h3 h4 h5 h6 h7 h8 =>
    dsimp only at *
    rw [h6, h8]
    by_cases e : t = u
    · subst e
      exfalso
      have h9 := le_sumTo (f := fun w => execW t (s.pc w)) hw
      rw [hc t, ht] at h9
      simp [h1] at h9
    · rw [upd_ne _ _ e]; exact h t ht
  | _ => exact h t ht

theorem Inv.step_cntExec (hi : Inv cfg N s) (hs : Step cfg N s s') :
    ∀ t, sumTo N (fun w => execW t (s'.pc w)) =
      if s'.x.g.ex t = .running ∧ s'.x.w t = none ∧ s'.res t = false then 1 else 0 := by
  intro t
  have h := hi.cntExec t
  have hr := hi.resI t
  have hk := (KInv.reach hi.wr).w t
  -- a worker that does not execute a task continues with something else
  have same : ∀ {w p}, w < N → execW t (s.pc w) = 0 → execW t p = 0 →
      sumTo N (fun v => execW t (upd s.pc w p v)) = sumTo N (fun v => execW t (s.pc v)) := by
    intro w p hw h1 h2
    have := sumPc (F := execW t) s.pc p hw
    omega
  cases hs with
  | graph h1 h2 h3 h4 h5 => dsimp only at *; rw [h4, h5]; exact h
  | emplace _ h1 h2 _ _ h3 h4 h5 => dsimp only at *; rw [h4, h5]; exact h
  | ready h1 h2 h3 h4 h5 => dsimp only at *; rw [h4, h5]; exact h
  | @unpause x' u h1 h2 h3 h4 =>
    dsimp only at *
    rw [h4, h2]
    by_cases e : t = u
    · subst e
      rw [h]
      simp [h3]
    · simp only [upd_ne _ _ e]; exact h
  | sleep hw h1 => dsimp only; rw [same hw (by rw [h1]; rfl) rfl]; exact h
  | woken hw h1 => dsimp only; rw [same hw (by rw [h1]; rfl) rfl]; exact h
  | popReady hw h1 => dsimp only; rw [same hw (by rw [h1]; rfl) rfl]; exact h
  | noReady hw h1 => dsimp only; rw [same hw (by rw [h1]; rfl) rfl]; exact h
  | popNew hw h1 _ _ h2 _ h3 h4 h5 =>
    dsimp only; rw [same hw (by rw [h1]; rfl) rfl, h4, h5]; exact h
  | noNew hw h1 => dsimp only; rw [same hw (by rw [h1]; rfl) rfl]; exact h
  | initStep _ _ h1 h2 _ _ h3 h4 h5 => dsimp only at *; rw [h4, h5]; exact h
  | initReady hw h1 _ h2 _ h3 h4 h5 =>
    dsimp only; rw [same hw (by rcases h1 with h1 | h1 <;> rw [h1] <;> rfl) rfl, h4, h5]; exact h
  | initBlocked hw h1 _ h2 _ h3 h4 h5 => dsimp only; rw [same hw (by rw [h1]; rfl) rfl, h4, h5]; exact h
  | stolenBlocked hw h1 _ h2 _ h3 h4 h5 => dsimp only; rw [same hw (by rw [h1]; rfl) rfl, h4, h5]; exact h
  | stealReady hw _ h1 => dsimp only; rw [same hw (by rw [h1]; rfl) rfl]; exact h
  | noStealReady hw h1 => dsimp only; rw [same hw (by rw [h1]; rfl) rfl]; exact h
  | stealNew hw _ h1 _ _ h2 _ h3 h4 h5 => dsimp only; rw [same hw (by rw [h1]; rfl) rfl, h4, h5]; exact h
  | noStealNew hw h1 => dsimp only; rw [same hw (by rw [h1]; rfl) rfl]; exact h
  | @start x' w u hw h1 h2 h3 h4 h0 h5 h6 =>
    dsimp only at *
    have := sumPc (F := execW t) s.pc (.exec u) hw
    rw [h1] at this
    rw [h5, h6]
    by_cases e : t = u
    · subst e
      simp only [upd_same]
      have a1 : s.x.w t = none := by
        cases hw' : s.x.w t with
        | none => rfl
        | some v => have := (hk v hw').2; rw [h0] at this; cases this
      have a2 : s.res t = false := by
        cases hr' : s.res t with
        | false => rfl
        | true => have := (hr hr').1; rw [h0] at this; cases this
      rw [if_neg (by simp [h0])] at h
      simp at this
      simp [a1, a2]
      omega
    · simp only [upd_ne _ _ e]
      have e' : u ≠ t := fun h => e h.symm
      simp [e'] at this
      rw [this]; exact h
  | @resume w u hw h1 h2 =>
    dsimp only at *
    have := sumPc (F := execW t) s.pc (.exec u) hw
    rw [h1] at this
    by_cases e : t = u
    · subst e
      simp only [upd_same]
      rw [h2] at h
      simp at this
      rw [if_neg (by simp)] at h
      have a := hr h2
      simp [a]
      omega
    · simp only [upd_ne _ _ e]
      have e' : u ≠ t := fun h => e h.symm
      simp [e'] at this
      rw [this]; exact h
  | @pause x' w u v hw h1 h2 h3 h4 h5 h6 =>
    dsimp only at *
    have := sumPc (F := execW t) s.pc .popReady hw
    rw [h1] at this
    rw [h3, h6]
    by_cases e : t = u
    · subst e
      simp only [upd_same]
      simp at this ⊢
      split at h <;> omega
    · simp only [upd_ne _ _ e]
      have e' : u ≠ t := fun h => e h.symm
      simp [e'] at this
      rw [this]; exact h
  | @bodyEnd x' w u hw h1 h2 h3 h4 h5 h6 h7 h8 =>
    dsimp only at *
    have := sumPc (F := execW t) s.pc .popReady hw
    rw [h1] at this
    rw [h6, h8]
    by_cases e : t = u
    · subst e
      simp only [upd_same]
      simp at this ⊢
      split at h <;> omega
    · simp only [upd_ne _ _ e]
      have e' : u ≠ t := fun h => e h.symm
      simp [e'] at this
      rw [this]; exact h
  | _ => exact h

theorem SamePh.none {x x' : WState} (h : SamePh x x' none) (t : Nat) : stage (x'.g.ph t) = stage (x.g.ph t) :=
  h.1 t (by simp)

theorem SamePh.ne {x x' : WState} {u : Nat} (h : SamePh x x' (some u)) {t : Nat} (e : t ≠ u) :
    stage (x'.g.ph t) = stage (x.g.ph t) :=
  h.1 t (by simpa using e)

theorem Inv.step_cntNew (hi : Inv cfg N s) (hs : Step cfg N s s') :
    ∀ t, sumTo N (fun w => (s'.new w).count t) = if stage (s'.x.g.ph t) = .queued then 1 else 0 := by
  intro t
  have h := hi.cntNew t
  have pop : ∀ {w u} {x' : WState}, w < N → u ∈ s.new w → SamePh s.x x' (some u) →
      stage (x'.g.ph u) = .initing →
      sumTo N (fun v => (upd s.new w ((s.new w).erase u) v).count t) =
        if stage (x'.g.ph t) = .queued then 1 else 0 := by
    intro w u x' hw hq hp hi'
    have h1 := sumQ t s.new ((s.new w).erase u) hw
    by_cases e : t = u
    · subst e
      have h2 : 1 ≤ (s.new w).count t := List.one_le_count_iff.2 hq
      rw [List.count_erase_self] at h1
      simp [hi']
      split at h <;> omega
    · rw [List.count_erase_of_ne e] at h1
      rw [hp.ne e]
      omega
  cases hs with
  | graph h1 h2 => dsimp only; rw [h2.none]; exact h
  | @emplace x' u w hw h1 h2 h3 h4 =>
    dsimp only
    have h5 := sumQ t s.new (u :: s.new w) hw
    by_cases e : t = u
    · subst e
      rw [h3] at h
      rw [h4]
      simp at h5 h
      simp [stage]
      omega
    · rw [h2.ne e]
      rw [List.count_cons_of_ne (fun h => e h.symm)] at h5
      omega
  | ready h1 h2 => dsimp only; rw [h2.none]; exact h
  | unpause h1 h2 => dsimp only; rw [h2]; exact h
  | popNew hw _ h1 _ h2 h3 => exact pop hw h1 h2 h3
  | @initStep x' w u _ h0 _ h1 h2 h3 =>
    dsimp only
    by_cases e : t = u
    · subst e
      have := le_sumTo (f := fun w => initW t (s.pc w)) (t := w) (by assumption)
      have h4 := hi.cntInit t
      have h5 : stage (s.x.g.ph t) = .initing := by
        apply Classical.byContradiction
        intro h5
        rw [if_neg h5] at h4
        rcases h0 with h0 | h0 <;> simp [h0] at this <;> omega
      rw [h2, ← h5]; exact h
    · rw [h1.ne e]; exact h
  | @initReady x' w u hw h0 _ h1 h2 =>
    dsimp only
    by_cases e : t = u
    · subst e
      have := le_sumTo (f := fun w => initW t (s.pc w)) hw
      have h4 := hi.cntInit t
      have h5 : stage (s.x.g.ph t) = .initing := by
        apply Classical.byContradiction
        intro h5
        rw [if_neg h5] at h4
        rcases h0 with h0 | h0 <;> simp [h0] at this <;> omega
      rw [h5] at h
      rw [h2]
      simpa [stage] using h
    · rw [h1.ne e]; exact h
  | @initBlocked x' w u hw h0 _ h1 h2 =>
    dsimp only
    by_cases e : t = u
    · subst e
      have := le_sumTo (f := fun w => initW t (s.pc w)) hw
      have h4 := hi.cntInit t
      have h5 : stage (s.x.g.ph t) = .initing := by
        apply Classical.byContradiction
        intro h5
        rw [if_neg h5] at h4
        simp [h0] at this; omega
      rw [h5] at h
      rw [h2]
      simpa [stage] using h
    · rw [h1.ne e]; exact h
  | @stolenBlocked x' w u hw h0 _ h1 h2 =>
    dsimp only
    by_cases e : t = u
    · subst e
      have := le_sumTo (f := fun w => initW t (s.pc w)) hw
      have h4 := hi.cntInit t
      have h5 : stage (s.x.g.ph t) = .initing := by
        apply Classical.byContradiction
        intro h5
        rw [if_neg h5] at h4
        simp [h0] at this; omega
      rw [h5] at h
      rw [h2]
      simpa [stage] using h
    · rw [h1.ne e]; exact h
  | stealNew _ hv _ h1 _ h2 h3 => exact pop hv h1 h2 h3
  | start _ _ _ h2 => dsimp only; rw [h2.none]; exact h
  | pause _ _ _ h2 => dsimp only; rw [h2]; exact h
  | bodyEnd _ _ _ h2 => dsimp only; rw [h2.none]; exact h
  | _ => exact h

theorem Inv.queued (hi : Inv cfg N s) {w u : Nat} (hw : w < N) (hq : u ∈ s.new w) :
    stage (s.x.g.ph u) = .queued := by
  have h1 : 1 ≤ (s.new w).count u := List.one_le_count_iff.2 hq
  have h2 := le_sumTo (f := fun w => (s.new w).count u) hw
  have h3 := hi.cntNew u
  apply Classical.byContradiction
  intro h4
  rw [if_neg h4] at h3
  omega

theorem Inv.initing (hi : Inv cfg N s) {w u : Nat} (hw : w < N)
    (hq : s.pc w = .initing u ∨ s.pc w = .initingStolen u) : stage (s.x.g.ph u) = .initing := by
  have h2 := le_sumTo (f := fun w => initW u (s.pc w)) hw
  have h3 := hi.cntInit u
  apply Classical.byContradiction
  intro h4
  rw [if_neg h4] at h3
  rcases hq with hq | hq <;> simp [hq] at h2 <;> omega

theorem Inv.step_cntInit (hi : Inv cfg N s) (hs : Step cfg N s s') :
    ∀ t, sumTo N (fun w => initW t (s'.pc w)) = if stage (s'.x.g.ph t) = .initing then 1 else 0 := by
  intro t
  have h := hi.cntInit t
  have same : ∀ {w p}, w < N → initW t (s.pc w) = 0 → initW t p = 0 →
      sumTo N (fun v => initW t (upd s.pc w p v)) = sumTo N (fun v => initW t (s.pc v)) := by
    intro w p hw h1 h2
    have := sumPc (F := initW t) s.pc p hw
    omega
  -- a worker takes a new task
  have take : ∀ {w u p} {x' : WState}, w < N → initW t (s.pc w) = 0 → stage (s.x.g.ph u) = .queued →
      initW t p = (if u = t then 1 else 0) → SamePh s.x x' (some u) → stage (x'.g.ph u) = .initing →
      sumTo N (fun v => initW t (upd s.pc w p v)) = if stage (x'.g.ph t) = .initing then 1 else 0 := by
    intro w u p x' hw h1 hq h2 hp hi'
    have := sumPc (F := initW t) s.pc p hw
    by_cases e : t = u
    · subst e
      rw [hq] at h
      simp at h h2
      simp [hi']
      omega
    · rw [hp.ne e]
      rw [if_neg (fun h => e h.symm)] at h2
      omega
  -- a worker has initialised a task
  have fin : ∀ {w u p} {x' : WState}, w < N → (s.pc w = .initing u ∨ s.pc w = .initingStolen u) →
      initW t p = 0 → SamePh s.x x' (some u) → x'.g.ph u = .inited →
      sumTo N (fun v => initW t (upd s.pc w p v)) = if stage (x'.g.ph t) = .initing then 1 else 0 := by
    intro w u p x' hw h1 h2 hp hi'
    have := sumPc (F := initW t) s.pc p hw
    have h3 : initW t (s.pc w) = if u = t then 1 else 0 := by rcases h1 with h1 | h1 <;> rw [h1] <;> rfl
    by_cases e : t = u
    · subst e
      have h4 := hi.initing hw h1
      rw [h4] at h
      simp at h h3
      simp [hi', stage]
      omega
    · rw [hp.ne e]
      rw [if_neg (fun h => e h.symm)] at h3
      omega
  cases hs with
  | graph h1 h2 => dsimp only; rw [h2.none]; exact h
  | @emplace x' u w hw h1 h2 h3 h4 =>
    dsimp only
    by_cases e : t = u
    · subst e
      rw [h3] at h
      rw [h4]
      simpa [stage] using h
    · rw [h2.ne e]; exact h
  | ready h1 h2 => dsimp only; rw [h2.none]; exact h
  | unpause h1 h2 => dsimp only; rw [h2]; exact h
  | sleep hw h1 => dsimp only; rw [same hw (by rw [h1]; rfl) rfl]; exact h
  | woken hw h1 => dsimp only; rw [same hw (by rw [h1]; rfl) rfl]; exact h
  | popReady hw h1 => dsimp only; rw [same hw (by rw [h1]; rfl) rfl]; exact h
  | noReady hw h1 => dsimp only; rw [same hw (by rw [h1]; rfl) rfl]; exact h
  | popNew hw h0 h1 _ h2 h3 => exact take hw (by rw [h0]; rfl) (hi.queued hw h1) rfl h2 h3
  | noNew hw h1 => dsimp only; rw [same hw (by rw [h1]; rfl) rfl]; exact h
  | @initStep x' w u hw h0 _ h1 h2 h3 =>
    dsimp only
    by_cases e : t = u
    · subst e
      rw [h2]; rw [hi.initing hw h0] at h; exact h
    · rw [h1.ne e]; exact h
  | initReady hw h0 _ h1 h2 => exact fin hw h0 rfl h1 h2
  | initBlocked hw h0 _ h1 h2 => exact fin hw (.inl h0) rfl h1 h2
  | stolenBlocked hw h0 _ h1 h2 => exact fin hw (.inr h0) rfl h1 h2
  | stealReady hw _ h1 => dsimp only; rw [same hw (by rw [h1]; rfl) rfl]; exact h
  | noStealReady hw h1 => dsimp only; rw [same hw (by rw [h1]; rfl) rfl]; exact h
  | stealNew hw hv h0 h1 _ h2 h3 => exact take hw (by rw [h0]; rfl) (hi.queued hv h1) rfl h2 h3
  | noStealNew hw h1 => dsimp only; rw [same hw (by rw [h1]; rfl) rfl]; exact h
  | start hw h1 _ h2 => dsimp only; rw [same hw (by rw [h1]; rfl) rfl, h2.none]; exact h
  | resume hw h1 => dsimp only; rw [same hw (by rw [h1]; rfl) rfl]; exact h
  | pause hw h1 _ h2 => dsimp only; rw [same hw (by rw [h1]; rfl) rfl, h2]; exact h
  | bodyEnd hw h1 _ h2 => dsimp only; rw [same hw (by rw [h1]; rfl) rfl, h2.none]; exact h
  | _ => exact h

theorem Inv.step_cntTok (hi : Inv cfg N s) (hs : Step cfg N s s') :
    ∀ t, s'.act.count t + sumTo N (fun w => (s'.ready w).count t) + sumTo N (fun w => runW t (s'.pc w)) =
      s'.x.g.handed t + if s'.res t = true then 1 else 0 := by
  intro t
  have h := hi.cntTok t
  have same : ∀ {w p}, w < N → runW t (s.pc w) = 0 → runW t p = 0 →
      sumTo N (fun v => runW t (upd s.pc w p v)) = sumTo N (fun v => runW t (s.pc v)) := by
    intro w p hw h1 h2
    have := sumPc (F := runW t) s.pc p hw
    omega
  -- a worker takes a ready task
  have pop : ∀ {w v u}, w < N → v < N → u ∈ s.ready v → runW t (s.pc w) = 0 →
      s.act.count t + sumTo N (fun k => (upd s.ready v ((s.ready v).erase u) k).count t) +
        sumTo N (fun k => runW t (upd s.pc w (.run u) k)) = s.x.g.handed t + if s.res t = true then 1 else 0 := by
    intro w v u hw hv hq h0
    have h1 := sumQ t s.ready ((s.ready v).erase u) hv
    have h2 := sumPc (F := runW t) s.pc (.run u) hw
    by_cases e : t = u
    · subst e
      have h3 : 1 ≤ (s.ready v).count t := List.one_le_count_iff.2 hq
      rw [List.count_erase_self] at h1
      simp at h2
      omega
    · rw [List.count_erase_of_ne e] at h1
      rw [runW_run, if_neg (fun h => e h.symm)] at h2
      omega
  cases hs with
  | graph h1 h2 h3 => dsimp only; rw [h3]; exact h
  | emplace _ _ _ _ _ h3 => dsimp only; rw [h3]; exact h
  | @ready x' u h1 h2 h3 =>
    dsimp only
    rw [h3]
    by_cases e : t = u
    · subst e; rw [upd_same, List.count_cons_self]; omega
    · rw [upd_ne _ _ e, List.count_cons_of_ne (fun h => e h.symm)]; exact h
  | @unpause x' u h1 h2 h3 h4 =>
    dsimp only
    rw [h2]
    by_cases e : t = u
    · subst e
      have h5 : s.res t = false := by
        cases hr : s.res t with
        | false => rfl
        | true => exact absurd (hi.resI t hr).2 h3
      rw [h5] at h
      simp only [upd_same, List.count_cons_self]
      simp at h ⊢
      omega
    · simp only [upd_ne _ _ e]
      rw [List.count_cons_of_ne (fun h => e h.symm)]; exact h
  | @activate u w hw h1 =>
    dsimp only
    have h5 := sumQ t s.ready (u :: s.ready w) hw
    by_cases e : t = u
    · subst e
      have h3 : 1 ≤ s.act.count t := List.one_le_count_iff.2 h1
      rw [List.count_erase_self]
      rw [List.count_cons_self] at h5
      omega
    · rw [List.count_erase_of_ne e]
      rw [List.count_cons_of_ne (fun h => e h.symm)] at h5
      omega
  | sleep hw h1 => dsimp only; rw [same hw (by rw [h1]; rfl) rfl]; exact h
  | woken hw h1 => dsimp only; rw [same hw (by rw [h1]; rfl) rfl]; exact h
  | popReady hw h1 h2 => exact pop hw hw h2 (by rw [h1]; rfl)
  | noReady hw h1 => dsimp only; rw [same hw (by rw [h1]; rfl) rfl]; exact h
  | popNew hw h1 _ _ _ _ h3 => dsimp only; rw [same hw (by rw [h1]; rfl) rfl, h3]; exact h
  | noNew hw h1 => dsimp only; rw [same hw (by rw [h1]; rfl) rfl]; exact h
  | initStep _ _ _ _ _ _ h3 => dsimp only; rw [h3]; exact h
  | @initReady x' w u hw h0 _ h1 h2 h3 =>
    dsimp only
    rw [h3]
    have h4 := sumPc (F := runW t) s.pc (.run u) hw
    have h5 : runW t (s.pc w) = 0 := by rcases h0 with h0 | h0 <;> rw [h0] <;> rfl
    by_cases e : t = u
    · subst e
      simp only [upd_same]
      simp at h4
      omega
    · simp only [upd_ne _ _ e]
      rw [runW_run, if_neg (fun h => e h.symm)] at h4
      omega
  | initBlocked hw h1 _ _ _ h3 => dsimp only; rw [same hw (by rw [h1]; rfl) rfl, h3]; exact h
  | stolenBlocked hw h1 _ _ _ h3 => dsimp only; rw [same hw (by rw [h1]; rfl) rfl, h3]; exact h
  | stealReady hw hv h1 h2 => exact pop hw hv h2 (by rw [h1]; rfl)
  | noStealReady hw h1 => dsimp only; rw [same hw (by rw [h1]; rfl) rfl]; exact h
  | stealNew hw hv h1 _ _ _ _ h3 => dsimp only; rw [same hw (by rw [h1]; rfl) rfl, h3]; exact h
  | noStealNew hw h1 => dsimp only; rw [same hw (by rw [h1]; rfl) rfl]; exact h
  | @start x' w u hw h1 _ h2 h3 =>
    dsimp only
    have h4 := sumPc (F := runW t) s.pc (.exec u) hw
    rw [h1] at h4
    rw [h3] at h
    by_cases e : t = u
    · subst e
      simp only [upd_same] at h
      simp at h4
      omega
    · simp only [upd_ne _ _ e] at h
      rw [runW_run, if_neg (fun h => e h.symm)] at h4
      simp at h4
      omega
  | @resume w u hw h1 h2 =>
    dsimp only
    have h4 := sumPc (F := runW t) s.pc (.exec u) hw
    rw [h1] at h4
    by_cases e : t = u
    · subst e
      rw [h2] at h
      simp only [upd_same]
      simp at h4 h ⊢
      omega
    · simp only [upd_ne _ _ e]
      rw [runW_run, if_neg (fun h => e h.symm)] at h4
      simp at h4
      omega
  | pause hw h1 _ h2 => dsimp only; rw [same hw (by rw [h1]; rfl) rfl, h2]; exact h
  | bodyEnd hw h1 _ _ h3 => dsimp only; rw [same hw (by rw [h1]; rfl) rfl, h3]; exact h
  | _ => exact h

def CvSig (c : Cv.State) : Prop := (∃ j, c.ns j = .cas) ∨ c.pend = true

/-- a notification is lost only when the waiter returns -/
theorem cv_sig {c c' : Cv.State} {l : Cv.Lbl} (h : Cv.Step l c c') (hl : ∀ i, l = .wait i → i = 0)
    (hs : CvSig c) : CvSig c' ∨ (l = .wait 0 ∧ c'.ws 0 = .out ∧ c.ws 0 ≠ .out) := by
  cases h with
  | @store _ i h =>
    have := hl i rfl
    subst this
    exact .inr ⟨rfl, by simp, by rw [h]; simp⟩
  | @notifyCall _ k h => exact .inl (.inl ⟨k, by simp⟩)
  | cas h => exact .inl (.inr rfl)
  | @nLockM _ k h =>
    refine .inl ?_
    rcases hs with ⟨j, hj⟩ | hs
    · refine .inl ⟨j, ?_⟩
      dsimp only; rw [upd_ne]; exact hj
      rintro rfl; rw [h] at hj; cases hj
    · exact .inr hs
  | @notifyAll _ k h =>
    refine .inl ?_
    rcases hs with ⟨j, hj⟩ | hs
    · refine .inl ⟨j, ?_⟩
      dsimp only; rw [upd_ne]; exact hj
      rintro rfl; rw [h] at hj; cases hj
    · exact .inr hs
  | @nUnlockM _ k h =>
    refine .inl ?_
    rcases hs with ⟨j, hj⟩ | hs
    · refine .inl ⟨j, ?_⟩
      dsimp only; rw [upd_ne]; exact hj
      rintro rfl; rw [h] at hj; cases hj
    · exact .inr hs
  | _ => exact .inl hs

theorem sig_iff {v : Nat} : Sig s v ↔ 0 < s.wk v ∨ CvSig (s.cv v) := Iff.rfl

theorem cv_spurious {c c' : Cv.State} (h : Cv.Step (.spurious 0) c c') : c.ws 0 ≠ .out ∧ c'.ws 0 ≠ .out := by
  cases h with
  | spurious h => exact ⟨by rw [h]; simp, by simp⟩

theorem cv_wait {c c' : Cv.State} (h : Cv.Step (.wait 0) c c') : c.ws 0 ≠ .out := by
  cases h <;> simp_all

/-- how the condition for being looked at changes when a worker or its condition variable makes a step -/
theorem looks_cv {looks : Pc → Cv.WPc → Bool} (hlo : looks .waiting .out = true)
    (hln : ∀ q, q ≠ .out → looks .waiting q = false)
    (hl : ∀ p q q', p ≠ .waiting → looks p q = looks p q')
    {l : Cv.Lbl} {c c' : Cv.State} {p : Pc} (hs : Cv.Step l c c') (hl1 : ∀ i, l = .wait i → i = 0)
    (hl2 : ∀ i, l ≠ .waitCall i) (hl3 : ∀ i, l = .spurious i → i = 0) (hcv : p ≠ .waiting → c.ws 0 = .out)
    (h : CvSig c ∨ looks p (c.ws 0) = true) : CvSig c' ∨ looks p (c'.ws 0) = true := by
  rcases h with h | h
  · rcases cv_sig hs hl1 h with h1 | ⟨h1, h2, h3⟩
    · exact .inl h1
    · have : p = .waiting := Classical.byContradiction fun hp => h3 (hcv hp)
      subst this
      exact .inr (by rw [h2]; exact hlo)
  · right
    by_cases hp : p = .waiting
    · subst hp
      have h1 : c.ws 0 = .out := by
        apply Classical.byContradiction
        intro h1
        rw [hln _ h1] at h
        cases h
      rw [cv_out hs hl2 h1]
      exact hlo
    · rw [hl p _ (c.ws 0) hp]; exact h

theorem Inv.sig_step (hi : Inv cfg N s) (hs : Step cfg N s s') (looks : Pc → Cv.WPc → Bool)
    (hlo : looks .waiting .out = true)
    (hln : ∀ q, q ≠ .out → looks .waiting q = false)
    (hl : ∀ p q q', p ≠ .waiting → looks p q = looks p q')
    (htop : ∀ q, looks .top q = false)
    (v : Nat) (h : Sig s v ∨ looks (s.pc v) ((s.cv v).ws 0) = true)
    (hpc : ∀ p, s'.pc v = p → s.pc v ≠ p → s.pc v ≠ .top → looks (s.pc v) ((s.cv v).ws 0) = true → looks p .out = true) :
    Sig s' v ∨ looks (s'.pc v) ((s'.cv v).ws 0) = true := by
  have h' : 0 < s.wk v ∨ (CvSig (s.cv v) ∨ looks (s.pc v) ((s.cv v).ws 0) = true) := by
    rcases h with (h | h) | h
    · exact .inl h
    · exact .inr (.inl h)
    · exact .inr (.inr h)
  have cvs : ∀ {w cv' l}, Cv.Step l (s.cv w) cv' → (∀ i, l = .wait i → i = 0) → (∀ i, l ≠ .waitCall i) →
      (∀ i, l = .spurious i → i = 0) →
      0 < s.wk v ∨ (CvSig (upd s.cv w cv' v) ∨ looks (s.pc v) ((upd s.cv w cv' v).ws 0) = true) := by
    intro w cv' l hc h1 h2 h3
    by_cases e : v = w
    · subst e
      rw [upd_same]
      rcases h' with h' | h'
      · exact .inl h'
      · exact .inr (looks_cv hlo hln hl hc h1 h2 h3 (hi.cvw v) h')
    · rw [upd_ne _ _ e]; exact h'
  have fin : ∀ {s1 : State}, (0 < s1.wk v ∨ (CvSig (s1.cv v) ∨ looks (s1.pc v) ((s1.cv v).ws 0) = true)) →
      Sig s1 v ∨ looks (s1.pc v) ((s1.cv v).ws 0) = true := by
    rintro s1 (h | h | h)
    · exact .inl (.inl h)
    · exact .inl (.inr h)
    · exact .inr h
  -- only the program counter of a worker changes
  have pcs : ∀ {w p}, (s.pc w ≠ .waiting ∨ (s.cv w).ws 0 = .out) →
      (v = w → s.pc v ≠ p → s.pc v ≠ .top → looks (s.pc v) ((s.cv v).ws 0) = true → looks p .out = true) →
      s.pc w ≠ p → s.pc w ≠ .top →
      0 < s.wk v ∨ (CvSig (s.cv v) ∨ looks (upd s.pc w p v) ((s.cv v).ws 0) = true) := by
    intro w p h1 h2 h3 h4
    by_cases e : v = w
    · subst e
      rw [upd_same]
      have h5 : (s.cv v).ws 0 = .out := by
        rcases h1 with h1 | h1
        · exact hi.cvw v h1
        · exact h1
      rcases h' with h' | h' | h'
      · exact .inl h'
      · exact .inr (.inl h')
      · refine .inr (.inr ?_)
        rw [h5]
        exact h2 rfl h3 h4 h'
    · rw [upd_ne _ _ e]; exact h'
  apply fin
  cases hs with
  | emplace hw =>
    rename_i w _ _ _ _ _ _ _
    dsimp only
    by_cases e : v = w
    · subst e; rw [upd_same]; exact .inl (by omega)
    · rw [upd_ne _ _ e]; exact h'
  | @activate t w hw h1 =>
    dsimp only
    by_cases e : v = w
    · subst e; rw [upd_same]; exact .inl (by omega)
    · rw [upd_ne _ _ e]; exact h'
  | @wake w cv' hw h1 hc =>
    dsimp only
    by_cases e : v = w
    · subst e
      rw [upd_same, upd_same]
      refine .inr (.inl (.inl ⟨s.nn v, ?_⟩))
      cases hc with
      | notifyCall => simp
    · rw [upd_ne _ _ e, upd_ne _ _ e]; exact h'
  | noise hw hc => exact cvs hc (by simp) (by simp) (by simp)
  | notify hw hc => exact cvs hc (by simp) (by simp) (by simp)
  | spurious hw hc => exact cvs hc (by simp) (by simp) (by simp)
  | @sleep w cv' hw h1 hc =>
    dsimp only
    by_cases e : v = w
    · subst e
      rw [upd_same, upd_same]
      rcases h' with h' | h' | h'
      · exact .inl h'
      · refine .inr (.inl ?_)
        rcases cv_sig hc (by simp) h' with h2 | h2
        · exact h2
        · simp at h2
      · rw [h1, htop] at h'; cases h'
    · rw [upd_ne _ _ e, upd_ne _ _ e]; exact h'
  | wait hw hc => exact cvs hc (by simp) (by simp) (by simp)
  | woken hw h1 h2 =>
    refine pcs (.inr h2) ?_ (by rw [h1]; simp) (by rw [h1]; simp)
    rintro rfl; exact hpc _ (by simp)
  | popReady hw h1 =>
    refine pcs (.inl (by rw [h1]; simp)) ?_ (by rw [h1]; simp) (by rw [h1]; simp)
    rintro rfl; exact hpc _ (by simp)
  | noReady hw h1 =>
    refine pcs (.inl (by rw [h1]; simp)) ?_ (by rw [h1]; simp) (by rw [h1]; simp)
    rintro rfl; exact hpc _ (by simp)
  | popNew hw h1 =>
    refine pcs (.inl (by rw [h1]; simp)) ?_ (by rw [h1]; simp) (by rw [h1]; simp)
    rintro rfl; exact hpc _ (by simp)
  | noNew hw h1 =>
    refine pcs (.inl (by rw [h1]; simp)) ?_ (by rw [h1]; simp) (by rw [h1]; simp)
    rintro rfl; exact hpc _ (by simp)
  | initReady hw h1 =>
    refine pcs (.inl (by rcases h1 with h1 | h1 <;> rw [h1] <;> simp)) ?_
      (by rcases h1 with h1 | h1 <;> rw [h1] <;> simp) (by rcases h1 with h1 | h1 <;> rw [h1] <;> simp)
    rintro rfl; exact hpc _ (by simp)
  | initBlocked hw h1 =>
    refine pcs (.inl (by rw [h1]; simp)) ?_ (by rw [h1]; simp) (by rw [h1]; simp)
    rintro rfl; exact hpc _ (by simp)
  | stolenBlocked hw h1 =>
    refine pcs (.inl (by rw [h1]; simp)) ?_ (by rw [h1]; simp) (by rw [h1]; simp)
    rintro rfl; exact hpc _ (by simp)
  | stealReady hw _ h1 =>
    refine pcs (.inl (by rw [h1]; simp)) ?_ (by rw [h1]; simp) (by rw [h1]; simp)
    rintro rfl; exact hpc _ (by simp)
  | noStealReady hw h1 =>
    refine pcs (.inl (by rw [h1]; simp)) ?_ (by rw [h1]; simp) (by rw [h1]; simp)
    rintro rfl; exact hpc _ (by simp)
  | stealNew hw _ h1 =>
    refine pcs (.inl (by rw [h1]; simp)) ?_ (by rw [h1]; simp) (by rw [h1]; simp)
    rintro rfl; exact hpc _ (by simp)
  | noStealNew hw h1 =>
    refine pcs (.inl (by rw [h1]; simp)) ?_ (by rw [h1]; simp) (by rw [h1]; simp)
    rintro rfl; exact hpc _ (by simp)
  | start hw h1 =>
    refine pcs (.inl (by rw [h1]; simp)) ?_ (by rw [h1]; simp) (by rw [h1]; simp)
    rintro rfl; exact hpc _ (by simp)
  | resume hw h1 =>
    refine pcs (.inl (by rw [h1]; simp)) ?_ (by rw [h1]; simp) (by rw [h1]; simp)
    rintro rfl; exact hpc _ (by simp)
  | pause hw h1 =>
    refine pcs (.inl (by rw [h1]; simp)) ?_ (by rw [h1]; simp) (by rw [h1]; simp)
    rintro rfl; exact hpc _ (by simp)
  | bodyEnd hw h1 =>
    refine pcs (.inl (by rw [h1]; simp)) ?_ (by rw [h1]; simp) (by rw [h1]; simp)
    rintro rfl; exact hpc _ (by simp)
  | _ => exact h'

theorem mem_erase_ne_nil {q : List Nat} {t : Nat} (h : q.erase t ≠ []) : q ≠ [] := by
  rintro rfl; simp at h

/-- a queue that is not empty after a step was not empty before, or the worker is going to be woken -/
theorem ready_ne (hs : Step cfg N s s') {v : Nat} (h : s'.ready v ≠ []) : s.ready v ≠ [] ∨ Sig s' v := by
  cases hs with
  | @activate t w hw h1 =>
    dsimp only at h
    by_cases e : v = w
    · subst e
      exact .inr (.inl (by simp))
    · rw [upd_ne _ _ e] at h; exact .inl h
  | @popReady w t hw h1 hq =>
    dsimp only at h
    by_cases e : v = w
    · subst e; rw [upd_same] at h; exact .inl (mem_erase_ne_nil h)
    · rw [upd_ne _ _ e] at h; exact .inl h
  | @stealReady w u t hw hv h1 hq =>
    dsimp only at h
    by_cases e : v = u
    · subst e; rw [upd_same] at h; exact .inl (mem_erase_ne_nil h)
    · rw [upd_ne _ _ e] at h; exact .inl h
  | _ => exact .inl h

theorem new_ne (hs : Step cfg N s s') {v : Nat} (h : s'.new v ≠ []) : s.new v ≠ [] ∨ Sig s' v := by
  cases hs with
  | @emplace x' t w hw =>
    dsimp only at h
    by_cases e : v = w
    · subst e
      exact .inr (.inl (by simp))
    · rw [upd_ne _ _ e] at h; exact .inl h
  | @popNew x' w t hw h1 hq =>
    dsimp only at h
    by_cases e : v = w
    · subst e; rw [upd_same] at h; exact .inl (mem_erase_ne_nil h)
    · rw [upd_ne _ _ e] at h; exact .inl h
  | @stealNew x' w u t hw hv h1 hq =>
    dsimp only at h
    by_cases e : v = u
    · subst e; rw [upd_same] at h; exact .inl (mem_erase_ne_nil h)
    · rw [upd_ne _ _ e] at h; exact .inl h
  | _ => exact .inl h

/-- how the program counter of a worker changes, and what the worker has found on its way -/
theorem pc_next (hs : Step cfg N s s') (v : Nat) : s'.pc v = s.pc v ∨
    (match s.pc v, s'.pc v with
      | .top, .waiting => True
      | .waiting, .popReady => (s.cv v).ws 0 = .out
      | .popReady, .run _ => True
      | .popReady, .popNew => s.ready v = [] ∧ s'.ready v = []
      | .popNew, .initing _ => True
      | .popNew, .stealReady => s.new v = [] ∧ s'.new v = []
      | .initing _, .run _ => True
      | .initing _, .popNew => True
      | .initingStolen _, .run _ => True
      | .initingStolen _, .top => True
      | .stealReady, .run _ => True
      | .stealReady, .stealNew => True
      | .stealNew, .initingStolen _ => True
      | .stealNew, .top => True
      | .run _, .exec _ => True
      | .exec _, .popReady => True
      | _, _ => False) := by
  have key : ∀ {w p}, (v ≠ w → upd s.pc w p v = s.pc v) := fun h => upd_ne _ _ h
  cases hs with
  | @sleep w _ _ h => by_cases e : v = w <;> simp [e, upd_ne, h]
  | @woken w _ h hc => by_cases e : v = w <;> simp [e, upd_ne, h, hc]
  | @popReady w t _ h => by_cases e : v = w <;> simp [e, upd_ne, h]
  | @noReady w _ h hq => by_cases e : v = w <;> simp [e, upd_ne, h, hq]
  | @popNew _ w t _ h => by_cases e : v = w <;> simp [e, upd_ne, h]
  | @noNew w _ h hq => by_cases e : v = w <;> simp [e, upd_ne, h, hq]
  | @initReady _ w t _ h => rcases h with h | h <;> by_cases e : v = w <;> simp [e, upd_ne, h]
  | @initBlocked _ w t _ h => by_cases e : v = w <;> simp [e, upd_ne, h]
  | @stolenBlocked _ w t _ h => by_cases e : v = w <;> simp [e, upd_ne, h]
  | @stealReady w u t _ _ h => by_cases e : v = w <;> simp [e, upd_ne, h]
  | @noStealReady w _ h => by_cases e : v = w <;> simp [e, upd_ne, h]
  | @stealNew _ w u t _ _ h => by_cases e : v = w <;> simp [e, upd_ne, h]
  | @noStealNew w _ h => by_cases e : v = w <;> simp [e, upd_ne, h]
  | @start _ w t _ h => by_cases e : v = w <;> simp [e, upd_ne, h]
  | @resume w t _ h => by_cases e : v = w <;> simp [e, upd_ne, h]
  | @pause _ w t u _ h => by_cases e : v = w <;> simp [e, upd_ne, h]
  | @bodyEnd _ w t _ h => by_cases e : v = w <;> simp [e, upd_ne, h]
  | _ => exact .inl rfl

theorem Inv.step_sigR (hi : Inv cfg N s) (hs : Step cfg N s s') (v : Nat) (h : s'.ready v ≠ []) :
    Sig s' v ∨ looksReady (s'.pc v) ((s'.cv v).ws 0) = true := by
  rcases ready_ne hs h with h1 | h1
  · refine hi.sig_step hs looksReady rfl ?_ ?_ (fun _ => rfl) v (hi.sigR v h1) ?_
    · intro q hq; cases q <;> first | rfl | exact absurd rfl hq
    · intro p q q' hp; cases p <;> first | rfl | exact absurd rfl hp
    · intro p hp hne ht hl
      have := pc_next hs v
      rw [hp] at this
      rcases this with this | this
      · exact absurd this.symm hne
      · cases hq : s.pc v <;> rw [hq] at this hl ht <;> cases p <;>
          first | rfl | exact absurd this id | exact absurd rfl ht | exact absurd this.2 h | simp [looksReady] at hl
  · exact .inl h1

theorem Inv.step_sigN (hi : Inv cfg N s) (hs : Step cfg N s s') (v : Nat) (h : s'.new v ≠ []) :
    Sig s' v ∨ looksNew (s'.pc v) ((s'.cv v).ws 0) = true := by
  rcases new_ne hs h with h1 | h1
  · refine hi.sig_step hs looksNew rfl ?_ ?_ (fun _ => rfl) v (hi.sigN v h1) ?_
    · intro q hq; cases q <;> first | rfl | exact absurd rfl hq
    · intro p q q' hp; cases p <;> first | rfl | exact absurd rfl hp
    · intro p hp hne ht hl
      have := pc_next hs v
      rw [hp] at this
      rcases this with this | this
      · exact absurd this.symm hne
      · cases hq : s.pc v <;> rw [hq] at this hl ht <;> cases p <;>
          first | rfl | exact absurd this id | exact absurd rfl ht | exact absurd this.2 h |
            simp [looksNew, looksReady] at hl
  · exact .inl h1

theorem Inv.step (hi : Inv cfg N s) (hs : Step cfg N s s') : Inv cfg N s' where
  wr := hi.step_wr hs
  cvr := hi.step_cvr hs
  cvn := hi.step_cvn hs
  cvw := hi.step_cvw hs
  sigR := hi.step_sigR hs
  sigN := hi.step_sigN hs
  cntNew := hi.step_cntNew hs
  cntInit := hi.step_cntInit hs
  cntTok := hi.step_cntTok hs
  cntExec := hi.step_cntExec hs
  resI := hi.step_resI hs
  kids := hi.step_kids hs

theorem Inv.reach (hr : Reach cfg N s) : Inv cfg N s := by
  induction hr with
  | init => exact Inv.init
  | step _ hs ih => exact ih.step hs
