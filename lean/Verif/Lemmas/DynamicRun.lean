import Verif.Model.DynamicRun
import Verif.Lemmas.Local
import Verif.Props.DynamicWorkers
/-
Executions of programs without a fixed `Cfg`.
-/
set_option linter.unusedVariables false
namespace RG.Dyn
open RG.Graph
open RG.Bodies (workers)

variable {N : Nat} {M : Type} {P : Prog M} {m0 : M} {K K' : Cfg → Sys.State → Sys.State → Prop}

theorem parentOf_tasks {user : Nat → User} {own : Nat → Nat} {t : Nat} :
    (tasks user own).parentOf t = match own t with | 0 => none | q + 1 => some q := rfl

theorem owner_tasks {user : Nat → User} {own : Nat → Nat} (t : Nat) : owner (tasks user own) t = own t := by
  unfold owner
  rw [parentOf_tasks]
  cases own t <;> rfl

theorem oneSpace_tasks {user : Nat → User} {own : Nat → Nat} : OneSpace (tasks user own) := by
  intro a b h
  have h1 := owner_tasks (user := user) (own := own) a
  have h2 := owner_tasks (user := user) (own := own) b
  unfold owner at h1 h2
  rw [h] at h1
  exact h1.symm.trans h2

theorem tasks_agree {user : Nat → User} {own : Nat → Nat} {n i : Nat} {d : User} :
    Agree (tasks user own) (tasks (upd user n d) (upd own n i)) n where
  user t ht := upd_ne _ _ (by omega)
  space t ht := upd_ne _ _ (by omega)
  par t ht := by rw [parentOf_tasks, parentOf_tasks, upd_ne _ _ (by omega)]
  strict := rfl
  single := rfl

/-- the state of Model/DynamicWorkers -/
def Conf.st (N : Nat) (x : Conf P) (cfg : Cfg) : St (workers cfg N) P := ⟨x.s, x.m, x.loc⟩

theorem PStep.mono {x x' : Conf P} (hK : ∀ c s s', K c s s' → K' c s s') (h : PStep N P K x x') : PStep N P K' x x' := by
  cases h with
  | rt h hk hn hret hw => exact .rt h (hK _ _ _ hk) hn hret hw
  | submit ho hp h hn => exact .submit ho hp h hn
  | act h hp => exact .act h hp
  | join h hp hc => exact .join h hp hc

theorem PStep.any {x x' : Conf P} (h : PStep N P K x x') : PStep N P (fun _ _ _ => True) x x' :=
  h.mono fun _ _ _ _ => trivial

/-- steps are steps of Model/DynamicWorkers -/
theorem PStep.wstep {x x' : Conf P} (h : PStep N P K x x') : WStep x'.cfg N P (K x'.cfg) (x.st N _) (x'.st N _) := by
  cases h with
  | rt h hk hn hret hw =>
    exact .rt (cfg := x.cfg) (x := x.st N _) h hk hn hret fun t u h1 h2 => by
      obtain ⟨v, b, h3, h4, h5⟩ := hw t u h1 h2
      exact ⟨v, b, h3, (owner_tasks u).trans h4, h5⟩
  | @submit i s' d c b hon hp h hn =>
    have ho : owner (tasks (upd x.user x.n d) (upd x.own x.n i)) x.n = i := (owner_tasks _).trans (upd_same _ _ _)
    have := WStep.submit (cfg := tasks (upd x.user x.n d) (upd x.own x.n i)) (P := P) (K := K (tasks (upd x.user x.n d) (upd x.own x.n i)))
      (x := x.st N _) (d := d) (c := c) (b := b) h hn (by
        show P.pt (x.loc (owner _ x.n)) = _
        rw [ho]; exact hp) (upd_same _ _ _)
    have e : ∀ l, upd (upd x.loc (owner (tasks (upd x.user x.n d) (upd x.own x.n i)) x.n) b) (x.n + 1) c = l →
        WStep (tasks (upd x.user x.n d) (upd x.own x.n i)) N P (K (tasks (upd x.user x.n d) (upd x.own x.n i)))
          (x.st N _) ⟨s', x.m, l⟩ := by
      rintro l rfl
      exact this
    exact e _ (by rw [ho])
  | act h hp => exact .act (cfg := x.cfg) (x := x.st N _) h hp
  | join h hp hc =>
    exact .join (cfg := x.cfg) (x := x.st N _) h hp fun t h1 h2 h3 => hc t h1 ((owner_tasks t).symm.trans h2) h3

theorem PStep.agree {x x' : Conf P} (h : PStep N P K x x') : Agree x.cfg x'.cfg x.n := by
  have : Agree x.cfg x.cfg x.n := ⟨fun _ _ => rfl, fun _ _ => rfl, fun _ _ => rfl, rfl, rfl⟩
  cases h with
  | submit ho hp h hn => exact tasks_agree
  | _ => exact this

theorem PReach.wreach {x : Conf P} (h : PReach N P m0 x) : WReach x.cfg N P m0 (x.st N _) := by
  induction h with
  | init => exact .init
  | @step x x' hx hs ih => exact .step (ih.agree (x := x.st N x.cfg) hs.agree) hs.wstep

/-- the accesses that the tasks of the program declare -/
def Declares (P : Prog M) (d : User) : Prop := ∃ b c b', From P P.main b ∧ P.pt b = .spawn d c b'

/-- what is known of the recorded tasks -/
structure Recorded (x : Conf P) : Prop where
  loc : ∀ i, From P P.main (x.loc i)
  user : ∀ t, x.user t = noUser ∨ Declares P (x.user t)

theorem PReach.recorded {x : Conf P} (h : PReach N P m0 x) : Recorded x := by
  induction h with
  | init => exact ⟨fun _ => .refl, fun _ => .inl rfl⟩
  | @step x x' hx hs ih =>
    have one : ∀ {i b}, From P P.main b → ∀ j, From P P.main (upd x.loc i b j) := by
      intro i b h j
      unfold upd
      split
      · exact h
      · exact ih.loc j
    cases hs with
    | rt h hk hn hret hw => exact ⟨ih.loc, ih.user⟩
    | @submit i s' d c b hon hp h hn =>
      refine ⟨fun j => ?_, fun t => ?_⟩
      · dsimp only
        by_cases e : j = x.n + 1
        · subst e
          rw [upd_same]
          exact (ih.loc i).child hp
        · rw [upd_ne _ _ e]
          exact one ((ih.loc i).next hp) j
      · dsimp only
        by_cases e : t = x.n
        · subst e
          rw [upd_same]
          exact .inr ⟨_, _, _, ih.loc i, hp⟩
        · rw [upd_ne _ _ e]
          exact ih.user t
    | @act i f h hp => exact ⟨one ((ih.loc i).act hp), ih.user⟩
    | @join i w b h hp hc => exact ⟨one ((ih.loc i).join hp), ih.user⟩

/-- What is assumed about the accesses that tasks declare: they are built by the library, a resource has one access
policy, and a task names a resource once (or does not conflict with itself). -/
structure Orderly (P : Prog M) : Prop where
  built : ∀ d, Declares P d → ∃ sd ds, d = declare sd ds
  policy : ∀ d d', Declares P d → Declares P d' → ∀ a ∈ d.access, ∀ b ∈ d'.access, a.res = b.res → a.ty = b.ty
  once : ∀ d, Declares P d → d.unique.Nodup ∨ d.isSerial d = false

theorem Orderly.wf (h : Orderly P) {x : Conf P} (hx : Recorded x) : x.cfg.WellFormed where
  built t := by
    rcases hx.user t with h1 | h1
    · exact ⟨0, [], h1⟩
    · exact h.built _ h1
  policy t u a b ha hb he := by
    have no : ∀ {a : RAccess}, a ∉ noUser.access := by
      intro a h
      exact List.not_mem_nil h
    rcases hx.user t with h1 | h1
    · exact absurd (show a ∈ noUser.access from h1 ▸ ha) no
    · rcases hx.user u with h2 | h2
      · exact absurd (show b ∈ noUser.access from h2 ▸ hb) no
      · exact h.policy _ _ h1 h2 a ha b hb he

theorem Orderly.safe (h : Orderly P) {x : Conf P} (hx : Recorded x) : x.cfg.Safe where
  single := rfl
  once t := by
    rcases hx.user t with h1 | h1
    · right
      show (x.user t).isSerial (x.user t) = false
      rw [h1]
      rfl
    · exact h.once _ h1

/-! ### Nothing gets stuck -/

theorem run_no_deadlock (hS : Structured P) (hN : 0 < N) (ho : Orderly P) {x : Conf P} (hr : PReach N P m0 x)
    (hq : ∀ x', ¬ PStep N P (fun c => Sys.OwnWork c N) x x') :
    P.pt (x.loc 0) = .done ∧ (∀ t, t < x.n → Finished x.cfg x.s.x.g t ∧ x.s.x.w t = none) ∧
    ∀ w, w < N → x.s.pc w = .waiting ∧ (x.s.cv w).ws 0 = .asleep ∧ x.s.ready w = [] ∧ x.s.new w = [] := by
  have hw := hr.wreach
  have hsys : Sys.Reach x.cfg N x.s := hw.sys
  have hsp : ∀ i d c b, OnWorker N x.s i → P.pt (x.loc i) ≠ .spawn d c b := by
    intro i d c b hon hp
    have ha : Agree x.cfg (tasks (upd x.user x.n d) (upd x.own x.n i)) x.n := tasks_agree
    have hi : owner (tasks (upd x.user x.n d) (upd x.own x.n i)) x.n = i := (owner_tasks _).trans (upd_same _ _ _)
    have hw' : WReach (tasks (upd x.user x.n d) (upd x.own x.n i)) N P m0 (x.st N _) := hw.agree ha
    obtain ⟨y, hy⟩ := C79_submission_possible hN hw' (d := d) (c := c) (b := b)
      (show OnWorker N x.s (owner _ x.n) by rw [hi]; exact hon)
      (show P.pt (x.loc (owner _ x.n)) = _ by rw [hi]; exact hp) (upd_same _ _ _)
    cases hy with
    | @rt s' h hk hn hret hwt =>
      have hn' : s'.x.g.n = x.n := hn
      have h' : Sys.Step x.cfg N x.s s' := h.agree (dom hw'.sys) (by rw [hn']; exact ha.symm)
      refine hq _ (.rt h' ⟨⟨h', hk.1.2⟩, hk.2⟩ hn hret fun t u h1 h2 => ?_)
      obtain ⟨v, b', h3, h4, h5⟩ := hwt t u h1 h2
      have hu : u < x.n := hn' ▸ wait_lt (.step hw'.sys h) h2
      rw [owner_agree ha hu] at h4
      rw [rank_agree ha hu] at h5
      exact ⟨v, b', h3, (owner_tasks u).symm.trans h4, h5⟩
    | @submit s' d' c' b' h hn hp' hd => exact hq _ (.submit hon hp h hn)
    | @act j f h hp' => exact hq _ (.act h hp')
    | @join j w b' h hp' hc =>
      refine hq _ (.join h hp' fun t h1 h2 h3 => hc t h1 ?_ ?_)
      · rw [owner_agree ha h1]; exact (owner_tasks t).trans h2
      · rw [rank_agree ha h1]; exact h3
  refine workers_no_deadlock hS hN (ho.safe hr.recorded) hw (fun y hy hn => ?_) hsp
  cases hy with
  | @rt s' h hk hn' hret hwt =>
    refine hq _ (.rt h hk hn' hret fun t u h1 h2 => ?_)
    obtain ⟨v, b', h3, h4, h5⟩ := hwt t u h1 h2
    exact ⟨v, b', h3, (owner_tasks u).symm.trans h4, h5⟩
  | @submit s' d c b h hn' hp hd => exact absurd (hn'.symm.trans hn) (by omega)
  | @act j f h hp => exact hq _ (.act h hp)
  | @join j w b h hp hc => exact hq _ (.join h hp fun t h1 h2 h3 => hc t h1 ((owner_tasks t).trans h2) h3)

/-! ### Everything ends -/

theorem run_no_infinite (hw : WellFounded (Next P)) {x : Conf P} (hr : PReach N P m0 x) :
    ¬ ∃ f : Nat → Conf P, f 0 = x ∧ ∀ i, PStep N P (fun c => Sys.Work c N) (f i) (f (i + 1)) := by
  rintro ⟨f, h0, h⟩
  let _ := order hw
  have : WellFoundedLT P.B := ⟨hw.transGen⟩
  have hreach : ∀ i, PReach N P m0 (f i) := by
    intro i
    induction i with
    | zero => rw [h0]; exact hr
    | succ i ih => exact .step ih (h i).any
  have wf := (Multiset.wellFounded_isDershowitzMannaLT (α := P.B)).prod_lex (Nat.lt_wfRel.wf)
  have no : ∀ p, ¬ ∃ i, p = (bag (f i).s.x.g (f i).loc, Sys.smeasure { (f i).cfg with strict := true } N (f i).s) := by
    intro p
    induction p using wf.induction with
    | _ p ih =>
      rintro ⟨i, rfl⟩
      refine ih _ ?_ ⟨i + 1, rfl⟩
      have hs := h i
      have hri := hreach i
      have hw1 : WReach (f (i + 1)).cfg N P m0 ((f i).st N _) := hri.wreach.agree hs.agree
      have hd := hs.wstep.decreases hw hw1.sys
      generalize f (i + 1) = y at hs hd
      generalize f i = x at hs hd
      rcases hd with h1 | ⟨h1, h2, h3⟩
      · exact .left _ _ h1
      · have e : y.cfg = x.cfg := by
          cases hs with
          | submit ho hp h hn => exact absurd (hn.symm.trans h3) (by show x.n + 1 ≠ x.n; omega)
          | _ => rfl
        have h1 : bag y.s.x.g y.loc = bag x.s.x.g x.loc := h1
        rw [h1]
        rw [e] at h2 ⊢
        exact .right _ h2
  exact no _ ⟨0, rfl⟩

end RG.Dyn
