import Verif.Model.DynamicFull
import Verif.Props.DynamicRun
import Verif.Props.Full
/-
Executions of whole programs: they are executions of Model/DynamicRun, do not get stuck, and end.
-/
set_option linter.unusedVariables false

namespace RG.Prog
open RG.Graph (Cfg Agree Dom)
variable {cfg cfg' : Cfg} {N : Nat} {s s' : State} {l : Lbl}

theorem Step.sys_or (hi : Inv cfg N s) (h : Step cfg N l s s') : s'.y = s.y ∨ Sys.Step cfg N s.y s'.y := by
  cases h with
  | sys h => exact .inr h
  | @wakeWorker _ k cv' h hc => exact .inr (.noise (hi.stopW k (.inl h)).1 hc)
  | _ => exact .inl rfl

theorem Step.agree (hd : Dom cfg s.y.x.g) (h : Step cfg N l s s') (ha : Agree cfg cfg' s'.y.x.g.n) :
    Step cfg' N l s s' := by
  cases h with
  | @sys _ y' h hst hn =>
    have hm := h.n_mono
    exact .sys (h.agree hd ha) hst fun h1 h2 => hn h1 (by
      have ha : Agree cfg cfg' y'.x.g.n := ha
      rw [← ha.space _ (by omega)]; exact h2)
  | call h => exact .call h
  | empty h hc => exact .empty h hc
  | idle h hc hw => exact .idle h hc hw
  | wait hw => exact .wait hw
  | back h hw => exact .back h hw
  | wakeMain h hc => exact .wakeMain h hc
  | notify hc => exact .notify hc
  | spurious hc => exact .spurious hc
  | noise hc => exact .noise hc
  | setStop h hk => exact .setStop h hk
  | wakeWorker h hc => exact .wakeWorker h hc
  | exit hw h hs hg => exact .exit hw h hs hg
  | joined h hg => exact .joined h hg
  | clear h hk => exact .clear h hk

/-- in `finalize()` -/
theorem Step.finalizing (h : Step cfg N l s s') (hf : s.mpc.finalizing = true) : s'.mpc.finalizing = true := by
  cases h with
  | call h => rw [h] at hf; cases hf
  | empty h hc => rw [h] at hf; cases hf; rfl
  | idle h hc hw => rw [h] at hf; exact hf
  | back h hw => rw [h] at hf; exact hf
  | setStop h hk => rfl
  | wakeWorker h hc => rfl
  | joined h hg => rfl
  | clear h hk => rfl
  | _ => exact hf

/-- in `barrier()` -/
def MPc.waits (p : MPc) : Prop := p = .check false ∨ p = .idle false

theorem Step.waits (h : Step cfg N l s s') (hf : s.mpc.waits) : s'.mpc.waits ∨ s'.mpc = .run := by
  unfold MPc.waits at *
  cases h with
  | empty h hc => rcases hf with e | e <;> rw [e] at h <;> cases h; exact .inr rfl
  | idle h hc hw => rcases hf with e | e <;> rw [e] at h <;> cases h; exact .inl (.inr rfl)
  | back h hw => rcases hf with e | e <;> rw [e] at h <;> cases h; exact .inl (.inl rfl)
  | call h => rcases hf with e | e <;> rw [e] at h <;> cases h
  | setStop h hk => rcases hf with e | e <;> rw [e] at h <;> cases h
  | wakeWorker h hc => rcases hf with e | e <;> rw [e] at h <;> cases h
  | joined h hg => rcases hf with e | e <;> rw [e] at h <;> cases h
  | clear h hk => rcases hf with e | e <;> rw [e] at h <;> cases h
  | _ => exact .inl hf

/-- only the user calls `barrier()` and `finalize()` -/
theorem Step.run (h : Step cfg N l s s') (hl : l ≠ .call) (hf : s.mpc = .run) : s'.mpc = .run := by
  cases h with
  | call h => exact absurd rfl hl
  | empty h hc => rw [h] at hf; cases hf
  | idle h hc hw => rw [h] at hf; cases hf
  | back h hw => rw [h] at hf; cases hf
  | setStop h hk => rw [h] at hf; cases hf
  | wakeWorker h hc => rw [h] at hf; cases hf
  | joined h hg => rw [h] at hf; cases hf
  | clear h hk => rw [h] at hf; cases hf
  | _ => exact hf

/-- `barrier()` returns -/
theorem Step.returns (h : Step cfg N l s s') (hm : s.mpc ≠ .run) (hm' : s'.mpc = .run) :
    s'.y = s.y ∧ ∃ fin, s.mpc = .check fin := by
  cases h with
  | @empty _ fin h hc => exact ⟨rfl, fin, h⟩
  | call h => exact absurd h hm
  | idle h hc hw => cases hm'
  | back h hw => cases hm'
  | setStop h hk => cases hm'
  | wakeWorker h hc => cases hm'
  | joined h hg => cases hm'
  | clear h hk => cases hm'
  | _ => exact absurd hm' hm

/-- the main thread is where it was when another thread submits a task -/
theorem Step.mpc_submit (h : Step cfg N l s s') (hn : s'.y.x.g.n ≠ s.y.x.g.n) : s'.mpc = s.mpc := by
  cases h <;> first | rfl | exact absurd rfl hn

end RG.Prog

namespace RG.Full
open RG.Graph (Cfg Agree Dom)
open RG.Prog (Lbl)
variable {cfg cfg' : Cfg} {N : Nat} {a : Bool} {s s' : State} {l : Option Lbl}

theorem Hand.agree {p p' : Prog.State} {t : Nat} {b : Bool} (hd : Dom cfg p.y.x.g) (h : Hand cfg p t p' b)
    (ha : Agree cfg cfg' p.y.x.g.n) : Hand cfg' p t p' b := by
  cases h with
  | ok h hg h0 hu hw => exact .ok (h.agree hd (by rw [hg]; exact ha)) hg h0 hu hw
  | bad h => exact .bad h

theorem Notify.agree {t : Nat} (hd : Dom cfg s.p.y.x.g) (h : Notify cfg s t s') (ha : Agree cfg cfg' s.p.y.x.g.n) :
    Notify cfg' s t s' := by
  cases h with
  | ready h hh => exact .ready h (hh.agree hd ha)
  | not h => exact .not h

theorem Step.agree (hd : Dom cfg s.p.y.x.g) (h : Step cfg N a l s s') (ha : Agree cfg cfg' s'.p.y.x.g.n) :
    Step cfg' N a l s s' := by
  cases h with
  | prog hb h hw hz hat => exact .prog hb (h.agree hd ha) hw hz hat
  | yield hb hw h hs hg h0 hu hww => exact .yield hb hw h (hs.agree hd ha) hg h0 hu hww
  | set hb h => exact .set hb h
  | checkReached hb h hr => exact .checkReached hb h hr
  | checkNot hb h hr => exact .checkNot hb h hr
  | push hb h => exact .push hb h
  | incr hb h => exact .incr hb h
  | up hb h => exact .up hb h
  | notify hb h hn => exact .notify hb h (hn.agree hd (by have := hn.same.1; dsimp only at ha; rw [this] at ha; exact ha))
  | begin hb h => exact .begin hb h
  | visit hb h hn => exact .visit hb h (hn.agree hd (by have := hn.same.1; dsimp only at ha; rw [this] at ha; exact ha))

theorem Notify.sys_or {t : Nat} (h : Notify cfg s t s') :
    s'.p.y = s.p.y ∨ Sys.Step cfg N s.p.y s'.p.y ∧ s'.p.y.pc = s.p.y.pc := by
  cases h with
  | ready h hh =>
    cases hh with
    | ok h hg h0 hu hw => exact .inr ⟨.unpause h hg (by rw [h0]; simp) hw, rfl⟩
    | bad h => exact .inl rfl
  | not h => exact .inl rfl

theorem Step.sys_or (hb : Base cfg N s) (h : Step cfg N a l s s') : s'.p.y = s.p.y ∨ Sys.Step cfg N s.p.y s'.p.y := by
  cases h with
  | prog _ h => exact h.sys_or (Prog.Inv.reach hb.pr)
  | yield _ hw h hs hg h0 hu hww => exact .inr (.pause hw h hs hg h0 hu hww)
  | notify _ _ hn => exact hn.sys_or.imp id And.left
  | visit _ _ hn => exact hn.sys_or.imp id And.left
  | _ => exact .inl rfl

theorem Step.n_mono (hb : Base cfg N s) (h : Step cfg N a l s s') : s.p.y.x.g.n ≤ s'.p.y.x.g.n := by
  rcases h.sys_or hb with e | h
  · rw [e]
  · exact h.n_mono

theorem dom (hb : Base cfg N s) : Dom cfg s.p.y.x.g := Dyn.dom (Prog.Inv.reach hb.pr).yr

theorem Reach.agree (h : Reach cfg N a s) (ha : Agree cfg cfg' s.p.y.x.g.n) : Reach cfg' N a s := by
  induction h with
  | init => exact .init
  | step hr hs ih =>
    have hb := Base.reach hr
    exact .step (ih (ha.mono (hs.n_mono hb))) (hs.agree (dom hb) ha)

/-- what `barrier()` and `finalize()` do is done by the main thread -/
theorem Step.prog_of (h : Step cfg N a l s s') :
    (l = none ∧ s'.p.y.x.g = s.p.y.x.g ∧ s'.p.mpc = s.p.mpc) ∨ ∃ l', l = some l' ∧ Prog.Step cfg N l' s.p s'.p := by
  cases l with
  | none => exact .inl ⟨rfl, h.same⟩
  | some l => cases h with | prog _ h => exact .inr ⟨l, rfl, h⟩

theorem Work.run (h : Work cfg N a s s') (hf : s.p.mpc = .run) : s'.p.mpc = .run := by
  rcases h with h | ⟨l, _, _, h | ⟨h, _⟩⟩
  · rw [h.same.2]; exact hf
  · exact h.run (by simp) hf
  · exact h.run (by simp) hf

theorem Work.n_eq (h : Work cfg N a s s') : s'.p.y.x.g.n = s.p.y.x.g.n := by
  rcases h with h | ⟨l, _, h⟩
  · rw [h.same.1]
  · exact h.n_eq

/-- without the assumption there are more steps -/
theorem Step.weaken (h : Step cfg N true l s s') : Step cfg N a l s s' := by
  cases h with
  | prog hb h hw hz ha => exact .prog hb h hw hz fun _ => ha rfl
  | yield hb hw h hs hg h0 hu hww => exact .yield hb hw h hs hg h0 hu hww
  | set hb h => exact .set hb h
  | checkReached hb h hr => exact .checkReached hb h hr
  | checkNot hb h hr => exact .checkNot hb h hr
  | push hb h => exact .push hb h
  | incr hb h => exact .incr hb h
  | up hb h => exact .up hb h
  | notify hb h hn => exact .notify hb h hn
  | begin hb h => exact .begin hb h
  | visit hb h hn => exact .visit hb h hn

/-- on one worker there are not -/
theorem Step.one (hbase : Base cfg 1 s) (h : Step cfg 1 false l s s') : Step cfg 1 true l s s' := by
  cases h with
  | prog hb h hw hz ha =>
    refine .prog hb h hw hz fun _ w z h1 _ => ?_
    obtain ⟨h2, _⟩ := hbase.pzI w z h1
    obtain rfl : w = 0 := by omega
    cases h with
    | sys h _ _ =>
      rcases ex_pc h with h3 | ⟨v, h3, h4⟩
      · exact congrFun h3 _
      · obtain rfl : v = 0 := by omega
        exact absurd (hz 0 z h1) h4
    | _ => rfl
  | yield hb hw h hs hg h0 hu hww => exact .yield hb hw h hs hg h0 hu hww
  | set hb h => exact .set hb h
  | checkReached hb h hr => exact .checkReached hb h hr
  | checkNot hb h hr => exact .checkNot hb h hr
  | push hb h => exact .push hb h
  | incr hb h => exact .incr hb h
  | up hb h => exact .up hb h
  | notify hb h hn => exact .notify hb h hn
  | begin hb h => exact .begin hb h
  | visit hb h hn => exact .visit hb h hn

theorem Work.weaken (h : Work cfg N true s s') : Work cfg N a s s' :=
  h.imp Step.weaken fun ⟨l, h1, h2⟩ => ⟨l, h1.weaken, h2⟩

/-- a worker that is about to pause a body can go on -/
theorem no_pz (hr : Reach cfg N true s) (hq : ∀ s', Step cfg N true none s s' → s'.p.y.x.g = s.p.y.x.g →
    (∀ t, s.p.y.x.w t = none → s'.p.y.x.w t = none) → False) (w : Nat) : s.pz w = none := by
  have hb := Base.reach hr
  have hi := Inv.reach hr
  have own : ∀ {s'}, Step cfg N true none s s' → s'.p.y = s.p.y → False := by
    intro s' h1 h2
    exact hq s' h1 (by rw [h2]) fun t h => by rw [h2]; exact h
  have noty : ∀ t, ∃ s', Notify cfg s t s' ∧ (∀ t, s.p.y.x.w t = none → s'.p.y.x.w t = none) := by
    intro t
    by_cases h : s.ppre t = 2
    · by_cases h1 : ∃ u, s.p.y.x.w t = some u ∧ s.p.y.x.g.ex u = .ended
      · obtain ⟨u, h1, h2⟩ := h1
        refine ⟨_, .ready h (.ok (.wake (ks := []) h1 h2 (by simp)) rfl h1 h2 rfl), fun t' h3 => ?_⟩
        dsimp only
        unfold upd
        split
        · rfl
        · exact h3
      · exact ⟨_, .ready h (.bad fun u h2 h3 => h1 ⟨u, h2, h3⟩), fun _ h => h⟩
    · exact ⟨_, .not h, fun _ h => h⟩
  cases h : s.pz w with
  | none => rfl
  | some z =>
    exfalso
    obtain ⟨t, u, pc⟩ := z
    cases pc with
    | set => exact own (.set hi.ok h) rfl
    | check =>
      by_cases h1 : s.p.y.x.g.ex u = .ended
      · exact own (.checkReached hi.ok h h1) rfl
      · exact own (.checkNot hi.ok h h1) rfl
    | push => exact own (.push hi.ok h) rfl
    | incr => exact own (.incr hi.ok h) rfl
    | up => exact own (.up hi.ok h) rfl
    | notify =>
      obtain ⟨s', h1, h2⟩ := noty t
      exact hq _ (.notify hi.ok h h1) (h1.reach hb.pr).2.1 h2

end RG.Full

namespace RG.Dyn
open RG.Graph
open RG.Bodies (workers)
open RG.Prog (Rooted MPc)

variable {N : Nat} {a : Bool} {M : Type} {P : Prog M} {m0 : M} {K K' : Cfg → Full.State → Full.State → Prop}

/-- the state of Model/DynamicRun -/
def FConf.conf (x : FConf P) : Conf P := ⟨x.user, x.own, x.s.p.y, x.m, x.loc⟩

theorem FStep.mono {x x' : FConf P} (hK : ∀ c s s', K c s s' → K' c s s') (h : FStep N a P K x x') :
    FStep N a P K' x x' := by
  cases h with
  | rt h hk hn hret hw hm => exact .rt h (hK _ _ _ hk) hn hret hw hm
  | barrier h hf hp => exact .barrier h hf hp
  | back h hk hm hm' hp => exact .back h (hK _ _ _ hk) hm hm' hp
  | finalize h hf hp => exact .finalize h hf hp
  | submit ho hp h hn => exact .submit ho hp h hn
  | act h hp => exact .act h hp
  | join h hp hc => exact .join h hp hc

theorem FStep.any {x x' : FConf P} (h : FStep N a P K x x') : FStep N a P (fun _ _ _ => True) x x' :=
  h.mono fun _ _ _ _ => trivial

theorem rooted_tasks {user : Nat → User} {own : Nat → Nat} : Rooted (tasks user own) := by
  intro t h
  rw [parentOf_tasks] at h
  show own t = 0
  cases e : own t with
  | zero => rfl
  | succ q => rw [e] at h; cases h

theorem FReach.full {x : FConf P} (h : FReach N a P m0 x) : Full.Reach x.cfg N a x.s := by
  induction h with
  | init => exact .init
  | @step x x' hx hs ih =>
    cases hs with
    | rt h => exact .step ih h
    | barrier h => exact .step ih h
    | back h => exact .step ih h
    | finalize h => exact .step ih h
    | submit ho hp h hn => exact .step (ih.agree tasks_agree) h
    | act => exact ih
    | join => exact ih

/-- where the main program is while the main thread waits -/
def AtMain (x : FConf P) : Prop :=
  x.s.p.mpc = .run ∨ (x.s.p.mpc.waits ∧ ∃ w b, P.pt (x.loc 0) = .join w b) ∨
    (x.s.p.mpc.finalizing = true ∧ P.pt (x.loc 0) = .done)

theorem FReach.atMain {x : FConf P} (h : FReach N a P m0 x) : AtMain x := by
  induction h with
  | init => exact .inl rfl
  | @step x x' hx hs ih =>
    have run : ∀ {i}, Executes N x.s i → P.pt (x.loc i) ≠ .done → i ≠ 0 ∨ x.s.p.mpc = .run := by
      intro i h _
      by_cases e : i = 0
      · exact .inr (h.2 e)
      · exact .inl e
    have other : ∀ {i b} {m : M}, Executes N x.s i → AtMain { x with m := m, loc := upd x.loc i b } := by
      intro i b m h
      by_cases e : i = 0
      · exact .inl (h.2 e)
      · unfold AtMain
        dsimp only
        rw [upd_ne _ _ (Ne.symm e)]
        exact ih
    cases hs with
    | @rt s' l h hk hn hret hw hm =>
      rcases ih with h1 | ⟨h1, h2⟩ | ⟨h1, h2⟩
      · exact .inl (hm.1 h1)
      · refine .inr (.inl ⟨?_, h2⟩)
        rcases h.prog_of with ⟨_, _, h3⟩ | ⟨l', _, h3⟩
        · dsimp only; rw [h3]; exact h1
        · rcases h3.waits h1 with h4 | h4
          · exact h4
          · rw [hm.2 h4] at h1
            rcases h1 with h1 | h1 <;> cases h1
      · refine .inr (.inr ⟨?_, h2⟩)
        rcases h.prog_of with ⟨_, _, h3⟩ | ⟨l', _, h3⟩
        · dsimp only; rw [h3]; exact h1
        · exact h3.finalizing h1
    | barrier h hf hp => exact .inr (.inl ⟨.inl hf, _, _, hp⟩)
    | back h hk hm hm' hp => exact .inl hm'
    | finalize h hf hp =>
      refine .inr (.inr ⟨?_, hp⟩)
      dsimp only; rw [hf]; rfl
    | @submit i s' l d c b ho hp h hn =>
      have hmpc : s'.p.mpc = x.s.p.mpc := by
        rcases h.prog_of with ⟨_, _, h3⟩ | ⟨l', _, h3⟩
        · exact h3
        · exact h3.mpc_submit (by rw [hn]; exact Nat.succ_ne_self _)
      have h1 := other (b := b) (m := x.m) ho
      unfold AtMain at h1 ⊢
      dsimp only at h1 ⊢
      rw [hmpc, upd_ne _ _ (show 0 ≠ x.n + 1 by omega)]
      exact h1
    | act h hp => exact other h
    | join h hp hc => exact other h

theorem FStep.n_mono {x x' : FConf P} (hr : FReach N a P m0 x) (h : FStep N a P K x x') : x.n ≤ x'.n := by
  have hb := Full.Base.reach hr.full
  cases h with
  | rt h => exact h.n_mono hb
  | barrier h => exact h.n_mono hb
  | back h => exact h.n_mono hb
  | finalize h => exact h.n_mono hb
  | submit ho hp h hn =>
    show x.s.p.y.x.g.n ≤ _
    unfold FConf.n at hn ⊢
    dsimp only
    omega
  | act => exact Nat.le_refl _
  | join => exact Nat.le_refl _

/-- steps are steps of Model/DynamicRun, or not visible there -/
theorem FStep.proj {x x' : FConf P} (hr : FReach N a P m0 x) (hn : x.n < 2 ^ 32) (h : FStep N a P K x x') :
    x'.conf = x.conf ∨ PStep N P (fun _ _ _ => True) x.conf x'.conf := by
  have hb := Full.Base.reach hr.full
  have call : ∀ {s' : Full.State}, Full.Step x.cfg N a (some .call) x.s s' → s'.p.y = x.s.p.y := by
    intro s' h
    cases h with | prog _ h => cases h; rfl
  cases h with
  | @rt s' l h hk hn' hret hw hm =>
    rcases h.sys_or hb with e | h1
    · left; unfold FConf.conf; dsimp only; rw [e]
    · exact .inr (.rt (x := x.conf) h1 trivial hn' hret hw)
  | barrier h hf hp => left; unfold FConf.conf; dsimp only; rw [call h]
  | finalize h hf hp => left; unfold FConf.conf; dsimp only; rw [call h]
  | @back s' l w b h hk hm hm' hp =>
    right
    rcases h.prog_of with ⟨_, _, h3⟩ | ⟨l', rfl, h3⟩
    · rw [h3] at hm'; exact absurd hm' hm
    · obtain ⟨hy, fin, h4⟩ := h3.returns hm hm'
      have he : ∀ t, t < x.n → x.s.p.y.x.g.ex t = .ended := by
        intro t ht
        have h5 := Prog.C73_barrier_returns_after_all_tasks rooted_tasks hb.pr hn h3 (.inl h4)
          ⟨by rw [hm']; simp, by rw [hm']; simp⟩
        have h6 := h5.1 t (by rw [hy]; exact ht)
        cases h6 with
        | mk h7 _ _ => rw [hy] at h7; exact h7
      have e : FConf.conf (P := P) { x with s := s', loc := upd x.loc 0 b } = { x.conf with loc := upd x.loc 0 b } := by
        unfold FConf.conf; dsimp only; rw [hy]
      rw [e]
      exact .join (x := x.conf) (i := 0) trivial hp fun t ht _ _ => he t ht
  | @submit i s' l d c b ho hp h hn' =>
    have hb' : Full.Base (tasks (upd x.user x.n d) (upd x.own x.n i)) N x.s := Full.Base.reach (hr.full.agree tasks_agree)
    rcases h.sys_or hb' with e | h1
    · rw [e] at hn'
      exact absurd hn' (Nat.ne_of_lt (Nat.lt_succ_self _))
    · exact .inr (.submit (x := x.conf) ho.1 hp h1 hn')
  | act h hp => exact .inr (.act (x := x.conf) h.1 hp)
  | join h hp hc => exact .inr (.join (x := x.conf) h.1 hp hc)

theorem FReach.proj {x : FConf P} (h : FReach N a P m0 x) (hn : x.n < 2 ^ 32) : PReach N P m0 x.conf := by
  induction h with
  | init => exact .init
  | @step x x' hx hs ih =>
    have h1 := Nat.lt_of_le_of_lt (hs.n_mono hx) hn
    rcases hs.proj hx h1 with e | h
    · rw [e]; exact ih h1
    · exact .step (ih h1) h

/-! ### Nothing gets stuck -/

theorem full_no_deadlock (hS : Structured P) (hN : 0 < N) (ho : Orderly P) {x : FConf P} (hr : FReach N true P m0 x)
    (hn : x.n < 2 ^ 32) (hq : ∀ x', ¬ FStep N true P (fun c => Full.OwnWork c N true) x x') :
    (x.s.p.mpc = .cleared ∨ ∃ fin, x.s.p.mpc = .idle fin ∧ ∃ t, t < x.n ∧ x.own t = 0 ∧ x.s.p.y.x.g.fut t = .held) ∧
    (∀ t, t < x.n → Finished x.cfg x.s.p.y.x.g t ∧ x.s.p.y.x.w t = none) ∧ ∀ w, x.s.pz w = none := by
  have hfr := hr.full
  have hb := Full.Base.reach hfr
  have hfi := Full.Inv.reach hfr
  have hrec := (hr.proj hn).recorded
  have hwr := (hr.proj hn).wreach
  have hrs : Sys.Reach x.cfg N x.s.p.y := hwr.sys
  have hi := Sys.Inv.reach hrs
  have hc := Core.reach (.inl rfl) hrs.graph
  obtain ⟨o, hk⟩ := hwr.kept
  have hk : Kept x.cfg P x.s.p.y.x.g x.loc o := hk
  have hmain := hr.atMain
  -- what the runtime system can do without the bodies
  have quiet : ∀ s', Full.OwnWork x.cfg N true x.s s' →
      (∀ t, x.s.p.y.x.g.ex t = .running → s'.p.y.x.g.ex t ≠ .running → P.pt (x.loc (t + 1)) = .done) →
      (∀ t u, x.s.p.y.x.w t = none → s'.p.y.x.w t = some u →
        ∃ w b, P.pt (x.loc (t + 1)) = .join w b ∧ x.own u = t + 1 ∧ w (rank x.cfg u) = true) → False := by
    intro s' h1 h2 h3
    obtain ⟨l, hst⟩ := h1.1.step
    by_cases e : x.s.p.mpc = .run
    · exact hq _ (.rt hst h1 h1.1.n_eq h2 h3 ⟨fun h => h1.1.run h, fun _ => e⟩)
    · by_cases e' : s'.p.mpc = .run
      · rcases hmain with h4 | ⟨h4, w, b, h5⟩ | ⟨h4, h5⟩
        · exact e h4
        · exact hq _ (.back hst h1 e e' h5)
        · rcases hst.prog_of with ⟨_, _, h6⟩ | ⟨l', _, h6⟩
          · exact e (h6.symm.trans e')
          · have := h6.finalizing h4
            rw [e'] at this; cases this
      · exact hq _ (.rt hst h1 h1.1.n_eq h2 h3 ⟨fun h => absurd h e, fun h => absurd h e'⟩)
  have hpz : ∀ w, x.s.pz w = none := by
    refine Full.no_pz hfr fun s' h1 h2 h3 => ?_
    refine quiet s' ⟨.inl h1, fun t h => by rw [h2]; exact h⟩ (fun t h4 h5 => ?_) (fun t u h4 h5 => ?_)
    · rw [h2] at h5; exact absurd h4 h5
    · rw [h3 t h4] at h5; cases h5
  -- a step of a worker
  have lift : ∀ {cfg : Cfg} {y' : Sys.State}, Sys.Step cfg N x.s.p.y y' → y'.x.w = x.s.p.y.x.w →
      (∀ w, x.s.p.stop w = true → x.s.p.y.pc w = .top → y'.pc w = .top) →
      (y'.x.g.n ≠ x.s.p.y.x.g.n → cfg.space x.s.p.y.x.g.n = 0 → x.s.p.mpc.closing = false) →
      ∃ s', Full.Step cfg N true (some .sys) x.s s' ∧ Prog.Step cfg N .sys x.s.p s'.p ∧ s'.p.y = y' := by
    intro cfg y' h1 h2 h3 h4
    exact ⟨_, .prog hfi.ok (.sys h1 h3 h4) h2 (fun w z h => by rw [hpz w] at h; cases h)
      (fun _ w z h => by rw [hpz w] at h; cases h), .sys h1 h3 h4, rfl⟩
  have own : ∀ {y' : Sys.State}, Sys.OwnWork x.cfg N x.s.p.y y' → y'.x.w = x.s.p.y.x.w →
      (∀ w, x.s.p.stop w = true → x.s.p.y.pc w = .top → y'.pc w = .top) →
      (∀ t, x.s.p.y.x.g.ex t = .running → y'.x.g.ex t ≠ .running → P.pt (x.loc (t + 1)) = .done) → False := by
    intro y' h1 h2 h3 h4
    obtain ⟨s', h5, h6, h7⟩ := lift h1.1.1 h2 h3 fun h => absurd h1.1.2.2.1 h
    subst h7
    refine quiet s' ⟨.inr ⟨_, h5, ⟨?_, .inr ⟨h6, h1.1⟩⟩⟩, h1.2⟩ h4 fun t u h8 h9 => ?_
    · intro e
      have := h1.1.2.1
      rw [e] at this
      exact this .spin
    · rw [h2, h8] at h9; cases h9
  have sub0 : ∀ t i, x.s.p.y.x.g.ph t ≠ .submitting i := sub_done_pc hN hrs fun y' h1 h2 h3 h4 =>
    own h1 h3 (fun w _ h => by rw [h4]; exact h) fun t h5 h6 => by rw [h2] at h6; exact absurd h5 h6
  -- a body that is about to submit a task
  have hsp : ∀ i d c b, Executes N x.s i → P.pt (x.loc i) ≠ .spawn d c b := by
    intro i d c b hon hp
    have hdom := Dom.reach hrs.graph
    have hown : upd x.own x.n i x.n = i := upd_same _ _ _
    have hclosing : (tasks (upd x.user x.n d) (upd x.own x.n i)).space x.n = 0 → x.s.p.mpc.closing = false := by
      intro h
      have h : upd x.own x.n i x.n = 0 := h
      rw [hown] at h
      rw [hon.2 h]; rfl
    cases i with
    | zero =>
      have hpar : (tasks (upd x.user x.n d) (upd x.own x.n 0)).parentOf x.s.p.y.x.g.n = none := by
        rw [parentOf_tasks]; show (match upd x.own x.n 0 x.n with | 0 => none | q + 1 => some q) = none
        rw [hown]
      have hst : Graph.Step (tasks (upd x.user x.n d) (upd x.own x.n 0)) _ x.s.p.y.x.g _ :=
        .beginSubmit (fun q hq => by rw [hpar] at hq; cases hq) (fun _ t i _ _ => sub0 t i)
      have hsys : Sys.Step (tasks (upd x.user x.n d) (upd x.own x.n 0)) N x.s.p.y _ :=
        .graph (.submitOut (ks := []) hst rfl hpar (by simp))
        (Sys.samePh_stage rfl (by rw [hdom.ph _ (Nat.le_refl _)]; rfl) (by simp [Sys.stage])) rfl rfl rfl
        (fun q _ hq => by rw [hpar] at hq; cases hq) (fun h => absurd rfl h)
      obtain ⟨s', h5, h6, h7⟩ := lift hsys rfl (fun _ _ h => h) fun _ => hclosing
      exact hq _ (.submit hon hp h5 (by rw [h7]; rfl))
    | succ q =>
      have hpar : (tasks (upd x.user x.n d) (upd x.own x.n (q + 1))).parentOf x.s.p.y.x.g.n = some q := by
        rw [parentOf_tasks]; show (match upd x.own x.n (q + 1) x.n with | 0 => none | q + 1 => some q) = some q
        rw [hown]
      obtain ⟨w, hw, hpc⟩ := hon.1
      obtain ⟨h1, h2⟩ := Sys.exec_running hrs hw hpc
      have hst : Graph.Step (tasks (upd x.user x.n d) (upd x.own x.n (q + 1))) _ x.s.p.y.x.g _ :=
        .beginSubmit (fun q' hq => by rw [hpar] at hq; cases hq; exact h1) (fun _ t i _ _ => sub0 t i)
      have hsys : Sys.Step (tasks (upd x.user x.n d) (upd x.own x.n (q + 1))) N x.s.p.y _ :=
        .graph (.submitIn (ks := []) hst rfl hpar h2 (by simp))
        (Sys.samePh_stage rfl (by rw [hdom.ph _ (Nat.le_refl _)]; rfl) (by simp [Sys.stage])) rfl rfl rfl
        (fun q' _ hq => by rw [hpar] at hq; cases hq; exact ⟨w, hw, hpc⟩) (fun h => absurd rfl h)
      obtain ⟨s', h5, h6, h7⟩ := lift hsys rfl (fun _ _ h => h) fun _ => hclosing
      exact hq _ (.submit hon hp h5 (by rw [h7]; rfl))
  have idle : ∀ w t, w < N → x.s.p.y.pc w ≠ .exec t := by
    intro w t hw h
    obtain ⟨hx1, hx2⟩ := Sys.exec_running hrs hw h
    have hpc : ∀ {s' : Sys.State} {q : Sys.Pc}, s'.pc = upd x.s.p.y.pc w q → q ≠ .exec t → ¬ Sys.Idle x.s.p.y s' := by
      intro s' q h1 h2 h3
      rw [h3.pc] at h1
      have := congrFun h1 w
      rw [upd_same, h] at this
      exact h2 this.symm
    have hon : Executes N x.s (t + 1) := ⟨⟨w, hw, h⟩, fun h => by cases h⟩
    have htn := OnWorker.le hrs hon.1
    cases hp : P.pt (x.loc (t + 1)) with
    | act f => exact hq _ (.act hon hp)
    | spawn d c b => exact hsp _ _ _ _ hon hp
    | join v b =>
      by_cases hall : ∀ u, u < x.n → x.own u = t + 1 → v (rank x.cfg u) = true → x.s.p.y.x.g.ex u = .ended
      · exact hq _ (.join hon hp hall)
      · have : ∃ u, u < x.n ∧ x.own u = t + 1 ∧ v (rank x.cfg u) = true ∧ x.s.p.y.x.g.ex u ≠ .ended := by
          apply Classical.byContradiction
          intro hno
          exact hall fun u h1 h2 h3 => Classical.byContradiction fun h4 => hno ⟨u, h1, h2, h3, h4⟩
        obtain ⟨u, h1, h2, h3, h4⟩ := this
        have hst : Full.Step x.cfg N true none x.s _ := .yield hfi.ok hw h (.wait hx1 hx2
          (hi.kids u t h1 (owner_some ((owner_tasks u).trans h2))) (fun c i _ _ => sub0 c i)) rfl hx2 h4 rfl
        refine quiet _ ⟨.inl hst, fun _ h => h⟩ (fun _ h5 h6 => absurd h5 h6) ?_
        intro t' u' h5 h6
        dsimp only at h6
        by_cases e : t' = t
        · subst e
          rw [upd_same] at h6
          cases h6
          exact ⟨v, b, hp, h2, h3⟩
        · rw [upd_ne _ _ e, h5] at h6
          cases h6
    | done =>
      have hke : Sys.KidsEnded x.cfg x.s.p.y.x t := by
        intro c hcn hpc
        have ho : owner x.cfg c = t + 1 := by rw [owner, hpc]
        apply hk.kids c hcn
        rw [ho]
        exact hS.done _ _ _ (hk.has _ htn) hp _
      have hst : Graph.Step x.cfg ⟨[t], false⟩ x.s.p.y.x.g _ := .bodyEnd hx1 (fun c i _ _ => sub0 c i)
        (fun _ c hc' hp => (hc.exI c (by rw [hke c hc' hp]; simp)).1)
      have hst2 : Sys.Step x.cfg N x.s.p.y _ := .bodyEnd hw h (.other hst rfl (by
        intro u h4 h5
        dsimp only [State.decPost]
        rw [upd_ne]
        · exact h5
        · rintro rfl; exact h4 hx2) (.inl rfl)) (Sys.samePh_eq rfl) rfl hx1 rfl hke rfl
      refine own (y' := _) ⟨⟨hst2, hpc rfl (by simp), rfl, rfl, rfl⟩, fun _ h => h⟩ rfl ?_ ?_
      · intro v h5 h6
        dsimp only
        rw [upd_ne]
        · exact h6
        · rintro rfl; rw [h] at h6; cases h6
      · intro t' h5 h6
        by_cases e : t' = t
        · subst e; exact hp
        · refine absurd ?_ h6
          dsimp only [State.decPost]
          rw [upd_ne _ _ e]
          exact h5
  have hq' : ∀ s', ¬ Full.OwnWork x.cfg N true x.s s' := by
    intro s' h
    obtain ⟨l, hst⟩ := h.1.step
    rcases hst.sys_or hb with e | h1
    · refine quiet s' h (fun t h3 h4 => ?_) (fun t u h3 h4 => ?_)
      · rw [e] at h4; exact absurd h3 h4
      · rw [e, h3] at h4; cases h4
    · obtain ⟨h1, h2⟩ := sys_exec h1
      refine quiet s' h (fun t h3 h4 => ?_) (fun t u h3 h4 => ?_)
      · obtain ⟨w, h5, h6⟩ := h1 t h3 h4
        exact absurd h6 (idle w t h5)
      · obtain ⟨w, h5, h6⟩ := h2 t u h3 h4
        exact absurd h6 (idle w t h5)
  have hsafe : x.cfg.Safe := ho.safe hrec
  obtain ⟨h1, h2⟩ := Full.C71_pausing_no_deadlock_partial hN hsafe rooted_tasks hfr hn hq'
  refine ⟨?_, h1, h2⟩
  rcases Full.C73_pausing_no_deadlock_partial hN hsafe rooted_tasks hfr hn hq' with h3 | h3 | h3
  · have hon : Executes N x.s 0 := ⟨trivial, fun _ => h3⟩
    exfalso
    cases hp : P.pt (x.loc 0) with
    | done =>
      exact hq _ (.finalize (.prog hfi.ok (.call (fin := true) h3) rfl (fun _ _ _ => rfl) (fun _ _ _ _ _ => rfl)) rfl hp)
    | act f => exact hq _ (.act hon hp)
    | spawn d c b => exact hsp 0 _ _ _ hon hp
    | join v b =>
      refine hq _ (.join hon hp fun t h3 _ _ => ?_)
      cases (h1 t h3).1 with
      | mk h _ _ => exact h
  · exact .inl h3
  · exact .inr h3

/-! ### Everything ends -/

/-- the main program can call `barrier()` or `finalize()` -/
def calls (s : Full.State) : Nat := if s.p.mpc = .run then 1 else 0

theorem FStep.decreases (hw : WellFounded (Next P)) {x y : FConf P} (hr : FReach N a P m0 x)
    (hs : FStep N a P (fun c => Full.Work c N a) x y) :
    let _ := order hw
    Multiset.IsDershowitzMannaLT (bag y.s.p.y.x.g y.loc) (bag x.s.p.y.x.g x.loc) ∨
    bag y.s.p.y.x.g y.loc = bag x.s.p.y.x.g x.loc ∧ (calls y.s < calls x.s ∨
      calls y.s = calls x.s ∧ Full.fmeasure y.cfg N y.s < Full.fmeasure x.cfg N x.s) := by
  intro _
  have hb := Full.Base.reach hr.full
  have hrs : Sys.Reach x.cfg N x.s.p.y := (Prog.Inv.reach hb.pr).yr
  have lt : ∀ {j}, Executes N x.s j → j < x.n + 1 := fun h => Nat.lt_succ_of_le (OnWorker.le hrs h.1)
  have one : ∀ {g : State} {j b}, g.n = x.n → j < x.n + 1 → Next P b (x.loc j) →
      Multiset.IsDershowitzMannaLT (bag (P := P) g (upd x.loc j b)) (bag x.s.p.y.x.g x.loc) := by
    intro g j b hn hj hb
    obtain ⟨X, h1, h2⟩ := map_upd hj x.loc b
    refine ⟨X, {b}, {x.loc j}, by simp, ?_, h1, fun y hy => ⟨_, Multiset.mem_singleton.2 rfl, ?_⟩⟩
    · unfold bag
      rw [hn]; exact h2
    · cases Multiset.mem_singleton.1 hy
      exact .single hb
  have call : ∀ {s' : Full.State} {fin}, Full.Step x.cfg N a (some .call) x.s s' → s'.p.mpc = .check fin →
      bag (P := P) s'.p.y.x.g x.loc = bag x.s.p.y.x.g x.loc ∧ calls s' < calls x.s := by
    intro s' fin h hf
    have h1 : s'.p.y = x.s.p.y ∧ x.s.p.mpc = .run := by
      cases h with
      | prog _ h => cases h with | call h => exact ⟨rfl, h⟩
    refine ⟨by rw [h1.1], ?_⟩
    unfold calls
    rw [hf, h1.2]
    simp
  cases hs with
  | @rt s' l h hk hn hret hwt hm =>
    refine .inr ⟨by unfold bag; rw [hn]; rfl, .inr ⟨?_, Full.fmeasure_decreases hb hk⟩⟩
    unfold calls
    simp only [hm]
  | barrier h hf hp => exact .inr ⟨(call h hf).1, .inl (call h hf).2⟩
  | finalize h hf hp => exact .inr ⟨(call h hf).1, .inl (call h hf).2⟩
  | @back s' l w b h hk hm hm' hp => exact .inl (one hk.n_eq (Nat.succ_pos _) (.join hp))
  | @submit i s' l d c b ho hp h hn =>
    left
    obtain ⟨X, h1, h2⟩ := map_upd (lt ho) x.loc b
    refine ⟨X, {b} + {c}, {x.loc i}, by simp, ?_, h1, ?_⟩
    · unfold bag
      dsimp only at hn h2 ⊢
      rw [hn, Multiset.range_succ (x.n + 1), Multiset.map_cons, upd_same, ← Multiset.singleton_add,
        add_comm, ← add_assoc, ← h2]
      congr 1
      apply Multiset.map_congr rfl
      intro j hj
      have := Multiset.mem_range.1 hj
      exact upd_ne _ _ (by omega)
    · intro y hy
      refine ⟨_, Multiset.mem_singleton.2 rfl, ?_⟩
      rcases Multiset.mem_add.1 hy with hy | hy <;> cases Multiset.mem_singleton.1 hy
      · exact .single (.next hp)
      · exact .single (.child hp)
  | act h hp => exact .inl (one rfl (lt h) (.act _ hp))
  | join h hp hc => exact .inl (one rfl (lt h) (.join hp))

theorem full_no_infinite (hw : WellFounded (Next P)) {x : FConf P} (hr : FReach N a P m0 x) :
    ¬ ∃ f : Nat → FConf P, f 0 = x ∧ ∀ i, FStep N a P (fun c => Full.Work c N a) (f i) (f (i + 1)) := by
  rintro ⟨f, h0, h⟩
  let _ := order hw
  have : WellFoundedLT P.B := ⟨hw.transGen⟩
  have hreach : ∀ i, FReach N a P m0 (f i) := by
    intro i
    induction i with
    | zero => rw [h0]; exact hr
    | succ i ih => exact .step ih (h i).any
  have wf := (Multiset.wellFounded_isDershowitzMannaLT (α := P.B)).prod_lex
    ((Nat.lt_wfRel.wf).prod_lex (Nat.lt_wfRel.wf))
  have no : ∀ p, ¬ ∃ i, p = (bag (f i).s.p.y.x.g (f i).loc, calls (f i).s, Full.fmeasure (f i).cfg N (f i).s) := by
    intro p
    induction p using wf.induction with
    | _ p ih =>
      rintro ⟨i, rfl⟩
      refine ih _ ?_ ⟨i + 1, rfl⟩
      rcases (h i).decreases hw (hreach i) with h1 | ⟨h1, h2 | ⟨h2, h3⟩⟩
      · exact .left _ _ h1
      · rw [h1]; exact .right _ (.left _ _ h2)
      · rw [h1, h2]; exact .right _ (.right _ h3)
  exact no _ ⟨0, rfl⟩

/-! ### One worker -/

theorem FStep.weaken {x x' : FConf P} (h : FStep N true P (fun c => Full.OwnWork c N true) x x') :
    FStep N a P (fun c => Full.OwnWork c N a) x x' := by
  cases h with
  | rt h hk hn hret hw hm => exact .rt h.weaken ⟨hk.1.weaken, hk.2⟩ hn hret hw hm
  | barrier h hf hp => exact .barrier h.weaken hf hp
  | back h hk hm hm' hp => exact .back h.weaken ⟨hk.1.weaken, hk.2⟩ hm hm' hp
  | finalize h hf hp => exact .finalize h.weaken hf hp
  | submit ho hp h hn => exact .submit ho hp h.weaken hn
  | act h hp => exact .act h hp
  | join h hp hc => exact .join h hp hc

theorem FReach.one {x : FConf P} (h : FReach 1 false P m0 x) : FReach 1 true P m0 x := by
  induction h with
  | init => exact .init
  | @step x x' hx hs ih =>
    have hb := Full.Base.reach hx.full
    refine .step ih ?_
    cases hs with
    | rt h hk hn hret hw hm => exact .rt (h.one hb) hk hn hret hw hm
    | barrier h hf hp => exact .barrier (h.one hb) hf hp
    | back h hk hm hm' hp => exact .back (h.one hb) hk hm hm' hp
    | finalize h hf hp => exact .finalize (h.one hb) hf hp
    | submit ho hp h hn => exact .submit ho hp (h.one (Full.Base.reach (hx.full.agree tasks_agree))) hn
    | act h hp => exact .act h hp
    | join h hp hc => exact .join h hp hc

/-! ### Programs in which only the main program waits -/

/-- the bodies of tasks do not wait -/
def Leaves (P : Prog M) : Prop :=
  ∀ b d c b1, From P P.main b → P.pt b = .spawn d c b1 → ∀ b2 w b3, From P c b2 → P.pt b2 ≠ .join w b3

theorem step_no_pz {cfg : Cfg} {s s' : Full.State} {l} (hz : ∀ w, s.pz w = none) (h : Full.Step cfg N false l s s') :
    Full.Step cfg N true l s s' := by
  cases h with
  | prog hb h hw hz' ha => exact .prog hb h hw hz' fun _ w z h => by rw [hz w] at h; cases h
  | yield hb hw h hs hg h0 hu hww => exact .yield hb hw h hs hg h0 hu hww
  | set hb h => exact .set hb h
  | checkReached hb h hr => exact .checkReached hb h hr
  | checkNot hb h hr => exact .checkNot hb h hr
  | push hb h => exact .push hb h
  | incr hb h => exact .incr hb h
  | up hb h => exact .up hb h
  | notify hb h hn => exact .notify hb h hn
  | begin hb h => exact .begin hb h
  | visit hb h hn => exact .visit hb h hn

theorem step_pz {cfg : Cfg} {s s' : Full.State} {l} (hb : Full.Base cfg N s) (hz : ∀ w, s.pz w = none)
    (h : Full.Step cfg N a l s s') : (∀ w, s'.pz w = none) ∨
      ∃ w t u, w < N ∧ s.p.y.pc w = .exec t ∧ s.p.y.x.w t = none ∧ s'.p.y.x.w t = some u ∧ s'.p.y.x.g = s.p.y.x.g := by
  have no : ∀ {w z}, s.pz w = some z → False := fun {w z} h => by rw [hz w] at h; cases h
  cases h with
  | prog => exact .inl hz
  | yield _ hw h hs hg h0 hu hww => exact .inr ⟨_, _, _, hw, h, h0, by dsimp only; rw [hww, upd_same], hg⟩
  | set _ h => exact (no h).elim
  | checkReached _ h => exact (no h).elim
  | checkNot _ h => exact (no h).elim
  | push _ h => exact (no h).elim
  | incr _ h => exact (no h).elim
  | up _ h => exact (no h).elim
  | notify _ h => exact (no h).elim
  | begin => exact .inl hz
  | visit _ h hn =>
    have := (hn.reach hb.pr).2.2.2.2.2.1
    left
    dsimp only
    rw [this]
    exact hz

structure LeafInv (x : FConf P) : Prop where
  pz : ∀ w, x.s.pz w = none
  main : ∀ i, From P P.main (x.loc i)
  leaf : ∀ i, i ≠ 0 → i ≤ x.n → ∀ w b, P.pt (x.loc i) ≠ .join w b
  from_ : ∀ i, i ≠ 0 → i ≤ x.n → ∃ b d c b1, From P P.main b ∧ P.pt b = .spawn d c b1 ∧ From P c (x.loc i)

theorem FReach.leaves (hL : Leaves P) {x : FConf P} (h : FReach N false P m0 x) : FReach N true P m0 x ∧ LeafInv x := by
  induction h with
  | init => exact ⟨.init, fun _ => rfl, fun _ => .refl, fun i h1 h2 => absurd (Nat.le_zero.1 h2) h1,
      fun i h1 h2 => absurd (Nat.le_zero.1 h2) h1⟩
  | @step x x' hx hs ih =>
    obtain ⟨hr, hi⟩ := ih
    have hb := Full.Base.reach hx.full
    have hrs : Sys.Reach x.cfg N x.s.p.y := (Prog.Inv.reach hb.pr).yr
    have mk : ∀ {y : FConf P}, (∀ w, y.s.pz w = none) → (∀ i, From P P.main (y.loc i)) →
        (∀ i, i ≠ 0 → i ≤ y.n → ∃ b d c b1, From P P.main b ∧ P.pt b = .spawn d c b1 ∧ From P c (y.loc i)) → LeafInv y := by
      intro y h1 h2 h3
      refine ⟨h1, h2, fun i h4 h5 w b => ?_, h3⟩
      obtain ⟨b1, d, c, b2, h6, h7, h8⟩ := h3 i h4 h5
      exact hL _ _ _ _ h6 h7 _ _ _ h8
    -- the steps of the runtime system
    have rt : ∀ {s' : Full.State} {l}, Full.Step x.cfg N false l x.s s' → s'.p.y.x.g.n = x.n →
        (∀ t u, x.s.p.y.x.w t = none → s'.p.y.x.w t = some u → ∃ w b, P.pt (x.loc (t + 1)) = .join w b) →
        Full.Step x.cfg N true l x.s s' ∧ LeafInv { x with s := s' } := by
      intro s' l h hn hw
      refine ⟨step_no_pz hi.pz h, ?_⟩
      rcases step_pz hb hi.pz h with h1 | ⟨w, t, u, h1, h2, h3, h4, h5⟩
      · exact mk h1 hi.main fun i h2 h3 => hi.from_ i h2 (by rw [← hn]; exact h3)
      · obtain ⟨v, b, h6⟩ := hw t u h3 h4
        exact absurd h6 (hi.leaf (t + 1) (by omega) (OnWorker.le hrs ⟨w, h1, h2⟩) v b)
    have call : ∀ {s' : Full.State}, Full.Step x.cfg N false (some .call) x.s s' →
        Full.Step x.cfg N true (some .call) x.s s' ∧ LeafInv { x with s := s' } := by
      intro s' h
      have h1 : s'.p.y = x.s.p.y := by
        cases h with
        | prog _ h => cases h; rfl
      exact rt h (by rw [h1]; rfl) fun t u h2 h3 => by rw [h1, h2] at h3; cases h3
    have local_ : ∀ {i b} {m : M}, Executes N x.s i → From P P.main b → (∀ c, From P c (x.loc i) → From P c b) →
        LeafInv { x with m := m, loc := upd x.loc i b } := by
      intro i b m h1 h2 h3
      refine mk hi.pz (fun j => ?_) fun j h4 h5 => ?_
      · dsimp only
        by_cases e : j = i
        · subst e; rw [upd_same]; exact h2
        · rw [upd_ne _ _ e]; exact hi.main j
      · dsimp only
        by_cases e : j = i
        · subst e
          rw [upd_same]
          obtain ⟨b1, d, c, b2, h6, h7, h8⟩ := hi.from_ j h4 h5
          exact ⟨b1, d, c, b2, h6, h7, h3 c h8⟩
        · rw [upd_ne _ _ e]; exact hi.from_ j h4 h5
    cases hs with
    | rt h hk hn hret hw hm =>
      have h1 := rt h hn fun t u h2 h3 => by
        obtain ⟨w, b, h4, _⟩ := hw t u h2 h3
        exact ⟨w, b, h4⟩
      exact ⟨.step hr (.rt h1.1 hk hn hret hw hm), h1.2⟩
    | barrier h hf hp => exact ⟨.step hr (.barrier (call h).1 hf hp), (call h).2⟩
    | finalize h hf hp => exact ⟨.step hr (.finalize (call h).1 hf hp), (call h).2⟩
    | @back s' l w b h hk hm hm' hp =>
      have hn : s'.p.y.x.g.n = x.n ∧ s'.p.y = x.s.p.y := by
        rcases h.prog_of with ⟨_, h2, h3⟩ | ⟨l', rfl, h3⟩
        · rw [h3] at hm'; exact absurd hm' hm
        · rw [(h3.returns hm hm').1]; exact ⟨rfl, rfl⟩
      have h1 := rt h hn.1 fun t u h2 h3 => by rw [hn.2, h2] at h3; cases h3
      refine ⟨.step hr (.back h1.1 hk hm hm' hp), mk h1.2.pz (fun j => ?_) fun j h4 h5 => ?_⟩
      · dsimp only
        by_cases e : j = 0
        · subst e; rw [upd_same]; exact (hi.main 0).join hp
        · rw [upd_ne _ _ e]; exact hi.main j
      · dsimp only
        rw [upd_ne _ _ h4]
        exact h1.2.from_ j h4 h5
    | @submit i s' l d c b ho hp h hn =>
      have hb' : Full.Base (tasks (upd x.user x.n d) (upd x.own x.n i)) N x.s :=
        Full.Base.reach (hx.full.agree tasks_agree)
      have hz : ∀ w, s'.pz w = none := by
        rcases step_pz hb' hi.pz h with h1 | ⟨w, t, u, h1, h2, h3, h4, h5⟩
        · exact h1
        · rw [h5] at hn; exact absurd hn (Nat.ne_of_lt (Nat.lt_succ_self _))
      refine ⟨.step hr (.submit ho hp (step_no_pz hi.pz h) hn), mk hz (fun j => ?_) fun j h4 h5 => ?_⟩
      · dsimp only
        by_cases e : j = x.n + 1
        · subst e; rw [upd_same]; exact (hi.main i).child hp
        · rw [upd_ne _ _ e]
          by_cases e : j = i
          · subst e; rw [upd_same]; exact (hi.main j).next hp
          · rw [upd_ne _ _ e]; exact hi.main j
      · have h5 : j ≤ s'.p.y.x.g.n := h5
        dsimp only
        by_cases e : j = x.n + 1
        · subst e; rw [upd_same]; exact ⟨_, _, _, _, hi.main i, hp, .refl⟩
        · rw [upd_ne _ _ e]
          obtain ⟨b1, d', c', b2, h6, h7, h8⟩ := hi.from_ j h4 (by omega)
          refine ⟨b1, d', c', b2, h6, h7, ?_⟩
          by_cases e : j = i
          · subst e; rw [upd_same]; exact h8.next hp
          · rw [upd_ne _ _ e]; exact h8
    | @act i f h hp => exact ⟨.step hr (.act h hp), local_ h ((hi.main i).act hp) fun c h => h.act hp⟩
    | @join i w b h hp hc => exact ⟨.step hr (.join h hp hc), local_ h ((hi.main i).join hp) fun c h => h.join hp⟩

end RG.Dyn
