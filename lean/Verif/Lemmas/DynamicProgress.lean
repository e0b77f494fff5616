import Verif.Lemmas.Dynamic
import Verif.Props.GraphWait
import Mathlib.Data.Multiset.DershowitzManna
import Mathlib.Data.Multiset.Range
/-
Programs whose tasks depend on the data do not get stuck, and end.
-/
set_option linter.unusedVariables false
namespace RG.Dyn
open RG.Graph
open RG.Bodies (Sound graph_sound change Change)

variable {cfg : Cfg} {M : Type} {P : Prog M} {m0 : M} {careful : Bool}

/-- what a body, or a task that it submits, does after its next step -/
inductive Next (P : Prog M) : P.B → P.B → Prop
  | act {b f} (m : M) (h : P.pt b = .act f) : Next P (f m).1 b
  | next {b d c b'} (h : P.pt b = .spawn d c b') : Next P b' b
  | child {b d c b'} (h : P.pt b = .spawn d c b') : Next P c b
  | join {b w b'} (h : P.pt b = .join w b') : Next P b' b

/-! ### Nothing gets stuck -/

theorem ended_done (ht : NestingOk cfg) {x : St (Bodies.graph cfg) P} (hr : Reach cfg (Bodies.graph cfg) P careful m0 x)
    (t : Nat) (h : State.ex x.s t = .ended) : P.pt (x.loc (t + 1)) = .done := by
  induction hr with
  | init => cases h
  | @step x x' hx hs ih =>
    have hr : Graph.Reach cfg x.s := Sound.reach (R := Bodies.graph cfg) graph_sound hx.rt
    cases hs with
    | @rt s' hst hn hret =>
      obtain ⟨l, hl⟩ := hst
      rcases (change ht hr hl).was t h with h1 | h1
      · exact ih h1
      · exact hret t h1 (by dsimp only [Bodies.graph] at h ⊢; rw [h]; simp)
    | @submit s' d c b hst hn hret hp hd =>
      obtain ⟨l, hl⟩ := hst
      have h0 : P.pt (x.loc (t + 1)) = .done := by
        rcases (change ht hr hl).was t h with h1 | h1
        · exact ih h1
        · exact hret t h1 (by dsimp only [Bodies.graph] at h ⊢; rw [h]; simp)
      have e1 : t + 1 ≠ owner cfg (State.n x.s) := by
        intro e
        dsimp only [Bodies.graph] at hp
        rw [← e, h0] at hp
        cases hp
      have e2 : t + 1 ≠ State.n x.s + 1 := by
        intro e
        have : State.ex x.s t = .none := (Dom.reach hr).ex t (by omega)
        rcases (change ht hr hl).was t h with h1 | h1
        · rw [this] at h1; cases h1
        · rw [this] at h1; cases h1
      dsimp only [Bodies.graph]
      rw [upd_ne _ _ e2, upd_ne _ _ e1]
      exact h0
    | @act i f ha hp hm =>
      have h0 := ih h
      have e : t + 1 ≠ i := by
        rintro rfl
        rw [h0] at hp
        cases hp
      dsimp only
      rw [upd_ne _ _ e]
      exact h0
    | @join i w b ha hp hc =>
      have h0 := ih h
      have e : t + 1 ≠ i := by
        rintro rfl
        rw [h0] at hp
        cases hp
      dsimp only
      rw [upd_ne _ _ e]
      exact h0

/-- a step that is not the creation of an event or the end of a future -/
def Own (cfg : Cfg) (P : Prog M) (x x' : St (Bodies.graph cfg) P) : Prop :=
  Step cfg (Bodies.graph cfg) P false x x' ∧ State.nExt x'.s = State.nExt x.s ∧
    ∀ t, State.fut x.s t = .held → State.fut x'.s t = .held

theorem no_deadlock (ht : NestingOk cfg) (hs : cfg.Safe) {x : St (Bodies.graph cfg) P}
    (hr : Reach cfg (Bodies.graph cfg) P careful m0 x) (hq : ∀ x', ¬ Own cfg P x x')
    (hsp : ∀ i d c b, Active x.s i → P.pt (x.loc i) ≠ .spawn d c b) :
    P.pt (x.loc 0) = .done ∧ ∀ t, t < State.n x.s → Finished cfg x.s t := by
  have hg : Graph.Reach cfg x.s := Sound.reach (R := Bodies.graph cfg) graph_sound hr.rt
  have hi := Core.reach ht hg
  have hu := Up.reach hg
  -- a body that can not go on waits
  have waits : ∀ i, Active x.s i → P.pt (x.loc i) ≠ .done →
      ∃ c, c < State.n x.s ∧ owner cfg c = i ∧ ¬ (State.ex x.s c ≠ .none ∧ P.pt (x.loc (c + 1)) = .done) := by
    intro i ha hnd
    cases hp : P.pt (x.loc i) with
    | act f =>
      refine (hq _ ⟨.act (cfg := cfg) (R := Bodies.graph cfg) (x := x) ha hp (fun h => by cases h), rfl, fun _ h => h⟩).elim
    | spawn d c b => exact (hsp i d c b ha hp).elim
    | done => exact absurd hp hnd
    | join w b =>
      apply Classical.byContradiction
      intro h
      refine hq _ ⟨.join (cfg := cfg) (R := Bodies.graph cfg) (x := x) ha hp fun t h1 h2 _ => ?_, rfl, fun _ h => h⟩
      apply Classical.byContradiction
      intro h3
      exact h ⟨t, h1, h2, h3⟩
  have hqt := quiet_of_stuck ht (fun t => ∃ c, c < State.n x.s ∧ cfg.parentOf c = some t ∧
      ¬ (State.ex x.s c ≠ .none ∧ P.pt (x.loc (c + 1)) = .done)) hg (by
    intro l s' h hw
    apply Classical.byContradiction
    intro hno
    refine hq { x with s := s' } ⟨.rt (cfg := cfg) (R := Bodies.graph cfg) (x := x) ⟨l, h⟩ hw.1 fun t h1 h2 => ?_, hw.2.1, hw.2.2⟩
    apply Classical.byContradiction
    intro hnd
    obtain ⟨c, h3, h4, h5⟩ := waits (t + 1) h1 hnd
    exact hno ⟨t, ⟨c, h3, owner_some h4, h5⟩, h1, h2⟩)
  have over : ∀ c, State.fl x.s c = .done → State.ex x.s c ≠ .none ∧ P.pt (x.loc (c + 1)) = .done := by
    intro c h
    have he : State.ex x.s c = .ended := by
      apply Decidable.not_not.1
      intro h'
      rw [hi.idle_of_body c h'] at h
      cases h
    exact ⟨by rw [he]; simp, ended_done ht hr c he⟩
  have hd : ∀ t, t < State.n x.s → State.fl x.s t = .done := by
    apply before_induction (D := fun t => State.fl x.s t = .done) hu
    intro t htn ih
    have child : ∀ c, c < State.n x.s → cfg.parentOf c = some t → State.fl x.s c = .done := by
      intro c hc hp
      have := hu c t hc hp
      exact ih c hc (.inl ⟨by omega, .child hp .refl⟩)
    refine hqt.done_of ht hs.single hs.once hg t htn ?_ child ?_
    · intro p hp hlt hsp
      exact ih p hp (.inr ⟨p, t, hlt, by unfold Cfg.parentOf; rw [hsp], .refl, .refl⟩)
    · rintro ⟨c, hc, hp, he⟩
      exact he (over c (child c hc hp))
  constructor
  · apply Classical.byContradiction
    intro hnd
    obtain ⟨c, h3, h4, h5⟩ := waits 0 trivial hnd
    exact h5 (over c (hd c h3))
  · intro t htn
    refine finished_of_reached ht hg _ t (Nat.le_refl _) ?_
    apply Decidable.not_not.1
    intro h
    have := hd t htn
    rw [(hi.flPost t).2 h] at this
    cases this

/-- a step of a structured program is a step of the restricted machine -/
theorem step_strict (hS : Structured P) {x x' : St (Bodies.graph cfg) P}
    (hx : Reach cfg (Bodies.graph cfg) P careful m0 x) (hs : Step cfg (Bodies.graph cfg) P false x x') :
    Step { cfg with strict := true } (Bodies.graph { cfg with strict := true }) P false ⟨x.s, x.m, x.loc⟩
      ⟨x'.s, x'.m, x'.loc⟩ := by
  obtain ⟨ih, o, birth, hw⟩ := structured_careful hS hx
  have hr : Graph.Reach { cfg with strict := true } x.s := Sound.reach (R := Bodies.graph _) Bodies.graph_sound ih.rt
  have hi := Core.reach (.inl rfl) hr
  have hst : ∀ {s' : State}, (∃ l, Graph.Step cfg l x.s s') →
      (∀ t, State.ex x.s t = .running → s'.ex t ≠ .running → P.pt (x.loc (t + 1)) = .done) →
      ∃ l, Graph.Step { cfg with strict := true } l x.s s' := by
    rintro s' ⟨l, hl⟩ hret
    refine ⟨l, hl.to_strict fun t c h3 h4 h5 h6 => ?_⟩
    have hd := hret t h3 (by rw [h4]; simp)
    have htn : t < State.n x.s := Bodies.lt_of_started (.inl rfl) hr (by unfold Started; rw [h3]; simp)
    have := hS.done _ _ _ (hw.has (t + 1) htn) hd (rank cfg c)
    have ho : owner cfg c = t + 1 := by rw [owner, h6]
    rw [← ho] at this
    exact (hi.exI c (hw.kids c h5 this).1).1
  cases hs with
  | @rt s' h hn hret =>
    exact .rt (cfg := { cfg with strict := true }) (R := Bodies.graph { cfg with strict := true })
      (x := ⟨x.s, x.m, x.loc⟩) (hst h hret) hn hret
  | @submit s' d c b h hn hret hp hd =>
    exact .submit (cfg := { cfg with strict := true }) (R := Bodies.graph { cfg with strict := true })
      (x := ⟨x.s, x.m, x.loc⟩) (hst h hret) hn hret hp hd
  | @act i f h hp hm =>
    exact .act (cfg := { cfg with strict := true }) (R := Bodies.graph { cfg with strict := true })
      (x := ⟨x.s, x.m, x.loc⟩) h hp fun h => by cases h
  | @join i w b h hp hc =>
    exact .join (cfg := { cfg with strict := true }) (R := Bodies.graph { cfg with strict := true })
      (x := ⟨x.s, x.m, x.loc⟩) h hp hc

theorem step_of_strict {x x' : St (Bodies.graph { cfg with strict := true }) P}
    (hs : Step { cfg with strict := true } (Bodies.graph { cfg with strict := true }) P false x x') :
    Step cfg (Bodies.graph cfg) P false ⟨x.s, x.m, x.loc⟩ ⟨x'.s, x'.m, x'.loc⟩ := by
  cases hs with
  | @rt s' h hn hret =>
    exact .rt (cfg := cfg) (R := Bodies.graph cfg) (x := ⟨x.s, x.m, x.loc⟩) (h.elim fun l h => ⟨l, h.of_strict⟩) hn hret
  | @submit s' d c b h hn hret hp hd =>
    exact .submit (cfg := cfg) (R := Bodies.graph cfg) (x := ⟨x.s, x.m, x.loc⟩)
      (h.elim fun l h => ⟨l, h.of_strict⟩) hn hret hp hd
  | @act i f h hp hm =>
    exact .act (cfg := cfg) (R := Bodies.graph cfg) (x := ⟨x.s, x.m, x.loc⟩) h hp fun h => by cases h
  | @join i w b h hp hc =>
    exact .join (cfg := cfg) (R := Bodies.graph cfg) (x := ⟨x.s, x.m, x.loc⟩) h hp hc

theorem no_deadlock_structured (hS : Structured P) (hs : cfg.Safe) {x : St (Bodies.graph cfg) P}
    (hr : Reach cfg (Bodies.graph cfg) P careful m0 x) (hq : ∀ x', ¬ Own cfg P x x')
    (hsp : ∀ i d c b, Active x.s i → P.pt (x.loc i) ≠ .spawn d c b) :
    P.pt (x.loc 0) = .done ∧ ∀ t, t < State.n x.s → Finished cfg x.s t := by
  have := no_deadlock (cfg := { cfg with strict := true }) (x := ⟨x.s, x.m, x.loc⟩) (.inl rfl) ⟨hs.single, hs.once⟩
    (structured_careful hS hr).1 (fun x' h => hq ⟨x'.s, x'.m, x'.loc⟩ ⟨step_of_strict h.1, h.2.1, h.2.2⟩) hsp
  exact ⟨this.1, fun t ht => (this.2 t ht).of_strict⟩

/-! ### Everything ends -/

/-- order of the places in the code, if bodies end -/
@[instance_reducible] def order (hw : WellFounded (Next P)) : Preorder P.B where
  le a b := a = b ∨ Relation.TransGen (Next P) a b
  lt a b := Relation.TransGen (Next P) a b
  le_refl a := .inl rfl
  le_trans a b c h1 h2 := by
    rcases h1 with rfl | h1
    · exact h2
    · rcases h2 with rfl | h2
      · exact .inr h1
      · exact .inr (h1.trans h2)
  lt_iff_le_not_ge a b := by
    have irr : ∀ a, ¬ Relation.TransGen (Next P) a a := fun a h => by
      exact hw.transGen.asymmetric _ _ h h
    constructor
    · intro h
      refine ⟨.inr h, ?_⟩
      rintro (rfl | h')
      · exact irr _ h
      · exact irr _ (h.trans h')
    · rintro ⟨rfl | h, h'⟩
      · exact absurd (.inl rfl) h'
      · exact h

/-- where the bodies are -/
def bag (g : State) (loc : Nat → P.B) : Multiset P.B := (Multiset.range (g.n + 1)).map loc

theorem map_upd {B : Type} {n i : Nat} (hi : i < n) (loc : Nat → B) (b : B) :
    ∃ X : Multiset B, (Multiset.range n).map loc = X + {loc i} ∧ (Multiset.range n).map (upd loc i b) = X + {b} := by
  obtain ⟨t, ht⟩ := Multiset.exists_cons_of_mem (Multiset.mem_range.2 hi)
  have hnd : (i ::ₘ t).Nodup := by rw [← ht]; exact Multiset.nodup_range n
  have hit := (Multiset.nodup_cons.1 hnd).1
  refine ⟨t.map loc, ?_, ?_⟩
  · rw [ht, Multiset.map_cons, ← Multiset.singleton_add, add_comm]
  · rw [ht, Multiset.map_cons, ← Multiset.singleton_add, add_comm, upd_same]
    congr 1
    apply Multiset.map_congr rfl
    intro j hj
    exact upd_ne _ _ fun e => hit (e ▸ hj)

theorem no_infinite (ht : NestingOk cfg) (hw : WellFounded (Next P)) {x : St (Bodies.graph cfg) P}
    (hr : Graph.Reach cfg x.s) : ¬ ∃ f : Nat → St (Bodies.graph cfg) P, f 0 = x ∧ ∀ i,
      Step cfg (Bodies.graph cfg) P false (f i) (f (i + 1)) ∧ State.nExt (f (i + 1)).s = State.nExt (f i).s := by
  rintro ⟨f, h0, h⟩
  let _ := order hw
  have : WellFoundedLT P.B := ⟨hw.transGen⟩
  have hreach : ∀ i, Graph.Reach cfg (f i).s := by
    intro i
    induction i with
    | zero => rw [h0]; exact hr
    | succ i ih =>
      obtain ⟨hs, -⟩ := h i
      generalize f (i + 1) = y at hs
      cases hs with
      | rt hst => exact hst.elim fun l hl => .step ih hl
      | submit hst => exact hst.elim fun l hl => .step ih hl
      | act => exact ih
      | join => exact ih
  have wf := (Multiset.wellFounded_isDershowitzMannaLT (α := P.B)).prod_lex (Nat.lt_wfRel.wf)
  have dec : ∀ i, Prod.Lex Multiset.IsDershowitzMannaLT (· < ·)
      (bag (f (i + 1)).s (f (i + 1)).loc, measure cfg (f (i + 1)).s) (bag (f i).s (f i).loc, measure cfg (f i).s) := by
    intro i
    obtain ⟨hs, he⟩ := h i
    have hr := hreach i
    generalize f (i + 1) = y at hs he
    generalize f i = x at hs he hr
    have lt : ∀ {j}, Active x.s j → j < State.n x.s + 1 := by
      intro j hj
      cases j with
      | zero => omega
      | succ t =>
        have := Bodies.lt_of_started ht hr (t := t) (by unfold Started; dsimp only [Active] at hj; rw [hj]; simp)
        omega
    cases hs with
    | @rt s' hst hn hret =>
      obtain ⟨l, hl⟩ := hst
      have hb : bag (P := P) s' x.loc = bag x.s x.loc := by
        unfold bag
        dsimp only [Bodies.graph] at hn
        rw [hn]
      dsimp only
      rw [hb]
      exact .right _ (measure_decreases ht hr hl hn he)
    | @submit s' d c b hst hn hret hp hd =>
      apply Prod.Lex.left
      dsimp only [Bodies.graph] at hn hp ⊢
      have ho : owner cfg (State.n x.s) < State.n x.s + 1 := by
        obtain ⟨l, hl⟩ := hst
        rcases (change ht hr hl).n with h1 | ⟨h1, h2⟩
        · omega
        · unfold owner
          cases hq : cfg.parentOf (State.n x.s) with
          | none => simp
          | some q =>
            have := Bodies.lt_of_started ht hr (t := q) (by unfold Started; rw [h2 q hq]; simp)
            simp only
            omega
      obtain ⟨X, h1, h2⟩ := map_upd ho x.loc b
      refine ⟨X, {b} + {c}, {x.loc (owner cfg (State.n x.s))}, by simp, ?_, h1, ?_⟩
      · unfold bag
        rw [hn, Multiset.range_succ (State.n x.s + 1), Multiset.map_cons, upd_same, ← Multiset.singleton_add,
          add_comm, ← add_assoc, ← h2]
        congr 1
        apply Multiset.map_congr rfl
        intro j hj
        have := Multiset.mem_range.1 hj
        exact upd_ne _ _ (by omega)
      · intro y hy
        refine ⟨_, Multiset.mem_singleton.2 rfl, ?_⟩
        rcases Multiset.mem_add.1 hy with hy | hy <;> cases Multiset.mem_singleton.1 hy
        · exact .single (.next hp)
        · exact .single (.child hp)
    | @act j g ha hp hm =>
      apply Prod.Lex.left
      dsimp only
      obtain ⟨X, h1, h2⟩ := map_upd (lt ha) x.loc (g x.m).1
      refine ⟨X, {(g x.m).1}, {x.loc j}, by simp, h2, h1, fun y hy => ⟨_, Multiset.mem_singleton.2 rfl, ?_⟩⟩
      cases Multiset.mem_singleton.1 hy
      exact .single (.act _ hp)
    | @join j w b ha hp hc =>
      apply Prod.Lex.left
      dsimp only
      obtain ⟨X, h1, h2⟩ := map_upd (lt ha) x.loc b
      refine ⟨X, {b}, {x.loc j}, by simp, h2, h1, fun y hy => ⟨_, Multiset.mem_singleton.2 rfl, ?_⟩⟩
      cases Multiset.mem_singleton.1 hy
      exact .single (.join hp)
  have no : ∀ p, ¬ ∃ i, p = (bag (f i).s (f i).loc, measure cfg (f i).s) := by
    intro p
    induction p using wf.induction with
    | _ p ih =>
      rintro ⟨i, rfl⟩
      exact ih _ (dec i) ⟨i + 1, rfl⟩
  exact no _ ⟨0, rfl⟩

end RG.Dyn
