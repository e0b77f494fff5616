import Verif.Model.Idle
/-
Property C102: workers that are idle, and tasks that could be executed.
-/
namespace RG.Idle

variable {c : Cfg} {s s' : State}

/-! ### Invariant -/

/-- the worker is going to look into its own queue -/
def Busy (p : Pc) : Prop := p = .own ∨ ∃ t, p = .got t ∨ p = .exec t

structure Inv (c : Cfg) (s : State) : Prop where
  sig : ∀ w, s.q w ≠ [] → s.flag w = true ∨ s.main = .wake w ∨ Busy (s.pc w)
  qlt : ∀ w, s.q w ≠ [] → w < c.N
  all : ∀ t, t < s.n → s.ended t = true ∨ (∃ w, w < c.N ∧ t ∈ s.q w) ∨ ∃ w, w < c.N ∧ (s.pc w = .got t ∨ s.pc w = .exec t)

theorem Inv.init : Inv c init := ⟨fun _ h => absurd rfl h, fun _ h => absurd rfl h, fun t h => absurd h (Nat.not_lt_zero t)⟩

/-- a worker goes on without a task -/
theorem Inv.move (hi : Inv c s) {w : Nat} {p : Pc} {b : Nat → Bool} (h0 : ¬ ∃ t, s.pc w = .got t ∨ s.pc w = .exec t)
    (h1 : Busy (s.pc w) → Busy p ∨ s.q w = []) : Inv c { s with bit := b, pc := upd s.pc w p } where
  sig v hv := by
    by_cases e : v = w
    · subst e
      rcases hi.sig v hv with h | h | h
      · exact .inl h
      · exact .inr (.inl h)
      · rcases h1 h with h | h
        · exact .inr (.inr (by dsimp only; rw [upd_same]; exact h))
        · exact absurd h hv
    · rcases hi.sig v hv with h | h | h
      · exact .inl h
      · exact .inr (.inl h)
      · exact .inr (.inr (by dsimp only; rw [upd_ne _ _ e]; exact h))
  qlt := hi.qlt
  all t ht := by
    rcases hi.all t ht with h | h | ⟨v, hv, h⟩
    · exact .inl h
    · exact .inr (.inl h)
    · refine .inr (.inr ⟨v, hv, ?_⟩)
      by_cases e : v = w
      · subst e
        exact absurd ⟨t, h⟩ h0
      · dsimp only
        rw [upd_ne _ _ e]
        exact h

theorem Inv.pop (hi : Inv c s) {w v t : Nat} {p : Pc} (hw : w < c.N) (h : pop s w v t p = some s')
    (h0 : ¬ ∃ t, s.pc w = .got t ∨ s.pc w = .exec t) (h1 : Busy (s.pc w) → v = w) : Inv c s' := by
  unfold Idle.pop at h
  split at h
  · rename_i hm
    cases h
    refine ⟨fun u hu => ?_, fun u hu => ?_, fun u hu => ?_⟩
    · by_cases e : u = w
      · subst e
        exact .inr (.inr (.inr ⟨t, .inl (upd_same _ _ _)⟩))
      · have hq : s.q u ≠ [] := by
          intro he
          apply hu
          by_cases e' : u = v
          · subst e'
            dsimp only
            rw [upd_same, he]
            rfl
          · dsimp only
            rw [upd_ne _ _ e', he]
        rcases hi.sig u hq with h | h | h
        · exact .inl h
        · exact .inr (.inl h)
        · exact .inr (.inr (by dsimp only; rw [upd_ne _ _ e]; exact h))
    · by_cases e' : u = v
      · subst e'
        exact hi.qlt u (fun he => by rw [he] at hm; cases hm)
      · dsimp only at hu
        rw [upd_ne _ _ e'] at hu
        exact hi.qlt u hu
    · rcases hi.all u hu with h | ⟨x, hx, h⟩ | ⟨x, hx, h⟩
      · exact .inl h
      · by_cases e : u = t
        · subst e
          exact .inr (.inr ⟨w, hw, .inl (upd_same _ _ _)⟩)
        · refine .inr (.inl ⟨x, hx, ?_⟩)
          dsimp only
          by_cases e' : x = v
          · subst e'
            rw [upd_same]
            exact (List.mem_erase_of_ne e).2 h
          · rw [upd_ne _ _ e']
            exact h
      · refine .inr (.inr ⟨x, hx, ?_⟩)
        by_cases e : x = w
        · subst e
          exact absurd ⟨u, h⟩ h0
        · dsimp only
          rw [upd_ne _ _ e]
          exact h
  · split at h
    · rename_i hq
      cases h
      exact hi.move (b := s.bit) h0 (fun hb => .inr (by rw [← h1 hb]; exact hq))
    · cases h

theorem Inv.flagged (hi : Inv c s) {w : Nat} {m : Main} (hm : ∀ v, s.main = .wake v → v = w) : Inv c { s with flag := upd s.flag w true, main := m } where
  sig v hv := by
    by_cases e : v = w
    · subst e
      exact .inl (upd_same _ _ _)
    · rcases hi.sig v hv with h | h | h
      · exact .inl (by dsimp only; rw [upd_ne _ _ e]; exact h)
      · exact absurd (hm v h) e
      · exact .inr (.inr h)
  qlt := hi.qlt
  all := hi.all

theorem Inv.main (hi : Inv c s) {m : Main} (hm : ∀ v, s.main ≠ .wake v) : Inv c { s with main := m } where
  sig v hv := (hi.sig v hv).imp id fun h => .inr (h.resolve_left (hm v))
  qlt := hi.qlt
  all := hi.all

theorem Inv.step (hN : 0 < c.N) (hi : Inv c s) {a : Act} (h : next c s a = some s') : Inv c s' := by
  cases a with
  | submit =>
    simp only [next] at h
    split at h
    · rename_i hm
      cases h
      have hlt : s.n % c.N < c.N := Nat.mod_lt _ hN
      refine ⟨fun v hv => ?_, fun v hv => ?_, fun t ht => ?_⟩
      · by_cases e : v = s.n % c.N
        · exact .inr (.inl (by rw [e]))
        · dsimp only at hv ⊢
          rw [upd_ne _ _ e] at hv
          rcases hi.sig v hv with h | h | h
          · exact .inl h
          · rw [hm] at h; cases h
          · exact .inr (.inr h)
      · by_cases e : v = s.n % c.N
        · rw [e]; exact hlt
        · dsimp only at hv
          rw [upd_ne _ _ e] at hv
          exact hi.qlt v hv
      · by_cases e : t = s.n
        · subst e
          exact .inr (.inl ⟨s.n % c.N, hlt, by dsimp only; rw [upd_same]; exact List.mem_cons_self⟩)
        · have ht' : t < s.n := by dsimp only at ht; omega
          rcases hi.all t ht' with h | ⟨w, hw, h⟩ | h
          · exact .inl h
          · refine .inr (.inl ⟨w, hw, ?_⟩)
            dsimp only
            by_cases e : w = s.n % c.N
            · rw [e, upd_same, ← e]
              exact List.mem_cons_of_mem _ h
            · rw [upd_ne _ _ e]
              exact h
          · exact .inr (.inr h)
    · cases h
  | main l =>
    simp only [next, cont] at h
    split at h
    · cases h
    · rename_i w hm
      cases h
      exact hi.flagged fun v hv => by rw [hm] at hv; cases hv; rfl
    · rename_i hm
      split at h
      · cases h
        exact hi.main fun v hv => by rw [hm] at hv; cases hv
      · cases h
    · rename_i hm
      cases h
      exact hi.main fun v hv => by rw [hm] at hv; cases hv
    · rename_i v l hm
      split at h
      · cases h
        exact hi.flagged fun v hv => by rw [hm] at hv; cases hv
      · cases h
        exact hi.main fun v hv => by rw [hm] at hv; cases hv
  | work w t l =>
    simp only [next] at h
    split at h
    · rename_i hw
      unfold work at h
      split at h
      · rename_i hp
        cases h
        exact hi.move (by rw [hp]; rintro ⟨t, h | h⟩ <;> cases h) (by rw [hp]; rintro (h | ⟨t, h | h⟩) <;> cases h)
      · rename_i hp
        split at h
        · cases h
          refine ⟨fun v hv => ?_, hi.qlt, fun t ht => ?_⟩
          · by_cases e : v = w
            · subst e
              exact .inr (.inr (.inl (upd_same _ _ _)))
            · rcases hi.sig v hv with h | h | h
              · exact .inl (by dsimp only; rw [upd_ne _ _ e]; exact h)
              · exact .inr (.inl h)
              · exact .inr (.inr (by dsimp only; rw [upd_ne _ _ e]; exact h))
          · exact (hi.move (w := w) (p := .own) (b := s.bit) (by rw [hp]; rintro ⟨t, h | h⟩ <;> cases h) (fun _ => .inl (.inl rfl))).all t ht
        · cases h
      · rename_i hp
        exact hi.pop hw h (by rw [hp]; rintro ⟨t, h | h⟩ <;> cases h) fun _ => rfl
      · rename_i hp
        split at h
        · cases h
          exact hi.move (by rw [hp]; rintro ⟨t, h | h⟩ <;> cases h) (by rw [hp]; rintro (h | ⟨t, h | h⟩) <;> cases h)
        · cases h
      · rename_i hp
        cases h
        exact hi.move (b := s.bit) (by rw [hp]; rintro ⟨t, h | h⟩ <;> cases h) (by rw [hp]; rintro (h | ⟨t, h | h⟩) <;> cases h)
      · rename_i hp
        cases h
        exact hi.move (b := s.bit) (by rw [hp]; rintro ⟨t, h | h⟩ <;> cases h) (by rw [hp]; rintro (h | ⟨t, h | h⟩) <;> cases h)
      · rename_i hp
        exact hi.pop hw h (by rw [hp]; rintro ⟨t, h | h⟩ <;> cases h) (by rw [hp]; rintro (h | ⟨t, h | h⟩) <;> cases h)
      · rename_i hp
        exact hi.pop hw h (by rw [hp]; rintro ⟨t, h | h⟩ <;> cases h) fun _ => rfl
      · rename_i u hp
        cases h
        refine ⟨fun v hv => ?_, hi.qlt, fun t ht => ?_⟩
        · by_cases e : v = w
          · subst e
            exact .inr (.inr (.inr ⟨u, .inr (upd_same _ _ _)⟩))
          · rcases hi.sig v hv with h | h | h
            · exact .inl h
            · exact .inr (.inl h)
            · exact .inr (.inr (by dsimp only; rw [upd_ne _ _ e]; exact h))
        · rcases hi.all t ht with h | h | ⟨v, hv, h⟩
          · exact .inl h
          · exact .inr (.inl h)
          · refine .inr (.inr ⟨v, hv, ?_⟩)
            by_cases e : v = w
            · subst e
              dsimp only
              rw [hp] at h
              rw [upd_same]
              rcases h with h | h
              · cases h; exact .inr rfl
              · cases h
            · dsimp only
              rw [upd_ne _ _ e]
              exact h
      · cases h
    · cases h
  | finish w =>
    simp only [next] at h
    split at h
    · rename_i u hp
      split at h
      · cases h
        refine ⟨fun v hv => ?_, hi.qlt, fun t ht => ?_⟩
        · by_cases e : v = w
          · subst e
            exact .inr (.inr (.inl (upd_same _ _ _)))
          · rcases hi.sig v hv with h | h | h
            · exact .inl h
            · exact .inr (.inl h)
            · exact .inr (.inr (by dsimp only; rw [upd_ne _ _ e]; exact h))
        · by_cases eu : t = u
          · subst eu
            exact .inl (upd_same _ _ _)
          · rcases hi.all t ht with h | h | ⟨v, hv, h⟩
            · exact .inl (by dsimp only; rw [upd_ne _ _ eu]; exact h)
            · exact .inr (.inl h)
            · refine .inr (.inr ⟨v, hv, ?_⟩)
              by_cases e : v = w
              · subst e
                rw [hp] at h
                rcases h with h | h
                · cases h
                · cases h; exact absurd rfl eu
              · dsimp only
                rw [upd_ne _ _ e]
                exact h
      · cases h
    · cases h

theorem Reach.inv (hN : 0 < c.N) (h : Reach c s) : Inv c s := by
  induction h with
  | init => exact .init
  | step a _ hs ih => exact ih.step hN hs

theorem order_range : c.order (List.range c.N) = true := by
  simp [Cfg.order]

theorem pop_some (s : State) (w v : Nat) (p : Pc) : ∃ t s', pop s w v t p = some s' := by
  cases h : s.q v with
  | nil => exact ⟨0, _, by rw [pop, if_neg (by rw [h]; exact List.not_mem_nil), if_pos h]⟩
  | cons t l => exact ⟨t, _, by rw [pop, if_pos (by rw [h]; exact List.mem_cons_self)]⟩

/-- what it means that nothing happens any more -/
theorem rest_iff : Rest c s ↔ s.main = .out ∧ ∀ w, w < c.N → (∃ t, s.pc w = .exec t) ∨ (s.pc w = .waiting ∧ s.flag w = false) := by
  constructor
  · intro h
    refine ⟨?_, fun w hw => ?_⟩
    · have no : ∀ l s', cont c s l ≠ some s' := fun l s' he => by
        rcases h (.main l) s' he with h | ⟨w, h⟩ <;> cases h
      cases hm : s.main with
      | out => rfl
      | wake w => exact absurd (by rw [cont, hm]) (no [] _)
      | look => exact absurd (by rw [cont, hm]; exact if_pos order_range) (no (List.range c.N) _)
      | probe l =>
        cases l with
        | nil => exact absurd (by rw [cont, hm]) (no [] _)
        | cons v l =>
          cases hb : s.bit v with
          | true => exact absurd (by rw [cont, hm]; exact if_pos hb) (no [] _)
          | false => exact absurd (by rw [cont, hm]; exact if_neg (by rw [hb]; decide)) (no [] _)
    · have no : ∀ t l s', work c s w t l ≠ some s' := fun t l s' he => by
        rcases h (.work w t l) s' (by rw [next, if_pos hw]; exact he) with h | ⟨w, h⟩ <;> cases h
      cases hp : s.pc w with
      | exec t => exact .inl ⟨t, rfl⟩
      | waiting =>
        cases hf : s.flag w with
        | true => exact absurd (by rw [work, hp]; exact if_pos hf) (no 0 [] _)
        | false => exact .inr ⟨rfl, rfl⟩
      | top => exact absurd (by rw [work, hp]) (no 0 [] _)
      | own =>
        obtain ⟨t, s', e⟩ := pop_some s w w .avail
        exact absurd (by rw [work, hp]; exact e) (no t [] s')
      | avail => exact absurd (by rw [work, hp]; exact if_pos order_range) (no 0 (List.range c.N) _)
      | steal l =>
        cases l with
        | nil => exact absurd (by rw [work, hp]) (no 0 [] _)
        | cons v l => exact absurd (by rw [work, hp]) (no 0 [] _)
      | peek v l =>
        obtain ⟨t, s', e⟩ := pop_some s w v (.again l)
        exact absurd (by rw [work, hp]; exact e) (no t [] s')
      | again l =>
        obtain ⟨t, s', e⟩ := pop_some s w w (.steal l)
        exact absurd (by rw [work, hp]; exact e) (no t [] s')
      | got t => exact absurd (by rw [work, hp]) (no 0 [] _)
  · rintro ⟨h1, h2⟩ a s' he
    cases a with
    | submit => exact .inl rfl
    | finish w => exact .inr ⟨w, rfl⟩
    | main l =>
      rw [next, cont, h1] at he
      cases he
    | work w t l =>
      rw [next] at he
      split at he
      · rename_i hw
        rcases h2 w hw with ⟨t, h⟩ | ⟨h, hf⟩
        · rw [work, h] at he
          cases he
        · rw [work, h] at he
          simp [hf] at he
      · cases he

/-! ### What is guaranteed -/

/-- C102: When nothing happens any more unless a body ends or the user submits something, then each worker executes a body, or is asleep with
an empty queue; each task has been executed, is being executed, or is in the queue of a worker that executes a body. So no task is left when no body
is running.
Partial: tasks that wait behind a body although another worker is idle, see `C102_idle_worker_false`. -/
theorem C102_left_only_behind_bodies_partial (hN : 0 < c.N) (hr : Reach c s) (h : Rest c s) :
    (∀ w, w < c.N → (∃ t, s.pc w = .exec t) ∨ (s.pc w = .waiting ∧ s.flag w = false ∧ s.q w = [])) ∧
    (∀ t, t < s.n → s.ended t = true ∨ Running c s t ∨ ∃ w u, w < c.N ∧ t ∈ s.q w ∧ s.pc w = .exec u) ∧
    ((∀ t, ¬ Running c s t) → ∀ t, t < s.n → s.ended t = true) := by
  obtain ⟨h1, h2⟩ := rest_iff.1 h
  have hi := hr.inv hN
  have hq : ∀ w, s.q w ≠ [] → w < c.N ∧ ∃ t, s.pc w = .exec t := by
    intro w hw
    refine ⟨hi.qlt w hw, ?_⟩
    rcases h2 w (hi.qlt w hw) with h | ⟨h, hf⟩
    · exact h
    · rcases hi.sig w hw with h3 | h3 | h3
      · rw [hf] at h3; cases h3
      · rw [h1] at h3; cases h3
      · rw [h] at h3
        rcases h3 with h3 | ⟨t, h3 | h3⟩ <;> cases h3
  have h4 : ∀ t, t < s.n → s.ended t = true ∨ Running c s t ∨ ∃ w u, w < c.N ∧ t ∈ s.q w ∧ s.pc w = .exec u := by
    intro t ht
    rcases hi.all t ht with h | ⟨w, hw, h⟩ | ⟨w, hw, h⟩
    · exact .inl h
    · obtain ⟨-, u, hu⟩ := hq w (fun e => by rw [e] at h; cases h)
      exact .inr (.inr ⟨w, u, hw, h, hu⟩)
    · rcases h with h | h
      · rcases h2 w hw with ⟨u, h'⟩ | ⟨h', -⟩ <;> rw [h] at h' <;> cases h'
      · exact .inr (.inl ⟨w, hw, h⟩)
  refine ⟨fun w hw => ?_, h4, fun hno t ht => ?_⟩
  · rcases h2 w hw with h | ⟨h, hf⟩
    · exact .inl h
    · refine .inr ⟨h, hf, ?_⟩
      refine Decidable.byContradiction fun hne => ?_
      obtain ⟨-, t, ht⟩ := hq w hne
      rw [h] at ht
      cases ht
  · rcases h4 t ht with h | h | ⟨w, u, hw, -, hu⟩
    · exact h
    · exact absurd h (hno t)
    · exact absurd ⟨w, hw, hu⟩ (hno u)

/-- weight of a worker -/
def rank (N : Nat) : Pc → Nat
  | .top => 1
  | .waiting => 0
  | .own => 4 + 3 * N
  | .avail => 3 + 3 * N
  | .steal l => 2 + 3 * l.length
  | .peek _ l => 4 + 3 * l.length
  | .again l => 3 + 3 * l.length
  | .got _ => 1
  | .exec _ => 0

def big (N : Nat) : Nat := 5 + 3 * N

def mrank (N : Nat) : Main → Nat
  | .out => 0
  | .wake _ => 2 * big N + 3 + N
  | .look => big N + 2 + N
  | .probe l => big N + 1 + l.length

def weight (c : Cfg) (s : State) (w : Nat) : Nat := rank c.N (s.pc w) + if s.flag w then big c.N else 0

def measure (c : Cfg) (s : State) : Nat := sumTo c.N (weight c s) + mrank c.N s.main

theorem measure_work {w : Nat} (hw : w < c.N) (hm : s'.main = s.main) (ho : ∀ v, v ≠ w → weight c s' v = weight c s v)
    (h : weight c s' w < weight c s w) : measure c s' < measure c s := by
  have := sumTo_change (f := weight c s) (g := weight c s') hw fun v _ hv => ho v hv
  unfold measure
  rw [hm]
  omega

theorem measure_pc {w : Nat} (hw : w < c.N) {p : Pc} {b : Nat → Bool} {q : Nat → List Nat} (h : rank c.N p < rank c.N (s.pc w)) :
    measure c { s with q := q, bit := b, pc := upd s.pc w p } < measure c s := by
  refine measure_work hw rfl (fun v hv => ?_) ?_
  · simp only [weight, upd_ne _ _ hv]
  · simp only [weight, upd_same]
    omega

theorem measure_pop {w v t : Nat} (hw : w < c.N) {p : Pc} (h : pop s w v t p = some s') (h1 : rank c.N p < rank c.N (s.pc w))
    (h2 : 1 < rank c.N (s.pc w)) : measure c s' < measure c s := by
  unfold pop at h
  split at h
  · cases h
    exact measure_pc (b := s.bit) hw h2
  · split at h
    · cases h
      exact measure_pc (b := s.bit) (q := s.q) hw h1
    · cases h

theorem measure_flag {w : Nat} {m : Main} (h : big c.N + mrank c.N m < mrank c.N s.main) :
    measure c { s with flag := upd s.flag w true, main := m } < measure c s := by
  have : sumTo c.N (weight c { s with flag := upd s.flag w true, main := m }) ≤ sumTo c.N (weight c s) + big c.N := by
    by_cases hw : w < c.N
    · have h1 := sumTo_change (f := weight c s) (g := weight c { s with flag := upd s.flag w true, main := m }) hw fun v _ hv => by
        simp only [weight, upd_ne _ _ hv]
      have h2 : weight c { s with flag := upd s.flag w true, main := m } w ≤ weight c s w + big c.N := by
        simp only [weight, upd_same, if_true]
        omega
      omega
    · refine Nat.le_trans (Nat.le_of_eq (sumTo_congr fun v hv => ?_)) (Nat.le_add_right _ _)
      simp only [weight, upd_ne _ _ (show v ≠ w by omega)]
  unfold measure
  dsimp only
  omega

theorem measure_lt {a : Act} (h : next c s a = some s') (h1 : a ≠ .submit) (h2 : ∀ w, a ≠ .finish w) : measure c s' < measure c s := by
  cases a with
  | submit => exact absurd rfl h1
  | finish w => exact absurd rfl (h2 w)
  | main l =>
    simp only [next, cont] at h
    split at h
    · cases h
    · rename_i w hm
      cases h
      refine measure_flag ?_
      rw [hm]
      cases c.hack <;> simp [mrank] <;> omega
    · rename_i hm
      split at h
      · rename_i ho
        cases h
        simp only [Cfg.order, Bool.and_eq_true, beq_iff_eq] at ho
        simp only [measure, hm, mrank, ho.1]
        exact Nat.add_lt_add_left (by omega) _
      · cases h
    · rename_i hm
      cases h
      simp only [measure, hm, mrank]
      exact Nat.add_lt_add_left (by omega) _
    · rename_i v l hm
      split at h
      · cases h
        refine measure_flag ?_
        rw [hm]
        simp only [mrank, List.length_cons]
        omega
      · cases h
        simp only [measure, hm, mrank, List.length_cons]
        exact Nat.add_lt_add_left (by omega) _
  | work w t l =>
    simp only [next] at h
    split at h
    · rename_i hw
      unfold work at h
      split at h
      · rename_i hp
        cases h
        exact measure_pc (q := s.q) hw (by rw [hp]; simp [rank])
      · rename_i hp
        split at h
        · rename_i hf
          cases h
          refine measure_work hw rfl (fun v hv => ?_) ?_
          · simp only [weight, upd_ne _ _ hv]
          · simp only [weight, upd_same, hp, hf, rank, big]
            simp
        · cases h
      · rename_i hp
        exact measure_pop hw h (by rw [hp]; simp [rank]) (by rw [hp]; simp [rank]; omega)
      · rename_i hp
        split at h
        · rename_i ho
          cases h
          simp only [Cfg.order, Bool.and_eq_true, beq_iff_eq] at ho
          exact measure_pc (q := s.q) hw (by rw [hp]; simp only [rank, ho.1]; omega)
        · cases h
      · rename_i hp
        cases h
        exact measure_pc (q := s.q) (b := s.bit) hw (by rw [hp]; simp [rank])
      · rename_i v l hp
        cases h
        refine measure_pc (q := s.q) (b := s.bit) hw ?_
        rw [hp]
        split <;> simp only [rank, List.length_cons] <;> omega
      · rename_i v l hp
        exact measure_pop hw h (by rw [hp]; simp [rank]) (by rw [hp]; simp only [rank]; omega)
      · rename_i l hp
        exact measure_pop hw h (by rw [hp]; simp [rank]) (by rw [hp]; simp only [rank]; omega)
      · rename_i u hp
        cases h
        exact measure_pc (q := s.q) hw (by rw [hp]; simp [rank])
      · cases h
    · cases h

/-- C102: This state is always reached: workers do not search for ever, unless bodies end or tasks are submitted again and again. -/
theorem C102_search_ends : ¬ ∃ f : Nat → State, ∀ i, ∃ a, next c (f i) a = some (f (i + 1)) ∧ a ≠ .submit ∧ ∀ w, a ≠ .finish w := by
  rintro ⟨f, hf⟩
  have h : ∀ i, measure c (f i) + i ≤ measure c (f 0) := by
    intro i
    induction i with
    | zero => exact Nat.le_refl _
    | succ i ih =>
      obtain ⟨a, h1, h2, h3⟩ := hf i
      have := measure_lt h1 h2 h3
      omega
  have := h (measure c (f 0) + 1)
  omega

/-! ### test/scheduler.cpp -/

/-- at most one task per worker has been submitted, and no body has ended -/
structure Fresh (c : Cfg) (s : State) : Prop where
  later : ∀ w, s.n ≤ w → s.q w = [] ∧ s.flag w = false ∧ (s.pc w = .top ∨ s.pc w = .waiting)
  own : ∀ w, w < s.n → (s.q w = [w] ∧ (s.pc w = .top ∨ s.pc w = .waiting ∨ s.pc w = .own)) ∨
    (s.q w = [] ∧ (s.pc w = .got w ∨ s.pc w = .exec w))
  main : s.main = .out ∨ ∃ w, w < s.n ∧ s.main = .wake w

theorem next_n {a : Act} (h : next c s a = some s') : s.n ≤ s'.n := by
  cases a with
  | submit =>
    simp only [next] at h
    split at h
    · cases h; exact Nat.le_succ _
    · cases h
  | main l =>
    simp only [next, cont] at h
    repeat' split at h
    all_goals first | cases h | skip
    all_goals exact Nat.le_refl _
  | work w t l =>
    simp only [next, work, pop] at h
    repeat' split at h
    all_goals first | cases h | skip
    all_goals exact Nat.le_refl _
  | finish w =>
    simp only [next] at h
    repeat' split at h
    all_goals first | cases h | skip
    all_goals exact Nat.le_refl _

theorem next_ended {a : Act} (h : next c s a = some s') (t : Nat) (ht : s.ended t = true) : s'.ended t = true := by
  cases a with
  | submit =>
    simp only [next] at h
    split at h
    · cases h; exact ht
    · cases h
  | main l =>
    simp only [next, cont] at h
    repeat' split at h
    all_goals first | cases h | skip
    all_goals exact ht
  | work w t l =>
    simp only [next, work, pop] at h
    repeat' split at h
    all_goals first | cases h | skip
    all_goals exact ht
  | finish w =>
    simp only [next] at h
    split at h
    · split at h
      · cases h
        rename_i u _ _
        by_cases e : t = u
        · rw [e]; exact upd_same _ _ _
        · dsimp only
          rw [upd_ne _ _ e]
          exact ht
      · cases h
    · cases h

theorem Fresh.move (hf : Fresh c s) {w : Nat} {p : Pc} {b : Nat → Bool} {g : Nat → Bool} {q : Nat → List Nat}
    (hq : ∀ v, v ≠ w → q v = s.q v) (hg : ∀ v, g v = true → s.flag v = true)
    (h1 : s.n ≤ w → q w = [] ∧ (p = .top ∨ p = .waiting))
    (h2 : w < s.n → (q w = [w] ∧ (p = .top ∨ p = .waiting ∨ p = .own)) ∨ (q w = [] ∧ (p = .got w ∨ p = .exec w))) :
    Fresh c { s with q := q, bit := b, flag := g, pc := upd s.pc w p } where
  later v hv := by
    have hgv : g v = false := by
      cases e : g v with
      | false => rfl
      | true => exact absurd (hg v e) (by rw [(hf.later v hv).2.1]; decide)
    by_cases e : v = w
    · subst e
      dsimp only
      rw [upd_same]
      exact ⟨(h1 hv).1, hgv, (h1 hv).2⟩
    · dsimp only
      rw [upd_ne _ _ e, hq v e]
      exact ⟨(hf.later v hv).1, hgv, (hf.later v hv).2.2⟩
  own v hv := by
    by_cases e : v = w
    · subst e
      dsimp only
      rw [upd_same]
      exact h2 hv
    · dsimp only
      rw [upd_ne _ _ e, hq v e]
      exact hf.own v hv
  main := hf.main

theorem Fresh.step (hh : c.hack = false) (hf : Fresh c s) {a : Act} (h : next c s a = some s') (hn : s'.n ≤ c.N)
    (he : ∀ t, s'.ended t = false) : Fresh c s' := by
  cases a with
  | submit =>
    simp only [next] at h
    split at h
    · cases h
      have hmod : s.n % c.N = s.n := Nat.mod_eq_of_lt hn
      rw [hmod]
      refine ⟨fun w hw => ?_, fun w hw => ?_, .inr ⟨s.n, Nat.lt_succ_self _, rfl⟩⟩
      · dsimp only at hw ⊢
        rw [upd_ne _ _ (show w ≠ s.n by omega)]
        exact hf.later w (by omega)
      · dsimp only at hw ⊢
        by_cases e : w = s.n
        · subst e
          rw [upd_same]
          obtain ⟨h1, -, h2⟩ := hf.later s.n (Nat.le_refl _)
          exact .inl ⟨by rw [h1], h2.imp id .inl⟩
        · rw [upd_ne _ _ e]
          exact hf.own w (by omega)
    · cases h
  | main l =>
    simp only [next, cont] at h
    rcases hf.main with hm | ⟨w, hw, hm⟩
    · rw [hm] at h; cases h
    · rw [hm] at h
      cases h
      refine ⟨fun v hv => ?_, hf.own, .inl (by simp [hh])⟩
      dsimp only at hv ⊢
      rw [upd_ne _ _ (show v ≠ w by omega)]
      exact hf.later v hv
  | finish w =>
    simp only [next] at h
    split at h
    · split at h
      · cases h
        rename_i u _ _
        have := he u
        dsimp only at this
        rw [upd_same] at this
        cases this
      · cases h
    · cases h
  | work w t l =>
    simp only [next] at h
    split at h
    · rename_i hw
      rcases Nat.lt_or_ge w s.n with hlt | hge
      · rcases hf.own w hlt with ⟨hq, hp | hp | hp⟩ | ⟨hq, hp | hp⟩
        · rw [work, hp] at h
          cases h
          exact hf.move (q := s.q) (g := s.flag) (fun _ _ => rfl) (fun _ h => h) (fun h => absurd h (by omega)) fun _ => .inl ⟨hq, .inr (.inl rfl)⟩
        · rw [work, hp] at h
          dsimp only at h
          split at h
          · cases h
            refine hf.move (q := s.q) (b := s.bit) (fun _ _ => rfl) (fun v hv => ?_) (fun h => absurd h (by omega)) fun _ => .inl ⟨hq, .inr (.inr rfl)⟩
            by_cases e : v = w
            · subst e
              rw [upd_same] at hv
              cases hv
            · rw [upd_ne _ _ e] at hv
              exact hv
          · cases h
        · rw [work, hp] at h
          dsimp only [pop] at h
          rw [hq] at h
          split at h
          · rename_i ht
            have ht : t = w := by simpa using ht
            subst ht
            cases h
            refine hf.move (b := s.bit) (g := s.flag) (fun v hv => upd_ne _ _ hv) (fun _ h => h) (fun h => absurd h (by omega)) fun _ =>
              .inr ⟨?_, .inl rfl⟩
            rw [upd_same]
            simp
          · simp at h
        · rw [work, hp] at h
          cases h
          exact hf.move (q := s.q) (g := s.flag) (fun _ _ => rfl) (fun _ h => h) (fun h => absurd h (by omega)) fun _ => .inr ⟨hq, .inr rfl⟩
        · rw [work, hp] at h
          cases h
      · obtain ⟨hq, hg, hp | hp⟩ := hf.later w hge
        · rw [work, hp] at h
          cases h
          exact hf.move (q := s.q) (g := s.flag) (fun _ _ => rfl) (fun _ h => h) (fun _ => ⟨hq, .inr rfl⟩) fun h => absurd h (by omega)
        · rw [work, hp] at h
          simp [hg] at h
    · cases h

theorem Reach.fresh (hh : c.hack = false) (h : Reach c s) (hn : s.n ≤ c.N) (he : ∀ t, s.ended t = false) : Fresh c s := by
  induction h with
  | init => exact ⟨fun _ _ => ⟨rfl, rfl, .inl rfl⟩, fun w hw => absurd hw (Nat.not_lt_zero w), .inl rfl⟩
  | step a h hs ih =>
    exact (ih (Nat.le_trans (next_n hs) hn) fun t =>
      Bool.eq_false_iff.2 fun e => absurd (next_ended hs t e) (by rw [he t]; decide)).step hh hs hn he

/-- C102: test/scheduler.cpp: if one task for each worker is submitted (or fewer) and no body ends, each of them is executed, by a worker of its
own: `count` reaches the number of workers. -/
theorem C102_one_task_per_worker (hh : c.hack = false) (hr : Reach c s) (hn : s.n ≤ c.N) (he : ∀ t, s.ended t = false)
    (h : Rest c s) : ∀ t, t < s.n → s.pc t = .exec t := by
  intro t ht
  have hf := hr.fresh hh hn he
  obtain ⟨-, h2⟩ := rest_iff.1 h
  have h3 := C102_left_only_behind_bodies_partial (by omega) hr h
  rcases hf.own t ht with ⟨hq, -⟩ | ⟨-, hp | hp⟩
  · rcases h3.1 t (by omega) with ⟨u, hu⟩ | ⟨-, -, h4⟩
    · rcases hf.own t ht with ⟨-, hp | hp | hp⟩ | ⟨hq', -⟩
      · rw [hp] at hu; cases hu
      · rw [hp] at hu; cases hu
      · rw [hp] at hu; cases hu
      · rw [hq'] at hq; cases hq
    · rw [h4] at hq; cases hq
  · rcases h2 t (by omega) with ⟨u, hu⟩ | ⟨hu, -⟩ <;> rw [hp] at hu <;> cases hu
  · exact hp

/-! ### What is not guaranteed -/

theorem run_reach {l : List Act} (hr : Reach c s) (h : run c s l = some s') : Reach c s' := by
  induction l generalizing s with
  | nil => cases h; exact hr
  | cons a l ih =>
    simp only [run] at h
    cases e : next c s a with
    | none => rw [e] at h; cases h
    | some s1 =>
      rw [e] at h
      exact ih (.step a hr e) h

/-- worker `w` wakes up and executes the task `t` of its own queue -/
def take (w t : Nat) : List Act := [.work w 0 [], .work w t [], .work w 0 []]

/-- worker `w` finds nothing and falls asleep, if the workers in `l` are busy -/
def giveUp (N w : Nat) (l : List Nat) : List Act :=
  [.work w 0 [], .work w 0 (List.range N)] ++
    (List.range N).flatMap (fun v => if v ∈ l then [.work w 0 [], .work w 0 [], .work w 0 []] else [.work w 0 []]) ++
    [.work w 0 [], .work w 0 []]

def idleActs : List Act :=
  [.work 0 0 [], .work 1 0 [], .submit, .main []] ++ take 0 0 ++ [.submit, .main []] ++ take 1 1 ++
    [.finish 1] ++ giveUp 2 1 [0] ++ [.submit, .main []]

/-- C102: Two workers; the first task is long. The second one has ended, and its worker has fallen asleep. The third task is put
into the queue of the first worker and is not executed before the first task ends, although it conflicts with nothing and the other worker is idle. -/
theorem C102_idle_worker_false : ∃ s, Reach ⟨2, false⟩ s ∧ Rest ⟨2, false⟩ s ∧ s.n = 3 ∧ s.pc 0 = .exec 0 ∧ s.pc 1 = .waiting ∧
    s.q 0 = [2] ∧ s.ended 1 = true ∧ s.ended 2 = false := by
  have h : ((run ⟨2, false⟩ init idleActs).map fun s => (s.n, [s.pc 0, s.pc 1], s.q 0, [s.ended 1, s.ended 2, s.flag 1], s.main)) =
      some (3, [.exec 0, .waiting], [2], [true, false, false], .out) := by decide +kernel
  cases e : run ⟨2, false⟩ init idleActs with
  | none => rw [e] at h; cases h
  | some s =>
    rw [e] at h
    simp only [Option.map_some, Option.some.injEq, Prod.mk.injEq, List.cons.injEq, and_true] at h
    obtain ⟨h1, ⟨h2, h3⟩, h4, ⟨h5, h6, h8⟩, h7⟩ := h
    refine ⟨s, run_reach .init e, rest_iff.2 ⟨h7, fun w hw => ?_⟩, h1, h2, h3, h4, h5, h6⟩
    match w, hw with
    | 0, _ => exact .inl ⟨0, h2⟩
    | 1, _ => exact .inr ⟨h3, h8⟩

def hackActs : List Act :=
  let o := List.range 4
  let sub (k : Nat) : List Act := [.submit, .main [], .main o] ++ List.replicate k (.main [])
  [.work 0 0 [], .work 1 0 [], .work 2 0 [], .work 3 0 []] ++ sub 1 ++ take 0 0 ++ sub 2 ++ take 1 1 ++
    sub 3 ++ take 2 2 ++ [.finish 2] ++ giveUp 4 2 [0, 1] ++
    sub 3 ++ [.work 2 0 []] ++ giveUp 4 2 [0, 1] ++ take 3 3 ++ [.finish 3] ++ giveUp 4 3 [0, 1] ++
    sub 3 ++ sub 3 ++ [.work 2 0 [], .work 2 0 [], .work 2 0 o, .work 2 0 [], .work 2 4 [], .work 2 0 []]

/-- C102: The option `REDGRAPES_EMPLACE_NOTIFY_NEXT`, which is meant for this, is not enough: four workers, two of which execute long tasks. Two more tasks are
put into their queues; the same idle worker is notified of both, takes the first one, and the second one waits, although the fourth worker is idle. -/
theorem C102_notify_next_false : ∃ s, Reach ⟨4, true⟩ s ∧ Rest ⟨4, true⟩ s ∧ s.n = 6 ∧ s.pc 0 = .exec 0 ∧ s.pc 1 = .exec 1 ∧
    s.pc 2 = .exec 4 ∧ s.pc 3 = .waiting ∧ s.q 1 = [5] := by
  have h : ((run ⟨4, true⟩ init hackActs).map fun s => (s.n, [s.pc 0, s.pc 1, s.pc 2, s.pc 3], s.q 1, s.flag 3, s.main)) =
      some (6, [.exec 0, .exec 1, .exec 4, .waiting], [5], false, .out) := by decide +kernel
  cases e : run ⟨4, true⟩ init hackActs with
  | none => rw [e] at h; cases h
  | some s =>
    rw [e] at h
    simp only [Option.map_some, Option.some.injEq, Prod.mk.injEq, List.cons.injEq, and_true] at h
    obtain ⟨h1, ⟨h2, h3, h4, h5⟩, h6, h8, h7⟩ := h
    refine ⟨s, run_reach .init e, rest_iff.2 ⟨h7, fun w hw => ?_⟩, h1, h2, h3, h4, h5, h6⟩
    match w, hw with
    | 0, _ => exact .inl ⟨0, h2⟩
    | 1, _ => exact .inl ⟨1, h3⟩
    | 2, _ => exact .inl ⟨4, h4⟩
    | 3, _ => exact .inr ⟨h5, h8⟩

/-! ### Examples -/

/-- `Reach` and `Rest`, and a task that is left behind a body -/
example : ∃ s, Reach ⟨2, false⟩ s ∧ Rest ⟨2, false⟩ s ∧ 2 < s.n ∧ ∃ w u, 2 ∈ s.q w ∧ s.pc w = .exec u := by
  obtain ⟨s, h1, h2, h3, h4, -, h5, -⟩ := C102_idle_worker_false
  exact ⟨s, h1, h2, by omega, 0, 0, by rw [h5]; decide, h4⟩

/-- two workers, two tasks: both are being executed -/
example : ∃ s, Reach ⟨2, false⟩ s ∧ Rest ⟨2, false⟩ s ∧ s.n = 2 ∧ (∀ t, t < 2 → s.ended t = false) ∧ s.pc 0 = .exec 0 ∧ s.pc 1 = .exec 1 := by
  let l : List Act := [.work 0 0 [], .submit, .main [], .submit, .main [], .work 1 0 []] ++ take 1 1 ++ take 0 0
  have h : ((run ⟨2, false⟩ init l).map fun s => (s.n, [s.pc 0, s.pc 1], [s.ended 0, s.ended 1], s.main)) =
      some (2, [.exec 0, .exec 1], [false, false], .out) := by decide +kernel
  cases e : run ⟨2, false⟩ init l with
  | none => rw [e] at h; cases h
  | some s =>
    rw [e] at h
    simp only [Option.map_some, Option.some.injEq, Prod.mk.injEq, List.cons.injEq, and_true] at h
    obtain ⟨h1, ⟨h2, h3⟩, ⟨h4, h5⟩, h6⟩ := h
    refine ⟨s, run_reach .init e, rest_iff.2 ⟨h6, fun w hw => ?_⟩, h1, fun t ht => ?_, h2, h3⟩
    · match w, hw with
      | 0, _ => exact .inl ⟨0, h2⟩
      | 1, _ => exact .inl ⟨1, h3⟩
    · match t, ht with
      | 0, _ => exact h4
      | 1, _ => exact h5

/-- a step that is no `submit` and no `finish` -/
example : (next ⟨2, false⟩ init (.work 0 0 [])).isSome = true := by decide

end RG.Idle
