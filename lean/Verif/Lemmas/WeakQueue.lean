import Verif.Model.WeakQueue
import Verif.Lemmas.TaskQueue4
/-
Lemmas for C92: the task queue with the memory orders of the code.
-/
set_option linter.unusedVariables false
namespace RG.WQ
open RG.MQ

theorem VC.le_refl (v : VC) : v.le v := fun _ => Nat.le_refl _
theorem VC.le_trans {u v w : VC} (h1 : u.le v) (h2 : v.le w) : u.le w := fun t => Nat.le_trans (h1 t) (h2 t)
theorem VC.bot_le (v : VC) : VC.bot.le v := fun _ => Nat.zero_le _
theorem VC.le_join_left (v w : VC) : v.le (v.join w) := fun _ => Nat.le_max_left _ _
theorem VC.le_join_right (v w : VC) : w.le (v.join w) := fun _ => Nat.le_max_right _ _
theorem VC.join_le {u v w : VC} (h1 : u.le w) (h2 : v.le w) : (u.join v).le w := fun t => Nat.max_le.2 ⟨h1 t, h2 t⟩

theorem CMem.le_now (c : CMem) (t : Tid) : (c.vw t).le (c.now t) := by
  intro t'
  unfold CMem.now
  by_cases e : t' = t
  · subst e; rw [upd_same]; exact Nat.le_succ _
  · rw [upd_ne _ _ e]

theorem CMem.now_self (c : CMem) (t : Tid) : c.now t t = c.vw t t + 1 := by
  unfold CMem.now; rw [upd_same]

theorem le_upd_vw {c : CMem} {t : Tid} {v : VC} (h : (c.now t).le v) (t' : Tid) : (c.vw t').le (upd c.vw t v t') := by
  by_cases e : t' = t
  · subst e; rw [upd_same]; exact VC.le_trans (c.le_now t') h
  · rw [upd_ne _ _ e]; exact VC.le_refl _

theorem sees_mem {v : VC} {l : List Msg} {m : Msg} (h : Sees v l m) : m ∈ l := by
  obtain ⟨a, b, rfl, _⟩ := h
  exact List.mem_append.2 (.inr (List.mem_cons_self ..))

/-- Who knows the newest value reads it. -/
theorem sees_top {v : VC} {l : List Msg} {m m0 : Msg} (h : Sees v (m0 :: l) m) (h0 : m0.time ≤ v m0.tid) : m = m0 := by
  obtain ⟨a, b, e, hn⟩ := h
  cases a with
  | nil => injection e with e _; exact e.symm
  | cons x a =>
    injection e with e _
    subst e
    have := hn m0 (List.mem_cons_self ..)
    omega

/-- A step does not take knowledge away. -/
theorem SStep.vw_le {B p : Nat} {fix : Bool} {s s' : State} (hs : SStep B fix p s s') (t : Tid) : (s.c.vw t).le (s'.c.vw t) := by
  cases hs <;> first
    | exact le_upd_vw (VC.le_refl _) t
    | exact le_upd_vw (VC.le_join_left _ _) t
    | skip
  all_goals
    cases fix <;> first
      | exact le_upd_vw (VC.le_refl _) t
      | exact le_upd_vw (VC.le_join_left _ _) t

/-- whose it is -/
def Loc.sub : Loc → Option Nat
  | .tail p | .head p | .opt p | .over p | .cur p | .htl p _ | .key p _ | .val p _ => some p
  | .done _ => none

def Tid.sub : Tid → Nat
  | .prod p => p
  | .cons p _ => p

theorem newHdr_other {hist p h T nb nEnt time g} {l : Loc} {q : Nat} (hq : q ≠ p) (hl : l.sub = some q) : newHdr hist p h T nb nEnt time g l = hist l := by
  cases l <;> simp only [Loc.sub, Option.some.injEq] at hl <;> simp only [newHdr] <;> try rfl
  all_goals
    subst hl
    rw [if_neg (fun h => hq h.1)]

/-- The objects of other sub-queues are not touched. -/
theorem SStep.hist_other {B p : Nat} {fix : Bool} {s s' : State} (hs : SStep B fix p s s') {q : Nat} (hq : q ≠ p) {l : Loc} (hl : l.sub = some q) :
    s'.c.hist l = s.c.hist l := by
  have key : ∀ l0 v, l0.sub = some p ∨ l0.sub = none → upd s.c.hist l0 v l = s.c.hist l := by
    intro l0 v h0
    rw [upd_ne]
    rintro rfl
    rw [hl] at h0
    rcases h0 with h0 | h0
    · injection h0 with h0; exact hq h0
    · cases h0
  cases hs <;> try rfl
  case setEmpty =>
    cases fix
    · exact key _ _ (.inr rfl)
    · exact key _ _ (.inr rfl)
  case resetEmpty => exact key _ _ (.inr rfl)
  case grow =>
    have h1 : l ≠ .cur p := by rintro rfl; simp only [Loc.sub, Option.some.injEq] at hl; exact hq hl.symm
    simp only [State.go, CMem.grow, CMem.storeRel]
    rw [upd_ne _ _ h1]
    exact newHdr_other hq hl
  all_goals exact key _ _ (.inl rfl)

theorem SStep.subs_other {B p : Nat} {fix : Bool} {s s' : State} (hs : SStep B fix p s s') {q : Nat} (hq : q ≠ p) : s'.subs q = s.subs q := by
  cases hs <;> exact upd_ne _ _ hq

theorem SStep.ghost_other {B p : Nat} {fix : Bool} {s s' : State} (hs : SStep B fix p s s') {q : Nat} (hq : q ≠ p) :
    s'.hdrW q = s.hdrW q ∧ s'.tv q = s.tv q ∧ s'.pushV q = s.pushV q ∧ s'.pubV q = s.pubV q ∧ s'.keyT q = s.keyT q ∧ s'.seen q = s.seen q := by
  cases hs <;> refine ⟨?_, ?_, ?_, ?_, ?_, ?_⟩ <;> first | rfl | exact upd_ne _ _ hq

def State.q (s : State) : MQ.State := ⟨s.subs, s.mem⟩

/-! ### What the values of the producer's objects carry -/

structure PInv (B p : Nat) (s : State) : Prop where
  tailH : ∀ m, m ∈ s.c.hist (.tail p) → m.tid = .prod p ∧ m.time ≤ s.c.vw (.prod p) (.prod p) ∧
    ∃ v, m.val = some v ∧ v ≤ (s.subs p).tail ∧ ∀ i, i < v → (s.pubV p i).le m.view
  pubLe : ∀ i, i < (s.subs p).tail → (s.pubV p i).le (s.c.vw (.prod p)) ∧ (s.pushV p i).le (s.pubV p i)
  curH : ∀ l1 m l2, s.c.hist (.cur p) = l1 ++ m :: l2 → m.tid = .prod p ∧ m.time ≤ s.c.vw (.prod p) (.prod p) ∧
    ∃ h, m.val = some h ∧ h ≤ (s.subs p).cur ∧ (l1 = [] → h = (s.subs p).cur) ∧ s.hdrW p h ≤ m.view (.prod p) ∧
      ∀ i, i < (s.subs p).tail → ((s.subs p).hdrs h).nb ≤ i / B → ∃ m', m' ∈ l1 ∧ m'.tid = .prod p ∧ m'.time ≤ s.pubV p i (.prod p)
  htlH : ∀ h, h ≤ (s.subs p).cur → ∀ l1 m l2, s.c.hist (.htl p h) = l1 ++ m :: l2 → m.tid = .prod p ∧ m.time ≤ s.c.vw (.prod p) (.prod p) ∧
    m.no ≤ ((s.subs p).hdrs h).nb ∧ (l1 = [] → m.no = ((s.subs p).hdrs h).nb) ∧ (∃ T, m.val = some T) ∧
    (0 < m.no → m.val = some ((((s.subs p).hdrs h).base + (m.no - 1)) % ((s.subs p).hdrs h).capacity) ∧
      (s.keyT p (m.no - 1) ≤ m.view (.prod p) ∨ s.keyT p (m.no - 1) ≤ s.hdrW p h)) ∧
    ∀ i, i < (s.subs p).tail → i / B < ((s.subs p).hdrs h).nb → m.no ≤ i / B → ∃ m', m' ∈ l1 ∧ m'.tid = .prod p ∧ m'.time ≤ s.pubV p i (.prod p)
  keyTop : ∀ e, ∃ m l, s.c.hist (.key p e) = m :: l ∧ m.val = some ((s.subs p).entries e).key
  keyOk : ∀ n, n < ((s.subs p).hdrs (s.subs p).cur).nb → ¬Dead B (s.subs p).fin n →
    ∃ m l, s.c.hist (.key p ((s.subs p).ent n)) = m :: l ∧ m.tid = .prod p ∧ m.time ≤ s.keyT p n
  valTop : ∀ e, ∃ m l, s.c.hist (.val p e) = m :: l ∧ m.val = ((s.subs p).entries e).value ∧ ((m.tid = .prod p ∧ m.time ≤ s.c.vw (.prod p) (.prod p)) ∨
    (m.val = none ∧ ∃ m' l', l = m' :: l' ∧ m'.tid = .prod p ∧ m'.time ≤ s.c.vw (.prod p) (.prod p) ∧ m'.val ≠ none))
  valOk : ∀ n, n < (s.subs p).ns → ¬Full B (s.subs p).fin n →
    ∃ m l, s.c.hist (.val p ((s.subs p).ent n)) = m :: l ∧ m.tid = .prod p ∧ ∀ i, i < (s.subs p).tail → i / B = n → m.time ≤ s.pubV p i (.prod p)
  slot : ∀ i, i < (s.subs p).tail → (s.subs p).fin i = false →
    (s.wr ((s.subs p).blkOf (i / B)) (i % B)).1 = .prod p ∧ (s.wr ((s.subs p).blkOf (i / B)) (i % B)).2 ≤ s.pubV p i (.prod p)
  hdrT : ∀ h, h ≤ (s.subs p).cur → s.hdrW p h ≤ s.c.vw (.prod p) (.prod p)
  keyLe : ∀ n, s.keyT p n ≤ s.c.vw (.prod p) (.prod p)

/-- what the producer has just done -/
structure PW (B p : Nat) (s : State) (pc : PPc) : Prop where
  push : pc ≠ .out → (s.pushV p (s.subs p).tail).le (s.c.vw (.prod p))
  key : ∀ x e T, pc = .stl x e T → ∃ m l, s.c.hist (.key p e) = m :: l ∧ m.tid = .prod p ∧ m.time ≤ s.keyT p ((s.subs p).hdrs (s.subs p).cur).nb
  slot : ∀ x, pc = .pub x → (s.wr (s.subs p).tailBlock ((s.subs p).tail % B)).1 = .prod p ∧
    (s.wr (s.subs p).tailBlock ((s.subs p).tail % B)).2 ≤ s.c.vw (.prod p) (.prod p)

/-! ### What the consumers know -/

structure CInv (B p : Nat) (s : State) : Prop where
  tvOk : ∀ k, k < (s.subs p).opt → isPass ((s.subs p).fate k) = true → k + 1 ≤ s.tv p k + cnt k isFail (s.subs p).fate ∧ s.tv p k ≤ (s.subs p).tail
  headH : ∃ m l, s.c.hist (.head p) = m :: l ∧ ∀ k, k < (s.subs p).opt → (s.subs p).fate k = .got → ∀ i, i < s.tv p k → (s.pubV p i).le m.view
  headM : ∀ m, m ∈ s.c.hist (.head p) → ∃ v, m.val = some v ∧ v ≤ (s.subs p).head
  overM : ∀ m, m ∈ s.c.hist (.over p) → ∃ v, m.val = some v ∧ v ≤ (s.subs p).over
  clm : ∀ c k, (s.subs p).cons c = .clm k → ∀ i, i < s.tv p k → (s.pubV p i).le (s.c.vw (.cons p c))
  hold : ∀ c i, ((s.subs p).cons c).hold = some i → (s.pubV p i).le (s.c.vw (.cons p c))
  past : ∀ c i x, ((s.subs p).cons c).past = some (i, x) → (s.pubV p i).le (s.c.vw (.cons p c))
  itl : ∀ c i h, (s.subs p).cons c = .itl i h → s.hdrW p h ≤ s.c.vw (.cons p c) (.prod p)
  key : ∀ c i h T, (s.subs p).cons c = .key i h T → ∃ n, i / B ≤ n ∧ n < ((s.subs p).hdrs h).nb ∧
    T = (((s.subs p).hdrs h).base + n) % ((s.subs p).hdrs h).capacity ∧ s.keyT p n ≤ s.c.vw (.cons p c) (.prod p)

structure Inv (B : Nat) (s : State) : Prop where
  q : MQ.Inv B s.q
  p : ∀ p, PInv B p s
  w : ∀ p, PW B p s (s.subs p).prod
  c : ∀ p, CInv B p s
  race : s.raceR = false

end RG.WQ
