import Verif.Props.ConcList
import Verif.Props.AtomicListProgress
/-
Property C68: the operations of the chunked list end.
-/
set_option linter.unusedVariables false
namespace RG.CoL

open AL (own cur bound height bound_mono)

variable {N : Nat} {s s' : State}

/-! ### Iterations -/

/-- A bound for the number of steps until the iteration of a thread has reached the end. -/
def left (N : Nat) (s : State) (t : Nat) : Nat :=
  match s.pcs t with
  | .iLast c => AL.left s.al t + height s.al (some c) * (3 * N + 1)
  | .iAt c p => AL.left s.al t + (height s.al (some c) - 1) * (3 * N + 1) + 3 * p + 3
  | .iCand c p => AL.left s.al t + (height s.al (some c) - 1) * (3 * N + 1) + 3 * p + 2
  | .iOn c p => AL.left s.al t + (height s.al (some c) - 1) * (3 * N + 1) + 3 * p + 1
  | .iHop c => AL.left s.al t + (height s.al (some c) - 1) * (3 * N + 1)
  | _ => 0

/-- In an iteration, not at its end. -/
def Iterating (s : State) (t : Nat) : Prop := isIter (s.pcs t) = true ∧ s.pcs t ≠ .iEnd

theorem inner_cur {t : Nat} (hA : InvA s) (hit : Iterating s t) :
    ∃ c, cur (s.al.pcs t) = some c ∧ (s.pcs t = .iLast c ∨ (∃ p, s.pcs t = .iAt c p) ∨ (∃ p, s.pcs t = .iCand c p) ∨
      (∃ p, s.pcs t = .iOn c p) ∨ s.pcs t = .iHop c) := by
  have hin := hA.inner t
  obtain ⟨h1, h2⟩ := hit
  cases hp : s.pcs t <;> rw [hp] at hin h1 h2 <;> simp [isIter] at h1 h2
  case iLast c => exact ⟨c, by rw [show s.al.pcs t = .at c from hin]; rfl, .inl rfl⟩
  case iAt c p => exact ⟨c, by rw [show s.al.pcs t = .at c from hin]; rfl, .inr (.inl ⟨p, rfl⟩)⟩
  case iCand c p => exact ⟨c, by rw [show s.al.pcs t = .at c from hin]; rfl, .inr (.inr (.inl ⟨p, rfl⟩))⟩
  case iOn c p => exact ⟨c, by rw [show s.al.pcs t = .at c from hin]; rfl, .inr (.inr (.inr (.inl ⟨p, rfl⟩)))⟩
  case iHop c => exact ⟨c, hin.1, .inr (.inr (.inr (.inr rfl)))⟩

theorem height_mono {c : Nat} (hm : Mono s s') (h : ∃ r, s.al.rank c = some r) :
    height s'.al (some c) = height s.al (some c) := by
  obtain ⟨r, h⟩ := h
  rw [AL.height_some h, AL.height_some (hm.rank _ _ h)]

/-- Steps of other threads. -/
theorem left_other {t u : Nat} (hr : Reach N s) (hs : Step N u s s') (hu : t ≠ u) : left N s' t = left N s t := by
  have hA := invA hr
  have hm := mono hA hs
  have e1 : s'.pcs t = s.pcs t := by cases hs <;> simp [upd, hu]
  have e2 : AL.left s'.al t = AL.left s.al t := by
    rcases hs.al with h | h
    · rw [h]
    · exact AL.left_other hA.al h (frame h hu).1
  by_cases hit : Iterating s t
  · obtain ⟨c, hc, hp⟩ := inner_cur hA hit
    have eh := height_mono hm ((AL.inv hA.al).curRank t c hc)
    rcases hp with hp | ⟨p, hp⟩ | ⟨p, hp⟩ | ⟨p, hp⟩ | hp <;> simp only [left, e1, hp, eh, e2]
  · have hz : ∀ q : Pc, (¬ (isIter q = true ∧ q ≠ .iEnd)) → (∀ c, q ≠ .iLast c) ∧ (∀ c p, q ≠ .iAt c p) ∧
        (∀ c p, q ≠ .iCand c p) ∧ (∀ c p, q ≠ .iOn c p) ∧ (∀ c, q ≠ .iHop c) := by
      intro q hq; cases q <;> simp [isIter] at hq ⊢
    have := hz (s.pcs t) hit
    unfold left
    rw [e1]
    cases hp : s.pcs t <;> simp_all

/-- Own steps. -/
theorem left_own {t : Nat} (hN : 0 < N) (hr : Reach N s) (hs : Step N t s s') (hit : Iterating s t)
    (hni : s'.pcs t ≠ .idle) : left N s' t < left N s t := by
  have hA := invA hr
  have hAL := AL.inv hA.al
  have hm := mono hA hs
  have hin := hA.inner t
  have alIt : ∀ c, s.al.pcs t = .at c → AL.Iterating s.al t := fun c h => ⟨c, by rw [h]; rfl⟩
  have alOwn : ∀ a c, s.al.pcs t = .at c → AL.Step t s.al a → a.pcs t = .skipLoad c → AL.left a t < AL.left s.al t := by
    intro a c h ha hp
    rcases AL.left_own hA.al ha (alIt c h) (by rw [hp]; simp) with h1 | h1
    · exact h1
    · rw [hp, h] at h1; cases h1
  obtain ⟨h1, h2⟩ := hit
  cases hs with
  | push _ h | loadNull h | load h | first h | full h | room h | slot h | over h | late h | alloc h | assign h | remove h
  | readFirst h | readPred h | write h | free h | del h | begin h | beginNull h | copy h => rw [h] at h1; cases h1
  | stop h => exact absurd (upd_same _ _ _) hni
  | last h hn =>
    rename_i c
    rw [h] at hin
    obtain ⟨r, hrk⟩ := hAL.curRank t c (by rw [show s.al.pcs t = .at c from hin]; rfl)
    simp only [left, h, upd_same, AL.height_some hrk, Nat.add_sub_cancel, Nat.add_mul]
    omega
  | lastNone h hn =>
    rename_i c
    rw [h] at hin
    obtain ⟨r, hrk⟩ := hAL.curRank t c (by rw [show s.al.pcs t = .at c from hin]; rfl)
    simp only [left, h, upd_same, AL.height_some hrk, Nat.add_mul]
    omega
  | read h ho | visit h | next h =>
    simp only [left, h, upd_same]
    omega
  | jump h ho hp =>
    rename_i c p
    cases hq : s.pcs t with
    | iAt c' p' => rw [hq] at h; cases h; simp only [left, hq, upd_same]; omega
    | iCand c' p' => rw [hq] at h; cases h; simp only [left, hq, upd_same]; omega
    | _ => rw [hq] at h; cases h
  | jumpOut h ho ha hp =>
    rename_i c p a
    have hin' := inner_pos h hin
    have k := alOwn a c hin' ha hp
    have eh := height_mono hm (hAL.curRank t c (by rw [hin']; rfl))
    cases hq : s.pcs t with
    | iAt c' p' =>
      rw [hq] at h; cases h
      simp only [left, hq, upd_same]; dsimp only at eh; rw [eh]; omega
    | iCand c' p' =>
      rw [hq] at h; cases h
      simp only [left, hq, upd_same]; dsimp only at eh; rw [eh]; omega
    | _ => rw [hq] at h; cases h
  | nextOut h ha hp =>
    rename_i c a
    rw [h] at hin
    have k := alOwn a c hin ha hp
    have eh := height_mono hm (hAL.curRank t c (by rw [show s.al.pcs t = .at c from hin]; rfl))
    simp only [left, h, upd_same]; dsimp only at eh; rw [eh]; omega
  | hop h ha hd =>
    rename_i c a
    rw [h] at hin
    have hin' : cur (s.al.pcs t) = some c ∧ s.al.pcs t ≠ .at c := hin
    obtain ⟨r, hrk⟩ := hAL.curRank t c hin'.1
    have eh := height_mono hm ⟨r, hrk⟩
    dsimp only at eh
    obtain ⟨⟨e1, e2, e3⟩, e4, e5⟩ := eff_cur ha hin'.1
    have k := AL.left_own hA.al ha ⟨c, hin'.1⟩
    rcases e5 with ⟨k1, k2, k3⟩ | ⟨q, k1, k2, k3, k4⟩ | ⟨k1, k2, k3⟩ | ⟨k1, -⟩
    · have hne : a.pcs t ≠ .at c := fun h => hin'.2 (k3 h)
      have ear : arrive c (a.pcs t) = .iHop c := by
        generalize a.pcs t = q at *
        cases q <;> simp_all [arrive, cur]
      have : AL.left a t < AL.left s.al t := by
        rcases k (by intro h; rw [h] at k1; cases k1) with k | k
        · exact k
        · exact absurd k hd
      simp only [left, h, upd_same, ear, eh]; omega
    · have ear : arrive c (a.pcs t) = .iLast q := by rw [k1]; rfl
      have : AL.left a t < AL.left s.al t := by
        rcases k (by rw [k1]; simp) with k | k
        · exact k
        · rw [k1, k4] at k; cases k
      have ho := hAL.older c r hrk
      rw [k3] at ho
      obtain ⟨rq, h6, h7, -⟩ := ho
      have h6' : a.rank q = some rq := by rw [e2]; exact h6
      simp only [left, h, upd_same, ear, AL.height_some hrk, AL.height_some h6', Nat.add_sub_cancel]
      have := Nat.mul_le_mul_right (3 * N + 1) (show rq + 1 ≤ r by omega)
      omega
    · have ear : arrive c (a.pcs t) = .iEnd := by rw [k1]; rfl
      have : 0 < AL.left s.al t := by simp only [AL.left, k3]; omega
      simp only [left, h, upd_same, ear]; omega
    · exact absurd k1 hin'.2

/-- Executions in which thread `t` makes `n` steps of its iteration, and other threads do anything. -/
inductive Runs (N t : Nat) : Nat → State → State → Prop
  | refl {s : State} : Runs N t 0 s s
  | own {n} {s s' s'' : State} : Iterating s t → Step N t s s' → s'.pcs t ≠ .idle → Runs N t n s' s'' → Runs N t (n + 1) s s''
  | other {n u} {s s' s'' : State} : t ≠ u → Step N u s s' → Runs N t n s' s'' → Runs N t n s s''

theorem runs_left {t n : Nat} (hN : 0 < N) (h : Reach N s) (hr : Runs N t n s s') : n ≤ left N s t := by
  induction hr with
  | refl => omega
  | own hit hs hni _ ih =>
    have := ih (h.step hs)
    have := left_own hN h hs hit hni
    omega
  | other hu hs _ ih =>
    have := ih (h.step hs)
    rwa [left_other h hs hu] at this

/-- **C68** An iteration ends: if it is at a chunk before which `r` chunks were appended, or at an element of this chunk,
the thread makes at most `(r + 1)² + (r + 1) (3 N + 5)` more steps until it is at the end, whatever other threads push
or remove meanwhile. -/
theorem C68_iteration_ends {t n c r p : Nat} (hN : 0 < N) (h : Reach N s)
    (hp : s.pcs t = .iLast c ∨ (s.pcs t = .iOn c p ∧ p < N)) (hc : s.al.rank c = some r)
    (hr : Runs N t n s s') : n ≤ (r + 1) * (r + 1) + (r + 1) * (3 * N + 5) := by
  have := runs_left hN h hr
  have hin := (invA h).inner t
  have e : (r + 1) * (3 * N + 5) = r * (3 * N + 1) + 4 * (r + 1) + 3 * N + 1 := by
    rw [show 3 * N + 5 = (3 * N + 1) + 4 by omega, Nat.mul_add, Nat.add_mul]; omega
  rcases hp with hp | ⟨hp, hlt⟩
  · rw [hp] at hin
    have hin' : s.al.pcs t = .at c := hin
    simp only [left, hp, AL.left, hin', AL.height_some hc, bound] at this
    rw [Nat.add_mul r 1 (3 * N + 1)] at this
    omega
  · rw [hp] at hin
    have hin' : s.al.pcs t = .at c := hin
    simp only [left, hp, AL.left, hin', AL.height_some hc, bound, Nat.add_sub_cancel] at this
    omega

/-- **C68** An iteration is never stuck: as long as it is not at the end, the thread can go on with it. -/
theorem C68_iteration_not_stuck {t : Nat} (hN : 0 < N) (h : Reach N s) (hit : Iterating s t) :
    ∃ s', Step N t s s' ∧ s'.pcs t ≠ .idle := by
  have hA := invA h
  have hin := hA.inner t
  have jmp : ∀ c p, pos (s.pcs t) = some (c, p) → s.off (c, p) ≠ 0 → ∃ s', Step N t s s' ∧ s'.pcs t ≠ .idle := by
    intro c p hp ho
    by_cases hle : s.off (c, p) ≤ p
    · exact ⟨_, .jump hp (by omega) hle, by simp⟩
    · have hin' := inner_pos hp hin
      exact ⟨_, .jumpOut hp (by omega) (.next hin') (upd_same _ _ _), by simp⟩
  obtain ⟨c, hc, hp⟩ := inner_cur hA hit
  rcases hp with hp | ⟨p, hp⟩ | ⟨p, hp⟩ | ⟨p, hp⟩ | hp
  · by_cases hn : s.nxt c = 0
    · exact ⟨_, .lastNone hp hn, by simp⟩
    · exact ⟨_, .last hp (by omega), by simp⟩
  · by_cases ho : s.off (c, p) = 0
    · exact ⟨_, .read hp ho, by simp⟩
    · exact jmp c p (by rw [hp]; rfl) ho
  · exact ⟨_, .visit hp, by simp⟩
  · rw [hp] at hin
    have hin' : s.al.pcs t = .at c := hin
    cases p with
    | zero => exact ⟨_, .nextOut hp (.next hin') (upd_same _ _ _), by simp⟩
    | succ p => exact ⟨_, .next hp, by simp⟩
  · rw [hp] at hin
    have hin' : cur (s.al.pcs t) = some c ∧ s.al.pcs t ≠ .at c := hin
    obtain ⟨a, ha, hne, hni⟩ := AL.C66_iteration_not_stuck hA.al ⟨c, hin'.1⟩
    refine ⟨_, .hop hp ha hne, ?_⟩
    simp only [upd_same]
    rcases arrive_cases c (a.pcs t) with h | h | ⟨d, h⟩ <;> rw [h.1] <;> simp

/-! ### Removals -/

/-- the steps left until a removal has ended -/
def rmLeft : Pc → Nat
  | .rRead _ => 4
  | .rWrite _ _ => 3
  | .rFree _ => 2
  | .rDel _ => 1
  | _ => 0

/-- **C68** `remove` is wait-free: it is never stuck, and every step of the thread brings it closer to its end,
which it reaches after at most 4 steps. -/
theorem C68_remove_wait_free {t : Nat} (hN : 0 < N) (h : Reach N s) (ht : 0 < rmLeft (s.pcs t)) :
    (∃ s', Step N t s s') ∧
    ∀ s', Step N t s s' → rmLeft (s'.pcs t) < rmLeft (s.pcs t) ∧ (rmLeft (s'.pcs t) = 0 → s'.pcs t = .idle) := by
  refine ⟨?_, ?_⟩
  · cases hp : s.pcs t <;> rw [hp] at ht <;> simp [rmLeft] at ht
    case rRead x =>
      obtain ⟨c, i⟩ := x
      cases i with
      | zero => exact ⟨_, .readFirst hp⟩
      | succ i => exact ⟨_, .readPred hp⟩
    case rWrite x d => exact ⟨_, .write hp⟩
    case rFree x => exact ⟨_, .free hp⟩
    case rDel c =>
      have hC := invC hN h
      have hf := hC.del c (.inl ⟨t, hp⟩) 0 hN
      have hv := (invB h).valLt _ _ (hC.remVal _ (hC.freRem _ hf))
      cases hr : s.al.rank c with
      | none => have := (invB h).unranked c hr; omega
      | some r => exact ⟨_, .del hp hr⟩
  · intro s' hs
    cases hs with
    | readFirst h | readPred h | write h | del h => simp [h, rmLeft]
    | free h =>
      simp only [upd_same, h]
      split <;> simp [rmLeft]
    | push _ h | loadNull h | load h | first h | full h | room h | slot h | over h | late h | alloc h | assign h | remove h
    | begin h | beginNull h | copy h | last h | lastNone h | read h | visit h | next h | nextOut h | hop h =>
      rw [h] at ht; simp [rmLeft] at ht
    | jump h | jumpOut h => cases hp : s.pcs t <;> rw [hp] at ht h <;> simp [rmLeft, pos] at ht h
    | stop h => cases hp : s.pcs t <;> rw [hp] at ht h <;> simp [rmLeft, on] at ht h

/-! ### Pushes -/

/-- Executions in which only threads in `P` run. -/
inductive Only (N : Nat) (P : Nat → Prop) : State → State → Prop
  | refl {s : State} : Only N P s s
  | step {t} {s s' s'' : State} : P t → Step N t s s' → Only N P s' s'' → Only N P s s''

theorem Only.trans {P : Nat → Prop} {s s' s'' : State} (h : Only N P s s') (h' : Only N P s' s'') : Only N P s s'' := by
  induction h with
  | refl => exact h'
  | step hp hs _ ih => exact .step hp hs (ih h')

/-- the thread has stored its value -/
def Stored (t v : Nat) (s s' : State) : Prop := s'.pcs t = .idle ∧ ∃ x, s'.log = (x, v) :: s.log ∧ s'.val x = some v

theorem push_asg {P : Nat → Prop} {t v c i : Nat} (ht : P t) (hp : s.pcs t = .pAsg v c i) :
    ∃ s', Only N P s s' ∧ Stored t v s s' :=
  ⟨_, .step ht (.assign hp) .refl, upd_same _ _ _, (c, i), rfl, upd_same _ _ _⟩

theorem push_slot {P : Nat → Prop} {t v c : Nat} (ht : P t) (hp : s.pcs t = .pAdd v c) (hn : s.nxt c < N) :
    ∃ s', Only N P s s' ∧ Stored t v s s' := by
  obtain ⟨s', h1, h2⟩ := push_asg (N := N) (P := P) ht
    (s := { s with nxt := upd s.nxt c (s.nxt c + 1), pcs := upd s.pcs t (.pAsg v c (s.nxt c)) }) (upd_same _ _ _)
  exact ⟨s', .step ht (.slot hp hn) h1, h2⟩

theorem push_load {P : Nat → Prop} {t v c : Nat} (ht : P t) (hp : s.pcs t = .pLoad v) (hh : s.al.head = some c)
    (hn : s.nxt c < N) : ∃ s', Only N P s s' ∧ Stored t v s s' := by
  obtain ⟨s', h1, h2⟩ := push_slot (N := N) (P := P) ht
    (s := { s with pcs := upd (upd s.pcs t (.pNext v c)) t (.pAdd v c) }) (upd_same _ _ _) hn
  exact ⟨s', .step ht (.load hp hh) (.step ht (.room (upd_same _ _ _) (Nat.le_of_lt hn)) h1), h2⟩

/-- what a thread leaves behind that has allocated a chunk -/
structure Grown (u v : Nat) (s s' : State) : Prop where
  head : ∃ n, s'.al.head = some n ∧ s'.nxt n = 0
  pcs : s'.pcs u = .pLoad v
  other : ∀ t, t ≠ u → s'.pcs t = s.pcs t
  log : s'.log = s.log

theorem alloc_cas {P : Nat → Prop} {u v c n : Nat} (hu : P u) (hp : s.pcs u = .pAlloc v c)
    (hq : s.al.pcs u = .appCas n s.al.head) (hn : s.nxt n = 0) : ∃ s', Only N P s s' ∧ Grown u v s s' := by
  refine ⟨_, .step hu (.alloc hp (.casOk hq rfl) (by rw [hq]; simp)) .refl, ⟨n, rfl, hn⟩, ?_, ?_, rfl⟩
  · simp
  · intro t ht; simp [upd, ht]

theorem alloc_load {P : Nat → Prop} {u v c n : Nat} (hu : P u) (hp : s.pcs u = .pAlloc v c)
    (hq : s.al.pcs u = .appLoad n) (hn : s.nxt n = 0) : ∃ s', Only N P s s' ∧ Grown u v s s' := by
  let s1 : State := { s with
    al := { s.al with pcs := upd s.al.pcs u (.appStore n s.al.head) }, pcs := upd s.pcs u (.pAlloc v c) }
  have k1 : Step N u s s1 := by
    have := Step.alloc (N := N) hp (.load hq) (by rw [hq]; simp)
    simpa using this
  let s2 : State := { s1 with
    al := { s1.al with prev := upd s1.al.prev n s.al.head, pcs := upd s1.al.pcs u (.appCas n s.al.head) }
    pcs := upd s1.pcs u (.pAlloc v c) }
  have k2 : Step N u s1 s2 := by
    have hq1 : s1.al.pcs u = .appStore n s.al.head := upd_same _ _ _
    have := Step.alloc (N := N) (s := s1) (upd_same _ _ _) (.store hq1) (by rw [hq1]; simp)
    simpa using this
  obtain ⟨s', h1, h2⟩ := alloc_cas (N := N) (P := P) (s := s2) (c := c) (v := v) hu (upd_same _ _ _) (upd_same _ _ _) hn
  refine ⟨s', .step hu k1 (.step hu k2 h1), h2.head, h2.pcs, ?_, h2.log⟩
  intro t ht
  rw [h2.other t ht]
  simp [s2, s1, upd, ht]

theorem alloc_run {P : Nat → Prop} {u v c : Nat} (h : Reach N s) (hu : P u) (hp : s.pcs u = .pAlloc v c) :
    ∃ s', Only N P s s' ∧ Grown u v s s' := by
  have hA := invA h
  have hAL := AL.inv hA.al
  have hin := hA.inner u
  rw [hp] at hin
  obtain ⟨⟨n, hn⟩, hf⟩ := hin
  have hnx := (invB h).unranked n (hAL.ownNew u n hn).1
  have fromCas : ∀ (s : State) o, s.nxt n = 0 → s.pcs u = .pAlloc v c → s.al.pcs u = .appCas n o →
      ∃ s', Only N P s s' ∧ Grown u v s s' := by
    intro s o hn hp hq
    by_cases ho : s.al.head = o
    · subst ho; exact alloc_cas hu hp hq hn
    · let s1 : State := { s with
        al := { s.al with pcs := upd s.al.pcs u (.appLoad n) }, pcs := upd s.pcs u (.pAlloc v c) }
      have k1 : Step N u s s1 := by
        have := Step.alloc (N := N) hp (.casFail hq ho) (by rw [hq]; simp)
        simpa using this
      obtain ⟨s', h1, h2⟩ := alloc_load (N := N) (P := P) (s := s1) (c := c) (v := v) hu (upd_same _ _ _) (upd_same _ _ _) hn
      refine ⟨s', .step hu k1 h1, h2.head, h2.pcs, ?_, h2.log⟩
      intro t ht
      rw [h2.other t ht]
      simp [s1, upd, ht]
  cases hq : s.al.pcs u with
  | appLoad m => rw [hq] at hn; cases hn; exact alloc_load hu hp hq hnx
  | appCas m o => rw [hq] at hn; cases hn; exact fromCas s o hnx hp hq
  | appStore m o =>
    rw [hq] at hn; cases hn
    let s1 : State := { s with
      al := { s.al with prev := upd s.al.prev n o, pcs := upd s.al.pcs u (.appCas n o) }, pcs := upd s.pcs u (.pAlloc v c) }
    have k1 : Step N u s s1 := by
      have := Step.alloc (N := N) hp (.store hq) (by rw [hq]; simp)
      simpa using this
    obtain ⟨s', h1, h2⟩ := fromCas s1 o hnx (upd_same _ _ _) (upd_same _ _ _)
    refine ⟨s', .step hu k1 h1, h2.head, h2.pcs, ?_, h2.log⟩
    intro t ht
    rw [h2.other t ht]
    simp [s1, upd, ht]
  | firstCas m => rw [hq] at hf; cases hf
  | _ => rw [hq] at hn; cases hn

theorem Only.reach {P : Nat → Prop} (h : Reach N s) (ho : Only N P s s') : Reach N s' := by
  induction ho with
  | refl => exact h
  | step _ hs _ ih => exact ih (h.step hs)

/-- A push that is inside of `allocate_item`. -/
theorem push_alloc {P : Nat → Prop} {t v c : Nat} (hN : 0 < N) (h : Reach N s) (ht : P t) (hp : s.pcs t = .pAlloc v c) :
    ∃ s', Only N P s s' ∧ Stored t v s s' := by
  obtain ⟨s1, h1, ⟨n, h2, h3⟩, h4, -, h5⟩ := alloc_run (N := N) (P := P) h ht hp
  obtain ⟨s', h6, h7, x, h8, h9⟩ := push_load (N := N) (P := P) ht h4 h2 (by omega)
  exact ⟨s', h1.trans h6, h7, x, by rw [h8, h5], h9⟩

theorem push_over {P : Nat → Prop} {t v c : Nat} (hN : 0 < N) (h : Reach N s) (ht : P t) (hp : s.pcs t = .pAdd v c)
    (hn : s.nxt c = N) : ∃ s', Only N P s s' ∧ Stored t v s s' := by
  have hin := (invA h).inner t
  rw [hp] at hin
  have hs := Step.over (N := N) hp hn (.alloc hin) (upd_same _ _ _)
  obtain ⟨s', h1, h2⟩ := push_alloc (P := P) hN (h.step hs) ht (upd_same _ _ _)
  exact ⟨s', .step ht hs h1, h2⟩

theorem push_first {P : Nat → Prop} {t v : Nat} (hN : 0 < N) (h : Reach N s) (ht : P t) (hp : s.pcs t = .pLoad v)
    (hh : s.al.head = none) : ∃ s', Only N P s s' ∧ Stored t v s s' := by
  have hin := (invA h).inner t
  rw [hp] at hin
  have hs := Step.loadNull (N := N) hp hh (.allocFirst hin) (upd_same _ _ _)
  have hn : s.nxt s.al.nalloc = 0 :=
    (invB h).unranked _ ((AL.inv (invA h).al).fresh _ (Nat.le_refl _)).2
  let s1 : State := { s with
    al := { s.al with nalloc := s.al.nalloc + 1, pcs := upd s.al.pcs t (.firstCas s.al.nalloc) }
    pcs := upd s.pcs t (.pFirst v) }
  have hq : s1.al.pcs t = .firstCas s.al.nalloc := upd_same _ _ _
  have hs2 := Step.first (N := N) (s := s1) (v := v) (upd_same _ _ _) (.firstOk hq hh) (by rw [hq]; simp)
  obtain ⟨s', h1, h2⟩ := push_load (N := N) (P := P) (v := v) (c := s.al.nalloc) ht
    (s := { s1 with
      al := { s1.al with
        head := some s.al.nalloc, pcs := upd s1.al.pcs t .idle, len := s1.al.len + 1
        rank := upd s1.al.rank s.al.nalloc (some s1.al.len) }
      pcs := upd s1.pcs t (.pLoad v) }) (upd_same _ _ _) rfl (by show s.nxt s.al.nalloc < N; omega)
  refine ⟨s', .step ht hs (.step ht ?_ h1), h2⟩
  simpa using hs2

theorem push_from_load {t v : Nat} (hN : 0 < N) (h : Reach N s) (hp : s.pcs t = .pLoad v) :
    ∃ u s', (u = t ∨ ∃ w c, s.pcs u = .pAlloc w c) ∧ Only N (fun x => x = t ∨ x = u) s s' ∧ Stored t v s s' := by
  cases hh : s.al.head with
  | none =>
    obtain ⟨s', h1⟩ := push_first (P := fun x => x = t ∨ x = t) hN h (.inl rfl) hp hh
    exact ⟨t, s', .inl rfl, h1⟩
  | some c =>
    rcases Nat.lt_trichotomy (s.nxt c) N with hn | hn | hn
    · obtain ⟨s', h1⟩ := push_load (P := fun x => x = t ∨ x = t) (.inl rfl) hp hh hn
      exact ⟨t, s', .inl rfl, h1⟩
    · have hs1 := Step.load (N := N) hp hh
      have hs2 := Step.room (N := N) (s := { s with pcs := upd s.pcs t (.pNext v c) }) (t := t) (v := v) (c := c)
        (upd_same _ _ _) (by show s.nxt c ≤ N; omega)
      obtain ⟨s', h1, h2⟩ := push_over (P := fun x => x = t ∨ x = t) hN ((h.step hs1).step hs2) (.inl rfl)
        (upd_same _ _ _) hn
      exact ⟨t, s', .inl rfl, .step (.inl rfl) hs1 (.step (.inl rfl) hs2 h1), h2⟩
    · obtain ⟨u, w, hu⟩ := (invB h).ex c hh hn
      have hne : t ≠ u := by rintro rfl; rw [hp] at hu; cases hu
      obtain ⟨s1, h1, ⟨n, h2, h3⟩, h4, h5, h6⟩ := alloc_run (P := fun x => x = t ∨ x = u) h (.inr rfl) hu
      obtain ⟨s', k1, k2, x, k3, k4⟩ := push_load (N := N) (P := fun x => x = t ∨ x = u) (v := v) (.inl rfl)
        ((h5 t hne).trans hp) h2 (by omega)
      exact ⟨u, s', .inr ⟨_, _, hu⟩, h1.trans k1, k2, x, by rw [k3, h6], k4⟩

/-- **C27** A push returns only after it has stored its value, and does so once: every step of a thread inside of `push`
leaves it inside of this call without changing the stored values, or stores the value in a slot and ends the call. -/
theorem C27_returns_after_storing {t v : Nat} (h : Reach N s) (hp : pushed (s.pcs t) = some v) (hs : Step N t s s') :
    (pushed (s'.pcs t) = some v ∧ s'.log = s.log ∧ s'.val = s.val) ∨ Stored t v s s' := by
  cases hs with
  | load h | loadNull h | full h | room h | slot h | over h | late h =>
    rw [h] at hp; cases hp; left; simp [pushed]
  | first h | alloc h =>
    rw [h] at hp; cases hp; left
    refine ⟨?_, rfl, rfl⟩
    simp only [upd_same]; split <;> rfl
  | assign h => rw [h] at hp; cases hp; exact .inr ⟨upd_same _ _ _, _, rfl, upd_same _ _ _⟩
  | push _ h | remove h | readFirst h | readPred h | write h | free h | del h | begin h | beginNull h | copy h | last h
  | lastNone h | read h | visit h | next h | nextOut h | hop h => rw [h] at hp; cases hp
  | jump h | jumpOut h => cases hq : s.pcs t <;> rw [hq] at hp h <;> simp [pushed, pos] at hp h
  | stop h => cases hq : s.pcs t <;> rw [hq] at hp h <;> simp [pushed, on] at hp h

/-- **C68** A push can always be completed, with the help of at most one other thread, `u`, the one that is just allocating
the next chunk: in every reachable state there is an execution of the two threads after which the value has been stored. -/
theorem C68_push_completes {t v : Nat} (hN : 0 < N) (h : Reach N s) (hp : pushed (s.pcs t) = some v) :
    ∃ u s', (u = t ∨ ∃ w c, s.pcs u = .pAlloc w c) ∧ Only N (fun x => x = t ∨ x = u) s s' ∧ Stored t v s s' := by
  have helper : ∀ {s s1 : State} {u}, Step N t s s1 → (u = t ∨ ∃ w c, s1.pcs u = .pAlloc w c) →
      (u = t ∨ ∃ w c, s.pcs u = .pAlloc w c) := by
    intro s s1 u hs h
    by_cases e : u = t
    · exact .inl e
    · have e1 : s1.pcs u = s.pcs u := by cases hs <;> simp [upd, e]
      rw [e1] at h; exact .inr (h.resolve_left e)
  have step1 : ∀ s1, Step N t s s1 → s1.pcs t = .pLoad v → s1.log = s.log →
      ∃ u s', (u = t ∨ ∃ w c, s.pcs u = .pAlloc w c) ∧ Only N (fun x => x = t ∨ x = u) s s' ∧ Stored t v s s' := by
    intro s1 hs hq hl
    obtain ⟨u, s', h0, h1, h2, x, h3, h4⟩ := push_from_load hN (h.step hs) hq
    exact ⟨u, s', helper hs h0, .step (.inl rfl) hs h1, h2, x, by rw [h3, hl], h4⟩
  have fromAdd : ∀ (s : State) c, Reach N s → s.pcs t = .pAdd v c → ∃ u s', (u = t ∨ ∃ w c, s.pcs u = .pAlloc w c) ∧ Only N (fun x => x = t ∨ x = u) s s' ∧ Stored t v s s' := by
    intro s c h hq
    rcases Nat.lt_trichotomy (s.nxt c) N with hn | hn | hn
    · obtain ⟨s', h1⟩ := push_slot (P := fun x => x = t ∨ x = t) (.inl rfl) hq hn
      exact ⟨t, s', .inl rfl, h1⟩
    · obtain ⟨s', h1⟩ := push_over (P := fun x => x = t ∨ x = t) hN h (.inl rfl) hq hn
      exact ⟨t, s', .inl rfl, h1⟩
    · have hs := Step.late (N := N) hq hn
      obtain ⟨u, s', h0, h1, h2⟩ := push_from_load (v := v) hN (h.step hs) (upd_same _ _ _)
      exact ⟨u, s', helper hs h0, .step (.inl rfl) hs h1, h2⟩
  cases hq : s.pcs t with
  | pLoad w => rw [hq] at hp; cases hp; exact push_from_load hN h hq
  | pNext w c =>
    rw [hq] at hp; cases hp
    by_cases hn : N < s.nxt c
    · exact step1 _ (.full hq hn) (upd_same _ _ _) rfl
    · have hs := Step.room (N := N) hq (by omega)
      obtain ⟨u, s', h0, h1, h2⟩ := fromAdd _ c (h.step hs) (upd_same _ _ _)
      exact ⟨u, s', helper hs h0, .step (.inl rfl) hs h1, h2⟩
  | pAdd w c => rw [hq] at hp; cases hp; exact fromAdd s c h hq
  | pAsg w c i =>
    rw [hq] at hp; cases hp
    obtain ⟨s', h1⟩ := push_asg (N := N) (P := fun x => x = t ∨ x = t) (.inl rfl) hq
    exact ⟨t, s', .inl rfl, h1⟩
  | pAlloc w c =>
    rw [hq] at hp; cases hp
    obtain ⟨s', h1⟩ := push_alloc (P := fun x => x = t ∨ x = t) hN h (.inl rfl) hq
    exact ⟨t, s', .inl rfl, h1⟩
  | pFirst w =>
    rw [hq] at hp; cases hp
    have hin := (invA h).inner t
    rw [hq] at hin
    have hf : isFirst (s.al.pcs t) = true := hin
    cases hr : s.al.pcs t with
    | firstCas n =>
      by_cases hh : s.al.head = none
      · refine step1 _ (.first hq (.firstOk hr hh) (by rw [hr]; simp)) (by simp) rfl
      · refine step1 _ (.first hq (.firstFail hr hh) (by rw [hr]; simp)) (by simp) rfl
    | _ => rw [hr] at hf; cases hf
  | _ => rw [hq] at hp; cases hp

/-- **C68** A push of a thread that runs alone from its beginning, while no other thread is inside of an operation,
is completed. -/
theorem C68_push_alone {t v : Nat} (hN : 0 < N) (h : Reach N s) (hid : ∀ u, s.pcs u = .idle) :
    ∃ s', Only N (fun x => x = t) s s' ∧ Stored t v s s' := by
  have hs := Step.push (N := N) (t := t) v (hid t)
  have h1 := h.step hs
  have hq : (upd s.pcs t (.pLoad v)) t = .pLoad v := upd_same _ _ _
  cases hh : s.al.head with
  | none =>
    obtain ⟨s', h2, h3⟩ := push_first (P := fun x => x = t) hN h1 rfl hq hh
    exact ⟨s', .step rfl hs h2, h3⟩
  | some c =>
    rcases Nat.lt_trichotomy (s.nxt c) N with hn | hn | hn
    · obtain ⟨s', h2, h3⟩ := push_load (P := fun x => x = t) (v := v)
        (s := { s with pcs := upd s.pcs t (.pLoad v) }) rfl hq hh hn
      exact ⟨s', .step rfl hs h2, h3⟩
    · have hs1 := Step.load (N := N) (s := { s with pcs := upd s.pcs t (.pLoad v) }) hq hh
      have hs2 := Step.room (N := N) (s := { s with pcs := upd (upd s.pcs t (.pLoad v)) t (.pNext v c) }) (t := t) (v := v)
        (c := c) (upd_same _ _ _) (by show s.nxt c ≤ N; omega)
      obtain ⟨s', h2, h3⟩ := push_over (P := fun x => x = t) hN ((h1.step hs1).step hs2) rfl (upd_same _ _ _) hn
      exact ⟨s', .step rfl hs (.step rfl hs1 (.step rfl hs2 h2)), h3⟩
    · obtain ⟨u, w, hu⟩ := (invB h).ex c hh hn
      rw [hid u] at hu; cases hu

/-! ### Examples -/

/-- A push of thread 1 that has to wait for thread 0, which allocates the second chunk. -/
example : ∃ s, Reach 1 s ∧ pushed (s.pcs 1) = some 9 ∧ s.pcs 0 = .pAlloc 8 0 ∧ s.al.head = some 0 ∧ 1 < s.nxt 0 :=
  ⟨_, (.step (.step (.step (.step (.step (.step (.step (.step (.step (.step (.step (.step .init
    (.push (t := 0) 7 rfl))
    (.loadNull (t := 0) rfl rfl (.allocFirst rfl) rfl))
    (.first (t := 0) rfl (.firstOk rfl rfl) (by decide)))
    (.load (t := 0) rfl rfl))
    (.room (t := 0) rfl (by decide)))
    (.slot (t := 0) rfl (by decide)))
    (.assign (t := 0) rfl))
    (.push (t := 0) 8 rfl))
    (.load (t := 0) rfl rfl))
    (.room (t := 0) rfl (by decide)))
    (.over (t := 0) rfl rfl (.alloc rfl) rfl))
    (.push (t := 1) 9 rfl)), rfl, rfl, rfl, by decide⟩

/-- An iteration over one element, 8 steps, while thread 0 begins a push. -/
example : ∃ s s', Reach 1 s ∧ s.pcs 2 = .iLast 0 ∧ s.al.rank 0 = some 0 ∧ Runs 1 2 8 s s' ∧ s'.pcs 2 = .iEnd ∧
    s'.seen 2 = [(0, 0)] := by
  refine ⟨_, _, (.step (.step (.step (.step (.step (.step (.step (.step .init
    (.push (t := 0) 7 rfl))
    (.loadNull (t := 0) rfl rfl (.allocFirst rfl) rfl))
    (.first (t := 0) rfl (.firstOk rfl rfl) (by decide)))
    (.load (t := 0) rfl rfl))
    (.room (t := 0) rfl (by decide)))
    (.slot (t := 0) rfl (by decide)))
    (.assign (t := 0) rfl))
    (.begin (t := 2) rfl (.rbegin rfl rfl) rfl rfl)), rfl, rfl,
    .own ⟨rfl, by decide⟩ (.last rfl (by decide)) (by decide) <|
    .own ⟨rfl, by decide⟩ (.read rfl rfl) (by decide) <|
    .other (by decide) (.push (t := 0) 8 rfl) <|
    .own ⟨rfl, by decide⟩ (.visit rfl) (by decide) <|
    .own ⟨rfl, by decide⟩ (.nextOut rfl (.next rfl) rfl) (by decide) <|
    .own ⟨rfl, by decide⟩ (.hop rfl (.skipLoad rfl) (by decide)) (by decide) <|
    .own ⟨rfl, by decide⟩ (.hop rfl (.testNull rfl) (by decide)) (by decide) <|
    .own ⟨rfl, by decide⟩ (.hop rfl (.skipStore rfl) (by decide)) (by decide) <|
    .own ⟨rfl, by decide⟩ (.hop rfl (.advanceEnd rfl rfl) (by decide)) (by decide) .refl, rfl, rfl⟩

/-- A removal that has begun. -/
example : ∃ s, Reach 1 s ∧ rmLeft (s.pcs 3) = 4 :=
  ⟨_, (.step (.step (.step (.step (.step (.step (.step (.step .init
    (.push (t := 0) 7 rfl))
    (.loadNull (t := 0) rfl rfl (.allocFirst rfl) rfl))
    (.first (t := 0) rfl (.firstOk rfl rfl) (by decide)))
    (.load (t := 0) rfl rfl))
    (.room (t := 0) rfl (by decide)))
    (.slot (t := 0) rfl (by decide)))
    (.assign (t := 0) rfl))
    (.remove (t := 3) (x := (0, 0)) rfl (by decide) rfl)), rfl⟩

end RG.CoL
