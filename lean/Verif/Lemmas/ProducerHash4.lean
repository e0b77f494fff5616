import Verif.Lemmas.ProducerHash3
/-
A table that is full, and an execution that fills one.
-/
namespace RG.PH

variable {hash : Nat → Nat}

/-- outside a call the thread has what its last call has returned -/
theorem Reach.gotOut {C s} (hC : 0 < C) (h : Reach hash C s) (t) (hp : s.pc t = .out) : s.got t = s.prod t := by
  induction h with
  | init => rfl
  | @step s s' u h hs ih =>
    by_cases hu : t = u
    · subst hu
      have ht := (h.inv hC).thr t
      cases hs <;> simp only [upd_same] at hp ⊢
      case ret hq => rw [hq] at ht; exact ht.1.symm
      all_goals first | rfl | (cases hp; done) | (split at hp <;> cases hp)
    · have hp' : s.pc t = .out := by rw [← hs.pc hu]; exact hp
      have := ih hp'
      cases hs <;> first | exact this | (simp only [upd_ne _ _ hu]; exact this)

/-- `t` searches itself in the table `h`, which is full and does not contain it -/
def Trapped (s : State) (t h : Nat) : Prop :=
  h < s.ntab ∧ (∃ m k, s.pc t = .look m h k) ∧ ∀ j, j < s.cap h → s.key h j ≠ .empty ∧ s.key h j ≠ .of t

theorem Step.grow {t s s'} (hs : Step hash t s s') {h} (hh : h < s.ntab) :
    h < s'.ntab ∧ s'.cap h = s.cap h ∧ ∀ j, (s.key h j ≠ .empty → s'.key h j ≠ .empty) ∧ ∀ u, u ≠ t → s'.key h j = .of u → s.key h j = .of u := by
  have htab : ∀ {s' : State}, s'.ntab = s.ntab → s'.tabs = s.tabs →
      h < s'.ntab ∧ s'.cap h = s.cap h ∧ ∀ j, (s.key h j ≠ .empty → s'.key h j ≠ .empty) ∧ ∀ u, u ≠ t → s'.key h j = .of u → s.key h j = .of u := fun h1 h2 => by
    refine ⟨by rw [h1]; exact hh, by simp only [State.cap, h2], fun j => ?_⟩
    simp only [State.key, h2]
    exact ⟨id, fun _ _ => id⟩
  have hkey : ∀ {s' : State} {m j K}, s'.ntab = s.ntab → s'.tabs = upd s.tabs m { s.tabs m with key := upd (s.tabs m).key j K } → K ≠ .empty → (∀ u, K = .of u → u = t) →
      h < s'.ntab ∧ s'.cap h = s.cap h ∧ ∀ j, (s.key h j ≠ .empty → s'.key h j ≠ .empty) ∧ ∀ u, u ≠ t → s'.key h j = .of u → s.key h j = .of u := fun h1 h2 h3 h4 => by
    refine ⟨by rw [h1]; exact hh, by simp only [State.cap, h2, upd]; split <;> simp_all, fun j => ?_⟩
    simp only [State.key, h2, upd]
    split <;> grind [upd]
  cases hs
  case build nc m k hp hk hmin =>
    have e : h ≠ s.ntab := by omega
    refine ⟨by simp only; omega, by simp only [State.cap, upd_ne _ _ e], fun j => ?_⟩
    simp only [State.key, upd_ne _ _ e]
    exact ⟨id, fun _ _ => id⟩
  case put => exact hkey rfl rfl (by simp) (fun u hu => by cases hu; rfl)
  case put2 => exact hkey rfl rfl (by simp) (fun u hu => by cases hu; rfl)
  case xHit => exact hkey rfl rfl (by simp) (fun u hu => nomatch hu)
  case putV m j v hp =>
    refine ⟨hh, by simp only [State.cap, upd]; split <;> simp_all, fun j => ?_⟩
    simp only [State.key, upd]
    split <;> simp_all
  all_goals exact htab rfl rfl

theorem Trapped.step {u s s' t h} (I : Inv hash s) (T : Trapped s t h) (hs : Step hash u s s') : Trapped s' t h := by
  obtain ⟨hh, ⟨m, k, hp⟩, hf⟩ := T
  obtain ⟨g1, g2, g3⟩ := hs.grow hh
  by_cases hu : t = u
  · subst hu
    have hsl : s.slot hash t h k < s.cap h := Nat.mod_lt _ (I.pos h hh)
    obtain ⟨f1, f2⟩ := hf _ hsl
    cases hs
    case other m' h' k' hq hk hv =>
      rw [hp] at hq
      cases hq
      exact ⟨hh, ⟨m, k + 1, upd_same ..⟩, hf⟩
    case hit m' h' k' hq hk => rw [hp] at hq; cases hq; exact absurd hk f2
    case miss m' h' k' hq hk => rw [hp] at hq; cases hq; exact absurd hk f1
    all_goals (exfalso; simp_all)
  · refine ⟨g1, ⟨m, k, by rw [hs.pc hu]; exact hp⟩, fun j hj => ?_⟩
    rw [g2] at hj
    exact ⟨(g3 j).1 (hf j hj).1, fun e => (hf j hj).2 ((g3 j).2 t hu e)⟩

/-- a step of the plan: `n` steps of a thread, or a whole call, or the exit of a thread -/
inductive Cmd
  | steps (t n : Nat)
  | call (t : Nat)
  | exit (t : Nat)

/-- until the thread is outside a call -/
def whole (hash : Nat → Nat) (t : Nat) (x : Bool) : Nat → State → Option State
  | 0, _ => none
  | n + 1, s => (go hash t x s).bind fun s' => if s'.pc t = .out then some s' else whole hash t x n s'

def some' (hash : Nat → Nat) (t : Nat) : Nat → State → Option State
  | 0, s => some s
  | n + 1, s => (go hash t false s).bind (some' hash t n)

def Cmd.thr : Cmd → Nat
  | .steps t _ => t
  | .call t => t
  | .exit t => t

def Cmd.run (hash : Nat → Nat) : Cmd → State → Option State
  | .steps t n => some' hash t n
  | .call t => whole hash t false 200
  | .exit t => whole hash t true 200

def plan (hash : Nat → Nat) : List Cmd → State → Option State
  | [], s => some s
  | c :: l, s => (c.run hash s).bind (plan hash l)

theorem whole_reach {C t x n s s'} (hr : Reach hash C s) (h : whole hash t x n s = some s') : Reach hash C s' ∧ ∀ u, u ≠ t → s'.pc u = s.pc u := by
  induction n generalizing s with
  | zero => exact nomatch h
  | succ n ih =>
    simp only [whole] at h
    cases he : go hash t x s with
    | none => rw [he] at h; exact nomatch h
    | some w =>
      rw [he] at h
      have hs := go_step he
      simp only [Option.bind_some] at h
      split at h
      · cases h; exact ⟨.step t hr hs, fun u hu => hs.pc hu⟩
      · obtain ⟨a, b⟩ := ih (.step t hr hs) h
        exact ⟨a, fun u hu => by rw [b u hu, hs.pc hu]⟩

theorem some_reach {C t n s s'} (hr : Reach hash C s) (h : some' hash t n s = some s') : Reach hash C s' ∧ ∀ u, u ≠ t → s'.pc u = s.pc u := by
  induction n generalizing s with
  | zero => cases h; exact ⟨hr, fun _ _ => rfl⟩
  | succ n ih =>
    simp only [some'] at h
    cases he : go hash t false s with
    | none => rw [he] at h; exact nomatch h
    | some w =>
      rw [he] at h
      have hs := go_step he
      obtain ⟨a, b⟩ := ih (.step t hr hs) h
      exact ⟨a, fun u hu => by rw [b u hu, hs.pc hu]⟩

theorem plan_reach {C l s s'} (hr : Reach hash C s) (h : plan hash l s = some s') : Reach hash C s' ∧ ∀ u, (∀ c, c ∈ l → u ≠ c.thr) → s'.pc u = s.pc u := by
  induction l generalizing s with
  | nil => cases h; exact ⟨hr, fun _ _ => rfl⟩
  | cons c l ih =>
    simp only [plan] at h
    cases he : c.run hash s with
    | none => rw [he] at h; exact nomatch h
    | some w =>
      rw [he] at h
      have h1 : Reach hash C w ∧ ∀ u, u ≠ c.thr → w.pc u = s.pc u := by
        cases c with
        | steps t n => exact some_reach hr he
        | call t => exact whole_reach hr he
        | exit t => exact whole_reach hr he
      obtain ⟨a, b⟩ := ih h1.1 h
      exact ⟨a, fun u hu => by rw [b u fun c hc => hu c (List.mem_cons_of_mem _ hc), h1.2 u (hu c (List.mem_cons_self ..))]⟩

/-- The threads of the execution: 0; 1, which builds the second table; 2 to 22, which wait with an entry for the first table; 24 to 44, each of which enters where one of those was;
45 to 86, which come and go; 23, which builds the third table. The hash is chosen so that the entries do not collide more than necessary. -/
def hs (t : Nat) : Nat :=
  if t = 1 then 63 else if t = 23 then 62 else if t < 24 then 0 else t - 24

/-- Thread 0 enters the first table (32 entries). Threads 2 to 22 get the numbers up to 23 and stop before line 3233; thread 1 has taken the lock in between, builds the second table (64 entries) and enters it. Thread 0
exits. Then 21 times: the next of the waiting threads takes the dead entry of the first table, calls again and so enters the second table, and exits; a new thread takes its dead entry there. Each time the count goes back to 2
and the second table has one entry more. Then 42 threads come and go, the last ones while thread 23 has the lock. -/
def filling : List Cmd :=
  [.call 0] ++ (List.range 14).map (fun i => .steps (2 + i) 7) ++ [.steps 1 7] ++ (List.range 7).map (fun i => .steps (16 + i) 8) ++ [.call 1, .exit 0] ++
    (List.range 21).flatMap (fun i => [.call (2 + i), .call (2 + i), .exit (2 + i), .call (24 + i)]) ++
    (List.range 29).flatMap (fun i => [.call (45 + i), .exit (45 + i)]) ++ [.steps 23 7] ++
    (List.range 13).flatMap (fun i => [.call (74 + i), .exit (74 + i)]) ++ [.call 23]

end RG.PH
