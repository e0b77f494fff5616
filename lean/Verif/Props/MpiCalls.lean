import Verif.Lemmas.MpiCalls
/- C109: waiting for MPI requests. -/
namespace RG.MpiCalls

variable {R : Nat → Option Nat} {T : Nat → Bool} {s s' : State}

/-- C109: A call of `get_status` that has returned has returned the status with which MPI completed its own request. -/
theorem C109_own_status (h : Reach R T s) {c : Nat} {v : Option Nat} (hc : s.pc c = .ret v) : ∃ r w, R c = some r ∧ s.done r = some w ∧ v = some w := by
  obtain ⟨h1, h2⟩ := (inv h).ret c v hc
  obtain ⟨r, w, h3, h4, h5⟩ := (inv h).has c h1
  exact ⟨r, w, h3, h4, h2.trans h5⟩

/-- C109: The event of a call is notified at most once, after the request has been completed and its status was written; a status object is not changed after that. -/
theorem C109_notified_once (h : Reach R T s) (c : Nat) :
    s.ev c ≤ 1 ∧ (s.ev c = 1 → (∃ r w, R c = some r ∧ s.done r = some w ∧ s.st c = some w) ∧ ∀ s', Step R T s s' → s'.st c = s.st c) := by
  have I := inv h
  refine ⟨I.ev1 c, fun hc => ⟨I.has c hc, fun s' hs => ?_⟩⟩
  cases hs with
  | @write i v rest d hp hd =>
    have hI := I.poll
    rw [hp] at hI
    rw [I.sts] at hd
    have := hI.2 d (List.mem_of_getElem? hd)
    exact upd_ne _ _ (by rintro rfl; omega)
  | _ => rfl

/-- the index that `poll` uses next -/
def Poll.index : Poll → Option Nat
  | .loop ((i, _) :: _) | .notify i _ | .erase i _ => some i
  | _ => none

/-- C109: `poll` uses no index outside the vectors, and the three vectors have the request, the event and the status object of the same call at the index. -/
theorem C109_in_range (h : Reach R T s) {i : Nat} (hi : s.poll.index = some i) :
    ∃ c, s.requests[i]? = some (R c) ∧ s.events[i]? = some c ∧ s.statuses[i]? = some c := by
  have I := inv h
  have hp := I.poll
  suffices he : ∃ c, s.events[i]? = some c by
    obtain ⟨c, hc⟩ := he
    exact ⟨c, by rw [I.req, List.getElem?_map, hc]; rfl, hc, by rw [I.sts]; exact hc⟩
  cases hq : s.poll with
  | idle => rw [hq] at hi; cases hi
  | loop rest =>
    rw [hq] at hi hp
    cases rest with
    | nil => cases hi
    | cons x l =>
      cases hi
      obtain ⟨c, -, hc, -⟩ := hp.1.at_ x List.mem_cons_self
      exact ⟨c, hc⟩
  | notify j rest => rw [hq] at hi hp; cases hi; obtain ⟨-, -, -, c, hc, -⟩ := hp; exact ⟨c, hc⟩
  | erase j rest => rw [hq] at hi hp; cases hi; obtain ⟨-, -, c, hc, -⟩ := hp; exact ⟨c, hc⟩

/-- a step of `poll` or of a call that has been registered, other than a test that finds nothing -/
def Work (R : Nat → Option Nat) (T : Nat → Bool) (s s' : State) : Prop :=
  Step R T s s' ∧ s'.done = s.done ∧ (∀ c, s.pc c = .new → s'.pc c = .new) ∧ (s.poll = .idle → s'.poll ≠ .loop [])

/-- C109: As long as a call waits for a request that MPI has completed, something can happen: the call is not forgotten. -/
theorem C109_not_stuck (h : Reach R T s) {c r v : Nat} (hc : s.pc c = .waiting) (hr : R c = some r) (hd : s.done r = some v) : ∃ s', Work R T s s' := by
  have I := inv h
  have hp := I.poll
  cases hq : s.poll with
  | idle =>
    rcases I.waiting c hc with hm | he
    · obtain ⟨i, hi, e⟩ := List.getElem_of_mem hm
      have hrq : s.requests[i]? = some (some r) := by rw [I.req, List.getElem?_map, List.getElem?_eq_getElem hi, e, ← hr]; rfl
      refine ⟨_, Step.test (rep := [(i, v)]) hq ?_ ⟨by simp, ?_, nofun⟩, rfl, fun _ h => h, nofun⟩
      · intro h0; rw [h0] at hrq; cases hrq
      · intro x hx
        rw [List.mem_singleton.mp hx]
        exact ⟨r, hrq, hd⟩
    · refine ⟨_, .ret hc (by omega), rfl, fun d hd => ?_, fun _ => by dsimp only; rw [hq]; nofun⟩
      dsimp only
      rw [upd_ne _ _ (by rintro rfl; rw [hc] at hd; cases hd)]
      exact hd
  | loop rest =>
    cases rest with
    | nil => exact ⟨_, .unlock hq, rfl, fun _ h => h, fun e => by rw [hq] at e; cases e⟩
    | cons x rest =>
      obtain ⟨d, -, -, h2⟩ := C109_in_range h (i := x.1) (by rw [hq]; rfl)
      exact ⟨_, .write (v := x.2) hq h2, rfl, fun _ h => h, fun e => by rw [hq] at e; cases e⟩
  | notify i rest =>
    obtain ⟨d, -, h2, -⟩ := C109_in_range h (i := i) (by rw [hq]; rfl)
    exact ⟨_, .notify hq h2, rfl, fun _ h => h, fun e => by rw [hq] at e; cases e⟩
  | erase i rest => exact ⟨_, .erase hq, rfl, fun _ h => h, fun e => by rw [hq] at e; cases e⟩

/-! the measure -/

def Poll.phase : Poll → Nat
  | .idle => 5
  | .loop [] => 6
  | .loop _ => 4
  | .notify .. => 3
  | .erase .. => 1

/-- number of the first `n` calls that wait -/
def count (pc : Nat → Pc) : Nat → Nat
  | 0 => 0
  | n + 1 => (if pc n = .waiting then 1 else 0) + count pc n

theorem count_upd {pc : Nat → Pc} {c n : Nat} {v : Option Nat} (hc : pc c = .waiting) :
    (c < n → count (upd pc c (.ret v)) n < count pc n) ∧ (n ≤ c → count (upd pc c (.ret v)) n = count pc n) := by
  induction n with
  | zero => exact ⟨fun h => absurd h (Nat.not_lt_zero _), fun _ => rfl⟩
  | succ n ih =>
    unfold count
    constructor
    · intro h
      by_cases e : n = c
      · subst e; rw [upd_same, ih.2 (Nat.le_refl _), if_neg (by nofun), if_pos hc]; omega
      · rw [upd_ne _ _ e]; have := ih.1 (by omega); omega
    · intro h
      rw [upd_ne _ _ (by omega), ih.2 (by omega)]

theorem bounded (h : Reach R T s) : ∃ n, ∀ c, n ≤ c → s.pc c = .new := by
  induction h with
  | init => exact ⟨0, fun _ _ => rfl⟩
  | step _ hs ih =>
    obtain ⟨n, hn⟩ := ih
    cases hs with
    | @outside c _ hc => exact ⟨n + c + 1, fun d hd => by dsimp only; rw [upd_ne _ _ (by omega)]; exact hn d (by omega)⟩
    | @register c _ hc hp => exact ⟨n + c + 1, fun d hd => by dsimp only; rw [upd_ne _ _ (by omega)]; exact hn d (by omega)⟩
    | @ret c hc he => exact ⟨n + c + 1, fun d hd => by dsimp only; rw [upd_ne _ _ (by omega)]; exact hn d (by omega)⟩
    | _ => exact ⟨n, hn⟩

theorem work_less {n : Nat} (h : Reach R T s) (hn : ∀ c, n ≤ c → s.pc c = .new) (hw : Work R T s s') :
    6 * s'.events.length + s'.poll.phase + count s'.pc n < 6 * s.events.length + s.poll.phase + count s.pc n := by
  obtain ⟨hs, hd, hnew, ht⟩ := hw
  cases hs with
  | @complete r v hr => have := congrFun hd r; dsimp only at this; rw [upd_same, hr] at this; cases this
  | @outside c _ hc => have := hnew c hc; dsimp only at this; rw [upd_same] at this; cases this
  | @register c _ hc hp => have := hnew c hc; dsimp only at this; rw [upd_same] at this; cases this
  | @test rep hp hr hrep =>
    have := ht hp
    cases rep with
    | nil => exact absurd rfl this
    | cons x l => rw [hp]; dsimp only [Poll.phase]; omega
  | write hp hc => rw [hp]; dsimp only [Poll.phase]; omega
  | notify hp hc => rw [hp]; dsimp only [Poll.phase]; omega
  | @erase i rest hp =>
    obtain ⟨c, -, hc, -⟩ := C109_in_range h (i := i) (by rw [hp]; rfl)
    have hi := (List.getElem?_eq_some_iff.mp hc).1
    have hl := List.length_eraseIdx_of_lt hi
    rw [hp]
    dsimp only
    have hph : (Poll.loop (shift i rest)).phase ≤ 6 := by cases shift i rest <;> simp [Poll.phase]
    have : (Poll.erase i rest).phase = 1 := rfl
    omega
  | unlock hp => rw [hp]; dsimp only [Poll.phase]; omega
  | @ret c hc he =>
    have hlt : c < n := by
      refine Decidable.byContradiction fun hge => ?_
      rw [hn c (by omega)] at hc; cases hc
    have := (count_upd (v := s.st c) hc).1 hlt
    dsimp only
    omega

/-- C109: The work of `poll` and of the calls comes to an end, unless MPI completes further requests or there are further calls. So, with `C109_not_stuck`, if `poll` is
called again and again, then every call returns whose request MPI completes. -/
theorem C109_ends (h : Reach R T s) : ¬ ∃ f : Nat → State, f 0 = s ∧ ∀ i, Work R T (f i) (f (i + 1)) := by
  rintro ⟨f, h0, hf⟩
  obtain ⟨n, hn⟩ := bounded h
  have hr : ∀ i, Reach R T (f i) := by
    intro i
    induction i with
    | zero => rw [h0]; exact h
    | succ i ih => exact .step ih (hf i).1
  have hb : ∀ i c, n ≤ c → (f i).pc c = .new := by
    intro i
    induction i with
    | zero => rw [h0]; exact hn
    | succ i ih => exact fun c hc => (hf i).2.2.1 c (ih c hc)
  have hm : ∀ i, 6 * (f i).events.length + (f i).poll.phase + count (f i).pc n + i ≤ 6 * (f 0).events.length + (f 0).poll.phase + count (f 0).pc n := by
    intro i
    induction i with
    | zero => exact Nat.le_refl _
    | succ i ih => have := work_less (hr i) (hb i) (hf i); omega
  have := hm (6 * (f 0).events.length + (f 0).poll.phase + count (f 0).pc n + 1)
  omega

theorem steps_reach (h : Reach R T s) (hs : Steps R T s s') : Reach R T s' := by
  induction hs with
  | refl => exact h
  | step _ hs ih => exact .step ih hs

theorem steps_waiting (hs : Steps R T s s') {c : Nat} (hc : s.pc c = .waiting) : s'.pc c = .waiting ∨ ∃ v, s'.pc c = .ret v := by
  induction hs with
  | refl => exact .inl hc
  | step _ hs ih =>
    cases hs with
    | @outside d _ hd =>
      have e : c ≠ d := by rintro rfl; rcases ih with h | ⟨v, h⟩ <;> rw [h] at hd <;> cases hd
      dsimp only; rw [upd_ne _ _ e]; exact ih
    | @register d _ hd _ =>
      have e : c ≠ d := by rintro rfl; rcases ih with h | ⟨v, h⟩ <;> rw [h] at hd <;> cases hd
      dsimp only; rw [upd_ne _ _ e]; exact ih
    | @ret d hd _ =>
      dsimp only
      by_cases e : c = d
      · subst e; exact .inr ⟨_, upd_same ..⟩
      · rw [upd_ne _ _ e]; exact ih
    | _ => exact ih

/-- C109 is false for MPI_REQUEST_NULL: `MPI_Wait` returns at once for it, but `get_status` never returns, whatever else happens. -/
theorem C109_null_false : ∃ s, Reach (fun _ => none) (fun _ => true) s ∧ s.pc 0 = .waiting ∧ ∀ s', Steps (fun _ => none) (fun _ => true) s s' → s'.pc 0 = .waiting := by
  have a := Reach.step (R := fun _ => none) (T := fun _ => true) .init (.register (c := 0) rfl rfl rfl)
  refine ⟨_, a, rfl, fun s' hs => ?_⟩
  rcases steps_waiting (c := 0) hs rfl with h | ⟨v, h⟩
  · exact h
  · obtain ⟨r, w, h1, -⟩ := C109_own_status (steps_reach a hs) h
    cases h1

/-- C109: Calls that are made in tasks have no undefined behaviour. -/
theorem C109_no_ub_partial (h : Reach R T s) {c : Nat} (hc : T c = true) : s.pc c ≠ .ub := by
  induction h with
  | init => nofun
  | step _ hs ih =>
    cases hs with
    | @outside d hd _ => dsimp only; rw [upd_ne _ _ (by rintro rfl; rw [hc] at hd; cases hd)]; exact ih
    | @register d _ _ _ => dsimp only; by_cases e : c = d; (· subst e; rw [upd_same]; nofun); rw [upd_ne _ _ e]; exact ih
    | @ret d _ _ => dsimp only; by_cases e : c = d; (· subst e; rw [upd_same]; nofun); rw [upd_ne _ _ e]; exact ih
    | _ => exact ih

/-- C109 is false outside of tasks: `create_event` returns nothing there, and `get_status` uses its value nevertheless. -/
theorem C109_outside_false : ∃ s, Reach some (fun _ => false) s ∧ s.pc 0 = .ub := ⟨_, .step .init (.outside (c := 0) rfl rfl), rfl⟩

/-- three calls; the third request and the first one are completed and reported, in this order -/
theorem sample : ∃ s, Reach some (fun _ => true) s ∧ s.pc 0 = .ret (some 10) ∧ s.pc 1 = .waiting ∧ s.pc 2 = .waiting ∧ s.ev 2 = 1 ∧ s.events = [1] ∧ s.poll = .idle := by
  have a1 := Reach.step (R := some) (T := fun _ => true) .init (.register (c := 0) rfl rfl rfl)
  have a2 := Reach.step a1 (.register (c := 1) rfl rfl rfl)
  have a3 := Reach.step a2 (.register (c := 2) rfl rfl rfl)
  have a4 := Reach.step a3 (.complete (r := 0) (v := 10) rfl)
  have a5 := Reach.step a4 (.complete (r := 2) (v := 12) rfl)
  have b1 := Reach.step a5 (.test (rep := [(2, 12), (0, 10)]) rfl nofun ⟨by decide, by
    intro x hx
    rcases List.mem_cons.mp hx with rfl | hx
    · exact ⟨2, rfl, rfl⟩
    · rw [List.mem_singleton.mp hx]; exact ⟨0, rfl, rfl⟩, nofun⟩)
  have b2 := Reach.step b1 (.write (i := 2) (v := 12) (rest := [(0, 10)]) (c := 2) rfl rfl)
  have b3 := Reach.step b2 (.notify (i := 2) (rest := [(0, 10)]) (c := 2) rfl rfl)
  have b4 := Reach.step b3 (.erase (i := 2) (rest := [(0, 10)]) rfl)
  have b5 := Reach.step b4 (.write (i := 0) (v := 10) (rest := []) (c := 0) rfl rfl)
  have b6 := Reach.step b5 (.notify (i := 0) (rest := []) (c := 0) rfl rfl)
  have b7 := Reach.step b6 (.erase (i := 0) (rest := []) rfl)
  have b8 := Reach.step b7 (.unlock rfl)
  have b9 := Reach.step b8 (.ret (c := 0) rfl (by decide))
  exact ⟨_, b9, rfl, rfl, rfl, rfl, rfl, rfl⟩

example : ∃ s, Reach some (fun _ => true) s ∧ s.pc 0 = .ret (some 10) ∧ s.done 0 = some 10 := by
  obtain ⟨s, h, h1, -⟩ := sample
  obtain ⟨r, w, h2, h3, h4⟩ := C109_own_status h h1
  cases h2
  cases h4
  exact ⟨s, h, h1, h3⟩

example : ∃ s, Reach some (fun _ => true) s ∧ s.pc 2 = .waiting ∧ ∃ s', Work some (fun _ => true) s s' := by
  obtain ⟨s, h, -, -, h1, h2, -⟩ := sample
  obtain ⟨r, w, h3, h4, -⟩ := ((C109_notified_once h 2).2 h2).1
  exact ⟨s, h, h1, C109_not_stuck h h1 h3 h4⟩

/-- an index in use -/
example : ∃ s, Reach some (fun _ => true) s ∧ s.poll.index = some 1 := by
  have a1 := Reach.step (R := some) (T := fun _ => true) .init (.register (c := 0) rfl rfl rfl)
  have a2 := Reach.step a1 (.register (c := 1) rfl rfl rfl)
  have a3 := Reach.step a2 (.complete (r := 1) (v := 7) rfl)
  have a4 := Reach.step a3 (.test (rep := [(1, 7)]) rfl nofun ⟨by decide, by
    intro x hx; rw [List.mem_singleton.mp hx]; exact ⟨1, rfl, rfl⟩, nofun⟩)
  exact ⟨_, a4, rfl⟩

end RG.MpiCalls
