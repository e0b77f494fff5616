import Verif.Lemmas.ProducerHash4
import Verif.Props.FreeList
/-
C91: every thread that pushes into a queue of tasks has a sub-queue of its own.
-/
namespace RG.PH

variable {hash : Nat → Nat}

/-- the state after a plan -/
def doing (hash : Nat → Nat) (C : Nat) (l : List Cmd) : State := (plan hash l (init C)).getD (init C)

theorem doing_reach (hash C l) : Reach hash C (doing hash C l) := by
  unfold doing
  cases h : plan hash l (init C) with
  | none => exact .init
  | some s => exact (plan_reach .init h).1

/-- initial capacity 4, all threads with the same hash: thread 0 gets its sub-queue; thread 1 needs a bigger table and builds it; thread 2 enters the new table; thread 0 calls again, finds itself in
the old table and enters the new one; then all call once more -/
def grown : List Cmd := [.call 0, .call 1, .call 2, .call 0, .call 1, .call 2, .call 0]

/-- then threads 0 and 1 exit, and thread 3 comes -/
def recycled : List Cmd := grown ++ [.exit 0, .exit 1, .call 3]

/-- threads 1 and 2 are inside their first calls at the same time, thread 1 with the lock -/
def both : List Cmd := [.call 0, .steps 1 8, .steps 2 5]

/-- C91. Two threads that are alive never have the same sub-queue, also if the sub-queues of threads that have exited are given to new threads. -/
theorem C91_own_subqueue {C s} (hC : 0 < C) (h : Reach hash C s) {t t' p} (h1 : s.got t = some p) (h2 : s.got t' = some p) : t = t' :=
  (h.inv hC).prodInj t t' p ((h.inv hC).got t p h1).1 ((h.inv hC).got t' p h2).1

/-- C91. A call never returns none, and all calls of a thread return the same sub-queue. -/
theorem C91_same_subqueue {C s} (hC : 0 < C) (h : Reach hash C s) {t v} (h1 : s.pc t = .ret v) : v ≠ none ∧ (s.got t ≠ none → s.got t = v) := by
  have I := h.inv hC
  have ht := I.thr t
  rw [h1] at ht
  refine ⟨ht.2.1, fun hg => ?_⟩
  cases hq : s.got t with
  | none => exact absurd hq hg
  | some q => rw [← ht.1, (I.got t q hq).1]

example : (List.range 3).map (doing (fun _ => 0) 4 grown).got = [some 0, some 1, some 2] ∧ (doing (fun _ => 0) 4 grown).ntab = 2 ∧
    (doing (fun _ => 0) 4 (grown ++ [.steps 1 3])).pc 1 = .ret (some 1) := by decide +kernel

/-- thread 3 gets the sub-queue of thread 1, which has exited -/
example : (List.range 4).map (doing (fun _ => 0) 4 recycled).got = [none, none, some 2, some 1] ∧ (doing (fun _ => 0) 4 recycled).nprod = 3 := by decide +kernel

/-- C91. The sub-queue a call has returned is in the list that consumers search, exactly once. -/
theorem C91_listed {C s} (hC : 0 < C) (h : Reach hash C s) {t p} (h1 : s.got t = some p) :
    ∃ l, FL.Follow s.next s.tail l ∧ l.Nodup ∧ p ∈ l := by
  have I := h.inv hC
  have a := I.got t _ h1
  refine ⟨s.plist, FL.Chain.follow I.chain, I.plistNodup, ?_⟩
  rcases I.listed t p a.1 with h2 | h2
  · exact h2
  · rw [a.2] at h2; exact nomatch h2

/-- C91. The list of sub-queues is never cut: a sub-queue that was in the list stays in it, also when its thread exits (elements it has left there are still found). -/
theorem C91_stays_listed {C s s' t} (hC : 0 < C) (h : Reach hash C s) (hs : Step hash t s s') {l l'} (hl : FL.Follow s.next s.tail l) (hl' : FL.Follow s'.next s'.tail l') : l <:+ l' := by
  have uniq : ∀ {nx hd l1 l2}, FL.Follow nx hd l1 → FL.Follow nx hd l2 → l1 = l2 := by
    intro nx hd l1 l2 h1
    induction h1 generalizing l2 with
    | nil => intro h2; cases h2; rfl
    | cons _ ih => intro h2; cases h2 with | cons h2 => rw [ih h2]
  have I := h.inv hC
  have I' := hs.inv I
  rw [uniq hl (FL.Chain.follow I.chain), uniq hl' (FL.Chain.follow I'.chain)]
  cases hs <;> first | exact List.suffix_refl _ | exact List.suffix_cons _ _

example : (doing (fun _ => 0) 4 recycled).plist = [2, 1, 0] := by decide +kernel

/-- C91. A thread that has exited is forgotten: no table has an entry for it, so that a later thread with the same id starts anew. -/
theorem C91_exit_forgets {C s} (hC : 0 < C) (h : Reach hash C s) {t} (h1 : s.pc t = .out) (h2 : s.got t = none) {m} (hm : m < s.ntab) (j) : s.key m j ≠ .of t := by
  have ht := (h.inv hC).thr t
  rw [h1] at ht
  rcases ht with ⟨_, _, hn⟩ | ⟨hp, _⟩
  · exact fun e => hn m hm ⟨j, e⟩
  · rw [← h.gotOut hC t h1] at hp; exact absurd h2 hp

/-- threads 0 and 1 have exited; their entries in the two tables of that time are dead -/
example : (doing (fun _ => 0) 4 recycled).pc 0 = .out ∧ (doing (fun _ => 0) 4 recycled).got 0 = none ∧
    (List.range 4).map ((doing (fun _ => 0) 4 recycled).key 0) = [.dead, .empty, .empty, .empty] ∧
    (List.range 8).map ((doing (fun _ => 0) 4 recycled).key 1) = [.dead, .of 2, .dead, .empty, .empty, .empty, .empty, .empty] := by decide +kernel

/-- C91. No table ever gets full: as long as no thread exits, every table the queue has (the current one and all older ones, which are still searched) has an empty entry. With threads that exit this is true as long as
there is one table; see `C91_never_full_false`. -/
theorem C91_never_full_partial {C s} (hC : 0 < C) (h : Reach hash C s) (hx : s.exited = false ∨ s.ntab = 1) {m} (hm : m < s.ntab) : ∃ j, j < s.cap m ∧ s.key m j = .empty := by
  rcases hx with hx | hx
  · exact (h.inv hC).free hx hm
  · have : m = 0 := by omega
    subst this
    exact (h.one hC).free (h.inv hC) hx

example : (doing (fun _ => 0) 4 grown).exited = false ∧ (doing (fun _ => 0) 4 grown).ntab = 2 := by decide +kernel
example : (doing (fun _ => 0) 8 [.call 0, .exit 0, .call 1, .exit 1, .call 2]).exited = true ∧ (doing (fun _ => 0) 8 [.call 0, .exit 0, .call 1, .exit 1, .call 2]).ntab = 1 := by decide +kernel

/-- C91. No search probes an entry twice in a table that is not full: a thread that looks for itself in a table, or for an entry to take, or for its entry when it exits, has seen fewer entries than the table has. -/
theorem C91_probes {C s} (hC : 0 < C) (h : Reach hash C s) {t m k} (hm : m < s.ntab) (hf : ∃ j, j < s.cap m ∧ s.key m j = .empty)
    (hp : (∃ m', s.pc t = .look m' m k) ∨ (∃ v lz, s.pc t = .put m k v lz) ∨ (∃ v lz, s.pc t = .put2 m k v lz) ∨ s.pc t = .xScan m k) : k < s.cap m := by
  have I := h.inv hC
  have ht := I.thr t
  rcases hp with ⟨m', hp⟩ | ⟨v, lz, hp⟩ | ⟨v, lz, hp⟩ | hp <;> rw [hp] at ht
  · exact I.probe hm hf fun k' hk' => (ht.2.2.2.2 k' hk').1
  · exact I.probe hm hf ht.2.2.2.2.2.1
  · exact I.probe hm hf ht.2.2.2.2.2.1
  · exact I.probe hm hf fun k' hk' => (ht.2.2.2 k' hk').1

example : (doing (fun _ => 0) 4 [.call 0, .steps 1 3]).pc 1 = .look 0 0 1 ∧ (doing (fun _ => 0) 4 [.call 0, .steps 1 3]).key 0 1 = .empty := by decide +kernel

/-- C91. At most one thread builds a table at a time. -/
theorem C91_one_resizer {C s} (hC : 0 < C) (h : Reach hash C s) {t t' nc nc' m m'} (h1 : s.pc t = .build nc m) (h2 : s.pc t' = .build nc' m') : t = t' :=
  (h.inv hC).lockUniq t t' (by rw [h1]; trivial) (by rw [h2]; trivial)

example : (doing (fun _ => 0) 4 both).pc 1 = .build 2 0 ∧ (doing (fun _ => 0) 4 both).pc 2 = .chk 3 0 ∧ (doing (fun _ => 0) 4 both).lock = true := by decide +kernel

/-- C91. A call, and the exit of a thread, always finishes if its thread runs alone, unless another thread is building a table or a table gets full: in every execution of one thread from such a state the thread leaves
the call, and until then it can always take a step. -/
theorem C91_finishes {C s} (hC : 0 < C) (h : Reach hash C s) (t) (hno : ∀ u, u ≠ t → ¬ locks (s.pc u)) :
    (¬ ∃ f : Nat → State, f 0 = s ∧ (∀ i, Solo hash t (f i) (f (i + 1))) ∧ ∀ i m, m < (f i).ntab → ∃ j, j < (f i).cap m ∧ (f i).key m j = .empty) ∧
    (s.pc t ≠ .out → ∃ s', Solo hash t s s') := by
  refine ⟨?_, (h.inv hC).enabled t⟩
  rintro ⟨f, h0, hf, hfree⟩
  have hr : ∀ i, Reach hash C (f i) ∧ ∀ u, u ≠ t → (f i).pc u = s.pc u := by
    intro i
    induction i with
    | zero => rw [h0]; exact ⟨h, fun _ _ => rfl⟩
    | succ i ih => exact ⟨.step t ih.1 (hf i).step, fun u hu => by rw [(hf i).step.pc hu, ih.2 u hu]⟩
  have hl : ∀ i, Less (phase (f (i + 1)) ((f (i + 1)).pc t)) (phase (f i) ((f i).pc t)) := by
    intro i
    have hno' : ∀ u, u ≠ t → ¬ locks ((f i).pc u) := fun u hu => by rw [(hr i).2 u hu]; exact hno u hu
    refine (hf i).less ((hr i).1.inv hC) (hfree i) fun hlk => ?_
    obtain ⟨u, hu⟩ := (hr i).1.locked hlk
    by_cases e : u = t
    · subst e; exact hu
    · exact absurd hu (hno' u e)
  have acc : ∀ a, Acc Less a → ∀ i, phase (f i) ((f i).pc t) = a → False := by
    intro a ha
    induction ha with
    | intro a _ ih => intro i hi; exact ih _ (hi ▸ hl i) (i + 1) rfl
  exact acc _ (less_wf.apply _) 0 rfl

/-- C91. Without threads that exit, a call always finishes if its thread runs alone, unless another thread is building a table. -/
theorem C91_finishes_no_exit {C s} (hC : 0 < C) (h : Reach hash C s) (t) (hno : ∀ u, u ≠ t → ¬ locks (s.pc u)) (hx : s.exited = false) :
    ¬ ∃ f : Nat → State, f 0 = s ∧ ∀ i, Solo hash t (f i) (f (i + 1)) := by
  rintro ⟨f, h0, hf⟩
  have hr : ∀ i, Reach hash C (f i) ∧ (f i).exited = false := by
    intro i
    induction i with
    | zero => rw [h0]; exact ⟨h, hx⟩
    | succ i ih =>
      refine ⟨.step t ih.1 (hf i).step, ?_⟩
      rw [← ih.2]
      have h1 := (hf i).step
      have h2 := (hf i).inside
      generalize f (i + 1) = s' at *
      cases h1
      case exit hp hg => exact absurd hp h2
      all_goals rfl
  exact (C91_finishes hC h t hno).1 ⟨f, h0, hf, fun i m hm => ((hr i).1.inv hC).free (hr i).2 hm⟩

/-- thread 2 in the middle of its first call, nobody else inside -/
example : (doing (fun _ => 0) 4 [.call 0, .steps 2 6]).pc 2 = .tas 2 0 ∧ (doing (fun _ => 0) 4 [.call 0, .steps 2 6]).lock = false ∧
    (doing (fun _ => 0) 4 [.call 0, .steps 2 6]).exited = false := by decide +kernel

/-- C91. What a full table does: a thread that is not in it and has come to it never leaves it, whatever it and all others do. -/
theorem C91_full_table_traps {C s s' u t h} (hC : 0 < C) (hr : Reach hash C s) (T : Trapped s t h) (hs : Step hash u s s') : Trapped s' t h := T.step (hr.inv hC) hs

/-- C91, false with threads that exit: with the initial capacity of the code (32) and a suitable hash there is an execution after which all calls have returned, and one of the tables has no empty entry (contrary to the comments
cq.h:3412 "at least one slot is free" and cq.h:3419-3421 "guaranteed to be room"). The next thread that pushes searches this table without end (cq.h:3409-3448): after four steps it is there, and `C91_full_table_traps` says it stays there. -/
theorem C91_never_full_false : ∃ s, Reach hs 32 s ∧ (∀ t, s.pc t = .out) ∧ (∃ m, m < s.ntab ∧ ∀ j, j < s.cap m → s.key m j ≠ .empty) ∧
    ∃ s', Reach hs 32 s' ∧ plan hs [.steps 87 4] s = some s' ∧ Trapped s' 87 1 := by
  have all : (plan hs filling (init 32)).isSome = true ∧ (∀ t, t < 87 → (doing hs 32 filling).pc t = .out) ∧
      (1 < (doing hs 32 filling).ntab ∧ ∀ j, j < (doing hs 32 filling).cap 1 → (doing hs 32 filling).key 1 j ≠ .empty) ∧
      (plan hs [.steps 87 4] (doing hs 32 filling)).isSome = true ∧ 1 < ((plan hs [.steps 87 4] (doing hs 32 filling)).getD (init 32)).ntab ∧
      ((plan hs [.steps 87 4] (doing hs 32 filling)).getD (init 32)).pc 87 = .look 2 1 1 ∧
      ∀ j, j < ((plan hs [.steps 87 4] (doing hs 32 filling)).getD (init 32)).cap 1 →
        ((plan hs [.steps 87 4] (doing hs 32 filling)).getD (init 32)).key 1 j ≠ .empty ∧ ((plan hs [.steps 87 4] (doing hs 32 filling)).getD (init 32)).key 1 j ≠ .of 87 := by
    decide +kernel
  obtain ⟨hsome, hout, hfull, h2, h3, h4, h5⟩ := all
  obtain ⟨s, he⟩ := Option.isSome_iff_exists.1 hsome
  have hd : s = doing hs 32 filling := by unfold doing; rw [he]; rfl
  have hr := plan_reach .init he
  rw [← hd] at hout hfull h2 h3 h4 h5
  obtain ⟨s', he'⟩ := Option.isSome_iff_exists.1 h2
  rw [he'] at h3 h4 h5
  refine ⟨s, hr.1, fun t => ?_, ⟨1, hfull⟩, s', (plan_reach hr.1 he').1, he', h3, ⟨2, 1, h4⟩, h5⟩
  by_cases ht : t < 87
  · exact hout t ht
  · rw [hr.2 t]
    · rfl
    · have : ∀ c, c ∈ filling → c.thr < 87 := by decide +kernel
      exact fun c hc e => ht (e ▸ this c hc)

/-- C91, the limit of `C91_finishes`: while another thread is building a table, a call can wait without end (the loop cq.h:3453-3532 is not lock-free). -/
theorem C91_waits_for_resize : ∃ (s : State) (f : Nat → State), Reach (fun _ => 0) 4 s ∧ f 0 = s ∧ (∀ i, Solo (fun _ => 0) 2 (f i) (f (i + 1))) ∧ ∃ nc m, s.pc 1 = .build nc m := by
  have hp : (doing (fun _ => 0) 4 both).pc 2 = .chk 3 0 := by decide +kernel
  have hl : (doing (fun _ => 0) 4 both).lock = true := by decide +kernel
  have hc : (doing (fun _ => 0) 4 both).cap 0 = 4 := by decide +kernel
  have hcur : (doing (fun _ => 0) 4 both).cur = 0 := by decide +kernel
  have h1 : (doing (fun _ => 0) 4 both).pc 1 = .build 2 0 := by decide +kernel
  have hr := doing_reach (fun _ => 0) 4 both
  revert hp hl hc hcur h1 hr
  generalize doing (fun _ => 0) 4 both = s
  intro hp hl hc hcur h1 hr
  have self : upd s.pc 2 (.chk 3 0) = s.pc := by
    funext u
    by_cases e : u = 2
    · subst e; rw [upd_same, hp]
    · rw [upd_ne _ _ e]
  have uu : ∀ a b, upd (upd s.pc 2 a) 2 b = upd s.pc 2 b := by
    intro a b; funext u
    by_cases e : u = 2
    · subst e; rw [upd_same, upd_same]
    · rw [upd_ne _ _ e, upd_ne _ _ e, upd_ne _ _ e]
  let cyc : Nat → Pc := fun i => if i % 4 = 0 then .chk 3 0 else if i % 4 = 1 then .tas 3 0 else if i % 4 = 2 then .fit 3 0 else .reMain 3
  refine ⟨s, fun i => { s with pc := upd s.pc 2 (cyc i) }, hr, ?_, ?_, 2, 0, h1⟩
  · show ({ s with pc := upd s.pc 2 (.chk 3 0) } : State) = s
    rw [self]
  · intro i
    have key : ∀ a b, cyc i = a → cyc (i + 1) = b → Step (fun _ => 0) 2 { s with pc := upd s.pc 2 a } { s with pc := upd s.pc 2 b } → a ≠ .out → (∀ m p v, a ≠ .addCas m p v) →
        Solo (fun _ => 0) 2 { s with pc := upd s.pc 2 (cyc i) } { s with pc := upd s.pc 2 (cyc (i + 1)) } := by
      intro a b ha hb hs h2 h3
      rw [ha, hb]
      exact ⟨hs, by simp only [upd_same]; exact h2, fun m p h => absurd (by simpa only [upd_same] using h) (h3 m p _)⟩
    have h4 : i % 4 = 0 ∨ i % 4 = 1 ∨ i % 4 = 2 ∨ i % 4 = 3 := by omega
    rcases h4 with h4 | h4 | h4 | h4
    · have h5 : (i + 1) % 4 = 1 := by omega
      refine key (.chk 3 0) (.tas 3 0) (by simp [cyc, h4]) (by simp [cyc, h5]) ?_ (by simp) (by simp)
      have := Step.chk (hash := fun _ => 0) (t := 2) (s := { s with pc := upd s.pc 2 (.chk 3 0) }) (nc := 3) (m := 0) (by simp only [upd_same])
      simp only [State.cap] at this hc
      simpa [uu, hc] using this
    · have h5 : (i + 1) % 4 = 2 := by omega
      refine key (.tas 3 0) (.fit 3 0) (by simp [cyc, h4]) (by simp [cyc, h5]) ?_ (by simp) (by simp)
      have := Step.tas (hash := fun _ => 0) (t := 2) (s := { s with pc := upd s.pc 2 (.tas 3 0) }) (nc := 3) (m := 0) (by simp only [upd_same])
      simp only [hl, uu, if_true] at this
      cases s; simp only at hl; subst hl; exact this
    · have h5 : (i + 1) % 4 = 3 := by omega
      refine key (.fit 3 0) (.reMain 3) (by simp [cyc, h4]) (by simp [cyc, h5]) ?_ (by simp) (by simp)
      have := Step.fit (hash := fun _ => 0) (t := 2) (s := { s with pc := upd s.pc 2 (.fit 3 0) }) (nc := 3) (m := 0) (by simp only [upd_same])
      simp only [State.room, State.cap] at this hc
      simpa [uu, hc] using this
    · have h5 : (i + 1) % 4 = 0 := by omega
      refine key (.reMain 3) (.chk 3 0) (by simp [cyc, h4]) (by simp [cyc, h5]) ?_ (by simp) (by simp)
      have := Step.reMain (hash := fun _ => 0) (t := 2) (s := { s with pc := upd s.pc 2 (.reMain 3) }) (nc := 3) (by simp only [upd_same])
      simpa [uu, hcur] using this

end RG.PH
