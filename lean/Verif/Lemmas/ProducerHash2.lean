import Verif.Lemmas.ProducerHash
import Mathlib.Data.Nat.Find
/-
A thread that looks for its sub-queue alone; an executor for examples.
-/
namespace RG.PH

variable {hash : Nat → Nat}

theorem Inv.probe {s} (I : Inv hash s) {t h k} (hh : h < s.ntab) (hf : ∃ j, j < s.cap h ∧ s.key h j = .empty) (hk : ∀ k', k' < k → s.key h (s.slot hash t h k') ≠ .empty) : k < s.cap h := by
  obtain ⟨j, hj, hn⟩ := hf
  refine Nat.lt_of_not_le fun hge => ?_
  have hpos := I.pos h hh
  refine hk ((j + (s.cap h - hash t % s.cap h)) % s.cap h) (Nat.lt_of_lt_of_le (Nat.mod_lt _ hpos) hge) ?_
  have : s.slot hash t h ((j + (s.cap h - hash t % s.cap h)) % s.cap h) = j := by
    unfold State.slot
    have hr := Nat.mod_lt (hash t) hpos
    rw [Nat.add_mod_mod, Nat.add_mod, Nat.add_mod j]
    have e : (hash t % s.cap h + (j + (s.cap h - hash t % s.cap h))) % s.cap h = j := by
      rw [show hash t % s.cap h + (j + (s.cap h - hash t % s.cap h)) = j + s.cap h by omega, Nat.add_mod_right, Nat.mod_eq_of_lt hj]
    have e2 : (hash t % s.cap h + (j % s.cap h + (s.cap h - hash t % s.cap h) % s.cap h) % s.cap h) % s.cap h =
        (hash t % s.cap h + (j + (s.cap h - hash t % s.cap h))) % s.cap h := by
      rw [← Nat.add_mod j, Nat.add_mod_mod]
    rw [e2, e]
  rw [this]
  exact hn

/-- how many elements of the list are left when a thread is at `q` -/
def dist (l : List Nat) : Option Nat → Nat
  | none => 0
  | some p => (l.dropWhile (fun x => x != p)).length

theorem dist_suffix {l l' : List Nat} {p} (hn : l.Nodup) (hs : p :: l' <:+ l) : dist l (some p) = l'.length + 1 := by
  induction l with
  | nil => have := hs.length_le; simp at this
  | cons q l ih =>
    rcases List.suffix_cons_iff.1 hs with h | h
    · cases h
      simp [dist]
    · have hq : p ≠ q := fun e => by subst e; exact (List.nodup_cons.1 hn).1 (h.subset (List.mem_cons_self ..))
      have := ih (List.nodup_cons.1 hn).2 h
      simp only [dist] at this ⊢
      rw [List.dropWhile_cons_of_pos (by simpa using fun e => hq e.symm)]
      exact this

theorem dist_next {s : State} (hn : s.plist.Nodup) {p l} (hc : FL.Chain s.next (some p) l) (hs : l <:+ s.plist) : dist s.plist (s.next p) < dist s.plist (some p) := by
  cases l with
  | nil => exact nomatch hc
  | cons q l =>
    obtain ⟨h1, h2⟩ := hc
    cases h1
    rw [dist_suffix hn hs]
    cases l with
    | nil => rw [show s.next p = none from h2]; exact Nat.succ_pos _
    | cons q l =>
      obtain ⟨h3, _⟩ := h2
      rw [h3, dist_suffix hn ((List.suffix_cons _ _).trans hs)]
      simp

/-- how far a thread is: never increases while it runs alone and nobody else has the lock -/
def phase (s : State) : Pc → Nat × Nat × Nat
  | .out => (0, 0, 0)
  | .ret _ => (1, 0, 0)
  | .putV _ _ _ => (2, 0, 0)
  | .dec _ _ _ => (3, 0, 0)
  | .put m k _ _ => (4, s.cap m - k, 1)
  | .put2 m k _ _ => (4, s.cap m - k, 0)
  | .addCas _ _ pv => (5, 0, if s.tail = pv then 0 else 1)
  | .add _ _ => (6, 0, 0)
  | .create _ => (7, 0, 0)
  | .find _ q => (8, dist s.plist q, 1)
  | .recCas _ p => (8, dist s.plist (some p), 0)
  | .fit nc m => if nc < s.room m then (9, 0, 0) else (16, 0, 0)
  | .unl _ _ => (10, 0, 0)
  | .build _ _ => (11, 0, 0)
  | .reload _ => (12, 0, 0)
  | .tas _ _ => (13, 0, 0)
  | .chk _ _ => (14, 0, 0)
  | .reMain _ => (15, 0, 0)
  | .count _ => (17, 0, 0)
  | .look _ h k => (18, h, s.cap h - k)
  | .ldMain => (19, 0, 0)
  | .xInact => (1, 0, 0)
  | .xScan h k => (2, h, s.cap h - k)
  | .xLd => (3, 0, 0)

def Less : Nat × Nat × Nat → Nat × Nat × Nat → Prop := Prod.Lex (· < ·) (Prod.Lex (· < ·) (· < ·))

theorem less_wf : WellFounded Less := (Prod.lex ⟨_, Nat.lt_wfRel.wf⟩ (Prod.lex ⟨_, Nat.lt_wfRel.wf⟩ ⟨_, Nat.lt_wfRel.wf⟩)).wf

/-- thread `t` runs, in a call; `compare_exchange_weak` does not fail without a reason -/
structure Solo (hash : Nat → Nat) (t : Nat) (s s' : State) : Prop where
  step : Step hash t s s'
  inside : s.pc t ≠ .out
  strong : ∀ m p, s.pc t = .addCas m p s.tail → s'.tail = some p

theorem less1 {a b x y u v} (h : a < b) : Less (a, x, u) (b, y, v) := Prod.Lex.left _ _ h
theorem less2 {a x y u v} (h : x < y) : Less (a, x, u) (a, y, v) := Prod.Lex.right _ (Prod.Lex.left _ _ h)
theorem less3 {a x u v} (h : u < v) : Less (a, x, u) (a, x, v) := Prod.Lex.right _ (Prod.Lex.right _ h)

theorem Solo.less {t s s'} (I : Inv hash s) (hf : ∀ h, h < s.ntab → ∃ j, j < s.cap h ∧ s.key h j = .empty)
    (hlk : s.lock = true → locks (s.pc t)) (hso : Solo hash t s s') :
    Less (phase s' (s'.pc t)) (phase s (s.pc t)) := by
  have ht := I.thr t
  have hs := hso.step
  have hI' := hs.inv I
  have ht' := hI'.thr t
  cases hs with
  | call hp => exact absurd hp hso.inside
  | ldMain hp => simp only [upd_same, hp, phase]; exact less1 (by omega)
  | @hit m h k hp hk => simp only [upd_same, hp]; split <;> exact less1 (by omega)
  | @miss m h k hp hk =>
    rw [hp] at ht
    have hh : h < s.ntab := Nat.lt_of_le_of_lt ht.2.1 ht.1
    simp only [upd_same, hp, I.prev h hh]
    by_cases h0 : h = 0
    · simp only [h0, if_true]; exact less1 (by omega)
    · simp only [h0, if_false]; exact less2 (by omega)
  | @other m h k hp hk hu =>
    rw [hp] at ht
    have hh : h < s.ntab := Nat.lt_of_le_of_lt ht.2.1 ht.1
    have := I.probe hh (hf h hh) (fun k' hk' => (ht.2.2.2.2 k' hk').1)
    simp only [upd_same, hp]
    refine less3 ?_
    simp only [State.cap] at this ⊢
    omega
  | @count m hp => simp only [upd_same, hp]; exact less1 (by omega)
  | @chk nc m hp =>
    simp only [upd_same, hp]
    split
    · exact less1 (by omega)
    · have : nc < s.room m := by simp only [State.room]; omega
      have e : phase { s with pc := upd s.pc t (.fit nc m) } (.fit nc m) = (9, 0, 0) := if_pos this
      rw [e]; exact less1 (by omega)
  | @tas nc m hp =>
    have hl : s.lock = false := by
      cases hl : s.lock
      · rfl
      · have := hlk hl; rw [hp] at this; exact this.elim
    simp only [upd_same, hp, hl]
    exact less1 (by omega)
  | @reload nc hp => simp only [upd_same, hp]; split <;> exact less1 (by omega)
  | @build nc m hp k hk hmin => simp only [upd_same, hp]; exact less1 (by omega)
  | @unl nc m hp =>
    rw [hp] at ht
    simp only [upd_same, hp]
    have : nc < s.room m := by have := ht.2.2.2.2; simp only [State.room]; omega
    have e : phase { s with pc := upd s.pc t (.fit nc m), lock := false } (.fit nc m) = (9, 0, 0) := if_pos this
    rw [e]; exact less1 (by omega)
  | @fit nc m hp =>
    simp only [upd_same, hp]
    split
    · rename_i hf
      have e : phase s (.fit nc m) = (9, 0, 0) := if_pos hf
      rw [e]; exact less1 (by omega)
    · rename_i hf
      have e : phase s (.fit nc m) = (16, 0, 0) := if_neg hf
      rw [e]; exact less1 (by omega)
  | @reMain nc hp => simp only [upd_same, hp]; exact less1 (by omega)
  | @create m hp => simp only [upd_same, hp]; exact less1 (by omega)
  | @add m p hp => simp only [upd_same, hp]; exact less1 (by omega)
  | @addCas m p pv hp htl => simp only [upd_same, hp]; exact less1 (by omega)
  | @addFail m p pv hp =>
    simp only [upd_same, hp]
    by_cases he : s.tail = pv
    · subst he
      have h1 : s.tail = some p := hso.strong m p hp
      have h2 := I.notListed t p (by rw [hp]; rfl)
      have h3 := I.chain
      rw [h1] at h3
      cases hl : s.plist with
      | nil => rw [hl] at h3; exact nomatch h3
      | cons q l => rw [hl] at h3 h2; cases h3.1; simp at h2
    · refine less3 ?_
      simp [he]
  | @findNo m p hp hi =>
    rw [hp] at ht
    obtain ⟨_, _, _, _, l, h1, h2⟩ := ht
    simp only [upd_same, hp]
    exact less2 (dist_next I.plistNodup h1 h2)
  | @findYes m p hp hi => simp only [upd_same, hp]; exact less3 (by omega)
  | @findEnd m hp => simp only [upd_same, hp]; exact less1 (by omega)
  | @recycle m p hp hi => simp only [upd_same, hp]; exact less1 (by omega)
  | @recFail m p hp hi =>
    rw [hp] at ht
    obtain ⟨_, _, _, _, l, h1, h2⟩ := ht
    simp only [upd_same, hp]
    exact less2 (dist_next I.plistNodup h1 h2)
  | @put m k v lz hp hk => simp only [upd_same, hp]; split <;> exact less1 (by omega)
  | @putNo m k v lz hp hk => simp only [upd_same, hp]; exact less3 (by omega)
  | @put2 m k v lz hp hk => simp only [upd_same, hp]; exact less1 (by omega)
  | @putNext m k v lz hp hk =>
    rw [hp] at ht
    have := I.probe ht.1 (hf m ht.1) ht.2.2.2.2.2.1
    simp only [upd_same, hp]
    refine less2 ?_
    simp only [State.cap] at this ⊢
    omega
  | @dec m j v hp => simp only [upd_same, hp]; exact less1 (by omega)
  | exit hp => exact absurd hp hso.inside
  | xLd hp => simp only [upd_same, hp]; exact less1 (by omega)
  | @xHit h k hp hk =>
    rw [hp] at ht
    simp only [upd_same, hp, I.prev h ht.1]
    by_cases h0 : h = 0
    · simp only [h0, if_true]; exact less1 (by omega)
    · simp only [h0, if_false]; exact less2 (by omega)
  | @xMiss h k hp hk =>
    rw [hp] at ht
    simp only [upd_same, hp, I.prev h ht.1]
    by_cases h0 : h = 0
    · simp only [h0, if_true]; exact less1 (by omega)
    · simp only [h0, if_false]; exact less2 (by omega)
  | @xOther h k hp hk hu =>
    rw [hp] at ht
    have := I.probe ht.1 (hf h ht.1) (fun k' hk' => (ht.2.2.2 k' hk').1)
    simp only [upd_same, hp]
    refine less3 ?_
    simp only [State.cap] at this ⊢
    omega
  | xInact hp => simp only [upd_same, hp]; exact less1 (by omega)
  | @putV m j v hp => simp only [upd_same, hp]; exact less1 (by omega)
  | @ret v hp => simp only [upd_same, hp]; exact less1 (by omega)

/-- the lock is set only by a thread that has it -/
theorem Reach.locked {C s} (h : Reach hash C s) : s.lock = true → ∃ t, locks (s.pc t) := by
  induction h with
  | init => exact fun h => nomatch h
  | @step s s' t _ hs ih =>
    intro hl
    have keep : ∀ p, s'.pc = upd s.pc t p → s'.lock = s.lock → (locks (s.pc t) → locks p) → ∃ u, locks (s'.pc u) := by
      intro p hp hl' hlp
      obtain ⟨u, hu⟩ := ih (by rw [← hl']; exact hl)
      by_cases e : u = t
      · subst e; exact ⟨u, by rw [hp, upd_same]; exact hlp hu⟩
      · exact ⟨u, by rw [hp, upd_ne _ _ e]; exact hu⟩
    cases hs with
    | @tas nc m hp =>
      cases hlk : s.lock with
      | true =>
        obtain ⟨u, hu⟩ := ih hlk
        have : u ≠ t := by rintro rfl; rw [hp] at hu; exact hu.elim
        exact ⟨u, by simp only [upd_ne _ _ this]; exact hu⟩
      | false => exact ⟨t, by simp only [upd_same]; trivial⟩
    | unl => exact nomatch hl
    | reload hp => exact keep _ rfl rfl (fun _ => by split <;> trivial)
    | build hp => exact keep _ rfl rfl (fun _ => trivial)
    | call hp => exact keep _ rfl rfl (fun h => by rw [hp] at h; exact h.elim)
    | ldMain hp => exact keep _ rfl rfl (fun h => by rw [hp] at h; exact h.elim)
    | hit hp => exact keep _ rfl rfl (fun h => by rw [hp] at h; exact h.elim)
    | miss hp => exact keep _ rfl rfl (fun h => by rw [hp] at h; exact h.elim)
    | other hp => exact keep _ rfl rfl (fun h => by rw [hp] at h; exact h.elim)
    | count hp => exact keep _ rfl rfl (fun h => by rw [hp] at h; exact h.elim)
    | chk hp => exact keep _ rfl rfl (fun h => by rw [hp] at h; exact h.elim)
    | fit hp => exact keep _ rfl rfl (fun h => by rw [hp] at h; exact h.elim)
    | reMain hp => exact keep _ rfl rfl (fun h => by rw [hp] at h; exact h.elim)
    | create hp => exact keep _ rfl rfl (fun h => by rw [hp] at h; exact h.elim)
    | add hp => exact keep _ rfl rfl (fun h => by rw [hp] at h; exact h.elim)
    | addCas hp => exact keep _ rfl rfl (fun h => by rw [hp] at h; exact h.elim)
    | addFail hp => exact keep _ rfl rfl (fun h => by rw [hp] at h; exact h.elim)
    | put hp => exact keep _ rfl rfl (fun h => by rw [hp] at h; exact h.elim)
    | findNo hp => exact keep _ rfl rfl (fun h => by rw [hp] at h; exact h.elim)
    | findYes hp => exact keep _ rfl rfl (fun h => by rw [hp] at h; exact h.elim)
    | findEnd hp => exact keep _ rfl rfl (fun h => by rw [hp] at h; exact h.elim)
    | recycle hp => exact keep _ rfl rfl (fun h => by rw [hp] at h; exact h.elim)
    | recFail hp => exact keep _ rfl rfl (fun h => by rw [hp] at h; exact h.elim)
    | putNo hp => exact keep _ rfl rfl (fun h => by rw [hp] at h; exact h.elim)
    | put2 hp => exact keep _ rfl rfl (fun h => by rw [hp] at h; exact h.elim)
    | dec hp => exact keep _ rfl rfl (fun h => by rw [hp] at h; exact h.elim)
    | exit hp => exact keep _ rfl rfl (fun h => by rw [hp] at h; exact h.elim)
    | xLd hp => exact keep _ rfl rfl (fun h => by rw [hp] at h; exact h.elim)
    | xHit hp => exact keep _ rfl rfl (fun h => by rw [hp] at h; exact h.elim)
    | xMiss hp => exact keep _ rfl rfl (fun h => by rw [hp] at h; exact h.elim)
    | xOther hp => exact keep _ rfl rfl (fun h => by rw [hp] at h; exact h.elim)
    | xInact hp => exact keep _ rfl rfl (fun h => by rw [hp] at h; exact h.elim)
    | putNext hp => exact keep _ rfl rfl (fun h => by rw [hp] at h; exact h.elim)
    | putV hp => exact keep _ rfl rfl (fun h => by rw [hp] at h; exact h.elim)
    | ret hp => exact keep _ rfl rfl (fun h => by rw [hp] at h; exact h.elim)

theorem Step.pc {t s s'} (hs : Step hash t s s') {u} (hu : u ≠ t) : s'.pc u = s.pc u := by
  cases hs <;> exact upd_ne _ _ hu

theorem grows (nc c : Nat) (hc : 0 < c) : ∃ k, nc < c * 2 ^ (k + 1) / 2 ∧ ∀ j, j < k → c * 2 ^ (j + 1) / 2 ≤ nc := by
  have e : ∀ k, c * 2 ^ (k + 1) / 2 = c * 2 ^ k := fun k => by rw [Nat.pow_succ, ← Nat.mul_assoc]; exact Nat.mul_div_cancel _ (by omega)
  have hex : ∃ k, nc < c * 2 ^ k := ⟨nc, Nat.lt_of_lt_of_le (Nat.lt_two_pow_self) (Nat.le_mul_of_pos_left _ hc)⟩
  classical
  refine ⟨Nat.find hex, by rw [e]; exact Nat.find_spec hex, fun j hj => ?_⟩
  rw [e]
  exact Nat.le_of_not_lt (Nat.find_min hex hj)

/-- a thread in a call can always take a step -/
theorem Inv.enabled {s} (I : Inv hash s) (t) (hp : s.pc t ≠ .out) : ∃ s', Solo hash t s s' := by
  have ht := I.thr t
  have lift : ∀ {s'}, Step hash t s s' → (∀ m p, s.pc t ≠ .addCas m p s.tail) → ∃ s', Solo hash t s s' :=
    fun h1 h2 => ⟨_, h1, hp, fun m p h => absurd h (h2 m p)⟩
  cases h : s.pc t with
  | out => exact absurd h hp
  | ldMain => exact lift (.ldMain h) (by simp [h])
  | look m hh k =>
    cases hk : s.key hh (s.slot hash t hh k) with
    | empty => exact lift (.miss h hk) (by simp [h])
    | dead => exact lift (.other h (by simp [hk]) (by simp [hk])) (by simp [h])
    | of u =>
      by_cases hu : u = t
      · subst hu; exact lift (.hit h hk) (by simp [h])
      · exact lift (.other h (by simp [hk]) (by simp [hk, hu])) (by simp [h])
  | count => exact lift (.count h) (by simp [h])
  | chk => exact lift (.chk h) (by simp [h])
  | tas => exact lift (.tas h) (by simp [h])
  | reload => exact lift (.reload h) (by simp [h])
  | build nc m =>
    rw [h] at ht
    have := I.ntab
    obtain ⟨k, h1, h2⟩ := grows nc (s.cap m) (I.pos m (by rw [ht.1]; omega))
    exact lift (.build h k h1 h2) (by simp [h])
  | unl => exact lift (.unl h) (by simp [h])
  | fit => exact lift (.fit h) (by simp [h])
  | reMain => exact lift (.reMain h) (by simp [h])
  | create => exact lift (.create h) (by simp [h])
  | add => exact lift (.add h) (by simp [h])
  | addCas m p pv =>
    by_cases he : s.tail = pv
    · exact ⟨_, .addCas h he, hp, fun m' p' h' => by rw [h] at h'; cases h'; rfl⟩
    · exact lift (.addFail h) (by intro m' p'; rw [h]; intro e; cases e; exact he rfl)
  | find m q =>
    cases q with
    | none => exact lift (.findEnd h) (by simp [h])
    | some p =>
      cases hi : s.inact p with
      | true => exact lift (.findYes h hi) (by simp [h])
      | false => exact lift (.findNo h hi) (by simp [h])
  | recCas m p =>
    cases hi : s.inact p with
    | true => exact lift (.recycle h hi) (by simp [h])
    | false => exact lift (.recFail h hi) (by simp [h])
  | put m k v lz =>
    by_cases hk : s.key m (s.slot hash t m k) = if lz then .empty else .dead
    · exact lift (.put h hk) (by simp [h])
    · exact lift (.putNo h hk) (by simp [h])
  | put2 m k v lz =>
    by_cases hk : s.key m (s.slot hash t m k) = if lz then .dead else .empty
    · exact lift (.put2 h hk) (by simp [h])
    · exact lift (.putNext h hk) (by simp [h])
  | dec => exact lift (.dec h) (by simp [h])
  | xLd => exact lift (.xLd h) (by simp [h])
  | xScan hh k =>
    cases hk : s.key hh (s.slot hash t hh k) with
    | empty => exact lift (.xMiss h hk) (by simp [h])
    | dead => exact lift (.xOther h (by simp [hk]) (by simp [hk])) (by simp [h])
    | of u =>
      by_cases hu : u = t
      · subst hu; exact lift (.xHit h hk) (by simp [h])
      · exact lift (.xOther h (by simp [hk]) (by simp [hk, hu])) (by simp [h])
  | xInact =>
    rw [h] at ht
    cases hg : s.prod t with
    | none => exact absurd hg ht.1
    | some p => exact lift (.xInact h hg) (by simp [h])
  | putV => exact lift (.putV h) (by simp [h])
  | ret => exact lift (.ret h) (by simp [h])

/-- the step of thread `t`; the compare-and-exchange does not fail without a reason; a new table is twice as big; `x`: a thread outside a call exits -/
def go (hash : Nat → Nat) (t : Nat) (x : Bool) (s : State) : Option State :=
  match s.pc t with
  | .out =>
    if x then if s.got t = none then none else some { s with
        pc := upd s.pc t .xLd
        exited := true }
    else some { s with pc := upd s.pc t .ldMain }
  | .ldMain => some { s with pc := upd s.pc t (.look s.cur s.cur 0) }
  | .look m h k =>
    if s.key h (s.slot hash t h k) = .empty then
      some { s with pc := upd s.pc t (match (s.tabs h).prev with | some h' => .look m h' 0 | none => .count m) }
    else if s.key h (s.slot hash t h k) = .of t then some { s with
        pc := upd s.pc t (if h = m then .ret ((s.tabs h).val (s.slot hash t h k)) else .put m 0 ((s.tabs h).val (s.slot hash t h k)) true) }
    else some { s with pc := upd s.pc t (.look m h (k + 1)) }
  | .count m => some { s with
        pc := upd s.pc t (.chk (s.count + 1) m)
        count := s.count + 1
        pend := t :: s.pend
        num := upd s.num t (some (s.count + 1)) }
  | .chk nc m => some { s with pc := upd s.pc t (if s.cap m / 2 ≤ nc then .tas nc m else .fit nc m) }
  | .tas nc m => some { s with
        pc := upd s.pc t (if s.lock then .fit nc m else .reload nc)
        lock := true }
  | .reload nc => some { s with pc := upd s.pc t (if s.cap s.cur / 2 ≤ nc then .build nc s.cur else .unl nc s.cur) }
  | .build nc m =>
    if nc < s.cap m * 2 ^ (0 + 1) / 2 then some { s with
        pc := upd s.pc t (.unl nc s.ntab)
        tabs := upd s.tabs s.ntab (Tab.new (s.cap m * 2 ^ (0 + 1)) (some m))
        cur := s.ntab
        ntab := s.ntab + 1 }
    else none
  | .unl nc m => some { s with
        pc := upd s.pc t (.fit nc m)
        lock := false }
  | .fit nc m => some { s with pc := upd s.pc t (if nc < s.room m then .find m s.tail else .reMain nc) }
  | .reMain nc => some { s with pc := upd s.pc t (.chk nc s.cur) }
  | .find m none => some { s with pc := upd s.pc t (.create m) }
  | .find m (some p) =>
    if s.inact p = true then some { s with pc := upd s.pc t (.recCas m p) }
    else some { s with pc := upd s.pc t (.find m (s.next p)) }
  | .recCas m p =>
    if s.inact p = true then some { s with
        pc := upd s.pc t (.put m 0 (some p) false)
        inact := upd s.inact p false
        prod := upd s.prod t (some p) }
    else some { s with pc := upd s.pc t (.find m (s.next p)) }
  | .create m => some { s with
        pc := upd s.pc t (.add m s.nprod)
        nprod := s.nprod + 1
        prod := upd s.prod t (some s.nprod) }
  | .add m p => some { s with
        pc := upd s.pc t (.addCas m p s.tail)
        next := upd s.next p s.tail }
  | .addCas m p pv =>
    if s.tail = pv then some { s with
        pc := upd s.pc t (.put m 0 (some p) false)
        tail := some p
        plist := p :: s.plist }
    else some { s with
        pc := upd s.pc t (.addCas m p s.tail)
        next := upd s.next p s.tail }
  | .put m k v lz =>
    if s.key m (s.slot hash t m k) = if lz then .empty else .dead then some { s with
        pc := upd s.pc t (if lz then .putV m (s.slot hash t m k) v else .dec m (s.slot hash t m k) v)
        tabs := upd s.tabs m { s.tabs m with key := upd (s.tabs m).key (s.slot hash t m k) (.of t) } }
    else some { s with pc := upd s.pc t (.put2 m k v lz) }
  | .put2 m k v lz =>
    if s.key m (s.slot hash t m k) = if lz then .dead else .empty then some { s with
        pc := upd s.pc t (.putV m (s.slot hash t m k) v)
        pend := if lz then s.pend else s.pend.erase t
        tabs := upd s.tabs m { s.tabs m with key := upd (s.tabs m).key (s.slot hash t m k) (.of t) } }
    else some { s with pc := upd s.pc t (.put m (k + 1) v lz) }
  | .dec m j v => some { s with
        pc := upd s.pc t (.putV m j v)
        count := s.count - 1
        pend := s.pend.erase t }
  | .putV m j v => some { s with
        pc := upd s.pc t (.ret v)
        tabs := upd s.tabs m { s.tabs m with val := upd (s.tabs m).val j v } }
  | .ret v => some { s with
        pc := upd s.pc t .out
        got := upd s.got t v }
  | .xLd => some { s with pc := upd s.pc t (.xScan s.cur 0) }
  | .xScan h k =>
    if s.key h (s.slot hash t h k) = .empty then
      some { s with pc := upd s.pc t (match (s.tabs h).prev with | some h' => .xScan h' 0 | none => .xInact) }
    else if s.key h (s.slot hash t h k) = .of t then some { s with
        pc := upd s.pc t (match (s.tabs h).prev with | some h' => .xScan h' 0 | none => .xInact)
        tabs := upd s.tabs h { s.tabs h with key := upd (s.tabs h).key (s.slot hash t h k) .dead } }
    else some { s with pc := upd s.pc t (.xScan h (k + 1)) }
  | .xInact =>
    match s.prod t with
    | some p => some { s with
        pc := upd s.pc t .out
        inact := upd s.inact p true
        got := upd s.got t none
        num := upd s.num t none
        prod := upd s.prod t none }
    | none => none

theorem go_step {t x s s'} (h : go hash t x s = some s') : Step hash t s s' := by
  cases hp : s.pc t
  case find m q =>
    cases q with
    | none => simp only [go, hp] at h; cases h; exact .findEnd hp
    | some p =>
      simp only [go, hp] at h
      split at h
      · cases h; exact .findYes hp (by assumption)
      · rename_i hi; cases h; exact .findNo hp (by simpa using hi)
  all_goals simp only [go, hp] at h
  case out =>
    split at h
    · split at h
      · exact nomatch h
      · cases h; exact .exit hp (by assumption)
    · cases h; exact .call hp
  case ldMain => cases h; exact .ldMain hp
  case look m hh kk =>
    by_cases h1 : s.key hh (s.slot hash t hh kk) = .empty
    · rw [if_pos h1] at h; cases h; exact .miss hp h1
    · rw [if_neg h1] at h
      by_cases h2 : s.key hh (s.slot hash t hh kk) = .of t
      · rw [if_pos h2] at h; cases h; exact .hit hp h2
      · rw [if_neg h2] at h; cases h; exact .other hp h1 h2
  case xScan hh kk =>
    by_cases h1 : s.key hh (s.slot hash t hh kk) = .empty
    · rw [if_pos h1] at h; cases h; exact .xMiss hp h1
    · rw [if_neg h1] at h
      by_cases h2 : s.key hh (s.slot hash t hh kk) = .of t
      · rw [if_pos h2] at h; cases h; exact .xHit hp h2
      · rw [if_neg h2] at h; cases h; exact .xOther hp h1 h2
  case count => cases h; exact .count hp
  case chk => cases h; exact .chk hp
  case tas => cases h; exact .tas hp
  case reload => cases h; exact .reload hp
  case build =>
    split at h
    · rename_i hc; cases h; exact .build hp 0 hc (fun j hj => absurd hj (Nat.not_lt_zero _))
    · exact nomatch h
  case unl => cases h; exact .unl hp
  case fit => cases h; exact .fit hp
  case reMain => cases h; exact .reMain hp
  case recCas =>
    split at h
    · cases h; exact .recycle hp (by assumption)
    · rename_i hi; cases h; exact .recFail hp (by simpa using hi)
  case create => cases h; exact .create hp
  case add => cases h; exact .add hp
  case addCas =>
    split at h
    · cases h; exact .addCas hp (by assumption)
    · cases h; exact .addFail hp
  case put m k v lz =>
    by_cases h1 : s.key m (s.slot hash t m k) = if lz then .empty else .dead
    · rw [if_pos h1] at h; cases h; exact .put hp h1
    · rw [if_neg h1] at h; cases h; exact .putNo hp h1
  case put2 m k v lz =>
    by_cases h1 : s.key m (s.slot hash t m k) = if lz then .dead else .empty
    · rw [if_pos h1] at h; cases h; exact .put2 hp h1
    · rw [if_neg h1] at h; cases h; exact .putNext hp h1
  case dec => cases h; exact .dec hp
  case putV => cases h; exact .putV hp
  case ret => cases h; exact .ret hp
  case xLd => cases h; exact .xLd hp
  case xInact =>
    split at h
    · cases h; exact .xInact hp (by assumption)
    · exact nomatch h

/-- the threads of the list take one step each, in this order; `(t, true)`: if `t` is outside a call, it exits -/
def run (hash : Nat → Nat) : List (Nat × Bool) → State → Option State
  | [], s => some s
  | (t, x) :: l, s => (go hash t x s).bind (run hash l)

def final (hash : Nat → Nat) (C : Nat) (l : List (Nat × Bool)) : State := (run hash l (init C)).getD (init C)

theorem run_reach {C l s s'} (hr : Reach hash C s) (h : run hash l s = some s') : Reach hash C s' := by
  induction l generalizing s with
  | nil => cases h; exact hr
  | cons t l ih =>
    simp only [run] at h
    cases he : go hash t.1 t.2 s with
    | none => rw [he] at h; exact nomatch h
    | some u => rw [he] at h; exact ih (.step t.1 hr (go_step he)) h

theorem final_reach (hash C l) : Reach hash C (final hash C l) := by
  unfold final
  cases h : run hash l (init C) with
  | none => exact .init
  | some s => exact run_reach .init h

end RG.PH
