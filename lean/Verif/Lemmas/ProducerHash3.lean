import Verif.Lemmas.ProducerHash2
/-
Threads that exit, as long as there is only one table: the table does not get full.
-/
namespace RG.PH

variable {hash : Nat → Nat}

/-- between line 3452 and line 3514 or 3519 -/
def waits : Pc → Bool
  | .chk _ _ => true
  | .tas _ _ => true
  | .reload _ => true
  | .build _ _ => true
  | .unl _ _ => true
  | .fit _ _ => true
  | .reMain _ => true
  | .find _ _ => true
  | .recCas _ _ => true
  | .create _ => true
  | .add _ _ => true
  | .addCas _ _ _ => true
  | .put _ _ _ lz => !lz
  | .put2 _ _ _ lz => !lz
  | .dec _ _ _ => true
  | _ => false

/-- number of entries of the first table that are not empty -/
def used (s : State) : Nat := cnt (s.cap 0) (fun k => k != .empty) (s.key 0)

/-- the thread may enter the first table -/
def small (s : State) (t : Nat) : Bool :=
  match s.num t with
  | some n => decide (n < s.room 0)
  | none => false

structure One (s : State) : Prop where
  nodup : s.pend.Nodup
  mem : ∀ t, t ∈ s.pend ↔ waits (s.pc t) = true
  eq : s.ntab = 1 → used s + s.pend.length = s.count
  bound : s.ntab = 1 → used s + s.pend.countP (small s) ≤ s.room 0 - 1

theorem One.init {C} : One (init C) := by
  have h : used (PH.init C) = 0 := cnt_eq_zero.2 fun t _ => rfl
  refine ⟨List.nodup_nil, fun t => ?_, fun _ => ?_, fun _ => ?_⟩
  · simp [PH.init, waits]
  · rw [h]; rfl
  · rw [h]; exact Nat.zero_le _

theorem One.mem' {s s' : State} (O : One s) {t p} (hpc : s'.pc = upd s.pc t p) (hpd : s'.pend = s.pend) (hw : waits p = waits (s.pc t)) (u) : u ∈ s'.pend ↔ waits (s'.pc u) = true := by
  rw [hpd, hpc, O.mem u]
  by_cases hu : u = t
  · subst hu; rw [upd_same, hw]
  · rw [upd_ne _ _ hu]

theorem small_congr {s s' : State} {l : List Nat} (hr : s'.room 0 = s.room 0) (hn : ∀ u, u ∈ l → s'.num u = s.num u) : l.countP (small s') = l.countP (small s) := by
  refine List.countP_congr fun u hu => ?_
  simp only [small, hn u hu, hr]

theorem One.keep {s s' : State} (O : One s) (t p) (hpc : s'.pc = upd s.pc t p) (hpd : s'.pend = s.pend) (hw : waits p = waits (s.pc t)) (hc : s'.count = s.count)
    (hnt : s'.ntab = s.ntab) (hcap : s'.cap 0 = s.cap 0) (hu : s.ntab = 1 → used s' = used s) (hn : ∀ u, u ∈ s.pend → s'.num u = s.num u) : One s' where
  nodup := by rw [hpd]; exact O.nodup
  mem := O.mem' hpc hpd hw
  eq h := by rw [hnt] at h; rw [hu h, hpd, hc]; exact O.eq h
  bound h := by
    rw [hnt] at h
    have hr : s'.room 0 = s.room 0 := by simp only [State.room, hcap]
    rw [hu h, hpd, small_congr hr hn, hr]
    exact O.bound h

theorem One.go {s : State} (O : One s) (t p) (hw : waits p = waits (s.pc t)) : One { s with pc := upd s.pc t p } :=
  O.keep t p rfl rfl hw rfl rfl rfl (fun _ => rfl) (fun _ _ => rfl)

theorem used_set {s s' : State} {j K} (hcap : s'.cap 0 = s.cap 0) (hj : j < s.cap 0) (hk : ∀ i, s'.key 0 i = if i = j then K else s.key 0 i) :
    used s' + (if s.key 0 j = .empty then 0 else 1) = used s + if K = .empty then 0 else 1 := by
  have h := cnt_update (s.cap 0) (fun k : Key => k != .empty) (s.key 0) j K hj
  have e : used s' = cnt (s.cap 0) (fun k : Key => k != .empty) (fun x => if x = j then K else s.key 0 x) := by
    unfold used; rw [hcap]; exact cnt_congr fun x _ => by rw [hk]
  rw [e]
  unfold used
  cases h1 : s.key 0 j <;> cases K <;> simp_all

theorem countP_erase {l : List Nat} {t : Nat} {f : Nat → Bool} (ht : t ∈ l) : (l.erase t).countP f + (if f t then 1 else 0) = l.countP f := by
  have := (List.perm_cons_erase ht).countP_eq f
  rw [this, List.countP_cons]

theorem Step.one {t s s'} (I : Inv hash s) (O : One s) (hs : Step hash t s s') : One s' := by
  have ht := I.thr t
  have hpos := I.pos 0 (by have := I.ntab; omega)
  have hslot : ∀ k, s.slot hash t 0 k < s.cap 0 := fun k => Nat.mod_lt _ hpos
  cases hs with
  | call h => exact O.go t _ (by rw [h]; rfl)
  | ldMain h => exact O.go t _ (by rw [h]; rfl)
  | hit hp hk => exact O.go t _ (by rw [hp]; split <;> rfl)
  | miss hp hk => exact O.go t _ (by rw [hp]; split <;> rfl)
  | other hp => exact O.go t _ (by rw [hp]; rfl)
  | @count m hp =>
    have hnp : t ∉ s.pend := by rw [O.mem, hp]; exact Bool.false_ne_true
    refine ⟨List.nodup_cons.2 ⟨hnp, O.nodup⟩, fun u => ?_, fun h => ?_, fun h => ?_⟩
    · by_cases hu : u = t
      · subst hu; simp only [upd_same, waits, List.mem_cons_self]
      · simp only [upd_ne _ _ hu, List.mem_cons, hu, false_or]; exact O.mem u
    · have := O.eq h
      show used s + (s.pend.length + 1) = s.count + 1
      omega
    · have h1 := O.eq h
      have h2 := O.bound h
      have h3 : s.pend.countP (small { s with pc := upd s.pc t (.chk (s.count + 1) m), count := s.count + 1, pend := t :: s.pend, num := upd s.num t (some (s.count + 1)) }) = s.pend.countP (small s) :=
        small_congr rfl fun u hu => upd_ne _ _ fun e => hnp (e ▸ hu)
      have h4 : s.pend.countP (small s) ≤ s.pend.length := List.countP_le_length
      simp only [List.countP_cons, h3]
      have h5 : small { s with pc := upd s.pc t (.chk (s.count + 1) m), count := s.count + 1, pend := t :: s.pend, num := upd s.num t (some (s.count + 1)) } t = decide (s.count + 1 < s.room 0) := by
        simp only [small, upd_same]; rfl
      rw [h5]
      show used s + (s.pend.countP (small s) + if decide (s.count + 1 < s.room 0) = true then 1 else 0) ≤ s.room 0 - 1
      split
      · rename_i h6; rw [decide_eq_true_eq] at h6; omega
      · omega
  | chk hp => exact O.go t _ (by rw [hp]; split <;> rfl)
  | tas hp => exact O.keep t _ rfl rfl (by rw [hp]; split <;> rfl) rfl rfl rfl (fun _ => rfl) (fun _ _ => rfl)
  | reload hp => exact O.go t _ (by rw [hp]; split <;> rfl)
  | build hp k hk hmin =>
    have := I.ntab
    exact ⟨O.nodup, O.mem' rfl rfl (by rw [hp]; rfl), fun h => by simp only at h; omega, fun h => by simp only at h; omega⟩
  | unl hp => exact O.keep t _ rfl rfl (by rw [hp]; rfl) rfl rfl rfl (fun _ => rfl) (fun _ _ => rfl)
  | fit hp => exact O.go t _ (by rw [hp]; split <;> rfl)
  | reMain hp => exact O.go t _ (by rw [hp]; rfl)
  | findNo hp => exact O.go t _ (by rw [hp]; rfl)
  | findYes hp => exact O.go t _ (by rw [hp]; rfl)
  | findEnd hp => exact O.go t _ (by rw [hp]; rfl)
  | recycle hp => exact O.keep t _ rfl rfl (by rw [hp]; rfl) rfl rfl rfl (fun _ => rfl) (fun _ _ => rfl)
  | recFail hp => exact O.go t _ (by rw [hp]; rfl)
  | create hp => exact O.keep t _ rfl rfl (by rw [hp]; rfl) rfl rfl rfl (fun _ => rfl) (fun _ _ => rfl)
  | add hp => exact O.keep t _ rfl rfl (by rw [hp]; rfl) rfl rfl rfl (fun _ => rfl) (fun _ _ => rfl)
  | addCas hp => exact O.keep t _ rfl rfl (by rw [hp]; rfl) rfl rfl rfl (fun _ => rfl) (fun _ _ => rfl)
  | addFail hp => exact O.keep t _ rfl rfl (by rw [hp]; rfl) rfl rfl rfl (fun _ => rfl) (fun _ _ => rfl)
  | @put m k v lz hp hk =>
    rw [hp] at ht
    refine O.keep t _ rfl rfl (by rw [hp]; cases lz <;> rfl) rfl rfl ?_ (fun h => ?_) (fun _ _ => rfl)
    · simp only [State.cap, upd]; split <;> simp_all
    · have hm : m = 0 := by have := ht.1; omega
      have hl : lz = false := by cases lz; rfl; have := ht.2.2.2.2.2.2 rfl; omega
      subst hm hl
      have := used_set (s := s) (s' := { s with pc := upd s.pc t (if false = true then .putV 0 (s.slot hash t 0 k) v else .dec 0 (s.slot hash t 0 k) v), tabs := upd s.tabs 0 { s.tabs 0 with key := upd (s.tabs 0).key (s.slot hash t 0 k) (.of t) } })
        (j := s.slot hash t 0 k) (K := .of t) rfl (hslot k) (fun i => by simp [State.key, upd])
      rw [hk] at this
      simpa using this
  | putNo hp => exact O.go t _ (by rw [hp]; rfl)
  | @put2 m k v lz hp hk =>
    rw [hp] at ht
    cases lz with
    | true =>
      refine O.keep t _ rfl rfl (by rw [hp]; rfl) rfl rfl ?_ (fun h => ?_) (fun _ _ => rfl)
      · simp only [State.cap, upd]; split <;> simp_all
      · have := ht.2.2.2.2.2.2.1 rfl; omega
    | false =>
      have hin : t ∈ s.pend := by rw [O.mem, hp]; rfl
      have hcap : ∀ x, ({ s with pc := upd s.pc t (.putV m (s.slot hash t m k) v), pend := x, tabs := upd s.tabs m { s.tabs m with key := upd (s.tabs m).key (s.slot hash t m k) (.of t) } } : State).cap 0 = s.cap 0 := by
        intro x; simp only [State.cap, upd]; split <;> simp_all
      refine ⟨O.nodup.erase _, fun u => ?_, fun h => ?_, fun h => ?_⟩
      · by_cases hu : u = t
        · subst hu
          simp only [upd_same, waits, Bool.false_eq_true, if_false, iff_false]
          exact fun h => absurd h (O.nodup.not_mem_erase)
        · simp only [upd_ne _ _ hu, Bool.false_eq_true, if_false, List.mem_erase_of_ne hu]; exact O.mem u
      all_goals
        have hm : m = 0 := by have := ht.1; simp only at h; omega
        subst hm
        have hu := used_set (s := s) (s' := { s with pc := upd s.pc t (.putV 0 (s.slot hash t 0 k) v), pend := s.pend.erase t, tabs := upd s.tabs 0 { s.tabs 0 with key := upd (s.tabs 0).key (s.slot hash t 0 k) (.of t) } })
          (j := s.slot hash t 0 k) (K := .of t) rfl (hslot k) (fun i => by simp [State.key, upd])
        rw [hk] at hu
        simp at hu
      · have h1 := O.eq h
        have h2 := List.length_erase_of_mem hin
        have h3 := List.length_pos_of_mem hin
        simp only [Bool.false_eq_true, if_false]
        omega
      · have h1 := O.bound h
        have h2 := countP_erase (f := small s) hin
        obtain ⟨nc, h4, h5⟩ := ht.2.1
        have h3 : small s t = true := by simp only [small, h4]; simpa using h5
        rw [if_pos h3] at h2
        simp only [Bool.false_eq_true, if_false]
        rw [small_congr (s := s) (s' := { s with pc := upd s.pc t (.putV 0 (s.slot hash t 0 k) v), pend := s.pend.erase t, tabs := upd s.tabs 0 { s.tabs 0 with key := upd (s.tabs 0).key (s.slot hash t 0 k) (.of t) } })
          (by simp only [State.room, hcap]) (fun _ _ => rfl)]
        have hr : ∀ x, ({ s with pc := upd s.pc t (.putV 0 (s.slot hash t 0 k) v), pend := x, tabs := upd s.tabs 0 { s.tabs 0 with key := upd (s.tabs 0).key (s.slot hash t 0 k) (.of t) } } : State).room 0 = s.room 0 := by
          intro x; simp only [State.room, hcap]
        rw [hr]
        omega
  | putNext hp => exact O.go t _ (by rw [hp]; rfl)
  | @dec m j v hp =>
    have hin : t ∈ s.pend := by rw [O.mem, hp]; rfl
    refine ⟨O.nodup.erase _, fun u => ?_, fun h => ?_, fun h => ?_⟩
    · by_cases hu : u = t
      · subst hu
        simp only [upd_same, waits, Bool.false_eq_true, iff_false]
        exact fun h => absurd h (O.nodup.not_mem_erase)
      · simp only [upd_ne _ _ hu, List.mem_erase_of_ne hu]; exact O.mem u
    · have h1 := O.eq h
      have h2 := List.length_erase_of_mem hin
      have h3 := List.length_pos_of_mem hin
      show used s + (s.pend.erase t).length = s.count - 1
      omega
    · have h1 := O.bound h
      have h2 := countP_erase (f := small s) hin
      show used s + (s.pend.erase t).countP (small s) ≤ s.room 0 - 1
      omega
  | @putV m j v hp =>
    refine O.keep t _ rfl rfl (by rw [hp]; rfl) rfl rfl ?_ (fun _ => ?_) (fun _ _ => rfl)
    · simp only [State.cap, upd]; split <;> simp_all
    · unfold used
      have h1 : ({ s with pc := upd s.pc t (.ret v), tabs := upd s.tabs m { s.tabs m with val := upd (s.tabs m).val j v } } : State).cap 0 = s.cap 0 := by
        simp only [State.cap, upd]; split <;> simp_all
      rw [h1]
      refine cnt_congr fun x _ => ?_
      simp only [State.key, upd]; split <;> simp_all
  | ret hp => exact O.keep t _ rfl rfl (by rw [hp]; rfl) rfl rfl rfl (fun _ => rfl) (fun _ _ => rfl)
  | exit hp => exact O.keep t _ rfl rfl (by rw [hp]; rfl) rfl rfl rfl (fun _ => rfl) (fun _ _ => rfl)
  | xLd hp => exact O.go t _ (by rw [hp]; rfl)
  | @xHit h k hp hk =>
    rw [hp] at ht
    refine O.keep t _ rfl rfl (by rw [hp]; split <;> rfl) rfl rfl ?_ (fun h1 => ?_) (fun _ _ => rfl)
    · simp only [State.cap, upd]; split <;> simp_all
    · have hm : h = 0 := by have := ht.1; omega
      subst hm
      have := used_set (s := s) (s' := { s with pc := upd s.pc t (match (s.tabs 0).prev with | some h' => .xScan h' 0 | none => .xInact), tabs := upd s.tabs 0 { s.tabs 0 with key := upd (s.tabs 0).key (s.slot hash t 0 k) .dead } })
        (j := s.slot hash t 0 k) (K := .dead) rfl (hslot k) (fun i => by simp [State.key, upd])
      rw [hk] at this
      simp at this
      exact this
  | xMiss hp => exact O.go t _ (by rw [hp]; split <;> rfl)
  | xOther hp => exact O.go t _ (by rw [hp]; rfl)
  | xInact hp =>
    have hnp : t ∉ s.pend := by rw [O.mem, hp]; exact Bool.false_ne_true
    exact O.keep t _ rfl rfl (by rw [hp]; rfl) rfl rfl rfl (fun _ => rfl) (fun u hu => upd_ne _ _ fun e => hnp (e ▸ hu))

theorem Reach.one {C s} (hC : 0 < C) (h : Reach hash C s) : One s := by
  induction h with
  | init => exact One.init
  | step t h hs ih => exact hs.one (h.inv hC) ih

theorem One.free {s} (O : One s) (I : Inv hash s) (h1 : s.ntab = 1) : ∃ j, j < s.cap 0 ∧ s.key 0 j = .empty := by
  refine Classical.byContradiction fun hno => ?_
  have h2 := O.bound h1
  have hpos := I.pos 0 (by omega)
  have h3 : used s = s.cap 0 := by
    unfold used cnt
    rw [List.countP_eq_length.2, List.length_range]
    intro j hj
    have : s.key 0 j ≠ .empty := fun h => hno ⟨j, List.mem_range.1 hj, h⟩
    simpa using this
  simp only [State.room] at h2
  omega

end RG.PH
