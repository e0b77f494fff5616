import Verif.Lemmas.GraphMain
/-
Lemmas about states of the task graph in which no thread can make a step.
-/
set_option linter.unusedVariables false
namespace RG.Graph

variable {cfg : Cfg} {s s' s1 : State} {l : Lbl}

/-- a step that is not a request of the user: not a new task, a new event, or the end of a future -/
def Working (s s' : State) : Prop :=
  s'.n = s.n ∧ s'.nExt = s.nExt ∧ ∀ t, s.fut t = .held → s'.fut t = .held

/-- no step is possible, except that the bodies of the tasks in `B` end -/
structure Quiet (cfg : Cfg) (B : Nat → Prop) (s : State) : Prop where
  inited : ∀ t, t < s.n → s.ph t = .inited
  ex : ∀ t, s.ex t = .running → B t
  handed : ∀ t, s.handed t = 0
  ext : ∀ k, k < s.nExt → s.ext k = .done
  fl : ∀ t, s.fl t = .idle ∨ s.fl t = .done
  fut : ∀ t, s.fut t ≠ .taken
  mem : ∀ t, s.mem t = .alive ∨ s.mem t = .freed

theorem quiet_of_stuck_of (B : Nat → Prop) (hd : Dom cfg s) (hi : Core cfg s)
    (hq : ∀ l s', Step cfg l s s' → Working s s' →
      ∃ t, B t ∧ s.ex t = .running ∧ s'.ex t ≠ .running) : Quiet cfg B s := by
  have no' : ∀ l s', Step cfg l s s' → Working s s' →
      (∀ t, s.ex t = .running → s'.ex t = .running) → False := by
    intro l s' hs hw he
    obtain ⟨t, -, h1, h2⟩ := hq l s' hs hw
    exact h2 (he t h1)
  have no : ∀ l s', Step cfg l s s' → s'.n = s.n → s'.nExt = s.nExt → s'.fut = s.fut → s'.ex = s.ex → False :=
    fun l s' hs h1 h2 h3 h4 => no' l s' hs ⟨h1, h2, fun t h => by rw [h3]; exact h⟩ fun t h => by rw [h4]; exact h
  have noHold : ∀ t, holding (s.ph t) = none := by
    intro t
    rcases h : s.ph t with _ | i | _ | pc | _ <;> try rfl
    exfalso
    cases pc with
    | scan i rem =>
      obtain ⟨r, hr⟩ := hi.holdR t i (by rw [h]; rfl)
      cases rem with
      | nil => exact no _ _ (.scanEnd h) rfl rfl rfl rfl
      | cons p rem =>
        by_cases h1 : cfg.parentOf t = some p.1
        · exact no _ _ (.scanParent h h1) rfl rfl rfl rfl
        · by_cases h2 : cfg.space p.1 = cfg.space t ∧ cfg.serial p.1 t = true
          · by_cases h3 : s.post p.1 = 0
            · exact no _ _ (.scanReached h hr h1 h2 h3) rfl rfl rfl rfl
            · exact no _ _ (.scanLink h h1 h2 h3) rfl rfl rfl rfl
          · exact no _ _ (.scanSkip h h1 h2) rfl rfl rfl rfl
    | link i p rem => exact no _ _ (.link h) rfl rfl rfl rfl
    | incr i p rem =>
      obtain ⟨r, hr⟩ := hi.holdR t i (by rw [h]; rfl)
      exact no _ _ (.incr h hr) rfl rfl rfl rfl
    | unlock i =>
      obtain ⟨r, hr⟩ := hi.holdR t i (by rw [h]; rfl)
      exact no _ _ (.unlock h hr) rfl rfl rfl rfl
    | next i =>
      -- the lock is free, or the task that holds it can make a step
      by_cases h1 : i = (cfg.res t).length
      · exact no _ _ (.resEnd h h1) rfl rfl rfl rfl
      · have h2 := hi.idxNext t i h
        obtain ⟨r, hr⟩ : ∃ r, (cfg.res t)[i]? = some r :=
          ⟨_, List.getElem?_eq_getElem (Nat.lt_of_le_of_ne h2 h1)⟩
        cases hl : s.lock r with
        | none => exact no _ _ (.lockRes h hr hl) rfl rfl rfl rfl
        | some u =>
          have hu := (hi.lockI r u).1 hl
          rcases h' : s.ph u with _ | j | _ | pc | _ <;> rw [h'] at hu <;> try cases hu
          cases pc <;> try cases hu
          · rename_i j rem
            cases rem with
            | nil => exact no _ _ (.scanEnd h') rfl rfl rfl rfl
            | cons p rem =>
              by_cases h1 : cfg.parentOf u = some p.1
              · exact no _ _ (.scanParent h' h1) rfl rfl rfl rfl
              · by_cases h2 : cfg.space p.1 = cfg.space u ∧ cfg.serial p.1 u = true
                · by_cases h3 : s.post p.1 = 0
                  · exact no _ _ (.scanReached h' hu h1 h2 h3) rfl rfl rfl rfl
                  · exact no _ _ (.scanLink h' h1 h2 h3) rfl rfl rfl rfl
                · exact no _ _ (.scanSkip h' h1 h2) rfl rfl rfl rfl
          · exact no _ _ (.link h') rfl rfl rfl rfl
          · exact no _ _ (.incr h' hu) rfl rfl rfl rfl
          · exact no _ _ (.unlock h' hu) rfl rfl rfl rfl
    | parent =>
      cases h1 : cfg.parentOf t with
      | none => exact no _ _ (.noParent h h1) rfl rfl rfl rfl
      | some q => exact no _ _ (.parentPush h h1) rfl rfl rfl rfl
    | pincr q => exact no _ _ (.parentIncr h) rfl rfl rfl rfl
    | final => exact no _ _ (.final h) rfl rfl rfl rfl
  have noLock : ∀ r, s.lock r = none := by
    intro r
    cases hl : s.lock r with
    | none => rfl
    | some u =>
      have hu := (hi.lockI r u).1 hl
      have := noHold u
      revert hu this
      rcases s.ph u with _ | j | _ | pc | _ <;> try (intro h; cases h)
      cases pc <;> simp [held, holding]
  have inited : ∀ t, t < s.n → s.ph t = .inited := by
    intro t htn
    rcases h : s.ph t with _ | i | _ | pc | _
    · exact absurd h (hd.old t htn)
    · exfalso
      by_cases h1 : i = (cfg.res t).length
      · refine no' _ _ (.emplace h h1) ⟨rfl, rfl, ?_⟩ fun _ h => h
        intro u hu
        dsimp only
        by_cases e : u = t
        · subst e; simp
        · rw [upd_ne _ _ e]; exact hu
      · have h2 := hi.idxSub t i h
        exact no _ _ (.pushUser h (List.getElem?_eq_getElem (Nat.lt_of_le_of_ne h2 h1))) rfl rfl rfl rfl
    · exact (no _ _ (.startInit h) rfl rfl rfl rfl).elim
    · exfalso
      have := noHold t
      rw [h] at this
      cases pc with
      | scan | link | incr | unlock => cases this
      | next i =>
        by_cases h1 : i = (cfg.res t).length
        · exact no _ _ (.resEnd h h1) rfl rfl rfl rfl
        · have h2 := hi.idxNext t i h
          exact no _ _ (.lockRes h (List.getElem?_eq_getElem (Nat.lt_of_le_of_ne h2 h1)) (noLock _)) rfl rfl rfl rfl
      | parent =>
        cases h1 : cfg.parentOf t with
        | none => exact no _ _ (.noParent h h1) rfl rfl rfl rfl
        | some q => exact no _ _ (.parentPush h h1) rfl rfl rfl rfl
      | pincr q => exact no _ _ (.parentIncr h) rfl rfl rfl rfl
      | final => exact no _ _ (.final h) rfl rfl rfl rfl
    · rfl
  refine ⟨inited, ?_, ?_, ?_, ?_, ?_, ?_⟩
  · intro t h
    obtain ⟨u, h1, h2, h3⟩ := hq _ _ (.bodyEnd h (by
      intro c i hc hp h'
      rw [inited c hc] at h'
      cases h') fun _ c hc _ => inited c hc) ⟨rfl, rfl, fun _ h => h⟩
    have : u = t := by
      apply Decidable.not_not.1
      intro e
      apply h3
      dsimp only [State.decPost]
      rw [upd_ne _ _ e]
      exact h2
    exact this ▸ h1
  · intro t
    apply Nat.eq_zero_of_not_pos
    intro h
    refine no' _ _ (.start h) ⟨rfl, rfl, fun _ h => h⟩ fun u hu => ?_
    dsimp only
    by_cases e : u = t
    · subst e; simp
    · rw [upd_ne _ _ e]; exact hu
  · intro k hk
    rcases h : s.ext k with _ | _ | _ | _
    · exact absurd h (hd.extOld k hk).2
    · exact (no _ _ (.extNotify h) rfl rfl rfl rfl).elim
    · exact (no _ _ (.extFollower h) rfl rfl rfl rfl).elim
    · rfl
  · intro t
    rcases h : s.fl t with _ | i | rem | _ | _
    · exact .inl rfl
    · exfalso
      by_cases h1 : i = (cfg.res t).length
      · exact no _ _ (.deleteEnd h h1) rfl rfl rfl rfl
      · have h2 := hi.idxDel t i h
        exact no _ _ (.delete h (List.getElem?_eq_getElem (Nat.lt_of_le_of_ne h2 h1)) (noLock _)) rfl rfl rfl rfl
    · exfalso
      rcases rem with _ | ⟨x, rem⟩
      · exact no _ _ (.notifyEnd h) rfl rfl rfl rfl
      · cases x with
        | pre u => exact no _ _ (.notifyPre h) rfl rfl rfl rfl
        | post u => exact no _ _ (.notifyPost h) rfl rfl rfl rfl
    · exact (no _ _ (.countPost h) rfl rfl rfl rfl).elim
    · exact .inr rfl
  · intro t h
    refine no' _ _ (.countGet h) ⟨rfl, rfl, ?_⟩ fun _ h => h
    intro u hu
    dsimp only [State.decCd]
    by_cases e : u = t
    · subst e; rw [h] at hu; cases hu
    · rw [upd_ne _ _ e]; exact hu
  · intro t
    rcases h : s.mem t with _ | _ | _ | _
    · exact .inl rfl
    · exact (no _ _ (.freeCount h) rfl rfl rfl rfl).elim
    · exact (no _ _ (.free h) rfl rfl rfl rfl).elim
    · exact .inr rfl

/-- A quiet task has finished, if all tasks it may have to wait for have: the ones submitted before it to the
same space, its children, and the ones its body waits for. -/
theorem Quiet.done_of_inv (hd : Dom cfg s) (hi : Core cfg s) (ho : Ord cfg s) (hsg : AnySingle cfg s)
    (hself : ∀ t, .pre t ∉ s.pnd t) {B : Nat → Prop} (hq : Quiet cfg B s) (t : Nat) (htn : t < s.n)
    (h1 : ∀ p, p < s.n → p < t → cfg.space p = cfg.space t → s.fl p = .done)
    (h2 : ∀ c, c < s.n → cfg.parentOf c = some t → s.fl c = .done)
    (h3 : ¬ B t) : s.fl t = .done := by
  rcases hq.fl t with hf | hf
  · exfalso
    cases hx : s.ex t with
    | none =>
      have a1 := hi.preEq t
      have a2 := hi.handedEq t
      rw [hq.handed t] at a2
      have a3 : s.pre t ≠ 1 := by
        intro h
        rw [if_pos ⟨hq.inited t htn, hx, h⟩] at a2
        cases a2
      rw [hx, hq.inited t htn] at a1
      simp only [own, guard, if_true, Nat.add_zero] at a1
      have hne : 0 < cpre s.n s.pnd s.ph t := by omega
      obtain ⟨p, hp, hpos⟩ := sumTo_pos hne
      have hm : .pre t ∈ s.pnd p := by
        apply List.one_le_count_iff.1
        simp only [wpre] at hpos
        omega
      obtain ⟨b1, r, i, j, b3, b4⟩ := ho.origin p t hm
      have hle := hsg.older r (p, j) (t, i) b3 b1
      simp only at hle
      rcases Nat.lt_or_eq_of_le hle with hlt | heq
      · rw [hi.pndDone p (h1 p hp hlt b1)] at hm
        cases hm
      · subst heq
        exact hself p hm
    | running => exact h3 (hq.ex t hx)
    | ended =>
      have a1 := (hi.flPost t).1 hf
      have a2 := hi.postEq t
      have a3 : cext s.nExt s.owner s.ext t = 0 := by
        apply Decidable.not_not.1
        intro hne
        obtain ⟨k, hk, hpos⟩ := sumTo_pos (Nat.pos_of_ne_zero hne)
        simp [wext, hq.ext k hk] at hpos
      rw [hx, a3] at a2
      simp only [body, if_true, Nat.zero_add] at a2
      obtain ⟨c, hc, hpos⟩ := sumTo_pos (f := wpost s.pnd s.ph t) (n := s.n)
        (Nat.pos_of_ne_zero (by unfold cpost at a2; omega))
      have hm : .post t ∈ s.pnd c := by
        apply List.one_le_count_iff.1
        simp only [wpost] at hpos
        omega
      rw [hi.pndDone c (h2 c hc (hi.tgtPost c t hm))] at hm
      cases hm
  · exact hf

/-- a task that names each resource once does not wait for itself -/
theorem not_self_of (hi : Core cfg s) (ho : Ord cfg s) {p : Nat} (hn : (cfg.user p).unique.Nodup) :
    .pre p ∉ s.pnd p := by
  intro hm
  obtain ⟨b1, r, i, j, b3, b4⟩ := ho.origin p p hm
  have h5 := ((hi.histMem r p j).1 (olderThan_sub b3)).1
  have hnd' : (cfg.res p).Nodup := List.pairwise_reverse.2 (hn.imp fun h => Ne.symm h)
  have : i = j := (List.getElem?_inj (getElem?_lt_length b4) hnd').1 (b4.trans h5.symm)
  subst this
  exact not_olderThan_self (hi.histNodup r) b3

/-- a task that names each resource once, or does not conflict with itself, does not wait for itself -/
theorem not_self (ht : Tame cfg)
    (hnd : ∀ t, (cfg.user t).unique.Nodup ∨ (cfg.user t).isSerial (cfg.user t) = false)
    (hr : Reach cfg s) (p : Nat) : .pre p ∉ s.pnd p := by
  intro hm
  rcases hnd p with hn | hn
  · exact not_self_of (Core.reach ht hr) (Ord.reach ht hr) hn hm
  · have b2 := pending_serial hr p p hm
    rw [Cfg.serial, hn] at b2
    cases b2

theorem quiet_of_stuck (ht : Tame cfg) (B : Nat → Prop) (hr : Reach cfg s)
    (hq : ∀ l s', Step cfg l s s' → Working s s' →
      ∃ t, B t ∧ s.ex t = .running ∧ s'.ex t ≠ .running) : Quiet cfg B s :=
  quiet_of_stuck_of B (Dom.reach hr) (Core.reach ht hr) hq

theorem Quiet.done_of (ht : Tame cfg) (hs : cfg.single = true)
    (hnd : ∀ t, (cfg.user t).unique.Nodup ∨ (cfg.user t).isSerial (cfg.user t) = false)
    (hr : Reach cfg s) {B : Nat → Prop} (hq : Quiet cfg B s) (t : Nat) (htn : t < s.n)
    (h1 : ∀ p, p < s.n → p < t → cfg.space p = cfg.space t → s.fl p = .done)
    (h2 : ∀ c, c < s.n → cfg.parentOf c = some t → s.fl c = .done)
    (h3 : ¬ B t) : s.fl t = .done :=
  hq.done_of_inv (Dom.reach hr) (Core.reach ht hr) (Ord.reach ht hr) (AnySingle.reach hs hr) (not_self ht hnd hr)
    t htn h1 h2 h3

/-- number of the parent task, plus 1 -/
def parNo (cfg : Cfg) (t : Nat) : Nat :=
  match cfg.parentOf t with
  | some q => q + 1
  | none => 0

theorem Quiet.done_inv (hd : Dom cfg s) (hi : Core cfg s) (ho : Ord cfg s) (hsg : AnySingle cfg s)
    (hself : ∀ t, .pre t ∉ s.pnd t) (hq : Quiet cfg (fun _ => False) s) : ∀ t, t < s.n → s.fl t = .done := by
  have par : ∀ t, t < s.n → parNo cfg t ≤ t := by
    intro t htn
    unfold parNo
    cases h : cfg.parentOf t with
    | none => exact Nat.zero_le _
    | some q => exact (hd.par t q htn h).1
  have main : ∀ k, ∀ t, t < s.n → s.n - parNo cfg t ≤ k → s.fl t = .done := by
    intro k
    induction k with
    | zero =>
      intro t htn h
      have := par t htn
      omega
    | succ k ih =>
      intro t
      induction t using Nat.strongRecOn with
      | _ t iht =>
        intro htn hk
        refine hq.done_of_inv hd hi ho hsg hself t htn ?_ ?_ (fun h => h)
        · intro p hp hlt h1
          have : parNo cfg p = parNo cfg t := by
            unfold parNo Cfg.parentOf
            rw [h1]
          exact iht p hlt hp (by omega)
        · intro c hc hpc
          have h4 : parNo cfg c = t + 1 := by unfold parNo; rw [hpc]
          have := par t htn
          exact ih c hc (by omega)
  exact fun t htn => main (s.n - parNo cfg t) t htn (Nat.le_refl _)

theorem Quiet.done (ht : Tame cfg) (hs : cfg.single = true)
    (hnd : ∀ t, (cfg.user t).unique.Nodup ∨ (cfg.user t).isSerial (cfg.user t) = false)
    (hr : Reach cfg s) (hq : Quiet cfg (fun _ => False) s) : ∀ t, t < s.n → s.fl t = .done :=
  hq.done_inv (Dom.reach hr) (Core.reach ht hr) (Ord.reach ht hr) (AnySingle.reach hs hr) (not_self ht hnd hr)

end RG.Graph
