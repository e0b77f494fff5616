import Verif.Model.MpiCalls
/- Invariant of Model/MpiCalls. -/
namespace RG.MpiCalls

variable {R : Nat → Option Nat} {T : Nat → Bool} {s s' : State}

/-- the indices that remain are different and belong to completed requests -/
structure Good (R : Nat → Option Nat) (s : State) (rest : List (Nat × Nat)) : Prop where
  nodup : (rest.map (·.1)).Nodup
  at_ : ∀ x ∈ rest, ∃ c r, s.events[x.1]? = some c ∧ R c = some r ∧ s.done r = some x.2

/-- the request of the call has been completed, and its status is in the status object -/
def Has (R : Nat → Option Nat) (s : State) (c : Nat) : Prop := ∃ r w, R c = some r ∧ s.done r = some w ∧ s.st c = some w

def PollInv (R : Nat → Option Nat) (s : State) : Poll → Prop
  | .idle => ∀ c ∈ s.events, s.ev c = 0
  | .loop rest => Good R s rest ∧ ∀ c ∈ s.events, s.ev c = 0
  | .notify i rest => Good R s rest ∧ i ∉ rest.map (·.1) ∧ (∀ c ∈ s.events, s.ev c = 0) ∧ ∃ c, s.events[i]? = some c ∧ Has R s c
  | .erase i rest => Good R s rest ∧ i ∉ rest.map (·.1) ∧ ∃ c, s.events[i]? = some c ∧ s.ev c = 1 ∧ ∀ d ∈ s.events, d ≠ c → s.ev d = 0

structure Inv (R : Nat → Option Nat) (s : State) : Prop where
  req : s.requests = s.events.map R
  sts : s.statuses = s.events
  nodup : s.events.Nodup
  called : ∀ c ∈ s.events, s.pc c ≠ .new
  waiting : ∀ c, s.pc c = .waiting → c ∈ s.events ∨ s.ev c = 1
  ev1 : ∀ c, s.ev c ≤ 1
  has : ∀ c, s.ev c = 1 → Has R s c
  ret : ∀ c v, s.pc c = .ret v → s.ev c = 1 ∧ v = s.st c
  new : ∀ c, s.pc c = .new → s.ev c = 0
  poll : PollInv R s s.poll

theorem Good.erase {rest : List (Nat × Nat)} {i : Nat} (h : Good R s rest) (hi : i ∉ rest.map (·.1)) (hs : s'.events = s.events.eraseIdx i) (hd : s'.done = s.done) :
    Good R s' (shift i rest) := by
  have hne : ∀ x ∈ rest, x.1 ≠ i := fun x hx e => hi (e ▸ List.mem_map_of_mem hx)
  constructor
  · have : (shift i rest).map (·.1) = (rest.map (·.1)).map fun j => if j > i then j - 1 else j := by simp [shift, Function.comp_def]
    rw [this]
    have h1 := h.nodup
    unfold List.Nodup at h1 ⊢
    rw [List.pairwise_map]
    refine List.Pairwise.imp_of_mem ?_ h1
    intro a b ha hb hab he
    obtain ⟨x, hx, rfl⟩ := List.mem_map.mp ha
    obtain ⟨y, hy, rfl⟩ := List.mem_map.mp hb
    have := hne x hx
    have := hne y hy
    split at he <;> split at he <;> omega
  · intro x hx
    obtain ⟨y, hy, rfl⟩ := List.mem_map.mp hx
    obtain ⟨c, r, h1, h2, h3⟩ := h.at_ y hy
    have := hne y hy
    refine ⟨c, r, ?_, h2, by rw [hd]; exact h3⟩
    rw [hs, List.getElem?_eraseIdx]
    dsimp only
    by_cases hlt : y.1 > i
    · rw [if_pos hlt, if_neg (by omega), show y.1 - 1 + 1 = y.1 by omega]; exact h1
    · rw [if_neg hlt, if_pos (by omega)]; exact h1

theorem mem_erase {l : List Nat} {i c d : Nat} (hn : l.Nodup) (hc : l[i]? = some c) : d ∈ l.eraseIdx i ↔ d ∈ l ∧ d ≠ c := by
  obtain ⟨hi, rfl⟩ := List.getElem?_eq_some_iff.mp hc
  rw [List.mem_eraseIdx_iff_getElem?]
  constructor
  · rintro ⟨j, hj, h⟩
    refine ⟨List.mem_of_getElem? h, ?_⟩
    obtain ⟨hj', rfl⟩ := List.getElem?_eq_some_iff.mp h
    intro e
    exact hj ((List.getElem_inj hn).mp e)
  · rintro ⟨h, hne⟩
    obtain ⟨j, hj, rfl⟩ := List.getElem_of_mem h
    exact ⟨j, fun e => hne (by subst e; rfl), by simp [hj]⟩

theorem map_erase {α β : Type} (f : α → β) (l : List α) (k : Nat) : (l.map f).eraseIdx k = (l.eraseIdx k).map f := by
  induction l generalizing k with
  | nil => rfl
  | cons x xs ih => cases k with
    | zero => rfl
    | succ k => simp [ih]

theorem inv (h : Reach R T s) : Inv R s := by
  induction h with
  | init => constructor <;> simp [init, PollInv]
  | @step s s' _ hs ih =>
    obtain ⟨req, sts, nodup, called, waiting, ev1, has, ret, new, poll⟩ := ih
    cases hs with
    | @complete r v hr =>
      have hd : ∀ a w, s.done a = some w → upd s.done r (some v) a = some w := by
        intro a w ha
        by_cases e : a = r
        · subst e; rw [hr] at ha; cases ha
        · rw [upd_ne _ _ e]; exact ha
      have hh : ∀ c, Has R s c → Has R { s with done := upd s.done r (some v) } c := by
        rintro c ⟨a, w, h1, h2, h3⟩
        exact ⟨a, w, h1, hd a w h2, h3⟩
      have hg : ∀ rest, Good R s rest → Good R { s with done := upd s.done r (some v) } rest := by
        rintro rest ⟨h1, h2⟩
        exact ⟨h1, fun x hx => by obtain ⟨c, a, h3, h4, h5⟩ := h2 x hx; exact ⟨c, a, h3, h4, hd a _ h5⟩⟩
      refine ⟨req, sts, nodup, called, waiting, ev1, fun c hc => hh c (has c hc), ret, new, ?_⟩
      dsimp only
      cases hp : s.poll <;> rw [hp] at poll
      · exact poll
      · exact ⟨⟨(hg _ poll.1).1, (hg _ poll.1).2⟩, poll.2⟩
      · obtain ⟨h1, h2, h3, c, h4, h5⟩ := poll
        exact ⟨⟨(hg _ h1).1, (hg _ h1).2⟩, h2, h3, c, h4, hh c h5⟩
      · exact ⟨⟨(hg _ poll.1).1, (hg _ poll.1).2⟩, poll.2⟩
    | @register c _ hc hp =>
      have hno : c ∉ s.events := fun h => called c h hc
      rw [hp] at poll
      refine ⟨by simp [req], by simp [sts], ?_, ?_, ?_, ev1, has, ?_, ?_, ?_⟩ <;> dsimp only
      · exact List.nodup_append.mpr ⟨nodup, by simp, by intro a ha b hb; rintro rfl; simp at hb; exact hno (hb ▸ ha)⟩
      · intro d hd
        by_cases e : d = c
        · subst e; rw [upd_same]; nofun
        · rw [upd_ne _ _ e]
          rcases List.mem_append.mp hd with h | h
          · exact called d h
          · exact absurd (List.mem_singleton.mp h) e
      · intro d hd
        by_cases e : d = c
        · subst e; exact .inl (by simp)
        · rw [upd_ne _ _ e] at hd
          exact (waiting d hd).imp (List.mem_append_left _) id
      · intro d v hd
        by_cases e : d = c
        · subst e; rw [upd_same] at hd; cases hd
        · rw [upd_ne _ _ e] at hd; exact ret d v hd
      · intro d hd
        by_cases e : d = c
        · subst e; rw [upd_same] at hd; cases hd
        · rw [upd_ne _ _ e] at hd; exact new d hd
      · rw [hp]
        intro d hd
        rcases List.mem_append.mp hd with h | h
        · exact poll d h
        · rw [List.mem_singleton.mp h]; exact new c hc
    | @outside c _ hc =>
      have hno : c ∉ s.events := fun h => called c h hc
      refine ⟨req, sts, nodup, ?_, ?_, ev1, has, ?_, ?_, ?_⟩ <;> dsimp only
      · intro d hd
        rw [upd_ne _ _ (by rintro rfl; exact hno hd)]; exact called d hd
      · intro d hd
        by_cases e : d = c
        · subst e; rw [upd_same] at hd; cases hd
        · rw [upd_ne _ _ e] at hd; exact waiting d hd
      · intro d w hd
        by_cases e : d = c
        · subst e; rw [upd_same] at hd; cases hd
        · rw [upd_ne _ _ e] at hd; exact ret d w hd
      · intro d hd
        by_cases e : d = c
        · subst e; rw [upd_same] at hd; cases hd
        · rw [upd_ne _ _ e] at hd; exact new d hd
      · cases hp : s.poll <;> rw [hp] at poll
        · exact poll
        · exact ⟨⟨poll.1.1, poll.1.2⟩, poll.2⟩
        · exact ⟨⟨poll.1.1, poll.1.2⟩, poll.2⟩
        · exact ⟨⟨poll.1.1, poll.1.2⟩, poll.2⟩
    | @test rep hp hr hrep =>
      rw [hp] at poll
      refine ⟨req, sts, nodup, called, waiting, ev1, has, ret, new, ⟨hrep.distinct, fun x hx => ?_⟩, poll⟩
      obtain ⟨r, h1, h2⟩ := hrep.complete x hx
      rw [req, List.getElem?_map] at h1
      cases hc : s.events[x.1]? with
      | none => rw [hc] at h1; cases h1
      | some c => rw [hc] at h1; exact ⟨c, r, rfl, Option.some.inj h1, h2⟩
    | @write i v rest c hp hc =>
      rw [hp] at poll
      rw [sts] at hc
      obtain ⟨⟨g1, g2⟩, g3⟩ := poll
      have hcm := List.mem_of_getElem? hc
      have hc0 := g3 c hcm
      rw [List.map_cons] at g1
      obtain ⟨c', r, h1, h2, h3⟩ := g2 (i, v) List.mem_cons_self
      rw [hc] at h1
      cases h1
      have hne : ∀ d, s.ev d = 1 → d ≠ c := by rintro d hd rfl; omega
      refine ⟨req, sts, nodup, called, waiting, ev1, ?_, ?_, new, ?_⟩ <;> dsimp only
      · intro d hd
        obtain ⟨a, w, k1, k2, k3⟩ := has d hd
        exact ⟨a, w, k1, k2, by dsimp only; rw [upd_ne _ _ (hne d hd)]; exact k3⟩
      · intro d w hd
        have := ret d w hd
        exact ⟨this.1, by rw [upd_ne _ _ (hne d this.1)]; exact this.2⟩
      · exact ⟨⟨(List.nodup_cons.mp g1).2, fun x hx => g2 x (List.mem_cons_of_mem _ hx)⟩, (List.nodup_cons.mp g1).1, g3, c, hc, r, v, h2, h3, upd_same ..⟩
    | @notify i rest c hp hc =>
      rw [hp] at poll
      obtain ⟨⟨g1, g2⟩, g3, g4, c', h1, h2⟩ := poll
      rw [hc] at h1
      cases h1
      have hcm := List.mem_of_getElem? hc
      have hc0 := g4 c hcm
      refine ⟨req, sts, nodup, called, ?_, ?_, ?_, ?_, ?_, ?_⟩ <;> dsimp only
      · intro d hd
        by_cases e : d = c
        · subst e; exact .inl hcm
        · rw [upd_ne _ _ e]; exact waiting d hd
      · intro d
        by_cases e : d = c
        · subst e; rw [upd_same]; omega
        · rw [upd_ne _ _ e]; exact ev1 d
      · intro d hd
        by_cases e : d = c
        · subst e; exact h2
        · rw [upd_ne _ _ e] at hd; exact has d hd
      · intro d w hd
        have := ret d w hd
        have e : d ≠ c := by rintro rfl; omega
        rw [upd_ne _ _ e]; exact this
      · intro d hd
        have e : d ≠ c := by rintro rfl; exact called d hcm hd
        rw [upd_ne _ _ e]; exact new d hd
      · refine ⟨⟨g1, g2⟩, g3, c, hc, ?_, ?_⟩
        · dsimp only; rw [upd_same]; omega
        · intro d hd e; dsimp only; rw [upd_ne _ _ e]; exact g4 d hd
    | @erase i rest hp =>
      rw [hp] at poll
      obtain ⟨g, g3, c, hc, h1, h2⟩ := poll
      have hm : ∀ d, d ∈ s.events.eraseIdx i ↔ d ∈ s.events ∧ d ≠ c := fun d => mem_erase nodup hc
      refine ⟨?_, by dsimp only; rw [sts], nodup.sublist (List.eraseIdx_sublist ..), fun d hd => called d ((hm d).mp hd).1, ?_, ev1, has, ret, new, ?_, ?_⟩
      · dsimp only; rw [req, map_erase]
      · intro d hd
        by_cases e : d = c
        · subst e; exact .inr h1
        · exact (waiting d hd).imp (fun h => (hm d).mpr ⟨h, e⟩) id
      · exact g.erase g3 rfl rfl
      · intro d hd; have := (hm d).mp hd; exact h2 d this.1 this.2
    | unlock hp =>
      rw [hp] at poll
      exact ⟨req, sts, nodup, called, waiting, ev1, has, ret, new, poll.2⟩
    | @ret c hc he =>
      refine ⟨req, sts, nodup, ?_, ?_, ev1, has, ?_, ?_, ?_⟩ <;> dsimp only
      · intro d hd
        by_cases e : d = c
        · subst e; rw [upd_same]; nofun
        · rw [upd_ne _ _ e]; exact called d hd
      · intro d hd
        by_cases e : d = c
        · subst e; rw [upd_same] at hd; cases hd
        · rw [upd_ne _ _ e] at hd; exact waiting d hd
      · intro d w hd
        by_cases e : d = c
        · subst e
          rw [upd_same] at hd
          cases hd
          have := ev1 d
          exact ⟨by omega, rfl⟩
        · rw [upd_ne _ _ e] at hd; exact ret d w hd
      · intro d hd
        by_cases e : d = c
        · subst e; rw [upd_same] at hd; cases hd
        · rw [upd_ne _ _ e] at hd; exact new d hd
      · cases hp : s.poll <;> rw [hp] at poll
        · exact poll
        · exact ⟨⟨poll.1.1, poll.1.2⟩, poll.2⟩
        · exact ⟨⟨poll.1.1, poll.1.2⟩, poll.2⟩
        · exact ⟨⟨poll.1.1, poll.1.2⟩, poll.2⟩

end RG.MpiCalls
