import Verif.Props.UserList
import Verif.Props.ConcListProgress
/-
The chunked list used by several threads: the order of the slots, and what an iteration has visited at any time.
-/
set_option linter.unusedVariables false
namespace RG.CoL

open AL (own cur)

variable {N : Nat} {s s' : State}

/-! ### Order -/

theorem Later.asymm {l : AL.State} {x y : Slot} (h : Later l x y) : ¬ Later l y x := by
  rintro ⟨ry, rx, h1, h2, h3⟩
  obtain ⟨rx', ry', k1, k2, k3⟩ := h
  rw [h1] at k2; cases k2
  rw [h2] at k1; cases k1
  rcases h3 with h3 | ⟨h3, h4⟩ <;> rcases k3 with k3 | ⟨k3, k4⟩
  · omega
  · rw [k3] at h2; rw [h2] at h1; cases h1; omega
  · rw [h3] at h1; rw [h2] at h1; cases h1; omega
  · omega

theorem Later.ne {l : AL.State} {x y : Slot} (h : Later l x y) : x ≠ y := by
  rintro rfl; exact h.asymm h

theorem slot_head (h : Reach N s) {t v c : Nat} (hp : s.pcs t = .pAdd v c) (hn : s.nxt c < N) : s.al.head = some c := by
  have hB := invB h
  have hc := hB.ranked t c (pc_add hp)
  exact Decidable.not_not.1 fun e => by have := hB.old c hc e; omega

/-- all reserved slots are in chunks up to the head -/
theorem later_head (h : Reach N s) {c i : Nat} (hh : s.al.head = some c) {y : Slot} (hy : y.2 < s.nxt y.1)
    (hi : y.1 = c → y.2 < i) : Later s.al (c, i) y := by
  have hB := invB h
  have hAL := AL.inv (invA h).al
  have hrc := hAL.headSome c hh
  have hry : s.al.rank y.1 ≠ none := fun e => by have := hB.unranked _ e; omega
  obtain ⟨ry, hry⟩ := Option.ne_none_iff_exists'.1 hry
  have := (hAL.lt _ _ hry).1
  by_cases e : y.1 = c
  · exact ⟨_, ry, hrc, hry, .inr ⟨e.symm, hi e⟩⟩
  · refine ⟨_, ry, hrc, hry, .inl ?_⟩
    have : ry ≠ s.al.len - 1 := fun e' => e (hAL.inj _ _ _ (e' ▸ hry) hrc)
    omega

/-- a slot that is reserved is later than all slots reserved before -/
theorem slot_later (h : Reach N s) {t v c : Nat} (hp : s.pcs t = .pAdd v c) (hn : s.nxt c < N) {y : Slot}
    (hy : y.2 < s.nxt y.1) : Later s.al (c, s.nxt c) y :=
  later_head h (slot_head h hp hn) hy fun e => e ▸ hy

theorem asg_new {t u v c i : Nat} (hs : Step N u s s') (h : s'.pcs t = .pAsg v c i) :
    s.pcs t = .pAsg v c i ∨ (t = u ∧ s.pcs t = .pAdd v c ∧ s.nxt c < N ∧ i = s.nxt c) := by
  by_cases e : t = u
  · subst e
    cases hs <;> simp only [upd_same] at h <;> (try (split at h)) <;> (try cases h) <;>
      first | exact .inl h | simp_all | (rename_i c q _ _ _ ; exact absurd h (by cases q <;> simp [arrive])) | skip
    all_goals (exfalso; revert h; rename_i a _ _ _; cases a.pcs t <;> simp [arrive])
  · left; rw [← h]; cases hs <;> simp [upd, e]

theorem asg_head (h : ReachP N OnePush s) : ∀ t v c i, s.pcs t = .pAsg v c i → s.al.head = some c := by
  induction h with
  | init => simp [init]
  | @step s s' u hr hs hp ih =>
    have h1 := (asg_last hr).1
    intro t v c i ht
    rcases alEff (invA hr.reach) hs with ⟨e1, -, -⟩ | ⟨n, -, -, -, -, -, -, -, -, -, -, -, -, -, -, -, -, -, w, e2, e3⟩
    · rw [e1]
      rcases asg_new hs ht with h | ⟨-, h, h', -⟩
      · exact ih t v c i h
      · exact slot_head hr.reach h h'
    · exfalso
      rw [e2] at ht
      by_cases e : t = u
      · subst e; simp at ht
      · rw [upd_ne _ _ e] at ht
        refine e (h1 t u (pushing_asg ht) ?_)
        rcases e3 with ⟨e3, -⟩ | ⟨c, e3⟩ <;> rw [e3] <;> rfl

/-- if values are pushed one after the other, a value is assigned to a slot later than those of all values before -/
theorem assign_later (h : ReachP N OnePush s) {t v c i : Nat} (hp : s.pcs t = .pAsg v c i) {y : Slot}
    (hy : s.val y ≠ none) : Later s.al (c, i) y := by
  have hB := invB h.reach
  have h1 := hB.valLt y.1 y.2 hy
  have h2 := (asg_last h).2 t v c i hp
  refine later_head h.reach (asg_head h t v c i hp) h1.2 fun e => ?_
  have h3 := (hB.asg t v c i hp).2.2
  have : y.2 ≠ i := by
    intro e'; rw [← e, ← e'] at h3; exact hy h3
  rw [e] at h1
  omega

theorem log_sorted (h : ReachP N OnePush s) : s.log.Pairwise fun a b => Later s.al a.1 b.1 := by
  induction h with
  | init => exact .nil
  | @step s s' u hr hs hp ih =>
    have hm := mono (invA hr.reach) hs
    have hB := invB hr.reach
    have key : s'.log = s.log → s'.log.Pairwise fun a b => Later s'.al a.1 b.1 := by
      intro e; rw [e]; exact ih.imp fun h => h.mono hm
    cases hs with
    | assign h =>
      refine .cons ?_ ih
      intro y hy
      exact assign_later hr h (by rw [(hB.log y.1 y.2).1 hy]; simp)
    | _ => exact key rfl

/-! ### Removal -/

theorem write_pos (h : Reach N s) : ∀ t x d, s.pcs t = .rWrite x d → d ≠ 0 := by
  induction h with
  | init => simp [init]
  | @step s s' u hr hs ih => cases hs <;> grind [upd, arrive_cases]

/-- an element that has been removed is skipped, unless the removal is just going to write its offset -/
theorem rem_off (hN : 0 < N) (h : Reach N s) (x : Slot) (hx : s.removed x = true) :
    s.off x ≠ 0 ∨ ∃ t, s.pcs t = .rRead x ∨ ∃ d, s.pcs t = .rWrite x d := by
  induction h with
  | init => simp [init] at hx
  | @step s s' u hr hs ih =>
    have hw := write_pos hr
    have hC := (invC hN hr).remVal
    have hB := (invB hr).asg
    by_cases hx' : s.removed x = true
    · rcases ih hx' with h | ⟨t, h⟩
      · left; clear ih; cases hs <;> grind [upd]
      · by_cases e : t = u
        · subst e
          clear ih
          cases hs with
          | readFirst h' => right; refine ⟨t, .inr ⟨1, ?_⟩⟩; simp; grind
          | readPred h' =>
            rename_i c i
            right; refine ⟨t, .inr ⟨s.off (c, i) + 1, ?_⟩⟩; simp; grind
          | write h' => left; grind [upd]
          | _ => grind [pos, on]
        · right; refine ⟨t, ?_⟩
          have : s'.pcs t = s.pcs t := by cases hs <;> simp [upd, e]
          rw [this]; exact h
    · right
      refine ⟨u, .inl ?_⟩
      clear ih
      cases hs <;> grind [upd]

/-! ### What an iteration has visited -/

/-- all elements that are later than the position of the iterator have been visited, unless they have been removed or
overlooked -/
theorem passed_done (hN : 0 < N) (h : Reach N s) {t : Nat} {x y : Slot} (hp : pos (s.pcs t) = some x ∨ on (s.pcs t) = some x)
    (hy : s.snap t y = true) (hl : Later s.al y x) (hr : s.removed y = false) (hh : s.hid y = false) : y ∈ s.seen t := by
  have hD := invD hN h t
  have hA := invA h
  have hit : isIter (s.pcs t) = true := by
    rcases hp with hp | hp <;> generalize s.pcs t = q at hp <;> cases q <;> simp_all [isIter, pos, on]
  have hcur : s.al.pcs t = .at x.1 := by
    have hin := hA.inner t
    rcases hp with hp | hp <;> generalize s.pcs t = q at hp hin <;> cases q <;> simp_all [pos, on, Inner] <;>
      (rw [← hp])
  obtain ⟨hv, r, h1, h2⟩ := hD.snapOk hit y hy
  have hdone : Done s t y → y ∈ s.seen t := by
    rintro (h | h | h)
    · exact h
    · rw [hr] at h; cases h
    · rw [hh] at h; cases h
  obtain ⟨ry, rx, k1, k2, k3⟩ := hl
  by_cases e : y.1 = x.1
  · have hlt : x.2 < y.2 := by
      rcases k3 with k3 | k3
      · rw [e, k2] at k1; cases k1; omega
      · exact k3.2
    apply hdone
    rcases hp with hp | hp
    · have := hD.dAt x.1 x.2 hp y.2
      rw [← e] at this
      exact this hy hlt
    · have := hD.dOn x.1 x.2 hp y.2
      rw [← e] at this
      exact this hy (by omega)
  · have hdel : s.al.deleted y.1 = false := by
      cases hd : s.al.deleted y.1 with
      | false => rfl
      | true =>
        have hlt := ((invB h).valLt y.1 y.2 hv).1
        have := (invC hN h).freRem y ((invC hN h).del y.1 (.inr hd) y.2 hlt)
        rw [hr] at this; cases this
    have hle : rx ≤ ry := by rcases k3 with k3 | k3; omega; exact absurd k3.1 e
    have hvis : y.1 ∈ s.al.vis t := by
      have e' : r = ry := by rw [k1] at h1; cases h1; rfl
      subst e'
      rcases (AL.trav hA.al).passed t x.1 rx (by rw [hcur]; rfl) k2 y.1 r k1 h2 hle with h | h
      · exact h
      · rw [hdel] at h; cases h
    refine hdone (hD.old hit y hy hvis ?_)
    rw [hcur]
    simp only [cur, ne_eq, Option.some.injEq]; exact fun h => e h.symm

/-- if the newest chunk has no reserved slot, some push has not reserved its slot -/
theorem empty_head (h : Reach N s) {c : Nat} (hh : s.al.head = some c) (hn : s.nxt c = 0) :
    ∃ t, pushing (s.pcs t) = true ∧ ∀ v c i, s.pcs t ≠ .pAsg v c i := by
  induction h generalizing c with
  | init => simp [init, AL.init] at hh
  | @step s s' u hr hs ih =>
    have hA := invA hr
    have hB := invB hr
    rcases alEff hA hs with ⟨e1, -, -⟩ | ⟨n, -, -, -, -, -, -, -, -, -, -, -, -, -, -, -, -, -, w, e2, e3⟩
    · rw [e1] at hh
      have hn' : s.nxt c = 0 := by have := (mono hA hs).nxt c; omega
      obtain ⟨t, h1, h2⟩ := ih hh hn'
      by_cases e : t = u
      · subst e
        refine ⟨t, ?_⟩
        clear ih e1
        cases hs with
        | slot h hn2 =>
          exfalso
          have := slot_head hr h hn2
          rw [hh] at this; cases this
          simp at hn
        | first h | alloc h => simp only [upd_same]; split <;> simp [pushing]
        | assign h => exact absurd h (h2 _ _ _)
        | stop h => generalize s.pcs t = q at *; cases q <;> simp_all [on, pushing]
        | jump h | jumpOut h => generalize s.pcs t = q at *; cases q <;> simp_all [pos, pushing]
        | _ => simp_all [pushing]
      · have : s'.pcs t = s.pcs t := by cases hs <;> simp [upd, e]
        exact ⟨t, by rw [this]; exact h1, by rw [this]; exact h2⟩
    · exact ⟨u, by rw [e2]; simp [pushing], by rw [e2]; simp⟩

end RG.CoL
