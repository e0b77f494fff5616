import Verif.Lemmas.WeakQueue4
/-
Lemmas for C92: what the consumers know, after every step.
-/
set_option linter.unusedVariables false
namespace RG.WQ
open RG.MQ

variable {B p : Nat} {fix : Bool} {s s' : State}

/-- Nothing of importance for the consumers has changed. -/
structure CSame (p : Nat) (s s' : State) : Prop where
  cons : (s'.subs p).cons = (s.subs p).cons
  opt : (s'.subs p).opt = (s.subs p).opt
  fate : (s'.subs p).fate = (s.subs p).fate
  head : (s'.subs p).head = (s.subs p).head
  over : (s'.subs p).over = (s.subs p).over
  tail : (s.subs p).tail ≤ (s'.subs p).tail
  hdrs : ∀ h, h ≤ (s.subs p).cur → ((s.subs p).hdrs h).nb ≤ ((s'.subs p).hdrs h).nb ∧ ((s'.subs p).hdrs h).base = ((s.subs p).hdrs h).base ∧
    ((s'.subs p).hdrs h).capacity = ((s.subs p).hdrs h).capacity
  hH : s'.c.hist (.head p) = s.c.hist (.head p)
  hO : s'.c.hist (.over p) = s.c.hist (.over p)
  tv : s'.tv p = s.tv p
  pubV : ∀ i, i < (s.subs p).tail → s'.pubV p i = s.pubV p i
  hdrW : ∀ h, h ≤ (s.subs p).cur → s'.hdrW p h = s.hdrW p h
  keyT : ∀ n, n < ((s.subs p).hdrs (s.subs p).cur).nb → s'.keyT p n = s.keyT p n
  vw : ∀ c, (s.c.vw (.cons p c)).le (s'.c.vw (.cons p c))

theorem CInv.frame (hB : 0 < B) (h : Inv B s) (f : CSame p s s') : CInv B p s' := by
  have hc := h.c p
  have hhold : ∀ c i, ((s.subs p).cons c).hold = some i → i < (s.subs p).tail := fun c i hi => (h.hold_lt hB hi).1
  have hpast : ∀ c i x, ((s.subs p).cons c).past = some (i, x) → i < (s.subs p).tail := fun c i x hi => fin_lt_tail (h.q.t p) (h.q.k p) i ((h.q.k p).past c i x hi)
  refine ⟨?_, ?_, ?_, ?_, ?_, ?_, ?_, ?_, ?_⟩
  · rw [f.opt, f.fate, f.tv]
    exact fun k hk hp => ⟨(hc.tvOk k hk hp).1, Nat.le_trans (hc.tvOk k hk hp).2 f.tail⟩
  · rw [f.hH, f.opt, f.fate, f.tv]
    obtain ⟨m, l, h1, h2⟩ := hc.headH
    refine ⟨m, l, h1, fun k hk hg i hi => ?_⟩
    have := (hc.tvOk k hk (by rw [hg]; rfl)).2
    rw [f.pubV i (by omega)]
    exact h2 k hk hg i hi
  · rw [f.hH, f.head]; exact hc.headM
  · rw [f.hO, f.over]; exact hc.overM
  · rw [f.cons, f.tv]
    intro c k hk i hi
    have h1 := (h.q.t p).pc c
    simp only [State.q] at h1
    rw [hk] at h1
    have := (hc.tvOk k h1.1 (by rw [h1.2]; rfl)).2
    rw [f.pubV i (by omega)]
    exact VC.le_trans (hc.clm c k hk i hi) (f.vw c)
  · rw [f.cons]
    intro c i hi
    rw [f.pubV i (hhold c i hi)]
    exact VC.le_trans (hc.hold c i hi) (f.vw c)
  · rw [f.cons]
    intro c i x hi
    rw [f.pubV i (hpast c i x hi)]
    exact VC.le_trans (hc.past c i x hi) (f.vw c)
  · rw [f.cons]
    intro c i hd hi
    have h1 := (h.q.b p).pc c
    simp only [State.q] at h1
    rw [hi] at h1
    rw [f.hdrW hd h1.1]
    exact Nat.le_trans (hc.itl c i hd hi) (f.vw c _)
  · rw [f.cons]
    intro c i hd T hi
    have h1 := (h.q.b p).pc c
    simp only [State.q] at h1
    rw [hi] at h1
    obtain ⟨n, h2, h3, h4, h5⟩ := hc.key c i hd T hi
    obtain ⟨e1, e2, e3⟩ := f.hdrs hd h1.1
    refine ⟨n, h2, by omega, by rw [e2, e3]; exact h4, ?_⟩
    rw [f.keyT n (Nat.lt_of_lt_of_le h3 ((h.q.b p).hdr hd h1.1).nb_le)]
    exact Nat.le_trans h5 (f.vw c _)

theorem SStep.csame_other (hs : SStep B fix p s s') {q : Nat} (hq : q ≠ p) : CSame q s s' := by
  have hu := hs.subs_other hq
  obtain ⟨g1, g2, g3, g4, g5, g6⟩ := hs.ghost_other hq
  exact ⟨by rw [hu], by rw [hu], by rw [hu], by rw [hu], by rw [hu], by rw [hu], fun _ _ => by rw [hu]; exact ⟨Nat.le_refl _, rfl, rfl⟩, hs.hist_other hq rfl, hs.hist_other hq rfl,
    g2, fun _ _ => by rw [g4], fun _ _ => by rw [g1], fun _ _ => by rw [g5], fun c => hs.vw_le _⟩

/-- A consumer makes a step. -/
theorem CInv.one (h : CInv B p s) {c : Nat} {pc : CPc} (h1 : (s'.subs p).cons = upd (s.subs p).cons c pc) (h2 : (s'.subs p).hdrs = (s.subs p).hdrs)
    (g1 : s'.pubV p = s.pubV p) (g2 : s'.hdrW p = s.hdrW p) (g3 : s'.keyT p = s.keyT p) (hv : ∀ c', (s.c.vw (.cons p c')).le (s'.c.vw (.cons p c')))
    (htv : ∀ c' k, c' ≠ c → (s.subs p).cons c' = .clm k → s'.tv p k = s.tv p k)
    (tvOk : ∀ k, k < (s'.subs p).opt → isPass ((s'.subs p).fate k) = true → k + 1 ≤ s'.tv p k + cnt k isFail (s'.subs p).fate ∧ s'.tv p k ≤ (s'.subs p).tail)
    (headH : ∃ m l, s'.c.hist (.head p) = m :: l ∧ ∀ k, k < (s'.subs p).opt → (s'.subs p).fate k = .got → ∀ i, i < s'.tv p k → (s.pubV p i).le m.view)
    (headM : ∀ m, m ∈ s'.c.hist (.head p) → ∃ v, m.val = some v ∧ v ≤ (s'.subs p).head)
    (overM : ∀ m, m ∈ s'.c.hist (.over p) → ∃ v, m.val = some v ∧ v ≤ (s'.subs p).over)
    (clm : ∀ k, pc = .clm k → ∀ i, i < s'.tv p k → (s.pubV p i).le (s'.c.vw (.cons p c)))
    (hold : ∀ i, pc.hold = some i → (s.pubV p i).le (s'.c.vw (.cons p c)))
    (past : ∀ i x, pc.past = some (i, x) → (s.pubV p i).le (s'.c.vw (.cons p c)))
    (itl : ∀ i hd, pc = .itl i hd → s.hdrW p hd ≤ s'.c.vw (.cons p c) (.prod p))
    (key : ∀ i hd T, pc = .key i hd T → ∃ n, i / B ≤ n ∧ n < ((s.subs p).hdrs hd).nb ∧
      T = (((s.subs p).hdrs hd).base + n) % ((s.subs p).hdrs hd).capacity ∧ s.keyT p n ≤ s'.c.vw (.cons p c) (.prod p)) : CInv B p s' := by
  refine ⟨tvOk, by rw [g1]; exact headH, headM, overM, ?_, ?_, ?_, ?_, ?_⟩ <;> (try rw [g1]) <;> (try rw [g2]) <;> (try rw [g3]) <;> (try rw [h2]) <;> rw [h1] <;> intro c' <;>
    by_cases e : c' = c
  · subst e; rw [upd_same]; exact clm
  · rw [upd_ne _ _ e]
    intro k hk i hi
    rw [htv c' k e hk] at hi
    exact VC.le_trans (h.clm c' k hk i hi) (hv c')
  · subst e; rw [upd_same]; exact hold
  · rw [upd_ne _ _ e]; exact fun i hi => VC.le_trans (h.hold c' i hi) (hv c')
  · subst e; rw [upd_same]; exact past
  · rw [upd_ne _ _ e]; exact fun i x hi => VC.le_trans (h.past c' i x hi) (hv c')
  · subst e; rw [upd_same]; exact itl
  · rw [upd_ne _ _ e]; exact fun i hd hi => Nat.le_trans (h.itl c' i hd hi) (hv c' _)
  · subst e; rw [upd_same]; exact key
  · rw [upd_ne _ _ e]
    intro i hd T hi
    obtain ⟨n, h3, h4, h5, h6⟩ := h.key c' i hd T hi
    exact ⟨n, h3, h4, h5, Nat.le_trans h6 (hv c' _)⟩

/-- A consumer makes a step that does not touch the counters. -/
theorem CInv.go (h : CInv B p s) {c : Nat} {pc : CPc} (h1 : (s'.subs p).cons = upd (s.subs p).cons c pc) (h2 : (s'.subs p).hdrs = (s.subs p).hdrs)
    (h3 : (s'.subs p).opt = (s.subs p).opt) (h4 : (s'.subs p).fate = (s.subs p).fate) (h5 : (s'.subs p).tail = (s.subs p).tail) (h6 : (s'.subs p).head = (s.subs p).head)
    (h7 : (s'.subs p).over = (s.subs p).over) (hh : s'.c.hist (.head p) = s.c.hist (.head p)) (ho : s'.c.hist (.over p) = s.c.hist (.over p)) (htv : s'.tv p = s.tv p)
    (g1 : s'.pubV p = s.pubV p) (g2 : s'.hdrW p = s.hdrW p) (g3 : s'.keyT p = s.keyT p) (hv : ∀ c', (s.c.vw (.cons p c')).le (s'.c.vw (.cons p c')))
    (clm : ∀ k, pc ≠ .clm k)
    (hold : ∀ i, pc.hold = some i → (s.pubV p i).le (s'.c.vw (.cons p c)))
    (past : ∀ i x, pc.past = some (i, x) → (s.pubV p i).le (s'.c.vw (.cons p c)))
    (itl : ∀ i hd, pc = .itl i hd → s.hdrW p hd ≤ s'.c.vw (.cons p c) (.prod p))
    (key : ∀ i hd T, pc = .key i hd T → ∃ n, i / B ≤ n ∧ n < ((s.subs p).hdrs hd).nb ∧
      T = (((s.subs p).hdrs hd).base + n) % ((s.subs p).hdrs hd).capacity ∧ s.keyT p n ≤ s'.c.vw (.cons p c) (.prod p)) : CInv B p s' := by
  refine h.one h1 h2 g1 g2 g3 hv (fun _ _ _ _ => by rw [htv]) ?_ ?_ ?_ ?_ (fun k hk => absurd hk (clm k)) hold past itl key
  · rw [h3, h4, h5, htv]; exact h.tvOk
  · rw [h3, h4, htv, hh]; exact h.headH
  · rw [hh, h6]; exact h.headM
  · rw [ho, h7]; exact h.overM

/-- Among the tickets whose elements have been taken and this one, one has seen a tail behind the head. -/
theorem claim_cover {u : Sub} {tv : Nat → Nat} (ht : TInv u) (htv : ∀ k, k < u.opt → isPass (u.fate k) = true → k + 1 ≤ tv k + cnt k isFail u.fate)
    {k : Nat} (hk : k < u.opt) (hf : u.fate k = .pass) : ∃ k', k' < u.opt ∧ (u.fate k' = .got ∨ k' = k) ∧ u.head < tv k' := by
  by_contra hno
  have hno' : ∀ k', k' < u.opt → (u.fate k' = .got ∨ k' = k) → tv k' ≤ u.head := by
    intro k' h1 h2
    by_contra h3
    exact hno ⟨k', h1, h2, by omega⟩
  have hgot : ∀ k', isGot (upd u.fate k .got k') = true → u.fate k' = .got ∨ k' = k := by
    intro k' h1
    by_cases e : k' = k
    · exact .inr e
    · rw [upd_ne _ _ e] at h1
      left
      cases h2 : u.fate k' <;> rw [h2] at h1 <;> simp [isGot] at h1
  have hcf : ∀ n, cnt n isFail (upd u.fate k .got) = cnt n isFail u.fate := by
    intro n
    by_cases hkn : k < n
    · have := cnt_upd n isFail u.fate k .got hkn; rw [hf] at this; simpa [isFail] using this
    · exact cnt_upd_out _ _ _ _ _ (by omega)
  have main : ∀ n, n ≤ u.opt → cnt n isGot (upd u.fate k .got) ≤ u.head := by
    intro n
    induction n with
    | zero => intro _; exact Nat.zero_le _
    | succ n ih =>
      intro hn
      rw [cnt_succ]
      have ih := ih (by omega)
      split
      · rename_i hp
        have h1 := hgot n hp
        have h2 := hno' n (by omega) h1
        have h3 := htv n (by omega) (by rcases h1 with h1 | rfl; · rw [h1]; rfl
                                        · rw [hf]; rfl)
        have h4 : cnt n isGot (upd u.fate k .got) + cnt n isFail (upd u.fate k .got) ≤ n :=
          cnt_add_le n isGot isFail _ (by intro f; cases f <;> simp [isGot, isFail])
        rw [hcf] at h4
        omega
      · omega
  have h1 := main u.opt (Nat.le_refl _)
  have h2 := cnt_upd u.opt isGot u.fate k .got hk
  rw [hf] at h2
  simp [isGot] at h2
  rw [h2, ← ht.head_eq] at h1
  omega

/-- The tests of the other tickets are not affected. -/
theorem tvOk_upd {u : Sub} {tv : Nat → Nat} {T k0 : Nat} {v : Fate} (h : ∀ k, k < u.opt → isPass (u.fate k) = true → k + 1 ≤ tv k + cnt k isFail u.fate ∧ tv k ≤ T)
    (h1 : isFail (u.fate k0) = false) (h2 : isPass v = true → isPass (u.fate k0) = true) :
    ∀ k, k < u.opt → isPass (upd u.fate k0 v k) = true → k + 1 ≤ tv k + cnt k isFail (upd u.fate k0 v) ∧ tv k ≤ T := by
  intro k hk hp
  have hmono := cnt_upd_mono k isFail u.fate k0 v h1
  have hp' : isPass (u.fate k) = true := by
    by_cases e : k = k0
    · subst e; rw [upd_same] at hp; exact h2 hp
    · rw [upd_ne _ _ e] at hp; exact hp
  have := h k hk hp'
  omega

theorem SStep.cinv (hB : 0 < B) (h : Inv B s) (hs : SStep B fix p s s') : CInv B p s' := by
  have hv := fun c => hs.vw_le (.cons p c)
  have hc := h.c p
  have fr : CSame p s s' → CInv B p s' := fun f => CInv.frame hB h f
  have hu : ∀ (u : Sub), upd s.subs p u p = u := fun u => upd_same _ _ _
  -- the consumer's knowledge of the element
  have hold : ∀ c i, ((s.subs p).cons c).hold = some i → (s.pubV p i).le (s'.c.vw (.cons p c)) := fun c i hi => VC.le_trans (hc.hold c i hi) (hv c)
  have past : ∀ c i x, ((s.subs p).cons c).past = some (i, x) → (s.pubV p i).le (s'.c.vw (.cons p c)) := fun c i x hi => VC.le_trans (hc.past c i x hi) (hv c)
  cases hs
  case call c hcc => exact hc.go (c := c) (pc := .start) (by simp only [State.go, hu]; rfl) (by simp only [State.go, hu]; rfl) (by simp only [State.go, hu]; rfl) (by simp only [State.go, hu]; rfl) (by simp only [State.go, hu]; rfl) (by simp only [State.go, hu]; rfl) (by simp only [State.go, hu]; rfl) rfl rfl rfl rfl rfl rfl hv nofun nofun nofun nofun nofun
  case ldTail c m t hcc hm hvv => exact hc.go (c := c) (pc := .over t) (by simp only [State.go, hu]; rfl) (by simp only [State.go, hu]; rfl) (by simp only [State.go, hu]; rfl) (by simp only [State.go, hu]; rfl) (by simp only [State.go, hu]; rfl) (by simp only [State.go, hu]; rfl) (by simp only [State.go, hu]; rfl) rfl rfl rfl rfl rfl rfl hv nofun nofun nofun nofun nofun
  case ldOver c t m o hcc hm hvv => exact hc.go (c := c) (pc := .opt t o) (by simp only [State.go, hu]; rfl) (by simp only [State.go, hu]; rfl) (by simp only [State.go, hu]; rfl) (by simp only [State.go, hu]; rfl) (by simp only [State.go, hu]; rfl) (by simp only [State.go, hu]; rfl) (by simp only [State.go, hu]; rfl) rfl rfl rfl rfl rfl rfl hv nofun nofun nofun nofun nofun
  case ldOpt c t o m k hcc hm hvv =>
    refine hc.go (c := c) (pc := if k - o < t then .inc o else .ret none) (by simp only [State.go, hu]; rfl) (by simp only [State.go, hu]; rfl) (by simp only [State.go, hu]; rfl) (by simp only [State.go, hu]; rfl) (by simp only [State.go, hu]; rfl) (by simp only [State.go, hu]; rfl) (by simp only [State.go, hu]; rfl) rfl rfl rfl rfl rfl rfl hv ?_ ?_ ?_ ?_ ?_
    · intro k'; split <;> nofun
    · intro k'; split <;> nofun
    · intro k' x; split <;> nofun
    · intro i hd; split <;> nofun
    · intro i hd T; split <;> nofun
  case inc c o hcc =>
    refine hc.one (c := c) (pc := .chk (s.subs p).opt o) (by simp only [State.go, hu]) (by simp only [State.go, hu]) rfl rfl rfl hv (fun _ _ _ _ => rfl) ?_ ?_ ?_ ?_ nofun nofun nofun nofun nofun
    · simp only [State.go, hu]
      intro k hk hp
      by_cases e : k = (s.subs p).opt
      · have := (h.q.t p).fresh k (by simp only [State.q]; omega)
        simp only [State.q] at this
        rw [this] at hp
        cases hp
      · exact hc.tvOk k (by omega) hp
    · simp only [State.go, hu, CMem.rmw]
      rw [upd_ne _ _ (by simp)]
      obtain ⟨m, l, h1, h2⟩ := hc.headH
      refine ⟨m, l, h1, fun k hk hg => ?_⟩
      by_cases e : k = (s.subs p).opt
      · have := (h.q.t p).fresh k (by simp only [State.q]; omega)
        simp only [State.q] at this
        rw [this] at hg
        cases hg
      · exact h2 k (by omega) hg
    · simp only [State.go, hu, CMem.rmw]
      rw [upd_ne _ _ (by simp)]
      exact hc.headM
    · simp only [State.go, hu, CMem.rmw]
      rw [upd_ne _ _ (by simp)]
      exact hc.overM
  case chkOk c k o m t hcc hm hvv ht =>
    have hpc := (h.q.t p).pc c
    have huniq := (h.q.t p).uniq
    simp only [State.q] at hpc huniq
    rw [hcc] at hpc
    obtain ⟨hk, hund, ho⟩ := hpc
    obtain ⟨_, _, v, e1, hvt, hview⟩ := (h.p p).tailH m (sees_mem hm)
    rw [hvv] at e1
    cases e1
    refine hc.one (c := c) (pc := .clm k) (by simp only [State.go, hu]) (by simp only [State.go, hu]) rfl rfl rfl hv (fun c' k' hne hcl => ?_) ?_ ?_ ?_ ?_ ?_ nofun nofun nofun nofun
    · simp only [upd_same]
      rw [upd_ne]
      rintro rfl
      exact hne (huniq c' c k' (by rw [hcl]; rfl) (by rw [hcc]; rfl))
    · simp only [State.go, hu, upd_same]
      intro k' hk' hp
      have hcf := cnt_upd_mono k' isFail (s.subs p).fate k .pass (by rw [hund]; rfl)
      by_cases e : k' = k
      · subst e
        rw [upd_same]
        omega
      · rw [upd_ne _ _ e] at hp ⊢
        have := hc.tvOk k' hk' hp
        omega
    · simp only [State.go, hu, upd_same, CMem.acq]
      obtain ⟨m', l, h1, h2⟩ := hc.headH
      refine ⟨m', l, h1, fun k' hk' hg => ?_⟩
      by_cases e : k' = k
      · subst e; rw [upd_same] at hg; cases hg
      · rw [upd_ne _ _ e] at hg ⊢; exact h2 k' hk' hg
    · simp only [State.go, hu, CMem.acq]; exact hc.headM
    · simp only [State.go, hu, CMem.acq]; exact hc.overM
    · intro k' e
      cases e
      simp only [State.go, upd_same, CMem.acq]
      exact fun i hi => VC.le_trans (hview i hi) (VC.le_join_right _ _)
  case chkNo c k o m t hcc hm hvv ht =>
    have hpc := (h.q.t p).pc c
    simp only [State.q] at hpc
    rw [hcc] at hpc
    obtain ⟨hk, hund, ho⟩ := hpc
    refine hc.one (c := c) (pc := .ovr k) (by simp only [State.go, hu]) (by simp only [State.go, hu]) rfl rfl rfl hv (fun _ _ _ _ => rfl) ?_ ?_ ?_ ?_ nofun nofun nofun nofun nofun
    · simp only [State.go, hu]
      exact tvOk_upd hc.tvOk (by rw [hund]; rfl) nofun
    · simp only [State.go, hu, CMem.acq]
      obtain ⟨m', l, h1, h2⟩ := hc.headH
      refine ⟨m', l, h1, fun k' hk' hg => ?_⟩
      by_cases e : k' = k
      · subst e; rw [upd_same] at hg; cases hg
      · rw [upd_ne _ _ e] at hg; exact h2 k' hk' hg
    · simp only [State.go, hu, CMem.acq]; exact hc.headM
    · simp only [State.go, hu, CMem.acq]; exact hc.overM
  case overcommit c k hcc =>
    have hpc := (h.q.t p).pc c
    simp only [State.q] at hpc
    rw [hcc] at hpc
    obtain ⟨hk, hfp⟩ := hpc
    refine hc.one (c := c) (pc := .ret none) (by simp only [State.go, hu]) (by simp only [State.go, hu]) rfl rfl rfl hv (fun _ _ _ _ => rfl) ?_ ?_ ?_ ?_ nofun nofun nofun nofun nofun
    · simp only [State.go, hu]
      exact tvOk_upd hc.tvOk (by rw [hfp]; rfl) nofun
    · simp only [State.go, hu, CMem.rmwRel]
      rw [upd_ne _ _ (by simp)]
      obtain ⟨m', l, h1, h2⟩ := hc.headH
      refine ⟨m', l, h1, fun k' hk' hg => ?_⟩
      by_cases e : k' = k
      · subst e; rw [upd_same] at hg; cases hg
      · rw [upd_ne _ _ e] at hg; exact h2 k' hk' hg
    · simp only [State.go, hu, CMem.rmwRel]
      rw [upd_ne _ _ (by simp)]
      exact hc.headM
    · simp only [State.go, hu, CMem.rmwRel]
      rw [upd_same]
      intro m hm
      rcases List.mem_cons.1 hm with rfl | hm
      · exact ⟨_, rfl, Nat.le_refl _⟩
      · obtain ⟨v, h1, h2⟩ := hc.overM m hm; exact ⟨v, h1, by omega⟩
  case claim c k hcc =>
    have hpc := (h.q.t p).pc c
    simp only [State.q] at hpc
    rw [hcc] at hpc
    obtain ⟨hk, hps⟩ := hpc
    obtain ⟨m0, l0, e0, hm0⟩ := hc.headH
    have hclm := hc.clm c k hcc
    have hT := h.q.t p
    simp only [State.q] at hT
    have htop : s.c.top (.head p) = m0.view := by simp only [CMem.top, e0]
    refine hc.one (c := c) (pc := .hdr (s.subs p).head) (by simp only [State.go, hu]) (by simp only [State.go, hu]) rfl rfl rfl hv (fun _ _ _ _ => rfl) ?_ ?_ ?_ ?_ nofun ?_ nofun nofun nofun
    · simp only [State.go, hu]
      exact tvOk_upd hc.tvOk (by rw [hps]; rfl) (fun _ => by rw [hps]; rfl)
    · simp only [State.go, hu, CMem.rmwAcqRel]
      rw [upd_same]
      refine ⟨_, _, rfl, fun k' hk' hg i hi => ?_⟩
      simp only
      by_cases e : k' = k
      · subst e; exact VC.le_trans (VC.le_trans (hclm i hi) (s.c.le_now _)) (VC.le_join_left _ _)
      · rw [upd_ne _ _ e] at hg
        rw [htop]
        exact VC.le_trans (hm0 k' hk' hg i hi) (VC.le_join_right _ _)
    · simp only [State.go, hu, CMem.rmwAcqRel]
      rw [upd_same]
      intro m hm
      rcases List.mem_cons.1 hm with rfl | hm
      · exact ⟨_, rfl, Nat.le_refl _⟩
      · obtain ⟨v, h1, h2⟩ := hc.headM m hm; exact ⟨v, h1, by omega⟩
    · simp only [State.go, hu, CMem.rmwAcqRel]
      rw [upd_ne _ _ (by simp)]
      exact hc.overM
    · intro i hi
      cases hi
      simp only [State.go, CMem.rmwAcqRel, upd_same]
      obtain ⟨k', h1, h2, h3⟩ := claim_cover (tv := s.tv p) hT (fun k hk hp => (hc.tvOk k hk hp).1) hk hps
      rcases h2 with h2 | rfl
      · rw [htop]; exact VC.le_trans (hm0 k' h1 h2 _ h3) (VC.le_join_right _ _)
      · exact VC.le_trans (VC.le_trans (hclm _ h3) (s.c.le_now _)) (VC.le_join_left _ _)
  case ldHdr c i m hd hcc hm hvv =>
    refine hc.go (c := c) (pc := .itl i hd) (by simp only [State.go, hu]; rfl) (by simp only [State.go, hu]; rfl) (by simp only [State.go, hu]; rfl) (by simp only [State.go, hu]; rfl) (by simp only [State.go, hu]; rfl) (by simp only [State.go, hu]; rfl) (by simp only [State.go, hu]; rfl) rfl rfl rfl rfl rfl rfl hv nofun ?_ nofun ?_ nofun
    · intro i' hi'; exact hold c i' (by rw [hcc]; exact hi')
    · intro i' hd' e
      cases e
      simp only [State.go, CMem.acq, upd_same]
      exact Nat.le_trans (h.hdr_new (c := c) (i := i) hB (by rw [hcc]; rfl) hm hvv).2.2 (VC.le_join_right _ _ _)
  case ldIdxTail c i hd m T hcc hm hvv =>
    refine hc.go (c := c) (pc := .key i hd T) (by simp only [State.go, hu]; rfl) (by simp only [State.go, hu]; rfl) (by simp only [State.go, hu]; rfl) (by simp only [State.go, hu]; rfl) (by simp only [State.go, hu]; rfl) (by simp only [State.go, hu]; rfl) (by simp only [State.go, hu]; rfl) rfl rfl rfl rfl rfl rfl hv nofun ?_ nofun nofun ?_
    · intro i' hi'; exact hold c i' (by rw [hcc]; exact hi')
    · intro i' hd' T' e
      cases e
      obtain ⟨_, n, h2, h3, h4, h5⟩ := h.idx_new hB hcc hm hvv
      refine ⟨n, h2, h3, h4, ?_⟩
      simp only [State.go, CMem.acq, upd_same]
      rcases h5 with h5 | h5
      · exact Nat.le_trans h5 (VC.le_join_right _ _ _)
      · exact Nat.le_trans (Nat.le_trans h5 (hc.itl c i hd hcc)) (Nat.le_trans (s.c.le_now _ _) (VC.le_join_left _ _ _))
  case ldKey c i hd T m k hcc hm hvv =>
    refine hc.go (c := c) (pc := _) (by simp only [State.go, hu]; rfl) (by simp only [State.go, hu]; rfl) (by simp only [State.go, hu]; rfl) (by simp only [State.go, hu]; rfl) (by simp only [State.go, hu]; rfl) (by simp only [State.go, hu]; rfl) (by simp only [State.go, hu]; rfl) rfl rfl rfl rfl rfl rfl hv ?_ ?_ ?_ ?_ ?_
    · intro k'; split <;> nofun
    · intro i' hi'; refine hold c i' ?_; rw [hcc]; revert hi'; split <;> exact id
    · intro k' x; split <;> nofun
    · intro i hd; split <;> nofun
    · intro i hd T; split <;> nofun
  case ldVal c i e m hcc hm =>
    refine hc.go (c := c) (pc := _) (by simp only [State.go, hu]; rfl) (by simp only [State.go, hu]; rfl) (by simp only [State.go, hu]; rfl) (by simp only [State.go, hu]; rfl) (by simp only [State.go, hu]; rfl) (by simp only [State.go, hu]; rfl) (by simp only [State.go, hu]; rfl) rfl rfl rfl rfl rfl rfl hv ?_ ?_ ?_ ?_ ?_
    · intro k'; split <;> nofun
    · intro i' hi'; refine hold c i' ?_; rw [hcc]; revert hi'; split <;> exact id
    · intro k' x; split <;> nofun
    · intro i hd; split <;> nofun
    · intro i hd T; split <;> nofun
  case read c i e b hcc =>
    refine hc.go (c := c) (pc := _) (by simp only [State.go, hu]; rfl) (by simp only [State.go, hu]; rfl) (by simp only [State.go, hu]; rfl) (by simp only [State.go, hu]; rfl) (by simp only [State.go, hu]; rfl) (by simp only [State.go, hu]; rfl) (by simp only [State.go, hu]; rfl) rfl rfl rfl rfl rfl rfl hv ?_ ?_ ?_ ?_ ?_
    · intro k'; split <;> nofun
    · intro i' hi'; refine hold c i' ?_; rw [hcc]; revert hi'; split <;> exact id
    · intro k' x; split <;> nofun
    · intro i hd; split <;> nofun
    · intro i hd T; split <;> nofun
  case setEmpty c i e b x hcc =>
    refine hc.go (c := c) (pc := if (s.mem b).done = B - 1 then .nul i e b x else .ret (some (i, x))) (by simp only [State.go, hu]) (by simp only [State.go, hu]) (by simp only [State.go, hu]) (by simp only [State.go, hu]) (by simp only [State.go, hu]) (by simp only [State.go, hu]) (by simp only [State.go, hu]) ?_ ?_ rfl rfl rfl rfl hv ?_ ?_ ?_ ?_ ?_
    · cases fix <;> simp only [Bool.false_eq_true, if_true, if_false, CMem.rmwAcqRel, CMem.rmwRel, State.go] <;> exact upd_ne _ _ (by simp)
    · cases fix <;> simp only [Bool.false_eq_true, if_true, if_false, CMem.rmwAcqRel, CMem.rmwRel, State.go] <;> exact upd_ne _ _ (by simp)
    · intro k'; split <;> nofun
    · intro i'; split <;> nofun
    · intro k' x' hk'
      refine hold c k' ?_
      rw [hcc]
      revert hk'
      split <;> (intro e; cases e; rfl)
    · intro i hd; split <;> nofun
    · intro i hd T; split <;> nofun
  case null c i e b x hcc =>
    refine hc.go (c := c) (pc := .fre i b x) (by simp only [State.go, hu]) (by simp only [State.go, hu]) (by simp only [State.go, hu]) (by simp only [State.go, hu]) (by simp only [State.go, hu]) (by simp only [State.go, hu]) (by simp only [State.go, hu]) ?_ ?_ rfl rfl rfl rfl hv nofun nofun ?_ nofun nofun
    · simp only [State.go, CMem.store]; exact upd_ne _ _ (by simp)
    · simp only [State.go, CMem.store]; exact upd_ne _ _ (by simp)
    · intro i' x' hi'; exact past c i' x' (by rw [hcc]; exact hi')
  case free c i b x hcc =>
    refine hc.go (c := c) (pc := .ret (some (i, x))) (by simp only [State.go, hu]; rfl) (by simp only [State.go, hu]; rfl) (by simp only [State.go, hu]; rfl) (by simp only [State.go, hu]; rfl) (by simp only [State.go, hu]; rfl) (by simp only [State.go, hu]; rfl) (by simp only [State.go, hu]; rfl) rfl rfl rfl rfl rfl rfl hv nofun nofun ?_ nofun nofun
    intro i' x' hi'; exact past c i' x' (by rw [hcc]; exact hi')
  case retSome c i x hcc =>
    exact hc.go (c := c) (pc := .out) (by simp only [State.go, hu]) (by simp only [State.go, hu]) (by simp only [State.go, hu]) (by simp only [State.go, hu]) (by simp only [State.go, hu]) (by simp only [State.go, hu]) (by simp only [State.go, hu]) rfl rfl rfl rfl rfl rfl hv nofun nofun nofun nofun nofun
  case retNone c hcc => exact hc.go (c := c) (pc := .out) (by simp only [State.go, hu]; rfl) (by simp only [State.go, hu]; rfl) (by simp only [State.go, hu]; rfl) (by simp only [State.go, hu]; rfl) (by simp only [State.go, hu]; rfl) (by simp only [State.go, hu]; rfl) (by simp only [State.go, hu]; rfl) rfl rfl rfl rfl rfl rfl hv nofun nofun nofun nofun nofun
  case grow x hcc g =>
    refine fr ⟨?_, ?_, ?_, ?_, ?_, ?_, ?_, ?_, ?_, rfl, fun _ _ => rfl, ?_, fun _ _ => rfl, hv⟩ <;> simp only [State.go, hu]
    · exact Nat.le_refl _
    · intro k hk; rw [upd_ne _ _ (by omega)]; exact ⟨Nat.le_refl _, rfl, rfl⟩
    · simp only [CMem.grow, CMem.storeRel]; rw [upd_ne _ _ (by simp)]; rfl
    · simp only [CMem.grow, CMem.storeRel]; rw [upd_ne _ _ (by simp)]; rfl
    · intro k hk; simp only [upd_same]; exact upd_ne _ _ (by omega)
  case storeKey x e T hcc =>
    refine fr ⟨?_, ?_, ?_, ?_, ?_, ?_, ?_, ?_, ?_, rfl, fun _ _ => rfl, fun _ _ => rfl, ?_, hv⟩ <;> simp only [State.go, hu]
    · exact Nat.le_refl _
    · exact fun _ _ => ⟨Nat.le_refl _, by trivial, by trivial⟩
    · simp only [CMem.store]; exact upd_ne _ _ (by simp)
    · simp only [CMem.store]; exact upd_ne _ _ (by simp)
    · intro k hk; simp only [upd_same]; exact upd_ne _ _ (by omega)
  case storeTail x e T hcc =>
    refine fr ⟨?_, ?_, ?_, ?_, ?_, ?_, ?_, ?_, ?_, rfl, fun _ _ => rfl, fun _ _ => rfl, fun _ _ => rfl, hv⟩ <;> simp only [State.go, hu]
    · exact Nat.le_refl _
    · intro k hk
      by_cases e' : k = (s.subs p).cur
      · subst e'; simp only [upd_same]; exact ⟨Nat.le_succ _, trivial, trivial⟩
      · rw [upd_ne _ _ e']; exact ⟨Nat.le_refl _, rfl, rfl⟩
    · simp only [CMem.storeRel]; exact upd_ne _ _ (by simp)
    · simp only [CMem.storeRel]; exact upd_ne _ _ (by simp)
  case publish x hcc =>
    refine fr ⟨?_, ?_, ?_, ?_, ?_, ?_, ?_, ?_, ?_, rfl, ?_, fun _ _ => rfl, fun _ _ => rfl, hv⟩ <;> simp only [State.go, hu]
    · exact Nat.le_succ _
    · exact fun _ _ => ⟨Nat.le_refl _, by trivial, by trivial⟩
    · simp only [CMem.storeRel]; exact upd_ne _ _ (by simp)
    · simp only [CMem.storeRel]; exact upd_ne _ _ (by simp)
    · intro k hk; simp only [upd_same]; exact upd_ne _ _ (by omega)
  all_goals
    refine fr ⟨?_, ?_, ?_, ?_, ?_, ?_, ?_, ?_, ?_, rfl, fun _ _ => rfl, fun _ _ => rfl, fun _ _ => rfl, hv⟩ <;> simp only [State.go, hu]
    all_goals
      first
      | exact Nat.le_refl _
      | exact fun _ _ => ⟨Nat.le_refl _, by trivial, by trivial⟩
      | rfl

end RG.WQ
