import Verif.Lemmas.WeakQueue
/-
Lemmas for C92: what a load can return; the newest values are those of a queue with sequential consistency, except that some loads return old ones.
-/
set_option linter.unusedVariables false
namespace RG.WQ
open RG.MQ

variable {B p : Nat} {fix : Bool} {s s' : State}

theorem Inv.hold_lt (hB : 0 < B) (h : Inv B s) {c i : Nat} (hc : ((s.subs p).cons c).hold = some i) :
    i < (s.subs p).tail ∧ (s.subs p).fin i = false ∧ i / B < (s.subs p).ns := by
  have h1 := (h.q.k p).hold c i hc
  exact ⟨Nat.lt_of_lt_of_le h1.1 (h.q.t p).head_le, h1.2, MQ.hold_lt hB (h.q.t p) (h.q.k p) (h.q.b p) hc⟩

theorem sees_newer {v : VC} {l : List Msg} {m : Msg} (h : Sees v l m) {P : List Msg → Prop} (hp : ∀ l1 l2, l = l1 ++ m :: l2 → P l1)
    {t : Tid} {n : Nat} (hn : n ≤ v t) : ∃ l1, P l1 ∧ ∀ m', m' ∈ l1 → m'.tid = t → m'.time ≤ n → False := by
  obtain ⟨a, b, e, hv⟩ := h
  refine ⟨a, hp a b e, fun m' hm' ht hl => ?_⟩
  have := hv m' hm'
  rw [ht] at this
  omega

/-- The header that is loaded is not older than the element. -/
theorem Inv.hdr_new (hB : 0 < B) (h : Inv B s) {c i hd : Nat} {m : Msg} (hc : ((s.subs p).cons c).hold = some i)
    (hm : Sees (s.c.vw (.cons p c)) (s.c.hist (.cur p)) m) (hv : m.val = some hd) :
    hd ≤ (s.subs p).cur ∧ i / B < ((s.subs p).hdrs hd).nb ∧ s.hdrW p hd ≤ m.view (.prod p) := by
  obtain ⟨h1, h2, h3⟩ := h.hold_lt hB hc
  have hk := (h.c p).hold c i hc (.prod p)
  obtain ⟨a, b, e, hn⟩ := hm
  obtain ⟨_, _, k, e1, h4, _, h5, h6⟩ := (h.p p).curH a m b e
  rw [hv] at e1
  cases e1
  refine ⟨h4, ?_, h5⟩
  by_contra hlt
  obtain ⟨m', hm', ht, hl⟩ := h6 i h1 (by omega)
  have := hn m' hm'
  rw [ht] at this
  omega

/-- The tail of the index that is loaded is not older than the element. -/
theorem Inv.idx_new (hB : 0 < B) (h : Inv B s) {c i hd T : Nat} {m : Msg} (hc : (s.subs p).cons c = .itl i hd)
    (hm : Sees (s.c.vw (.cons p c)) (s.c.hist (.htl p hd)) m) (hv : m.val = some T) :
    hd ≤ (s.subs p).cur ∧ ∃ n, i / B ≤ n ∧ n < ((s.subs p).hdrs hd).nb ∧ T = (((s.subs p).hdrs hd).base + n) % ((s.subs p).hdrs hd).capacity ∧
      (s.keyT p n ≤ m.view (.prod p) ∨ s.keyT p n ≤ s.hdrW p hd) := by
  have hold : ((s.subs p).cons c).hold = some i := by rw [hc]; rfl
  obtain ⟨h1, h2, h3⟩ := h.hold_lt hB hold
  have hk := (h.c p).hold c i hold (.prod p)
  have hpc := (h.q.b p).pc c
  simp only [State.q] at hpc
  rw [hc] at hpc
  obtain ⟨hcur, hnb⟩ := hpc
  obtain ⟨a, b, e, hn⟩ := hm
  obtain ⟨_, _, h4, _, _, h5, h6⟩ := (h.p p).htlH hd hcur a m b e
  have hno : ¬m.no ≤ i / B := by
    intro hle
    obtain ⟨m', hm', ht, hl⟩ := h6 i h1 hnb hle
    have := hn m' hm'
    rw [ht] at this
    omega
  have h0 := Nat.zero_le (i / B)
  obtain ⟨h7, h8⟩ := h5 (by omega)
  refine ⟨hcur, m.no - 1, by omega, by omega, ?_, h8⟩
  rw [hv] at h7
  injection h7

/-- The key that is loaded is the newest one. -/
theorem Inv.key_new (hB : 0 < B) (h : Inv B s) {c i hd T k : Nat} {m : Msg} (hc : (s.subs p).cons c = .key i hd T)
    (hm : Sees (s.c.vw (.cons p c)) (s.c.hist (.key p (((s.subs p).hdrs hd).index T))) m) (hv : m.val = some k) :
    ((s.subs p).entries (((s.subs p).hdrs hd).index T)).key = k := by
  have hold : ((s.subs p).cons c).hold = some i := by rw [hc]; rfl
  obtain ⟨h1, h2, h3⟩ := h.hold_lt hB hold
  have hpc := (h.q.b p).pc c
  simp only [State.q] at hpc
  rw [hc] at hpc
  have hcur := hpc.1
  obtain ⟨n, hn1, hn2, hn3, hn4⟩ := (h.c p).key c i hd T hc
  have hH := (h.q.b p).hdr hd hcur
  have hd' := not_dead hB h2 hn1
  have hat := (hH.at_ n hn2 hd').2
  obtain ⟨m0, l0, e0, ht, hl⟩ := (h.p p).keyOk n (Nat.lt_of_lt_of_le hn2 hH.nb_le) hd'
  obtain ⟨m1, l1, e1, hv1⟩ := (h.p p).keyTop ((s.subs p).ent n)
  rw [hn3, show ((s.subs p).hdrs hd).index ((((s.subs p).hdrs hd).base + n) % ((s.subs p).hdrs hd).capacity) = (s.subs p).ent n from hat] at hm ⊢
  rw [e0] at hm e1
  injection e1 with e1 _
  subst e1
  have := sees_top hm (by rw [ht]; omega)
  subst this
  rw [hv] at hv1
  injection hv1 with hv1
  exact hv1.symm

/-- The block that is loaded is the newest one. -/
theorem Inv.val_new (hB : 0 < B) (h : Inv B s) {c i e : Nat} {m : Msg} (hc : (s.subs p).cons c = .val i e)
    (hm : Sees (s.c.vw (.cons p c)) (s.c.hist (.val p e)) m) : ((s.subs p).entries e).value = m.val := by
  have hold : ((s.subs p).cons c).hold = some i := by rw [hc]; rfl
  obtain ⟨h1, h2, h3⟩ := h.hold_lt hB hold
  have hk := (h.c p).hold c i hold (.prod p)
  have hpc := (h.q.b p).pc c
  simp only [State.q] at hpc
  rw [hc] at hpc
  have hpc : e = (s.subs p).ent (i / B) := hpc
  obtain ⟨m0, l0, e0, ht, hl⟩ := (h.p p).valOk (i / B) h3 (not_full hB h2)
  obtain ⟨m1, l1, e1, hv1, _⟩ := (h.p p).valTop e
  rw [← hpc] at e0
  rw [e0] at hm e1
  injection e1 with e1 _
  subst e1
  have := hl i h1 rfl
  have := sees_top hm (by rw [ht]; omega)
  subst this
  exact hv1.symm

/-- The producer sees that an entry is empty only if it is. -/
theorem Inv.none_new (h : Inv B s) {e : Nat} {m : Msg} (hm : Sees (s.c.vw (.prod p)) (s.c.hist (.val p e)) m) (hv : m.val = none) :
    ((s.subs p).entries e).value = none ∧ ∃ l, s.c.hist (.val p e) = m :: l := by
  obtain ⟨m0, l0, e0, hv0, h0⟩ := (h.p p).valTop e
  have hm0 : m = m0 := by
    rcases h0 with ⟨ht, hl⟩ | ⟨hn, m', l', e', ht, hl, hne⟩
    · rw [e0] at hm; exact sees_top hm (by rw [ht]; exact hl)
    · rw [e0, e'] at hm
      obtain ⟨a, b, e1, hnew⟩ := hm
      cases a with
      | nil => injection e1 with e1 _; exact e1.symm
      | cons x a =>
        injection e1 with _ e1
        have hm' : Sees (s.c.vw (.prod p)) (m' :: l') m := ⟨a, b, e1, fun y hy => hnew y (List.mem_cons_of_mem _ hy)⟩
        have := sees_top hm' (by rw [ht]; exact hl)
        subst this
        exact absurd hv hne
  subst hm0
  exact ⟨by rw [← hv0]; exact hv, l0, e0⟩

theorem _root_.RG.MQ.Inv.set {q : MQ.State} (h : MQ.Inv B q) {u : Sub} (ht : TInv u) (hk : KInv u) (hb : BInv B p u q.mem) :
    MQ.Inv B ⟨upd q.subs p u, q.mem⟩ := by
  refine ⟨fun r => ?_, fun r => ?_, fun r => ?_⟩ <;> simp only <;> by_cases e : r = p
  · subst e; rw [upd_same]; exact ht
  · rw [upd_ne _ _ e]; exact h.t r
  · subst e; rw [upd_same]; exact hk
  · rw [upd_ne _ _ e]; exact h.k r
  · subst e; rw [upd_same]; exact hb
  · rw [upd_ne _ _ e]; exact h.b r

/-- a consumer goes on without touching anything -/
theorem _root_.RG.MQ.Inv.at {q : MQ.State} (h : MQ.Inv B q) {c : Nat} {pc : CPc} (h1 : TPc (q.subs p) pc) (h2 : pc.ticket = none)
    (h3 : pc.hold = ((q.subs p).cons c).hold) (h4 : pc.past = ((q.subs p).cons c).past) (h5 : CPos B p (q.subs p) q.mem pc) (h6 : pc.emptied = none)
    (h7 : ((q.subs p).cons c).emptied = none) (h8 : pc.blkno B = none) : MQ.Inv B ⟨upd q.subs p ((q.subs p).at c pc), q.mem⟩ :=
  h.set ((h.t p).at h1 h2) ((h.k p).at (c := c) h3 h4 rfl rfl rfl rfl) ((h.b p).at (c := c) (q.subs p).head (q.subs p).opt (q.subs p).over (q.subs p).fate h5 h6 h7 h8)

theorem SStep.base (hB : 2 ≤ B) (h : Inv B s) (hs : SStep B fix p s s') : MQ.Inv B s'.q := by
  have hB0 : 0 < B := by omega
  have go : ∀ {u m}, MQ.SStep B p (s.subs p) s.mem u m → MQ.Inv B ⟨upd s.subs p u, m⟩ := fun h1 => (MQ.Step.mk (s := s.q) h1).inv hB h.q
  cases hs with
  | call c hc => exact go (.call c hc)
  | @ldTail c m t hc hm hv => exact h.q.at (p := p) (c := c) trivial rfl (by simp only [State.q]; rw [hc]; rfl) (by simp only [State.q]; rw [hc]; rfl) trivial rfl (by simp only [State.q]; rw [hc]; rfl) rfl
  | @ldOver c t m o hc hm hv =>
    obtain ⟨v, h1, h2⟩ := (h.c p).overM m (sees_mem hm)
    rw [hv] at h1
    cases h1
    exact h.q.at (p := p) (c := c) (pc := .opt t o) h2 rfl (by simp only [State.q]; rw [hc]; rfl) (by simp only [State.q]; rw [hc]; rfl) trivial rfl (by simp only [State.q]; rw [hc]; rfl) rfl
  | @ldOpt c t o m k hc hm hv =>
    have h0 := (h.q.t p).pc c
    simp only [State.q] at h0
    rw [hc] at h0
    refine h.q.at (p := p) (c := c) ?_ ?_ ?_ ?_ ?_ ?_ (by simp only [State.q]; rw [hc]; rfl) ?_
    · split
      · exact h0
      · trivial
    · split <;> rfl
    · simp only [State.q]; rw [hc]; split <;> rfl
    · simp only [State.q]; rw [hc]; split <;> rfl
    · split <;> trivial
    · split <;> rfl
    · split <;> rfl
  | inc c hc => exact go (.inc c hc)
  | @chkOk c k o m t hc hm hv ht =>
    obtain ⟨_, _, v, h1, h2, _⟩ := (h.p p).tailH m (sees_mem hm)
    rw [hv] at h1
    cases h1
    exact go (.chkOk c hc (by omega))
  | @chkNo c k o m t hc hm hv ht =>
    exact h.q.set (p := p) (tinv_chkNo (h.q.t p) hc) ((h.q.k p).at (c := c) (pc := .ovr k) (by simp only [State.q]; rw [hc]; rfl) (by simp only [State.q]; rw [hc]; rfl) rfl rfl rfl rfl)
      ((h.q.b p).at (c := c) (pc := .ovr k) (s.subs p).head (s.subs p).opt (s.subs p).over _ trivial rfl (by simp only [State.q]; rw [hc]; rfl) rfl)
  | overcommit c hc => exact go (.overcommit c hc)
  | claim c hc => exact go (.claim c hc)
  | @ldHdr c i m hd hc hm hv =>
    obtain ⟨h1, h2, _⟩ := h.hdr_new (i := i) hB0 (by rw [hc]; rfl) hm hv
    exact h.q.at (p := p) (c := c) trivial rfl (by simp only [State.q]; rw [hc]; rfl) (by simp only [State.q]; rw [hc]; rfl) ⟨h1, h2⟩ rfl (by simp only [State.q]; rw [hc]; rfl) rfl
  | @ldIdxTail c i hd m T hc hm hv =>
    obtain ⟨h1, n, h2, h3, h4, _⟩ := h.idx_new hB0 hc hm hv
    exact h.q.at (p := p) (c := c) trivial rfl (by simp only [State.q]; rw [hc]; rfl) (by simp only [State.q]; rw [hc]; rfl) ⟨h1, n, h2, h3, h4⟩ rfl (by simp only [State.q]; rw [hc]; rfl) rfl
  | @ldKey c i hd T m k hc hm hv =>
    have := h.key_new hB0 hc hm hv
    subst this
    exact go (.ldKey c hc)
  | @ldVal c i e m hc hm =>
    have := h.val_new hB0 hc hm
    rw [← this]
    exact go (.ldVal c hc)
  | read c hc => exact go (.read c hc)
  | setEmpty c hc => exact go (.setEmpty c hc)
  | null c hc => exact go (.null c hc)
  | free c hc => exact go (.free c hc)
  | retSome c hc => exact go (.retSome c hc)
  | retNone c hc => exact go (.retNone c hc)
  | enqueue x hc => exact go (.enqueue x hc)
  | @ldHead x m t hc hm hv =>
    obtain ⟨v, h1, h2⟩ := (h.c p).headM m (sees_mem hm)
    rw [hv] at h1
    cases h1
    have h3 := (h.q.t p).head_le
    have hP := (h.q.b p).prod
    simp only [State.q] at hP h3
    rw [hc] at hP
    rw [if_neg (by omega)]
    exact h.q.set (p := p) ((h.q.t p).congr rfl rfl rfl (Nat.le_refl _) rfl rfl) ((h.q.k p).same (fun _ => rfl) (fun _ => rfl) rfl rfl rfl) ((h.q.b p).pgo hP)
  | @idxOk x m hc hm he => exact go (.idxOk hc (he.imp id fun h1 => (h.none_new hm h1).1))
  | @idxFull x m hc hm he hv =>
    have hP := (h.q.b p).prod
    simp only [State.q] at hP
    rw [hc] at hP
    exact h.q.set (p := p) ((h.q.t p).congr rfl rfl rfl (Nat.le_refl _) rfl rfl) ((h.q.k p).same (fun _ => rfl) (fun _ => rfl) rfl rfl rfl) ((h.q.b p).pgo hP)
  | grow hc g => exact go (.grow hc g)
  | storeKey hc => exact go (.storeKey hc)
  | storeTail hc => exact go (.storeTail hc)
  | requisition hc b hb => exact go (.requisition hc b hb)
  | resetEmpty hc => exact go (.resetEmpty hc)
  | storeVal hc => exact go (.storeVal hc)
  | write hc => exact go (.write hc)
  | publish hc => exact go (.publish hc)

end RG.WQ
