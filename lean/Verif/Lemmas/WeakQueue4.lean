import Verif.Lemmas.WeakQueue3
/-
Lemmas for C92: what the values of the producer's objects carry, after every step (continued).
-/
set_option linter.unusedVariables false
namespace RG.WQ
open RG.MQ

variable {B p : Nat} {fix : Bool} {s s' : State}

/-- lines 2921-2928 -/
theorem pinv_grow (hB : 0 < B) (h : Inv B s) {x : Nat} {g : Nat → Option Nat} (hc : (s.subs p).prod = .grow x) {m0 m1 : Msg}
    (hu : s'.subs p = { s.subs p with
          hdrs := upd (s.subs p).hdrs ((s.subs p).cur + 1) (((s.subs p).hdrs (s.subs p).cur).grow (s.subs p).nEnt)
          cur := (s.subs p).cur + 1
          entries := fun e => if (s.subs p).nEnt ≤ e then ⟨invalidBase, g e⟩ else (s.subs p).entries e
          nEnt := (s.subs p).nEnt + ((s.subs p).hdrs (s.subs p).cur).capacity
          prod := .skey x (s.subs p).nEnt ((s.subs p).hdrs (s.subs p).cur).capacity })
    (hlT : s'.c.hist (.tail p) = s.c.hist (.tail p)) (hlH : ∀ k, k ≠ (s.subs p).cur + 1 → s'.c.hist (.htl p k) = s.c.hist (.htl p k))
    (hlK : ∀ e, e < (s.subs p).nEnt → s'.c.hist (.key p e) = s.c.hist (.key p e)) (hlV : ∀ e, e < (s.subs p).nEnt → s'.c.hist (.val p e) = s.c.hist (.val p e))
    (hm0 : m0 = ⟨some ((s.subs p).cur + 1), .prod p, s.c.now (.prod p) (.prod p), s.c.now (.prod p), 0⟩)
    (hm : s'.c.hist (.cur p) = m0 :: s.c.hist (.cur p))
    (hm1 : m1 = ⟨some (((s.subs p).hdrs (s.subs p).cur).capacity - 1), .prod p, s.c.now (.prod p) (.prod p), VC.bot, ((s.subs p).hdrs (s.subs p).cur).nb⟩)
    (hmH : s'.c.hist (.htl p ((s.subs p).cur + 1)) = [m1])
    (hmK : ∀ e, (s.subs p).nEnt ≤ e → s'.c.hist (.key p e) = [⟨some invalidBase, .prod p, s.c.now (.prod p) (.prod p), VC.bot, 0⟩])
    (hmV : ∀ e, (s.subs p).nEnt ≤ e → s'.c.hist (.val p e) = [⟨g e, .prod p, s.c.now (.prod p) (.prod p), VC.bot, 0⟩])
    (hv : s'.c.vw (.prod p) = s.c.now (.prod p)) (g1 : s'.pubV p = s.pubV p) (g2 : s'.pushV p = s.pushV p)
    (g3 : s'.hdrW p = upd (s.hdrW p) ((s.subs p).cur + 1) (s.c.now (.prod p) (.prod p)))
    (g4 : s'.keyT p = s.keyT p) (g5 : s'.wr = s.wr) : PInv B p s' := by
  have hp := h.p p
  have hP := (h.q.b p).prod
  simp only [State.q] at hP
  rw [hc] at hP
  obtain ⟨hns, htl⟩ := hP
  have hH := (h.q.b p).hdr (s.subs p).cur (Nat.le_refl _)
  have hcap : 0 < ((s.subs p).hdrs (s.subs p).cur).capacity := hH.cap
  have hle := s.c.le_now (.prod p)
  have hi : ∀ i, i < (s.subs p).tail → i / B < (s.subs p).ns := fun i hi => (h.q.b p).blk_lt hB hi
  have hent : ∀ n, n < ((s.subs p).hdrs (s.subs p).cur).nb → ¬Dead B (s.subs p).fin n → (s.subs p).ent n < (s.subs p).nEnt := fun n hn hd => (h.q.b p).ent_lt hn hd
  have hgnb : (((s.subs p).hdrs (s.subs p).cur).grow (s.subs p).nEnt).nb = ((s.subs p).hdrs (s.subs p).cur).nb := rfl
  refine ⟨?_, ?_, ?_, ?_, ?_, ?_, ?_, ?_, ?_, ?_, ?_⟩ <;> (try rw [hu]) <;> simp only [g1, g2, g3, g4, g5, hv, upd_same]
  · rw [hlT]
    intro m hm
    obtain ⟨h1, h2, h3⟩ := hp.tailH m hm
    exact ⟨h1, Nat.le_trans h2 (hle _), h3⟩
  · exact fun i hi => ⟨VC.le_trans (hp.pubLe i hi).1 hle, (hp.pubLe i hi).2⟩
  · rw [hm]
    intro l1 m l2 e
    rcases split_cons e with ⟨rfl, rfl, rfl⟩ | ⟨l1', rfl, e3⟩
    · subst hm0
      refine ⟨rfl, Nat.le_refl _, _, rfl, Nat.le_refl _, fun _ => rfl, ?_, fun i hi' hn => ?_⟩
      · rw [upd_same]
      · rw [upd_same, hgnb] at hn; have := hi i hi'; omega
    · obtain ⟨h1, h2, hd, h3, h4, h5, h6, h7⟩ := hp.curH l1' m l2 e3
      refine ⟨h1, Nat.le_trans h2 (hle _), hd, h3, by omega, nofun, ?_, fun i hi hn => ?_⟩
      · rw [upd_ne _ _ (by omega)]; exact h6
      · rw [upd_ne _ _ (by omega)] at hn
        obtain ⟨m', hm', h8⟩ := h7 i hi hn
        exact ⟨m', List.mem_cons_of_mem _ hm', h8⟩
  · intro hd hhd l1 m l2 e
    by_cases e2 : hd = (s.subs p).cur + 1
    · subst e2
      rw [hmH] at e
      rcases split_cons e with ⟨rfl, rfl, rfl⟩ | ⟨l1', rfl, e3⟩
      · subst hm1
        simp only [upd_same]
        refine ⟨trivial, Nat.le_refl _, Nat.le_refl _, fun _ => rfl, ⟨_, rfl⟩, fun h0 => ⟨?_, .inr ?_⟩, fun i hi h1 h2 => ?_⟩
        · congr 1
          show _ = (((s.subs p).hdrs (s.subs p).cur).capacity + 2 * ((s.subs p).hdrs (s.subs p).cur).capacity * ((s.subs p).hdrs (s.subs p).cur).nb - ((s.subs p).hdrs (s.subs p).cur).nb +
            (((s.subs p).hdrs (s.subs p).cur).nb - 1)) % (2 * ((s.subs p).hdrs (s.subs p).cur).capacity)
          have h1 := grow_base (nb := ((s.subs p).hdrs (s.subs p).cur).nb) hcap
          rw [show ((s.subs p).hdrs (s.subs p).cur).capacity + 2 * ((s.subs p).hdrs (s.subs p).cur).capacity * ((s.subs p).hdrs (s.subs p).cur).nb - ((s.subs p).hdrs (s.subs p).cur).nb +
            (((s.subs p).hdrs (s.subs p).cur).nb - 1) = (((s.subs p).hdrs (s.subs p).cur).capacity - 1) + 2 * ((s.subs p).hdrs (s.subs p).cur).capacity * ((s.subs p).hdrs (s.subs p).cur).nb by omega,
            Nat.add_mul_mod_self_left, Nat.mod_eq_of_lt (by omega)]
        · exact Nat.le_trans (hp.keyLe _) (hle _)
        · rw [hgnb] at h1; omega
      · cases l1' <;> cases e3
    · rw [hlH _ e2] at e
      rw [upd_ne _ _ e2, upd_ne _ _ e2]
      obtain ⟨h1, h2, h3⟩ := hp.htlH hd (by omega) l1 m l2 e
      exact ⟨h1, Nat.le_trans h2 (hle _), h3⟩
  · intro e
    by_cases e2 : (s.subs p).nEnt ≤ e
    · rw [if_pos e2, hmK e e2]; exact ⟨_, _, rfl, rfl⟩
    · rw [if_neg e2, hlK e (by omega)]; exact hp.keyTop e
  · intro n hn hd
    rw [hgnb] at hn
    rw [hlK _ (hent n hn hd)]
    exact hp.keyOk n hn hd
  · intro e
    by_cases e2 : (s.subs p).nEnt ≤ e
    · rw [if_pos e2, hmV e e2]; exact ⟨_, _, rfl, rfl, .inl ⟨rfl, Nat.le_refl _⟩⟩
    · rw [if_neg e2, hlV e (by omega)]; exact valTop_mono (e := e) hle (hp.valTop e)
  · intro n hn hf
    rw [hlV _ (hent n (by omega) fun hd => hf hd.full)]
    exact hp.valOk n hn hf
  · exact hp.slot
  · intro hd hhd
    by_cases e2 : hd = (s.subs p).cur + 1
    · subst e2; rw [upd_same]
    · rw [upd_ne _ _ e2]; exact Nat.le_trans (hp.hdrT hd (by omega)) (hle _)
  · exact fun n => Nat.le_trans (hp.keyLe n) (hle _)

/-- line 2544 -/
theorem pinv_write (hB : 0 < B) (h : Inv B s) {x : Nat} (hc : (s.subs p).prod = .wr x) {w : Tid × Nat}
    (hu : s'.subs p = { s.subs p with prod := .pub x }) (hl : s'.c.hist = s.c.hist) (hv : s'.c.vw (.prod p) = s.c.now (.prod p))
    (g1 : s'.pubV p = s.pubV p) (g2 : s'.pushV p = s.pushV p) (g3 : s'.hdrW p = s.hdrW p) (g4 : s'.keyT p = s.keyT p)
    (g5 : s'.wr = upd s.wr (s.subs p).tailBlock (upd (s.wr (s.subs p).tailBlock) ((s.subs p).tail % B) w)) : PInv B p s' := by
  have hP := (h.q.b p).prod
  simp only [State.q] at hP
  rw [hc] at hP
  obtain ⟨hns, h1, h2, htb⟩ := hP
  have hlt : (s.subs p).tail / B < (s.subs p).ns := by rw [Nat.div_lt_iff_lt_mul hB]; exact h1
  have hnf := tail_not_fin (h.q.t p) (h.q.k p) (Nat.le_refl (s.subs p).tail)
  refine (h.p p).frame hB (h.q.b p) ⟨by rw [hu], by rw [hu], by rw [hu], by rw [hu], by rw [hu], by rw [hu], by rw [hu]; exact fun _ _ => rfl, by rw [hu]; exact fun _ h => h, by rw [hl], by rw [hl],
    fun _ => by rw [hl], fun _ => by rw [hl], fun _ => by rw [hl], g1, fun _ _ => by rw [g2], g3, g4, by rw [hv]; exact s.c.le_now _, fun i hi hf => ?_⟩
  rw [g5]
  by_cases e' : (s.subs p).blkOf (i / B) = (s.subs p).tailBlock
  · have h3 := (h.q.b p).apart hB ((h.q.b p).blk_lt hB hi) hlt hf hnf (e'.trans htb)
    have h4 : i % B ≠ (s.subs p).tail % B := fun e2 => by have := eq_of_div_mod h3 e2; omega
    rw [e', upd_same, upd_ne _ _ h4]
  · rw [upd_ne _ _ e']

theorem newHdr_cur {hist : Loc → List Msg} {p h T nb nEnt time : Nat} {g : Nat → Option Nat} {q : Nat} : newHdr hist p h T nb nEnt time g (.cur q) = hist (.cur q) := rfl

theorem SStep.pinv (hB : 0 < B) (h : Inv B s) (hs : SStep B fix p s s') : PInv B p s' := by
  have hv := hs.vw_le (.prod p)
  have go : PSame B p s s' → PInv B p s' := fun f => (h.p p).frame hB (h.q.b p) f
  cases hs
  case null c i e b x hc =>
    exact pinv_null hB h hc (upd_same _ _ _) (fun l hl => hist_upd hl) rfl (upd_same _ _ _)
      (by simp only [State.go, CMem.store]; exact upd_ne _ _ (by simp)) rfl rfl rfl rfl rfl
  case grow x hc g =>
    refine pinv_grow hB h hc (upd_same _ _ _) ?_ ?_ ?_ ?_ rfl ?_ rfl ?_ ?_ ?_ (upd_same _ _ _) rfl rfl (upd_same _ _ _) rfl rfl
    · simp only [State.go, CMem.grow, CMem.storeRel]
      rw [upd_ne _ _ (by simp)]; rfl
    · intro k hk
      simp only [State.go, CMem.grow, CMem.storeRel]
      rw [upd_ne _ _ (by simp)]
      simp only [newHdr]
      rw [if_neg (fun h => hk h.2)]
    · intro e he
      simp only [State.go, CMem.grow, CMem.storeRel]
      rw [upd_ne _ _ (by simp)]
      simp only [newHdr]
      rw [if_neg (by omega)]
    · intro e he
      simp only [State.go, CMem.grow, CMem.storeRel]
      rw [upd_ne _ _ (by simp)]
      simp only [newHdr]
      rw [if_neg (by omega)]
    · exact upd_same _ _ _
    · simp only [State.go, CMem.grow, CMem.storeRel]
      rw [upd_ne _ _ (by simp)]
      simp only [newHdr]
      rw [if_pos (by simp)]
    · intro e he
      simp only [State.go, CMem.grow, CMem.storeRel]
      rw [upd_ne _ _ (by simp)]
      simp only [newHdr]
      rw [if_pos (by simp [he])]
    · intro e he
      simp only [State.go, CMem.grow, CMem.storeRel]
      rw [upd_ne _ _ (by simp)]
      simp only [newHdr]
      rw [if_pos (by simp [he])]
  case storeKey x e T hc =>
    exact pinv_storeKey hB h hc (upd_same _ _ _) (fun l hl => hist_upd hl) rfl (upd_same _ _ _) (upd_same _ _ _) rfl rfl rfl (upd_same _ _ _) rfl
  case storeTail x e T hc =>
    exact pinv_storeTail hB h hc (upd_same _ _ _) (fun l hl => hist_upd hl) rfl (upd_same _ _ _) (upd_same _ _ _) rfl rfl rfl rfl rfl
  case storeVal x e b hc =>
    exact pinv_storeVal hB h hc (upd_same _ _ _) (fun l hl => hist_upd hl) rfl (upd_same _ _ _) (upd_same _ _ _) rfl rfl rfl rfl rfl
  case write x hc =>
    exact pinv_write hB h hc (upd_same _ _ _) rfl (upd_same _ _ _) rfl rfl rfl rfl rfl
  case publish x hc =>
    exact pinv_publish hB h hc (upd_same _ _ _) (fun l hl => hist_upd hl) rfl (upd_same _ _ _) (upd_same _ _ _) (upd_same _ _ _) rfl rfl rfl rfl
  case enqueue x hc =>
    exact go (psame_go (upd_same _ _ _) rfl rfl rfl rfl rfl rfl rfl (fun _ _ => rfl) (fun _ h => h) (fun _ _ _ _ _ => rfl) rfl
      (fun i hi => by simp only [upd_same]; exact upd_ne _ _ (by omega)) rfl rfl rfl hv)
  case requisition x e hc b hb =>
    exact go (psame_go (upd_same _ _ _) rfl rfl rfl rfl rfl rfl rfl (fun n hn => upd_ne _ _ (by omega)) (fun _ h => h) (fun _ _ _ _ _ => rfl) rfl
      (fun i hi => rfl) rfl rfl rfl hv)
  case setEmpty c i e b x hc =>
    refine go (psame_go (upd_same _ _ _) rfl rfl rfl rfl rfl rfl rfl (fun _ _ => rfl) upd_true (fun l hl _ _ _ => ?_) rfl (fun _ _ => rfl) rfl rfl rfl hv)
    have : l ≠ .done b := by rintro rfl; cases hl
    cases fix
    · exact hist_upd this
    · exact hist_upd this
  case resetEmpty x e b hc =>
    refine go (psame_go (upd_same _ _ _) rfl rfl rfl rfl rfl rfl rfl (fun _ _ => rfl) (fun _ h => h) (fun l hl _ _ _ => ?_) rfl (fun _ _ => rfl) rfl rfl rfl hv)
    exact hist_upd (by rintro rfl; cases hl)
  all_goals
    first
    | exact go (psame_go (upd_same _ _ _) rfl rfl rfl rfl rfl rfl rfl (fun _ _ => rfl) (fun _ h => h) (fun _ _ _ _ _ => rfl) rfl (fun _ _ => rfl) rfl rfl rfl hv)
    | exact go (psame_go (upd_same _ _ _) rfl rfl rfl rfl rfl rfl rfl (fun _ _ => rfl) (fun _ h => h) (fun l hl h1 h2 h3 => hist_upd (h1 _)) rfl (fun _ _ => rfl) rfl rfl rfl hv)
    | exact go (psame_go (upd_same _ _ _) rfl rfl rfl rfl rfl rfl rfl (fun _ _ => rfl) (fun _ h => h) (fun l hl h1 h2 h3 => hist_upd (h2 _)) rfl (fun _ _ => rfl) rfl rfl rfl hv)
    | exact go (psame_go (upd_same _ _ _) rfl rfl rfl rfl rfl rfl rfl (fun _ _ => rfl) (fun _ h => h) (fun l hl h1 h2 h3 => hist_upd (h3 _)) rfl (fun _ _ => rfl) rfl rfl rfl hv)

/-! ### What the producer has just done -/

/-- a step of others -/
theorem PW.frame {pc : PPc} (h : PW B p s pc) (h1 : (s'.subs p).tail = (s.subs p).tail) (h2 : (s'.subs p).cur = (s.subs p).cur) (h3 : (s'.subs p).hdrs = (s.subs p).hdrs)
    (h4 : (s'.subs p).tailBlock = (s.subs p).tailBlock) (h5 : s'.pushV p = s.pushV p) (h6 : s'.keyT p = s.keyT p) (h7 : ∀ e, s'.c.hist (.key p e) = s.c.hist (.key p e))
    (h8 : ∀ x, pc = .pub x → s'.wr (s.subs p).tailBlock = s.wr (s.subs p).tailBlock) (h9 : (s.c.vw (.prod p)).le (s'.c.vw (.prod p))) : PW B p s' pc where
  push := by rw [h1, h5]; exact fun hp => VC.le_trans (h.push hp) h9
  key := by rw [h2, h3, h6]; intro x e T he; rw [h7]; exact h.key x e T he
  slot := by rw [h1, h4]; intro x hx; rw [h8 x hx]; exact ⟨(h.slot x hx).1, Nat.le_trans (h.slot x hx).2 (h9 _)⟩

/-- a step of the producer after which nothing is to be remembered -/
theorem PW.next {pc : PPc} (hpc : pc ≠ .out → (s'.pushV p (s'.subs p).tail).le (s'.c.vw (.prod p))) (h1 : ∀ x e T, pc ≠ .stl x e T) (h2 : ∀ x, pc ≠ .pub x) : PW B p s' pc :=
  ⟨hpc, fun x e T h => absurd h (h1 x e T), fun x h => absurd h (h2 x)⟩

theorem SStep.pw (h : Inv B s) (hs : SStep B fix p s s') : PW B p s' (s'.subs p).prod := by
  have hv := hs.vw_le (.prod p)
  have hw := h.w p
  have hq : ∀ pc, (s.subs p).prod = pc → pc ≠ .out → (s.pushV p (s.subs p).tail).le (s'.c.vw (.prod p)) := fun pc e hne => VC.le_trans (hw.push (by rw [e]; exact hne)) hv
  cases hs
  case enqueue x hc =>
    simp only [State.go, upd_same]
    refine PW.next (fun _ => ?_) ?_ ?_
    · simp only [upd_same, CMem.tick]; exact s.c.le_now _
    · intro x e T; split <;> nofun
    · intro x; split <;> nofun
  case ldHead x m t hc hm hvv =>
    have := hq _ hc nofun
    simp only [State.go, upd_same] at this ⊢
    refine PW.next (fun _ => ?_) ?_ ?_
    · simp only [upd_same]; exact this
    · intro x e T; split <;> nofun
    · intro x; split <;> nofun
  case idxOk x m hc hm he =>
    have := hq _ hc nofun
    simp only [State.go, upd_same] at this ⊢
    exact PW.next (fun _ => by simp only [upd_same]; exact this) nofun nofun
  case idxFull x m hc hm he hvv =>
    have := hq _ hc nofun
    simp only [State.go, upd_same] at this ⊢
    exact PW.next (fun _ => by simp only [upd_same]; exact this) nofun nofun
  case grow x hc g =>
    have := hq _ hc nofun
    simp only [State.go, upd_same] at this ⊢
    exact PW.next (fun _ => by simp only [upd_same]; exact this) nofun nofun
  case storeKey x e T hc =>
    have := hq _ hc nofun
    simp only [State.go, upd_same] at this ⊢
    refine ⟨fun _ => by simp only [upd_same]; exact this, fun x' e' T' he => ?_, nofun⟩
    cases he
    simp only [upd_same, CMem.store]
    exact ⟨_, _, rfl, rfl, Nat.le_refl _⟩
  case storeTail x e T hc =>
    have := hq _ hc nofun
    simp only [State.go, upd_same] at this ⊢
    exact PW.next (fun _ => by simp only [upd_same]; exact this) nofun nofun
  case requisition x e hc b hb =>
    have := hq _ hc nofun
    simp only [State.go, upd_same] at this ⊢
    exact PW.next (fun _ => by simp only [upd_same]; exact this) nofun nofun
  case resetEmpty x e b hc =>
    have := hq _ hc nofun
    simp only [State.go, upd_same] at this ⊢
    exact PW.next (fun _ => by simp only [upd_same]; exact this) nofun nofun
  case storeVal x e b hc =>
    have := hq _ hc nofun
    simp only [State.go, upd_same] at this ⊢
    exact PW.next (fun _ => by simp only [upd_same]; exact this) nofun nofun
  case write x hc =>
    have := hq _ hc nofun
    simp only [State.go, upd_same] at this ⊢
    refine ⟨fun _ => by simp only [upd_same]; exact this, nofun, fun x' he => ?_⟩
    simp only [upd_same, CMem.tick]
    exact ⟨trivial, Nat.le_refl _⟩
  case publish x hc =>
    simp only [State.go, upd_same]
    exact PW.next (fun h => absurd rfl h) nofun nofun
  all_goals
    have hpr : ∀ {u : Sub}, u.prod = (s.subs p).prod → (upd s.subs p u p).prod = (s.subs p).prod := fun e => by rw [upd_same]; exact e
    have hf : ∀ {u : Sub} {f : Sub → Nat}, f u = f (s.subs p) → f (upd s.subs p u p) = f (s.subs p) := fun e => by rw [upd_same]; exact e
    have hf' : ∀ {u : Sub}, u.hdrs = (s.subs p).hdrs → (upd s.subs p u p).hdrs = (s.subs p).hdrs := fun e => by rw [upd_same]; exact e
    simp only [State.go] at hv ⊢
    rw [hpr (by rfl)]
    refine hw.frame (hf (f := Sub.tail) (by rfl)) (hf (f := Sub.cur) (by rfl)) (hf' (by rfl)) (hf (f := Sub.tailBlock) (by rfl)) rfl rfl ?_ (fun _ _ => rfl) hv
    intro e
    first
    | rfl
    | exact hist_upd (by simp)
    | (cases fix <;> simp only [Bool.false_eq_true, if_true, if_false, CMem.rmwAcqRel, CMem.rmwRel] <;> exact upd_ne _ _ (by simp))

end RG.WQ
