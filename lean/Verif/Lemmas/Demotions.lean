import Verif.Model.Demotions
import Verif.Lemmas.GraphQuiet
import Verif.Props.Demote
/-
Lemmas about programs whose tasks give up accesses: the invariants of the task graph are kept.
-/
set_option linter.unusedVariables false
namespace RG.Graph

variable {cfg cfg' cfg0 : Cfg} {s s' : State} {p : Nat}

/-! ### accesses -/

theorem applyPatch_removes {u : User} {patch : List Diff} (h : Removes patch) :
    (u.applyPatch patch).1.access ⊆ u.access ∧ (u.applyPatch patch).1.unique = u.unique := by
  have key : ∀ (patch : List Diff) (u : User), Removes patch →
      (patch.foldl Diff.apply u).access ⊆ u.access ∧ (patch.foldl Diff.apply u).unique = u.unique := by
    intro patch
    induction patch with
    | nil => exact fun u _ => ⟨fun _ h => h, rfl⟩
    | cons d patch ih =>
      intro u h
      obtain ⟨ra, rfl⟩ := h d (.head _)
      obtain ⟨h1, h2⟩ := ih (u.rmAccess ra) fun d hd => h d (.tail _ hd)
      exact ⟨fun x hx => (List.mem_filter.1 (h1 hx)).1, h2⟩
  exact key patch u h

/-- the accesses `cfg'` are what is left of the accesses `cfg` -/
structure Less (cfg cfg' : Cfg) : Prop where
  access : ∀ t, (cfg'.user t).access ⊆ (cfg.user t).access
  unique : ∀ t, (cfg'.user t).unique = (cfg.user t).unique
  space : cfg'.space = cfg.space
  parent : cfg'.parent = cfg.parent
  strict : cfg'.strict = cfg.strict
  single : cfg'.single = cfg.single

theorem Less.refl : Less cfg cfg := ⟨fun _ _ h => h, fun _ => rfl, rfl, rfl, rfl, rfl⟩

theorem Less.trans {cfg''} (h : Less cfg cfg') (h' : Less cfg' cfg'') : Less cfg cfg'' :=
  ⟨fun t _ hx => h.access t (h'.access t hx), fun t => (h'.unique t).trans (h.unique t), h'.space.trans h.space,
    h'.parent.trans h.parent, h'.strict.trans h.strict, h'.single.trans h.single⟩

theorem Less.res (h : Less cfg cfg') (t : Nat) : cfg'.res t = cfg.res t := by
  unfold Cfg.res; rw [h.unique]

theorem Less.parentOf (h : Less cfg cfg') (t : Nat) : cfg'.parentOf t = cfg.parentOf t := by
  unfold Cfg.parentOf; rw [h.space, h.parent]

theorem Less.conflictOn (h : Less cfg cfg') {r p t} (hc : ConflictOn cfg' r p t) : ConflictOn cfg r p t := by
  obtain ⟨ty, x, y, h1, h2, h3⟩ := hc
  exact ⟨ty, x, y, h.access _ h1, h.access _ h2, h3⟩

theorem Less.serial (h : Less cfg cfg') {p t} (hc : cfg'.serial p t = true) : cfg.serial p t = true := by
  obtain ⟨r, hr⟩ := serial_conflictOn hc
  exact (h.conflictOn hr).serial

theorem Less.policy (h : Less cfg cfg') (hw : OnePolicy cfg) : OnePolicy cfg' :=
  fun t u a b ha hb => hw t u a b (h.access t ha) (h.access u hb)

theorem Less.tame (h : Less cfg cfg') (ht : Tame cfg) : Tame cfg' := by
  unfold Tame
  rw [h.strict, h.parent]
  exact ht

theorem updateProperties_cfg {patch : List Diff} {ok : Bool} (h : updateProperties cfg p patch s = (cfg', s', ok)) :
    cfg' = cfg.setUser p ((cfg.user p).applyPatch patch).1 := by
  unfold updateProperties at h
  dsimp only at h
  split at h <;> cases h <;> rfl

theorem setUser_less {u : User} (h1 : u.access ⊆ (cfg.user p).access) (h2 : u.unique = (cfg.user p).unique) :
    Less cfg (cfg.setUser p u) := by
  refine ⟨?_, ?_, rfl, rfl, rfl, rfl⟩ <;> intro t <;> simp only [Cfg.setUser] <;> by_cases e : t = p
  · subst e; rw [upd_same]; exact h1
  · rw [upd_ne _ _ e]; exact fun _ h => h
  · subst e; rw [upd_same]; exact h2
  · rw [upd_ne _ _ e]

theorem updateProperties_less {patch : List Diff} {ok : Bool} (hrm : Removes patch)
    (h : updateProperties cfg p patch s = (cfg', s', ok)) : Less cfg cfg' := by
  rw [updateProperties_cfg h]
  have := applyPatch_removes (u := cfg.user p) hrm
  exact setUser_less this.1 this.2

theorem DStep.less (h : DStep cfg s cfg' s') : Less cfg cfg' := by
  cases h with
  | step => exact .refl
  | demote _ hrm h => exact updateProperties_less hrm h
  | rejected _ hrm h => exact updateProperties_less hrm h

theorem DReach.less (h : DReach cfg0 cfg s) : Less cfg0 cfg := by
  induction h with
  | init => exact .refl
  | step _ hs ih => exact ih.trans hs.less

/-! ### fewer accesses, the same state -/

theorem Dom.less (h : Less cfg cfg') (hd : Dom cfg s) : Dom cfg' s :=
  { hd with par := fun c q hc hp => hd.par c q hc (by rw [← h.parentOf]; exact hp) }

theorem held_less (h : Less cfg cfg') (t : Nat) (ph : Ph) : held cfg' t ph = held cfg t ph := by
  unfold held; rw [h.res]

theorem Core.less (h : Less cfg cfg') (hi : Core cfg s) : Core cfg' s where
  pndIdle := hi.pndIdle
  pndDel := hi.pndDel
  pndNot := hi.pndNot
  pndCnt := hi.pndCnt
  pndDone := hi.pndDone
  histMem r t i := by rw [h.res]; exact hi.histMem r t i
  histNodup := hi.histNodup
  usersEq := hi.usersEq
  lockI r t := by rw [held_less h]; exact hi.lockI r t
  holdR t i hh := by rw [h.res]; exact hi.holdR t i hh
  idxSub t i hh := by rw [h.res]; exact hi.idxSub t i hh
  idxNext t i hh := by rw [h.res]; exact hi.idxNext t i hh
  idxDel t i hh := by rw [h.res]; exact hi.idxDel t i hh
  scanI t i rem r := by rw [h.res]; exact hi.scanI t i rem r
  linkI t i p rem r := by rw [h.res]; exact hi.linkI t i p rem r
  incrI t i p rem r := by rw [h.res]; exact hi.incrI t i p rem r
  tgtPre := hi.tgtPre
  tgtPost p q hh := by rw [h.parentOf]; exact hi.tgtPost p q hh
  preEq := hi.preEq
  postEq := hi.postEq
  flPost := hi.flPost
  handedEq := hi.handedEq
  startsEq := hi.startsEq
  exI := hi.exI
  kids c q := by rw [h.parentOf]; exact hi.kids c q
  pincrI c q := by rw [h.parentOf]; exact hi.pincrI c q
  finalI c q := by rw [h.parentOf]; exact hi.finalI c q
  fault := hi.fault

theorem AnySingle.less (h : Less cfg cfg') (hi : AnySingle cfg s) : AnySingle cfg' s where
  last := by rw [h.space]; exact hi.last
  lt := hi.lt
  older := by rw [h.space]; exact hi.older

theorem Life.less (h : Less cfg cfg') (hi : Life cfg s) : Life cfg' s where
  cdEq := hi.cdEq
  memEq := hi.memEq
  freesEq := hi.freesEq
  futEq := hi.futEq
  tasksEq sp := by
    have : wtask cfg' s.mem sp = wtask cfg s.mem sp := by
      funext t; unfold wtask; rw [h.space]
    rw [this]; exact hi.tasksEq sp

/-- task `p`, which is running, gives up some accesses: what other tasks would have waited for because of `p` has
finished before `p` was started -/
theorem Ord.less (h : Less cfg cfg') (hw : OnePolicy cfg) (hd : Dom cfg s) (hi : Core cfg s) (ho : Ord cfg s)
    (hp : s.ex p = .running) (hne : ∀ t, t ≠ p → cfg'.user t = cfg.user t) : Ord cfg' s where
  parOlder r e p := by rw [h.parentOf]; exact ho.parOlder r e p
  scanC t i rem r h1 h2 := by
    rw [h.res] at h2
    obtain ⟨vis, h3, h4⟩ := ho.scanC t i rem r h1 h2
    exact ⟨vis, h3, fun e he h5 h6 => h4 e he (by rw [← h.space]; exact h5) (h.serial h6)⟩
  linkC t i p rem r h1 h2 := by
    rw [h.res] at h2
    rw [h.space]
    obtain ⟨h0, vis, h3, h4⟩ := ho.linkC t i p rem r h1 h2
    exact ⟨h0, vis, h3, fun e he h5 h6 => h4 e he (by rw [← h.space]; exact h5) (h.serial h6)⟩
  incrC t i p rem r h1 h2 := by
    rw [h.res] at h2
    rw [h.space]
    obtain ⟨h0, vis, h3, h4⟩ := ho.incrC t i p rem r h1 h2
    exact ⟨h0, vis, h3, fun e he h5 h6 => h4 e he (by rw [← h.space]; exact h5) (h.serial h6)⟩
  cov t i r h1 h2 := by
    rw [h.res] at h2
    intro e he h3 h4
    rw [h.space] at h3
    have h4' := h.conflictOn h4
    rcases ho.cov t i r h1 h2 e he h3 h4' with h5 | ⟨q, hq, h5, h6, h7, h8⟩
    · exact .inl h5
    · by_cases hqp : q.1 = p
      · -- `p` runs, so this one has finished
        left; left
        have hm := olderThan_sub hq
        exact order_key_of hw hd hi ho r _ q.1 q.2 (Nat.le_refl _) ((hi.histMem r q.1 q.2).1 hm).1
          (by rw [hqp, hp]; simp) e h5 (by rw [h3, h6]) (h4'.sync hw h7)
      · refine .inr ⟨q, hq, h5, by rw [h.space]; exact h6, ?_, h8⟩
        unfold Cfg.sync
        rw [hne _ hqp]; exact h7
  origin p t h1 := by
    rw [h.space]
    obtain ⟨h2, r, i, j, h3, h4⟩ := ho.origin p t h1
    exact ⟨h2, r, i, j, h3, by rw [h.res]; exact h4⟩

/-! ### the loop of `update_graph` -/

/-- what the loop leaves alone -/
theorem updateLoop_frame (cfg : Cfg) (p : Nat) : ∀ (rem : List Fol) (s : State),
    let s' := updateLoop cfg p rem s
    s'.pnd p = (s.pnd p).filter (fun f => decide (f ∉ rem) || cfg.serial p f.task) ∧
    (∀ q, q ≠ p → s'.pnd q = s.pnd q) ∧
    s'.starts = s.starts ∧ s'.users = s.users ∧ s'.lock = s.lock ∧ s'.nExt = s.nExt ∧ s'.owner = s.owner ∧
    s'.ext = s.ext ∧ s'.fut = s.fut ∧ s'.cd = s.cd ∧ s'.mem = s.mem ∧ s'.tasks = s.tasks ∧ s'.frees = s.frees ∧
    s'.hist = s.hist := by
  intro rem s
  induction rem, s using updateLoop.induct cfg p with
  | case1 s =>
    simp only [updateLoop]
    exact ⟨(List.filter_eq_self.2 (by simp)).symm, by simp⟩
  | case2 f rem s hs ih =>
    dsimp only at ih ⊢
    rw [updateLoop, if_pos hs]
    obtain ⟨h1, h2⟩ := ih
    refine ⟨?_, h2⟩
    rw [h1]
    apply List.filter_congr
    intro g _
    by_cases hg : g = f
    · subst hg; simp [hs]
    · simp [hg]
  | case3 f rem s hs ih =>
    dsimp only at ih ⊢
    rw [updateLoop, if_neg hs]
    obtain ⟨h1, h2, h3⟩ := ih
    have hf : cfg.serial p f.task = false := by simpa using hs
    refine ⟨?_, ?_, ?_⟩
    · rw [h1, notify_pnd]
      simp only [State.eraseFol, dropAll, upd_same, List.filter_filter]
      apply List.filter_congr
      intro g _
      by_cases hg : g = f
      · subst hg; simp [hf]
      · simp [hg]
    · intro q hq
      rw [h2 q hq, notify_pnd]
      simp only [State.eraseFol]
      rw [upd_ne _ _ hq]
    · cases f <;> exact h3

/-- no assertion fails in the loop if the counters of the tasks that are released are positive -/
theorem updateLoop_fault (cfg : Cfg) (p : Nat) : ∀ (rem : List Fol) (s : State), s.fault = false →
    (∀ t, hits cfg p rem (.pre t) = 1 → s.pre t ≠ 0) → (∀ q, hits cfg p rem (.post q) = 0) →
    (updateLoop cfg p rem s).fault = false := by
  intro rem s
  induction rem, s using updateLoop.induct cfg p with
  | case1 s => intro h _ _; simpa only [updateLoop] using h
  | case2 f rem s hs ih =>
    intro h0 h1 h2
    have hh : ∀ g, hits cfg p (f :: rem) g = hits cfg p rem g := by
      intro g
      unfold hits
      by_cases hg : g = f
      · subst hg; simp [hs]
      · simp [hg]
    rw [updateLoop, if_pos hs]
    exact ih h0 (fun t => by rw [← hh]; exact h1 t) (fun q => by rw [← hh]; exact h2 q)
  | case3 f rem s hs ih =>
    intro h0 h1 h2
    have hf : cfg.serial p f.task = false := by simpa using hs
    have hh : ∀ g, hits cfg p (f :: rem) g = if g = f then 1 else hits cfg p (dropAll f rem) g := by
      intro g
      unfold hits
      by_cases hg : g = f
      · subst hg; simp [hf]
      · simp [hg, dropAll]
    have hz : hits cfg p (dropAll f rem) f = 0 := by simp [hits, dropAll]
    rw [updateLoop, if_neg hs]
    cases f with
    | post u =>
      have := h2 u
      rw [hh, if_pos rfl] at this
      cases this
    | pre u =>
      have hu := h1 u (by rw [hh, if_pos rfl])
      apply ih
      · simp [State.notify, State.decPre, State.eraseFol, h0, hu]
      · intro t ht
        have htu : t ≠ u := by
          rintro rfl
          rw [hz] at ht; cases ht
        have := h1 t (by rw [hh, if_neg (by simpa using htu)]; exact ht)
        simpa [State.notify, State.decPre, State.eraseFol, upd_ne _ _ htu] using this
      · intro q
        have := h2 q
        rwa [hh, if_neg (by simp)] at this

/-- Task `p` releases the followers that it does not conflict with any more: the effect of `update_graph` in the
circumstances `Calm`. -/
structure Release (cfg : Cfg) (p : Nat) (s s' : State) : Prop where
  folP : s'.fol p = (s.fol p).filter fun f => cfg.serial p f.task
  folNe : ∀ q, q ≠ p → s'.fol q = s.fol q
  pndP : s'.pnd p = (s.pnd p).filter fun f => cfg.serial p f.task
  pndNe : ∀ q, q ≠ p → s'.pnd q = s.pnd q
  pre : ∀ t, s'.pre t = s.pre t - hits cfg p (s.fol p) (.pre t)
  handed : ∀ t, s'.handed t =
    if hits cfg p (s.fol p) (.pre t) = 1 ∧ s.pre t = 2 then s.handed t + 1 else s.handed t
  post : s'.post = s.post
  ex : s'.ex = s.ex
  ph : s'.ph = s.ph
  n : s'.n = s.n
  fl : s'.fl = s.fl
  starts : s'.starts = s.starts
  users : s'.users = s.users
  lock : s'.lock = s.lock
  nExt : s'.nExt = s.nExt
  owner : s'.owner = s.owner
  ext : s'.ext = s.ext
  fut : s'.fut = s.fut
  cd : s'.cd = s.cd
  mem : s'.mem = s.mem
  tasks : s'.tasks = s.tasks
  frees : s'.frees = s.frees
  hist : s'.hist = s.hist
  fault : s'.fault = false

/-- facts about a running task that has fewer accesses than when it was started -/
theorem running_facts' (hd : Dom cfg s) (hi : Core cfg s) (hp : s.ex p = .running) :
    p < s.n ∧ s.fl p = .idle ∧ s.post p ≠ 0 ∧ s.pnd p = s.fol p ∧
      (∀ q, Fol.post q ∈ s.fol p → cfg.parentOf p = some q) ∧ Fol.pre p ∉ s.fol p := by
  have hf : s.fl p = .idle := hi.idle_of_body p (by simp [hp])
  have hpn := hi.pndIdle p hf
  have hlt : p < s.n := by
    apply Decidable.byContradiction
    intro h
    rw [hd.ex p (by omega)] at hp
    cases hp
  refine ⟨hlt, hf, (hi.flPost p).1 hf, hpn, ?_, ?_⟩
  · intro q hq
    exact hi.tgtPost p q (by rw [hpn]; exact hq)
  · intro h
    exact started_not_pending hd hi (t := p) (p := p) (by simp [hp]) (by rw [hpn]; exact h)

/-- what a released follower contributes to the counter of its task -/
theorem release_wpre (hd : Dom cfg s) (hi : Core cfg s) (hp : s.ex p = .running) (hc : Calm cfg p s) (t : Nat)
    (hh : hits cfg p (s.fol p) (.pre t) = 1) : wpre s.pnd s.ph t p = 1 := by
  obtain ⟨hlt, hf, hp0, hpn, hpost, hpre⟩ := running_facts' hd hi hp
  unfold hits at hh
  split at hh
  · rename_i h
    have h1 := hc.once t h.2
    have h2 : 1 ≤ (s.fol p).count (.pre t) := List.one_le_count_iff.2 h.1
    have h3 : linking (s.ph t) ≠ some p := by
      intro h3
      obtain ⟨i, j, rem, h4⟩ := linking_eq h3
      exact hc.race t i j rem h4
    simp only [wpre, hpn, if_neg h3]
    omega
  · cases hh

theorem updateGraph_release (hd : Dom cfg s) (hi : Core cfg s) (hp : s.ex p = .running) (hc : Calm cfg p s) :
    Release cfg p s (updateGraph cfg p s) := by
  obtain ⟨hlt, hf, hp0, hpn, hpost, hpre⟩ := running_facts' hd hi hp
  obtain ⟨h1, h2, h3, h4, h5, h6, h7, h8, h9⟩ := updateLoop_spec cfg p (s.fol p) s
  obtain ⟨k1, k2, k3, k4, k5, k6, k7, k8, k9, k10, k11, k12, k13, k14⟩ := updateLoop_frame cfg p (s.fol p) s
  have hz : ∀ q, hits cfg p (s.fol p) (.post q) = 0 := by
    intro q
    unfold hits
    rw [if_neg]
    rintro ⟨ha, hb⟩
    have := hc.parent q (hpost q ha)
    rw [Fol.task, this] at hb
    cases hb
  have hfil : ∀ l : List Fol, l = s.fol p → l.filter (fun f => decide (f ∉ s.fol p) || cfg.serial p f.task) =
      l.filter fun f => cfg.serial p f.task := by
    rintro l rfl
    apply List.filter_congr
    intro g hg
    simp [hg]
  unfold updateGraph
  refine ⟨h1.trans (hfil _ rfl), h2, k1.trans (hfil _ hpn), k2, h3, h5, ?_, h6, h7, h8, h9 hz, k3, k4, k5, k6, k7, k8,
    k9, k10, k11, k12, k13, k14, ?_⟩
  · funext q
    rw [h4, hz, Nat.sub_zero]
  · apply updateLoop_fault cfg p _ _ hi.fault _ hz
    intro t ht h0
    have a1 := release_wpre hd hi hp hc t ht
    have a2 := le_sumTo (f := wpre s.pnd s.ph t) hlt
    have a3 := hi.preEq t
    unfold cpre at a3
    omega

/-! ### the invariants are kept -/

theorem Release.sub (h : Release cfg p s s') {q : Nat} {f : Fol} (hf : f ∈ s'.pnd q) : f ∈ s.pnd q := by
  by_cases e : q = p
  · subst e; rw [h.pndP] at hf; exact (List.mem_filter.1 hf).1
  · rwa [h.pndNe q e] at hf

theorem Release.folSub (h : Release cfg p s s') {q : Nat} {f : Fol} (hf : f ∈ s'.fol q) : f ∈ s.fol q := by
  by_cases e : q = p
  · subst e; rw [h.folP] at hf; exact (List.mem_filter.1 hf).1
  · rwa [h.folNe q e] at hf

theorem hits_le (rem : List Fol) (f : Fol) : hits cfg p rem f ≤ 1 := by
  unfold hits; split <;> omega

theorem Dom.release (hd : Dom cfg s) (h : Release cfg p s s') : Dom cfg s' := by
  have hz : ∀ t, s.n ≤ t → hits cfg p (s.fol p) (.pre t) = 0 := by
    intro t ht
    unfold hits
    rw [if_neg]
    rintro ⟨ha, -⟩
    have := hd.folT p _ ha
    simp only [Fol.tgt] at this
    omega
  constructor
  · rw [h.n, h.ph]; exact hd.ph
  · rw [h.n, h.ex]; exact hd.ex
  · rw [h.n]; intro t ht; rw [h.pre, hz t ht]; exact hd.pre t ht
  · rw [h.n, h.post]; exact hd.post
  · rw [h.n]; intro t ht; rw [h.handed, hz t ht]; simp [hd.handed t ht]
  · rw [h.n, h.starts]; exact hd.starts
  · rw [h.n]; intro t ht
    apply List.eq_nil_iff_forall_not_mem.2
    intro f hf
    have := h.folSub hf
    rw [hd.fol t ht] at this; cases this
  · rw [h.n]; intro t ht
    apply List.eq_nil_iff_forall_not_mem.2
    intro f hf
    have := h.sub hf
    rw [hd.pnd t ht] at this; cases this
  · rw [h.n, h.fl]; exact hd.fl
  · rw [h.n, h.fut]; exact hd.fut
  · rw [h.n, h.cd]; exact hd.cd
  · rw [h.n, h.mem]; exact hd.mem
  · rw [h.n, h.frees]; exact hd.frees
  · rw [h.nExt, h.ext]; exact hd.ext
  · rw [h.n, h.ph]; exact hd.old
  · rw [h.nExt, h.owner, h.n, h.ext]; exact hd.extOld
  · rw [h.n, h.ex]; exact hd.par
  · rw [h.n]; exact fun q f hf => hd.tgt q f (h.sub hf)
  · rw [h.n]; exact fun q f hf => hd.folT q f (h.folSub hf)
  · rw [h.fl, h.n]; exact hd.flT
  · rw [h.users, h.n]; exact hd.usersT
  · rw [h.ph, h.n]; exact hd.scanT
  · rw [h.ph, h.n]; exact hd.linkT
  · rw [h.ph, h.n]; exact hd.incrT
  · rw [h.ph, h.n]; exact hd.pincrT

theorem Core.release (hd : Dom cfg s) (hi : Core cfg s) (hp : s.ex p = .running) (hc : Calm cfg p s)
    (h : Release cfg p s s') : Core cfg s' := by
  obtain ⟨hlt, hf, hp0, hpn, hpost, hpre⟩ := running_facts' hd hi hp
  have hpost' : ∀ q c, (s'.pnd c).count (.post q) = (s.pnd c).count (.post q) := by
    intro q c
    by_cases e : c = p
    · subst e
      rw [h.pndP]
      by_cases hm : Fol.post q ∈ s.pnd c
      · rw [List.count_filter]
        exact hc.parent q (hi.tgtPost c q hm)
      · rw [List.count_eq_zero.2 hm, List.count_eq_zero.2 fun h' => hm (List.mem_filter.1 h').1]
    · rw [h.pndNe c e]
  have hcpost : ∀ t, cpost s'.n s'.pnd s'.ph t = cpost s.n s.pnd s.ph t := by
    intro t
    rw [h.n, h.ph]
    unfold cpost
    apply sumTo_congr
    intro c _
    simp only [wpost, hpost']
  have hcpre : ∀ t, cpre s'.n s'.pnd s'.ph t + hits cfg p (s.fol p) (.pre t) = cpre s.n s.pnd s.ph t := by
    intro t
    rw [h.n, h.ph]
    unfold cpre
    have hch := sumTo_change (f := wpre s.pnd s.ph t) (g := wpre s'.pnd s.ph t) hlt
      (fun q _ hq => by simp only [wpre, h.pndNe q hq])
    by_cases hh : hits cfg p (s.fol p) (.pre t) = 1
    · have a1 := release_wpre hd hi hp hc t hh
      have a2 : wpre s'.pnd s.ph t p = 0 := by
        unfold hits at hh
        split at hh
        · rename_i h'
          have : Fol.pre t ∉ s'.pnd p := by
            rw [h.pndP, List.mem_filter]
            rintro ⟨-, h2⟩
            rw [h'.2] at h2; cases h2
          simp [wpre, List.count_eq_zero.2 this]
        · cases hh
      omega
    · have h0 : hits cfg p (s.fol p) (.pre t) = 0 := by
        have := hits_le (cfg := cfg) (p := p) (s.fol p) (.pre t)
        omega
      have a2 : wpre s'.pnd s.ph t p = wpre s.pnd s.ph t p := by
        unfold wpre
        rw [h.pndP]
        by_cases hm : Fol.pre t ∈ s.pnd p
        · rw [List.count_filter]
          unfold hits at h0
          rw [← hpn] at h0
          simp only [hm, true_and] at h0
          split at h0
          · cases h0
          · rename_i h'; simpa using h'
        · rw [List.count_eq_zero.2 hm, List.count_eq_zero.2 fun h' => hm (List.mem_filter.1 h').1]
      omega
  have hex : ∀ t, s.ex t ≠ .none → hits cfg p (s.fol p) (.pre t) = 0 := by
    intro t ht
    unfold hits
    rw [if_neg]
    rintro ⟨ha, -⟩
    exact started_not_pending hd hi (t := t) (p := p) ht (by rw [hpn]; exact ha)
  have hpreEq : ∀ t, s'.pre t = own (s.ex t) + guard (s.ph t) + cpre s'.n s'.pnd s'.ph t := by
    intro t
    rw [h.pre]
    have a1 := hi.preEq t
    have a2 := hcpre t
    omega
  constructor
  · rw [h.fl]; intro q hq
    by_cases e : q = p
    · subst e; rw [h.pndP, h.folP, hpn]
    · rw [h.pndNe q e, h.folNe q e]; exact hi.pndIdle q hq
  · rw [h.fl]; intro q i hq
    by_cases e : q = p
    · subst e; rw [hf] at hq; cases hq
    · rw [h.pndNe q e, h.folNe q e]; exact hi.pndDel q i hq
  · rw [h.fl]; intro q rem hq
    by_cases e : q = p
    · subst e; rw [hf] at hq; cases hq
    · rw [h.pndNe q e]; exact hi.pndNot q rem hq
  · rw [h.fl]; intro q hq
    by_cases e : q = p
    · subst e; rw [hf] at hq; cases hq
    · rw [h.pndNe q e]; exact hi.pndCnt q hq
  · rw [h.fl]; intro q hq
    by_cases e : q = p
    · subst e; rw [hf] at hq; cases hq
    · rw [h.pndNe q e]; exact hi.pndDone q hq
  · rw [h.hist, h.ph]; exact hi.histMem
  · rw [h.hist]; exact hi.histNodup
  · rw [h.users, h.hist, h.fl]; exact hi.usersEq
  · rw [h.lock, h.ph]; exact hi.lockI
  · rw [h.ph]; exact hi.holdR
  · rw [h.ph]; exact hi.idxSub
  · rw [h.ph]; exact hi.idxNext
  · rw [h.fl]; exact hi.idxDel
  · rw [h.ph, h.users]; exact hi.scanI
  · rw [h.ph, h.users]; exact hi.linkI
  · rw [h.ph, h.users]
    intro t i q rem r h1 h2
    obtain ⟨h3, h4, h5⟩ := hi.incrI t i q rem r h1 h2
    refine ⟨h3, ?_, h5⟩
    have : q.1 ≠ p := by
      intro e
      exact hc.race t i q.2 rem (by rw [h1, ← e])
    rw [h.pndNe _ this]; exact h4
  · rw [h.ph]; exact fun q t hm => hi.tgtPre q t (h.sub hm)
  · exact fun q t hm => hi.tgtPost q t (h.sub hm)
  · intro t; rw [h.ex, h.ph, ← h.ph]; exact h.ph ▸ hpreEq t
  · intro t; rw [h.post, h.ex, h.nExt, h.owner, h.ext, hcpost]; exact hi.postEq t
  · rw [h.fl, h.post]; exact hi.flPost
  · intro t
    rw [h.handed, h.ph, h.ex, h.pre]
    have a1 := hi.handedEq t
    have a2 := hi.preEq t
    have a3 := hcpre t
    have a4 := hex t
    by_cases hh : hits cfg p (s.fol p) (.pre t) = 1
    · have hx : s.ex t = .none := by
        apply Decidable.not_not.1
        intro hx
        rw [a4 hx] at hh; cases hh
      have hb : begun (s.ph t) = true := by
        apply hi.tgtPre p
        rw [hpn]
        unfold hits at hh
        split at hh
        · rename_i h'; exact h'.1
        · cases hh
      rw [hx] at a1 a2 ⊢
      rw [hh] at a3 ⊢
      have hg : guard (s.ph t) = 0 ↔ s.ph t = .inited := by
        revert hb
        cases s.ph t <;> simp [begun, guard]
      simp only [own, if_true] at a2
      by_cases h2 : s.pre t = 2
      · have : s.ph t = .inited := hg.1 (by omega)
        rw [if_pos ⟨rfl, h2⟩, a1, h2]
        simp [this]
      · rw [if_neg (fun h' => h2 h'.2), a1, if_neg, if_neg]
        · rintro ⟨-, -, h3⟩; omega
        · rintro ⟨-, -, h3⟩; omega
    · have h0 : hits cfg p (s.fol p) (.pre t) = 0 := by
        have := hits_le (cfg := cfg) (p := p) (s.fol p) (.pre t)
        omega
      rw [if_neg (fun h' => hh h'.1), h0, Nat.sub_zero]; exact a1
  · rw [h.starts, h.ex]; exact hi.startsEq
  · rw [h.ex, h.ph]
    intro t ht
    refine ⟨(hi.exI t ht).1, ?_⟩
    rw [h.pre, (hi.exI t ht).2, Nat.zero_sub]
  · rw [h.n, h.ex, h.ph]; exact hi.kids
  · rw [h.ph]
    intro c q h1
    obtain ⟨h2, h3⟩ := hi.pincrI c q h1
    refine ⟨h2, ?_⟩
    have : c ≠ p := by
      rintro rfl
      have := (hi.exI c (by rw [hp]; simp)).1
      rw [h1] at this; cases this
    rw [h.pndNe _ this]; exact h3
  · rw [h.ph, h.post]
    intro c q h1 h2
    rcases hi.finalI c q h1 h2 with h3 | h3
    · exact .inl h3
    · right
      apply List.one_le_count_iff.1
      rw [hpost']
      exact List.one_le_count_iff.2 h3
  · exact h.fault

theorem Life.release (hl : Life cfg s) (h : Release cfg p s s') : Life cfg s' := by
  constructor
  · rw [h.cd, h.fl, h.fut]; exact hl.cdEq
  · rw [h.mem, h.cd]; exact hl.memEq
  · rw [h.frees, h.cd]; exact hl.freesEq
  · rw [h.fut, h.ph]; exact hl.futEq
  · rw [h.tasks, h.n, h.mem]; exact hl.tasksEq

theorem AnySingle.release (hl : AnySingle cfg s) (h : Release cfg p s s') : AnySingle cfg s' := by
  constructor
  · rw [h.ph, h.n]; exact hl.last
  · rw [h.hist, h.n]; exact hl.lt
  · rw [h.hist]; exact hl.older

theorem Linked.release (h : Release cfg p s s') {q t : Nat} (hl : Linked s q t) (hs : q = p → cfg.serial q t = true) :
    Linked s' q t := by
  rcases hl with h1 | h1
  · left; rw [h.post]; exact h1
  · right
    by_cases e : q = p
    · subst e
      rw [h.pndP, List.mem_filter]
      exact ⟨h1, hs rfl⟩
    · rw [h.pndNe q e]; exact h1

theorem Ord.release (hw : OnePolicy cfg) (hd : Dom cfg s) (hi : Core cfg s) (ho : Ord cfg s)
    (hp : s.ex p = .running) (h : Release cfg p s s') : Ord cfg s' := by
  have cvd : ∀ {t e}, Cvd cfg s t e → Cvd cfg s' t e := fun hc h1 h2 => (hc h1 h2).release h fun _ => h2
  constructor
  · rw [h.hist]; exact ho.parOlder
  · rw [h.ph, h.users]
    intro t i rem r h1 h2
    obtain ⟨vis, h3, h4⟩ := ho.scanC t i rem r h1 h2
    exact ⟨vis, h3, fun e he => cvd (h4 e he)⟩
  · rw [h.ph, h.users]
    intro t i p rem r h1 h2
    obtain ⟨h0, vis, h3, h4⟩ := ho.linkC t i p rem r h1 h2
    exact ⟨h0, vis, h3, fun e he => cvd (h4 e he)⟩
  · rw [h.ph, h.users]
    intro t i p rem r h1 h2
    obtain ⟨h0, vis, h3, h4⟩ := ho.incrC t i p rem r h1 h2
    exact ⟨h0, vis, h3, fun e he => cvd (h4 e he)⟩
  · rw [h.ph]
    intro t i r h1 h2 e
    rw [h.hist]
    intro he h3 h4
    rcases ho.cov t i r h1 h2 e he h3 h4 with h5 | ⟨q, hq, h5, h6, h7, h8⟩
    · exact .inl (h5.release h fun _ => h4.serial)
    · by_cases hqp : q.1 = p
      · left; left
        have hm := olderThan_sub hq
        rw [h.post]
        exact order_key_of hw hd hi ho r _ q.1 q.2 (Nat.le_refl _) ((hi.histMem r q.1 q.2).1 hm).1
          (by rw [hqp, hp]; simp) e h5 (by rw [h3, h6]) (h4.sync hw h7)
      · exact .inr ⟨q, hq, h5, h6, h7, h8.release h fun e => absurd e hqp⟩
  · rw [h.hist]
    exact fun q t hm => ho.origin q t (h.sub hm)

/-! ### reachable states -/

/-- the invariants of the task graph -/
structure Inv (cfg : Cfg) (s : State) : Prop where
  dom : Dom cfg s
  core : Core cfg s
  ord : Ord cfg s
  life : Life cfg s
  one : cfg.single = true → AnySingle cfg s

theorem Inv.demote {patch : List Diff} {ok : Bool} (hw : OnePolicy cfg) (hi : Inv cfg s) (hp : s.ex p = .running)
    (hrm : Removes patch) (h : updateProperties cfg p patch s = (cfg', s', ok)) : Inv cfg' s := by
  have hl := updateProperties_less hrm h
  refine ⟨hi.dom.less hl, hi.core.less hl, hi.ord.less hl hw hi.dom hi.core hp ?_, hi.life.less hl, ?_⟩
  · intro t ht
    rw [updateProperties_cfg h]
    simp only [Cfg.setUser]
    rw [upd_ne _ _ ht]
  · intro hs
    exact (hi.one (by rw [← hl.single]; exact hs)).less hl

theorem Inv.release (hw : OnePolicy cfg) (hi : Inv cfg s) (hp : s.ex p = .running) (hc : Calm cfg p s) :
    Inv cfg (updateGraph cfg p s) := by
  have h := updateGraph_release hi.dom hi.core hp hc
  exact ⟨hi.dom.release h, hi.core.release hi.dom hp hc h, hi.ord.release hw hi.dom hi.core hp h, hi.life.release h,
    fun hs => (hi.one hs).release h⟩

theorem DReach.inv (hw : OnePolicy cfg0) (ht : Tame cfg0) (h : DReach cfg0 cfg s) : Inv cfg s := by
  induction h with
  | init => exact ⟨.init, .init, .init, .init, fun _ => .init⟩
  | @step cfg s cfg' s' h hs ih =>
    have hl := h.less
    have hw' := hl.policy hw
    have ht' := hl.tame ht
    cases hs with
    | step hs =>
      exact ⟨ih.dom.step hs, ih.core.step ht' ih.dom hs, ih.ord.step ih.dom ih.core hs, ih.life.step ih.dom ih.core hs,
        fun h1 => (ih.one h1).step h1 ih.dom hs⟩
    | demote hp hrm hup hc =>
      have h1 := ih.demote hw' hp hrm hup
      have hl' := updateProperties_less hrm hup
      have h2 := h1.release (hl'.policy hw') hp hc
      rw [(updateProperties_ok hup).2]
      exact h2
    | rejected hp hrm hup =>
      have h1 := ih.demote hw' hp hrm hup
      rw [C22_rejected_releases_nobody_partial hup]
      exact h1

end RG.Graph
