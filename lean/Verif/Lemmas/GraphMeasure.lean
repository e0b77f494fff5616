import Verif.Lemmas.GraphQuiet
import Mathlib.Data.List.Perm.Subperm
/-
A measure of the remaining work: it decreases with every step that is not a new task or a new event.
-/
set_option linter.unusedVariables false
namespace RG.Graph

variable {cfg : Cfg} {s s' s1 : State} {l : Lbl}

theorem sumTo_upd {α} {n : Nat} (w : Nat → α → Nat) (f : Nat → α) {t : Nat} (v : α) (ht : t < n) :
    sumTo n (fun u => w u (upd f t v u)) + w t (f t) = sumTo n (fun u => w u (f u)) + w t v := by
  have := sumTo_change (n := n) (t := t) (f := fun u => w u (f u)) (g := fun u => w u (upd f t v u)) ht
    (fun u _ hu => by simp only [upd_ne _ _ hu])
  simpa using this

/-- total number of entries of the first `n` tasks -/
def entries (cfg : Cfg) (n : Nat) : Nat := sumTo n fun t => (cfg.res t).length

/-- cost of one resource -/
def cost (cfg : Cfg) (n : Nat) : Nat := 6 * entries cfg n + 3

/-- work until a task is initialised; `L`: number of its resources, `M`: cost of one of them -/
def wPh (L M : Nat) : Ph → Nat
  | .unsub => 0
  | .submitting i => L * M + 12 + (L - i)
  | .queued => L * M + 10
  | .initing (.next i) => (L - i) * M + 7
  | .initing (.scan i rem) => (L - i - 1) * M + 6 * rem.length + 9
  | .initing (.link i _ rem) => (L - i - 1) * M + 6 * rem.length + 14
  | .initing (.incr i _ rem) => (L - i - 1) * M + 6 * rem.length + 10
  | .initing (.unlock i) => (L - i - 1) * M + 8
  | .initing .parent => 6
  | .initing (.pincr _) => 2
  | .initing .final => 1
  | .inited => 0

def wEx : Ex → Nat
  | .none => 4
  | .running => 2
  | .ended => 0

/-- work after a task has finished; `F`: number of followers -/
def wFl (L F : Nat) : Fl → Nat
  | .idle => L + 2 * F + 4
  | .deleting i => (L - i) + 2 * F + 3
  | .notifying rem => 2 * rem.length + 2
  | .counting => 1
  | .done => 0

def wExt : Ext → Nat
  | .none => 0
  | .pending => 4
  | .fired => 2
  | .done => 0

def wFut : Fut → Nat
  | .none => 3
  | .held => 2
  | .taken => 1
  | .done => 0

def wMem : Mem → Nat
  | .alive => 3
  | .freeing => 2
  | .counted => 1
  | .freed => 0

def mPh (cfg : Cfg) (n : Nat) (ph : Nat → Ph) : Nat :=
  sumTo n fun t => wPh (cfg.res t).length (cost cfg n) (ph t)
def mEx (n : Nat) (ex : Nat → Ex) : Nat := sumTo n fun t => wEx (ex t)
def mFl (cfg : Cfg) (n : Nat) (fol : Nat → List Fol) (fl : Nat → Fl) : Nat :=
  sumTo n fun t => wFl (cfg.res t).length (fol t).length (fl t)
def mExt (n : Nat) (ext : Nat → Ext) : Nat := sumTo n fun t => wExt (ext t)
def mFut (n : Nat) (fut : Nat → Fut) : Nat := sumTo n fun t => wFut (fut t)
def mMem (n : Nat) (mem : Nat → Mem) : Nat := sumTo n fun t => wMem (mem t)

/-- the remaining work -/
def measure (cfg : Cfg) (s : State) : Nat :=
  mPh cfg s.n s.ph + mEx s.n s.ex + mFl cfg s.n s.fol s.fl + mExt s.nExt s.ext + mFut s.n s.fut +
    mMem s.n s.mem + s.late.length

theorem mPh_upd (n : Nat) (ph : Nat → Ph) {t : Nat} (v : Ph) (h : t < n) :
    mPh cfg n (upd ph t v) + wPh (cfg.res t).length (cost cfg n) (ph t) =
      mPh cfg n ph + wPh (cfg.res t).length (cost cfg n) v :=
  sumTo_upd (fun u x => wPh (cfg.res u).length (cost cfg n) x) ph v h
theorem mEx_upd (n : Nat) (ex : Nat → Ex) {t : Nat} (v : Ex) (h : t < n) :
    mEx n (upd ex t v) + wEx (ex t) = mEx n ex + wEx v := sumTo_upd (fun _ x => wEx x) ex v h
theorem mFl_upd (n : Nat) (fol : Nat → List Fol) (fl : Nat → Fl) {t : Nat} (v : Fl) (h : t < n) :
    mFl cfg n fol (upd fl t v) + wFl (cfg.res t).length (fol t).length (fl t) =
      mFl cfg n fol fl + wFl (cfg.res t).length (fol t).length v :=
  sumTo_upd (fun u x => wFl (cfg.res u).length (fol u).length x) fl v h
theorem mFol_upd (n : Nat) (fol : Nat → List Fol) (fl : Nat → Fl) {t : Nat} (v : List Fol) (h : t < n) :
    mFl cfg n (upd fol t v) fl + wFl (cfg.res t).length (fol t).length (fl t) =
      mFl cfg n fol fl + wFl (cfg.res t).length v.length (fl t) :=
  sumTo_upd (fun u x => wFl (cfg.res u).length (List.length x) (fl u)) fol v h
theorem mExt_upd (n : Nat) (ext : Nat → Ext) {t : Nat} (v : Ext) (h : t < n) :
    mExt n (upd ext t v) + wExt (ext t) = mExt n ext + wExt v := sumTo_upd (fun _ x => wExt x) ext v h
theorem mFut_upd (n : Nat) (fut : Nat → Fut) {t : Nat} (v : Fut) (h : t < n) :
    mFut n (upd fut t v) + wFut (fut t) = mFut n fut + wFut v := sumTo_upd (fun _ x => wFut x) fut v h
theorem mMem_upd (n : Nat) (mem : Nat → Mem) {t : Nat} (v : Mem) (h : t < n) :
    mMem n (upd mem t v) + wMem (mem t) = mMem n mem + wMem v := sumTo_upd (fun _ x => wMem x) mem v h

theorem length_flatMap_range (cfg : Cfg) (n : Nat) :
    ((List.range n).flatMap fun t => (List.range (cfg.res t).length).map fun i => (t, i)).length =
      entries cfg n := by
  induction n with
  | zero => rfl
  | succ n ih =>
    rw [List.range_succ, List.flatMap_append, List.length_append, ih]
    simp [entries, sumTo]

/-- the number of users of a resource is at most the total number of entries -/
theorem users_length (hd : Dom cfg s) (hi : Core cfg s) (r : Res) :
    (s.users r).length ≤ entries cfg s.n := by
  rw [hi.usersEq, ← length_flatMap_range]
  refine Nat.le_trans (List.length_filter_le _ _) ?_
  refine List.Subperm.length_le (List.subperm_of_subset (hi.histNodup r) ?_)
  intro e he
  have h := (hi.histMem r e.1 e.2).1 he
  have hn : e.1 < s.n := hd.lt_ph e.1 (by
    intro h'
    rw [h'] at h
    exact h.2)
  exact List.mem_flatMap.2 ⟨e.1, List.mem_range.2 hn,
    List.mem_map.2 ⟨e.2, List.mem_range.2 (getElem?_lt_length h.1), rfl⟩⟩

theorem olderThan_length_le (e : Entry) (l : List Entry) : (olderThan e l).length ≤ l.length := by
  induction l with
  | nil => exact Nat.le_refl _
  | cons x l ih =>
    simp only [olderThan]
    split
    · simp
    · simp only [List.length_cons]; omega

theorem measure_decreases_of (hd : Dom cfg s) (hi : Core cfg s) (hl : Life cfg s) (hs : Step cfg l s s')
    (hn : s'.n = s.n) (hx : s'.nExt = s.nExt) : measure cfg s' < measure cfg s := by
  have lt_fl : ∀ t, s.fl t ≠ .idle → t < s.n := fun t h => Nat.lt_of_not_le fun h' => h (hd.fl t h')
  have decP : ∀ q, s.post q = 1 → s.fl q = .idle := hi.flPost'
  cases hs with
  | beginSubmit => simp at hn
  | createEvent => simp at hx
  | @pushUser _ t i r h hr' =>
    have h1 := mPh_upd (cfg := cfg) s.n s.ph (.submitting (i + 1)) (hd.lt_ph t (by rw [h]; simp))
    have := getElem?_lt_length hr'
    rw [h] at h1
    simp only [measure, wPh] at h1 ⊢
    omega
  | @emplace _ t i h hr' =>
    have hlt := hd.lt_ph t (by rw [h]; simp)
    have h1 := mPh_upd (cfg := cfg) s.n s.ph .queued hlt
    have h2 := mFut_upd s.n s.fut .held hlt
    rw [h] at h1
    rw [(hl.futEq t).2 (.inr ⟨i, h⟩)] at h2
    simp only [measure, wPh, wFut] at h1 h2 ⊢
    omega
  | @startInit _ t h =>
    have h1 := mPh_upd (cfg := cfg) s.n s.ph (.initing (.next 0)) (hd.lt_ph t (by rw [h]; simp))
    rw [h] at h1
    simp only [measure, wPh, Nat.sub_zero] at h1 ⊢
    omega
  | @lockRes _ t i r h hr' hlk =>
    have h1 := mPh_upd (cfg := cfg) s.n s.ph (.initing (.scan i (olderThan (t, i) (s.users r))))
      (hd.lt_ph t (by rw [h]; simp))
    rw [h] at h1
    have h2 := olderThan_length_le (t, i) (s.users r)
    have h3 := users_length hd hi r
    have h4 := getElem?_lt_length hr'
    have h5 : ((cfg.res t).length - i) * cost cfg s.n =
        ((cfg.res t).length - i - 1) * cost cfg s.n + cost cfg s.n := by
      rw [← Nat.succ_mul]
      congr 1
      omega
    have h6 : cost cfg s.n = 6 * entries cfg s.n + 3 := rfl
    simp only [measure, wPh] at h1 ⊢
    omega
  | @scanParent _ t i p rem h hp =>
    have h1 := mPh_upd (cfg := cfg) s.n s.ph (.initing (.unlock i)) (hd.lt_ph t (by rw [h]; simp))
    rw [h] at h1
    simp only [measure, wPh, List.length_cons] at h1 ⊢
    omega
  | @scanSkip _ t i p rem h hp _ =>
    have h1 := mPh_upd (cfg := cfg) s.n s.ph (.initing (.scan i rem)) (hd.lt_ph t (by rw [h]; simp))
    rw [h] at h1
    simp only [measure, wPh, List.length_cons] at h1 ⊢
    omega
  | @scanReached _ t i p rem r h hr' hp _ h0 =>
    have h1 := mPh_upd (cfg := cfg) s.n s.ph (.initing (if cfg.sync p.1 r then .unlock i else .scan i rem))
      (hd.lt_ph t (by rw [h]; simp))
    rw [h] at h1
    revert h1
    simp only [measure]
    split <;> intro h1 <;> simp only [wPh, List.length_cons] at h1 ⊢ <;> omega
  | @scanLink _ t i p rem h hp _ _ =>
    have h1 := mPh_upd (cfg := cfg) s.n s.ph (.initing (.link i p rem)) (hd.lt_ph t (by rw [h]; simp))
    rw [h] at h1
    simp only [measure, wPh, List.length_cons] at h1 ⊢
    omega
  | @link _ t i p rem h =>
    have h1 := mPh_upd (cfg := cfg) s.n s.ph (.initing (.incr i p rem)) (hd.lt_ph t (by rw [h]; simp))
    have h2 := mFol_upd (cfg := cfg) s.n s.fol s.fl (.pre t :: s.fol p.1) (hd.linkP t i p rem h)
    rw [h] at h1
    have h3 : wFl (cfg.res p.1).length (.pre t :: s.fol p.1 : List Fol).length (s.fl p.1) ≤
        wFl (cfg.res p.1).length (s.fol p.1).length (s.fl p.1) + 2 := by
      cases s.fl p.1 <;> simp only [wFl, List.length_cons] <;> omega
    simp only [measure, wPh] at h1 h2 ⊢
    omega
  | @incr _ t i p rem r h hr' =>
    have h1 := mPh_upd (cfg := cfg) s.n s.ph (.initing (if cfg.sync p.1 r then .unlock i else .scan i rem))
      (hd.lt_ph t (by rw [h]; simp))
    rw [h] at h1
    revert h1
    simp only [measure]
    split <;> intro h1 <;> simp only [wPh] at h1 ⊢ <;> omega
  | @scanEnd _ t i h =>
    have h1 := mPh_upd (cfg := cfg) s.n s.ph (.initing (.unlock i)) (hd.lt_ph t (by rw [h]; simp))
    rw [h] at h1
    simp only [measure, wPh, List.length_nil] at h1 ⊢
    omega
  | @unlock _ t i r h hr' =>
    have h1 := mPh_upd (cfg := cfg) s.n s.ph (.initing (.next (i + 1))) (hd.lt_ph t (by rw [h]; simp))
    rw [h] at h1
    have h5 : ((cfg.res t).length - (i + 1)) * cost cfg s.n =
        ((cfg.res t).length - i - 1) * cost cfg s.n := by congr 1
    simp only [measure, wPh] at h1 ⊢
    omega
  | @resEnd _ t i h hr' =>
    have h1 := mPh_upd (cfg := cfg) s.n s.ph (.initing .parent) (hd.lt_ph t (by rw [h]; simp))
    rw [h] at h1
    simp only [measure, wPh] at h1 ⊢
    omega
  | @noParent _ t h hp =>
    have h1 := mPh_upd (cfg := cfg) s.n s.ph (.initing .final) (hd.lt_ph t (by rw [h]; simp))
    rw [h] at h1
    simp only [measure, wPh] at h1 ⊢
    omega
  | @parentPush _ t q h hp =>
    have hlt := hd.lt_ph t (by rw [h]; simp)
    have h1 := mPh_upd (cfg := cfg) s.n s.ph (.initing (.pincr q)) hlt
    have h2 := mFol_upd (cfg := cfg) s.n s.fol s.fl (.post q :: s.fol t) hlt
    rw [h] at h1
    have h3 : wFl (cfg.res t).length (.post q :: s.fol t : List Fol).length (s.fl t) ≤
        wFl (cfg.res t).length (s.fol t).length (s.fl t) + 2 := by
      cases s.fl t <;> simp only [wFl, List.length_cons] <;> omega
    simp only [measure, wPh] at h1 h2 ⊢
    omega
  | @parentIncr _ t q h =>
    have h1 := mPh_upd (cfg := cfg) s.n s.ph (.initing .final) (hd.lt_ph t (by rw [h]; simp))
    rw [h] at h1
    simp only [measure, wPh] at h1 ⊢
    omega
  | @final _ t h =>
    have h1 := mPh_upd (cfg := cfg) s.n s.ph .inited (hd.lt_ph t (by rw [h]; simp))
    rw [h] at h1
    simp only [measure, wPh] at h1 ⊢
    omega
  | @start _ t h =>
    have hlt : t < s.n := Nat.lt_of_not_le fun h' => by rw [hd.handed t h'] at h; omega
    have h1 := mEx_upd s.n s.ex .running hlt
    have h2 : s.ex t = .none := by
      have := hi.handedEq t
      grind
    rw [h2] at h1
    simp only [measure, wEx] at h1 ⊢
    omega
  | @extNotify _ k h =>
    have hlt : k < s.nExt := Nat.lt_of_not_le fun h' => by rw [hd.ext k h'] at h; cases h
    have h1 := mExt_upd s.nExt s.ext .fired hlt
    rw [h] at h1
    simp only [measure, wExt] at h1 ⊢
    omega
  | @extFollower _ k h =>
    have hlt : k < s.nExt := Nat.lt_of_not_le fun h' => by rw [hd.ext k h'] at h; cases h
    have h1 := mExt_upd s.nExt s.ext .done hlt
    rw [h] at h1
    have h2 := mFl_upd (cfg := cfg) s.n s.fol s.fl (if s.post (s.owner k) = 1 then .deleting 0 else s.fl (s.owner k))
      (hd.extOld k hlt).1
    have h3 := decP (s.owner k)
    revert h2
    simp only [measure, State.decPost, wExt] at h1 ⊢
    intro h2
    by_cases e : s.post (s.owner k) = 1
    · rw [h3 e] at h2
      simp only [e, if_true, wFl, Nat.sub_zero] at h2 ⊢
      simp only [Nat.reduceEqDiff, if_false]
      omega
    · simp only [if_neg e] at h2 ⊢
      split <;> (try simp only [List.length_cons]) <;> omega
  | @bodyEnd _ t h hc hst =>
    have hlt : t < s.n := Nat.lt_of_not_le fun h' => by rw [hd.ex t h'] at h; cases h
    have h1 := mEx_upd s.n s.ex .ended hlt
    rw [h] at h1
    have h2 := mFl_upd (cfg := cfg) s.n s.fol s.fl (if s.post t = 1 then .deleting 0 else s.fl t) hlt
    have h3 := decP t
    revert h2
    simp only [measure, State.decPost, wEx] at h1 ⊢
    intro h2
    by_cases e : s.post t = 1
    · rw [h3 e] at h2
      simp only [e, if_true, wFl, Nat.sub_zero] at h2 ⊢
      simp only [Nat.reduceEqDiff, if_false]
      omega
    · simp only [if_neg e] at h2 ⊢
      split <;> (try simp only [List.length_cons]) <;> omega
  | @delete _ t i r h hr' hlk =>
    have h1 := mFl_upd (cfg := cfg) s.n s.fol s.fl (.deleting (i + 1)) (lt_fl t (by rw [h]; simp))
    have := getElem?_lt_length hr'
    rw [h] at h1
    simp only [measure, wFl] at h1 ⊢
    omega
  | @deleteEnd _ t i h hr' =>
    have h1 := mFl_upd (cfg := cfg) s.n s.fol s.fl (.notifying (s.fol t)) (lt_fl t (by rw [h]; simp))
    rw [h] at h1
    simp only [measure, wFl] at h1 ⊢
    omega
  | @notifyPre _ p t rem h =>
    have h1 := mFl_upd (cfg := cfg) s.n s.fol s.fl (.notifying rem) (lt_fl p (by rw [h]; simp))
    rw [h] at h1
    simp only [measure, State.decPre, wFl, List.length_cons] at h1 ⊢
    split <;> (try simp only [List.length_cons]) <;> omega
  | @notifyPost _ p q rem h =>
    have h1 := mFl_upd (cfg := cfg) s.n s.fol s.fl (.notifying rem) (lt_fl p (by rw [h]; simp))
    rw [h] at h1
    have h2 := mFl_upd (cfg := cfg) s.n s.fol (upd s.fl p (.notifying rem))
      (if s.post q = 1 then .deleting 0 else (upd s.fl p (.notifying rem)) q) (hd.flPost p q rem h)
    have h3 := decP q
    revert h2
    simp only [measure, State.decPost, wFl, List.length_cons] at h1 ⊢
    intro h2
    by_cases e : s.post q = 1
    · have hne : q ≠ p := by
        rintro rfl
        rw [h3 e] at h
        cases h
      rw [upd_ne _ _ hne, h3 e] at h2
      simp only [e, if_true, wFl, Nat.sub_zero] at h2 ⊢
      simp only [Nat.reduceEqDiff, if_false]
      omega
    · simp only [if_neg e] at h2 ⊢
      split <;> (try simp only [List.length_cons]) <;> omega
  | @notifyEnd _ t h =>
    have h1 := mFl_upd (cfg := cfg) s.n s.fol s.fl .counting (lt_fl t (by rw [h]; simp))
    rw [h] at h1
    simp only [measure, wFl, List.length_nil] at h1 ⊢
    omega
  | @countPost _ t h =>
    have hlt := lt_fl t (by rw [h]; simp)
    have h1 := mFl_upd (cfg := cfg) s.n s.fol s.fl .done hlt
    rw [h] at h1
    have h2 := mMem_upd s.n s.mem (if s.cd t = 1 then .freeing else s.mem t) hlt
    have h3 : s.mem t = .alive := by
      have := hl.memEq t
      have := hl.cdEq t
      grind
    rw [h3] at h2
    simp only [measure, State.decCd, wFl] at h1 ⊢
    have h4 : wMem (if s.cd t = 1 then .freeing else .alive) ≤ wMem .alive := by
      split <;> simp only [wMem] <;> omega
    rw [h3]
    omega
  | @takeFuture _ t h =>
    have hlt : t < s.n := Nat.lt_of_not_le fun h' => by rw [hd.fut t h'] at h; cases h
    have h1 := mFut_upd s.n s.fut .taken hlt
    rw [h] at h1
    simp only [measure, wFut] at h1 ⊢
    omega
  | @countGet _ t h =>
    have hlt : t < s.n := Nat.lt_of_not_le fun h' => by rw [hd.fut t h'] at h; cases h
    have h1 := mFut_upd s.n s.fut .done hlt
    rw [h] at h1
    have h2 := mMem_upd s.n s.mem (if s.cd t = 1 then .freeing else s.mem t) hlt
    have h3 : s.mem t = .alive := by
      have := hl.memEq t
      have := hl.cdEq t
      grind
    rw [h3] at h2
    simp only [measure, State.decCd, wFut] at h1 ⊢
    have h4 : wMem (if s.cd t = 1 then .freeing else .alive) ≤ wMem .alive := by
      split <;> simp only [wMem] <;> omega
    rw [h3]
    omega
  | @freeCount _ t h =>
    have hlt : t < s.n := Nat.lt_of_not_le fun h' => by rw [hd.mem t h'] at h; cases h
    have h1 := mMem_upd s.n s.mem .counted hlt
    rw [h] at h1
    simp only [measure, wMem] at h1 ⊢
    omega
  | @free _ t h =>
    have hlt : t < s.n := Nat.lt_of_not_le fun h' => by rw [hd.mem t h'] at h; cases h
    have h1 := mMem_upd s.n s.mem .freed hlt
    rw [h] at h1
    simp only [measure, wMem] at h1 ⊢
    omega
  | @lateRead _ t h =>
    have h1 := List.length_erase_of_mem h
    have h2 := List.length_pos_of_mem h
    simp only [measure]
    omega

theorem measure_decreases (ht : Tame cfg) (hr : Reach cfg s) (hs : Step cfg l s s')
    (hn : s'.n = s.n) (hx : s'.nExt = s.nExt) : measure cfg s' < measure cfg s :=
  measure_decreases_of (Dom.reach hr) (Core.reach ht hr) (Life.reach ht hr) hs hn hx

end RG.Graph
