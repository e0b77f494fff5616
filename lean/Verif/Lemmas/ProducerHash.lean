import Verif.Model.ProducerHash
import Verif.Lemmas.FreeList
import Mathlib.Data.List.Perm.Subperm
import Mathlib.Data.List.Nodup
/-
The invariant of the table from threads to sub-queues.
-/
namespace RG.PH

variable {hash : Nat → Nat}

/-- the thread is entered in table `h` -/
def In (s : State) (t h : Nat) : Prop := ∃ j, s.key h j = .of t

def Nowhere (s : State) (t : Nat) : Prop := ∀ h, h < s.ntab → ¬ In s t h

/-- the thread is not known, or it is entered somewhere -/
def Idle (s : State) (t : Nat) : Prop :=
  (s.num t = none ∧ s.prod t = none ∧ Nowhere s t) ∨ (s.prod t ≠ none ∧ ∃ h, h < s.ntab ∧ In s t h)

/-- what a thread knows -/
def TOk (hash : Nat → Nat) (s : State) (t : Nat) : Pc → Prop
  | .out => Idle s t
  | .ldMain => Idle s t
  | .look m h k => m < s.ntab ∧ h ≤ m ∧ Idle s t ∧ (∀ h', h < h' → h' < s.ntab → ¬ In s t h') ∧
      ∀ k', k' < k → s.key h (s.slot hash t h k') ≠ .empty ∧ s.key h (s.slot hash t h k') ≠ .of t
  | .count m => m < s.ntab ∧ s.num t = none ∧ s.prod t = none ∧ Nowhere s t
  | .chk nc m => m < s.ntab ∧ s.num t = some nc ∧ s.prod t = none ∧ Nowhere s t
  | .tas nc m => m < s.ntab ∧ s.num t = some nc ∧ s.prod t = none ∧ Nowhere s t
  | .reload nc => s.num t = some nc ∧ s.prod t = none ∧ Nowhere s t
  | .build nc m => m = s.cur ∧ s.num t = some nc ∧ s.prod t = none ∧ Nowhere s t
  | .unl nc m => m < s.ntab ∧ s.num t = some nc ∧ s.prod t = none ∧ Nowhere s t ∧ nc < s.cap m / 2
  | .fit nc m => m < s.ntab ∧ s.num t = some nc ∧ s.prod t = none ∧ Nowhere s t
  | .reMain nc => s.num t = some nc ∧ s.prod t = none ∧ Nowhere s t
  | .find m q => m < s.ntab ∧ (∃ nc, s.num t = some nc ∧ nc < s.room m) ∧ s.prod t = none ∧ Nowhere s t ∧ ∃ l, FL.Chain s.next q l ∧ l <:+ s.plist
  | .recCas m p => m < s.ntab ∧ (∃ nc, s.num t = some nc ∧ nc < s.room m) ∧ s.prod t = none ∧ Nowhere s t ∧ ∃ l, FL.Chain s.next (some p) l ∧ l <:+ s.plist
  | .create m => m < s.ntab ∧ (∃ nc, s.num t = some nc ∧ nc < s.room m) ∧ s.prod t = none ∧ Nowhere s t
  | .add m p => m < s.ntab ∧ (∃ nc, s.num t = some nc ∧ nc < s.room m) ∧ s.prod t = some p ∧ Nowhere s t
  | .addCas m p pv => m < s.ntab ∧ (∃ nc, s.num t = some nc ∧ nc < s.room m) ∧ s.prod t = some p ∧ Nowhere s t ∧ s.next p = pv
  | .put m k v lz => m < s.ntab ∧ (∃ nc, s.num t = some nc ∧ nc < s.room m) ∧ s.prod t = v ∧ v ≠ none ∧ ¬ In s t m ∧
      (∀ k', k' < k → s.key m (s.slot hash t m k') ≠ .empty) ∧ (lz = true → 1 < s.ntab)
  | .put2 m k v lz => m < s.ntab ∧ (∃ nc, s.num t = some nc ∧ nc < s.room m) ∧ s.prod t = v ∧ v ≠ none ∧ ¬ In s t m ∧
      (∀ k', k' < k → s.key m (s.slot hash t m k') ≠ .empty) ∧ (lz = true → 1 < s.ntab) ∧ (lz = true → s.key m (s.slot hash t m k) ≠ .empty)
  | .dec m j v => m < s.ntab ∧ s.prod t = v ∧ v ≠ none ∧ s.key m j = .of t ∧ s.exited = true
  | .putV m j v => m < s.ntab ∧ s.prod t = v ∧ v ≠ none ∧ s.key m j = .of t
  | .ret v => s.prod t = v ∧ v ≠ none ∧ ∃ h, h < s.ntab ∧ In s t h
  | .xLd => s.prod t ≠ none
  | .xScan h k => h < s.ntab ∧ s.prod t ≠ none ∧ (∀ h', h < h' → h' < s.ntab → ¬ In s t h') ∧
      ∀ k', k' < k → s.key h (s.slot hash t h k') ≠ .empty ∧ s.key h (s.slot hash t h k') ≠ .of t
  | .xInact => s.prod t ≠ none ∧ Nowhere s t

/-- the thread has the lock -/
def locks : Pc → Prop
  | .reload _ => True
  | .build _ _ => True
  | .unl _ _ => True
  | _ => False

/-- the sub-queue the thread is adding to the list -/
def adds : Pc → Option Nat
  | .add _ p => some p
  | .addCas _ p _ => some p
  | _ => none

/-- the entry whose value the thread is going to store -/
def setting : Pc → Option (Nat × Nat)
  | .dec m j _ => some (m, j)
  | .putV m j _ => some (m, j)
  | _ => none

/-- the thread is exiting -/
def exits : Pc → Prop
  | .xLd => True
  | .xScan _ _ => True
  | .xInact => True
  | _ => False

structure Inv (hash : Nat → Nat) (s : State) : Prop where
  ntab : s.ntab = s.cur + 1
  prev : ∀ h, h < s.ntab → (s.tabs h).prev = if h = 0 then none else some (h - 1)
  pos : ∀ h, h < s.ntab → 0 < s.cap h
  mono : ∀ h h', h ≤ h' → h' < s.ntab → s.cap h ≤ s.cap h'
  path : ∀ h j t, h < s.ntab → s.key h j = .of t → ∃ k, j = s.slot hash t h k ∧ ∀ k', k' < k → s.key h (s.slot hash t h k') ≠ .empty
  memb : ∀ h t, h < s.ntab → In s t h → ∃ nc, s.num t = some nc ∧ nc < s.room h
  uniq : ∀ h j j' t, h < s.ntab → s.key h j = .of t → s.key h j' = .of t → j = j'
  val : ∀ h j t, h < s.ntab → s.key h j = .of t → (s.tabs h).val j = s.prod t ∨ setting (s.pc t) = some (h, j)
  numInj : s.exited = false → ∀ t t' n, s.num t = some n → s.num t' = some n → t = t'
  numPos : s.exited = false → ∀ t n, s.num t = some n → 0 < n ∧ n ≤ s.count
  exits : ∀ t, exits (s.pc t) → s.exited = true
  prodInj : ∀ t t' p, s.prod t = some p → s.prod t' = some p → t = t'
  prodLt : ∀ t p, s.prod t = some p → p < s.nprod
  thr : ∀ t, TOk hash s t (s.pc t)
  lock : ∀ t, locks (s.pc t) → s.lock = true
  lockUniq : ∀ t t', locks (s.pc t) → locks (s.pc t') → t = t'
  chain : FL.Chain s.next s.tail s.plist
  plistLt : ∀ p, p ∈ s.plist → p < s.nprod
  plistNodup : s.plist.Nodup
  listed : ∀ t p, s.prod t = some p → p ∈ s.plist ∨ adds (s.pc t) = some p
  notListed : ∀ t p, adds (s.pc t) = some p → p ∉ s.plist
  got : ∀ t p, s.got t = some p → s.prod t = some p ∧ adds (s.pc t) = none
  inact : ∀ p, s.inact p = true → p ∈ s.plist ∧ ∀ t, s.prod t ≠ some p
  noDead : s.exited = false → ∀ h j, h < s.ntab → s.key h j ≠ .dead

theorem Inv.init {C} (hC : 0 < C) : Inv hash (init C) := by
  constructor <;> simp [PH.init, State.key, State.cap, State.slot, Tab.new, In, TOk, Idle, Nowhere, locks, adds, setting, PH.exits, FL.Chain, hC] <;> grind

/-- what thread `t` may change, as seen by the others -/
structure Grow (t : Nat) (s s' : State) : Prop where
  ntab : s.ntab ≤ s'.ntab
  cap : ∀ h, h < s.ntab → s'.cap h = s.cap h
  keep : ∀ h j u, h < s.ntab → u ≠ t → s.key h j = .of u → s'.key h j = .of u
  full : ∀ h j, h < s.ntab → s.key h j ≠ .empty → s'.key h j ≠ .empty
  back : ∀ h j u, h < s'.ntab → s'.key h j = .of u → u = t ∨ (h < s.ntab ∧ s.key h j = .of u)
  num : ∀ u, u ≠ t → s'.num u = s.num u
  prod : ∀ u, u ≠ t → s'.prod u = s.prod u
  next : ∀ u p, u ≠ t → s.prod u = some p → s'.next p = s.next p
  nextL : ∀ p, p ∈ s.plist → s'.next p = s.next p
  plist : s.plist <:+ s'.plist
  ex : s'.exited = false → s.exited = false
  cur : s'.cur = s.cur ∨ ∀ u, u ≠ t → ¬ locks (s.pc u)

theorem Grow.same {t s s'} (h1 : s'.ntab = s.ntab) (h2 : s'.tabs = s.tabs) (h3 : ∀ u, u ≠ t → s'.num u = s.num u) (h4 : ∀ u, u ≠ t → s'.prod u = s.prod u)
    (h5 : ∀ u p, u ≠ t → s.prod u = some p → s'.next p = s.next p) (h6 : s'.cur = s.cur) (h7 : ∀ p, p ∈ s.plist → s'.next p = s.next p) (h8 : s.plist <:+ s'.plist)
    (h9 : s'.exited = false → s.exited = false) : Grow t s s' where
  ntab := Nat.le_of_eq h1.symm
  cap h _ := by simp only [State.cap, h2]
  keep h j u _ _ hk := by simp only [State.key, h2]; exact hk
  full h j _ hk := by simp only [State.key, h2]; exact hk
  back h j u hh hk := by simp only [State.key, h2] at hk; rw [h1] at hh; exact .inr ⟨hh, hk⟩
  num := h3
  prod := h4
  next := h5
  nextL := h7
  plist := h8
  ex := h9
  cur := .inl h6

theorem chain_congr {f g : Nat → Option Nat} {q l} (h : FL.Chain f q l) (he : ∀ p, p ∈ l → g p = f p) : FL.Chain g q l := by
  induction l generalizing q with
  | nil => exact h
  | cons p l ih => exact ⟨h.1, by rw [he p (List.mem_cons_self ..)]; exact ih h.2 fun x hx => he x (List.mem_cons_of_mem _ hx)⟩

theorem Grow.thr {t s s'} (I : Inv hash s) (G : Grow t s s') {u} (hu : u ≠ t) (hpc : s'.pc u = s.pc u) : TOk hash s' u (s'.pc u) := by
  rw [hpc]
  have h1 := I.thr u
  have hin : ∀ h, h < s'.ntab → In s' u h → h < s.ntab ∧ In s u h := by
    rintro h hh ⟨j, hj⟩
    rcases G.back h j u hh hj with e | ⟨a, b⟩
    · exact absurd e hu
    · exact ⟨a, j, b⟩
  have hin' : ∀ h, h < s.ntab → In s u h → In s' u h := fun h hh ⟨j, hj⟩ => ⟨j, G.keep h j u hh hu hj⟩
  have hno : Nowhere s u → Nowhere s' u := fun hn h hh hi => by
    obtain ⟨a, b⟩ := hin h hh hi
    exact hn h a b
  have hidle : Idle s u → Idle s' u := by
    rintro (⟨a, b, c⟩ | ⟨a, h, hh, b⟩)
    · exact .inl ⟨by rw [G.num u hu]; exact a, by rw [G.prod u hu]; exact b, hno c⟩
    · exact .inr ⟨by rw [G.prod u hu]; exact a, h, Nat.lt_of_lt_of_le hh G.ntab, hin' h hh b⟩
  have hslot : ∀ h k, h < s.ntab → s'.slot hash u h k = s.slot hash u h k := fun h k hh => by simp only [State.slot, G.cap h hh]
  have hroom : ∀ h, h < s.ntab → s'.room h = s.room h := fun h hh => by simp only [State.room, G.cap h hh]
  have hne : ∀ h j, h < s.ntab → s.key h j ≠ .empty → s'.key h j ≠ .empty := G.full
  have hnt : ∀ h j, h < s.ntab → s.key h j ≠ .of u → s'.key h j ≠ .of u := fun h j hh hk hk' => by
    rcases G.back h j u (Nat.lt_of_lt_of_le hh G.ntab) hk' with e | ⟨_, b⟩
    · exact hu e
    · exact hk b
  have hch : ∀ {q}, (∃ l, FL.Chain s.next q l ∧ l <:+ s.plist) → ∃ l, FL.Chain s'.next q l ∧ l <:+ s'.plist := fun ⟨l, a, b⟩ =>
    ⟨l, chain_congr a fun p hp => G.nextL p (b.subset hp), b.trans G.plist⟩
  have hlt : ∀ {m}, m < s.ntab → m < s'.ntab := fun h => Nat.lt_of_lt_of_le h G.ntab
  have hnum := G.num u hu
  have hprod := G.prod u hu
  cases hp : s.pc u <;> rw [hp] at h1 <;> simp only [TOk] at h1 ⊢
  case out => exact hidle h1
  case ldMain => exact hidle h1
  case look m h k =>
    obtain ⟨a, b, c, d, e⟩ := h1
    have hh : h < s.ntab := Nat.lt_of_le_of_lt b a
    refine ⟨hlt a, b, hidle c, fun h' x y z => ?_, fun k' hk' => ?_⟩
    · obtain ⟨a, b⟩ := hin h' y z
      exact d h' x a b
    · rw [hslot h k' hh]
      exact ⟨hne _ _ hh (e k' hk').1, hnt _ _ hh (e k' hk').2⟩
  case build nc m =>
    rcases G.cur with hc | hc
    · rw [hc, hnum, hprod]; exact ⟨h1.1, h1.2.1, h1.2.2.1, hno h1.2.2.2⟩
    · exact absurd (by rw [hp]; trivial) (hc u hu)
  case put m k v lz =>
    obtain ⟨a, b, c, d, e, f, g⟩ := h1
    rw [hroom m a, hnum, hprod]
    refine ⟨hlt a, b, c, d, fun hi => e (hin m (hlt a) hi).2, fun k' hk' => ?_, fun h => hlt (g h)⟩
    rw [hslot m k' a]
    exact hne _ _ a (f k' hk')
  case put2 m k v lz =>
    obtain ⟨a, b, c, d, e, f, g, i⟩ := h1
    rw [hroom m a, hnum, hprod]
    refine ⟨hlt a, b, c, d, fun hi => e (hin m (hlt a) hi).2, fun k' hk' => ?_, fun h => hlt (g h), fun h => ?_⟩
    · rw [hslot m k' a]
      exact hne _ _ a (f k' hk')
    · rw [hslot m k a]
      exact hne _ _ a (i h)
  case putV m j v => rw [hprod]; exact ⟨hlt h1.1, h1.2.1, h1.2.2.1, G.keep _ _ _ h1.1 hu h1.2.2.2⟩
  case dec m j v =>
    refine ⟨hlt h1.1, by rw [hprod]; exact h1.2.1, h1.2.2.1, G.keep _ _ _ h1.1 hu h1.2.2.2.1, ?_⟩
    have := G.ex
    cases he : s'.exited with
    | true => rfl
    | false => rw [this he] at h1; exact nomatch h1.2.2.2.2
  case xLd => rw [hprod]; exact h1
  case xScan h k =>
    obtain ⟨a, b, d, e⟩ := h1
    rw [hprod]
    refine ⟨hlt a, b, fun h' x y z => ?_, fun k' hk' => ?_⟩
    · obtain ⟨a, b⟩ := hin h' y z
      exact d h' x a b
    · rw [hslot h k' a]
      exact ⟨hne _ _ a (e k' hk').1, hnt _ _ a (e k' hk').2⟩
  case xInact => rw [hprod]; exact ⟨h1.1, hno h1.2⟩
  case find m q => rw [hroom m h1.1, hnum, hprod]; exact ⟨hlt h1.1, h1.2.1, h1.2.2.1, hno h1.2.2.2.1, hch h1.2.2.2.2⟩
  case recCas m p => rw [hroom m h1.1, hnum, hprod]; exact ⟨hlt h1.1, h1.2.1, h1.2.2.1, hno h1.2.2.2.1, hch h1.2.2.2.2⟩
  case ret v =>
    obtain ⟨a, b, h, hh, c⟩ := h1
    rw [hprod]; exact ⟨a, b, h, hlt hh, hin' h hh c⟩
  case create m => rw [hroom m h1.1, hnum, hprod]; exact ⟨hlt h1.1, h1.2.1, h1.2.2.1, hno h1.2.2.2⟩
  case add m p => rw [hroom m h1.1, hnum, hprod]; exact ⟨hlt h1.1, h1.2.1, h1.2.2.1, hno h1.2.2.2⟩
  case addCas m p pv =>
    rw [hroom m h1.1, hnum, hprod, G.next u p hu h1.2.2.1]; exact ⟨hlt h1.1, h1.2.1, h1.2.2.1, hno h1.2.2.2.1, h1.2.2.2.2⟩
  case unl nc m => rw [hnum, hprod, G.cap m h1.1]; exact ⟨hlt h1.1, h1.2.1, h1.2.2.1, hno h1.2.2.2.1, h1.2.2.2.2⟩
  case reload => rw [hnum, hprod]; exact ⟨h1.1, h1.2.1, hno h1.2.2⟩
  case reMain => rw [hnum, hprod]; exact ⟨h1.1, h1.2.1, hno h1.2.2⟩
  all_goals (rw [hnum, hprod]; exact ⟨hlt h1.1, h1.2.1, h1.2.2.1, hno h1.2.2.2⟩)

/-- only the program counter of `t` and the lock change -/
theorem Inv.go {s : State} (I : Inv hash s) (t : Nat) (p : Pc) (l : Bool)
    (hT : TOk hash s t p) (ha : adds p = adds (s.pc t)) (hv : setting (s.pc t) = none)
    (hl : ∀ u, u ≠ t → locks (s.pc u) → l = true) (hlt : locks p → l = true)
    (hlu : locks p → ∀ u, u ≠ t → ¬ locks (s.pc u)) (hxe : PH.exits p → PH.exits (s.pc t)) :
    Inv hash { s with pc := upd s.pc t p, lock := l } where
  ntab := I.ntab
  prev := I.prev
  pos := I.pos
  mono := I.mono
  path := I.path
  memb := I.memb
  uniq := I.uniq
  val h j u hh hk := by
    rcases I.val h j u hh hk with e | e
    · exact .inl e
    · have : u ≠ t := by rintro rfl; rw [hv] at e; exact nomatch e
      exact .inr (by simp only [upd_ne _ _ this]; exact e)
  numInj := I.numInj
  numPos := I.numPos
  exits u h := by
    by_cases hu : u = t
    · subst hu; simp only [upd_same] at h; exact I.exits u (hxe h)
    · simp only [upd_ne _ _ hu] at h; exact I.exits u h
  prodInj := I.prodInj
  prodLt := I.prodLt
  thr u := by
    by_cases hu : u = t
    · subst hu; simp only [upd_same]; exact hT
    · exact Grow.thr (s' := { s with pc := upd s.pc t p, lock := l }) I (.same rfl rfl (fun _ _ => rfl) (fun _ _ => rfl) (fun _ _ _ _ => rfl) rfl (fun _ _ => rfl) (List.suffix_refl _) id) hu (upd_ne _ _ hu)
  lock u := by
    by_cases hu : u = t
    · subst hu; simp only [upd_same]; exact hlt
    · simp only [upd_ne _ _ hu]; exact hl u hu
  lockUniq u u' := by
    by_cases hu : u = t <;> by_cases hu' : u' = t
    · intros; rw [hu, hu']
    · subst hu; simp only [upd_same, upd_ne _ _ hu']; exact fun h h' => absurd h' (hlu h u' hu')
    · subst hu'; simp only [upd_same, upd_ne _ _ hu]; exact fun h' h => absurd h' (hlu h u hu)
    · simp only [upd_ne _ _ hu, upd_ne _ _ hu']; exact I.lockUniq u u'
  chain := I.chain
  plistLt := I.plistLt
  plistNodup := I.plistNodup
  listed u q hq := by
    have := I.listed u q hq
    by_cases hu : u = t
    · subst hu; simp only [upd_same, ha]; exact this
    · simp only [upd_ne _ _ hu]; exact this
  notListed u q := by
    by_cases hu : u = t
    · subst hu; simp only [upd_same, ha]; exact I.notListed u q
    · simp only [upd_ne _ _ hu]; exact I.notListed u q
  inact := I.inact
  noDead := I.noDead
  got u v hv := by
    have := I.got u v hv
    by_cases hu : u = t
    · subst hu; simp only [upd_same, ha]; exact this
    · simp only [upd_ne _ _ hu]; exact this

/-- only the program counter changes, outside the lock -/
theorem Inv.go' {s : State} (I : Inv hash s) (t : Nat) (p : Pc) (hT : TOk hash s t p) (ha : adds p = adds (s.pc t)) (hv : setting (s.pc t) = none)
    (hl : locks p → locks (s.pc t)) (hxe : PH.exits p → PH.exits (s.pc t)) : Inv hash { s with pc := upd s.pc t p } :=
  I.go t p s.lock hT ha hv (fun u _ h => I.lock u h) (fun h => I.lock t (hl h)) (fun h u hu hu' => hu (I.lockUniq u t hu' (hl h))) hxe

/-- the tables stay as they are; the thread `t` moves to `p`, which does not change whether it has the lock -/
theorem Inv.keep {s s' : State} (I : Inv hash s) (t : Nat) (p : Pc)
    (hpc : s'.pc = upd s.pc t p) (hlk : s'.lock = s.lock) (hnt : s'.ntab = s.ntab) (htabs : s'.tabs = s.tabs) (hcur : s'.cur = s.cur)
    (hnum : ∀ u, u ≠ t → s'.num u = s.num u) (hprod : ∀ u, u ≠ t → s'.prod u = s.prod u)
    (hnext : ∀ u p, u ≠ t → s.prod u = some p → s'.next p = s.next p)
    (hnl : ∀ p, p ∈ s.plist → s'.next p = s.next p) (hpl : s.plist <:+ s'.plist) (hex : s'.exited = false → s.exited = false)
    (hv : setting (s.pc t) = none)
    (hl : locks p → locks (s.pc t)) (hxe : PH.exits p → s'.exited = true) (hxe' : s.exited = true → s'.exited = true)
    (hn : s'.num t = s.num t ∨ Nowhere s t) (hpr : s'.prod t = s.prod t ∨ Nowhere s t)
    (numInj : s'.exited = false → ∀ t t' n, s'.num t = some n → s'.num t' = some n → t = t')
    (numPos : s'.exited = false → ∀ t n, s'.num t = some n → 0 < n ∧ n ≤ s'.count)
    (prodInj : ∀ t t' p, s'.prod t = some p → s'.prod t' = some p → t = t')
    (prodLt : ∀ t p, s'.prod t = some p → p < s'.nprod)
    (hT : TOk hash s' t p)
    (chain : FL.Chain s'.next s'.tail s'.plist)
    (plistLt : ∀ p, p ∈ s'.plist → p < s'.nprod)
    (plistNodup : s'.plist.Nodup)
    (listed : ∀ t p, s'.prod t = some p → p ∈ s'.plist ∨ adds (s'.pc t) = some p)
    (notListed : ∀ t p, adds (s'.pc t) = some p → p ∉ s'.plist)
    (got : ∀ t p, s'.got t = some p → s'.prod t = some p ∧ adds (s'.pc t) = none)
    (inact : ∀ p, s'.inact p = true → p ∈ s'.plist ∧ ∀ t, s'.prod t ≠ some p) : Inv hash s' where
  ntab := by rw [hnt, hcur]; exact I.ntab
  prev := by rw [hnt, htabs]; exact I.prev
  pos := by simp only [State.cap, hnt, htabs]; exact I.pos
  mono := by simp only [State.cap, hnt, htabs]; exact I.mono
  path := by simp only [State.key, State.slot, State.cap, hnt, htabs]; exact I.path
  memb h u hh hi := by
    simp only [In, State.key, State.room, State.cap, hnt, htabs] at hh hi ⊢
    have := I.memb h u hh hi
    by_cases hu : u = t
    · subst hu
      rcases hn with e | e
      · rw [e]; exact this
      · exact absurd hi (e h hh)
    · rw [hnum u hu]; exact this
  uniq := by simp only [State.key, hnt, htabs]; exact I.uniq
  val h j u hh hk := by
    simp only [State.key, hnt, htabs] at hh hk ⊢
    have := I.val h j u hh hk
    by_cases hu : u = t
    · subst hu
      rcases hpr with e | e
      · rw [e]
        rcases this with e | e
        · exact .inl e
        · rw [hv] at e; exact nomatch e
      · exact absurd ⟨j, hk⟩ (e h hh)
    · rw [hprod u hu, hpc, upd_ne _ _ hu]; exact this
  numInj := numInj
  numPos := numPos
  exits u h := by
    rw [hpc] at h
    by_cases hu : u = t
    · subst hu; rw [upd_same] at h; exact hxe h
    · rw [upd_ne _ _ hu] at h; exact hxe' (I.exits u h)
  prodInj := prodInj
  prodLt := prodLt
  thr u := by
    by_cases hu : u = t
    · subst hu; rw [hpc, upd_same]; exact hT
    · exact Grow.thr I (.same hnt htabs hnum hprod hnext hcur hnl hpl hex) hu (by rw [hpc, upd_ne _ _ hu])
  lock u h := by
    rw [hlk]
    rw [hpc] at h
    by_cases hu : u = t
    · subst hu; rw [upd_same] at h; exact I.lock u (hl h)
    · rw [upd_ne _ _ hu] at h; exact I.lock u h
  lockUniq u u' h h' := by
    rw [hpc] at h h'
    have g : ∀ w, locks (upd s.pc t p w) → locks (s.pc w) := fun w hw => by
      by_cases hw' : w = t
      · subst hw'; rw [upd_same] at hw; exact hl hw
      · rw [upd_ne _ _ hw'] at hw; exact hw
    exact I.lockUniq u u' (g u h) (g u' h')
  chain := chain
  plistLt := plistLt
  plistNodup := plistNodup
  listed := listed
  notListed := notListed
  got := got
  inact := inact
  noDead h := by simp only [State.key, hnt, htabs]; exact I.noDead (hex h)

theorem In.idle {s t h} (hh : h < s.ntab) (hi : In s t h) (hI : Idle s t) : s.prod t ≠ none := by
  rcases hI with ⟨_, _, hn⟩ | ⟨hp, _⟩
  · exact absurd hi (hn h hh)
  · exact hp

/-- thread `t` changes one entry -/
theorem Inv.setKey {s : State} (I : Inv hash s) (t : Nat) (p : Pc) (m j : Nat) (K : Key) (pd : List Nat)
    (hK : K ≠ .empty) (hold : ∀ u, u ≠ t → s.key m j ≠ .of u)
    (hKt : ∀ u, K = .of u → u = t ∧ setting p = some (m, j) ∧ ¬ In s t m ∧ (∃ nc, s.num t = some nc ∧ nc < s.room m) ∧
      ∃ k, j = s.slot hash t m k ∧ ∀ k', k' < k → s.key m (s.slot hash t m k') ≠ .empty)
    (hKd : K = .dead → s.exited = true)
    (hv : setting (s.pc t) = none) (hl : ¬ locks p) (ha : adds p = none) (ha' : adds (s.pc t) = none) (hxe : PH.exits p → PH.exits (s.pc t))
    (hT : ∀ s', s' = { s with pc := upd s.pc t p, pend := pd, tabs := upd s.tabs m { s.tabs m with key := upd (s.tabs m).key j K } } →
      (∀ h i, s'.key h i = if h = m ∧ i = j then K else s.key h i) → (∀ h, s'.cap h = s.cap h) → TOk hash s' t p) :
    Inv hash { s with pc := upd s.pc t p, pend := pd, tabs := upd s.tabs m { s.tabs m with key := upd (s.tabs m).key j K } } := by
  generalize hs' : ({ s with pc := upd s.pc t p, pend := pd, tabs := upd s.tabs m { s.tabs m with key := upd (s.tabs m).key j K } } : State) = s'
  have hkey : ∀ h i, s'.key h i = if h = m ∧ i = j then K else s.key h i := by
    intro h i; subst hs'; simp only [State.key, upd]; split <;> grind [upd]
  have hcap : ∀ h, s'.cap h = s.cap h := by
    intro h; subst hs'; simp only [State.cap, upd]; split <;> grind
  have hT := hT s' hs'.symm hkey hcap
  have hslot : ∀ u h k, s'.slot hash u h k = s.slot hash u h k := by intro u h k; simp only [State.slot, hcap]
  have hroom : ∀ h, s'.room h = s.room h := by intro h; simp only [State.room, hcap]
  have hval : ∀ h, (s'.tabs h).val = (s.tabs h).val := by
    intro h; subst hs'; simp only [upd]; split <;> grind [upd]
  have hprev : ∀ h, (s'.tabs h).prev = (s.tabs h).prev := by
    intro h; subst hs'; simp only [upd]; split <;> grind [upd]
  have hnt : s'.ntab = s.ntab := by subst hs'; rfl
  have hpc : s'.pc = upd s.pc t p := by subst hs'; rfl
  have hnum : s'.num = s.num := by subst hs'; rfl
  have hprod : s'.prod = s.prod := by subst hs'; rfl
  have hcur : s'.cur = s.cur := by subst hs'; rfl
  have hnext : s'.next = s.next := by subst hs'; rfl
  have hne : ∀ h i, s.key h i ≠ .empty → s'.key h i ≠ .empty := fun h i hn => by rw [hkey]; split <;> simp_all
  have G : Grow t s s' := {
    ntab := Nat.le_of_eq hnt.symm
    cap := fun h _ => hcap h
    keep := fun h i u hh hu hk' => by
      rw [hkey]
      split
      · rename_i hc; obtain ⟨rfl, rfl⟩ := hc; exact absurd hk' (hold u hu)
      · exact hk'
    full := fun h i _ => hne h i
    back := fun h i u hh hk' => by
      rw [hkey] at hk'
      rw [hnt] at hh
      split at hk'
      · exact .inl (hKt u hk').1
      · exact .inr ⟨hh, hk'⟩
    num := fun u _ => by rw [hnum]
    prod := fun u _ => by rw [hprod]
    next := fun u p _ _ => by rw [hnext]
    nextL := fun p _ => by rw [hnext]
    plist := by subst hs'; exact List.suffix_refl _
    ex := by subst hs'; exact id
    cur := .inl hcur }
  have hlk : ∀ u, locks (s'.pc u) → locks (s.pc u) := fun u h => by
    rw [hpc] at h
    by_cases hu : u = t
    · subst hu; rw [upd_same] at h; exact absurd h hl
    · rw [upd_ne _ _ hu] at h; exact h
  have had : ∀ u, adds (s'.pc u) = adds (s.pc u) := fun u => by
    rw [hpc]
    by_cases hu : u = t
    · subst hu; rw [upd_same, ha, ha']
    · rw [upd_ne _ _ hu]
  refine {
    ntab := by rw [hnt, hcur]; exact I.ntab
    prev := by simp only [hnt, hprev]; exact I.prev
    pos := by simp only [hnt, hcap]; exact I.pos
    mono := by simp only [hnt, hcap]; exact I.mono
    path := fun h i u hh hk' => ?_
    memb := fun h u hh hi => ?_
    uniq := fun h i i' u hh h1 h2 => ?_
    val := fun h i u hh hk' => ?_
    numInj := by subst hs'; exact I.numInj
    numPos := by subst hs'; exact I.numPos
    exits := fun u h => by
      have he : s'.exited = s.exited := by subst hs'; rfl
      rw [he]
      rw [hpc] at h
      by_cases hu : u = t
      · subst hu; rw [upd_same] at h; exact I.exits u (hxe h)
      · rw [upd_ne _ _ hu] at h; exact I.exits u h
    prodInj := by rw [hprod]; exact I.prodInj
    prodLt := by subst hs'; exact I.prodLt
    thr := fun u => ?_
    lock := fun u h => ?_
    lockUniq := fun u u' h h' => I.lockUniq u u' (hlk u h) (hlk u' h')
    chain := by subst hs'; exact I.chain
    plistLt := by subst hs'; exact I.plistLt
    plistNodup := by subst hs'; exact I.plistNodup
    listed := fun u q hq => by rw [had]; subst hs'; exact I.listed u q hq
    notListed := fun u q hq => by rw [had] at hq; subst hs'; exact I.notListed u q hq
    got := fun u q hq => by rw [had]; subst hs'; exact I.got u q hq
    inact := by subst hs'; exact I.inact
    noDead := fun he h i hh hk' => ?_ }
  · rw [hnt] at hh
    rw [hkey] at hk'
    split at hk'
    · rename_i hc
      obtain ⟨rfl, rfl⟩ := hc
      obtain ⟨rfl, _, _, _, k, h1, h2⟩ := hKt u hk'
      refine ⟨k, by rw [hslot]; exact h1, fun k' hk' => ?_⟩
      rw [hslot]
      exact hne _ _ (h2 k' hk')
    · obtain ⟨k0, h1, h2⟩ := I.path h i u hh hk'
      refine ⟨k0, by rw [hslot]; exact h1, fun k' hk' => ?_⟩
      rw [hslot]
      exact hne _ _ (h2 k' hk')
  · rw [hnt] at hh
    rw [hnum, hroom]
    obtain ⟨i, hi⟩ := hi
    rw [hkey] at hi
    split at hi
    · rename_i hc
      obtain ⟨rfl, _, _, b, _⟩ := hKt u hi
      rw [hc.1]; exact b
    · exact I.memb h u hh ⟨i, hi⟩
  · rw [hnt] at hh
    rw [hkey] at h1 h2
    have h3 := I.uniq h i i' u hh
    split at h1 <;> split at h2
    · grind
    · rename_i hc _
      obtain ⟨rfl, rfl⟩ := hc
      obtain ⟨rfl, _, e, _⟩ := hKt u h1
      exact absurd ⟨i', h2⟩ e
    · rename_i hc
      obtain ⟨rfl, rfl⟩ := hc
      obtain ⟨rfl, _, e, _⟩ := hKt u h2
      exact absurd ⟨i, h1⟩ e
    · exact h3 h1 h2
  · rw [hnt] at hh
    rw [hkey] at hk'
    rw [hval, hprod, hpc]
    split at hk'
    · rename_i hc
      obtain ⟨rfl, rfl⟩ := hc
      obtain ⟨rfl, e, _⟩ := hKt u hk'
      right; rw [upd_same]; exact e
    · have := I.val h i u hh hk'
      by_cases hu : u = t
      · subst hu; rw [hv] at this; exact .inl (by simpa using this)
      · rw [upd_ne _ _ hu]; exact this
  · by_cases hu : u = t
    · subst hu
      rw [hpc, upd_same]
      exact hT
    · exact G.thr I hu (by rw [hpc, upd_ne _ _ hu])
  · have := I.lock u (hlk u h); subst hs'; exact this
  · rw [hnt] at hh
    rw [hkey] at hk'
    have he : s.exited = false := by subst hs'; exact he
    split at hk'
    · rw [hKd hk'] at he; exact nomatch he
    · exact I.noDead he h i hh hk'

/-- a thread that finds a free entry on its path is not in the table -/
theorem Inv.not_in {s} (I : Inv hash s) {t h k} (hh : h < s.ntab) (hk : s.key h (s.slot hash t h k) = .empty)
    (hp : ∀ k', k' < k → s.key h (s.slot hash t h k') ≠ .empty ∧ s.key h (s.slot hash t h k') ≠ .of t) : ¬ In s t h := by
  rintro ⟨j, hj⟩
  obtain ⟨k0, rfl, h0⟩ := I.path h j t hh hj
  rcases Nat.lt_trichotomy k0 k with hlt | rfl | hlt
  · exact (hp k0 hlt).2 hj
  · rw [hk] at hj; exact nomatch hj
  · exact h0 k hlt hk

theorem Step.inv {t s s'} (I : Inv hash s) (hs : Step hash t s s') : Inv hash s' := by
  have ht := I.thr t
  cases hs with
  | call h => rw [h] at ht; exact I.go' t _ ht (by rw [h]; rfl) (by rw [h]; rfl) (fun h => h.elim) (fun h => h.elim)
  | ldMain h =>
    rw [h] at ht
    have := I.ntab
    exact I.go' t _ ⟨by omega, Nat.le_refl _, ht, fun h' a b => by omega, fun _ h => absurd h (Nat.not_lt_zero _)⟩ (by rw [h]; rfl) (by rw [h]; rfl) (fun h => h.elim) (fun h => h.elim)
  | @hit m h k hp hk =>
    rw [hp] at ht
    obtain ⟨a, b, c, d, e⟩ := ht
    have hh : h < s.ntab := Nat.lt_of_le_of_lt b a
    have hi : In s t h := ⟨_, hk⟩
    have hpr := hi.idle hh c
    have hval : (s.tabs h).val (s.slot hash t h k) = s.prod t := by
      rcases I.val h _ t hh hk with e | e
      · exact e
      · rw [hp] at e; exact nomatch e
    rw [hval]
    refine I.go' t _ ?_ (by rw [hp]; split <;> rfl) (by rw [hp]; rfl) (fun h => by split at h <;> exact h.elim) (fun h => by split at h <;> exact h.elim)
    split
    · exact ⟨rfl, hpr, h, hh, hi⟩
    · have hlt : h < m := by omega
      obtain ⟨nc, hn, hr⟩ := I.memb h t hh hi
      refine ⟨a, ⟨nc, hn, ?_⟩, rfl, hpr, d m hlt a, fun _ h => absurd h (Nat.not_lt_zero _), fun _ => by omega⟩
      have := I.mono h m b a
      simp only [State.room] at hr ⊢
      omega
  | @miss m h k hp hk =>
    rw [hp] at ht
    obtain ⟨a, b, c, d, e⟩ := ht
    have hh : h < s.ntab := Nat.lt_of_le_of_lt b a
    have hni := I.not_in hh hk e
    have hd : ∀ h', h ≤ h' → h' < s.ntab → ¬ In s t h' := fun h' x y => by
      rcases Nat.lt_or_eq_of_le x with x | rfl
      · exact d h' x y
      · exact hni
    rw [I.prev h hh]
    by_cases h0 : h = 0
    · subst h0
      rw [if_pos rfl]
      refine I.go' t _ ?_ (by rw [hp]; rfl) (by rw [hp]; rfl) (fun h => h.elim) (fun h => h.elim)
      rcases c with ⟨x, y, z⟩ | ⟨x, h', y, z⟩
      · exact ⟨a, x, y, z⟩
      · exact absurd z (hd h' (Nat.zero_le _) y)
    · rw [if_neg h0]
      exact I.go' t _ ⟨a, by omega, c, fun h' x y => hd h' (by omega) y, fun _ h => absurd h (Nat.not_lt_zero _)⟩ (by rw [hp]; rfl) (by rw [hp]; rfl) (fun h => h.elim) (fun h => h.elim)
  | @other m h k hp hk hu =>
    rw [hp] at ht
    obtain ⟨a, b, c, d, e⟩ := ht
    refine I.go' t _ ⟨a, b, c, d, fun k' hk' => ?_⟩ (by rw [hp]; rfl) (by rw [hp]; rfl) (fun h => h.elim) (fun h => h.elim)
    rcases Nat.lt_or_eq_of_le (Nat.le_of_lt_succ hk') with hk' | rfl
    · exact e k' hk'
    · exact ⟨hk, hu⟩
  | @count m hp =>
    rw [hp] at ht
    obtain ⟨a, b, c, d⟩ := ht
    have hne : s.exited = false → ∀ u n, s.num u = some n → n ≠ s.count + 1 := fun he u n h => by have := (I.numPos he u n h).2; omega
    refine I.keep t (.chk (s.count + 1) m) rfl rfl rfl rfl rfl (fun u hu => upd_ne _ _ hu) (fun _ _ => rfl) (fun _ _ _ _ => rfl) (fun _ _ => rfl) (List.suffix_refl _) id (by rw [hp]; rfl) (fun h => h.elim) (fun h => h.elim) id (.inr d) (.inl rfl)
      ?_ ?_ I.prodInj I.prodLt ⟨a, upd_same .., c, d⟩ I.chain I.plistLt I.plistNodup ?_ ?_ ?_ I.inact
    · intro he u u' n h h'
      have h3 := I.numInj he u u' n
      have h4 := hne he u n
      have h5 := hne he u' n
      simp only [upd] at h h'
      grind
    · intro he u n h
      have := I.numPos he u n
      simp only [upd] at h
      grind
    · intro u q hq; have := I.listed u q hq; simp only [upd]; split <;> simp_all
    · intro u q hq; refine I.notListed u q ?_; simp only [upd] at hq; split at hq <;> simp_all [adds]
    · intro u q hq; have := I.got u q hq; simp only [upd]; split <;> grind [adds]
  | @chk nc m hp =>
    rw [hp] at ht
    refine I.go' t _ ?_ (by rw [hp]; split <;> rfl) (by rw [hp]; rfl) (fun h => by split at h <;> exact h.elim) (fun h => by split at h <;> exact h.elim)
    split <;> exact ht
  | @tas nc m hp =>
    rw [hp] at ht
    cases hlk : s.lock with
    | true =>
      have := I.go t (.fit nc m) true ht (by rw [hp]; rfl) (by rw [hp]; rfl) (fun _ _ _ => rfl) (fun _ => rfl) (fun h => h.elim) (fun h => h.elim)
      simpa using this
    | false =>
      have hno : ∀ u, ¬ locks (s.pc u) := fun u hu => by have := I.lock u hu; rw [hlk] at this; exact nomatch this
      have := I.go t (.reload nc) true ht.2 (by rw [hp]; rfl) (by rw [hp]; rfl) (fun _ _ _ => rfl) (fun _ => rfl) (fun _ u _ => hno u) (fun h => h.elim)
      simpa using this
  | @reload nc hp =>
    rw [hp] at ht
    have := I.ntab
    refine I.go' t _ ?_ (by rw [hp]; split <;> rfl) (by rw [hp]; rfl) (fun _ => by rw [hp]; trivial) (fun h => by split at h <;> exact h.elim)
    split
    · exact ⟨rfl, ht⟩
    · exact ⟨by omega, ht.1, ht.2.1, ht.2.2, by omega⟩
  | @build nc m hp k hk hmin =>
    rw [hp] at ht
    obtain ⟨rfl, b, c, d⟩ := ht
    have hnt := I.ntab
    have hno : ∀ u, u ≠ t → ¬ locks (s.pc u) := fun u hu h => hu (I.lockUniq u t h (by rw [hp]; trivial))
    generalize hs' : { s with pc := upd s.pc t (.unl nc s.ntab), tabs := upd s.tabs s.ntab (Tab.new (s.cap s.cur * 2 ^ (k + 1)) (some s.cur)), cur := s.ntab, ntab := s.ntab + 1 } = s'
    have hnt' : s'.ntab = s.ntab + 1 := by subst hs'; rfl
    have htab : ∀ h, h < s.ntab → s'.tabs h = s.tabs h := by intro h hh; subst hs'; exact upd_ne _ _ (by omega)
    have hnew : s'.tabs s.ntab = Tab.new (s.cap s.cur * 2 ^ (k + 1)) (some s.cur) := by subst hs'; exact upd_same ..
    have hkn : ∀ i, s'.key s.ntab i = .empty := by intro i; simp only [State.key, hnew]; rfl
    have hkey : ∀ h i, h < s.ntab → s'.key h i = s.key h i := by intro h i hh; simp only [State.key, htab h hh]
    have hcap : ∀ h, h < s.ntab → s'.cap h = s.cap h := by intro h hh; simp only [State.cap, htab h hh]
    have hcn : s'.cap s.ntab = s.cap s.cur * 2 ^ (k + 1) := by simp only [State.cap, hnew]; rfl
    have h2 : 1 ≤ 2 ^ (k + 1) := Nat.one_le_two_pow
    have hge : s.cap s.cur ≤ s'.cap s.ntab := by rw [hcn]; exact Nat.le_mul_of_pos_right _ h2
    have hslot : ∀ u h k, h < s.ntab → s'.slot hash u h k = s.slot hash u h k := by intro u h k hh; simp only [State.slot, hcap h hh]
    have hroom : ∀ h, h < s.ntab → s'.room h = s.room h := by intro h hh; simp only [State.room, hcap h hh]
    have hpc : s'.pc = upd s.pc t (.unl nc s.ntab) := by subst hs'; rfl
    have hnum : s'.num = s.num := by subst hs'; rfl
    have hprod : s'.prod = s.prod := by subst hs'; rfl
    have hcur : s'.cur = s.ntab := by subst hs'; rfl
    have hnext : s'.next = s.next := by subst hs'; rfl
    have old : ∀ h i u, h < s'.ntab → s'.key h i = .of u → h < s.ntab ∧ s.key h i = .of u := by
      intro h i u hh hk'
      rw [hnt'] at hh
      by_cases he : h = s.ntab
      · rw [he, hkn] at hk'; exact nomatch hk'
      · have : h < s.ntab := by omega
        rw [hkey h i this] at hk'
        exact ⟨this, hk'⟩
    have G : Grow t s s' := {
      ntab := by omega
      cap := hcap
      keep := fun h i u hh _ hk' => by rw [hkey h i hh]; exact hk'
      full := fun h i hh hk' => by rw [hkey h i hh]; exact hk'
      back := fun h i u hh hk' => .inr (old h i u hh hk')
      num := fun u _ => by rw [hnum]
      prod := fun u _ => by rw [hprod]
      next := fun u p _ _ => by rw [hnext]
      nextL := fun p _ => by rw [hnext]
      plist := by subst hs'; exact List.suffix_refl _
      ex := by subst hs'; exact id
      cur := .inr hno }
    refine {
      ntab := by rw [hnt', hcur]
      prev := fun h hh => ?_
      pos := fun h hh => ?_
      mono := fun h h' hh hh' => ?_
      path := fun h i u hh hk' => ?_
      memb := fun h u hh hi => ?_
      uniq := fun h i i' u hh h1 h2 => ?_
      val := fun h i u hh hk' => ?_
      numInj := by subst hs'; exact I.numInj
      numPos := by subst hs'; exact I.numPos
      exits := fun u h => by
        have he : s'.exited = s.exited := by subst hs'; rfl
        rw [he]
        rw [hpc] at h
        by_cases hu : u = t
        · subst hu; rw [upd_same] at h; exact h.elim
        · rw [upd_ne _ _ hu] at h; exact I.exits u h
      prodInj := by rw [hprod]; exact I.prodInj
      prodLt := by subst hs'; exact I.prodLt
      thr := fun u => ?_
      lock := fun u h => ?_
      lockUniq := fun u u' h h' => ?_
      chain := by subst hs'; exact I.chain
      plistLt := by subst hs'; exact I.plistLt
      plistNodup := by subst hs'; exact I.plistNodup
      listed := fun u q hq => ?_
      notListed := fun u q hq => ?_
      got := fun u q hq => ?_
      inact := by subst hs'; exact I.inact
      noDead := fun he h i hh hk' => ?_ }
    · by_cases he : h = s.ntab
      · rw [he, hnew, if_neg (by omega)]
        simp only [Tab.new, Option.some.injEq]
        omega
      · rw [htab h (by omega)]; exact I.prev h (by omega)
    · by_cases he : h = s.ntab
      · have := I.pos s.cur (by omega); rw [he]; omega
      · rw [hcap h (by omega)]; exact I.pos h (by omega)
    · by_cases he : h' = s.ntab
      · subst he
        by_cases he : h = s.ntab
        · exact Nat.le_of_eq (by rw [he])
        · rw [hcap h (by omega)]
          have := I.mono h s.cur (by omega) (by omega)
          omega
      · rw [hcap h (by omega), hcap h' (by omega)]; exact I.mono h h' hh (by omega)
    · obtain ⟨ho, hk'⟩ := old h i u hh hk'
      obtain ⟨k0, h1, h2⟩ := I.path h i u ho hk'
      refine ⟨k0, by rw [hslot _ _ _ ho]; exact h1, fun k' hk' => ?_⟩
      rw [hslot _ _ _ ho, hkey _ _ ho]
      exact h2 k' hk'
    · obtain ⟨i, hi⟩ := hi
      obtain ⟨ho, hi⟩ := old h i u hh hi
      rw [hnum, hroom h ho]
      exact I.memb h u ho ⟨i, hi⟩
    · obtain ⟨ho, h1⟩ := old h i u hh h1
      obtain ⟨_, h2⟩ := old h i' u hh h2
      exact I.uniq h i i' u ho h1 h2
    · obtain ⟨ho, hk'⟩ := old h i u hh hk'
      rw [htab h ho, hprod, hpc]
      have := I.val h i u ho hk'
      by_cases hu : u = t
      · subst hu; exact absurd ⟨i, hk'⟩ (d h ho)
      · rw [upd_ne _ _ hu]; exact this
    · by_cases hu : u = t
      · subst hu
        rw [hpc, upd_same]
        refine ⟨by omega, by rw [hnum]; exact b, by rw [hprod]; exact c, fun h hh ⟨i, hi⟩ => ?_, by rw [hcn]; exact hk⟩
        obtain ⟨ho, hi⟩ := old h i u hh hi
        exact d h ho ⟨i, hi⟩
      · exact G.thr I hu (by rw [hpc, upd_ne _ _ hu])
    · have : s'.lock = s.lock := by subst hs'; rfl
      rw [this]; exact I.lock t (by rw [hp]; trivial)
    · have g : ∀ w, locks (s'.pc w) → w = t := fun w hw => by
        rw [hpc] at hw
        by_cases hw' : w = t
        · exact hw'
        · rw [upd_ne _ _ hw'] at hw; exact absurd hw (hno w hw')
      rw [g u h, g u' h']
    · subst hs'; have := I.listed u q hq; simp only [upd]; split <;> simp_all [adds]
    · subst hs'; refine I.notListed u q ?_; simp only [upd] at hq; split at hq <;> simp_all [adds]
    · subst hs'; have := I.got u q hq; simp only [upd]; split <;> grind [adds]
    · by_cases hc : h = s.ntab
      · rw [hc, hkn] at hk'; exact nomatch hk'
      · have : h < s.ntab := by omega
        rw [hkey h i this] at hk'
        exact I.noDead (by subst hs'; exact he) h i this hk'
  | @unl nc m hp =>
    rw [hp] at ht
    exact I.go t _ false ⟨ht.1, ht.2.1, ht.2.2.1, ht.2.2.2.1⟩ (by rw [hp]; rfl) (by rw [hp]; rfl) (fun u hu hu' => absurd (I.lockUniq u t hu' (by rw [hp]; trivial)) hu) (fun h => h.elim) (fun h => h.elim) (fun h => h.elim)
  | @fit nc m hp =>
    rw [hp] at ht
    refine I.go' t _ ?_ (by rw [hp]; split <;> rfl) (by rw [hp]; rfl) (fun h => by split at h <;> exact h.elim) (fun h => by split at h <;> exact h.elim)
    split
    · exact ⟨ht.1, ⟨nc, ht.2.1, by assumption⟩, ht.2.2.1, ht.2.2.2, s.plist, I.chain, List.suffix_refl _⟩
    · exact ht.2
  | @reMain nc hp =>
    rw [hp] at ht
    have := I.ntab
    exact I.go' t _ ⟨by omega, ht⟩ (by rw [hp]; rfl) (by rw [hp]; rfl) (fun h => h.elim) (fun h => h.elim)
  | @findNo m p hp hi =>
    rw [hp] at ht
    obtain ⟨a, b, c, d, l, e, f⟩ := ht
    cases l with
    | nil => exact nomatch e
    | cons q l =>
      obtain ⟨h1, h2⟩ := e
      cases h1
      exact I.go' t _ ⟨a, b, c, d, l, h2, (List.suffix_cons _ _).trans f⟩ (by rw [hp]; rfl) (by rw [hp]; rfl) (fun h => h.elim) (fun h => h.elim)
  | @recFail m p hp hi =>
    rw [hp] at ht
    obtain ⟨a, b, c, d, l, e, f⟩ := ht
    cases l with
    | nil => exact nomatch e
    | cons q l =>
      obtain ⟨h1, h2⟩ := e
      cases h1
      exact I.go' t _ ⟨a, b, c, d, l, h2, (List.suffix_cons _ _).trans f⟩ (by rw [hp]; rfl) (by rw [hp]; rfl) (fun h => h.elim) (fun h => h.elim)
  | @findYes m p hp hi =>
    rw [hp] at ht
    exact I.go' t _ ht (by rw [hp]; rfl) (by rw [hp]; rfl) (fun h => h.elim) (fun h => h.elim)
  | @findEnd m hp =>
    rw [hp] at ht
    obtain ⟨a, b, c, d, _⟩ := ht
    exact I.go' t _ ⟨a, b, c, d⟩ (by rw [hp]; rfl) (by rw [hp]; rfl) (fun h => h.elim) (fun h => h.elim)
  | @recycle m p hp hi =>
    rw [hp] at ht
    obtain ⟨a, b, c, d, _⟩ := ht
    obtain ⟨hpl, hno⟩ := I.inact p hi
    refine I.keep t (.put m 0 (some p) false) rfl rfl rfl rfl rfl (fun _ _ => rfl) (fun u hu => upd_ne _ _ hu) (fun _ _ _ _ => rfl) (fun _ _ => rfl) (List.suffix_refl _) id (by rw [hp]; rfl) (fun h => h.elim) (fun h => h.elim) id (.inl rfl) (.inr d)
      I.numInj I.numPos ?_ ?_ ⟨a, b, upd_same .., by simp, d m a, fun _ h => absurd h (Nat.not_lt_zero _), by simp⟩ I.chain I.plistLt I.plistNodup ?_ ?_ ?_ ?_
    · intro u u' n h h'
      have h3 := I.prodInj u u' n
      have h4 := hno u
      have h5 := hno u'
      simp only [upd] at h h'
      grind
    · intro u n h
      have h1 := I.prodLt u n
      have h2 := I.plistLt p hpl
      simp only [upd] at h
      grind
    · intro u q hq; have := I.listed u q; simp only [upd] at hq ⊢; split at hq <;> grind
    · intro u q hq; refine I.notListed u q ?_; simp only [upd] at hq; split at hq <;> simp_all [adds]
    · intro u q hq
      have := I.got u q hq
      by_cases hu : u = t
      · subst hu; rw [c] at this; exact nomatch this.1
      · simp only [upd_ne _ _ hu]; exact this
    · intro q hq
      by_cases he : q = p
      · subst he; simp only [upd_same] at hq; exact nomatch hq
      · simp only [upd_ne _ _ he] at hq
        refine ⟨(I.inact q hq).1, fun u => ?_⟩
        have := (I.inact q hq).2 u
        simp only [upd]
        split
        · simpa using fun h => he h.symm
        · exact this
  | @create m hp =>
    rw [hp] at ht
    obtain ⟨a, b, c, d⟩ := ht
    have hne : ∀ u n, s.prod u = some n → n < s.nprod := I.prodLt
    refine I.keep t (.add m s.nprod) rfl rfl rfl rfl rfl (fun _ _ => rfl) (fun u hu => upd_ne _ _ hu) (fun _ _ _ _ => rfl) (fun _ _ => rfl) (List.suffix_refl _) id (by rw [hp]; rfl) (fun h => h.elim) (fun h => h.elim) id (.inl rfl) (.inr d)
      I.numInj I.numPos ?_ ?_ ⟨a, b, upd_same .., d⟩ I.chain ?_ I.plistNodup ?_ ?_ ?_ ?_
    · intro u u' n h h'
      have h3 := I.prodInj u u' n
      have h4 := hne u n
      have h5 := hne u' n
      simp only [upd] at h h'
      grind
    · intro u n h
      have := hne u n
      simp only [upd] at h
      grind
    · intro q hq; have := I.plistLt q hq; simp only; omega
    · intro u q hq; have := I.listed u q; simp only [upd] at hq ⊢; split at hq <;> simp_all [adds]
    · intro u q hq
      simp only [upd] at hq
      split at hq
      · cases hq; exact fun h => absurd (I.plistLt _ h) (Nat.lt_irrefl _)
      · exact I.notListed u q hq
    · intro u q hq; have := I.got u q hq; simp only [upd]; split <;> grind [adds]
    · intro q hq
      have h1 := I.inact q hq
      have h2 := I.plistLt q h1.1
      refine ⟨h1.1, fun u => ?_⟩
      have := h1.2 u
      simp only [upd]
      split
      · simpa using fun h => by omega
      · exact this
  | @add m p hp =>
    rw [hp] at ht
    obtain ⟨a, b, c, d⟩ := ht
    have hne : ∀ u q, u ≠ t → s.prod u = some q → q ≠ p := fun u q hu h e => by subst e; exact hu (I.prodInj u t _ h c)
    have hnl := I.notListed t p (by rw [hp]; rfl)
    refine I.keep t (.addCas m p s.tail) rfl rfl rfl rfl rfl (fun _ _ => rfl) (fun _ _ => rfl) (fun u q hu h => upd_ne _ _ (hne u q hu h)) (fun q hq => upd_ne _ _ (fun e => hnl (e ▸ hq))) (List.suffix_refl _) id (by rw [hp]; rfl) (fun h => h.elim) (fun h => h.elim) id (.inl rfl) (.inl rfl)
      I.numInj I.numPos I.prodInj I.prodLt ⟨a, b, c, d, upd_same ..⟩ (I.chain.set hnl) I.plistLt I.plistNodup ?_ ?_ ?_ I.inact
    · intro u q hq; have := I.listed u q hq; simp only [upd]; split <;> simp_all [adds]
    · intro u q hq; refine I.notListed u q ?_; simp only [upd] at hq; split at hq <;> simp_all [adds]
    · intro u q hq; have := I.got u q hq; simp only [upd]; split <;> grind [adds]
  | @addCas m p pv hp htl =>
    rw [hp] at ht
    obtain ⟨a, b, c, d, e⟩ := ht
    have hnl := I.notListed t p (by rw [hp]; rfl)
    refine I.keep t (.put m 0 (some p) false) rfl rfl rfl rfl rfl (fun _ _ => rfl) (fun _ _ => rfl) (fun _ _ _ _ => rfl) (fun _ _ => rfl) (List.suffix_cons _ _) id (by rw [hp]; rfl) (fun h => h.elim) (fun h => h.elim) id (.inl rfl) (.inl rfl)
      I.numInj I.numPos I.prodInj I.prodLt ⟨a, b, c, by simp, d m a, fun _ h => absurd h (Nat.not_lt_zero _), by simp⟩ ⟨rfl, by rw [e, ← htl]; exact I.chain⟩ ?_
      (List.nodup_cons.2 ⟨hnl, I.plistNodup⟩) ?_ ?_ ?_ (fun q hq => ⟨List.mem_cons_of_mem _ (I.inact q hq).1, (I.inact q hq).2⟩)
    · intro q hq
      rcases List.mem_cons.1 hq with rfl | hq
      · exact I.prodLt t _ c
      · exact I.plistLt q hq
    · intro u q hq; have := I.listed u q hq; simp only [upd, List.mem_cons]; split
      · next h => subst h; rw [c] at hq; cases hq; exact .inl (.inl rfl)
      · rcases this with h | h
        · exact .inl (.inr h)
        · exact .inr h
    · intro u q hq
      simp only [upd] at hq
      split at hq
      · exact nomatch hq
      · rename_i hu
        have h1 := I.notListed u q hq
        simp only [List.mem_cons, not_or]
        refine ⟨fun e => ?_, h1⟩
        subst e
        have h2 := I.thr u
        have h3 : s.prod u = some q := by
          cases hpu : s.pc u <;> rw [hpu] at hq h2 <;> simp only [adds] at hq <;> cases hq
          · exact h2.2.2.1
          · exact h2.2.2.1
        exact hu (I.prodInj u t q h3 c)
    · intro u q hq; have := I.got u q hq; simp only [upd]; split <;> grind [adds]
  | @addFail m p pv hp =>
    rw [hp] at ht
    obtain ⟨a, b, c, d, _⟩ := ht
    have hne : ∀ u q, u ≠ t → s.prod u = some q → q ≠ p := fun u q hu h e => by subst e; exact hu (I.prodInj u t _ h c)
    have hnl := I.notListed t p (by rw [hp]; rfl)
    refine I.keep t (.addCas m p s.tail) rfl rfl rfl rfl rfl (fun _ _ => rfl) (fun _ _ => rfl) (fun u q hu h => upd_ne _ _ (hne u q hu h)) (fun q hq => upd_ne _ _ (fun e => hnl (e ▸ hq))) (List.suffix_refl _) id (by rw [hp]; rfl) (fun h => h.elim) (fun h => h.elim) id (.inl rfl) (.inl rfl)
      I.numInj I.numPos I.prodInj I.prodLt ⟨a, b, c, d, upd_same ..⟩ (I.chain.set hnl) I.plistLt I.plistNodup ?_ ?_ ?_ I.inact
    · intro u q hq; have := I.listed u q hq; simp only [upd]; split <;> simp_all [adds]
    · intro u q hq; refine I.notListed u q ?_; simp only [upd] at hq; split at hq <;> simp_all [adds]
    · intro u q hq; have := I.got u q hq; simp only [upd]; split <;> grind [adds]
  | @put m k v lz hp hk =>
    rw [hp] at ht
    obtain ⟨a, b, c, d, e, f, g⟩ := ht
    refine I.setKey t _ m (s.slot hash t m k) (.of t) s.pend (by simp) (fun u _ h => by rw [hk] at h; split at h <;> exact nomatch h)
      (fun u hu => ?_) (fun h => nomatch h) (by rw [hp]; rfl) (by split <;> exact id) (by split <;> rfl) (by rw [hp]; rfl) (fun h => by split at h <;> exact h.elim) (fun s' hs' hkey _ => ?_)
    · cases hu
      exact ⟨rfl, by split <;> rfl, e, b, k, rfl, f⟩
    · have h1 : s'.ntab = s.ntab := by subst hs'; rfl
      have h2 : s'.prod = s.prod := by subst hs'; rfl
      have h3 : s'.exited = s.exited := by subst hs'; rfl
      cases lz with
      | true => exact ⟨by rw [h1]; exact a, by rw [h2]; exact c, d, by rw [hkey]; simp⟩
      | false =>
        refine ⟨by rw [h1]; exact a, by rw [h2]; exact c, d, by rw [hkey]; simp, ?_⟩
        rw [h3]
        cases he : s.exited with
        | true => rfl
        | false => exact absurd hk (I.noDead he m _ a)
  | @putNo m k v lz hp hk =>
    rw [hp] at ht
    obtain ⟨a, b, c, d, e, f, g⟩ := ht
    refine I.go' t _ ⟨a, b, c, d, e, f, g, fun h => ?_⟩ (by rw [hp]; rfl) (by rw [hp]; rfl) (fun h => h.elim) (fun h => h.elim)
    rw [h] at hk
    exact hk
  | @put2 m k v lz hp hk =>
    rw [hp] at ht
    obtain ⟨a, b, c, d, e, f, g, i⟩ := ht
    refine I.setKey t (.putV m (s.slot hash t m k) v) m (s.slot hash t m k) (.of t) _ (by simp) (fun u _ h => by rw [hk] at h; split at h <;> exact nomatch h)
      (fun u hu => ?_) (fun h => nomatch h) (by rw [hp]; rfl) id rfl (by rw [hp]; rfl) (fun h => h.elim) (fun s' hs' hkey _ => ?_)
    · cases hu
      exact ⟨rfl, rfl, e, b, k, rfl, f⟩
    · have h1 : s'.ntab = s.ntab := by subst hs'; rfl
      have h2 : s'.prod = s.prod := by subst hs'; rfl
      exact ⟨by rw [h1]; exact a, by rw [h2]; exact c, d, by rw [hkey]; simp⟩
  | @putNext m k v lz hp hk =>
    rw [hp] at ht
    obtain ⟨a, b, c, d, e, f, g, i⟩ := ht
    refine I.go' t _ ⟨a, b, c, d, e, fun k' hk' => ?_, g⟩ (by rw [hp]; rfl) (by rw [hp]; rfl) (fun h => h.elim) (fun h => h.elim)
    rcases Nat.lt_or_eq_of_le (Nat.le_of_lt_succ hk') with hk' | rfl
    · exact f k' hk'
    · cases lz with
      | true => exact i rfl
      | false => exact hk
  | @dec m j v hp =>
    rw [hp] at ht
    obtain ⟨a, b, c, d, e⟩ := ht
    have hfe : s.exited ≠ false := by simp [e]
    have G : Grow t s { s with pc := upd s.pc t (.putV m j v), count := s.count - 1, pend := s.pend.erase t } :=
      .same rfl rfl (fun _ _ => rfl) (fun _ _ => rfl) (fun _ _ _ _ => rfl) rfl (fun _ _ => rfl) (List.suffix_refl _) id
    exact {
      ntab := I.ntab
      prev := I.prev
      pos := I.pos
      mono := I.mono
      path := I.path
      memb := I.memb
      uniq := I.uniq
      val := fun h i u hh hk => by
        rcases I.val h i u hh hk with e | e
        · exact .inl e
        · by_cases hu : u = t
          · subst hu; rw [hp] at e; right; simp only [upd_same]; exact e
          · right; simp only [upd_ne _ _ hu]; exact e
      numInj := fun h => absurd h hfe
      numPos := fun h => absurd h hfe
      exits := fun _ _ => e
      prodInj := I.prodInj
      prodLt := I.prodLt
      thr := fun u => by
        by_cases hu : u = t
        · subst hu; simp only [upd_same]; exact ⟨a, b, c, d⟩
        · exact G.thr I hu (upd_ne _ _ hu)
      lock := fun u h => I.lock u (by simp only [upd] at h; split at h; exact h.elim; exact h)
      lockUniq := fun u u' h h' => I.lockUniq u u' (by simp only [upd] at h; split at h; exact h.elim; exact h) (by simp only [upd] at h'; split at h'; exact h'.elim; exact h')
      chain := I.chain
      plistLt := I.plistLt
      plistNodup := I.plistNodup
      listed := fun u q hq => by have := I.listed u q hq; simp only [upd]; split <;> simp_all [adds]
      notListed := fun u q hq => by refine I.notListed u q ?_; simp only [upd] at hq; split at hq <;> simp_all [adds]
      got := fun u q hq => by have := I.got u q hq; simp only [upd]; split <;> grind [adds]
      inact := I.inact
      noDead := fun h => absurd h hfe }
  | @putV m j v hp =>
    rw [hp] at ht
    obtain ⟨a, b, c, d⟩ := ht
    generalize hs' : { s with pc := upd s.pc t (.ret v), tabs := upd s.tabs m { s.tabs m with val := upd (s.tabs m).val j v } } = s'
    have hkey : ∀ h i, s'.key h i = s.key h i := by
      intro h i; subst hs'; simp only [State.key, upd]; split <;> grind [upd]
    have hcap : ∀ h, s'.cap h = s.cap h := by
      intro h; subst hs'; simp only [State.cap, upd]; split <;> grind
    have hslot : ∀ u h k, s'.slot hash u h k = s.slot hash u h k := by intro u h k; simp only [State.slot, hcap]
    have hroom : ∀ h, s'.room h = s.room h := by intro h; simp only [State.room, hcap]
    have hval : ∀ h i, (s'.tabs h).val i = if h = m ∧ i = j then v else (s.tabs h).val i := by
      intro h i; subst hs'; simp only [upd]; split <;> grind [upd]
    have hprev : ∀ h, (s'.tabs h).prev = (s.tabs h).prev := by
      intro h; subst hs'; simp only [upd]; split <;> grind [upd]
    have hnt : s'.ntab = s.ntab := by subst hs'; rfl
    have hpc : s'.pc = upd s.pc t (.ret v) := by subst hs'; rfl
    have hnum : s'.num = s.num := by subst hs'; rfl
    have hprod : s'.prod = s.prod := by subst hs'; rfl
    have hcur : s'.cur = s.cur := by subst hs'; rfl
    have hnext : s'.next = s.next := by subst hs'; rfl
    have G : Grow t s s' := {
      ntab := Nat.le_of_eq hnt.symm
      cap := fun h _ => hcap h
      keep := fun h i u hh _ hk' => by rw [hkey]; exact hk'
      full := fun h i hh hk' => by rw [hkey]; exact hk'
      back := fun h i u hh hk' => by rw [hkey] at hk'; rw [hnt] at hh; exact .inr ⟨hh, hk'⟩
      num := fun u _ => by rw [hnum]
      prod := fun u _ => by rw [hprod]
      next := fun u p _ _ => by rw [hnext]
      nextL := fun p _ => by rw [hnext]
      plist := by subst hs'; exact List.suffix_refl _
      ex := by subst hs'; exact id
      cur := .inl hcur }
    refine {
      ntab := by rw [hnt, hcur]; exact I.ntab
      prev := by simp only [hnt, hprev]; exact I.prev
      pos := by simp only [hnt, hcap]; exact I.pos
      mono := by simp only [hnt, hcap]; exact I.mono
      path := by simp only [hnt, hkey, hslot]; exact I.path
      memb := by simp only [In, hnt, hkey, hroom, hnum]; exact I.memb
      uniq := by simp only [hnt, hkey]; exact I.uniq
      val := fun h i u hh hk' => ?_
      numInj := by subst hs'; exact I.numInj
      numPos := by subst hs'; exact I.numPos
      exits := fun u h => by
        have he : s'.exited = s.exited := by subst hs'; rfl
        rw [he]
        rw [hpc] at h
        by_cases hu : u = t
        · subst hu; rw [upd_same] at h; exact h.elim
        · rw [upd_ne _ _ hu] at h; exact I.exits u h
      prodInj := by rw [hprod]; exact I.prodInj
      prodLt := by subst hs'; exact I.prodLt
      thr := fun u => ?_
      lock := fun u h => ?_
      lockUniq := fun u u' h h' => ?_
      chain := by subst hs'; exact I.chain
      plistLt := by subst hs'; exact I.plistLt
      plistNodup := by subst hs'; exact I.plistNodup
      listed := fun u q hq => ?_
      notListed := fun u q hq => ?_
      got := fun u q hq => ?_
      inact := by subst hs'; exact I.inact
      noDead := fun he h i hh hk' => by rw [hkey] at hk'; rw [hnt] at hh; exact I.noDead (by subst hs'; exact he) h i hh hk' }
    · rw [hnt] at hh
      rw [hkey] at hk'
      rw [hval, hprod, hpc]
      split
      · rename_i hc
        obtain ⟨rfl, rfl⟩ := hc
        rw [d] at hk'
        cases hk'
        exact .inl b.symm
      · rename_i hc
        rcases I.val h i u hh hk' with e | e
        · exact .inl e
        · by_cases hu : u = t
          · subst hu; rw [hp] at e; cases e; exact absurd ⟨rfl, rfl⟩ hc
          · right; rw [upd_ne _ _ hu]; exact e
    · by_cases hu : u = t
      · subst hu
        rw [hpc, upd_same]
        exact ⟨by rw [hprod]; exact b, c, m, by rw [hnt]; exact a, j, by rw [hkey]; exact d⟩
      · exact G.thr I hu (by rw [hpc, upd_ne _ _ hu])
    · subst hs'; exact I.lock u (by simp only [upd] at h; split at h; exact h.elim; exact h)
    · subst hs'; exact I.lockUniq u u' (by simp only [upd] at h; split at h; exact h.elim; exact h) (by simp only [upd] at h'; split at h'; exact h'.elim; exact h')
    · subst hs'; have := I.listed u q hq; simp only [upd]; split <;> simp_all [adds]
    · subst hs'; refine I.notListed u q ?_; simp only [upd] at hq; split at hq <;> simp_all [adds]
    · subst hs'; have := I.got u q hq; simp only [upd]; split <;> grind [adds]
  | @ret v hp =>
    rw [hp] at ht
    obtain ⟨a, b, h, hh, c⟩ := ht
    refine I.keep t .out rfl rfl rfl rfl rfl (fun _ _ => rfl) (fun _ _ => rfl) (fun _ _ _ _ => rfl) (fun _ _ => rfl) (List.suffix_refl _) id (by rw [hp]; rfl) (fun h => h.elim) (fun h => h.elim) id (.inl rfl) (.inl rfl)
      I.numInj I.numPos I.prodInj I.prodLt (.inr ⟨by rw [a]; exact b, h, hh, c⟩) I.chain I.plistLt I.plistNodup ?_ ?_ ?_ I.inact
    · intro u q hq; have := I.listed u q hq; simp only [upd]; split <;> simp_all [adds]
    · intro u q hq; refine I.notListed u q ?_; simp only [upd] at hq; split at hq <;> simp_all [adds]
    · intro u q hq
      by_cases hu : u = t
      · subst hu
        simp only [upd_same] at hq ⊢
        exact ⟨by rw [a]; exact hq, rfl⟩
      · simp only [upd_ne _ _ hu] at hq ⊢
        exact I.got u q hq
  | @exit hp hg =>
    rw [hp] at ht
    have hpr : s.prod t ≠ none := by
      cases hq : s.got t with
      | none => exact absurd hq hg
      | some q => rw [(I.got t q hq).1]; simp
    refine I.keep t .xLd rfl rfl rfl rfl rfl (fun _ _ => rfl) (fun _ _ => rfl) (fun _ _ _ _ => rfl) (fun _ _ => rfl) (List.suffix_refl _) (fun h => nomatch h) (by rw [hp]; rfl) (fun h => h.elim) (fun _ => rfl) (fun _ => rfl)
      (.inl rfl) (.inl rfl) (fun h => nomatch h) (fun h => nomatch h) I.prodInj I.prodLt hpr I.chain I.plistLt I.plistNodup ?_ ?_ ?_ I.inact
    · intro u q hq; have := I.listed u q hq; simp only [upd]; split <;> simp_all [adds]
    · intro u q hq; refine I.notListed u q ?_; simp only [upd] at hq; split at hq <;> simp_all [adds]
    · intro u q hq; have := I.got u q hq; simp only [upd]; split <;> grind [adds]
  | @xLd hp =>
    rw [hp] at ht
    have := I.ntab
    exact I.go' t _ ⟨by omega, ht, fun h' a b => by omega, fun _ h => absurd h (Nat.not_lt_zero _)⟩ (by rw [hp]; rfl) (by rw [hp]; rfl) (fun h => h.elim) (fun _ => by rw [hp]; trivial)
  | @xHit h k hp hk =>
    have hex : s.exited = true := I.exits t (by rw [hp]; trivial)
    rw [hp] at ht
    obtain ⟨a, b, d, e⟩ := ht
    have key : ∀ s' : State, s'.ntab = s.ntab → (∀ h' i, s'.key h' i = if h' = h ∧ i = s.slot hash t h k then .dead else s.key h' i) →
        ∀ h', h ≤ h' → h' < s'.ntab → ¬ In s' t h' := by
      rintro s' hnt hkey h' x y ⟨i, hi⟩
      rw [hkey] at hi
      split at hi
      · exact nomatch hi
      · rename_i hc
        rw [hnt] at y
        rcases Nat.lt_or_eq_of_le x with x | rfl
        · exact d h' x y ⟨i, hi⟩
        · exact hc ⟨rfl, I.uniq h i _ t a hi hk⟩
    rw [I.prev h a]
    refine I.setKey t _ h (s.slot hash t h k) .dead s.pend (by simp) (fun u hu h => by rw [hk] at h; cases h; exact hu rfl)
      (fun u hu => nomatch hu) (fun _ => hex) (by rw [hp]; rfl) (by split <;> exact id) (by split <;> rfl) (by rw [hp]; rfl) (fun _ => by rw [hp]; trivial) (fun s' hs' hkey _ => ?_)
    have h1 : s'.ntab = s.ntab := by subst hs'; rfl
    have h2 : s'.prod = s.prod := by subst hs'; rfl
    have h3 := key s' h1 hkey
    by_cases h0 : h = 0
    · subst h0
      exact ⟨by rw [h2]; exact b, fun h' hh => h3 h' (Nat.zero_le _) hh⟩
    · rw [if_neg h0]
      exact ⟨by omega, by rw [h2]; exact b, fun h' x y => h3 h' (by omega) y, fun _ h => absurd h (Nat.not_lt_zero _)⟩
  | @xMiss h k hp hk =>
    rw [hp] at ht
    obtain ⟨a, b, d, e⟩ := ht
    have hni := I.not_in a hk e
    have hd : ∀ h', h ≤ h' → h' < s.ntab → ¬ In s t h' := fun h' x y => by
      rcases Nat.lt_or_eq_of_le x with x | rfl
      · exact d h' x y
      · exact hni
    rw [I.prev h a]
    by_cases h0 : h = 0
    · subst h0
      rw [if_pos rfl]
      exact I.go' t _ ⟨b, fun h' hh => hd h' (Nat.zero_le _) hh⟩ (by rw [hp]; rfl) (by rw [hp]; rfl) (fun h => h.elim) (fun _ => by rw [hp]; trivial)
    · rw [if_neg h0]
      exact I.go' t _ ⟨by omega, b, fun h' x y => hd h' (by omega) y, fun _ h => absurd h (Nat.not_lt_zero _)⟩ (by rw [hp]; rfl) (by rw [hp]; rfl) (fun h => h.elim) (fun _ => by rw [hp]; trivial)
  | @xOther h k hp hk hu =>
    rw [hp] at ht
    obtain ⟨a, b, d, e⟩ := ht
    refine I.go' t _ ⟨a, b, d, fun k' hk' => ?_⟩ (by rw [hp]; rfl) (by rw [hp]; rfl) (fun h => h.elim) (fun _ => by rw [hp]; trivial)
    rcases Nat.lt_or_eq_of_le (Nat.le_of_lt_succ hk') with hk' | rfl
    · exact e k' hk'
    · exact ⟨hk, hu⟩
  | @xInact p hp hg =>
    have hex : s.exited = true := I.exits t (by rw [hp]; trivial)
    rw [hp] at ht
    obtain ⟨a, d⟩ := ht
    have hpl : p ∈ s.plist := by
      rcases I.listed t p hg with h | h
      · exact h
      · rw [hp] at h; exact nomatch h
    refine I.keep t .out rfl rfl rfl rfl rfl (fun u hu => upd_ne _ _ hu) (fun u hu => upd_ne _ _ hu) (fun _ _ _ _ => rfl) (fun _ _ => rfl) (List.suffix_refl _) id (by rw [hp]; rfl) (fun h => h.elim) (fun h => h.elim) id (.inr d) (.inr d)
      (fun h => by rw [hex] at h; exact nomatch h) (fun h => by rw [hex] at h; exact nomatch h) ?_ ?_ (.inl ⟨upd_same .., upd_same .., d⟩) I.chain I.plistLt I.plistNodup ?_ ?_ ?_ ?_
    · intro u u' n h h'
      have h3 := I.prodInj u u' n
      simp only [upd] at h h'
      grind
    · intro u n h
      have h1 := I.prodLt u n
      simp only [upd] at h
      grind
    · intro u q hq; have := I.listed u q; simp only [upd] at hq ⊢; split at hq <;> simp_all
    · intro u q hq; refine I.notListed u q ?_; simp only [upd] at hq; split at hq <;> simp_all [adds]
    · intro u q hq; have := I.got u q; simp only [upd] at hq ⊢; split at hq <;> simp_all
    · intro q hq
      by_cases he : q = p
      · subst he
        refine ⟨hpl, fun u => ?_⟩
        have := I.prodInj u t q
        simp only [upd]
        split
        · simp
        · exact fun h => by rename_i hu; exact hu (this h hg)
      · simp only [upd_ne _ _ he] at hq
        refine ⟨(I.inact q hq).1, fun u => ?_⟩
        have := (I.inact q hq).2 u
        simp only [upd]
        split
        · simp
        · exact this

theorem Reach.inv {C s} (hC : 0 < C) (h : Reach hash C s) : Inv hash s := by
  induction h with
  | init => exact Inv.init hC
  | step t _ hs ih => exact hs.inv ih

/-- As long as no thread exits, every table has a free entry. -/
theorem Inv.free {s} (I : Inv hash s) (hex : s.exited = false) {h} (hh : h < s.ntab) : ∃ j, j < s.cap h ∧ s.key h j = .empty := by
  refine Classical.byContradiction fun hno => ?_
  have hall : ∀ j, ∃ n, j < s.cap h → (∃ u, s.key h j = .of u ∧ s.num u = some n) ∧ n < s.room h ∧ 0 < n := by
    intro j
    by_cases hj : j < s.cap h
    · cases hk : s.key h j with
      | empty => exact absurd ⟨j, hj, hk⟩ hno
      | dead => exact absurd hk (I.noDead hex h j hh)
      | of u =>
        obtain ⟨n, hn, hr⟩ := I.memb h u hh ⟨j, hk⟩
        exact ⟨n, fun _ => ⟨⟨u, rfl, hn⟩, hr, (I.numPos hex u n hn).1⟩⟩
    · exact ⟨0, fun h => absurd h hj⟩
  obtain ⟨g, hg⟩ := Classical.axiomOfChoice hall
  have hinj : ((List.range (s.cap h)).map g).Nodup := by
    refine List.Nodup.map_on (fun i hi j hj he => ?_) List.nodup_range
    obtain ⟨⟨u, hu, hn⟩, _⟩ := hg i (List.mem_range.1 hi)
    obtain ⟨⟨u', hu', hn'⟩, _⟩ := hg j (List.mem_range.1 hj)
    rw [he] at hn
    have := I.numInj hex u u' _ hn hn'
    subst this
    exact I.uniq h i j u hh hu hu'
  have hsub : (List.range (s.cap h)).map g ⊆ (List.range (s.cap h)).tail := by
    intro n hn
    obtain ⟨j, hj, rfl⟩ := List.mem_map.1 hn
    obtain ⟨_, hr, hp⟩ := hg j (List.mem_range.1 hj)
    simp only [State.room] at hr
    rw [List.tail_range, List.mem_range']
    refine ⟨g j - 1, by omega, by omega⟩
  have := (hinj.subperm hsub).length_le
  have hpos := I.pos h hh
  simp only [List.length_map, List.length_range, List.length_tail] at this
  omega

end RG.PH
