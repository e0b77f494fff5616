import Verif.Model.FreeList
/-
The invariant of the pool of blocks.
-/
namespace RG.FL

/-- following `freeListNext` from `freeListHead` visits the nodes of the list `l` and ends -/
def Chain (next : Nat → Option Nat) : Option Nat → List Nat → Prop
  | h, [] => h = none
  | h, n :: l => h = some n ∧ Chain next (next n) l

theorem Chain.set {next n v h l} (hc : Chain next h l) (hn : n ∉ l) : Chain (upd next n v) h l := by
  induction l generalizing h with
  | nil => exact hc
  | cons m l ih =>
    obtain ⟨h1, h2⟩ := hc
    simp only [List.mem_cons, not_or] at hn
    refine ⟨h1, ?_⟩
    rw [upd_ne _ _ (fun e => hn.1 e.symm)]
    exact ih h2 hn.2

/-- the node to which the thread has a reference -/
def ref : Pc → Option Nat
  | .gNext n => some n
  | .gCas n _ => some n
  | .gAss n => some n
  | .gSub n => some n
  | .gDec n _ => some n
  | _ => none

def below (P : Nat) (h : Option Nat) : Prop := ∀ n, h = some n → n < P

def belowK (P : Nat) (k : Option (Option Nat)) : Prop := ∀ h, k = some h → below P h

/-- what a thread knows -/
def TOk (P : Nat) (s : State) (c : Nat) : Pc → Prop
  | .gRefs n => n < P
  | .gInc n r => n < P ∧ r.cnt ≠ 0
  | .gNext n => n < P
  | .gCas n nx => n < P ∧ s.next n = nx
  | .gAss n => n < P ∧ s.st n = .taken c
  | .gSub n => n < P ∧ s.st n = .taken c
  | .gDec n h => n < P ∧ below P h
  | .aSet n => n < P ∧ s.st n = .given c
  | .kLoad n k => n < P ∧ s.st n = .ak c ∧ belowK P k
  | .kNext n h k => n < P ∧ s.st n = .ak c ∧ below P h ∧ belowK P k
  | .kRefs n h k => n < P ∧ s.st n = .ak c ∧ s.next n = h ∧ below P h ∧ belowK P k
  | .kCas n h k => n < P ∧ s.st n = .ak c ∧ s.next n = h ∧ below P h ∧ belowK P k
  | .kFail n h k => n < P ∧ s.st n = .ak c ∧ below P h ∧ belowK P k
  | .destroy n => P ≤ n ∧ s.st n = .given c
  | .ret n => s.st n = .taken c
  | .fault => False
  | _ => True

/-- the references of a node -/
def NOk (s : State) (n : Nat) : St → Prop
  | .unused => s.refs n = ⟨0, false⟩ ∧ s.rs n = []
  | .held => s.refs n = ⟨(s.rs n).length, false⟩
  | .given c => (s.pc c = .aSet n ∨ s.pc c = .destroy n) ∧ s.refs n = ⟨(s.rs n).length, false⟩
  | .taken c => (s.pc c = .ret n ∧ s.refs n = ⟨(s.rs n).length, false⟩) ∨
      ((s.pc c = .gAss n ∨ s.pc c = .gSub n) ∧ s.refs n = ⟨(s.rs n).length + 1, false⟩)
  | .listed => s.refs n = ⟨(s.rs n).length + 1, false⟩
  | .pending => s.refs n = ⟨(s.rs n).length, true⟩ ∧ s.rs n ≠ []
  | .ak c => (((∃ k, s.pc c = .kLoad n k) ∨ (∃ h k, s.pc c = .kNext n h k) ∨ ∃ h k, s.pc c = .kRefs n h k) ∧ s.refs n = ⟨0, true⟩ ∧ s.rs n = []) ∨
      (((∃ h k, s.pc c = .kCas n h k) ∨ ∃ h k, s.pc c = .kFail n h k) ∧ s.refs n = ⟨(s.rs n).length + 1, false⟩)

structure Inv (P : Nat) (s : State) : Prop where
  rs : ∀ n c, c ∈ s.rs n ↔ ref (s.pc c) = some n
  nodup : ∀ n, (s.rs n).Nodup
  thr : ∀ c, TOk P s c (s.pc c)
  node : ∀ n, NOk s n (s.st n)
  chain : Chain s.next s.head s.list
  mem : ∀ n, n ∈ s.list ↔ s.st n = .listed
  lnodup : s.list.Nodup
  small : ∀ n, P ≤ n → s.st n ≠ .listed ∧ s.st n ≠ .pending
  idx : ∀ n, n < P → (s.st n = .unused ↔ s.idx ≤ n)
  own : ∀ n, s.own n = true ↔ s.st n = .held
  alive : ∀ n, P ≤ n → (s.alive n = false ↔ s.st n = .unused)

theorem Inv.init (P : Nat) : Inv P init := by
  constructor <;> simp [FL.init, ref, TOk, NOk, Chain]

/-- thread `c` moves, and changes at most the node `n` -/
theorem frame {P : Nat} {s s' : State} (I : Inv P s) (c n : Nat)
    (hpc : ∀ d, d ≠ c → s'.pc d = s.pc d)
    (hnext : ∀ m, m ≠ n → s'.next m = s.next m)
    (hn : s'.next n = s.next n ∨ s.rs n = [])
    (hst : ∀ m, m ≠ n → s'.st m = s.st m)
    (hstn : s'.st n = s.st n ∨ ∀ d, d ≠ c → s.st n ≠ .taken d ∧ s.st n ≠ .given d ∧ s.st n ≠ .ak d)
    (hn' : s'.next n = s.next n ∨ ∀ d, d ≠ c → s.st n ≠ .ak d) :
    ∀ d, d ≠ c → TOk P s' d (s'.pc d) := by
  intro d hd
  rw [hpc d hd]
  have h1 := I.thr d
  have h2 := I.rs n d
  generalize s.pc d = p at *
  cases p <;> simp only [TOk, ref] at h1 h2 ⊢ <;> grind

theorem frameN {P : Nat} {s s' : State} (I : Inv P s) (c n : Nat)
    (hpc : ∀ d, d ≠ c → s'.pc d = s.pc d)
    (hc : ∀ m, m ≠ n → s.st m ≠ .taken c ∧ s.st m ≠ .given c ∧ s.st m ≠ .ak c)
    (hst : ∀ m, m ≠ n → s'.st m = s.st m)
    (hrefs : ∀ m, m ≠ n → s'.refs m = s.refs m)
    (hrs : ∀ m, m ≠ n → s'.rs m = s.rs m) :
    ∀ m, m ≠ n → NOk s' m (s'.st m) := by
  intro m hm
  have h1 := I.node m
  have h2 := hc m hm
  rw [hst m hm]
  cases h : s.st m <;> simp only [h, NOk, hrefs m hm, hrs m hm] at h1 h2 ⊢ <;> first | exact h1 | (rw [hpc]; exact h1; grind)

/-- the node a thread is moving -/
def about : Pc → Option Nat
  | .gAss n => some n
  | .gSub n => some n
  | .ret n => some n
  | .aSet n => some n
  | .destroy n => some n
  | .kLoad n _ => some n
  | .kNext n _ _ => some n
  | .kRefs n _ _ => some n
  | .kCas n _ _ => some n
  | .kFail n _ _ => some n
  | _ => none

theorem Inv.about {P s} (I : Inv P s) {c m} (h : s.st m = .taken c ∨ s.st m = .given c ∨ s.st m = .ak c) : about (s.pc c) = some m := by
  have := I.node m
  rcases h with h | h | h <;> rw [h] at this <;> simp only [NOk] at this <;> grind [FL.about]

/-- Thread `c` moves to `p`; only the node `n` changes. -/
theorem Inv.move {P : Nat} {s s' : State} (I : Inv P s) (c n : Nat) (p : Pc)
    (hpc : s'.pc = upd s.pc c p)
    (ha : ∀ m, FL.about (s.pc c) = some m → m = n)
    (hr : ∀ m, ref (s.pc c) = some m ∨ ref p = some m → m = n)
    (hnext : ∀ m, m ≠ n → s'.next m = s.next m)
    (hst : ∀ m, m ≠ n → s'.st m = s.st m)
    (hrefs : ∀ m, m ≠ n → s'.refs m = s.refs m)
    (hrs : ∀ m, m ≠ n → s'.rs m = s.rs m)
    (hown : ∀ m, m ≠ n → s'.own m = s.own m)
    (halive : ∀ m, m ≠ n → s'.alive m = s.alive m)
    (hn : s'.next n = s.next n ∨ s.rs n = [] ∧ ∀ d, d ≠ c → s.st n ≠ .ak d)
    (hstn : s'.st n = s.st n ∨ ∀ d, d ≠ c → s.st n ≠ .taken d ∧ s.st n ≠ .given d ∧ s.st n ≠ .ak d)
    (hT : TOk P s' c p)
    (hN : NOk s' n (s'.st n))
    (hrn : ∀ d, d ∈ s'.rs n ↔ if d = c then ref p = some n else d ∈ s.rs n)
    (hnd : (s'.rs n).Nodup)
    (hch : Chain s'.next s'.head s'.list)
    (hmem : ∀ m, m ∈ s'.list ↔ s'.st m = .listed)
    (hln : s'.list.Nodup)
    (hsm : P ≤ n → s'.st n ≠ .listed ∧ s'.st n ≠ .pending)
    (hidx : ∀ m, m < P → (s'.st m = .unused ↔ s'.idx ≤ m))
    (hon : s'.own n = true ↔ s'.st n = .held)
    (hal : P ≤ n → (s'.alive n = false ↔ s'.st n = .unused)) : Inv P s' where
  rs m d := by
    have h1 := I.rs m d
    have h2 := hr m
    rw [hpc]
    by_cases hm : m = n <;> by_cases hd : d = c <;> grind [upd]
  nodup m := by
    by_cases hm : m = n
    · rw [hm]; exact hnd
    · rw [hrs m hm]; exact I.nodup m
  thr d := by
    by_cases hd : d = c
    · rw [hd, hpc, upd_same]; exact hT
    · refine frame I c n (fun d hd => by rw [hpc, upd_ne _ _ hd]) hnext ?_ hst hstn ?_ d hd <;> grind
  node m := by
    by_cases hm : m = n
    · rw [hm]; exact hN
    · refine frameN I c n (fun d hd => by rw [hpc, upd_ne _ _ hd]) ?_ hst hrefs hrs m hm
      intro m hm
      refine ⟨fun h => hm (ha m (I.about (.inl h))), fun h => hm (ha m (I.about (.inr (.inl h)))), fun h => hm (ha m (I.about (.inr (.inr h))))⟩
  chain := hch
  mem := hmem
  lnodup := hln
  small m hP := by
    by_cases hm : m = n
    · rw [hm] at hP ⊢; exact hsm hP
    · rw [hst m hm]; exact I.small m hP
  idx := hidx
  own m := by
    by_cases hm : m = n
    · rw [hm]; exact hon
    · rw [hst m hm, hown m hm]; exact I.own m
  alive m hP := by
    by_cases hm : m = n
    · rw [hm] at hP ⊢; exact hal hP
    · rw [hst m hm, halive m hm]; exact I.alive m hP

/-- Thread `c` moves to `p`; nothing else changes. -/
theorem Inv.go {P : Nat} {s : State} (I : Inv P s) (c : Nat) (p : Pc)
    (ha : FL.about p = FL.about (s.pc c)) (hr : ref p = ref (s.pc c))
    (hT : TOk P { s with pc := upd s.pc c p } c p)
    (hN : ∀ n, FL.about (s.pc c) = some n → NOk { s with pc := upd s.pc c p } n (s.st n)) :
    Inv P { s with pc := upd s.pc c p } where
  rs m d := by have := I.rs m d; grind [upd]
  nodup := I.nodup
  thr d := by
    by_cases hd : d = c
    · subst hd; simp only [upd_same]; exact hT
    · exact frame (s' := { s with pc := upd s.pc c p }) I c 0 (fun d hd => upd_ne _ _ hd) (fun _ _ => rfl) (.inl rfl) (fun _ _ => rfl) (.inl rfl) (.inl rfl) d hd
  node m := by
    by_cases hm : FL.about (s.pc c) = some m
    · exact hN m hm
    · have hc : s.st m ≠ .taken c ∧ s.st m ≠ .given c ∧ s.st m ≠ .ak c :=
        ⟨fun h => hm (I.about (.inl h)), fun h => hm (I.about (.inr (.inl h))), fun h => hm (I.about (.inr (.inr h)))⟩
      have h1 := I.node m
      cases h : s.st m <;> simp only [h, NOk] at h1 hc ⊢ <;> first | exact h1 | (rw [upd_ne]; exact h1; grind)
  chain := I.chain
  mem := I.mem
  lnodup := I.lnodup
  small := I.small
  idx := I.idx
  own := I.own
  alive := I.alive

theorem Inv.head_below {P s} (I : Inv P s) : below P s.head := by
  intro n hn
  have h1 := I.chain
  cases hl : s.list with
  | nil => rw [hl, hn] at h1; exact nomatch h1
  | cons m l =>
    rw [hl, hn] at h1
    have h2 := (I.mem m).1 (by rw [hl]; exact List.mem_cons_self ..)
    have : n = m := Option.some.inj h1.1
    subst this
    exact Nat.lt_of_not_le fun h => (I.small n h).1 h2

theorem loop_ok {P s c h} (hb : below P h) : TOk P s c (loop h) := by
  cases h with
  | none => trivial
  | some n => exact hb n rfl

theorem cont_ok {P s c k} (hb : belowK P k) : TOk P s c (cont k) := by
  cases k with
  | none => trivial
  | some h => exact loop_ok (hb h rfl)

theorem ref_loop (h) : ref (loop h) = none := by cases h <;> rfl
theorem about_loop (h) : about (loop h) = none := by cases h <;> rfl
theorem ref_cont (k) : ref (cont k) = none := by cases k; rfl; exact ref_loop _
theorem about_cont (k) : about (cont k) = none := by cases k; rfl; exact about_loop _

/-- what does not change -/
macro "same" I:ident : tactic => `(tactic| try first
  | exact fun _ _ => rfl
  | exact fun _ hm => upd_ne _ _ hm
  | exact Or.inl rfl
  | exact fun _ _ => trivial
  | exact Or.inl trivial
  | (intro _ h; simp [FL.about, ref] at h; done)
  | exact ($I).chain
  | exact ($I).mem
  | exact ($I).lnodup
  | exact ($I).idx
  | exact ($I).small _
  | exact ($I).own _
  | exact ($I).alive _
  | exact ($I).nodup _)

theorem Step.inv {P c s s'} (I : Inv P s) (hs : Step P c s s') : Inv P s' := by
  have ht := I.thr c
  cases hs with
  | requisition h => exact I.go c _ (by rw [h]; rfl) (by rw [h]; rfl) trivial (by rw [h]; exact fun _ h => nomatch h)
  | ldIdx h =>
    refine I.go c _ ?_ ?_ ?_ (by rw [h]; exact fun _ h => nomatch h) <;> split <;> first | trivial | (rw [h]; rfl)
  | ldHead h =>
    exact I.go c _ (by rw [h, about_loop]; rfl) (by rw [h, ref_loop]; rfl) (loop_ok I.head_below) (by rw [h]; exact fun _ h => nomatch h)
  | @ldRefs n h =>
    rw [h] at ht
    refine I.go c _ ?_ ?_ ?_ (by rw [h]; exact fun _ h => nomatch h) <;> split <;> rename_i h0 <;> first | trivial | (rw [h]; rfl) | exact ⟨ht, h0⟩
  | casIncFail h _ => exact I.go c _ (by rw [h]; rfl) (by rw [h]; rfl) trivial (by rw [h]; exact fun _ h => nomatch h)
  | ldNext h =>
    rw [h] at ht
    exact I.go c _ (by rw [h]; rfl) (by rw [h]; rfl) ⟨ht, rfl⟩ (by rw [h]; exact fun _ h => nomatch h)
  | casHeadFail h _ =>
    rw [h] at ht
    exact I.go c _ (by rw [h]; rfl) (by rw [h]; rfl) ⟨ht.1, I.head_below⟩ (by rw [h]; exact fun _ h => nomatch h)
  | @assertion n h =>
    rw [h] at ht
    have hn := I.node n
    rw [ht.2] at hn
    rcases hn with ⟨hn, _⟩ | ⟨_, hn⟩
    · rw [h] at hn; exact nomatch hn
    rw [if_neg (by rw [hn]; simp)]
    refine I.go c _ (by rw [h]; rfl) (by rw [h]; rfl) ht ?_
    rw [h]
    intro m hm
    cases hm
    rw [ht.2]
    exact .inr ⟨.inr (upd_same ..), hn⟩
  | @kLoad n k h =>
    rw [h] at ht
    have hn := I.node n
    rw [ht.2.1] at hn
    refine I.go c _ (by rw [h]; rfl) (by rw [h]; rfl) ⟨ht.1, ht.2.1, I.head_below, ht.2.2⟩ ?_
    rw [h]
    intro m hm
    cases hm
    rw [ht.2.1]
    rcases hn with ⟨_, hn⟩ | ⟨hn, _⟩
    · exact .inl ⟨.inr (.inl ⟨_, _, upd_same ..⟩), hn⟩
    · rw [h] at hn; simp at hn
  | @kCasFail n hd k h hh =>
    rw [h] at ht
    have hn := I.node n
    rw [ht.2.1] at hn
    refine I.go c _ (by rw [h]; rfl) (by rw [h]; rfl) ⟨ht.1, ht.2.1, I.head_below, ht.2.2.2.2⟩ ?_
    rw [h]
    intro m hm
    cases hm
    rw [ht.2.1]
    rcases hn with ⟨hn, _⟩ | ⟨_, hn⟩
    · rw [h] at hn; simp at hn
    · exact .inr ⟨.inr ⟨_, _, upd_same ..⟩, hn⟩
  | incIdx h =>
    by_cases hi : s.idx < P
    · simp only [hi, if_true]
      have hu := (I.idx _ hi).2 (Nat.le_refl _)
      have hn := I.node s.idx
      rw [hu] at hn
      refine I.move c s.idx (.ret s.idx) rfl ?_ ?_ (fun _ _ => rfl) (fun m hm => upd_ne _ _ hm) (fun _ _ => rfl) (fun _ _ => rfl) (fun _ _ => rfl) (fun _ _ => rfl) (.inl rfl) ?_ ?_ ?_ ?_ (I.nodup _) I.chain ?_ I.lnodup ?_ ?_ ?_ ?_
      · rw [h]; exact fun _ h => nomatch h
      · rw [h]; rintro m (h | h) <;> exact nomatch h
      · right; rw [hu]; simp
      · exact upd_same ..
      · simp only [upd_same]; left; simp only [upd_same]; exact ⟨trivial, by rw [hn.1, hn.2]; rfl⟩
      · intro d; rw [hn.2]; simp [ref]
      · intro m; have := I.mem m; grind [upd]
      · omega
      · intro m hm; have := I.idx m hm; simp only [upd]; split <;> simp_all <;> omega
      · have := I.own s.idx; simp only [upd_same]; rw [this, hu]; simp
      · omega
    · simp only [hi, if_false]
      have J := I.go c .gLoad (by rw [h]; rfl) (by rw [h]; rfl) trivial (by rw [h]; exact fun _ h => nomatch h)
      exact { rs := J.rs, nodup := J.nodup, thr := J.thr, node := J.node, chain := J.chain, mem := J.mem, lnodup := J.lnodup, small := J.small, own := J.own, alive := J.alive,
              idx := fun m hm => by have := I.idx m hm; simp only [this]; omega }
  | @casInc n r h hr =>
    rw [h] at ht
    have hn := I.node n
    have hm := I.rs n c
    rw [h] at hm
    have hm : c ∉ s.rs n := fun x => nomatch hm.1 x
    apply I.move c n (.gNext n) rfl <;> (try simp only [h, upd_same]) <;> (same I)
    case hT => exact ht.1
    case hr => rintro m (h | h); exact nomatch h; exact (Option.some.inj h).symm
    case hN =>
      cases hst : s.st n <;> rw [hst] at hn <;> simp only [NOk, upd_same, List.length_cons] at hn ⊢
      · rw [← hr, hn.1] at ht; exact absurd rfl ht.2
      · rw [hn]
      · rename_i d
        have hd : d ≠ c := by rintro rfl; rw [h] at hn; simp at hn
        rw [upd_ne _ _ hd]
        rcases hn with ⟨h1, h2⟩ | ⟨h1, h2⟩
        · exact .inl ⟨h1, by rw [h2]⟩
        · exact .inr ⟨h1, by rw [h2]⟩
      · rename_i d
        have hd : d ≠ c := by rintro rfl; rw [h] at hn; simp at hn
        rw [upd_ne _ _ hd]
        exact ⟨hn.1, by rw [hn.2]⟩
      · rw [hn]
      · rw [hn.1]; exact ⟨rfl, List.cons_ne_nil _ _⟩
      · rename_i d
        have hd : d ≠ c := by rintro rfl; rw [h] at hn; simp at hn
        rw [upd_ne _ _ hd]
        rcases hn with ⟨h1, h2, h3⟩ | ⟨h1, h2⟩
        · rw [← hr, h2] at ht; exact absurd rfl ht.2
        · exact .inr ⟨h1, by rw [h2]⟩
    case hrn => intro d; by_cases hd : d = c <;> simp [hd, ref]
    case hnd => exact List.nodup_cons.2 ⟨hm, I.nodup n⟩
  | @casHead n nx h hh =>
    rw [h] at ht
    have hl := I.chain
    rw [hh] at hl
    cases hL : s.list with
    | nil => rw [hL] at hl; exact nomatch hl
    | cons m l =>
      rw [hL] at hl
      obtain ⟨h1, h2⟩ := hl
      cases h1
      have hst := (I.mem n).1 (by rw [hL]; exact List.mem_cons_self ..)
      have hn := I.node n
      rw [hst] at hn
      have hnd := I.lnodup
      rw [hL] at hnd
      have hnd := List.nodup_cons.1 hnd
      apply I.move c n (.gAss n) rfl <;> (try simp only [h, upd_same, List.tail_cons]) <;> (same I)
      case hr => rintro m (h | h) <;> exact (Option.some.inj h).symm
      case hT => exact ⟨ht.1, upd_same ..⟩
      case hstn => right; rw [hst]; simp
      case hN => exact .inr ⟨.inl (upd_same ..), hn⟩
      case hrn => intro d; have := I.rs n d; rw [this]; by_cases hd : d = c <;> simp [hd, h, ref]
      case hch => rw [← ht.2]; exact h2
      case hmem => intro m; have := I.mem m; rw [hL] at this; simp only [upd]; grind
      case hln => exact hnd.2
      case hidx => intro m hm; have := I.idx m hm; simp only [upd]; grind
      case hon => rw [I.own, hst]; simp
      case hal => intro hP; have := I.alive n hP; rw [hst] at this; simp_all
      case hsm => simp
  | @sub n h =>
    rw [h] at ht
    have hn := I.node n
    rw [ht.2] at hn
    have hm : c ∈ s.rs n := (I.rs n c).2 (by rw [h]; rfl)
    have hpos : 0 < (s.rs n).length := List.length_pos_of_mem hm
    rcases hn with ⟨hn, _⟩ | ⟨_, hn⟩
    · rw [h] at hn; exact nomatch hn
    simp only [show ¬ (s.refs n).cnt < 2 by rw [hn]; simp only; omega, if_false]
    apply I.move c n (.ret n) rfl <;> (try simp only [h, upd_same]) <;> (same I)
    case ha => intro m h; exact (Option.some.inj h).symm
    case hr => rintro m (h | h); exact (Option.some.inj h).symm; exact nomatch h
    case hT => exact ht.2
    case hN =>
      rw [ht.2]
      left
      simp only [upd_same]
      refine ⟨trivial, ?_⟩
      rw [hn, List.length_erase_of_mem hm]
      simp only [Refs.mk.injEq, and_true]
      omega
    case hrn => intro d; rw [(I.nodup n).mem_erase_iff]; by_cases hd : d = c <;> simp [hd, ref]
    case hnd => exact (I.nodup n).erase c
  | @dec n hd h =>
    rw [h] at ht
    have hn := I.node n
    have hm : c ∈ s.rs n := (I.rs n c).2 (by rw [h]; rfl)
    have hpos : 0 < (s.rs n).length := List.length_pos_of_mem hm
    have hlen := List.length_erase_of_mem hm
    by_cases h1 : s.refs n = ⟨1, true⟩
    · simp only [h1, if_true]
      have hst : s.st n = .pending ∧ s.rs n = [c] := by
        cases hst : s.st n <;> rw [hst] at hn <;> simp only [NOk, h1, Refs.mk.injEq] at hn <;> try grind
        refine ⟨rfl, ?_⟩
        match hs : s.rs n with
        | [] => rw [hs] at hpos; simp at hpos
        | [x] => rw [hs] at hm; simp at hm; rw [hm]
        | _ :: _ :: _ => rw [hs] at hn; simp at hn
      apply I.move c n (.kLoad n (some hd)) rfl <;> (try simp only [h, upd_same]) <;> (same I)
      case hr => rintro m (h | h); exact (Option.some.inj h).symm; exact nomatch h
      case hT => exact ⟨ht.1, upd_same .., fun x hx => by cases hx; exact ht.2⟩
      case hstn => right; rw [hst.1]; simp
      case hN =>
        left
        simp only [upd_same]
        exact ⟨.inl ⟨_, rfl⟩, trivial, by rw [hst.2]; simp⟩
      case hrn => intro d; rw [hst.2]; by_cases hd : d = c <;> simp [hd, ref]
      case hnd => exact (I.nodup n).erase c
      case hmem => intro m; have := I.mem m; simp only [upd]; grind
      case hidx => intro m hm; have := I.idx m hm; simp only [upd]; grind
      case hon => rw [I.own, hst.1]; simp
      case hsm => simp
      case hal => intro hP; have := I.alive n hP; rw [hst.1] at this; simp_all
    · simp only [h1, if_false]
      have hge : ¬ (s.refs n).cnt < 1 := by
        cases hst : s.st n <;> rw [hst] at hn <;> simp only [NOk] at hn <;> grind
      simp only [hge, if_false]
      apply I.move c n (loop hd) rfl <;> (try simp only [h, upd_same]) <;> (same I)
      case hr => rintro m (h | h); exact (Option.some.inj h).symm; rw [ref_loop] at h; exact nomatch h
      case hT => exact loop_ok ht.2
      case hN =>
        cases hst : s.st n <;> rw [hst] at hn <;> simp only [NOk, upd_same, hlen] at hn ⊢
        · rw [hn.2] at hpos; simp at hpos
        · rw [hn]
        · rename_i d
          have hd : d ≠ c := by rintro rfl; rw [h] at hn; simp at hn
          rw [upd_ne _ _ hd]
          rcases hn with ⟨h1, h2⟩ | ⟨h1, h2⟩
          · exact .inl ⟨h1, by rw [h2]⟩
          · exact .inr ⟨h1, by rw [h2]; simp only [Refs.mk.injEq, and_true]; omega⟩
        · rename_i d
          have hd : d ≠ c := by rintro rfl; rw [h] at hn; simp at hn
          rw [upd_ne _ _ hd]
          exact ⟨hn.1, by rw [hn.2]⟩
        · rw [hn]; simp only [Refs.mk.injEq, and_true]; omega
        · rw [hn.1] at h1 ⊢
          refine ⟨rfl, fun hx => ?_⟩
          rw [hx] at hlen
          simp only [List.length_nil] at hlen
          exact h1 (by simp only [Refs.mk.injEq, and_true]; omega)
        · rename_i d
          have hd : d ≠ c := by rintro rfl; rw [h] at hn; simp at hn
          rw [upd_ne _ _ hd]
          rcases hn with ⟨h1, h2, h3⟩ | ⟨h1, h2⟩
          · rw [h3] at hpos; simp at hpos
          · exact .inr ⟨h1, by rw [h2]; simp only [Refs.mk.injEq, and_true]; omega⟩
      case hrn => intro d; rw [(I.nodup n).mem_erase_iff, ref_loop]; by_cases hd : d = c <;> simp [hd]
      case hnd => exact (I.nodup n).erase c
  | alloc h n hP ha =>
    have hst := (I.alive n hP).1 ha
    have hn := I.node n
    rw [hst] at hn
    apply I.move c n (.ret n) rfl <;> (try simp only [h, upd_same]) <;> (same I)
    case hn => exact .inr ⟨hn.2, by rw [hst]; simp⟩
    case hstn => right; rw [hst]; simp
    case hT => exact upd_same ..
    case hN => left; simp only [upd_same]; exact ⟨trivial, by rw [hn.2]; rfl⟩
    case hrn => intro d; rw [hn.2]; simp [ref]
    case hch => exact I.chain.set (fun h => by rw [I.mem, hst] at h; exact nomatch h)
    case hmem => intro m; have := I.mem m; simp only [upd]; grind
    case hidx => intro m hm; have := I.idx m hm; rw [upd_ne _ _ (by omega)]; exact this
    case hon => rw [I.own, hst]; simp
    case hsm => simp
    case hal => simp
  | @ret n h =>
    rw [h] at ht
    have hst : s.st n = .taken c := ht
    have hn := I.node n
    rw [hst] at hn
    rcases hn with ⟨_, hn⟩ | ⟨hn, _⟩
    case inr => rw [h] at hn; simp at hn
    apply I.move c n .out rfl <;> (try simp only [h, upd_same]) <;> (same I)
    case ha => intro m h; exact (Option.some.inj h).symm
    case hstn => right; rw [hst]; grind
    case hT => trivial
    case hN => exact hn
    case hrn => intro d; have := I.rs n d; rw [this]; by_cases hd : d = c <;> simp [hd, h, ref]
    case hmem => intro m; have := I.mem m; simp only [upd]; grind
    case hidx => intro m hm; have := I.idx m hm; simp only [upd]; grind
    case hal => intro hP; have := I.alive n hP; rw [hst] at this; simp_all
    case hsm => simp
  | give h n ho =>
    have hst := (I.own n).1 ho
    have hn := I.node n
    rw [hst] at hn
    apply I.move c n (if P ≤ n then .destroy n else .aSet n) rfl <;> (try simp only [h, upd_same]) <;> (same I)
    case hr => rintro m (h | h); exact nomatch h; split at h <;> exact nomatch h
    case hstn => right; rw [hst]; simp
    case hT =>
      split
      · exact ⟨by assumption, upd_same ..⟩
      · exact ⟨by omega, upd_same ..⟩
    case hN =>
      simp only [NOk, upd_same]
      refine ⟨?_, hn⟩
      split
      · exact .inr rfl
      · exact .inl rfl
    case hrn =>
      intro d; have := I.rs n d; rw [this]; by_cases hd : d = c
      · simp only [hd, h, if_true]; split <;> simp [ref]
      · simp [hd]
    case hmem => intro m; have := I.mem m; simp only [upd]; grind
    case hidx => intro m hm; have := I.idx m hm; simp only [upd]; grind
    case hal => intro hP; have := I.alive n hP; rw [hst] at this; simp_all
    case hsm => simp
    case hon => simp
  | @destroy n h =>
    rw [h] at ht
    simp only [TOk] at ht
    have hn := I.node n
    rw [ht.2] at hn
    have hrs : s.rs n = [] := by
      cases hr : s.rs n with
      | nil => rfl
      | cons d l =>
        have h1 := (I.rs n d).1 (by rw [hr]; exact List.mem_cons_self ..)
        have h2 := I.thr d
        have h3 : P ≤ n := ht.1
        cases hd : s.pc d <;> rw [hd] at h1 h2 <;> simp only [ref, TOk, Option.some.injEq] at h1 h2 <;> grind
    apply I.move c n .out rfl <;> (try simp only [h, upd_same]) <;> (same I)
    case ha => intro m h; exact (Option.some.inj h).symm
    case hstn => right; rw [ht.2]; grind
    case hT => trivial
    case hN => exact ⟨by rw [hn.2, hrs]; rfl, hrs⟩
    case hrn => intro d; rw [hrs]; simp [ref]
    case hmem => intro m; have := I.mem m; simp only [upd]; grind
    case hidx => intro m hm; have := I.idx m hm; rw [upd_ne _ _ (by omega)]; exact this
    case hon => rw [I.own, ht.2]; simp
    case hsm => simp
    case hal => simp
  | @add n h =>
    rw [h] at ht
    simp only [TOk] at ht
    have hn := I.node n
    rw [ht.2] at hn
    have hn := hn.2
    simp only [hn, Bool.false_eq_true, if_false]
    apply I.move c n (if (s.rs n).length = 0 then .kLoad n none else .out) rfl <;> (try simp only [h, upd_same]) <;> (same I)
    case ha => intro m h; exact (Option.some.inj h).symm
    case hr => rintro m (h | h); exact nomatch h; split at h <;> exact nomatch h
    case hstn => right; rw [ht.2]; grind
    case hT =>
      split
      · exact ⟨ht.1, by simp only [upd_same], fun _ h => nomatch h⟩
      · trivial
    case hN =>
      split
      · rename_i h0
        left; simp only [upd_same]; exact ⟨.inl ⟨_, rfl⟩, by rw [h0], List.length_eq_zero_iff.1 h0⟩
      · rename_i h0
        exact ⟨by simp only [upd_same], fun h => h0 (by rw [h]; rfl)⟩
    case hrn =>
      intro d; have := I.rs n d; rw [this]; by_cases hd : d = c
      · simp only [hd, h, if_true]; split <;> simp [ref]
      · simp [hd]
    case hmem => intro m; have := I.mem m; simp only [upd]; grind
    case hidx => intro m hm; have := I.idx m hm; simp only [upd]; grind
    case hon => rw [I.own, ht.2]; split <;> simp
    case hsm => intro hP; omega
    case hal => intro hP; omega
  | @kNext n hd k h =>
    rw [h] at ht
    have hn := I.node n
    rw [ht.2.1] at hn
    rcases hn with ⟨_, hn⟩ | ⟨hn, _⟩
    case inr => rw [h] at hn; simp at hn
    apply I.move c n (.kRefs n hd k) rfl <;> (try simp only [h, upd_same]) <;> (same I)
    case ha => intro m h; exact (Option.some.inj h).symm
    case hn => exact .inr ⟨hn.2, by rw [ht.2.1]; grind⟩
    case hT => exact ⟨ht.1, ht.2.1, upd_same .., ht.2.2⟩
    case hN => rw [ht.2.1]; exact .inl ⟨.inr (.inr ⟨_, _, upd_same ..⟩), hn⟩
    case hrn => intro d; rw [hn.2]; simp [ref]
    case hch => exact I.chain.set (fun h => by rw [I.mem, ht.2.1] at h; exact nomatch h)
  | @kRefs n hd k h =>
    rw [h] at ht
    have hn := I.node n
    rw [ht.2.1] at hn
    rcases hn with ⟨_, hn⟩ | ⟨hn, _⟩
    case inr => rw [h] at hn; simp at hn
    apply I.move c n (.kCas n hd k) rfl <;> (try simp only [h]) <;> (same I)
    case ha => intro m h; exact (Option.some.inj h).symm
    case hT => exact ht
    case hN => rw [ht.2.1]; right; simp only [upd_same]; exact ⟨.inl ⟨_, _, rfl⟩, by rw [hn.2]; rfl⟩
    case hrn => intro d; rw [hn.2]; simp [ref]
  | @kCas n hd k h hh =>
    rw [h] at ht
    simp only [TOk] at ht
    have hn := I.node n
    rw [ht.2.1] at hn
    rcases hn with ⟨hn, _⟩ | ⟨_, hn⟩
    case inl => rw [h] at hn; simp at hn
    have hnl : n ∉ s.list := fun h => by rw [I.mem, ht.2.1] at h; exact nomatch h
    apply I.move c n (cont k) rfl <;> (try simp only [h, upd_same]) <;> (same I)
    case ha => intro m h; exact (Option.some.inj h).symm
    case hr => rintro m (h | h); exact nomatch h; rw [ref_cont] at h; exact nomatch h
    case hstn => right; rw [ht.2.1]; grind
    case hT => exact cont_ok ht.2.2.2.2
    case hN => exact hn
    case hrn => intro d; have := I.rs n d; rw [this, ref_cont]; by_cases hd : d = c <;> simp [hd, h, ref]
    case hch => exact ⟨rfl, by rw [ht.2.2.1, ← hh]; exact I.chain⟩
    case hmem => intro m; have := I.mem m; simp only [upd, List.mem_cons]; grind
    case hln => exact List.nodup_cons.2 ⟨hnl, I.lnodup⟩
    case hsm => intro hP; have := ht.1; omega
    case hidx => intro m hm; have := I.idx m hm; simp only [upd]; grind
    case hon => rw [I.own, ht.2.1]; simp
    case hal => intro hP; have := ht.1; omega
  | @kFail n hd k h =>
    rw [h] at ht
    simp only [TOk] at ht
    have hn := I.node n
    rw [ht.2.1] at hn
    rcases hn with ⟨hn, _⟩ | ⟨_, hn⟩
    case inl => rw [h] at hn; simp at hn
    simp only [hn, Bool.false_eq_true, or_false, Nat.add_one_ne_zero, if_false, Nat.add_eq_right, Nat.add_sub_cancel]
    by_cases h0 : (s.rs n).length = 0
    · simp only [h0, if_true]
      apply I.move c n (.kNext n hd k) rfl <;> (try simp only [h]) <;> (same I)
      case ha => intro m h; exact (Option.some.inj h).symm
      case hT => exact ht
      case hN => rw [ht.2.1]; left; simp only [upd_same]; exact ⟨.inr (.inl ⟨_, _, rfl⟩), trivial, List.length_eq_zero_iff.1 h0⟩
      case hrn => intro d; rw [List.length_eq_zero_iff.1 h0]; simp [ref]
    · simp only [h0, if_false]
      apply I.move c n (cont k) rfl <;> (try simp only [h, upd_same]) <;> (same I)
      case ha => intro m h; exact (Option.some.inj h).symm
      case hr => rintro m (h | h); exact nomatch h; rw [ref_cont] at h; exact nomatch h
      case hstn => right; rw [ht.2.1]; grind
      case hT => exact cont_ok ht.2.2.2
      case hN => exact ⟨by simp only [upd_same], fun h => h0 (by rw [h]; rfl)⟩
      case hrn => intro d; have := I.rs n d; rw [this, ref_cont]; by_cases hd : d = c <;> simp [hd, h, ref]
      case hmem => intro m; have := I.mem m; simp only [upd]; grind
      case hsm => intro hP; have := ht.1; omega
      case hidx => intro m hm; have := I.idx m hm; simp only [upd]; grind
      case hon => rw [I.own, ht.2.1]; simp
      case hal => intro hP; have := ht.1; omega

theorem Reach.inv {P s} (h : Reach P s) : Inv P s := by
  induction h with
  | init => exact Inv.init P
  | step c _ hs ih => exact hs.inv ih

end RG.FL
