import Verif.Model.ConcList
import Verif.Props.AtomicList
/-
Invariants of the chunked list used by several threads.
-/
set_option linter.unusedVariables false
namespace RG.CoL

open AL (own cur)

/-! ### Steps of the list of chunks -/

section
variable {t : Nat} {l a : AL.State}

theorem frame (h : AL.Step t l a) {u : Nat} (hu : u ≠ t) :
    a.pcs u = l.pcs u ∧ a.vis u = l.vis u ∧ a.start u = l.start u := by
  cases h <;> simp [upd, hu]

theorem moved (h : AL.Step t l a) (hm : a.pcs t ≠ l.pcs t) : a.deleted = l.deleted := by
  cases h <;> first | rfl | exact absurd rfl hm

/-- nothing is appended -/
def Same (l a : AL.State) : Prop := a.head = l.head ∧ a.rank = l.rank ∧ a.len = l.len

theorem eff_idle (h : AL.Step t l a) (hp : l.pcs t = .idle) :
    Same l a ∧ (∀ c, a.pcs t = .at c → a.vis t = [c]) ∧
    (a.pcs t = .atEnd → l.head = none ∧ a.vis t = [] ∧ a.start t = l.len) := by
  unfold Same
  cases h <;> simp_all [upd]

def isFirst : AL.Pc → Bool
  | .firstCas _ => true
  | _ => false

theorem eff_own (hi : AL.Inv l) (h : AL.Step t l a) {n : Nat} (hp : own (l.pcs t) = some n) :
    (Same l a ∧ own (a.pcs t) = some n ∧ isFirst (a.pcs t) = isFirst (l.pcs t)) ∨
    (Same l a ∧ isFirst (l.pcs t) = true ∧ a.pcs t = .idle) ∨
    (a.pcs t = .idle ∧ a.head = some n ∧ a.rank = upd l.rank n (some l.len) ∧ a.len = l.len + 1 ∧ l.rank n = none ∧
      (isFirst (l.pcs t) = true → l.head = none)) := by
  have := (hi.ownNew t n hp).1
  unfold Same
  cases h <;> simp_all [upd, own, isFirst]

theorem eff_cur (h : AL.Step t l a) {c : Nat} (hp : cur (l.pcs t) = some c) :
    Same l a ∧ a.start t = l.start t ∧
    ((cur (a.pcs t) = some c ∧ a.vis t = l.vis t ∧ (a.pcs t = .at c → l.pcs t = .at c)) ∨
     (∃ q, a.pcs t = .at q ∧ a.vis t = q :: l.vis t ∧ l.prev c = some q ∧ l.pcs t = .advance c) ∨
     (a.pcs t = .atEnd ∧ a.vis t = l.vis t ∧ l.pcs t = .advance c) ∨ (l.pcs t = .at c ∧ a.pcs t = .idle ∧ a.vis t = l.vis t)) := by
  unfold Same
  cases h <;> simp_all [upd, cur]

theorem eff_end (h : AL.Step t l a) (hp : l.pcs t = .atEnd) : Same l a ∧ a.start t = l.start t ∧ a.vis t = l.vis t := by
  unfold Same
  cases h <;> simp_all
end

variable {N : Nat} {s s' : State}

theorem Step.al {t : Nat} (h : Step N t s s') : s'.al = s.al ∨ AL.Step t s.al s'.al := by
  cases h <;> first | exact .inl rfl | (right; assumption) | skip
  rename_i h hr
  exact .inr (.erase hr)

/-- what a thread is doing with the list of chunks -/
def Inner : Pc → AL.Pc → Prop
  | .pFirst _, q => isFirst q = true
  | .pAlloc _ _, q => (∃ n, own q = some n) ∧ isFirst q = false
  | .iLast c, q | .iAt c _, q | .iCand c _, q | .iOn c _, q => q = .at c
  | .iHop c, q => cur q = some c ∧ q ≠ .at c
  | .iEnd, q => q = .atEnd ∨ ∃ c, q = .at c
  | _, q => q = .idle

theorem isFirst_iff {q : AL.Pc} (h : isFirst q = true) : ∃ n, own q = some n := by
  cases q <;> simp_all [isFirst, own]

structure InvA (s : State) : Prop where
  al : AL.Reach s.al
  inner : ∀ t, Inner (s.pcs t) (s.al.pcs t)

theorem invA (h : Reach N s) : InvA s := by
  induction h with
  | init => exact ⟨.init, fun t => rfl⟩
  | @step s s' t _ hs ih =>
    refine ⟨?_, ?_⟩
    · rcases hs.al with h | h
      · rw [h]; exact ih.al
      · exact ih.al.step h
    · intro u
      have hu := ih.inner u
      by_cases e : u = t
      · subst e
        cases hs with
        | first h ha hd =>
          rw [h] at hu
          obtain ⟨n, hn⟩ := isFirst_iff hu
          have := eff_own (AL.inv ih.al) ha hn
          simp only [upd_same]
          split
          · rename_i h; exact h
          · have hu' : isFirst (s.al.pcs u) = true := hu
            show isFirst _ = true
            grind
        | alloc h ha hd =>
          rw [h] at hu
          obtain ⟨⟨n, hn⟩, hf⟩ := hu
          have := eff_own (AL.inv ih.al) ha hn
          simp only [upd_same]
          split
          · rename_i h; exact h
          · show _ ∧ _
            grind
        | hop h ha hd =>
          rename_i c a
          rw [h] at hu
          have hu' : cur (s.al.pcs u) = some c ∧ s.al.pcs u ≠ .at c := hu
          have := eff_cur ha hu'.1
          simp only [upd_same]
          rcases this.2.2 with h | ⟨q, h, -⟩ | h | h
          · have h1 : a.pcs u ≠ .at c := by grind
            have h2 := h.1
            generalize a.pcs u = q at *
            cases q <;> simp_all [arrive, Inner, cur]
          · rw [h]; exact rfl
          · rw [h.1]; exact .inl rfl
          · exact absurd h.1 hu'.2
        | loadNull h hh ha hp => simp only [upd_same, Inner, hp, isFirst]
        | over h hn ha hp => simp [Inner, hp, isFirst, own]
        | begin h ha hp => simp only [upd_same, Inner, hp]
        | copy h hv ha hp => simp only [upd_same, Inner, hp]
        | beginNull h ha hp => simp only [upd_same, Inner, hp]; simp
        | jumpOut h ho ha hp => simp [Inner, hp, cur]
        | nextOut h ha hp => simp [Inner, hp, cur]
        | stop h ha hp => simp only [upd_same, Inner, hp]
        | free h =>
          rw [h] at hu
          simp only [upd_same]
          split <;> exact hu
        | jump h ho hp =>
          simp only [upd_same, Inner]
          generalize s.pcs u = q at *
          cases q <;> simp_all [pos, Inner]
        | lastNone h hn =>
          rw [h] at hu
          simp only [upd_same]
          exact .inr ⟨_, hu⟩
        | _ =>
          simp only [upd_same]
          simp_all only [Inner]
      · have hp : s'.pcs u = s.pcs u := by
          cases hs <;> simp [upd, e]
        rw [hp]
        rcases hs.al with h | h
        · rw [h]; exact hu
        · rw [(frame h e).1]; exact hu

/-- what a step does to the list of chunks -/
theorem alEff {t : Nat} (hA : InvA s) (hs : Step N t s s') :
    Same s.al s'.al ∨ (∃ n, s'.al.head = some n ∧ s'.al.rank = upd s.al.rank n (some s.al.len) ∧ s'.al.len = s.al.len + 1 ∧
      s.al.rank n = none ∧ s'.nxt = s.nxt ∧ s'.off = s.off ∧ s'.val = s.val ∧ s'.log = s.log ∧ s'.allocs = s.allocs ∧
      s'.removed = s.removed ∧ s'.fre = s.fre ∧ s'.hid = s.hid ∧ s'.freed = s.freed ∧ s'.snap = s.snap ∧
      s'.seen = s.seen ∧ s'.empt = s.empt ∧ s'.al.deleted = s.al.deleted ∧
      ∃ v, s'.pcs = upd s.pcs t (.pLoad v) ∧ ((s.pcs t = .pFirst v ∧ s.al.head = none) ∨ ∃ c, s.pcs t = .pAlloc v c)) := by
  have hu := hA.inner t
  cases hs with
  | first h ha hd =>
    rename_i v a
    rw [h] at hu
    obtain ⟨n, hn⟩ := isFirst_iff hu
    have hu' : isFirst (s.al.pcs t) = true := hu
    rcases eff_own (AL.inv hA.al) ha hn with h' | h' | ⟨h1, h2, h3, h4, h5, h6⟩
    · exact .inl h'.1
    · exact .inl h'.1
    · exact .inr ⟨n, h2, h3, h4, h5, rfl, rfl, rfl, rfl, rfl, rfl, rfl, rfl, rfl, rfl, rfl, rfl, moved ha hd, v, by simp [h1],
        .inl ⟨h, h6 hu'⟩⟩
  | alloc h ha hd =>
    rename_i v c a
    rw [h] at hu
    obtain ⟨⟨n, hn⟩, hf⟩ := hu
    rcases eff_own (AL.inv hA.al) ha hn with h' | h' | ⟨h1, h2, h3, h4, h5, h6⟩
    · exact .inl h'.1
    · exact .inl h'.1
    · exact .inr ⟨n, h2, h3, h4, h5, rfl, rfl, rfl, rfl, rfl, rfl, rfl, rfl, rfl, rfl, rfl, rfl, moved ha hd, v, by simp [h1],
        .inr ⟨c, h⟩⟩
  | loadNull h hh ha hp => rw [h] at hu; exact .inl (eff_idle ha hu).1
  | over h hn ha hp => rw [h] at hu; exact .inl (eff_idle ha hu).1
  | begin h ha hp => rw [h] at hu; exact .inl (eff_idle ha hu).1
  | copy h hv ha hp => rw [h] at hu; exact .inl (eff_idle ha hu).1
  | beginNull h ha hp => rw [h] at hu; exact .inl (eff_idle ha hu).1
  | jumpOut h ho ha hp =>
    rename_i c p a
    have : s.al.pcs t = .at c := by
      generalize s.pcs t = q at *
      cases q <;> simp_all [pos, Inner]
    exact .inl (eff_cur ha (c := c) (by rw [this]; rfl)).1
  | nextOut h ha hp => rw [h] at hu; exact .inl (eff_cur ha (by rw [hu]; rfl)).1
  | hop h ha hd => rw [h] at hu; exact .inl (eff_cur ha hu.1).1
  | stop h ha hp =>
    left
    have : s.al.pcs t = .atEnd ∨ ∃ c, s.al.pcs t = .at c := by
      generalize s.pcs t = q at *
      cases q <;> simp_all [on, Inner]
    rcases this with h | ⟨c, h⟩
    · exact (eff_end ha h).1
    · exact (eff_cur ha (c := c) (by rw [h]; rfl)).1
  | _ => exact .inl ⟨rfl, rfl, rfl⟩

/-- the chunk a push is at -/
def pushChunk : Pc → Option Nat
  | .pNext _ c | .pAdd _ c | .pAsg _ c _ | .pAlloc _ c => some c
  | _ => none

structure InvB (N : Nat) (s : State) : Prop where
  ranked : ∀ t c, pushChunk (s.pcs t) = some c → s.al.rank c ≠ none
  old : ∀ c, s.al.rank c ≠ none → s.al.head ≠ some c → N < s.nxt c
  alc : ∀ t v c, s.pcs t = .pAlloc v c → s.al.head = some c ∧ N < s.nxt c
  alcU : ∀ t u v w c, s.pcs t = .pAlloc v c → s.pcs u = .pAlloc w c → t = u
  ex : ∀ c, s.al.head = some c → N < s.nxt c → ∃ t v, s.pcs t = .pAlloc v c
  unranked : ∀ c, s.al.rank c = none → s.nxt c = 0
  allocs : ∀ c, s.allocs c = if N < s.nxt c then 1 else 0
  asg : ∀ t v c i, s.pcs t = .pAsg v c i → i < N ∧ i < s.nxt c ∧ s.val (c, i) = none
  asgU : ∀ t u v w c i, s.pcs t = .pAsg v c i → s.pcs u = .pAsg w c i → t = u
  valLt : ∀ c i, s.val (c, i) ≠ none → i < N ∧ i < s.nxt c
  log : ∀ x v, (x, v) ∈ s.log ↔ s.val x = some v
  nodup : (s.log.map Prod.fst).Nodup
  reserved : ∀ c i, i < s.nxt c → i < N → s.val (c, i) = none → ∃ t v, s.pcs t = .pAsg v c i

theorem pc_next {t v c : Nat} (h : s.pcs t = .pNext v c) : pushChunk (s.pcs t) = some c := by rw [h]; rfl
theorem pc_add {t v c : Nat} (h : s.pcs t = .pAdd v c) : pushChunk (s.pcs t) = some c := by rw [h]; rfl
theorem pc_asg {t v c i : Nat} (h : s.pcs t = .pAsg v c i) : pushChunk (s.pcs t) = some c := by rw [h]; rfl
theorem pc_alloc {t v c : Nat} (h : s.pcs t = .pAlloc v c) : pushChunk (s.pcs t) = some c := by rw [h]; rfl

theorem arrive_cases (c : Nat) (q : AL.Pc) :
    (arrive c q = .iHop c ∧ q ≠ .atEnd ∧ ∀ d, q ≠ .at d) ∨ (arrive c q = .iEnd ∧ q = .atEnd) ∨
      ∃ d, arrive c q = .iLast d ∧ q = .at d := by
  cases q <;> simp [arrive]

theorem pushChunk_arrive (c : Nat) (q : AL.Pc) : pushChunk (arrive c q) = none := by
  cases q <;> rfl

set_option maxHeartbeats 4000000 in
theorem invB (h : Reach N s) : InvB N s := by
  induction h with
  | init => constructor <;> simp [init, AL.init, pushChunk]
  | @step s s' t hr hs hi =>
    have hA := invA hr
    have hAL := AL.inv hA.al
    have hh1 : ∀ c, s.al.head = some c → s.al.rank c ≠ none := by
      intro c h; rw [hAL.headSome c h]; simp
    have hh2 : s.al.head = none → ∀ c, s.al.rank c = none := by
      intro h c
      cases hc : s.al.rank c with
      | none => rfl
      | some r => have := hAL.lt c r hc; have := hAL.headNone.1 h; omega
    rcases alEff hA hs with ⟨e1, e2, -⟩ | ⟨n, e1, e2, -, e3, e4, e5, e6, e7, e8, -, -, -, -, -, -, -, -, v, e9, e10⟩
    · obtain ⟨h1, h2, h3, h4, h5, h6, h7, h8, h9, h10, h11, h12, h13⟩ := hi
      constructor
      · rw [e2]
        clear h3 h4 h5 h6 h7 h8 h9 h10 h11 h12 h13 e1 hAL hA
        cases hs <;> grind [upd, pushChunk, pushChunk_arrive, pc_next, pc_add, pc_asg, pc_alloc]
      · rw [e2, e1]
        clear h3 h4 h5 h6 h7 h8 h9 h10 h11 h12 h13 hAL hA
        cases hs <;> grind [upd]
      · rw [e1]
        clear h4 h5 h6 h7 h8 h9 h10 h11 h12 h13 hAL hA
        cases hs <;> grind [upd, arrive_cases, pushChunk, pc_add]
      · clear h5 h6 h7 h8 h9 h10 h11 h12 h13 hAL hA
        cases hs <;> grind [upd, arrive_cases]
      · rw [e1]
        intro c hc hn
        have keep : ∀ u v, s.pcs u = .pAlloc v c → s'.pcs u = .pAlloc v c := by
          have hin := hA.inner
          have hlt := hAL.lt
          clear h1 h2 h4 h5 h6 h7 h8 h9 h10 h11 h12 h13
          cases hs with
          | alloc h ha hd =>
            rename_i v' c' a
            have hu := hin t
            rw [h] at hu
            obtain ⟨⟨n, hn⟩, hf⟩ := hu
            have : a.pcs t ≠ .idle := by
              rcases eff_own hAL ha hn with h' | h' | ⟨h1, h2, h3, h4, h5, h6⟩
              · intro h''; rw [h''] at h'; simp [own] at h'
              · rw [hf] at h'; simp at h'
              · have e2' : a.rank = s.al.rank := e2
                rw [e2'] at h3
                have := congrFun h3 n
                rw [h5] at this; simp at this
            grind [upd]
          | _ => grind [upd, pos, on, arrive_cases]
        have new : ¬ N < s.nxt c → ∃ v, s'.pcs t = .pAlloc v c := by
          clear h1 h2 h4 h6 h7 h8 h9 h10 h11 h12 h13 hAL hA keep
          cases hs with
          | over h hn' ha hp =>
            rename_i v c' _ _
            intro _
            have : c = c' := by grind [upd]
            subst this
            exact ⟨v, by simp⟩
          | _ => grind [upd]
        by_cases hn' : N < s.nxt c
        · obtain ⟨u, v, hu⟩ := h5 c hc hn'
          exact ⟨u, v, keep u v hu⟩
        · obtain ⟨v, hv⟩ := new hn'
          exact ⟨t, v, hv⟩
      · rw [e2]
        clear h2 h4 h7 h8 h9 h10 h11 h12 h13 hAL hA
        cases hs <;> grind [upd, pc_add]
      · clear h1 h2 h3 h4 h5 h6 h8 h9 h10 h11 h12 h13 hAL hA
        cases hs <;> grind [upd]
      · clear h1 h2 h3 h4 h5 h6 h7 h11 h12 h13 hAL hA
        cases hs <;> grind [upd, arrive_cases]
      · clear h1 h2 h3 h4 h5 h6 h7 h11 h12 h13 hAL hA
        cases hs <;> grind [upd, arrive_cases]
      · clear h1 h2 h3 h4 h5 h6 h7 h9 h11 h12 h13 hAL hA
        cases hs <;> grind [upd, arrive_cases]
      · clear h1 h2 h3 h4 h5 h6 h7 h9 h12 h13 hAL hA
        cases hs <;> grind [upd, arrive_cases]
      · clear h1 h2 h3 h4 h5 h6 h7 h9 h13 hAL hA
        cases hs with
        | assign h =>
          rename_i v c i
          simp only [List.map_cons, List.nodup_cons]
          refine ⟨?_, h12⟩
          intro hm
          obtain ⟨⟨x, w⟩, hm, e⟩ := List.mem_map.1 hm
          simp only at e
          subst e
          have := (h11 _ _).1 hm
          rw [(h8 t v c i h).2.2] at this
          cases this
        | _ => exact h12
      · intro c i h1' h2' h3'
        have keep : ∀ u v, s.pcs u = .pAsg v c i → s'.pcs u = .pAsg v c i := by
          clear h1 h2 h3 h4 h5 h6 h7 h11 h12 h13 hAL hA
          cases hs <;> grind [upd, pos, on]
        have new : ¬ (i < s.nxt c ∧ s.val (c, i) = none) → ∃ v, s'.pcs t = .pAsg v c i := by
          clear h1 h2 h4 h6 h7 h8 h9 h10 h11 h12 h13 hAL hA keep
          cases hs with
          | slot h hn' =>
            rename_i v c'
            intro _
            have : c = c' := by grind [upd]
            subst this
            have : i = s.nxt c := by grind [upd]
            subst this
            exact ⟨v, by simp⟩
          | _ => grind [upd]
        by_cases hn' : i < s.nxt c ∧ s.val (c, i) = none
        · obtain ⟨u, v, hu⟩ := h13 c i hn'.1 h2' hn'.2
          exact ⟨u, v, keep u v hu⟩
        · obtain ⟨v, hv⟩ := new hn'
          exact ⟨t, v, hv⟩
    · obtain ⟨h1, h2, h3, h4, h5, h6, h7, h8, h9, h10, h11, h12, h13⟩ := hi
      clear hs
      constructor
      · rw [e2, e9]; clear h2 h3 h4 h5 h6 h7 h8 h9 h10 h11 h12 h13; grind [upd, pushChunk]
      · rw [e2, e1, e4]; clear h4 h5 h6 h7 h8 h9 h10 h11 h12 h13; grind [upd]
      · rw [e1, e4, e9]; clear h5 h6 h7 h8 h9 h10 h11 h12 h13; grind [upd]
      · rw [e9]; clear h5 h6 h7 h8 h9 h10 h11 h12 h13; grind [upd]
      · rw [e1, e4, e9]; clear h5 h7 h8 h9 h10 h11 h12 h13
        intro c hc hn
        cases hc
        rw [h6 n e3] at hn
        omega
      · rw [e2, e4]; clear h5 h7 h8 h9 h10 h11 h12 h13; grind [upd]
      · rw [e8, e4]; exact h7
      · rw [e9, e4, e6]; clear h5 h7 h9 h10 h11 h12 h13; grind [upd]
      · rw [e9]; clear h5 h7 h10 h11 h12 h13; grind [upd]
      · rw [e6, e4]; exact h10
      · rw [e6, e7]; exact h11
      · rw [e7]; exact h12
      · rw [e4, e6, e9]
        intro c i h1' h2' h3'
        obtain ⟨u, w, hu⟩ := h13 c i h1' h2' h3'
        refine ⟨u, w, ?_⟩
        rw [upd_ne _ _ (by rintro rfl; rcases e10 with e | ⟨c, e⟩ <;> simp_all)]
        exact hu

end RG.CoL
