import Verif.Model.Weak
import Verif.Props.Waiting
/-
Invariants of Model/Weak.
-/
namespace RG

namespace Cxx

variable {cfg : Cfg} {s s' : State} {l : Lbl}

@[simp] theorem join_ts (v w : View) : (v.join w).ts = max v.ts w.ts := rfl

@[simp] theorem join_seen (v w : View) (k : Nat) : (v.join w).seen k ↔ v.seen k ∨ w.seen k := Iff.rfl

@[simp] theorem last_append (h : List Msg) (m : Msg) : (h ++ [m]).getLast? = some m := by simp

theorem get_append {h : List Msg} {m m' : Msg} {p : Nat} (hp : (h ++ [m])[p]? = some m') :
    (h[p]? = some m' ∧ p < h.length) ∨ (p = h.length ∧ m' = m) := by
  rcases Nat.lt_trichotomy p h.length with h1 | h1 | h1
  · rw [List.getElem?_append_left h1] at hp; exact .inl ⟨hp, h1⟩
  · subst h1; rw [List.getElem?_concat_length] at hp; exact .inr ⟨rfl, by cases hp; rfl⟩
  · rw [List.getElem?_eq_none (by simp; omega)] at hp; cases hp

theorem get_last {h : List Msg} {m : Msg} {p : Nat} (hp : h[p]? = some m) (hl : h.length ≤ p + 1) : h.getLast? = some m := by
  have := (List.getElem?_eq_some_iff.1 hp).1
  rw [List.getLast?_eq_getElem?]
  rw [show h.length - 1 = p by omega]
  exact hp

theorem get_lt {h : List Msg} {m : Msg} {p : Nat} (hp : h[p]? = some m) : p < h.length := (List.getElem?_eq_some_iff.1 hp).1

theorem last_get {h : List Msg} {m : Msg} (hp : h.getLast? = some m) : h[h.length - 1]? = some m ∧ 0 < h.length := by
  rw [List.getLast?_eq_getElem?] at hp
  exact ⟨hp, by have := get_lt hp; omega⟩

/-- the mutex and the bounds of the views -/
structure Base (s : State) : Prop where
  pos : ∀ (p : Nat) (m : Msg), s.hist[p]? = some m → m.view.ts = p
  wb : s.wview.ts < s.hist.length
  mb : s.mview.ts < s.hist.length
  nb : ∀ j, (s.nview j).ts < s.hist.length
  pushed : ∀ j k, s.ps j = .pushed k → (s.nview j).seen k
  item : ∀ j k, s.ns j = .cas → s.item j = some k → (s.nview j).seen k
  mutW : s.ws = .pred ∨ s.ws = .unlockM → s.mutex = some (.waiter 0)
  mutN : ∀ j, s.ns j = .notifyAll ∨ s.ns j = .unlockM → s.mutex = some (.notifier j)
  mvW : s.ws = .pred ∨ s.ws = .unlockM → s.mview.ts ≤ s.wview.ts
  mvN : ∀ j, s.ns j = .notifyAll ∨ s.ns j = .unlockM → s.mview.ts ≤ (s.nview j).ts
  plt : ∀ j k, s.ps j = .pushed k → k < s.given
  ilt : ∀ j k, s.item j = some k → k < s.given
  tlt : ∀ k, s.told k → k < s.given

theorem Base.init : Base (Cxx.init cfg) := by
  constructor <;> (try simp [Cxx.init, v0])
  · intro p m h
    have := get_lt h
    simp at this
    subst this
    simp at h
    subst h
    rfl
  · cases cfg.waitFirst <;> simp
  
theorem Loads.facts (hb : Base s) {v v' : View} {b : Bool} (h : Loads s v b v') :
    v.ts ≤ v'.ts ∧ v'.ts < s.hist.length ∧ (∀ k, v.seen k → v'.seen k) ∧
      ∃ m, s.hist[v'.ts]? = some m ∧ m.val = b ∧ ∀ k, m.view.seen k → v'.seen k := by
  obtain ⟨p, m, h1, h2, h3, rfl⟩ := h
  have := hb.pos p m h2
  have := get_lt h2
  have e : (View.join ⟨p, v.seen⟩ m.view).ts = p := by simp; omega
  refine ⟨by omega, by omega, fun k hk => .inl hk, m, by rw [e]; exact h2, h3, fun k hk => .inr hk⟩

theorem wakeUp_hold (w : Cv.WPc) : (Cv.wakeUp w = .pred ∨ Cv.wakeUp w = .unlockM) ↔ (w = .pred ∨ w = .unlockM) := by
  cases w <;> simp [Cv.wakeUp]

theorem Base.step (hb : Base s) (h : Step cfg l s s') : Base s' := by
  cases h with
  | again h hl | timeout h hl | leave h hl | check2T h hl | check2F h hl | predT h hl =>
    obtain ⟨h1, h2, h3, m, h4⟩ := hl.facts hb
    obtain ⟨pos, wb, mb, nb, pu, it, mW, mN, vW, vN, pl, il, tl⟩ := hb
    refine ⟨pos, h2, mb, nb, pu, it, ?_, mN, ?_, vN, pl, il, tl⟩ <;> grind
  | sleep h hl =>
    obtain ⟨h1, h2, h3, m, h4⟩ := hl.facts hb
    obtain ⟨pos, wb, mb, nb, pu, it, mW, mN, vW, vN, pl, il, tl⟩ := hb
    refine ⟨pos, h2, h2, nb, pu, it, ?_, ?_, ?_, ?_, pl, il, tl⟩ <;> grind
  | take h hk | none h hq hs | spurious h | thief hk =>
    obtain ⟨pos, wb, mb, nb, pu, it, mW, mN, vW, vN, pl, il, tl⟩ := hb
    constructor <;> grind
  | lockM h hm | relock h hm | learnMain =>
    obtain ⟨pos, wb, mb, nb, pu, it, mW, mN, vW, vN, pl, il, tl⟩ := hb
    constructor <;> grind [join_ts]
  | unlockM h =>
    obtain ⟨pos, wb, mb, nb, pu, it, mW, mN, vW, vN, pl, il, tl⟩ := hb
    constructor <;> grind
  | notifyAll h =>
    obtain ⟨pos, wb, mb, nb, pu, it, mW, mN, vW, vN, pl, il, tl⟩ := hb
    constructor <;> grind [upd, wakeUp_hold]
  | push h hn | wake h hn | noise h hn | nUnlockM h =>
    obtain ⟨pos, wb, mb, nb, pu, it, mW, mN, vW, vN, pl, il, tl⟩ := hb
    constructor <;> grind [upd]
  | nLockM h hm | learn | learnOther =>
    obtain ⟨pos, wb, mb, nb, pu, it, mW, mN, vW, vN, pl, il, tl⟩ := hb
    constructor <;> grind [upd, join_ts, join_seen]
  | casFail h hx hp hm hv =>
    have := get_lt hm
    obtain ⟨pos, wb, mb, nb, pu, it, mW, mN, vW, vN, pl, il, tl⟩ := hb
    constructor <;> grind [upd]
  | store h hx | storeX h hx hm =>
    obtain ⟨pos, wb, mb, nb, pu, it, mW, mN, vW, vN, pl, il, tl⟩ := hb
    refine ⟨?_, ?_, ?_, ?_, ?_, ?_, ?_, ?_, ?_, ?_, ?_, ?_, ?_⟩
    · intro p m hp
      rcases get_append hp with ⟨h1, _⟩ | ⟨h1, h2⟩
      · exact pos p m h1
      · subst h1 h2; rfl
    all_goals grind
  | casOk h hx hm hv | xchg h hx hm =>
    obtain ⟨pos, wb, mb, nb, pu, it, mW, mN, vW, vN, pl, il, tl⟩ := hb
    refine ⟨?_, ?_, ?_, ?_, ?_, ?_, ?_, ?_, ?_, ?_, ?_, ?_, ?_⟩
    · intro p m hp
      rcases get_append hp with ⟨h1, _⟩ | ⟨h1, h2⟩
      · exact pos p m h1
      · subst h1 h2; rfl
    all_goals grind [upd]

theorem Reach.base (h : Reach cfg s) : Base s := by
  induction h with
  | init => exact .init
  | step _ hs ih => exact ih.step hs

/-- the thread reads `true` -/
theorem Loads.true_not_last (hb : Base s) {v v' : View} {b : Bool} (h : Loads s v b v') {m : Msg}
    (hm : s.last = some m) (hv : s.hist.length ≤ v.ts + 1) : m.val = b := by
  obtain ⟨h1, h2, _, m', h3, h4, _⟩ := h.facts hb
  have := get_last h3 (by omega)
  unfold State.last at hm
  rw [hm] at this
  cases this
  exact h4

/-- A notification that is written down reaches the thread. -/
structure Wake (s : State) : Prop where
  /-- who knows about it -/
  know : ∀ m, s.last = some m → m.val = false →
    (∃ j, (s.ns j = .lockM ∨ s.ns j = .notifyAll ∨ s.ns j = .unlockM) ∧ s.hist.length ≤ (s.nview j).ts + 1) ∨
      s.hist.length ≤ s.mview.ts + 1 ∨ s.hist.length ≤ s.wview.ts + 1
  sleep : ∀ m, s.last = some m → m.val = false → s.ws = .asleep → ∃ j, s.ns j = .lockM ∨ s.ns j = .notifyAll

theorem Wake.init : Wake (Cxx.init cfg) := by
  constructor <;> intro m hm hv <;> simp [Cxx.init, State.last] at hm <;> subst hm <;> cases hv

theorem Wake.step (hw : Wake s) (hb : Base s) (h : Step cfg l s s') : Wake s' := by
  cases h with
  | again h hl | timeout h hl | leave h hl | check2T h hl | check2F h hl | predT h hl =>
    obtain ⟨h1, h2, h3, m, h4⟩ := hl.facts hb
    obtain ⟨kn, sl⟩ := hw
    refine ⟨?_, ?_⟩ <;> grind [State.last]
  | sleep h hl =>
    have hl' := hl
    obtain ⟨h1, h2, h3, m, h4⟩ := hl.facts hb
    have kn := hw.know
    have a1 := hb.mutN
    have a2 := hb.mutW (.inl h)
    have a3 := hb.mvW (.inl h)
    refine ⟨?_, ?_⟩
    · intro m' hm hv
      rcases kn m' hm hv with ⟨j, hj⟩ | hj | hj
      · exact .inl ⟨j, hj⟩
      · dsimp only; omega
      · dsimp only; omega
    · intro m' hm hv _
      rcases kn m' hm hv with ⟨j, hj, _⟩ | hj | hj
      · exact ⟨j, by grind⟩
      · have := hl'.true_not_last hb hm (by omega); grind
      · have := hl'.true_not_last hb hm (by omega); grind
  | take h hk | none h hq hs | spurious h | thief hk | unlockM h =>
    obtain ⟨pos, wb, mb, nb, pu, it, mW, mN, vW, vN, pl, il, tl⟩ := hb
    obtain ⟨kn, sl⟩ := hw
    constructor <;> grind [State.last]
  | lockM h hm | relock h hm | learnMain =>
    obtain ⟨kn, sl⟩ := hw
    constructor <;> grind [State.last, join_ts]
  | notifyAll h =>
    obtain ⟨kn, sl⟩ := hw
    constructor
    · grind [upd, State.last]
    · intro m hm hv ha
      cases hws : s.ws <;> simp [hws, Cv.wakeUp] at ha
  | push h hn | wake h hn | noise h hn =>
    obtain ⟨kn, sl⟩ := hw
    refine ⟨?_, ?_⟩
    · intro m hm hv
      rcases kn m hm hv with ⟨j', hj, h'⟩ | h' | h'
      · refine .inl ⟨j', ?_⟩; grind [upd]
      · exact .inr (.inl h')
      · exact .inr (.inr h')
    · intro m hm hv ha
      obtain ⟨j', hj⟩ := sl m hm hv ha
      refine ⟨j', ?_⟩; grind [upd]
  | @nUnlockM _ j h =>
    have a1 := hb.mvN j (.inr h)
    obtain ⟨kn, sl⟩ := hw
    refine ⟨?_, ?_⟩
    · intro m hm hv
      rcases kn m hm hv with ⟨j', hj, h'⟩ | h' | h'
      · by_cases e : j' = j
        · subst e; exact .inr (.inl h')
        · exact .inl ⟨j', by grind [upd]⟩
      · exact .inr (.inl (by dsimp only at h' ⊢; omega))
      · exact .inr (.inr h')
    · intro m hm hv ha
      obtain ⟨j', hj⟩ := sl m hm hv ha
      refine ⟨j', ?_⟩; grind [upd]
  | nLockM h hm | learn | learnOther =>
    obtain ⟨kn, sl⟩ := hw
    refine ⟨?_, ?_⟩
    · intro m hm hv
      rcases kn m hm hv with ⟨j', hj, h'⟩ | h' | h'
      · refine .inl ⟨j', ?_⟩; grind [upd, join_ts]
      · exact .inr (.inl h')
      · exact .inr (.inr h')
    · intro m hm hv ha
      obtain ⟨j', hj⟩ := sl m hm hv ha
      refine ⟨j', ?_⟩; grind [upd]
  | casFail h hx hp hm hv =>
    obtain ⟨kn, sl⟩ := hw
    refine ⟨?_, ?_⟩
    · intro m hm hv
      rcases kn m hm hv with ⟨j', hj, h'⟩ | h' | h'
      · refine .inl ⟨j', ?_⟩; grind [upd, join_ts]
      · exact .inr (.inl h')
      · exact .inr (.inr h')
    · intro m hm hv ha
      obtain ⟨j', hj⟩ := sl m hm hv ha
      refine ⟨j', ?_⟩; grind [upd]
  | store h hx | storeX h hx hm =>
    constructor <;> intro m hm hv <;> (unfold State.last at hm; simp at hm; subst hm; cases hv)
  | @casOk _ j m h hx hm hv | @xchg _ j m h hx hm =>
    refine ⟨?_, ?_⟩
    · intro m _ _
      exact .inl ⟨j, by simp, by simp⟩
    · intro m _ _ _
      exact ⟨j, by simp⟩

theorem Reach.wake (h : Reach cfg s) : Wake s := by
  induction h with
  | init => exact .init
  | step h hs ih => exact ih.step h.base hs

/-- Cases in which an item is found if `notify()` has returned `true` for it. -/
def Fits (cfg : Cfg) : Prop := cfg.xchgN = false ∨ cfg.xchgW = true ∨ cfg.strong = true

/-- What the thread knows about the items. -/
structure Items (cfg : Cfg) (s : State) : Prop where
  /-- a readable `false` is the last value -/
  fresh : cfg.xchgN = false → ∀ (p : Nat) (m : Msg), s.wview.ts ≤ p → s.hist[p]? = some m → m.val = false → p + 1 = s.hist.length
  store : cfg.xchgN = false → s.ws = .store → ∀ m, s.last = some m → m.val = false ∧ ∀ k, m.view.seen k → s.wview.seen k
  told : ∀ k, s.told k → s.q k →
    (∃ m, s.last = some m ∧ m.val = false ∧ (cfg.strong = false → m.view.seen k)) ∨
      (s.ws = .out ∧ (cfg.strong = false → s.wview.seen k))

theorem Items.init : Items cfg (Cxx.init cfg) := by
  refine ⟨?_, ?_, ?_⟩
  · intro _ p m hp hm hv
    have := get_lt hm
    simp [Cxx.init] at this
    subst this
    simp [Cxx.init] at hm
    subst hm; cases hv
  · intro _ h; unfold Cxx.init at h; dsimp only at h; cases hw : cfg.waitFirst <;> simp [hw] at h
  · intro k h; cases h

theorem Items.step (hf : Fits cfg) (hi : Items cfg s) (hb : Base s) (h : Step cfg l s s') : Items cfg s' := by
  cases h with
  | again h hl | timeout h hl | check2T h hl | check2F h hl | predT h hl | sleep h hl =>
    obtain ⟨h1, h2, h3, m, h4⟩ := hl.facts hb
    have tlt := hb.tlt
    obtain ⟨fr, st, tl⟩ := hi
    refine ⟨?_, ?_, ?_⟩
    · intro hx p m' hp; exact fr hx p m' (by dsimp only at hp; omega)
    · grind
    · grind [State.last]
  | leave h hl =>
    obtain ⟨h1, h2, h3, m, h4, h5, h6⟩ := hl.facts hb
    have tlt := hb.tlt
    obtain ⟨fr, st, tl⟩ := hi
    refine ⟨?_, ?_, ?_⟩
    · intro hx p m' hp; exact fr hx p m' (by dsimp only at hp; omega)
    · intro hx _ m' hm
      have := fr hx _ _ h1 h4 h5
      have := get_last h4 (by omega)
      unfold State.last at hm
      dsimp only at hm
      rw [hm] at this
      cases this
      exact ⟨h5, h6⟩
    · grind [State.last]
  | take h hk | none h hq hs | spurious h | thief hk | unlockM h =>
    have tlt := hb.tlt
    obtain ⟨fr, st, tl⟩ := hi
    constructor <;> grind [State.last]
  | lockM h hm | relock h hm | learnMain =>
    have tlt := hb.tlt
    obtain ⟨fr, st, tl⟩ := hi
    constructor <;> grind [State.last, join_ts, join_seen]
  | notifyAll h =>
    have tlt := hb.tlt
    obtain ⟨fr, st, tl⟩ := hi
    have e : ∀ w, w = .store ∨ w = .out → (Cv.wakeUp s.ws = w ↔ s.ws = w) := by
      intro w hw
      cases hws : s.ws <;> rcases hw with rfl | rfl <;> simp [Cv.wakeUp]
    have e1 := e _ (.inl rfl)
    have e2 := e _ (.inr rfl)
    constructor <;> grind [State.last]
  | push h hn =>
    have tlt := hb.tlt
    obtain ⟨fr, st, tl⟩ := hi
    refine ⟨fr, st, ?_⟩
    intro k hk hq
    rcases hq with hq | hq
    · exact tl k hk hq
    · have := tlt k hk; omega
  | wake h hn | noise h hn | nUnlockM h | nLockM h hm | learn | learnOther | casFail h hx hp hm hv =>
    obtain ⟨fr, st, tl⟩ := hi
    exact ⟨fr, st, tl⟩
  | store h hx =>
    obtain ⟨fr, st, tl⟩ := hi
    refine ⟨?_, fun _ h => (nomatch h), ?_⟩
    · intro _ p m hp hm hv
      have := get_lt hm
      simp at this hp ⊢
      omega
    · intro k hk hq
      refine .inr ⟨rfl, fun hs => ?_⟩
      rcases tl k hk hq with ⟨m, h1, h2, h3⟩ | ⟨h1, _⟩
      · have hn : cfg.xchgN = false := by
          rcases hf with hf | hf | hf
          · exact hf
          · rw [hf] at hx; cases hx
          · rw [hf] at hs; cases hs
        exact (st hn h m h1).2 k (h3 hs)
      · rw [h] at h1; cases h1
  | @storeX _ m h hx hm =>
    obtain ⟨fr, st, tl⟩ := hi
    refine ⟨?_, fun _ h => (nomatch h), ?_⟩
    · intro _ p m hp hm hv
      have := get_lt hm
      simp at this hp ⊢
      omega
    · intro k hk hq
      refine .inr ⟨rfl, fun hs => ?_⟩
      rcases tl k hk hq with ⟨m', h1, h2, h3⟩ | ⟨h1, _⟩
      · rw [hm] at h1; cases h1
        exact .inr (h3 hs)
      · rw [h] at h1; cases h1
  | @casOk _ j m h hx hm hv =>
    have it := hb.item
    obtain ⟨fr, st, tl⟩ := hi
    refine ⟨?_, ?_, ?_⟩
    · intro hx p m' hp hm' hv'
      rcases get_append hm' with ⟨h1, h2⟩ | ⟨h1, h2⟩
      · have := fr hx p m' hp h1 hv'
        have := get_last h1 (by omega)
        unfold State.last at hm
        rw [hm] at this; cases this
        rw [hv] at hv'; cases hv'
      · simp; omega
    · intro hx hs
      have := (st hx hs m hm).1
      rw [hv] at this; cases this
    · intro k hk hq
      rcases hk with hk | hk
      · rcases tl k hk hq with ⟨m', h1, h2, h3⟩ | h1
        · rw [hm] at h1; cases h1; rw [hv] at h2; cases h2
        · exact .inr h1
      · exact .inl ⟨_, last_append _ _, rfl, fun _ => .inl (it j k h hk)⟩
  | @xchg _ j m h hx hm =>
    have it := hb.item
    obtain ⟨fr, st, tl⟩ := hi
    refine ⟨fun hx' => (by rw [hx] at hx'; cases hx'), fun hx' => (by rw [hx] at hx'; cases hx'), ?_⟩
    intro k hk hq
    rcases hk with hk | hk
    · rcases tl k hk hq with ⟨m', h1, h2, h3⟩ | h1
      · rw [hm] at h1; cases h1
        exact .inl ⟨_, last_append _ _, rfl, fun hs => .inr (h3 hs)⟩
      · exact .inr h1
    · exact .inl ⟨_, last_append _ _, rfl, fun _ => .inl (it j k h hk)⟩

theorem Reach.items (hf : Fits cfg) (h : Reach cfg s) : Items cfg s := by
  induction h with
  | init => exact .init
  | step h hs ih => exact ih.step hf h.base hs

end Cxx

end RG
