import Verif.Model.Cuda
/- Invariants of Model/Cuda. -/
namespace RG.Cuda

variable {deps edges : Nat → List Nat} {H S : Nat} {s s' : State}

/-- the event that the task uses -/
def Pc.holds : Pc → Option Nat
  | .set _ _ e | .push _ _ e | .queued _ e => some e
  | _ => none

/-- the entry of the task in `events` -/
def Pc.entry : Pc → Option (Nat × Nat)
  | .queued k e | .post _ k e | .pop _ k e => some (k, e)
  | _ => none

def Pc.freed : Pc → Bool
  | .post .. | .pop .. | .done .. => true
  | _ => false

def Pc.notified : Pc → Nat
  | .pop .. | .done .. => 1
  | _ => 0

/-- Threads, locks, events. -/
structure Inv (H S : Nat) (s : State) : Prop where
  thr : ∀ t h, (s.pc t).thread = some h → h < H ∧ t ∈ s.stk h
  stk : ∀ h t, t ∈ s.stk h → (s.pc t).thread = some h
  nodup : ∀ h, (s.stk h).Nodup
  hold : ∀ t e, (s.pc t).holds = some e → e < s.fresh ∧ e ∉ s.free ∧ s.last e = some t
  free : ∀ e ∈ s.free, e < s.fresh ∧ ∀ p, s.last e = some p → s.recd p = true
  fnodup : s.free.Nodup
  lastlt : ∀ e p, s.last e = some p → e < s.fresh ∧ (s.pc p).returned = true
  ev : ∀ p e, s.ev p = some e → s.last e = some p ∨ s.recd p = true
  evpre : ∀ p, (s.pc p).pre = true → ∃ e, s.ev p = some e
  entry : ∀ k e t, (e, t) ∈ s.events k → (s.pc t).entry = some (k, e) ∧ ((s.pc t).freed = true → (s.events k).head? = some (e, t))
  queued : ∀ k e t, (s.pc t).entry = some (k, e) → (e, t) ∈ s.events k
  enodup : ∀ k, ((s.events k).map (·.2)).Nodup
  post : ∀ t, s.post t = (s.pc t).notified
  freed : ∀ t, (s.pc t).freed = true → s.recd t = true
  stream : ∀ t k, (s.pc t).stream = some k → k < S

/-- the task is at the same place for the invariant -/
def Same (a b : Pc) : Prop := a.thread = b.thread ∧ a.holds = b.holds ∧ a.pre = b.pre ∧ a.entry = b.entry ∧ a.freed = b.freed ∧ a.notified = b.notified ∧
  a.stream = b.stream ∧ a.returned = b.returned

theorem Inv.same (h : Inv H S s) {q : Nat → List Cmd} {pc : Nat → Pc} {c : Nat} {b : Nat → Bool} {x y z : Nat → Nat} (hp : ∀ t, Same (s.pc t) (pc t)) :
    Inv H S { s with pc := pc, q := q, clock := c, busy := b, sub := x, started := y, fin := z } := by
  obtain ⟨thr, stk, nodup, hold, free, fnodup, lastlt, ev, evpre, entry, queued, enodup, post, freed, stream⟩ := h
  constructor <;> dsimp only
  · intro t h ht; exact thr t h ((hp t).1.trans ht)
  · intro h t ht; exact (hp t).1.symm.trans (stk h t ht)
  · exact nodup
  · intro t e ht; exact hold t e ((hp t).2.1.trans ht)
  · exact free
  · exact fnodup
  · intro e p ht; exact ⟨(lastlt e p ht).1, (hp p).2.2.2.2.2.2.2.symm.trans (lastlt e p ht).2⟩
  · exact ev
  · intro p ht; exact evpre p ((hp p).2.2.1.trans ht)
  · intro k e t ht
    have := entry k e t ht
    exact ⟨(hp t).2.2.2.1.symm.trans this.1, fun h => this.2 ((hp t).2.2.2.2.1.trans h)⟩
  · intro k e t ht; exact queued k e t ((hp t).2.2.2.1.trans ht)
  · exact enodup
  · intro t; exact (post t).trans (hp t).2.2.2.2.2.1
  · intro t ht; exact freed t ((hp t).2.2.2.2.1.trans ht)
  · intro t k ht; exact stream t k ((hp t).2.2.2.2.2.2.1.trans ht)

theorem same_upd {pc : Nat → Pc} {t : Nat} {c : Pc} (h : Same (pc t) c) (u : Nat) : Same (pc u) (upd pc t c u) := by
  by_cases e : u = t
  · rw [e, upd_same]; exact h
  · rw [upd_ne _ _ e]; simp [Same]

theorem same_refl (a : Pc) : Same a a := by simp [Same]

set_option maxHeartbeats 2000000 in
theorem inv (h : Reach deps edges H S s) : Inv H S s := by
  induction h with
  | init => constructor <;> simp [init, Pc.thread, Pc.holds, Pc.pre, Pc.entry, Pc.freed, Pc.notified, Pc.stream]
  | @step s s' _ hs ih =>
    cases hs with
    | @lock h k t r ht hp ha | @wait h k t r p ps e ht hp he | @skip h k t r p ps ht hp he | @run h k t r ht hp =>
      exact ih.same (same_upd (by rw [hp]; simp [Same, Pc.thread, Pc.holds, Pc.pre, Pc.entry, Pc.freed, Pc.notified, Pc.stream, Pc.returned]))
    | @launch h k t r ht hp => exact ih.same fun _ => same_refl _
    | @start k n t l hq hb => exact ih.same fun _ => same_refl _
    | @finish k n t l hq hb => exact ih.same fun _ => same_refl _
    | @await k n r l hq hr => exact ih.same fun _ => same_refl _
    | @record k n t l hq =>
      obtain ⟨thr, stk, nodup, hold, free, fnodup, lastlt, ev, evpre, entry, queued, enodup, post, freed, stream⟩ := ih
      constructor <;> dsimp only <;> grind [upd]
    | @call h k t hh hk hn hd hc =>
      obtain ⟨thr, stk, nodup, hold, free, fnodup, lastlt, ev, evpre, entry, queued, enodup, post, freed, stream⟩ := ih
      constructor <;> dsimp only <;> grind [upd, Pc.thread, Pc.holds, Pc.pre, Pc.entry, Pc.freed, Pc.notified, Pc.stream, Pc.returned]
    | @reuse h k t r e f ht hp hf =>
      obtain ⟨thr, stk, nodup, hold, free, fnodup, lastlt, ev, evpre, entry, queued, enodup, post, freed, stream⟩ := ih
      have tm : t ∈ s.stk h := ht ▸ List.mem_cons_self
      have nd := ht ▸ nodup h
      constructor <;> dsimp only
      · clear hold free fnodup lastlt ev evpre entry queued enodup post freed stream; grind [upd, Pc.thread, Pc.holds, Pc.pre, Pc.entry, Pc.freed, Pc.notified, Pc.stream, Pc.returned]
      · clear hold free fnodup lastlt ev evpre entry queued enodup post freed stream; grind [upd, Pc.thread, Pc.holds, Pc.pre, Pc.entry, Pc.freed, Pc.notified, Pc.stream, Pc.returned]
      · clear hold free fnodup lastlt ev evpre entry queued enodup post freed stream; grind [upd, Pc.thread, Pc.holds, Pc.pre, Pc.entry, Pc.freed, Pc.notified, Pc.stream, Pc.returned]
      · clear thr stk nodup ev evpre entry queued enodup post freed stream; grind [upd, Pc.thread, Pc.holds, Pc.pre, Pc.entry, Pc.freed, Pc.notified, Pc.stream, Pc.returned]
      · clear thr stk nodup ev evpre entry queued enodup post freed stream; grind [upd, Pc.thread, Pc.holds, Pc.pre, Pc.entry, Pc.freed, Pc.notified, Pc.stream, Pc.returned]
      · clear thr stk nodup ev evpre entry queued enodup post freed stream; grind [upd, Pc.thread, Pc.holds, Pc.pre, Pc.entry, Pc.freed, Pc.notified, Pc.stream, Pc.returned]
      · intro e' p hl
        by_cases c : e' = e
        · rw [c, upd_same] at hl
          rw [← Option.some.inj hl, upd_same, c]
          exact ⟨(free e (hf ▸ List.mem_cons_self)).1, rfl⟩
        · rw [upd_ne _ _ c] at hl
          have hl := lastlt e' p hl
          refine ⟨hl.1, ?_⟩
          by_cases c : p = t
          · rw [c, upd_same]; rfl
          · rw [upd_ne _ _ c]; exact hl.2
      · clear thr stk nodup entry queued enodup post freed stream; grind [upd, Pc.thread, Pc.holds, Pc.pre, Pc.entry, Pc.freed, Pc.notified, Pc.stream, Pc.returned]
      · clear thr stk nodup entry queued enodup post freed stream; grind [upd, Pc.thread, Pc.holds, Pc.pre, Pc.entry, Pc.freed, Pc.notified, Pc.stream, Pc.returned]
      · intro k' e' u hu
        have hu := entry k' e' u hu
        by_cases c : u = t
        · subst c; rw [hp] at hu; cases hu.1
        · rw [upd_ne _ _ c]; exact hu
      · intro k' e' u hu
        by_cases c : u = t
        · subst c; rw [upd_same] at hu; cases hu
        · rw [upd_ne _ _ c] at hu; exact queued k' e' u hu
      · exact enodup
      · clear thr stk nodup ev evpre entry queued enodup hold free fnodup lastlt stream; grind [upd, Pc.thread, Pc.holds, Pc.pre, Pc.entry, Pc.freed, Pc.notified, Pc.stream, Pc.returned]
      · clear thr stk nodup ev evpre entry queued enodup hold free fnodup lastlt stream; grind [upd, Pc.thread, Pc.holds, Pc.pre, Pc.entry, Pc.freed, Pc.notified, Pc.stream, Pc.returned]
      · clear thr stk nodup ev evpre entry queued enodup hold free fnodup lastlt post freed; grind [upd, Pc.thread, Pc.holds, Pc.pre, Pc.entry, Pc.freed, Pc.notified, Pc.stream, Pc.returned]
    | @create h k t r ht hp hf =>
      obtain ⟨thr, stk, nodup, hold, free, fnodup, lastlt, ev, evpre, entry, queued, enodup, post, freed, stream⟩ := ih
      have tm : t ∈ s.stk h := ht ▸ List.mem_cons_self
      have nd := ht ▸ nodup h
      constructor <;> dsimp only
      · clear hold free fnodup lastlt ev evpre entry queued enodup post freed stream; grind [upd, Pc.thread, Pc.holds, Pc.pre, Pc.entry, Pc.freed, Pc.notified, Pc.stream, Pc.returned]
      · clear hold free fnodup lastlt ev evpre entry queued enodup post freed stream; grind [upd, Pc.thread, Pc.holds, Pc.pre, Pc.entry, Pc.freed, Pc.notified, Pc.stream, Pc.returned]
      · clear hold free fnodup lastlt ev evpre entry queued enodup post freed stream; grind [upd, Pc.thread, Pc.holds, Pc.pre, Pc.entry, Pc.freed, Pc.notified, Pc.stream, Pc.returned]
      · clear thr stk nodup ev evpre entry queued enodup post freed stream; grind [upd, Pc.thread, Pc.holds, Pc.pre, Pc.entry, Pc.freed, Pc.notified, Pc.stream, Pc.returned]
      · clear thr stk nodup ev evpre entry queued enodup post freed stream; grind [upd, Pc.thread, Pc.holds, Pc.pre, Pc.entry, Pc.freed, Pc.notified, Pc.stream, Pc.returned]
      · clear thr stk nodup ev evpre entry queued enodup post freed stream; grind [upd, Pc.thread, Pc.holds, Pc.pre, Pc.entry, Pc.freed, Pc.notified, Pc.stream, Pc.returned]
      · clear thr stk nodup ev evpre entry queued enodup post freed stream; grind [upd, Pc.thread, Pc.holds, Pc.pre, Pc.entry, Pc.freed, Pc.notified, Pc.stream, Pc.returned]
      · clear thr stk nodup entry queued enodup post freed stream; grind [upd, Pc.thread, Pc.holds, Pc.pre, Pc.entry, Pc.freed, Pc.notified, Pc.stream, Pc.returned]
      · clear thr stk nodup entry queued enodup post freed stream; grind [upd, Pc.thread, Pc.holds, Pc.pre, Pc.entry, Pc.freed, Pc.notified, Pc.stream, Pc.returned]
      · intro k' e' u hu
        have hu := entry k' e' u hu
        by_cases c : u = t
        · subst c; rw [hp] at hu; cases hu.1
        · rw [upd_ne _ _ c]; exact hu
      · intro k' e' u hu
        by_cases c : u = t
        · subst c; rw [upd_same] at hu; cases hu
        · rw [upd_ne _ _ c] at hu; exact queued k' e' u hu
      · exact enodup
      · clear thr stk nodup ev evpre entry queued enodup hold free fnodup lastlt stream; grind [upd, Pc.thread, Pc.holds, Pc.pre, Pc.entry, Pc.freed, Pc.notified, Pc.stream, Pc.returned]
      · clear thr stk nodup ev evpre entry queued enodup hold free fnodup lastlt stream; grind [upd, Pc.thread, Pc.holds, Pc.pre, Pc.entry, Pc.freed, Pc.notified, Pc.stream, Pc.returned]
      · clear thr stk nodup ev evpre entry queued enodup hold free fnodup lastlt post freed; grind [upd, Pc.thread, Pc.holds, Pc.pre, Pc.entry, Pc.freed, Pc.notified, Pc.stream, Pc.returned]
    | @set h k t r e ht hp =>
      obtain ⟨thr, stk, nodup, hold, free, fnodup, lastlt, ev, evpre, entry, queued, enodup, post, freed, stream⟩ := ih
      have tm : t ∈ s.stk h := ht ▸ List.mem_cons_self
      have nd := ht ▸ nodup h
      constructor <;> dsimp only
      · clear hold free fnodup lastlt ev evpre entry queued enodup post freed stream; grind [upd, Pc.thread, Pc.holds, Pc.pre, Pc.entry, Pc.freed, Pc.notified, Pc.stream, Pc.returned]
      · clear hold free fnodup lastlt ev evpre entry queued enodup post freed stream; grind [upd, Pc.thread, Pc.holds, Pc.pre, Pc.entry, Pc.freed, Pc.notified, Pc.stream, Pc.returned]
      · clear hold free fnodup lastlt ev evpre entry queued enodup post freed stream; grind [upd, Pc.thread, Pc.holds, Pc.pre, Pc.entry, Pc.freed, Pc.notified, Pc.stream, Pc.returned]
      · clear thr stk nodup ev evpre entry queued enodup post freed stream; grind [upd, Pc.thread, Pc.holds, Pc.pre, Pc.entry, Pc.freed, Pc.notified, Pc.stream, Pc.returned]
      · clear thr stk nodup ev evpre entry queued enodup post freed stream; grind [upd, Pc.thread, Pc.holds, Pc.pre, Pc.entry, Pc.freed, Pc.notified, Pc.stream, Pc.returned]
      · clear thr stk nodup ev evpre entry queued enodup post freed stream; grind [upd, Pc.thread, Pc.holds, Pc.pre, Pc.entry, Pc.freed, Pc.notified, Pc.stream, Pc.returned]
      · clear thr stk nodup ev evpre entry queued enodup post freed stream; grind [upd, Pc.thread, Pc.holds, Pc.pre, Pc.entry, Pc.freed, Pc.notified, Pc.stream, Pc.returned]
      · clear thr stk nodup entry queued enodup post freed stream; grind [upd, Pc.thread, Pc.holds, Pc.pre, Pc.entry, Pc.freed, Pc.notified, Pc.stream, Pc.returned]
      · intro p hp'
        by_cases c : p = t
        · exact ⟨e, by rw [c, upd_same]⟩
        · rw [upd_ne _ _ c] at hp' ⊢; exact evpre p hp'
      · intro k' e' u hu
        have hu := entry k' e' u hu
        by_cases c : u = t
        · subst c; rw [hp] at hu; cases hu.1
        · rw [upd_ne _ _ c]; exact hu
      · intro k' e' u hu
        by_cases c : u = t
        · subst c; rw [upd_same] at hu; cases hu
        · rw [upd_ne _ _ c] at hu; exact queued k' e' u hu
      · exact enodup
      · clear thr stk nodup ev evpre entry queued enodup hold free fnodup lastlt stream; grind [upd, Pc.thread, Pc.holds, Pc.pre, Pc.entry, Pc.freed, Pc.notified, Pc.stream, Pc.returned]
      · clear thr stk nodup ev evpre entry queued enodup hold free fnodup lastlt stream; grind [upd, Pc.thread, Pc.holds, Pc.pre, Pc.entry, Pc.freed, Pc.notified, Pc.stream, Pc.returned]
      · clear thr stk nodup ev evpre entry queued enodup hold free fnodup lastlt post freed; grind [upd, Pc.thread, Pc.holds, Pc.pre, Pc.entry, Pc.freed, Pc.notified, Pc.stream, Pc.returned]
    | @push h k t r e ht hp =>
      obtain ⟨thr, stk, nodup, hold, free, fnodup, lastlt, ev, evpre, entry, queued, enodup, post, freed, stream⟩ := ih
      have tm : t ∈ s.stk h := ht ▸ List.mem_cons_self
      have nd := ht ▸ nodup h
      have nt : ∀ e', (e', t) ∉ s.events k := by
        intro e' h
        have := (entry k e' t h).1
        rw [hp] at this; cases this
      constructor <;> dsimp only
      · clear hold free fnodup lastlt ev evpre entry queued enodup post freed stream; grind [upd, Pc.thread, Pc.holds, Pc.pre, Pc.entry, Pc.freed, Pc.notified, Pc.stream, Pc.returned]
      · clear hold free fnodup lastlt ev evpre entry queued enodup post freed stream; grind [upd, Pc.thread, Pc.holds, Pc.pre, Pc.entry, Pc.freed, Pc.notified, Pc.stream, Pc.returned]
      · clear hold free fnodup lastlt ev evpre entry queued enodup post freed stream; grind [upd, Pc.thread, Pc.holds, Pc.pre, Pc.entry, Pc.freed, Pc.notified, Pc.stream, Pc.returned]
      · clear thr stk nodup ev evpre entry queued enodup post freed stream; grind [upd, Pc.thread, Pc.holds, Pc.pre, Pc.entry, Pc.freed, Pc.notified, Pc.stream, Pc.returned]
      · clear thr stk nodup ev evpre entry queued enodup post freed stream; grind [upd, Pc.thread, Pc.holds, Pc.pre, Pc.entry, Pc.freed, Pc.notified, Pc.stream, Pc.returned]
      · clear thr stk nodup ev evpre entry queued enodup post freed stream; grind [upd, Pc.thread, Pc.holds, Pc.pre, Pc.entry, Pc.freed, Pc.notified, Pc.stream, Pc.returned]
      · clear thr stk nodup ev evpre entry queued enodup post freed stream; grind [upd, Pc.thread, Pc.holds, Pc.pre, Pc.entry, Pc.freed, Pc.notified, Pc.stream, Pc.returned]
      · clear thr stk nodup entry queued enodup post freed stream; grind [upd, Pc.thread, Pc.holds, Pc.pre, Pc.entry, Pc.freed, Pc.notified, Pc.stream, Pc.returned]
      · clear thr stk nodup entry queued enodup post freed stream; grind [upd, Pc.thread, Pc.holds, Pc.pre, Pc.entry, Pc.freed, Pc.notified, Pc.stream, Pc.returned]
      · intro k' e' u hu
        by_cases c : k' = k
        · rw [c, upd_same] at hu ⊢
          rcases List.mem_append.mp hu with hu | hu
          · have ne : u ≠ t := fun c => nt e' (c ▸ hu)
            have hu := entry k e' u hu
            rw [upd_ne _ _ ne]
            refine ⟨hu.1, fun h => ?_⟩
            rw [List.head?_append, hu.2 h]; rfl
          · simp only [List.mem_singleton, Prod.mk.injEq] at hu
            rw [hu.1, hu.2, upd_same]
            exact ⟨rfl, nofun⟩
        · rw [upd_ne _ _ c] at hu ⊢
          have hu := entry k' e' u hu
          by_cases c : u = t
          · subst c; rw [hp] at hu; cases hu.1
          · rw [upd_ne _ _ c]; exact hu
      · intro k' e' u hu
        by_cases c : u = t
        · subst c; rw [upd_same] at hu; cases hu; rw [upd_same]; simp
        · rw [upd_ne _ _ c] at hu
          have hu := queued k' e' u hu
          by_cases c : k' = k
          · rw [c, upd_same]; rw [c] at hu; exact List.mem_append_left _ hu
          · rw [upd_ne _ _ c]; exact hu
      · intro k'
        by_cases c : k' = k
        · rw [c, upd_same, List.map_append, List.nodup_append]
          refine ⟨enodup k, by simp, ?_⟩
          intro a ha b hb
          simp only [List.map_cons, List.map_nil, List.mem_singleton] at hb
          obtain ⟨⟨e', u⟩, h1, h2⟩ := List.mem_map.mp ha
          dsimp only at h2
          rw [hb]
          intro c
          exact nt e' (by rw [← c, ← h2]; exact h1)
        · rw [upd_ne _ _ c]; exact enodup k'
      · clear thr stk nodup ev evpre entry queued enodup hold free fnodup lastlt stream; grind [upd, Pc.thread, Pc.holds, Pc.pre, Pc.entry, Pc.freed, Pc.notified, Pc.stream, Pc.returned]
      · clear thr stk nodup ev evpre entry queued enodup hold free fnodup lastlt stream; grind [upd, Pc.thread, Pc.holds, Pc.pre, Pc.entry, Pc.freed, Pc.notified, Pc.stream, Pc.returned]
      · clear thr stk nodup ev evpre entry queued enodup hold free fnodup lastlt post freed; grind [upd, Pc.thread, Pc.holds, Pc.pre, Pc.entry, Pc.freed, Pc.notified, Pc.stream, Pc.returned]
    | @post h k t r e ht hp =>
      obtain ⟨thr, stk, nodup, hold, free, fnodup, lastlt, ev, evpre, entry, queued, enodup, post, freed, stream⟩ := ih
      have tm : t ∈ s.stk h := ht ▸ List.mem_cons_self
      have nd := ht ▸ nodup h
      constructor <;> dsimp only
      · clear hold free fnodup lastlt ev evpre entry queued enodup post freed stream; grind [upd, Pc.thread, Pc.holds, Pc.pre, Pc.entry, Pc.freed, Pc.notified, Pc.stream, Pc.returned]
      · clear hold free fnodup lastlt ev evpre entry queued enodup post freed stream; grind [upd, Pc.thread, Pc.holds, Pc.pre, Pc.entry, Pc.freed, Pc.notified, Pc.stream, Pc.returned]
      · clear hold free fnodup lastlt ev evpre entry queued enodup post freed stream; grind [upd, Pc.thread, Pc.holds, Pc.pre, Pc.entry, Pc.freed, Pc.notified, Pc.stream, Pc.returned]
      · clear thr stk nodup ev evpre entry queued enodup post freed stream; grind [upd, Pc.thread, Pc.holds, Pc.pre, Pc.entry, Pc.freed, Pc.notified, Pc.stream, Pc.returned]
      · clear thr stk nodup ev evpre entry queued enodup post freed stream; grind [upd, Pc.thread, Pc.holds, Pc.pre, Pc.entry, Pc.freed, Pc.notified, Pc.stream, Pc.returned]
      · clear thr stk nodup ev evpre entry queued enodup post freed stream; grind [upd, Pc.thread, Pc.holds, Pc.pre, Pc.entry, Pc.freed, Pc.notified, Pc.stream, Pc.returned]
      · clear thr stk nodup ev evpre entry queued enodup post freed stream; grind [upd, Pc.thread, Pc.holds, Pc.pre, Pc.entry, Pc.freed, Pc.notified, Pc.stream, Pc.returned]
      · clear thr stk nodup entry queued enodup post freed stream; grind [upd, Pc.thread, Pc.holds, Pc.pre, Pc.entry, Pc.freed, Pc.notified, Pc.stream, Pc.returned]
      · clear thr stk nodup entry queued enodup post freed stream; grind [upd, Pc.thread, Pc.holds, Pc.pre, Pc.entry, Pc.freed, Pc.notified, Pc.stream, Pc.returned]
      · intro k' e' u hu
        have hu := entry k' e' u hu
        by_cases c : u = t
        · subst c; rw [hp] at hu; rw [upd_same]; exact ⟨hu.1, fun _ => hu.2 rfl⟩
        · rw [upd_ne _ _ c]; exact hu
      · intro k' e' u hu
        by_cases c : u = t
        · subst c; rw [upd_same] at hu; exact queued k' e' u (by rw [hp]; exact hu)
        · rw [upd_ne _ _ c] at hu; exact queued k' e' u hu
      · exact enodup
      · clear thr stk nodup ev evpre entry queued enodup hold free fnodup lastlt stream; grind [upd, Pc.thread, Pc.holds, Pc.pre, Pc.entry, Pc.freed, Pc.notified, Pc.stream, Pc.returned]
      · clear thr stk nodup ev evpre entry queued enodup hold free fnodup lastlt stream; grind [upd, Pc.thread, Pc.holds, Pc.pre, Pc.entry, Pc.freed, Pc.notified, Pc.stream, Pc.returned]
      · clear thr stk nodup ev evpre entry queued enodup hold free fnodup lastlt post freed; grind [upd, Pc.thread, Pc.holds, Pc.pre, Pc.entry, Pc.freed, Pc.notified, Pc.stream, Pc.returned]
    | @pop h k t r e ht hp =>
      obtain ⟨thr, stk, nodup, hold, free, fnodup, lastlt, ev, evpre, entry, queued, enodup, post, freed, stream⟩ := ih
      have tm : t ∈ s.stk h := ht ▸ List.mem_cons_self
      have nd := ht ▸ nodup h
      have hd : (s.events k).head? = some (e, t) := (entry k e t (queued k e t (by rw [hp]; rfl))).2 (by rw [hp]; rfl)
      obtain ⟨l, hl⟩ : ∃ l, s.events k = (e, t) :: l := by
        cases hev : s.events k with
        | nil => rw [hev] at hd; cases hd
        | cons a l => rw [hev] at hd; exact ⟨l, by cases hd; rfl⟩
      have nt : ∀ e', (e', t) ∉ l := by
        intro e' h
        have := enodup k
        rw [hl] at this
        exact (List.nodup_cons.mp this).1 (List.mem_map.mpr ⟨_, h, rfl⟩)
      constructor <;> dsimp only
      · clear hold free fnodup lastlt ev evpre entry queued enodup post freed stream; grind [upd, Pc.thread, Pc.holds, Pc.pre, Pc.entry, Pc.freed, Pc.notified, Pc.stream, Pc.returned]
      · clear hold free fnodup lastlt ev evpre entry queued enodup post freed stream; grind [upd, Pc.thread, Pc.holds, Pc.pre, Pc.entry, Pc.freed, Pc.notified, Pc.stream, Pc.returned]
      · clear hold free fnodup lastlt ev evpre entry queued enodup post freed stream; grind [upd, Pc.thread, Pc.holds, Pc.pre, Pc.entry, Pc.freed, Pc.notified, Pc.stream, Pc.returned]
      · clear thr stk nodup ev evpre entry queued enodup post freed stream; grind [upd, Pc.thread, Pc.holds, Pc.pre, Pc.entry, Pc.freed, Pc.notified, Pc.stream, Pc.returned]
      · clear thr stk nodup ev evpre entry queued enodup post freed stream; grind [upd, Pc.thread, Pc.holds, Pc.pre, Pc.entry, Pc.freed, Pc.notified, Pc.stream, Pc.returned]
      · clear thr stk nodup ev evpre entry queued enodup post freed stream; grind [upd, Pc.thread, Pc.holds, Pc.pre, Pc.entry, Pc.freed, Pc.notified, Pc.stream, Pc.returned]
      · clear thr stk nodup ev evpre entry queued enodup post freed stream; grind [upd, Pc.thread, Pc.holds, Pc.pre, Pc.entry, Pc.freed, Pc.notified, Pc.stream, Pc.returned]
      · clear thr stk nodup entry queued enodup post freed stream; grind [upd, Pc.thread, Pc.holds, Pc.pre, Pc.entry, Pc.freed, Pc.notified, Pc.stream, Pc.returned]
      · clear thr stk nodup entry queued enodup post freed stream; grind [upd, Pc.thread, Pc.holds, Pc.pre, Pc.entry, Pc.freed, Pc.notified, Pc.stream, Pc.returned]
      · intro k' e' u hu
        by_cases c : k' = k
        · rw [c, upd_same, hl] at hu ⊢
          have ne : u ≠ t := fun c => nt e' (c ▸ hu)
          have hu := entry k e' u (by rw [hl]; exact List.mem_cons_of_mem _ hu)
          rw [upd_ne _ _ ne]
          refine ⟨hu.1, fun h => ?_⟩
          rw [hd] at hu
          have := hu.2 h
          simp only [Option.some.injEq, Prod.mk.injEq] at this
          exact absurd this.2.symm ne
        · rw [upd_ne _ _ c] at hu ⊢
          have hu := entry k' e' u hu
          by_cases c' : u = t
          · subst c'; rw [hp] at hu; exact absurd (Prod.mk.inj (Option.some.inj hu.1)).1.symm c
          · rw [upd_ne _ _ c']; exact hu
      · intro k' e' u hu
        by_cases c : u = t
        · subst c; rw [upd_same] at hu; cases hu
        · rw [upd_ne _ _ c] at hu
          have hu := queued k' e' u hu
          by_cases c' : k' = k
          · rw [c', upd_same, hl]
            rw [c', hl] at hu
            rcases List.mem_cons.mp hu with hu | hu
            · exact absurd (Prod.mk.inj hu).2 c
            · exact hu
          · rw [upd_ne _ _ c']; exact hu
      · intro k'
        by_cases c : k' = k
        · rw [c, upd_same, hl]
          have := enodup k
          rw [hl] at this
          exact (List.nodup_cons.mp this).2
        · rw [upd_ne _ _ c]; exact enodup k'
      · clear thr stk nodup ev evpre entry queued enodup hold free fnodup lastlt stream; grind [upd, Pc.thread, Pc.holds, Pc.pre, Pc.entry, Pc.freed, Pc.notified, Pc.stream, Pc.returned]
      · clear thr stk nodup ev evpre entry queued enodup hold free fnodup lastlt stream; grind [upd, Pc.thread, Pc.holds, Pc.pre, Pc.entry, Pc.freed, Pc.notified, Pc.stream, Pc.returned]
      · clear thr stk nodup ev evpre entry queued enodup hold free fnodup lastlt post freed; grind [upd, Pc.thread, Pc.holds, Pc.pre, Pc.entry, Pc.freed, Pc.notified, Pc.stream, Pc.returned]
    | @poll h k e t l hh ht ha he hq =>
      obtain ⟨thr, stk, nodup, hold, free, fnodup, lastlt, ev, evpre, entry, queued, enodup, post, freed, stream⟩ := ih
      have hp : s.pc t = .queued k e := by
        have h1 := entry k e t (he ▸ List.mem_cons_self)
        have h2 : ∀ u, (s.pc t).thread = some u → (s.pc t).locked ≠ some (u, k) := by
          intro u hu
          have := thr t u hu
          by_cases c : u = h
          · rw [c, ht] at this; cases this.2
          · exact ha u this.1 c t this.2
        cases hc : s.pc t with
        | queued k' e' => rw [hc] at h1; cases h1.1; rfl
        | post u k' e' => rw [hc] at h1 h2; cases h1.1; exact absurd rfl (h2 u rfl)
        | pop u k' e' => rw [hc] at h1 h2; cases h1.1; exact absurd rfl (h2 u rfl)
        | _ => rw [hc] at h1; cases h1.1
      have hd := hold t e (by rw [hp]; rfl)
      have hr := hq t hd.2.2
      constructor <;> dsimp only
      · clear hold free fnodup lastlt ev evpre entry queued enodup post freed stream; grind [upd, Pc.thread, Pc.holds, Pc.pre, Pc.entry, Pc.freed, Pc.notified, Pc.stream, Pc.returned]
      · clear hold free fnodup lastlt ev evpre entry queued enodup post freed stream; grind [upd, Pc.thread, Pc.holds, Pc.pre, Pc.entry, Pc.freed, Pc.notified, Pc.stream, Pc.returned]
      · clear hold free fnodup lastlt ev evpre entry queued enodup post freed stream; grind [upd, Pc.thread, Pc.holds, Pc.pre, Pc.entry, Pc.freed, Pc.notified, Pc.stream, Pc.returned]
      · intro u e' hu
        by_cases c : u = t
        · subst c; rw [upd_same] at hu; cases hu
        · rw [upd_ne _ _ c] at hu
          have hu := hold u e' hu
          refine ⟨hu.1, fun hm => ?_, hu.2.2⟩
          rcases List.mem_cons.mp hm with hm | hm
          · rw [hm, hd.2.2] at hu; exact c (Option.some.inj hu.2.2).symm
          · exact hu.2.1 hm
      · clear thr stk nodup ev evpre entry queued enodup post freed stream; grind [upd, Pc.thread, Pc.holds, Pc.pre, Pc.entry, Pc.freed, Pc.notified, Pc.stream, Pc.returned]
      · clear thr stk nodup ev evpre entry queued enodup post freed stream; grind [upd, Pc.thread, Pc.holds, Pc.pre, Pc.entry, Pc.freed, Pc.notified, Pc.stream, Pc.returned]
      · clear thr stk nodup ev evpre entry queued enodup post freed stream; grind [upd, Pc.thread, Pc.holds, Pc.pre, Pc.entry, Pc.freed, Pc.notified, Pc.stream, Pc.returned]
      · clear thr stk nodup entry queued enodup post freed stream; grind [upd, Pc.thread, Pc.holds, Pc.pre, Pc.entry, Pc.freed, Pc.notified, Pc.stream, Pc.returned]
      · clear thr stk nodup entry queued enodup post freed stream; grind [upd, Pc.thread, Pc.holds, Pc.pre, Pc.entry, Pc.freed, Pc.notified, Pc.stream, Pc.returned]
      · intro k' e' u hu
        have h2 := entry k' e' u hu
        by_cases c : u = t
        · subst c; rw [hp] at h2; cases h2.1; rw [upd_same, he]; exact ⟨rfl, fun _ => rfl⟩
        · rw [upd_ne _ _ c]; exact h2
      · intro k' e' u hu
        by_cases c : u = t
        · subst c; rw [upd_same] at hu; exact queued k' e' u (by rw [hp]; exact hu)
        · rw [upd_ne _ _ c] at hu; exact queued k' e' u hu
      · exact enodup
      · clear thr stk nodup ev evpre entry queued enodup hold free fnodup lastlt stream; grind [upd, Pc.thread, Pc.holds, Pc.pre, Pc.entry, Pc.freed, Pc.notified, Pc.stream, Pc.returned]
      · intro u hu
        by_cases c : u = t
        · rw [c]; exact hr
        · rw [upd_ne _ _ c] at hu; exact freed u hu
      · clear thr stk nodup ev evpre entry queued enodup hold free fnodup lastlt post freed; grind [upd, Pc.thread, Pc.holds, Pc.pre, Pc.entry, Pc.freed, Pc.notified, Pc.stream, Pc.returned]

/-- A mutex is held by one thread. -/
theorem excl (h : Reach deps edges H S s) : ∀ t u k x y, (s.pc t).locked = some (x, k) → (s.pc u).locked = some (y, k) → x = y := by
  induction h with
  | init => intro t u k x y h; cases h
  | @step s s' hr hs ih =>
    have I := inv hr
    have key : ∀ (t : Nat) (c : Pc), (∀ x k, c.locked = some (x, k) → (s.pc t).locked = some (x, k) ∨ Avail H s x k) →
        ∀ a b k x y, (upd s.pc t c a).locked = some (x, k) → (upd s.pc t c b).locked = some (y, k) → x = y := by
      intro t c hc
      have lt : ∀ a x k, (s.pc a).locked = some (x, k) → (s.pc a).thread = some x := by
        intro a x k h
        cases hp : s.pc a <;> rw [hp] at h <;> cases h <;> rfl
      have two : ∀ b k x y, c.locked = some (x, k) → (s.pc b).locked = some (y, k) → x = y := by
        intro b k x y h1 h2
        rcases hc x k h1 with h | h
        · exact ih _ _ _ _ _ h h2
        · refine Decidable.byContradiction fun hne => ?_
          have := I.thr b y (lt b y k h2)
          exact h y this.1 (fun e => hne e.symm) b this.2 h2
      intro a b k x y h1 h2
      by_cases ea : a = t <;> by_cases eb : b = t
      · rw [ea, upd_same] at h1; rw [eb, upd_same] at h2; rw [h1] at h2; cases h2; rfl
      · rw [ea, upd_same] at h1; rw [upd_ne _ _ eb] at h2; exact two b k x y h1 h2
      · rw [eb, upd_same] at h2; rw [upd_ne _ _ ea] at h1; exact (two a k y x h2 h1).symm
      · rw [upd_ne _ _ ea] at h1; rw [upd_ne _ _ eb] at h2; exact ih _ _ _ _ _ h1 h2
    cases hs with
    | call | push | pop => exact key _ _ (fun x k h => by cases h)
    | lock _ _ ha => exact key _ _ (fun x k h => by cases h; exact .inr ha)
    | poll _ _ ha => exact key _ _ (fun x k h => by cases h; exact .inr ha)
    | wait _ hp | skip _ hp | run _ hp | reuse _ hp | create _ hp | set _ hp | post _ hp => exact key _ _ (fun x k h => by cases h; rw [hp]; exact .inl rfl)
    | launch | start | finish | record | await => exact ih

/-- When no thread is in a call for stream `k`, the first entry of its queue belongs to a task that has not been notified. -/
theorem Inv.front (I : Inv H S s) {h k e t : Nat} {l : List (Nat × Nat)} (ht : s.stk h = []) (ha : Avail H s h k) (he : s.events k = (e, t) :: l) :
    s.pc t = .queued k e := by
  have h1 := I.entry k e t (he ▸ List.mem_cons_self)
  have h2 : ∀ u, (s.pc t).thread = some u → (s.pc t).locked ≠ some (u, k) := by
    intro u hu
    have := I.thr t u hu
    by_cases c : u = h
    · rw [c, ht] at this; cases this.2
    · exact ha u this.1 c t this.2
  cases hc : s.pc t with
  | queued k' e' => rw [hc] at h1; cases h1.1; rfl
  | post u k' e' => rw [hc] at h1 h2; cases h1.1; exact absurd rfl (h2 u rfl)
  | pop u k' e' => rw [hc] at h1 h2; cases h1.1; exact absurd rfl (h2 u rfl)
  | _ => rw [hc] at h1; cases h1.1

end RG.Cuda
