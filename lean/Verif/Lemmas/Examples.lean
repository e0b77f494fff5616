import Verif.Model.Examples
import Verif.Lemmas.DynamicCount
/-
Lemmas for the programs of Model/Examples: what the compiler checks, and what loops compute.
-/
namespace RG.Dyn
open RG.Graph

/-! ### Bodies that only read and write -/

structure Leafy (c : GCode) (Γ : List GTy) : Prop where
  typed : ∀ k, c.Typed false Γ k
  joins : ∀ k, c.Joins Γ k fun _ => none
  noWait : c.NoWait
  atMost : c.AtMost 0

namespace Leafy
variable {Γ : List GTy}

theorem get {i : Nat} {pos : List Size} {k : Option Nat → GCode} {τ : GTy} (hi : Γ[i]? = some τ) (hf : τ.Fits pos)
    (h : ∀ v, Leafy (k v) Γ) : Leafy (.get i pos k) Γ where
  typed n := ⟨⟨τ, hi, hf⟩, fun v => (h v).typed n⟩
  joins n := ⟨(fun _ _ _ _ h => by cases h), fun v => (h v).joins n⟩
  noWait := fun v => (h v).noWait
  atMost := fun v => (h v).atMost

theorem put {i v : Nat} {pos : List Size} {k : Bool → GCode} {τ : GTy} (hi : Γ[i]? = some τ) (hf : τ.Fits pos)
    (hw : τ.w = true) (h : ∀ b, Leafy (k b) Γ) : Leafy (.put i pos v k) Γ where
  typed n := ⟨⟨τ, hi, hf, hw⟩, fun v => (h v).typed n⟩
  joins n := ⟨(fun _ _ _ _ h => by cases h), fun v => (h v).joins n⟩
  noWait := fun v => (h v).noWait
  atMost := fun v => (h v).atMost

theorem ret (v : Nat) : Leafy (.ret v) Γ where
  typed _ := trivial
  joins _ _ := rfl
  noWait := trivial
  atMost := trivial

theorem each {α : Type} {l : List α} {f : α → GCode → GCode} {k : GCode} (hk : Leafy k Γ)
    (hf : ∀ a ∈ l, ∀ k, Leafy k Γ → Leafy (f a k) Γ) : Leafy (Dyn.each l f k) Γ := by
  induction l with
  | nil => exact hk
  | cons a l ih => exact hf a (.head _) _ (ih fun b hb => hf b (.tail _ hb))

theorem reads {i : Nat} {l : List (List Size)} {k : List Nat → GCode} {τ : GTy} (hi : Γ[i]? = some τ)
    (hf : ∀ p ∈ l, τ.Fits p) (hk : ∀ vs, Leafy (k vs) Γ) : Leafy (Dyn.reads i l k) Γ := by
  induction l generalizing k with
  | nil => exact hk []
  | cons p l ih => exact .get hi (hf p (.head _)) fun v => ih (fun q hq => hf q (.tail _ hq)) fun vs => hk _

end Leafy

/-! ### Main programs -/

/-- The main program, at a place where it has not waited for its tasks; from here on it submits at most `n` tasks. -/
structure Busy (c : GCode) (Γ : List GTy) (k n : Nat) : Prop where
  typed : c.Typed false Γ k
  joins : ∀ o, c.Joins Γ k o
  flat : c.Flat
  atMost : c.AtMost n

/-- ... at a place where it has waited for all of its tasks. -/
structure Quiet (c : GCode) (Γ : List GTy) (k n : Nat) : Prop where
  typed : c.Typed false Γ k
  joins : c.Joins Γ k fun _ => none
  flat : c.Flat
  atMost : c.AtMost n

variable {Γ : List GTy} {k n : Nat}

theorem Busy.quiet {c : GCode} (h : Busy c Γ k n) : Quiet c Γ k n := ⟨h.typed, h.joins _, h.flat, h.atMost⟩

theorem Busy.all {c : GCode} (h : Quiet c Γ k n) : Busy (.all c) Γ k n := ⟨h.typed, fun _ => h.joins, h.flat, h.atMost⟩

theorem Busy.fut {j : Nat} {c : Nat → GCode} (hj : j < k) (h : ∀ v, Busy (c v) Γ k n) : Busy (.fut j c) Γ k n :=
  ⟨⟨hj, fun v => (h v).typed⟩, fun _ v => (h v).joins _, fun v => (h v).flat, fun v => (h v).atMost⟩

theorem Quiet.ret (v : Nat) : Quiet (.ret v) Γ k n := ⟨trivial, fun _ => rfl, trivial, trivial⟩

theorem Busy.abort : Busy Dyn.abort Γ k n := .all (.ret 0)

theorem Quiet.get {i : Nat} {pos : List Size} {c : Option Nat → GCode} {τ : GTy} (hi : Γ[i]? = some τ) (hf : τ.Fits pos)
    (h : ∀ v, Quiet (c v) Γ k n) : Quiet (.get i pos c) Γ k n where
  typed := ⟨⟨τ, hi, hf⟩, fun v => (h v).typed⟩
  joins := ⟨(fun _ _ _ _ h => by cases h), fun v => (h v).joins⟩
  flat := fun v => (h v).flat
  atMost := fun v => (h v).atMost

theorem Quiet.put {i v : Nat} {pos : List Size} {c : Bool → GCode} {τ : GTy} (hi : Γ[i]? = some τ) (hf : τ.Fits pos)
    (hw : τ.w = true) (h : ∀ v, Quiet (c v) Γ k n) : Quiet (.put i pos v c) Γ k n where
  typed := ⟨⟨τ, hi, hf, hw⟩, fun v => (h v).typed⟩
  joins := ⟨(fun _ _ _ _ h => by cases h), fun v => (h v).joins⟩
  flat := fun v => (h v).flat
  atMost := fun v => (h v).atMost

theorem Quiet.each {α : Type} {l : List α} {f : α → GCode → GCode} {c : GCode} (hk : Quiet c Γ k n)
    (hf : ∀ a ∈ l, ∀ c, Quiet c Γ k n → Quiet (f a c) Γ k n) : Quiet (Dyn.each l f c) Γ k n := by
  induction l with
  | nil => exact hk
  | cons a l ih => exact hf a (.head _) _ (ih fun b hb => hf b (.tail _ hb))

theorem Busy.narrow {i : Nat} {nr : Narrow} {c : GCode} {τ τ' : GTy} (hi : Γ[i]? = some τ)
    (hn : τ.narrow nr = some τ') (h : Busy c (Γ ++ [τ']) k n) : Busy (.narrow i nr c Dyn.abort) Γ k n where
  typed := ⟨⟨τ, τ', hi, hn, h.typed⟩, (Busy.abort (n := n)).typed⟩
  joins o := ⟨fun σ σ' h1 h2 => by
    rw [hi] at h1
    cases h1
    rw [hn] at h2
    cases h2
    exact h.joins o, (Busy.abort (n := n)).joins o⟩
  flat := ⟨h.flat, (Busy.abort (Γ := Γ) (k := k) (n := n)).flat⟩
  atMost := ⟨h.atMost, (Busy.abort (Γ := Γ) (k := k)).atMost⟩

theorem Busy.call {args : List Nat} {b c : GCode} {Δ : List GTy} (hi : args.map (Γ[·]?) = Δ.map some)
    (hd : (Δ.map GTy.res).Nodup) (hb : Leafy b Δ) (h : Busy c Γ (k + 1) n) :
    Busy (.call args none b c) Γ k (n + 1) := by
  have e : args.filterMap (Γ[·]?) = Δ := by
    have := congrArg (List.filterMap id) hi
    simpa [List.filterMap_map, Function.comp_def] using this
  have hl : ∀ i ∈ args, i < Γ.length := by
    intro i h1
    have h2 : Γ[i]? ∈ Δ.map some := hi ▸ List.mem_map_of_mem h1
    obtain ⟨τ, -, h3⟩ := List.mem_map.1 h2
    exact (List.getElem?_eq_some_iff.1 h3.symm).1
  exact
    { typed := ⟨by simpa using hl, .inr (by rw [e]; exact hd), by rw [e]; exact hb.typed 0, h.typed⟩
      joins := fun o => ⟨by rw [e]; exact hb.joins 0, h.joins _⟩
      flat := ⟨hb.noWait, h.flat⟩
      atMost := ⟨0, n, hb.atMost, h.atMost, by omega⟩ }

/-! ### What loops compute -/

theorem each_run {α : Type} {env : List AGuard} {rs : List Nat} {f : α → GCode → GCode} {g : Objs → α → Objs} {c : GCode}
    {l : List α} {m : Objs} {I : Objs → Prop} (hI : I m) (hg : ∀ a ∈ l, ∀ m, I m → I (g m a))
    (hf : ∀ a ∈ l, ∀ k m, I m → (f a k).run env rs m = k.run env rs (g m a)) :
    (each l f c).run env rs m = c.run env rs (l.foldl g m) ∧ I (l.foldl g m) := by
  induction l generalizing m with
  | nil => exact ⟨rfl, hI⟩
  | cons a l ih =>
    obtain ⟨h1, h2⟩ := ih (hg a (.head _) m hI) (fun b hb => hg b (.tail _ hb)) fun b hb => hf b (.tail _ hb)
    exact ⟨(hf a (.head _) _ m hI).trans h1, h2⟩

theorem each_run' {α : Type} {env : List AGuard} {rs : List Nat} {f : α → GCode → GCode} {g : Objs → α → Objs} {c : GCode}
    {l : List α} {m : Objs} (hf : ∀ a ∈ l, ∀ k m, (f a k).run env rs m = k.run env rs (g m a)) :
    (each l f c).run env rs m = c.run env rs (l.foldl g m) :=
  (each_run (I := fun _ => True) trivial (fun _ _ _ _ => trivial) fun a ha k m _ => hf a ha k m).1

theorem reads_run {env : List AGuard} {rs : List Nat} {i : Nat} {g : AGuard} {r : Res} {l : List (List Size)}
    {c : List Nat → GCode} {m : Objs} (hi : env[i]? = some g) (hg : ∀ p ∈ l, g.elem p = some (r, p)) :
    (reads i l c).run env rs m = (c (l.map (m r))).run env rs m := by
  induction l generalizing c with
  | nil => rfl
  | cons p l ih =>
    have := hg p (.head _)
    simp only [reads, GCode.run, hi, Option.bind_some, this]
    rw [ih fun q hq => hg q (.tail _ hq)]
    rfl

theorem set_same (m : Objs) (r : Res) (p : List Size) (v : Nat) : m.set (r, p) v r p = v := by simp [Objs.set]

theorem set_ne {m : Objs} {x : Res × List Size} {v : Nat} {r : Res} {p : List Size} (h : (r, p) ≠ x) :
    m.set x v r p = m r p := by simp [Objs.set, h]

/-- elements that are not written -/
theorem foldl_set_ne {α : Type} {l : List α} {p : α → Res × List Size} {f : Objs → α → Nat} {m : Objs} {r : Res}
    {q : List Size} (h : ∀ a ∈ l, p a ≠ (r, q)) : l.foldl (fun m a => m.set (p a) (f m a)) m r q = m r q := by
  induction l generalizing m with
  | nil => rfl
  | cons a l ih =>
    rw [List.foldl_cons, ih fun b hb => h b (.tail _ hb)]
    exact set_ne (Ne.symm (h a (.head _)))

/-- elements that are written, by values that do not depend on what is written -/
theorem foldl_set {α : Type} {l : List α} {p : α → Res × List Size} {f : Objs → α → Nat} {m : Objs} {a : α}
    (hf : ∀ b ∈ l, ∀ m v, ∀ c ∈ l, f (m.set (p b) v) c = f m c) (ha : a ∈ l)
    (hp : ∀ b ∈ l, p b = p a → f m b = f m a) :
    l.foldl (fun m a => m.set (p a) (f m a)) m (p a).1 (p a).2 = f m a := by
  induction l generalizing m a with
  | nil => cases ha
  | cons b l ih =>
    rw [List.foldl_cons]
    by_cases h : ∃ c ∈ l, p c = p a
    · obtain ⟨c, hc, e⟩ := h
      have hfa : ∀ c ∈ l, f (m.set (p b) (f m b)) c = f m c := fun c hc => hf b (.head _) m _ c (.tail _ hc)
      have := ih (m := m.set (p b) (f m b)) (a := c) (fun b hb m v c hc => hf b (.tail _ hb) m v c (.tail _ hc)) hc
        fun d hd hd' => by
          rw [hfa d hd, hfa c hc, hp d (.tail _ hd) (hd'.trans e), hp c (.tail _ hc) e]
      rw [e, hfa c hc, hp c (.tail _ hc) e] at this
      exact this
    · have hab : a = b := by
        cases ha with
        | head => rfl
        | tail _ ha => exact absurd ⟨a, ha, rfl⟩ h
      subst hab
      rw [foldl_set_ne (r := (p a).1) (q := (p a).2) fun c hc e => h ⟨c, hc, e⟩]
      exact set_same _ _ _ _

theorem mem_grid {a b : Nat} {p : Nat × Nat} : p ∈ grid a b ↔ p.1 < a ∧ p.2 < b := by
  obtain ⟨x, y⟩ := p
  simp [grid]

end RG.Dyn
