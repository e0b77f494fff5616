import Verif.Lemmas.Examples
/-
Lemmas for test/random_graph.cpp in Model/Examples.
-/
namespace RG.Dyn.RandomGraph
open RG.Graph

variable {hash : Nat → Nat → Nat} {n : Nat}

def val (m : Objs) (r : Nat) : Nat := m ⟨r, 0⟩ []

theorem val_set {m : Objs} {r r' v : Nat} : val (m.set (⟨r, 0⟩, []) v) r' = if r' = r then v else val m r' := by
  by_cases h : r' = r
  · subst h
    simp [val, set_same]
  · rw [if_neg h]
    refine set_ne fun e => h (congrArg Res.addr (Prod.mk.inj e).1)

theorem env_get {i : Nat} (h : i < n) : (env n)[i]? = some (.io ⟨i, 0⟩ true) := by simp [env, h]

theorem args {l : List Nat} (hl : ∀ r ∈ l, r < n) : l.filterMap ((env n)[·]?) = l.map fun r => .io ⟨r, 0⟩ true := by
  induction l with
  | nil => rfl
  | cons r l ih =>
    rw [List.filterMap_cons, env_get (hl r (.head _)), ih fun q hq => hl q (.tail _ hq)]
    rfl

/-- The body of a task: every resource gets the new value. -/
theorem body_run {l : List Nat} (hd : l.Nodup) (t : Nat) (m : Objs) :
    ∃ m', (body hash t l.length).run (l.map fun r => .io ⟨r, 0⟩ true) [] m = (0, m') ∧
      ∀ r, val m' r = if r ∈ l then hash t (val m r) else val m r := by
  refine ⟨l.foldl (fun m r => m.set (⟨r, 0⟩, []) (hash t (val m r))) m, ?_, fun r => ?_⟩
  · unfold body
    have := each_run' (env := l.map fun r => AGuard.io ⟨r, 0⟩ true) (rs := []) (m := m) (c := .ret 0) (l := List.range l.length)
      (f := fun i k => .get i [] fun v => .put i [] (hash t (v.getD 0)) fun _ => k)
      (g := fun m i => m.set (⟨l.getD i 0, 0⟩, []) (hash t (val m (l.getD i 0)))) (by
        intro i hi k m
        have hi := List.mem_range.1 hi
        have e : (l.map fun r => AGuard.io ⟨r, 0⟩ true)[i]? = some (AGuard.io ⟨l.getD i 0, 0⟩ true) := by
          simp [List.getElem?_map, List.getD, List.getElem?_eq_getElem hi]
        simp only [GCode.run, e, Option.bind_some, AGuard.elem, Option.getD_some]
        rfl)
    rw [this]
    simp only [GCode.run]
    congr 1
    rw [← List.foldl_map (f := fun i => l.getD i 0) (g := fun m r => Objs.set m (⟨r, 0⟩, []) (hash t (val m r)))]
    congr 1
    refine List.ext_getElem (by simp) fun i h1 h2 => ?_
    simp at h1
    simp [List.getD, h1]
  · induction l generalizing m with
    | nil => simp
    | cons q l ih =>
      have hq := List.nodup_cons.1 hd
      rw [List.foldl_cons, ih hq.2, val_set]
      by_cases h : r = q
      · subst h
        simp [hq.1]
      · simp [h]

theorem submit_run {pat : List (List Nat)} (hp : ∀ l ∈ pat, l.Nodup ∧ ∀ r ∈ l, r < n) {t : Nat} {c : GCode} {rs : List Nat}
    {m : Objs} : ∃ rs' m', (submit hash pat t c).run (env n) rs m = c.run (env n) rs' m' ∧
      ∀ r, val m' r = expected hash r pat t (val m r) := by
  induction pat generalizing t rs m with
  | nil => exact ⟨rs, m, rfl, fun _ => rfl⟩
  | cons l pat ih =>
    obtain ⟨h1, h2⟩ := hp l (.head _)
    obtain ⟨m1, h3, h4⟩ := body_run (hash := hash) h1 t m
    obtain ⟨rs', m', h5, h6⟩ := ih (fun l hl => hp l (.tail _ hl)) (t := t + 1) (rs := rs ++ [0]) (m := m1)
    refine ⟨rs', m', ?_, fun r => ?_⟩
    · simp only [submit, GCode.run, args h2, h3]
      exact h5
    · rw [h6, h4]
      rfl

theorem check_run {l : List (Nat × Nat)} {rs : List Nat} {m : Objs} (hl : ∀ p ∈ l, p.1 < n ∧ val m p.1 = p.2) :
    (check l).run (env n) rs m = (1, m) := by
  induction l with
  | nil => rfl
  | cons p l ih =>
    obtain ⟨r, v⟩ := p
    obtain ⟨h1, h2⟩ := hl _ (.head _)
    simp only [check, GCode.run, env_get h1, Option.bind_some, AGuard.elem]
    rw [if_pos (show some (m ⟨r, 0⟩ []) = some v from congrArg some h2)]
    exact ih fun q hq => hl q (.tail _ hq)

theorem main_run {pat : List (List Nat)} (hp : ∀ l ∈ pat, l.Nodup ∧ ∀ r ∈ l, r < n) (m : Objs) :
    ∃ m', (main hash n pat).run (env n) [] m = (1, m') ∧ ∀ r, r < n → val m' r = expected hash r pat 0 0 := by
  have h0 := each_run' (env := env n) (rs := []) (m := m) (l := List.range n)
    (c := submit hash pat 0 <| .all <| check ((List.range n).map fun r => (r, expected hash r pat 0 0)))
    (f := fun i k => .put i [] 0 fun _ => k) (g := fun m i => m.set (⟨i, 0⟩, []) 0) (by
      intro i hi k m
      simp only [GCode.run, env_get (List.mem_range.1 hi), Option.bind_some, AGuard.elem])
  have hz : ∀ r, r < n → val ((List.range n).foldl (fun m i => Objs.set m (⟨i, 0⟩, []) 0) m) r = 0 := by
    intro r hr
    exact foldl_set (p := fun i : Nat => ((⟨i, 0⟩, []) : Res × List Size)) (f := fun _ _ => 0) (a := r)
      (fun _ _ _ _ _ _ => rfl) (List.mem_range.2 hr) fun _ _ _ => rfl
  generalize (List.range n).foldl (fun m i => Objs.set m (⟨i, 0⟩, []) 0) m = m1 at h0 hz
  obtain ⟨rs, m2, h1, h2⟩ := submit_run (hash := hash) hp (t := 0) (rs := []) (m := m1)
    (c := .all <| check ((List.range n).map fun r => (r, expected hash r pat 0 0)))
  have h3 : ∀ r, r < n → val m2 r = expected hash r pat 0 0 := fun r hr => by rw [h2, hz r hr]
  refine ⟨m2, ?_, h3⟩
  unfold main
  rw [h0, h1]
  simp only [GCode.run]
  refine check_run fun p hp => ?_
  simp only [List.mem_map, List.mem_range] at hp
  obtain ⟨r, hr, rfl⟩ := hp
  exact ⟨hr, h3 r hr⟩

/-! ### What the compiler checks -/

theorem ty_get {i : Nat} (h : i < n) : ((env n).map AGuard.ty)[i]? = some ⟨⟨i, 0⟩, none, true⟩ := by
  rw [List.getElem?_map, env_get h]
  rfl

theorem body_leafy (t : Nat) (l : List Nat) : Leafy (body hash t l.length) (l.map fun r => ⟨⟨r, 0⟩, none, true⟩) := by
  refine .each (.ret 0) fun i hi k hk => ?_
  have hi := List.mem_range.1 hi
  have e : (l.map fun r => (⟨⟨r, 0⟩, none, true⟩ : GTy))[i]? = some ⟨⟨l[i], 0⟩, none, true⟩ := by
    simp [List.getElem?_map, List.getElem?_eq_getElem hi]
  exact .get e rfl fun v => .put e rfl rfl fun _ => hk

theorem submit_busy {pat : List (List Nat)} (hp : ∀ l ∈ pat, l.Nodup ∧ ∀ r ∈ l, r < n) {t k N : Nat} {c : GCode}
    (hc : ∀ k, Busy c ((env n).map AGuard.ty) k N) : Busy (submit hash pat t c) ((env n).map AGuard.ty) k (N + pat.length) := by
  induction pat generalizing t k with
  | nil => exact hc k
  | cons l pat ih =>
    obtain ⟨h1, h2⟩ := hp l (.head _)
    refine .call (n := N + pat.length) (Δ := l.map fun r => ⟨⟨r, 0⟩, none, true⟩) ?_ ?_ (body_leafy t l)
      (ih fun l hl => hp l (.tail _ hl))
    · rw [List.map_map]
      exact List.map_congr_left fun r hr => ty_get (h2 r hr)
    · rw [List.map_map]
      refine (List.nodup_map_iff ?_).2 h1
      intro a b e
      exact congrArg Res.addr e

theorem check_quiet {l : List (Nat × Nat)} (hl : ∀ p ∈ l, p.1 < n) {k : Nat} :
    Quiet (check l) ((env n).map AGuard.ty) k 0 := by
  induction l with
  | nil => exact .ret 1
  | cons p l ih =>
    obtain ⟨r, v⟩ := p
    refine .get (ty_get (hl _ (.head _))) rfl fun v' => ?_
    split
    · exact ih fun q hq => hl q (.tail _ hq)
    · exact .ret 0

theorem main_quiet {pat : List (List Nat)} (hp : ∀ l ∈ pat, l.Nodup ∧ ∀ r ∈ l, r < n) :
    Quiet (main hash n pat) ((env n).map AGuard.ty) 0 pat.length := by
  refine .each ?_ fun i hi c hc => .put (ty_get (List.mem_range.1 hi)) rfl rfl fun _ => hc
  have := submit_busy (hash := hash) hp (t := 0) (k := 0) (N := 0)
    (c := .all <| check ((List.range n).map fun r => (r, expected hash r pat 0 0))) fun k => .all (check_quiet fun p hp => by
      simp only [List.mem_map, List.mem_range] at hp
      obtain ⟨r, hr, rfl⟩ := hp
      exact hr)
  rw [Nat.zero_add] at this
  exact this.quiet

end RG.Dyn.RandomGraph
