import Verif.Model.Guards
import Verif.Props.DynamicRun
/-
Programs that access their data through guards (for C83).
-/
set_option linter.unusedVariables false
namespace RG.Dyn
open RG.Graph

variable {kind : Res → Option Nat}

/-! ### Guards -/

theorem AGuard.narrow_spec {g g' : AGuard} {n : Narrow} {τ : GTy} (h : g.narrow n = some g')
    (ht : g.ty.narrow n = some τ) : g'.ty = τ ∧ τ.res = g.ty.res ∧ τ.dim = g.ty.dim ∧ (τ.w = true → g.ty.w = true) ∧
      g.toAccess.isSuperset g'.toAccess = true := by
  cases g with
  | io r w =>
    cases n with
    | read =>
      simp only [AGuard.narrow, Option.some.injEq] at h
      simp only [GTy.narrow, AGuard.ty, Option.some.injEq] at ht
      subst h ht
      refine ⟨rfl, rfl, rfl, by simp, ?_⟩
      rw [RAccess.isSuperset_iff]
      refine ⟨.io, r, _, _, rfl, rfl, ?_⟩
      cases w <;> rfl
    | area b e => simp [AGuard.narrow] at h
    | «at» pos => simp [AGuard.narrow] at h
  | @field dim g =>
    cases n with
    | read =>
      simp only [AGuard.narrow, Guard.derive, Option.map_some, Option.some.injEq] at h
      simp only [GTy.narrow, AGuard.ty, Option.some.injEq] at ht
      subst h ht
      exact ⟨rfl, rfl, rfl, by simp, Guard.toAccess_superset g g.read rfl (by simp [Guard.read])
        fun d => Area.isSuperset_refl _⟩
    | area b e =>
      simp only [AGuard.narrow, Option.map_eq_some_iff] at h
      obtain ⟨g1, h1, rfl⟩ := h
      obtain ⟨h2, h3, h4, -⟩ := Guard.subArea_spec g g1 _ _ h1
      simp only [GTy.narrow, AGuard.ty, Option.ite_none_right_eq_some, Option.some.injEq] at ht
      obtain ⟨-, rfl⟩ := ht
      exact ⟨by simp [AGuard.ty, h2, h3], rfl, rfl, id, Guard.toAccess_superset g g1 h2.symm (by rw [h3]; exact id) h4⟩
    | «at» pos =>
      simp only [AGuard.narrow, Option.map_eq_some_iff] at h
      obtain ⟨g1, h1, rfl⟩ := h
      obtain ⟨h2, h3, h4, -⟩ := Guard.subArea_spec g g1 _ _ h1
      simp only [GTy.narrow, AGuard.ty, Option.ite_none_right_eq_some, Option.some.injEq] at ht
      obtain ⟨-, rfl⟩ := ht
      exact ⟨by simp [AGuard.ty, h2, h3], rfl, rfl, id, Guard.toAccess_superset g g1 h2.symm (by rw [h3]; exact id) h4⟩

theorem RAccess.superset_refl (a : RAccess) : a.isSuperset a = true := by
  rw [RAccess.isSuperset_iff]
  exact ⟨a.ty, a.res, a.acc, a.acc, rfl, rfl, C04_superset_refl _ _⟩

theorem RAccess.superset_trans {a b c : RAccess} (h1 : a.isSuperset b = true) (h2 : b.isSuperset c = true) :
    a.isSuperset c = true := by
  rw [RAccess.isSuperset_iff] at h1 h2 ⊢
  obtain ⟨p, r, x, y, rfl, rfl, h1⟩ := h1
  obtain ⟨p', r', y', z, he, rfl, h2⟩ := h2
  cases he
  exact ⟨p, r, x, z, rfl, rfl, C04_superset_trans p x y z h1 h2⟩

theorem mode_cases {a : Mode} {w : Bool} (h : Mode.isSuperset a (if w = true then .write else .read) = true) :
    a = .write ∨ (a = .read ∧ w = false) := by
  cases w <;> cases a <;> simp_all [Mode.isSuperset]

/-- An access that includes the one of a guard allows to use the elements that the guard gives access to. -/
theorem AGuard.covers {g : AGuard} {ra : RAccess} {pos : List Size} {x : Res × List Size}
    (h : ra.isSuperset g.toAccess = true) (hx : g.elem pos = some x) :
    g.ty.res = x.1 ∧ ra.res = x.1 ∧ (Bodies.Covers ra .read x.2 ∨ Bodies.Covers ra .write x.2) ∧
      (g.ty.w = true → Bodies.Covers ra .write x.2) := by
  rw [RAccess.isSuperset_iff] at h
  obtain ⟨p, r, m, y, rfl, he, hs⟩ := h
  cases g with
  | io r' w =>
    simp only [AGuard.elem, Option.some.injEq] at hx
    subst hx
    simp only [AGuard.toAccess] at he
    cases he
    refine ⟨rfl, rfl, ?_⟩
    have hm := mode_cases (a := m) hs
    rcases hm with hm | ⟨hm, hw⟩
    · have : Bodies.Covers ⟨.io, r, m⟩ .write pos := by rw [hm]; exact .io
      exact ⟨.inr this, fun _ => this⟩
    · have : Bodies.Covers ⟨.io, r, m⟩ .read pos := by rw [hm]; exact .io
      exact ⟨.inl this, fun h => by rw [show (AGuard.io r w).ty.w = w from rfl, hw] at h; cases h⟩
  | @field dim g =>
    simp only [AGuard.elem, Option.ite_none_right_eq_some, Option.some.injEq] at hx
    obtain ⟨hc, rfl⟩ := hx
    simp only [AGuard.toAccess, Guard.toAccess] at he
    cases he
    refine ⟨rfl, rfl, ?_⟩
    obtain ⟨m, A⟩ := m
    simp only [Acc.isSuperset, Bool.and_eq_true, List.all_eq_true] at hs
    have hb : InBox (dim := dim) A fun d => pos.getD d 0 := by
      have := (Guard.contains_iff g _).1 hc
      intro d
      have h1 := this d
      have h2 := hs.2 d (List.mem_finRange d)
      simp only [Area.isSuperset, Bool.and_eq_true, decide_eq_true_eq, GE.ge, BitVec.le_def] at h2
      simp only [index] at h1
      show _ ∧ _
      constructor <;> simp only [] <;> omega
    have hm := mode_cases (a := m) hs.1
    rcases hm with hm | ⟨hm, hw⟩
    · have : Bodies.Covers ⟨fieldPolicy dim, g.res, (m, A)⟩ .write pos := by rw [hm]; exact .field hb
      exact ⟨.inr this, fun _ => this⟩
    · have : Bodies.Covers ⟨fieldPolicy dim, g.res, (m, A)⟩ .read pos := by rw [hm]; exact .field hb
      exact ⟨.inl this, fun h => by rw [show (AGuard.field g).ty.w = g.isWrite from rfl, hw] at h; cases h⟩

/-! ### What a task declares -/

theorem foldl_addAccess (l : List RAccess) : ∀ u : User, (l.foldl User.addAccess u) =
    (l.map Decl.arg).foldl Decl.apply u := by
  induction l with
  | nil => exact fun _ => rfl
  | cons a l ih => exact fun u => ih _

theorem Args.user_eq (a : Args) : a.user = declare (BitVec.ofNat 32 a.depth)
    ((a.args.map AGuard.toAccess).map Decl.arg ++ (a.extra.map fun l => Decl.resources (l.map AGuard.toAccess)).toList) := by
  unfold Args.user declare
  rw [foldl_addAccess, List.foldl_append]
  cases a.extra <;> rfl

theorem Args.access_eq (a : Args) : a.user.access = (a.args ++ a.extra.getD []).map AGuard.toAccess := by
  rw [Args.user_eq]
  have h := (declare_args (BitVec.ofNat 32 a.depth) (a.args.map AGuard.toAccess)).2
  cases he : a.extra with
  | none => simpa [he] using h
  | some l =>
    unfold declare at h ⊢
    rw [List.foldl_append]
    simp only [Option.map_some, Option.toList_some, List.foldl_cons, List.foldl_nil, Decl.apply, User.resources,
      User.buildUnique, h, Option.getD_some, List.map_append]

theorem AGuard.toAccess_res (g : AGuard) : g.toAccess.res = g.ty.res := by cases g <;> rfl

theorem AGuard.toAccess_ty {g g' : AGuard} (h : g.ty.dim = g'.ty.dim) : g.toAccess.ty = g'.toAccess.ty := by
  cases g with
  | io r w => cases g' with
    | io r' w' => rfl
    | field g' => cases h
  | field g => cases g' with
    | io r' w' => cases h
    | field g' => cases h; rfl

theorem args_ok : TableOk (argsUser kind) where
  built a := ⟨_, _, a.1.user_eq⟩
  policy a b x hx y hy he := by
    unfold argsUser at hx hy
    rw [Args.access_eq] at hx hy
    obtain ⟨g, hg, rfl⟩ := List.mem_map.1 hx
    obtain ⟨g', hg', rfl⟩ := List.mem_map.1 hy
    rw [AGuard.toAccess_res, AGuard.toAccess_res] at he
    exact AGuard.toAccess_ty (by rw [(a.2.1 g hg).1, (b.2.1 g' hg').1, he])
  once a := by
    left
    unfold argsUser
    rw [Args.user_eq]
    rcases a.2.2 with h | h
    · obtain ⟨l, hl⟩ := Option.isSome_iff_exists.1 h
      rw [hl]
      exact C54_resources_registers_once _ _ _
    · cases he : a.1.extra with
      | some l => exact C54_resources_registers_once _ _ _
      | none =>
        simp only [Option.map_none, Option.toList_none, List.append_nil]
        rw [(declare_args _ _).1, List.map_map]
        have : RAccess.res ∘ AGuard.toAccess = fun g => g.ty.res := funext AGuard.toAccess_res
        rw [this]
        exact h
  root a x hx := by
    unfold argsUser at hx
    rw [Args.access_eq] at hx
    obtain ⟨g, hg, rfl⟩ := List.mem_map.1 hx
    rw [AGuard.toAccess_res]
    exact (a.2.1 g hg).2

/-! ### Scopes -/

/-- The guards in scope have these types. -/
structure Scope (kind : Res → Option Nat) (Γ : List GTy) (env : List AGuard) : Prop where
  ty : env.map AGuard.ty = Γ
  good : ∀ g ∈ env, g.Good kind

theorem Scope.get {Γ : List GTy} {env : List AGuard} (h : Scope kind Γ env) {i : Nat} {τ : GTy} (hi : Γ[i]? = some τ) :
    ∃ g, env[i]? = some g ∧ g.ty = τ := by
  rw [← h.ty, List.getElem?_map, Option.map_eq_some_iff] at hi
  exact hi

theorem Scope.narrow {Γ : List GTy} {env : List AGuard} (h : Scope kind Γ env) {g g' : AGuard} {n : Narrow} {τ' : GTy}
    (hg : g ∈ env) (hn : g.narrow n = some g') (ht : g.ty.narrow n = some τ') : Scope kind (Γ ++ [τ']) (env ++ [g']) := by
  obtain ⟨h1, h2, h3, h4, -⟩ := AGuard.narrow_spec hn ht
  refine ⟨by rw [List.map_append, h.ty, List.map_singleton, h1], fun x hx => ?_⟩
  rcases List.mem_append.1 hx with hx | hx
  · exact h.good x hx
  · cases List.mem_singleton.1 hx
    unfold AGuard.Good
    rw [h1, h2, h3]
    exact h.good g hg

theorem mem_pick {α : Type} {l : List Nat} {env : List α} {g : α} (h : g ∈ l.filterMap (env[·]?)) : g ∈ env := by
  obtain ⟨i, -, hi⟩ := List.mem_filterMap.1 h
  exact List.mem_of_getElem? hi

theorem Scope.pick {Γ : List GTy} {env : List AGuard} (h : Scope kind Γ env) (l : List Nat) :
    Scope kind (l.filterMap (Γ[·]?)) (l.filterMap (env[·]?)) := by
  refine ⟨?_, fun g hg => h.good g (mem_pick hg)⟩
  rw [List.map_filterMap, ← h.ty]
  congr 1
  funext i
  rw [List.getElem?_map]

theorem Scope.args [EvalOrder] {q : List Nat} {Γ : List GTy} {env : List AGuard} (h : Scope kind Γ env) {args : List Nat} {extra : Option (List Nat)}
    {d : Nat} (hd : extra.isSome = true ∨ ((args.filterMap (Γ[·]?)).map GTy.res).Nodup) :
    Args.Good kind ⟨d, EvalOrder.order q (args.filterMap (env[·]?)), extra.map fun l => l.filterMap (env[·]?)⟩ := by
  refine ⟨fun g hg => h.good g ?_, ?_⟩
  · rcases List.mem_append.1 hg with hg | hg
    · exact mem_pick ((EvalOrder.perm _ _).mem_iff.1 hg)
    · cases extra with
      | none => cases hg
      | some l => exact mem_pick hg
  · rcases hd with hd | hd
    · left; cases extra <;> simp_all
    · right
      rw [← (h.pick args).ty, List.map_map] at hd
      exact ((EvalOrder.perm _ _).map _).nodup_iff.2 hd

/-! ### Bodies keep to what their task has declared -/

variable [EvalOrder]

theorem typed_fits (c : GCode) : ∀ {Γ : List GTy} {env : List AGuard} {p : List Nat} {k : Nat}
    {d : Option { a : Args // a.Good kind }}, c.Typed false Γ k → Scope kind Γ env →
    (∀ a, d = some a → ∀ g ∈ env, ∃ ra ∈ (argsUser kind a).access, ra.isSuperset g.toAccess = true) →
    (c.steps kind p k env).Fits (argsUser kind) p d k := by
  induction c with
  | get i pos c ih =>
    intro Γ env p k d ht hs hd
    obtain ⟨⟨τ, h1, h2⟩, h3⟩ := ht
    obtain ⟨g, h4, rfl⟩ := hs.get h1
    simp only [GCode.steps, h4, Option.bind_some]
    cases he : g.elem pos with
    | none => exact ih _ (h3 _) hs hd
    | some x =>
      refine ⟨fun a ha => ?_, fun v => ih _ (h3 _) hs hd⟩
      obtain ⟨ra, h5, h6⟩ := hd a ha g (List.mem_of_getElem? h4)
      obtain ⟨-, h7, h8, -⟩ := AGuard.covers h6 he
      exact h8.imp (fun h => ⟨ra, h5, h7, h⟩) (fun h => ⟨ra, h5, h7, h⟩)
  | put i pos v c ih =>
    intro Γ env p k d ht hs hd
    obtain ⟨⟨τ, h1, h2, hw⟩, h3⟩ := ht
    obtain ⟨g, h4, rfl⟩ := hs.get h1
    simp only [GCode.steps, h4, Option.bind_some]
    cases he : g.elem pos with
    | none => exact ih _ (h3 _) hs hd
    | some x =>
      refine ⟨fun a ha => ?_, ih _ (h3 _) hs hd⟩
      obtain ⟨ra, h5, h6⟩ := hd a ha g (List.mem_of_getElem? h4)
      obtain ⟨-, h7, -, h8⟩ := AGuard.covers h6 he
      exact ⟨ra, h5, h7, h8 hw⟩
  | poke i pos v c ih =>
    intro Γ env p k d ht hs hd
    cases ht.1
  | narrow i n c e ihc ihe =>
    intro Γ env p k d ht hs hd
    obtain ⟨⟨τ, τ', h1, h2, h3⟩, h4⟩ := ht
    obtain ⟨g, h5, rfl⟩ := hs.get h1
    have hg := List.mem_of_getElem? h5
    simp only [GCode.steps, h5, Option.bind_some]
    cases he : g.narrow n with
    | none => exact ihe h4 hs hd
    | some g' =>
      refine ihc h3 (hs.narrow hg he h2) fun a ha x hx => ?_
      rcases List.mem_append.1 hx with hx | hx
      · exact hd a ha x hx
      · cases List.mem_singleton.1 hx
        obtain ⟨ra, h6, h7⟩ := hd a ha g hg
        exact ⟨ra, h6, RAccess.superset_trans h7 (AGuard.narrow_spec he h2).2.2.2.2⟩
  | call args extra c c' ihc ihc' =>
    intro Γ env p k d ht hs hd
    obtain ⟨h1, h2, h3, h4⟩ := ht
    simp only [GCode.steps, dif_pos (hs.args h2)]
    refine ⟨fun a ha => ?_, ihc h3 (hs.pick args) fun a ha g hg => ?_, ihc' h4 hs hd⟩
    · simp only [User.isSuperset, List.all_eq_true, List.mem_reverse, Bool.or_eq_true, List.any_eq_true]
      intro ra hra
      left
      unfold argsUser at hra
      rw [Args.access_eq] at hra
      obtain ⟨g, hg, rfl⟩ := List.mem_map.1 hra
      refine hd a ha g ?_
      rcases List.mem_append.1 hg with hg | hg
      · exact mem_pick ((EvalOrder.perm _ _).mem_iff.1 hg)
      · cases extra with
        | none => cases hg
        | some l => exact mem_pick hg
    · cases ha
      refine ⟨g.toAccess, ?_, RAccess.superset_refl _⟩
      unfold argsUser
      rw [Args.access_eq]
      exact List.mem_map.2 ⟨g, List.mem_append_left _ ((EvalOrder.perm _ _).mem_iff.2 hg), rfl⟩
  | fut j c ih =>
    intro Γ env p k d ht hs hd
    exact ⟨fun a _ => .inr ⟨List.prefix_append _ _, rfl⟩, fun v => ih v (ht.2 v) hs hd⟩
  | all c ih =>
    intro Γ env p k d ht hs hd
    exact ih ht hs hd
  | ret v =>
    intro Γ env p k d ht hs hd
    exact ⟨fun a _ => ⟨List.prefix_refl _, rfl⟩, trivial⟩

/-! ### What a body and its tasks use -/

theorem Code.Only.mono {ι : Type} {ok ok' : Use → Place → Prop} (h : ∀ u x, ok u x → ok' u x) :
    ∀ {c : Code ι}, c.Only ok → c.Only ok' := by
  intro c
  induction c with
  | get x k ih => exact fun hc => ⟨h _ _ hc.1, fun v => ih v (hc.2 v)⟩
  | put x v k ih => exact fun hc => ⟨h _ _ hc.1, ih hc.2⟩
  | add x v k ih => exact fun hc => ⟨h _ _ hc.1, ih hc.2⟩
  | call a c k ih1 ih2 => exact fun hc => ⟨ih1 hc.1, ih2 hc.2⟩
  | wait w k ih => exact fun hc => ih hc
  | ret => exact fun _ => trivial

/-- the body with the name `p` and the guards `Γ` in scope, and the tasks that it submits, may use the location -/
def InScope (Γ : List GTy) (p : List Nat) (u : Use) : Place → Prop
  | .own q _ => p <+: q
  | .shared r _ => ∃ σ ∈ Γ, σ.res = r ∧ (u ≠ .reads → σ.w = true)

theorem typed_only (c : GCode) : ∀ {Γ : List GTy} {env : List AGuard} {p : List Nat} {k : Nat},
    c.Typed false Γ k → Scope kind Γ env → (c.steps kind p k env).Only (InScope Γ p) := by
  induction c with
  | get i pos c ih =>
    intro Γ env p k ht hs
    obtain ⟨⟨τ, h1, h2⟩, h3⟩ := ht
    obtain ⟨g, h4, rfl⟩ := hs.get h1
    simp only [GCode.steps, h4, Option.bind_some]
    cases he : g.elem pos with
    | none => exact ih _ (h3 _) hs
    | some x =>
      refine ⟨⟨g.ty, List.mem_of_getElem? h1, ?_, fun h => absurd rfl h⟩, fun v => ih _ (h3 _) hs⟩
      exact (AGuard.covers (RAccess.superset_refl _) he).1
  | put i pos v c ih =>
    intro Γ env p k ht hs
    obtain ⟨⟨τ, h1, h2, hw⟩, h3⟩ := ht
    obtain ⟨g, h4, rfl⟩ := hs.get h1
    simp only [GCode.steps, h4, Option.bind_some]
    cases he : g.elem pos with
    | none => exact ih _ (h3 _) hs
    | some x =>
      refine ⟨⟨g.ty, List.mem_of_getElem? h1, ?_, fun _ => hw⟩, ih _ (h3 _) hs⟩
      exact (AGuard.covers (RAccess.superset_refl _) he).1
  | poke i pos v c ih =>
    intro Γ env p k ht hs
    cases ht.1
  | narrow i n c e ihc ihe =>
    intro Γ env p k ht hs
    obtain ⟨⟨τ, τ', h1, h2, h3⟩, h4⟩ := ht
    obtain ⟨g, h5, rfl⟩ := hs.get h1
    have hg := List.mem_of_getElem? h5
    simp only [GCode.steps, h5, Option.bind_some]
    cases he : g.narrow n with
    | none => exact ihe h4 hs
    | some g' =>
      obtain ⟨-, h6, -, h7, -⟩ := AGuard.narrow_spec he h2
      refine (ihc h3 (hs.narrow hg he h2)).mono fun u x hx => ?_
      cases x with
      | own q i => exact hx
      | shared r pos =>
        obtain ⟨σ, h8, h9, h10⟩ := hx
        rcases List.mem_append.1 h8 with h8 | h8
        · exact ⟨σ, h8, h9, h10⟩
        · cases List.mem_singleton.1 h8
          exact ⟨g.ty, List.mem_of_getElem? h1, by rw [← h6]; exact h9, fun h => h7 (h10 h)⟩
  | call args extra c c' ihc ihc' =>
    intro Γ env p k ht hs
    obtain ⟨h1, h2, h3, h4⟩ := ht
    simp only [GCode.steps, dif_pos (hs.args h2)]
    refine ⟨(ihc h3 (hs.pick args)).mono fun u x hx => ?_, ihc' h4 hs⟩
    cases x with
    | own q i => exact (List.prefix_append _ _).trans hx
    | shared r pos =>
      obtain ⟨σ, h8, h9, h10⟩ := hx
      exact ⟨σ, mem_pick h8, h9, h10⟩
  | fut j c ih =>
    intro Γ env p k ht hs
    exact ⟨List.prefix_append _ _, fun v => ih v (ht.2 v) hs⟩
  | all c ih =>
    intro Γ env p k ht hs
    exact ih ht hs
  | ret v =>
    intro Γ env p k ht hs
    exact ⟨List.prefix_refl _, trivial⟩

/-! ### Bodies wait for their tasks -/

theorem not_prefix {p q : List Nat} {i j : Nat} (h : p ++ [i] <+: q) (h' : p ++ [j] <+: q) : i = j := by
  have := List.prefix_of_prefix_length_le h h' (by simp)
  have := this.eq_of_length (by simp)
  simpa using this

theorem typed_joined (c : GCode) : ∀ {Γ : List GTy} {env : List AGuard} {p : List Nat} {k : Nat}
    {o : Nat → Option (List GTy)} {o' : Nat → Option (Code { a : Args // a.Good kind })},
    c.Typed false Γ k → Scope kind Γ env → c.Joins Γ k o →
    (∀ j d, o' j = some d → ∃ Δ, o j = some Δ ∧ d.Only (InScope Δ (p ++ [j + 1]))) →
    (c.steps kind p k env).Joined k o' := by
  induction c with
  | get i pos c ih =>
    intro Γ env p k o o' ht hs hj ho
    obtain ⟨⟨τ, h1, h2⟩, h3⟩ := ht
    obtain ⟨g, h4, rfl⟩ := hs.get h1
    simp only [GCode.steps, h4, Option.bind_some]
    cases he : g.elem pos with
    | none => exact ih _ (h3 _) hs (hj.2 _) ho
    | some x =>
      refine ⟨fun j d hd => ?_, fun v => ih _ (h3 _) hs (hj.2 _) ho⟩
      obtain ⟨Δ, h5, h6⟩ := ho j d hd
      refine h6.mono fun u y hy => ?_
      cases y with
      | own q i => exact .inl (by simp)
      | shared r pos' =>
        obtain ⟨σ, h7, h8, h9⟩ := hy
        by_cases hr : r = x.1
        · right
          have := hj.1 g.ty h1 j Δ h5 σ h7 (by rw [h8, hr, (AGuard.covers (RAccess.superset_refl _) he).1])
          refine ⟨?_, by simp⟩
          apply Classical.byContradiction
          intro hu
          have := h9 (Ne.symm hu)
          simp_all
        · left
          intro h
          cases h
          exact hr rfl
  | put i pos v c ih =>
    intro Γ env p k o o' ht hs hj ho
    obtain ⟨⟨τ, h1, h2, hw⟩, h3⟩ := ht
    obtain ⟨g, h4, rfl⟩ := hs.get h1
    simp only [GCode.steps, h4, Option.bind_some]
    cases he : g.elem pos with
    | none => exact ih _ (h3 _) hs (hj.2 _) ho
    | some x =>
      refine ⟨fun j d hd => ?_, ih _ (h3 _) hs (hj.2 _) ho⟩
      obtain ⟨Δ, h5, h6⟩ := ho j d hd
      refine h6.mono fun u y hy => ?_
      left
      cases y with
      | own q i => simp
      | shared r pos' =>
        obtain ⟨σ, h7, h8, h9⟩ := hy
        intro h
        cases h
        exact hj.1 g.ty h1 j Δ h5 σ h7 (by rw [h8, (AGuard.covers (RAccess.superset_refl _) he).1])
  | poke i pos v c ih =>
    intro Γ env p k o o' ht hs hj ho
    cases ht.1
  | narrow i n c e ihc ihe =>
    intro Γ env p k o o' ht hs hj ho
    obtain ⟨⟨τ, τ', h1, h2, h3⟩, h4⟩ := ht
    obtain ⟨g, h5, rfl⟩ := hs.get h1
    have hg := List.mem_of_getElem? h5
    simp only [GCode.steps, h5, Option.bind_some]
    cases he : g.narrow n with
    | none => exact ihe h4 hs hj.2 ho
    | some g' => exact ihc h3 (hs.narrow hg he h2) (hj.1 _ _ h1 h2) ho
  | call args extra c c' ihc ihc' =>
    intro Γ env p k o o' ht hs hj ho
    obtain ⟨h1, h2, h3, h4⟩ := ht
    simp only [GCode.steps, dif_pos (hs.args h2)]
    refine ⟨ihc h3 (hs.pick args) hj.1 (fun j d h => by cases h), ihc' h4 hs hj.2 fun j d hd => ?_⟩
    by_cases he : j = k
    · subst he
      rw [upd_same] at hd
      cases hd
      exact ⟨_, upd_same _ _ _, typed_only c h3 (hs.pick args)⟩
    · rw [upd_ne _ _ he] at hd ⊢
      exact ho j d hd
  | fut j c ih =>
    intro Γ env p k o o' ht hs hj ho
    have ho' : ∀ i d, (if (i == j) = true then none else o' i) = some d →
        ∃ Δ, (if i = j then none else o i) = some Δ ∧ d.Only (InScope Δ (p ++ [i + 1])) := by
      intro i d hd
      by_cases hi : i = j
      · rw [if_pos (by simpa using hi)] at hd; cases hd
      · rw [if_neg (by simpa using hi)] at hd
        rw [if_neg hi]
        exact ho i d hd
    refine ⟨fun i d hd => ?_, fun v => ih v (ht.2 v) hs (hj v) ho'⟩
    have hij : i ≠ j := by
      rintro rfl
      simp at hd
    obtain ⟨Δ, -, h⟩ := ho' i d hd
    refine h.mono fun u y hy => ?_
    left
    cases y with
    | shared r pos => simp
    | own q x =>
      intro h
      cases h
      have := not_prefix hy (List.prefix_refl _)
      omega
  | all c ih =>
    intro Γ env p k o o' ht hs hj ho
    exact ih ht hs hj fun j d h => by simp at h
  | ret v =>
    intro Γ env p k o o' ht hs hj ho
    have no : ∀ j, o' j = none := by
      intro j
      cases h : o' j with
      | none => rfl
      | some d =>
        obtain ⟨Δ, h1, -⟩ := ho j d h
        rw [hj j] at h1
        cases h1
    exact ⟨fun j d h => by simp [no j] at h, no⟩

/-! ### What the steps compute -/

/-- the objects in the memory -/
def objs (m : Mem) : Objs := fun r pos => m (.shared r pos)

theorem objs_store (m : Mem) (x : Res × List Size) (v : Nat) :
    objs (store (.shared x.1 x.2) v m) = (objs m).set x v := by
  funext r pos
  unfold objs store Objs.set
  by_cases h : (r, pos) = x
  · subst h; simp
  · rw [if_neg (by intro e; cases e; exact h rfl), if_neg h]

theorem objs_own (m : Mem) (p : List Nat) (i v : Nat) : objs (store (.own p i) v m) = objs m := rfl

structure Result (p : List Nat) (k : Nat) (r : Nat × Objs) (m m' : Mem) : Prop where
  objs : objs m' = r.2
  value : m' (.own p 0) = r.1
  frame : ∀ q i, q ≠ p → (∀ j, k ≤ j → ¬ p ++ [j + 1] <+: q) → m' (.own q i) = m (.own q i)

theorem steps_run (c : GCode) : ∀ {raw : Bool} {Γ : List GTy} {env : List AGuard} {p : List Nat} {k : Nat}
    {rs : List Nat} {m : Mem}, c.Typed raw Γ k → Scope kind Γ env → rs.length = k →
    (∀ j, j < k → m (.own (p ++ [j + 1]) 0) = rs.getD j 0) →
    Result p k (c.run env rs (objs m)) m ((c.steps kind p k env).run m) := by
  induction c with
  | get i pos c ih =>
    intro raw Γ env p k rs m ht hs hl hr
    simp only [GCode.steps, GCode.run]
    cases env[i]?.bind (·.elem pos) with
    | none => exact ih _ (ht.2 _) hs hl hr
    | some x => exact ih _ (ht.2 _) hs hl hr
  | put i pos v c ih =>
    intro raw Γ env p k rs m ht hs hl hr
    simp only [GCode.steps, GCode.run]
    cases env[i]?.bind (·.elem pos) with
    | none => exact ih _ (ht.2 _) hs hl hr
    | some x =>
      have := ih true (ht.2 _) hs hl (m := store (.shared x.1 x.2) v m) hr
      rw [objs_store] at this
      exact ⟨this.objs, this.value, this.frame⟩
  | poke i pos v c ih =>
    intro raw Γ env p k rs m ht hs hl hr
    simp only [GCode.steps, GCode.run]
    cases env[i]? with
    | none => exact ih ht.2.2 hs hl hr
    | some g =>
      have := ih ht.2.2 hs hl (m := store (.shared (g.whole pos).1 (g.whole pos).2) v m) hr
      rw [objs_store] at this
      exact ⟨this.objs, this.value, this.frame⟩
  | narrow i n c e ihc ihe =>
    intro raw Γ env p k rs m ht hs hl hr
    obtain ⟨⟨τ, τ', h1, h2, h3⟩, h4⟩ := ht
    obtain ⟨g, h5, rfl⟩ := hs.get h1
    have hg := List.mem_of_getElem? h5
    simp only [GCode.steps, GCode.run, h5, Option.bind_some]
    cases he : g.narrow n with
    | none => exact ihe h4 hs hl hr
    | some g' => exact ihc h3 (hs.narrow hg he h2) hl hr
  | call args extra c c' ihc ihc' =>
    intro raw Γ env p k rs m ht hs hl hr
    obtain ⟨h1, h2, h3, h4⟩ := ht
    simp only [GCode.steps, GCode.run, dif_pos (hs.args h2), Code.run]
    have hc := ihc (p := p ++ [k + 1]) (m := m) h3 (hs.pick args) (rs := []) rfl (by simp)
    have h5 := ihc' (p := p) (k := k + 1) h4 hs (rs := rs ++ [(c.run (args.filterMap (env[·]?)) [] (objs m)).1])
      (m := (c.steps kind (p ++ [k + 1]) 0 (args.filterMap (env[·]?))).run m) (by simp [hl]) fun j hj => by
        by_cases he : j = k
        · subst he
          rw [hc.value, ← hl]
          simp [List.getD_eq_getElem?_getD]
        · rw [hc.frame _ _ (by simp; omega) fun i _ h => ?_, hr j (by omega)]
          · simp [List.getD_eq_getElem?_getD, List.getElem?_append_left (show j < rs.length by omega)]
          have h6 := (List.prefix_append (p ++ [k + 1]) [i + 1]).trans h
          have := not_prefix h6 (List.prefix_refl _)
          omega
    rw [hc.objs] at h5
    refine ⟨h5.objs, h5.value, fun q i hq h => ?_⟩
    rw [h5.frame q i hq fun j hj => h j (by omega), hc.frame q i (fun e => ?_) fun j _ h' => ?_]
    · subst e
      exact h k (Nat.le_refl _) (List.prefix_refl _)
    · exact h k (Nat.le_refl _) ((List.prefix_append _ _).trans h')
  | fut j c ih =>
    intro raw Γ env p k rs m ht hs hl hr
    simp only [GCode.steps, GCode.run, Code.run]
    rw [hr j ht.1]
    exact ih _ (ht.2 _) hs hl hr
  | all c ih =>
    intro raw Γ env p k rs m ht hs hl hr
    exact ih ht hs hl hr
  | ret v =>
    intro raw Γ env p k rs m ht hs hl hr
    simp only [GCode.steps, GCode.run, Code.run]
    exact ⟨rfl, by simp [store], fun q i hq _ => by simp [store, hq]⟩

end RG.Dyn
