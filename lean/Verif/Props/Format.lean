import Verif.Lemmas.Format
/-
C105: the printed form of accesses and tasks.

`Json.Denotes v s` (Lemmas/Json.lean) is the grammar of JSON: the text `s` denotes the value `v`. What the texts should denote is written down here.
-/
namespace RG.Format
open RG.Json

/-- the names of the modes -/
def modeName : Mode → List Char
  | .read => c!"read"
  | .write => c!"write"
  | .aadd => c!"atomicAdd"
  | .amul => c!"atomicMul"

def opKey : Op → List Char
  | .and => c!"and"
  | .or => c!"or"

/-- An access as JSON; `uj` for the classes written by users. -/
def accJson (uj : (c : Custom) → Fin c.n → Value) : (p : Policy) → Acc p → Value
  | .io, m => .obj [(c!"IOAccess", .str (modeName m))]
  | .area, a => .obj [(c!"area", .obj [(c!"begin", .num (Area.lo a).toNat), (c!"end", .num (Area.hi a).toNat)])]
  | .custom c, a => uj c a
  | .array p n op, a => .obj [(opKey op, .arr ((List.finRange n).map fun i => accJson uj p (a i)))]
  | .combine p q op, a => .obj [(opKey op, .arr [accJson uj p a.1, accJson uj q a.2])]

/-- An access to a resource as JSON. -/
def resJson (e : Env) (uj : (c : Custom) → Fin c.n → Value) (r : RAccess) : Value :=
  .obj [(c!"resourceID", .num (e.rid r.res.addr).toNat), (c!"scopeLevel", .num r.res.scope.toNat), (c!"mode", accJson uj r.ty r.acc)]

/-- The accesses of a task, the newest one first. -/
def userJson (e : Env) (uj : (c : Custom) → Fin c.n → Value) (l : List RAccess) : Value := .arr (l.reverse.map (resJson e uj))

/-- The classes written by users print JSON. -/
def UsersOk (e : Env) (uj : (c : Custom) → Fin c.n → Value) : Prop := ∀ c a, Denotes (uj c a) (e.usr c a)

def tagName : Nat → List Char
  | 0 => c!"MPI"
  | 1 => c!"CUDA"
  | _ => c!"undefined"

/-- The member of an object that a property stands for, if any. -/
def prpJson (e : Env) (uj : (c : Custom) → Fin c.n → Value) (t : Task) : Prp → Option (List Char × Value)
  | .id => some (c!"id", .num t.id)
  | .resource => some (c!"resources", userJson e uj t.accesses)
  | .queue => none
  | .graph => none
  | .label => some (c!"label", .str t.label)
  | .tags => some (c!"schedulingTags",
      .arr (((List.range t.tags.length).filter fun i => t.tags.getD i false).map fun i => .str (tagName i)))

/-! ### Helpers -/

theorem plain_of (k : List Char) (h : k.all isPlain = true) : ∀ c ∈ k, isPlain c = true := List.all_eq_true.mp h

theorem access_denotes {e : Env} {uj : (c : Custom) → Fin c.n → Value} (hu : UsersOk e uj) : (p : Policy) → (a : Acc p) →
    Denotes (accJson uj p a) (access e p a)
  | .io, m => by
    have hs : Denotes (.str (modeName m)) ('"' :: (mode m ++ ['"'])) := by
      refine .str ?_
      cases m <;> exact str_plain (plain_of _ (by decide))
    have := obj_one (k := c!"IOAccess") (plain_of _ (by decide)) hs
    simpa [accJson, access, io, member] using this
  | .area, a => by
    have h := obj_sep (.cons (P := IsMember) (v := (c!"begin", .num (Area.lo a).toNat)) ⟨_, plain_of _ rfl, dec_denotes _, rfl⟩
      (.cons (v := (c!"end", .num (Area.hi a).toNat)) ⟨_, plain_of _ rfl, dec_denotes _, rfl⟩ .nil))
    have := obj_one (k := c!"area") (plain_of _ (by decide)) h
    simpa [accJson, access, area, member, sepBy] using this
  | .custom c, a => hu c a
  | .array p n op, a => by
    have h := arr_sep ws_sp (texts_map (fun i => accJson uj p (a i)) (fun i => access e p (a i)) (List.finRange n)
      fun i _ => access_denotes hu p (a i))
    have := obj_one (k := opKey op) (by cases op <;> exact plain_of _ (by decide)) h
    cases op <;> simpa [accJson, access, array, member, opName, opKey] using this
  | .combine p q op, a => by
    have h := Denotes.arr (Items.cons ws_sp (access_denotes hu p a.1) ws_nil (.one ws_sp (access_denotes hu q a.2) ws_sp))
    have := obj_one (k := opKey op) (by cases op <;> exact plain_of _ (by decide)) h
    cases op <;> simpa [accJson, access, pair, member, opName, opKey] using this

theorem res_denotes {e : Env} {uj : (c : Custom) → Fin c.n → Value} (hu : UsersOk e uj) (r : RAccess) :
    Denotes (resJson e uj r) (resourceAccess e r) := by
  have := obj_sep (.cons (P := IsMember) (v := (c!"resourceID", .num (e.rid r.res.addr).toNat)) ⟨_, plain_of _ rfl, dec_denotes _, rfl⟩
    (.cons (v := (c!"scopeLevel", .num r.res.scope.toNat)) ⟨_, plain_of _ rfl, dec_denotes _, rfl⟩
    (.cons (v := (c!"mode", accJson uj r.ty r.acc)) ⟨_, plain_of _ rfl, access_denotes hu _ _, rfl⟩ .nil)))
  simpa [resJson, resourceAccess, member, sepBy] using this

theorem user_denotes {e : Env} {uj : (c : Custom) → Fin c.n → Value} (hu : UsersOk e uj) (l : List RAccess) :
    Denotes (userJson e uj l) (user e l) := by
  have := arr_sep ws_nil (texts_map (resJson e uj) (resourceAccess e) l.reverse fun r _ => res_denotes hu r)
  simpa [userJson, user] using this

theorem accJson_inj {uj : (c : Custom) → Fin c.n → Value} (hi : ∀ c a b, uj c a = uj c b → a = b) : (p : Policy) → (a b : Acc p) →
    accJson uj p a = accJson uj p b → a = b
  | .io, a, b, h => by
    cases a <;> cases b <;> first | rfl | (simp [accJson, modeName] at h)
  | .area, a, b, h => by
    simp only [accJson, Value.obj.injEq, List.cons.injEq, Prod.mk.injEq, Value.num.injEq, true_and, and_true] at h
    have h1 := BitVec.eq_of_toNat_eq h.1
    have h2 := BitVec.eq_of_toNat_eq h.2
    cases a; cases b
    simp only at h1 h2
    rw [h1, h2]
  | .custom c, a, b, h => hi c a b h
  | .array p n op, a, b, h => by
    simp only [accJson, Value.obj.injEq, List.cons.injEq, Prod.mk.injEq, Value.arr.injEq, true_and, and_true] at h
    funext i
    exact accJson_inj hi p _ _ (List.map_inj_left.mp h i (List.mem_finRange i))
  | .combine p q op, a, b, h => by
    simp only [accJson, Value.obj.injEq, List.cons.injEq, Prod.mk.injEq, Value.arr.injEq, true_and, and_true] at h
    exact Prod.ext (accJson_inj hi p _ _ h.1) (accJson_inj hi q _ _ h.2)

theorem prp_denotes {e : Env} {uj : (c : Custom) → Fin c.n → Value} (hu : UsersOk e uj) (t : Task) (hl : ∀ c ∈ t.label, isPlain c = true)
    {q : Prp} {m : List Char × Value} (hm : prpJson e uj t q = some m) : IsMember m (prp e t q) := by
  cases q with
  | id => cases hm; exact ⟨_, plain_of _ rfl, dec_denotes _, by simp [prp, member]⟩
  | resource => cases hm; exact ⟨_, plain_of _ rfl, user_denotes hu _, by simp [prp, member]⟩
  | queue => cases hm
  | graph => cases hm
  | label => cases hm; exact ⟨_, plain_of _ rfl, .str (str_plain hl), by simp [prp, member]⟩
  | tags =>
    cases hm
    have h := arr_sep ws_sp (texts_map (fun i => Value.str (tagName i)) tag ((List.range t.tags.length).filter fun i => t.tags.getD i false)
      fun i _ => by
        have : Denotes (.str (tagName i)) ('"' :: (tagName i ++ ['"'])) := by
          refine .str ?_
          rcases i with _ | _ | i <;> exact str_plain (plain_of _ rfl)
        rcases i with _ | _ | i <;> simpa [tag, tagName] using this)
    refine ⟨_, plain_of _ rfl, h, ?_⟩
    simp [prp, member, setTags_eq]

theorem pValue_obj (f : Nat) (Z : List Char) : pValue (f + 1) ('{' :: ' ' :: '"' :: Z) = (pMembers f ('"' :: Z)).map fun x => (.obj x.1, x.2) := by
  simp [pValue, skip, isWs]

theorem pMembers_first {f : Nat} {k tk Y r : List Char} {m : List (List Char × Value)} (hk : Str k tk) (hY : skip Y = Y)
    (h : pMembers (f + 1) ('"' :: (tk ++ ('"' :: ' ' :: ':' :: ' ' :: Y))) = some (m, r)) : ∃ v r', pValue f Y = some (v, r') ∧ m.head? = some (k, v) := by
  have hw : skip (' ' :: ':' :: ' ' :: Y) = ':' :: ' ' :: Y := rfl
  have hw2 : skip (' ' :: Y) = Y := hY
  simp only [pMembers, List.head?_cons, if_true, List.tail_cons] at h
  rw [pStr_of hk] at h
  simp only [hw, List.head?_cons, if_true, List.tail_cons, hw2] at h
  cases hv : pValue f Y with
  | none => rw [hv] at h; cases h
  | some x =>
    refine ⟨x.1, x.2, rfl, ?_⟩
    rw [hv] at h
    simp only at h
    by_cases h1 : (skip x.2).head? = some ','
    · rw [if_pos h1] at h
      cases h2 : pMembers f (skip (skip x.2).tail) with
      | none => rw [h2] at h; cases h
      | some y => rw [h2] at h; cases h; rfl
    · rw [if_neg h1] at h
      by_cases h3 : (skip x.2).head? = some '}'
      · rw [if_pos h3] at h; cases h; rfl
      · rw [if_neg h3] at h; cases h

/-! ### Properties -/

/-- C105: The text of an access is JSON, for every policy that can be built; it denotes the mode, the borders of the area, or `and`/`or` of the parts in their
order, and nothing else. -/
theorem C105_access (e : Env) (uj : (c : Custom) → Fin c.n → Value) (hu : UsersOk e uj) (p : Policy) (a : Acc p) (v : Value) :
    Denotes v (access e p a) ↔ v = accJson uj p a := by
  constructor
  · intro h; exact denotes_unique h (access_denotes hu p a)
  · intro h; rw [h]; exact access_denotes hu p a

/-- C105: Accesses of one policy that differ are printed differently. -/
theorem C105_accesses_differ (e : Env) (uj : (c : Custom) → Fin c.n → Value) (hu : UsersOk e uj) (hi : ∀ c a b, uj c a = uj c b → a = b)
    (p : Policy) (a b : Acc p) : access e p a = access e p b ↔ a = b := by
  constructor
  · intro h
    refine accJson_inj hi p a b ?_
    have h1 := access_denotes hu p a
    rw [h] at h1
    exact denotes_unique h1 (access_denotes hu p b)
  · intro h; rw [h]

/-- C105: The accesses of a task are printed as a JSON array, the newest access first, each with the number of its resource, the level and the mode. -/
theorem C105_access_list (e : Env) (uj : (c : Custom) → Fin c.n → Value) (hu : UsersOk e uj) (l : List RAccess) (v : Value) :
    Denotes v (user e l) ↔ v = .arr (l.reverse.map fun r => .obj [(c!"resourceID", .num (e.rid r.res.addr).toNat),
      (c!"scopeLevel", .num r.res.scope.toNat), (c!"mode", accJson uj r.ty r.acc)]) := by
  constructor
  · intro h; exact denotes_unique h (user_denotes hu l)
  · intro h; rw [h]; exact user_denotes hu l

/-- C105, the part that holds: If all properties of a list print a member, and the label consists of characters that need no escape, then the text of the
properties is a JSON object with these members in the order of the list. Missing: tasks also have properties that print nothing (`C105_task_false`), and
labels are arbitrary (`C105_label`, `C105_label_false`). -/
theorem C105_properties_partial (e : Env) (uj : (c : Custom) → Fin c.n → Value) (hu : UsersOk e uj) (t : Task) (hl : ∀ c ∈ t.label, isPlain c = true)
    (l : List Prp) (hq : Prp.queue ∉ l) (hg : Prp.graph ∉ l) : Denotes (.obj (l.filterMap (prpJson e uj t))) (properties e t l) := by
  have h : Texts IsMember (l.filterMap (prpJson e uj t)) (l.map (prp e t)) := by
    induction l with
    | nil => exact .nil
    | cons q l ih =>
      have ih := ih (fun h => hq (List.mem_cons_of_mem _ h)) (fun h => hg (List.mem_cons_of_mem _ h))
      cases hm : prpJson e uj t q with
      | none =>
        exfalso
        cases q with
        | queue => exact hq (List.mem_cons_self ..)
        | graph => exact hg (List.mem_cons_self ..)
        | id => cases hm
        | resource => cases hm
        | label => cases hm
        | tags => cases hm
      | some m =>
        rw [List.filterMap_cons_some hm]
        exact .cons (prp_denotes hu t hl hm) ih
  have := obj_sep h
  simpa [properties, inherit] using this

/-- C105 is false for tasks: The text of a task is never JSON, whatever its accesses, its label and the properties that the program adds: queue and graph print
nothing, but the commas around them are printed. -/
theorem C105_task_false (e : Env) (uj : (c : Custom) → Fin c.n → Value) (hu : UsersOk e uj) (t : Task) (more : List Prp) (v : Value) :
    ¬ Denotes v (task e t more) := by
  intro h
  obtain ⟨X, hX⟩ : ∃ X, task e t more = '{' :: ' ' :: (c!"\"id\" : " ++ dec t.id ++ c!", \"resources\" : " ++ user e t.accesses ++ c!", , " ++ X) := by
    cases more with
    | nil => exact ⟨c!" }", by simp [task, properties, inherit, taskProperties, sepBy, prp]⟩
    | cons q l => exact ⟨c!", " ++ sepBy c!", " ((q :: l).map (prp e t)) ++ c!" }", by simp [task, properties, inherit, taskProperties, sepBy, prp]⟩
  have hv := pValue_of h _ [] (Nat.le_refl _) (fun c h => by cases h)
  rw [List.append_nil, hX] at hv
  have hid : Str c!"id" c!"id" := str_plain (plain_of _ (by decide))
  have hres : Str c!"resources" c!"resources" := str_plain (plain_of _ (by decide))
  have hd := dec_denotes t.id
  have hus := user_denotes hu t.accesses
  generalize hn : List.length _ = n at hv
  have hlen : (dec t.id).length + (user e t.accesses).length + 3 ≤ n := by rw [← hn]; simp; omega
  obtain ⟨f, rfl⟩ : ∃ f, n = f + 3 := ⟨n - 3, by omega⟩
  have h1 := pMembers_cons (f := f + 1) (t := ' ' :: (c!"\"resources\" : " ++ user e t.accesses ++ c!", , " ++ X)) hid ws_sp ws_sp ws_nil hd
    (pValue_of hd (f + 1) _ (by omega) (follow ws_nil (by decide)))
  have h2 := pMembers_cons (f := f) (t := ' ' :: ',' :: ' ' :: X) hres ws_sp ws_sp ws_nil hus
    (pValue_of hus f _ (by omega) (follow ws_nil (by decide)))
  have h3 : pMembers f (skip (' ' :: ',' :: ' ' :: X)) = none := by
    cases f with
    | zero => rfl
    | succ f => simp [skip, isWs, pMembers]
  rw [h3] at h2
  simp [skip, isWs] at h1 h2 hv
  rw [h2] at h1
  simp [pValue, skip, isWs, h1] at hv

/-- C105: The text of a label denotes that label exactly if the label has no quotation marks, backslashes and control characters: these are printed as they
are. -/
theorem C105_label (e : Env) (t : Task) : Denotes (.obj [(c!"label", .str t.label)]) (properties e t [.label]) ↔ ∀ c ∈ t.label, isPlain c = true := by
  constructor
  · intro h
    have hv := pValue_of h _ [] (Nat.le_refl _) (fun c h => by cases h)
    have hX : properties e t [.label] = '{' :: ' ' :: '"' :: (c!"label" ++ ('"' :: ' ' :: ':' :: ' ' :: '"' :: (t.label ++ ('"' :: [' ', '}'])))) := by
      simp [properties, inherit, sepBy, prp]
    rw [List.append_nil, hX] at hv
    have hk : Str c!"label" c!"label" := str_plain (plain_of _ (by decide))
    generalize hn : List.length _ = n at hv
    have hlen : 3 ≤ n := by rw [← hn]; simp
    obtain ⟨f, rfl⟩ : ∃ f, n = f + 3 := ⟨n - 3, by omega⟩
    rw [pValue_obj] at hv
    cases hm : pMembers (f + 2) ('"' :: (c!"label" ++ ('"' :: ' ' :: ':' :: ' ' :: '"' :: (t.label ++ ('"' :: [' ', '}']))))) with
    | none => rw [hm] at hv; simp at hv
    | some x =>
      rw [hm] at hv
      simp at hv
      obtain ⟨v, r, h1, h2⟩ := pMembers_first (m := x.1) (r := x.2) hk (skip_cons (by decide) _) hm
      rw [hv.1] at h2
      simp only [List.head?_cons, Option.some.injEq, Prod.mk.injEq] at h2
      simp only [pValue, if_true] at h1
      cases hs : pStr false (t.label ++ ('"' :: [' ', '}'])) with
      | none => rw [hs] at h1; cases h1
      | some y =>
        rw [hs] at h1
        simp only [Option.map_some, Option.some.injEq, Prod.mk.injEq] at h1
        rw [← h2.2] at h1
        simp only [Value.str.injEq] at h1
        exact (pStr_same (rest := [' ', '}']) (by decide) _ t.label (Nat.le_refl _) [] y.2 (by rw [hs, List.nil_append, ← h1.1])).2
  · intro h
    have hd : Denotes (.str t.label) ('"' :: (t.label ++ ['"'])) := .str (str_plain h)
    have := obj_one (k := c!"label") (plain_of _ (by decide)) hd
    simpa [properties, inherit, sepBy, prp, member] using this

/-- C105 is false for labels: The text of a label with a quotation mark need not be JSON, and a label with a backslash can be read back as another label (a line
break instead of a backslash and an `n`). -/
theorem C105_label_false (e : Env) (id : Nat) (l : List RAccess) (tags : List Bool) :
    (∀ v, ¬ Denotes v (properties e ⟨id, l, c!"a\"b", tags⟩ [.label])) ∧
    Denotes (.obj [(c!"label", .str ['a', '\n', 'b'])]) (properties e ⟨id, l, ['a', '\\', 'n', 'b'], tags⟩ [.label]) := by
  constructor
  · intro v h
    have hv := pValue_of h _ [] (Nat.le_refl _) (fun c h => by cases h)
    have hn : (pValue (c!"{ \"label\" : \"a\"b\" }").length (c!"{ \"label\" : \"a\"b\" }" ++ [])).isNone = true := by decide +kernel
    have e1 : properties e ⟨id, l, c!"a\"b", tags⟩ [.label] = c!"{ \"label\" : \"a\"b\" }" := rfl
    rw [e1] at hv
    rw [hv] at hn
    cases hn
  · have hs : Str ['a', '\n', 'b'] ['a', '\\', 'n', 'b'] := .plain (by decide) (.escape rfl (.plain (by decide) .nil))
    have := obj_one (k := c!"label") (plain_of _ (by decide)) (.str hs)
    simpa [properties, inherit, sepBy, prp, member] using this

/-! ### Examples -/

/-- A program whose own policies print numbers, with resources numbered by their addresses. -/
def exEnv : Env := ⟨fun _ a => dec a.val, fun n => BitVec.ofNat 32 n⟩
def exUser : (c : Custom) → Fin c.n → Value := fun _ a => .num a.val

theorem exOk : UsersOk exEnv exUser := fun _ _ => dec_denotes _

def exAcc : RAccess := ⟨fieldPolicy 2, ⟨7, 3⟩, (Mode.read, fun i => if i = 0 then ⟨0, 10⟩ else ⟨5, 12⟩)⟩

example : resourceAccess exEnv exAcc = c!"{ \"resourceID\" : 7, \"scopeLevel\" : 3, \"mode\" : { \"and\" : [ { \"IOAccess\" : \"read\" }, { \"and\" : [{ \"area\" : { \"begin\" : 0, \"end\" : 10 } }, { \"area\" : { \"begin\" : 5, \"end\" : 12 } }] } ] } }" := by
  decide +kernel

example : Denotes (accJson exUser exAcc.ty exAcc.acc) (access exEnv exAcc.ty exAcc.acc) := (C105_access exEnv exUser exOk _ _ _).mpr rfl

example : access exEnv .io Mode.aadd ≠ access exEnv .io Mode.amul :=
  fun h => absurd ((C105_accesses_differ exEnv exUser exOk (fun _ _ _ h => Fin.ext (by simpa [exUser] using h)) .io Mode.aadd Mode.amul).mp h)
    (fun h => Mode.noConfusion (show Mode.aadd = Mode.amul from h))

def exTask : Task := ⟨5, [⟨.io, ⟨1, 0⟩, Mode.write⟩, ⟨.io, ⟨2, 0⟩, Mode.read⟩], c!"step 1", [true, true, false]⟩

example : task exEnv exTask [.label, .tags] = c!"{ \"id\" : 5, \"resources\" : [{ \"resourceID\" : 2, \"scopeLevel\" : 0, \"mode\" : { \"IOAccess\" : \"read\" } },{ \"resourceID\" : 1, \"scopeLevel\" : 0, \"mode\" : { \"IOAccess\" : \"write\" } }], , , \"label\" : \"step 1\", \"schedulingTags\" : [\"MPI\", \"CUDA\"] }" := by
  decide +kernel

example : ∀ v, ¬ Denotes v (task exEnv exTask [.label, .tags]) := fun v => C105_task_false exEnv exUser exOk exTask _ v

example : Denotes (userJson exEnv exUser exTask.accesses) (user exEnv exTask.accesses) := (C105_access_list exEnv exUser exOk _ _).mpr rfl

example : Denotes (.obj [(c!"id", .num 5), (c!"label", .str c!"step 1"), (c!"schedulingTags", .arr [.str c!"MPI", .str c!"CUDA"])])
    (properties exEnv exTask [.id, .label, .tags]) :=
  C105_properties_partial exEnv exUser exOk exTask (plain_of _ (by decide)) [.id, .label, .tags] (by decide) (by decide)

example : Denotes (.obj [(c!"label", .str exTask.label)]) (properties exEnv exTask [.label]) := (C105_label exEnv exTask).mpr (plain_of _ (by decide))

end RG.Format
