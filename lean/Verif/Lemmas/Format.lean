import Verif.Lemmas.Json
import Verif.Model.Format
/- The texts of the library in the grammar of JSON: helper lemmas for C105. -/
namespace RG.Format
open RG.Json

theorem digit_facts : ∀ d : Nat, d < 10 → isDigit (digit d) = true ∧ (digit d).toNat - 48 = d ∧ (digit d = '0' → d = 0) := by decide

theorem numOf_snoc (s : List Char) (c : Char) : numOf (s ++ [c]) = 10 * numOf s + (c.toNat - 48) := by
  simp [numOf, List.foldl_append]

theorem dec_facts (n : Nat) : dec n ≠ [] ∧ (∀ c ∈ dec n, isDigit c = true) ∧ numOf (dec n) = n ∧ (0 < n → (dec n).head? ≠ some '0') := by
  induction n using Nat.strongRecOn with
  | _ n ih =>
    by_cases h : n < 10
    · rw [dec, if_pos h]
      obtain ⟨h1, h2, h3⟩ := digit_facts n h
      refine ⟨by simp, by simpa using h1, by simp [numOf, h2], ?_⟩
      intro hn h0
      simp only [List.head?_cons, Option.some.injEq] at h0
      have := h3 h0
      omega
    · rw [dec, if_neg h]
      obtain ⟨h1, h2, -⟩ := digit_facts (n % 10) (by omega)
      obtain ⟨i1, i2, i3, i4⟩ := ih (n / 10) (by omega)
      refine ⟨by simp, ?_, ?_, ?_⟩
      · intro c hc
        rcases List.mem_append.mp hc with hc | hc
        · exact i2 c hc
        · rw [List.mem_singleton.mp hc]; exact h1
      · rw [numOf_snoc, i3, h2]; omega
      · intro _ h0
        refine i4 (by omega) ?_
        cases hd : dec (n / 10) with
        | nil => exact absurd hd i1
        | cons c t => rw [hd] at h0; exact h0

theorem dec_denotes (n : Nat) : Denotes (.num n) (dec n) := by
  obtain ⟨h1, h2, h3, h4⟩ := dec_facts n
  have : Number (dec n) := by
    refine ⟨h1, h2, fun h => ?_⟩
    by_cases hn : 0 < n
    · exact absurd h (h4 hn)
    · have : n = 0 := by omega
      subst this
      rw [dec]; rfl
  have := Denotes.num this
  rwa [h3] at this

theorem ws_nil : Ws [] := fun _ h => by cases h
theorem ws_sp : Ws [' '] := by intro c h; rw [List.mem_singleton.mp h]; decide

theorem str_plain {s : List Char} (h : ∀ c ∈ s, isPlain c = true) : Str s s := by
  induction s with
  | nil => exact .nil
  | cons c s ih => exact .plain (h c (List.mem_cons_self ..)) (ih fun d hd => h d (List.mem_cons_of_mem _ hd))

/-- the text of a member -/
def member (k : List Char) (s : Text) : Text := '"' :: (k ++ ('"' :: ' ' :: ':' :: ' ' :: s))

/-- elements and their texts -/
inductive Texts {α : Type} (P : α → Text → Prop) : List α → List Text → Prop
  | nil : Texts P [] []
  | cons {v s l t} : P v s → Texts P l t → Texts P (v :: l) (s :: t)

theorem texts_map {ι α : Type} {P : α → Text → Prop} (f : ι → α) (g : ι → Text) (l : List ι) (h : ∀ i ∈ l, P (f i) (g i)) :
    Texts P (l.map f) (l.map g) := by
  induction l with
  | nil => exact .nil
  | cons i l ih => exact .cons (h i (List.mem_cons_self ..)) (ih fun j hj => h j (List.mem_cons_of_mem _ hj))

theorem items_sep {w : List Char} (hw : Ws w) {l : List Value} {t : List Text} (h : Texts Denotes l t) :
    ∀ {w1 w2 : List Char}, Ws w1 → Ws w2 → l ≠ [] → Items l (w1 ++ (sepBy (',' :: w) t ++ w2)) := by
  induction h with
  | nil => intro _ _ _ _ h; exact absurd rfl h
  | @cons v s l t hv ht ih =>
    intro w1 w2 h1 h2 _
    cases ht with
    | nil => exact .one h1 hv h2
    | @cons v' s' l' t' hv' ht' =>
      have := Items.cons h1 hv ws_nil (ih hw h2 (by simp))
      simpa [sepBy] using this

theorem arr_sep {w : List Char} (hw : Ws w) {l : List Value} {t : List Text} (h : Texts Denotes l t) :
    Denotes (.arr l) ('[' :: (sepBy (',' :: w) t ++ [']'])) := by
  cases h with
  | nil => exact .arr0 ws_nil
  | cons hv ht =>
    have := Denotes.arr (items_sep hw (Texts.cons hv ht) ws_nil ws_nil (by simp))
    simpa using this

/-- `member` in the grammar -/
def IsMember (m : List Char × Value) (s : Text) : Prop := ∃ t, (∀ c ∈ m.1, isPlain c = true) ∧ Denotes m.2 t ∧ s = member m.1 t

theorem members_sep {w : List Char} (hw : Ws w) {l : List (List Char × Value)} {t : List Text} (h : Texts IsMember l t) :
    ∀ {w1 w2 : List Char}, Ws w1 → Ws w2 → l ≠ [] → Members l (w1 ++ (sepBy (',' :: w) t ++ w2)) := by
  induction h with
  | nil => intro _ _ _ _ h; exact absurd rfl h
  | @cons m s l t hm ht ih =>
    intro w1 w2 h1 h2 _
    obtain ⟨k, v⟩ := m
    obtain ⟨x, hk, hx, e⟩ := hm
    subst e
    cases ht with
    | nil =>
      have := Members.one h1 (str_plain hk) ws_sp ws_sp hx h2
      simpa [sepBy, member] using this
    | @cons v' s' l' t' hv' ht' =>
      have := Members.cons h1 (str_plain hk) ws_sp ws_sp hx ws_nil (ih hw h2 (by simp))
      simpa [sepBy, member] using this

/-- `{ ` members ` }` -/
theorem obj_sep {l : List (List Char × Value)} {t : List Text} (h : Texts IsMember l t) :
    Denotes (.obj l) ('{' :: ' ' :: (sepBy [',', ' '] t ++ [' ', '}'])) := by
  cases h with
  | nil =>
    have : Ws [' ', ' '] := by intro c h; simp at h; rw [h]; decide
    exact .obj0 this
  | cons hv ht =>
    have := Denotes.obj (members_sep ws_sp (Texts.cons hv ht) ws_sp ws_sp (by simp))
    simpa using this

/-- an object with one member -/
theorem obj_one {k : List Char} {v : Value} {s : Text} (hk : ∀ c ∈ k, isPlain c = true) (h : Denotes v s) :
    Denotes (.obj [(k, v)]) ('{' :: ' ' :: (member k s ++ [' ', '}'])) := by
  have := obj_sep (.cons (P := IsMember) (v := (k, v)) ⟨s, hk, h, rfl⟩ .nil)
  simpa [sepBy] using this

theorem setTags_eq (l : List Bool) : ∀ k, setTags k l = ((List.range l.length).filter fun i => l.getD i false).map (k + ·) := by
  induction l with
  | nil => intro k; rfl
  | cons b l ih =>
    intro k
    simp only [setTags, List.length_cons, List.range_succ_eq_map, List.filter_cons, List.filter_map, ih (k + 1)]
    cases b <;> simp [Function.comp_def, Nat.add_assoc, Nat.add_comm 1]

/-! ### Labels -/

theorem pStr_no_backslash {X : List Char} : (∀ c ∈ X, c ≠ '\\') → ∀ {D r : List Char}, pStr false X = some (D, r) → ∀ c ∈ D, c ≠ '\\' := by
  induction X with
  | nil => intro _ D r h; simp [pStr] at h
  | cons c X ih =>
    intro hX D r h
    simp only [pStr] at h
    by_cases h1 : c = '"'
    · rw [if_pos h1] at h; cases h; intro d hd; cases hd
    · rw [if_neg h1, if_neg (hX c (List.mem_cons_self ..))] at h
      by_cases h2 : isPlain c = true
      · rw [if_pos h2] at h
        cases h3 : pStr false X with
        | none => rw [h3] at h; cases h
        | some x =>
          rw [h3] at h
          cases h
          intro d hd
          rcases List.mem_cons.mp hd with e | hd
          · rw [e]; exact hX c (List.mem_cons_self ..)
          · exact ih (fun d hd => hX d (List.mem_cons_of_mem _ hd)) (r := x.2) (by rw [h3]) d hd
      · rw [if_neg h2] at h; cases h

/-- A string is read back as itself only if all of its characters are plain. -/
theorem pStr_same {rest : List Char} (hrest : ∀ c ∈ rest, c ≠ '\\') : ∀ (n : Nat) (L : List Char), L.length ≤ n → ∀ (K r : List Char),
    pStr false (L ++ '"' :: rest) = some (K ++ L, r) → K = [] ∧ ∀ c ∈ L, isPlain c = true := by
  intro n
  induction n with
  | zero =>
    intro L hL K r h
    have : L = [] := List.length_eq_zero_iff.mp (by omega)
    subst this
    simp [pStr] at h
    exact ⟨h.1, fun _ h => by cases h⟩
  | succ n ih =>
    intro L hL K r h
    cases L with
    | nil =>
      simp [pStr] at h
      exact ⟨h.1, fun _ h => by cases h⟩
    | cons c L =>
      rw [List.cons_append] at h
      simp only [pStr] at h
      by_cases h1 : c = '"'
      · rw [if_pos h1] at h
        simp at h
      rw [if_neg h1] at h
      by_cases h2 : c = '\\'
      · rw [if_pos h2] at h
        subst h2
        exfalso
        cases L with
        | nil =>
          simp only [List.nil_append, pStr, escape] at h
          cases h3 : pStr false rest with
          | none => rw [h3] at h; cases h
          | some x =>
            rw [h3] at h
            have hb := pStr_no_backslash hrest (D := x.1) (r := x.2) (by rw [h3])
            simp only [Option.map_some, Option.some.injEq, Prod.mk.injEq] at h
            cases K with
            | nil => simp at h
            | cons k K =>
              simp only [List.cons_append, List.cons.injEq] at h
              exact hb '\\' (by rw [h.1.2]; simp) rfl
        | cons e L2 =>
          simp only [List.cons_append, pStr] at h
          cases he : escape e with
          | none => rw [he] at h; cases h
          | some d =>
            rw [he] at h
            simp only at h
            cases h3 : pStr false (L2 ++ '"' :: rest) with
            | none => rw [h3] at h; cases h
            | some x =>
              rw [h3] at h
              simp only [Option.map_some, Option.some.injEq, Prod.mk.injEq] at h
              have hlen : L2.length ≤ n := by simp at hL; omega
              cases K with
              | nil =>
                simp only [List.nil_append, List.cons.injEq] at h
                have := ih L2 hlen [e] x.2 (by rw [h3, List.singleton_append, ← h.1.2])
                simp at this
              | cons k K =>
                simp only [List.cons_append, List.cons.injEq] at h
                have := ih L2 hlen (K ++ ['\\', e]) x.2 (by rw [h3]; simp [← h.1.2])
                simp at this
      · rw [if_neg h2] at h
        by_cases h4 : isPlain c = true
        · rw [if_pos h4] at h
          cases h3 : pStr false (L ++ '"' :: rest) with
          | none => rw [h3] at h; cases h
          | some x =>
            rw [h3] at h
            simp only [Option.map_some, Option.some.injEq, Prod.mk.injEq] at h
            have hlen : L.length ≤ n := by simp at hL; omega
            cases K with
            | nil =>
              simp only [List.nil_append, List.cons.injEq] at h
              obtain ⟨-, h5⟩ := ih L hlen [] x.2 (by rw [h3, List.nil_append, ← h.1.2])
              refine ⟨rfl, fun d hd => ?_⟩
              rcases List.mem_cons.mp hd with e | hd
              · rw [e]; exact h4
              · exact h5 d hd
            | cons k K =>
              simp only [List.cons_append, List.cons.injEq] at h
              have := ih L hlen (K ++ [c]) x.2 (by rw [h3]; simp [← h.1.2])
              simp at this
        · rw [if_neg h4] at h; cases h

end RG.Format
