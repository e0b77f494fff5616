/-
JSON (RFC 8259): which texts denote which values. Numbers are natural numbers, and `\u` escapes and the literals `true`, `false` and `null` are left out; the
texts that the library prints do not use them (outside of labels).

`Denotes v s` is the grammar. A parser shows that a text denotes at most one value, and that certain texts denote none.
-/
namespace RG.Json

inductive Value
  | num (n : Nat)
  | str (s : List Char)
  | arr (l : List Value)
  | obj (l : List (List Char × Value))

/-- white space of RFC 8259 -/
def isWs (c : Char) : Bool := c == ' ' || c == '\t' || c == '\n' || c == '\r'

def isDigit (c : Char) : Bool := decide ('0' ≤ c) && decide (c ≤ '9')

/-- characters of a string that stand for themselves -/
def isPlain (c : Char) : Bool := c != '"' && c != '\\' && decide (' ' ≤ c)

/-- what a character after a backslash stands for -/
def escape : Char → Option Char
  | '"' => some '"'
  | '\\' => some '\\'
  | '/' => some '/'
  | 'b' => some (Char.ofNat 8)
  | 'f' => some (Char.ofNat 12)
  | 'n' => some '\n'
  | 'r' => some '\r'
  | 't' => some '\t'
  | _ => none

def Ws (s : List Char) : Prop := ∀ c ∈ s, isWs c = true

/-- the number that digits denote -/
def numOf (s : List Char) : Nat := s.foldl (fun n c => 10 * n + (c.toNat - 48)) 0

/-- digits without leading zeros -/
def Number (s : List Char) : Prop := s ≠ [] ∧ (∀ c ∈ s, isDigit c = true) ∧ (s.head? = some '0' → s = ['0'])

/-- `Str s t`: between quotes, `t` denotes `s` -/
inductive Str : List Char → List Char → Prop
  | nil : Str [] []
  | plain {c s t} : isPlain c = true → Str s t → Str (c :: s) (c :: t)
  | escape {c d s t} : Json.escape c = some d → Str s t → Str (d :: s) ('\\' :: c :: t)

mutual
/-- the text denotes the value -/
inductive Denotes : Value → List Char → Prop
  | num {s} : Number s → Denotes (.num (numOf s)) s
  | str {s t} : Str s t → Denotes (.str s) ('"' :: (t ++ ['"']))
  | arr0 {w} : Ws w → Denotes (.arr []) ('[' :: (w ++ [']']))
  | arr {l t} : Items l t → Denotes (.arr l) ('[' :: (t ++ [']']))
  | obj0 {w} : Ws w → Denotes (.obj []) ('{' :: (w ++ ['}']))
  | obj {l t} : Members l t → Denotes (.obj l) ('{' :: (t ++ ['}']))

/-- elements with commas between them -/
inductive Items : List Value → List Char → Prop
  | one {v s w1 w2} : Ws w1 → Denotes v s → Ws w2 → Items [v] (w1 ++ (s ++ w2))
  | cons {v s w1 w2 l t} : Ws w1 → Denotes v s → Ws w2 → Items l t → Items (v :: l) (w1 ++ (s ++ (w2 ++ (',' :: t))))

/-- pairs of a string and a value with commas between them -/
inductive Members : List (List Char × Value) → List Char → Prop
  | one {k tk v s w1 w2 w3 w4} : Ws w1 → Str k tk → Ws w2 → Ws w3 → Denotes v s → Ws w4 →
      Members [(k, v)] (w1 ++ ('"' :: (tk ++ ('"' :: (w2 ++ (':' :: (w3 ++ (s ++ w4))))))))
  | cons {k tk v s w1 w2 w3 w4 l t} : Ws w1 → Str k tk → Ws w2 → Ws w3 → Denotes v s → Ws w4 → Members l t →
      Members ((k, v) :: l) (w1 ++ ('"' :: (tk ++ ('"' :: (w2 ++ (':' :: (w3 ++ (s ++ (w4 ++ (',' :: t))))))))))
end

/-! ### Parser -/

def skip : List Char → List Char
  | [] => []
  | c :: s => if isWs c then skip s else c :: s

/-- up to the closing quote; the flag tells that a backslash came before -/
def pStr : Bool → List Char → Option (List Char × List Char)
  | _, [] => none
  | true, c :: s =>
    match escape c with
    | none => none
    | some d => (pStr false s).map fun x => (d :: x.1, x.2)
  | false, c :: s =>
    if c = '"' then some ([], s)
    else if c = '\\' then pStr true s
    else if isPlain c then (pStr false s).map fun x => (c :: x.1, x.2)
    else none

def pNum (s : List Char) : Option (Value × List Char) :=
  let d := s.takeWhile isDigit
  if d = [] then none
  else if d.head? = some '0' && d != ['0'] then none
  else some (.num (numOf d), s.dropWhile isDigit)

mutual
def pValue : Nat → List Char → Option (Value × List Char)
  | 0, _ => none
  | _ + 1, [] => none
  | f + 1, c :: s =>
    if c = '"' then (pStr false s).map fun x => (.str x.1, x.2)
    else if c = '[' then
      if (skip s).head? = some ']' then some (.arr [], (skip s).tail)
      else (pItems f (skip s)).map fun x => (.arr x.1, x.2)
    else if c = '{' then
      if (skip s).head? = some '}' then some (.obj [], (skip s).tail)
      else (pMembers f (skip s)).map fun x => (.obj x.1, x.2)
    else pNum (c :: s)

def pItems : Nat → List Char → Option (List Value × List Char)
  | 0, _ => none
  | f + 1, s =>
    match pValue f s with
    | none => none
    | some (v, r) =>
      if (skip r).head? = some ',' then (pItems f (skip (skip r).tail)).map fun x => (v :: x.1, x.2)
      else if (skip r).head? = some ']' then some ([v], (skip r).tail)
      else none

def pMembers : Nat → List Char → Option (List (List Char × Value) × List Char)
  | 0, _ => none
  | f + 1, s =>
    if s.head? = some '"' then
      match pStr false s.tail with
      | none => none
      | some (k, r) =>
        if (skip r).head? = some ':' then
          match pValue f (skip (skip r).tail) with
          | none => none
          | some (v, r) =>
            if (skip r).head? = some ',' then (pMembers f (skip (skip r).tail)).map fun x => ((k, v) :: x.1, x.2)
            else if (skip r).head? = some '}' then some ([(k, v)], (skip r).tail)
            else none
        else none
    else none
end

/-! ### The parser finds what a text denotes -/

theorem skip_ws {w : List Char} (hw : Ws w) (s : List Char) : skip (w ++ s) = skip s := by
  induction w with
  | nil => rfl
  | cons c w ih =>
    have : isWs c = true := hw c (List.mem_cons_self ..)
    simp only [List.cons_append, skip, this, if_true]
    exact ih fun d hd => hw d (List.mem_cons_of_mem _ hd)

theorem skip_cons {c : Char} (h : isWs c = false) (s : List Char) : skip (c :: s) = c :: s := by
  simp [skip, h]

theorem plain_facts {c : Char} (h : isPlain c = true) : c ≠ '"' ∧ c ≠ '\\' := by
  simp only [isPlain, Bool.and_eq_true, bne_iff_ne, ne_eq] at h
  exact h.1

theorem pStr_of {s t : List Char} (h : Str s t) (rest : List Char) : pStr false (t ++ '"' :: rest) = some (s, rest) := by
  induction h with
  | nil => simp [pStr]
  | plain hc _ ih =>
    obtain ⟨h1, h2⟩ := plain_facts hc
    simp [pStr, h1, h2, hc, ih]
  | escape he _ ih => simp [pStr, he, ih]

theorem pNum_of {s : List Char} (h : Number s) {rest : List Char} (hr : ∀ c, rest.head? = some c → isDigit c = false) :
    pNum (s ++ rest) = some (.num (numOf s), rest) := by
  obtain ⟨h1, h2, h3⟩ := h
  have h4 : (s ++ rest).takeWhile isDigit = s ∧ (s ++ rest).dropWhile isDigit = rest := by
    clear h1 h3
    induction s with
    | nil =>
      cases rest with
      | nil => exact ⟨rfl, rfl⟩
      | cons c r => simp [hr c rfl]
    | cons c s ih =>
      have hc := h2 c (List.mem_cons_self ..)
      have := ih fun d hd => h2 d (List.mem_cons_of_mem _ hd)
      simp [hc, this.1, this.2]
  unfold pNum
  rw [h4.1, h4.2]
  simp only [h1, if_false]
  have h5 : ((s.head? = some '0') && (s != ['0'])) = false := by
    by_cases e : s.head? = some '0'
    · rw [h3 e]; decide
    · simp [e]
  simp [h5]

/-- the first character of a value is neither white space nor a closing bracket -/
theorem denotes_head {v : Value} {s : List Char} (h : Denotes v s) :
    ∃ c t, s = c :: t ∧ isWs c = false ∧ c ≠ ']' ∧ c ≠ '}' := by
  cases h with
  | num h =>
    obtain ⟨h1, h2, -⟩ := h
    cases s with
    | nil => exact absurd rfl h1
    | cons c t =>
      have hc := h2 c (List.mem_cons_self ..)
      refine ⟨c, t, rfl, ?_, ?_, ?_⟩
      · cases hw : isWs c with
        | false => rfl
        | true =>
          simp only [isWs, Bool.or_eq_true, beq_iff_eq] at hw
          rcases hw with ((e | e) | e) | e <;> (subst e; revert hc; decide)
      · intro e; subst e; revert hc; decide
      · intro e; subst e; revert hc; decide
  | str _ => exact ⟨_, _, rfl, by decide, by decide, by decide⟩
  | arr0 _ => exact ⟨_, _, rfl, by decide, by decide, by decide⟩
  | arr _ => exact ⟨_, _, rfl, by decide, by decide, by decide⟩
  | obj0 _ => exact ⟨_, _, rfl, by decide, by decide, by decide⟩
  | obj _ => exact ⟨_, _, rfl, by decide, by decide, by decide⟩

theorem skip_value {v : Value} {s : List Char} (h : Denotes v s) (r : List Char) : skip (s ++ r) = s ++ r := by
  obtain ⟨c, t, e, hw, -⟩ := denotes_head h
  rw [e, List.cons_append, skip_cons hw]

/-- what follows a value inside of brackets does not begin with a digit -/
theorem follow {w r : List Char} {c : Char} (hw : Ws w) (hc : isDigit c = false) :
    ∀ d, (w ++ c :: r).head? = some d → isDigit d = false := by
  intro d hd
  cases w with
  | nil => simp at hd; rw [← hd]; exact hc
  | cons x w =>
    have hx := hw x (List.mem_cons_self ..)
    simp at hd
    subst hd
    simp only [isWs, Bool.or_eq_true, beq_iff_eq] at hx
    rcases hx with ((e | e) | e) | e <;> (subst e; decide)

/-- one member and a comma -/
theorem pMembers_cons {f : Nat} {k tk s w2 w3 w4 t : List Char} {v : Value} (hk : Str k tk) (h2 : Ws w2) (h3 : Ws w3) (h4 : Ws w4) (hs : Denotes v s)
    (hv : pValue f (s ++ (w4 ++ (',' :: t))) = some (v, w4 ++ (',' :: t))) :
    pMembers (f + 1) ('"' :: (tk ++ ('"' :: (w2 ++ (':' :: (w3 ++ (s ++ (w4 ++ (',' :: t))))))))) =
      (pMembers f (skip t)).map fun x => ((k, v) :: x.1, x.2) := by
  simp only [pMembers, List.head?_cons, if_true, List.tail_cons]
  rw [pStr_of hk]
  simp only [skip_ws h2, skip_cons (show isWs ':' = false by decide), List.head?_cons, if_true, List.tail_cons, skip_ws h3, skip_value hs, hv, skip_ws h4,
    skip_cons (show isWs ',' = false by decide)]

/-- the last member -/
theorem pMembers_one {f : Nat} {k tk s w2 w3 w4 t : List Char} {v : Value} (hk : Str k tk) (h2 : Ws w2) (h3 : Ws w3) (h4 : Ws w4) (hs : Denotes v s)
    (hv : pValue f (s ++ (w4 ++ ('}' :: t))) = some (v, w4 ++ ('}' :: t))) :
    pMembers (f + 1) ('"' :: (tk ++ ('"' :: (w2 ++ (':' :: (w3 ++ (s ++ (w4 ++ ('}' :: t))))))))) = some ([(k, v)], t) := by
  simp only [pMembers, List.head?_cons, if_true, List.tail_cons]
  rw [pStr_of hk]
  simp only [skip_ws h2, skip_cons (show isWs ':' = false by decide), List.head?_cons, if_true, List.tail_cons, skip_ws h3, skip_value hs, hv, skip_ws h4,
    skip_cons (show isWs '}' = false by decide)]
  simp

mutual
theorem pValue_of : ∀ {v : Value} {s : List Char}, Denotes v s → ∀ (f : Nat) (rest : List Char), s.length ≤ f →
    (∀ c, rest.head? = some c → isDigit c = false) → pValue f (s ++ rest) = some (v, rest)
  | _, s, .num h, f, rest, hf, hr => by
    obtain ⟨h1, h2, h3⟩ := h
    cases s with
    | nil => exact absurd rfl h1
    | cons c t =>
      cases f with
      | zero => simp at hf
      | succ f =>
        have hc := h2 c (List.mem_cons_self ..)
        have e1 : c ≠ '"' := by intro e; subst e; revert hc; decide
        have e2 : c ≠ '[' := by intro e; subst e; revert hc; decide
        have e3 : c ≠ '{' := by intro e; subst e; revert hc; decide
        rw [List.cons_append]
        simp only [pValue, e1, e2, e3, if_false]
        rw [← List.cons_append]
        exact pNum_of ⟨h1, h2, h3⟩ hr
  | _, _, .str h, f, rest, hf, hr => by
    cases f with
    | zero => simp at hf
    | succ f =>
      rw [List.cons_append, List.append_assoc]
      simp only [pValue, if_true]
      rw [List.singleton_append, pStr_of h]
      rfl
  | _, _, .arr0 h, f, rest, hf, hr => by
    cases f with
    | zero => simp at hf
    | succ f =>
      rw [List.cons_append, List.append_assoc, List.singleton_append]
      simp only [pValue]
      rw [skip_ws h, skip_cons (by decide)]
      simp
  | _, _, .arr (t := t) h, f, rest, hf, hr => by
    cases f with
    | zero => simp at hf
    | succ f =>
      rw [List.cons_append, List.append_assoc, List.singleton_append]
      simp only [pValue]
      have hl : t.length + 1 ≤ f := by simp at hf; omega
      obtain ⟨h1, h2⟩ := pItems_of h f rest hl
      simp [h1, h2]
  | _, _, .obj0 h, f, rest, hf, hr => by
    cases f with
    | zero => simp at hf
    | succ f =>
      rw [List.cons_append, List.append_assoc, List.singleton_append]
      simp only [pValue]
      rw [skip_ws h, skip_cons (by decide)]
      simp
  | _, _, .obj (t := t) h, f, rest, hf, hr => by
    cases f with
    | zero => simp at hf
    | succ f =>
      rw [List.cons_append, List.append_assoc, List.singleton_append]
      simp only [pValue]
      have hl : t.length + 1 ≤ f := by simp at hf; omega
      obtain ⟨h1, h2⟩ := pMembers_of h f rest hl
      simp [h1, h2]

theorem pItems_of : ∀ {l : List Value} {t : List Char}, Items l t → ∀ (f : Nat) (rest : List Char), t.length + 1 ≤ f →
    (skip (t ++ ']' :: rest)).head? ≠ some ']' ∧ pItems f (skip (t ++ ']' :: rest)) = some (l, rest)
  | _, _, .one (v := v) (s := s) (w1 := w1) (w2 := w2) h1 h h2, f, rest, hf => by
    have e : skip ((w1 ++ (s ++ w2)) ++ ']' :: rest) = s ++ (w2 ++ ']' :: rest) := by
      rw [List.append_assoc, List.append_assoc, skip_ws h1, skip_value h]
    rw [e]
    constructor
    · obtain ⟨c, t, e, -, hc, -⟩ := denotes_head h
      rw [e]
      simpa using hc
    · cases f with
      | zero => simp at hf
      | succ f =>
        have hv := pValue_of h f (w2 ++ ']' :: rest) (by simp at hf; omega) (follow h2 (by decide))
        simp only [pItems, hv, skip_ws h2, skip_cons (show isWs ']' = false by decide)]
        simp
  | _, _, .cons (v := v) (s := s) (w1 := w1) (w2 := w2) (l := l) (t := t) h1 h h2 ht, f, rest, hf => by
    have e : skip ((w1 ++ (s ++ (w2 ++ (',' :: t)))) ++ ']' :: rest) = s ++ (w2 ++ ',' :: (t ++ ']' :: rest)) := by
      rw [List.append_assoc, List.append_assoc, List.append_assoc, skip_ws h1, skip_value h]
      rfl
    rw [e]
    constructor
    · obtain ⟨c, t, e, -, hc, -⟩ := denotes_head h
      rw [e]
      simpa using hc
    · cases f with
      | zero => simp at hf
      | succ f =>
        have hv := pValue_of h f (w2 ++ ',' :: (t ++ ']' :: rest)) (by simp at hf; omega) (follow h2 (by decide))
        obtain ⟨-, h3⟩ := pItems_of ht f rest (by simp at hf; omega)
        simp only [pItems, hv, skip_ws h2, skip_cons (show isWs ',' = false by decide)]
        simp [h3]

theorem pMembers_of : ∀ {l : List (List Char × Value)} {t : List Char}, Members l t → ∀ (f : Nat) (rest : List Char), t.length + 1 ≤ f →
    (skip (t ++ '}' :: rest)).head? ≠ some '}' ∧ pMembers f (skip (t ++ '}' :: rest)) = some (l, rest)
  | _, _, .one (k := k) (tk := tk) (v := v) (s := s) (w1 := w1) (w2 := w2) (w3 := w3) (w4 := w4) h1 hk h2 h3 h h4, f, rest, hf => by
    have e : skip ((w1 ++ ('"' :: (tk ++ ('"' :: (w2 ++ (':' :: (w3 ++ (s ++ w4)))))))) ++ '}' :: rest) =
        '"' :: (tk ++ ('"' :: (w2 ++ (':' :: (w3 ++ (s ++ (w4 ++ ('}' :: rest)))))))) := by
      rw [List.append_assoc, skip_ws h1, List.cons_append, skip_cons (by decide)]
      simp
    rw [e]
    refine ⟨by simp, ?_⟩
    cases f with
    | zero => simp at hf
    | succ f => exact pMembers_one hk h2 h3 h4 h (pValue_of h f _ (by simp at hf; omega) (follow h4 (by decide)))
  | _, _, .cons (k := k) (tk := tk) (v := v) (s := s) (w1 := w1) (w2 := w2) (w3 := w3) (w4 := w4) (l := l) (t := t) h1 hk h2 h3 h h4 ht, f, rest, hf => by
    have e : skip ((w1 ++ ('"' :: (tk ++ ('"' :: (w2 ++ (':' :: (w3 ++ (s ++ (w4 ++ (',' :: t))))))))) ) ++ '}' :: rest) =
        '"' :: (tk ++ ('"' :: (w2 ++ (':' :: (w3 ++ (s ++ (w4 ++ (',' :: (t ++ '}' :: rest))))))))) := by
      rw [List.append_assoc, skip_ws h1, List.cons_append, skip_cons (by decide)]
      simp
    rw [e]
    refine ⟨by simp, ?_⟩
    cases f with
    | zero => simp at hf
    | succ f =>
      rw [pMembers_cons hk h2 h3 h4 h (pValue_of h f _ (by simp at hf; omega) (follow h4 (by decide)))]
      obtain ⟨-, h5⟩ := pMembers_of ht f rest (by simp at hf; omega)
      rw [h5]
      rfl
end

/-- A text denotes at most one value. -/
theorem denotes_unique {v w : Value} {s : List Char} (h1 : Denotes v s) (h2 : Denotes w s) : v = w := by
  have e1 := pValue_of h1 s.length [] (Nat.le_refl _) (fun c h => by cases h)
  have e2 := pValue_of h2 s.length [] (Nat.le_refl _) (fun c h => by cases h)
  rw [e1] at e2
  cases e2
  rfl

end RG.Json
