import Verif.Lemmas.ChunkedList
/-
C26: used by one thread, the list behaves like a mathematical list.
-/
set_option linter.unusedSectionVars false
namespace RG.CL

variable {α : Type}

/-! ### The specification -/

/-- What a client of a list expects. Pushed values are numbered. -/
structure Spec (α : Type) where
  /-- all values that were ever pushed -/
  log : List α
  /-- the numbers of the values in the list, latest first -/
  elems : List Nat
  /-- iterators: `none` if gone, `some none` at the end, `some (some k)` at value `k` -/
  its : List (Option (Option Nat))

def Spec.init : Spec α := ⟨[], [], []⟩

def Spec.get (s : Spec α) (i : Nat) : Option Nat := (s.its[i]?.join).join

def Spec.step [DecidableEq α] (s : Spec α) : Op α → Spec α
  | .push v => ⟨s.log ++ [v], s.log.length :: s.elems, s.its ++ [some (some s.log.length)]⟩
  | .rbegin => { s with its := s.its ++ [some s.elems.head?] }
  | .copy i =>
    match s.get i with
    | none => { s with its := s.its ++ [some none] }
    | some k => { s with its := s.its ++ [some (s.elems.find? (· ≤ k))] }
  | .next i =>
    match s.get i with
    | none => s
    | some k => { s with its := s.its.set i (some (s.elems.find? (· < k))) }
  | .drop i => { s with its := s.its.set i none }
  | .remove i =>
    match s.get i with
    | none => s
    | some k => { s with elems := s.elems.filter (· ≠ k) }
  | .erase v => { s with elems := s.elems.filter (s.log[·]? ≠ some v) }

/-- What the client has to obey: only iterators in scope are used, `rend()` is neither advanced nor removed, and
nothing is removed twice. -/
def Spec.Ok (s : Spec α) : Op α → Prop
  | .push _ | .rbegin | .erase _ => True
  | .copy i | .drop i => ∃ r, s.its[i]? = some (some r)
  | .next i => ∃ k, s.its[i]? = some (some (some k))
  | .remove i => ∃ k, s.its[i]? = some (some (some k)) ∧ k ∈ s.elems

def Spec.Valid [DecidableEq α] : Spec α → List (Op α) → Prop
  | _, [] => True
  | s, op :: ops => s.Ok op ∧ Valid (s.step op) ops

def Spec.run [DecidableEq α] (s : Spec α) (ops : List (Op α)) : Spec α := ops.foldl Spec.step s

def Spec.deref (s : Spec α) (i : Nat) : Option α := (s.get i).bind (s.log[·]?)

/-! ### The list meets the specification -/

def holds (its : List (Option (Option Nat))) (k : Nat) : Nat := its.count (some (some k))

structure R (N : Nat) (c : Client α) (s : Spec α) : Prop where
  inv : Inv N c.list s.log (fun k => decide (k ∈ s.elems)) (holds s.its)
  ne : NonEmpty c.list
  its : c.its = s.its.map (Option.map (Option.map (posOf N)))
  sorted : s.elems.Pairwise (· > ·)

theorem find_lt {l : List Nat} (hs : l.Pairwise (· > ·)) (n : Nat) :
    l.find? (· < n) = below (fun k => decide (k ∈ l)) n := by
  induction l generalizing n with
  | nil =>
    have : below (fun k => decide (k ∈ ([] : List Nat))) n = none := by
      rw [below_skip (a := 0) (by omega) (by simp)]; rfl
    rw [this]; rfl
  | cons a l ih =>
    have h2 := (List.pairwise_cons.1 hs).1
    have h3 := (List.pairwise_cons.1 hs).2
    by_cases h : a < n
    · rw [List.find?_cons_of_pos (by simpa using h), below_skip (a := a + 1) (by omega)]
      · rw [below, if_pos (by simp)]
      · intro j h1 h4
        simp only [List.mem_cons, decide_eq_false_iff_not, not_or]
        exact ⟨by omega, fun hj => by have := h2 j hj; omega⟩
    · rw [List.find?_cons_of_neg (by simpa using h), ih h3]
      have : ∀ m, m ≤ n → below (fun k => decide (k ∈ l)) m = below (fun k => decide (k ∈ a :: l)) m := by
        intro m hm
        induction m with
        | zero => rfl
        | succ m ihm =>
          rw [below, below, ihm (by omega)]
          have : (m ∈ a :: l) ↔ m ∈ l := by
            simp only [List.mem_cons, or_iff_right_iff_imp]; omega
          simp only [this]
      exact this n (by omega)

theorem holds_append (its : List (Option (Option Nat))) (r : Option Nat) :
    holds (its ++ [some r]) = match r with
      | none => holds its
      | some k => upd (holds its) k (holds its k + 1) := by
  funext x
  unfold holds
  rw [List.count_append]
  cases r with
  | none => simp
  | some k =>
    dsimp only [upd]
    by_cases e : x = k
    · subst e; simp
    · rw [if_neg e, List.count_singleton]
      have : (some (some k) == some (some x)) = false := by simp; omega
      rw [this]; simp

theorem holds_set {its : List (Option (Option Nat))} {i k : Nat} (h : its[i]? = some (some (some k)))
    (r : Option (Option Nat)) :
    holds (its.set i r) = match r with
      | some (some k') => upd (upd (holds its) k (holds its k - 1)) k' (upd (holds its) k (holds its k - 1) k' + 1)
      | _ => upd (holds its) k (holds its k - 1) := by
  obtain ⟨hlt, hg⟩ := List.getElem?_eq_some_iff.1 h
  funext x
  have hc : ∀ y, holds (its.set i r) y = holds its y - (if y = k then 1 else 0) + if r = some (some y) then 1 else 0 := by
    intro y
    unfold holds
    rw [List.count_set hlt, hg]
    congr 1
    · by_cases e : y = k
      · subst e; simp
      · rw [if_neg e]
        have : (some (some k) == some (some y)) = false := by simp; omega
        rw [this]; simp
    · by_cases e : r = some (some y) <;> simp [e]
  rw [hc x]
  cases r with
  | none => unfold upd; by_cases e : x = k <;> simp [e]
  | some r =>
    cases r with
    | none => unfold upd; by_cases e : x = k <;> simp [e]
    | some k' =>
      dsimp only
      unfold upd
      by_cases e : x = k
      · by_cases e' : x = k'
        · subst e; subst e'; simp
        · have : ¬ k' = x := fun h => e' h.symm
          subst e; simp [e', this]
      · by_cases e' : x = k'
        · subst e'; simp [e]
        · have : ¬ k' = x := fun h => e' h.symm
          simp [e, e', this]

theorem holds_set_end {its : List (Option (Option Nat))} {i : Nat} (h : its[i]? = some (some none)) :
    holds (its.set i none) = holds its := by
  obtain ⟨hlt, hg⟩ := List.getElem?_eq_some_iff.1 h
  funext x
  unfold holds
  rw [List.count_set hlt, hg]
  simp

theorem holds_pos {its : List (Option (Option Nat))} {i k : Nat} (h : its[i]? = some (some (some k))) :
    0 < holds its k := by
  unfold holds
  rw [List.count_pos_iff]
  exact List.mem_of_getElem? h

theorem get_eq {N : Nat} {c : Client α} {s : Spec α} (h : c.its = s.its.map (Option.map (Option.map (posOf N))))
    (i : Nat) : c.get i = (s.get i).map (posOf N) := by
  unfold Client.get Spec.get
  rw [h, List.getElem?_map]
  cases s.its[i]? with
  | none => rfl
  | some a => cases a with
    | none => rfl
    | some b => cases b <;> rfl

theorem Found.append {N : Nat} {l : LList α} {r : Option Pos} {log : List α} {alive : Nat → Bool}
    {its : List (Option (Option Nat))} {b : Option Nat} (h : Found N l r log alive (holds its) b) :
    Inv N l log alive (holds (its ++ [some b])) ∧ r = b.map (posOf N) := by
  cases b with
  | none => rw [holds_append]; exact ⟨h.2, h.1⟩
  | some k => rw [holds_append]; exact ⟨h.2, h.1⟩

theorem mem_lt {N : Nat} {c : Client α} {s : Spec α} (h : R N c s) {k : Nat} (hk : k ∈ s.elems) : k < s.log.length :=
  h.inv.aliveLt k (by simpa using hk)

theorem find_head {l : List Nat} {n : Nat} (h : ∀ k ∈ l, k < n) : l.find? (· < n) = l.head? := by
  cases l with
  | nil => rfl
  | cons a l => rw [List.find?_cons_of_pos (by simpa using h a (by simp))]; rfl

theorem find_le (l : List Nat) (k : Nat) : l.find? (· ≤ k) = l.find? (· < k + 1) := by
  congr 1
  funext x
  exact decide_eq_decide.2 (by omega)

variable [DecidableEq α]

theorem R.step {N : Nat} (hN : 0 < N) {c : Client α} {s : Spec α} (h : R N c s) {op : Op α} (hok : s.Ok op) :
    R N (c.step N op) (s.step op) := by
  have hget := get_eq h.its
  cases op with
  | push v =>
    obtain ⟨h1, h2⟩ := h.inv.push hN v
    have ha : upd (fun k => decide (k ∈ s.elems)) s.log.length true =
        fun k => decide (k ∈ s.log.length :: s.elems) := by
      funext k; unfold upd; by_cases e : k = s.log.length <;> simp [e]
    rw [ha] at h1
    obtain ⟨h3, h4⟩ := h1.append
    refine ⟨h3, h2, ?_, ?_⟩
    · simp only [Client.step, Spec.step, List.map_append, List.map_cons, List.map_nil, h.its, h4]
      rfl
    · simp only [Spec.step, List.pairwise_cons]
      exact ⟨fun k hk => mem_lt h hk, h.sorted⟩
  | rbegin =>
    have h1 := h.inv.rbegin hN h.ne
    rw [← find_lt h.sorted, find_head (fun k hk => mem_lt h hk)] at h1
    obtain ⟨h3, h4⟩ := h1.append
    have := rbegin_next (N := N) c.list
    refine ⟨h3, h.ne.congr this.1 this.2, ?_, h.sorted⟩
    simp only [Client.step, Spec.step, List.map_append, List.map_cons, List.map_nil, h.its, h4]
    rfl
  | copy i =>
    obtain ⟨r, hr⟩ := hok
    have hsg : s.get i = r := by simp [Spec.get, hr]
    have hcg := hget i
    rw [hsg] at hcg
    simp only [Client.step, Spec.step, hsg, hcg]
    cases r with
    | none =>
      refine ⟨?_, h.ne, ?_, h.sorted⟩
      · have := holds_append s.its none
        dsimp only at this ⊢
        rw [this]; exact h.inv
      · simp [h.its, LList.copy]
    | some k =>
      have hk := holds_pos hr
      have hlt := h.inv.holdLt k hk
      have h1 := h.inv.mkIter hN hlt (h.inv.chunk_lt hN hlt)
      rw [← find_lt h.sorted, ← find_le] at h1
      obtain ⟨h3, h4⟩ := h1.append
      have := seek_next (N := N) (k + 1) c.list (k / N) k
      refine ⟨h3, h.ne.congr this.1 this.2, ?_, h.sorted⟩
      simp only [List.map_append, List.map_cons, List.map_nil, h.its, Option.map_some, LList.copy, posOf]
      rw [h4]
  | next i =>
    obtain ⟨k, hr⟩ := hok
    have hsg : s.get i = some k := by simp [Spec.get, hr]
    have hcg := hget i
    rw [hsg] at hcg
    simp only [Client.step, Spec.step, hsg, hcg, Option.map_some]
    have hk := holds_pos hr
    have h1 := h.inv.next hN hk
    rw [← find_lt h.sorted] at h1
    have hn := next_next (N := N) c.list (posOf N k)
    have hset := holds_set hr (some (s.elems.find? (· < k)))
    cases hf : s.elems.find? (· < k) with
    | none =>
      rw [hf] at h1 hset
      obtain ⟨h2, h3⟩ := h1
      refine ⟨?_, h.ne.congr hn.1 hn.2, ?_, h.sorted⟩
      · dsimp only at hset ⊢; rw [hset]; exact h3
      · dsimp only; rw [h2, h.its, List.map_set]; rfl
    | some k' =>
      rw [hf] at h1 hset
      obtain ⟨h2, h3⟩ := h1
      refine ⟨?_, h.ne.congr hn.1 hn.2, ?_, h.sorted⟩
      · dsimp only at hset ⊢; rw [hset]; exact h3
      · dsimp only; rw [h2, h.its, List.map_set]; rfl
  | drop i =>
    obtain ⟨r, hr⟩ := hok
    have hsg : s.get i = r := by simp [Spec.get, hr]
    have hcg := hget i
    rw [hsg] at hcg
    simp only [Client.step, Spec.step, hcg]
    cases r with
    | none =>
      refine ⟨?_, h.ne, ?_, h.sorted⟩
      · dsimp only; rw [holds_set_end hr]; exact h.inv
      · simp [h.its, List.map_set]
    | some k =>
      refine ⟨?_, h.ne, ?_, h.sorted⟩
      · have := holds_set hr none
        dsimp only at this ⊢; rw [this]
        exact h.inv.drop hN (holds_pos hr)
      · simp [h.its, List.map_set]
  | remove i =>
    obtain ⟨k, hr, hk⟩ := hok
    have hsg : s.get i = some k := by simp [Spec.get, hr]
    have hcg := hget i
    rw [hsg] at hcg
    simp only [Client.step, Spec.step, hsg, hcg, Option.map_some]
    refine ⟨?_, h.ne.congr rfl rfl, h.its, h.sorted.filter _⟩
    have := h.inv.remove hN (k := k) (by simpa using hk)
    have ha : upd (fun k => decide (k ∈ s.elems)) k false = fun j => decide (j ∈ s.elems.filter (· ≠ k)) := by
      funext j
      unfold upd
      by_cases e : j = k <;> simp [e]
    rw [ha] at this
    exact this
  | erase v =>
    obtain ⟨h1, h2⟩ := h.inv.erase hN h.ne v
    have ha : (fun j => decide (j ∈ s.elems) && !(s.log[j]? == some v)) =
        fun j => decide (j ∈ s.elems.filter (s.log[·]? ≠ some v)) := by
      funext j
      by_cases e : s.log[j]? = some v <;> simp [e]
    rw [ha] at h1
    exact ⟨h1, h2, h.its, h.sorted.filter _⟩

theorem R.init (N : Nat) : R N (Client.init : Client α) Spec.init := by
  refine ⟨?_, ?_, rfl, List.Pairwise.nil⟩
  · have := Inv.init (α := α) N
    have h2 : holds (Spec.init : Spec α).its = fun _ => 0 := rfl
    have h3 : (fun k => decide (k ∈ (Spec.init : Spec α).elems)) = fun _ => false := by
      funext k; simp [Spec.init]
    rw [h2, h3]; exact this
  · intro m hm; simp [Client.init, LList.empty] at hm

theorem R.run {N : Nat} (hN : 0 < N) {c : Client α} {s : Spec α} (h : R N c s) {ops : List (Op α)}
    (hv : s.Valid ops) : R N (c.run N ops) (s.run ops) := by
  induction ops generalizing c s with
  | nil => exact h
  | cons op ops ih => exact ih (h.step hN hv.1) hv.2

theorem R.reach {N : Nat} (hN : 0 < N) {ops : List (Op α)} (hv : (Spec.init : Spec α).Valid ops) :
    R N ((Client.init : Client α).run N ops) (Spec.init.run ops) := (R.init N).run hN hv

/-- **C26** Whatever a client that obeys the contract does with the list and its iterators, for every chunk size:
nothing fails, and every iterator yields what the specification says. -/
theorem C26_list_is_a_list {N : Nat} (hN : 0 < N) {ops : List (Op α)} (hv : (Spec.init : Spec α).Valid ops) :
    ((Client.init : Client α).run N ops).list.err = false ∧
    ((Client.init : Client α).run N ops).its.length = ((Spec.init : Spec α).run ops).its.length ∧
    ∀ i, ((Client.init : Client α).run N ops).deref i = ((Spec.init : Spec α).run ops).deref i ∧
      (((Client.init : Client α).run N ops).get i = none ↔ ((Spec.init : Spec α).run ops).get i = none) := by
  have h := R.reach hN hv
  refine ⟨h.inv.err, by rw [h.its, List.length_map], fun i => ?_⟩
  have hg := get_eq h.its i
  unfold Client.deref Spec.deref
  rw [hg]
  cases hs : ((Spec.init : Spec α).run ops).get i with
  | none => simp
  | some k =>
    simp only [Option.map_some, Option.bind_some, reduceCtorEq, and_true, posOf]
    refine h.inv.val k (h.inv.holdLt k (holds_pos (i := i) ?_))
    unfold Spec.get at hs
    cases h1 : ((Spec.init : Spec α).run ops).its[i]? with
    | none => rw [h1] at hs; cases hs
    | some a =>
      rw [h1] at hs
      cases a with
      | none => cases hs
      | some b =>
        cases b with
        | none => cases hs
        | some c => cases hs; rfl

theorem walk_spec {N : Nat} (hN : 0 < N) {log : List α} {H : Nat → Nat} : ∀ (n : Nat) (l : LList α) (es pre : List Nat) (k : Nat),
    (pre ++ k :: es).Pairwise (· > ·) →
    Inv N l log (fun j => decide (j ∈ pre ++ k :: es)) (upd H k (H k + 1)) → k < n →
    Inv N (l.walk N n (some (posOf N k))).1 log (fun j => decide (j ∈ pre ++ k :: es)) H ∧
    (l.walk N n (some (posOf N k))).2 = (k :: es).map (log[·]?) := by
  intro n
  induction n with
  | zero => intros; omega
  | succ n ih =>
    intro l es pre k hp hi hn
    rw [LList.walk]
    have hlt : k < log.length := hi.aliveLt k (by simp)
    have hval : (l.items (posOf N k).slot).val = log[k]? := hi.val k hlt
    have hnext := hi.next hN (k := k) (by simp)
    rw [upd_add_sub] at hnext
    have hb : below (fun j => decide (j ∈ pre ++ k :: es)) k = es.head? := by
      rw [← find_lt hp]
      rw [List.find?_append]
      have h1 : pre.find? (· < k) = none := by
        rw [List.find?_eq_none]
        intro x hx
        have := (List.pairwise_append.1 hp).2.2 x hx k (by simp)
        simp; omega
      rw [h1, List.find?_cons_of_neg (by simp)]
      have h2 := (List.pairwise_cons.1 (List.pairwise_append.1 hp).2.1).1
      rw [find_head (fun x hx => h2 x hx)]
      rfl
    rw [hb] at hnext
    cases es with
    | nil =>
      obtain ⟨h1, h2⟩ := hnext
      dsimp only
      rw [h1, hval]
      refine ⟨?_, ?_⟩
      · cases n <;> exact h2
      · cases n <;> rfl
    | cons k' es =>
      obtain ⟨h1, h2⟩ := hnext
      dsimp only
      rw [h1, hval]
      have hk' : k' < k := by
        have := (List.pairwise_cons.1 (List.pairwise_append.1 hp).2.1).1
        exact this k' (by simp)
      have he : pre ++ k :: k' :: es = (pre ++ [k]) ++ k' :: es := by simp
      rw [he] at h2 hp ⊢
      obtain ⟨h3, h4⟩ := ih (l.next! N (posOf N k)).1 es (pre ++ [k]) k' hp h2 (by omega)
      refine ⟨h3, ?_⟩
      rw [h4]; rfl

/-- **C26** Iterating yields exactly the pushed and not removed values, latest first, and the iteration leaves the
list such that the next one yields the same. -/
theorem C26_iteration {N : Nat} (hN : 0 < N) {ops : List (Op α)} (hv : (Spec.init : Spec α).Valid ops) :
    let c := (Client.init : Client α).run N ops
    let s := (Spec.init : Spec α).run ops
    (c.list.collect N).2 = s.elems.map (s.log[·]?) ∧ (∀ v ∈ (c.list.collect N).2, v ≠ none) ∧
    (c.list.collect N).1.err = false ∧
    ((c.list.collect N).1.collect N).2 = s.elems.map (s.log[·]?) := by
  intro c s
  have h : R N c s := R.reach hN hv
  have key : ∀ l : LList α, Inv N l s.log (fun k => decide (k ∈ s.elems)) (holds s.its) → NonEmpty l →
      Inv N (l.collect N).1 s.log (fun k => decide (k ∈ s.elems)) (holds s.its) ∧
      (l.collect N).2 = s.elems.map (s.log[·]?) ∧ NonEmpty (l.collect N).1 := by
    intro l hi hne
    have h1 := hi.rbegin hN hne
    rw [← find_lt h.sorted, find_head (fun k hk => mem_lt h hk)] at h1
    have hrn := rbegin_next (N := N) l
    have hwn : ∀ (n : Nat) (l : LList α) (r : Option Pos), (l.walk N n r).1.next = l.next ∧ (l.walk N n r).1.nch = l.nch := by
      intro n
      induction n with
      | zero => intro l r; cases r <;> exact ⟨rfl, rfl⟩
      | succ n ih =>
        intro l r
        cases r with
        | none => exact ⟨rfl, rfl⟩
        | some p =>
          rw [LList.walk]
          dsimp only
          have h1 := ih (l.next! N p).1 (l.next! N p).2
          have h2 := next_next (N := N) l p
          exact ⟨h1.1.trans h2.1, h1.2.trans h2.2⟩
    unfold LList.collect
    dsimp only
    cases he : s.elems with
    | nil =>
      rw [he] at h1
      obtain ⟨h2, h3⟩ := h1
      rw [h2]
      exact ⟨h3, rfl, hne.congr hrn.1 hrn.2⟩
    | cons k es =>
      rw [he] at h1
      obtain ⟨h2, h3⟩ := h1
      rw [h2]
      have hs := h.sorted
      rw [he] at hs
      obtain ⟨h4, h5⟩ := walk_spec hN ((posOf N k).slot + 1) (l.rbegin N).1 es [] k hs h3 (by simp [posOf])
      refine ⟨h4, h5, ?_⟩
      have := hwn ((posOf N k).slot + 1) (l.rbegin N).1 (some (posOf N k))
      exact hne.congr (this.1.trans hrn.1) (this.2.trans hrn.2)
  obtain ⟨k1, k2, k3⟩ := key c.list h.inv h.ne
  obtain ⟨-, m2, -⟩ := key _ k1 k3
  refine ⟨k2, ?_, k1.err, m2⟩
  rw [k2]
  intro v hv
  obtain ⟨k, hk, rfl⟩ := List.mem_map.1 hv
  rw [List.getElem?_eq_getElem (mem_lt h hk)]
  simp

/-- **C29**, one thread: the value of an element is destroyed exactly once, as soon as it has been removed and no
iterator is at it any more. -/
theorem C29_destroyed_once_single_thread_partial {N : Nat} (hN : 0 < N) {ops : List (Op α)} (hv : (Spec.init : Spec α).Valid ops)
    {k : Nat} (hk : k < ((Spec.init : Spec α).run ops).log.length) :
    (((Client.init : Client α).run N ops).list.items k).dtors =
      if k ∈ ((Spec.init : Spec α).run ops).elems ∨ some (some k) ∈ ((Spec.init : Spec α).run ops).its
      then 0 else 1 := by
  have h := R.reach hN hv
  by_cases hm : k ∈ ((Spec.init : Spec α).run ops).elems
  · rw [if_pos (.inl hm)]
    exact (h.inv.live k (by simpa using hm)).2.2
  · have e := Nat.div_add_mod k N
    rw [Nat.mul_comm] at e
    have := (h.inv.gone (k / N) (k % N) (Nat.mod_lt _ hN) (by omega) (by rw [e]; simpa using hm)).2.2.2.2
    rw [e] at this
    rw [this]
    by_cases hh : holds ((Spec.init : Spec α).run ops).its k = 0
    · rw [if_pos hh, if_neg]
      rintro (h1 | h1)
      · exact hm h1
      · have := List.count_pos_iff.2 h1
        unfold holds at hh; omega
    · rw [if_neg hh, if_pos]
      right
      have : 0 < ((Spec.init : Spec α).run ops).its.count (some (some k)) := by
        unfold holds at hh; omega
      rwa [List.count_pos_iff] at this

/-- **C29**, one thread: if no iterator is left when the list is destroyed, every value that was pushed has then been
destroyed exactly once. -/
theorem C29_list_destructor_partial {N : Nat} (hN : 0 < N) {ops : List (Op α)} (hv : (Spec.init : Spec α).Valid ops)
    (hq : ∀ k, some (some k) ∉ ((Spec.init : Spec α).run ops).its) {k : Nat}
    (hk : k < ((Spec.init : Spec α).run ops).log.length) :
    ((((Client.init : Client α).run N ops).list.destroy N).items k).dtors = 1 := by
  have h := R.reach hN hv
  have hc := h.inv.chunk_lt hN hk
  have hh : holds ((Spec.init : Spec α).run ops).its k = 0 := List.count_eq_zero.2 (hq k)
  have hlt : k < ((Client.init : Client α).run N ops).list.nch * N := (Nat.div_lt_iff_lt_mul hN).1 hc
  have hd := C29_destroyed_once_single_thread_partial hN hv hk
  have hn := hq k
  simp only [LList.destroy, if_pos hlt, Item.release]
  by_cases hm : k ∈ ((Spec.init : Spec α).run ops).elems
  · obtain ⟨h1, h2, h3⟩ := h.inv.live k (by simpa using hm)
    rw [if_pos (by rw [h2, hh]; rfl), h3]
  · have e := Nat.div_add_mod k N
    rw [Nat.mul_comm] at e
    have := (h.inv.gone (k / N) (k % N) (Nat.mod_lt _ hN) (by omega) (by rw [e]; simpa using hm)).2.2.2.1
    rw [e, hh] at this
    rw [if_neg (by rw [this]; decide)]
    rw [hd, if_neg (by simp [hm, hn])]

/-- **C29** is false: the destructor of the list also destroys slots to which nothing has ever been assigned; for every list
whose last chunk is not full. -/
theorem C29_destroys_unused_slots_false {N : Nat} (hN : 0 < N) {ops : List (Op α)} (hv : (Spec.init : Spec α).Valid ops)
    {k : Nat} (hk : ((Spec.init : Spec α).run ops).log.length ≤ k)
    (hlt : k < ((Client.init : Client α).run N ops).list.nch * N) :
    ((((Client.init : Client α).run N ops).list.destroy N).items k).val = none ∧
    ((((Client.init : Client α).run N ops).list.destroy N).items k).dtors = 1 := by
  have h := R.reach hN hv
  have := h.inv.fresh k hk hlt
  simp only [LList.destroy, if_pos hlt, this, Item.release, Item.fresh]
  exact ⟨rfl, rfl⟩

/-! ### Examples -/

/-- a list with one value in chunks of eight: slot 5 is destroyed and was never assigned -/
example : (((Client.init : Client Nat).run 8 [.push 3]).list.destroy 8).items 5 = ⟨none, 1, -1, 1⟩ := rfl


/-- chunks of two; five values are pushed; the one at the end of the second chunk and both of the first chunk are
removed while an iterator is at one of them -/
def demo : List (Op Nat) :=
  [.push 10, .push 11, .push 12, .push 13, .push 14, .remove 3, .rbegin, .next 5, .remove 0, .drop 0, .remove 1,
   .copy 1, .next 5, .erase 7]

example : (Spec.init : Spec Nat).Valid demo := by
  simp [demo, Spec.Valid, Spec.Ok, Spec.step, Spec.init, Spec.get]

example : (((Client.init : Client Nat).run 2 demo).list.collect 2).2 = [some 14, some 12] := by decide +kernel

example : ((Client.init : Client Nat).run 2 demo).deref 1 = some 11 := by decide +kernel

/-- value 0 has been removed and left, value 1 has been removed but iterator 1 is still at it -/
example : (((Client.init : Client Nat).run 2 demo).list.items 0).dtors = 1 ∧
    (((Client.init : Client Nat).run 2 demo).list.items 1).dtors = 0 := by decide +kernel

end RG.CL
