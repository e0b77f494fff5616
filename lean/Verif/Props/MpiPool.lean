import Verif.Model.MpiPool
/-
Property C48: MPI completions reach the right waiter.
The specification is a list of entries (request, event, status object).
-/
namespace RG.Mpi

/-- Spec: one pending request with its own event and its own status object. -/
structure Entry where
  request : Nat
  event : Nat
  status : Nat
  deriving DecidableEq, Repr

/-- Spec: the entries that remain when the entries at the given indices are taken out. -/
def remaining (l : List Entry) (gone : List Nat) : List Entry :=
  (l.zipIdx.filter fun x => !(gone.contains x.2)).map (·.1)

/-- Spec: what must happen for the reported completions: for each of them its own status object
is written with its own status value and its own event is notified, in the order of the report. -/
def effects (l : List Entry) (reported : List (Nat × Nat)) : List Act :=
  reported.flatMap fun x =>
    match l[x.1]? with
    | some e => [.writeStatus e.status x.2, .notify e.event]
    | none => []

/-- The pool holds exactly these entries. -/
def Holds (p : Pool) (l : List Entry) : Prop :=
  p = ⟨l.map Entry.request, l.map Entry.event, l.map Entry.status⟩

/-! helper: removal by a predicate on positions -/

def rem {α} : List α → (Nat → Bool) → List α
  | [], _ => []
  | x :: xs, f => (if f 0 then [] else [x]) ++ rem xs (fun j => f (j + 1))

theorem rem_eq_zipIdx {α} (l : List α) (f : Nat → Bool) (k : Nat) :
    rem l (fun j => f (j + k)) = ((l.zipIdx k).filter fun x => !(f x.2)).map (·.1) := by
  induction l generalizing k with
  | nil => rfl
  | cons x xs ih =>
    have h := ih (k + 1)
    have h2 : (fun j => f (j + 1 + k)) = (fun j => f (j + (k + 1))) := by
      funext j; congr 1; omega
    simp only [rem, List.zipIdx_cons, List.filter_cons, h2, h, Nat.zero_add]
    cases f k <;> simp

theorem remaining_eq_rem (l : List Entry) (gone : List Nat) :
    remaining l gone = rem l (fun j => gone.contains j) := by
  have := rem_eq_zipIdx l (fun j => gone.contains j) 0
  simp only [Nat.add_zero] at this
  exact this.symm

theorem rem_eraseIdx {α} (l : List α) (k : Nat) (f g : Nat → Bool)
    (h : ∀ j, f j = (j == k || g (if j > k then j - 1 else j))) (hk : k < l.length) :
    rem (l.eraseIdx k) g = rem l f := by
  induction l generalizing k f g with
  | nil => simp at hk
  | cons x xs ih =>
    cases k with
    | zero =>
      have h0 := h 0
      simp only [beq_self_eq_true, Bool.true_or] at h0
      have hs : (fun j => f (j + 1)) = g := by
        funext j
        rw [h (j + 1)]
        simp
      simp [rem, h0, hs]
    | succ k =>
      have h0 : f 0 = g 0 := by rw [h 0]; simp
      have hr := ih k (fun j => f (j + 1)) (fun j => g (j + 1)) (by
        intro j
        rw [h (j + 1)]
        by_cases hj : j > k
        · simp only [hj, if_true, show j + 1 > k + 1 by omega, show j + 1 - 1 = j - 1 + 1 by omega]
          congr 1
          by_cases he : j = k <;> simp [he]
        · simp only [hj, if_false, show ¬ (j + 1 > k + 1) by omega]
          congr 1
          by_cases he : j = k <;> simp [he]) (by simpa using hk)
      simp only [List.eraseIdx_cons_succ, rem, h0, hr]

theorem map_eraseIdx' {α β} (f : α → β) (l : List α) (k : Nat) :
    (l.map f).eraseIdx k = (l.eraseIdx k).map f := by
  induction l generalizing k with
  | nil => rfl
  | cons x xs ih => cases k with
    | zero => rfl
    | succ k => simp [ih]

theorem pollLoop_spec (l : List Entry) (reported : List (Nat × Nat))
    (hd : (reported.map (·.1)).Nodup) (hr : ∀ x ∈ reported, x.1 < l.length) :
    ∃ p', pollLoop ⟨l.map Entry.request, l.map Entry.event, l.map Entry.status⟩ reported =
        some (p', effects l reported) ∧ Holds p' (remaining l (reported.map (·.1))) := by
  induction hn : reported.length generalizing l reported with
  | zero =>
    have : reported = [] := List.length_eq_zero_iff.1 hn
    subst this
    refine ⟨_, by rw [pollLoop]; rfl, ?_⟩
    have : remaining l [] = l := by
      simp only [remaining, List.contains_nil, Bool.not_false]
      rw [List.filter_eq_self.2 (by simp)]
      simp [List.zipIdx_map_fst]
    simp only [List.map_nil, this]
    rfl
  | succ n ih =>
    match reported, hn with
    | (idx, st) :: rest, hn =>
      have hlt : idx < l.length := hr (idx, st) (by simp)
      have hne : ∀ x ∈ rest, x.1 ≠ idx := by
        intro x hx he
        simp only [List.map_cons, List.nodup_cons] at hd
        exact hd.1 (he ▸ List.mem_map_of_mem hx)
      have hinj : ∀ a b : Nat, a ≠ idx → b ≠ idx →
          (if a > idx then a - 1 else a) = (if b > idx then b - 1 else b) → a = b := by
        intro a b ha hb h
        split at h <;> split at h <;> omega
      have hd' : ((shift idx rest).map (·.1)).Nodup := by
        simp only [List.map_cons, List.nodup_cons] at hd
        have h2 := hd.2
        have hmap : (shift idx rest).map (·.1) =
            (rest.map (·.1)).map (fun j => if j > idx then j - 1 else j) := by
          simp [shift, Function.comp_def]
        rw [hmap]
        unfold List.Nodup at h2 ⊢
        rw [List.pairwise_map]
        refine List.Pairwise.imp_of_mem ?_ h2
        intro a b ha hb hab he
        obtain ⟨xa, hxa, rfl⟩ := List.mem_map.1 ha
        obtain ⟨xb, hxb, rfl⟩ := List.mem_map.1 hb
        exact hab (hinj _ _ (hne _ hxa) (hne _ hxb) he)
      have hr' : ∀ x ∈ shift idx rest, x.1 < (l.eraseIdx idx).length := by
        intro x hx
        simp only [shift, List.mem_map] at hx
        obtain ⟨y, hy, rfl⟩ := hx
        have h1 := hr y (by simp [hy])
        have h2 := hne y hy
        rw [List.length_eraseIdx]
        simp only [hlt, if_true]
        split <;> omega
      obtain ⟨p', hp, hh⟩ := ih (l.eraseIdx idx) (shift idx rest) hd' hr' (by
        simp only [List.length_cons] at hn
        rw [length_shift]; omega)
      refine ⟨p', ?_, ?_⟩
      · rw [pollLoop]
        have e1 : (l.map Entry.status)[idx]? = some (l[idx].status) := by simp [hlt]
        have e2 : (l.map Entry.event)[idx]? = some (l[idx].event) := by simp [hlt]
        have e3 : (l.map Entry.request)[idx]? = some (l[idx].request) := by simp [hlt]
        simp only [e1, e2, e3]
        simp only [map_eraseIdx', hp, Option.map_some, Option.some.injEq, Prod.mk.injEq,
          true_and]
        have e4 : l[idx]? = some l[idx] := by simp [hlt]
        simp only [effects, List.flatMap_cons, e4, List.cons_append, List.nil_append,
          List.cons.injEq, true_and]
        simp only [shift, List.flatMap_map]
        have key : ∀ x ∈ rest, (l.eraseIdx idx)[if x.1 > idx then x.1 - 1 else x.1]? = l[x.1]? := by
          intro x hx
          have h2 := hne x hx
          rw [List.getElem?_eraseIdx]
          by_cases hc : x.1 > idx
          · rw [if_pos hc, if_neg (by omega)]
            congr 1; omega
          · rw [if_neg hc, if_pos (by omega)]
        clear hd hr hn hd' hr' hp hh ih
        induction rest with
        | nil => rfl
        | cons y ys ihy =>
          simp only [List.flatMap_cons]
          rw [key y (by simp), ihy (fun x hx => hne x (by simp [hx])) (fun x hx => key x (by simp [hx]))]
      · have : remaining (l.eraseIdx idx) ((shift idx rest).map (·.1)) =
            remaining l (((idx, st) :: rest).map (·.1)) := by
          rw [remaining_eq_rem, remaining_eq_rem]
          apply rem_eraseIdx _ _ _ _ _ hlt
          intro j
          by_cases hj : j = idx
          · subst hj; simp
          · rw [Bool.eq_iff_iff]
            simp only [List.map_cons, List.contains_cons, Bool.or_eq_true, beq_iff_eq, hj, false_or,
              List.contains_iff_mem, List.mem_map, shift]
            constructor
            · rintro ⟨x, hx, rfl⟩
              exact ⟨_, ⟨x, hx, rfl⟩, rfl⟩
            · rintro ⟨y, ⟨x, hx, rfl⟩, he⟩
              exact ⟨x, hx, hinj _ _ (hne x hx) hj he⟩
        rw [← this]; exact hh

/-- C48: polling a pool with pending entries `l`, when MPI reports the completion of any set of
distinct pending requests in any order: no invalid access happens, each reported request gets its
own status and its own event notified once, and exactly the other requests stay pending, in order,
each with its own event and status object. -/
theorem C48_poll (p : Pool) (l : List Entry) (h : Holds p l) (reported : List (Nat × Nat))
    (hd : (reported.map (·.1)).Nodup) (hr : ∀ x ∈ reported, x.1 < l.length) :
    ∃ p', poll p reported = some (p', effects l reported) ∧
      Holds p' (remaining l (reported.map (·.1))) := by
  cases h
  cases l with
  | nil =>
    cases reported with
    | nil => exact ⟨_, rfl, rfl⟩
    | cons x xs => have := hr x (by simp); simp at this
  | cons e es =>
    obtain ⟨p', h1, h2⟩ := pollLoop_spec (e :: es) reported hd hr
    exact ⟨p', by rw [poll]; simpa using h1, h2⟩

/-- Operations on a pool: a task registers a request, or the pool is polled. -/
inductive Op
  | register (request event status : Nat)
  | poll (reported : List (Nat × Nat))

/-- The pool after a history of operations (`none`: undefined behaviour), with all effects. -/
def run : List Op → Pool → Option (Pool × List Act)
  | [], p => some (p, [])
  | .register r e s :: ops, p => run ops (register p r e s)
  | .poll rep :: ops, p =>
    (poll p rep).bind fun x => (run ops x.1).map fun y => (y.1, x.2 ++ y.2)

/-- Spec of a history on entries; `none` if MPI reports nonsense (indices twice or out of range). -/
def runSpec : List Op → List Entry → Option (List Entry × List Act)
  | [], l => some (l, [])
  | .register r e s :: ops, l => runSpec ops (l ++ [⟨r, e, s⟩])
  | .poll rep :: ops, l =>
    if (rep.map (·.1)).Nodup ∧ ∀ x ∈ rep, x.1 < l.length then
      (runSpec ops (remaining l (rep.map (·.1)))).map fun y => (y.1, effects l rep ++ y.2)
    else none

/-- C48: for every history of registrations and polls in which MPI reports sensible completions,
the pool behaves like the list of entries: the same effects, the same pending entries. -/
theorem C48_history (ops : List Op) (l l' : List Entry) (acts : List Act)
    (h : runSpec ops l = some (l', acts)) (p : Pool) (hp : Holds p l) :
    ∃ p', run ops p = some (p', acts) ∧ Holds p' l' := by
  induction ops generalizing l p l' acts with
  | nil =>
    simp only [runSpec, Option.some.injEq, Prod.mk.injEq] at h
    obtain ⟨rfl, rfl⟩ := h
    exact ⟨p, rfl, hp⟩
  | cons op ops ih =>
    cases op with
    | register r e s =>
      exact ih _ _ _ h _ (by rw [hp]; simp [register, Holds])
    | poll rep =>
      simp only [runSpec] at h
      split at h
      · rename_i hc
        simp only [Option.map_eq_some_iff] at h
        obtain ⟨⟨l2, a2⟩, h2, h3⟩ := h
        simp only [Prod.mk.injEq] at h3
        obtain ⟨rfl, rfl⟩ := h3
        obtain ⟨p1, hp1, hh1⟩ := C48_poll p l hp rep hc.1 hc.2
        obtain ⟨p2, hp2, hh2⟩ := ih _ _ _ h2 p1 hh1
        exact ⟨p2, by simp [run, hp1, hp2], hh2⟩
      · cases h

/-- three pending requests, the third and the first complete (in this order) -/
example :
    run [.register 1 11 21, .register 2 12 22, .register 3 13 23, .poll [(2, 7), (0, 8)],
        .poll [(0, 9)]] Pool.empty =
      some (⟨[], [], []⟩,
        [.writeStatus 23 7, .notify 13, .writeStatus 21 8, .notify 11, .writeStatus 22 9,
          .notify 12]) := by
  simp [run, poll, pollLoop, shift, register, Pool.empty]

example : (runSpec [.register 1 11 21, .register 2 12 22, .register 3 13 23,
    .poll [(2, 7), (0, 8)], .poll [(0, 9)]] []).isSome = true := by decide

end RG.Mpi
