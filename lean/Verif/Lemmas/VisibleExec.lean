import Verif.Model.VisibleProg
import Verif.Props.Dynamic
/-
Concrete executions of the machine of Model/VisibleProg, used for examples and counterexamples: the sets of actions are
lists, so that it can be computed what happens before what.
-/
set_option linter.unusedVariables false
namespace RG.Vis
open RG.Graph
open RG.Dyn (owner rank Prog Code code store)

/-- the sets as lists -/
structure LClk where
  know : Agent → List Ev
  loc : Loc → List Ev

def LClk.op (k : LClk) : Op → LClk
  | .acq a l => { k with know := upd k.know a (k.know a ++ k.loc l) }
  | .rel a l => { k with loc := upd k.loc l (k.know a) }
  | .rmw a l => { know := upd k.know a (k.know a ++ k.loc l), loc := upd k.loc l (k.loc l ++ k.know a) }
  | .seq a b => { k with know := upd k.know b (k.know b ++ k.know a) }

def LClk.ops (k : LClk) (l : List Op) : LClk := l.foldl LClk.op k

def LClk.sets (k : LClk) : Clk := ⟨fun a e => e ∈ k.know a, fun l e => e ∈ k.loc l⟩

theorem LClk.sets_op (k : LClk) (o : Op) : (k.op o).sets = k.sets.op o := by
  cases o <;> simp only [LClk.op, LClk.sets, Clk.op, Clk.mk.injEq] <;>
    refine ⟨?_, ?_⟩ <;> first
      | trivial
      | (funext a e; apply propext; simp only [upd]; split <;> grind)

theorem LClk.sets_ops (l : List Op) : ∀ (k : LClk), (k.ops l).sets = k.sets.ops l := by
  induction l with
  | nil => exact fun _ => rfl
  | cons o l ih =>
    intro k
    show ((k.op o).ops l).sets = (k.sets.op o).ops l
    rw [ih, LClk.sets_op]

structure LH where
  g : State
  k : LClk
  cnt : Agent → Nat
  fin : Nat → Bool
  born : Nat → Nat
  m : Dyn.Mem
  loc : Nat → Code
  log : Ev → Code

variable {cfg : Cfg} {tbl : Nat → User} {c : Code}

def LH.toH (tbl : Nat → User) (c : Code) (b : LH) : H (code tbl c) :=
  ⟨⟨b.g, b.k.sets, b.cnt, b.fin, b.born⟩, b.m, b.loc, b.log⟩

def lstart (c : Code) : LH :=
  ⟨Graph.init, ⟨fun _ => [], fun _ => []⟩, fun _ => 0, fun _ => false, fun _ => 0, fun _ => 0, fun _ => c, fun _ => c⟩

def busy (b : LH) : Nat → Bool
  | 0 => true
  | t + 1 => b.g.ex t == .running && !b.fin t

theorem busy_iff {b : LH} {i : Nat} (h : busy b i = true) : Busy (b.toH tbl c).v i := by
  cases i with
  | zero => trivial
  | succ t =>
    simp only [busy, Bool.and_eq_true, beq_iff_eq, Bool.not_eq_true'] at h
    exact h

inductive LAct
  | graph (a : Act)
  | submit
  | act (i : Nat)
  | fin (t : Nat)
  | get (i : Nat)
  | barrier (sp : Nat)

def allowed (b : LH) : Act → Bool
  | .submit => false
  | .ret t => b.fin t
  | _ => true

def waited (cfg : Cfg) (b : LH) (i : Nat) (w : Nat → Bool) : List Nat :=
  (List.range b.g.n).filter fun t => owner cfg t == i && w (rank cfg t)

def lexec (cfg : Cfg) (tag : Nat → Nat) (b : LH) : LAct → Option LH
  | .graph a =>
    if allowed b a then (exec cfg b.g a).map fun s' => { b with g := s', k := b.k.ops (sync cfg b.g a) } else none
  | .submit =>
    match b.loc (owner cfg b.g.n) with
    | .call a c k =>
      if a = tag b.g.n ∧ busy b (owner cfg b.g.n) = true then
        (exec cfg b.g .submit).map fun s' => { b with
          g := s'
          k := b.k.ops (sync cfg b.g .submit)
          born := upd b.born b.g.n (b.cnt (.body (owner cfg b.g.n)))
          loc := upd (upd b.loc (owner cfg b.g.n) k) (b.g.n + 1) c }
      else none
    | _ => none
  | .act i =>
    if busy b i then
      let go (m : Dyn.Mem) (k : Code) : LH := { b with
        k := { b.k with know := upd b.k.know (.body i) (b.k.know (.body i) ++ [(.body i, b.cnt (.body i))]) }
        cnt := fun a => if a = .body i then b.cnt a + 1 else b.cnt a
        m := m
        loc := upd b.loc i k
        log := fun e => if e = (.body i, b.cnt (.body i)) then b.loc i else b.log e }
      match b.loc i with
      | .get x k => some (go b.m (k (b.m x)))
      | .put x v k => some (go (store x v b.m) k)
      | .add x v k => some (go (store x (b.m x + v) b.m) k)
      | _ => none
    else none
  | .fin t =>
    if busy b (t + 1) then
      match b.loc (t + 1) with
      | .ret => some { b with fin := upd b.fin t true, k := b.k.op (.rmw (.body (t + 1)) (.result t)) }
      | _ => none
    else none
  | .get i =>
    match b.loc i with
    | .wait w k =>
      if busy b i = true ∧ ∀ t ∈ waited cfg b i w, b.fin t = true then
        some { b with
          k := { b.k with
            know := upd b.k.know (.body i) (b.k.know (.body i) ++ (waited cfg b i w).flatMap fun t => b.k.loc (.result t)) }
          loc := upd b.loc i k }
      else none
    | _ => none
  | .barrier sp =>
    match b.loc 0 with
    | .wait w k =>
      if b.g.tasks sp = 0 ∧ ∀ t ∈ waited cfg b 0 w, cfg.space t = sp then
        some { b with k := b.k.op (.acq (.body 0) (.count sp)), loc := upd b.loc 0 k }
      else none
    | _ => none

theorem mem_waited {b : LH} {i : Nat} {w : Nat → Bool} {t : Nat} :
    t ∈ waited cfg b i w ↔ Waited cfg (b.toH tbl c).v i w t := by
  simp only [waited, List.mem_filter, List.mem_range, Bool.and_eq_true, beq_iff_eq, Waited]
  rfl

theorem lexec_step {tag : Nat → Nat} (ht : ∀ n, cfg.user n = tbl (tag n)) {b b' : LH} {a : LAct}
    (h : lexec cfg tag b a = some b') : HStep cfg (code tbl c) (b.toH tbl c) (b'.toH tbl c) := by
  cases a with
  | graph a =>
    simp only [lexec] at h
    split at h
    · rename_i ha
      cases he : exec cfg b.g a with
      | none => rw [he] at h; cases h
      | some s' =>
        rw [he] at h
        cases h
        have hna : a ≠ .submit := by rintro rfl; cases ha
        have hs := HStep.graph (cfg := cfg) (y := b.toH tbl c) he hna (fun t e => by subst e; exact ha)
        have hborn : Act.born cfg (b.toH tbl c).v a = b.born := by cases a <;> first | rfl | exact absurd rfl hna
        rw [hborn] at hs
        simpa only [LH.toH, LClk.sets_ops] using hs
    · cases h
  | submit =>
    simp only [lexec] at h
    split at h
    · rename_i a c1 k hl
      split at h
      · rename_i hg
        cases he : exec cfg b.g .submit with
        | none => rw [he] at h; cases h
        | some s' =>
          rw [he] at h
          cases h
          have hp : (code tbl c).pt ((b.toH tbl c).loc (owner cfg (b.toH tbl c).v.g.n)) = .spawn (tbl a) c1 k := by
            show (code tbl c).pt (b.loc (owner cfg b.g.n)) = _
            rw [hl]; rfl
          have hs := HStep.submit (cfg := cfg) (y := b.toH tbl c) he (busy_iff hg.2) hp (by
            rw [hg.1]; exact ht _)
          simp only [LH.toH, LClk.sets_ops]
          exact hs
      · cases h
    · cases h
  | act i =>
    simp only [lexec] at h
    split at h
    · rename_i hb
      have hb := busy_iff (tbl := tbl) (c := c) hb
      have hk : ∀ (k : LClk), (⟨fun a e => e ∈ upd k.know (.body i) (k.know (.body i) ++ [(.body i, b.cnt (.body i))]) a,
          fun l e => e ∈ k.loc l⟩ : Clk) =
          ⟨fun a e => e ∈ k.know a ∨ (a = .body i ∧ e = (.body i, b.cnt (.body i))), fun l e => e ∈ k.loc l⟩ := by
        intro k
        congr 1
        funext a e
        apply propext
        simp only [upd]
        split <;> grind
      have key : ∀ f : Dyn.Mem → Code × Dyn.Mem, (code tbl c).pt (b.loc i) = .act f → HStep cfg (code tbl c) (b.toH tbl c)
          (LH.toH tbl c { b with
            k := { b.k with know := upd b.k.know (.body i) (b.k.know (.body i) ++ [(.body i, b.cnt (.body i))]) }
            cnt := fun a => if a = .body i then b.cnt a + 1 else b.cnt a
            m := (f b.m).2
            loc := upd b.loc i (f b.m).1
            log := fun e => if e = (.body i, b.cnt (.body i)) then b.loc i else b.log e }) := by
        intro f hf
        have hs := HStep.act (cfg := cfg) (y := b.toH tbl c) hb hf
        simp only [LH.toH, LClk.sets, hk]
        exact hs
      split at h <;> first | (cases h; done) | skip
      all_goals
        rename_i hl
        cases h
        exact key _ (by rw [hl]; rfl)
    · cases h
  | fin t =>
    simp only [lexec] at h
    split at h
    · rename_i hb
      split at h
      · rename_i hl
        cases h
        have hs := HStep.fin (cfg := cfg) (y := b.toH tbl c) (busy_iff hb) (by
          show (code tbl c).pt (b.loc (t + 1)) = _
          rw [hl]; rfl)
        simpa only [LH.toH, LClk.sets_op] using hs
      · cases h
    · cases h
  | get i =>
    simp only [lexec] at h
    split at h
    · rename_i w k hl
      split at h
      · rename_i hg
        cases h
        have hs := HStep.get (cfg := cfg) (y := b.toH tbl c) (busy_iff hg.1) (by
          show (code tbl c).pt (b.loc i) = _
          rw [hl]; rfl) fun t hw => hg.2 t (mem_waited.2 hw)
        refine cast (congrArg _ ?_) hs
        simp only [LH.toH, LClk.sets]
        congr 3
        funext a e
        apply propext
        simp only [upd]
        have hx : ∀ e, (∃ t, Waited cfg (b.toH tbl c).v i w t ∧ e ∈ b.k.loc (.result t)) ↔
            e ∈ (waited cfg b i w).flatMap fun t => b.k.loc (.result t) := by
          intro e
          rw [List.mem_flatMap]
          exact exists_congr fun t => by rw [mem_waited (tbl := tbl) (c := c)]
        have := hx e
        simp only [LH.toH, LClk.sets] at this
        rw [this]
        split <;> grind
      · cases h
    · cases h
  | barrier sp =>
    simp only [lexec] at h
    split at h
    · rename_i w k hl
      split at h
      · rename_i hg
        cases h
        have hs := HStep.barrier (cfg := cfg) (y := b.toH tbl c) (by
          show (code tbl c).pt (b.loc 0) = _
          rw [hl]; rfl) hg.1 fun t hw => hg.2 t (mem_waited.2 hw)
        simp only [LH.toH, LClk.sets_op]
        exact hs
      · cases h
    · cases h

/-- execute a list of actions; an action that is not possible is skipped -/
def lrun (cfg : Cfg) (tag : Nat → Nat) : LH → List LAct → LH
  | b, [] => b
  | b, a :: as => lrun cfg tag ((lexec cfg tag b a).getD b) as

theorem lrun_reach {tag : Nat → Nat} (ht : ∀ n, cfg.user n = tbl (tag n)) (as : List LAct) :
    HReach cfg (code tbl c) (fun _ => 0) ((lrun cfg tag (lstart c) as).toH tbl c) := by
  suffices h : ∀ (as : List LAct) (b : LH), HReach cfg (code tbl c) (fun _ => 0) (b.toH tbl c) →
      HReach cfg (code tbl c) (fun _ => 0) ((lrun cfg tag b as).toH tbl c) by
    refine h as _ ?_
    refine cast (congrArg _ ?_) HReach.init
    simp only [hinit, LH.toH, lstart, init, LClk.sets, List.not_mem_nil]
    rfl
  intro as
  induction as with
  | nil => exact fun b h => h
  | cons a as ih =>
    intro b h
    apply ih
    cases he : lexec cfg tag b a with
    | none => exact h
    | some b' => exact h.step (lexec_step ht he)

/-- the actions of Lemmas/GraphExec, with `emplace_task` where a task is submitted -/
def gs (l : List Act) : List LAct :=
  l.map fun
    | .submit => .submit
    | a => .graph a

end RG.Vis
