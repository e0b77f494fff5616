import Verif.Lemmas.WeakQueue10
/-
Witnesses for C92: an executor for the steps.
-/
set_option linter.unusedVariables false
namespace RG.WQ
open RG.MQ

deriving instance DecidableEq for Tid

variable {B p : Nat} {fix : Bool} {s s' : State}

/-- the message `k` steps before the newest, if it may be read -/
def pick (v : VC) (l : List Msg) (k : Nat) : Option Msg :=
  if (l.take k).all (fun m' => decide (v m'.tid < m'.time)) then l[k]? else none

theorem pick_sees {v : VC} {l : List Msg} {k : Nat} {m : Msg} (h : pick v l k = some m) : Sees v l m := by
  unfold pick at h
  split at h
  · rename_i h1
    obtain ⟨hk, rfl⟩ := List.getElem?_eq_some_iff.1 h
    refine ⟨l.take k, l.drop (k + 1), ?_, fun m' hm' => by simpa using List.all_eq_true.1 h1 m' hm'⟩
    rw [← List.drop_eq_getElem_cons hk, List.take_append_drop]
  · cases h

/-- the next step of the consumer `c`, reading the `k`-th message -/
def stepC (B : Nat) (fix : Bool) (p : Nat) (s : State) (c k : Nat) : Option State :=
  match (s.subs p).cons c with
  | .out => some (s.go p ((s.subs p).at c .start) (s.c.tick (.cons p c)))
  | .start =>
    match pick (s.c.vw (.cons p c)) (s.c.hist (.tail p)) k with
    | some m => match m.val with
      | some t => some (s.go p ((s.subs p).at c (.over t)) (s.c.tick (.cons p c)))
      | none => none
    | none => none
  | .over t =>
    match pick (s.c.vw (.cons p c)) (s.c.hist (.over p)) k with
    | some m => match m.val with
      | some o => some (s.go p ((s.subs p).at c (.opt t o)) (s.c.tick (.cons p c)))
      | none => none
    | none => none
  | .opt t o =>
    match pick (s.c.vw (.cons p c)) (s.c.hist (.opt p)) k with
    | some m => match m.val with
      | some k => some (s.go p ((s.subs p).at c (if k - o < t then .inc o else .ret none)) (s.c.tick (.cons p c)))
      | none => none
    | none => none
  | .inc o => some (s.go p { s.subs p with cons := upd (s.subs p).cons c (.chk (s.subs p).opt o), opt := (s.subs p).opt + 1 }
        (s.c.rmw (.cons p c) (.opt p) (some ((s.subs p).opt + 1))))
  | .chk n o =>
    match pick (s.c.vw (.cons p c)) (s.c.hist (.tail p)) k with
    | some m => match m.val with
      | some t => if n - o < t then some { s.go p { s.subs p with cons := upd (s.subs p).cons c (.clm n), fate := upd (s.subs p).fate n .pass } (s.c.acq (.cons p c) m) with
          tv := upd s.tv p (upd (s.tv p) n t) } else none
      | none => none
    | none => none
  | .clm n => some (s.go p { s.subs p with cons := upd (s.subs p).cons c (.hdr (s.subs p).head), head := (s.subs p).head + 1, fate := upd (s.subs p).fate n .got }
        (s.c.rmwAcqRel (.cons p c) (.head p) (some ((s.subs p).head + 1))))
  | .hdr i =>
    match pick (s.c.vw (.cons p c)) (s.c.hist (.cur p)) k with
    | some m => match m.val with
      | some h => some (s.go p ((s.subs p).at c (.itl i h)) (s.c.acq (.cons p c) m))
      | none => none
    | none => none
  | .itl i h =>
    match pick (s.c.vw (.cons p c)) (s.c.hist (.htl p h)) k with
    | some m => match m.val with
      | some T => some { s.go p ((s.subs p).at c (.key i h T)) (s.c.acq (.cons p c) m) with raceR := s.raceR || unk (s.c.vw (.cons p c)) (.prod p, s.hdrW p h) }
      | none => none
    | none => none
  | .key i h T =>
    match pick (s.c.vw (.cons p c)) (s.c.hist (.key p (((s.subs p).hdrs h).index T))) k with
    | some m => match m.val with
      | some k => some (s.go p ((s.subs p).at c (
        if k = invalidBase then .fault i else .val i (((s.subs p).hdrs h).index (position B ((s.subs p).hdrs h).capacity T k i)))) (s.c.tick (.cons p c)))
      | none => none
    | none => none
  | .val i e =>
    match pick (s.c.vw (.cons p c)) (s.c.hist (.val p e)) k with
    | some m => some (s.go p ((s.subs p).at c (match m.val with | none => .fault i | some b => .rd i e b)) (s.c.tick (.cons p c)))
    | none => none
  | .rd i e b => some { s.go p ((s.subs p).at c (match (s.mem b).slots (i % B) with | none => .fault i | some x => .emp i e b x)) (s.c.tick (.cons p c)) with
        mem := upd s.mem b { s.mem b with slots := upd (s.mem b).slots (i % B) none }
        rds := upd s.rds b (upd (s.rds b) (i % B) ((.cons p c, s.c.now (.cons p c) (.cons p c)) :: s.rds b (i % B)))
        raceR := s.raceR || unk (s.c.vw (.cons p c)) (s.wr b (i % B)) }
  | .emp i e b x => some { s.go p { s.subs p with
          cons := upd (s.subs p).cons c (if (s.mem b).done = B - 1 then .nul i e b x else .ret (some (i, x))), fin := upd (s.subs p).fin i true }
          (if fix then s.c.rmwAcqRel (.cons p c) (.done b) (some ((s.mem b).done + 1)) else s.c.rmwRel (.cons p c) (.done b) (some ((s.mem b).done + 1))) with
        mem := upd s.mem b { s.mem b with done := (s.mem b).done + 1 } }
  | .nul i e b x => some (s.go p { s.subs p with
        cons := upd (s.subs p).cons c (.fre i b x), entries := upd (s.subs p).entries e { (s.subs p).entries e with value := none } } (s.c.store (.cons p c) (.val p e) none))
  | .fre i b x => some { s.go p ((s.subs p).at c (.ret (some (i, x)))) (s.c.tick (.cons p c)) with
        mem := upd s.mem b { s.mem b with owner := none }
        pool := upd s.pool b (s.c.now (.cons p c)) }
  | .ret (some (i, x)) => some (s.go p { s.subs p with cons := upd (s.subs p).cons c .out, outs := (s.subs p).outs ++ [(i, x)] } (s.c.tick (.cons p c)))
  | _ => none

theorem stepC_sound {c k : Nat} (h : stepC B fix p s c k = some s') : SStep B fix p s s' := by
  unfold stepC at h
  split at h
  · rename_i hc; cases h; exact .call c hc
  · rename_i hc
    split at h <;> (try cases h)
    rename_i m hm
    split at h <;> (try cases h)
    rename_i t hv
    exact .ldTail c hc (pick_sees hm) hv
  · rename_i t hc
    split at h <;> (try cases h)
    rename_i m hm
    split at h <;> (try cases h)
    rename_i o hv
    exact .ldOver c hc (pick_sees hm) hv
  · rename_i t o hc
    split at h <;> (try cases h)
    rename_i m hm
    split at h <;> (try cases h)
    rename_i n hv
    exact .ldOpt c hc (pick_sees hm) hv
  · rename_i o hc; cases h; exact .inc c hc
  · rename_i n o hc
    split at h <;> (try cases h)
    rename_i m hm
    split at h <;> (try cases h)
    rename_i t hv
    split at h <;> (try cases h)
    rename_i ht
    exact .chkOk c hc (pick_sees hm) hv ht
  · rename_i n hc; cases h; exact .claim c hc
  · rename_i i hc
    split at h <;> (try cases h)
    rename_i m hm
    split at h <;> (try cases h)
    rename_i t hv
    exact .ldHdr c hc (pick_sees hm) hv
  · rename_i i hd hc
    split at h <;> (try cases h)
    rename_i m hm
    split at h <;> (try cases h)
    rename_i t hv
    exact .ldIdxTail c hc (pick_sees hm) hv
  · rename_i i hd T hc
    split at h <;> (try cases h)
    rename_i m hm
    split at h <;> (try cases h)
    rename_i t hv
    exact .ldKey c hc (pick_sees hm) hv
  · rename_i i e hc
    split at h <;> (try cases h)
    rename_i m hm
    exact .ldVal c hc (pick_sees hm)
  · rename_i i e b hc; cases h; exact .read c hc
  · rename_i i e b x hc; cases h; exact .setEmpty c hc
  · rename_i i e b x hc; cases h; exact .null c hc
  · rename_i i b x hc; cases h; exact .free c hc
  · rename_i i x hc; cases h; exact .retSome c hc
  · cases h

/-- the next step of the producer, reading the `k`-th message; the element and the block are given -/
def stepP (B : Nat) (fix : Bool) (p : Nat) (s : State) (k x0 b0 : Nat) : Option State :=
  match (s.subs p).prod with
  | .out => some { s.go p { s.subs p with prod := if (s.subs p).tail % B = 0 then .head x0 else .wr x0 } (s.c.tick (.prod p)) with
        pushV := upd s.pushV p (upd (s.pushV p) (s.subs p).tail (s.c.vw (.prod p))) }
  | .head x =>
    match pick (s.c.vw (.prod p)) (s.c.hist (.head p)) k with
    | some m => match m.val with
      | some t => some (s.go p { s.subs p with prod := if (s.subs p).tail < t then .fault else .idx x } (s.c.tick (.prod p)))
      | none => none
    | none => none
  | .idx x =>
    match pick (s.c.vw (.prod p)) (s.c.hist (.val p (((s.subs p).hdrs (s.subs p).cur).index ((((s.subs p).hdrs (s.subs p).cur).tail + 1) % ((s.subs p).hdrs (s.subs p).cur).capacity)))) k with
    | some m =>
      if ((s.subs p).entries (((s.subs p).hdrs (s.subs p).cur).index ((((s.subs p).hdrs (s.subs p).cur).tail + 1) % ((s.subs p).hdrs (s.subs p).cur).capacity))).key = invalidBase ∨
        m.val = none then
        some { s.go p { s.subs p with
          prod := .skey x (((s.subs p).hdrs (s.subs p).cur).index ((((s.subs p).hdrs (s.subs p).cur).tail + 1) % ((s.subs p).hdrs (s.subs p).cur).capacity))
            ((((s.subs p).hdrs (s.subs p).cur).tail + 1) % ((s.subs p).hdrs (s.subs p).cur).capacity) } (s.c.tick (.prod p)) with
          seen := upd s.seen p (m.tid, m.time) }
      else none
    | none => none
  | .skey x e T => some { s.go p { s.subs p with
          entries := upd (s.subs p).entries e { (s.subs p).entries e with key := (s.subs p).tail }
          prod := .stl x e T } (s.c.store (.prod p) (.key p e) (some (s.subs p).tail)) with
        keyT := upd s.keyT p (upd (s.keyT p) ((s.subs p).hdrs (s.subs p).cur).nb (s.c.now (.prod p) (.prod p))) }
  | .stl x e T => some (s.go p { s.subs p with
        hdrs := upd (s.subs p).hdrs (s.subs p).cur { (s.subs p).hdrs (s.subs p).cur with tail := T, nb := ((s.subs p).hdrs (s.subs p).cur).nb + 1 }
        ent := upd (s.subs p).ent ((s.subs p).hdrs (s.subs p).cur).nb e
        prod := .blk x e } (s.c.storeRel (.prod p) (.htl p (s.subs p).cur) (some T) (((s.subs p).hdrs (s.subs p).cur).nb + 1)))
  | .blk x e => if (s.mem b0).owner = none then
      some { s.go p { s.subs p with blkOf := upd (s.subs p).blkOf (s.subs p).ns b0, prod := .rst x e b0 }
          { s.c with vw := upd s.c.vw (.prod p) ((s.c.now (.prod p)).join (s.pool b0)) } with
        mem := upd s.mem b0 { s.mem b0 with owner := some (p, (s.subs p).ns) } } else none
  | .rst x e b => some { s.go p { s.subs p with prod := .sval x e b } (s.c.store (.prod p) (.done b) (some 0)) with
        mem := upd s.mem b { s.mem b with done := 0 } }
  | .sval x e b => some (s.go p { s.subs p with
        entries := upd (s.subs p).entries e { (s.subs p).entries e with value := some b }
        tailBlock := b
        ns := (s.subs p).ns + 1
        prod := .wr x } (s.c.store (.prod p) (.val p e) (some b)))
  | .wr x => some { s.go p { s.subs p with prod := .pub x } (s.c.tick (.prod p)) with
        mem := upd s.mem (s.subs p).tailBlock { s.mem (s.subs p).tailBlock with slots := upd (s.mem (s.subs p).tailBlock).slots ((s.subs p).tail % B) (some x) }
        wr := upd s.wr (s.subs p).tailBlock (upd (s.wr (s.subs p).tailBlock) ((s.subs p).tail % B) (.prod p, s.c.now (.prod p) (.prod p)))
        rds := upd s.rds (s.subs p).tailBlock (upd (s.rds (s.subs p).tailBlock) ((s.subs p).tail % B) [])
        raceW := s.raceW || unk (s.c.vw (.prod p)) (s.wr (s.subs p).tailBlock ((s.subs p).tail % B)) ||
          (s.rds (s.subs p).tailBlock ((s.subs p).tail % B)).any (unk (s.c.vw (.prod p))) }
  | .pub x => some { s.go p { s.subs p with tail := (s.subs p).tail + 1, ins := (s.subs p).ins ++ [x], prod := .out }
          (s.c.storeRel (.prod p) (.tail p) (some ((s.subs p).tail + 1)) 0) with
        pubV := upd s.pubV p (upd (s.pubV p) (s.subs p).tail (s.c.now (.prod p))) }
  | _ => none

theorem stepP_sound {k x0 b0 : Nat} (h : stepP B fix p s k x0 b0 = some s') : SStep B fix p s s' := by
  unfold stepP at h
  split at h
  · rename_i hc; cases h; exact .enqueue x0 hc
  · rename_i x hc
    split at h <;> (try cases h)
    rename_i m hm
    split at h <;> (try cases h)
    rename_i t hv
    exact .ldHead hc (pick_sees hm) hv
  · rename_i x hc
    split at h <;> (try cases h)
    rename_i m hm
    split at h <;> (try cases h)
    rename_i he
    exact .idxOk hc (pick_sees hm) he
  · rename_i hc; cases h; exact .storeKey hc
  · rename_i hc; cases h; exact .storeTail hc
  · rename_i x e hc
    split at h <;> (try cases h)
    rename_i hb
    exact .requisition hc b0 hb
  · rename_i hc; cases h; exact .resetEmpty hc
  · rename_i hc; cases h; exact .storeVal hc
  · rename_i hc; cases h; exact .write hc
  · rename_i hc; cases h; exact .publish hc
  · cases h

inductive Op
  /-- consumer `c`, the `k`-th message -/
  | c (c k : Nat)
  /-- the producer, with the element `x` if it calls `push` -/
  | p (k x : Nat)
  /-- `t` gets to know what `t'` knows -/
  | l (t t' : Tid)

def run (B : Nat) (fix : Bool) (s : State) : List Op → Option State
  | [] => some s
  | .c c k :: l => match stepC B fix 0 s c k with
    | some s' => run B fix s' l
    | none => none
  | .p k x :: l => match stepP B fix 0 s k x 0 with
    | some s' => run B fix s' l
    | none => none
  | .l t t' :: l => run B fix { s with c := { s.c with vw := upd s.c.vw t ((s.c.vw t).join (s.c.vw t')) } } l

theorem run_append {l l' : List Op} : ∀ {s : State}, run B fix s (l ++ l') = (run B fix s l).bind fun s' => run B fix s' l' := by
  induction l with
  | nil => intro s; rfl
  | cons o l ih =>
    intro s
    cases o with
    | c c k => simp only [List.cons_append, run]; split <;> first | exact ih | rfl
    | p k x => simp only [List.cons_append, run]; split <;> first | exact ih | rfl
    | l t t' => simp only [List.cons_append, run]; exact ih

theorem run_steps {l : List Op} : ∀ {s s' : State}, run B fix s l = some s' → ∀ {s0 : State}, Steps B fix s0 s → Steps B fix s0 s' := by
  induction l with
  | nil => intro s s' e s0 h; cases e; exact h
  | cons o l ih =>
    intro s s' e s0 h
    cases o with
    | c c k =>
      simp only [run] at e
      split at e
      · rename_i s1 h1; exact ih e (.step h (.mk 0 (stepC_sound h1)))
      · cases e
    | p k x =>
      simp only [run] at e
      split at e
      · rename_i s1 h1; exact ih e (.step h (.mk 0 (stepP_sound h1)))
      · cases e
    | l t t' => exact ih e (.step h (.learn t t'))

theorem stepC_cons {c k : Nat} (h : stepC B fix p s c k = some s') (q c' : Nat) (hc : c' ≠ c) : (s'.subs q).cons c' = (s.subs q).cons c' := by
  by_cases e : q = p
  · subst e
    unfold stepC at h
    split at h
    all_goals
      repeat' split at h
      all_goals
        cases h
      all_goals
        simp only [State.go, upd_same, Sub.at]
        exact upd_ne _ _ hc
  · rw [(stepC_sound h).subs_other e]

theorem stepP_cons {k x b : Nat} (h : stepP B fix p s k x b = some s') (q c' : Nat) : (s'.subs q).cons c' = (s.subs q).cons c' := by
  by_cases e : q = p
  · subst e
    unfold stepP at h
    split at h
    all_goals
      repeat' split at h
      all_goals
        cases h
      all_goals
        simp only [State.go, upd_same]
  · rw [(stepP_sound h).subs_other e]

def Op.solo : Op → Bool
  | .c n _ => n == 0
  | _ => true

theorem run_solo {l : List Op} (hl : l.all Op.solo = true) : ∀ {s s' : State}, run B fix s l = some s' → (∀ p c, c ≠ 0 → (s.subs p).cons c = .out) →
    ∀ {s0 : State}, SoloSteps B fix s0 s → SoloSteps B fix s0 s' := by
  induction l with
  | nil => intro s s' e _ s0 h; cases e; exact h
  | cons o l ih =>
    intro s s' e ho s0 h
    rw [List.all_cons, Bool.and_eq_true] at hl
    cases o with
    | c c k =>
      simp only [run] at e
      split at e
      · rename_i s1 h1
        have hc : c = 0 := by simpa [Op.solo] using hl.1
        subst hc
        have ho' : ∀ p c, c ≠ 0 → (s1.subs p).cons c = .out := fun p c hc => by rw [stepC_cons h1 p c hc]; exact ho p c hc
        exact ih hl.2 e ho' (.step h (.mk 0 (stepC_sound h1)) ho')
      · cases e
    | p k x =>
      simp only [run] at e
      split at e
      · rename_i s1 h1
        have ho' : ∀ p c, c ≠ 0 → (s1.subs p).cons c = .out := fun p c hc => by rw [stepP_cons h1 p c]; exact ho p c hc
        exact ih hl.2 e ho' (.step h (.mk 0 (stepP_sound h1)) ho')
      · cases e
    | l t t' => exact ih hl.2 e ho (.step h (.learn t t') ho)

/-- an unused queue with an index of size `C` -/
def s0 (C : Nat) : State where
  subs := fun _ => Sub.init C (fun _ => none)
  mem := fun _ => { slots := fun _ => none, done := 0, owner := none }
  c := ⟨hist0 C (fun _ _ => none) (fun _ => 0), fun _ _ => 0⟩
  pool := fun _ => VC.bot
  wr := fun _ _ => (.prod 0, 0)
  rds := fun _ _ => []
  hdrW := fun _ _ => 0
  raceR := false
  raceW := false
  tv := fun _ _ => 0
  pushV := fun _ _ => VC.bot
  pubV := fun _ _ => VC.bot
  keyT := fun _ _ => 0
  seen := fun _ => (.prod 0, 0)

theorem s0_init (C : Nat) : Init C (s0 C) where
  subs := ⟨fun _ _ => none, fun _ => 0, fun _ => rfl, rfl, fun _ => rfl⟩
  mem := fun _ => rfl
  vw := fun _ _ => rfl
  pool := fun _ => rfl
  wr := fun _ _ => rfl
  rds := fun _ _ => rfl
  hdrW := fun _ _ => rfl
  keyT := fun _ _ => rfl
  race := ⟨rfl, rfl⟩

/-- a first element of a block is pushed -/
def push1 (x : Nat) : List Op := [.p 0 x, .p 0 0, .p 0 0, .p 0 0, .p 0 0, .p 0 0, .p 0 0, .p 0 0, .p 0 0, .p 0 0]
/-- another one -/
def push2 (x : Nat) : List Op := [.p 0 x, .p 0 0, .p 0 0]
/-- `c` pops up to and with the read of the element -/
def popRead (c : Nat) : List Op := [.c c 0, .c c 0, .c c 0, .c c 0, .c c 0, .c c 0, .c c 0, .c c 0, .c c 0, .c c 0, .c c 0, .c c 0]

theorem s0_out (C p c : Nat) : ((s0 C).subs p).cons c = .out := rfl

theorem run_reach {C : Nat} {l : List Op} (e : run B fix (s0 C) l = some s') : Reach B C fix s' :=
  (run_steps e .refl).reach (.init (s0_init C))

theorem run_solo' {C : Nat} {l : List Op} (hl : l.all Op.solo = true) (e : run B fix (s0 C) l = some s') : Solo B C fix s' :=
  (run_solo hl e (fun p c _ => s0_out C p c) .refl).solo (.init (s0_init C))

end RG.WQ
