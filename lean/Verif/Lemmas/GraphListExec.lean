import Verif.Model.GraphList
import Verif.Lemmas.ConcExec
import Verif.Lemmas.ConcEff
import Verif.Lemmas.GraphEx
/-
Concrete executions of the task graph with lock-free lists, used for examples and counterexamples.
-/
namespace RG.GList

open RG.Graph (Cfg Entry IPc Ph Fol Fl olderThan)

inductive Act
  /-- a step that is not part of an operation on a list -/
  | g (a : Graph.Act)
  /-- continue the submission of a task -/
  | sub (t : Nat)
  /-- continue the initialisation of a task -/
  | init (t : Nat)
  /-- continue the notification of the post-event of a task -/
  | flush (t : Nat)

/-- the tasks whose phase is changed by an action -/
def phTask (g : Graph.State) : Graph.Act → List Nat
  | .submit => [g.n]
  | .sub t | .init t => [t]
  | _ => []

/-- the tasks whose notification is changed by an action -/
def flTask (g : Graph.State) : Graph.Act → List Nat
  | .follow k => [g.owner k]
  | .ret t => [t]
  | .flush t => [t]
  | _ => []

variable {cfg : Cfg} {N : Nat} {excl : Bool}

theorem exec_ph {g g' : Graph.State} {a : Graph.Act} (h : Graph.exec cfg g a = some g') (t : Nat) (ht : t ∉ phTask g a) :
    g'.ph t = g.ph t := by
  cases a <;> simp only [phTask, List.mem_singleton, Graph.exec] at h ht
  case init u =>
    unfold Graph.execInit at h
    split at h
    all_goals (first | (cases h; simp only [upd_ne _ _ ht]; done) | skip)
    all_goals (repeat' split at h)
    all_goals (first | (cases h; done) | (cases h; simp only [upd_ne _ _ ht]; done))
  all_goals (repeat' split at h)
  all_goals (first | (cases h; done) | (cases h; simp only [Graph.State.decPost, Graph.State.decPre, Graph.State.decCd]; done) | (cases h; simp only [upd_ne _ _ ht]))

theorem decPost_fl {g : Graph.State} {q t : Nat} (h : t ≠ q) : (Graph.State.decPost g q).fl t = g.fl t := by
  simp only [Graph.State.decPost, upd_ne _ _ h]

theorem exec_fl {g g' : Graph.State} {a : Graph.Act} (h : Graph.exec cfg g a = some g') (t : Nat) (ht : t ∉ flTask g a)
    (hn : ∀ u rem, a = .flush u → g.fl u ≠ .notifying rem) :
    g'.fl t = g.fl t := by
  cases a <;> simp only [flTask, List.mem_singleton, Graph.exec] at h ht
  case init u =>
    unfold Graph.execInit at h
    split at h
    all_goals (first | (cases h; done) | skip)
    all_goals (repeat' split at h)
    all_goals (cases h; try rfl)
  case flush u =>
    have hn := fun rem => hn u rem rfl
    split at h
    · split at h
      · split at h <;> cases h
        simp only [upd_ne _ _ ht]
      · split at h <;> cases h
        simp only [upd_ne _ _ ht]
    · rename_i e; exact absurd e (hn _)
    · rename_i e; exact absurd e (hn _)
    · rename_i e; exact absurd e (hn _)
    · cases h; simp only [Graph.State.decCd, upd_ne _ _ ht]
    · cases h
  all_goals (repeat' split at h)
  all_goals (first | (cases h; done) | (cases h; rw [decPost_fl ht]; done) | (cases h; rfl))

/-- `push` of `v` by thread `u` continues -/
def goPush (N : Nat) (l : CoL.State) (u v : Nat) : Option CoL.State :=
  if l.pcs u = .idle then CoL.exec N l u (.push v) else CoL.exec N l u .go

theorem goPush_step {l l' : CoL.State} {u v : Nat} (h : goPush N l u v = some l') : CoL.Step N u l l' := by
  unfold goPush at h; split at h <;> exact CoL.exec_step h

def goAdv (N : Nat) (l : CoL.State) : Option CoL.State :=
  match CoL.exec N l 0 .go with
  | some l' => if (CoL.on (l.pcs 0)).isSome = true ∧ CoL.isIter (l'.pcs 0) = true then some l' else none
  | none => none

theorem goAdv_adv {l l' : CoL.State} (h : goAdv N l = some l') : Adv N l l' := by
  unfold goAdv at h
  split at h
  · split at h
    · rename_i h1 h2; cases h; exact ⟨CoL.exec_step h1, h2⟩
    · cases h
  · cases h

def goNext (N : Nat) (l : CoL.State) (b : Bool) : Option CoL.State := if b then some l else goAdv N l

theorem goNext_adv {l l' : CoL.State} {b : Bool} (h : goNext N l b = some l') : if b then l' = l else Adv N l l' := by
  unfold goNext at h
  split
  · rw [if_pos (by assumption)] at h; cases h; rfl
  · rw [if_neg (by assumption)] at h; exact goAdv_adv h

def isAsg : CoL.Pc → Bool
  | .pAsg _ _ _ => true
  | _ => false

theorem isAsg_true {p : CoL.Pc} (h : isAsg p = true) : ∃ v c k, p = .pAsg v c k := by
  cases p <;> first | exact ⟨_, _, _, rfl⟩ | cases h

theorem isAsg_false {p : CoL.Pc} (h : isAsg p ≠ true) (v c k : Nat) : p ≠ .pAsg v c k := by
  rintro rfl; exact h rfl

def execG (cfg : Cfg) (s : State) (a : Graph.Act) : Option State :=
  match Graph.exec cfg s.g a with
  | some g' =>
    if (∀ t ∈ phTask s.g a, busy cfg s.g t = false) ∧ (∀ t ∈ flTask s.g a, flBusy s.g t = false) ∧ s.g.n ≤ g'.n then
      some { s with g := g' }
    else none
  | none => none

def execSub (cfg : Cfg) (N : Nat) (excl : Bool) (s : State) (t : Nat) : Option State :=
  match s.g.ph t with
  | .submitting i => match (cfg.res t)[i]? with
    | some r => match (s.l r).pcs (t + 1) with
      | .pAsg _ c k => match CoL.exec N (s.l r) (t + 1) .go with
        | some l' => some { s with
            g := { s.g with
              ph := upd s.g.ph t (.submitting (i + 1))
              users := upd s.g.users r ((t, i) :: s.g.users r)
              hist := upd s.g.hist r ((t, i) :: s.g.hist r) }
            l := upd s.l r l'
            ent := upd s.ent (t, i) (c, k) }
        | none => none
      | _ => match goPush N (s.l r) (t + 1) t with
        | some l' =>
          if CoL.pushed (l'.pcs (t + 1)) = some t ∧ t < s.g.n ∧
              (excl = true → ∀ u, u < s.g.n + 1 → u ≠ t + 1 → CoL.pushing ((s.l r).pcs u) = false) then
            some { s with l := upd s.l r l' }
          else none
        | none => none
    | none => none
  | _ => none

def execPush (cfg : Cfg) (N : Nat) (s : State) (t : Nat) : Option State :=
  match s.g.ph t with
  | .initing (.link i p rem) => match goPush N (s.f p.1) (t + 1) (code (.pre t)) with
    | some f' =>
      if isAsg (f'.pcs (t + 1)) then some { s with
        g := { s.g with
          ph := upd s.g.ph t (.initing (.incr i p rem))
          fol := upd s.g.fol p.1 (.pre t :: s.g.fol p.1)
          pnd := upd s.g.pnd p.1 (.pre t :: s.g.pnd p.1) }
        f := upd s.f p.1 f' }
      else if CoL.pushed (f'.pcs (t + 1)) = some (code (.pre t)) then some { s with f := upd s.f p.1 f' }
      else none
    | none => none
  | .initing (.incr i p rem) =>
    if isAsg ((s.f p.1).pcs (t + 1)) then match CoL.exec N (s.f p.1) (t + 1) .go with
      | some f' => some { s with f := upd s.f p.1 f' }
      | none => none
    else if (s.f p.1).pcs (t + 1) = .idle then match (cfg.res t)[i]? with
      | some r => match goNext N (s.l r) (cfg.sync p.1 r) with
        | some l' => some { s with
            g := { s.g with
              ph := upd s.g.ph t (.initing (if cfg.sync p.1 r then .unlock i else .scan i rem))
              pre := upd s.g.pre t (s.g.pre t + 1) }
            l := upd s.l r l' }
        | none => none
      | none => none
    else none
  | .initing .parent => match cfg.parentOf t with
    | some q => match goPush N (s.f t) (t + 1) (code (.post q)) with
      | some f' =>
        if isAsg (f'.pcs (t + 1)) then some { s with
          g := { s.g with
            ph := upd s.g.ph t (.initing (.pincr q))
            fol := upd s.g.fol t (.post q :: s.g.fol t)
            pnd := upd s.g.pnd t (.post q :: s.g.pnd t) }
          f := upd s.f t f' }
        else if CoL.pushed (f'.pcs (t + 1)) = some (code (.post q)) then some { s with f := upd s.f t f' }
        else none
      | none => none
    | none => none
  | .initing (.pincr q) =>
    if isAsg ((s.f t).pcs (t + 1)) then match CoL.exec N (s.f t) (t + 1) .go with
      | some f' => some { s with f := upd s.f t f' }
      | none => none
    else if (s.f t).pcs (t + 1) = .idle then
      some { s with
        g := { s.g with ph := upd s.g.ph t (.initing .final), post := upd s.g.post q (s.g.post q + 1) } }
    else none
  | _ => none

def execScan (cfg : Cfg) (N : Nat) (s : State) (t : Nat) : Option State :=
  match s.g.ph t with
  | .initing (.next i) => match (cfg.res t)[i]? with
    | some r =>
      if s.lk r = none then match CoL.exec N (s.l r) 0 (.copy (s.ent (t, i))) with
        | some l' =>
          if (s.l r).pcs 0 = .idle ∧ l'.pcs 0 = .iAt (s.ent (t, i)).1 (s.ent (t, i)).2 then
            some { s with l := upd s.l r l', lk := upd s.lk r (some t) }
          else none
        | none => none
      else if s.lk r = some t then
        if CoL.moving ((s.l r).pcs 0) = true then match CoL.exec N (s.l r) 0 .go with
          | some l' => some { s with l := upd s.l r l' }
          | none => none
        else match goAdv N (s.l r) with
          | some l' => some { s with
              g := { s.g with
                ph := upd s.g.ph t (.initing (.scan i (olderThan (t, i) (s.g.users r))))
                lock := upd s.g.lock r (some t) }
              l := upd s.l r l' }
          | none => none
      else none
    | none => none
  | .initing (.scan i rem) => match (cfg.res t)[i]? with
    | some r =>
      if s.lk r = some t then
        if CoL.moving ((s.l r).pcs 0) = true then match CoL.exec N (s.l r) 0 .go with
          | some l' => some { s with l := upd s.l r l' }
          | none => none
        else match (s.l r).pcs 0 with
          | .iEnd => some { s with g := { s.g with ph := upd s.g.ph t (.initing (.unlock i)) } }
          | .iOn c k => match (s.l r).val (c, k) with
            | some p =>
              if cfg.parentOf t = some p then
                some { s with g := { s.g with ph := upd s.g.ph t (.initing (.unlock i)) } }
              else if cfg.space p = cfg.space t ∧ cfg.serial p t = true then
                if s.g.post p = 0 then match goNext N (s.l r) (cfg.sync p r) with
                  | some l' => some { s with
                      g := { s.g with
                        ph := upd s.g.ph t (.initing (if cfg.sync p r then .unlock i else .scan i rem.tail)) }
                      l := upd s.l r l' }
                  | none => none
                else some { s with
                  g := { s.g with ph := upd s.g.ph t (.initing (.link i (entry p rem) rem.tail)) } }
              else match goAdv N (s.l r) with
                | some l' => some { s with
                    g := { s.g with ph := upd s.g.ph t (.initing (.scan i rem.tail)) }
                    l := upd s.l r l' }
                | none => none
            | none => none
          | _ => none
      else none
    | none => none
  | .initing (.unlock i) => match (cfg.res t)[i]? with
    | some r => match CoL.exec N (s.l r) 0 .stop with
      | some l' =>
        if l'.pcs 0 = .idle then some { s with
          g := { s.g with ph := upd s.g.ph t (.initing (.next (i + 1))), lock := upd s.g.lock r none }
          l := upd s.l r l'
          lk := upd s.lk r none }
        else none
      | none => none
    | none => none
  | _ => none

open Graph.State in
def execNotify (N : Nat) (s : State) (p : Nat) (rem : List Fol) : Option State :=
  if CoL.moving ((s.f p).pcs 0) = true then match CoL.exec N (s.f p) 0 .go with
    | some f' => some { s with f := upd s.f p f' }
    | none => none
  else match (s.f p).pcs 0 with
    | .iEnd => match CoL.exec N (s.f p) 0 .stop with
      | some f' =>
        if f'.pcs 0 = .idle then some { s with g := { s.g with fl := upd s.g.fl p .counting }, f := upd s.f p f' }
        else none
      | none => none
    | .iOn c k => match (s.f p).val (c, k), goAdv N (s.f p) with
      | some v, some f' =>
        if v % 2 = 0 then some { s with
          g := decPre { s.g with fl := upd s.g.fl p (.notifying rem.tail), pnd := upd s.g.pnd p (s.g.pnd p).tail } (v / 2)
          f := upd s.f p f' }
        else some { s with
          g := decPost { s.g with fl := upd s.g.fl p (.notifying rem.tail), pnd := upd s.g.pnd p (s.g.pnd p).tail } (v / 2)
          f := upd s.f p f' }
      | _, _ => none
    | _ => none

/-- `remove` continues for the resource `r` -/
def execRemove (N : Nat) (s : State) (t : Nat) (r : Res) : Option State :=
  if s.lk r = some t ∧ CoL.removing ((s.l r).pcs 0) = true then match CoL.exec N (s.l r) 0 .go with
    | some l' => some { s with l := upd s.l r l', lk := if l'.pcs 0 = .idle then upd s.lk r none else s.lk }
    | none => none
  else none

def execDelete (cfg : Cfg) (N : Nat) (s : State) (t i : Nat) : Option State :=
  if ∀ r' ∈ cfg.res t, s.lk r' ≠ some t then match (cfg.res t)[i]? with
    | some r => match CoL.exec N (s.l r) 0 (.remove (s.ent (t, i))) with
      | some l' =>
        if s.lk r = none ∧ (s.l r).pcs 0 = .idle ∧ l'.pcs 0 = .rRead (s.ent (t, i)) then some { s with
          g := { s.g with
            fl := upd s.g.fl t (.deleting (i + 1)), users := upd s.g.users r ((s.g.users r).erase (t, i)) }
          l := upd s.l r l'
          lk := upd s.lk r (some t) }
        else none
      | none => none
    | none => match CoL.exec N (s.f t) 0 .begin with
      | some f' =>
        if i = (cfg.res t).length ∧ (s.f t).pcs 0 = .idle then some { s with
          g := { s.g with fl := upd s.g.fl t (.notifying (s.g.fol t)) }
          f := upd s.f t f' }
        else none
      | none => none
  else match i with
    | 0 => none
    | i + 1 => match (cfg.res t)[i]? with
      | some r => execRemove N s t r
      | none => none

def execFlush (cfg : Cfg) (N : Nat) (s : State) (t : Nat) : Option State :=
  match s.g.fl t with
  | .deleting i => execDelete cfg N s t i
  | .notifying rem => execNotify N s t rem
  | _ => execG cfg s (.flush t)

def execInit (cfg : Cfg) (N : Nat) (s : State) (t : Nat) : Option State :=
  match execScan cfg N s t with
  | some s' => some s'
  | none => match execPush cfg N s t with
    | some s' => some s'
    | none => execG cfg s (.init t)

def exec (cfg : Cfg) (N : Nat) (excl : Bool) (s : State) : Act → Option State
  | .g a => execG cfg s a
  | .sub t => match execSub cfg N excl s t with
    | some s' => some s'
    | none => execG cfg s (.sub t)
  | .init t => execInit cfg N s t
  | .flush t => execFlush cfg N s t

/-- threads are numbered by the tasks -/
def Small (s : State) : Prop := ∀ r u, s.g.n + 1 ≤ u → (s.l r).pcs u = .idle

theorem busy_not {g : Graph.State} {t : Nat} {L : List Nat} (h : ∀ t ∈ L, busy cfg g t = false) (hb : busy cfg g t = true) :
    t ∉ L := fun hm => by rw [h t hm] at hb; cases hb

theorem execG_step {s s' : State} {a : Graph.Act} (h : execG cfg s a = some s') :
    Step cfg N excl s s' ∧ (Small s → Small s') := by
  unfold execG at h
  split at h
  · rename_i g' h1
    split at h <;> cases h
    rename_i h2
    obtain ⟨h2, h3, h4⟩ := h2
    obtain ⟨lb, hs⟩ := Graph.exec_step h1
    refine ⟨.other hs (fun t ht => exec_ph h1 t (busy_not h2 ht)) (fun t ht => ?_), fun hm r u hu => hm r u (by simp at hu; omega)⟩
    refine exec_fl h1 t (fun hm => ?_) ?_
    · rw [h3 t hm] at ht; cases ht
    · rintro u rem rfl e
      have := h3 u (.head _)
      simp [flBusy, e] at this
  · cases h

theorem small_upd {s : State} {r : Res} {l' : CoL.State} {u : Nat} (hs : CoL.Step N u (s.l r) l') (hu : u < s.g.n + 1) (hm : Small s)
    (r' : Res) (v : Nat) (hv : s.g.n + 1 ≤ v) : (upd s.l r l' r').pcs v = .idle := by
  by_cases e : r' = r
  · subst e; rw [upd_same, CoL.pcs_frame hs (by omega)]; exact hm _ v hv
  · rw [upd_ne _ _ e]; exact hm _ v hv

theorem execSub_step {s s' : State} {t : Nat} (hm : Small s) (h : execSub cfg N excl s t = some s') :
    Step cfg N excl s s' ∧ Small s' := by
  unfold execSub at h
  split at h
  · rename_i i hp
    split at h
    · rename_i r hr
      split at h
      · rename_i v c k ha
        split at h <;> cases h
        rename_i l' hl
        refine ⟨.assign hp hr ha (CoL.exec_step hl), ?_⟩
        have : t + 1 < s.g.n + 1 := by
          apply Classical.byContradiction
          intro e
          rw [hm r (t + 1) (by omega)] at ha; cases ha
        exact fun r' v hv => small_upd (CoL.exec_step hl) this hm r' v hv
      · split at h
        · rename_i l' hl
          split at h <;> cases h
          rename_i h1
          obtain ⟨h1, h2, h3⟩ := h1
          refine ⟨.push hp hr (goPush_step hl) h1 ?_, fun r' v hv => small_upd (goPush_step hl) (by omega) hm r' v hv⟩
          intro he u hu
          by_cases e : u < s.g.n + 1
          · exact h3 he u e hu
          · rw [hm r u (by omega)]; rfl
        · cases h
    · cases h
  · cases h

theorem small_next {s : State} {r : Res} {l' : CoL.State} {b : Bool} (h : if b then l' = s.l r else Adv N (s.l r) l') (hm : Small s)
    (r' : Res) (v : Nat) (hv : s.g.n + 1 ≤ v) : (upd s.l r l' r').pcs v = .idle := by
  split at h
  · subst h
    by_cases e : r' = r
    · subst e; simp only [upd_same]; exact hm _ v hv
    · simp only [upd_ne _ _ e]; exact hm _ v hv
  · exact small_upd h.1 (by omega) hm r' v hv

theorem execPush_step {s s' : State} {t : Nat} (h : execPush cfg N s t = some s') :
    Step cfg N excl s s' ∧ (Small s → Small s') := by
  unfold execPush at h
  split at h
  · rename_i i p rem hp
    split at h
    · rename_i f' hf
      split at h
      · rename_i ha; cases h
        obtain ⟨v, c, k, ha⟩ := isAsg_true ha
        exact ⟨.link hp (goPush_step hf) ha, id⟩
      · split at h <;> cases h
        rename_i h1 h2
        exact ⟨.fpush (F := .pre t) (by simp [target, hp]) (goPush_step hf) h2 (isAsg_false h1), id⟩
    · cases h
  · rename_i i p rem hp
    split at h
    · rename_i ha
      split at h <;> cases h
      rename_i f' hf
      obtain ⟨v, c, k, ha⟩ := isAsg_true ha
      exact ⟨.fassign (by simp [target', hp]) ha (CoL.exec_step hf), id⟩
    · split at h
      · split at h
        · rename_i r hr
          split at h <;> cases h
          rename_i l' hl
          exact ⟨.incr hp hr (by assumption) (goNext_adv hl), fun hm r' v hv => small_next (goNext_adv hl) hm r' v hv⟩
        · cases h
      · cases h
  · rename_i hp
    split at h
    · rename_i q hq
      split at h
      · rename_i f' hf
        split at h
        · rename_i ha; cases h
          obtain ⟨v, c, k, ha⟩ := isAsg_true ha
          exact ⟨.parentPush hp hq (goPush_step hf) ha, id⟩
        · split at h <;> cases h
          rename_i h1 h2
          exact ⟨.fpush (F := .post q) (by simp [target, hp, hq]) (goPush_step hf) h2 (isAsg_false h1), id⟩
      · cases h
    · cases h
  · rename_i q hp
    split at h
    · rename_i ha
      split at h <;> cases h
      rename_i f' hf
      obtain ⟨v, c, k, ha⟩ := isAsg_true ha
      exact ⟨.fassign (by simp [target', hp]) ha (CoL.exec_step hf), id⟩
    · split at h <;> cases h
      exact ⟨.parentIncr hp (by assumption), id⟩
  · cases h

theorem execScan_step {s s' : State} {t : Nat} (h : execScan cfg N s t = some s') :
    Step cfg N excl s s' ∧ (Small s → Small s') := by
  unfold execScan at h
  split at h
  · rename_i i hp
    split at h
    · rename_i r hr
      split at h
      · rename_i hl
        split at h
        · rename_i l' hs
          split at h <;> cases h
          rename_i h1
          exact ⟨.lock hp hr hl h1.1 (CoL.exec_step hs) h1.2, fun hm r' v hv => small_upd (CoL.exec_step hs) (by omega) hm r' v hv⟩
        · cases h
      · split at h
        · rename_i hl
          split at h
          · split at h <;> cases h
            rename_i hs
            exact ⟨.move hl (by assumption) (CoL.exec_step hs), fun hm r' v hv => small_upd (CoL.exec_step hs) (by omega) hm r' v hv⟩
          · split at h <;> cases h
            rename_i hs
            exact ⟨.first hp hr hl (goAdv_adv hs), fun hm r' v hv => small_upd (goAdv_adv hs).1 (by omega) hm r' v hv⟩
        · cases h
    · cases h
  · rename_i i rem hp
    split at h
    · rename_i r hr
      split at h
      · rename_i hl
        split at h
        · split at h <;> cases h
          rename_i hs
          exact ⟨.move hl (by assumption) (CoL.exec_step hs), fun hm r' v hv => small_upd (CoL.exec_step hs) (by omega) hm r' v hv⟩
        · split at h
          · rename_i he; cases h; exact ⟨.scanEnd hp hr he, id⟩
          · rename_i c k ho
            split at h
            · rename_i p hv
              have ho' : CoL.on ((s.l r).pcs 0) = some (c, k) := by rw [ho]; rfl
              split at h
              · rename_i hq; cases h; exact ⟨.scanParent hp hr ho' hv hq, id⟩
              · rename_i hq
                split at h
                · rename_i hc
                  split at h
                  · rename_i h0
                    split at h <;> cases h
                    rename_i hs
                    exact ⟨.scanReached hp hr ho' hv hq hc h0 (goNext_adv hs), fun hm r' v hv => small_next (goNext_adv hs) hm r' v hv⟩
                  · rename_i h0; cases h; exact ⟨.scanLink hp hr ho' hv hq hc h0, id⟩
                · rename_i hc
                  split at h <;> cases h
                  rename_i hs
                  exact ⟨.scanSkip hp hr ho' hv hq hc (goAdv_adv hs), fun hm r' v hv => small_upd (goAdv_adv hs).1 (by omega) hm r' v hv⟩
            · cases h
          · cases h
      · cases h
    · cases h
  · rename_i i hp
    split at h
    · rename_i r hr
      split at h
      · rename_i l' hs
        split at h <;> cases h
        exact ⟨.unlock hp hr (CoL.exec_step hs) (by assumption), fun hm r' v hv => small_upd (CoL.exec_step hs) (by omega) hm r' v hv⟩
      · cases h
    · cases h
  · cases h

theorem execNotify_step {s s' : State} {p : Nat} {rem : List Fol} (hf : s.g.fl p = .notifying rem) (h : execNotify N s p rem = some s') :
    Step cfg N excl s s' ∧ (Small s → Small s') := by
  unfold execNotify at h
  split at h
  · split at h <;> cases h
    rename_i hs
    exact ⟨.notifyMove hf (by assumption) (CoL.exec_step hs), id⟩
  · split at h
    · rename_i he
      split at h
      · rename_i hs
        split at h <;> cases h
        exact ⟨.notifyEnd hf he (CoL.exec_step hs) (by assumption), id⟩
      · cases h
    · rename_i c k ho
      have ho' : CoL.on ((s.f p).pcs 0) = some (c, k) := by rw [ho]; rfl
      split at h
      · rename_i v f' hv hs
        split at h <;> cases h
        · refine ⟨.notifyPre hf ho' ?_ (goAdv_adv hs), id⟩
          rw [hv]; simp only [code]; congr 1; omega
        · refine ⟨.notifyPost hf ho' ?_ (goAdv_adv hs), id⟩
          rw [hv]; simp only [code]; congr 1; omega
      · cases h
    · cases h

theorem begin_pc {f f' : CoL.State} (h : CoL.exec N f 0 .begin = some f') : f'.pcs 0 = .iEnd ∨ ∃ c, f'.pcs 0 = .iLast c := by
  simp only [CoL.exec] at h
  split at h
  · split at h
    · split at h
      · split at h <;> cases h
        simp
      · cases h; simp
      · cases h
    · cases h
  · cases h

theorem execDelete_step {s s' : State} {t i : Nat} (hf : s.g.fl t = .deleting i) (h : execDelete cfg N s t i = some s') :
    Step cfg N excl s s' ∧ (Small s → Small s') := by
  unfold execDelete at h
  split at h
  · rename_i hn
    split at h
    · rename_i r hr
      split at h
      · rename_i l' hs
        split at h <;> cases h
        rename_i h1
        exact ⟨.delete hf hr h1.1 hn h1.2.1 (CoL.exec_step hs) h1.2.2, fun hm r' v hv => small_upd (CoL.exec_step hs) (by omega) hm r' v hv⟩
      · cases h
    · split at h
      · rename_i hs
        split at h <;> cases h
        rename_i h1
        exact ⟨.notifyBegin hf h1.1 hn h1.2 (CoL.exec_step hs) (begin_pc hs), id⟩
      · cases h
  · split at h
    · cases h
    · split at h
      · unfold execRemove at h
        split at h
        · rename_i h1
          split at h <;> cases h
          rename_i l' hs
          exact ⟨.remove h1.1 h1.2 (CoL.exec_step hs), fun hm r' v hv => small_upd (CoL.exec_step hs) (by omega) hm r' v hv⟩
        · cases h
      · cases h

theorem exec_step {s s' : State} {a : Act} (hm : Small s) (h : exec cfg N excl s a = some s') :
    Step cfg N excl s s' ∧ Small s' := by
  cases a with
  | g a => obtain ⟨h1, h2⟩ := execG_step (cfg := cfg) (N := N) (excl := excl) h; exact ⟨h1, h2 hm⟩
  | sub t =>
    simp only [exec] at h
    split at h
    · rename_i hs; cases h; exact execSub_step hm hs
    · obtain ⟨h1, h2⟩ := execG_step (cfg := cfg) (N := N) (excl := excl) h; exact ⟨h1, h2 hm⟩
  | init t =>
    simp only [exec, execInit] at h
    split at h
    · rename_i hs; cases h; exact (execScan_step hs).imp id fun h => h hm
    · split at h
      · rename_i hs; cases h; exact (execPush_step hs).imp id fun h => h hm
      · exact (execG_step h).imp id fun h => h hm
  | flush t =>
    simp only [exec, execFlush] at h
    split at h
    · rename_i hf; exact (execDelete_step hf h).imp id fun h => h hm
    · rename_i hf; exact (execNotify_step hf h).imp id fun h => h hm
    · exact (execG_step h).imp id fun h => h hm

/-- execute a list of actions; an action that is not possible is skipped -/
def run (cfg : Cfg) (N : Nat) (excl : Bool) : State → List Act → State
  | s, [] => s
  | s, a :: as => run cfg N excl ((exec cfg N excl s a).getD s) as

theorem run_steps (as : List Act) {s0 s : State} (hm : Small s) (h : Steps cfg N excl s0 s) :
    Steps cfg N excl s0 (run cfg N excl s as) ∧ Small (run cfg N excl s as) := by
  induction as generalizing s with
  | nil => exact ⟨h, hm⟩
  | cons a as ih =>
    cases he : exec cfg N excl s a with
    | none => simp only [run, he, Option.getD_none]; exact ih hm h
    | some s' =>
      simp only [run, he, Option.getD_some]
      obtain ⟨h1, h2⟩ := exec_step hm he
      exact ih h2 (.step h h1)

theorem Steps.reach {s s' : State} (h : Reach cfg N excl s) (hs : Steps cfg N excl s s') : Reach cfg N excl s' := by
  induction hs with
  | refl => exact h
  | step _ h ih => exact ih.step h

theorem run_init (as : List Act) : Reach cfg N excl (run cfg N excl init as) :=
  (run_steps as (fun _ _ _ => rfl) .refl).1.reach .init

theorem run_small (as : List Act) : Small (run cfg N excl init as) :=
  (run_steps (cfg := cfg) (excl := excl) as (fun _ _ _ => rfl) .refl).2

/-- execute the same action several times -/
def times (k : Nat) (a : Act) : List Act := List.replicate k a

end RG.GList
