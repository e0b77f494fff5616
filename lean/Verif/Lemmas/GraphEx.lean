import Verif.Lemmas.GraphExec
import Verif.Props.ResourceUser
/-
Concrete programs used in the examples and counterexamples for the task graph.
-/
namespace RG.Graph

def rA : Res := ⟨1, 0⟩
def rB : Res := ⟨2, 0⟩

/-- task `t` accesses the resources of `acc t`; it is in space `space t` -/
def prog (acc : Nat → List (Res × Mode)) (space : Nat → Nat) (parent : Nat → Option Nat)
    (strict single : Bool) : Cfg where
  user t := declare 0 [.resources ((acc t).map fun x => ⟨.io, x.1, x.2⟩)]
  space := space
  parent := parent
  strict := strict
  single := single

/-- three tasks in the root space: the first one writes A, the second one reads A and writes B, the
third one reads B; further tasks write A. -/
def flatAcc : Nat → List (Res × Mode)
  | 0 => [(rA, .write)]
  | 1 => [(rA, .read), (rB, .write)]
  | 2 => [(rB, .read)]
  | _ => [(rA, .write)]

def flat : Cfg := prog flatAcc (fun _ => 0) (fun _ => none) true true

/-- all three tasks submitted and initialised -/
def flatInit : List Act :=
  doSubmit 0 ++ doSubmit 1 ++ doSubmit 2 ++ doInit 0 ++ doInit 1 ++ doInit 2

/-- the first task runs, creates an event and returns; its event is notified; it finishes -/
def flatFirst : List Act :=
  flatInit ++ [.start 0, .event 0, .ret 0, .notify 0, .follow 0] ++ doFlush 0

/-- a task and its child (task 1, in the space of task 0), and a conflicting successor -/
def nestAcc : Nat → List (Res × Mode)
  | 0 => [(rA, .write)]
  | 1 => [(rA, .read)]
  | 2 => [(rA, .write)]
  | _ => []

def nestSpace : Nat → Nat
  | 1 => 1
  | _ => 0

def nestParent : Nat → Option Nat
  | 1 => some 0
  | _ => none

def nest (strict : Bool) : Cfg := prog nestAcc nestSpace nestParent strict true

end RG.Graph
