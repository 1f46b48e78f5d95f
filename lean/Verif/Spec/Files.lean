import Verif.Model.Config

/-!
# Specification: what the output files contain

A chain file is the sequence of rows written for that chain. `notes` are not output: they are the records of a rank's
variables at the start of each batch and each swap.
-/

namespace NiiC

variable {F : Type}

/-- A line of a chain file. -/
structure Row (F : Type) where
  x : List F
  lp : F
  iter : Nat
  accepted : Nat

/-- Rows of the chain file of `rank` among the lines of a log. -/
def fileRows (rank : Nat) (log : List (Line F)) : List (Row F) :=
  log.filterMap (fun l => match l with
    | .row k x lp a c => if k = rank then some ⟨x, lp, a, c⟩ else none
    | _ => none)

/-- A record of a rank's variables. -/
structure Note (F : Type) where
  iter : Nat
  accepted : Nat
  betas : List F
  widths : List F

/-- The records of its variables that a rank has made so far, oldest first: one at the start of each batch and each swap. -/
def notes (log : List (Line F)) : List (Note F) :=
  log.filterMap (fun l => match l with
    | .note a c b s => some ⟨a, c, b, s⟩
    | _ => none)

/-- Widths logged for `rank`. -/
def widthRows (rank : Nat) (log : List (Line F)) : List (List F) :=
  log.filterMap (fun l => match l with
    | .sigma k s => if k = rank then some s else none
    | _ => none)

/-- Ladders logged. -/
def ladderRows (log : List (Line F)) : List (List F) :=
  log.filterMap (fun l => match l with
    | .betas b => some b
    | _ => none)

@[simp] theorem fileRows_append (k : Nat) (a b : List (Line F)) : fileRows k (a ++ b) = fileRows k a ++ fileRows k b :=
  List.filterMap_append

@[simp] theorem notes_append (a b : List (Line F)) : notes (a ++ b) = notes a ++ notes b := List.filterMap_append

@[simp] theorem widthRows_append (k : Nat) (a b : List (Line F)) :
    widthRows k (a ++ b) = widthRows k a ++ widthRows k b := List.filterMap_append

@[simp] theorem ladderRows_append (a b : List (Line F)) : ladderRows (a ++ b) = ladderRows a ++ ladderRows b :=
  List.filterMap_append

end NiiC
