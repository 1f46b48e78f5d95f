import Verif.Model.Readin
import Verif.Model.Spmd

/-!
# Loading the data file: data_loader.c, and the program as a whole with its two input files

`fopen` is assumed to succeed.
-/

namespace NiiC

/-- The byte 0xFF. -/
def byteFF : Char := '\xff'

/-- `get_nlines_of_file`, data_loader.c:97-119. The character is kept in a `char`, which is signed on the usual platforms, so that the byte 0xFF equals `EOF`
and ends the loop. -/
def countLines (s : Str) : Int := ((s.takeWhile (· ≠ byteFF)).filter (· = '\n')).length

section
variable {F : Type} [Arith F]

/-- One line of `read_data`, data_loader.c:46-58: the first cell, then `ndim_data - 1` more; a missing token is a null pointer passed to `atof`. -/
def readCells (other : Str → Option F) : Nat → List Str → Except Fault (List F)
  | 0, _ => .ok []
  | _ + 1, [] => .error .null
  | k + 1, t :: ts => do
    let rest ← readCells other k ts
    .ok (atof other t :: rest)

/-- `read_data`, data_loader.c:28-71, from line `i` on: cell `(i, j)` is written to position `i*ndim + j` of a table of `nline*ndim` cells. Since lines are
written in order, the table's content is the list of cells written. At least one cell is written for each line. -/
def readRows (other : Str → Option F) (delim : Str) (nline ndim : Int) : List Str → Nat → Except Fault (List F)
  | [], _ => .ok []
  | l :: ls, i => do
    let row ← readCells other (max 1 ndim.toNat) (tokens delim (cstr l))
    let _ ← (if 1 ≤ ndim ∧ (i : Int) < nline then .ok () else .error .oob : Except Fault Unit)
    let rest ← readRows other delim nline ndim ls (i + 1)
    .ok (row ++ rest)

/-- What root finds in a data file. -/
def dataFile (other : Str → Option F) (delim : Str) (ndim : Int) (s : Str) : DataFile F where
  nlines := countLines s
  ndim := ndim
  cells := readRows other delim (countLines s) ndim (getlines s) 0

/-- What the user's code makes of the input file: the functions, and the ranges of widths (models/*/user_prior.c). -/
structure UserCode (F : Type) where
  load : Raw F → Str → Except Fault (User F × List F × List F)

/-- `main` with its input files (main.c:64-249): every rank reads `input.ini` for itself; root reads the data file named there. -/
def mainText [Source F] {n : Nat} (other : Str → Option F) (code : UserCode F) (text : Str) (files : Str → Str) (clock : Nat) (root me : Fin n) : P n F (RSt n F) := do
  let raw ← Proc.lift (readInput other text)
  let (user, sigmaMin, sigmaMax) ← Proc.lift (code.load raw text)
  let name ← Proc.lift (match raw.dataFile with | none => .error .uninit | some d => .ok d)
  mainProg (raw.cfg user sigmaMin sigmaMax) (dataFile other raw.delimiter raw.ndim (files name)) clock root me

/-- The system at start. -/
def initText [Source F] {n : Nat} (other : Str → Option F) (code : UserCode F) (text : Str) (files : Str → Str) (clock : Nat) (root : Fin n) :
    Sys n (Msg F) (Line F) (RSt n F) :=
  { procs := mainText other code text files clock root, chan := fun _ => [], log := fun _ => [] }

end

end NiiC
