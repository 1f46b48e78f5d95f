import Verif.Mpi.Proc
import Verif.Model.FileNames

/-!
# The files that a run leaves behind

Every output file is opened by `fopen(fname, "a")` (mpi_init.c:224, 252, 289; mpi_batch.c:438; mpi_flow.c:347; mpi_stack.c:474): it is made if
it is not there, and else what is in it stays and the new text comes after it. `make_dir`, readin.c:390-404, makes the directory of results; if
it is there already it prints a warning ("may overwrite previous results!") whose return value main.c:102 ignores, and leaves the directory
and its files as they are.

Simplified: a line is in the file as soon as it is printed. The program opens and closes the file for each save, so that the lines of one save get
there together when the file is closed.
-/

namespace NiiC

/-- What is in the file of each name; a file that is not there is an empty one. -/
abbrev Disk := Str → Str

/-- `fopen(name, "a")`, `fprintf`, `fclose`: mpi_batch.c:438-466 and the like. A line without a file (`none`) is not printed. -/
def Disk.append (d : Disk) (name : Option Str) (s : Str) : Disk :=
  match name with
  | none => d
  | some f => Function.update d f (d f ++ s)

variable {n : Nat} {V L α : Type}

/-- The line that an action prints, with the rank that prints it. -/
def Sys.prints (s : Sys n V L α) : Label n → Option (Fin n × L)
  | .rank r =>
    match s.procs r with
    | .out l _ => some (r, l)
    | _ => none
  | .barrier => none

/-- The files after one action. -/
def Disk.after (file : L → Option Str) (text : L → Str) (d : Disk) : Option (Fin n × L) → Disk
  | some x => d.append (file x.2) (text x.2)
  | none => d

/-- An execution and what it does to the files. -/
def Sys.runOn (file : L → Option Str) (text : L → Str) : Sys n V L α → Disk → List (Label n) → Option (Sys n V L α × Disk)
  | s, d, [] => some (s, d)
  | s, d, l :: w => (s.step l).bind fun s' => s'.runOn file text (d.after file text (s.prints l)) w

end NiiC
