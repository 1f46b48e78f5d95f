import Verif.Model.Readin

/-!
# Names of the output files

All files are opened for appending, so that the file of a given name receives the lines written under that name, by whichever rank, behind what it held
before the run.
-/

namespace NiiC

/-- The character of a digit. -/
def digitOut (d : Nat) : Char := Char.ofNat (48 + d)

/-- `%d` for a number that is not negative. -/
def printNat (k : Nat) : Str := if k < 10 then [digitOut k] else printNat (k / 10) ++ [digitOut (k % 10)]
termination_by k
decreasing_by omega

/-- `snprintf(fname, size, …)`: at most `size - 1` characters are stored. -/
def snprintf (size : Nat) (s : Str) : Str := s.take (size - 1)

/-- The globals that make up file names: `Fout_Len`, `FoutPre`, `FoutSuf`, `results_dir`. The names of chain files, start points and seed log are composed in a
buffer `char fname[Fout_Len]`; a `Fout_Len` below 1 is not considered. -/
structure Naming where
  len : Nat
  pre : Str
  suf : Str
  dir : Str

/-- The full name of the chain file of a rank, mpi_batch.c:434, mpi_init.c:285. -/
def Naming.chainFull (nm : Naming) (r : Nat) : Str := nm.dir ++ (c!"/") ++ nm.pre ++ printNat r ++ nm.suf

/-- The file that a line goes to: mpi_init.c:220, 248, 285; mpi_batch.c:434; mpi_flow.c:343; mpi_stack.c:470. -/
def Naming.file {F : Type} (nm : Naming) : Line F → Option Str
  | .mkdir => none
  | .seed _ _ => some (snprintf nm.len (nm.dir ++ (c!"/") ++ c!"init.randseed"))
  | .initParm _ => some (snprintf nm.len (nm.dir ++ (c!"/") ++ c!"init.parm"))
  | .row r _ _ _ _ => some (snprintf nm.len (nm.chainFull r))
  | .sigma r _ => some (snprintf 100 (nm.dir ++ (c!"/") ++ (c!"gaussian_prop.chain") ++ printNat r))
  | .betas _ => some (snprintf 100 (nm.dir ++ (c!"/") ++ c!"Beta_Values_in_stack.dat"))
  | .note _ _ _ _ => none

end NiiC
