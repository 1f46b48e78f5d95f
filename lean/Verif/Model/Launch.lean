import Verif.Model.Readin

/-!
# Starting a run: mjob.sh

The script mjob.sh (the same in models/*/mjob.sh) takes the number of processes from `input.ini` with `grep` and `awk`, apart from the program, which reads the file with its own
functions. Texts have no null bytes here (`grep` then prints no lines). Characters that the shell would expand to file names (`*`, `?`, `[`) are not expanded.
-/

namespace NiiC
namespace Launch

/-- The characters at which `awk` and the shell cut a line into fields. -/
def gaps : Str := [' ', '\t', '\n']

/-- What `print$2` prints for a line: the second field, empty when there is none. -/
def second (line : Str) : Str := ((tokens gaps line)[1]?).getD []

/-- The lines that the pipe `grep "N_beta" input.ini | awk '{print$2}'` prints: mjob.sh:10. -/
def counts (text : Str) : List Str := ((getlines text).filter (strstr (c!"N_beta"))).map second

/-- The arguments between `-n` and `./a.out` on the line that starts the program: `$NUM` is not quoted, so the shell cuts it into words. mjob.sh:23. -/
def words (text : Str) : List Str := (counts text).flatMap (tokens gaps)

/-- How many processes of `a.out` are started: none is known when `mpirun -n` is not followed by exactly one number in digits. With no word `mpirun` takes the name of the
program for the number, with several words it takes the second one for the name of the program. -/
def launched (text : Str) : Option Nat :=
  match words text with
  | [w] => if w ≠ [] ∧ w.all isDigit then some (natOf w) else none
  | _ => none

end Launch
end NiiC
