import Verif.Model.Print
import Verif.Model.Scripts

/-!
# The data file of the regression example

models/regression/simulate_data.py makes the file `xy.dat` with `np.savetxt`; the program reads it with its data reader, and
models/regression/comparison_emcee/emcee_lin_reg.py with `np.genfromtxt`. Python's `float(s)` is a parameter `flt` (`none`: no number).
-/

namespace NiiC
namespace Print

/-- `p + 1` digits, or `10^(p + 1)` when rounding makes one more. -/
noncomputable def digitsAt (p : Nat) (x : ℝ) : Nat := (Binary64.rne (|x| / (10 : ℝ) ^ (lead x - p))).toNat

/-- The digits printed by `%.<p>e` as one number. -/
noncomputable def mantAt (p : Nat) (x : ℝ) : Nat := if x = 0 then 0 else if digitsAt p x = 10 ^ (p + 1) then 10 ^ p else digitsAt p x

/-- The exponent printed by `%.<p>e`. -/
noncomputable def expoAt (p : Nat) (x : ℝ) : Int := if x = 0 then 0 else if digitsAt p x = 10 ^ (p + 1) then lead x + 1 else lead x

/-- `%.<p>e` of a finite number, `p` not zero. -/
noncomputable def sciAt (p : Nat) (x : ℝ) : Str := sign x ++ printNat (mantAt p x / 10 ^ p) ++ '.' :: pad p (mantAt p x) ++ 'e' :: expoText (expoAt p x)

end Print

namespace Numpy

variable {R : Rounding}

/-- Words with a blank between them. -/
def between : List Str → Str
  | [] => []
  | [s] => s
  | s :: rest => s ++ ' ' :: between rest

/-- `np.savetxt` with its defaults: the format `%.18e`, a blank between the columns, a newline behind each row. The text of a NaN is a parameter. -/
noncomputable def savetxt (nan : Str) (rows : List (List (Dbl R))) : Str :=
  (rows.map fun r => between (r.map (Print.special nan (Print.sciAt 18))) ++ ['\n']).flatten

/-- One row of the data: models/regression/simulate_data.py:4-12, for a number `u` of `np.random.rand` and a number `g` of `np.random.randn`. -/
noncomputable def simulated (u g : Dbl R) : List (Dbl R) :=
  let x := u *. ofI 10
  let y := x *. Arith.lit 7 2 +. ofI 4
  [x, y +. g *. ofI 2]

/-- The content of `xy.dat`: models/regression/simulate_data.py:12. -/
noncomputable def xyDat (nan : Str) (us gs : List (Dbl R)) : Str := savetxt nan (List.zipWith simulated us gs)

/-- `s.split(c)` for a single character `c`. -/
def splitAt1 (c : Char) : Str → List Str
  | [] => [[]]
  | x :: xs =>
    if x = c then [] :: splitAt1 c xs
    else match splitAt1 c xs with
      | [] => [[x]]
      | w :: ws => (x :: w) :: ws

/-- Characters that `np.genfromtxt` strips from both ends of a line. -/
def stripped (c : Char) : Bool := c == ' ' || c == '\r' || c == '\n'

/-- `s.strip(" \r\n")` -/
def strip (s : Str) : Str := (((s.dropWhile stripped).reverse).dropWhile stripped).reverse

/-- The cells of a line for `np.genfromtxt` with a blank as the delimiter: comments are cut off, an empty line has none. -/
def cellsOf (l : Str) : List Str :=
  match strip (l.takeWhile (· ≠ '#')) with
  | [] => []
  | c :: cs => splitAt1 ' ' (c :: cs)

/-- `np.genfromtxt(datafile, delimiter=" ", skip_header=0)`: emcee_lin_reg.py:31. Lines without cells are left out; lines of different lengths are an error. A cell that
is no number becomes NaN there; here the reading fails. -/
def genfromtxt (flt : Str → Option (Dbl R)) (text : Str) : Option (List (List (Dbl R))) :=
  let rows := ((getlines text).map cellsOf).filter (fun r => !r.isEmpty)
  if rows.all (fun r => r.length == (rows.headD []).length) then rows.mapM (fun r => r.mapM flt) else none

/-- The first two numbers of a row. -/
def firstTwo : List (Dbl R) → Option (Dbl R × Dbl R)
  | x :: y :: _ => some (x, y)
  | _ => none

/-- `data[:,0]` and `data[:,1]`: emcee_lin_reg.py:32-33. Of a single row, or of a single column, a vector is made, which has no second index. -/
def points (flt : Str → Option (Dbl R)) (text : Str) : Option (List (Dbl R × Dbl R)) := do
  let rows ← genfromtxt flt text
  if rows.length ≤ 1 then none else rows.mapM firstTwo

end Numpy
end NiiC
