import Verif.Model.Models
import Verif.Model.Readin
import Verif.Num.Dbl

/-!
# The scripts that work on the chain files of models/eggbox

models/eggbox/merge_lines.py writes a chain file without repeated rows, models/eggbox/sampling_static.py counts the rows of a chain file in cells of a grid. Python's
`float(s)` is a parameter `flt` (`none`: ValueError). Blanks are those of ASCII, lines end with a newline. An uncaught exception ends a script; what has been written
before is in the file.
-/

namespace NiiC
namespace Scripts

/-- The characters at which `str.split()` cuts. -/
def blanks : Str := [' ', '\t', '\n', '\x0b', '\x0c', '\r']

/-- `line.split()` -/
def split (line : Str) : List Str := tokens blanks line

section
variable {F : Type} [Arith F]

/-- The first `n` fields as numbers, `none` when there are fewer (IndexError) or one is no number (ValueError): merge_lines.py:32-35. -/
def cells (flt : Str → Option F) : Nat → List Str → Option (List F)
  | 0, _ => some []
  | _ + 1, [] => none
  | n + 1, s :: ss => match flt s, cells flt n ss with
    | some v, some vs => some (v :: vs)
    | _, _ => none

/-- `np.sum(np.abs(a - b)) > 0`: merge_lines.py:37-38. -/
def differs (a b : List F) : Bool := Arith.lit 0 1 <. ((List.zipWith (fun x y => Arith.fabs (x -. y)) a b).foldl (· +. ·) (Arith.lit 0 1))

/-- The loop over the lines, with the line before: merge_lines.py:19-44. The lines written, and whether the loop came to its end. -/
def mergeLoop (flt : Str → Option F) (n : Nat) : Str → List Str → List Str × Bool
  | _, [] => ([], true)
  | old, new :: rest => match cells flt n (split new), cells flt n (split old) with
    | some a, some b =>
      let p := mergeLoop flt n new rest
      (if differs a b then new :: p.1 else p.1, p.2)
    | _, _ => ([], false)

/-- merge_lines.py with the two parameters of the eggbox (line 3): the new content of the output file, which is opened for appending (line 14), and whether the script
came to its end. The first line is read twice: as the line before the first, and as the first (lines 10-12 and 17). -/
def merge (flt : Str → Option F) (text before : Str) : Str × Bool :=
  let ls := getlines text
  let p := mergeLoop flt 2 (ls.headD []) ls
  (before ++ p.1.flatten, p.2)

/-- The fourth column: sampling_static.py:46. -/
def surface (x y : F) : F := Arith.cos (x /. ofI 2) *. Arith.sin (y /. ofI 2) +. ofI 1

end

section
variable {R : Rounding}

/-- `int(v)`: the fraction is cut off; `none` for infinities and NaN (OverflowError, ValueError). -/
noncomputable def pyInt (v : Dbl R) : Option Int :=
  match (v : XV) with
  | .fin x => some (if 0 ≤ x then ⌊x⌋ else ⌈x⌉)
  | _ => none

/-- `dx` and `dy`: sampling_static.py:11-19. -/
noncomputable def step : Dbl R := (ofI 50 -. ofI 0) /. ofI 100

/-- The middle of cell `i` of an axis: sampling_static.py:21-22. -/
noncomputable def middle (i : Nat) : Dbl R := (ofI i *. step +. ofI 0) +. step /. ofI 2

/-- `a[i] = a[i] + 1` on an array: an index from `-len` to `-1` counts from the end, others outside the array raise an IndexError. -/
def bump (counts : List Nat) (i : Int) : Option (List Nat) :=
  if 0 ≤ i ∧ i < counts.length then some (counts.modify i.toNat (· + 1))
  else if -(counts.length : Int) ≤ i ∧ i < 0 then some (counts.modify (i + counts.length).toNat (· + 1))
  else none

/-- The cell of a row: sampling_static.py:51-52 and the index in 53. -/
noncomputable def cellOf (x y : Dbl R) : Option Int := do
  let i ← pyInt (x /. step)
  let j ← pyInt (y /. step)
  pure (i * 100 + j)

/-- The loop over the rows: sampling_static.py:50-53. The counts are whole numbers here and doubles there, which is the same below `2^53`. -/
noncomputable def countLoop : List (Dbl R × Dbl R) → List Nat → Option (List Nat)
  | [], c => some c
  | (x, y) :: rest, c => do
    let k ← cellOf x y
    let c' ← bump c k
    countLoop rest c'

/-- The first two numbers of a line. -/
def pair (flt : Str → Option (Dbl R)) (l : Str) : Option (Dbl R × Dbl R) :=
  match cells flt 2 (split l) with
  | some [x, y] => some (x, y)
  | _ => none

/-- `np.genfromtxt(..., usecols=(0, 1))`: sampling_static.py:31. A cell that is no number becomes NaN there, on which `int` fails later; here the reading fails. -/
def readXY (flt : Str → Option (Dbl R)) (text : Str) : Option (List (Dbl R × Dbl R)) :=
  (getlines text).mapM (pair flt)

/-- A line of the table that is saved: middle of the cell, number of rows, height of the surface. -/
structure Entry (R : Rounding) where
  x : Dbl R
  y : Dbl R
  count : Nat
  height : Dbl R

/-- sampling_static.py: the table saved (line 55), or none when an exception ends the script before. A file of one row is read as a vector of two numbers, whose
`shape[1]` does not exist (line 37). -/
noncomputable def histogram (flt : Str → Option (Dbl R)) (text : Str) : Option (List (Entry R)) := do
  let rows ← readXY flt text
  if rows.length ≤ 1 then none else
  let counts ← countLoop rows (List.replicate 10000 0)
  pure (counts.mapIdx fun k c => ⟨middle (k / 100), middle (k % 100), c, surface (middle (k / 100)) (middle (k % 100))⟩)

end

end Scripts
end NiiC
