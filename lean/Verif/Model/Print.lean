import Verif.Model.FileNames
import Verif.Num.Binary64

/-!
# The text of the output files

`fprintf` with the formats that the program uses, in the "C" locale and with the decimal number nearest to the exact value (ties to even), as glibc prints. The sign of
a zero and of a NaN is not represented: zero is printed without sign (the program's files may show `-0.000000`, which reads back as zero), and the text of a NaN (`nan`
or `-nan`) is a parameter.
-/

namespace NiiC
namespace Print

/-- `%d`. -/
def int (k : Int) : Str := if k < 0 then '-' :: printNat k.natAbs else printNat k.natAbs

/-- `%d` handed an `unsigned int`: the bits are taken as an `int`. -/
def unsAsInt (u : Nat) : Str := int (if u % 4294967296 < 2147483648 then (u % 4294967296 : Nat) else (u % 4294967296 : Nat) - 4294967296)

/-- The last `k` digits of `m`, with leading zeros. -/
def pad : Nat → Nat → Str
  | 0, _ => []
  | k + 1, m => pad k (m / 10) ++ [digitOut (m % 10)]

/-- A minus sign for negative numbers. -/
noncomputable def sign (x : ℝ) : Str := if x < 0 then ['-'] else []

/-- The nearest multiple of a millionth, in millionths. -/
noncomputable def millionths (x : ℝ) : Nat := (Binary64.rne (|x| * 10 ^ 6)).toNat

/-- `%lf` and `%f` of a finite number: six decimals. -/
noncomputable def fixed (x : ℝ) : Str := sign x ++ printNat (millionths x / 10 ^ 6) ++ '.' :: pad 6 (millionths x)

/-- The position of the leading digit before rounding. -/
noncomputable def lead (x : ℝ) : Int := Int.log 10 |x|

/-- Thirteen digits, or `10^13` when rounding makes one more. -/
noncomputable def thirteen (x : ℝ) : Nat := (Binary64.rne (|x| / (10 : ℝ) ^ (lead x - 12))).toNat

/-- The digits printed by `%.12e` as one number. -/
noncomputable def mant (x : ℝ) : Nat := if x = 0 then 0 else if thirteen x = 10 ^ 13 then 10 ^ 12 else thirteen x

/-- The exponent printed by `%.12e`. -/
noncomputable def expo (x : ℝ) : Int := if x = 0 then 0 else if thirteen x = 10 ^ 13 then lead x + 1 else lead x

/-- An exponent: a sign and at least two digits. -/
def expoText (e : Int) : Str := (if e < 0 then ['-'] else ['+']) ++ if e.natAbs < 100 then pad 2 e.natAbs else printNat e.natAbs

/-- `%.12e` of a finite number. -/
noncomputable def sci (x : ℝ) : Str := sign x ++ printNat (mant x / 10 ^ 12) ++ '.' :: pad 12 (mant x) ++ 'e' :: expoText (expo x)

variable {R : Rounding}

/-- Numbers that are not finite. -/
noncomputable def special (nan : Str) (f : ℝ → Str) (v : Dbl R) : Str :=
  match (v : XV) with
  | .nan => nan
  | .ninf => c!"-inf"
  | .pinf => c!"inf"
  | .fin x => f x

theorem special_fin (nan : Str) (f : ℝ → Str) (x : ℝ) : special nan f (Dbl.fin x : Dbl R) = f x := rfl

/-- The text of a line: mpi_init.c:231 (seed), 259-267 (start points), 296-311 (first row); mpi_batch.c:445-463 (row); mpi_flow.c:353-358 (widths);
mpi_stack.c:481-485 (ladder). -/
noncomputable def line (nan : Str) : Line (Dbl R) → Str
  | .mkdir => []
  | .seed r s => (c!"seed for rank ") ++ int r ++ (c!" is ") ++ unsAsInt s ++ ['\n']
  | .initParm rows => (rows.mapIdx fun i x => (c!"init para set ") ++ int i ++ (c!": ") ++ (x.map fun v => special nan fixed v ++ [' ']).flatten ++ ['\n']).flatten
  | .row _ x lp a c => (x.map fun v => special nan sci v ++ c!"  ").flatten ++ (special nan fixed lp ++ c!"  ") ++ (int a ++ c!"  ") ++ (int c ++ c!"  ") ++ ['\n']
  | .sigma _ s => (s.map fun v => special nan sci v ++ c!"   ").flatten ++ ['\n']
  | .betas b => (b.map fun v => special nan fixed v ++ [' ']).flatten ++ ['\n']
  | .note _ _ _ _ => []

/-- What the lines of one rank add to the file of a given name. -/
noncomputable def file (nan : Str) (nm : Naming) (name : Str) (log : List (Line (Dbl R))) : Str :=
  ((log.filter fun l => nm.file l = some name).map (line nan)).flatten

end Print
end NiiC
