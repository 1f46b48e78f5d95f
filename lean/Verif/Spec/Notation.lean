import Verif.Model.Readin

/-!
# How integers, decimal numbers and words are written

The notations of `input.ini` and of data files, independent of the functions that read them.
-/

namespace NiiC
namespace Spec

/-- A sign in front of a number. -/
inductive Sign where
  | none
  | plus
  | minus
  deriving DecidableEq

/-- A sign as written. -/
def Sign.text : Sign → Str
  | .none => []
  | .plus => ['+']
  | .minus => ['-']

/-- The digits 0 to 9 as written. -/
def digitChar (d : Fin 10) : Char :=
  match d with
  | 0 => '0' | 1 => '1' | 2 => '2' | 3 => '3' | 4 => '4' | 5 => '5' | 6 => '6' | 7 => '7' | 8 => '8' | 9 => '9'

/-- Digits as written, most significant first. -/
def digitsText (ds : List (Fin 10)) : Str := ds.map digitChar

/-- The value of digits, most significant first: each digit counts ten to the number of digits behind it. -/
def digitsValue : List (Fin 10) → Nat
  | [] => 0
  | d :: ds => d.val * 10 ^ ds.length + digitsValue ds

/-- A written integer: any number of leading zeros is allowed. -/
structure IntText where
  sign : Sign
  digits : List (Fin 10)

/-- A sign applied to a value. -/
def Sign.apply : Sign → Nat → Int
  | .minus, m => -(m : Int)
  | _, m => m

/-- The text of an integer. -/
def IntText.text (t : IntText) : Str := t.sign.text ++ digitsText t.digits
/-- The integer meant. -/
def IntText.value (t : IntText) : Int := t.sign.apply (digitsValue t.digits)

/-- A written decimal number, such as `-12.5e+03`: digits, decimals if there is a point, exponent if there is one. -/
structure DecText where
  sign : Sign
  digits : List (Fin 10)
  decimals : Option (List (Fin 10))
  exponent : Option IntText

/-- There is at least one digit, and at least one digit in the exponent. -/
structure DecText.Wf (t : DecText) : Prop where
  some_digit : t.digits ≠ [] ∨ t.decimals.getD [] ≠ []
  exp_digit : ∀ e ∈ t.exponent, e.digits ≠ []

/-- The text of a decimal number. -/
def DecText.text (t : DecText) : Str :=
  t.sign.text ++ digitsText t.digits ++
    (match t.decimals with | none => [] | some ds => '.' :: digitsText ds) ++
    (match t.exponent with | none => [] | some e => 'e' :: e.text)

/-- The digits before and behind the point as one number. -/
def DecText.mantissa (t : DecText) : Int := t.sign.apply (digitsValue (t.digits ++ t.decimals.getD []))
/-- The power of ten by which the mantissa is multiplied: the exponent less the number of decimals. -/
def DecText.power (t : DecText) : Int := (match t.exponent with | none => 0 | some e => e.value) - (t.decimals.getD []).length

/-- White space inside a line. -/
def Blank (s : Str) : Prop := ∀ c ∈ s, c = ' ' ∨ c = '\t'

/-- A word: what `%s` reads. -/
structure Word (s : Str) : Prop where
  ne : s ≠ []
  noSpace : ∀ c ∈ s, isSpace c = false

end Spec
end NiiC
