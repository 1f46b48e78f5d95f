import Verif.Model.DataLoader

/-!
# The loop over the characters of the data file

`get_nlines_of_file`, data_loader.c:97-119, keeps what `getc` returns (an `int`: a byte, or `EOF`, which is -1) in a `char` and compares that with
`EOF`. Whether `char` is signed is up to the platform: it is on x86, and it is not on ARM and POWER under Linux. Elsewhere in this model `char` is
signed (`countLines`).

Simplified: `line_number` does not overflow.
-/

namespace NiiC

/-- What call number `k` of `getc` returns for a file with these bytes; behind the end it is `EOF` every time. -/
def getc (bytes : List (Fin 256)) (k : Nat) : Int :=
  match bytes[k]? with
  | some b => b.val
  | none => -1

/-- An `int` kept in a `char` of 8 bits. -/
def toChar (signed : Bool) (i : Int) : Int :=
  if signed ∧ 128 ≤ i % 256 then i % 256 - 256 else i % 256

/-- The loop of data_loader.c:111-113 from its call number `k`, with `line_number` so far; `none` if it has not ended after `fuel` characters. -/
def nlinesLoop (signed : Bool) (bytes : List (Fin 256)) : (fuel k line : Nat) → Option Nat
  | 0, _, _ => none
  | fuel + 1, k, line =>
    if toChar signed (getc bytes k) = -1 then some line
    else nlinesLoop signed bytes fuel (k + 1) (if toChar signed (getc bytes k) = 10 then line + 1 else line)

end NiiC
