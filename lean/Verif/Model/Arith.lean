/-!
# Arithmetic used by the C code

The operations on `double` that the code performs, as a class without laws. Theorems about control flow, bookkeeping and
communication are proved for every `F` with these operations, so they hold for IEEE doubles with any rounding mode and any
quality of libm.
-/

namespace NiiC

/-- The operations on C `double`s that the program uses. -/
class Arith (F : Type) where
  add : F → F → F
  sub : F → F → F
  mul : F → F → F
  div : F → F → F
  neg : F → F
  /-- `a < b` (false when an operand is NaN) -/
  lt : F → F → Bool
  /-- `a == b` (false when an operand is NaN) -/
  eq : F → F → Bool
  /-- the constant `p/q`, also `(double) p` for an integer (`q = 1`) -/
  lit : Int → Nat → F
  exp : F → F
  log : F → F
  sqrt : F → F
  cos : F → F
  sin : F → F
  fabs : F → F
  fmin : F → F → F
  fmax : F → F → F
  pow : F → F → F
  /-- `(int) floor(x)` -/
  floorI : F → Int
  /-- `(int) round(x)` -/
  roundI : F → Int

/-- Notation for the C operator on doubles. -/ infixl:65 " +. " => Arith.add
/-- Notation for the C operator on doubles. -/ infixl:65 " -. " => Arith.sub
/-- Notation for the C operator on doubles. -/ infixl:70 " *. " => Arith.mul
/-- Notation for the C operator on doubles. -/ infixl:70 " /. " => Arith.div
/-- Notation for the C operator on doubles. -/ infix:50 " <. " => Arith.lt
/-- Notation for the C operator on doubles. -/ infix:50 " ==. " => Arith.eq

/-- `(double) i` for an integer `i`. -/
def ofI {F : Type} [Arith F] (i : Int) : F := Arith.lit i 1

end NiiC
