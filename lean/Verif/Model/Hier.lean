import Verif.Model.Config
import Verif.Mpi.Proc

/-!
# The likelihood of the hierarchical model: models/hier_R/user_logll.c

Written for an older version of the program: `logll_beta` takes the number of a rank and reads its beta from a table; here it takes beta itself.

The table has two sections. A row of the first section describes a planet: the line where its measurements start and their number. Rows are
addressed through the table of row pointers, so a row number outside the table is an access out of bounds by itself.
-/

namespace NiiC

section
variable {F : Type} [Arith F]

/-- `half_log_2pi`, models/hier_R/user_logll.c:54 and 72. -/
def halfLog2Pi : F := Arith.lit 9189385332046727 10000000000000000

/-- `logllhd_Vdevi_V`, models/hier_R/user_logll.c:50-64. -/
def hierNormal (obs v lam : F) : F :=
  let sq := lam *. lam
  let err := obs -. v
  Arith.neg halfLog2Pi -. Arith.lit 1 2 *. Arith.log sq -. err *. err /. ofI 2 /. sq

/-- `logllhd_Vdevi_V_plusgamma`, models/hier_R/user_logll.c:66-82. -/
def hierNormalGamma (obs v lam gam : F) : F := hierNormal obs v (lam *. Arith.pow v gam)

/-- The parameters as `logll_one_planet` sees them, models/hier_R/user_logll.c:121-127. -/
structure HierParms (F : Type) where
  gammaPower : F
  logC : F
  lambdaY : F
  lambdaYobs : F
  lambdaXobs : F
  gammaLambdaY : F

/-- models/hier_R/user_logll.c:121-127. -/
def hierParms : List F → Except Fault (HierParms F)
  | a :: b :: c :: d :: e :: f :: _ => .ok ⟨a, b, Arith.exp c, Arith.exp d, Arith.exp e, f⟩
  | _ => .error .oob

/-- `logllhd_oneMeasure`, models/hier_R/user_logll.c:85-106. -/
def hierOne (p : HierParms F) (yobs ytr xobs xtr : F) : F :=
  let ymu := Arith.exp p.logC *. Arith.pow xtr p.gammaPower
  hierNormal yobs ytr p.lambdaYobs +. hierNormalGamma ytr ymu p.lambdaY p.gammaLambdaY +. hierNormal xobs xtr p.lambdaXobs

/-- A read relative to a pointer into the table. -/
def rdAt (data : List F) (base : Nat) (i col : Nat) : Except Fault F := rd data (base + i * 2 + col)

/-- The loop of `calc_mean`, models/hier_R/user_logll.c:245-248, with the sum so far. -/
def hierSumCol (data : List F) (base col : Nat) : (k i : Nat) → F → Except Fault F
  | 0, _, s => .ok s
  | k + 1, i, s => do
    let v ← rdAt data base i col
    hierSumCol data base col k (i + 1) (s +. v)

/-- `calc_mean`, models/hier_R/user_logll.c:242-250. A negative number of measurements is no measurement for the loop. -/
def calcMean (data : List F) (base : Nat) (cnt : Int) (col : Nat) : Except Fault F := do
  let s ← hierSumCol data base col cnt.toNat 0 (ofI 0)
  .ok (s /. ofI cnt)

/-- The loop of `logll_one_planet`, models/hier_R/user_logll.c:149-157, with the sum so far. -/
def hierSum (p : HierParms F) (data : List F) (base : Nat) (xmu ymu : F) : (k i : Nat) → F → Except Fault F
  | 0, _, s => .ok s
  | k + 1, i, s => do
    let xobs ← rdAt data base i 0
    let yobs ← rdAt data base i 1
    hierSum p data base xmu ymu k (i + 1) (s +. hierOne p yobs ymu xobs xmu)

/-- `logll_one_planet`, models/hier_R/user_logll.c:111-160. A single measurement of x counts as exact. -/
def hierPlanet (p : HierParms F) (data : List F) (base : Nat) (cnt : Int) (xmu ymu : F) : Except Fault F :=
  if cnt = 1 then do
    let yobs ← rdAt data base 0 1
    .ok (hierOne p yobs ymu xmu xmu)
  else hierSum p data base xmu ymu cnt.toNat 0 (ofI 0)

/-- `(int) x`: towards zero; undefined when the result does not fit. -/
def truncI (x : F) : Except Fault Int :=
  if ofI (-2147483649) <. x && x <. ofI 2147483648 then
    .ok (if x <. ofI 0 then -Arith.floorI (Arith.neg x) else Arith.floorI x)
  else .error .overflow

/-- A cell of row `i`, as an `int`. -/
def hierHead (ndim nline : Nat) (data : List F) (i col : Nat) : Except Fault Int := do
  let v ← (if i < nline then rd data (i * ndim + col) else .error .oob)
  truncI v

/-- What `logll_beta` adds for the planet of row `i`, models/hier_R/user_logll.c:200-208 and 218-226. -/
def hierRow (p : HierParms F) (ndim nline : Nat) (data : List F) (i : Nat) : Except Fault F := do
  let cnt ← hierHead ndim nline data i 1
  let line ← hierHead ndim nline data i 0
  if 0 ≤ line ∧ line < nline then do
    let base := line.toNat * ndim
    let xmu ← calcMean data base cnt 0
    let ymu ← calcMean data base cnt 1
    hierPlanet p data base cnt xmu ymu
  else .error .oob

/-- The loop of `logll_beta`, models/hier_R/user_logll.c:214-229. It stops by itself at the end of the table, by a fault: `fuel` is the number of rows left. -/
def hierLoop (p : HierParms F) (ndim nline : Nat) (data : List F) : (fuel i : Nat) → F → Except Fault F
  | 0, _, _ => .error .oob
  | fuel + 1, i, s => do
    let a ← hierHead ndim nline data i 0
    let b ← hierHead ndim nline data i 1
    let _ ← (if -2147483648 ≤ a + b ∧ a + b ≤ 2147483647 then .ok () else .error .overflow : Except Fault Unit)
    if a + b ≤ nline then do
      let prev ← hierHead ndim nline data (i - 1) 0
      if prev < a then do
        let v ← hierRow p ndim nline data i
        hierLoop p ndim nline data fuel (i + 1) (s +. v)
      else .ok s
    else .ok s

/-- `logll_beta`, models/hier_R/user_logll.c:166-235. -/
def hierLogll (ndim : Nat) (x : List F) (nline : Nat) (data : List F) (beta : F) : Except Fault F := do
  let p ← hierParms x
  let v ← hierRow p ndim nline data 0
  let s ← hierLoop p ndim nline data nline 1 (ofI 0 +. v)
  .ok (s *. beta)

end

end NiiC
