import Verif.Model.Config
import Verif.Mpi.Proc

/-!
# The orbit model: models/fit_orbit/user_logll.c

Written for an older version of the program: `logll_beta` takes the number of a rank and reads its beta from a table; here it takes beta itself. The work arrays that
`logll_beta` allocates for each call are lists. `malloc` succeeds.
-/

namespace NiiC

section
variable {F : Type} [Arith F]

/-- The literal of pi, models/fit_orbit/user_logll.c:181 and 233. -/
def orbitPi : F := Arith.lit 314159265358 100000000000

/-- `period_to_au`, models/fit_orbit/user_logll.c:175-194. -/
def periodToAu (days ms : F) : F :=
  let gg := Arith.lit 667259 10000000000000
  let msun := ofI 1989100000000000000000000000000000
  let au := ofI 14959787000000
  let sec := days *. ofI 24 *. ofI 3600
  let a := sec /. ofI 2 /. orbitPi
  let b := gg *. msun *. ms
  let r := Arith.pow a (ofI 2) *. b
  Arith.pow r (ofI 1 /. ofI 3) /. au

/-- `calc_osi`, models/fit_orbit/user_logll.c:199-206. -/
def calcOsi (mp ms a d : F) : F := ofI 3 *. mp *. Arith.pow ms (ofI (-1)) *. a *. Arith.pow d (ofI (-1))

/-- The body of the loop of `newton_solver`, models/fit_orbit/user_logll.c:219. -/
def newtonStep (m e x : F) : F := x -. (x -. e *. Arith.sin x -. m) /. (ofI 1 -. e *. Arith.cos x)

/-- The loop of `newton_solver`, models/fit_orbit/user_logll.c:216-222. It has no bound in the code; `fuel` bounds the number of tests of its condition. -/
def newtonLoop (m e : F) : (fuel : Nat) → (x eps : F) → Except Fault F
  | 0, _, _ => .error .fuel
  | fuel + 1, x, eps =>
    if Arith.lit 1 100000000 <. Arith.fabs eps then newtonLoop m e fuel (newtonStep m e x) (newtonStep m e x -. x) else .ok x

/-- `newton_solver`, models/fit_orbit/user_logll.c:210-225. -/
def newtonSolver (fuel : Nat) (m e : F) : Except Fault F := newtonLoop m e fuel m (ofI 1)

/-- The elements A, B, F, G of `func_as`, models/fit_orbit/user_logll.c:235-255. -/
structure Elements (F : Type) where
  a : F
  b : F
  f : F
  g : F

/-- The literal that turns degrees into radians, models/fit_orbit/user_logll.c:232. -/
def deg2rad : F := Arith.lit 174532925 10000000000

/-- models/fit_orbit/user_logll.c:235-255. -/
def elements (osi cosi bigOmega omega : F) : Elements F :=
  let coso := Arith.cos (omega *. deg2rad)
  let sino := Arith.sin (omega *. deg2rad)
  let cosOg := Arith.cos (bigOmega *. deg2rad)
  let sinOg := Arith.sin (bigOmega *. deg2rad)
  { a := osi *. (coso *. cosOg -. sino *. sinOg *. cosi)
    b := osi *. (coso *. sinOg +. sino *. cosOg *. cosi)
    f := osi *. (Arith.neg sino *. cosOg -. coso *. sinOg *. cosi)
    g := osi *. (Arith.neg sino *. sinOg +. coso *. cosOg *. cosi) }

/-- One turn of the loop of `func_as`, models/fit_orbit/user_logll.c:262-266: right ascension and declination at time `t`. -/
def orbitAt (fuel : Nat) (el : Elements F) (ecc m0 per t : F) : Except Fault (F × F) := do
  let ee ← newtonSolver fuel (ofI 2 *. orbitPi /. per *. t -. m0 *. deg2rad) ecc
  let x := Arith.cos ee -. ecc
  let y := Arith.sqrt (ofI 1 -. Arith.pow ecc (ofI 2)) *. Arith.sin ee
  .ok (el.b *. x +. el.g *. y, el.a *. x +. el.f *. y)

/-- `func_as`, models/fit_orbit/user_logll.c:228-272. -/
def funcAs (fuel : Nat) (ecc osi cosi bigOmega m0 omega per : F) : (times : List F) → Except Fault (List (F × F))
  | [] => .ok []
  | t :: ts => do
    let p ← orbitAt fuel (elements osi cosi bigOmega omega) ecc m0 per t
    let ps ← funcAs fuel ecc osi cosi bigOmega m0 omega per ts
    .ok (p :: ps)

/-- `AC_twice`, models/fit_orbit/user_logll.c:291. -/
def orbitNorm (sigPower : F) : F :=
  ofI 2 *. Arith.log (Arith.pow (Arith.lit 628318530716 100000000000) (Arith.lit (-1) 2)) +. ofI 2 *. Arith.log (Arith.pow sigPower (Arith.lit (-1) 2))

/-- The loop of `log_likelihood`, models/fit_orbit/user_logll.c:293-299, with the sum so far: the pairs are predicted and measured positions. -/
def orbitSum (sigPower : F) : List ((F × F) × (F × F)) → F → F
  | [], s => s
  | (p, d) :: rest, s =>
    let ra := Arith.neg (Arith.pow (d.1 -. p.1) (ofI 2)) /. ofI 2 /. sigPower
    let dec := Arith.neg (Arith.pow (d.2 -. p.2) (ofI 2)) /. ofI 2 /. sigPower
    orbitSum sigPower rest (s +. ra +. dec +. orbitNorm sigPower)

/-- `log_likelihood`, models/fit_orbit/user_logll.c:275-302. -/
def orbitLogLik (var : F) (pairs : List ((F × F) × (F × F))) : F := orbitSum (var *. var) pairs (ofI 0)

/-- The times and measured positions, models/fit_orbit/user_logll.c:124-129: two lines of the table make one measurement. Row `r` of the table is
`data[r*ndim], …`; columns 0 and 1 are used. -/
def orbitData (ndim : Nat) (data : List F) (i : Nat) : Except Fault (F × (F × F)) := do
  let t ← rd data (i * 2 * ndim)
  let ra ← rd data (i * 2 * ndim + 1)
  let dec ← rd data ((i * 2 + 1) * ndim + 1)
  .ok (t, (ra, dec))

/-- All measurements from number `i` on. -/
def orbitRows (ndim : Nat) (data : List F) : (k i : Nat) → Except Fault (List (F × (F × F)))
  | 0, _ => .ok []
  | k + 1, i => do
    let r ← orbitData ndim data i
    let rs ← orbitRows ndim data k (i + 1)
    .ok (r :: rs)

/-- The sum of the two planets' motions, models/fit_orbit/user_logll.c:142-146. -/
def orbitBoth : List (F × F) → List (F × F) → List (F × F)
  | p :: ps, q :: qs => (p.1 +. q.1, p.2 +. q.2) :: orbitBoth ps qs
  | _, _ => []

/-- The fifteen parameters, models/fit_orbit/user_logll.c:83-97. -/
structure OrbitParms (F : Type) where
  cosInc1 : F
  ecc1 : F
  anOmg1 : F
  pOmg1 : F
  m01 : F
  plM1 : F
  varUk : F
  period1 : F
  cosInc2 : F
  ecc2 : F
  anOmg2 : F
  pOmg2 : F
  m02 : F
  plM2 : F
  period2 : F

/-- models/fit_orbit/user_logll.c:83-97. -/
def orbitParms : List F → Except Fault (OrbitParms F)
  | c1 :: e1 :: o1 :: p1 :: m1 :: pm1 :: v :: t1 :: c2 :: e2 :: o2 :: p2 :: m2 :: pm2 :: t2 :: _ => .ok ⟨c1, e1, o1, p1, m1, pm1, v, t1, c2, e2, o2, p2, m2, pm2, t2⟩
  | _ => .error .oob

/-- `logll_beta`, models/fit_orbit/user_logll.c:40-168. The star has one solar mass and is 3 parsec away. -/
def orbitLogll (fuel ndim : Nat) (x : List F) (nline : Int) (data : List F) (beta : F) : Except Fault F := do
  let p ← orbitParms x
  let rows ← orbitRows ndim data (nline / 2).toNat 0
  let times := rows.map (·.1)
  let osi1 := calcOsi p.plM1 (ofI 1) (periodToAu p.period1 (ofI 1)) (ofI 3)
  let osi2 := calcOsi p.plM2 (ofI 1) (periodToAu p.period2 (ofI 1)) (ofI 3)
  let s1 ← funcAs fuel p.ecc1 osi1 p.cosInc1 p.anOmg1 p.m01 p.pOmg1 p.period1 times
  let s2 ← funcAs fuel p.ecc2 osi2 p.cosInc2 p.anOmg2 p.m02 p.pOmg2 p.period2 times
  .ok (orbitLogLik p.varUk ((orbitBoth s1 s2).zip (rows.map (·.2))) *. beta)

end

end NiiC
