import Verif.Model.DataLoader

/-!
# The bundled models: models/*/user_prior.c and models/*/user_logll.c

The five models of the current version share one shape of prior code: a range per parameter, read from `input.ini`; a start
point drawn uniformly (or log-uniformly); start widths and allowed widths proportional to the ranges; a boundary routine that
reflects. That shape is modelled once (`Prior`), and the models differ in their number of parameters, log prior and log
likelihood. `fit_orbit` and `hier_R` are written for an older version, with other parameters of `logll_beta` (C107); their likelihoods are in `Model/Orbit` and `Model/Hier`, their prior code is in
`Model/Older`.

Simplified: the ranges are read when the run starts; the code reads them at the beginning of `init_parm_set`, which every rank
calls once before it needs them. `malloc` succeeds. The message of a failed range check is not part of the model (the callers
ignore the check).
-/

namespace NiiC

section
variable {F : Type} [Arith F]

/-- One parameter of `para_boundary`: models/multi_gaussian/user_prior.c:169-181 (also 184-196, and likewise in eggbox and
curved_likelihood; models/regression/user_prior.c:188-256; models/rastrigin/user_prior.c:234-348; `bounce_inside`,
models/fit_orbit/user_prior.c:60-75). -/
def bounce (lo hi x : F) : F :=
  let x := if hi <. x then Arith.fmax (hi -. (x -. hi)) lo else x
  if x <. lo then Arith.fmin (lo +. (lo -. x)) hi else x

/-- How the start value of a parameter is drawn. -/
inductive Draw where
  | unif
  | logunif

/-- `r8_unif_ab(lo, hi)` or `r8_logunif_ab(lo, hi)`. -/
def Draw.draw [Source F] (k : Draw) (b : F × F) (g : Rng) : F × Rng :=
  match k with
  | .unif => r8UnifAb b.1 b.2 g
  | .logunif => r8LogunifAb b.1 b.2 g

/-- The draws of `init_parm_set` in order, models/regression/user_prior.c:96-100, models/multi_gaussian/user_prior.c:87-89,
models/rastrigin/user_prior.c:116-124. -/
def initDraws [Source F] : List (Draw × (F × F)) → Rng → List F × Rng
  | [], g => ([], g)
  | (k, b) :: ps, g =>
    let (x, g) := k.draw b g
    let (xs, g) := initDraws ps g
    (x :: xs, g)

/-- `para_boundary`: models/multi_gaussian/user_prior.c:156-208, models/regression/user_prior.c:188-256,
models/rastrigin/user_prior.c:234-348. Each parameter is treated by itself. -/
def paraBoundary : List (F × F) → List F → List F
  | b :: bs, x :: xs => bounce b.1 b.2 x :: paraBoundary bs xs
  | _, xs => xs

/-- `init_gaussian_proposal`: models/multi_gaussian/user_prior.c:100-114, models/regression/user_prior.c:111-128,
models/rastrigin/user_prior.c:135-158. -/
def initWidths (bounds : List (F × F)) (ratio : F) : List F := bounds.map fun b => (b.2 -. b.1) *. ratio

/-- One of the tables filled by `calc_sigma_scale_boundary`: models/multi_gaussian/user_prior.c:254-258,
models/regression/user_prior.c:302-308, models/rastrigin/user_prior.c:394-404. -/
def widthTable (scale : F) (bounds : List (F × F)) : List F := bounds.map fun b => scale *. (b.2 -. b.1)

/-- The counter `sigma_bound_ok` of `calc_sigma_scale_boundary`, models/multi_gaussian/user_prior.c:262-278. -/
def badRanges : List F → List F → Nat
  | lo :: los, hi :: his =>
    (if lo <. ofI 0 then 1 else 0) + (if hi <. ofI 0 then 1 else 0) + (if hi -. lo <. ofI 0 then 1 else 0) + badRanges los his
  | _, _ => 0

/-- The value of `calc_sigma_scale_boundary`, models/multi_gaussian/user_prior.c:282-290: 0 is success. -/
def rangeCheck (scaleMin scaleMax : F) (bounds : List (F × F)) : Int :=
  if badRanges (widthTable scaleMin bounds) (widthTable scaleMax bounds) > 0 then 1 else 0

/-- `read_parm_range`: models/multi_gaussian/user_prior.c:44-73, models/regression/user_prior.c:45-81,
models/rastrigin/user_prior.c:49-101. -/
def readRanges (other : Str → Option F) (text : Str) : List (Str × Str) → Except Fault (List (F × F))
  | [] => .ok []
  | (mn, mx) :: ps => do
    let lo ← readDbl other text mn
    let hi ← readDbl other text mx
    let bs ← readRanges other text ps
    .ok ((lo, hi) :: bs)

/-- A bundled model. -/
structure Model (F : Type) where
  /-- names of the entries of `input.ini` with the minimum and the maximum of each parameter -/
  names : List (Str × Str)
  /-- how the start values are drawn -/
  draws : List Draw
  /-- columns of the data that the likelihood reads -/
  columns : Nat
  /-- `log_prior`, which sees the ranges -/
  logPrior : List (F × F) → List F → F
  /-- `logll_beta`, which sees `ndim_data` -/
  logll : Int → List F → Int → List F → F → F

/-- The user functions of a model with given ranges. -/
def Model.user [Source F] (m : Model F) (bounds : List (F × F)) (ndim : Int) : User F where
  logll := m.logll ndim
  logPrior := m.logPrior bounds
  boundary := paraBoundary bounds
  initParm seed := initDraws (m.draws.zip bounds) (srand48 F seed)
  initGp := initWidths bounds

/-- The model as user code of the program. The code indexes the parameters and the width tables by constants: with another
`N_parm` it writes behind the tables or leaves entries unset. The likelihood reads fixed columns of each row. -/
def Model.code [Source F] (m : Model F) (other : Str → Option F) : UserCode F where
  load raw text := do
    let bounds ← readRanges other text m.names
    if raw.nParm < m.names.length then .error .oob
    else if raw.nParm ≠ m.names.length then .error .uninit
    else if raw.ndim < m.columns then .error .oob
    else .ok (m.user bounds raw.ndim, widthTable raw.scaleMin bounds, widthTable raw.scaleMax bounds)

/-- The literal of pi, models/regression/user_logll.c:25, models/rastrigin/user_logll.c:47. -/
def piLit : F := Arith.lit 3141592653589793 1000000000000000

/-! ## regression -/

/-- `prior_a`, `prior_b`: models/regression/user_prior.c:134-143; the same in rastrigin, 164-188. -/
def priorUnif (b : F × F) : F := ofI 1 /. (b.2 -. b.1)

/-- `prior_d`: models/regression/user_prior.c:148-151. -/
def priorLogunif (b : F × F) (x : F) : F := ofI 1 /. (x *. Arith.log (b.2 /. b.1))

/-- `logll_one`, models/regression/user_logll.c:39-40, for the data point `(x, y)`. -/
def regressionOne (a b d x y : F) : F :=
  let sigPower := Arith.pow d (ofI 2)
  Arith.lit (-1) 2 *. Arith.log (ofI 2 *. piLit) -. Arith.lit 1 2 *. Arith.log sigPower
    -. Arith.pow (x *. a +. b -. y) (ofI 2) /. ofI 2 /. sigPower

/-- The loop of models/regression/user_logll.c:37-42 over the rows `i, …, i + k - 1`, with the sum so far. -/
def regressionSum (a b d : F) (ndim : Nat) (data : List F) : (k i : Nat) → F → F
  | 0, _, s => s
  | k + 1, i, s =>
    regressionSum a b d ndim data k (i + 1)
      (s +. regressionOne a b d (data.getD (i * ndim) (ofI 0)) (data.getD (i * ndim + 1) (ofI 0)))

/-- models/regression. -/
def regression : Model F where
  names := [(c!"a_min", c!"a_max"), (c!"b_min", c!"b_max"), (c!"d_min", c!"d_max")]
  draws := [.unif, .unif, .logunif]
  columns := 2
  logPrior bounds x := match bounds, x with
    | [ba, bb, bd], [_, _, d] => Arith.log (priorUnif ba) +. Arith.log (priorUnif bb) +. Arith.log (priorLogunif bd d)
    | _, _ => ofI 0
  logll ndim x nline data beta := match x with
    | [a, b, d] => regressionSum a b d ndim.toNat data nline.toNat 0 (ofI 0) *. beta
    | _ => ofI 0

/-! ## Models without data -/

/-- `logll_beta` of the models whose likelihood has no data: `value_calc` times beta, models/multi_gaussian/user_logll.c:15-33,
models/eggbox/user_logll.c:13-32, models/curved_likelihood/user_logll.c:12-31. -/
def logll2 (value : F → F → F) (x : List F) (beta : F) : F := match x with
  | [a, b] => value a b *. beta
  | _ => ofI 0

/-- A model with two parameters and a constant log prior. -/
def model2 (prior : Int) (value : F → F → F) : Model F where
  names := [(c!"a_min", c!"a_max"), (c!"b_min", c!"b_max")]
  draws := [.unif, .unif]
  columns := 0
  logPrior _ _ := ofI prior
  logll _ x _ _ beta := logll2 value x beta

/-- One of the two terms of models/multi_gaussian/user_logll.c:51-52. -/
def gauss2 (mx my r a b : F) : F :=
  Arith.exp (Arith.neg (Arith.pow (a -. mx) (ofI 2) /. ofI 2 /. Arith.pow r (ofI 2)
    +. Arith.pow (b -. my) (ofI 2) /. ofI 2 /. Arith.pow r (ofI 2)))

/-- `value_calc`, models/multi_gaussian/user_logll.c:38-55. -/
def multiGaussianValue (a b : F) : F := gauss2 (ofI 10) (ofI 10) (ofI 1) a b +. gauss2 (ofI (-10)) (ofI (-10)) (ofI 1) a b

/-- models/multi_gaussian; `log_prior` is user_prior.c:132-150. -/
def multiGaussian : Model F := model2 0 multiGaussianValue

/-- `value_calc`, models/eggbox/user_logll.c:36-39. -/
def eggboxValue (a b : F) : F := Arith.sin (b /. ofI 2) *. Arith.cos (a /. ofI 2) +. ofI 2

/-- models/eggbox; `log_prior` returns 1 (user_prior.c:148). -/
def eggbox : Model F := model2 1 eggboxValue

/-- The argument of the logarithm in `value_calc`, models/curved_likelihood/user_logll.c:38. -/
def curvedArg (a b : F) : F :=
  Arith.exp (Arith.neg (Arith.pow a (ofI 2)) -. Arith.pow (ofI 9 +. ofI 4 *. Arith.pow a (ofI 2) +. ofI 9 *. b) (ofI 2))
    +. Arith.lit 1 2 *. Arith.exp (ofI (-8) *. Arith.pow a (ofI 2) -. ofI 8 *. Arith.pow (b -. ofI 2) (ofI 2))

/-- `value_calc`, models/curved_likelihood/user_logll.c:35-41. -/
def curvedValue (a b : F) : F := Arith.log (curvedArg a b)

/-- models/curved_likelihood. -/
def curved : Model F := model2 0 curvedValue

/-- The sum `ll`, models/rastrigin/user_logll.c:50. -/
def rastriginSum (a b c d e : F) : F :=
  Arith.pow a (ofI 2) -. ofI 10 *. Arith.cos (ofI 2 *. piLit *. a)
    +. Arith.pow b (ofI 2) -. ofI 10 *. Arith.cos (ofI 2 *. piLit *. b)
    +. Arith.pow c (ofI 2) -. ofI 10 *. Arith.cos (ofI 2 *. piLit *. c)
    +. Arith.pow d (ofI 2) -. ofI 10 *. Arith.cos (ofI 2 *. piLit *. d)
    +. Arith.pow e (ofI 2) -. ofI 10 *. Arith.cos (ofI 2 *. piLit *. e) +. ofI 50

/-- `value_calc`, models/rastrigin/user_logll.c:45-52. -/
def rastriginValue (a b c d e : F) : F := Arith.log (rastriginSum a b c d e)

/-- models/rastrigin; `log_prior` is user_prior.c:191-228, `logll_beta` user_logll.c:13-41. -/
def rastrigin : Model F where
  names := [(c!"a_min", c!"a_max"), (c!"b_min", c!"b_max"), (c!"c_min", c!"c_max"), (c!"d_min", c!"d_max"), (c!"f_min", c!"f_max")]
  draws := [.unif, .unif, .unif, .unif, .unif]
  columns := 0
  logPrior bounds _ := match bounds with
    | [ba, bb, bc, bd, bf] => Arith.log (priorUnif ba) +. Arith.log (priorUnif bb) +. Arith.log (priorUnif bc)
        +. Arith.log (priorUnif bd) +. Arith.log (priorUnif bf)
    | _ => ofI 0
  logll _ x _ _ beta := match x with
    | [a, b, c, d, e] => rastriginValue a b c d e *. beta
    | _ => ofI 0

/-! ## hier_R -/

/-- The start value of `gamma_power`: models/hier_R/user_prior.c:150-155, 205. -/
def hierGammaInit [Source F] (mean sd : F) (g : Rng) : F × Rng := r8NormalAb mean sd g

/-- `prior_lambda_Y`, `prior_lambda_Yobs`, `prior_lambda_Xobs`: models/hier_R/user_prior.c:458-477. -/
def hierLambdaPrior (logMin logMax lam : F) : F :=
  let lmin := Arith.exp logMin
  let lmax := Arith.exp logMax
  ofI 1 /. (Arith.sqrt (Arith.fabs lam) *. Arith.log (Arith.exp lmax /. Arith.exp lmin))

end

end NiiC
