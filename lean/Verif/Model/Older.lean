import Verif.Model.Models
import Verif.Model.Hier
import Verif.Model.Orbit

/-!
# The prior code of the two older models: models/fit_orbit/user_prior.c and models/hier_R/user_prior.c

`fit_orbit` has the shape of the other models (`Model`), with fifteen parameters. `hier_R` differs: the first parameter has a normal prior, is started by a
normal draw, and its range of widths is a multiple of the standard deviation of the prior.

Simplified: as in `Model/Models`. The likelihoods can fail (`Model/Orbit`, `Model/Hier`), so the model of `fit_orbit` takes a total one as an argument.
-/

namespace NiiC

section
variable {F : Type} [Arith F]

/-! ## fit_orbit -/

/-- Names of the ranges, models/fit_orbit/user_prior.c:135-283. -/
def orbitNames : List (Str × Str) :=
  [(c!"para0_min", c!"para0_max"), (c!"para1_min", c!"para1_max"), (c!"para2_min", c!"para2_max"), (c!"para3_min", c!"para3_max"),
   (c!"para4_min", c!"para4_max"), (c!"para5_min", c!"para5_max"), (c!"para6_min", c!"para6_max"), (c!"para7_min", c!"para7_max"),
   (c!"para8_min", c!"para8_max"), (c!"para9_min", c!"para9_max"), (c!"para10_min", c!"para10_max"), (c!"para11_min", c!"para11_max"),
   (c!"para12_min", c!"para12_max"), (c!"para13_min", c!"para13_max"), (c!"para14_min", c!"para14_max")]

/-- `log_prior`, models/fit_orbit/user_prior.c:846-910, with the functions of 732-833: masses, noise and periods have log-uniform priors. -/
def orbitLogPrior : List (F × F) → List F → F
  | [b0, b1, b2, b3, b4, b5, b6, b7, b8, b9, b10, b11, b12, b13, b14], [_, _, _, _, _, x5, x6, x7, _, _, _, _, _, x13, x14] =>
    Arith.log (priorUnif b0) +. Arith.log (priorUnif b1) +. Arith.log (priorUnif b2) +. Arith.log (priorUnif b3) +. Arith.log (priorUnif b4)
      +. Arith.log (priorLogunif b5 x5) +. Arith.log (priorLogunif b6 x6) +. Arith.log (priorLogunif b7 x7)
      +. Arith.log (priorUnif b8) +. Arith.log (priorUnif b9) +. Arith.log (priorUnif b10) +. Arith.log (priorUnif b11) +. Arith.log (priorUnif b12)
      +. Arith.log (priorLogunif b13 x13) +. Arith.log (priorLogunif b14 x14)
  | _, _ => ofI 0

/-- models/fit_orbit: `init_parm_set` user_prior.c:424-456 draws all parameters uniformly, `calc_sigma_scale_boundary` 469-537, `init_gaussian_proposal` 552-605,
`para_boundary` 619-696. -/
def fitOrbit (ll : Int → List F → Int → List F → F → F) : Model F where
  names := orbitNames
  draws := List.replicate 15 .unif
  columns := 2
  logPrior := orbitLogPrior
  logll := ll

/-! ## hier_R -/

/-- What `read_parm_range` reads, models/hier_R/user_prior.c:70-137. -/
structure HierRanges (F : Type) where
  gammaMean : F
  gammaSd : F
  gamma : F × F
  logC : F × F
  logLambdaY : F × F
  logLambdaYobs : F × F
  logLambdaXobs : F × F
  gammaLambdaY : F × F

/-- `read_parm_range`, models/hier_R/user_prior.c:70-137. -/
def readHier (other : Str → Option F) (text : Str) : Except Fault (HierRanges F) := do
  let mean ← readDbl other text (c!"gamma_mean")
  let sd ← readDbl other text (c!"gamma_sd")
  let gmax ← readDbl other text (c!"gamma_max")
  let gmin ← readDbl other text (c!"gamma_min")
  let cmin ← readDbl other text (c!"logC_min")
  let cmax ← readDbl other text (c!"logC_max")
  let lmin ← readDbl other text (c!"gamma_lambda_Y_min")
  let lmax ← readDbl other text (c!"gamma_lambda_Y_max")
  let ymin ← readDbl other text (c!"log_lambda_Y_min")
  let ymax ← readDbl other text (c!"log_lambda_Y_max")
  let yomin ← readDbl other text (c!"log_lambda_Yobs_min")
  let yomax ← readDbl other text (c!"log_lambda_Yobs_max")
  let xomin ← readDbl other text (c!"log_lambda_Xobs_min")
  let xomax ← readDbl other text (c!"log_lambda_Xobs_max")
  .ok { gammaMean := mean, gammaSd := sd, gamma := (gmin, gmax), logC := (cmin, cmax), logLambdaY := (ymin, ymax), logLambdaYobs := (yomin, yomax),
        logLambdaXobs := (xomin, xomax), gammaLambdaY := (lmin, lmax) }

/-- The ranges in the order of the parameters, models/hier_R/user_prior.c:322-327. -/
def HierRanges.box (h : HierRanges F) : List (F × F) := [h.gamma, h.logC, h.logLambdaY, h.logLambdaYobs, h.logLambdaXobs, h.gammaLambdaY]

/-- `init_parm_set`, models/hier_R/user_prior.c:194-217. -/
def HierRanges.start [Source F] (h : HierRanges F) (seed : Nat) : List F × Rng :=
  let (x0, g) := hierGammaInit h.gammaMean h.gammaSd (srand48 F seed)
  let (xs, g) := initDraws ((List.replicate 5 Draw.unif).zip [h.logC, h.logLambdaY, h.logLambdaYobs, h.logLambdaXobs, h.gammaLambdaY]) g
  (x0 :: xs, g)

/-- One of the tables of `calc_sigma_scale_boundary`, models/hier_R/user_prior.c:226-246. -/
def HierRanges.widthTable (h : HierRanges F) (scale : F) : List F :=
  scale *. h.gammaSd :: NiiC.widthTable scale [h.logC, h.logLambdaY, h.logLambdaYobs, h.logLambdaXobs, h.gammaLambdaY]

/-- `log_prior`, models/hier_R/user_prior.c:484-530, with the functions of 448-482. -/
def HierRanges.logPrior (h : HierRanges F) : List F → F
  | [gam, _, ly, lyo, lxo, _] =>
    Arith.log (normalPdf gam h.gammaMean h.gammaSd) +. Arith.log (priorUnif h.logC)
      +. Arith.log (hierLambdaPrior h.logLambdaY.1 h.logLambdaY.2 (Arith.exp ly))
      +. Arith.log (hierLambdaPrior h.logLambdaYobs.1 h.logLambdaYobs.2 (Arith.exp lyo))
      +. Arith.log (hierLambdaPrior h.logLambdaXobs.1 h.logLambdaXobs.2 (Arith.exp lxo))
      +. Arith.log (priorUnif h.gammaLambdaY)
  | _ => ofI 0

/-- models/hier_R, with a total likelihood. `init_gaussian_proposal` is user_prior.c:278-304, `para_boundary` 315-438. -/
def HierRanges.user [Source F] (h : HierRanges F) (ll : List F → Int → List F → F → F) : User F where
  logll := ll
  logPrior := h.logPrior
  boundary := paraBoundary h.box
  initParm := h.start
  initGp := initWidths h.box

end

end NiiC
