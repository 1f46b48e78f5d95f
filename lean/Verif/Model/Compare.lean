import Verif.Model.Models
import Verif.Num.Dbl

/-!
# The target densities of the comparison scripts

models/regression/comparison_emcee/emcee_lin_reg.py, models/eggbox/comparison_emcee/emcee_eggbox_15walkers.py (the other script there differs in the number of walkers
only) and models/curved_likelihood/compare_ptmcmcsampler/curved_purefit.py give a log-density to another sampler. Here are these functions; the samplers are not
modelled. `np.log`, `np.exp`, `math.sin`, `math.cos` and `**` stand for the functions of the C library.
-/

namespace NiiC
namespace Compare

variable {R : Rounding}

/-- `np.isfinite` -/
def isfinite (v : Dbl R) : Bool :=
  match (v : XV) with
  | .fin _ => true
  | _ => false

/-- `lo < x < hi` -/
noncomputable def inside (b : Dbl R × Dbl R) (x : Dbl R) : Bool := (b.1 <. x) && (x <. b.2)

/-- `-np.inf` -/
def minusInf : Dbl R := (XV.ninf : XV)

/-- `log_prior_a`, `log_prior_b`: emcee_lin_reg.py:55-63. -/
noncomputable def logUnif (b : Dbl R × Dbl R) (x : Dbl R) : Dbl R :=
  if inside b x then Arith.log (ofI 1 /. (b.2 -. b.1)) else minusInf

/-- `log_prior_d`: emcee_lin_reg.py:65-68. -/
noncomputable def logLogunif (b : Dbl R × Dbl R) (d : Dbl R) : Dbl R :=
  if inside b d then Arith.log (ofI 1 /. (d *. Arith.log (b.2 /. b.1))) else minusInf

/-- `log_probability`, given the log-prior and the log-likelihood: emcee_lin_reg.py:102-106, emcee_eggbox_15walkers.py:61-65. -/
noncomputable def logProbability (prior likelihood : Dbl R) : Dbl R :=
  if isfinite prior then prior +. likelihood else minusInf

/-- `log_prior`: emcee_lin_reg.py:70-79. -/
noncomputable def linRegPrior (ba bb bd : Dbl R × Dbl R) (a b d : Dbl R) : Dbl R := logUnif ba a +. logUnif bb b +. logLogunif bd d

/-- The loop of `log_likelihood`: emcee_lin_reg.py:94-99, over the points of the data. -/
noncomputable def linRegLoop (a b d : Dbl R) : List (Dbl R × Dbl R) → Dbl R → Dbl R
  | [], s => s
  | (x, y) :: rest, s =>
    let sigPower := Arith.pow d (ofI 2)
    let one := Arith.lit (-1) 2 *. Arith.log (ofI 2 *. Arith.lit 3141592653589793 1000000000000000) -. Arith.lit 1 2 *. Arith.log sigPower
      -. Arith.pow (x *. a +. b -. y) (ofI 2) /. ofI 2 /. sigPower
    linRegLoop a b d rest (s +. one)

/-- `log_probability` of emcee_lin_reg.py, with the ranges of lines 48-53 as arguments. -/
noncomputable def linReg (ba bb bd : Dbl R × Dbl R) (points : List (Dbl R × Dbl R)) (a b d : Dbl R) : Dbl R :=
  logProbability (linRegPrior ba bb bd a b d) (linRegLoop a b d points (ofI 0))

/-- The ranges in emcee_lin_reg.py:48-53. -/
noncomputable def linRegRanges : List (Dbl R × Dbl R) :=
  [(ofI (-20), ofI 20), (ofI (-50), ofI 50), (Arith.lit 1 100, ofI 30)]

/-- `log_prior_a` takes the range of `b` for its value: emcee_eggbox_15walkers.py:32-35. -/
noncomputable def eggPriorA (ba bb : Dbl R × Dbl R) (a : Dbl R) : Dbl R :=
  if inside ba a then Arith.log (ofI 1 /. (bb.2 -. bb.1)) else minusInf

/-- `log_likelihood`: emcee_eggbox_15walkers.py:53-58. -/
noncomputable def eggLikelihood (a b : Dbl R) : Dbl R := Arith.sin (b /. ofI 2) *. Arith.cos (a /. ofI 2) +. ofI 1

/-- `log_probability` of emcee_eggbox_15walkers.py, with the ranges of lines 27-30 as arguments. -/
noncomputable def egg (ba bb : Dbl R × Dbl R) (a b : Dbl R) : Dbl R := logProbability (eggPriorA ba bb a +. logUnif bb b) (eggLikelihood a b)

/-- `lnlikefn`: curved_purefit.py:27-33. -/
noncomputable def curvedLnlike (x y : Dbl R) : Dbl R :=
  Arith.log (Arith.exp (Arith.neg (Arith.pow x (ofI 2)) -. Arith.pow (ofI 9 +. ofI 4 *. Arith.pow x (ofI 2) +. ofI 9 *. y) (ofI 2))
    +. Arith.lit 1 2 *. Arith.exp (ofI (-8) *. Arith.pow x (ofI 2) -. ofI 8 *. Arith.pow (y -. ofI 2) (ofI 2)))

/-- `lnpriorfn`: curved_purefit.py:36-42. -/
noncomputable def curvedLnprior (bx by' : Dbl R × Dbl R) (x y : Dbl R) : Dbl R :=
  if (bx.1 <. x) && (by'.1 <. y) && ((x <. bx.2) && (y <. by'.2)) then ofI 0 else minusInf

end Compare
end NiiC
