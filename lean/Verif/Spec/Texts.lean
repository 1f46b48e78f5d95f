import Verif.Spec.IniFile
import Verif.Spec.Valid
import Verif.Spec.Table

/-!
# The two input files of a run

What a user writes to run one of the bundled models: a configuration with the ranges of the model's parameters, and a table of data.
-/

namespace NiiC
namespace Spec

/-- A configuration file that also has entries for further numbers, such as the ranges of the parameters. Comments and words contain no name of either kind. -/
structure ExpressesWith (w : Settings) (extra : List (Str × DecText)) (text : Str) : Prop where
  lines : ∃ (gap trail : Str → Str) (comments ls : List Str),
    (∀ k, Blank (gap k) ∧ Blank (trail k)) ∧
    (∀ l ∈ comments, '\n' ∉ l ∧ '\x00' ∉ l ∧ ∀ k ∈ coreNames ++ extra.map Prod.fst, ¬ k <:+: l) ∧
    (∀ e ∈ w.entries ++ extra.map (fun e => (e.1, e.2.text)), (entryLine gap trail e).length + 1 < 100) ∧
    ls.Perm ((w.entries ++ extra.map (fun e => (e.1, e.2.text))).map (entryLine gap trail) ++ comments) ∧
    text = (ls.map (· ++ ['\n'])).flatten
  numbers : ∀ e ∈ extra, e.2.Wf
  words : ∀ t ∈ [w.foutPre, w.foutSuf, w.resultsDir, w.dataFile, w.delimiter], ∀ e ∈ extra, ¬ e.1 <:+: t

/-- The parameters of the models with two parameters, in order, each by the names of its minimum and maximum: models/multi_gaussian/user_prior.c:44-73 (the same in
eggbox and curved_likelihood). -/
def gaussianPairs : List (Str × Str) := [(c!"a_min", c!"a_max"), (c!"b_min", c!"b_max")]
/-- Slope, intercept and scatter: models/regression/user_prior.c:45-81. -/
def regressionPairs : List (Str × Str) := gaussianPairs ++ [(c!"d_min", c!"d_max")]
/-- models/rastrigin/user_prior.c:49-101. -/
def rastriginPairs : List (Str × Str) := gaussianPairs ++ [(c!"c_min", c!"c_max"), (c!"d_min", c!"d_max"), (c!"f_min", c!"f_max")]
/-- models/fit_orbit/user_prior.c: `para0` to `para14`. -/
def orbitPairs : List (Str × Str) :=
  [c!"0", c!"1", c!"2", c!"3", c!"4", c!"5", c!"6", c!"7", c!"8", c!"9", c!"10", c!"11", c!"12", c!"13", c!"14"].map fun i =>
    ((c!"para") ++ i ++ (c!"_min"), (c!"para") ++ i ++ (c!"_max"))

/-- The entries for the ranges: parameter `i` has its minimum and maximum under the names of pair `i`. -/
def rangeEntries (pairs : List (Str × Str)) (ranges : List (DecText × DecText)) : List (Str × DecText) :=
  (pairs.zip ranges).flatMap fun p => [(p.1.1, p.2.1), (p.1.2, p.2.2)]

/-- What a user of models/hier_R writes: mean and standard deviation for the start value of gamma, and six ranges. -/
structure HierText where
  mean : DecText
  sd : DecText
  gamma : DecText × DecText
  logC : DecText × DecText
  gammaLambdaY : DecText × DecText
  logLambdaY : DecText × DecText
  logLambdaYobs : DecText × DecText
  logLambdaXobs : DecText × DecText

/-- The entries for them: models/hier_R/user_prior.c:70-137. -/
def HierText.entries (h : HierText) : List (Str × DecText) :=
  [(c!"gamma_mean", h.mean), (c!"gamma_sd", h.sd)] ++
  rangeEntries [(c!"gamma_min", c!"gamma_max"), (c!"logC_min", c!"logC_max"), (c!"gamma_lambda_Y_min", c!"gamma_lambda_Y_max"),
    (c!"log_lambda_Y_min", c!"log_lambda_Y_max"), (c!"log_lambda_Yobs_min", c!"log_lambda_Yobs_max"),
    (c!"log_lambda_Xobs_min", c!"log_lambda_Xobs_max")] [h.gamma, h.logC, h.gammaLambdaY, h.logLambdaY, h.logLambdaYobs, h.logLambdaXobs]

/-- The text of a table of data. -/
def tableText (rows : List RowText) : Str := (rows.map fun r => r.text ++ ['\n']).flatten

/-- The characters that separate the cells of the data file: a space for `blank`. -/
def Settings.separators (w : Settings) : Str := if w.delimiter = (c!"blank") then [' '] else w.delimiter

/-- The numbers written are usable with `n` ranks, a model of `k` parameters and a table of `lines` lines: what a user has to respect. -/
structure Settings.Usable (w : Settings) (n k lines : Nat) : Prop where
  ranks : 2 ≤ n ∧ n ≤ w.betas.length + 1
  parms : w.nParm.value = k ∧ 1 ≤ k
  stack : 1 ≤ w.nStack.value
  batch : 0 ≤ w.rand.value ∧ w.rand.value < w.base.value
  swaps : w.swapmode.value = 0 ∨ w.swapmode.value = 1
  tune : 1 ≤ w.nIterInTune.value
  noOverflow : 2 * w.rand.value ≤ 2147483647 ∧ w.nStack.value + w.base.value + w.rand.value ≤ 2147483647 ∧
    NoWrap w.nIter.value w.nStack.value
  table : 1 ≤ w.ndim.value ∧ lines * w.ndim.value ≤ 2147483647

end Spec
end NiiC
