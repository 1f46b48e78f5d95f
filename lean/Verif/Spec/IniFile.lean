import Mathlib.Data.List.Perm.Basic
import Verif.Spec.Notation

/-!
# What a configuration file is

The values a user wants to set, and the files that express them: one line `name: value` for each, in any order, among comment
lines.
-/

namespace NiiC
namespace Spec

/-- The values of a configuration as the user writes them. -/
structure Settings where
  nParm : IntText
  nIter : IntText
  nStoptune : IntText
  nBegintune : IntText
  tuneLadder : IntText
  nStopTuneLadder : IntText
  scaleLadder : DecText
  zeroStretch : DecText
  nBeta : IntText
  foutLen : IntText
  foutPre : Str
  foutSuf : Str
  resultsDir : Str
  /-- the first value, and the others with the white space in front of each -/
  beta0 : DecText
  betas : List (Str × DecText)
  dataFile : Str
  ndim : IntText
  delimiter : Str
  initGpRatio : DecText
  initSeed : IntText
  saveBegin : IntText
  nStack : IntText
  base : IntText
  rand : IntText
  nIterInTune : IntText
  arLower : DecText
  arUpper : DecText
  arBest : DecText
  arAcceptDiff : DecText
  halfRatio : DecText
  scaleMin : DecText
  scaleMax : DecText
  jumpin : DecText
  nSwap : IntText
  swapmode : IntText

/-- A list of numbers separated by commas. -/
def listText (d : DecText) (ds : List (Str × DecText)) : Str := d.text ++ (ds.map fun p => ',' :: (p.1 ++ p.2.text)).flatten

/-- The names and values in a configuration file. -/
def Settings.entries (w : Settings) : List (Str × Str) :=
  [(c!"N_parm", w.nParm.text), (c!"N_iter", w.nIter.text), (c!"N_stoptune", w.nStoptune.text),
   (c!"N_begintune", w.nBegintune.text), (c!"Tune_Ladder", w.tuneLadder.text), (c!"N_stopTuneLadder", w.nStopTuneLadder.text),
   (c!"scale_tune_ladder", w.scaleLadder.text), (c!"zero_stretch", w.zeroStretch.text), (c!"N_beta", w.nBeta.text),
   (c!"Fout_Len", w.foutLen.text), (c!"FoutPre", w.foutPre), (c!"FoutSuf", w.foutSuf), (c!"results_dir", w.resultsDir),
   (c!"Beta_Values", listText w.beta0 w.betas), (c!"Data_file", w.dataFile), (c!"ndim_data", w.ndim.text),
   (c!"Delimiter", w.delimiter), (c!"init_gp_ratio", w.initGpRatio.text), (c!"init_rand_seed", w.initSeed.text),
   (c!"i_save_begin", w.saveBegin.text), (c!"n_iter_a_stack", w.nStack.text), (c!"n_iter_a_batch_base", w.base.text),
   (c!"n_iter_a_batch_rand", w.rand.text), (c!"n_iter_in_tune", w.nIterInTune.text), (c!"ar_ok_lower", w.arLower.text),
   (c!"ar_ok_upper", w.arUpper.text), (c!"ar_best", w.arBest.text), (c!"ar_accept_diff", w.arAcceptDiff.text),
   (c!"sigma_scale_half_ratio", w.halfRatio.text), (c!"sigma_scale_min", w.scaleMin.text), (c!"sigma_scale_max", w.scaleMax.text),
   (c!"sigma_jumpin_ratio", w.jumpin.text), (c!"N_swap", w.nSwap.text), (c!"Swapmode", w.swapmode.text)]

/-- The names that the core of the program looks up. -/
def coreNames : List Str :=
  [c!"N_parm", c!"N_iter", c!"N_stoptune", c!"N_begintune", c!"Tune_Ladder", c!"N_stopTuneLadder", c!"scale_tune_ladder",
   c!"zero_stretch", c!"N_beta", c!"Fout_Len", c!"FoutPre", c!"FoutSuf", c!"results_dir", c!"Beta_Values", c!"Data_file",
   c!"ndim_data", c!"Delimiter", c!"init_gp_ratio", c!"init_rand_seed", c!"i_save_begin", c!"n_iter_a_stack",
   c!"n_iter_a_batch_base", c!"n_iter_a_batch_rand", c!"n_iter_in_tune", c!"ar_ok_lower", c!"ar_ok_upper", c!"ar_best",
   c!"ar_accept_diff", c!"sigma_scale_half_ratio", c!"sigma_scale_min", c!"sigma_scale_max", c!"sigma_jumpin_ratio", c!"N_swap",
   c!"Swapmode"]

/-- Names looked up by the bundled models, models/*/user_prior.c. -/
def gaussianNames : List Str := [c!"a_min", c!"a_max", c!"b_min", c!"b_max"]
/-- models/regression/user_prior.c -/
def regressionNames : List Str := gaussianNames ++ [c!"d_min", c!"d_max"]
/-- models/rastrigin/user_prior.c -/
def rastriginNames : List Str := gaussianNames ++ [c!"c_min", c!"c_max", c!"d_min", c!"d_max", c!"f_min", c!"f_max"]
/-- models/fit_orbit/user_prior.c -/
def orbitNames : List Str :=
  [c!"para0_max", c!"para0_min", c!"para1_max", c!"para1_min", c!"para2_max", c!"para2_min", c!"para3_max", c!"para3_min", c!"para4_max",
   c!"para4_min", c!"para5_max", c!"para5_min", c!"para6_max", c!"para6_min", c!"para7_max", c!"para7_min", c!"para8_max", c!"para8_min",
   c!"para9_max", c!"para9_min", c!"para10_max", c!"para10_min", c!"para11_max", c!"para11_min", c!"para12_max", c!"para12_min",
   c!"para13_max", c!"para13_min", c!"para14_max", c!"para14_min"]
/-- models/hier_R/user_prior.c -/
def hierNames : List Str :=
  [c!"gamma_mean", c!"gamma_sd", c!"gamma_max", c!"gamma_min", c!"logC_min", c!"logC_max", c!"gamma_lambda_Y_min", c!"gamma_lambda_Y_max",
   c!"log_lambda_Y_min", c!"log_lambda_Y_max", c!"log_lambda_Yobs_min", c!"log_lambda_Yobs_max", c!"log_lambda_Xobs_min",
   c!"log_lambda_Xobs_max"]

/-- The line for an entry: the name, a colon, white space, the value, white space. -/
def entryLine (gap trail : Str → Str) (e : Str × Str) : Str := e.1 ++ ':' :: (gap e.1 ++ e.2 ++ trail e.1)

/-- The values can be written: numbers have digits, words are words and do not contain a name, white space is white space. -/
structure Settings.Wf (w : Settings) : Prop where
  ints : ∀ t ∈ [w.nParm, w.nIter, w.nStoptune, w.nBegintune, w.tuneLadder, w.nStopTuneLadder, w.nBeta, w.foutLen, w.ndim, w.initSeed,
    w.saveBegin, w.nStack, w.base, w.rand, w.nIterInTune, w.nSwap, w.swapmode], t.digits ≠ []
  decs : ∀ t ∈ [w.scaleLadder, w.zeroStretch, w.beta0, w.initGpRatio, w.arLower, w.arUpper, w.arBest, w.arAcceptDiff, w.halfRatio,
    w.scaleMin, w.scaleMax, w.jumpin], t.Wf
  betas : ∀ p ∈ w.betas, Blank p.1 ∧ p.2.Wf
  words : ∀ t ∈ [w.foutPre, w.foutSuf, w.resultsDir, w.dataFile, w.delimiter], Word t ∧ '\x00' ∉ t
  harmless : ∀ t ∈ [w.foutPre, w.foutSuf, w.resultsDir, w.dataFile, w.delimiter], ∀ k ∈ coreNames, ¬ k <:+: t

/-- The numbers fit the variables. -/
structure Settings.Fits (w : Settings) : Prop where
  ints : ∀ t ∈ [w.nParm, w.nIter, w.nStoptune, w.nBegintune, w.tuneLadder, w.nStopTuneLadder, w.nBeta, w.foutLen, w.ndim,
    w.nStack, w.base, w.rand, w.nIterInTune, w.nSwap, w.swapmode], -2147483648 ≤ t.value ∧ t.value ≤ 2147483647
  uns : ∀ t ∈ [w.initSeed, w.saveBegin], 0 ≤ t.value ∧ t.value < 4294967296
  count : w.nBeta.value = (w.betas.length : Int) + 1

/-- A file that expresses the values: its lines are the entries' lines and comments, in any order; lines have less than 100
bytes with their newline; comments do not contain a name. -/
structure Expresses (w : Settings) (text : Str) : Prop where
  lines : ∃ (gap trail : Str → Str) (comments ls : List Str),
    (∀ k, Blank (gap k) ∧ Blank (trail k)) ∧
    (∀ l ∈ comments, '\n' ∉ l ∧ '\x00' ∉ l ∧ ∀ k ∈ coreNames, ¬ k <:+: l) ∧
    (∀ e ∈ w.entries, (entryLine gap trail e).length + 1 < 100) ∧
    ls.Perm (w.entries.map (entryLine gap trail) ++ comments) ∧
    text = (ls.map (· ++ ['\n'])).flatten

end Spec
end NiiC
