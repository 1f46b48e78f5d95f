import Verif.Spec.Texts

/-!
# The sample configuration files

The texts of the sample files of the repository, line by line, with the values written in them and the white space around the values. Written by tools/samples.py.
-/

namespace NiiC
namespace Samples
open Spec

/-- A text with the given lines. -/
def textOf (lines : List Str) : Str := (lines.map (· ++ ['\n'])).flatten

/-- A sample file: its lines, its comments and empty lines, the values and ranges written, and the white space before and behind the value of each name. -/
structure Sample where
  lines : List Str
  comments : List Str
  settings : Settings
  ranges : List (DecText × DecText)
  space : List (Str × Str × Str)

/-- models/regression/input.ini, the same as input.ini -/
def regressionSample : Sample where
  lines := [c!"/* we use \"para_name\"+\":\" to search input parameters. */",
    c!"/* NOTE: the \"para_name\" str should no appear in comments */",
    [],
    c!"# setting the chain grid",
    c!"N_iter:                 400000",
    c!"# NOTE: N-beta == n-ranks since we set n-ranks based on N-beta, should at least be 2",
    c!"N_beta:\t                4",
    c!"Beta_Values:            0.001, 0.01, 0.1, 1",
    [],
    c!"# tune the temperature or not",
    c!"Tune_Ladder:            1",
    c!"N_stopTuneLadder:       300000",
    c!"# ladder tuning parameters",
    c!"# scale parameters of ladder tuning",
    c!"scale_tune_ladder:      0.2",
    c!"# in case zero swap ar occurs",
    c!"zero_stretch:           0.1",
    [],
    c!"#",
    [],
    c!"# test case, y=ax+b+noise(0,1)",
    c!"N_parm:     \t        3  ",
    c!"#",
    c!"# set total N-iteration in a stack of batches",
    c!"n_iter_a_stack:         5000",
    c!"# number of iteration in a batch before judging should a swap be taken",
    c!"n_iter_a_batch_base:    20",
    c!"# random +/- range of n-iter-a-batch-base (must < n-iter-a-batch-base)",
    c!"n_iter_a_batch_rand:    5",
    c!"# Number of swaping propose will be tested",
    c!"N_swap:                 1",
    c!"# neighbor swap (0) or random swap (1)  ",
    c!"Swapmode:               0",
    [],
    c!"# tuning the proposals ",
    c!"# stop the tuning after N-stoptune",
    c!"N_stoptune:             400000",
    c!"# begin the tuning after N-stoptune",
    c!"N_begintune:            300000",
    c!"#",
    c!"# the N-iteration in tuning sigma_prop",
    c!"n_iter_in_tune:         1000",
    c!"# the lower boundary ok accept rate  ",
    c!"ar_ok_lower:            0.10",
    c!"# the upper boundary ok accept rate  ",
    c!"ar_ok_upper:            0.45",
    c!"# the best ar",
    c!"ar_best:                0.23",
    c!"# the maximum diff for an acceptable ar",
    c!"ar_accept_diff:         0.1",
    c!"#",
    c!"sigma_scale_half_ratio: 20",
    c!"#",
    [],
    c!"# set the range of sigma (check the set_sigma_range function in readin.c)",
    c!"sigma_scale_min:        0.0000000005",
    c!"sigma_scale_max:        0.2",
    c!"# reset the sigma in the range if out of the min/max boundary",
    c!"sigma_jumpin_ratio:     300",
    [],
    c!"# save the chain starting from (burning)",
    c!"i_save_begin:           100000",
    [],
    c!"# initial random seed(rolling in mpi), set it <= 0 to use system time ",
    c!"init_rand_seed:         20 ",
    c!"# ratio of the init gaussian_proposal_sigma to the allowed prior range",
    c!"init_gp_ratio:          0.1",
    [],
    [],
    c!"# prior ",
    c!"a_min:              -20",
    c!"a_max:              20",
    c!"b_min:              -50",
    c!"b_max:              50",
    c!"d_min:              0.01",
    c!"d_max:              30",
    [],
    [],
    c!"# file name of output",
    c!"Fout_Len: \t    100",
    c!"FoutPre: \t    chain",
    c!"FoutSuf: \t    .dat",
    c!"results_dir: \t    results082900 ",
    [],
    [],
    c!"# about the datafile ",
    c!"# set delimiter as \"blank\" if data is seperated as \" \"",
    c!"Data_file:           xy.dat",
    c!"ndim_data:           2",
    c!"Delimiter:           blank           ",
    [],
    [],
    [],
    []]
  comments := [c!"/* we use \"para_name\"+\":\" to search input parameters. */",
    c!"/* NOTE: the \"para_name\" str should no appear in comments */",
    [],
    c!"# setting the chain grid",
    c!"# NOTE: N-beta == n-ranks since we set n-ranks based on N-beta, should at least be 2",
    [],
    c!"# tune the temperature or not",
    c!"# ladder tuning parameters",
    c!"# scale parameters of ladder tuning",
    c!"# in case zero swap ar occurs",
    [],
    c!"#",
    [],
    c!"# test case, y=ax+b+noise(0,1)",
    c!"#",
    c!"# set total N-iteration in a stack of batches",
    c!"# number of iteration in a batch before judging should a swap be taken",
    c!"# random +/- range of n-iter-a-batch-base (must < n-iter-a-batch-base)",
    c!"# Number of swaping propose will be tested",
    c!"# neighbor swap (0) or random swap (1)  ",
    [],
    c!"# tuning the proposals ",
    c!"# stop the tuning after N-stoptune",
    c!"# begin the tuning after N-stoptune",
    c!"#",
    c!"# the N-iteration in tuning sigma_prop",
    c!"# the lower boundary ok accept rate  ",
    c!"# the upper boundary ok accept rate  ",
    c!"# the best ar",
    c!"# the maximum diff for an acceptable ar",
    c!"#",
    c!"#",
    [],
    c!"# set the range of sigma (check the set_sigma_range function in readin.c)",
    c!"# reset the sigma in the range if out of the min/max boundary",
    [],
    c!"# save the chain starting from (burning)",
    [],
    c!"# initial random seed(rolling in mpi), set it <= 0 to use system time ",
    c!"# ratio of the init gaussian_proposal_sigma to the allowed prior range",
    [],
    [],
    c!"# prior ",
    [],
    [],
    c!"# file name of output",
    [],
    [],
    c!"# about the datafile ",
    c!"# set delimiter as \"blank\" if data is seperated as \" \"",
    [],
    [],
    [],
    []]
  settings :=
    { nParm := ⟨.none, [3]⟩
      nIter := ⟨.none, [4, 0, 0, 0, 0, 0]⟩
      nStoptune := ⟨.none, [4, 0, 0, 0, 0, 0]⟩
      nBegintune := ⟨.none, [3, 0, 0, 0, 0, 0]⟩
      tuneLadder := ⟨.none, [1]⟩
      nStopTuneLadder := ⟨.none, [3, 0, 0, 0, 0, 0]⟩
      scaleLadder := ⟨.none, [0], some [2], none⟩
      zeroStretch := ⟨.none, [0], some [1], none⟩
      nBeta := ⟨.none, [4]⟩
      foutLen := ⟨.none, [1, 0, 0]⟩
      foutPre := c!"chain"
      foutSuf := c!".dat"
      resultsDir := c!"results082900"
      beta0 := ⟨.none, [0], some [0, 0, 1], none⟩
      betas := [(c!" ", ⟨.none, [0], some [0, 1], none⟩), (c!" ", ⟨.none, [0], some [1], none⟩), (c!" ", ⟨.none, [1], none, none⟩)]
      dataFile := c!"xy.dat"
      ndim := ⟨.none, [2]⟩
      delimiter := c!"blank"
      initGpRatio := ⟨.none, [0], some [1], none⟩
      initSeed := ⟨.none, [2, 0]⟩
      saveBegin := ⟨.none, [1, 0, 0, 0, 0, 0]⟩
      nStack := ⟨.none, [5, 0, 0, 0]⟩
      base := ⟨.none, [2, 0]⟩
      rand := ⟨.none, [5]⟩
      nIterInTune := ⟨.none, [1, 0, 0, 0]⟩
      arLower := ⟨.none, [0], some [1, 0], none⟩
      arUpper := ⟨.none, [0], some [4, 5], none⟩
      arBest := ⟨.none, [0], some [2, 3], none⟩
      arAcceptDiff := ⟨.none, [0], some [1], none⟩
      halfRatio := ⟨.none, [2, 0], none, none⟩
      scaleMin := ⟨.none, [0], some [0, 0, 0, 0, 0, 0, 0, 0, 0, 5], none⟩
      scaleMax := ⟨.none, [0], some [2], none⟩
      jumpin := ⟨.none, [3, 0, 0], none, none⟩
      nSwap := ⟨.none, [1]⟩
      swapmode := ⟨.none, [0]⟩ }
  ranges := [(⟨.minus, [2, 0], none, none⟩, ⟨.none, [2, 0], none, none⟩), (⟨.minus, [5, 0], none, none⟩, ⟨.none, [5, 0], none, none⟩), (⟨.none, [0], some [0, 1], none⟩, ⟨.none, [3, 0], none, none⟩)]
  space := [(c!"N_iter", c!"                 ", []),
    (c!"N_beta", c!"\t                ", []),
    (c!"Beta_Values", c!"            ", []),
    (c!"Tune_Ladder", c!"            ", []),
    (c!"N_stopTuneLadder", c!"       ", []),
    (c!"scale_tune_ladder", c!"      ", []),
    (c!"zero_stretch", c!"           ", []),
    (c!"N_parm", c!"     \t        ", c!"  "),
    (c!"n_iter_a_stack", c!"         ", []),
    (c!"n_iter_a_batch_base", c!"    ", []),
    (c!"n_iter_a_batch_rand", c!"    ", []),
    (c!"N_swap", c!"                 ", []),
    (c!"Swapmode", c!"               ", []),
    (c!"N_stoptune", c!"             ", []),
    (c!"N_begintune", c!"            ", []),
    (c!"n_iter_in_tune", c!"         ", []),
    (c!"ar_ok_lower", c!"            ", []),
    (c!"ar_ok_upper", c!"            ", []),
    (c!"ar_best", c!"                ", []),
    (c!"ar_accept_diff", c!"         ", []),
    (c!"sigma_scale_half_ratio", c!" ", []),
    (c!"sigma_scale_min", c!"        ", []),
    (c!"sigma_scale_max", c!"        ", []),
    (c!"sigma_jumpin_ratio", c!"     ", []),
    (c!"i_save_begin", c!"           ", []),
    (c!"init_rand_seed", c!"         ", c!" "),
    (c!"init_gp_ratio", c!"          ", []),
    (c!"a_min", c!"              ", []),
    (c!"a_max", c!"              ", []),
    (c!"b_min", c!"              ", []),
    (c!"b_max", c!"              ", []),
    (c!"d_min", c!"              ", []),
    (c!"d_max", c!"              ", []),
    (c!"Fout_Len", c!" \t    ", []),
    (c!"FoutPre", c!" \t    ", []),
    (c!"FoutSuf", c!" \t    ", []),
    (c!"results_dir", c!" \t    ", c!" "),
    (c!"Data_file", c!"           ", []),
    (c!"ndim_data", c!"           ", []),
    (c!"Delimiter", c!"           ", c!"           ")]

/-- models/multi_gaussian/input.ini -/
def gaussianSample : Sample where
  lines := [c!"/* we use \"para_name\"+\":\" to search input parameters. */",
    c!"/* NOTE: the \"para_name\" str should no appear in comments */",
    [],
    c!"# setting the chain grid",
    c!"N_iter:                 5000000",
    c!"# NOTE: N-beta == n-ranks since we set n-ranks based on N-beta, should at least be 2",
    c!"N_beta:\t                5",
    c!"Beta_Values:            0.0001, 0.001, 0.01, 0.1, 1",
    [],
    c!"# tune the temperature or not",
    c!"Tune_Ladder:            1",
    c!"N_stopTuneLadder:       300000",
    c!"# ladder tuning parameters",
    c!"# scale parameters of ladder tuning",
    c!"scale_tune_ladder:      0.8",
    c!"# in case zero swap ar occurs",
    c!"zero_stretch:           0.3",
    [],
    c!"#",
    [],
    c!"# test case, y=ax+b+noise(0,1)",
    c!"N_parm:     \t        2  ",
    c!"#",
    c!"# set total N-iteration in a stack of batches",
    c!"n_iter_a_stack:         5000",
    c!"# number of iteration in a batch before judging should a swap be taken",
    c!"n_iter_a_batch_base:    20",
    c!"# random +/- range of n-iter-a-batch-base (must < n-iter-a-batch-base)",
    c!"n_iter_a_batch_rand:    5",
    c!"# Number of swaping propose will be tested",
    c!"N_swap:                 1",
    c!"# neighbor swap (0) or random swap (1)  ",
    c!"Swapmode:               0",
    [],
    c!"# tuning the proposals ",
    c!"# stop the tuning after N-stoptune",
    c!"N_stoptune:             500000",
    c!"# begin the tuning after N-stoptune",
    c!"N_begintune:            300000",
    c!"#",
    c!"# the N-iteration in tuning sigma_prop",
    c!"n_iter_in_tune:         2000",
    c!"# the lower boundary ok accept rate  ",
    c!"ar_ok_lower:            0.10",
    c!"# the upper boundary ok accept rate  ",
    c!"ar_ok_upper:            0.45",
    c!"# the best ar",
    c!"ar_best:                0.23",
    c!"# the maximum diff for an acceptable ar",
    c!"ar_accept_diff:         0.1",
    c!"#",
    c!"sigma_scale_half_ratio: 20",
    c!"#",
    [],
    c!"# set the range of sigma (check the set_sigma_range function in readin.c)",
    c!"sigma_scale_min:        0.0000000001",
    c!"sigma_scale_max:        0.2",
    c!"# reset the sigma in the range if out of the min/max boundary",
    c!"sigma_jumpin_ratio:     300",
    [],
    c!"# save the chain starting from (burning)",
    c!"i_save_begin:           500000",
    [],
    c!"# initial random seed(rolling in mpi), set it <= 0 to use system time ",
    c!"init_rand_seed:         20 ",
    c!"# ratio of the init gaussian_proposal_sigma to the allowed prior range",
    c!"init_gp_ratio:          0.1",
    [],
    [],
    c!"# prior ",
    c!"a_min:              -30",
    c!"a_max:              30",
    c!"b_min:              -30",
    c!"b_max:              30",
    [],
    [],
    c!"# file name of output",
    c!"Fout_Len: \t    100",
    c!"FoutPre: \t    chain",
    c!"FoutSuf: \t    .dat",
    c!"results_dir: \t    results082900 ",
    [],
    [],
    c!"# about the datafile ",
    c!"# set delimiter as \"blank\" if data is seperated as \" \"",
    c!"Data_file:           xy.dat",
    c!"ndim_data:           2",
    c!"Delimiter:           blank           ",
    [],
    [],
    [],
    []]
  comments := [c!"/* we use \"para_name\"+\":\" to search input parameters. */",
    c!"/* NOTE: the \"para_name\" str should no appear in comments */",
    [],
    c!"# setting the chain grid",
    c!"# NOTE: N-beta == n-ranks since we set n-ranks based on N-beta, should at least be 2",
    [],
    c!"# tune the temperature or not",
    c!"# ladder tuning parameters",
    c!"# scale parameters of ladder tuning",
    c!"# in case zero swap ar occurs",
    [],
    c!"#",
    [],
    c!"# test case, y=ax+b+noise(0,1)",
    c!"#",
    c!"# set total N-iteration in a stack of batches",
    c!"# number of iteration in a batch before judging should a swap be taken",
    c!"# random +/- range of n-iter-a-batch-base (must < n-iter-a-batch-base)",
    c!"# Number of swaping propose will be tested",
    c!"# neighbor swap (0) or random swap (1)  ",
    [],
    c!"# tuning the proposals ",
    c!"# stop the tuning after N-stoptune",
    c!"# begin the tuning after N-stoptune",
    c!"#",
    c!"# the N-iteration in tuning sigma_prop",
    c!"# the lower boundary ok accept rate  ",
    c!"# the upper boundary ok accept rate  ",
    c!"# the best ar",
    c!"# the maximum diff for an acceptable ar",
    c!"#",
    c!"#",
    [],
    c!"# set the range of sigma (check the set_sigma_range function in readin.c)",
    c!"# reset the sigma in the range if out of the min/max boundary",
    [],
    c!"# save the chain starting from (burning)",
    [],
    c!"# initial random seed(rolling in mpi), set it <= 0 to use system time ",
    c!"# ratio of the init gaussian_proposal_sigma to the allowed prior range",
    [],
    [],
    c!"# prior ",
    [],
    [],
    c!"# file name of output",
    [],
    [],
    c!"# about the datafile ",
    c!"# set delimiter as \"blank\" if data is seperated as \" \"",
    [],
    [],
    [],
    []]
  settings :=
    { nParm := ⟨.none, [2]⟩
      nIter := ⟨.none, [5, 0, 0, 0, 0, 0, 0]⟩
      nStoptune := ⟨.none, [5, 0, 0, 0, 0, 0]⟩
      nBegintune := ⟨.none, [3, 0, 0, 0, 0, 0]⟩
      tuneLadder := ⟨.none, [1]⟩
      nStopTuneLadder := ⟨.none, [3, 0, 0, 0, 0, 0]⟩
      scaleLadder := ⟨.none, [0], some [8], none⟩
      zeroStretch := ⟨.none, [0], some [3], none⟩
      nBeta := ⟨.none, [5]⟩
      foutLen := ⟨.none, [1, 0, 0]⟩
      foutPre := c!"chain"
      foutSuf := c!".dat"
      resultsDir := c!"results082900"
      beta0 := ⟨.none, [0], some [0, 0, 0, 1], none⟩
      betas := [(c!" ", ⟨.none, [0], some [0, 0, 1], none⟩), (c!" ", ⟨.none, [0], some [0, 1], none⟩), (c!" ", ⟨.none, [0], some [1], none⟩), (c!" ", ⟨.none, [1], none, none⟩)]
      dataFile := c!"xy.dat"
      ndim := ⟨.none, [2]⟩
      delimiter := c!"blank"
      initGpRatio := ⟨.none, [0], some [1], none⟩
      initSeed := ⟨.none, [2, 0]⟩
      saveBegin := ⟨.none, [5, 0, 0, 0, 0, 0]⟩
      nStack := ⟨.none, [5, 0, 0, 0]⟩
      base := ⟨.none, [2, 0]⟩
      rand := ⟨.none, [5]⟩
      nIterInTune := ⟨.none, [2, 0, 0, 0]⟩
      arLower := ⟨.none, [0], some [1, 0], none⟩
      arUpper := ⟨.none, [0], some [4, 5], none⟩
      arBest := ⟨.none, [0], some [2, 3], none⟩
      arAcceptDiff := ⟨.none, [0], some [1], none⟩
      halfRatio := ⟨.none, [2, 0], none, none⟩
      scaleMin := ⟨.none, [0], some [0, 0, 0, 0, 0, 0, 0, 0, 0, 1], none⟩
      scaleMax := ⟨.none, [0], some [2], none⟩
      jumpin := ⟨.none, [3, 0, 0], none, none⟩
      nSwap := ⟨.none, [1]⟩
      swapmode := ⟨.none, [0]⟩ }
  ranges := [(⟨.minus, [3, 0], none, none⟩, ⟨.none, [3, 0], none, none⟩), (⟨.minus, [3, 0], none, none⟩, ⟨.none, [3, 0], none, none⟩)]
  space := [(c!"N_iter", c!"                 ", []),
    (c!"N_beta", c!"\t                ", []),
    (c!"Beta_Values", c!"            ", []),
    (c!"Tune_Ladder", c!"            ", []),
    (c!"N_stopTuneLadder", c!"       ", []),
    (c!"scale_tune_ladder", c!"      ", []),
    (c!"zero_stretch", c!"           ", []),
    (c!"N_parm", c!"     \t        ", c!"  "),
    (c!"n_iter_a_stack", c!"         ", []),
    (c!"n_iter_a_batch_base", c!"    ", []),
    (c!"n_iter_a_batch_rand", c!"    ", []),
    (c!"N_swap", c!"                 ", []),
    (c!"Swapmode", c!"               ", []),
    (c!"N_stoptune", c!"             ", []),
    (c!"N_begintune", c!"            ", []),
    (c!"n_iter_in_tune", c!"         ", []),
    (c!"ar_ok_lower", c!"            ", []),
    (c!"ar_ok_upper", c!"            ", []),
    (c!"ar_best", c!"                ", []),
    (c!"ar_accept_diff", c!"         ", []),
    (c!"sigma_scale_half_ratio", c!" ", []),
    (c!"sigma_scale_min", c!"        ", []),
    (c!"sigma_scale_max", c!"        ", []),
    (c!"sigma_jumpin_ratio", c!"     ", []),
    (c!"i_save_begin", c!"           ", []),
    (c!"init_rand_seed", c!"         ", c!" "),
    (c!"init_gp_ratio", c!"          ", []),
    (c!"a_min", c!"              ", []),
    (c!"a_max", c!"              ", []),
    (c!"b_min", c!"              ", []),
    (c!"b_max", c!"              ", []),
    (c!"Fout_Len", c!" \t    ", []),
    (c!"FoutPre", c!" \t    ", []),
    (c!"FoutSuf", c!" \t    ", []),
    (c!"results_dir", c!" \t    ", c!" "),
    (c!"Data_file", c!"           ", []),
    (c!"ndim_data", c!"           ", []),
    (c!"Delimiter", c!"           ", c!"           ")]

/-- models/curved_likelihood/input.ini -/
def curvedSample : Sample where
  lines := [c!"/* we use \"para_name\"+\":\" to search input parameters. */",
    c!"/* NOTE: the \"para_name\" str should no appear in comments */",
    [],
    c!"# setting the chain grid",
    c!"N_iter:                 1000000",
    c!"# NOTE: N-beta == n-ranks since we set n-ranks based on N-beta, should at least be 2",
    c!"N_beta:\t                4",
    c!"Beta_Values:            0.03, 0.1, 0.3, 1.0",
    c!"# test case, y=ax+b+noise(0,1)",
    c!"N_parm:     \t        2  ",
    [],
    c!"# tune the temperature or not",
    c!"Tune_Ladder:            0",
    c!"N_stopTuneLadder:       300000",
    c!"# ladder tuning parameters",
    c!"# scale parameters of ladder tuning",
    c!"scale_tune_ladder:      0.7",
    c!"                        0.8",
    c!"# in case zero swap ar occurs",
    c!"zero_stretch:           0.2",
    c!"                        0.3",
    [],
    c!"#",
    [],
    c!"# set total N-iteration in a stack of batches",
    c!"n_iter_a_stack:         5000",
    c!"# number of iteration in a batch before judging should a swap be taken",
    c!"n_iter_a_batch_base:    20",
    c!"# random +/- range of n-iter-a-batch-base (must < n-iter-a-batch-base)",
    c!"n_iter_a_batch_rand:    5",
    c!"# Number of swaping propose will be tested",
    c!"N_swap:                 1",
    c!"# neighbor swap (0) or random swap (1)  ",
    c!"Swapmode:               0",
    [],
    c!"# stop the tuning after N-stoptune",
    c!"N_stoptune:             0",
    c!"# begin the tuning after N-stoptune",
    c!"N_begintune:            100000000",
    c!"#",
    c!"# the N-iteration in tuning sigma_prop",
    c!"n_iter_in_tune:         1000",
    c!"# the lower boundary ok accept rate  ",
    c!"ar_ok_lower:            0.10",
    c!"# the upper boundary ok accept rate  ",
    c!"ar_ok_upper:            0.45",
    c!"# the best ar",
    c!"ar_best:                0.23",
    c!"# the maximum diff for an acceptable ar",
    c!"ar_accept_diff:         0.1",
    c!"#",
    c!"sigma_scale_half_ratio: 200",
    c!"#",
    c!"# set the range of sigma (check the set_sigma_range function in readin.c)",
    c!"sigma_scale_min:        0.0000000005",
    c!"sigma_scale_max:        0.2",
    c!"# reset the sigma in the range if out of the min/max boundary",
    c!"sigma_jumpin_ratio:     300",
    [],
    c!"# save the chain starting from (burning)",
    c!"i_save_begin:           10000",
    [],
    c!"# initial random seed(rolling in mpi), set it <= 0 to use system time ",
    c!"init_rand_seed:         20 ",
    c!"# ratio of the init gaussian_proposal_sigma to the allowed prior range",
    c!"init_gp_ratio:          0.1",
    [],
    [],
    c!"# prior ",
    c!"a_min:              -10",
    c!"a_max:              10",
    c!"b_min:              -10",
    c!"b_max:              10",
    [],
    [],
    c!"# file name of output",
    c!"Fout_Len: \t    100",
    c!"FoutPre: \t    chain",
    c!"FoutSuf: \t    .dat",
    c!"results_dir: \t    results082900 ",
    [],
    [],
    c!"# about the datafile ",
    c!"# set delimiter as \"blank\" if data is seperated as \" \"",
    c!"Data_file:           xy.dat",
    c!"ndim_data:           2",
    c!"Delimiter:           blank           ",
    []]
  comments := [c!"/* we use \"para_name\"+\":\" to search input parameters. */",
    c!"/* NOTE: the \"para_name\" str should no appear in comments */",
    [],
    c!"# setting the chain grid",
    c!"# NOTE: N-beta == n-ranks since we set n-ranks based on N-beta, should at least be 2",
    c!"# test case, y=ax+b+noise(0,1)",
    [],
    c!"# tune the temperature or not",
    c!"# ladder tuning parameters",
    c!"# scale parameters of ladder tuning",
    c!"                        0.8",
    c!"# in case zero swap ar occurs",
    c!"                        0.3",
    [],
    c!"#",
    [],
    c!"# set total N-iteration in a stack of batches",
    c!"# number of iteration in a batch before judging should a swap be taken",
    c!"# random +/- range of n-iter-a-batch-base (must < n-iter-a-batch-base)",
    c!"# Number of swaping propose will be tested",
    c!"# neighbor swap (0) or random swap (1)  ",
    [],
    c!"# stop the tuning after N-stoptune",
    c!"# begin the tuning after N-stoptune",
    c!"#",
    c!"# the N-iteration in tuning sigma_prop",
    c!"# the lower boundary ok accept rate  ",
    c!"# the upper boundary ok accept rate  ",
    c!"# the best ar",
    c!"# the maximum diff for an acceptable ar",
    c!"#",
    c!"#",
    c!"# set the range of sigma (check the set_sigma_range function in readin.c)",
    c!"# reset the sigma in the range if out of the min/max boundary",
    [],
    c!"# save the chain starting from (burning)",
    [],
    c!"# initial random seed(rolling in mpi), set it <= 0 to use system time ",
    c!"# ratio of the init gaussian_proposal_sigma to the allowed prior range",
    [],
    [],
    c!"# prior ",
    [],
    [],
    c!"# file name of output",
    [],
    [],
    c!"# about the datafile ",
    c!"# set delimiter as \"blank\" if data is seperated as \" \"",
    []]
  settings :=
    { nParm := ⟨.none, [2]⟩
      nIter := ⟨.none, [1, 0, 0, 0, 0, 0, 0]⟩
      nStoptune := ⟨.none, [0]⟩
      nBegintune := ⟨.none, [1, 0, 0, 0, 0, 0, 0, 0, 0]⟩
      tuneLadder := ⟨.none, [0]⟩
      nStopTuneLadder := ⟨.none, [3, 0, 0, 0, 0, 0]⟩
      scaleLadder := ⟨.none, [0], some [7], none⟩
      zeroStretch := ⟨.none, [0], some [2], none⟩
      nBeta := ⟨.none, [4]⟩
      foutLen := ⟨.none, [1, 0, 0]⟩
      foutPre := c!"chain"
      foutSuf := c!".dat"
      resultsDir := c!"results082900"
      beta0 := ⟨.none, [0], some [0, 3], none⟩
      betas := [(c!" ", ⟨.none, [0], some [1], none⟩), (c!" ", ⟨.none, [0], some [3], none⟩), (c!" ", ⟨.none, [1], some [0], none⟩)]
      dataFile := c!"xy.dat"
      ndim := ⟨.none, [2]⟩
      delimiter := c!"blank"
      initGpRatio := ⟨.none, [0], some [1], none⟩
      initSeed := ⟨.none, [2, 0]⟩
      saveBegin := ⟨.none, [1, 0, 0, 0, 0]⟩
      nStack := ⟨.none, [5, 0, 0, 0]⟩
      base := ⟨.none, [2, 0]⟩
      rand := ⟨.none, [5]⟩
      nIterInTune := ⟨.none, [1, 0, 0, 0]⟩
      arLower := ⟨.none, [0], some [1, 0], none⟩
      arUpper := ⟨.none, [0], some [4, 5], none⟩
      arBest := ⟨.none, [0], some [2, 3], none⟩
      arAcceptDiff := ⟨.none, [0], some [1], none⟩
      halfRatio := ⟨.none, [2, 0, 0], none, none⟩
      scaleMin := ⟨.none, [0], some [0, 0, 0, 0, 0, 0, 0, 0, 0, 5], none⟩
      scaleMax := ⟨.none, [0], some [2], none⟩
      jumpin := ⟨.none, [3, 0, 0], none, none⟩
      nSwap := ⟨.none, [1]⟩
      swapmode := ⟨.none, [0]⟩ }
  ranges := [(⟨.minus, [1, 0], none, none⟩, ⟨.none, [1, 0], none, none⟩), (⟨.minus, [1, 0], none, none⟩, ⟨.none, [1, 0], none, none⟩)]
  space := [(c!"N_iter", c!"                 ", []),
    (c!"N_beta", c!"\t                ", []),
    (c!"Beta_Values", c!"            ", []),
    (c!"N_parm", c!"     \t        ", c!"  "),
    (c!"Tune_Ladder", c!"            ", []),
    (c!"N_stopTuneLadder", c!"       ", []),
    (c!"scale_tune_ladder", c!"      ", []),
    (c!"zero_stretch", c!"           ", []),
    (c!"n_iter_a_stack", c!"         ", []),
    (c!"n_iter_a_batch_base", c!"    ", []),
    (c!"n_iter_a_batch_rand", c!"    ", []),
    (c!"N_swap", c!"                 ", []),
    (c!"Swapmode", c!"               ", []),
    (c!"N_stoptune", c!"             ", []),
    (c!"N_begintune", c!"            ", []),
    (c!"n_iter_in_tune", c!"         ", []),
    (c!"ar_ok_lower", c!"            ", []),
    (c!"ar_ok_upper", c!"            ", []),
    (c!"ar_best", c!"                ", []),
    (c!"ar_accept_diff", c!"         ", []),
    (c!"sigma_scale_half_ratio", c!" ", []),
    (c!"sigma_scale_min", c!"        ", []),
    (c!"sigma_scale_max", c!"        ", []),
    (c!"sigma_jumpin_ratio", c!"     ", []),
    (c!"i_save_begin", c!"           ", []),
    (c!"init_rand_seed", c!"         ", c!" "),
    (c!"init_gp_ratio", c!"          ", []),
    (c!"a_min", c!"              ", []),
    (c!"a_max", c!"              ", []),
    (c!"b_min", c!"              ", []),
    (c!"b_max", c!"              ", []),
    (c!"Fout_Len", c!" \t    ", []),
    (c!"FoutPre", c!" \t    ", []),
    (c!"FoutSuf", c!" \t    ", []),
    (c!"results_dir", c!" \t    ", c!" "),
    (c!"Data_file", c!"           ", []),
    (c!"ndim_data", c!"           ", []),
    (c!"Delimiter", c!"           ", c!"           ")]

/-- models/rastrigin/input.ini_T_L_T_B.eg -/
def rastriginSampleA : Sample where
  lines := [c!"/* we use \"para_name\"+\":\" to search input parameters. */",
    c!"/* NOTE: the \"para_name\" str should no appear in comments */",
    [],
    c!"# setting the chain grid",
    c!"N_iter:                 2000000",
    c!"# NOTE: N-beta == n-ranks since we set n-ranks based on N-beta, should at least be 2",
    c!"N_beta:\t                4",
    c!"Beta_Values:            0.001, 0.002, 0.999, 1",
    c!"#:            0.001, 0.002, 0.003, 1",
    [],
    c!"# tune the temperature or not",
    c!"Tune_Ladder:            1",
    c!"N_stopTuneLadder:       300000",
    c!"# ladder tuning parameters",
    c!"# scale parameters of ladder tuning",
    c!"scale_tune_ladder:      0.7",
    c!"                        0.8",
    c!"# in case zero swap ar occurs",
    c!"zero_stretch:           0.2",
    c!"                        0.3",
    [],
    c!"#",
    [],
    c!"# test case",
    c!"N_parm:     \t        5  ",
    c!"#",
    c!"# set total N-iteration in a stack of batches",
    c!"n_iter_a_stack:         5000",
    c!"# number of iteration in a batch before judging should a swap be taken",
    c!"n_iter_a_batch_base:    20",
    c!"# random +/- range of n-iter-a-batch-base (must < n-iter-a-batch-base)",
    c!"n_iter_a_batch_rand:    5",
    c!"# Number of swaping propose will be tested",
    c!"N_swap:                 1",
    c!"# neighbor swap (0) or random swap (1)  ",
    c!"Swapmode:               0",
    [],
    c!"# tuning the proposals ",
    c!"# stop the tuning after N-stoptune",
    c!"N_stoptune:             1000000",
    c!"# begin the tuning after N-stoptune",
    c!"N_begintune:            300000",
    c!"#",
    c!"# the N-iteration in tuning sigma_prop",
    c!"n_iter_in_tune:         3000",
    c!"# the lower boundary ok accept rate  ",
    c!"ar_ok_lower:            0.10",
    c!"# the upper boundary ok accept rate  ",
    c!"ar_ok_upper:            0.45",
    c!"# the best ar",
    c!"ar_best:                0.23",
    c!"# the maximum diff for an acceptable ar",
    c!"ar_accept_diff:         0.1",
    c!"#",
    c!"sigma_scale_half_ratio: 20",
    c!"#",
    [],
    c!"# set the range of sigma (check the set_sigma_range function in readin.c)",
    c!"sigma_scale_min:        0.0000000005",
    c!"sigma_scale_max:        0.2",
    c!"# reset the sigma in the range if out of the min/max boundary",
    c!"sigma_jumpin_ratio:     300",
    [],
    c!"# save the chain starting from (burning)",
    c!"i_save_begin:           0",
    [],
    c!"# initial random seed(rolling in mpi), set it <= 0 to use system time ",
    c!"init_rand_seed:         20 ",
    c!"# ratio of the init gaussian_proposal_sigma to the allowed prior range",
    c!"init_gp_ratio:          0.001",
    [],
    [],
    c!"# prior ",
    c!"a_min:              -5.12",
    c!"a_max:              5.12",
    c!"b_min:              -5.120",
    c!"b_max:              5.120",
    c!"c_min:              -5.120",
    c!"c_max:              5.120",
    c!"d_min:              -5.120",
    c!"d_max:              5.120",
    c!"f_min:              -5.120",
    c!"f_max:              5.120",
    [],
    [],
    c!"# file name of output",
    c!"Fout_Len: \t    100",
    c!"FoutPre: \t    chain",
    c!"FoutSuf: \t    .dat",
    c!"results_dir: \t    results082900 ",
    [],
    [],
    c!"# about the datafile ",
    c!"# set delimiter as \"blank\" if data is seperated as \" \"",
    c!"Data_file:           xy.dat",
    c!"ndim_data:           2",
    c!"Delimiter:           blank           ",
    [],
    [],
    [],
    []]
  comments := [c!"/* we use \"para_name\"+\":\" to search input parameters. */",
    c!"/* NOTE: the \"para_name\" str should no appear in comments */",
    [],
    c!"# setting the chain grid",
    c!"# NOTE: N-beta == n-ranks since we set n-ranks based on N-beta, should at least be 2",
    c!"#:            0.001, 0.002, 0.003, 1",
    [],
    c!"# tune the temperature or not",
    c!"# ladder tuning parameters",
    c!"# scale parameters of ladder tuning",
    c!"                        0.8",
    c!"# in case zero swap ar occurs",
    c!"                        0.3",
    [],
    c!"#",
    [],
    c!"# test case",
    c!"#",
    c!"# set total N-iteration in a stack of batches",
    c!"# number of iteration in a batch before judging should a swap be taken",
    c!"# random +/- range of n-iter-a-batch-base (must < n-iter-a-batch-base)",
    c!"# Number of swaping propose will be tested",
    c!"# neighbor swap (0) or random swap (1)  ",
    [],
    c!"# tuning the proposals ",
    c!"# stop the tuning after N-stoptune",
    c!"# begin the tuning after N-stoptune",
    c!"#",
    c!"# the N-iteration in tuning sigma_prop",
    c!"# the lower boundary ok accept rate  ",
    c!"# the upper boundary ok accept rate  ",
    c!"# the best ar",
    c!"# the maximum diff for an acceptable ar",
    c!"#",
    c!"#",
    [],
    c!"# set the range of sigma (check the set_sigma_range function in readin.c)",
    c!"# reset the sigma in the range if out of the min/max boundary",
    [],
    c!"# save the chain starting from (burning)",
    [],
    c!"# initial random seed(rolling in mpi), set it <= 0 to use system time ",
    c!"# ratio of the init gaussian_proposal_sigma to the allowed prior range",
    [],
    [],
    c!"# prior ",
    [],
    [],
    c!"# file name of output",
    [],
    [],
    c!"# about the datafile ",
    c!"# set delimiter as \"blank\" if data is seperated as \" \"",
    [],
    [],
    [],
    []]
  settings :=
    { nParm := ⟨.none, [5]⟩
      nIter := ⟨.none, [2, 0, 0, 0, 0, 0, 0]⟩
      nStoptune := ⟨.none, [1, 0, 0, 0, 0, 0, 0]⟩
      nBegintune := ⟨.none, [3, 0, 0, 0, 0, 0]⟩
      tuneLadder := ⟨.none, [1]⟩
      nStopTuneLadder := ⟨.none, [3, 0, 0, 0, 0, 0]⟩
      scaleLadder := ⟨.none, [0], some [7], none⟩
      zeroStretch := ⟨.none, [0], some [2], none⟩
      nBeta := ⟨.none, [4]⟩
      foutLen := ⟨.none, [1, 0, 0]⟩
      foutPre := c!"chain"
      foutSuf := c!".dat"
      resultsDir := c!"results082900"
      beta0 := ⟨.none, [0], some [0, 0, 1], none⟩
      betas := [(c!" ", ⟨.none, [0], some [0, 0, 2], none⟩), (c!" ", ⟨.none, [0], some [9, 9, 9], none⟩), (c!" ", ⟨.none, [1], none, none⟩)]
      dataFile := c!"xy.dat"
      ndim := ⟨.none, [2]⟩
      delimiter := c!"blank"
      initGpRatio := ⟨.none, [0], some [0, 0, 1], none⟩
      initSeed := ⟨.none, [2, 0]⟩
      saveBegin := ⟨.none, [0]⟩
      nStack := ⟨.none, [5, 0, 0, 0]⟩
      base := ⟨.none, [2, 0]⟩
      rand := ⟨.none, [5]⟩
      nIterInTune := ⟨.none, [3, 0, 0, 0]⟩
      arLower := ⟨.none, [0], some [1, 0], none⟩
      arUpper := ⟨.none, [0], some [4, 5], none⟩
      arBest := ⟨.none, [0], some [2, 3], none⟩
      arAcceptDiff := ⟨.none, [0], some [1], none⟩
      halfRatio := ⟨.none, [2, 0], none, none⟩
      scaleMin := ⟨.none, [0], some [0, 0, 0, 0, 0, 0, 0, 0, 0, 5], none⟩
      scaleMax := ⟨.none, [0], some [2], none⟩
      jumpin := ⟨.none, [3, 0, 0], none, none⟩
      nSwap := ⟨.none, [1]⟩
      swapmode := ⟨.none, [0]⟩ }
  ranges := [(⟨.minus, [5], some [1, 2], none⟩, ⟨.none, [5], some [1, 2], none⟩), (⟨.minus, [5], some [1, 2, 0], none⟩, ⟨.none, [5], some [1, 2, 0], none⟩), (⟨.minus, [5], some [1, 2, 0], none⟩, ⟨.none, [5], some [1, 2, 0], none⟩), (⟨.minus, [5], some [1, 2, 0], none⟩, ⟨.none, [5], some [1, 2, 0], none⟩), (⟨.minus, [5], some [1, 2, 0], none⟩, ⟨.none, [5], some [1, 2, 0], none⟩)]
  space := [(c!"N_iter", c!"                 ", []),
    (c!"N_beta", c!"\t                ", []),
    (c!"Beta_Values", c!"            ", []),
    (c!"Tune_Ladder", c!"            ", []),
    (c!"N_stopTuneLadder", c!"       ", []),
    (c!"scale_tune_ladder", c!"      ", []),
    (c!"zero_stretch", c!"           ", []),
    (c!"N_parm", c!"     \t        ", c!"  "),
    (c!"n_iter_a_stack", c!"         ", []),
    (c!"n_iter_a_batch_base", c!"    ", []),
    (c!"n_iter_a_batch_rand", c!"    ", []),
    (c!"N_swap", c!"                 ", []),
    (c!"Swapmode", c!"               ", []),
    (c!"N_stoptune", c!"             ", []),
    (c!"N_begintune", c!"            ", []),
    (c!"n_iter_in_tune", c!"         ", []),
    (c!"ar_ok_lower", c!"            ", []),
    (c!"ar_ok_upper", c!"            ", []),
    (c!"ar_best", c!"                ", []),
    (c!"ar_accept_diff", c!"         ", []),
    (c!"sigma_scale_half_ratio", c!" ", []),
    (c!"sigma_scale_min", c!"        ", []),
    (c!"sigma_scale_max", c!"        ", []),
    (c!"sigma_jumpin_ratio", c!"     ", []),
    (c!"i_save_begin", c!"           ", []),
    (c!"init_rand_seed", c!"         ", c!" "),
    (c!"init_gp_ratio", c!"          ", []),
    (c!"a_min", c!"              ", []),
    (c!"a_max", c!"              ", []),
    (c!"b_min", c!"              ", []),
    (c!"b_max", c!"              ", []),
    (c!"c_min", c!"              ", []),
    (c!"c_max", c!"              ", []),
    (c!"d_min", c!"              ", []),
    (c!"d_max", c!"              ", []),
    (c!"f_min", c!"              ", []),
    (c!"f_max", c!"              ", []),
    (c!"Fout_Len", c!" \t    ", []),
    (c!"FoutPre", c!" \t    ", []),
    (c!"FoutSuf", c!" \t    ", []),
    (c!"results_dir", c!" \t    ", c!" "),
    (c!"Data_file", c!"           ", []),
    (c!"ndim_data", c!"           ", []),
    (c!"Delimiter", c!"           ", c!"           ")]

/-- models/rastrigin/input.ini_Tune_Ladder_Tune_Proporal, the same as input.ini.latest -/
def rastriginSampleB : Sample where
  lines := [c!"/* we use \"para_name\"+\":\" to search input parameters. */",
    c!"/* NOTE: the \"para_name\" str should no appear in comments */",
    [],
    c!"# setting the chain grid",
    c!"N_iter:                 2000000",
    c!"# NOTE: N-beta == n-ranks since we set n-ranks based on N-beta, should at least be 2",
    c!"N_beta:\t                4",
    c!"Beta_Values:            0.001, 0.002, 0.003, 1",
    c!"#:            0.001, 0.002, 0.003, 1",
    [],
    c!"# tune the temperature or not",
    c!"Tune_Ladder:            1",
    c!"N_stopTuneLadder:       300000",
    c!"# ladder tuning parameters",
    c!"# scale parameters of ladder tuning",
    c!"scale_tune_ladder:      0.9",
    c!"# in case zero swap ar occurs",
    c!"zero_stretch:           0.3",
    [],
    c!"#",
    [],
    c!"# test case",
    c!"N_parm:     \t        5  ",
    c!"#",
    c!"# set total N-iteration in a stack of batches",
    c!"n_iter_a_stack:         5000",
    c!"# number of iteration in a batch before judging should a swap be taken",
    c!"n_iter_a_batch_base:    20",
    c!"# random +/- range of n-iter-a-batch-base (must < n-iter-a-batch-base)",
    c!"n_iter_a_batch_rand:    5",
    c!"# Number of swaping propose will be tested",
    c!"N_swap:                 1",
    c!"# neighbor swap (0) or random swap (1)  ",
    c!"Swapmode:               0",
    [],
    c!"# tuning the proposals ",
    c!"# stop the tuning after N-stoptune",
    c!"N_stoptune:             1000000",
    c!"# begin the tuning after N-stoptune",
    c!"N_begintune:            300000",
    c!"#",
    c!"# the N-iteration in tuning sigma_prop",
    c!"n_iter_in_tune:         3000",
    c!"# the lower boundary ok accept rate  ",
    c!"ar_ok_lower:            0.10",
    c!"# the upper boundary ok accept rate  ",
    c!"ar_ok_upper:            0.45",
    c!"# the best ar",
    c!"ar_best:                0.23",
    c!"# the maximum diff for an acceptable ar",
    c!"ar_accept_diff:         0.1",
    c!"#",
    c!"sigma_scale_half_ratio: 20",
    c!"#",
    [],
    c!"# set the range of sigma (check the set_sigma_range function in readin.c)",
    c!"sigma_scale_min:        0.0000000005",
    c!"sigma_scale_max:        0.2",
    c!"# reset the sigma in the range if out of the min/max boundary",
    c!"sigma_jumpin_ratio:     300",
    [],
    c!"# save the chain starting from (burning)",
    c!"i_save_begin:           0",
    [],
    c!"# initial random seed(rolling in mpi), set it <= 0 to use system time ",
    c!"init_rand_seed:         20 ",
    c!"# ratio of the init gaussian_proposal_sigma to the allowed prior range",
    c!"init_gp_ratio:          0.001",
    [],
    [],
    c!"# prior ",
    c!"a_min:              -5.12",
    c!"a_max:              5.12",
    c!"b_min:              -5.120",
    c!"b_max:              5.120",
    c!"c_min:              -5.120",
    c!"c_max:              5.120",
    c!"d_min:              -5.120",
    c!"d_max:              5.120",
    c!"f_min:              -5.120",
    c!"f_max:              5.120",
    [],
    [],
    c!"# file name of output",
    c!"Fout_Len: \t    100",
    c!"FoutPre: \t    chain",
    c!"FoutSuf: \t    .dat",
    c!"results_dir: \t    results082900 ",
    [],
    [],
    c!"# about the datafile ",
    c!"# set delimiter as \"blank\" if data is seperated as \" \"",
    c!"Data_file:           xy.dat",
    c!"ndim_data:           2",
    c!"Delimiter:           blank           ",
    [],
    [],
    [],
    []]
  comments := [c!"/* we use \"para_name\"+\":\" to search input parameters. */",
    c!"/* NOTE: the \"para_name\" str should no appear in comments */",
    [],
    c!"# setting the chain grid",
    c!"# NOTE: N-beta == n-ranks since we set n-ranks based on N-beta, should at least be 2",
    c!"#:            0.001, 0.002, 0.003, 1",
    [],
    c!"# tune the temperature or not",
    c!"# ladder tuning parameters",
    c!"# scale parameters of ladder tuning",
    c!"# in case zero swap ar occurs",
    [],
    c!"#",
    [],
    c!"# test case",
    c!"#",
    c!"# set total N-iteration in a stack of batches",
    c!"# number of iteration in a batch before judging should a swap be taken",
    c!"# random +/- range of n-iter-a-batch-base (must < n-iter-a-batch-base)",
    c!"# Number of swaping propose will be tested",
    c!"# neighbor swap (0) or random swap (1)  ",
    [],
    c!"# tuning the proposals ",
    c!"# stop the tuning after N-stoptune",
    c!"# begin the tuning after N-stoptune",
    c!"#",
    c!"# the N-iteration in tuning sigma_prop",
    c!"# the lower boundary ok accept rate  ",
    c!"# the upper boundary ok accept rate  ",
    c!"# the best ar",
    c!"# the maximum diff for an acceptable ar",
    c!"#",
    c!"#",
    [],
    c!"# set the range of sigma (check the set_sigma_range function in readin.c)",
    c!"# reset the sigma in the range if out of the min/max boundary",
    [],
    c!"# save the chain starting from (burning)",
    [],
    c!"# initial random seed(rolling in mpi), set it <= 0 to use system time ",
    c!"# ratio of the init gaussian_proposal_sigma to the allowed prior range",
    [],
    [],
    c!"# prior ",
    [],
    [],
    c!"# file name of output",
    [],
    [],
    c!"# about the datafile ",
    c!"# set delimiter as \"blank\" if data is seperated as \" \"",
    [],
    [],
    [],
    []]
  settings :=
    { nParm := ⟨.none, [5]⟩
      nIter := ⟨.none, [2, 0, 0, 0, 0, 0, 0]⟩
      nStoptune := ⟨.none, [1, 0, 0, 0, 0, 0, 0]⟩
      nBegintune := ⟨.none, [3, 0, 0, 0, 0, 0]⟩
      tuneLadder := ⟨.none, [1]⟩
      nStopTuneLadder := ⟨.none, [3, 0, 0, 0, 0, 0]⟩
      scaleLadder := ⟨.none, [0], some [9], none⟩
      zeroStretch := ⟨.none, [0], some [3], none⟩
      nBeta := ⟨.none, [4]⟩
      foutLen := ⟨.none, [1, 0, 0]⟩
      foutPre := c!"chain"
      foutSuf := c!".dat"
      resultsDir := c!"results082900"
      beta0 := ⟨.none, [0], some [0, 0, 1], none⟩
      betas := [(c!" ", ⟨.none, [0], some [0, 0, 2], none⟩), (c!" ", ⟨.none, [0], some [0, 0, 3], none⟩), (c!" ", ⟨.none, [1], none, none⟩)]
      dataFile := c!"xy.dat"
      ndim := ⟨.none, [2]⟩
      delimiter := c!"blank"
      initGpRatio := ⟨.none, [0], some [0, 0, 1], none⟩
      initSeed := ⟨.none, [2, 0]⟩
      saveBegin := ⟨.none, [0]⟩
      nStack := ⟨.none, [5, 0, 0, 0]⟩
      base := ⟨.none, [2, 0]⟩
      rand := ⟨.none, [5]⟩
      nIterInTune := ⟨.none, [3, 0, 0, 0]⟩
      arLower := ⟨.none, [0], some [1, 0], none⟩
      arUpper := ⟨.none, [0], some [4, 5], none⟩
      arBest := ⟨.none, [0], some [2, 3], none⟩
      arAcceptDiff := ⟨.none, [0], some [1], none⟩
      halfRatio := ⟨.none, [2, 0], none, none⟩
      scaleMin := ⟨.none, [0], some [0, 0, 0, 0, 0, 0, 0, 0, 0, 5], none⟩
      scaleMax := ⟨.none, [0], some [2], none⟩
      jumpin := ⟨.none, [3, 0, 0], none, none⟩
      nSwap := ⟨.none, [1]⟩
      swapmode := ⟨.none, [0]⟩ }
  ranges := [(⟨.minus, [5], some [1, 2], none⟩, ⟨.none, [5], some [1, 2], none⟩), (⟨.minus, [5], some [1, 2, 0], none⟩, ⟨.none, [5], some [1, 2, 0], none⟩), (⟨.minus, [5], some [1, 2, 0], none⟩, ⟨.none, [5], some [1, 2, 0], none⟩), (⟨.minus, [5], some [1, 2, 0], none⟩, ⟨.none, [5], some [1, 2, 0], none⟩), (⟨.minus, [5], some [1, 2, 0], none⟩, ⟨.none, [5], some [1, 2, 0], none⟩)]
  space := [(c!"N_iter", c!"                 ", []),
    (c!"N_beta", c!"\t                ", []),
    (c!"Beta_Values", c!"            ", []),
    (c!"Tune_Ladder", c!"            ", []),
    (c!"N_stopTuneLadder", c!"       ", []),
    (c!"scale_tune_ladder", c!"      ", []),
    (c!"zero_stretch", c!"           ", []),
    (c!"N_parm", c!"     \t        ", c!"  "),
    (c!"n_iter_a_stack", c!"         ", []),
    (c!"n_iter_a_batch_base", c!"    ", []),
    (c!"n_iter_a_batch_rand", c!"    ", []),
    (c!"N_swap", c!"                 ", []),
    (c!"Swapmode", c!"               ", []),
    (c!"N_stoptune", c!"             ", []),
    (c!"N_begintune", c!"            ", []),
    (c!"n_iter_in_tune", c!"         ", []),
    (c!"ar_ok_lower", c!"            ", []),
    (c!"ar_ok_upper", c!"            ", []),
    (c!"ar_best", c!"                ", []),
    (c!"ar_accept_diff", c!"         ", []),
    (c!"sigma_scale_half_ratio", c!" ", []),
    (c!"sigma_scale_min", c!"        ", []),
    (c!"sigma_scale_max", c!"        ", []),
    (c!"sigma_jumpin_ratio", c!"     ", []),
    (c!"i_save_begin", c!"           ", []),
    (c!"init_rand_seed", c!"         ", c!" "),
    (c!"init_gp_ratio", c!"          ", []),
    (c!"a_min", c!"              ", []),
    (c!"a_max", c!"              ", []),
    (c!"b_min", c!"              ", []),
    (c!"b_max", c!"              ", []),
    (c!"c_min", c!"              ", []),
    (c!"c_max", c!"              ", []),
    (c!"d_min", c!"              ", []),
    (c!"d_max", c!"              ", []),
    (c!"f_min", c!"              ", []),
    (c!"f_max", c!"              ", []),
    (c!"Fout_Len", c!" \t    ", []),
    (c!"FoutPre", c!" \t    ", []),
    (c!"FoutSuf", c!" \t    ", []),
    (c!"results_dir", c!" \t    ", c!" "),
    (c!"Data_file", c!"           ", []),
    (c!"ndim_data", c!"           ", []),
    (c!"Delimiter", c!"           ", c!"           ")]

/-- models/rastrigin/input.ini_noTune_Ladder_Tune_Proporal -/
def rastriginSampleC : Sample where
  lines := [c!"/* we use \"para_name\"+\":\" to search input parameters. */",
    c!"/* NOTE: the \"para_name\" str should no appear in comments */",
    [],
    c!"# setting the chain grid",
    c!"N_iter:                 2000000",
    c!"# NOTE: N-beta == n-ranks since we set n-ranks based on N-beta, should at least be 2",
    c!"N_beta:\t                4",
    c!"Beta_Values:            0.001, 0.002, 0.003, 1",
    c!"#:            0.001, 0.002, 0.003, 1",
    [],
    c!"# tune the temperature or not",
    c!"Tune_Ladder:            0",
    c!"N_stopTuneLadder:       300000",
    c!"# ladder tuning parameters",
    c!"# scale parameters of ladder tuning",
    c!"scale_tune_ladder:      0.9",
    c!"# in case zero swap ar occurs",
    c!"zero_stretch:           0.3",
    [],
    c!"#",
    [],
    c!"# test case",
    c!"N_parm:     \t        5  ",
    c!"#",
    c!"# set total N-iteration in a stack of batches",
    c!"n_iter_a_stack:         5000",
    c!"# number of iteration in a batch before judging should a swap be taken",
    c!"n_iter_a_batch_base:    20",
    c!"# random +/- range of n-iter-a-batch-base (must < n-iter-a-batch-base)",
    c!"n_iter_a_batch_rand:    5",
    c!"# Number of swaping propose will be tested",
    c!"N_swap:                 1",
    c!"# neighbor swap (0) or random swap (1)  ",
    c!"Swapmode:               0",
    [],
    c!"# tuning the proposals ",
    c!"# stop the tuning after N-stoptune",
    c!"N_stoptune:             1000000",
    c!"# begin the tuning after N-stoptune",
    c!"N_begintune:            300000",
    c!"#",
    c!"# the N-iteration in tuning sigma_prop",
    c!"n_iter_in_tune:         3000",
    c!"# the lower boundary ok accept rate  ",
    c!"ar_ok_lower:            0.10",
    c!"# the upper boundary ok accept rate  ",
    c!"ar_ok_upper:            0.45",
    c!"# the best ar",
    c!"ar_best:                0.23",
    c!"# the maximum diff for an acceptable ar",
    c!"ar_accept_diff:         0.1",
    c!"#",
    c!"sigma_scale_half_ratio: 20",
    c!"#",
    [],
    c!"# set the range of sigma (check the set_sigma_range function in readin.c)",
    c!"sigma_scale_min:        0.0000000005",
    c!"sigma_scale_max:        0.2",
    c!"# reset the sigma in the range if out of the min/max boundary",
    c!"sigma_jumpin_ratio:     300",
    [],
    c!"# save the chain starting from (burning)",
    c!"i_save_begin:           0",
    [],
    c!"# initial random seed(rolling in mpi), set it <= 0 to use system time ",
    c!"init_rand_seed:         20 ",
    c!"# ratio of the init gaussian_proposal_sigma to the allowed prior range",
    c!"init_gp_ratio:          0.001",
    [],
    [],
    c!"# prior ",
    c!"a_min:              -5.12",
    c!"a_max:              5.12",
    c!"b_min:              -5.120",
    c!"b_max:              5.120",
    c!"c_min:              -5.120",
    c!"c_max:              5.120",
    c!"d_min:              -5.120",
    c!"d_max:              5.120",
    c!"f_min:              -5.120",
    c!"f_max:              5.120",
    [],
    [],
    c!"# file name of output",
    c!"Fout_Len: \t    100",
    c!"FoutPre: \t    chain",
    c!"FoutSuf: \t    .dat",
    c!"results_dir: \t    results082900 ",
    [],
    [],
    c!"# about the datafile ",
    c!"# set delimiter as \"blank\" if data is seperated as \" \"",
    c!"Data_file:           xy.dat",
    c!"ndim_data:           2",
    c!"Delimiter:           blank           ",
    [],
    [],
    [],
    []]
  comments := [c!"/* we use \"para_name\"+\":\" to search input parameters. */",
    c!"/* NOTE: the \"para_name\" str should no appear in comments */",
    [],
    c!"# setting the chain grid",
    c!"# NOTE: N-beta == n-ranks since we set n-ranks based on N-beta, should at least be 2",
    c!"#:            0.001, 0.002, 0.003, 1",
    [],
    c!"# tune the temperature or not",
    c!"# ladder tuning parameters",
    c!"# scale parameters of ladder tuning",
    c!"# in case zero swap ar occurs",
    [],
    c!"#",
    [],
    c!"# test case",
    c!"#",
    c!"# set total N-iteration in a stack of batches",
    c!"# number of iteration in a batch before judging should a swap be taken",
    c!"# random +/- range of n-iter-a-batch-base (must < n-iter-a-batch-base)",
    c!"# Number of swaping propose will be tested",
    c!"# neighbor swap (0) or random swap (1)  ",
    [],
    c!"# tuning the proposals ",
    c!"# stop the tuning after N-stoptune",
    c!"# begin the tuning after N-stoptune",
    c!"#",
    c!"# the N-iteration in tuning sigma_prop",
    c!"# the lower boundary ok accept rate  ",
    c!"# the upper boundary ok accept rate  ",
    c!"# the best ar",
    c!"# the maximum diff for an acceptable ar",
    c!"#",
    c!"#",
    [],
    c!"# set the range of sigma (check the set_sigma_range function in readin.c)",
    c!"# reset the sigma in the range if out of the min/max boundary",
    [],
    c!"# save the chain starting from (burning)",
    [],
    c!"# initial random seed(rolling in mpi), set it <= 0 to use system time ",
    c!"# ratio of the init gaussian_proposal_sigma to the allowed prior range",
    [],
    [],
    c!"# prior ",
    [],
    [],
    c!"# file name of output",
    [],
    [],
    c!"# about the datafile ",
    c!"# set delimiter as \"blank\" if data is seperated as \" \"",
    [],
    [],
    [],
    []]
  settings :=
    { nParm := ⟨.none, [5]⟩
      nIter := ⟨.none, [2, 0, 0, 0, 0, 0, 0]⟩
      nStoptune := ⟨.none, [1, 0, 0, 0, 0, 0, 0]⟩
      nBegintune := ⟨.none, [3, 0, 0, 0, 0, 0]⟩
      tuneLadder := ⟨.none, [0]⟩
      nStopTuneLadder := ⟨.none, [3, 0, 0, 0, 0, 0]⟩
      scaleLadder := ⟨.none, [0], some [9], none⟩
      zeroStretch := ⟨.none, [0], some [3], none⟩
      nBeta := ⟨.none, [4]⟩
      foutLen := ⟨.none, [1, 0, 0]⟩
      foutPre := c!"chain"
      foutSuf := c!".dat"
      resultsDir := c!"results082900"
      beta0 := ⟨.none, [0], some [0, 0, 1], none⟩
      betas := [(c!" ", ⟨.none, [0], some [0, 0, 2], none⟩), (c!" ", ⟨.none, [0], some [0, 0, 3], none⟩), (c!" ", ⟨.none, [1], none, none⟩)]
      dataFile := c!"xy.dat"
      ndim := ⟨.none, [2]⟩
      delimiter := c!"blank"
      initGpRatio := ⟨.none, [0], some [0, 0, 1], none⟩
      initSeed := ⟨.none, [2, 0]⟩
      saveBegin := ⟨.none, [0]⟩
      nStack := ⟨.none, [5, 0, 0, 0]⟩
      base := ⟨.none, [2, 0]⟩
      rand := ⟨.none, [5]⟩
      nIterInTune := ⟨.none, [3, 0, 0, 0]⟩
      arLower := ⟨.none, [0], some [1, 0], none⟩
      arUpper := ⟨.none, [0], some [4, 5], none⟩
      arBest := ⟨.none, [0], some [2, 3], none⟩
      arAcceptDiff := ⟨.none, [0], some [1], none⟩
      halfRatio := ⟨.none, [2, 0], none, none⟩
      scaleMin := ⟨.none, [0], some [0, 0, 0, 0, 0, 0, 0, 0, 0, 5], none⟩
      scaleMax := ⟨.none, [0], some [2], none⟩
      jumpin := ⟨.none, [3, 0, 0], none, none⟩
      nSwap := ⟨.none, [1]⟩
      swapmode := ⟨.none, [0]⟩ }
  ranges := [(⟨.minus, [5], some [1, 2], none⟩, ⟨.none, [5], some [1, 2], none⟩), (⟨.minus, [5], some [1, 2, 0], none⟩, ⟨.none, [5], some [1, 2, 0], none⟩), (⟨.minus, [5], some [1, 2, 0], none⟩, ⟨.none, [5], some [1, 2, 0], none⟩), (⟨.minus, [5], some [1, 2, 0], none⟩, ⟨.none, [5], some [1, 2, 0], none⟩), (⟨.minus, [5], some [1, 2, 0], none⟩, ⟨.none, [5], some [1, 2, 0], none⟩)]
  space := [(c!"N_iter", c!"                 ", []),
    (c!"N_beta", c!"\t                ", []),
    (c!"Beta_Values", c!"            ", []),
    (c!"Tune_Ladder", c!"            ", []),
    (c!"N_stopTuneLadder", c!"       ", []),
    (c!"scale_tune_ladder", c!"      ", []),
    (c!"zero_stretch", c!"           ", []),
    (c!"N_parm", c!"     \t        ", c!"  "),
    (c!"n_iter_a_stack", c!"         ", []),
    (c!"n_iter_a_batch_base", c!"    ", []),
    (c!"n_iter_a_batch_rand", c!"    ", []),
    (c!"N_swap", c!"                 ", []),
    (c!"Swapmode", c!"               ", []),
    (c!"N_stoptune", c!"             ", []),
    (c!"N_begintune", c!"            ", []),
    (c!"n_iter_in_tune", c!"         ", []),
    (c!"ar_ok_lower", c!"            ", []),
    (c!"ar_ok_upper", c!"            ", []),
    (c!"ar_best", c!"                ", []),
    (c!"ar_accept_diff", c!"         ", []),
    (c!"sigma_scale_half_ratio", c!" ", []),
    (c!"sigma_scale_min", c!"        ", []),
    (c!"sigma_scale_max", c!"        ", []),
    (c!"sigma_jumpin_ratio", c!"     ", []),
    (c!"i_save_begin", c!"           ", []),
    (c!"init_rand_seed", c!"         ", c!" "),
    (c!"init_gp_ratio", c!"          ", []),
    (c!"a_min", c!"              ", []),
    (c!"a_max", c!"              ", []),
    (c!"b_min", c!"              ", []),
    (c!"b_max", c!"              ", []),
    (c!"c_min", c!"              ", []),
    (c!"c_max", c!"              ", []),
    (c!"d_min", c!"              ", []),
    (c!"d_max", c!"              ", []),
    (c!"f_min", c!"              ", []),
    (c!"f_max", c!"              ", []),
    (c!"Fout_Len", c!" \t    ", []),
    (c!"FoutPre", c!" \t    ", []),
    (c!"FoutSuf", c!" \t    ", []),
    (c!"results_dir", c!" \t    ", c!" "),
    (c!"Data_file", c!"           ", []),
    (c!"ndim_data", c!"           ", []),
    (c!"Delimiter", c!"           ", c!"           ")]

/-- models/rastrigin/input.ini_noTune_Ladder_noTune_Proporal -/
def rastriginSampleD : Sample where
  lines := [c!"/* we use \"para_name\"+\":\" to search input parameters. */",
    c!"/* NOTE: the \"para_name\" str should no appear in comments */",
    [],
    c!"# setting the chain grid",
    c!"N_iter:                 2000000",
    c!"# NOTE: N-beta == n-ranks since we set n-ranks based on N-beta, should at least be 2",
    c!"N_beta:\t                4",
    c!"Beta_Values:            0.001, 0.002, 0.003, 1",
    [],
    c!"# tune the temperature or not",
    c!"Tune_Ladder:            0",
    c!"N_stopTuneLadder:       500000",
    c!"# ladder tuning parameters",
    c!"# scale parameters of ladder tuning",
    c!"scale_tune_ladder:      0.2",
    c!"# in case zero swap ar occurs",
    c!"zero_stretch:           0.1",
    [],
    c!"#",
    [],
    c!"# test case",
    c!"N_parm:     \t        5  ",
    c!"#",
    c!"# set total N-iteration in a stack of batches",
    c!"n_iter_a_stack:         5000",
    c!"# number of iteration in a batch before judging should a swap be taken",
    c!"n_iter_a_batch_base:    20",
    c!"# random +/- range of n-iter-a-batch-base (must < n-iter-a-batch-base)",
    c!"n_iter_a_batch_rand:    5",
    c!"# Number of swaping propose will be tested",
    c!"N_swap:                 1",
    c!"# neighbor swap (0) or random swap (1)  ",
    c!"Swapmode:               0",
    [],
    c!"# tuning the proposals ",
    c!"# stop the tuning after N-stoptune",
    c!"N_stoptune:             000000",
    c!"# begin the tuning after N-stoptune",
    c!"N_begintune:            500000",
    c!"#",
    c!"# the N-iteration in tuning sigma_prop",
    c!"n_iter_in_tune:         3000",
    c!"# the lower boundary ok accept rate  ",
    c!"ar_ok_lower:            0.10",
    c!"# the upper boundary ok accept rate  ",
    c!"ar_ok_upper:            0.45",
    c!"# the best ar",
    c!"ar_best:                0.23",
    c!"# the maximum diff for an acceptable ar",
    c!"ar_accept_diff:         0.1",
    c!"#",
    c!"sigma_scale_half_ratio: 20",
    c!"#",
    [],
    c!"# set the range of sigma (check the set_sigma_range function in readin.c)",
    c!"sigma_scale_min:        0.0000000005",
    c!"sigma_scale_max:        0.2",
    c!"# reset the sigma in the range if out of the min/max boundary",
    c!"sigma_jumpin_ratio:     300",
    [],
    c!"# save the chain starting from (burning)",
    c!"i_save_begin:           0",
    [],
    c!"# initial random seed(rolling in mpi), set it <= 0 to use system time ",
    c!"init_rand_seed:         20 ",
    c!"# ratio of the init gaussian_proposal_sigma to the allowed prior range",
    c!"init_gp_ratio:          0.001",
    [],
    [],
    c!"# prior ",
    c!"a_min:              -5.12",
    c!"a_max:              5.12",
    c!"b_min:              -5.120",
    c!"b_max:              5.120",
    c!"c_min:              -5.120",
    c!"c_max:              5.120",
    c!"d_min:              -5.120",
    c!"d_max:              5.120",
    c!"f_min:              -5.120",
    c!"f_max:              5.120",
    [],
    [],
    c!"# file name of output",
    c!"Fout_Len: \t    100",
    c!"FoutPre: \t    chain",
    c!"FoutSuf: \t    .dat",
    c!"results_dir: \t    results082900 ",
    [],
    [],
    c!"# about the datafile ",
    c!"# set delimiter as \"blank\" if data is seperated as \" \"",
    c!"Data_file:           xy.dat",
    c!"ndim_data:           2",
    c!"Delimiter:           blank           ",
    [],
    [],
    [],
    []]
  comments := [c!"/* we use \"para_name\"+\":\" to search input parameters. */",
    c!"/* NOTE: the \"para_name\" str should no appear in comments */",
    [],
    c!"# setting the chain grid",
    c!"# NOTE: N-beta == n-ranks since we set n-ranks based on N-beta, should at least be 2",
    [],
    c!"# tune the temperature or not",
    c!"# ladder tuning parameters",
    c!"# scale parameters of ladder tuning",
    c!"# in case zero swap ar occurs",
    [],
    c!"#",
    [],
    c!"# test case",
    c!"#",
    c!"# set total N-iteration in a stack of batches",
    c!"# number of iteration in a batch before judging should a swap be taken",
    c!"# random +/- range of n-iter-a-batch-base (must < n-iter-a-batch-base)",
    c!"# Number of swaping propose will be tested",
    c!"# neighbor swap (0) or random swap (1)  ",
    [],
    c!"# tuning the proposals ",
    c!"# stop the tuning after N-stoptune",
    c!"# begin the tuning after N-stoptune",
    c!"#",
    c!"# the N-iteration in tuning sigma_prop",
    c!"# the lower boundary ok accept rate  ",
    c!"# the upper boundary ok accept rate  ",
    c!"# the best ar",
    c!"# the maximum diff for an acceptable ar",
    c!"#",
    c!"#",
    [],
    c!"# set the range of sigma (check the set_sigma_range function in readin.c)",
    c!"# reset the sigma in the range if out of the min/max boundary",
    [],
    c!"# save the chain starting from (burning)",
    [],
    c!"# initial random seed(rolling in mpi), set it <= 0 to use system time ",
    c!"# ratio of the init gaussian_proposal_sigma to the allowed prior range",
    [],
    [],
    c!"# prior ",
    [],
    [],
    c!"# file name of output",
    [],
    [],
    c!"# about the datafile ",
    c!"# set delimiter as \"blank\" if data is seperated as \" \"",
    [],
    [],
    [],
    []]
  settings :=
    { nParm := ⟨.none, [5]⟩
      nIter := ⟨.none, [2, 0, 0, 0, 0, 0, 0]⟩
      nStoptune := ⟨.none, [0, 0, 0, 0, 0, 0]⟩
      nBegintune := ⟨.none, [5, 0, 0, 0, 0, 0]⟩
      tuneLadder := ⟨.none, [0]⟩
      nStopTuneLadder := ⟨.none, [5, 0, 0, 0, 0, 0]⟩
      scaleLadder := ⟨.none, [0], some [2], none⟩
      zeroStretch := ⟨.none, [0], some [1], none⟩
      nBeta := ⟨.none, [4]⟩
      foutLen := ⟨.none, [1, 0, 0]⟩
      foutPre := c!"chain"
      foutSuf := c!".dat"
      resultsDir := c!"results082900"
      beta0 := ⟨.none, [0], some [0, 0, 1], none⟩
      betas := [(c!" ", ⟨.none, [0], some [0, 0, 2], none⟩), (c!" ", ⟨.none, [0], some [0, 0, 3], none⟩), (c!" ", ⟨.none, [1], none, none⟩)]
      dataFile := c!"xy.dat"
      ndim := ⟨.none, [2]⟩
      delimiter := c!"blank"
      initGpRatio := ⟨.none, [0], some [0, 0, 1], none⟩
      initSeed := ⟨.none, [2, 0]⟩
      saveBegin := ⟨.none, [0]⟩
      nStack := ⟨.none, [5, 0, 0, 0]⟩
      base := ⟨.none, [2, 0]⟩
      rand := ⟨.none, [5]⟩
      nIterInTune := ⟨.none, [3, 0, 0, 0]⟩
      arLower := ⟨.none, [0], some [1, 0], none⟩
      arUpper := ⟨.none, [0], some [4, 5], none⟩
      arBest := ⟨.none, [0], some [2, 3], none⟩
      arAcceptDiff := ⟨.none, [0], some [1], none⟩
      halfRatio := ⟨.none, [2, 0], none, none⟩
      scaleMin := ⟨.none, [0], some [0, 0, 0, 0, 0, 0, 0, 0, 0, 5], none⟩
      scaleMax := ⟨.none, [0], some [2], none⟩
      jumpin := ⟨.none, [3, 0, 0], none, none⟩
      nSwap := ⟨.none, [1]⟩
      swapmode := ⟨.none, [0]⟩ }
  ranges := [(⟨.minus, [5], some [1, 2], none⟩, ⟨.none, [5], some [1, 2], none⟩), (⟨.minus, [5], some [1, 2, 0], none⟩, ⟨.none, [5], some [1, 2, 0], none⟩), (⟨.minus, [5], some [1, 2, 0], none⟩, ⟨.none, [5], some [1, 2, 0], none⟩), (⟨.minus, [5], some [1, 2, 0], none⟩, ⟨.none, [5], some [1, 2, 0], none⟩), (⟨.minus, [5], some [1, 2, 0], none⟩, ⟨.none, [5], some [1, 2, 0], none⟩)]
  space := [(c!"N_iter", c!"                 ", []),
    (c!"N_beta", c!"\t                ", []),
    (c!"Beta_Values", c!"            ", []),
    (c!"Tune_Ladder", c!"            ", []),
    (c!"N_stopTuneLadder", c!"       ", []),
    (c!"scale_tune_ladder", c!"      ", []),
    (c!"zero_stretch", c!"           ", []),
    (c!"N_parm", c!"     \t        ", c!"  "),
    (c!"n_iter_a_stack", c!"         ", []),
    (c!"n_iter_a_batch_base", c!"    ", []),
    (c!"n_iter_a_batch_rand", c!"    ", []),
    (c!"N_swap", c!"                 ", []),
    (c!"Swapmode", c!"               ", []),
    (c!"N_stoptune", c!"             ", []),
    (c!"N_begintune", c!"            ", []),
    (c!"n_iter_in_tune", c!"         ", []),
    (c!"ar_ok_lower", c!"            ", []),
    (c!"ar_ok_upper", c!"            ", []),
    (c!"ar_best", c!"                ", []),
    (c!"ar_accept_diff", c!"         ", []),
    (c!"sigma_scale_half_ratio", c!" ", []),
    (c!"sigma_scale_min", c!"        ", []),
    (c!"sigma_scale_max", c!"        ", []),
    (c!"sigma_jumpin_ratio", c!"     ", []),
    (c!"i_save_begin", c!"           ", []),
    (c!"init_rand_seed", c!"         ", c!" "),
    (c!"init_gp_ratio", c!"          ", []),
    (c!"a_min", c!"              ", []),
    (c!"a_max", c!"              ", []),
    (c!"b_min", c!"              ", []),
    (c!"b_max", c!"              ", []),
    (c!"c_min", c!"              ", []),
    (c!"c_max", c!"              ", []),
    (c!"d_min", c!"              ", []),
    (c!"d_max", c!"              ", []),
    (c!"f_min", c!"              ", []),
    (c!"f_max", c!"              ", []),
    (c!"Fout_Len", c!" \t    ", []),
    (c!"FoutPre", c!" \t    ", []),
    (c!"FoutSuf", c!" \t    ", []),
    (c!"results_dir", c!" \t    ", c!" "),
    (c!"Data_file", c!"           ", []),
    (c!"ndim_data", c!"           ", []),
    (c!"Delimiter", c!"           ", c!"           ")]

/-- models/eggbox/input.ini -/
def eggboxSample : Sample where
  lines := [c!"/* we use \"para_name\"+\":\" to search input parameters. */",
    c!"/* NOTE: the \"para_name\" str should no appear in comments */",
    [],
    c!"# setting the chain grid",
    c!"N_iter:                 405000",
    c!"# NOTE: N-beta == n-ranks since we set n-ranks based on N-beta, should at least be 2",
    c!"N_beta:\t                15",
    c!"Beta_Values:            1.0, 1.0, 1.0, 1.0, 1.0, 1.0, 1.0, 1.0, 1.0, 1.0, 1.0, 1.0, 1.0, 1.0, 1.0",
    c!"#Beta   Values:            0.001, 0.01, 0.1, 1.0",
    [],
    [],
    c!"# tune the temperature or not",
    c!"Tune_Ladder:            0",
    c!"N_stopTuneLadder:       300000",
    c!"# ladder tuning parameters",
    c!"# scale parameters of ladder tuning",
    c!"scale_tune_ladder:      0.2",
    c!"# in case zero swap ar occurs",
    c!"zero_stretch:           0.1",
    [],
    c!"# test case, y=ax+b+noise(0,1)",
    c!"N_parm:     \t        2  ",
    c!"#",
    c!"# set total N-iteration in a stack of batches",
    c!"n_iter_a_stack:         500",
    c!"# 5000",
    c!"# number of iteration in a batch before judging should a swap be taken",
    c!"n_iter_a_batch_base:    2000",
    c!"# 20",
    c!"# random +/- range of n-iter-a-batch-base (must < n-iter-a-batch-base)",
    c!"n_iter_a_batch_rand:    5",
    c!"# Number of swaping propose will be tested",
    c!"N_swap:                 0",
    c!"# 1",
    c!"# neighbor swap (0) or random swap (1)  ",
    c!"Swapmode:               1",
    [],
    c!"# stop the tuning after N-stoptune",
    c!"N_stoptune:             0",
    c!"N_begintune:            100000000000",
    c!"# the N-iteration in tuning sigma_prop",
    c!"n_iter_in_tune:         1000",
    c!"# the lower boundary ok accept rate  ",
    c!"ar_ok_lower:            0.10",
    c!"# the upper boundary ok accept rate  ",
    c!"ar_ok_upper:            0.45",
    c!"# the best ar",
    c!"ar_best:                0.23",
    c!"# the maximum diff for an acceptable ar",
    c!"ar_accept_diff:         0.1",
    c!"#",
    c!"sigma_scale_half_ratio: 200",
    c!"#",
    c!"# set the range of sigma (check the set_sigma_range function in readin.c)",
    c!"sigma_scale_min:        0.0000000005",
    c!"sigma_scale_max:        0.2",
    c!"# reset the sigma in the range if out of the min/max boundary",
    c!"sigma_jumpin_ratio:     300",
    [],
    c!"# save the chain starting from (burning)",
    c!"i_save_begin:           5500",
    [],
    c!"# initial random seed(rolling in mpi), set it <= 0 to use system time ",
    c!"init_rand_seed:         20 ",
    c!"# ratio of the init gaussian_proposal_sigma to the allowed prior range",
    c!"init_gp_ratio:          0.1",
    [],
    [],
    c!"# prior ",
    c!"a_min:              0",
    c!"a_max:              50",
    c!"b_min:              0",
    c!"b_max:              50",
    [],
    [],
    c!"# file name of output",
    c!"Fout_Len: \t    100",
    c!"FoutPre: \t    chain",
    c!"FoutSuf: \t    .dat",
    c!"results_dir: \t    results",
    [],
    [],
    c!"# about the datafile ",
    c!"# set delimiter as \"blank\" if data is seperated as \" \"",
    c!"Data_file:           xy.dat",
    c!"ndim_data:           2",
    c!"Delimiter:           blank           ",
    [],
    [],
    [],
    [],
    []]
  comments := [c!"/* we use \"para_name\"+\":\" to search input parameters. */",
    c!"/* NOTE: the \"para_name\" str should no appear in comments */",
    [],
    c!"# setting the chain grid",
    c!"# NOTE: N-beta == n-ranks since we set n-ranks based on N-beta, should at least be 2",
    c!"#Beta   Values:            0.001, 0.01, 0.1, 1.0",
    [],
    [],
    c!"# tune the temperature or not",
    c!"# ladder tuning parameters",
    c!"# scale parameters of ladder tuning",
    c!"# in case zero swap ar occurs",
    [],
    c!"# test case, y=ax+b+noise(0,1)",
    c!"#",
    c!"# set total N-iteration in a stack of batches",
    c!"# 5000",
    c!"# number of iteration in a batch before judging should a swap be taken",
    c!"# 20",
    c!"# random +/- range of n-iter-a-batch-base (must < n-iter-a-batch-base)",
    c!"# Number of swaping propose will be tested",
    c!"# 1",
    c!"# neighbor swap (0) or random swap (1)  ",
    [],
    c!"# stop the tuning after N-stoptune",
    c!"# the N-iteration in tuning sigma_prop",
    c!"# the lower boundary ok accept rate  ",
    c!"# the upper boundary ok accept rate  ",
    c!"# the best ar",
    c!"# the maximum diff for an acceptable ar",
    c!"#",
    c!"#",
    c!"# set the range of sigma (check the set_sigma_range function in readin.c)",
    c!"# reset the sigma in the range if out of the min/max boundary",
    [],
    c!"# save the chain starting from (burning)",
    [],
    c!"# initial random seed(rolling in mpi), set it <= 0 to use system time ",
    c!"# ratio of the init gaussian_proposal_sigma to the allowed prior range",
    [],
    [],
    c!"# prior ",
    [],
    [],
    c!"# file name of output",
    [],
    [],
    c!"# about the datafile ",
    c!"# set delimiter as \"blank\" if data is seperated as \" \"",
    [],
    [],
    [],
    [],
    []]
  settings :=
    { nParm := ⟨.none, [2]⟩
      nIter := ⟨.none, [4, 0, 5, 0, 0, 0]⟩
      nStoptune := ⟨.none, [0]⟩
      nBegintune := ⟨.none, [1, 0, 0, 0, 0, 0, 0, 0, 0, 0, 0, 0]⟩
      tuneLadder := ⟨.none, [0]⟩
      nStopTuneLadder := ⟨.none, [3, 0, 0, 0, 0, 0]⟩
      scaleLadder := ⟨.none, [0], some [2], none⟩
      zeroStretch := ⟨.none, [0], some [1], none⟩
      nBeta := ⟨.none, [1, 5]⟩
      foutLen := ⟨.none, [1, 0, 0]⟩
      foutPre := c!"chain"
      foutSuf := c!".dat"
      resultsDir := c!"results"
      beta0 := ⟨.none, [1], some [0], none⟩
      betas := [(c!" ", ⟨.none, [1], some [0], none⟩), (c!" ", ⟨.none, [1], some [0], none⟩), (c!" ", ⟨.none, [1], some [0], none⟩), (c!" ", ⟨.none, [1], some [0], none⟩), (c!" ", ⟨.none, [1], some [0], none⟩), (c!" ", ⟨.none, [1], some [0], none⟩), (c!" ", ⟨.none, [1], some [0], none⟩), (c!" ", ⟨.none, [1], some [0], none⟩), (c!" ", ⟨.none, [1], some [0], none⟩), (c!" ", ⟨.none, [1], some [0], none⟩), (c!" ", ⟨.none, [1], some [0], none⟩), (c!" ", ⟨.none, [1], some [0], none⟩), (c!" ", ⟨.none, [1], some [0], none⟩), (c!" ", ⟨.none, [1], some [0], none⟩)]
      dataFile := c!"xy.dat"
      ndim := ⟨.none, [2]⟩
      delimiter := c!"blank"
      initGpRatio := ⟨.none, [0], some [1], none⟩
      initSeed := ⟨.none, [2, 0]⟩
      saveBegin := ⟨.none, [5, 5, 0, 0]⟩
      nStack := ⟨.none, [5, 0, 0]⟩
      base := ⟨.none, [2, 0, 0, 0]⟩
      rand := ⟨.none, [5]⟩
      nIterInTune := ⟨.none, [1, 0, 0, 0]⟩
      arLower := ⟨.none, [0], some [1, 0], none⟩
      arUpper := ⟨.none, [0], some [4, 5], none⟩
      arBest := ⟨.none, [0], some [2, 3], none⟩
      arAcceptDiff := ⟨.none, [0], some [1], none⟩
      halfRatio := ⟨.none, [2, 0, 0], none, none⟩
      scaleMin := ⟨.none, [0], some [0, 0, 0, 0, 0, 0, 0, 0, 0, 5], none⟩
      scaleMax := ⟨.none, [0], some [2], none⟩
      jumpin := ⟨.none, [3, 0, 0], none, none⟩
      nSwap := ⟨.none, [0]⟩
      swapmode := ⟨.none, [1]⟩ }
  ranges := [(⟨.none, [0], none, none⟩, ⟨.none, [5, 0], none, none⟩), (⟨.none, [0], none, none⟩, ⟨.none, [5, 0], none, none⟩)]
  space := [(c!"N_iter", c!"                 ", []),
    (c!"N_beta", c!"\t                ", []),
    (c!"Beta_Values", c!"            ", []),
    (c!"Tune_Ladder", c!"            ", []),
    (c!"N_stopTuneLadder", c!"       ", []),
    (c!"scale_tune_ladder", c!"      ", []),
    (c!"zero_stretch", c!"           ", []),
    (c!"N_parm", c!"     \t        ", c!"  "),
    (c!"n_iter_a_stack", c!"         ", []),
    (c!"n_iter_a_batch_base", c!"    ", []),
    (c!"n_iter_a_batch_rand", c!"    ", []),
    (c!"N_swap", c!"                 ", []),
    (c!"Swapmode", c!"               ", []),
    (c!"N_stoptune", c!"             ", []),
    (c!"N_begintune", c!"            ", []),
    (c!"n_iter_in_tune", c!"         ", []),
    (c!"ar_ok_lower", c!"            ", []),
    (c!"ar_ok_upper", c!"            ", []),
    (c!"ar_best", c!"                ", []),
    (c!"ar_accept_diff", c!"         ", []),
    (c!"sigma_scale_half_ratio", c!" ", []),
    (c!"sigma_scale_min", c!"        ", []),
    (c!"sigma_scale_max", c!"        ", []),
    (c!"sigma_jumpin_ratio", c!"     ", []),
    (c!"i_save_begin", c!"           ", []),
    (c!"init_rand_seed", c!"         ", c!" "),
    (c!"init_gp_ratio", c!"          ", []),
    (c!"a_min", c!"              ", []),
    (c!"a_max", c!"              ", []),
    (c!"b_min", c!"              ", []),
    (c!"b_max", c!"              ", []),
    (c!"Fout_Len", c!" \t    ", []),
    (c!"FoutPre", c!" \t    ", []),
    (c!"FoutSuf", c!" \t    ", []),
    (c!"results_dir", c!" \t    ", []),
    (c!"Data_file", c!"           ", []),
    (c!"ndim_data", c!"           ", []),
    (c!"Delimiter", c!"           ", c!"           ")]

/-- The lines of models/fit_orbit/input.ini -/
def orbitSample : List Str :=
  [c!"/* we use \"para_name\"+\":\" to search input parameters. */",
    c!"/* NOTE: the \"para_name\" str should no appear in comments */",
    [],
    c!"# setting the chain grid",
    c!"N_iter:                 3000000",
    c!"# NOTE: N-beta == n-ranks since we set n-ranks based on N-beta, should at least be 2",
    c!"N_beta:\t                8",
    c!"Beta_Values:            0.01, 0.03, 0.1, 0.2, 1.0, 0.4, 0.1, 0.05",
    c!"# test case, y=ax+b+noise(0,1)",
    c!"N_parm:     \t        15  ",
    c!"#",
    c!"# set total N-iteration in a stack of batches",
    c!"n_iter_a_stack:         5000",
    c!"# number of iteration in a batch before judging should a swap be taken",
    c!"n_iter_a_batch_base:    20",
    c!"# random +/- range of n-iter-a-batch-base (must < n-iter-a-batch-base)",
    c!"n_iter_a_batch_rand:    5",
    c!"# Number of swaping propose will be tested",
    c!"N_swap:                 1",
    c!"# neighbor swap (0) or random swap (1)  ",
    c!"Swapmode:               0",
    [],
    c!"# stop the tuning after N-stoptune",
    c!"N_stoptune:             10000000",
    c!"# the N-iteration in tuning sigma_prop",
    c!"n_iter_in_tune:         1000",
    c!"# the lower boundary ok accept rate  ",
    c!"ar_ok_lower:            0.16",
    c!"# the upper boundary ok accept rate  ",
    c!"ar_ok_upper:            0.33",
    c!"# the best ar",
    c!"ar_best:                0.234",
    c!"# the maximum diff for an acceptable ar",
    c!"ar_accept_diff:         0.1",
    c!"#",
    c!"sigma_scale_half_ratio: 200",
    c!"#",
    c!"# set the range of sigma (check the set_sigma_range function in readin.c)",
    c!"sigma_scale_min:        0.00000000001",
    c!"sigma_scale_max:        0.2",
    c!"# reset the sigma in the range if out of the min/max boundary",
    c!"sigma_jumpin_ratio:     300",
    [],
    c!"# save the chain starting from (burning)",
    c!"i_save_begin:           500000",
    [],
    c!"# initial random seed(rolling in mpi), set it <= 0 to use system time ",
    c!"init_rand_seed:         20 ",
    c!"# ratio of the init gaussian_proposal_sigma to the allowed prior range",
    c!"init_gp_ratio:          0.1",
    [],
    [],
    c!"# file name of output",
    c!"Fout_Len: \t    100",
    c!"FoutPre: \t    chain",
    c!"FoutSuf: \t    .dat",
    c!"results_dir: \t    results082900 ",
    [],
    [],
    c!"# about the datafile ",
    c!"# set delimiter as \"blank\" if data is seperated as \" \"",
    c!"Data_file:           pdata.dat",
    c!"ndim_data:           2",
    c!"Delimiter:           blank           ",
    [],
    [],
    c!"########## Priors",
    c!"# NOTE: make sure para*_max > para*_min !",
    c!"#",
    c!"# cos(inclination)",
    c!"para0_max:    1.0",
    c!"para0_min:    0.0",
    c!"#",
    c!"# eccentricity",
    c!"para1_max:    0.5 ",
    c!"para1_min:    0.0",
    c!"#",
    c!"# an_Omega_max ",
    c!"para2_max:    360.0",
    c!"para2_min:    0.0",
    c!"#",
    c!"# p_omega_max ",
    c!"para3_max:    360.0 ",
    c!"para3_min:    0.0",
    c!"#",
    c!"# M0_max ",
    c!"para4_max:    360.0",
    c!"para4_min:    0.0",
    c!"#",
    c!"# planetary mass (Earth)",
    c!"para5_max:    1000",
    c!"para5_min:    0.1",
    c!"#",
    c!"# var(unknown error) in mu_as",
    c!"para6_max:   10.0",
    c!"para6_min:   0.1",
    c!"#",
    c!"# Period (days)",
    c!"para7_max:   3000.0 ",
    c!"para7_min:   0.5",
    c!"#",
    c!"# cos(inclination)",
    c!"para8_max:    1.0",
    c!"para8_min:    0.0",
    c!"#",
    c!"# eccentricity",
    c!"para9_max:   0.5",
    c!"para9_min:   0.0",
    c!"#",
    c!"# an_Omega_max ",
    c!"para10_max:  360.0 ",
    c!"para10_min:  0.0",
    c!"#",
    c!"# p_omega_max ",
    c!"para11_max:  360.0",
    c!"para11_min:  0.0",
    c!"#",
    c!"# M0_max ",
    c!"para12_max:  360.0",
    c!"para12_min:  0.0",
    c!"#",
    c!"# planetary mass (Earth)",
    c!"para13_max:  1000.0",
    c!"para13_min:  0.1",
    c!"#",
    c!"# Period (days)",
    c!"para14_max:  3000.0",
    c!"para14_min:  0.5",
    c!"#",
    [],
    [],
    []]

/-- The lines of models/hier_R/input.ini -/
def hierSample : List Str :=
  [c!"/* we use \"para_name\"+\":\" to search input parameters. */",
    c!"/* NOTE: the \"para_name\" str should no appear in comments */",
    [],
    c!"# setting the chain grid",
    c!"N_iter:                 10000000",
    c!"# NOTE: N-beta == n-ranks since we set n-ranks based on N-beta, should at least be 2",
    c!"N_beta:\t                4",
    c!"Beta_Values:            0.001, 0.01, 0.1, 1",
    c!"# test case, y=ax+b+noise(0,1)",
    c!"N_parm:     \t        6  ",
    c!"#",
    c!"# set total N-iteration in a stack of batches",
    c!"n_iter_a_stack:         5000",
    c!"# number of iteration in a batch before judging should a swap be taken",
    c!"n_iter_a_batch_base:    20",
    c!"# random +/- range of n-iter-a-batch-base (must < n-iter-a-batch-base)",
    c!"n_iter_a_batch_rand:    5",
    c!"# Number of swaping propose will be tested",
    c!"N_swap:                 1",
    c!"# neighbor swap (0) or random swap (1)  ",
    c!"Swapmode:               0",
    [],
    c!"# stop the tuning after N-stoptune",
    c!"N_stoptune:             5000000",
    c!"# the N-iteration in tuning sigma_prop",
    c!"n_iter_in_tune:         1000",
    c!"# the lower boundary ok accept rate  ",
    c!"ar_ok_lower:            0.10",
    c!"# the upper boundary ok accept rate  ",
    c!"ar_ok_upper:            0.45",
    c!"# the best ar",
    c!"ar_best:                0.23",
    c!"# the maximum diff for an acceptable ar",
    c!"ar_accept_diff:         0.1",
    c!"#",
    c!"sigma_scale_half_ratio: 20",
    c!"#",
    c!"# set the range of sigma (check the set_sigma_range function in readin.c)",
    c!"sigma_scale_min:        0.00005",
    c!"sigma_scale_max:        0.2",
    c!"# reset the sigma in the range if out of the min/max boundary",
    c!"sigma_jumpin_ratio:     300",
    [],
    c!"# save the chain starting from (burning)",
    c!"i_save_begin:           0",
    [],
    c!"# initial random seed(rolling in mpi), set it <= 0 to use system time ",
    c!"init_rand_seed:         20 ",
    c!"# ratio of the init gaussian_proposal_sigma to the allowed prior range",
    c!"init_gp_ratio:          0.1",
    [],
    [],
    c!"# file name of output",
    c!"Fout_Len: \t    100",
    c!"FoutPre: \t    chain",
    c!"FoutSuf: \t    .dat",
    c!"results_dir: \t    results082900 ",
    [],
    [],
    c!"# about the datafile ",
    c!"# set delimiter as \"blank\" if data is seperated as \" \"",
    c!"Data_file:           pdata_2_sections.dat",
    c!"ndim_data:           2",
    c!"Delimiter:           blank           ",
    [],
    [],
    c!"########## Priors",
    c!"gamma_mean:           3",
    c!"gamma_sd:             3",
    c!"gamma_max:            7",
    c!"gamma_min:            -4",
    [],
    c!"logC_max:             4",
    c!"logC_min:             -20",
    [],
    c!"log_lambda_Y_max:     4",
    c!"log_lambda_Y_min:     -12",
    c!"#     20",
    [],
    c!"gamma_lambda_Y_max:     20",
    c!"#     20",
    c!"gamma_lambda_Y_min:     -8",
    [],
    c!"log_lambda_Yobs_max:  6",
    c!"log_lambda_Yobs_min:  -7",
    [],
    c!"log_lambda_Xobs_max:  6",
    c!"log_lambda_Xobs_min:  -7",
    [],
    []]

end Samples
end NiiC
