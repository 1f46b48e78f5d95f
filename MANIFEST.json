{
 "claims": [
  {
   "property": "C01",
   "status": "proved",
   "theorems": [
    "NiiC.no_deadlock"
   ],
   "note": ""
  },
  {
   "property": "C02",
   "status": "proved",
   "theorems": [
    "NiiC.schedule_independent",
    "NiiC.schedule_independent_terminal"
   ],
   "note": ""
  },
  {
   "property": "C03",
   "status": "proved",
   "theorems": [
    "NiiC.no_fault",
    "NiiC.distributed_eq_sequential"
   ],
   "note": "A message that is not the one meant, or has another length, is a fault of the model; that the values received are those of the sequential program is distributed_eq_sequential."
  },
  {
   "property": "C04",
   "status": "proved",
   "theorems": [
    "NiiC.distributed_eq_sequential"
   ],
   "note": ""
  },
  {
   "property": "C05",
   "status": "proved",
   "theorems": [
    "NiiC.swap_helper_valid",
    "NiiC.swap_helper_one_rank"
   ],
   "note": ""
  },
  {
   "property": "C06",
   "status": "proved",
   "theorems": [
    "NiiC.batches_partition",
    "NiiC.stack_events",
    "NiiC.batch_can_be_empty"
   ],
   "note": ""
  },
  {
   "property": "C07",
   "status": "proved",
   "theorems": [
    "NiiC.iterations_exact",
    "NiiC.iterations_are_mh"
   ],
   "note": ""
  },
  {
   "property": "C08",
   "status": "proved",
   "theorems": [
    "NiiC.same_iteration"
   ],
   "note": ""
  },
  {
   "property": "C09",
   "status": "proved",
   "theorems": [
    "NiiC.batch_is_mh",
    "NiiC.batch_nonpositive"
   ],
   "note": ""
  },
  {
   "property": "C12",
   "status": "proved",
   "theorems": [
    "NiiC.batch_logpost"
   ],
   "note": ""
  },
  {
   "property": "C14",
   "status": "proved",
   "theorems": [
    "NiiC.chain_columns",
    "NiiC.step_columns"
   ],
   "note": ""
  },
  {
   "property": "C15",
   "status": "proved",
   "theorems": [
    "NiiC.saved_in_box",
    "NiiC.model_saved_in_box",
    "NiiC.model_saved_rounded"
   ],
   "note": ""
  },
  {
   "property": "C17",
   "status": "proved",
   "theorems": [
    "NiiC.chain_file"
   ],
   "note": ""
  },
  {
   "property": "C20",
   "status": "proved",
   "theorems": [
    "NiiC.swap_permutes",
    "NiiC.swaps_preserve_multiset"
   ],
   "note": ""
  },
  {
   "property": "C28",
   "status": "proved",
   "theorems": [
    "NiiC.ladder_frozen"
   ],
   "note": ""
  },
  {
   "property": "C29",
   "status": "proved",
   "theorems": [
    "NiiC.same_ladder"
   ],
   "note": ""
  },
  {
   "property": "C13",
   "status": "partial",
   "theorems": [
    "NiiC.lp_in_step_partial",
    "NiiC.lp_once_in_step_partial",
    "NiiC.lp_out_of_step"
   ],
   "note": "Proved for runs without ladder tuning. With ladder tuning every stored value belongs to an inverse temperature the chain has had, but not to the present one: lp_out_of_step gives a run in which every complete execution has a stale line."
  },
  {
   "property": "C18",
   "status": "proved",
   "theorems": [
    "NiiC.stack_rate_fraction",
    "NiiC.tune_rate_fraction"
   ],
   "note": ""
  },
  {
   "property": "C19",
   "status": "proved",
   "theorems": [
    "NiiC.swap_partners",
    "NiiC.run_swap_partners",
    "NiiC.swap_one_rank",
    "NiiC.swap_unknown_mode"
   ],
   "note": ""
  },
  {
   "property": "C22",
   "status": "proved",
   "theorems": [
    "NiiC.swap_tallies"
   ],
   "note": ""
  },
  {
   "property": "C23",
   "status": "partial",
   "theorems": [
    "NiiC.pair_rate_partial",
    "NiiC.pair_rate_mode1_wrong"
   ],
   "note": "modes 0 and 2 for adjacent pairs; in mode 1 the recorded rate is not a rate of one pair"
  },
  {
   "property": "C24",
   "status": "proved",
   "theorems": [
    "NiiC.ladder_ends_fixed"
   ],
   "note": ""
  },
  {
   "property": "C30",
   "status": "proved",
   "theorems": [
    "NiiC.run_rounds",
    "NiiC.nan_rate_is_tuned"
   ],
   "note": ""
  },
  {
   "property": "C31",
   "status": "proved",
   "theorems": [
    "NiiC.tuning_frame",
    "NiiC.widths_in_use"
   ],
   "note": ""
  },
  {
   "property": "C55",
   "status": "proved",
   "theorems": [
    "NiiC.one_writer"
   ],
   "note": ""
  },
  {
   "property": "C62",
   "status": "proved",
   "theorems": [
    "NiiC.mkdir_first"
   ],
   "note": ""
  },
  {
   "property": "C25",
   "status": "partial",
   "theorems": [
    "NiiC.ladder_positive_partial",
    "NiiC.run_betas_positive_partial",
    "NiiC.ladder_positive_four_partial",
    "NiiC.ladder_negative_beta",
    "NiiC.ladder_negative_ordered"
   ],
   "note": "proved for every number of ranks other than 4, whole runs; for 4 ranks one update under beta[0] <= beta[2]; with 4 ranks false otherwise, and false over several updates from an ordered ladder for every scale_tune_ladder and every zero_stretch between 0 and 1/2"
  },
  {
   "property": "C26",
   "status": "partial",
   "theorems": [
    "NiiC.ladder_order_even_partial",
    "NiiC.ladder_order_gentle_partial",
    "NiiC.ladder_order_three_partial",
    "NiiC.run_betas_ordered_three_partial",
    "NiiC.ladder_order_broken"
   ],
   "note": "order kept for even rates, for gentle scales and for three ranks (whole runs); in general false: witness with four ranks"
  },
  {
   "property": "C27",
   "status": "partial",
   "theorems": [
    "NiiC.ladder_range_partial",
    "NiiC.ladder_order_three_partial",
    "NiiC.run_betas_ordered_three_partial",
    "NiiC.ladder_range_broken",
    "NiiC.ladder_range_unbounded"
   ],
   "note": "range kept whenever the order is kept, in particular for three ranks; in general false: witness with four ranks, and over several updates the inner betas pass every bound for every zero_stretch up to 0.99"
  },
  {
   "property": "C10",
   "status": "proved",
   "theorems": [
    "NiiC.mh_accept_iff",
    "NiiC.mh_accept_measure",
    "NiiC.mh_accept_count"
   ],
   "note": ""
  },
  {
   "property": "C11",
   "status": "proved",
   "theorems": [
    "NiiC.balance",
    "NiiC.mh_reversible",
    "NiiC.mh_invariant",
    "NiiC.mh_iter_invariant",
    "NiiC.mhStep_move"
   ],
   "note": "exact real arithmetic, for a symmetric proposal; the proposal actually used is the subject of C45"
  },
  {
   "property": "C16",
   "status": "proved",
   "theorems": [
    "NiiC.nan_rejected",
    "NiiC.nan_swap_rejected",
    "NiiC.nan_stuck",
    "NiiC.nan_never_enters"
   ],
   "note": "arithmetic with NaN and infinities, any rounding"
  },
  {
   "property": "C21",
   "status": "proved",
   "theorems": [
    "NiiC.swap_ratio",
    "NiiC.swap_measure",
    "NiiC.swap_reversible"
   ],
   "note": ""
  },
  {
   "property": "C32",
   "status": "proved",
   "theorems": [
    "NiiC.tuned_width_origin",
    "NiiC.tuned_widths"
   ],
   "note": ""
  },
  {
   "property": "C33",
   "status": "proved",
   "theorems": [
    "NiiC.grid_geometric",
    "NiiC.grid_one_rank"
   ],
   "note": "grid over exact reals; the one-rank case over doubles with any rounding"
  },
  {
   "property": "C34",
   "status": "proved",
   "theorems": [
    "NiiC.grid_in_range",
    "NiiC.grid_out_of_range"
   ],
   "note": "exact reals; with rounding an end of the grid can differ from the bound by the error of exp and log"
  },
  {
   "property": "C35",
   "status": "proved",
   "theorems": [
    "NiiC.widths_in_range",
    "NiiC.run_widths_inv"
   ],
   "note": "exact reals; sampling widths and width files of every execution"
  },
  {
   "property": "C36",
   "status": "proved",
   "theorems": [
    "NiiC.argmin_first",
    "NiiC.argmax_first",
    "NiiC.closestOne_best",
    "NiiC.closestAll_best",
    "NiiC.orderOn_real",
    "NiiC.orderOn_dbl"
   ],
   "note": "any arithmetic whose comparison is a total order on the entries: reals, doubles without NaN"
  },
  {
   "property": "C37",
   "status": "proved",
   "theorems": [
    "NiiC.decide_acceptable",
    "NiiC.decide_dead_branch",
    "NiiC.tuned_widths"
   ],
   "note": ""
  },
  {
   "property": "C38",
   "status": "proved",
   "theorems": [
    "NiiC.unif0a_range",
    "NiiC.unif0a_law",
    "NiiC.unif0a_count"
   ],
   "note": ""
  },
  {
   "property": "C39",
   "status": "proved",
   "theorems": [
    "NiiC.unifAb_range"
   ],
   "note": ""
  },
  {
   "property": "C40",
   "status": "partial",
   "theorems": [
    "NiiC.unifAb_law_partial",
    "NiiC.unifAb_not_uniform"
   ],
   "note": "law proved; it is uniform over the inner values only: both end values have half the weight, witness"
  },
  {
   "property": "C41",
   "status": "proved",
   "theorems": [
    "NiiC.unif_range",
    "NiiC.unif_law",
    "NiiC.logunif_range",
    "NiiC.logunif_law",
    "NiiC.unif_range_dbl"
   ],
   "note": "law over exact reals; the range of the uniform draw also over doubles with any rounding, that of the log-uniform draw over exact reals only"
  },
  {
   "property": "C42",
   "status": "proved",
   "theorems": [
    "NiiC.seeds_distinct",
    "NiiC.streams_distinct",
    "NiiC.draws_in_unit",
    "NiiC.run_streams"
   ],
   "note": "run_streams assumes the user code draws its start point after srand48(seed), as the supplied models do"
  },
  {
   "property": "C63",
   "status": "proved",
   "theorems": [
    "NiiC.streams_shifted",
    "NiiC.streams_low_bits"
   ],
   "note": ""
  },
  {
   "property": "C43",
   "status": "partial",
   "theorems": [
    "NiiC.seed_clock_partial",
    "NiiC.negative_seed_fixed"
   ],
   "note": "0 and positive numbers; for negative numbers the property is false: they are fixed seeds"
  },
  {
   "property": "C47",
   "status": "proved",
   "theorems": [
    "NiiC.para_line_iff",
    "NiiC.para_line_null",
    "NiiC.para_line_long",
    "NiiC.read_needs_all"
   ],
   "note": ""
  },
  {
   "property": "C48",
   "status": "proved",
   "theorems": [
    "NiiC.config_round_trip",
    "NiiC.dec_value"
   ],
   "note": ""
  },
  {
   "property": "C49",
   "status": "proved",
   "theorems": [
    "NiiC.betas_read",
    "NiiC.betas_too_many",
    "NiiC.betas_too_few"
   ],
   "note": ""
  },
  {
   "property": "C50",
   "status": "proved",
   "theorems": [
    "NiiC.names_apart",
    "NiiC.paraLine_entry"
   ],
   "note": "a finite check over all pairs of names; its consequence for every file is paraLine_entry"
  },
  {
   "property": "C51",
   "status": "proved",
   "theorems": [
    "NiiC.rows_counted_iff",
    "NiiC.loaded_terminated"
   ],
   "note": "Rows counted = lines stored iff the file is empty or newline-terminated and free of byte 0xFF; loading succeeds only for such files, otherwise the loader writes behind the table."
  },
  {
   "property": "C52",
   "status": "proved",
   "theorems": [
    "NiiC.table_round_trip",
    "NiiC.short_row_fault",
    "NiiC.table_on_every_rank"
   ],
   "note": "Any table of numbers in decimal notation with delimiters is loaded cell by cell and is on every rank in every finished execution; a short line faults."
  },
  {
   "property": "C53",
   "status": "proved",
   "theorems": [
    "NiiC.alloc2d_store",
    "NiiC.alloc3d_store",
    "NiiC.alloc2d_no_rows",
    "NiiC.alloc3d_overflow"
   ],
   "note": "Heap-level model of alloc.c: after any writes an entry holds what was last written under its indices; cells of a row are consecutive; freeing gives everything back. n1 = 0 and n1*n2 beyond int fail."
  },
  {
   "property": "C54",
   "status": "proved",
   "theorems": [
    "NiiC.chain_names_apart",
    "NiiC.chain_names_cut",
    "NiiC.files_one_rank",
    "NiiC.cut_names_mix"
   ],
   "note": "Names that fit differ by rank, and in every execution a file written by two ranks is the seed log; cut names coincide and then all ranks write into one file."
  },
  {
   "property": "C44",
   "status": "proved",
   "theorems": [
    "NiiC.bounce_exact",
    "NiiC.bounce_rounded",
    "NiiC.paraBoundary_inBox",
    "NiiC.paraBoundary_id"
   ],
   "note": "exact arithmetic with infinities, and any monotone rounding"
  },
  {
   "property": "C46",
   "status": "proved",
   "theorems": [
    "NiiC.init_in_box",
    "NiiC.init_widths",
    "NiiC.hier_start_outside"
   ],
   "note": "for the uniform and log-uniform draws of the bundled models; hier_start_outside shows that the starting draws of the older hierarchical model (outside the anchors) can leave the box"
  },
  {
   "property": "C56",
   "status": "proved",
   "theorems": [
    "NiiC.tempered",
    "NiiC.tempered_form",
    "NiiC.tempered_dbl"
   ],
   "note": "exact reals; for doubles the value at beta = 0 is zero exactly when the untempered value is finite, and NaN otherwise"
  },
  {
   "property": "C57",
   "status": "partial",
   "theorems": [
    "NiiC.regression_loglik_partial",
    "NiiC.regression_ratio",
    "NiiC.regression_pi_offset",
    "NiiC.regression_product",
    "NiiC.normal_pdf_density"
   ],
   "note": "equality holds up to a constant per row below 1e-16 which comes from the decimal literal for pi; the stated equality is refuted by regression_pi_offset, differences between parameter vectors are exact"
  },
  {
   "property": "C58",
   "status": "proved",
   "theorems": [
    "NiiC.rastrigin_bounds",
    "NiiC.eggbox_bounds",
    "NiiC.multiGaussian_bounds",
    "NiiC.curved_bounds",
    "NiiC.rastrigin_nan_at_zero",
    "NiiC.multiGaussian_double",
    "NiiC.rastrigin_double"
   ],
   "note": "egg box with any rounding; the others in exact arithmetic with infinities and, by the _double theorems, in IEEE binary64; for the curved likelihood in binary64 see C71"
  },
  {
   "property": "C59",
   "status": "proved",
   "theorems": [
    "NiiC.regression_prior",
    "NiiC.rastrigin_prior",
    "NiiC.log_priors_finite",
    "NiiC.hier_prior_integral"
   ],
   "note": "hier_prior_integral shows the prior of the older hierarchical model (outside the anchors) is not normalised"
  },
  {
   "property": "C60",
   "status": "proved",
   "theorems": [
    "NiiC.range_check_iff",
    "NiiC.range_check_scales",
    "NiiC.range_check_nan"
   ],
   "note": "range_check_nan: a NaN bound passes the check"
  },
  {
   "property": "C45",
   "status": "partial",
   "theorems": [
    "NiiC.reflect_symmetric_partial",
    "NiiC.reflect_symmetric_all_partial",
    "NiiC.reflect_not_symmetric",
    "NiiC.reflect_atom_bound",
    "NiiC.reflect_mh_not_invariant"
   ],
   "note": "symmetric density strictly inside the box, for one and for several parameters; the full claim is refuted: the ends of the box are proposed with positive probability (bounded by reflect_atom_bound), so that not even the uniform distribution is invariant"
  },
  {
   "property": "C61",
   "status": "partial",
   "theorems": [
    "NiiC.box_muller",
    "NiiC.normal01_boxMuller",
    "NiiC.boxMuller_close",
    "NiiC.normal_law_partial",
    "NiiC.normal_not_exact",
    "NiiC.step_law",
    "NiiC.step_law_partial",
    "NiiC.normal_bounded",
    "NiiC.normal_infinite",
    "NiiC.normal_double_bounded"
   ],
   "note": "With the exact pi the formula maps two independent uniform numbers to the standard normal law (polar coordinates), and a step of width b from a to the normal law of mean a and variance b^2. With the decimal literal of the source every probability is within 1e-16 of the normal one; equality of the laws is refuted (a draw is positive with probability below one half). Every draw but one state of the generator is bounded by sqrt(96 log 2); the remaining state gives plus infinity."
  },
  {
   "property": "C64",
   "status": "proved",
   "theorems": [
    "NiiC.kepler_unique_root",
    "NiiC.kepler_solved",
    "NiiC.kepler_five_steps",
    "NiiC.newton_nan",
    "NiiC.newton_parabola"
   ],
   "note": "Exact reals. The error is squared by each step; the start is off by at most the eccentricity. newton_nan: in doubles a NaN ends the loop. newton_parabola: at eccentricity 1 the solver can return NaN (outside the range)."
  },
  {
   "property": "C65",
   "status": "proved",
   "theorems": [
    "NiiC.orbitAt_point",
    "NiiC.orbit_position",
    "NiiC.orbit_radius",
    "NiiC.funcAs_map",
    "NiiC.funcAs_total"
   ],
   "note": "Exact reals; degrees are turned into radians with the literal of the source. Specification by three rotations of the ellipse."
  },
  {
   "property": "C66",
   "status": "proved",
   "theorems": [
    "NiiC.third_law",
    "NiiC.third_law_earth",
    "NiiC.osi_value"
   ],
   "note": "Exact reals."
  },
  {
   "property": "C67",
   "status": "proved",
   "theorems": [
    "NiiC.orbit_logll_density",
    "NiiC.orbit_loglik",
    "NiiC.orbit_loglik_ratio",
    "NiiC.orbit_loglik_even",
    "NiiC.orbit_logll",
    "NiiC.orbit_one_column"
   ],
   "note": "Exact reals. The constant is due to the literal of two pi and cancels in every acceptance ratio. orbit_one_column: with one column the table is read beyond its end."
  },
  {
   "property": "C68",
   "status": "proved",
   "theorems": [
    "NiiC.hier_one",
    "NiiC.hierParms_pos",
    "NiiC.hierOffset_bound"
   ],
   "note": "Exact reals."
  },
  {
   "property": "C69",
   "status": "proved",
   "theorems": [
    "NiiC.hier_planets",
    "NiiC.hier_loglik",
    "NiiC.hier_oob"
   ],
   "note": "hier_planets holds for every arithmetic, hier_loglik gives the value in exact reals on a table of two columns, hier_oob is the witness for the missing condition."
  },
  {
   "property": "C70",
   "status": "proved",
   "theorems": [
    "NiiC.decide_choice",
    "NiiC.decide_coin",
    "NiiC.sdRow_spread",
    "NiiC.tuned_choice"
   ],
   "note": "The decision on any table of rates and in any run, in exact arithmetic; the standard deviation is stated separately (Spec.spread). C37 covers doubles."
  },
  {
   "property": "C71",
   "status": "proved",
   "theorems": [
    "NiiC.curved_underflow",
    "NiiC.curved_no_underflow",
    "NiiC.ninf_rejected",
    "NiiC.ninf_swap_rejected",
    "NiiC.curved_stands_still"
   ],
   "note": "IEEE binary64 with a correctly rounded libm; the two rejection theorems hold for any rounding"
  },
  {
   "property": "C72",
   "status": "proved",
   "theorems": [
    "NiiC.chain_file_readable",
    "NiiC.chain_text_readable",
    "NiiC.widths_ladders_readable",
    "NiiC.Print.sci_exact",
    "NiiC.Print.fixed_vanishes",
    "NiiC.Print.sci_lossy"
   ],
   "note": "doubles with any rounding, text as glibc prints (nearest decimal number, ties to even); rows with NaN or infinities are excluded; sci_lossy and fixed_vanishes show what is lost"
  },
  {
   "property": "C73",
   "status": "proved",
   "theorems": [
    "NiiC.repeat_from_log",
    "NiiC.repeat_run",
    "NiiC.seed_line",
    "NiiC.seed_text",
    "NiiC.runs_share_seeds"
   ],
   "note": "unless the start seed is 0 modulo 2^32; %d handed an unsigned is taken as two's complement"
  },
  {
   "property": "C74",
   "status": "proved",
   "theorems": [
    "NiiC.empty_stack",
    "NiiC.zero_stack_diverges",
    "NiiC.negative_stack_overflows",
    "NiiC.zero_stack_runs_on",
    "NiiC.negative_stack_runs_over"
   ],
   "note": "for N_iter > 0; sequential loop (N_begintune >= 0) and every execution of the distributed program (any N_begintune, other settings usable); the theorems show that the code has the defect"
  },
  {
   "property": "C75",
   "status": "proved",
   "theorems": [
    "NiiC.program_step",
    "NiiC.sampler_keeps",
    "NiiC.tail_le",
    "NiiC.tail_fifth",
    "NiiC.eggbox_keeps"
   ],
   "note": "draws idealised as independent uniform numbers of [0,1); exact real arithmetic; widths and ladder fixed. Exact invariance is false (reflect_mh_not_invariant), so the bound cannot be removed altogether"
  },
  {
   "property": "C76",
   "status": "proved",
   "theorems": [
    "NiiC.start_forgotten",
    "NiiC.sampler_converges",
    "NiiC.eggbox_target",
    "NiiC.eggbox_varies",
    "NiiC.eggbox_converges"
   ],
   "note": "same idealisation as C75; c is explicit (gain); the bound is true for every setting but exceeds 1 at realistic widths, where C85 to C87 give numbers"
  },
  {
   "property": "C77",
   "status": "proved",
   "theorems": [
    "NiiC.flow_stream",
    "NiiC.whole_run_stream",
    "NiiC.whole_run_law",
    "NiiC.eggbox_whole_run"
   ],
   "note": "exact arithmetic, tuning off; the law is that for independent uniform streams, the same idealisation as C75; the bound is true for every setting but exceeds 1 at realistic widths, where C85 to C87 give numbers"
  },
  {
   "property": "C78",
   "status": "proved",
   "theorems": [
    "NiiC.orbit_init",
    "NiiC.orbit_prior",
    "NiiC.orbitPrior_exp"
   ],
   "note": "exact arithmetic"
  },
  {
   "property": "C79",
   "status": "proved",
   "theorems": [
    "NiiC.hier_init",
    "NiiC.hier_saved",
    "NiiC.hier_width",
    "NiiC.hier_sample_width",
    "NiiC.bad_stands_still",
    "NiiC.hier_lambda_bad",
    "NiiC.hier_target_bad",
    "NiiC.hier_never_moves"
   ],
   "note": "ranges and widths in exact arithmetic, overflow in IEEE binary64; bad_stands_still for any rounding. The prior code is written for an older interface; the whole-run theorems combine it with the present sampler and any total likelihood"
  },
  {
   "property": "C80",
   "status": "proved",
   "theorems": [
    "NiiC.flow_writes",
    "NiiC.flowH_numbers",
    "NiiC.average_stream",
    "NiiC.average_error",
    "NiiC.flow_error",
    "NiiC.targetMean_eq",
    "NiiC.eggbox_average"
   ],
   "note": "exact arithmetic, tuning off; the mean square error is that for independent uniform streams, the same idealisation as C75; the bound is true for every setting but exceeds 1 at realistic widths, where C85 to C87 give numbers"
  },
  {
   "property": "C81",
   "status": "proved",
   "theorems": [
    "NiiC.texts_run",
    "NiiC.texts_fault",
    "NiiC.mainText_eq",
    "NiiC.ranges_read",
    "NiiC.table_names",
    "NiiC.orbit_ranges_read",
    "NiiC.hier_numbers_read",
    "NiiC.special_values"
   ],
   "note": ""
  },
  {
   "property": "C82",
   "status": "proved",
   "theorems": [
    "NiiC.sample_runs",
    "NiiC.eggbox_sample_faults",
    "NiiC.older_samples_fault",
    "NiiC.regression_sample_rows"
   ],
   "note": "the texts are copied from the repository by tools/samples.py; regression_sample_rows in exact arithmetic"
  },
  {
   "property": "C83",
   "status": "proved",
   "theorems": [
    "NiiC.Job.tuned_average_error",
    "NiiC.tuned_average_stream",
    "NiiC.Job.fixed_ladder_error",
    "NiiC.tuned_widths_average",
    "NiiC.Job.widths_range",
    "NiiC.Job.tuned_sound",
    "NiiC.Job.tuned_clean"
   ],
   "note": "exact arithmetic, independent uniform streams as in C75; with a tuned ladder tuned_average_stream assumes that the stored values are in step when the tuning ends, see C84; the bound is true for every setting but exceeds 1 at realistic widths, where C85 to C87 give numbers"
  },
  {
   "property": "C84",
   "status": "proved",
   "theorems": [
    "NiiC.Job.stale_rare",
    "NiiC.Job.tuned_ladder_error",
    "NiiC.tuned_ladder_average",
    "NiiC.Job.ladder_ends",
    "NiiC.Job.ladder_three",
    "NiiC.tuned_ladder_three",
    "NiiC.eggbox_tuned_ladder",
    "NiiC.pre_shrinks"
   ],
   "note": "exact arithmetic, independent uniform streams as in C75; a pair of chains never proposed within a stack has swap rate 0 in exact arithmetic and NaN in doubles, see DESIGN section 3; the bound is true for every setting but exceeds 1 at realistic widths, where C85 to C87 give numbers"
  },
  {
   "property": "C85",
   "status": "proved",
   "theorems": [
    "NiiC.mixing_law",
    "NiiC.eggbox_mixed",
    "NiiC.iter_steps",
    "NiiC.gap_spreads",
    "NiiC.twinAll_spreads",
    "NiiC.twinAll_invariant",
    "NiiC.eggbox_mixes"
   ],
   "note": "Law of the last table for independent uniform streams, with explicit rates; the end of every execution is mainS of the streams (whole_run_stream, eggbox_mixed). Exact real arithmetic; log-posterior bounded on the box."
  },
  {
   "property": "C86",
   "status": "proved",
   "theorems": [
    "NiiC.mixing_average",
    "NiiC.eggbox_mixed_average",
    "NiiC.flow_mixing"
   ],
   "note": "Probability of an error of eps for averages over rows, with explicit rates; the program part is average_stream. Exact real arithmetic; functions with values in [0, 1]."
  },
  {
   "property": "C87",
   "status": "proved",
   "theorems": [
    "NiiC.Job.tuned_mixing_error",
    "NiiC.Job.ladder_mixing_error",
    "NiiC.tuned_widths_mixing",
    "NiiC.tuned_ladder_mixing",
    "NiiC.tuned_ladder_three_mixing",
    "NiiC.eggbox_tuned_long",
    "NiiC.Job.mixes",
    "NiiC.gap_floor"
   ],
   "note": "Probability of an error of eps after the tuning, uniformly over its outcomes; the program part is tuned_widths_average and tuned_ladder_average. Exact real arithmetic, independent uniform streams as in C75; with more than three ranks the ladders passed through have to be near each other (Near), as in C84."
  },
  {
   "property": "C88",
   "status": "proved",
   "theorems": [
    "NiiC.driven_ends",
    "NiiC.driven_law",
    "NiiC.driven_average",
    "NiiC.driven_tuned_average",
    "NiiC.driven_ladder_three",
    "NiiC.eggbox_driven_law",
    "NiiC.eggbox_driven_average",
    "NiiC.eggbox_driven_tuned",
    "NiiC.seeds_law",
    "NiiC.ideal_stream"
   ],
   "note": "Statements about executions and files only, for a generator whose seeds start independent uniform streams; that drand48 behaves like one is not claimed (DESIGN, trusted base). Exact real arithmetic."
  },
  {
   "property": "C89",
   "status": "proved",
   "theorems": [
    "NiiC.Scripts.merge_moves",
    "NiiC.Scripts.merge_stops",
    "NiiC.Scripts.merge_cut",
    "NiiC.Scripts.merge_forgets_weights",
    "NiiC.Scripts.merge_of_run",
    "NiiC.Scripts.merge_frequency"
   ],
   "note": "merge_lines.py on any file of lines of numbers and on the chain files of executions with doubles. Reading of numbers by Python is a parameter that gives the nearest double. The shares of points among the rows are lost (merge_forgets_weights, merge_frequency), as is the first row."
  },
  {
   "property": "C90",
   "status": "partial",
   "theorems": [
    "NiiC.Scripts.histogram_partial",
    "NiiC.Scripts.histogram_exact",
    "NiiC.Scripts.histogram_of_run",
    "NiiC.Scripts.histogram_wrong_cell",
    "NiiC.Scripts.histogram_stops",
    "NiiC.Scripts.reread_fifty",
    "NiiC.Scripts.surface_is_log",
    "NiiC.Scripts.surface_not_posterior"
   ],
   "note": "Holds for rows below the upper ends of the box. Refuted for rows at the upper ends, which belong to the box and to which numbers within 5e-12 are rounded when printed: histogram_wrong_cell, histogram_stops; histogram_exact says exactly what happens. The surface shown beside the counts is the logarithm of the posterior: surface_not_posterior."
  },
  {
   "property": "C91",
   "status": "proved",
   "theorems": [
    "NiiC.full_period",
    "NiiC.low_bits_period",
    "NiiC.one_cycle",
    "NiiC.cycle_count",
    "NiiC.accept_frequency",
    "NiiC.zero_drawn_once"
   ],
   "note": "The generator is the POSIX drand48 of the model. The acceptance count is in exact arithmetic."
  },
  {
   "property": "C92",
   "status": "partial",
   "theorems": [
    "NiiC.run_disjoint_partial",
    "NiiC.streams_disjoint",
    "NiiC.overlap_only",
    "NiiC.run_draws",
    "NiiC.run_overlap",
    "NiiC.overlap_many",
    "NiiC.overlap_four"
   ],
   "note": "Holds for up to 32 ranks and fewer than 470614016 draws per rank, for every start seed: run_disjoint_partial; run_draws bounds the draws of a run from the configuration. Refuted for more ranks: with 75 ranks and init_rand_seed 11987 rank 1 draws the numbers of rank 74 again after 1638400 draws (run_overlap), and 470614016 is sharp for four seeds in a row (overlap_four)."
  },
  {
   "property": "C93",
   "status": "proved",
   "theorems": [
    "NiiC.mh_accept_doubles",
    "NiiC.mh_frequency_doubles",
    "NiiC.swap_accept_doubles",
    "NiiC.mh_accept_infinite",
    "NiiC.swap_off",
    "NiiC.libm_binary64"
   ],
   "note": "For log-posteriors of a swap beyond 2^1000 nothing is claimed. swap_off shows that the error of a swap grows with the size of the log-posteriors."
  },
  {
   "property": "C94",
   "status": "proved",
   "theorems": [
    "NiiC.RankHeap.heap_run",
    "NiiC.RankHeap.heap_of_run",
    "NiiC.RankHeap.heap_flow",
    "NiiC.RankHeap.heap_leak",
    "NiiC.RankHeap.heap_missing_name",
    "NiiC.RankHeap.plain_user_ok",
    "NiiC.RankHeap.orbit_user_ok"
   ],
   "note": "A model of its own for the heap: the decisions of a run are a plan, quantified over; heap_of_run shows that the runs of the sampler are among the courses covered and bounds their batches. malloc and fopen succeed; the buffers of the C library are not counted."
  },
  {
   "property": "C95",
   "status": "proved",
   "theorems": [
    "NiiC.finishes_iff",
    "NiiC.counter_overflows",
    "NiiC.noWrap_iff"
   ],
   "note": "The condition on N_iter in Valid is now this exact one, so all theorems that ask for Valid hold up to the limit."
  },
  {
   "property": "C96",
   "status": "proved",
   "theorems": [
    "NiiC.grid_doubles",
    "NiiC.trial_widths_doubles",
    "NiiC.widths_in_range_doubles"
   ],
   "note": "log and exp are taken as correctly rounded; bases and ratios between 2^-200 and 2^200."
  },
  {
   "property": "C97",
   "status": "proved",
   "theorems": [
    "NiiC.countsExact_doubles",
    "NiiC.counter_stops",
    "NiiC.swap_rate_doubles",
    "NiiC.stack_rate_doubles",
    "NiiC.tune_rate_doubles",
    "NiiC.Binary64.recip_stable",
    "NiiC.ladder_three_doubles",
    "NiiC.run_ladder_doubles"
   ],
   "note": "Whole runs for three ranks, the case in which the ladder stays ordered for all tallies (C26); pow is taken as correctly rounded."
  },
  {
   "property": "C98",
   "status": "proved",
   "theorems": [
    "NiiC.texts_estimate",
    "NiiC.texts_end",
    "NiiC.eggbox_texts_estimate"
   ],
   "note": "Exact arithmetic and an ideal generator; numbers are printed and read as by the C library. The mixing rates are those of C85."
  },
  {
   "property": "C99",
   "status": "proved",
   "theorems": [
    "NiiC.kepler_dbl",
    "NiiC.orbit_logll_dbl",
    "NiiC.newton_endless",
    "NiiC.orbit_logll_endless"
   ],
   "note": "The library's sine and cosine are assumed to be within 2^-50; binary64_nearest and binary64_ieee show that the correctly rounded ones are. Between 2^23 and 2^26, and for eccentricities above 1/2, nothing is claimed about doubles. The returned likelihood may be any double; its value is C65 to C67 in exact arithmetic."
  },
  {
   "property": "C100",
   "status": "proved",
   "theorems": [
    "NiiC.multi_target",
    "NiiC.multi_lp",
    "NiiC.multi_flat",
    "NiiC.multi_peaks",
    "NiiC.mixture_peaks",
    "NiiC.multi_chains",
    "NiiC.multi_mixes",
    "NiiC.multi_rows",
    "NiiC.multi_driven"
   ],
   "note": "Exact arithmetic; the chains as in C75 and C76: ideal draws, fixed widths and ladder, as after the burn-in of the sample input. multi_chains does not bound its constant c away from 0; multi_rows gives numbers, for a run that tunes nothing, and no claim is made about the tuned ladder of five ranks."
  },
  {
   "property": "C101",
   "status": "proved",
   "theorems": [
    "NiiC.launch_agrees",
    "NiiC.launch_starts",
    "NiiC.launch_expressed",
    "NiiC.launch_samples",
    "NiiC.launch_unreadable",
    "NiiC.launch_differs",
    "NiiC.launch_twice",
    "NiiC.too_many_ranks",
    "NiiC.too_few_ranks"
   ],
   "note": "mpirun is taken to start the number of processes given in digits; file name expansion by the shell is left out."
  },
  {
   "property": "C102",
   "status": "proved",
   "theorems": [
    "NiiC.Scripts.shown_rows",
    "NiiC.Scripts.back_close",
    "NiiC.Scripts.shown_of_run",
    "NiiC.Scripts.plots_open_last",
    "NiiC.Scripts.regression_plot",
    "NiiC.Scripts.mixture_plot",
    "NiiC.Scripts.plots_open_nothing"
   ],
   "note": "np.genfromtxt and Python's float are taken as in section 3 of DESIGN.md; what the library corner draws is not modelled. The directory of results is taken to be new."
  },
  {
   "property": "C103",
   "status": "proved",
   "theorems": [
    "NiiC.post_rounded",
    "NiiC.move_tempered_doubles",
    "NiiC.swap_tempered_doubles",
    "NiiC.iteration_doubles",
    "NiiC.swap_doubles",
    "NiiC.run_swaps_doubles",
    "NiiC.eggbox_swaps_doubles",
    "NiiC.tame_swaps_doubles",
    "NiiC.tame_moves_doubles",
    "NiiC.eggbox_tame",
    "NiiC.multi_tame",
    "NiiC.regression_tame"
   ],
   "note": "The uniform count over generator states stands for the law of a draw, as in C93. Values that are NaN or infinite are covered by C16 and C93."
  },
  {
   "property": "C104",
   "status": "proved",
   "theorems": [
    "NiiC.uniform_saved_finite",
    "NiiC.logunif_range_dbl",
    "NiiC.bundled_saved_finite",
    "NiiC.regression_blind"
   ],
   "note": "The first theorem holds for any rounding and any libm in which the square of NaN is NaN; log-uniform draws need binary64 with a correctly rounded log and exp, and a range of at least a factor of two."
  },
  {
   "property": "C105",
   "status": "proved",
   "theorems": [
    "NiiC.finish_together",
    "NiiC.stopped_rank",
    "NiiC.unwritable_line",
    "NiiC.unwritable_file",
    "NiiC.unwritable_ladder",
    "NiiC.missing_data",
    "NiiC.unreadable_data",
    "NiiC.unreadable_data_silent"
   ],
   "note": "A call between the last barrier and the end of main does not fail in the model. Whether the MPI library aborts the other ranks or lets them wait is not modelled: both are executions."
  },
  {
   "property": "C106",
   "status": "proved",
   "theorems": [
    "NiiC.Compare.linReg_eq",
    "NiiC.Compare.linReg_sample",
    "NiiC.Compare.compare_ranges",
    "NiiC.Compare.egg_shift",
    "NiiC.Compare.curved_same"
   ],
   "note": "The samplers emcee and PTMCMCSampler and the starting points in the scripts are not modelled; numpy's functions stand for those of the C library."
  },
  {
   "property": "C107",
   "status": "proved",
   "theorems": [
    "NiiC.Build.prep_program",
    "NiiC.Build.prep_keeps",
    "NiiC.Build.prep_twice",
    "NiiC.Build.links_iff",
    "NiiC.Build.typed_iff",
    "NiiC.Build.current_models_fit",
    "NiiC.Build.older_models_differ",
    "NiiC.Build.prep_overwrites",
    "NiiC.Build.old_makefile"
   ],
   "note": "A source is represented by its quoted headers and by the names and types it defines and uses; that the sources compile is assumed. The tables of names were taken from the sources by a script and checked by reading."
  },
  {
   "property": "C108",
   "status": "proved",
   "theorems": [
    "NiiC.stack_headings",
    "NiiC.ladder_file",
    "NiiC.width_file",
    "NiiC.lines_used"
   ],
   "note": "`lines_used` reads the lines off the two files for moves and swaps begun strictly inside a stack; `stack_headings` has the statement for all of them, by position in the log."
  },
  {
   "property": "C109",
   "status": "proved",
   "theorems": [
    "NiiC.Numpy.seventeen_digits",
    "NiiC.Numpy.sixteen_digits",
    "NiiC.Numpy.savetxt_program",
    "NiiC.Numpy.savetxt_genfromtxt",
    "NiiC.Numpy.savetxt_points",
    "NiiC.Numpy.simulated_data"
   ],
   "note": "`np.savetxt`, `np.genfromtxt` and Python's `float` are modelled as far as they are used here; the sign of a zero is not represented."
  },
  {
   "property": "C110",
   "status": "proved",
   "theorems": [
    "NiiC.longer_run_extends",
    "NiiC.longer_run_text"
   ],
   "note": "`written` leaves out only the records `note`, which the program does not write."
  },
  {
   "property": "C111",
   "status": "proved",
   "theorems": [
    "NiiC.save_begin_only_thins"
   ],
   "note": ""
  },
  {
   "property": "C112",
   "status": "proved",
   "theorems": [
    "NiiC.chains_alone",
    "NiiC.chain_of_seed",
    "NiiC.chain_ignores_others"
   ],
   "note": "Root is left out because its generator also draws the batch lengths."
  },
  {
   "property": "C113",
   "status": "proved",
   "theorems": [
    "NiiC.few_in_flight",
    "NiiC.two_broadcasts"
   ],
   "note": "A broadcast is a message from root to each other rank, as everywhere in the model; the second theorem shows that the bounds are reached."
  },
  {
   "property": "C114",
   "status": "proved",
   "theorems": [
    "NiiC.barriers_decide_nothing"
   ],
   "note": "About the variables and the lines; the bound of C113 on messages in flight does use the barriers."
  },
  {
   "property": "C115",
   "status": "proved",
   "theorems": [
    "NiiC.collectives_do_not_matter",
    "NiiC.trees_do_not_matter",
    "NiiC.tree_works"
   ],
   "note": "The messages of the trees are on the tag of the broadcasts, apart from the tags of the program; an implementation in general may use any tags."
  },
  {
   "property": "C116",
   "status": "proved",
   "theorems": [
    "NiiC.files_abreast"
   ],
   "note": "A row counts as written when the rank has called fprintf and fclose; what the file system keeps of it is not modelled."
  },
  {
   "property": "C117",
   "status": "proved",
   "theorems": [
    "NiiC.killed_run",
    "NiiC.killed_text",
    "NiiC.killed_buffered"
   ],
   "note": "In killed_run and killed_text a row counts as written when it has been printed; killed_buffered allows for rows of the last save that are not in the file. Iteration 0 is not meant by i (the hypothesis N >= 1 excludes it)."
  },
  {
   "property": "C118",
   "status": "proved",
   "theorems": [
    "NiiC.stopped_abreast",
    "NiiC.stopped_salvage"
   ],
   "note": "The MPI library does not end the other ranks when one ends; if it does, the run is a killed one (C116, C117)."
  },
  {
   "property": "C119",
   "status": "proved",
   "theorems": [
    "NiiC.run_appends",
    "NiiC.reruns_repeat",
    "NiiC.reruns_exist",
    "NiiC.reruns_read",
    "NiiC.extend_repeats",
    "NiiC.samples_rerun"
   ],
   "note": "Lines reach the file one by one (the program opens and closes it for every save). reruns_read is for finite rows, as C72."
  },
  {
   "property": "C120",
   "status": "proved",
   "theorems": [
    "NiiC.disk_contents",
    "NiiC.disk_schedule",
    "NiiC.seed_order_open"
   ],
   "note": "A line is appended as a whole, as POSIX does for one write in append mode; lines of the seed log are shorter than a buffer."
  },
  {
   "property": "C121",
   "status": "proved",
   "theorems": [
    "NiiC.no_directory"
   ],
   "note": "mkdir and fopen are the operating system's: in a missing directory every fopen fails. What MPI does to the other ranks when one ends by exit(3) is left open; they may at most be stopped earlier."
  },
  {
   "property": "C122",
   "status": "proved",
   "theorems": [
    "NiiC.shared_starts",
    "NiiC.neighbour_starts",
    "NiiC.started_together",
    "NiiC.neighbour_runs"
   ],
   "note": "Root is 0, as in main.c. The chain of root is only shown to start from the shared point, since its generator also draws the batch lengths."
  },
  {
   "property": "C123",
   "status": "proved",
   "theorems": [
    "NiiC.nlines_signed",
    "NiiC.nlines_unsigned",
    "NiiC.nlines_model"
   ],
   "note": "getc returns EOF again and again at the end of a file. line_number is taken not to overflow."
  }
 ]
}