import json
C=[]
def c(p,s,t,n=""): C.append({"property":p,"status":s,"theorems":["NiiC."+x for x in t.split()],"note":n})
c("C01","proved","no_deadlock")
c("C02","proved","schedule_independent schedule_independent_terminal")
c("C03","proved","no_fault distributed_eq_sequential","A message that is not the one meant, or has another length, is a fault of the model; that the values received are those of the sequential program is distributed_eq_sequential.")
c("C04","proved","distributed_eq_sequential")
c("C05","proved","swap_helper_valid swap_helper_one_rank")
c("C06","proved","batches_partition stack_events batch_can_be_empty")
c("C07","proved","iterations_exact iterations_are_mh")
c("C08","proved","same_iteration")
c("C09","proved","batch_is_mh batch_nonpositive")
c("C12","proved","batch_logpost")
c("C14","proved","chain_columns step_columns")
c("C15","proved","saved_in_box model_saved_in_box model_saved_rounded")
c("C17","proved","chain_file")
c("C20","proved","swap_permutes swaps_preserve_multiset")
c("C28","proved","ladder_frozen")
c("C29","proved","same_ladder")
c("C13","partial","lp_in_step_partial lp_once_in_step_partial lp_out_of_step","Proved for runs without ladder tuning. With ladder tuning every stored value belongs to an inverse temperature the chain has had, but not to the present one: lp_out_of_step gives a run in which every complete execution has a stale line.")
c("C18","proved","stack_rate_fraction tune_rate_fraction")
c("C19","proved","swap_partners run_swap_partners swap_one_rank swap_unknown_mode")
c("C22","proved","swap_tallies")
c("C23","partial","pair_rate_partial pair_rate_mode1_wrong","modes 0 and 2 for adjacent pairs; in mode 1 the recorded rate is not a rate of one pair")
c("C24","proved","ladder_ends_fixed")
c("C30","proved","run_rounds nan_rate_is_tuned")
c("C31","proved","tuning_frame widths_in_use")
c("C55","proved","one_writer")
c("C62","proved","mkdir_first")
c("C25","partial","ladder_positive_partial run_betas_positive_partial ladder_positive_four_partial ladder_negative_beta ladder_negative_ordered","proved for every number of ranks other than 4, whole runs; for 4 ranks one update under beta[0] <= beta[2]; with 4 ranks false otherwise, and false over several updates from an ordered ladder for every scale_tune_ladder and every zero_stretch between 0 and 1/2")
c("C26","partial","ladder_order_even_partial ladder_order_gentle_partial ladder_order_three_partial run_betas_ordered_three_partial ladder_order_broken","order kept for even rates, for gentle scales and for three ranks (whole runs); in general false: witness with four ranks")
c("C27","partial","ladder_range_partial ladder_order_three_partial run_betas_ordered_three_partial ladder_range_broken ladder_range_unbounded","range kept whenever the order is kept, in particular for three ranks; in general false: witness with four ranks, and over several updates the inner betas pass every bound for every zero_stretch up to 0.99")
c("C10","proved","mh_accept_iff mh_accept_measure mh_accept_count")
c("C11","proved","balance mh_reversible mh_invariant mh_iter_invariant mhStep_move","exact real arithmetic, for a symmetric proposal; the proposal actually used is the subject of C45")
c("C16","proved","nan_rejected nan_swap_rejected nan_stuck nan_never_enters","arithmetic with NaN and infinities, any rounding")
c("C21","proved","swap_ratio swap_measure swap_reversible")
c("C32","proved","tuned_width_origin tuned_widths")
c("C33","proved","grid_geometric grid_one_rank","grid over exact reals; the one-rank case over doubles with any rounding")
c("C34","proved","grid_in_range grid_out_of_range","exact reals; with rounding an end of the grid can differ from the bound by the error of exp and log")
c("C35","proved","widths_in_range run_widths_inv","exact reals; sampling widths and width files of every execution")
c("C36","proved","argmin_first argmax_first closestOne_best closestAll_best orderOn_real orderOn_dbl","any arithmetic whose comparison is a total order on the entries: reals, doubles without NaN")
c("C37","proved","decide_acceptable decide_dead_branch tuned_widths")
c("C38","proved","unif0a_range unif0a_law unif0a_count")
c("C39","proved","unifAb_range")
c("C40","partial","unifAb_law_partial unifAb_not_uniform","law proved; it is uniform over the inner values only: both end values have half the weight, witness")
c("C41","proved","unif_range unif_law logunif_range logunif_law unif_range_dbl","law over exact reals; the range of the uniform draw also over doubles with any rounding, that of the log-uniform draw over exact reals only")
c("C42","proved","seeds_distinct streams_distinct draws_in_unit run_streams","run_streams assumes the user code draws its start point after srand48(seed), as the supplied models do")
c("C63","proved","streams_shifted streams_low_bits")
c("C43","partial","seed_clock_partial negative_seed_fixed","0 and positive numbers; for negative numbers the property is false: they are fixed seeds")
c("C47","proved","para_line_iff para_line_null para_line_long read_needs_all")
c("C48","proved","config_round_trip dec_value")
c("C49","proved","betas_read betas_too_many betas_too_few")
c("C50","proved","names_apart paraLine_entry","a finite check over all pairs of names; its consequence for every file is paraLine_entry")
c("C51","proved","rows_counted_iff loaded_terminated","Rows counted = lines stored iff the file is empty or newline-terminated and free of byte 0xFF; loading succeeds only for such files, otherwise the loader writes behind the table.")
c("C52","proved","table_round_trip short_row_fault table_on_every_rank","Any table of numbers in decimal notation with delimiters is loaded cell by cell and is on every rank in every finished execution; a short line faults.")
c("C53","proved","alloc2d_store alloc3d_store alloc2d_no_rows alloc3d_overflow","Heap-level model of alloc.c: after any writes an entry holds what was last written under its indices; cells of a row are consecutive; freeing gives everything back. n1 = 0 and n1*n2 beyond int fail.")
c("C54","proved","chain_names_apart chain_names_cut files_one_rank cut_names_mix","Names that fit differ by rank, and in every execution a file written by two ranks is the seed log; cut names coincide and then all ranks write into one file.")
c("C44","proved","bounce_exact bounce_rounded paraBoundary_inBox paraBoundary_id","exact arithmetic with infinities, and any monotone rounding")
c("C46","proved","init_in_box init_widths hier_start_outside","for the uniform and log-uniform draws of the bundled models; hier_start_outside shows that the starting draws of the older hierarchical model (outside the anchors) can leave the box")
c("C56","proved","tempered tempered_form tempered_dbl","exact reals; for doubles the value at beta = 0 is zero exactly when the untempered value is finite, and NaN otherwise")
c("C57","partial","regression_loglik_partial regression_ratio regression_pi_offset regression_product normal_pdf_density","equality holds up to a constant per row below 1e-16 which comes from the decimal literal for pi; the stated equality is refuted by regression_pi_offset, differences between parameter vectors are exact")
c("C58","proved","rastrigin_bounds eggbox_bounds multiGaussian_bounds curved_bounds rastrigin_nan_at_zero multiGaussian_double rastrigin_double","egg box with any rounding; the others in exact arithmetic with infinities and, by the _double theorems, in IEEE binary64; for the curved likelihood in binary64 see C71")
c("C59","proved","regression_prior rastrigin_prior log_priors_finite hier_prior_integral","hier_prior_integral shows the prior of the older hierarchical model (outside the anchors) is not normalised")
c("C60","proved","range_check_iff range_check_scales range_check_nan","range_check_nan: a NaN bound passes the check")
c("C45","partial","reflect_symmetric_partial reflect_symmetric_all_partial reflect_not_symmetric reflect_atom_bound reflect_mh_not_invariant","symmetric density strictly inside the box, for one and for several parameters; the full claim is refuted: the ends of the box are proposed with positive probability (bounded by reflect_atom_bound), so that not even the uniform distribution is invariant")
c("C61","partial","box_muller normal01_boxMuller boxMuller_close normal_law_partial normal_not_exact step_law step_law_partial normal_bounded normal_infinite normal_double_bounded","With the exact pi the formula maps two independent uniform numbers to the standard normal law (polar coordinates), and a step of width b from a to the normal law of mean a and variance b^2. With the decimal literal of the source every probability is within 1e-16 of the normal one; equality of the laws is refuted (a draw is positive with probability below one half). Every draw but one state of the generator is bounded by sqrt(96 log 2); the remaining state gives plus infinity.")
c("C64","proved","kepler_unique_root kepler_solved kepler_five_steps newton_nan newton_parabola","Exact reals. The error is squared by each step; the start is off by at most the eccentricity. newton_nan: in doubles a NaN ends the loop. newton_parabola: at eccentricity 1 the solver can return NaN (outside the range).")
c("C65","proved","orbitAt_point orbit_position orbit_radius funcAs_map funcAs_total","Exact reals; degrees are turned into radians with the literal of the source. Specification by three rotations of the ellipse.")
c("C66","proved","third_law third_law_earth osi_value","Exact reals.")
c("C67","proved","orbit_logll_density orbit_loglik orbit_loglik_ratio orbit_loglik_even orbit_logll orbit_one_column","Exact reals. The constant is due to the literal of two pi and cancels in every acceptance ratio. orbit_one_column: with one column the table is read beyond its end.")
c("C68","proved","hier_one hierParms_pos hierOffset_bound","Exact reals.")
c("C69","proved","hier_planets hier_loglik hier_oob","hier_planets holds for every arithmetic, hier_loglik gives the value in exact reals on a table of two columns, hier_oob is the witness for the missing condition.")
c("C70","proved","decide_choice decide_coin sdRow_spread tuned_choice","The decision on any table of rates and in any run, in exact arithmetic; the standard deviation is stated separately (Spec.spread). C37 covers doubles.")
c("C71","proved","curved_underflow curved_no_underflow ninf_rejected ninf_swap_rejected curved_stands_still","IEEE binary64 with a correctly rounded libm; the two rejection theorems hold for any rounding")
c("C72","proved","chain_file_readable chain_text_readable widths_ladders_readable Print.sci_exact Print.fixed_vanishes Print.sci_lossy","doubles with any rounding, text as glibc prints (nearest decimal number, ties to even); rows with NaN or infinities are excluded; sci_lossy and fixed_vanishes show what is lost")
c("C73","proved","repeat_from_log repeat_run seed_line seed_text runs_share_seeds","unless the start seed is 0 modulo 2^32; %d handed an unsigned is taken as two's complement")
c("C74","proved","empty_stack zero_stack_diverges negative_stack_overflows zero_stack_runs_on negative_stack_runs_over","for N_iter > 0; sequential loop (N_begintune >= 0) and every execution of the distributed program (any N_begintune, other settings usable); the theorems show that the code has the defect")
c("C75","proved","program_step sampler_keeps tail_le tail_fifth eggbox_keeps","draws idealised as independent uniform numbers of [0,1); exact real arithmetic; widths and ladder fixed. Exact invariance is false (reflect_mh_not_invariant), so the bound cannot be removed altogether")
c("C76","proved","start_forgotten sampler_converges eggbox_target eggbox_varies eggbox_converges","same idealisation as C75; c is explicit (gain); the bound is true for every setting but exceeds 1 at realistic widths, where C85 to C87 give numbers")
c("C77","proved","flow_stream whole_run_stream whole_run_law eggbox_whole_run","exact arithmetic, tuning off; the law is that for independent uniform streams, the same idealisation as C75; the bound is true for every setting but exceeds 1 at realistic widths, where C85 to C87 give numbers")
c("C78","proved","orbit_init orbit_prior orbitPrior_exp","exact arithmetic")
c("C79","proved","hier_init hier_saved hier_width hier_sample_width bad_stands_still hier_lambda_bad hier_target_bad hier_never_moves","ranges and widths in exact arithmetic, overflow in IEEE binary64; bad_stands_still for any rounding. The prior code is written for an older interface; the whole-run theorems combine it with the present sampler and any total likelihood")
c("C80","proved","flow_writes flowH_numbers average_stream average_error flow_error targetMean_eq eggbox_average","exact arithmetic, tuning off; the mean square error is that for independent uniform streams, the same idealisation as C75; the bound is true for every setting but exceeds 1 at realistic widths, where C85 to C87 give numbers")
c("C81","proved","texts_run texts_fault mainText_eq ranges_read table_names orbit_ranges_read hier_numbers_read special_values","")
c("C82","proved","sample_runs eggbox_sample_faults older_samples_fault regression_sample_rows","the texts are copied from the repository by tools/samples.py; regression_sample_rows in exact arithmetic")
c("C83","proved","Job.tuned_average_error tuned_average_stream Job.fixed_ladder_error tuned_widths_average Job.widths_range Job.tuned_sound Job.tuned_clean","exact arithmetic, independent uniform streams as in C75; with a tuned ladder tuned_average_stream assumes that the stored values are in step when the tuning ends, see C84; the bound is true for every setting but exceeds 1 at realistic widths, where C85 to C87 give numbers")
c("C84","proved","Job.stale_rare Job.tuned_ladder_error tuned_ladder_average Job.ladder_ends Job.ladder_three tuned_ladder_three eggbox_tuned_ladder pre_shrinks","exact arithmetic, independent uniform streams as in C75; a pair of chains never proposed within a stack has swap rate 0 in exact arithmetic and NaN in doubles, see DESIGN section 3; the bound is true for every setting but exceeds 1 at realistic widths, where C85 to C87 give numbers")
c("C85","proved","mixing_law eggbox_mixed iter_steps gap_spreads twinAll_spreads twinAll_invariant eggbox_mixes","Law of the last table for independent uniform streams, with explicit rates; the end of every execution is mainS of the streams (whole_run_stream, eggbox_mixed). Exact real arithmetic; log-posterior bounded on the box.")
c("C86","proved","mixing_average eggbox_mixed_average flow_mixing","Probability of an error of eps for averages over rows, with explicit rates; the program part is average_stream. Exact real arithmetic; functions with values in [0, 1].")
c("C87","proved","Job.tuned_mixing_error Job.ladder_mixing_error tuned_widths_mixing tuned_ladder_mixing tuned_ladder_three_mixing eggbox_tuned_long Job.mixes gap_floor","Probability of an error of eps after the tuning, uniformly over its outcomes; the program part is tuned_widths_average and tuned_ladder_average. Exact real arithmetic, independent uniform streams as in C75; with more than three ranks the ladders passed through have to be near each other (Near), as in C84.")
c("C88","proved","driven_ends driven_law driven_average driven_tuned_average driven_ladder_three eggbox_driven_law eggbox_driven_average eggbox_driven_tuned seeds_law ideal_stream","Statements about executions and files only, for a generator whose seeds start independent uniform streams; that drand48 behaves like one is not claimed (DESIGN, trusted base). Exact real arithmetic.")
c("C89","proved","Scripts.merge_moves Scripts.merge_stops Scripts.merge_cut Scripts.merge_forgets_weights Scripts.merge_of_run Scripts.merge_frequency","merge_lines.py on any file of lines of numbers and on the chain files of executions with doubles. Reading of numbers by Python is a parameter that gives the nearest double. The shares of points among the rows are lost (merge_forgets_weights, merge_frequency), as is the first row.")
c("C90","partial","Scripts.histogram_partial Scripts.histogram_exact Scripts.histogram_of_run Scripts.histogram_wrong_cell Scripts.histogram_stops Scripts.reread_fifty Scripts.surface_is_log Scripts.surface_not_posterior","Holds for rows below the upper ends of the box. Refuted for rows at the upper ends, which belong to the box and to which numbers within 5e-12 are rounded when printed: histogram_wrong_cell, histogram_stops; histogram_exact says exactly what happens. The surface shown beside the counts is the logarithm of the posterior: surface_not_posterior.")
c("C91","proved","full_period low_bits_period one_cycle cycle_count accept_frequency zero_drawn_once","The generator is the POSIX drand48 of the model. The acceptance count is in exact arithmetic.")
c("C92","partial","run_disjoint_partial streams_disjoint overlap_only run_draws run_overlap overlap_many overlap_four","Holds for up to 32 ranks and fewer than 470614016 draws per rank, for every start seed: run_disjoint_partial; run_draws bounds the draws of a run from the configuration. Refuted for more ranks: with 75 ranks and init_rand_seed 11987 rank 1 draws the numbers of rank 74 again after 1638400 draws (run_overlap), and 470614016 is sharp for four seeds in a row (overlap_four).")
c("C93","proved","mh_accept_doubles mh_frequency_doubles swap_accept_doubles mh_accept_infinite swap_off libm_binary64","For log-posteriors of a swap beyond 2^1000 nothing is claimed. swap_off shows that the error of a swap grows with the size of the log-posteriors.")
c("C94","proved","RankHeap.heap_run RankHeap.heap_of_run RankHeap.heap_flow RankHeap.heap_leak RankHeap.heap_missing_name RankHeap.plain_user_ok RankHeap.orbit_user_ok","A model of its own for the heap: the decisions of a run are a plan, quantified over; heap_of_run shows that the runs of the sampler are among the courses covered and bounds their batches. malloc and fopen succeed; the buffers of the C library are not counted.")
c("C95","proved","finishes_iff counter_overflows noWrap_iff","The condition on N_iter in Valid is now this exact one, so all theorems that ask for Valid hold up to the limit.")
c("C96","proved","grid_doubles trial_widths_doubles widths_in_range_doubles","log and exp are taken as correctly rounded; bases and ratios between 2^-200 and 2^200.")
c("C97","proved","countsExact_doubles counter_stops swap_rate_doubles stack_rate_doubles tune_rate_doubles Binary64.recip_stable ladder_three_doubles run_ladder_doubles","Whole runs for three ranks, the case in which the ladder stays ordered for all tallies (C26); pow is taken as correctly rounded.")
c("C98","proved","texts_estimate texts_end eggbox_texts_estimate","Exact arithmetic and an ideal generator; numbers are printed and read as by the C library. The mixing rates are those of C85.")
c("C99","proved","kepler_dbl orbit_logll_dbl newton_endless orbit_logll_endless","The library's sine and cosine are assumed to be within 2^-50; binary64_nearest and binary64_ieee show that the correctly rounded ones are. Between 2^23 and 2^26, and for eccentricities above 1/2, nothing is claimed about doubles. The returned likelihood may be any double; its value is C65 to C67 in exact arithmetic.")
c("C100","proved","multi_target multi_lp multi_flat multi_peaks mixture_peaks multi_chains multi_mixes multi_rows multi_driven","Exact arithmetic; the chains as in C75 and C76: ideal draws, fixed widths and ladder, as after the burn-in of the sample input. multi_chains does not bound its constant c away from 0; multi_rows gives numbers, for a run that tunes nothing, and no claim is made about the tuned ladder of five ranks.")
c("C101","proved","launch_agrees launch_starts launch_expressed launch_samples launch_unreadable launch_differs launch_twice too_many_ranks too_few_ranks","mpirun is taken to start the number of processes given in digits; file name expansion by the shell is left out.")
c("C102","proved","Scripts.shown_rows Scripts.back_close Scripts.shown_of_run Scripts.plots_open_last Scripts.regression_plot Scripts.mixture_plot Scripts.plots_open_nothing","np.genfromtxt and Python's float are taken as in section 3 of DESIGN.md; what the library corner draws is not modelled. The directory of results is taken to be new.")
c("C103","proved","post_rounded move_tempered_doubles swap_tempered_doubles iteration_doubles swap_doubles run_swaps_doubles eggbox_swaps_doubles tame_swaps_doubles tame_moves_doubles eggbox_tame multi_tame regression_tame","The uniform count over generator states stands for the law of a draw, as in C93. Values that are NaN or infinite are covered by C16 and C93.")
c("C104","proved","uniform_saved_finite logunif_range_dbl bundled_saved_finite regression_blind","The first theorem holds for any rounding and any libm in which the square of NaN is NaN; log-uniform draws need binary64 with a correctly rounded log and exp, and a range of at least a factor of two.")
c("C105","proved","finish_together stopped_rank unwritable_line unwritable_file unwritable_ladder missing_data unreadable_data unreadable_data_silent","A call between the last barrier and the end of main does not fail in the model. Whether the MPI library aborts the other ranks or lets them wait is not modelled: both are executions.")
c("C106","proved","Compare.linReg_eq Compare.linReg_sample Compare.compare_ranges Compare.egg_shift Compare.curved_same","The samplers emcee and PTMCMCSampler and the starting points in the scripts are not modelled; numpy's functions stand for those of the C library.")
c("C107","proved","Build.prep_program Build.prep_keeps Build.prep_twice Build.links_iff Build.typed_iff Build.current_models_fit Build.older_models_differ Build.prep_overwrites Build.old_makefile","A source is represented by its quoted headers and by the names and types it defines and uses; that the sources compile is assumed. The tables of names were taken from the sources by a script and checked by reading.")
c("C108","proved","stack_headings ladder_file width_file lines_used","`lines_used` reads the lines off the two files for moves and swaps begun strictly inside a stack; `stack_headings` has the statement for all of them, by position in the log.")
c("C109","proved","Numpy.seventeen_digits Numpy.sixteen_digits Numpy.savetxt_program Numpy.savetxt_genfromtxt Numpy.savetxt_points Numpy.simulated_data","`np.savetxt`, `np.genfromtxt` and Python's `float` are modelled as far as they are used here; the sign of a zero is not represented.")
c("C110","proved","longer_run_extends longer_run_text","`written` leaves out only the records `note`, which the program does not write.")
c("C111","proved","save_begin_only_thins","")
c("C112","proved","chains_alone chain_of_seed chain_ignores_others","Root is left out because its generator also draws the batch lengths.")
c("C113","proved","few_in_flight two_broadcasts","A broadcast is a message from root to each other rank, as everywhere in the model; the second theorem shows that the bounds are reached.")
c("C114","proved","barriers_decide_nothing","About the variables and the lines; the bound of C113 on messages in flight does use the barriers.")
c("C115","proved","collectives_do_not_matter trees_do_not_matter tree_works","The messages of the trees are on the tag of the broadcasts, apart from the tags of the program; an implementation in general may use any tags.")
c("C116","proved","files_abreast","A row counts as written when the rank has called fprintf and fclose; what the file system keeps of it is not modelled.")
c("C117","proved","killed_run killed_text killed_buffered","In killed_run and killed_text a row counts as written when it has been printed; killed_buffered allows for rows of the last save that are not in the file. Iteration 0 is not meant by i (the hypothesis N >= 1 excludes it).")
c("C118","proved","stopped_abreast stopped_salvage","The MPI library does not end the other ranks when one ends; if it does, the run is a killed one (C116, C117).")
c("C119","proved","run_appends reruns_repeat reruns_exist reruns_read extend_repeats samples_rerun","Lines reach the file one by one (the program opens and closes it for every save). reruns_read is for finite rows, as C72.")
c("C120","proved","disk_contents disk_schedule seed_order_open","A line is appended as a whole, as POSIX does for one write in append mode; lines of the seed log are shorter than a buffer.")
c("C121","proved","no_directory","mkdir and fopen are the operating system's: in a missing directory every fopen fails. What MPI does to the other ranks when one ends by exit(3) is left open; they may at most be stopped earlier.")
c("C122","proved","shared_starts neighbour_starts started_together neighbour_runs","Root is 0, as in main.c. The chain of root is only shown to start from the shared point, since its generator also draws the batch lengths.")
c("C123","proved","nlines_signed nlines_unsigned nlines_model","getc returns EOF again and again at the end of a file. line_number is taken not to overflow.")
json.dump({"claims":C},open('/verif/MANIFEST.json','w'),indent=1)
