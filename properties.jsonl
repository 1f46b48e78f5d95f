{"id": "C01", "title": "No schedule can deadlock a run", "statement": "Started on n >= 2 ranks with a valid configuration, the program never reaches a state in which some rank has not finished and no rank can move, whether or not the MPI library buffers standard-mode sends.", "quantifier": "all rank counts n >= 2, all valid configurations, all interleavings of the ranks, all buffering decisions of the MPI library", "why_tests_cant": "A deadlock depends on the interleaving and on the library's eager limit; a test run exercises one schedule of one MPI library.", "anchors": ["main.c:main", "mpi_init.c:mpi_gen_init_parm", "mpi_init.c:mpi_init_calc_logllpp", "mpi_batch.c:mpi_run_a_batch", "mpi_stack.c:mpi_static_sigma_stack", "mpi_stack.c:mpi_judge_and_swap", "mpi_flow.c:mpi_entire_flow", "mpi_flow.c:mpi_gather_sigma_prop_root", "mpi_flow.c:mpi_distribute_sigma_prop_root", "mpi_tune.c:mpi_tune_sigma_irank", "mpi_ladder.c:mpi_distribute_running_Beta_root"]}
{"id": "C02", "title": "The result does not depend on the schedule", "statement": "Two runs with the same input file, data file, seed and rank count that both finish, end with the same chain states, proposal widths, temperature ladder and, for every rank, the same sequence of lines written, however the ranks were interleaved.", "quantifier": "all pairs of complete executions of the same configuration", "why_tests_cant": "Nondeterminism shows up only under schedules that a test may never hit; equality over all schedules is a confluence statement.", "anchors": ["main.c:main", "mpi_flow.c:mpi_entire_flow", "mpi_stack.c:mpi_static_sigma_stack", "mpi_batch.c:mpi_run_a_batch"]}
{"id": "C03", "title": "Every message received is the one meant for that receive", "statement": "In every execution each receive gets a message of the type and length it declares, sent by the rank and for the purpose it expects, and when all ranks have finished no message is left undelivered.", "quantifier": "all executions, all rank counts, all parameter counts", "why_tests_cant": "A tag mix-up between phases only corrupts data when one rank runs ahead of another, which a test cannot force exhaustively.", "anchors": ["mpi_batch.c:mpi_run_a_batch", "mpi_stack.c:mpi_judge_and_swap", "mpi_stack.c:mpi_static_sigma_stack", "mpi_init.c:mpi_gen_init_parm", "mpi_tune.c:mpi_tune_sigma_iparmNrank", "mpi_ladder.c:mpi_distribute_running_Beta_root"]}
{"id": "C04", "title": "The distributed run computes what a single-process run would compute", "statement": "The final state and the per-rank output of the distributed program equal those of a sequential program that keeps all chains in one table and executes the ranks one after another.", "quantifier": "all rank counts n >= 2, all valid configurations, all user likelihoods and priors, all arithmetic implementations", "why_tests_cant": "A refinement between two programs over all inputs; testing compares finitely many runs.", "anchors": ["mpi_batch.c:mpi_run_a_batch", "mpi_stack.c:mpi_static_sigma_stack", "mpi_flow.c:mpi_entire_flow"]}
{"id": "C05", "title": "The rank helping with a swap is a valid rank other than root", "statement": "For any root rank and any world of at least two ranks, the rank that root asks to evaluate the second half of a swap exists and is not root itself.", "quantifier": "all root ranks, all world sizes n >= 2", "why_tests_cant": "The tests run with root 0 only.", "anchors": ["mpi_stack.c:mpi_static_sigma_stack", "mpi_stack.c:max", "mpi_stack.c:min"]}
{"id": "C06", "title": "Batches partition a stack exactly", "statement": "When n_iter_a_batch_rand < n_iter_a_batch_base and the stack length is positive, a stack is cut into finitely many batches, each of length between 1 and base+rand, whose lengths sum to exactly the stack length, for every sequence of random draws. When rand >= base there are draws for which a batch of length <= 0 occurs, and the batch routine then accesses memory out of bounds.", "quantifier": "all base, rand, stack lengths and all sequences of random draws", "why_tests_cant": "The batch lengths are random; the boundary behaviour at the end of the stack needs an argument over all draws.", "anchors": ["mpi_stack.c:mpi_static_sigma_stack", "rand_func.c:i4_unif_ab", "mpi_batch.c:iter_batch_mh"]}
{"id": "C07", "title": "Every chain performs exactly N_iter iterations", "statement": "For every valid configuration the run stops, and each chain has then performed exactly N_iter Metropolis-Hastings iterations, no matter how stacks and batches were cut and whether N_iter is a multiple of the stack length.", "quantifier": "all N_iter >= 0, stack lengths >= 1, batch parameters, random draws", "why_tests_cant": "Off-by-one at the truncation of the last stack or batch appears for specific residues only.", "anchors": ["mpi_flow.c:mpi_entire_flow", "mpi_stack.c:mpi_static_sigma_stack", "mpi_batch.c:iter_batch_mh"]}
{"id": "C08", "title": "All ranks stay at the same iteration", "statement": "Whenever the ranks synchronise between batches, all ranks have the same iteration counter, so every rank takes the same branch at every decision that depends on the counter.", "quantifier": "all executions, all synchronisation points", "why_tests_cant": "If one rank disagreed it would hang only at a later collective; needs an invariant over all executions.", "anchors": ["mpi_batch.c:iter_batch_mh", "mpi_stack.c:mpi_static_sigma_stack", "mpi_flow.c:mpi_entire_flow"]}
{"id": "C09", "title": "One batch is the textbook Metropolis-Hastings chain", "statement": "A batch of n >= 1 iterations started from a state returns the n states of the Metropolis-Hastings recursion started there (propose, reflect into the prior box, accept or keep), although the routine stores the starting state in the row it is about to overwrite; a batch of length <= 0 is undefined behaviour.", "quantifier": "all batch lengths n >= 1, all starting states, all proposal widths, all random draws, all likelihoods", "why_tests_cant": "The aliasing of the first row with the previous state is correct for reasons that hold for every draw sequence; a test samples a few.", "anchors": ["mpi_batch.c:iter_batch_mh", "mpi_batch.c:do_gaussian_propose"]}
{"id": "C10", "title": "The acceptance rule accepts with probability min(1, exp(delta))", "statement": "The implemented two-stage test (accept at once if the log-posterior rises, else compare a uniform draw with the ratio) accepts exactly when u < min(1, exp(delta)), so the accepting draws have measure min(1, exp(delta)).", "quantifier": "all real log-posterior differences, all draws in [0,1)", "why_tests_cant": "A statement about a continuum of draws and about a measure.", "anchors": ["mpi_batch.c:iter_batch_mh", "mpi_tune.c:iter_batch_mh_tune"]}
{"id": "C11", "title": "The acceptance rule satisfies detailed balance for the tempered posterior", "statement": "For a symmetric proposal, the flow of probability from state x to state y equals the flow from y to x under the density exp(beta*loglik + logprior), so the update leaves the tempered posterior invariant.", "quantifier": "all pairs of states, all temperatures, all log-posteriors; as a kernel statement, all symmetric proposal kernels", "why_tests_cant": "Correct stationary distribution is a statement about integrals over the state space.", "anchors": ["mpi_batch.c:iter_batch_mh", "mpi_batch.c:do_gaussian_propose"]}
{"id": "C12", "title": "Each stored log-posterior belongs to the stored parameters", "statement": "Within a batch, every row written carries as log-posterior the value loglik(row, beta)+logprior(row) under the beta the chain is running with, provided the value handed to the batch was that of its starting state.", "quantifier": "all batches, all rows", "why_tests_cant": "Needs an induction over accept and reject decisions.", "anchors": ["mpi_batch.c:iter_batch_mh", "mpi_batch.c:save_the_batch"]}
{"id": "C13", "title": "Log-posteriors stay in step with chain and temperature over the whole run", "statement": "At every batch boundary of a run the log-posterior kept for a chain equals loglik(state, beta)+logprior(state) for the chain's current state and the chain's current beta. (Holds while the ladder is not retuned; after a ladder update the kept values still refer to the old betas.)", "quantifier": "all reachable states of all runs", "why_tests_cant": "A stale cached value does not crash; it biases acceptance silently.", "anchors": ["mpi_stack.c:mpi_static_sigma_stack", "mpi_stack.c:mpi_judge_and_swap", "mpi_ladder.c:mpi_adjust_ladder", "mpi_batch.c:mpi_run_a_batch"]}
{"id": "C14", "title": "Iteration and acceptance columns count correctly", "statement": "In each rank's chain file the iteration column rises by exactly one per row within and across batches, the acceptance column rises by one exactly on rows that accepted the proposal and by zero otherwise, and acceptance never exceeds iteration.", "quantifier": "all runs, all rows", "why_tests_cant": "Counter drift across batch and stack boundaries would need long runs and every accept/reject pattern.", "anchors": ["mpi_batch.c:iter_batch_mh", "mpi_batch.c:save_the_batch", "mpi_init.c:save_first_chain"]}
{"id": "C15", "title": "Saved parameters are always inside the prior box", "statement": "If each parameter's minimum does not exceed its maximum, every row written to a chain file has every parameter between its minimum and maximum, including after swaps.", "quantifier": "all runs, all rows, all proposal widths, all draws for which arithmetic yields no NaN", "why_tests_cant": "A proposal may be arbitrarily far outside; tests see typical steps only.", "anchors": ["models/multi_gaussian/user_prior.c:para_boundary", "models/regression/user_prior.c:para_boundary", "mpi_batch.c:iter_batch_mh", "mpi_stack.c:swap_two_chains"]}
{"id": "C16", "title": "A NaN log-posterior never enters a chain, and never leaves one", "statement": "A proposal whose log-posterior is NaN is rejected for every draw; a chain whose own log-posterior is NaN rejects every proposal and every swap, so it never moves again.", "quantifier": "all draws, all proposals, all lengths of run", "why_tests_cant": "NaN comparisons take the branches tests rarely reach; 'never' is over all continuations.", "anchors": ["mpi_batch.c:iter_batch_mh", "mpi_stack.c:mpi_judge_and_swap"]}
{"id": "C17", "title": "The chain file holds the initial state and a gap-free suffix of the run", "statement": "Rank r's chain file consists of the initial state (row 0) followed by the rows of consecutive iterations m+1..N_iter, where every iteration >= i_save_begin is present exactly once and fewer than one batch of earlier iterations is included.", "quantifier": "all runs, all i_save_begin, all batch cuts", "why_tests_cant": "The save decision is taken per batch with random batch lengths.", "anchors": ["mpi_batch.c:iter_batch_mh", "mpi_batch.c:save_the_batch", "mpi_init.c:save_first_chain"]}
{"id": "C18", "title": "Acceptance rates are proper fractions", "statement": "The acceptance rate computed for a stack and for a tuning run lies in [0,1] and equals accepted/performed iterations of exactly that stack or tuning run.", "quantifier": "all stacks and tuning runs", "why_tests_cant": "Depends on counters carried across stacks for unbounded runs.", "anchors": ["mpi_flow.c:mpi_entire_flow", "mpi_tune.c:iter_batch_mh_tune"]}
{"id": "C19", "title": "Swap partners are two different existing chains", "statement": "With n >= 2 ranks and Swapmode 0 or 1 the two chains chosen for a swap are different and both indices are below n, for every draw; Swapmode 0 always picks neighbours. With one rank, or an unknown Swapmode, this fails.", "quantifier": "all n, all draws, all Swapmode values", "why_tests_cant": "Boundary draws (u close to 1) have tiny probability in a test.", "anchors": ["mpi_stack.c:mpi_static_sigma_stack", "mpi_stack.c:mpi_judge_and_swap", "rand_func.c:i4_unif_0a"]}
{"id": "C20", "title": "A swap only permutes chain states", "statement": "A swap attempt either changes nothing or exchanges exactly the two selected chains' parameter vectors; every other chain, every beta, every proposal width and every counter is unchanged, so the multiset of states is preserved over any number of swaps.", "quantifier": "all states, all swap sequences", "why_tests_cant": "Preservation over arbitrary sequences is an invariant.", "anchors": ["mpi_stack.c:mpi_judge_and_swap", "mpi_stack.c:swap_two_chains"]}
{"id": "C21", "title": "The swap ratio is the parallel-tempering ratio", "statement": "When the stored log-posteriors are in step, the swap of chains i and j is accepted with probability min(1, exp((beta_i-beta_j)*(L(x_j)-L(x_i)))), where L is the untempered log-likelihood; priors cancel, and the swap satisfies detailed balance for the product of the tempered posteriors.", "quantifier": "all states, all betas, all likelihoods linear in beta", "why_tests_cant": "A statement on real-valued functions and a measure over draws.", "anchors": ["mpi_stack.c:mpi_judge_and_swap"]}
{"id": "C22", "title": "Swap tallies are consistent", "statement": "At the end of a stack, for every chain index the number of accepted swaps is at most the number of proposed swaps, and the proposed swaps over all indices sum to N_swap times the number of batches in that stack.", "quantifier": "all stacks, all draws", "why_tests_cant": "Invariant over arbitrarily many batches.", "anchors": ["mpi_stack.c:mpi_static_sigma_stack"]}
{"id": "C23", "title": "Pair-wise swap rates describe the pair they are attributed to", "statement": "The swap rate that the ladder update attributes to neighbours i and i+1 counts swaps between i and i+1 only. (Holds for Swapmode 0; false for Swapmode 1, where the partner is arbitrary.)", "quantifier": "all swap sequences", "why_tests_cant": "Needs reasoning about what each tally means, not about one run's numbers.", "anchors": ["mpi_stack.c:mpi_static_sigma_stack", "mpi_stack.c:mpi_judge_and_swap", "mpi_ladder.c:tune_ladder_use_3_neighb"]}
{"id": "C24", "title": "Ladder tuning keeps the two end temperatures", "statement": "No ladder update changes the first or the last beta, so the coldest and hottest chains keep their configured temperature for the whole run.", "quantifier": "all ladders, all swap tallies, any number of updates", "why_tests_cant": "Over all tallies and unbounded update sequences.", "anchors": ["mpi_ladder.c:tune_ladder_use_3_neighb", "mpi_ladder.c:mpi_adjust_ladder"]}
{"id": "C25", "title": "Ladder tuning keeps every beta positive", "statement": "If all betas are positive, 0 <= zero_stretch <= 1 and 0 <= scale_tune_ladder <= 1, all betas are positive after any number of ladder updates.", "quantifier": "all ladders, tallies (including pairs never proposed), update sequences", "why_tests_cant": "A negative or zero temperature arises only for special tallies.", "anchors": ["mpi_ladder.c:tune_ladder_use_3_neighb"]}
{"id": "C26", "title": "Ladder tuning keeps the ladder ordered", "statement": "If betas are strictly increasing before a ladder update they are strictly increasing after it. (False in the code as it stands: a zero swap rate between two working pairs makes both chains jump past each other; true for the update of a single inner chain away from the extreme cases.)", "quantifier": "all strictly increasing ladders, all tallies", "why_tests_cant": "The inversion needs a particular pattern of tallies.", "anchors": ["mpi_ladder.c:tune_ladder_use_3_neighb"]}
{"id": "C27", "title": "Ladder tuning stays within the configured temperature range", "statement": "After a ladder update every beta lies between the first and the last beta. (False in general: the geometric reset uses the already moved neighbour and can overshoot the coldest chain; shown for the cases where it holds.)", "quantifier": "all strictly increasing ladders, all tallies", "why_tests_cant": "Overshoot needs specific spacing and tallies.", "anchors": ["mpi_ladder.c:tune_ladder_use_3_neighb"]}
{"id": "C28", "title": "The ladder is frozen when it should be", "statement": "If Tune_Ladder <= 0, betas never change during a run; otherwise betas do not change once the iteration counter has reached N_stopTuneLadder.", "quantifier": "all runs", "why_tests_cant": "Over all continuations of a run.", "anchors": ["mpi_stack.c:mpi_static_sigma_stack", "mpi_ladder.c:mpi_adjust_ladder"]}
{"id": "C29", "title": "All ranks use the same ladder", "statement": "Whenever a batch or swap is computed, the beta that a rank uses for chain i is the beta that root holds for chain i.", "quantifier": "all executions", "why_tests_cant": "Replicated state diverges only under particular message orders.", "anchors": ["mpi_ladder.c:mpi_distribute_running_Beta_root", "mpi_ladder.c:mpi_adjust_ladder", "mpi_stack.c:mpi_judge_and_swap"]}
{"id": "C30", "title": "Tuning happens only in its window and only for ranks that need it", "statement": "A stack is followed by proposal tuning exactly when its end index is above N_begintune and below both N_stoptune and N_iter, and then a rank is tuned exactly when its acceptance rate is not strictly between ar_ok_lower and ar_ok_upper (a NaN rate is tuned).", "quantifier": "all configurations, all stacks, all rates", "why_tests_cant": "Boundary values of three thresholds combined.", "anchors": ["mpi_flow.c:mpi_entire_flow", "mpi_flow.c:mpi_find_ranks2tune"]}
{"id": "C31", "title": "Proposal tuning does not disturb the sampling", "statement": "Tuning changes no chain state, log-posterior, beta, iteration or acceptance counter; it can only change the proposal widths of the rank being tuned, and after it each rank samples with its own widths again.", "quantifier": "all tuning passes of all runs", "why_tests_cant": "A frame property over all memory and all tuning outcomes.", "anchors": ["mpi_tune.c:mpi_tune_sigma_irank", "mpi_tune.c:mpi_tune_sigma_iparmNrank", "mpi_flow.c:mpi_entire_flow", "mpi_tune.c:modify_sigma_prop_rankintune"]}
{"id": "C32", "title": "A tuned width comes from the grid or the initial widths", "statement": "After tuning a rank, each of its proposal widths is unchanged, or one of the n_ranks grid values tried for that parameter, or the initial width of that parameter.", "quantifier": "all outcomes of the tuning runs", "why_tests_cant": "Case analysis over all decision outcomes and random tie-breaks.", "anchors": ["mpi_tune.c:modify_sigma_prop_rankintune", "mpi_tune.c:decide_sigma_to_change", "mpi_tune.c:race_all_parm"]}
{"id": "C33", "title": "The tuning grid is geometric, increasing and spans the requested range", "statement": "For two or more ranks and half ratio h > 1 the n trial widths increase strictly, have a constant ratio, start at base/h and end at base*h; for one rank the grid is NaN.", "quantifier": "all base > 0, h > 1, n >= 2", "why_tests_cant": "For all sizes and real inputs.", "anchors": ["mpi_tune.c:create_logspace_array"]}
{"id": "C34", "title": "Trial widths stay inside the allowed range", "statement": "If 0 < sigma_min, 1 <= jump ratio and sigma_min * jump ratio <= sigma_max, every trial width lies in [sigma_min, sigma_max]; without the last condition a trial width can fall outside.", "quantifier": "all base, half ratio >= 1, bounds and ratios meeting the condition", "why_tests_cant": "Interaction of two successive re-centrings for all reals.", "anchors": ["mpi_tune.c:check_bounceInside_sigma_boundary", "mpi_tune.c:create_logspace_array", "mpi_tune.c:gen_sigma_alltune"]}
{"id": "C35", "title": "Proposal widths stay inside the allowed range for the whole run", "statement": "If the initial widths are inside their allowed ranges and the range admits the jump ratio, all proposal widths used by any rank stay inside their allowed range during the whole run.", "quantifier": "all runs", "why_tests_cant": "Invariant over unbounded tuning passes.", "anchors": ["mpi_tune.c:modify_sigma_prop_rankintune", "models/multi_gaussian/user_prior.c:calc_sigma_scale_boundary", "models/multi_gaussian/user_prior.c:init_gaussian_proposal", "mpi_flow.c:mpi_entire_flow"]}
{"id": "C36", "title": "Extremum searches return the first extremum", "statement": "The index helpers used by tuning return the first index of a minimum or maximum, and the searches for the acceptance rate closest to ar_best return an entry at least as close as every other entry.", "quantifier": "all non-empty arrays of any size", "why_tests_cant": "For all lengths and contents including ties.", "anchors": ["mpi_tune.c:argmin", "mpi_tune.c:argmax", "mpi_tune.c:calc_closest_ar_oneparm", "mpi_tune.c:calc_closest_ar"]}
{"id": "C37", "title": "The tuning decision picks an acceptable width when there is one", "statement": "If some trial rate is closer to ar_best than ar_accept_diff, the decision is to install one single trial width whose rate is that close; otherwise it is to reset to initial widths or to install per-parameter best widths. The case 'best of one row acceptable but best overall not' never occurs.", "quantifier": "all rate tables, all draws", "why_tests_cant": "Case analysis over real tables of any size.", "anchors": ["mpi_tune.c:decide_sigma_to_change", "mpi_tune.c:calc_closest_ar", "mpi_tune.c:calc_closest_ar_oneparm"]}
{"id": "C38", "title": "Random index helper stays in range", "statement": "i4_unif_0a(a) returns a value in 0..a-1 for every a >= 1 representable as int and every draw, also under double rounding, and each value is equally likely.", "quantifier": "all a >= 1, all draws in [0,1) of the 48-bit generator", "why_tests_cant": "Off-by-one at u close to 1 occurs with probability 2^-48.", "anchors": ["rand_func.c:i4_unif_0a"]}
{"id": "C39", "title": "Random batch-length helper stays in range", "statement": "i4_unif_ab(a,b) returns a value in a..b for all a <= b and every draw.", "quantifier": "all a <= b, all draws", "why_tests_cant": "Extreme draws are too rare to test.", "anchors": ["rand_func.c:i4_unif_ab"]}
{"id": "C40", "title": "Random integers are uniform on a..b", "statement": "i4_unif_ab(a,b) returns each integer of a..b with the same probability. (False: the two end points have half the probability of the inner ones.)", "quantifier": "all a < b, each value", "why_tests_cant": "A probability statement; a statistical test gives evidence only.", "anchors": ["rand_func.c:i4_unif_ab"]}
{"id": "C41", "title": "Uniform and log-uniform draws lie in their interval and have the stated law", "statement": "r8_unif_ab(a,b) and r8_logunif_ab(a,b) return values in [a,b], and the probability of a value below x is (x-a)/(b-a), respectively log(x/a)/log(b/a).", "quantifier": "all a < b (0 < a for log-uniform), all draws, all x in the interval", "why_tests_cant": "A distribution statement.", "anchors": ["rand_func.c:r8_unif_ab", "rand_func.c:r8_logunif_ab", "models/regression/user_prior.c:init_parm_set"]}
{"id": "C42", "title": "Ranks never share a random stream in lock-step", "statement": "For at most 2^32 ranks, different ranks are seeded differently and after any number of draws two ranks that have made the same number of draws since seeding are in different generator states; every generator value is in [0,1).", "quantifier": "all seeds, all rank pairs, all numbers of draws", "why_tests_cant": "Over all seeds and unbounded draw counts.", "anchors": ["mpi_init.c:mpi_gen_init_parm", "models/multi_gaussian/user_prior.c:init_parm_set"]}
{"id": "C43", "title": "A non-positive seed requests the system clock", "statement": "As the input file documents, init_rand_seed <= 0 makes the run use the system time. (False for negative values: the value is read as unsigned and used as a fixed seed.)", "quantifier": "all integers written in the input file", "why_tests_cant": "The sign conversion is invisible in a run's behaviour.", "anchors": ["main.c:main", "readin.c:read_sampling_para", "input.ini:init_rand_seed"]}
{"id": "C44", "title": "Reflection puts any proposal into the box and leaves inside points alone", "statement": "For min <= max the boundary routine maps every non-NaN value (also infinities, also with rounding) into [min,max], is the identity inside, and equals mirror reflection when the excess is at most the width of the box.", "quantifier": "all bounds, all proposals, any monotone rounding", "why_tests_cant": "For all reals.", "anchors": ["models/multi_gaussian/user_prior.c:para_boundary", "models/fit_orbit/user_prior.c:bounce_inside"]}
{"id": "C45", "title": "The reflected proposal is symmetric", "statement": "The density of proposing y from x equals that of proposing x from y, as detailed balance requires. (True for the reflected part; false overall since proposals overshooting by more than the box width are put exactly on a boundary with positive probability.)", "quantifier": "all widths, all pairs of points", "why_tests_cant": "A statement about a probability kernel.", "anchors": ["models/multi_gaussian/user_prior.c:para_boundary", "mpi_batch.c:do_gaussian_propose"]}
{"id": "C46", "title": "Initial parameters and widths are inside the prior box and positive", "statement": "For min <= max (0 < min for log-uniform) every rank's initial parameters lie in the prior box for every seed, and initial widths are (max-min)*init_gp_ratio.", "quantifier": "all seeds, ranks and bounds", "why_tests_cant": "All 2^32 seeds.", "anchors": ["models/multi_gaussian/user_prior.c:init_parm_set", "models/regression/user_prior.c:init_parm_set", "models/multi_gaussian/user_prior.c:init_gaussian_proposal"]}
{"id": "C47", "title": "A parameter is read from the one line that mentions it", "statement": "Reading a parameter succeeds exactly when exactly one line of the input file contains the parameter's name (anywhere in the line, comments included) and that line fits the 100 byte buffer; zero or several such lines lead to a null pointer passed to the scanner, a longer line to a buffer overflow.", "quantifier": "all input files, all names", "why_tests_cant": "Over all files.", "anchors": ["readin.c:read_onepara", "readin.c:read_chains_grid"]}
{"id": "C48", "title": "A written configuration is read back unchanged", "statement": "For a configuration file with one 'name: value' line per parameter, in any order and with any comment lines not mentioning a name, every parameter is read as its written value.", "quantifier": "all values in range, all line orders, all harmless comments", "why_tests_cant": "Round trip for all values.", "anchors": ["readin.c:read_chains_grid", "readin.c:read_sampling_para", "readin.c:read_chain_out_name", "readin.c:read_data_desc", "input.ini"]}
{"id": "C49", "title": "The list of betas is read completely or not used", "statement": "Reading Beta_Values fills the table with the listed values in order when their number equals N_beta. When it does not, the code either writes past the table (more values) or continues with a null table (fewer), which the first use dereferences.", "quantifier": "all lists, all N_beta", "why_tests_cant": "Over all lengths.", "anchors": ["readin.c:read_beta_values", "readin.c:read_input_ini", "main.c:main"]}
{"id": "C50", "title": "No parameter name hides inside another", "statement": "No name that the program looks up is a substring of another name it looks up, so a file that defines each once defines each uniquely.", "quantifier": "all pairs of names read by the program and by the bundled models", "why_tests_cant": "Finite, but the consequence (uniqueness in every file of that form) is not.", "anchors": ["readin.c:read_chains_grid", "readin.c:read_sampling_para", "models/hier_R/user_prior.c:read_parm_range"]}
{"id": "C51", "title": "Data rows counted are data rows stored", "statement": "The number of rows allocated for the data equals the number of rows stored if and only if the file is empty or ends with a newline (and contains no byte 0xFF); a file whose last line is unterminated makes the loader write a row past the end of the table.", "quantifier": "all files", "why_tests_cant": "Over all byte sequences.", "anchors": ["data_loader.c:get_nlines_of_file", "data_loader.c:read_data", "main.c:main"]}
{"id": "C52", "title": "A written data table is read back unchanged on every rank", "statement": "A file with one line per row and exactly ndim_data delimited numbers per line is loaded so that entry (i,j) on every rank is number j of line i; a line with fewer numbers is undefined behaviour.", "quantifier": "all tables of any size", "why_tests_cant": "Round trip over all tables.", "anchors": ["data_loader.c:read_data", "data_loader.c:mpi_data_loader"]}
{"id": "C53", "title": "Two- and three-dimensional tables do not alias", "statement": "Distinct index tuples of an allocated table refer to distinct cells of one contiguous block and stay inside it; rows are contiguous so that a row can be sent as one message.", "quantifier": "all dimensions >= 1, all index tuples", "why_tests_cant": "For all sizes.", "anchors": ["alloc.c:alloc_2d_double", "alloc.c:alloc_3d_double"]}
{"id": "C54", "title": "Each chain has its own output file", "statement": "For different ranks the chain file names differ if they fit in Fout_Len; if they are cut, two ranks can write to the same file.", "quantifier": "all prefixes, suffixes, directories, ranks, Fout_Len", "why_tests_cant": "Over all strings and ranks.", "anchors": ["mpi_batch.c:save_the_batch", "mpi_init.c:save_first_chain"]}
{"id": "C55", "title": "Only the seed log is written by more than one rank", "statement": "In every execution each output file other than the seed log receives lines from one rank only, so its content is determined by that rank's sequence of writes.", "quantifier": "all executions", "why_tests_cant": "Concurrent appends interleave unpredictably.", "anchors": ["mpi_init.c:save_the_seed", "mpi_init.c:save_first_chain", "mpi_batch.c:save_the_batch", "mpi_flow.c:save_sigma_gauss_prop", "mpi_stack.c:save_debug_Beta_Values"]}
{"id": "C56", "title": "Bundled likelihoods are tempered linearly", "statement": "For the bundled models the log-likelihood at temperature beta is beta times the log-likelihood at beta = 1, and is zero at beta = 0 whenever it is finite.", "quantifier": "all parameters, data sets and betas", "why_tests_cant": "For all reals.", "anchors": ["models/multi_gaussian/user_logll.c:logll_beta", "models/regression/user_logll.c:logll_beta", "models/rastrigin/user_logll.c:logll_beta", "models/eggbox/user_logll.c:logll_beta", "models/curved_likelihood/user_logll.c:logll_beta"]}
{"id": "C57", "title": "The regression log-likelihood is the Gaussian log-likelihood", "statement": "For noise d > 0 the regression model's log-likelihood equals the sum over data rows of the log density of Normal(a*x+b, d) at y, and exponentiating it gives the product of densities.", "quantifier": "all data sets of any size, all a, b, all d > 0", "why_tests_cant": "Identity over all reals and sizes.", "anchors": ["models/regression/user_logll.c:logll_beta", "rand_func.c:normal_pdf"]}
{"id": "C58", "title": "Bundled test likelihoods are bounded as documented", "statement": "The Rastrigin sum is non-negative and zero only at integer optimum 0, the egg-box value lies in its stated range, and the Gaussian mixtures are positive, so their log-likelihoods are never +infinity or NaN inside the box except log 0 at the Rastrigin optimum.", "quantifier": "all parameter vectors", "why_tests_cant": "For all reals.", "anchors": ["models/rastrigin/user_logll.c:logll_beta", "models/eggbox/user_logll.c:logll_beta", "models/multi_gaussian/user_logll.c:logll_beta", "models/curved_likelihood/user_logll.c:logll_beta"]}
{"id": "C59", "title": "Bundled priors are normalised densities", "statement": "The uniform and log-uniform priors of the regression and Rastrigin models integrate to one over the prior box and their logarithms are finite inside it.", "quantifier": "all bounds min < max (0 < min for log-uniform)", "why_tests_cant": "An integral.", "anchors": ["models/regression/user_prior.c:log_prior", "models/rastrigin/user_prior.c:log_prior"]}
{"id": "C60", "title": "The width-range check reports exactly the bad ranges", "statement": "The routine computing allowed proposal widths returns success exactly when for every parameter 0 <= sigma_min, 0 <= sigma_max and sigma_min <= sigma_max.", "quantifier": "all bounds and scales", "why_tests_cant": "Over all reals.", "anchors": ["models/multi_gaussian/user_prior.c:calc_sigma_scale_boundary"]}
{"id": "C61", "title": "Standard normal draws have the normal law", "statement": "The Box-Muller helper maps two independent uniform draws to a standard normal value.", "quantifier": "all thresholds", "why_tests_cant": "A distribution statement.", "anchors": ["rand_func.c:r8_normal_01", "rand_func.c:r8_normal_ab"]}
{"id": "C62", "title": "The output directory is made before anything is written", "statement": "In every run the root makes the result directory once, and this happens before any process writes any line of output.", "quantifier": "all configurations, schedules and process counts", "why_tests_cant": "A test sees one interleaving of the processes, and usually an already existing directory.", "anchors": ["main.c:main", "readin.c:make_dir"]}
{"id": "C63", "title": "Consecutively seeded streams are shifted copies of each other", "statement": "Ranks are seeded with consecutive integers, so after the same number k of draws the generator states of two ranks whose seeds differ by d differ by A^k * d * 2^16 modulo 2^48, a number independent of the start seed; in particular their low 16 bits are always equal. The streams are distinct (C42) but not independent.", "quantifier": "all seeds, all seed differences, all numbers of draws", "why_tests_cant": "A test of a finite stretch cannot show that the relation holds for every seed and for ever.", "anchors": ["mpi_init.c:mpi_gen_init_parm", "models/multi_gaussian/user_prior.c:init_parm_set"]}
{"id": "C64", "title": "The solver of Kepler's equation stops and solves it", "statement": "For every mean anomaly and every eccentricity from 0 to 1/2 (the range of the sample configuration) the Newton iteration of the orbit model, whose loop has no bound, stops after at most five steps and returns the unique solution of Kepler's equation up to 1e-16; for eccentricities below sqrt(3)-1 it stops and the error is bounded by the square of the tolerance.", "quantifier": "all mean anomalies, all eccentricities in the range", "why_tests_cant": "An unbounded loop: a test can only try some anomalies, and a run that does not stop looks like a slow one.", "anchors": ["models/fit_orbit/user_logll.c:newton_solver"]}
{"id": "C65", "title": "Predicted positions lie on the tilted Kepler ellipse", "statement": "At every time the orbit model predicts the point of an ellipse with the given eccentricity, focus at the star, turned by the argument of the periapsis, the inclination and the node, at the eccentric anomaly that Kepler's equation gives for that time; in particular no prediction is further away than the apoapsis.", "quantifier": "all orbit parameters with eccentricity up to 1/2, all times", "why_tests_cant": "The six formulas of Thiele and Innes can be wrong in signs that no fixed orientation reveals.", "anchors": ["models/fit_orbit/user_logll.c:func_as"]}
{"id": "C66", "title": "The orbit size obeys the third law", "statement": "The semi-major axis computed from a period satisfies Kepler's third law with the constants of the source, for every period and stellar mass.", "quantifier": "all periods, all masses", "why_tests_cant": "A statement about all periods.", "anchors": ["models/fit_orbit/user_logll.c:period_to_au"]}
{"id": "C67", "title": "The orbit likelihood is the product of normal densities", "statement": "The log-likelihood of the orbit model is the sum of the normal log densities of both coordinates of all measurements around the sum of the two planets' motions, times beta, up to a constant that does not depend on the parameters; all reads stay inside the data table.", "quantifier": "all parameters with positive width and eccentricities up to 1/2, all tables", "why_tests_cant": "A wrong constant or pairing of the rows changes the posterior but no observable behaviour.", "anchors": ["models/fit_orbit/user_logll.c:log_likelihood", "models/fit_orbit/user_logll.c:logll_beta"]}
{"id": "C68", "title": "The hierarchical likelihood of one measurement is a product of three normal densities", "statement": "For a positive true x the log-likelihood of one measurement is the sum of the normal log densities of the measured y around the true y, of the true y around the power law of the true x with a width that is a power of it, and of the measured x around the true x, up to a constant below 1e-15 for each factor.", "quantifier": "all parameters, all measurements", "why_tests_cant": "A statement about all parameters.", "anchors": ["models/hier_R/user_logll.c:logllhd_Vdevi_V", "models/hier_R/user_logll.c:logllhd_Vdevi_V_plusgamma", "models/hier_R/user_logll.c:logllhd_oneMeasure"]}
{"id": "C69", "title": "The hierarchical likelihood visits exactly the described planets", "statement": "On every table whose first section describes the planets in increasing order of their lines and whose first measurement does not look like such a description, the likelihood reads no row outside the table, stops, and is beta times the sum over exactly the described planets. Without the condition on the first measurement it can read behind the table.", "quantifier": "all such tables, all parameters, all arithmetics", "why_tests_cant": "The loop ends only because of the values of the first measurement; a test sees one table.", "anchors": ["models/hier_R/user_logll.c:logll_beta", "models/hier_R/user_logll.c:logll_one_planet", "models/hier_R/user_logll.c:calc_mean"]}
{"id": "C70", "title": "Which trial the tuning decision installs", "statement": "In exact arithmetic the first candidate is the closest trial of the first parameter whose trial rates have the largest standard deviation, the second is the closest trial of the whole table. If the first candidate is acceptable one draw chooses between the two (first when above one half); if only the second is acceptable it is installed without a draw; otherwise one draw chooses between initial widths and per-parameter best widths. The draw is above one half for 2^47-1 of the 2^48 generator states.", "quantifier": "all rate tables of any size, all generator states, all runs", "why_tests_cant": "Needs all tables, ties included, and a count over 2^48 states.", "anchors": ["mpi_tune.c:decide_sigma_to_change", "mpi_tune.c:calc_SD_allParm", "mpi_tune.c:modify_sigma_prop_rankintune", "mpi_tune.c:race_all_parm"]}
{"id": "C71", "title": "Where the curved likelihood underflows and what the chain does there", "statement": "In IEEE binary64 the computed curved log-likelihood is minus infinity at every point of the sample box at which both exponents exceed 747, although the exact value is finite, and it is finite wherever the first exponent is at most 744 or the second at most 742. A chain in the underflow region rejects every proposal in that region and, at positive temperatures, takes part in no swap, although the acceptance rule for exact values would move it towards larger likelihood.", "quantifier": "all points of the box, all proposals, all draws, all swap partners", "why_tests_cant": "A chain standing still in a flat region looks like a low acceptance rate.", "anchors": ["models/curved_likelihood/user_logll.c:value_calc", "mpi_batch.c:iter_batch_mh", "mpi_stack.c:mpi_judge_and_swap"]}
{"id": "C72", "title": "The output files can be read back", "statement": "In every execution with names that fit, only rank r writes into its chain file and, when the numbers written are finite, the program's own data reader loads the file as a table with one line per row and N_parm+3 columns: parameters with a relative error of at most 5e-13, log-posterior with an error of at most 5e-7, both counters exactly. Width and ladder files likewise. Numbers of at most 13 digits are shown exactly; different doubles can have the same text, and inverse temperatures up to 5e-7 are shown as zero.", "quantifier": "all executions, all rows, all numbers", "why_tests_cant": "Printing has special cases (carry into a new digit, three-digit exponents, negative numbers) that samples miss.", "anchors": ["mpi_batch.c:save_the_batch", "mpi_init.c:save_first_chain", "mpi_flow.c:save_sigma_gauss_prop", "mpi_stack.c:save_debug_Beta_Values", "data_loader.c:read_data"]}
{"id": "C73", "title": "A run can be repeated from its seed log", "statement": "The seed log has one line for each rank; the number shown for the first rank other than root, less one, written into input.ini as the seed, gives a program all of whose executions end in the same state and the same files, at any time. Seeds from 2^31 on are shown as negative numbers but read back correctly. Runs whose start seeds differ by less than the number of ranks share random number streams.", "quantifier": "all configurations, clocks, schedules and process counts", "why_tests_cant": "Needs all clocks, in particular those beyond 2^31, and all schedules of both runs.", "anchors": ["mpi_init.c:save_the_seed", "mpi_init.c:mpi_gen_init_parm", "main.c:main", "readin.c:read_input_ini"]}
{"id": "C74", "title": "A stack length that is not positive never ends the run", "statement": "With n_iter_a_stack = 0 the main loop is not left after any number of rounds, and no chain moves; with a negative number the iteration counter runs downwards until the addition overflows, which is undefined behaviour. input.ini is not checked for this.", "quantifier": "all configurations with that stack length, all chain states, any number of rounds", "why_tests_cant": "A test cannot observe that a run never ends, and the overflow comes after up to 2^31 rounds.", "anchors": ["mpi_flow.c:mpi_entire_flow", "mpi_stack.c:mpi_static_sigma_stack", "readin.c:read_input_ini"]}
{"id": "C75", "title": "The sampler as a whole almost keeps the product of the tempered posteriors", "statement": "One iteration of the program is a function of the point and the next 2d+1 draws. With the draws independent and uniform, exact arithmetic, fixed widths and a fixed ladder, after any sequence of iterations of all chains and swap attempts the law of the table of chains started from the product of the tempered posteriors differs from that product on no set by more than the number of iterations times the sum, over chains and parameters, of the probability that a normal step is as long as the range plus 1e-16 (times the mass). For widths of at most a fifth of the range the former probability is at most 7.5e-6.", "quantifier": "all targets, boxes, widths, ladders, sequences of iterations and swaps, all measurable sets", "why_tests_cant": "A statement about a law on all measurable sets; sampling error hides deviations of this size.", "anchors": ["mpi_batch.c:iter_batch_mh", "mpi_batch.c:mpi_propose", "mpi_stack.c:mpi_judge_and_swap", "rand_func.c:gaussian_rand", "user_prior.c:para_boundary"]}
{"id": "C76", "title": "The sampler converges from any start", "statement": "Under the same idealisation, if the log-posteriors vary by a bounded amount over the box, there is c > 0 such that after m iterations of all chains, with any swap attempts between them, the laws from any two starts in the box differ by at most (1-c)^m, and the law from any start differs from the product of the normalised tempered posteriors by at most (1-c)^m plus the deviation of one round (C75) times the sum of (1-c)^j for j < m. The egg box model meets this with its sample ranges.", "quantifier": "all targets of bounded variation, all starts in the box, all sequences of iterations and swaps, all measurable sets", "why_tests_cant": "A limit statement about laws from every start.", "anchors": ["mpi_batch.c:iter_batch_mh", "mpi_stack.c:mpi_judge_and_swap", "models/eggbox/user_logll.c:value_calc"]}
{"id": "C77", "title": "The law of a whole run without tuning", "statement": "A run of a bundled model in which neither widths nor ladder are tuned, in exact arithmetic: in every finished execution of the MPI program the table of parameters on the root is a fixed function of the streams of numbers that the generators of the ranks give after seeding. The function reads start values, batch sizes, proposals, acceptance numbers (only when needed), swap partners and swap decisions from the streams in the order in which the program draws them. If the streams consist of independent uniform numbers, the law of the final table differs from the product of the normalised tempered posteriors on no set by more than (1-c)^N_iter plus the deviation of one round (C75) times the sum of (1-c)^j for j < N_iter, with c > 0; in particular the random batch sizes, the sharing of the root's stream by three kinds of draws and the draws that are skipped do not disturb the law.", "quantifier": "all usable configurations without tuning, all targets of bounded variation, all executions, all measurable sets", "why_tests_cant": "A statement about a law on all measurable sets and about every schedule.", "anchors": ["main.c:main", "mpi_flow.c:mpi_entire_flow", "mpi_stack.c:mpi_static_sigma_stack", "mpi_stack.c:mpi_judge_and_swap", "mpi_batch.c:iter_batch_mh", "user_prior.c:init_parm_set"]}
{"id": "C78", "title": "The prior code of fit_orbit", "statement": "For ranges with min < max, positive for the two masses, the noise and the two periods, the exponential of log_prior of models/fit_orbit integrates to one over the box of its fifteen parameters, and every seed starts in the box.", "quantifier": "all ranges, all seeds", "why_tests_cant": "An integral over a box of fifteen dimensions and all seeds.", "anchors": ["models/fit_orbit/user_prior.c:log_prior", "models/fit_orbit/user_prior.c:init_parm_set"]}
{"id": "C79", "title": "The prior code of hier_R: ranges, widths, and a prior that overflows", "statement": "In exact arithmetic all parameters but the first start and stay in their ranges in every execution with models/hier_R, and the first stays at its start value or is in its range; the first width lies in the range allowed to the tuner exactly when sigma_scale_min * gamma_sd <= (gamma_max - gamma_min) * init_gp_ratio <= sigma_scale_max * gamma_sd, which the sample configuration violates. In doubles, if the range of the logarithm of an error scale reaches up to 7 and down to 6 or less, the log-posterior is minus infinity or NaN everywhere; and whenever a log-posterior is minus infinity or NaN everywhere, no proposal and no swap is accepted in any execution, so every row of every chain file repeats the start point.", "quantifier": "all ranges, all likelihoods, all usable configurations, all executions", "why_tests_cant": "The sample ranges stop just below the overflow, and that no chain ever moves is a statement about every schedule and every seed.", "anchors": ["models/hier_R/user_prior.c:log_prior", "models/hier_R/user_prior.c:prior_lambda_Yobs", "models/hier_R/user_prior.c:calc_sigma_scale_boundary", "models/hier_R/user_prior.c:init_gaussian_proposal", "mpi_batch.c:iter_batch_mh", "mpi_stack.c:mpi_judge_and_swap"]}
{"id": "C80", "title": "Averages over the rows of a chain file estimate the mean under the posterior", "statement": "In every finished execution without tuning, with N_save_begin at most B + 1, the chain file of every rank has exactly one row for each iteration from B + 1 to N_iter, in order, and these rows are a function of the streams of numbers of the generators. If the streams consist of independent uniform numbers, the average over these K = N_iter - B rows of any measurable function with values in [0, 1] differs from its mean under the tempered posterior of the chain with a mean square of at most (2/c - 1)/K + 2e/c, c > 0 the rate at which the start is forgotten and e the deviation of one round from its target; so an error of at least eps has a probability of at most this over eps^2.", "quantifier": "all models with a bounded log-posterior, all configurations without tuning, all schedules, all functions, all burn-in lengths", "why_tests_cant": "A mean square over all random numbers for runs of any length; rows of one chain depend on each other, so a sample says little about the error.", "anchors": ["mpi_batch.c:run_a_batch", "mpi_batch.c:iter_batch_mh", "mpi_stack.c:mpi_static_sigma_stack", "mpi_flow.c:mpi_entire_flow"]}
{"id": "C81", "title": "From the two input texts to the run", "statement": "For each of the present models, any configuration file that has one line for every value of the program and for the minimum and maximum of every parameter of the model, in any order and among comments that mention no name, and any data file with one line of numbers per row: the program run on these texts is the run of the configuration meant, with the ranges assigned to the parameters in order and number j of row i at position i*ndim + j of the table; if the values are usable, every execution can be completed, no rank faults, and the result is that of the sequential program. With an N_parm other than the number of parameters, or too few columns, every rank faults at start. The ranges of fit_orbit and the numbers of hier_R are read into their own variables; infinities, NaNs and hexadecimal numbers are left to the C library.", "quantifier": "all files, all values, all line orders, all models, all rank counts, all schedules", "why_tests_cant": "A test has a handful of files; the statement covers every file in the format and every schedule.", "anchors": ["main.c:main", "readin.c:read_onepara", "readin.c:read_input_ini", "data_loader.c:read_data", "models/regression/user_prior.c:read_parm_range", "models/rastrigin/user_prior.c:read_parm_range", "models/hier_R/user_prior.c:read_parm_range", "models/fit_orbit/user_prior.c:read_parm_range"]}
{"id": "C82", "title": "What the sample configuration files do", "statement": "Run from the sample files of regression, multi_gaussian, curved_likelihood and rastrigin (all four variants), and from that of eggbox with an N_begintune that is an int, on any table of two columns and with two up to N_beta ranks, every execution can be completed and no rank faults. From the sample file of eggbox as it is every rank faults by integer overflow, from those of fit_orbit and hier_R by a null pointer. From the sample file of regression every saved row is in the box of the sample's ranges and every iteration from 100000 to 400000 is in every chain file exactly once.", "quantifier": "all tables, all rank counts, all clocks, all schedules", "why_tests_cant": "A test runs one schedule with one number of ranks; the overflow is undefined behaviour that a test run usually survives.", "anchors": ["input.ini", "models/regression/input.ini", "models/multi_gaussian/input.ini", "models/curved_likelihood/input.ini", "models/rastrigin/input.ini_T_L_T_B.eg", "models/eggbox/input.ini", "models/fit_orbit/input.ini", "models/hier_R/input.ini"]}
{"id": "C83", "title": "After adaptive tuning the rows still estimate means under the posterior", "statement": "A run tunes the widths of its proposals, and perhaps its ladder, by the acceptance rates of trial chains that use the same random numbers. Let the tuning window be over after k stacks. Then in every finished execution in which no stored log-posterior is left over from an earlier ladder at that point, the average over the rows after iteration B >= k stacks is a function of the streams of the generators. If the streams consist of independent uniform numbers, this average differs from the mean under the posterior at the tuned temperature by eps or more with a probability of at most ((2/c - 1)/K + 2e/c)/eps^2, K the number of rows averaged, uniformly over all outcomes of the tuning for which the widths and the ladder left behind have rate at least c and deviation at most e. If the ladder is fixed and the ranges of the widths are between positive minima and a fifth of the ranges of the parameters, no assumption on the outcome is left: c is the rate for the smallest widths.", "quantifier": "all models with a bounded log-posterior, all configurations whose tuning ends, all schedules, all outcomes of the tuning, all functions", "why_tests_cant": "The widths depend on the same random numbers as the chains, over all streams; a sample cannot show that this dependence does no harm.", "anchors": ["mpi_flow.c:mpi_entire_flow", "mpi_tune.c:mpi_tune_sigma_irank", "mpi_stack.c:mpi_static_sigma_stack"]}
{"id": "C84", "title": "Log-posteriors left over from an earlier ladder are replaced soon after the last tuning of the ladder", "statement": "When the ladder is tuned the stored log-posteriors of the chains still belong to the old betas. Let the ladder be tuned for the last time within the first k0 stacks, and V bound the difference of log-posteriors between any two points of the box and ladders passed through. If the streams consist of independent uniform numbers, the probability that any of the n stored values is still out of step after k >= k0 stacks is at most n (1 - exp(-V)) to the number of iterations in between. In every finished execution in which all are in step the average over the rows after iteration B >= k stacks is a function of the streams, and it misses the mean under the posterior at the beta in use with the probability bound of C83, with c the rate for the smallest widths and V. The betas at the two ends of the ladder are never tuned. With three ranks, a positive increasing ladder whose ends differ by two percent or more and a zero stretch in [0, 1], every tuned ladder stays between its ends, so V is a property of the model alone.", "quantifier": "all models with a bounded log-posterior, all configurations whose tuning ends, all schedules, all outcomes of the tuning, all functions", "why_tests_cant": "The left-over values bias the sampler only in rare streams and for a random time; no number of runs shows that they die out at a given rate.", "anchors": ["mpi_ladder.c:mpi_adjust_ladder", "mpi_flow.c:mpi_entire_flow", "mpi_batch.c:iter_batch_mh", "mpi_stack.c:mpi_static_sigma_stack"]}
{"id": "C85", "title": "A long enough run ends near the posterior: explicit lengths for realistic settings", "statement": "Nothing is tuned, the widths are at most the ranges, and the streams consist of independent uniform numbers. Let one round take at least the share g of the variance away from every function of the table (g comes from a Poincare inequality: exp(-variation) times a bound of the order (width/range)^2 for each parameter), let a be a lower bound of the probability that one round moves all parameters of all chains together and C an upper bound of the density with which it does so. Then after N iterations, with swaps and random batch lengths as the program does them, the probability that the table of parameters lies in a set differs from that under the product of the tempered posteriors by at most N e + (C/a) sqrt(1-g)^(N-j) + (1-a)^j for every j <= N, e the deviation of one round (tails beyond a range and pi written with 18 digits). For the egg box model with three chains, betas in [0, 1] and widths of a tenth of the ranges the difference is at most 1/10^4 for every run of half a million to 10^9 iterations. Unlike the bounds of C76 and C77 this one is far below 1 for runs of a length that is used.", "quantifier": "all models with a bounded log-posterior, all configurations without tuning, all sets of tables, all schedules", "why_tests_cant": "The distance between two laws on tables cannot be computed from samples, and no number of runs bounds it over all sets.", "anchors": ["mpi_flow.c:mpi_entire_flow", "mpi_batch.c:iter_batch_mh", "mpi_stack.c:mpi_static_sigma_stack"]}
{"id": "C86", "title": "A long enough run estimates means under the posterior: explicit lengths for realistic settings", "statement": "In the setting of C85 the average of a function with values in [0, 1] over the K rows of a chain file after iteration B misses its mean under the tempered posterior of the chain by eps or more with a probability of at most 1/(g K eps^2) + N e + (C/a) sqrt(1-g)^(B-j) + (1-a)^j for every j <= B. For the egg box model of C85 with B of at least half a million this is 5000/(K eps^2) + 1/10^4: of a run of ten and a half million iterations the fraction of rows in a set is off by a tenth with a probability below six percent.", "quantifier": "all models with a bounded log-posterior, all configurations without tuning, all functions, all schedules", "why_tests_cant": "It is a bound on the probability of an error over all streams, for every function at once.", "anchors": ["mpi_flow.c:mpi_entire_flow", "mpi_batch.c:iter_batch_mh", "mpi_stack.c:mpi_static_sigma_stack"]}
{"id": "C87", "title": "A long enough run estimates means under the posterior after its adaptive tuning: explicit lengths", "statement": "A run tunes its proposal widths within sigma_scale_min and sigma_scale_max, and possibly its ladder, during its first k stacks, and sigma_scale_max is at most a tenth of each range. Whatever the outcome of the tuning, the average of a function with values in [0, 1] over the K rows after iteration B misses its mean under the tempered posterior of the chain by eps or more with a probability of at most 1/(g K eps^2) + N e + (C/a) sqrt(1-g)^(B-k*n_iter_in_stack-j) + (1-a)^j, with rates g, a, C that depend on the smallest permitted width only. For the egg box model with widths tuned between 1/20 and 1/10 of the ranges and a tuned ladder of three ranks, the fraction of rows in a set after the first 8 of 108 million iterations is off by a tenth with a probability below eight percent.", "quantifier": "all models with a bounded log-posterior, all outcomes of the tuning, all functions, all schedules", "why_tests_cant": "It is a bound on the probability of an error over all streams and all outcomes of the tuning.", "anchors": ["mpi_flow.c:mpi_entire_flow", "mpi_tune.c:mpi_tune_sigma_irank", "mpi_stack.c:mpi_static_sigma_stack", "mpi_ladder.c:mpi_adjust_ladder", "mpi_batch.c:iter_batch_mh"]}
{"id": "C88", "title": "With an ideal generator the chain files of finished executions estimate means under the posterior, with explicit probabilities", "statement": "Let every seed start an independent stream of independent uniform numbers. For almost all outcomes the parallel program ends, every schedule leaves the same files, and no execution gets stuck. Without tuning, the law of the parameters of all chains at the end is within the bound of C85 of the product of the tempered posteriors; the probability that some finished execution leaves a chain file whose average over the rows after iteration B misses the posterior mean by eps or more is at most the bound of C86, after a tuning of the widths that of C87, and after a tuning of a ladder of three ranks that of C87 plus the probability that a stored value is out of step. For the egg box model: below six percent for an error of a tenth in ten million rows without tuning, below eight percent in a hundred million rows with tuned widths and ladder.", "quantifier": "all models with a bounded log-posterior, all configurations of C85 to C87, all functions with values in [0, 1], all schedules", "why_tests_cant": "It is a statement about the probability of what files contain, over all outcomes of the generator and all schedules.", "anchors": ["main.c:main", "mpi_init.c:mpi_gen_init_parm", "mpi_flow.c:mpi_entire_flow", "mpi_batch.c:iter_batch_mh", "mpi_stack.c:mpi_static_sigma_stack"]}
{"id": "C89", "title": "merge_lines.py keeps the moves of a chain and forgets how long it stayed", "statement": "On the chain file of every execution with doubles and two parameters whose rows are finite, models/eggbox/merge_lines.py comes to its end and appends exactly the rows whose parameters have other texts than those of the row before, unchanged and in order: never the first row, never a row that repeats the parameters of the row before, always a row in which a parameter changed by more than 1e-12 of its size. Its output is the same however often each row is repeated, so shares of points in the merged file are not shares of points in the chain.", "quantifier": "all files of lines of numbers, all executions", "why_tests_cant": "All texts and all executions.", "anchors": ["models/eggbox/merge_lines.py"]}
{"id": "C90", "title": "sampling_static.py counts every row in its cell", "statement": "For every chain file with at least two rows, all in the box [0, 50] x [0, 50], models/eggbox/sampling_static.py saves a table of the 100 x 100 cells with their middles, the number of rows in each, and the height of the posterior.", "quantifier": "all files of lines of numbers, all executions", "why_tests_cant": "The cell of a row is wrong only at the upper ends of the box, which a sample hardly meets.", "anchors": ["models/eggbox/sampling_static.py", "models/eggbox/pm3d_mod.gnu"]}
{"id": "C91", "title": "The generator has full period and every decision its frequency", "statement": "The generator used by all ranks runs through all of its 2^48 states before it repeats, from every seed; its lowest b bits repeat after 2^b draws; along one period the Metropolis test with given log-posteriors accepts exactly ceil(2^48 min(1, exp(delta))) times, and exactly one draw is 0.", "quantifier": "all seeds, all states, all numbers of draws, all log-posteriors", "why_tests_cant": "2^48 draws cannot be made, and all seeds are meant.", "anchors": ["rand_func.c:11-83", "mpi_batch.c:209-235"]}
{"id": "C92", "title": "No two ranks draw the same stretch of random numbers", "statement": "In a run no two ranks ever pass through the same state of the generator, so that no rank draws again the numbers of another, whatever the start seed.", "quantifier": "all configurations, start seeds, executions and numbers of draws", "why_tests_cant": "The distance between two streams depends on the start seed and is of the order of 10^9 draws; 2^32 start seeds are meant.", "anchors": ["mpi_init.c:32-104", "main.c:106-139", "rand_func.c:11-83"]}
{"id": "C93", "title": "In doubles, too, moves and swaps are accepted with the probability of the rule", "statement": "For finite doubles, in binary64 arithmetic with any exp that is off by at most one unit in the last place, the number of the 2^48 generator states at which an iteration accepts differs from 2^48 min(1, exp(new - old)) by less than 9/8, also where the difference overflows or the exponential underflows, and also along the generator from any seed; for a swap with log-posteriors of size at most M by less than 9/8 + M/2. A proposal with log-posterior minus infinity is never taken from a finite one, the reverse always.", "quantifier": "all doubles, all seeds, all libms of that accuracy", "why_tests_cant": "Deviations of 10^-14 in a probability cannot be measured by sampling, and all pairs of doubles are meant.", "anchors": ["mpi_batch.c:209-235", "mpi_stack.c:296-309", "mpi_tune.c:419-445"]}
{"id": "C94", "title": "Pointers stay valid, memory does not grow with the run, and what is never freed is known", "statement": "On every rank and whatever the course of the run (any number of stacks, batches, swaps and tunings, any decisions): no NULL is dereferenced, no block is used after free or beyond its end, nothing is freed twice, every file that is opened is closed. The bytes live at once stay below a bound that depends on the sizes of the input and the longest batch but not on N_iter; a stack leaves exactly the blocks it found. At the end exactly 36 + (ranges) blocks are still live, on the root also logpost_all_ranks. If a name of read_chains_grid is missing or repeated, NULL is dereferenced.", "quantifier": "all ranks, all sizes, all courses of a run, all user models that mind their own blocks", "why_tests_cant": "A leak or a dangling pointer on a rare path (a tuning decision, a slave's early free) shows only if that path is run under a checker; growth with N_iter would need runs of all lengths.", "anchors": ["main.c:64-249", "mpi_batch.c:48-292", "mpi_stack.c:53-366", "mpi_tune.c:112-767", "mpi_ladder.c:102-275", "readin.c:87-421", "alloc.c:15-110"]}
{"id": "C95", "title": "Which numbers of iterations overflow the counter of the main loop", "statement": "With settings that are usable but for N_iter, a run finishes if and only if the end of every stack that begins before N_iter is an int, i.e. if N_iter rounded up to whole stacks is at most INT_MAX. Otherwise every rank does the stacks before the first that does not fit and then overflows an int addition (mpi_flow.c:63), in every execution.", "quantifier": "all usable settings, all numbers of iterations, all ranks, all schedules", "why_tests_cant": "The overflow comes after about two thousand million iterations.", "anchors": ["mpi_flow.c:55-67"]}
{"id": "C96", "title": "In doubles, too, the trial widths form an increasing grid inside the range", "statement": "In binary64 with correctly rounded log and exp, for bases and ratios between 2^-200 and 2^200: the cells of create_logspace_array never decrease and are within a relative 2^-37 of the exact geometric grid; every width that is tried, used or saved in a run is a finite number inside the allowed range of its parameter, up to a relative 2^-36, however often widths are tuned.", "quantifier": "all moderate limits that admit the jump ratio, all runs, all schedules", "why_tests_cant": "Errors of 10^-11 that could accumulate over tunings do not show in a sample of runs.", "anchors": ["mpi_tune.c:create_logspace_array", "mpi_tune.c:modify_sigma_prop_rankintune", "mpi_flow.c:mpi_entire_flow"]}
{"id": "C97", "title": "In doubles, too, rates are fractions and the ladder of three ranks keeps to its range without drift", "statement": "In binary64: the tallies of swaps are exact up to 2^53 and stop there; a swap rate is NaN if and only if the pair was never proposed, else the rounded fraction, in [0, 1]; acceptance rates of stacks and of tuning runs are the rounded fractions, in [0, 1]. With three ranks, moderate end betas two percent apart, scale_tune_ladder in [0, 1] and zero_stretch away from 0 and 1 by 2^-49, in every execution the end betas are the configured ones and the middle one is a finite number between them up to a relative 2^-51, for any number of updates: beta to temperature to beta to temperature returns the same double, so rounding does not accumulate.", "quantifier": "all tallies, all runs, all schedules", "why_tests_cant": "Drift by one unit in the last place per update shows only after very many updates, for unlucky betas.", "anchors": ["mpi_ladder.c:tune_ladder_use_3_neighb", "mpi_stack.c:mpi_static_sigma_stack", "mpi_flow.c:mpi_entire_flow", "mpi_tune.c:iter_batch_mh_tune"]}
{"id": "C98", "title": "From the two input texts to an estimate from the text of a chain file", "statement": "A user writes a configuration file for one of the present models, with the ranges of its parameters and nothing tuned, in any order and among comments, and a table of data. The program runs on the two texts with an ideal generator, under any schedule, and prints its chain files. The user averages a function of the parameters with values in [0, 1] over the lines of a chain file with an iteration number above B. For almost all outcomes the run ends, with the same files under every schedule; the probability that this average misses the mean under the tempered posterior of the chain by eps, and what the digits of the file make of the function, or more is at most the bound of C86. For the egg box model with three ranks and a tenth of the range as width: 5000/(K eps^2) + 1/10^4 for K lines after half a million iterations.", "quantifier": "all such texts, all data, all numbers of ranks, all schedules, all measurable functions", "why_tests_cant": "The statement is about the law of the output over all outcomes of the generator and all schedules.", "anchors": ["main.c:main", "readin.c:read_input_double", "data_loader.c:read_data", "mpi_batch.c:save_the_batch", "models/eggbox/user_logll.c:logll_beta", "models/eggbox/user_prior.c:para_boundary"]}
{"id": "C99", "title": "The Kepler solver in doubles ends for the sample, and not for every input", "statement": "In binary64, with a sine and a cosine off by at most 2^-50: for every mean anomaly up to 2^23 and every eccentricity from 0 to 1/2 newton_solver stops after at most five steps and returns the root of Kepler's equation up to (4|m| + 1024) 2^-53. Hence the likelihood of the orbit model returns for every table with times up to 2^19 days, all periods from half a day on and mean anomalies at epoch up to 360 degrees. The bound is needed: from 2^26 on neighbouring doubles are further apart than the 1e-8 the loop waits for, and there are a time, a period and an eccentricity 1/2, all finite, for which the loop alternates between two numbers for ever and the likelihood never returns.", "quantifier": "all such mean anomalies, eccentricities, tables and parameters", "why_tests_cant": "Whether the loop ends depends on the rounding at every single point; the endless inputs are isolated doubles.", "anchors": ["models/fit_orbit/user_logll.c:newton_solver", "models/fit_orbit/user_logll.c:func_as", "models/fit_orbit/user_logll.c:logll_beta"]}
{"id": "C100", "title": "The multi_gaussian model samples an almost flat law, not the mixture", "statement": "models/multi_gaussian hands the sampler the density of a mixture of two normal laws where a log-likelihood is expected. So for every box, every inverse temperature b >= 0 and every measurable set the unnormalised target of a chain is between 1 and exp(1.01 b) times the area of the set. In the box of the sample input at most a tenth of the target is within 4 of the peaks in each coordinate, at every inverse temperature up to 1, whereas the mixture itself has at least 99 hundredths there. For five chains with any positive widths up to the largest the sample input allows, from any start in the box and with any swaps between different chains, the probability of a chain being near the peaks exceeds a tenth by no more than what is left of the start and of the deviations of C75. For every run of five ranks on the ranges and initial widths of the sample input, with nothing tuned and at least 200000 iterations left out, the share of the K remaining rows of a chain file that are near the peaks is a tenth plus eps or more with a probability of at most 2000/(K eps^2) + 1/10^4, if the streams consist of independent uniform numbers.", "quantifier": "all boxes, inverse temperatures, measurable sets; for the sample box all inverse temperatures up to 1, widths, starts and sequences of moves; all executions of all such runs", "why_tests_cant": "A chain that visits both peaks looks like success; that the target is nearly flat is a statement about a measure, not about a run.", "anchors": ["models/multi_gaussian/user_logll.c:value_calc", "models/multi_gaussian/user_logll.c:logll_beta", "models/multi_gaussian/input.ini"]}
{"id": "C101", "title": "The script starts as many processes as the program expects", "statement": "mjob.sh takes the number of processes from the second field of the line that mentions N_beta, the program scans the same line on its own. For every input.ini without null bytes in which one line of at most 99 bytes mentions N_beta, and this line starts with a word that ends with its colon followed by white space, whatever number the script starts is the number the program reads; and when digits follow it does start that number. In a configuration file as of C48 the number started, if any, is the number of inverse temperatures, and with the sample files all executions with that number of processes can be completed without fault. With lines written otherwise the two can disagree. With more processes than inverse temperatures no rank ever finishes; with fewer the run is the one with the first inverse temperatures only.", "quantifier": "all texts of input.ini; all configurations and numbers of ranks; all schedules", "why_tests_cant": "Tests start the program by hand with the right number; the format of the line and a wrong number of processes are not tried.", "anchors": ["mjob.sh", "readin.c:read_chains_grid", "readin.c:read_onepara", "main.c:main"]}
{"id": "C102", "title": "The corner plots show the iterations of the cold chain", "statement": "For every finished run, a corner_plt.py that reads as many columns as there are parameters draws, in the order of the file, the parameters of all rows of the chain file behind the first skipnum lines, each as the double nearest to a number within 5e-13 of its size, infinities and NaN as such. The lines skipped come on top of the iterations that are not saved: with the sample of the regression exactly the iterations from some number between 199975 and 199999 on to 400000 of the chain of rank 3 are drawn, with the one of multi_gaussian the starting point and the iterations from some number between 499976 and 500000 on to 5000000 of the chain of rank 4; these chains have inverse temperature 1 for the whole run. With at most one row left the script fails. The scripts of curved_likelihood and hier_R open files that a run of the sample does not write.", "quantifier": "all executions, all data tables, all clocks; all configurations for the general part", "why_tests_cant": "The plots are looked at; nothing compares the rows drawn with the run, whose number of rows before i_save_begin depends on random batch lengths.", "anchors": ["models/regression/corner_plt.py", "models/multi_gaussian/corner_plt.py", "models/curved_likelihood/corner_plt.py", "models/hier_R/corner_plt.py", "mpi_batch.c:save_the_batch"]}
{"id": "C103", "title": "In doubles, too, moves and swaps follow the tempered posterior", "statement": "For doubles rounded to nearest and an exp within one unit in the last place: a move from a point with log-likelihood L and log-prior P to one with L' and P' at inverse temperature b is accepted at 2^48*min(1, exp(b*(L'-L)+P'-P)) of the 2^48 states of the generator, up to less than 5/4+S/4 states, and a swap of two chains with stored values in step at 2^48*min(1, exp((bi-bj)*(Lj-Li))) states, up to less than 2+S, where S bounds |b*L|+|P| over the values involved. This is what every iteration and, in a run of a bundled model without tuning of the ladder, every swap does. Where the code of a model returns values of size at most S in its box, this holds, with inverse temperatures between 0 and 1, for every swap and for every iteration of every batch of such a run, and a proposal with NaN is never taken. S is 4 for the egg box (so that its swaps are within 6 states of the rule), 2 for the two Gaussians in the box of the sample, and N*(20+2^14*(X*A+B+X)^2)+51 for the regression on N lines of numbers of size at most X with slopes up to A, intercepts up to B and standard deviations from 1/128 to 128.", "quantifier": "all values, all states, all steps of all runs", "why_tests_cant": "The frequencies are counts over 2^48 generator states and depend on rounding at each operation.", "anchors": ["mpi_batch.c:iter_batch_mh", "mpi_stack.c:mpi_judge_and_swap", "models/*/user_logll.c", "models/*/user_prior.c"]}
{"id": "C104", "title": "No parameter becomes NaN", "statement": "For every bundled model whose ranges fit its draws (the range of a log-uniform draw spans at least a factor of two), with any tuning (the regression with at least one line of data), in every execution with rounded doubles every parameter of every saved row, and of every chain at the end, is a finite number between its bounds: a proposal with NaN has a log-likelihood of NaN and is never taken, and both the uniform and the log-uniform draws of the starting point stay within the bounds in spite of rounding. The regression without data does not see NaN in its first two parameters.", "quantifier": "all executions, all configurations, all data, all clocks", "why_tests_cant": "NaN needs a rare draw (log of 0) and a degenerate width; rounding at the upper bound of a log-uniform draw shows only for particular generator states.", "anchors": ["mpi_batch.c:iter_batch_mh", "rand_func.c:r8_logunif_ab", "models/*/user_prior.c:para_boundary", "models/*/user_logll.c"]}
{"id": "C105", "title": "The ranks finish together or not at all", "statement": "In every execution with a usable configuration, as soon as one rank has passed the last barrier all have, and everything is written. If ranks stop anywhere for any reason (exit(3) when an output file cannot be opened, exit(1) without memory, killed from outside), then what has been written is at every moment the beginning of what an undisturbed run writes, no rank finishes once one has stopped, the run takes finitely many actions, and it stands still before its end only where a rank has stopped. With files that cannot be opened a run finishes if and only if it writes to none of them; it always writes to each chain file, each file of widths, the file of seeds and the file of starting points, and if there is an iteration to do also to the file of inverse temperatures. Without a data file, and with data that cannot be read, nothing happens, whatever the configuration, but the making of the directory: no rank finishes or writes a line, and the run stands still only when root has failed.", "quantifier": "all executions, all configurations, all sets of stopping points, all sets of files", "why_tests_cant": "Any rank may stop at any of its actions under any schedule.", "anchors": ["main.c:207", "mpi_batch.c:362-366", "mpi_init.c:224-228", "alloc.c:6-11", "data_loader.c:100-110"]}
{"id": "C106", "title": "The comparison scripts give other samplers the same posterior", "statement": "The log-probability that emcee_lin_reg.py gives to emcee equals, to the last bit and for any rounding, the log-posterior of the regression at inverse temperature 1 at every point strictly within the ranges with a finite log-prior, and is minus infinity elsewhere; with doubles and the sample's ranges the log-prior is finite at each of these points. The egg box scripts differ from the program by the constant 2-2log(1/50) in exact arithmetic, and the log-likelihood and log-prior given to PTMCMCSampler for the curved likelihood are those of the program at every inverse temperature. The ranges written in the scripts are those in the sample files.", "quantifier": "all points, all data, all roundings", "why_tests_cant": "The agreement is over all points of the box and all data; values at the border and rounding differ only at special points.", "anchors": ["models/regression/comparison_emcee/emcee_lin_reg.py", "models/eggbox/comparison_emcee/emcee_eggbox_15walkers.py", "models/curved_likelihood/compare_ptmcmcsampler/curved_purefit.py", "models/regression/user_logll.c"]}
{"id": "C107", "title": "prep.sh builds the program from the sampler and the model's two files", "statement": "Run in the directory of a model, whatever else lies there (older copies, an older Makefile, an older program), prep.sh makes a.out of the eleven sources at the top of the repository and the directory's user_logll.c and user_prior.c if these link, and leaves an older a.out if not; it changes nothing else but Makefile, mjob.sh and files with the name of a source or header at the top, and running it again changes nothing. For any two files of a user the program links exactly if they define logll_beta, log_prior, para_boundary, init_parm_set, init_gaussian_proposal, sigma_parm_min and sigma_parm_max, nothing twice and nothing that the program defines itself, and use nothing that is defined nowhere; it is then free of calls with wrong types exactly if the seven have the types with which the program uses them and the user's files use everything with the type of its definition. Both hold for the five models of this version. The two models of version 1.0.0 link as well, but their logll_beta has other parameters, so that every call of it is undefined; user files at the top of the repository replace those of the model; the Makefile in models/curved_likelihood makes no program without prep.sh.", "quantifier": "all directories, all user files", "why_tests_cant": "Building the bundled models shows only that they link; wrong types across files are not reported, and what prep.sh keeps or overwrites depends on the directory.", "anchors": ["models/*/prep.sh", "Makefile", "models/curved_likelihood/Makefile", "models/*/user_logll.c", "models/*/user_prior.c"]}
{"id": "C108", "title": "The file of inverse temperatures and the width files say, stack by stack, what the run used", "statement": "In a completed run Beta_Values_in_stack.dat, written by root only, has exactly one line per stack (N_iter / n_iter_a_stack rounded up) and every gaussian_prop.chain<r> one more, its first two lines both being the starting widths. Line k of the former holds the inverse temperatures, and line k+1 of the latter (counting from 0) the widths, with which rank r makes all moves and swaps of stack k, that is, iterations k*n_iter_a_stack+1 to (k+1)*n_iter_a_stack; between the headings of a stack and the next a rank writes only chain lines of these iterations. The first stack has the configured inverse temperatures. A line of inverse temperatures differs from the one before only if Tune_Ladder > 0 and the stack before ended before N_stopTuneLadder; a line of widths differs from the one before only if that stack ended in the tuning window and the chain's acceptance rate in it, as read from the last chain lines of the stacks, was not inside the interval. An execution that is cut off has written a beginning of the same lines.", "quantifier": "all valid configurations, all numbers of ranks and stacks, all schedules, all prefixes of executions", "why_tests_cant": "A test sees the files of a few runs and cannot see which widths and inverse temperatures a move was made with; that the headings match them in every stack, on every rank and under every schedule is a statement about all runs.", "anchors": ["mpi_flow.c:58-135", "mpi_flow.c:330-365", "mpi_stack.c:53-216", "mpi_stack.c:465-490", "main.c:170-200"]}
{"id": "C109", "title": "Simulated data reach both samplers without loss", "statement": "A table of finite doubles saved with np.savetxt (format %.18e, a blank between the columns) is read by the program's data reader, with blank as the delimiter, as exactly the same doubles, with as many lines as rows, and by np.genfromtxt with delimiter \" \" as the same table. The reason is that seventeen significant digits determine a double, which is shown for every double and every correctly rounding reader; sixteen digits do not, and the thirteen digits of the program's own chain files do not either. For the file of simulate_data.py, with uniform numbers from 0 to 1 and normal ones of at most 1024, the program's table and the points of emcee_lin_reg.py are therefore the simulated numbers x = 10u and 3.5x+4+2g computed in doubles, and with the sample's ranges the script's log-probability at every point within them is bit for bit the log-posterior of the program at inverse temperature 1.", "quantifier": "all tables of finite doubles with any number of rows and columns, all readers that round decimal numbers correctly, all simulated uniform and normal numbers in the ranges, all parameter values within the sample's ranges", "why_tests_cant": "There are about 2^64 doubles and a printing that loses the last bit of one in a million shows no difference in a run; only a proof covers every double, including subnormal ones and those next to a power of two.", "anchors": ["models/regression/simulate_data.py:1-12", "models/regression/comparison_emcee/emcee_lin_reg.py:18-33", "data_loader.c:20-121", "models/regression/user_logll.c:1-60"]}
{"id": "C110", "title": "A longer run begins with the shorter one", "statement": "Take a valid configuration and the same configuration with a smaller N_iter (any smaller number, not only a multiple of the stack length). Whatever a rank has written at any moment of any execution of the shorter run is the beginning of what that rank has written when an execution of the longer run with the same clock, data and root has finished; in doubles, and for every file name, the characters that a rank has put into the file are the beginning of the characters it puts into it in the longer run. So a run need not be planned: cutting N_iter only cuts the files, although the last stack and the last batch of the shorter run are shortened, the last stack is not followed by tuning, and a batch is saved or not as a whole depending on where it ends.", "quantifier": "all valid configurations and user models, all smaller N_iter including non-positive ones, all schedules of both runs, all moments of the shorter one, all ranks, files, clocks, data and roots", "why_tests_cant": "A test compares two runs of chosen lengths with one seed; a cut falling inside a batch, at the end of a stack or at the beginning of saving are separate cases that random lengths hit rarely, and the schedules of both runs vary independently.", "anchors": ["mpi_flow.c:58-135", "mpi_stack.c:60-220", "mpi_batch.c:138-293", "mpi_batch.c:425-463"]}
{"id": "C111", "title": "What is saved does not change the sampling", "statement": "Take a valid configuration and the same configuration with a later N_save_begin B. When executions of both, with the same clock, data and root, have finished, every rank holds the same variables (chain, widths, ladder, generator, counters), and it has written the same lines except that rows of iterations before B may be missing in the second: its output is a part, in order, of the output of the first, and both are equal when rows of iterations before B are left out. Saving the burn-in or not is thus a matter of disk space only.", "quantifier": "all valid configurations and user models, all later N_save_begin, all schedules of both runs, all ranks, clocks, data and roots", "why_tests_cant": "The decision to save is taken per batch from a counter that the same function advances, so an influence on the sampling would show only for particular positions of B relative to the random batch ends; a test fixes these positions.", "anchors": ["mpi_batch.c:138-293", "mpi_batch.c:425-463", "mpi_flow.c:58-135"]}
{"id": "C112", "title": "Without swaps and tuning every chain is a Metropolis run of its own", "statement": "With N_swap at most 0, no tuning of the ladder and an empty tuning window, the chain file of every rank other than root is, in every finished execution, the starting point drawn from the rank's own seed followed by a textbook Metropolis-Hastings run of N_iter iterations with the initial widths and the rank's own generator and inverse temperature, of which at most rows of iterations before N_save_begin are left out. Consequently two runs with different numbers of ranks, roots or ladders save the same rows from N_save_begin on for ranks of the same number, above their roots (as all are in the program) or below, and with the same inverse temperature; more generally for any two ranks other than root that get the same seed and inverse temperature: stacks, random batch lengths and the messages between ranks leave no trace in a chain.", "quantifier": "all valid configurations without swaps and tuning, all user models, all schedules, all numbers of ranks and roots, all ranks other than root, all clocks and data", "why_tests_cant": "A trace left by the parallel machinery (a draw too many, a state restored from the wrong rank, a counter reset at a stack's end) shows only for particular lengths, ranks and schedules; a test fixes all of these.", "anchors": ["mpi_batch.c:138-293", "mpi_stack.c:60-220", "mpi_flow.c:58-135", "mpi_init.c:60-200"]}
{"id": "C113", "title": "Messages in flight are few, however long the run", "statement": "At every moment of every execution, the queue from one rank to another has at most one message of each point-to-point tag and at most two broadcasts. The bound does not depend on the number of iterations, swaps, parameters or ranks, and both values are reached.", "quantifier": "all valid configurations, all user models, all numbers of ranks and roots, all schedules and all their prefixes, all pairs of ranks, all tags", "why_tests_cant": "How far one rank runs ahead of another is decided by the MPI library and the machine; a sender that piles up messages is seen only when a rank is slow for long, and then as memory exhaustion of the library.", "anchors": ["mpi_init.c:55-200", "mpi_batch.c:60-130", "mpi_stack.c:100-366", "mpi_flow.c:58-297", "mpi_tune.c:112-346", "mpi_ladder.c:26-98", "main.c:150-240"]}
{"id": "C114", "title": "The barriers decide nothing", "statement": "The program with every call of MPI_Barrier taken out never deadlocks, under any schedule and any buffering of sends, ends after a bounded number of actions, and ends in the very state in which the program with its barriers ends: the same variables and the same lines written by every rank.", "quantifier": "all valid configurations, all user models, all numbers of ranks and roots, all schedules, all buffering policies", "why_tests_cant": "A dependence on a barrier is a race: without it the outcome changes only for interleavings that a test machine may never show.", "anchors": ["main.c:163", "main.c:207", "mpi_flow.c:73-127", "mpi_stack.c:141-193", "mpi_tune.c:172-256"]}
{"id": "C115", "title": "How MPI carries out its collectives does not matter", "statement": "Whatever point-to-point messages an MPI library makes its MPI_Bcast and MPI_Barrier of, as long as a collective called by all ranks returns on all ranks with the value of the root and leaves no message over, the program never deadlocks, under any schedule and any buffering of sends, ends after a bounded number of actions, and ends in the same state: the same variables and the same lines written by every rank. This holds in particular for broadcasts relayed along any tree of ranks and for barriers made of reports up any tree and a release down it.", "quantifier": "all implementations of the two collectives that do what the standard asks, all trees of ranks for every root, all valid configurations, all user models, all numbers of ranks and roots, all schedules, all buffering policies", "why_tests_cant": "A test runs with the algorithms the installed library picks for one number of ranks and one message size; other libraries and sizes use other trees.", "anchors": ["data_loader.c:23", "data_loader.c:89", "mpi_flow.c:198", "mpi_tune.c:170-172", "main.c:163", "mpi_stack.c:141-193"]}
{"id": "C116", "title": "The chain files are never more than one batch apart", "statement": "At every moment of every execution, under any schedule and any buffering of sends, and so also when the job is killed, the numbers of rows in the chain files of any two ranks differ by at most n_iter_a_batch_base + n_iter_a_batch_rand, the greatest length of a batch.", "quantifier": "all valid configurations, all user models, all numbers of ranks and roots, all clock values, all prefixes of all executions, all pairs of ranks", "why_tests_cant": "A test looks at the files after the run; how far one rank can run ahead of another is a matter of all interleavings at all moments.", "anchors": ["mpi_stack.c:141-193", "mpi_batch.c:53-129", "main.c:163"]}
{"id": "C117", "title": "A killed run holds a complete shorter run", "statement": "Whenever a run is stopped, at any moment of any execution: if the chain file of some rank has a row of iteration i, then the chain file of every rank begins with the complete chain file of the run with the same input and clock and N_iter = N, for every N with max(1, n_save_begin) <= N <= i - (n_iter_a_batch_base + n_iter_a_batch_rand). So the files of a killed job can be cut to those of a finished, shorter job. If up to the last n_iter_a_batch_base + n_iter_a_batch_rand rows of each file were still in buffers and lost, the same holds with twice that number subtracted, also when a file ends in the middle of a number.", "quantifier": "all valid configurations, all user models, all numbers of ranks and roots, all clock values, all prefixes of all executions, all rows of all files, all such N", "why_tests_cant": "It relates two different runs, one of them cut off at an arbitrary moment of an arbitrary interleaving.", "anchors": ["mpi_stack.c:141-193", "mpi_batch.c:53-129", "main.c:96-111"]}
{"id": "C118", "title": "A rank that stops or hangs holds up the others within a batch", "statement": "Ranks may stop anywhere for any reason (exit when a file cannot be opened, killed, or hung without an error). From the moment on when a rank stops or takes no action of its own any more, its files stay as they are and no other rank ever has more rows in its chain file than that rank plus n_iter_a_batch_base + n_iter_a_batch_rand. The files of such a run hold, as those of a run that is killed as a whole (C117), the complete chain files of a run shorter by that many iterations than the furthest row.", "quantifier": "all valid configurations, all user models, all numbers of ranks and roots, all clock values, all sets of ranks that stop and all places where they do, all executions before and after", "why_tests_cant": "A rank can stop at any of its actions under any schedule; only a few such places can be provoked.", "anchors": ["mpi_stack.c:141-193", "mpi_batch.c:53-129", "mpi_batch.c:434-443", "main.c:163"]}
{"id": "C119", "title": "A second run in the same directory appends, and repeats what is there", "statement": "Contrary to the warning of make_dir (may overwrite previous results) no run takes a character away from any file: what it prints comes behind what was there, and the chain file of a rank gets exactly the text of its rows. With init_rand_seed in the input, as in the samples, each further finished run adds to every chain file the very text that the first has added. After k such runs a reader finds k times as many rows, iteration 0 occurs k times, and every average over the rows is that of one run. Starting the program again in the same directory with a larger N_iter does not continue the first run: its rows come once more, and only then new ones.", "quantifier": "all valid configurations, all user models, all numbers of ranks and roots, all contents of the directory before, all clock values, all executions, all numbers of runs, all functions of a row", "why_tests_cant": "A test starts in an empty directory; the contents before, the number of runs and the schedules are unbounded.", "anchors": ["readin.c:390-404", "main.c:102", "mpi_batch.c:425-469", "mpi_init.c:224", "mpi_init.c:252", "mpi_init.c:289", "mpi_flow.c:347", "mpi_stack.c:474"]}
{"id": "C120", "title": "Of all that a run leaves on disk only the order of the seed log depends on the schedule", "statement": "A finished run adds to every file but init.randseed the lines of one rank, in the order in which that rank prints them, and to init.randseed one line of each rank, in some order. So two finished runs with the same input and clock on the same files leave the same contents in every file but that one, where they leave the same lines. Their order is open: an Eggbox run with three ranks can leave different seed logs.", "quantifier": "all valid configurations, all user models, all numbers of ranks and roots, all contents of the directory before, all clock values, all pairs of schedules, all file names", "why_tests_cant": "A test sees the order of one schedule; that nothing else differs is a matter of all interleavings of all ranks writing to all files.", "anchors": ["mpi_init.c:214-240", "mpi_init.c:242-280", "mpi_init.c:282-320", "mpi_batch.c:425-469", "mpi_flow.c:336-366", "mpi_stack.c:463-495"]}
{"id": "C121", "title": "Without the directory of results nothing is written and no rank finishes", "statement": "If the directory of results is neither there nor can be made (make_dir takes every failure for 'exists' and the program goes on), then in every execution no character is added to any file, no rank finishes, and the execution can be continued to a standstill, always by the same number of actions in all, at which every rank has stopped at a file it could not open.", "quantifier": "all valid configurations, all user models, all numbers of ranks and roots, all clock values, all schedules, all contents of the disk", "why_tests_cant": "A test takes one schedule and sees that it hangs or ends; that no interleaving lets any rank write or finish needs all schedules.", "anchors": ["readin.c:390-404", "main.c:102", "mpi_init.c:224-228", "mpi_init.c:252-256", "mpi_init.c:289-293", "mpi_batch.c:438-442", "mpi_flow.c:347-351", "mpi_stack.c:474-478"]}
{"id": "C122", "title": "Runs with neighbouring seeds share starting points and chains", "statement": "Two runs of the same model with seeds s and s+d in their inputs are not independent: the chain of rank r+d of the first and that of rank r of the second (r not root) start from the same point, whatever the other settings, the data and the numbers of ranks, and so does the chain of root of the first if it has r+d ranks (with d=0: root of n ranks starts where rank n of a larger run does). The same holds for runs without a seed in the input if the second is started d seconds after the first. Without swaps and tuning and with the same inverse temperature the two chain files hold the same rows from N_save_begin on.", "quantifier": "all pairs of valid configurations of one model, all numbers of ranks, seeds and distances of seeds, all schedules, clocks and data", "why_tests_cant": "Two test runs with different seeds look different file by file; the copies are in files of different ranks, and that they are there for all seeds, sizes and models is a matter of how seeds are handed out.", "anchors": ["mpi_init.c:43-63", "mpi_init.c:90-106", "main.c:107-118", "main.c:86"]}
{"id": "C123", "title": "Counting the lines of the data file ends only where char is signed", "statement": "get_nlines_of_file keeps the result of getc in a char. Where char is signed its loop ends for every file, at the end or at the first byte 0xFF, and gives the number of newlines before that. Where char is not signed (ARM and POWER under Linux) the loop ends for no file, so no run gets past its start.", "quantifier": "all files (lists of bytes), both kinds of platform, all numbers of steps", "why_tests_cant": "Tests run on the developer's platform, where char is signed; a test on another one sees a program that has not ended yet, not that it never will.", "anchors": ["data_loader.c:97-119"]}
