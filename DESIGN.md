# nii-c: formal model and proofs — design

Subject: `shengjin/nii-c` (C + MPI parallel-tempering MCMC), source in `/repo`, read as text only.
Prover: Lean 4.33.0 with Mathlib. Project in `lean/`, modules under `lean/Verif/`.

## 1. Shape of the model

* **Arithmetic** (`Verif/Model/Arith.lean`). The C `double` operations are a class `Arith F` without laws.
  Everything structural (MPI protocol, loop structure, bookkeeping, swaps, tuning, files) is stated and proved for an
  arbitrary `F`, hence in particular for IEEE doubles with any rounding. Numeric properties are proved for concrete
  instances: exact reals (`Num/Real.lean`), and numbers with NaN, infinities and an arbitrary rounding that is monotone and
  keeps 0, 1, -1 (`Num/Dbl.lean`). `Num/Binary64.lean` constructs IEEE binary64 (round to nearest, ties to even, gradual
  underflow, overflow to infinity) and proves that it meets these laws, so the theorems about any rounding hold for it.
* **Random numbers.** The generator is a parameter `Source` of the model; the default instance is per-rank `drand48` as the 48-bit linear
  congruential generator of POSIX, `srand48` likewise. Theorems about streams hold for every generator of numbers in [0, 1).
  Distribution statements treat a draw as a point of [0,1) with Lebesgue measure.
* **Ghost notes.** At the start of every batch and every swap each rank records its counters, ladder and widths in the
  line `Line.note`. These lines are not output of the program; they let theorems speak about variables of every rank.
* **Undefined behaviour.** C undefined behaviour (out-of-bounds access, null pointer, uninitialised read, signed
  overflow), MPI misuse (wrong type or length) and running out of loop fuel are the outcome `Fault`, never assumed away.
* **MPI** (`Verif/Mpi/*`). A rank is a process tree (`send`/`recv`/`barrier`/`out`/`ret`/`fault`). A system has one
  process per rank and FIFO queues per (source, destination, tag). Broadcast is root sending to every other rank on a
  reserved tag. Standard-mode sends may be buffered or may wait for the receiver. Steps are interleaved arbitrarily.
* **SPMD programs** (`Verif/Model/*`). Each `mpi_*` function is transcribed as a program parameterised by `my_rank`.
* **Sequential model** (`Verif/Seq/*`). One table of chains; proved equal to the SPMD program under every schedule.
* **Input side** (`Verif/Model/Readin.lean`, `DataLoader.lean`). Byte-level models of `getline`, `strstr`, `strtok`,
  `sscanf("%[^:]:...")`, line counting and table filling.
* **User code.** `logll_beta`, `log_prior`, `para_boundary`, `init_parm_set`, `init_gaussian_proposal` are parameters of
  the core model; the bundled models' versions are transcribed and proved about separately.

`while` loops of the SPMD program use a fuel argument; running out is the fault `fuel`. Termination theorems show that
for every valid configuration an explicit amount of fuel suffices.

## 2. Per property

| id | modelled / proof method |
|----|--------------------------|
| C01 | Process semantics; strong diamond property of steps plus an explicit synchronous execution of the whole program; progress from every reachable state without relying on buffering. |
| C02 | Same; all maximal executions end in the same state. |
| C03 | Same; final state has empty queues and no process is at `fault`; messages are typed. |
| C04 | Refinement of the SPMD program to the sequential model. |
| C05 | Arithmetic on ranks. |
| C06 | Induction over the stack loop for arbitrary draw sequences; negation witness for rand >= base. |
| C07 | Induction over stacks and batches of the sequential model. |
| C08 | Invariant of the sequential model (each rank has its own counter there). |
| C09 | Refinement of the array-level `iter_batch_mh` to a recursion; fault for n <= 0. |
| C10 | Exact reals; set of accepting draws and its Lebesgue measure. |
| C11 | Pointwise balance identity; then kernel reversibility with Mathlib kernels. |
| C12 | Induction over the batch, arbitrary `F`. |
| C13 | Invariant over the run when the ladder is not tuned (`_partial`); counterexample when it is. |
| C14 | Induction over batch, stack, flow. |
| C15 | Invariant over the run given the box property of the boundary routine. |
| C16 | Extended reals with NaN. |
| C17 | Induction on the sequential run's output. |
| C18 | From C14. |
| C19 | From C38; negations for one rank and unknown mode. |
| C20 | Case analysis; permutation of the table. |
| C21 | Exact reals; with rounding see C103. |
| C22 | Invariant of the stack loop. |
| C23 | Ghost tally of actual pairs; holds for mode 0, counterexample for mode 1. |
| C24–C27 | Real-valued ladder update; invariants, `_partial` and counterexamples for order and range. |
| C28 | Sequential run. |
| C29 | Invariant in the distributed refinement: every rank's ladder copy equals root's. |
| C30–C32 | Decision logic and frame theorems on the sequential tuning. |
| C33–C34 | Exact reals. |
| C35 | Invariant over the run. |
| C36–C37 | Linear orders / reals. |
| C38–C41 | Exact reals and rounded doubles; Lebesgue measure; negation for C40. |
| C42 | Modular arithmetic; injectivity of the generator step. |
| C43 | `%u` conversion of signed text; negation witness, partial for 0 and positive. |
| C44 | Rounded extended reals. |
| C45 | Exact reals / measures; negation for the clamp. |
| C46 | From C41. |
| C47–C50 | Byte-level model of the reader; characterisation and round trip. |
| C51–C52 | Byte-level model of the loader. |
| C53 | Index arithmetic of `alloc.c`. |
| C54–C55 | File naming with `snprintf` truncation; ownership invariant of outputs. |
| C56–C60 | Transcribed bundled models over the reals. |
| C61 | Box–Muller by change of variables to polar coordinates; the effect of the literal for pi is bounded. |
| C62 | Position of the `mkdir` step in every log. |
| C63 | Closed form of the generator; subtraction modulo 2^48. |
| C64–C67 | Transcription of `models/fit_orbit/user_logll.c`; convexity and error recursion of Newton's method, rotations of an ellipse. |
| C68–C69 | Transcription of `models/hier_R/user_logll.c`; induction over the planets listed in the table. |
| C70 | The tuning decision on any table of rates, then in every run through the steps of the sequential model. |
| C71 | IEEE binary64; error propagation through the formula, then the acceptance rule on infinities. |
| C72 | `fprintf` formats written out (`Model/Print.lean`); the text is a decimal number close to the value, then the round trip of C52. |
| C73 | The configured seed enters at the start only (induction over all loops); text of the seed log. |
| C74 | Sequential model of the main loop, induction over its rounds; for the distributed program with any number of rounds of the main loop (`Refine/Start.lean`: `mainFor`, `sysFor`, equal to the program as modelled when the number is `N_iter`), refinement round by round and uniqueness of the terminal state. |
| C75 | An iteration is a function of the draws (`program_step`); Markov kernels on tables of chains, total variation (`Prob/`), exact reversible kernel for comparison. |
| C76 | Minorisation of one round by the uniform law on the box, contraction of total variation (`Tv.contract`), then C75. |
| C77 | The program as a function of streams (`Refine/Streamed.lean`, refinement through all loops); programs that read a stream and leave a fresh one (`Prob/Fresh.lean`): composition, parallel ranks, random choice; then C76. |
| C78 | `Model/Older.lean`; product of one-dimensional integrals (Fubini), draws as in C46. |
| C79 | `Model/Older.lean`; invariants over the steps of a run; the class {minus infinity, NaN} is closed under sums and every difference in it is NaN, so that the acceptance rules reject. |
| C80 | Histories with numbers (`Refine/History.lean`, refinement of the saved rows through all loops); for the rest of a run, by induction from its end: how much its expected sum depends on the state, how far its mean is from zero, and its mean square (`Prob/Average.lean`: `Est`), carried through rounds, swaps, random batch sizes, stacks and the flow. |
| C81 | `Spec/Texts.lean` (files with ranges, names of each model stated on their own, usable values), `mainText` of `Model/DataLoader.lean`; the lines of the ranges are comments for the core, so C48 applies, and C52 gives the table; then C04. |
| C82 | The sample texts are in `Model/Samples.lean`, written by `tools/samples.py`. That a text expresses its values is decided by the kernel; everything else follows from C81, C15 and C17. The faulting samples are read by evaluation. |
| C83 | The run up to the end of the tuning as a map of the streams with a history of tuning outcomes, of which widths and ladder are a function (`Refine/Tuned.lean`, refinement through all loops). Every step uses each stream from a random place on and leaves a fresh one: `Clean` (`Prob/Clean.lean`), so given the past the streams left over are again uniform (`Refine/TunedLaw.lean`). Chains stay in the box and in step, widths stay in their ranges (`Refine/TunedInv.lean`); then C80 for the rest, given the history. |
| C84 | One iteration with a left-over value keeps it only if the proposal is rejected, which has a probability of at most 1 - exp(-V) whatever the past; `Shrinks` (`Prob/Shrink.lean`) is closed under composition, random batch lengths and conditioning, so the bound multiplies through rounds, swaps, stacks and the tuning of widths (`Refine/TunedStale.lean`). Markov property of `Clean` at the last tuning, then C83. Range of a tuned ladder of three by monotonicity of `1/(1/beta + sum)`. |
| C85 | The random walk of one parameter, reflected at the ends of its range, satisfies a Poincare inequality (`Prob/Local.lean`, paths through intervals of one width); with exact normal numbers and a return to the old point where the program would leave the range, one round of a chain is reversible for the uniform law, hence after the Metropolis test for the posterior, and the rounds of independent chains tensorise (`Prob/Variance.lean`, `Prob/Exact.lean`). The program differs from this by e for each round. From a fixed table the law has no density, so the variance bound starts from the first round in which everything moved; the probability that there is none yet is (1-a)^j (`Prob/Cold.lean`: `Good`, `Est`, by induction from the end of the run). Swaps and batch lengths keep the posterior and do not enlarge the variance. The bounds of C76, C77, C80, C83 and C84 are correct but exceed 1 for realistic widths, because they ask for a part of one round that reaches all tables at once; C85 and C86 are the ones to use for a number. |
| C86 | The same estimate, with the sum of the deviations in the rows as a second component; its mean square under the posterior is at most 4K/g times the variance by Cauchy-Schwarz, Chebyshev, and the start as in C85. |
| C87 | The tuning as in C83 and C84: conditionally on its outcome the streams are fresh (`Job.after_bound`), and the bound of C86 holds for the widths and the ladder left behind. The rates hold uniformly for all widths between the limits (`gap_floor`, `Job.mixes`). |
| C88 | The generator is a parameter of the model (`Source`); `ideal` is one in which each seed starts a stream of an infinite family, the family being random (`unifSeeds`). Ranks have different seeds (C42), so their streams are independent (`seeds_law`). The program part of C77, C80, C83 and C84 holds for every generator with numbers in [0, 1), hence for `ideal` almost surely; the laws of C85 to C87 then are probabilities of events about executions and files, with no function of streams left in the statement. |
| C89 | `Model/Scripts.lean`: the loop of merge_lines.py over lines, `split`, conversion of the first two fields, `np.sum(np.abs(..)) > 0` in doubles. Proof: the difference of two different doubles is not rounded to zero (`sub_ne_zero`), so the test is equality of the numbers read; the texts of rows are those of C72. |
| C90 | Partial. `Model/Scripts.lean`: `int(x/dx)`, the index into the flattened array with Python's rules, the table saved. Dividing by the step 0.5 is exact, so the place of a row is `100*floor(2x) + floor(2y)`; `histogram_exact` is proved for all rows of the box and shows where the property fails. |
| C91 | `Props/Period.lean`: `k` draws in closed form, `x + (1 + A + ... + A^(k-1)) ((A-1) x + C)` modulo 2^48; a power of two divides the sum exactly when it divides `k`, as `A` is 1 modulo 4. So one cycle through all states, and counts over all states (C10) become counts along any stream. |
| C92 | Partial. Seeds have equal low 16 bits, so streams meet only at distances `65536 m`, and then the seeds differ by `83889 m` modulo 2^18; for differences up to 31 this needs `m` at least 7181. The draws of a run are counted through all phases (`run_draws`), for runs of the MPI program by C04. For many ranks the property is false: `run_overlap`. |
| C93 | `Props/AcceptDbl.lean`. Rounding the exponent changes it by a relative 2^-53, which moves `exp` by at most 2^-53 since `x exp(-x) < 1`; the exponential itself is off by at most one unit; a draw is a multiple of 2^-48, so counting the draws below a number is exact. The hypothesis `Libm` on the exponential is met by the correctly rounded one. A swap adds three roundings of sums of size up to `4 M`. |
| C94 | `Model/Memory.lean`: the heap as the list of live blocks with sizes, and what every function of the program allocates, touches and frees, in order, for the root, the helper of the swaps and the other ranks; decisions that depend on values come from a plan that the theorems quantify over. `Model/MemoryRules.lean` has the rules (a heap is a base plus a list of added blocks), `Model/MemoryKeeps.lean` one lemma per function, `Props/Memory.lean` the theorems, `Props/MemoryRun.lean` the link to the runs of the sampler. The user's functions are any programs that leave the heap as they found it; the bundled ones and the log-likelihood of `fit_orbit` are shown to do so. |
| C95 | `Props/Counter.lean`: `Valid` is split into `Runnable` (everything but the number of iterations) and `NoWrap`. A round of the main loop is a step of the refinement (`flowRound_via`), so the state before the overflowing addition is reached by induction on the stacks, and confluence carries it to all schedules. |
| C96 | `Props/GridDbl.lean`: logarithms of the cells with an error per operation, then the invariant of the runs of C35 with widths up to 2^-36; a chosen width outside the range is first moved inside, so the error does not grow. |
| C97 | `Num/Recip.lean`, `Props/LadderDbl.lean`: rounding to nearest is monotone, so results stay between numbers of the format; `1/x` rounded three times equals `1/x` rounded once (an argument on integer significands), which makes the range of the middle temperature an invariant. |
| C98 | `Spec/Estimate.lean` (what a user computes from the text of a chain file), `Props/EndToEnd.lean`: C81 gives the run of the two texts, C88 its averages, C72 the text of the rows; a function of the parameters changes little when they are printed with thirteen digits. |
| C99 | `Props/KeplerDbl.lean`, `Props/OrbitDbl.lean`: one step in doubles is one exact step (C64) up to 3.1 (\|m\|+1) 2^-53 + 2^-45, and five such steps end below the tolerance; for the other side, an odd multiple of pi close to the middle between two doubles makes the rounded steps alternate. Asked of the library: sine and cosine within 2^-50 (`Nearest`), and rounding to nearest, ties to even (`IeeeNearest`). |
| C100 | `Props/Mixture.lean`, `Props/MixtureRun.lean`: the value of the model is the mixture density (`Spec.mixture`), which is between 0 and 1.01; so the density of the target is between 1 and exp(1.01 b). The mixture on its side by the product of two normal integrals and the tail bound of C76; the chains by `sampler_converges`, and the rows of a run by the rates of C85 (`multi_mixes`, `mixing_average`). |
| C101 | `Model/Launch.lean` (grep, awk and the shell's words), `Props/Launch.lean`: the fields of a line by the first-field lemma `tokens_first`, against `scanInt`; configurations by the line found for C81; the samples by evaluation and `sample_runs`. More processes: no path of `mainProg` ends, which every step keeps. Fewer: the table is used at the start only (`mainProg_betas`). |
| C102 | `Model/Corner.lean` (the reading of the columns by `np.genfromtxt`), `Props/Corner.lean`: the words of a printed row are whole, so that splitting gives them back; with C17 (rows of a chain file) and C72 (text of a file) for runs; the samples by `sample_runs`, the inverse temperature by C24. |
| C103 | `Props/TemperedDbl.lean`: the rounding of the product with beta and of the sum with the prior is added to the errors of C93; the stored values of runs by `LpInv` (C13), finiteness by C104. `TameOn` is the bound on the values of a model in its box: the egg box by C58, the two Gaussians and the regression in `Props/TameDbl.lean` by interval bounds through the rounded operations. |
| C104 | `Props/FiniteDbl.lean`: NaN in a coordinate makes the likelihood code return NaN (each model), a proposal with NaN is rejected (C16), so the set of finite points in the box is an invariant of all steps; starting points by error bounds for the two draws. |
| C105 | `Model/Crash.lean` (`Cut`: a program stopped anywhere), `Props/Together.lean`: a return comes directly behind a barrier (`Guarded`), and a finished rank blocks every further barrier, so by confluence (C01) all finish at once. Executions of stopped programs are executions of the whole ones (simulation `CutSys`, for unwritable lines `FailSys`). `Props/Unreadable.lean`: an invariant counts the broadcasts that root still makes before it fails and those the others still wait for. |
| C106 | `Model/Compare.lean` (the densities in the scripts), `Props/Compare.lean`: the loops over the data by induction over the points read so far, the factor 1 by idempotence of rounding, finiteness by the bounds of C103. |
| C107 | `Model/Build.lean` (directories, `cp`, `make`, the linker; names and types in the sources), `Props/Build.lean`: the facts about the fixed sources by evaluation, the statements for all user files and directories by reasoning about lists of names and about `cp`. |
| C108 | `Props/StackFiles.lean`: the log of each rank as a list of stacks (`StackRec`), by induction over batches, swaps and stacks of the sequential program, transferred to all schedules; the contents of the two kinds of files are read off it. |
| C109 | `Model/Numpy.lean` (`%.<p>e`, `np.savetxt`, `np.genfromtxt`, the simulated rows), `Num/Nearby.lean`: a real number within `2^-54` of the size of a double is rounded to it; `Refine/PrintAt.lean`: a text of seventeen digits is that close; `Props/Numpy.lean`: both readers have the same doubles, by induction over rows and cells, and the density of C106 on them. |
| C110 | `Props/Extend.lean`: the sequential runs of both lengths agree, by induction over the main loop, up to the stack in which the shorter one ends; within that stack by induction over its batches up to the last one, whose rows are a prefix of the rows of the longer batch; C04 carries this to all executions. |
| C111 | `Props/SaveBegin.lean`: a simulation between the sequential runs with the two values of `N_save_begin`, function by function: equal states, thinned output; C04 carries this to all executions. |
| C112 | `Props/Alone.lean`: the invariant `Solo` (the chain is `mhIter` of its start, the file its rows but for a first part) holds after every batch and stack of the sequential run; C04 carries this to all executions. |
| C113 | `Mpi/Flight.lean`: a budget of sends per destination and tag, renewed by a barrier and by a message from that destination, is kept by every rank program (`Paced`, compositional); `in_flight` carries this from one unbuffered execution to all states of all schedules. `Refine/Paced.lean`: `mainProg` keeps one message per tag and two broadcasts (`mainProg_paced`). |
| C114 | `Props/Fences.lean`: `unfenced` takes the barriers out of the process trees; an unbuffered execution maps to one without barriers (a barrier step maps to no step), and one such execution decides all schedules and policies (`progress`, `exec_complete`). |
| C115 | `Refine/Relay.lean`: the program with the two collectives as a parameter `Colls` (`mainProg_plain`: with those of the model it is `mainProg`), and the refinement proofs replayed with the law `Colls.Works`. `Props/Collectives.lean`: `RankTree`, `relay`, `report`; `tree_works` by induction on the ranks still to be served; then as for C114. |
| C116 | `Mpi/Cut.lean`: a barrier cuts every execution, which either can still reach the state before the barrier or has left the state after it (`cut`, from `residual`). `Refine/Abreast.lean`: the refinement proof of the loops replayed backwards with the count of rows since the last cut (`Held`, `Thru`); only the barrier after a batch (mpi_stack.c:150) and the first one (main.c:163) are used as cuts. |
| C117 | `Props/Salvage.lean`: the rows of the finished files are equally many (`seqMain_level`, by induction on the steps of the sequential run), so all files start saving at the same iteration; with C116, the row numbers of `chain_file` (C17) and `longer_run_extends` both files are prefixes of the finished file and the shorter one is the shorter run's. |
| C118 | `Props/Stopped.lean`: a run with stopped programs writes the same as an undisturbed one under the same schedule (`CutSys.exec`, C105), so C116 and C117 carry over; only a rank itself writes its lines (`Sys.exec_log_quiet`). |
| C119 | `Model/Disk.lean`: the files as a function of the name; an execution appends each line when it is printed (`Sys.runOn`). `Props/Disk.lean`: one order of all the lines explains all files (`Sys.runOn_trace`, by induction on the schedule); with the writer of each file (C55) and `file_text` (C72) the contents of the chain files; `Reruns` is the sequence of finished runs, treated by induction on their number. |
| C120 | `Props/SeedLog.lean`: from `Sys.runOn_trace`, with one writer for each other file (C54) and one seed line of each rank (`seed_line`, C73), the order of the seed log is a permutation of the ranks. The two orders by a schedule that stops where the first two ranks are both about to write (`toSeeds`), completed by C01. |
| C121 | `Props/NoDirectory.lean`: `unwritable_line` (C105) for all lines that go to a file, with what `Sys.runOn` does to the disk. That in the end every rank has stopped, not only one: all ranks can come to their seed lines with nothing in flight (`main_seeds`, from the lemmas of the refinement), the failing program follows them there (`FailSys.back`), and by confluence (`exec_complete`) that is the only standstill. |
| C122 | `Props/Neighbours.lean`: the first row of a finished run is the point drawn from the rank's seed (`first_row`); `Props/Alone.lean`: a chain without swaps and tuning is decided by seed and inverse temperature (`chain_of_seed`); the seeds by `seedOf`. |
| C123 | `Model/CharLoop.lean`: the loop over the results of `getc`, with the signedness of `char` as an argument and fuel. Induction over the rest of the file; `nlines_model` ties it to `countLines`, which the rest of the model uses. |

## 3. Trusted base

* Lean's kernel; axioms `propext`, `Classical.choice`, `Quot.sound` only.
* The transcription from C to Lean (by reading; no extraction tool). Each definition cites file and lines.
* MPI: reliable FIFO delivery per (source, destination, tag); `MPI_Bcast` as messages from root (by C115 any other
  implementation of the collectives gives the same results); a standard send may complete early or wait for the receive.
* libc: `drand48`/`srand48` as specified by POSIX; `getline`, `strtok`, `strstr`, `sscanf`, `atof`, `snprintf`, `fprintf` as written
  beside the definitions, in the "C" locale. `char` is signed (but for C123). A number outside the range of `int` read by `%d` is a
  fault, as is signed overflow in the side conditions of `Valid`. Infinities, NaN and hexadecimal numbers in text are
  left to an arbitrary function `other`. Files are opened in append mode, so a file is the sequence of its lines (`Model/Disk.lean`: behind what was there).
* libm: arbitrary functions for the structural theorems; exact functions for the reals; for `Double` correctly rounded
  functions. `pow(x, 2)` is `x*x` correctly rounded. The sign of zero is not represented (no modelled formula divides by
  a zero whose sign could differ and uses the result otherwise than by comparison with finite numbers).
* C75, C76 and the laws in C77, C80 and C83 to C88 replace the numbers of `drand48` by independent uniform numbers of [0, 1). No theorem claims that the generator
  behaves like that; C63 and C73 show where it does not.
* In exact arithmetic x/0 = 0. In C83 and C84 a pair of neighbours that is never proposed between two tunings of the ladder so gets the swap rate 0; in
  doubles it gets 0/0, fails the test `> 0` (mpi_ladder.c:140) and the betas next to it are treated as if both their pairs had no swap. Either way the new
  beta is the result of one of the branches, and the bounds of C84 cover all branches.
* Memory: `alloc.c` is modelled on a heap of cells (C53). Elsewhere arrays are lists with checked access.
* Python (C89, C90): `readline`, `split`, `int`, list and array indices as written beside the definitions; text of ASCII characters; `float` of a decimal number is the
  nearest double. numpy's `genfromtxt` is reading of the first two fields of every line.
* Shell (C101): `grep` with a fixed word, `awk '{print$2}'`, cutting of `$NUM` into words, and `mpirun -n` followed by a number in digits, on files without null bytes.
* numpy (C102): `np.genfromtxt` with `skip_header` and `usecols` gives the chosen fields of the lines behind those skipped, cut at blanks, and Python's `float` reads decimal numbers to the nearest double, `inf`, `-inf` and the text that C prints for NaN.
* numpy (C109): `np.savetxt` prints every number with `%.18e`, the nearest decimal (ties to even), one blank between numbers and a newline behind each row; `np.genfromtxt` with the delimiter `" "` cuts comments at `#`, strips blanks and ends of lines, splits at every single blank and skips empty lines; products and sums of arrays are those of doubles, element by element.
* Building (C107): `cp`, patterns of the shell, `make` and the linker as written beside the definitions; a call of a function with other parameter types than those of its definition is undefined (C11 6.5.2.2).
* Comparison scripts (C106): `np.log`, `np.exp`, `math.sin`, `math.cos` and `**` are the functions of the C library; the other samplers are not modelled.
* Not modelled: plotting scripts, wall-clock timing and `printf` to stdout, disabled debug files. Lack of memory, failure of `fopen` for output and killed ranks are
  modelled as ranks that stop (C105); a file that is opened but cannot be written to is not modelled, nor is a missing input.ini. Not modelled either:
  the bodies of user-supplied models other than the bundled ones. `models/fit_orbit` and `models/hier_R` are written for an
  older interface; their likelihoods are modelled with beta as an argument and their prior code with the ranges as an argument.

## 4. Disagreements between code and documented or expected behaviour

Each entry names the theorem with the witness.

| property | what happens | theorem |
|----------|--------------|---------|
| C05, C19 | with one rank there is neither a helper rank nor a partner, but the swap is attempted: index outside the ranks | `swap_helper_one_rank`, `swap_one_rank` |
| C06 | when `n_iter_a_batch_rand` is not below the base a batch can get a length of zero or less, which allocates an empty or negative array and indexes it | `batch_can_be_empty`, `batch_nonpositive` |
| C13 | after the ladder has been retuned the stored log-posteriors still belong to the old temperatures and are used in the next swap and written | `lp_out_of_step` |
| C19 | with an unknown swap mode the partner is always chain 0 and a chain can be paired with itself | `swap_unknown_mode` |
| C23 | in swap mode 1 the recorded rate is not the rate of one pair | `pair_rate_mode1_wrong` |
| C25 | with four ranks a retuned ladder can get a negative inverse temperature; over several updates also from an ordered ladder and with the shipped settings | `ladder_negative_beta`, `ladder_negative_ordered` |
| C26, C27 | the retuned ladder can lose its order and leave the range of its ends, over several updates by any factor | `ladder_order_broken`, `ladder_range_broken`, `ladder_range_unbounded` |
| C30 | a NaN acceptance rate makes a chain be tuned | `nan_rate_is_tuned` |
| C33 | with one rank the grid of trial widths is NaN | `grid_one_rank` |
| C34 | the grid leaves the range when the range is narrower than the configured ratio | `grid_out_of_range` |
| C37 | one branch of the decision is never taken | `decide_dead_branch` |
| C40 | the integer draw gives both end values half the weight of the others | `unifAb_not_uniform` |
| C43 | a negative seed in `input.ini` is not "take the clock" but a fixed seed | `negative_seed_fixed` |
| C47 | a mentioning line of 100 bytes or more overruns the buffer; a name that no line or several lines mention is a null pointer | `para_line_long`, `para_line_null`, `read_needs_all` |
| C49 | too few inverse temperatures are a null pointer, further ones are written behind the table | `betas_too_few`, `betas_too_many` |
| C51 | an unterminated last line or a byte 0xFF makes the loader write behind its table | `loaded_terminated` |
| C52 | a short line is a null pointer | `short_row_fault` |
| C53 | no rows, or a product beyond `int`, break the allocation | `alloc2d_no_rows`, `alloc3d_overflow` |
| C54 | long directory names are cut and then all ranks write into one file | `chain_names_cut`, `cut_names_mix` |
| C45, C11 | proposals that are still outside the box after reflection are put on its border, so the ends have positive probability; the proposal is not symmetric and not even the uniform law is invariant | `reflect_not_symmetric`, `reflect_mh_not_invariant` |
| C46 | starting points of hier_R can be outside the box | `hier_start_outside` |
| C57, C61 | the decimal literals for pi change densities by a constant (below 1e-16 a row) and the normal law (below 1e-16 in probability) | `regression_pi_offset`, `normal_not_exact` |
| C58 | Rastrigin at beta = 0 is NaN at the optimum | `rastrigin_nan_at_zero` |
| C59 | the prior of hier_R is not normalised | `hier_prior_integral` |
| C60 | a NaN bound passes the check of the ranges | `range_check_nan` |
| C61 | one generator state gives an infinite normal draw | `normal_infinite` |
| C64 | at eccentricity 1 Newton's method can give NaN | `newton_parabola` |
| C67 | a table with one column is read beyond its end | `orbit_one_column` |
| C69 | a measurement that looks like a planet description makes hier_R read behind the table | `hier_oob` |
| C71 | the curved likelihood underflows in a large part of the sample box; chains stand still there | `curved_underflow`, `curved_stands_still` |
| C72 | different doubles have the same text in the chain file; small inverse temperatures are `0.000000` in the ladder file | `Print.sci_lossy`, `Print.fixed_vanishes` |
| C73 | seeds from 2^31 on are logged as negative numbers; runs with neighbouring seeds share streams | `seed_text`, `runs_share_seeds` |
| C74 | `n_iter_a_stack: 0` loops for ever, a negative value overflows the counter | `zero_stack_diverges`, `negative_stack_overflows`, `zero_stack_runs_on`, `negative_stack_runs_over` |
| C79 | the first parameter of `hier_R` starts with a width above the tuner's maximum in the sample configuration | `hier_sample_width` |
| C79 | the prior of `hier_R` takes `exp(exp(max))`: with a maximum of 7 (the sample has 6) it is zero everywhere and no chain ever moves | `hier_lambda_bad`, `hier_never_moves` |
| C81 | nothing checks `N_parm` against the model or the number of columns against the likelihood | `texts_fault` |
| C82 | `N_begintune: 100000000000` of the eggbox sample does not fit into `int` | `eggbox_sample_faults` |
| C82 | the samples of `fit_orbit` and `hier_R` lack names that the present reader asks for: null pointer | `older_samples_fault` |
| C89 | merge_lines.py drops the first row and all repeated rows: the merged file no longer has the frequencies of the chain; a second run appends everything again | `Scripts.merge_forgets_weights`, `Scripts.merge_frequency`, `Scripts.merge_moves` |
| C90 | sampling_static.py counts rows at the upper end of the second parameter at the lower end of the next column, and stops at a row at the upper end of the first | `Scripts.histogram_wrong_cell`, `Scripts.histogram_stops` |
| C90 | the surface shown as posterior is its logarithm | `Scripts.surface_not_posterior` |
| C92 | ranks are seeded with successive numbers, and the streams of close seeds can meet early: with 75 or more ranks and `init_rand_seed: 11987` two ranks draw the same numbers from the 1638401st draw on (about 270000 iterations with three parameters) | `run_overlap`, `overlap_many` |
| C94 | the lines that `read_onepara` returns are freed only for the last name of every reader, and `FoutPre`, `FoutSuf`, `results_dir`, `Data_file`, `Delimiter`, `Beta_Values`, `sigma_parm_min`, `sigma_parm_max` and, on the root, `logpost_all_ranks` never: about 3.3 kB plus 100 bytes for every range, once per run and without growth | `RankHeap.heap_leak` |
| C95 | `N_iter` close to `INT_MAX` overflows the counter before the last stack (e.g. 2147483647 iterations in stacks of 300) | `counter_overflows` |
| C99 | beyond a mean anomaly of 2^26 `newton_solver` can loop for ever: eccentricity 1/2, a period of 6.28318530716 days, a time of 67108870.7 days | `newton_endless`, `orbit_logll_endless` |
| C100 | models/multi_gaussian returns the density of the mixture as log-likelihood, not its logarithm: the target is almost flat | `multi_flat`, `multi_peaks`, `mixture_peaks`, `multi_rows` |
| C101 | mjob.sh and the program read N_beta in different ways: without a blank behind the colon, or with carriage returns, the script starts nothing; with a number before the colon or a second number it starts another number of processes. The program does not compare the number of ranks with N_beta: with more it reads beyond the table, with fewer the last inverse temperatures have no chain | `launch_differs`, `too_many_ranks`, `too_few_ranks` |
| C107 | with prep.sh the models of version 1.0.0 compile and link without a message, but `logll_beta` is called with other types than it has; a user's files left at the top of the repository replace the model's own; the Makefile in models/curved_likelihood lacks mpi_ladder.c | `older_models_differ`, `prep_overwrites`, `old_makefile` |
| C102 | The corner_plt.py of curved_likelihood and of hier_R open files that a run of their sample does not write; the one of the regression skips another 100000 rows although the first 100000 iterations are not in the file; the one of multi_gaussian draws the starting point as if it were a draw | `Scripts.plots_open_nothing`, `Scripts.regression_plot`, `Scripts.mixture_plot` |
| C104 | The regression without a line of data takes a proposal with NaN in the slope or the intercept | `regression_blind` |
| C119 | the warning that a run may overwrite previous results is wrong: it appends, and with a seed in the input a second run in the same directory writes every row again | `run_appends`, `reruns_repeat`, `reruns_read` |
| C121 | make_dir reports every failure of mkdir as "exists" and the run goes on, to end at the first file | `no_directory` |
| C122 | runs with neighbouring seeds, or without a seed and started within seconds of each other, meant as independent repetitions, share starting points, and without swaps whole chains | `neighbour_starts`, `started_together`, `neighbour_runs` |
| C123 | where `char` is not signed (ARM, POWER) the loop that counts the lines of the data file never ends | `nlines_unsigned` |
