import Verif.Model.Readin

/-!
# Building a program: Makefile, models/*/prep.sh

`prep.sh` copies the sources, headers, `mjob.sh` and `Makefile` from the top of the repository into the directory of a model and runs `make` there.

A source file is represented by what the compiler and the linker see of it between files: the headers included with quotes, the functions and variables with external linkage that it
defines, and those of other files that it uses, each with the type given there (prototypes and `extern` declarations are repeated in each file; only `alloc.c` has a header). Functions of
libc, libm and MPI are left out, as are declarations that are not used.

Simplified: directories hold regular files only; a source that is there compiles if its headers are there (the sources of the repository are taken to be free of errors, and those of a user
are, too); `make` compares no times, as the target `mtmc` of the rule is never made, so that its command always runs; with two definitions of a variable the linker stops (`gcc` from version
10 on).
-/

namespace NiiC
namespace Build

/-- Types in the declarations. -/
inductive CType where
  | void | int | uns | dbl | chr | status
  | ptr (t : CType)
  deriving DecidableEq

/-- A function with its result and its parameters, or a variable. -/
inductive Sym where
  | fn (result : CType) (params : List CType)
  | var (t : CType)
  deriving DecidableEq

/-- A source file. -/
structure Unit where
  /-- headers included with quotes, apart from mpi.h -/
  includes : List Str
  /-- what is defined -/
  defs : List (String × Sym)
  /-- what is used and defined elsewhere -/
  uses : List (String × Sym)
  deriving DecidableEq

/-- A file in a directory. -/
inductive File where
  | source (u : Unit)
  | header
  /-- a Makefile, represented by the sources on the line with `$(CC)` -/
  | makefile (sources : List Str)
  /-- an executable file, represented by the sources it is made of -/
  | program (us : List Unit)
  | other (text : Str)

abbrev Dir := Str → Option File

/-- `cp` of all files of the directory `src` whose name satisfies `p` into the directory `dst`. -/
def cp (p : Str → Bool) (src dst : Dir) : Dir := fun name =>
  if p name then (match src name with | some f => some f | none => dst name) else dst name

/-- The pattern `*.c` or `*.h` of the shell: no name with a dot at the beginning matches. -/
def glob (suffix : Str) (name : Str) : Bool := name.head? != some '.' && suffix.isSuffixOf name

/-- Compilation of one source in a directory. -/
def compile (d : Dir) (name : Str) : Option Unit :=
  match d name with
  | some (.source u) => if u.includes.all (fun h => match d h with | some .header => true | _ => false) then some u else none
  | _ => none

/-- Whether the linker makes a program: nothing is defined twice, and what is used is defined, as is `main`. The linker knows names, not types. -/
def links (us : List Unit) : Bool :=
  let names := us.flatMap fun u => u.defs.map (·.1)
  decide names.Nodup && us.all (fun u => u.uses.all fun s => names.contains s.1) && names.contains "main"

/-- Compilation of several sources, in order. -/
def compileAll (d : Dir) : List Str → Option (List Unit)
  | [] => some []
  | s :: ss => match compile d s, compileAll d ss with
    | some u, some us => some (u :: us)
    | _, _ => none

/-- `make`: Makefile:14-15. Without success an earlier `a.out` stays. -/
def make (d : Dir) : Dir :=
  match d (c!"Makefile") with
  | some (.makefile sources) =>
    match compileAll d sources with
    | some us => if links us then (fun name => if name = c!"a.out" then some (.program us) else d name) else d
    | none => d
  | _ => d

/-- models/*/prep.sh:3-8, run in the directory `d` of a model, with the directory `top` two levels above. -/
def prep (top d : Dir) : Dir :=
  let d := cp (glob (c!".c")) top d
  let d := cp (glob (c!".h")) top d
  let d := cp (fun name => decide (name = c!"mjob.sh")) top d
  let d := cp (fun name => decide (name = c!"Makefile")) top d
  make d

/-! ## The files of the repository -/

/-- What main.c defines and uses. -/
def uMain : Unit where
  includes := [c!"alloc.h"]
  defs := [("main", .fn .int [.int, .ptr (.ptr .chr)]), ("nline_data", .var .int)]
  uses := [("read_input_ini", .fn .int [.ptr .chr]), ("make_dir", .fn .int [.ptr .chr]), ("init_gaussian_proposal", .fn .int [.ptr .dbl, .dbl]),
    ("save_sigma_gauss_prop", .fn .int [.ptr .dbl, .int]), ("mpi_get_nlines", .fn .int [.int, .int, .ptr .chr, .int]),
    ("mpi_data_loader", .fn .void [.int, .int, .int, .int, .ptr .dbl, .ptr .chr, .ptr .chr]),
    ("mpi_gen_init_parm", .fn .int [.status, .int, .int, .int, .int, .int, .int, .ptr .uns, .ptr (.ptr .dbl)]),
    ("mpi_init_calc_logllpp", .fn .int [.status, .int, .int, .int, .int, .int, .ptr (.ptr .dbl), .int, .ptr .dbl, .dbl, .ptr .dbl]),
    ("mpi_gather_sigma_prop_root", .fn .int [.status, .int, .int, .int, .int, .ptr (.ptr .dbl), .ptr .dbl]),
    ("mpi_entire_flow", .fn .int [.status, .int, .int, .int, .int, .int, .ptr (.ptr .dbl), .int, .int, .int, .uns, .int, .ptr .dbl, .ptr .dbl, .ptr .uns, .ptr .uns, .ptr .dbl, .int, .int, .dbl, .dbl, .ptr (.ptr .dbl), .ptr .dbl]),
    ("alloc_1d_double", .fn (.ptr .dbl) [.int]), ("free_1d_double", .fn .void [.ptr .dbl]),
    ("alloc_2d_double", .fn (.ptr (.ptr .dbl)) [.int, .int]), ("free_2d_double", .fn .void [.ptr (.ptr .dbl)]), ("N_iter", .var .int),
    ("N_parm", .var .int), ("Beta_Values", .var (.ptr .dbl)), ("results_dir", .var (.ptr .chr)), ("Data_file", .var (.ptr .chr)),
    ("Delimiter", .var (.ptr .chr)), ("ndim_data", .var .int), ("init_gp_ratio", .var .dbl), ("init_rand_seed", .var .uns),
    ("i_save_begin", .var .uns), ("n_iter_a_stack", .var .int), ("n_iter_a_batch_base", .var .int), ("n_iter_a_batch_rand", .var .int),
    ("n_iter_in_tune", .var .int), ("ar_ok_lower", .var .dbl), ("ar_ok_upper", .var .dbl)]

/-- What mpi_init.c defines and uses. -/
def uInit : Unit where
  includes := [c!"alloc.h"]
  defs := [("mpi_gen_init_parm", .fn .int [.status, .int, .int, .int, .int, .int, .int, .ptr .uns, .ptr (.ptr .dbl)]),
    ("mpi_init_calc_logllpp", .fn .int [.status, .int, .int, .int, .int, .int, .ptr (.ptr .dbl), .int, .ptr .dbl, .dbl, .ptr .dbl]),
    ("save_the_seed", .fn .int [.uns, .ptr .chr, .int]), ("save_init_parm", .fn .int [.ptr (.ptr .dbl), .ptr .chr, .int, .int]),
    ("save_first_chain", .fn .int [.ptr .dbl, .ptr .chr, .int, .dbl, .int])]
  uses := [("logll_beta", .fn .dbl [.ptr .dbl, .int, .ptr .dbl, .dbl]), ("log_prior", .fn .dbl [.ptr .dbl]),
    ("init_parm_set", .fn .void [.int, .ptr .dbl]), ("alloc_1d_double", .fn (.ptr .dbl) [.int]),
    ("free_1d_double", .fn .void [.ptr .dbl]), ("Beta_Values", .var (.ptr .dbl)), ("Fout_Len", .var .int),
    ("results_dir", .var (.ptr .chr)), ("FoutPre", .var (.ptr .chr)), ("FoutSuf", .var (.ptr .chr))]

/-- What mpi_batch.c defines and uses. -/
def uBatch : Unit where
  includes := [c!"alloc.h"]
  defs := [
    ("mpi_run_a_batch", .fn .int [.status, .int, .int, .int, .int, .int, .ptr (.ptr .dbl), .int, .uns, .int, .ptr .dbl, .ptr .dbl, .ptr .uns, .ptr .uns, .ptr .dbl, .ptr .dbl]),
    ("iter_batch_mh", .fn .dbl [.ptr (.ptr .dbl), .ptr .dbl, .int, .int, .ptr .dbl, .int, .ptr .uns, .ptr .uns, .uns, .dbl, .ptr .dbl]),
    ("do_gaussian_propose", .fn .dbl [.ptr .dbl, .ptr .dbl, .ptr .dbl]),
    ("save_debug_gaussian_proposal", .fn .int [.ptr .dbl, .ptr .dbl]),
    ("save_log_posterior", .fn .int [.ptr .dbl, .dbl, .dbl, .ptr .chr, .int]),
    ("save_the_batch", .fn .int [.ptr (.ptr .dbl), .int, .ptr .chr, .int, .ptr .dbl, .ptr .int, .ptr .int])]
  uses := [("para_boundary", .fn .int [.ptr .dbl]), ("r8_normal_01", .fn .dbl []), ("logll_beta", .fn .dbl [.ptr .dbl, .int, .ptr .dbl, .dbl]),
    ("log_prior", .fn .dbl [.ptr .dbl]), ("alloc_1d_int", .fn (.ptr .int) [.int]), ("free_1d_int", .fn .void [.ptr .int]),
    ("alloc_1d_double", .fn (.ptr .dbl) [.int]), ("free_1d_double", .fn .void [.ptr .dbl]),
    ("alloc_2d_double", .fn (.ptr (.ptr .dbl)) [.int, .int]), ("free_2d_double", .fn .void [.ptr (.ptr .dbl)]), ("N_parm", .var .int),
    ("Fout_Len", .var .int), ("FoutPre", .var (.ptr .chr)), ("FoutSuf", .var (.ptr .chr)), ("results_dir", .var (.ptr .chr))]

/-- What mpi_stack.c defines and uses. -/
def uStack : Unit where
  includes := [c!"alloc.h"]
  defs := [
    ("mpi_static_sigma_stack", .fn .int [.status, .int, .int, .int, .int, .int, .ptr (.ptr .dbl), .int, .int, .int, .uns, .int, .ptr .dbl, .ptr .dbl, .ptr .uns, .ptr .uns, .ptr .dbl, .ptr .dbl]),
    ("mpi_judge_and_swap", .fn .int [.status, .int, .int, .int, .int, .int, .ptr (.ptr .dbl), .int, .ptr .dbl, .ptr .dbl, .int, .int, .int, .int, .ptr .dbl]),
    ("max", .fn .int [.int, .int]), ("min", .fn .int [.int, .int]), ("swap_two_chains", .fn .void [.ptr .dbl, .ptr .dbl, .int]),
    ("save_debug_stack_sequence", .fn .int [.ptr .uns, .int]), ("save_debug_stack_doswap", .fn .int [.int, .int]),
    ("save_debug_Beta_Values", .fn .int [.ptr .dbl, .int])]
  uses := [("mpi_adjust_ladder", .fn .int [.status, .int, .int, .int, .int, .ptr .dbl, .ptr .dbl, .ptr .dbl]),
    ("i4_unif_ab", .fn .int [.int, .int]), ("i4_unif_0a", .fn .int [.int]), ("logll_beta", .fn .dbl [.ptr .dbl, .int, .ptr .dbl, .dbl]),
    ("log_prior", .fn .dbl [.ptr .dbl]),
    ("mpi_run_a_batch", .fn .int [.status, .int, .int, .int, .int, .int, .ptr (.ptr .dbl), .int, .uns, .int, .ptr .dbl, .ptr .dbl, .ptr .uns, .ptr .uns, .ptr .dbl, .ptr .dbl]),
    ("alloc_1d_double", .fn (.ptr .dbl) [.int]), ("free_1d_double", .fn .void [.ptr .dbl]), ("N_parm", .var .int), ("N_swap", .var .int),
    ("Swapmode", .var .int), ("results_dir", .var (.ptr .chr)), ("Tune_Ladder", .var .int), ("N_stopTuneLadder", .var .int)]

/-- What mpi_flow.c defines and uses. -/
def uFlow : Unit where
  includes := [c!"alloc.h"]
  defs := [
    ("mpi_entire_flow", .fn .int [.status, .int, .int, .int, .int, .int, .ptr (.ptr .dbl), .int, .int, .int, .uns, .int, .ptr .dbl, .ptr .dbl, .ptr .uns, .ptr .uns, .ptr .dbl, .int, .int, .dbl, .dbl, .ptr (.ptr .dbl), .ptr .dbl]),
    ("mpi_find_ranks2tune", .fn .int [.status, .int, .int, .int, .int, .dbl, .dbl, .dbl, .ptr .int]),
    ("mpi_gather_sigma_prop_root", .fn .int [.status, .int, .int, .int, .int, .ptr (.ptr .dbl), .ptr .dbl]),
    ("mpi_distribute_sigma_prop_root", .fn .int [.status, .int, .int, .int, .int, .ptr (.ptr .dbl), .ptr .dbl]),
    ("save_ar_stack", .fn .int [.int, .int, .dbl, .int]), ("save_sigma_gauss_prop", .fn .int [.ptr .dbl, .int])]
  uses := [
    ("mpi_static_sigma_stack", .fn .int [.status, .int, .int, .int, .int, .int, .ptr (.ptr .dbl), .int, .int, .int, .uns, .int, .ptr .dbl, .ptr .dbl, .ptr .uns, .ptr .uns, .ptr .dbl, .ptr .dbl]),
    ("mpi_tune_sigma_irank", .fn .int [.status, .int, .int, .int, .int, .int, .ptr (.ptr .dbl), .ptr .dbl, .int, .ptr .dbl, .ptr .dbl, .int, .int, .ptr (.ptr .dbl), .ptr .dbl]),
    ("alloc_1d_int", .fn (.ptr .int) [.int]), ("free_1d_int", .fn .void [.ptr .int]), ("results_dir", .var (.ptr .chr)),
    ("N_parm", .var .int), ("N_stoptune", .var .int), ("N_begintune", .var .int)]

/-- What mpi_tune.c defines and uses. -/
def uTune : Unit where
  includes := [c!"alloc.h"]
  defs := [
    ("mpi_tune_sigma_irank", .fn .int [.status, .int, .int, .int, .int, .int, .ptr (.ptr .dbl), .ptr .dbl, .int, .ptr .dbl, .ptr .dbl, .int, .int, .ptr (.ptr .dbl), .ptr .dbl]),
    ("mpi_tune_sigma_iparmNrank", .fn .int [.status, .int, .int, .int, .int, .ptr .dbl, .dbl, .int, .ptr .dbl, .ptr .dbl, .int, .ptr (.ptr .dbl), .int, .int, .ptr .dbl]),
    ("iter_batch_mh_tune", .fn .dbl [.ptr (.ptr .dbl), .ptr .dbl, .int, .int, .ptr .dbl, .int, .ptr .uns, .dbl, .int, .ptr .dbl]),
    ("replicate_OneSigmaOrigin_Nvaried", .fn .int [.ptr (.ptr .dbl), .ptr (.ptr .dbl), .int, .int]),
    ("tune_oneparm_Nvaried", .fn .int [.ptr (.ptr .dbl), .ptr (.ptr .dbl), .int, .int]),
    ("create_logspace_array", .fn .int [.dbl, .dbl, .int, .ptr .dbl]),
    ("check_bounceInside_sigma_boundary", .fn .int [.ptr .dbl, .ptr .dbl, .ptr .dbl, .dbl, .int, .int]),
    ("gen_sigma_alltune", .fn .int [.ptr (.ptr .dbl), .ptr .dbl, .ptr .dbl, .dbl, .ptr (.ptr .dbl), .int, .int, .int]),
    ("modify_sigma_prop_rankintune", .fn .int [.int, .int, .int, .ptr (.ptr .dbl), .ptr (.ptr .dbl), .ptr (.ptr .dbl), .int]),
    ("race_all_parm", .fn .int [.ptr .dbl, .ptr (.ptr .dbl), .ptr (.ptr .dbl), .int]),
    ("decide_sigma_to_change", .fn .int [.ptr (.ptr .dbl), .int, .ptr .int, .ptr .int]),
    ("calc_closest_ar_oneparm", .fn .dbl [.ptr (.ptr .dbl), .ptr .int, .int, .int]),
    ("calc_closest_ar", .fn .dbl [.ptr (.ptr .dbl), .ptr .int, .ptr .int, .int]), ("argmin", .fn .int [.ptr .dbl, .int]),
    ("argmax", .fn .int [.ptr .dbl, .int]), ("calc_SD_allParm", .fn .int [.ptr .dbl, .ptr (.ptr .dbl), .int]),
    ("save_the_batch_tune", .fn .int [.ptr (.ptr .dbl), .int, .ptr .chr, .int, .int, .ptr .dbl]),
    ("save_tuning_sigma_ar", .fn .int [.ptr (.ptr .dbl), .ptr (.ptr .dbl), .ptr .chr, .int, .int])]
  uses := [("logll_beta", .fn .dbl [.ptr .dbl, .int, .ptr .dbl, .dbl]), ("log_prior", .fn .dbl [.ptr .dbl]),
    ("init_gaussian_proposal", .fn .int [.ptr .dbl, .dbl]),
    ("mpi_distribute_sigma_prop_root", .fn .int [.status, .int, .int, .int, .int, .ptr (.ptr .dbl), .ptr .dbl]),
    ("save_log_posterior", .fn .int [.ptr .dbl, .dbl, .dbl, .ptr .chr, .int]), ("para_boundary", .fn .int [.ptr .dbl]),
    ("do_gaussian_propose", .fn .dbl [.ptr .dbl, .ptr .dbl, .ptr .dbl]), ("alloc_1d_double", .fn (.ptr .dbl) [.int]),
    ("free_1d_double", .fn .void [.ptr .dbl]), ("alloc_2d_double", .fn (.ptr (.ptr .dbl)) [.int, .int]),
    ("free_2d_double", .fn .void [.ptr (.ptr .dbl)]), ("N_parm", .var .int), ("ar_ok_lower", .var .dbl), ("ar_ok_upper", .var .dbl),
    ("ar_best", .var .dbl), ("ar_accept_diff", .var .dbl), ("sigma_scale_half_ratio", .var .dbl), ("sigma_parm_min", .var (.ptr .dbl)),
    ("sigma_parm_max", .var (.ptr .dbl)), ("sigma_jumpin_ratio", .var .dbl), ("init_gp_ratio", .var .dbl), ("Fout_Len", .var .int),
    ("FoutPre", .var (.ptr .chr)), ("FoutSuf", .var (.ptr .chr)), ("results_dir", .var (.ptr .chr))]

/-- What mpi_ladder.c defines and uses. -/
def uLadder : Unit where
  includes := [c!"alloc.h"]
  defs := [("mpi_adjust_ladder", .fn .int [.status, .int, .int, .int, .int, .ptr .dbl, .ptr .dbl, .ptr .dbl]),
    ("mpi_distribute_running_Beta_root", .fn .int [.status, .int, .int, .int, .int, .ptr .dbl]),
    ("tune_ladder_use_3_neighb", .fn .int [.int, .ptr .dbl, .ptr .dbl, .ptr .dbl])]
  uses := [("alloc_1d_double", .fn (.ptr .dbl) [.int]), ("free_1d_double", .fn .void [.ptr .dbl]), ("scale_tune_ladder", .var .dbl),
    ("zero_stretch", .var .dbl)]

/-- What data_loader.c defines and uses. -/
def uData : Unit where
  includes := []
  defs := [("mpi_data_loader", .fn .void [.int, .int, .int, .int, .ptr .dbl, .ptr .chr, .ptr .chr]),
    ("read_data", .fn .int [.ptr .chr, .ptr .dbl, .int, .int, .ptr .chr]), ("mpi_get_nlines", .fn .int [.int, .int, .ptr .chr, .int]),
    ("get_nlines_of_file", .fn .int [.ptr .chr])]
  uses := []

/-- What alloc.c defines and uses. -/
def uAlloc : Unit where
  includes := []
  defs := [("alloc_1d_int", .fn (.ptr .int) [.int]), ("free_1d_int", .fn .void [.ptr .int]), ("alloc_1d_double", .fn (.ptr .dbl) [.int]),
    ("free_1d_double", .fn .void [.ptr .dbl]), ("alloc_2d_int", .fn (.ptr (.ptr .int)) [.int, .int]),
    ("free_2d_int", .fn .void [.ptr (.ptr .int)]), ("alloc_2d_double", .fn (.ptr (.ptr .dbl)) [.int, .int]),
    ("free_2d_double", .fn .void [.ptr (.ptr .dbl)]), ("alloc_3d_int", .fn (.ptr (.ptr (.ptr .int))) [.int, .int, .int]),
    ("free_3d_int", .fn .void [.ptr (.ptr (.ptr .int))]), ("alloc_3d_double", .fn (.ptr (.ptr (.ptr .dbl))) [.int, .int, .int]),
    ("free_3d_double", .fn .void [.ptr (.ptr (.ptr .dbl))])]
  uses := []

/-- What rand_func.c defines and uses. -/
def uRand : Unit where
  includes := []
  defs := [("r8_normal_01", .fn .dbl []), ("r8_normal_ab", .fn .dbl [.dbl, .dbl]), ("r8_logunif_ab", .fn .dbl [.dbl, .dbl]),
    ("r8_unif_ab", .fn .dbl [.dbl, .dbl]), ("i4_unif_ab", .fn .int [.int, .int]), ("i4_unif_0a", .fn .int [.int]),
    ("normal_pdf", .fn .dbl [.dbl, .dbl, .dbl])]
  uses := []

/-- What readin.c defines and uses. -/
def uReadin : Unit where
  includes := []
  defs := [("read_onepara", .fn (.ptr .chr) [.ptr .chr, .ptr .chr]), ("read_chains_grid", .fn .void [.ptr .chr]),
    ("read_chain_out_name", .fn .void [.ptr .chr]), ("read_data_desc", .fn .void [.ptr .chr]),
    ("read_beta_values", .fn .int [.ptr .chr]), ("read_sampling_para", .fn .void [.ptr .chr]), ("make_dir", .fn .int [.ptr .chr]),
    ("read_input_ini", .fn .int [.ptr .chr]), ("N_parm", .var .int), ("N_iter", .var .int), ("N_stoptune", .var .int),
    ("N_begintune", .var .int), ("Tune_Ladder", .var .int), ("N_stopTuneLadder", .var .int), ("scale_tune_ladder", .var .dbl),
    ("zero_stretch", .var .dbl), ("N_beta", .var .int), ("Beta_Values", .var (.ptr .dbl)), ("n_iter_a_stack", .var .int),
    ("n_iter_a_batch_base", .var .int), ("n_iter_a_batch_rand", .var .int), ("N_swap", .var .int), ("Swapmode", .var .int),
    ("n_iter_in_tune", .var .int), ("ar_ok_lower", .var .dbl), ("ar_ok_upper", .var .dbl), ("ar_best", .var .dbl),
    ("ar_accept_diff", .var .dbl), ("sigma_scale_min", .var .dbl), ("sigma_scale_max", .var .dbl), ("sigma_scale_half_ratio", .var .dbl),
    ("sigma_jumpin_ratio", .var .dbl), ("i_save_begin", .var .uns), ("init_gp_ratio", .var .dbl), ("init_rand_seed", .var .uns),
    ("Fout_Len", .var .int), ("FoutPre", .var (.ptr .chr)), ("FoutSuf", .var (.ptr .chr)), ("results_dir", .var (.ptr .chr)),
    ("Data_file", .var (.ptr .chr)), ("Delimiter", .var (.ptr .chr)), ("ndim_data", .var .int)]
  uses := []

/-- models/eggbox/user_logll.c; the same in multi_gaussian (where `ndim_data` is declared and not used) and curved_likelihood. -/
def twoLogll : Unit where
  includes := []
  defs := [("logll_beta", .fn .dbl [.ptr .dbl, .int, .ptr .dbl, .dbl]), ("value_calc", .fn .dbl [.dbl, .dbl])]
  uses := []

/-- models/eggbox/user_prior.c; the same in multi_gaussian and curved_likelihood. -/
def twoPrior : Unit where
  includes := []
  defs := [("read_parm_range", .fn .void [.ptr .chr]), ("init_parm_set", .fn .void [.int, .ptr .dbl]),
    ("init_gaussian_proposal", .fn .int [.ptr .dbl, .dbl]), ("prior_a", .fn .dbl []), ("prior_b", .fn .dbl []),
    ("log_prior", .fn .dbl [.ptr .dbl]), ("para_boundary", .fn .int [.ptr .dbl]),
    ("save_debug_para_boundary", .fn .int [.ptr .chr, .dbl, .dbl, .dbl]),
    ("calc_sigma_scale_boundary", .fn .int [.dbl, .dbl, .ptr .dbl, .ptr .dbl]), ("a_min", .var .dbl), ("a_max", .var .dbl),
    ("b_min", .var .dbl), ("b_max", .var .dbl), ("sigma_parm_min", .var (.ptr .dbl)), ("sigma_parm_max", .var (.ptr .dbl))]
  uses := [("r8_unif_ab", .fn .dbl [.dbl, .dbl]), ("read_onepara", .fn (.ptr .chr) [.ptr .chr, .ptr .chr]), ("sigma_scale_min", .var .dbl),
    ("sigma_scale_max", .var .dbl), ("N_parm", .var .int), ("results_dir", .var (.ptr .chr)), ("init_gp_ratio", .var .dbl)]

/-- models/rastrigin/user_logll.c. -/
def rastriginLogll : Unit where
  includes := []
  defs := [("logll_beta", .fn .dbl [.ptr .dbl, .int, .ptr .dbl, .dbl]), ("value_calc", .fn .dbl [.dbl, .dbl, .dbl, .dbl, .dbl])]
  uses := []

/-- models/rastrigin/user_prior.c. -/
def rastriginPrior : Unit where
  includes := []
  defs := [("read_parm_range", .fn .void [.ptr .chr]), ("init_parm_set", .fn .void [.int, .ptr .dbl]),
    ("init_gaussian_proposal", .fn .int [.ptr .dbl, .dbl]), ("prior_a", .fn .dbl []), ("prior_b", .fn .dbl []), ("prior_c", .fn .dbl []),
    ("prior_d", .fn .dbl []), ("prior_f", .fn .dbl []), ("log_prior", .fn .dbl [.ptr .dbl]), ("para_boundary", .fn .int [.ptr .dbl]),
    ("save_debug_para_boundary", .fn .int [.ptr .chr, .dbl, .dbl, .dbl]),
    ("calc_sigma_scale_boundary", .fn .int [.dbl, .dbl, .ptr .dbl, .ptr .dbl]), ("a_min", .var .dbl), ("a_max", .var .dbl),
    ("b_min", .var .dbl), ("b_max", .var .dbl), ("c_min", .var .dbl), ("c_max", .var .dbl), ("d_min", .var .dbl), ("d_max", .var .dbl),
    ("f_min", .var .dbl), ("f_max", .var .dbl), ("sigma_parm_min", .var (.ptr .dbl)), ("sigma_parm_max", .var (.ptr .dbl))]
  uses := [("r8_unif_ab", .fn .dbl [.dbl, .dbl]), ("read_onepara", .fn (.ptr .chr) [.ptr .chr, .ptr .chr]), ("sigma_scale_min", .var .dbl),
    ("sigma_scale_max", .var .dbl), ("N_parm", .var .int), ("results_dir", .var (.ptr .chr)), ("init_gp_ratio", .var .dbl)]

/-- models/regression/user_logll.c. -/
def regressionLogll : Unit where
  includes := []
  defs := [("logll_beta", .fn .dbl [.ptr .dbl, .int, .ptr .dbl, .dbl])]
  uses := [("ndim_data", .var .int)]

/-- models/regression/user_prior.c. -/
def regressionPrior : Unit where
  includes := []
  defs := [("read_parm_range", .fn .void [.ptr .chr]), ("init_parm_set", .fn .void [.int, .ptr .dbl]),
    ("init_gaussian_proposal", .fn .int [.ptr .dbl, .dbl]), ("prior_a", .fn .dbl []), ("prior_b", .fn .dbl []),
    ("prior_d", .fn .dbl [.dbl]), ("log_prior", .fn .dbl [.ptr .dbl]), ("para_boundary", .fn .int [.ptr .dbl]),
    ("save_debug_para_boundary", .fn .int [.ptr .chr, .dbl, .dbl, .dbl]),
    ("calc_sigma_scale_boundary", .fn .int [.dbl, .dbl, .ptr .dbl, .ptr .dbl]), ("a_min", .var .dbl), ("a_max", .var .dbl),
    ("b_min", .var .dbl), ("b_max", .var .dbl), ("d_min", .var .dbl), ("d_max", .var .dbl), ("sigma_parm_min", .var (.ptr .dbl)),
    ("sigma_parm_max", .var (.ptr .dbl))]
  uses := [("r8_logunif_ab", .fn .dbl [.dbl, .dbl]), ("r8_unif_ab", .fn .dbl [.dbl, .dbl]),
    ("read_onepara", .fn (.ptr .chr) [.ptr .chr, .ptr .chr]), ("sigma_scale_min", .var .dbl), ("sigma_scale_max", .var .dbl),
    ("N_parm", .var .int), ("results_dir", .var (.ptr .chr)), ("init_gp_ratio", .var .dbl)]

/-- models/fit_orbit/user_logll.c. -/
def orbitLogll : Unit where
  includes := [c!"alloc.h"]
  defs := [("logll_beta", .fn .dbl [.ptr .dbl, .int, .ptr (.ptr .dbl), .int]), ("period_to_au", .fn .dbl [.dbl, .dbl]),
    ("calc_osi", .fn .dbl [.dbl, .dbl, .dbl, .dbl]), ("newton_solver", .fn .dbl [.dbl, .dbl]),
    ("func_as", .fn .int [.ptr .dbl, .int, .dbl, .dbl, .dbl, .dbl, .dbl, .dbl, .dbl, .ptr (.ptr .dbl)]),
    ("log_likelihood", .fn .dbl [.int, .ptr (.ptr .dbl), .ptr (.ptr .dbl), .dbl])]
  uses := [("alloc_1d_double", .fn (.ptr .dbl) [.int]), ("free_1d_double", .fn .void [.ptr .dbl]),
    ("alloc_2d_double", .fn (.ptr (.ptr .dbl)) [.int, .int]), ("free_2d_double", .fn .void [.ptr (.ptr .dbl)]),
    ("Beta_Values", .var (.ptr .dbl))]

/-- models/fit_orbit/user_prior.c. -/
def orbitPrior : Unit where
  includes := []
  defs := [("bounce_inside", .fn .dbl [.dbl, .dbl, .dbl]), ("read_parm_range", .fn .void [.ptr .chr]), ("para0_init", .fn .dbl [.dbl, .dbl]),
    ("para1_init", .fn .dbl [.dbl, .dbl]), ("para2_init", .fn .dbl [.dbl, .dbl]), ("para3_init", .fn .dbl [.dbl, .dbl]),
    ("para4_init", .fn .dbl [.dbl, .dbl]), ("para5_init", .fn .dbl [.dbl, .dbl]), ("para6_init", .fn .dbl [.dbl, .dbl]),
    ("para7_init", .fn .dbl [.dbl, .dbl]), ("para8_init", .fn .dbl [.dbl, .dbl]), ("para9_init", .fn .dbl [.dbl, .dbl]),
    ("para10_init", .fn .dbl [.dbl, .dbl]), ("para11_init", .fn .dbl [.dbl, .dbl]), ("para12_init", .fn .dbl [.dbl, .dbl]),
    ("para13_init", .fn .dbl [.dbl, .dbl]), ("para14_init", .fn .dbl [.dbl, .dbl]), ("init_parm_set", .fn .void [.int, .ptr .dbl]),
    ("calc_sigma_scale_boundary", .fn .int [.dbl, .dbl, .ptr .dbl, .ptr .dbl]), ("init_gaussian_proposal", .fn .int [.ptr .dbl, .dbl]),
    ("para_boundary", .fn .int [.ptr .dbl]), ("prior_para0", .fn .dbl [.dbl, .dbl]), ("prior_para1", .fn .dbl [.dbl, .dbl]),
    ("prior_para2", .fn .dbl [.dbl, .dbl]), ("prior_para3", .fn .dbl [.dbl, .dbl]), ("prior_para4", .fn .dbl [.dbl, .dbl]),
    ("prior_para5", .fn .dbl [.dbl, .dbl, .dbl]), ("prior_para6", .fn .dbl [.dbl, .dbl, .dbl]),
    ("prior_para7", .fn .dbl [.dbl, .dbl, .dbl]), ("prior_para8", .fn .dbl [.dbl, .dbl]), ("prior_para9", .fn .dbl [.dbl, .dbl]),
    ("prior_para10", .fn .dbl [.dbl, .dbl]), ("prior_para11", .fn .dbl [.dbl, .dbl]), ("prior_para12", .fn .dbl [.dbl, .dbl]),
    ("prior_para13", .fn .dbl [.dbl, .dbl, .dbl]), ("prior_para14", .fn .dbl [.dbl, .dbl, .dbl]), ("log_prior", .fn .dbl [.ptr .dbl]),
    ("save_debug_para_boundary", .fn .int [.ptr .chr, .dbl, .dbl, .dbl]), ("sigma_parm_min", .var (.ptr .dbl)),
    ("sigma_parm_max", .var (.ptr .dbl)), ("para0_min", .var .dbl), ("para1_min", .var .dbl), ("para2_min", .var .dbl),
    ("para3_min", .var .dbl), ("para4_min", .var .dbl), ("para5_min", .var .dbl), ("para6_min", .var .dbl), ("para7_min", .var .dbl),
    ("para8_min", .var .dbl), ("para9_min", .var .dbl), ("para10_min", .var .dbl), ("para11_min", .var .dbl), ("para12_min", .var .dbl),
    ("para13_min", .var .dbl), ("para14_min", .var .dbl), ("para0_max", .var .dbl), ("para1_max", .var .dbl), ("para2_max", .var .dbl),
    ("para3_max", .var .dbl), ("para4_max", .var .dbl), ("para5_max", .var .dbl), ("para6_max", .var .dbl), ("para7_max", .var .dbl),
    ("para8_max", .var .dbl), ("para9_max", .var .dbl), ("para10_max", .var .dbl), ("para11_max", .var .dbl), ("para12_max", .var .dbl),
    ("para13_max", .var .dbl), ("para14_max", .var .dbl)]
  uses := [("r8_unif_ab", .fn .dbl [.dbl, .dbl]), ("read_onepara", .fn (.ptr .chr) [.ptr .chr, .ptr .chr]), ("N_parm", .var .int),
    ("sigma_scale_min", .var .dbl), ("sigma_scale_max", .var .dbl), ("init_gp_ratio", .var .dbl), ("results_dir", .var (.ptr .chr))]

/-- models/hier_R/user_logll.c. -/
def hierLogll : Unit where
  includes := []
  defs := [("logllhd_Vdevi_V", .fn .dbl [.dbl, .dbl, .dbl]), ("logllhd_Vdevi_V_plusgamma", .fn .dbl [.dbl, .dbl, .dbl, .dbl]),
    ("logllhd_oneMeasure", .fn .dbl [.dbl, .dbl, .dbl, .dbl, .dbl, .dbl, .dbl, .dbl, .dbl, .dbl]),
    ("logll_one_planet", .fn .dbl [.int, .int, .dbl, .dbl, .int, .int, .ptr .dbl, .ptr .dbl]),
    ("logll_beta", .fn .dbl [.ptr .dbl, .int, .ptr (.ptr .dbl), .int]), ("calc_mean", .fn .dbl [.ptr .dbl, .int, .int, .int])]
  uses := [("Beta_Values", .var (.ptr .dbl))]

/-- models/hier_R/user_prior.c. -/
def hierPrior : Unit where
  includes := []
  defs := [("read_parm_range", .fn .void [.ptr .chr]), ("gamma_power_init", .fn .dbl [.dbl, .dbl]), ("logC_init", .fn .dbl [.dbl, .dbl]),
    ("log_lambda_Y_init", .fn .dbl [.dbl, .dbl]), ("gamma_lambda_Y_init", .fn .dbl [.dbl, .dbl]),
    ("log_lambda_Yobs_init", .fn .dbl [.dbl, .dbl]), ("log_lambda_Xobs_init", .fn .dbl [.dbl, .dbl]),
    ("init_parm_set", .fn .void [.int, .ptr .dbl]), ("calc_sigma_scale_boundary", .fn .int [.dbl, .dbl, .ptr .dbl, .ptr .dbl]),
    ("init_gaussian_proposal", .fn .int [.ptr .dbl, .dbl]), ("para_boundary", .fn .int [.ptr .dbl]),
    ("prior_gamma_power", .fn .dbl [.dbl, .dbl, .dbl]), ("prior_logC", .fn .dbl []), ("prior_lambda_Y", .fn .dbl [.dbl, .dbl, .dbl]),
    ("prior_lambda_Yobs", .fn .dbl [.dbl, .dbl, .dbl]), ("prior_lambda_Xobs", .fn .dbl [.dbl, .dbl, .dbl]),
    ("prior_gamma_lambda_Y", .fn .dbl []), ("log_prior", .fn .dbl [.ptr .dbl]),
    ("save_debug_para_boundary", .fn .int [.ptr .chr, .dbl, .dbl, .dbl]), ("gamma_mean", .var .dbl), ("gamma_sd", .var .dbl),
    ("gamma_max", .var .dbl), ("gamma_min", .var .dbl), ("logC_min", .var .dbl), ("logC_max", .var .dbl),
    ("log_lambda_Y_min", .var .dbl), ("log_lambda_Y_max", .var .dbl), ("log_lambda_Yobs_min", .var .dbl),
    ("log_lambda_Yobs_max", .var .dbl), ("log_lambda_Xobs_min", .var .dbl), ("log_lambda_Xobs_max", .var .dbl),
    ("sigma_parm_min", .var (.ptr .dbl)), ("sigma_parm_max", .var (.ptr .dbl)), ("gamma_lambda_Y", .var .dbl),
    ("gamma_lambda_Y_min", .var .dbl), ("gamma_lambda_Y_max", .var .dbl)]
  uses := [("r8_normal_ab", .fn .dbl [.dbl, .dbl]), ("r8_unif_ab", .fn .dbl [.dbl, .dbl]), ("normal_pdf", .fn .dbl [.dbl, .dbl, .dbl]),
    ("read_onepara", .fn (.ptr .chr) [.ptr .chr, .ptr .chr]), ("N_parm", .var .int), ("sigma_scale_min", .var .dbl),
    ("sigma_scale_max", .var .dbl), ("results_dir", .var (.ptr .chr)), ("init_gp_ratio", .var .dbl)]

/-- The sources at the top of the repository, in the order of Makefile:15. -/
def topUnits : List (Str × Unit) :=
  [(c!"main.c", uMain), (c!"mpi_init.c", uInit), (c!"mpi_batch.c", uBatch), (c!"mpi_stack.c", uStack), (c!"mpi_flow.c", uFlow), (c!"mpi_tune.c", uTune),
    (c!"mpi_ladder.c", uLadder), (c!"data_loader.c", uData), (c!"alloc.c", uAlloc), (c!"rand_func.c", uRand), (c!"readin.c", uReadin)]

/-- Makefile:15. -/
def topMakefile : List Str :=
  [c!"main.c", c!"mpi_init.c", c!"mpi_batch.c", c!"mpi_stack.c", c!"mpi_flow.c", c!"mpi_tune.c", c!"mpi_ladder.c", c!"data_loader.c", c!"alloc.c", c!"rand_func.c", c!"readin.c",
    c!"user_logll.c", c!"user_prior.c"]

/-- models/curved_likelihood/Makefile:15. -/
def curvedMakefile : List Str :=
  [c!"main.c", c!"mpi_init.c", c!"mpi_batch.c", c!"mpi_stack.c", c!"mpi_flow.c", c!"mpi_tune.c", c!"data_loader.c", c!"alloc.c", c!"rand_func.c", c!"readin.c", c!"user_logll.c",
    c!"user_prior.c"]

/-- The user's sources of the models written for this version (README.md:4), `user_logll.c` and `user_prior.c`. -/
def currentModels : List (Unit × Unit) := [(twoLogll, twoPrior), (rastriginLogll, rastriginPrior), (regressionLogll, regressionPrior)]

/-- Those of the models written for version 1.0.0 (README.md:6). -/
def olderModels : List (Unit × Unit) := [(orbitLogll, orbitPrior), (hierLogll, hierPrior)]

end Build
end NiiC
