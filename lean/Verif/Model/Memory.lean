import Mathlib.Data.List.Basic
import Mathlib.Control.Monad.Basic

/-!
# The heap of one rank

What every function of the program allocates, touches and frees, in the order of the C code, on the root rank, on the
rank that helps with the swaps, and on every other rank. Values are not represented here: a decision that depends on
values (accept or reject, swap or not, which ranks to tune, how long a batch is) is read from a plan, and the theorems
quantify over all plans. A `FILE *` is a block of no bytes that `fopen` makes and `fclose` releases; the buffers that
the C library keeps for itself are not counted. `malloc` and `fopen` succeed (the program exits if a `malloc` of `alloc.c`
fails, `alloc.c` 6-11). The buffer `getline` keeps is one block of a fixed size.
-/

namespace NiiC.RankHeap

/-- What can go wrong with a pointer. -/
inductive MemFault where
  /-- `NULL` was dereferenced -/
  | null
  /-- a block was accessed or freed that is not live (again freed, or used after it was freed) -/
  | dead
  /-- an access beyond the end of a live block -/
  | bounds
  /-- `free` of a string literal -/
  | badFree
  deriving DecidableEq, Repr

/-- The heap: the live blocks with their sizes in bytes, newest first; the next fresh block; the largest number of bytes
that were ever live at once. -/
structure Mem where
  live : List (Nat × Nat) := []
  next : Nat := 0
  peak : Nat := 0

/-- The bytes of a list of blocks. -/
def sz (l : List (Nat × Nat)) : Nat := (l.map Prod.snd).sum

/-- The bytes that are live. -/
def Mem.size (m : Mem) : Nat := sz m.live

/-- A pointer: `NULL`, the start of a block, or a string literal. -/
inductive Ptr where
  | null
  | blk (b : Nat)
  | literal
  deriving DecidableEq, Repr

/-- A table of `alloc_2d_double`: the block of row pointers and the block of cells (`/repo/alloc.c` 80-94). -/
structure Tab where
  rows : Ptr
  cells : Ptr

/-- Programs on the heap. -/
abbrev MM := StateT Mem (Except MemFault)

/-- `malloc(n)`: a fresh block. -/
def alloc (n : Nat) : MM Ptr := fun m =>
  .ok (.blk m.next, { live := (m.next, n) :: m.live, next := m.next + 1, peak := max m.peak (m.size + n) })

/-- Access to the first `k` bytes behind a pointer. -/
def touch (p : Ptr) (k : Nat) : MM Unit := fun m =>
  match p with
  | .null => .error .null
  | .literal => .ok ((), m)
  | .blk b =>
    match m.live.lookup b with
    | none => .error .dead
    | some n => if k ≤ n then .ok ((), m) else .error .bounds

/-- `free(p)`: nothing for `NULL`, an error for a block that is not live. -/
def free (p : Ptr) : MM Unit := fun m =>
  match p with
  | .null => .ok ((), m)
  | .literal => .error .badFree
  | .blk b =>
    match m.live.lookup b with
    | none => .error .dead
    | some _ => .ok ((), { m with live := m.live.eraseP (fun x => x.1 == b) })

/-- `alloc_1d_double(n)` (`/repo/alloc.c` 33-40). -/
def dbls (n : Nat) : MM Ptr := alloc (8 * n)

/-- `alloc_1d_int(n)` (`/repo/alloc.c` 15-22). -/
def ints (n : Nat) : MM Ptr := alloc (4 * n)

/-- `alloc_2d_double(n1, n2)` (`/repo/alloc.c` 80-94): row pointers of 8 bytes, then the cells; every row pointer is
written. -/
def tab (n1 n2 : Nat) : MM Tab := do
  let dd ← alloc (8 * n1)
  let d ← alloc (8 * n1 * n2)
  touch dd (8 * n1)
  pure ⟨dd, d⟩

/-- `free_2d_double(dd)` (`/repo/alloc.c` 106-110): reads `dd[0]`, frees the cells, frees the row pointers. -/
def freeTab (t : Tab) : MM Unit := do
  touch t.rows 8
  free t.cells
  free t.rows

/-- Access to row `i` of a table of rows of `n2` doubles. -/
def touchRow (t : Tab) (i n2 : Nat) : MM Unit := do
  touch t.rows (8 * (i + 1))
  touch t.cells (8 * ((i + 1) * n2))

/-- The functions `save_*`: open a file, write, close it (e.g. `/repo/mpi_flow.c` 336-365). -/
def saving (body : MM Unit) : MM Unit := do
  let out ← alloc 0
  body
  touch out 0
  free out

/-- A conditional statement without an `else`. -/
def only (c : Prop) [Decidable c] (body : MM Unit) : MM Unit := if c then body else pure ()

/-! ## The sizes a run is given -/

/-- The sizes and the input file of a run. -/
structure Sizes where
  /-- `n_ranks` -/
  n : Nat
  /-- `N_parm` -/
  p : Nat
  /-- `N_beta` -/
  nBeta : Nat
  /-- the numbers listed behind `Beta_Values:` -/
  betas : Nat
  /-- how many lines of `input.ini` contain a name -/
  found : String → Nat
  /-- the names of `read_parm_range` of the user's model -/
  ranges : List String
  /-- whether `Delimiter` is `blank` -/
  blank : Bool
  /-- newlines of the data file -/
  lines : Nat
  /-- lines `getline` reads from the data file -/
  rows : Nat
  /-- `ndim_data` -/
  ndim : Nat
  /-- `n_iter_in_tune` -/
  nTune : Nat
  /-- the size of the buffer `getline` keeps -/
  buf : Nat
  /-- `Tune_Ladder > 0` -/
  ladder : Bool

/-- The user's functions, as they use the heap: the log-likelihood (of a chain and the data), the prior and
`para_boundary` (of a chain). -/
structure UserHeap where
  logll : Ptr → Ptr → MM Unit
  prior : Ptr → MM Unit
  boundary : Ptr → MM Unit

/-! ## Reading the input -/

/-- `DEST_SIZE` (`/repo/readin.c` 8, and `user_prior.c` of every model). -/
def destSize : Nat := 100

/-- `read_onepara` (`/repo/readin.c` 87-137). -/
def readOnepara (s : Sizes) (name : String) : MM Ptr := do
  let fp ← alloc 0
  let para ← alloc destSize
  let line ← alloc s.buf
  touch line s.buf
  touch para destSize
  touch fp 0
  free fp
  free line
  pure (if s.found name = 1 then para else .null)

/-- Several names in turn, each line scanned by `sscanf`; the pointer of the last one is returned, the others are
forgotten. -/
def readNames (s : Sizes) : Ptr → List String → MM Ptr
  | last, [] => pure last
  | _, name :: rest => do
    let para ← readOnepara s name
    touch para destSize
    readNames s para rest

/-- The names of `read_chains_grid` (`/repo/readin.c` 141-190). -/
def gridNames : List String :=
  ["N_parm", "N_iter", "N_stoptune", "N_begintune", "Tune_Ladder", "N_stopTuneLadder", "scale_tune_ladder",
    "zero_stretch", "N_beta"]

/-- `read_chains_grid` (`/repo/readin.c` 141-190). -/
def readGrid (s : Sizes) : MM Unit := do
  let para ← readNames s .null gridNames
  free para

/-- The names of `read_chain_out_name` (`/repo/readin.c` 192-224). -/
def outNames : List String := ["Fout_Len", "FoutPre", "FoutSuf", "results_dir"]

/-- `read_chain_out_name` (`/repo/readin.c` 192-224): `FoutPre`, `FoutSuf` and `results_dir` are globals. The three
`sscanf` into them are collected behind the last line that is read. -/
def readOut (s : Sizes) : MM Ptr := do
  let pre ← alloc destSize
  let suf ← alloc destSize
  let dir ← alloc destSize
  let para ← readNames s .null outNames
  touch pre destSize
  touch suf destSize
  touch dir destSize
  free para
  pure dir

/-- `read_beta_values` (`/repo/readin.c` 265-303): the global `Beta_Values`. -/
def readBetas (s : Sizes) : MM Ptr := do
  let betas ← dbls s.nBeta
  let para ← readNames s .null ["Beta_Values"]
  (List.range s.betas).forM fun i => touch betas (8 * (i + 1))
  free para
  pure (if s.betas = s.nBeta then betas else .null)

/-- The names of `read_data_desc` (`/repo/readin.c` 230-261). -/
def dataNames : List String := ["Data_file", "ndim_data", "Delimiter"]

/-- `read_data_desc` (`/repo/readin.c` 230-261): the globals `Data_file` and `Delimiter`. -/
def readDesc (s : Sizes) : MM (Ptr × Ptr) := do
  let file ← alloc destSize
  let delim ← alloc destSize
  let para ← readNames s .null dataNames
  touch file destSize
  touch delim destSize
  free para
  pure (file, if s.blank then .literal else delim)

/-- The names of `read_sampling_para` (`/repo/readin.c` 306-386). -/
def samplingNames : List String :=
  ["init_gp_ratio", "init_rand_seed", "i_save_begin", "n_iter_a_stack", "n_iter_a_batch_base", "n_iter_a_batch_rand",
    "n_iter_in_tune", "ar_ok_lower", "ar_ok_upper", "ar_best", "ar_accept_diff", "sigma_scale_half_ratio",
    "sigma_scale_min", "sigma_scale_max", "sigma_jumpin_ratio", "N_swap", "Swapmode"]

/-- `read_sampling_para` (`/repo/readin.c` 306-386). -/
def readSampling (s : Sizes) : MM Unit := do
  let para ← readNames s .null samplingNames
  free para

/-- The globals that `read_input_ini` sets to blocks. -/
structure Globals where
  dir : Ptr
  betas : Ptr
  file : Ptr
  delim : Ptr

/-- `read_input_ini` (`/repo/readin.c` 408-421). -/
def readInput (s : Sizes) : MM Globals := do
  readGrid s
  let dir ← readOut s
  let betas ← readBetas s
  let (file, delim) ← readDesc s
  readSampling s
  pure ⟨dir, betas, file, delim⟩

/-! ## The data -/

/-- `get_nlines_of_file` (`/repo/data_loader.c` 97-119). -/
def getNlines (file : Ptr) : MM Unit := do
  touch file destSize
  let fp ← alloc 0
  touch fp 0
  free fp

/-- `read_data` (`/repo/data_loader.c` 28-71). -/
def readData (s : Sizes) (file delim data : Ptr) : MM Unit := do
  touch file destSize
  let fp ← alloc 0
  let line ← alloc s.buf
  (List.range s.rows).forM fun i => do
    touch line s.buf
    touch delim 1
    touch data (8 * ((i + 1) * s.ndim))
  touch fp 0
  free fp
  free line

/-- `mpi_data_loader` (`/repo/data_loader.c` 13-24): the root reads, then the broadcast. -/
def dataLoader (s : Sizes) (r : Nat) (file delim data : Ptr) : MM Unit := do
  only (r = 0) (readData s file delim data)
  touch data (8 * (s.lines * s.ndim))

/-! ## The start of the chains -/

/-- `init_parm_set` and `read_parm_range` (`/repo/models/*/user_prior.c`, e.g. regression 43-107): the ranges are read,
`N_parm` cells of the chain are written, and the globals `sigma_parm_min` and `sigma_parm_max` are allocated and
filled. -/
def initParm (s : Sizes) (chain : Ptr) : MM (Ptr × Ptr) := do
  let para ← readNames s .null s.ranges
  free para
  touch chain (8 * s.p)
  let lo ← alloc (8 * s.p)
  let hi ← alloc (8 * s.p)
  touch lo (8 * s.p)
  touch hi (8 * s.p)
  pure (lo, hi)

/-- `save_the_seed` (`/repo/mpi_init.c` 214-238). -/
def saveSeed (dir : Ptr) : MM Unit := saving (touch dir destSize)

/-- `mpi_gen_init_parm` (`/repo/mpi_init.c` 32-116). On the root the chain is the first row of the transit table. -/
def genInit (s : Sizes) (r : Nat) (dir : Ptr) (transit : Tab) : MM (Ptr × Ptr) :=
  if r = 0 then do
    saveSeed dir
    touchRow transit 0 s.p
    let lims ← initParm s transit.cells
    (List.range s.n).forM fun i => touchRow transit i s.p
    saving (do
      touch dir destSize
      (List.range s.n).forM fun i => touchRow transit i s.p)
    pure lims
  else do
    saveSeed dir
    let chain ← dbls s.p
    let lims ← initParm s chain
    touch chain (8 * s.p)
    free chain
    pure lims

/-- `logll_beta` and `log_prior` of a chain, and the cell of the ladder that is passed. -/
def posterior (s : Sizes) (u : UserHeap) (chain data betas : Ptr) (i : Nat) : MM Unit := do
  touch betas (8 * (i + 1))
  u.logll chain data
  u.prior chain
  touch chain (8 * s.p)

/-- `mpi_init_calc_logllpp` (`/repo/mpi_init.c` 119-209). -/
def initLogpost (s : Sizes) (u : UserHeap) (r : Nat) (dir : Ptr) (transit : Tab) (data betas logposts : Ptr) : MM Unit :=
  if r = 0 then do
    (List.range s.n).forM fun i => touchRow transit i s.p
    let chain ← dbls s.p
    touch chain (8 * s.p)
    posterior s u chain data betas 0
    touch logposts 8
    saving (do
      touch dir destSize
      touch chain (8 * s.p))
    (List.range s.n).forM fun i => touch logposts (8 * (i + 1))
    free chain
  else do
    let chain ← dbls s.p
    touch chain (8 * s.p)
    posterior s u chain data betas r
    saving (do
      touch dir destSize
      touch chain (8 * s.p))
    free chain

/-! ## A batch -/

/-- What a rank does in a batch: its length, the accepted proposals, whether the rows are saved. -/
structure BatchPlan where
  len : Nat
  accept : Nat → Bool
  save : Bool

/-- What a rank carries around. -/
structure Ctx where
  dir : Ptr
  data : Ptr
  /-- `ptr_sigma_prop` -/
  widths : Ptr
  /-- `running_Beta_Values` -/
  betas : Ptr
  /-- `transit_BetaParm_root`, `NULL` on the slaves -/
  transit : Tab
  /-- `logpost_all_ranks`, `NULL` on the slaves -/
  logposts : Ptr
  /-- `sigma_RanksParm_root`, `NULL` on the slaves -/
  sigmas : Tab
  /-- `sigma_parm_min` and `sigma_parm_max` -/
  lo : Ptr
  hi : Ptr

/-- One iteration of the loops of `iter_batch_mh` (`/repo/mpi_batch.c` 175-264) and `iter_batch_mh_tune`
(`/repo/mpi_tune.c` 385-468), without the counters: the old row, the proposal, the user's functions, the new row. -/
def mhIter (s : Sizes) (u : UserHeap) (c : Ctx) (beta : Nat) (chain : Tab) (logpost new : Ptr) (accept : Bool) (i : Nat) :
    MM Unit := do
  only (0 < i) (touch logpost (8 * i))
  touchRow chain (i - 1) s.p
  touch c.widths (8 * s.p)
  touch new (8 * s.p)
  u.boundary new
  posterior s u new c.data c.betas beta
  if accept then do
    touchRow chain i s.p
    touch logpost (8 * (i + 1))
  else only (0 < i) (do
    touchRow chain i s.p
    touch logpost (8 * (i + 1)))

/-- `iter_batch_mh` (`/repo/mpi_batch.c` 138-292). The second `accumul_accept = NULL` (289) leaves `accumul` dangling;
it is a local variable and not used again. -/
def iterBatch (s : Sizes) (u : UserHeap) (c : Ctx) (r : Nat) (chain : Tab) (b : BatchPlan) : MM Unit := do
  let accAcc ← ints b.len
  let acc ← ints b.len
  let logpost ← dbls b.len
  touchRow chain 0 s.p
  let new ← dbls s.p
  touch logpost 8
  (List.range b.len).forM fun i => do
    mhIter s u c r chain logpost new (b.accept i) i
    touch acc (4 * (i + 1))
    touch accAcc (4 * (i + 1))
  only b.save (saving (do
    touch c.dir destSize
    (List.range b.len).forM fun i => do
      touchRow chain i s.p
      touch logpost (8 * (i + 1))
      touch acc (4 * (i + 1))
      touch accAcc (4 * (i + 1))))
  touch logpost (8 * b.len)
  free new
  free logpost
  free accAcc
  free acc

/-- `mpi_run_a_batch` (`/repo/mpi_batch.c` 48-131). -/
def runBatch (s : Sizes) (u : UserHeap) (c : Ctx) (r : Nat) (b : BatchPlan) : MM Unit :=
  if r = 0 then do
    (List.range s.n).forM fun i => do
      touchRow c.transit i s.p
      touch c.logposts (8 * (i + 1))
    let chain ← tab b.len s.p
    touchRow chain 0 s.p
    touchRow c.transit 0 s.p
    touch c.logposts 8
    iterBatch s u c 0 chain b
    touch c.logposts 8
    touchRow c.transit 0 s.p
    touchRow chain (b.len - 1) s.p
    (List.range s.n).forM fun i => do
      touchRow c.transit i s.p
      touch c.logposts (8 * (i + 1))
    freeTab chain
  else do
    let chain ← tab b.len s.p
    touchRow chain 0 s.p
    iterBatch s u c r chain b
    touchRow chain (b.len - 1) s.p
    freeTab chain

/-! ## Swaps and the ladder -/

/-- What the root decides about a swap. -/
structure SwapPlan where
  i : Nat
  j : Nat
  accept : Bool

/-- `mpi_judge_and_swap` (`/repo/mpi_stack.c` 221-366): rank 0 is the root, rank 1 helps. -/
def judgeSwap (s : Sizes) (u : UserHeap) (c : Ctx) (r : Nat) (w : SwapPlan) : MM Unit :=
  if r = 0 then do
    touch c.logposts (8 * (w.i + 1))
    touch c.logposts (8 * (w.j + 1))
    touchRow c.transit w.j s.p
    let chain ← dbls s.p
    touchRow c.transit w.i s.p
    touch chain (8 * s.p)
    posterior s u chain c.data c.betas w.j
    only w.accept (do
      touchRow c.transit w.i s.p
      touchRow c.transit w.j s.p
      touch c.logposts (8 * (w.i + 1))
      touch c.logposts (8 * (w.j + 1)))
    free chain
  else if r = 1 then do
    let chain ← dbls s.p
    touch chain (8 * s.p)
    posterior s u chain c.data c.betas w.i
    free chain
  else pure ()

/-- `tune_ladder_use_3_neighb` (`/repo/mpi_ladder.c` 102-275). -/
def tuneLadder (s : Sizes) (c : Ctx) (nswaps nprops : Ptr) : MM Unit := do
  let t ← dbls s.n
  touch t (8 * s.n)
  touch c.betas (8 * s.n)
  let ar ← dbls (s.n - 1)
  touch ar (8 * (s.n - 1))
  touch nswaps (8 * (s.n - 1))
  touch nprops (8 * (s.n - 1))
  touch t (8 * s.n)
  touch c.betas (8 * s.n)
  free ar
  free t

/-- `mpi_adjust_ladder` (`/repo/mpi_ladder.c` 26-99): the root tunes, every rank then has the new ladder. -/
def adjustLadder (s : Sizes) (c : Ctx) (r : Nat) (nswaps nprops : Ptr) : MM Unit := do
  only (r = 0) (tuneLadder s c nswaps nprops)
  touch c.betas (8 * s.n)

/-- The batches of a stack, each with its swaps, and whether the ladder is adjusted at the end. -/
structure StackPlan where
  batches : List (BatchPlan × List SwapPlan)
  adjust : Bool

/-- `mpi_static_sigma_stack` (`/repo/mpi_stack.c` 53-216). -/
def runStack (s : Sizes) (u : UserHeap) (c : Ctx) (r : Nat) (k : StackPlan) : MM Unit := do
  let nswaps ← dbls s.n
  let nprops ← dbls s.n
  only (s.ladder ∧ r = 0) (do
    touch nswaps (8 * s.n)
    touch nprops (8 * s.n))
  only (r = 0) (saving (do
    touch c.dir destSize
    touch c.betas (8 * s.n)))
  k.batches.forM fun bw => do
    runBatch s u c r bw.1
    bw.2.forM fun w => do
      judgeSwap s u c r w
      only (s.ladder ∧ r = 0) (do
        touch nprops (8 * (w.i + 1))
        touch nswaps (8 * (w.i + 1)))
  only (k.adjust ∧ s.ladder) (adjustLadder s c r nswaps nprops)
  free nswaps
  free nprops

/-! ## Tuning the widths -/

/-- What happens when the widths of one rank are tuned: the rank, the accepted proposals of every parameter, and the
decision of `decide_sigma_to_change`: `some` for an index, `none` for `-1`. -/
structure TunePlan where
  rank : Nat
  accept : Nat → Nat → Bool
  iparm : Option Nat
  irank : Option Nat

/-- `gen_sigma_alltune` (`/repo/mpi_tune.c` 572-594). -/
def genSigma (s : Sizes) (c : Ctx) (t : TunePlan) (alltune : Tab) : MM Unit := do
  let arr ← dbls s.n
  (List.range s.p).forM fun i => do
    touchRow c.sigmas t.rank s.p
    touch arr (8 * s.n)
    touch c.lo (8 * (i + 1))
    touch c.hi (8 * (i + 1))
    touchRow alltune i s.n
  free arr

/-- `iter_batch_mh_tune` (`/repo/mpi_tune.c` 351-491). -/
def iterTune (s : Sizes) (u : UserHeap) (c : Ctx) (rank : Nat) (chain : Tab) (accept : Nat → Bool) : MM Unit := do
  let logpost ← dbls s.nTune
  touchRow chain 0 s.p
  let new ← dbls s.p
  touch logpost 8
  (List.range s.nTune).forM fun i => mhIter s u c rank chain logpost new (accept i) i
  free new
  free logpost

/-- `mpi_tune_sigma_iparmNrank` (`/repo/mpi_tune.c` 267-346). -/
def tuneParm (s : Sizes) (u : UserHeap) (c : Ctx) (r : Nat) (t : TunePlan) (single : Ptr) (ar : Tab) (j : Nat) : MM Unit :=
  if r = 0 then do
    let chain ← tab s.nTune s.p
    touchRow chain 0 s.p
    touch single (8 * s.p)
    iterTune s u c t.rank chain (t.accept j)
    touchRow ar j s.n
    freeTab chain
  else do
    let chain ← tab s.nTune s.p
    touchRow chain 0 s.p
    touch single (8 * s.p)
    iterTune s u c t.rank chain (t.accept j)
    freeTab chain

/-- `decide_sigma_to_change` (`/repo/mpi_tune.c` 669-767). -/
def decideSigma (s : Sizes) (ar : Tab) : MM Unit := do
  let std ← dbls s.p
  (List.range s.p).forM fun i => do
    touchRow ar i s.n
    touch std (8 * (i + 1))
  free std

/-- `race_all_parm` (`/repo/mpi_tune.c` 642-666). -/
def raceAll (s : Sizes) (widths : Ptr) (alltune ar : Tab) : MM Unit := do
  let err ← dbls s.n
  (List.range s.p).forM fun i => do
    touchRow ar i s.n
    touch err (8 * s.n)
    touchRow alltune i s.n
    touch widths (8 * (i + 1))
  free err

/-- `modify_sigma_prop_rankintune` (`/repo/mpi_tune.c` 597-639). -/
def modifySigma (s : Sizes) (c : Ctx) (t : TunePlan) (alltune ar : Tab) : MM Unit :=
  match t.iparm with
  | some a => do
    touchRow c.sigmas t.rank s.p
    touchRow alltune a s.n
  | none => do
    let w ← dbls s.p
    (match t.irank with
      | some _ => touch w (8 * s.p)
      | none => raceAll s w alltune ar)
    touchRow c.sigmas t.rank s.p
    touch w (8 * s.p)
    free w

/-- `mpi_distribute_sigma_prop_root` (`/repo/mpi_flow.c` 256-297): the root reads the rows of a table, every rank
receives its widths. -/
def distribute (s : Sizes) (r : Nat) (widths : Ptr) (t : Tab) : MM Unit := do
  only (r = 0) ((List.range s.n).forM fun i => touchRow t i s.p)
  touch widths (8 * s.p)

/-- A table that the slaves free again as soon as it is allocated (`/repo/mpi_tune.c` 184-188). -/
def keepOnRoot (r : Nat) (t : Tab) : MM Tab :=
  if r = 0 then pure t else do
    freeTab t
    pure ⟨.null, .null⟩

/-- One round of LOOP B of `mpi_tune_sigma_irank` (`/repo/mpi_tune.c` 174-216). -/
def tuneRound (s : Sizes) (u : UserHeap) (c : Ctx) (r : Nat) (t : TunePlan) (single : Ptr) (ar alltune : Tab) (j : Nat) :
    MM Unit := do
  let t1 ← tab s.n s.p
  let t1 ← keepOnRoot r t1
  only (r = 0) (do
    (List.range s.n).forM fun i => touchRow t1 i s.p
    touchRow c.sigmas t.rank s.p
    touchRow alltune j s.n)
  distribute s r c.widths t1
  tuneParm s u c r t single ar j
  only (r = 0) (freeTab t1)

/-- `mpi_tune_sigma_irank` (`/repo/mpi_tune.c` 112-258). The slaves free their two tables at once and never touch
them. -/
def tuneRank (s : Sizes) (u : UserHeap) (c : Ctx) (r : Nat) (t : TunePlan) : MM Unit := do
  let single ← dbls s.p
  let ar ← tab s.p s.n
  let alltune ← tab s.p s.n
  if r = 0 then do
    genSigma s c t alltune
    touch c.logposts (8 * (t.rank + 1))
    touch single (8 * s.p)
    touchRow c.transit t.rank s.p
    touch single (8 * s.p)
    (List.range s.p).forM fun j => tuneRound s u c r t single ar alltune j
    free single
    decideSigma s ar
    modifySigma s c t alltune ar
    freeTab ar
    freeTab alltune
  else do
    freeTab ar
    freeTab alltune
    touch single (8 * s.p)
    (List.range s.p).forM fun j => tuneRound s u c r t single ⟨.null, .null⟩ ⟨.null, .null⟩ j
    free single

/-! ## The whole run -/

/-- A run of a rank after the start: its stacks, each with the tuning that follows it (`none` outside the tuning
window). -/
abbrev Plan := List (StackPlan × Option (List TunePlan))

/-- `mpi_entire_flow` (`/repo/mpi_flow.c` 40-141). -/
def flow (s : Sizes) (u : UserHeap) (c : Ctx) (r : Nat) (plan : Plan) : MM Unit := do
  let tuneRanks ← ints s.n
  plan.forM fun k => do
    distribute s r c.widths c.sigmas
    saving (do
      touch c.dir destSize
      touch c.widths (8 * s.p))
    runStack s u c r k.1
    match k.2 with
    | none => pure ()
    | some ts => do
      touch tuneRanks (4 * s.n)
      ts.forM fun t => tuneRank s u c r t
  free tuneRanks

/-- Only the root keeps the two tables and the log-posteriors (`/repo/main.c` 151-159). -/
def dropOnSlaves (r : Nat) (transit : Tab) (logposts : Ptr) (sigmas : Tab) : MM (Tab × Ptr × Tab) :=
  if r = 0 then pure (transit, logposts, sigmas) else do
    freeTab transit
    free logposts
    freeTab sigmas
    pure (⟨.null, .null⟩, .null, ⟨.null, .null⟩)

/-- The middle of `main` (`/repo/main.c` 161-203): the widths, the ladder that is tuned, and the flow. -/
def mainFlow (s : Sizes) (u : UserHeap) (r : Nat) (plan : Plan) (g : Globals) (data lo hi : Ptr) (transit : Tab)
    (logposts : Ptr) (sigmas : Tab) : MM (Ptr × Ptr) := do
  let widths ← dbls s.p
  touch widths (8 * s.p)
  saving (do
    touch g.dir destSize
    touch widths (8 * s.p))
  only (r = 0) ((List.range s.n).forM fun i => touchRow sigmas i s.p)
  let betas ← dbls s.n
  (List.range s.n).forM fun i => do
    touch betas (8 * (i + 1))
    touch g.betas (8 * (i + 1))
  flow s u ⟨g.dir, data, widths, betas, transit, logposts, sigmas, lo, hi⟩ r plan
  pure (widths, betas)

/-- `main` (`/repo/main.c` 64-249). -/
def mainHeap (s : Sizes) (u : UserHeap) (r : Nat) (plan : Plan) : MM Unit := do
  let g ← readInput s
  only (r = 0) (touch g.dir destSize)
  only (r = 0) (getNlines g.file)
  let data ← dbls (s.lines * s.ndim)
  dataLoader s r g.file g.delim data
  let transit ← tab s.n s.p
  let (lo, hi) ← genInit s r g.dir transit
  let logposts ← dbls s.n
  initLogpost s u r g.dir transit data g.betas logposts
  let sigmas ← tab s.n s.p
  let (transit, logposts, sigmas) ← dropOnSlaves r transit logposts sigmas
  let (widths, betas) ← mainFlow s u r plan g data lo hi transit logposts sigmas
  only (r = 0) (do
    freeTab transit
    freeTab sigmas)
  free data
  free widths
  free betas

/-! ## Users -/

/-- The bundled models of the present interface read the chain and the data and allocate nothing
(`/repo/models/*/user_logll.c` and `user_prior.c`, except `fit_orbit`). -/
def plainUser (s : Sizes) : UserHeap where
  logll chain data := do
    touch chain (8 * s.p)
    touch data (8 * (s.lines * s.ndim))
  prior chain := touch chain (8 * s.p)
  boundary chain := touch chain (8 * s.p)

/-- The log-likelihood of `fit_orbit` (`/repo/models/fit_orbit/user_logll.c` 104-165) with `t = nline_data/2` epochs:
four tables and one array for every call, all freed at its end. -/
def orbitUser (s : Sizes) : UserHeap where
  logll chain data := do
    let t := s.lines / 2
    touch chain (8 * s.p)
    let a ← tab t 2
    let b ← tab t 2
    let c ← tab t 2
    let d ← tab t 2
    let e ← dbls t
    touch data (8 * (s.lines * s.ndim))
    touch e (8 * t)
    (List.range t).forM fun i => do
      touchRow d i 2
      touchRow a i 2
      touchRow b i 2
      touchRow c i 2
    freeTab a
    freeTab b
    freeTab c
    freeTab d
    free e
  prior chain := touch chain (8 * s.p)
  boundary chain := touch chain (8 * s.p)

end NiiC.RankHeap
