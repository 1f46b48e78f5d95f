import Verif.Model.Tune
import Verif.Model.Ladder

/-!
# The rank programs: the `mpi_*` functions and `main`

Every function is written once, for the rank `me`, as in the C source; `root` is `root_rank` (0 in main.c:86, but the code
says it can be any rank). A loop `for (i_rank = 0; i_rank < n_ranks; i_rank++) if (i_rank != root_rank)` is `forSlaves`.
-/

namespace NiiC

open Proc

variable {n : Nat} {F : Type} [Arith F]

/-- `for (i_rank...) if (i_rank != root_rank) body`, threading the variables `s`. -/
def forSlaves {S : Type} (root : Fin n) (body : Fin n → S → P n F S) : List (Fin n) → S → P n F S
  | [], s => .ret s
  | i :: l, s => if i = root then forSlaves root body l s else (body i s).bind (forSlaves root body l)

/-- The same loop when no variables change. -/
def forSlaves_ (root : Fin n) (body : Fin n → P n F Unit) : P n F Unit :=
  forSlaves root (fun i _ => body i) (List.finRange n) ()

/-- `MPI_Send` -/
def sendM (dst : Fin n) (t : Tag) (v : Msg F) : P n F Unit := .send dst t v (.ret ())

/-- `MPI_Recv` of one `MPI_INT` -/
def recvInt (src : Fin n) (t : Tag) : P n F Int :=
  .recv src t fun m => match m with | .int i => .ret i | _ => .fault .msg

/-- `MPI_Recv` of one `MPI_UNSIGNED` -/
def recvUns (src : Fin n) (t : Tag) : P n F Nat :=
  .recv src t fun m => match m with | .uns i => .ret i | _ => .fault .msg

/-- `MPI_Recv` of `len` `MPI_DOUBLE`s. MPI would accept a shorter message; here any other length is a fault. -/
def recvDbls (src : Fin n) (t : Tag) (len : Nat) : P n F (List F) :=
  .recv src t fun m => match m with | .dbl xs => if xs.length = len then .ret xs else .fault .msg | _ => .fault .msg

/-- `MPI_Recv` of one `MPI_DOUBLE` -/
def recvDbl (src : Fin n) (t : Tag) : P n F F :=
  .recv src t fun m => match m with | .dbl [x] => .ret x | _ => .fault .msg

/-- `MPI_Recv` of one double per rank -/
def recvVec (src : Fin n) (t : Tag) : P n F (Fin n → F) :=
  .recv src t fun m => match m with
    | .dbl xs => if h : xs.length = n then .ret (fun r => xs[r.val]'(by rw [h]; exact r.isLt)) else .fault .msg
    | _ => .fault .msg

/-- Write lines, in order. -/
def outs : List (Line F) → P n F Unit
  | [] => .ret ()
  | l :: ls => .out l (outs ls)

/-- `MPI_Barrier` -/
def barrier : P n F Unit := .barrier (.ret ())

/-- `MPI_Bcast`: the message on every rank. Simplified to root sending in rank order (see `Verif.Mpi.Proc`). -/
def bcast (me root : Fin n) (v : Msg F) : P n F (Msg F) :=
  if me = root then (forSlaves_ root (fun i => sendM i .bcast v)).bind (fun _ => .ret v)
  else .recv root .bcast .ret

/-- Read of a table that only root has. -/
def needTab (s : RSt n F) : P n F (Tab n F) :=
  match s.tab with
  | some t => .ret t
  | none => .fault .null

/-! ## mpi_init.c -/

/-- `(*ptr_rolling_seed)++` on an unsigned int. -/
def seedSucc (s : Nat) : Nat := (s + 1) % 4294967296

/-- `mpi_gen_init_parm`, mpi_init.c:32-115: the table of start points on root, and the generator of this rank. The cells
of the table that have not been received yet are not distinguished (the loop of lines 68-74 fills all of them before the
table is used). -/
def genInitParm (cfg : Cfg F) (me root : Fin n) (seed : Nat) : P n F (Option (Fin n → List F) × Rng) :=
  if me = root then do
    let s ← forSlaves root (fun i s => do
        sendM i (rootsent 0) (.int cfg.nParm)
        let s := seedSucc s
        sendM i (rootsent 1) (.uns s)
        .ret s) (List.finRange n) seed
    let s := seedSucc s
    outs [.seed root.val s]
    let x0 := cfg.user.initParm s
    let x ← forSlaves root (fun i x => do
        let row ← recvDbls i (slavereturn 0) cfg.nParm
        .ret (Function.update x i row)) (List.finRange n) (Function.update (fun _ => []) root x0.1)
    outs [.initParm (List.ofFn x)]
    .ret (some x, x0.2)
  else do
    let np ← recvInt root (rootsent 0)
    let s ← recvUns root (rootsent 1)
    outs [.seed me.val s]
    let _ ← lift (if np ≤ 0 then .error .badAlloc else .ok ())
    let x0 := cfg.user.initParm s
    sendM root (slavereturn 0) (.dbl x0.1)
    .ret (none, x0.2)

/-- Tempered log-posterior as the code adds it up: `logll_beta(...) + log_prior(...)`, e.g. mpi_init.c:156-158. -/
def logPost (cfg : Cfg F) (x : List F) (nline : Int) (data : List F) (beta : F) : F :=
  cfg.user.logll x nline data beta +. cfg.user.logPrior x

/-- `mpi_init_calc_logllpp`, mpi_init.c:119-207: the table of log-posteriors on root. Uses `Beta_Values` as read. -/
def initCalc (cfg : Cfg F) (me root : Fin n) (nline : Int) (data : List F) (x : Option (Fin n → List F)) :
    P n F (Option (Fin n → F)) :=
  if me = root then
    match x with
    | none => .fault .null
    | some x => do
      forSlaves_ root (fun i => sendM i (rootsent 0) (.dbl (x i)))
      let b ← lift (rd cfg.betas root.val)
      let l := logPost cfg (x root) nline data b
      outs [.row root.val (x root) l 0 0]
      let lp ← forSlaves root (fun i lp => do
          let v ← recvDbl i (slavereturn 0)
          .ret (Function.update lp i v)) (List.finRange n) (Function.update (fun _ => l) root l)
      .ret (some lp)
  else do
    let row ← recvDbls root (rootsent 0) cfg.nParm
    let b ← lift (rd cfg.betas me.val)
    let l := logPost cfg row nline data b
    outs [.row me.val row l 0 0]
    sendM root (slavereturn 0) (.dbl [l])
    .ret none

/-! ## mpi_flow.c: gather and distribute widths -/

/-- `mpi_gather_sigma_prop_root`, mpi_flow.c:206-250. -/
def gatherSigma (cfg : Cfg F) (me root : Fin n) (sigma : List F) : P n F (Option (Fin n → List F)) :=
  if me = root then do
    let sig ← forSlaves root (fun i sig => do
        let row ← recvDbls i (slavereturn 0) cfg.nParm
        .ret (Function.update sig i row)) (List.finRange n) (Function.update (fun _ => []) root sigma)
    .ret (some sig)
  else do
    sendM root (slavereturn 0) (.dbl sigma)
    .ret none

/-- `mpi_distribute_sigma_prop_root`, mpi_flow.c:256-297: the new `*ptr_sigma_prop` of this rank. -/
def distributeSigma (cfg : Cfg F) (me root : Fin n) (sig : Option (Fin n → List F)) : P n F (List F) :=
  if me = root then
    match sig with
    | none => .fault .null
    | some sig => do
      forSlaves_ root (fun i => sendM i (rootsent 0) (.dbl (sig i)))
      .ret (sig root)
  else recvDbls root (rootsent 0) cfg.nParm

/-! ## mpi_batch.c -/

/-- The local part of a batch on the rank of `s`. -/
def localBatch [Source F] (cfg : Cfg F) (me : Fin n) (s : Loc n F) (nBatch : Int) (x : List F) (lp : F) :
    Except Fault (BatchOut F) :=
  iterBatch cfg.nParm cfg.user me.val s.sigma s.nline s.data (s.beta me) cfg.saveBegin nBatch x lp s.acc s.accA s.g

/-- The rank's variables after a batch. -/
def Loc.after (s : Loc n F) (b : BatchOut F) : Loc n F := { s with g := b.g, acc := b.acc, accA := b.accA }

/-- `mpi_run_a_batch`, mpi_batch.c:48-131, after a record of the variables. -/
def runBatch [Source F] (cfg : Cfg F) (me root : Fin n) (nBatch : Int) (s : RSt n F) : P n F (RSt n F) := do
  outs [s.loc.note]
  if me = root then do
    let t ← needTab s
    forSlaves_ root (fun i => do
      sendM i (rootsent 2) (.dbl (t.x i))
      sendM i (rootsent 3) (.dbl [t.lp i]))
    let b ← lift (localBatch cfg me s.loc nBatch (t.x root) (t.lp root))
    outs b.lines
    let t' ← forSlaves root (fun i (t : Tab n F) => do
        let row ← recvDbls i (slavereturn 0) cfg.nParm
        let v ← recvDbl i (slavereturn 1)
        .ret { t with x := Function.update t.x i row, lp := Function.update t.lp i v }) (List.finRange n)
        { t with x := Function.update t.x root b.x, lp := Function.update t.lp root b.lp }
    .ret { loc := s.loc.after b, tab := some t' }
  else do
    let row ← recvDbls root (rootsent 2) cfg.nParm
    let v ← recvDbl root (rootsent 3)
    let b ← lift (localBatch cfg me s.loc nBatch row v)
    outs b.lines
    sendM root (slavereturn 0) (.dbl b.x)
    sendM root (slavereturn 1) (.dbl [b.lp])
    .ret { s with loc := s.loc.after b }

/-! ## mpi_stack.c -/

/-- The choice of `j_swap` on root, mpi_stack.c:236-247; `j_swap` is 0 on entry (line 70, passed by value). -/
def pickJ (F : Type) [Arith F] [Source F] (n : Nat) (swapmode iSwap : Int) (g : Rng) : Int × Rng :=
  if swapmode = 0 then (iSwap + 1, g)
  else if swapmode = 1 then
    let j := i4Unif0a F ((n : Int) - 1) g
    (if iSwap ≤ j.1 then j.1 + 1 else j.1, j.2)
  else (0, g)

/-- The judgement, mpi_stack.c:296-309: `a` is `logpost_ichain_jbeta`, `b` `logpost_jchain_ibeta`, then the two current
values. -/
def swapAccept [Source F] (a b lii ljj : F) (g : Rng) : Bool × Rng :=
  let d := a +. b -. lii -. ljj
  if ofI 0 <. d then (true, g)
  else
    let u := drand48 (F := F) g
    (u.1 <. Arith.exp d, u.2)

/-- The exchange on root, mpi_stack.c:313-323 with `swap_two_chains` (388-398). -/
def swapTab (t : Tab n F) (i j : Fin n) (ljiNew lijNew : F) : Tab n F :=
  { t with x := Function.update (Function.update t.x i (t.x j)) j (t.x i),
           lp := Function.update (Function.update t.lp i ljiNew) j lijNew }

/-- `mpi_judge_and_swap`, mpi_stack.c:221-366: whether a swap was made (always 0 on the other ranks). -/
def judgeSwap [Source F] (cfg : Cfg F) (me root slave : Fin n) (iSwap : Int) (s : RSt n F) : P n F (Bool × RSt n F) :=
  if me = root then do
    let t ← needTab s
    let pj := pickJ F n cfg.swapmode iSwap s.loc.g
    let i ← lift (toIdx n iSwap)
    let j ← lift (toIdx n pj.1)
    sendM slave (rootsent 1) (.dbl (t.x j))
    sendM slave (rootsent 2) (.int iSwap)
    let lij := logPost cfg (t.x i) s.loc.nline s.loc.data (s.loc.beta j)
    let lji ← recvDbl slave (slavereturn 0)
    let a := swapAccept lij lji (t.lp i) (t.lp j) pj.2
    let t' := if a.1 then swapTab t i j lji lij else t
    .ret (a.1, { loc := { s.loc with g := a.2 }, tab := some t' })
  else if me = slave then do
    let row ← recvDbls root (rootsent 1) cfg.nParm
    let iS ← recvInt root (rootsent 2)
    let i ← lift (toIdx n iS)
    let lji := logPost cfg row s.loc.nline s.loc.data (s.loc.beta i)
    sendM root (slavereturn 0) (.dbl [lji])
    .ret (false, s)
  else .ret (false, s)

/-- `doubleInt_Nswaps` and `doubleInt_Nprops`, mpi_stack.c:75-87. Only root uses them, and only when `Tune_Ladder > 0`,
in which case they start at zero. -/
structure Tally (n : Nat) (F : Type) where
  nsw : Fin n → F
  npr : Fin n → F

/-- The tallies after zeroing. -/
def Tally.zero : Tally n F := ⟨fun _ => ofI 0, fun _ => ofI 0⟩

/-- mpi_stack.c:183-184. -/
def Tally.add (t : Tally n F) (i : Fin n) (did : Bool) : Tally n F :=
  { nsw := Function.update t.nsw i (t.nsw i +. ofI (if did then 1 else 0)),
    npr := Function.update t.npr i (t.npr i +. ofI 1) }

/-- One round of the swap loop, mpi_stack.c:157-189, after a record of the variables. -/
def swapRound [Source F] (cfg : Cfg F) (me root slave : Fin n) (s : RSt n F) (ty : Tally n F) : P n F (RSt n F × Tally n F) := do
  outs [s.loc.note]
  if me = root then do
    let pi := i4Unif0a F ((n : Int) - 1) s.loc.g
    let r ← judgeSwap cfg me root slave pi.1 { s with loc := { s.loc with g := pi.2 } }
    if 0 < cfg.tuneLadder then do
      let i ← lift (toIdx n pi.1)
      .ret (r.2, ty.add i r.1)
    else .ret (r.2, ty)
  else do
    let r ← judgeSwap cfg me root slave 0 s
    .ret (r.2, ty)

/-- `k` rounds of the swap loop. -/
def swapLoop [Source F] (cfg : Cfg F) (me root slave : Fin n) : (k : Nat) → RSt n F → Tally n F → P n F (RSt n F × Tally n F)
  | 0, s, ty => .ret (s, ty)
  | k + 1, s, ty => (swapRound cfg me root slave s ty).bind (fun r => swapLoop cfg me root slave k r.1 r.2)

/-- The size of the next batch and the new `i_next` on root, mpi_stack.c:108-117: `(n_iter_a_batch, i_next, generator)`. -/
def nextBatch [Source F] (cfg : Cfg F) (nStack iTmp : Int) (g : Rng) : Except Fault (Int × Int × Rng) := do
  let _ ← i32 (-cfg.rand)
  let _ ← i32 (cfg.rand - -cfg.rand)
  let d := i4UnifAb F (-cfg.rand) cfg.rand g
  let nb ← i32 (cfg.base + d.1)
  let nx ← i32 (iTmp + nb)
  if nStack < nx then .ok (nStack - iTmp, nStack, d.2) else .ok (nb, nx, d.2)

/-- Root draws the size and tells the others, mpi_stack.c:105-137: `(n_iter_a_batch, i_next)` and the variables. -/
def announce [Source F] (cfg : Cfg F) (me root : Fin n) (nStack iTmp : Int) (s : RSt n F) : P n F ((Int × Int) × RSt n F) :=
  if me = root then do
    let b ← lift (nextBatch cfg nStack iTmp s.loc.g)
    forSlaves_ root (fun i => do
      sendM i (rootsent 0) (.int b.2.1)
      sendM i (rootsent 1) (.int b.1))
    .ret ((b.1, b.2.1), { s with loc := { s.loc with g := b.2.2 } })
  else do
    let nx ← recvInt root (rootsent 0)
    let nb ← recvInt root (rootsent 1)
    .ret ((nb, nx), s)

/-- The `while` loop of `mpi_static_sigma_stack`, mpi_stack.c:100-198. -/
def stackLoop [Source F] (cfg : Cfg F) (me root slave : Fin n) (nStack : Int) :
    (fuel : Nat) → (iTmp iNext : Int) → RSt n F → Tally n F → P n F (RSt n F × Tally n F)
  | 0, _, iNext, s, ty => if iNext < nStack then .fault .fuel else .ret (s, ty)
  | fuel + 1, iTmp, iNext, s, ty =>
    if iNext < nStack then do
      let a ← announce cfg me root nStack iTmp s
      barrier
      let s ← runBatch cfg me root a.1.1 a.2
      barrier
      let r ← swapLoop cfg me root slave cfg.nSwap.toNat s ty
      barrier
      stackLoop cfg me root slave nStack fuel a.1.2 a.1.2 r.1 r.2
    else .ret (s, ty)

/-- `mpi_adjust_ladder` with `mpi_distribute_running_Beta_root`, mpi_ladder.c:26-98. -/
def adjustLadder (cfg : Cfg F) (me root : Fin n) (s : RSt n F) (ty : Tally n F) : P n F (RSt n F) :=
  if me = root then do
    let b := tuneLadder cfg.scaleLadder cfg.zeroStretch ty.nsw ty.npr s.loc.beta
    forSlaves_ root (fun i => sendM i (rootsent 0) (.dbl (List.ofFn b)))
    .ret { s with loc := { s.loc with beta := b } }
  else do
    let b ← recvVec root (rootsent 0)
    .ret { s with loc := { s.loc with beta := b } }

/-- `slave_rank`, mpi_stack.c:66. With one rank there is no such rank (the fault stands for the MPI error). -/
def slaveRank (root : Fin n) : Except Fault (Fin n) := toIdx n (1 - min 1 (root.val : Int))

/-- `mpi_static_sigma_stack`, mpi_stack.c:53-216. -/
def runStack [Source F] (cfg : Cfg F) (me root : Fin n) (nStack : Int) (s : RSt n F) : P n F (RSt n F) := do
  let slave ← lift (slaveRank root)
  outs (if me = root then [.betas (List.ofFn s.loc.beta)] else [])
  let r ← stackLoop cfg me root slave nStack nStack.toNat 0 0 s Tally.zero
  if (r.1.loc.acc : Int) < cfg.nStopTuneLadder ∧ 0 < cfg.tuneLadder then adjustLadder cfg me root r.1 r.2
  else .ret r.1

/-! ## mpi_tune.c -/

/-- `mpi_tune_sigma_iparmNrank`, mpi_tune.c:267-346: the row of acceptance rates on root, and the generator. -/
def tuneParm [Source F] (cfg : Cfg F) (me root rk : Fin n) (x : List F) (lp : F) (s : Loc n F) :
    P n F (Option (Fin n → F) × Rng) := do
  let a ← lift (iterBatchTune cfg.nParm cfg.user s.sigma s.nline s.data (s.beta rk) cfg.nIterInTune x lp s.g)
  if me = root then do
    let row ← forSlaves root (fun i row => do
        let v ← recvDbl i (slavereturn 0)
        .ret (Function.update row i v)) (List.finRange n) (Function.update (fun _ => a.1) root a.1)
    .ret (some row, a.2)
  else do
    sendM root (slavereturn 0) (.dbl [a.1])
    .ret (none, a.2)

/-- What root keeps while tuning a rank: its tables, the trial grid, the rows of rates collected so far. -/
structure TuneSt (n : Nat) (F : Type) where
  tab : Tab n F
  grid : List (Fin n → F)
  ars : List (Fin n → F)

/-- The trial table of root for parameter `j` (NULL elsewhere), mpi_tune.c:176-198. -/
def trialTable (rk : Fin n) (j : Nat) (ts : Option (TuneSt n F)) : Except Fault (Option (Fin n → List F)) :=
  match ts with
  | none => .ok none
  | some t => do
    let rows ← trialRows (t.tab.sig rk) t.grid j
    .ok (some rows)

/-- Loop B, mpi_tune.c:176-215, from parameter `j` with `k` to go. -/
def tuneParms [Source F] (cfg : Cfg F) (me root rk : Fin n) (x : List F) (lp : F) :
    (k j : Nat) → Loc n F → Option (TuneSt n F) → P n F (Loc n F × Option (TuneSt n F))
  | 0, _, s, ts => .ret (s, ts)
  | k + 1, j, s, ts => do
    let rows ← lift (trialTable rk j ts)
    let sg ← distributeSigma cfg me root rows
    barrier
    let a ← tuneParm cfg me root rk x lp { s with sigma := sg }
    barrier
    let ts' : Option (TuneSt n F) :=
      match ts, a.1 with
      | some t, some row => some { t with ars := t.ars ++ [row] }
      | _, _ => ts
    tuneParms cfg me root rk x lp k (j + 1) { s with sigma := sg, g := a.2 } ts'

/-- Root's part before loop B: the grid and the start point, mpi_tune.c:143-167. -/
def tuneStart (cfg : Cfg F) (root rk : Fin n) (me : Fin n) (s : RSt n F) :
    P n F (Option (TuneSt n F) × List F × F) :=
  if me = root then do
    let t ← needTab s
    let grid ← lift (genAllTune n cfg (t.sig rk) cfg.nParm 0)
    .ret (some { tab := t, grid := grid, ars := [] }, t.x rk, t.lp rk)
  else .ret (none, [], ofI 0)

/-- `MPI_Bcast` of `len` doubles, checked. -/
def bcastDbls (me root : Fin n) (len : Nat) (xs : List F) : P n F (List F) :=
  (bcast me root (.dbl xs)).bind fun m =>
    match m with | .dbl xs => if xs.length = len then .ret xs else .fault .msg | _ => .fault .msg

/-- `MPI_Bcast` of one double, checked. -/
def bcastDbl (me root : Fin n) (x : F) : P n F F :=
  (bcast me root (.dbl [x])).bind fun m => match m with | .dbl [x] => .ret x | _ => .fault .msg

/-- `MPI_Bcast` of one int, checked. -/
def bcastInt (me root : Fin n) (x : Int) : P n F Int :=
  (bcast me root (.int x)).bind fun m => match m with | .int x => .ret x | _ => .fault .msg

/-- `MPI_Bcast` of one int per rank, checked. -/
def bcastInts (me root : Fin n) (f : Fin n → Int) : P n F (Fin n → Int) :=
  (bcast me root (.ints (List.ofFn f))).bind fun m =>
    match m with
    | .ints xs => if h : xs.length = n then .ret (fun r => xs[r.val]'(by rw [h]; exact r.isLt)) else .fault .msg
    | _ => .fault .msg

/-- Root's part after loop B, mpi_tune.c:225-242. -/
def tuneFinish [Source F] (cfg : Cfg F) (rk : Fin n) (s : Loc n F) (ts : Option (TuneSt n F)) : Except Fault (RSt n F) :=
  match ts with
  | none => .ok { loc := s, tab := none }
  | some t => do
    let d ← decideSigma cfg t.ars s.g
    let sg ← modifySigma cfg (t.tab.sig rk) t.grid t.ars d.1
    .ok { loc := { s with g := d.2 }, tab := some { t.tab with sig := Function.update t.tab.sig rk sg } }

/-- `mpi_tune_sigma_irank`, mpi_tune.c:112-260, for the rank `rk` in tune. -/
def tuneRank [Source F] (cfg : Cfg F) (me root rk : Fin n) (s : RSt n F) : P n F (RSt n F) := do
  let st ← tuneStart cfg root rk me s
  let x ← bcastDbls me root cfg.nParm st.2.1
  let lp ← bcastDbl me root st.2.2
  barrier
  let r ← tuneParms cfg me root rk x lp cfg.nParm 0 s.loc st.1
  let s' ← lift (tuneFinish cfg rk r.1 r.2)
  barrier
  .ret s'

/-! ## mpi_flow.c -/

/-- The flag of one rank, mpi_flow.c:151-158 and 180-187. -/
def tuneFlag (cfg : Cfg F) (rate : F) : Int :=
  if (rate <. cfg.arUpper) && (cfg.arLower <. rate) then 0 else 1

/-- `mpi_find_ranks2tune`, mpi_flow.c:145-201: the flags of all ranks. -/
def findRanks (cfg : Cfg F) (me root : Fin n) (rate : F) : P n F (Fin n → Int) := do
  let fl ←
    (if me = root then
      forSlaves root (fun i fl => do
        let v ← recvInt i (slavereturn 0)
        .ret (Function.update fl i v)) (List.finRange n)
        (Function.update (fun _ => tuneFlag cfg rate) root (tuneFlag cfg rate))
    else do
      sendM root (slavereturn 0) (.int (tuneFlag cfg rate))
      .ret (fun _ => tuneFlag cfg rate))
  bcastInts me root fl

/-- Loop A, mpi_flow.c:113-129. -/
def tuneRanks [Source F] (cfg : Cfg F) (me root : Fin n) (fl : Fin n → Int) : List (Fin n) → RSt n F → P n F (RSt n F)
  | [], s => .ret s
  | rk :: l, s => do
    let s ← (if fl rk = 1 then tuneRank cfg me root rk s else .ret s)
    barrier
    tuneRanks cfg me root fl l s

/-- The acceptance rate of a stack, mpi_flow.c:90-91 (unsigned subtraction of a counter that never decreases). -/
def stackRate (F : Type) [Arith F] (old now : Nat) (nStack : Int) : F := ofI ((now - old : Nat) : Int) /. ofI nStack

/-- The tuning window, mpi_flow.c:101. -/
def inTuneWindow (cfg : Cfg F) (iNext : Int) : Bool :=
  decide (cfg.nBegintune < iNext) && decide (iNext < cfg.nStoptune) && decide (iNext < cfg.nIter)

/-- The `while` loop of `mpi_entire_flow`, mpi_flow.c:58-135. -/
def flowLoop [Source F] (cfg : Cfg F) (me root : Fin n) :
    (fuel : Nat) → (nStack iTmp iNext : Int) → RSt n F → P n F (RSt n F)
  | 0, _, _, iNext, s => if iNext < cfg.nIter then .fault .fuel else .ret s
  | fuel + 1, nStack, iTmp, iNext, s =>
    if iNext < cfg.nIter then do
      let nx ← lift (i32 (iTmp + nStack))
      let nStack' := if cfg.nIter < nx then cfg.nIter - iTmp else nStack
      let nx' := if cfg.nIter < nx then cfg.nIter else nx
      let sg ← distributeSigma cfg me root (s.tab.map Tab.sig)
      barrier
      outs [.sigma me.val sg]
      let s1 ← runStack cfg me root nStack' { s with loc := { s.loc with sigma := sg } }
      barrier
      let s2 ← (if inTuneWindow cfg nx' then do
          let fl ← findRanks cfg me root (stackRate F s.loc.accA s1.loc.accA nStack')
          barrier
          tuneRanks cfg me root fl (List.finRange n) s1
        else .ret s1)
      flowLoop cfg me root fuel nStack' nx' nx' s2
    else .ret s

/-- `mpi_entire_flow`, mpi_flow.c:40-141. -/
def entireFlow [Source F] (cfg : Cfg F) (me root : Fin n) (s : RSt n F) : P n F (RSt n F) :=
  flowLoop cfg me root cfg.nIter.toNat cfg.nStack 0 0 s

/-! ## main.c -/

/-- The start seed, main.c:111-118: `init_rand_seed` is unsigned, so `<= 0` means `== 0`. -/
def startSeed (cfg : Cfg F) (clock : Nat) : Nat := if cfg.initSeed = 0 then clock % 4294967296 else cfg.initSeed

/-- What root finds in the data file: the number of lines (data_loader.c:97-119), and the cells (28-71). -/
structure DataFile (F : Type) where
  nlines : Int
  ndim : Int
  cells : Except Fault (List F)

/-- The first `n` values of `Beta_Values`, main.c:196-199. -/
def copyBetas (n : Nat) (betas : List F) : Except Fault (Fin n → F) :=
  if h : n ≤ betas.length then .ok (fun r => betas[r.val]'(Nat.lt_of_lt_of_le r.isLt h)) else .error .oob

/-- `main`, main.c:64-249, for a rank that has read `input.ini` into `cfg`. The results are the variables at the end
(before they are freed). -/
def mainProg [Source F] (cfg : Cfg F) (file : DataFile F) (clock : Nat) (root me : Fin n) : P n F (RSt n F) := do
  outs (if me = root then [.mkdir] else [])
  let nline ← bcastInt me root (if me = root then file.nlines else 0)
  let cells ← lift (i32 (nline * file.ndim))
  let _ ← lift (if cells < 0 then .error .badAlloc else .ok ())
  let own ← lift (if me = root then file.cells else .ok [])
  let data ← bcastDbls me root cells.toNat own
  let x ← genInitParm cfg me root (startSeed cfg clock)
  let lp ← initCalc cfg me root nline data x.1
  barrier
  let sigma := cfg.user.initGp cfg.initGpRatio
  outs [.sigma me.val sigma]
  let sig ← gatherSigma cfg me root sigma
  let beta ← lift (copyBetas n cfg.betas)
  let tab : Option (Tab n F) :=
    match x.1, lp, sig with
    | some x, some lp, some sig => some { x := x, lp := lp, sig := sig }
    | _, _, _ => none
  let s ← entireFlow cfg me root
    { loc := { g := x.2, sigma := sigma, beta := beta, acc := 0, accA := 0, nline := nline, data := data }, tab := tab }
  barrier
  .ret s

/-- The system at start: every rank at the beginning of `main`, nothing in flight, nothing written. -/
def initSys [Source F] (cfg : Cfg F) (file : DataFile F) (clock : Nat) (root : Fin n) : Sys n (Msg F) (Line F) (RSt n F) :=
  { procs := mainProg cfg file clock root, chan := fun _ => [], log := fun _ => [] }

end NiiC
