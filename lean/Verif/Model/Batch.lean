import Verif.Model.Config

/-!
# One batch of iterations on one rank: `/repo/mpi_batch.c` (and the copy of its loop in `/repo/mpi_tune.c`)

Arrays are lists of optional cells: `none` is a cell that has not been written. Rows of `N_parm` doubles are copied as a
whole (the code copies them cell by cell).
-/

namespace NiiC

/-- Read of an array cell: must be in bounds and written before. -/
def rdInit {α : Type} (xs : List (Option α)) (i : Nat) : Except Fault α :=
  match xs[i]? with
  | some (some v) => .ok v
  | some none => .error .uninit
  | none => .error .oob

/-- Write of an array cell: must be in bounds. -/
def wr {α : Type} (xs : List (Option α)) (i : Nat) (v : α) : Except Fault (List (Option α)) :=
  if i < xs.length then .ok (xs.set i (some v)) else .error .oob

section
variable {F : Type} [Arith F]

/-- `do_gaussian_propose`, mpi_batch.c:298-346, the loop of lines 325-335 from index `i` with `k` rounds to go;
the returned `q_factor` is the constant 1 (line 344). -/
def proposeFrom [Source F] (x sigma : List F) : (k i : Nat) → Rng → Except Fault (List F × Rng)
  | 0, _, g => .ok ([], g)
  | k + 1, i, g => do
    let xi ← rd x i
    let s ← rd sigma i
    let z := r8Normal01 (F := F) g
    let rest ← proposeFrom x sigma k (i + 1) z.2
    .ok ((xi +. z.1 *. s) :: rest.1, rest.2)

/-- `do_gaussian_propose` for `N_parm` parameters. -/
def gaussianPropose [Source F] (nParm : Nat) (x sigma : List F) (g : Rng) : Except Fault (List F × Rng) :=
  proposeFrom x sigma nParm 0 g

/-- The acceptance test, mpi_batch.c:209-235 (mpi_tune.c:419-445): whether the proposal is taken, and the generator
afterwards. With `q_factor = 1`. The uniform number is only drawn when the first test fails. -/
def mhAccept [Source F] (lpNew lpOld q : F) (g : Rng) : Bool × Rng :=
  if Arith.log (ofI 1 /. q) <. (lpNew -. lpOld) then (true, g)
  else
    let u := drand48 (F := F) g
    (u.1 <. (Arith.exp (lpNew -. lpOld) *. q), u.2)

/-- Variables of the loop in `iter_batch_mh` and `iter_batch_mh_tune`: the arrays, the row to which
`ptr_one_chain_old` points, `logpost_old`, the counter of accepted proposals, the generator. -/
structure MhVars (F : Type) where
  chain : List (Option (List F))
  logpost : List (Option F)
  old : Nat
  lpOld : F
  accA : Nat
  g : Rng

/-- Body of the loop, mpi_batch.c:180-247 and mpi_tune.c:390-457, without the bookkeeping of mpi_batch.c:258-261.
`beta` is `running_Beta_Values[i_rank]`. -/
def mhBody [Source F] (nParm : Nat) (u : User F) (sigma : List F) (nline : Int) (data : List F) (beta : F)
    (i : Nat) (m : MhVars F) : Except Fault (MhVars F) := do
  let lpOld ← if 0 < i then rdInit m.logpost (i - 1) else .ok m.lpOld
  let old := if 0 < i then i - 1 else m.old
  let xOld ← rdInit m.chain old
  let prop ← gaussianPropose nParm xOld sigma m.g
  let xNew := u.boundary prop.1
  let lpNew := u.logll xNew nline data beta +. u.logPrior xNew
  let a := mhAccept lpNew lpOld (ofI 1) prop.2
  if a.1 then do
    let chain ← wr m.chain i xNew
    let logpost ← wr m.logpost i lpNew
    .ok { chain := chain, logpost := logpost, old := old, lpOld := lpOld, accA := m.accA + 1, g := a.2 }
  else if 0 < i then do
    let xPrev ← rdInit m.chain (i - 1)
    let chain ← wr m.chain i xPrev
    let logpost ← wr m.logpost i lpOld
    .ok { chain := chain, logpost := logpost, old := old, lpOld := lpOld, accA := m.accA, g := a.2 }
  else
    .ok { m with old := old, lpOld := lpOld, g := a.2 }

/-- The `while` loop of `iter_batch_mh`, mpi_batch.c:177-265, from iteration `i` with `k` to go; `acc` is
`*ptr_i_accumul`, the last two lists are the arrays `accumul` and `accumul_accept`. -/
def iterLoop [Source F] (nParm : Nat) (u : User F) (sigma : List F) (nline : Int) (data : List F) (beta : F) :
    (k i : Nat) → MhVars F → (acc : Nat) → List (Option Nat) → List (Option Nat) →
      Except Fault (MhVars F × Nat × List (Option Nat) × List (Option Nat))
  | 0, _, m, acc, ac, aa => .ok (m, acc, ac, aa)
  | k + 1, i, m, acc, ac, aa => do
    let m ← mhBody nParm u sigma nline data beta i m
    let ac ← wr ac i (acc + 1)
    let aa ← wr aa i m.accA
    iterLoop nParm u sigma nline data beta k (i + 1) m (acc + 1) ac aa

/-- The lines written by `save_the_batch`, mpi_batch.c:445-463, from row `i` with `k` to go. -/
def batchLines (rank : Nat) (chain : List (Option (List F))) (lp : List (Option F)) (ac aa : List (Option Nat)) :
    (k i : Nat) → Except Fault (List (Line F))
  | 0, _ => .ok []
  | k + 1, i => do
    let x ← rdInit chain i
    let l ← rdInit lp i
    let a ← rdInit ac i
    let b ← rdInit aa i
    let rest ← batchLines rank chain lp ac aa k (i + 1)
    .ok (.row rank x l a b :: rest)

/-- What a batch leaves behind. -/
structure BatchOut (F : Type) where
  /-- last row of the chain array, the next start (mpi_batch.c:83-86, 118) -/
  x : List F
  /-- `logpost_final` -/
  lp : F
  acc : Nat
  accA : Nat
  g : Rng
  lines : List (Line F)

/-- `iter_batch_mh`, mpi_batch.c:138-293, on an array whose row 0 holds `x0` (allocated by the caller, mpi_batch.c:68-73,
106-107), together with the read of the last row by the caller (lines 83-86, 118).
A batch of non-positive length is the fault `badAlloc`: the code would write row 0 of an array without rows. -/
def iterBatch [Source F] (nParm : Nat) (u : User F) (rank : Nat) (sigma : List F) (nline : Int) (data : List F) (beta : F)
    (saveBegin : Nat) (nBatch : Int) (x0 : List F) (lp0 : F) (acc accA : Nat) (g : Rng) : Except Fault (BatchOut F) :=
  if nBatch ≤ 0 then .error .badAlloc
  else do
    let n := nBatch.toNat
    let chain ← wr (List.replicate n none) 0 x0
    let logpost ← wr (List.replicate n none) 0 lp0
    let r ← iterLoop nParm u sigma nline data beta n 0
      { chain := chain, logpost := logpost, old := 0, lpOld := lp0, accA := accA, g := g } acc
      (List.replicate n none) (List.replicate n none)
    let lines ← if saveBegin ≤ r.2.1 then batchLines rank r.1.chain r.1.logpost r.2.2.1 r.2.2.2 n 0 else .ok []
    let lp ← rdInit r.1.logpost (n - 1)
    let x ← rdInit r.1.chain (n - 1)
    .ok { x := x, lp := lp, acc := r.2.1, accA := r.1.accA, g := r.1.g, lines := lines }

/-- The `while` loop of `iter_batch_mh_tune`, mpi_tune.c:387-471. -/
def tuneLoop [Source F] (nParm : Nat) (u : User F) (sigma : List F) (nline : Int) (data : List F) (beta : F) :
    (k i : Nat) → MhVars F → Except Fault (MhVars F)
  | 0, _, m => .ok m
  | k + 1, i, m => do
    let m ← mhBody nParm u sigma nline data beta i m
    tuneLoop nParm u sigma nline data beta k (i + 1) m

/-- `iter_batch_mh_tune`, mpi_tune.c:351-490, on an array whose row 0 holds `x0` (mpi_tune.c:277-283, 316-322):
the acceptance rate, and the generator. -/
def iterBatchTune [Source F] (nParm : Nat) (u : User F) (sigma : List F) (nline : Int) (data : List F) (beta : F)
    (nIter : Int) (x0 : List F) (lp0 : F) (g : Rng) : Except Fault (F × Rng) :=
  if nIter ≤ 0 then .error .badAlloc
  else do
    let n := nIter.toNat
    let chain ← wr (List.replicate n none) 0 x0
    let logpost ← wr (List.replicate n none) 0 lp0
    let m ← tuneLoop nParm u sigma nline data beta n 0
      { chain := chain, logpost := logpost, old := 0, lpOld := lp0, accA := 0, g := g }
    .ok (ofI m.accA /. ofI nIter, m.g)

end
end NiiC
