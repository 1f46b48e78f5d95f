import Verif.Model.Spmd

/-!
# The sampler as one sequential program

One process that holds all chains and works through them: no messages, no barriers. `Verif.Refine` shows that the MPI
program computes exactly this, under every schedule (property C04). The one-rank computations (a batch, a tuning run, the
ladder formula, the decision rule) are the same functions as in the rank programs; what this file replaces is everything
between them.

The record `hist` lists the state after each event, for statements about all intermediate states.
-/

namespace NiiC

variable {n : Nat} {F : Type} [Arith F]

/-- All chains and all variables of all ranks. -/
structure G (n : Nat) (F : Type) where
  /-- current point of each chain -/
  x : Fin n → List F
  /-- its stored log-posterior -/
  lp : Fin n → F
  /-- width table -/
  sig : Fin n → List F
  /-- widths in use -/
  cur : Fin n → List F
  /-- random generators -/
  g : Fin n → Rng
  /-- iterations so far -/
  acc : Fin n → Nat
  /-- accepted proposals so far -/
  accA : Fin n → Nat
  /-- the ladder -/
  beta : Fin n → F
  nline : Int
  data : List F

/-- Events of a run. -/
inductive Ev (n : Nat) where
  | start
  /-- the widths in use are loaded from the width table -/
  | widths
  | batch (nb : Int)
  | swap (i j : Fin n) (did : Bool)
  | ladder
  | tune (rk : Fin n)

/-- A run so far. -/
structure W (n : Nat) (F : Type) where
  st : G n F
  /-- lines written by each rank -/
  log : Fin n → List (Line F)
  /-- events, oldest first, each with the state right after it -/
  hist : List (Ev n × G n F)

/-- Record an event. -/
def W.push (w : W n F) (e : Ev n) (st : G n F) (lines : Fin n → List (Line F)) : W n F :=
  { st := st, log := fun r => w.log r ++ lines r, hist := w.hist ++ [(e, st)] }

/-- The variables of rank `r`. -/
def G.loc (s : G n F) (r : Fin n) : Loc n F :=
  { g := s.g r, sigma := s.cur r, beta := s.beta, acc := s.acc r, accA := s.accA r, nline := s.nline, data := s.data }

/-- Root's tables. -/
def G.tab (s : G n F) : Tab n F := { x := s.x, lp := s.lp, sig := s.sig }

/-- The state after every chain has run its batch. -/
def G.afterBatch (s : G n F) (bs : Fin n → BatchOut F) : G n F :=
  { s with x := fun r => (bs r).x, lp := fun r => (bs r).lp, g := fun r => (bs r).g,
           acc := fun r => (bs r).acc, accA := fun r => (bs r).accA }

/-- Advance every chain by `nb` iterations. -/
def seqBatch [Source F] (cfg : Cfg F) (nb : Int) (w : W n F) : Except Fault (W n F) := do
  let bs ← allOk (fun r => localBatch cfg r (w.st.loc r) nb (w.st.x r) (w.st.lp r))
  .ok (w.push (.batch nb) (w.st.afterBatch bs) (fun r => (w.st.loc r).note :: (bs r).lines))

/-- Propose one swap, with the generator of `root`. -/
def seqSwap [Source F] (cfg : Cfg F) (root : Fin n) (w : W n F) (ty : Tally n F) : Except Fault (W n F × Tally n F) := do
  let pi := i4Unif0a F ((n : Int) - 1) (w.st.g root)
  let pj := pickJ F n cfg.swapmode pi.1 pi.2
  let i ← toIdx n pi.1
  let j ← toIdx n pj.1
  let lij := logPost cfg (w.st.x i) w.st.nline w.st.data (w.st.beta j)
  let lji := logPost cfg (w.st.x j) w.st.nline w.st.data (w.st.beta i)
  let a := swapAccept lij lji (w.st.lp i) (w.st.lp j) pj.2
  let t' := if a.1 then swapTab w.st.tab i j lji lij else w.st.tab
  .ok (w.push (.swap i j a.1) { w.st with x := t'.x, lp := t'.lp, g := Function.update w.st.g root a.2 }
      (fun r => [(w.st.loc r).note]),
    if 0 < cfg.tuneLadder then ty.add i a.1 else ty)

/-- Propose `k` swaps. -/
def seqSwaps [Source F] (cfg : Cfg F) (root : Fin n) : (k : Nat) → W n F → Tally n F → Except Fault (W n F × Tally n F)
  | 0, w, ty => .ok (w, ty)
  | k + 1, w, ty => do
    let r ← seqSwap cfg root w ty
    seqSwaps cfg root k r.1 r.2

/-- Batches and swaps until `nStack` iterations are done; `i` is the number done so far. -/
def seqStackLoop [Source F] (cfg : Cfg F) (root : Fin n) (nStack : Int) :
    (fuel : Nat) → (i : Int) → W n F → Tally n F → Except Fault (W n F × Tally n F)
  | 0, i, w, ty => if i < nStack then .error .fuel else .ok (w, ty)
  | fuel + 1, i, w, ty =>
    if i < nStack then do
      let b ← nextBatch cfg nStack i (w.st.g root)
      let w ← seqBatch cfg b.1 { w with st := { w.st with g := Function.update w.st.g root b.2.2 } }
      let r ← seqSwaps cfg root cfg.nSwap.toNat w ty
      seqStackLoop cfg root nStack fuel b.2.1 r.1 r.2
    else .ok (w, ty)

/-- Retune the ladder from the tallies. -/
def seqLadder (cfg : Cfg F) (w : W n F) (ty : Tally n F) : W n F :=
  w.push .ladder
    { w.st with beta := tuneLadder cfg.scaleLadder cfg.zeroStretch ty.nsw ty.npr w.st.beta } (fun _ => [])

/-- One stack. -/
def seqStack [Source F] (cfg : Cfg F) (root : Fin n) (nStack : Int) (w : W n F) : Except Fault (W n F) := do
  let _ ← slaveRank root
  let w := { w with log := fun r => w.log r ++ (if r = root then [.betas (List.ofFn w.st.beta)] else []) }
  let r ← seqStackLoop cfg root nStack nStack.toNat 0 w Tally.zero
  if (r.1.st.acc root : Int) < cfg.nStopTuneLadder ∧ 0 < cfg.tuneLadder then .ok (seqLadder cfg r.1 r.2)
  else .ok r.1

/-- The tuning runs for the width of each parameter, from parameter `j` with `k` to go: chain `rk` is replayed from its
current point by all ranks, rank `r` with the `r`-th trial width. -/
def seqTuneParms [Source F] (cfg : Cfg F) (rk : Fin n) (grid : List (Fin n → F)) :
    (k j : Nat) → G n F → List (Fin n → F) → Except Fault (G n F × List (Fin n → F))
  | 0, _, s, ars => .ok (s, ars)
  | k + 1, j, s, ars => do
    let rows ← trialRows (s.sig rk) grid j
    let a ← allOk (fun r => iterBatchTune cfg.nParm cfg.user (rows r) s.nline s.data (s.beta rk) cfg.nIterInTune
      (s.x rk) (s.lp rk) (s.g r))
    seqTuneParms cfg rk grid k (j + 1) { s with cur := rows, g := fun r => (a r).2 } (ars ++ [fun r => (a r).1])

/-- Tune the widths of chain `rk`. -/
def seqTuneRank [Source F] (cfg : Cfg F) (root rk : Fin n) (w : W n F) : Except Fault (W n F) := do
  let grid ← genAllTune n cfg (w.st.sig rk) cfg.nParm 0
  let r ← seqTuneParms cfg rk grid cfg.nParm 0 w.st []
  let d ← decideSigma cfg r.2 (r.1.g root)
  let sg ← modifySigma cfg (r.1.sig rk) grid r.2 d.1
  .ok (w.push (.tune rk)
    { r.1 with g := Function.update r.1.g root d.2, sig := Function.update r.1.sig rk sg } (fun _ => []))

/-- Tune the flagged chains. -/
def seqTuneRanks [Source F] (cfg : Cfg F) (root : Fin n) (fl : Fin n → Int) : List (Fin n) → W n F → Except Fault (W n F)
  | [], w => .ok w
  | rk :: l, w => do
    let w ← (if fl rk = 1 then seqTuneRank cfg root rk w else .ok w)
    seqTuneRanks cfg root fl l w

/-- Load the widths in use from the table and note them in the width files. -/
def seqWidths (w : W n F) : W n F :=
  w.push .widths { w.st with cur := w.st.sig } (fun r => [.sigma r.val (w.st.sig r)])

/-- Stacks until `N_iter` iterations are done; `i` is the number done so far. -/
def seqFlowLoop [Source F] (cfg : Cfg F) (root : Fin n) :
    (fuel : Nat) → (nStack i : Int) → W n F → Except Fault (W n F)
  | 0, _, i, w => if i < cfg.nIter then .error .fuel else .ok w
  | fuel + 1, nStack, i, w =>
    if i < cfg.nIter then do
      let nx ← i32 (i + nStack)
      let nStack' := if cfg.nIter < nx then cfg.nIter - i else nStack
      let nx' := if cfg.nIter < nx then cfg.nIter else nx
      let w1 ← seqStack cfg root nStack' (seqWidths w)
      let w2 ← (if inTuneWindow cfg nx' then
          seqTuneRanks cfg root (fun r => tuneFlag cfg (stackRate F (w.st.accA r) (w1.st.accA r) nStack'))
            (List.finRange n) w1
        else .ok w1)
      seqFlowLoop cfg root fuel nStack' nx' w2
    else .ok w

/-- The seed given to rank `r`: ranks in order, root last. -/
def seedOf (root : Fin n) (seed : Nat) (r : Fin n) : Nat :=
  (seed + (if r = root then n else if r.val < root.val then r.val + 1 else r.val)) % 4294967296

/-- Everything before the first iteration. -/
def seqInit (cfg : Cfg F) (file : DataFile F) (clock : Nat) (root : Fin n) : Except Fault (W n F) := do
  let cells ← i32 (file.nlines * file.ndim)
  let data ← file.cells
  let _ ← (if cells < 0 then .error .badAlloc else .ok ())
  let _ ← (if data.length ≠ cells.toNat then .error .msg else .ok ())
  let _ ← (if cfg.nParm = 0 then .error .badAlloc else .ok ())
  let beta ← copyBetas n cfg.betas
  let sd := seedOf root (startSeed cfg clock)
  let x : Fin n → List F := fun r => (cfg.user.initParm (sd r)).1
  let lp : Fin n → F := fun r => logPost cfg (x r) file.nlines data (beta r)
  let widths := cfg.user.initGp cfg.initGpRatio
  let st : G n F :=
    { x := x, lp := lp, sig := fun _ => widths, cur := fun _ => widths, g := fun r => (cfg.user.initParm (sd r)).2,
      acc := fun _ => 0, accA := fun _ => 0, beta := beta, nline := file.nlines, data := data }
  .ok { st := st,
        log := fun r => (if r = root then [.mkdir] else []) ++ [.seed r.val (sd r)]
          ++ (if r = root then [.initParm (List.ofFn x)] else []) ++ [.row r.val (x r) (lp r) 0 0]
          ++ [.sigma r.val widths],
        hist := [(.start, st)] }

/-- The whole run. -/
def seqMain [Source F] (cfg : Cfg F) (file : DataFile F) (clock : Nat) (root : Fin n) : Except Fault (W n F) := do
  let w ← seqInit cfg file clock root
  seqFlowLoop cfg root cfg.nIter.toNat cfg.nStack 0 w

end NiiC
