import Verif.Model.Batch

/-!
# Width tuning on root: the local functions of `/repo/mpi_tune.c`
-/

namespace NiiC

section
variable {F : Type} [Arith F]

/-- `create_logspace_array`, mpi_tune.c:529-546: the value of cell `i`. -/
def logspace (base half : F) (npts : Nat) (i : Nat) : F :=
  let logMin := Arith.log (base /. half)
  let logMax := Arith.log (base *. half)
  let interval := (logMax -. logMin) /. ofI ((npts : Int) - 1)
  Arith.exp (logMin +. interval *. ofI (i : Int))

/-- `check_bounceInside_sigma_boundary`, mpi_tune.c:549-568, on the array `arr` of `npts` cells. -/
def bounceInside (smin smax jumpin : F) (npts : Nat) (arr : Nat → F) : Nat → F :=
  let half := Arith.sqrt jumpin
  let arr := if arr 0 <. smin then logspace (smin *. half) half npts else arr
  if smax <. arr (npts - 1) then logspace (smax /. half) half npts else arr

/-- One row of the trial grid: `scaled_arr` for one parameter, mpi_tune.c:579-586. -/
def gridRow (half smin smax jumpin width : F) (npts : Nat) : Nat → F :=
  bounceInside smin smax jumpin npts (logspace width half npts)

/-- `gen_sigma_alltune`, mpi_tune.c:572-594: rows for parameters `i ..`, `k` to go. -/
def genAllTune (n : Nat) (cfg : Cfg F) (sig : List F) : (k i : Nat) → Except Fault (List (Fin n → F))
  | 0, _ => .ok []
  | k + 1, i => do
    let w ← rd sig i
    let lo ← rd cfg.sigmaMin i
    let hi ← rd cfg.sigmaMax i
    let rest ← genAllTune n cfg sig k (i + 1)
    .ok ((fun r : Fin n => gridRow cfg.halfRatio lo hi cfg.jumpin w n r.val) :: rest)

/-- Row `r` of the trial table for parameter `j`: `replicate_OneSigmaOrigin_Nvaried` and `tune_oneparm_Nvaried`,
mpi_tune.c:496-526. -/
def trialRows {n : Nat} (sig : List F) (grid : List (Fin n → F)) (j : Nat) : Except Fault (Fin n → List F) := do
  let row ← rd grid j
  let _ ← rd sig j
  .ok (fun r => sig.set j (row r))

/-- Running minimum with the first position that attains it: the loop shared by `argmin` (mpi_tune.c:816-834),
`calc_closest_ar_oneparm` (770-787) and `calc_closest_ar` (791-812). -/
def scanMin {ι : Type} : (cur : F) → (k : ι) → List (ι × F) → F × ι
  | cur, k, [] => (cur, k)
  | cur, k, (i, v) :: l => if v <. cur then scanMin v i l else scanMin cur k l

/-- The loop of `argmax`, mpi_tune.c:837-855. -/
def scanMax {ι : Type} : (cur : F) → (k : ι) → List (ι × F) → F × ι
  | cur, k, [] => (cur, k)
  | cur, k, (i, v) :: l => if cur <. v then scanMax v i l else scanMax cur k l

/-- Cells of a list with their indices, from index `i`. -/
def indexed (i : Nat) : List F → List (Nat × F)
  | [] => []
  | v :: l => (i, v) :: indexed (i + 1) l

/-- `argmin`, mpi_tune.c:816-834. -/
def argmin (xs : List F) : Except Fault Nat :=
  match xs with
  | [] => .error .oob
  | v :: l => .ok (scanMin v 0 (indexed 1 l)).2

/-- `argmax`, mpi_tune.c:837-855. -/
def argmax (xs : List F) : Except Fault Nat :=
  match xs with
  | [] => .error .oob
  | v :: l => .ok (scanMax v 0 (indexed 1 l)).2

/-- `fabs(ar - ar_best)` for a row of acceptance rates. -/
def errRow {n : Nat} (best : F) (row : Fin n → F) : List F := List.ofFn (fun r => Arith.fabs (row r -. best))

/-- `calc_closest_ar_oneparm`, mpi_tune.c:770-787: distance and rank. -/
def closestOne {n : Nat} (best : F) (row : Fin n → F) : Except Fault (F × Nat) :=
  match errRow best row with
  | [] => .error .oob
  | v :: l => .ok (scanMin v 0 (indexed 0 (v :: l)))

/-- All cells of the error table in the order in which `calc_closest_ar` visits them, from row `i`. -/
def errCells {n : Nat} (best : F) (i : Nat) : List (Fin n → F) → List ((Nat × Nat) × F)
  | [] => []
  | row :: l => (indexed 0 (errRow best row)).map (fun c => ((i, c.1), c.2)) ++ errCells best (i + 1) l

/-- `calc_closest_ar`, mpi_tune.c:791-812: distance, parameter and rank. -/
def closestAll {n : Nat} (best : F) (ars : List (Fin n → F)) : Except Fault (F × Nat × Nat) :=
  match errCells best 0 ars with
  | [] => .error .oob
  | c :: l => .ok (scanMin c.2 (0, 0) (c :: l))

/-- `calc_SD_allParm`, mpi_tune.c:860-886, for one parameter. -/
def sdRow {n : Nat} (row : Fin n → F) : F :=
  let xs := List.ofFn row
  let mean := xs.foldl (· +. ·) (ofI 0) /. ofI n
  let var := xs.foldl (fun s x => s +. Arith.pow (x -. mean) (ofI 2)) (ofI 0)
  Arith.sqrt (var /. ofI n)

/-- `decide_sigma_to_change`, mpi_tune.c:669-767: `(iparm_change, irank_change)`, and the generator. -/
def decideSigma [Source F] {n : Nat} (cfg : Cfg F) (ars : List (Fin n → F)) (g : Rng) : Except Fault ((Int × Int) × Rng) := do
  let p ← argmax (ars.map sdRow)
  let row ← rd ars p
  let c1 ← closestOne cfg.arBest row
  let c2 ← closestAll cfg.arBest ars
  let u := drand48 (F := F) g
  if c1.1 <. cfg.arAcceptDiff then
    if c2.1 <. cfg.arAcceptDiff then
      if Arith.lit 1 2 <. u.1 then .ok ((p, c1.2), u.2) else .ok ((c2.2.1, c2.2.2), u.2)
    else .ok ((p, c1.2), g)
  else if c2.1 <. cfg.arAcceptDiff then .ok ((c2.2.1, c2.2.2), g)
  else if Arith.lit 1 2 <. u.1 then .ok ((-1, 0), u.2) else .ok ((-1, -1), u.2)

/-- `race_all_parm`, mpi_tune.c:642-666: rows of the grid and of the rates in step. -/
def raceAll {n : Nat} (best : F) : List (Fin n → F) → List (Fin n → F) → Except Fault (List F)
  | [], [] => .ok []
  | grow :: grid, arow :: ars => do
    let j ← argmin (errRow best arow)
    let j ← toIdx n j
    let rest ← raceAll best grid ars
    .ok (grow j :: rest)
  | _, _ => .error .oob

/-- `modify_sigma_prop_rankintune`, mpi_tune.c:597-638: the new widths of the rank being tuned. -/
def modifySigma {n : Nat} (cfg : Cfg F) (sig : List F) (grid ars : List (Fin n → F)) (ch : Int × Int) :
    Except Fault (List F) :=
  if 0 ≤ ch.1 then do
    let row ← rd grid ch.1.toNat
    let j ← toIdx n ch.2
    let _ ← rd sig ch.1.toNat
    .ok (sig.set ch.1.toNat (row j))
  else if 0 ≤ ch.2 then .ok (cfg.user.initGp cfg.initGpRatio)
  else raceAll cfg.arBest grid ars

end
end NiiC
