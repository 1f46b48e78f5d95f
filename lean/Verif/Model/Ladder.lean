import Verif.Model.Config
import Mathlib.Logic.Function.Basic

/-!
# Ladder tuning: `tune_ladder_use_3_neighb`, `/repo/mpi_ladder.c:102-275`

Arrays are functions on indices. All indices used by the code are in range: inside the loop `1 ≤ i ≤ n_ranks-2`, so
`n_ranks ≥ 3` and `i-1`, `i+1`, `1`, `2`, `n_ranks-3`, `n_ranks-2`, `n_ranks-1` are all below `n_ranks`
(`tuneLadderT_congr` and `tuneLadderT_frame` in `Verif.Props.Ladder` say so for reads and writes).
-/

namespace NiiC

section
variable {F : Type} [Arith F]

/-- `T_ladder[i] = 1/running_Beta_Values[i]`, mpi_ladder.c:115. -/
def invB (b : Nat → F) (i : Nat) : F := ofI 1 /. b i

/-- The geometric reset, mpi_ladder.c:188-194 and 234-241. -/
def ladderReset (b : Nat → F) (T : Nat → F) (i : Nat) : F :=
  T (i - 1) /. Arith.pow (invB b (i - 1) /. invB b (i + 1)) (Arith.lit 1 2)

/-- New value of `T_ladder[i]` from the two neighbouring swap rates, mpi_ladder.c:140-242. -/
def ladderMain (scale zs : F) (b ar T : Nat → F) (i : Nat) : F :=
  if ofI 0 <. (ar (i - 1) +. ar i) then
    let d := (ar i -. ar (i - 1)) /. (ar i +. ar (i - 1))
    if ofI 0 <. d then
      let diff := invB b (i - 1) -. invB b i
      let inc := if d ==. ofI 1 then diff *. (ofI 1 -. zs) else diff *. d *. scale
      Arith.fmin (T i +. inc) (invB b (i - 1) *. (ofI 1 -. Arith.lit 1 100))
    else if d ==. ofI 0 then ladderReset b T i
    else
      let diff := invB b i -. invB b (i + 1)
      let dec := if d ==. ofI (-1) then diff *. (ofI 1 -. zs) else diff *. Arith.neg d *. scale
      Arith.fmax (T i -. dec) (invB b (i + 1) *. (ofI 1 +. Arith.lit 1 100))
  else ladderReset b T i

/-- The adjustment of `T_ladder[1]`, mpi_ladder.c:247-250. -/
def ladderLow (zs : F) (ar T : Nat → F) : Nat → F :=
  if ar 0 <. Arith.lit 1 100 then Function.update T 1 (T 0 -. (T 0 -. T 2) *. zs) else T

/-- The adjustment of `T_ladder[n_ranks-2]`, mpi_ladder.c:252-255. -/
def ladderHigh (n : Nat) (zs : F) (ar T : Nat → F) : Nat → F :=
  if ar (n - 2) <. Arith.lit 1 100 then
    Function.update T (n - 2) (T (n - 3) -. (T (n - 3) -. T (n - 1)) *. (ofI 1 -. zs))
  else T

/-- One round of the loop, mpi_ladder.c:139-256. -/
def ladderStep (n : Nat) (scale zs : F) (b ar T : Nat → F) (i : Nat) : Nat → F :=
  ladderHigh n zs ar (ladderLow zs ar (Function.update T i (ladderMain scale zs b ar T i)))

/-- The loop from `i` with `k` rounds to go. -/
def ladderLoop (n : Nat) (scale zs : F) (b ar : Nat → F) : (k i : Nat) → (Nat → F) → (Nat → F)
  | 0, _, T => T
  | k + 1, i, T => ladderLoop n scale zs b ar k (i + 1) (ladderStep n scale zs b ar T i)

/-- `swap_ar_i_ip1[i]`, mpi_ladder.c:124. -/
def swapRate (nsw npr : Nat → F) (i : Nat) : F := nsw i /. npr i

/-- `T_ladder` after the loop for `i = 1 .. n_ranks-2`, mpi_ladder.c:113-257. -/
def tuneLadderT (n : Nat) (scale zs : F) (nsw npr b : Nat → F) : Nat → F :=
  ladderLoop n scale zs b (swapRate nsw npr) (n - 2) 1 (invB b)

/-- A table with `n` cells as a function on indices. Cells outside are never used. -/
def ext {n : Nat} (f : Fin n → F) (i : Nat) : F := if h : i < n then f ⟨i, h⟩ else ofI 0

/-- `tune_ladder_use_3_neighb`: the new `running_Beta_Values`, mpi_ladder.c:263-266. -/
def tuneLadder {n : Nat} (scale zs : F) (nsw npr beta : Fin n → F) (r : Fin n) : F :=
  if 1 ≤ r.val ∧ r.val < n - 1 then
    ofI 1 /. tuneLadderT n scale zs (ext nsw) (ext npr) (ext beta) r.val
  else beta r

end
end NiiC
