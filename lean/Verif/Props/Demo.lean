import Verif.Spec.Valid
import Verif.Num.Real
import Verif.Num.XReal

/-!
# A concrete model and configuration, used to show that hypotheses of theorems can be met

Two parameters with a Gaussian likelihood in the box [-5, 5]², three ranks, 1000 iterations in stacks of 300, batches of
40 to 60 iterations, two swaps after each batch, widths tuned between iterations 300 and 900, ladder tuned until 600.
-/

namespace NiiC

/-- A two-parameter Gaussian model in a box. -/
noncomputable def demoUser : User ℝ where
  logll x _ _ b := b * -(x.map (fun v => v * v)).sum
  logPrior _ := -Real.log 100
  boundary x := x.map (fun v => max (-5) (min 5 v))
  initParm s :=
    let a := r8UnifAb (F := ℝ) (-5) 5 (srand48 ℝ s)
    let b := r8UnifAb (F := ℝ) (-5) 5 a.2
    ([a.1, b.1], b.2)
  initGp r := [10 * r, 10 * r]

/-- A configuration for it. -/
noncomputable def demoCfg : Cfg ℝ where
  nParm := 2
  nIter := 1000
  nStack := 300
  base := 50
  rand := 10
  nSwap := 2
  swapmode := 0
  nBegintune := 200
  nStoptune := 950
  tuneLadder := 1
  nStopTuneLadder := 700
  nIterInTune := 100
  saveBegin := 500
  initSeed := 20
  arLower := 1 / 10
  arUpper := 6 / 10
  arBest := 23 / 100
  arAcceptDiff := 1 / 10
  halfRatio := 10
  jumpin := 10
  initGpRatio := 1 / 10
  scaleLadder := 9 / 10
  zeroStretch := 3 / 10
  betas := [1 / 10, 1 / 2, 1]
  sigmaMin := [1 / 1000, 1 / 1000]
  sigmaMax := [5, 5]
  user := demoUser

/-- A data file with two rows of two numbers. -/
noncomputable def demoFile : DataFile ℝ where
  nlines := 2
  ndim := 2
  cells := .ok [1, 2, 3, 4]

theorem demoUser_wf : demoUser.Wf 2 where
  boundary x h := by simpa [demoUser] using h
  initParm s := rfl
  initGp r := rfl

theorem demo_valid : Valid 3 demoCfg demoFile where
  ranks := by decide
  ranksInt := by decide
  betas := by simp [demoCfg]
  parm := by simp [demoCfg]
  user := demoUser_wf
  stack := by simp [demoCfg]
  rand := by simp [demoCfg]
  base := by simp [demoCfg]
  randInt := by simp [demoCfg]
  stackInt := by simp [demoCfg]
  iterInt := .of_sum (by simp [demoCfg])
  mode := by simp [demoCfg]
  inTune := by simp [demoCfg]
  sigmaMin := by simp [demoCfg]
  sigmaMax := by simp [demoCfg]
  cells := ⟨[1, 2, 3, 4], rfl, by simp [demoFile], by simp⟩

open Dbl in
/-- A one-parameter model in the box [-5, 5] over numbers with NaN and infinities. -/
noncomputable def demoUserX : User XReal where
  logll x _ _ b := b *. (match x with | v :: _ => Arith.neg (v *. v) | [] => ofI 0)
  logPrior _ := ofI 0
  boundary x := x.map (fun v => Arith.fmax (fin (-5)) (Arith.fmin (fin 5) v))
  initParm s := let a := r8UnifAb (F := XReal) (fin (-5)) (fin 5) (srand48 XReal s); ([a.1], a.2)
  initGp r := [fin 10 *. r]

open Dbl in
/-- A configuration for it. -/
noncomputable def demoCfgX : Cfg XReal where
  nParm := 1
  nIter := 1000
  nStack := 300
  base := 50
  rand := 10
  nSwap := 2
  swapmode := 0
  nBegintune := 200
  nStoptune := 950
  tuneLadder := 1
  nStopTuneLadder := 700
  nIterInTune := 100
  saveBegin := 500
  initSeed := 20
  arLower := fin (1 / 10)
  arUpper := fin (6 / 10)
  arBest := fin (23 / 100)
  arAcceptDiff := fin (1 / 10)
  halfRatio := fin 10
  jumpin := fin 10
  initGpRatio := fin (1 / 10)
  scaleLadder := fin (9 / 10)
  zeroStretch := fin (3 / 10)
  betas := [fin (1 / 10), fin (1 / 2), fin 1]
  sigmaMin := [fin (1 / 1000)]
  sigmaMax := [fin 5]
  user := demoUserX

/-- An empty data file. -/
def demoFileX : DataFile XReal where
  nlines := 0
  ndim := 1
  cells := .ok []

theorem demoX_valid : Valid 3 demoCfgX demoFileX where
  ranks := by decide
  ranksInt := by decide
  betas := Nat.le_refl 3
  parm := by simp [demoCfgX]
  user := { boundary := fun x h => by simpa [demoCfgX, demoUserX] using h
            initParm := fun s => rfl
            initGp := fun r => rfl }
  stack := by simp [demoCfgX]
  rand := by simp [demoCfgX]
  base := by simp [demoCfgX]
  randInt := by simp [demoCfgX]
  stackInt := by simp [demoCfgX]
  iterInt := .of_sum (by simp [demoCfgX])
  mode := by simp [demoCfgX]
  inTune := by simp [demoCfgX]
  sigmaMin := Nat.le_refl 1
  sigmaMax := Nat.le_refl 1
  cells := ⟨[], rfl, by simp [demoFileX], by simp⟩

end NiiC
