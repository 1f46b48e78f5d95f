import Verif.Model.Spmd
import Verif.Refine.Batch

/-!
# Usable configurations

What a user has to respect for the guarantees about whole runs. None of these conditions is checked by the program; where
one is broken, `Verif.Props` shows what goes wrong.
-/

namespace NiiC

variable {F : Type} [Arith F]

/-- The counter of iterations, which every stack advances by `nStack` before it is compared with `nIter`, stays an `int`. -/
def NoWrap (nIter nStack : Int) : Prop := ∀ k : Nat, k * nStack < nIter → (k + 1) * nStack ≤ 2147483647

theorem NoWrap.of_sum {nIter nStack : Int} (h : nIter + nStack ≤ 2147483647) : NoWrap nIter nStack := fun k hk => by
  have : ((k : Int) + 1) * nStack = k * nStack + nStack := by rw [Int.add_mul, Int.one_mul]
  omega

/-- What is asked of a configuration, a number of ranks and a data file, except for the number of iterations. -/
structure Runnable (n : Nat) (cfg : Cfg F) (file : DataFile F) : Prop where
  /-- at least two ranks, and their number is an `int` -/
  ranks : 2 ≤ n
  ranksInt : n ≤ 2147483647
  /-- one inverse temperature per rank -/
  betas : n ≤ cfg.betas.length
  /-- there is a parameter -/
  parm : 1 ≤ cfg.nParm
  /-- the user's functions keep the number of parameters -/
  user : cfg.user.Wf cfg.nParm
  /-- stacks are not empty -/
  stack : 1 ≤ cfg.nStack
  /-- the random part of a batch is smaller than its base -/
  rand : 0 ≤ cfg.rand
  base : cfg.rand < cfg.base
  /-- no overflow of `int` -/
  randInt : 2 * cfg.rand ≤ 2147483647
  stackInt : cfg.nStack + cfg.base + cfg.rand ≤ 2147483647
  /-- the swap mode exists -/
  mode : cfg.swapmode = 0 ∨ cfg.swapmode = 1
  /-- tuning runs are not empty -/
  inTune : 1 ≤ cfg.nIterInTune
  /-- a range of widths for every parameter -/
  sigmaMin : cfg.nParm ≤ cfg.sigmaMin.length
  sigmaMax : cfg.nParm ≤ cfg.sigmaMax.length
  /-- the data file has `ndim` cells on each of its lines -/
  cells : ∃ data, file.cells = .ok data ∧ (data.length : Int) = file.nlines * file.ndim ∧ data.length ≤ 2147483647

/-- A configuration, a number of ranks and a data file with which the program is meant to be run. -/
structure Valid (n : Nat) (cfg : Cfg F) (file : DataFile F) : Prop extends Runnable n cfg file where
  /-- no overflow of the counter of iterations -/
  iterInt : NoWrap cfg.nIter cfg.nStack

end NiiC
