import Verif.Model.Config

/-!
# Specification: random-walk Metropolis–Hastings

The textbook recursion on one chain, with no arrays and no buffers. Independent of `Verif.Model.Batch`.
-/

namespace NiiC.Spec

variable {F : Type} [Arith F]

/-- One chain: point, log-posterior, iterations, accepted proposals, generator. -/
structure Ch (F : Type) where
  x : List F
  lp : F
  acc : Nat
  accA : Nat
  g : Rng

/-- Gaussian random-walk proposal: every parameter moves by a standard normal deviate times its width. -/
def propose [Source F] : List F → List F → Rng → List F × Rng
  | x :: xs, s :: ss, g =>
    let z := r8Normal01 (F := F) g
    let rest := propose xs ss z.2
    ((x +. z.1 *. s) :: rest.1, rest.2)
  | _, _, g => ([], g)

/-- Metropolis test for a symmetric proposal: accept if the log-posterior rises, otherwise with probability
`exp` of the difference. -/
def accept [Source F] (new old : F) (g : Rng) : Bool × Rng :=
  if Arith.log (ofI 1 /. ofI 1) <. (new -. old) then (true, g)
  else
    let u := drand48 (F := F) g
    (u.1 <. (Arith.exp (new -. old) *. ofI 1), u.2)

/-- The target of a model at inverse temperature `beta`. -/
def target (u : User F) (nline : Int) (data : List F) (beta : F) (x : List F) : F :=
  u.logll x nline data beta +. u.logPrior x

/-- One iteration: propose, bring back inside the box, accept or stay. -/
def mhStep [Source F] (u : User F) (sigma : List F) (nline : Int) (data : List F) (beta : F) (c : Ch F) : Ch F :=
  let p := propose c.x sigma c.g
  let y := u.boundary p.1
  let ly := target u nline data beta y
  let a := accept ly c.lp p.2
  if a.1 then { x := y, lp := ly, acc := c.acc + 1, accA := c.accA + 1, g := a.2 }
  else { c with acc := c.acc + 1, g := a.2 }

/-- The states after each of the next `k` iterations. -/
def mhRun [Source F] (u : User F) (sigma : List F) (nline : Int) (data : List F) (beta : F) : (k : Nat) → Ch F → List (Ch F)
  | 0, _ => []
  | k + 1, c => mhStep u sigma nline data beta c :: mhRun u sigma nline data beta k (mhStep u sigma nline data beta c)

/-- The state after `k` iterations. -/
def mhIter [Source F] (u : User F) (sigma : List F) (nline : Int) (data : List F) (beta : F) : (k : Nat) → Ch F → Ch F
  | 0, c => c
  | k + 1, c => mhIter u sigma nline data beta k (mhStep u sigma nline data beta c)

/-- The saved form of a state of the chain of `rank`. -/
def line (rank : Nat) (c : Ch F) : Line F := .row rank c.x c.lp c.acc c.accA

end NiiC.Spec
