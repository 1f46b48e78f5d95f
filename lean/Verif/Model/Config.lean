import Verif.Mpi.Proc
import Verif.Model.Rand

/-!
# Configuration, user model, rank-local state, output lines
-/

namespace NiiC

/-- The user-supplied part of a model (`user_logll.c`, `user_prior.c`), used by the core only through these entry points.
Precondition of the whole model: these functions have no side effects other than the ones shown
(`init_parm_set` reseeds and advances `drand48`; the others do not draw). -/
structure User (F : Type) where
  /-- `logll_beta(chain, nline_data, data, beta)` -/
  logll : List F → Int → List F → F → F
  /-- `log_prior(chain)` -/
  logPrior : List F → F
  /-- `para_boundary(chain)`: the chain after the in-place update -/
  boundary : List F → List F
  /-- `init_parm_set(seed, chain)`: the chain, and the generator state afterwards -/
  initParm : Nat → List F × Rng
  /-- `init_gaussian_proposal(sigma, ratio)`: the widths -/
  initGp : F → List F

/-- Everything read from `input.ini` (readin.c:141-386), plus the allowed width ranges set by the user's prior code.
`N_parm` is a natural number here: the reader's `int` must not be negative (a precondition). -/
structure Cfg (F : Type) where
  nParm : Nat
  nIter : Int
  nStack : Int
  base : Int
  rand : Int
  nSwap : Int
  swapmode : Int
  nBegintune : Int
  nStoptune : Int
  tuneLadder : Int
  nStopTuneLadder : Int
  nIterInTune : Int
  saveBegin : Nat
  initSeed : Nat
  arLower : F
  arUpper : F
  arBest : F
  arAcceptDiff : F
  halfRatio : F
  jumpin : F
  initGpRatio : F
  scaleLadder : F
  zeroStretch : F
  betas : List F
  sigmaMin : List F
  sigmaMax : List F
  user : User F

/-- Messages, by MPI datatype: `MPI_INT`, `MPI_UNSIGNED`, `MPI_DOUBLE` arrays, `MPI_INT` arrays. -/
inductive Msg (F : Type) where
  | int (i : Int)
  | uns (u : Nat)
  | dbl (xs : List F)
  | ints (xs : List Int)

/-- Lines written by the program, and the creation of the output directory. Values are kept as numbers; their
text (`%.12e`, `%lf`, `%d`) is the subject of `Model/Print.lean`. -/
inductive Line (F : Type) where
  /-- `make_dir(results_dir)`, main.c:102 -/
  | mkdir
  /-- a line of `init.randseed`, mpi_init.c:231 -/
  | seed (rank seed : Nat)
  /-- the lines of `init.parm`, mpi_init.c:259-267 -/
  | initParm (rows : List (List F))
  /-- a line of the chain file of `rank`: parameters, log-posterior, iteration, accepted so far;
  mpi_init.c:296-311, mpi_batch.c:445-463 -/
  | row (rank : Nat) (x : List F) (lp : F) (acc accA : Nat)
  /-- a line of `gaussian_prop.chain<rank>`, mpi_flow.c:353-358 -/
  | sigma (rank : Nat) (s : List F)
  /-- a line of `Beta_Values_in_stack.dat`, mpi_stack.c:481-485 -/
  | betas (b : List F)
  /-- not written by the program: a record of the variables `i_accumul`, `i_accumul_accept`, `running_Beta_Values`,
  `*ptr_sigma_prop` that a rank holds when it starts a batch or a swap, so that theorems can speak about them -/
  | note (acc accA : Nat) (beta : List F) (sigma : List F)

/-- Variables that every rank has: generator, `sigma_gaussian_prop`, `running_Beta_Values`, `i_accumul`,
`i_accumul_accept`, `nline_data`, `data_NlineNdim` (main.c:64-203).
The two unsigned counters are natural numbers; they never exceed `N_iter` (properties C07 and C14), so they do not wrap.
`running_Beta_Values` is allocated with `n_ranks` cells (main.c:195), hence a function on ranks. -/
structure Loc (n : Nat) (F : Type) where
  g : Rng
  sigma : List F
  beta : Fin n → F
  acc : Nat
  accA : Nat
  nline : Int
  data : List F

/-- Tables that only root keeps: `transit_BetaParm_root`, `logpost_all_ranks`, `sigma_RanksParm_root`
(main.c:134-159; the other ranks free them and set the pointers to NULL). Each has `n_ranks` rows. -/
structure Tab (n : Nat) (F : Type) where
  x : Fin n → List F
  lp : Fin n → F
  sig : Fin n → List F

/-- All variables of one rank; `tab = none` is the NULL pointer of a non-root rank. -/
structure RSt (n : Nat) (F : Type) where
  loc : Loc n F
  tab : Option (Tab n F)

/-- The record of a rank's variables. -/
def Loc.note {n : Nat} {F : Type} (s : Loc n F) : Line F := .note s.acc s.accA (List.ofFn s.beta) s.sigma

/-- Programs of one rank. -/
abbrev P (n : Nat) (F : Type) (α : Type) := Proc n (Msg F) (Line F) α

/-- `rootsent_tag`, main.c:89. -/
def rootsent (k : Nat) : Tag := .user (100 + k)
/-- `slavereturn_tag`, main.c:90. -/
def slavereturn (k : Nat) : Tag := .user (200 + k)

/-- A local computation inside a rank program. -/
def Proc.lift {n : Nat} {V L α : Type} : Except Fault α → Proc n V L α
  | .ok a => .ret a
  | .error e => .fault e

@[simp] theorem Proc.lift_ok {n : Nat} {V L α : Type} (a : α) : (Proc.lift (.ok a) : Proc n V L α) = .ret a := rfl
@[simp] theorem Proc.lift_error {n : Nat} {V L α : Type} (e : Fault) :
    (Proc.lift (.error e) : Proc n V L α) = .fault e := rfl

/-- Checked array read. -/
def rd {α : Type} (xs : List α) (i : Nat) : Except Fault α :=
  match xs[i]? with
  | some v => .ok v
  | none => .error .oob

/-- Index of a table with `n` rows from a C `int`; out of bounds otherwise. -/
def toIdx (n : Nat) (i : Int) : Except Fault (Fin n) :=
  if h : 0 ≤ i ∧ i.toNat < n then .ok ⟨i.toNat, h.2⟩ else .error .oob

/-- Result of a signed `int` computation: undefined outside the range of `int`. -/
def i32 (i : Int) : Except Fault Int :=
  if -2147483648 ≤ i ∧ i ≤ 2147483647 then .ok i else .error .overflow

section
variable {n : Nat} {α : Type}

/-- A computation succeeded. -/
def okB : Except Fault α → Bool
  | .ok _ => true
  | .error _ => false

/-- The value of a computation that succeeded. -/
def okVal : (e : Except Fault α) → okB e = true → α
  | .ok a, _ => a

/-- All ranks do their local computation. -/
def allOk (f : Fin n → Except Fault α) : Except Fault (Fin n → α) :=
  if h : ∀ r, okB (f r) = true then .ok (fun r => okVal (f r) (h r)) else .error .oob

theorem okVal_eq {e : Except Fault α} (h : okB e = true) : e = .ok (okVal e h) := by
  cases e with
  | ok v => rfl
  | error e => cases h

theorem allOk_ok {f : Fin n → Except Fault α} {a : Fin n → α} : allOk f = .ok a ↔ ∀ r, f r = .ok (a r) := by
  unfold allOk
  split
  · rename_i h
    simp only [Except.ok.injEq]
    constructor
    · rintro rfl r
      exact okVal_eq (h r)
    · intro h'
      funext r
      exact Except.ok.inj ((okVal_eq (h r)).symm.trans (h' r))
  · rename_i h
    constructor
    · intro h'; cases h'
    · intro h'
      exact absurd (fun r => by rw [h' r]; rfl) h

end

end NiiC
