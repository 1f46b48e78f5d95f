import Mathlib.Data.Countable.Basic
import Verif.Refine.Streamed
import Verif.Prob.Clean
import Verif.Props.Whole
import Verif.Props.Run

/-!
# The tuning part of a run as a function of the numbers it draws

The sequential model with tuning of the widths and of the ladder, in exact arithmetic, with every call of `drand48` replaced by reading the next number of a
stream. The state is the table of the chains (points and stored log-posteriors) and a history: the outcomes of all tuning steps so far, from which the
widths and the ladder follow. The set of histories is countable. `pre_stream` shows that the program computes this function. Helpers for C83.
-/

set_option linter.unusedSectionVars false
set_option linter.unusedSimpArgs false

namespace NiiC

open MeasureTheory Set

/-! ## Histories -/

/-- Swap attempts of a stack, the last one first: the first chain of the pair, and whether the swap was made. -/
abbrev Tries (n : Nat) := List (Fin n × Bool)

/-- Numbers of accepted proposals in the tuning runs: one row for each parameter, one number for each rank. -/
abbrev Counts (n : Nat) := List (Fin n → Nat)

/-- The outcome of tuning the widths of a chain, or of tuning the ladder. -/
abbrev Outcome (n : Nat) := (Fin n × Counts n × (Int × Int)) ⊕ Tries n

/-- The outcomes so far, the last one first. -/
abbrev Hist (n : Nat) := List (Outcome n)

/-- Lists are discrete data here. -/
instance listSpace (α : Type) : MeasurableSpace (List α) := ⊤

instance (α : Type) : DiscreteMeasurableSpace (List α) := ⟨fun _ => trivial⟩

section
variable {n : Nat}

/-- The tallies after the attempts. -/
noncomputable def tallyOf : Tries n → Tally n ℝ
  | [] => Tally.zero
  | (i, did) :: l => (tallyOf l).add i did

/-- Acceptance rates from counts. -/
noncomputable def ratesOf (cfg : Cfg ℝ) (c : Counts n) : List (Fin n → ℝ) := c.map fun row r => ofI (row r : Int) /. ofI cfg.nIterInTune

/-- The trial widths, mpi_tune.c:572-594. -/
noncomputable def gridOf (n : Nat) (cfg : Cfg ℝ) (sig : List ℝ) : List (Fin n → ℝ) :=
  match genAllTune n cfg sig cfg.nParm 0 with
  | .ok g => g
  | .error _ => []

/-- The widths of a chain after it was tuned with the given outcome, mpi_tune.c:597-638. -/
noncomputable def retuned (cfg : Cfg ℝ) (sig : List ℝ) (c : Counts n) (ch : Int × Int) : List ℝ :=
  match modifySigma cfg sig (gridOf n cfg sig) (ratesOf cfg c) ch with
  | .ok sg => sg
  | .error _ => sig

/-- The widths and the ladder after the outcomes. -/
noncomputable def paramsOf (cfg : Cfg ℝ) (sig0 : Fin n → List ℝ) (beta0 : Fin n → ℝ) : Hist n → (Fin n → List ℝ) × (Fin n → ℝ)
  | [] => (sig0, beta0)
  | .inl (rk, c, ch) :: h => (Function.update (paramsOf cfg sig0 beta0 h).1 rk (retuned cfg ((paramsOf cfg sig0 beta0 h).1 rk) c ch), (paramsOf cfg sig0 beta0 h).2)
  | .inr l :: h => ((paramsOf cfg sig0 beta0 h).1, tuneLadder cfg.scaleLadder cfg.zeroStretch (tallyOf l).nsw (tallyOf l).npr (paramsOf cfg sig0 beta0 h).2)

end

/-- A list as a vector. -/
noncomputable def vec (d : Nat) (l : List ℝ) (i : Fin d) : ℝ := l[i.val]?.getD 0

theorem vec_ofFn {d : Nat} (l : List ℝ) (h : l.length = d) : List.ofFn (vec d l) = l := by
  subst h
  refine List.ext_getElem (by simp) fun i h1 h2 => ?_
  simp [vec, h2]

/-! ## The functions -/

/-- A point and its stored log-posterior. -/
abbrev Pt (d : Nat) := (Fin d → ℝ) × ℝ

section
variable {n d : Nat} (T : Target d) (lo hi : Fin d → ℝ)

/-- The proposal made with the draws `w`. -/
noncomputable def proposalT (s : Fin d → ℝ) (x : Fin d → ℝ) (w : Fin d → ℝ × ℝ) (i : Fin d) : ℝ :=
  bounce (lo i) (hi i) (x i +. boxMuller piLit (w i).1 (w i).2 *. s i)

/-- One iteration of a chain with its count of accepted proposals, mpi_batch.c:138-293. -/
noncomputable def chainT (s : Fin d → ℝ) (b : ℝ) (p : (Pt d × Nat) × Draws) : (Pt d × Nat) × Draws :=
  let w := pairsS d p.2
  let y := proposalT lo hi s p.1.1.1 w.1
  let a := acceptS (T.lp b y) p.1.1.2 w.2
  (if a.1 then ((y, T.lp b y), p.1.2 + 1) else p.1, a.2)

/-- One iteration of every chain. -/
noncomputable def roundT (s : Fin n → Fin d → ℝ) (b : Fin n → ℝ) (p : (Fin n → Pt d × Nat) × (Fin n → Draws)) : (Fin n → Pt d × Nat) × (Fin n → Draws) :=
  (fun r => (chainT T lo hi (s r) (b r) (p.1 r, p.2 r)).1, fun r => (chainT T lo hi (s r) (b r) (p.1 r, p.2 r)).2)

/-- The table after the swap of two chains, mpi_stack.c:313-323. -/
noncomputable def swapped (b : Fin n → ℝ) (i j : Fin n) (t : Fin n → Pt d × Nat) (r : Fin n) : Pt d × Nat :=
  (if r = j then ((t i).1.1, T.lp (b j) (t i).1.1) else if r = i then ((t j).1.1, T.lp (b i) (t j).1.1) else (t r).1, (t r).2)

/-- The table and the attempts after a decision, mpi_stack.c:183-184 and 313-323. -/
noncomputable def decided (b : Fin n → ℝ) (count : Bool) (i j : Fin n) (did : Bool) (p : (Fin n → Pt d × Nat) × Tries n) : (Fin n → Pt d × Nat) × Tries n :=
  (if did then swapped T b i j p.1 else p.1, if count then (i, did) :: p.2 else p.2)

/-- The judgement with the stored log-posteriors, mpi_stack.c:296-323. -/
noncomputable def judgeT (b : Fin n → ℝ) (count : Bool) (i j : Fin n) (p : ((Fin n → Pt d × Nat) × Tries n) × Draws) : ((Fin n → Pt d × Nat) × Tries n) × Draws :=
  let δ := T.lp (b j) (p.1.1 i).1.1 +. T.lp (b i) (p.1.1 j).1.1 -. (p.1.1 i).1.2 -. (p.1.1 j).1.2
  if ofI 0 <. δ then (decided T b count i j true p.1, p.2)
  else (decided T b count i j ((pop p.2).1 <. Arith.exp δ) p.1, (pop p.2).2)

/-- The judgement for indices given as numbers. -/
noncomputable def judgeIT (b : Fin n → ℝ) (count : Bool) (ij : Int × Int) (p : ((Fin n → Pt d × Nat) × Tries n) × Draws) : ((Fin n → Pt d × Nat) × Tries n) × Draws :=
  match toIdx n ij.1, toIdx n ij.2 with
  | .ok i, .ok j => judgeT T b count i j p
  | _, _ => p

/-- One swap attempt with the stream of the root. -/
noncomputable def swapT (b : Fin n → ℝ) (count : Bool) (mode : Int) (p : ((Fin n → Pt d × Nat) × Tries n) × Draws) : ((Fin n → Pt d × Nat) × Tries n) × Draws :=
  judgeIT T b count (pickS n mode p.2).1 (p.1, (pickS n mode p.2).2)

/-- One iteration of every chain, next to the attempts. -/
noncomputable def roundC (s : Fin n → Fin d → ℝ) (b : Fin n → ℝ) (p : ((Fin n → Pt d × Nat) × Tries n) × (Fin n → Draws)) :
    ((Fin n → Pt d × Nat) × Tries n) × (Fin n → Draws) :=
  (((roundT T lo hi s b (p.1.1, p.2)).1, p.1.2), (roundT T lo hi s b (p.1.1, p.2)).2)

/-- A batch and the swaps after it. -/
noncomputable def legT (cfg : Cfg ℝ) (root : Fin n) (s : Fin n → Fin d → ℝ) (b : Fin n → ℝ) (k : Int) (p : ((Fin n → Pt d × Nat) × Tries n) × (Fin n → Draws)) :
    ((Fin n → Pt d × Nat) × Tries n) × (Fin n → Draws) :=
  (onRoot root (swapT T b (decide (0 < cfg.tuneLadder)) cfg.swapmode))^[cfg.nSwap.toNat] ((roundC T lo hi s b)^[k.toNat] p)

/-- A stack, mpi_stack.c:100-198. -/
noncomputable def stackT (cfg : Cfg ℝ) (root : Fin n) (s : Fin n → Fin d → ℝ) (b : Fin n → ℝ) (nStack : Int) :
    (fuel : Nat) → (i : Int) → ((Fin n → Pt d × Nat) × Tries n) × (Fin n → Draws) → ((Fin n → Pt d × Nat) × Tries n) × (Fin n → Draws)
  | 0, _, p => p
  | fuel + 1, i, p =>
    if i < nStack then
      let k := i4UnifAbVal (-cfg.rand) cfg.rand (pop (p.2 root)).1
      let m := sizeOf' cfg nStack i k
      stackT cfg root s b nStack fuel (i + m) (legT T lo hi cfg root s b m (p.1, Function.update p.2 root (pop (p.2 root)).2))
    else p

variable (sig0 : Fin n → List ℝ) (beta0 : Fin n → ℝ)

/-- A stack, then the tuning of the ladder; `t` iterations are done afterwards. Result: the table, the history, and the accepted proposals of the stack. mpi_stack.c:53-216. -/
noncomputable def stackZ (cfg : Cfg ℝ) (root : Fin n) (nStack t : Int) (p : ((Fin n → Pt d) × Hist n) × (Fin n → Draws)) :
    (((Fin n → Pt d) × Hist n) × (Fin n → Nat)) × (Fin n → Draws) :=
  let q := stackT T lo hi cfg root (fun r => vec d ((paramsOf cfg sig0 beta0 p.1.2).1 r)) (paramsOf cfg sig0 beta0 p.1.2).2 nStack nStack.toNat 0
    ((fun r => (p.1.1 r, 0), []), p.2)
  (((fun r => (q.1.1 r).1, if t < cfg.nStopTuneLadder ∧ 0 < cfg.tuneLadder then .inr q.1.2 :: p.1.2 else p.1.2), fun r => (q.1.1 r).2), q.2)

/-- The tuning runs for one parameter, mpi_tune.c:112-300: all ranks start from the point of chain `rk`, rank `r` with the widths `s r`. -/
noncomputable def trialT (cfg : Cfg ℝ) (rk : Fin n) (s : Fin n → Fin d → ℝ) (b : ℝ) (p : (Fin n → Pt d) × (Fin n → Draws)) : (Fin n → Nat) × (Fin n → Draws) :=
  (fun r => ((chainT T lo hi (s r) b)^[cfg.nIterInTune.toNat] ((p.1 rk, 0), p.2 r)).1.2,
   fun r => ((chainT T lo hi (s r) b)^[cfg.nIterInTune.toNat] ((p.1 rk, 0), p.2 r)).2)

/-- The widths of rank `r` in the tuning runs for parameter `j`, mpi_tune.c:496-526. -/
noncomputable def trialWidths (d : Nat) (sig : List ℝ) (grid : List (Fin n → ℝ)) (j : Nat) (r : Fin n) : Fin d → ℝ :=
  match trialRows sig grid j with
  | .ok rows => vec d (rows r)
  | .error _ => fun _ => 0

/-- The tuning runs for all parameters. -/
noncomputable def trialsT (cfg : Cfg ℝ) (rk : Fin n) (sig : List ℝ) (grid : List (Fin n → ℝ)) (b : ℝ) :
    (k j : Nat) → ((Fin n → Pt d) × Counts n) × (Fin n → Draws) → ((Fin n → Pt d) × Counts n) × (Fin n → Draws)
  | 0, _, p => p
  | k + 1, j, p =>
    trialsT cfg rk sig grid b k (j + 1) ((p.1.1, p.1.2 ++ [(trialT T lo hi cfg rk (trialWidths d sig grid j) b (p.1.1, p.2)).1]),
      (trialT T lo hi cfg rk (trialWidths d sig grid j) b (p.1.1, p.2)).2)

/-- The decision rule, mpi_tune.c:669-767, without its draw: one choice, or two of which one is drawn. -/
noncomputable def decideCore (cfg : Cfg ℝ) (ars : List (Fin n → ℝ)) : Except Fault ((Int × Int) ⊕ ((Int × Int) × (Int × Int))) := do
  let p ← argmax (ars.map sdRow)
  let row ← rd ars p
  let c1 ← closestOne cfg.arBest row
  let c2 ← closestAll cfg.arBest ars
  if c1.1 <. cfg.arAcceptDiff then
    if c2.1 <. cfg.arAcceptDiff then .ok (.inr (((p : Int), (c1.2 : Int)), ((c2.2.1 : Int), (c2.2.2 : Int)))) else .ok (.inl (p, c1.2))
  else if c2.1 <. cfg.arAcceptDiff then .ok (.inl (c2.2.1, c2.2.2))
  else .ok (.inr ((-1, 0), (-1, -1)))

/-- The decision with the stream of the root. -/
noncomputable def decideT (cfg : Cfg ℝ) (ars : List (Fin n → ℝ)) (ω : Draws) : (Int × Int) × Draws :=
  match decideCore cfg ars with
  | .ok (.inl c) => (c, ω)
  | .ok (.inr (a, b)) => (if Arith.lit 1 2 <. (pop ω).1 then a else b, (pop ω).2)
  | .error _ => ((0, 0), ω)

/-- Tune the widths of chain `rk`, mpi_tune.c:112-470. -/
noncomputable def tuneRankT (cfg : Cfg ℝ) (root rk : Fin n) (p : ((Fin n → Pt d) × Hist n) × (Fin n → Draws)) : ((Fin n → Pt d) × Hist n) × (Fin n → Draws) :=
  let sig := (paramsOf cfg sig0 beta0 p.1.2).1 rk
  let q := trialsT T lo hi cfg rk sig (gridOf n cfg sig) ((paramsOf cfg sig0 beta0 p.1.2).2 rk) cfg.nParm 0 ((p.1.1, []), p.2)
  let c := onRoot root (fun z : Counts n × Draws => decideT cfg (ratesOf cfg z.1) z.2) (q.1.2, q.2)
  ((p.1.1, .inl (rk, q.1.2, c.1) :: p.1.2), c.2)

/-- Tune the flagged chains. -/
noncomputable def tuneRanksT (cfg : Cfg ℝ) (root : Fin n) (fl : Fin n → Int) :
    List (Fin n) → ((Fin n → Pt d) × Hist n) × (Fin n → Draws) → ((Fin n → Pt d) × Hist n) × (Fin n → Draws)
  | [], p => p
  | rk :: l, p => tuneRanksT cfg root fl l (if fl rk = 1 then tuneRankT T lo hi sig0 beta0 cfg root rk p else p)

/-- The flags of the chains from the accepted proposals of the stack, mpi_flow.c:93-117. -/
noncomputable def flagsOf (cfg : Cfg ℝ) (nStack : Int) (a : Fin n → Nat) (r : Fin n) : Int := tuneFlag cfg (stackRate ℝ 0 (a r) nStack)

/-- A stack and the tuning after it. -/
noncomputable def roundZ (cfg : Cfg ℝ) (root : Fin n) (i : Int) (p : ((Fin n → Pt d) × Hist n) × (Fin n → Draws)) : ((Fin n → Pt d) × Hist n) × (Fin n → Draws) :=
  let q := stackZ T lo hi sig0 beta0 cfg root cfg.nStack (i + cfg.nStack) p
  if inTuneWindow cfg (i + cfg.nStack) then tuneRanksT T lo hi sig0 beta0 cfg root (flagsOf cfg cfg.nStack q.1.2) (List.finRange n) (q.1.1, q.2) else (q.1.1, q.2)

/-- The first `k` stacks from iteration `i` on, mpi_flow.c:58-135. -/
noncomputable def preT (cfg : Cfg ℝ) (root : Fin n) : (k : Nat) → (i : Int) → ((Fin n → Pt d) × Hist n) × (Fin n → Draws) → ((Fin n → Pt d) × Hist n) × (Fin n → Draws)
  | 0, _, p => p
  | k + 1, i, p => preT cfg root k (i + cfg.nStack) (roundZ T lo hi sig0 beta0 cfg root i p)

end

/-! ## The program computes them -/

section
variable [Source ℝ] {n d : Nat} {cfg : Cfg ℝ} {S : Setting n d} {nline : Int} {data : List ℝ}

/-- A chain of the program and one of the streamed program; `a0` proposals were accepted before. -/
structure SameCh (a0 : Nat) (c : Spec.Ch ℝ) (p : (Pt d × Nat) × Draws) : Prop where
  x : c.x = List.ofFn p.1.1.1
  lp : c.lp = p.1.1.2
  accA : c.accA = a0 + p.1.2
  g : streamOf c.g = p.2

theorem SameCh.step (hf : Fits cfg S nline data) {a0 : Nat} (s : Fin d → ℝ) (b : ℝ) {c : Spec.Ch ℝ} {p : (Pt d × Nat) × Draws} (h : SameCh a0 c p) :
    SameCh a0 (Spec.mhStep cfg.user (List.ofFn s) nline data b c) (chainT S.T S.lo S.hi s b p) := by
  obtain ⟨h1, h2⟩ := propose_stream d p.1.1.1 s c.g
  have hy : cfg.user.boundary (Spec.propose c.x (List.ofFn s) c.g).1 = List.ofFn (proposalT S.lo S.hi s p.1.1.1 (pairsS d (streamOf c.g)).1) := by
    rw [h.x, h1, hf.box, paraBoundary_ofFn]
    rfl
  have hg : (Spec.propose c.x (List.ofFn s) c.g).2 = (Spec.propose (List.ofFn p.1.1.1) (List.ofFn s) c.g).2 := by rw [h.x]
  have ha := accept_stream (S.T.lp b (proposalT S.lo S.hi s p.1.1.1 (pairsS d p.2).1)) p.1.1.2 (Spec.propose c.x (List.ofFn s) c.g).2
  rw [hg, h2, h.g, ← hg] at ha
  rw [h.g] at hy
  unfold Spec.mhStep chainT
  simp only [hy, hf.target, h.lp, ha]
  by_cases hA : (Spec.accept (S.T.lp b (proposalT S.lo S.hi s p.1.1.1 (pairsS d p.2).1)) p.1.1.2 (Spec.propose c.x (List.ofFn s) c.g).2).1 = true
  · simp only [hA, if_true]
    exact ⟨rfl, rfl, by show c.accA + 1 = _; rw [h.accA]; rfl, rfl⟩
  · simp only [hA, Bool.false_eq_true, if_false]
    exact ⟨h.x, rfl, h.accA, rfl⟩

theorem SameCh.iter (hf : Fits cfg S nline data) {a0 : Nat} (s : Fin d → ℝ) (b : ℝ) : ∀ (k : Nat) {c : Spec.Ch ℝ} {p : (Pt d × Nat) × Draws}, SameCh a0 c p →
    SameCh a0 (Spec.mhIter cfg.user (List.ofFn s) nline data b k c) ((chainT S.T S.lo S.hi s b)^[k] p)
  | 0, _, _, h => h
  | k + 1, _, _, h => SameCh.iter hf s b k (h.step hf s b)

theorem roundT_iter (T : Target d) (lo hi : Fin d → ℝ) (s : Fin n → Fin d → ℝ) (b : Fin n → ℝ) : ∀ (k : Nat) (p : (Fin n → Pt d × Nat) × (Fin n → Draws)),
    (roundT T lo hi s b)^[k] p = (fun r => ((chainT T lo hi (s r) (b r))^[k] (p.1 r, p.2 r)).1, fun r => ((chainT T lo hi (s r) (b r))^[k] (p.1 r, p.2 r)).2) := by
  intro k
  induction k with
  | zero => intro p; rfl
  | succ k ih => intro p; rw [Function.iterate_succ_apply, ih]; rfl

theorem roundC_iter (T : Target d) (lo hi : Fin d → ℝ) (s : Fin n → Fin d → ℝ) (b : Fin n → ℝ) : ∀ (k : Nat) (p : ((Fin n → Pt d × Nat) × Tries n) × (Fin n → Draws)),
    (roundC T lo hi s b)^[k] p = ((((roundT T lo hi s b)^[k] (p.1.1, p.2)).1, p.1.2), ((roundT T lo hi s b)^[k] (p.1.1, p.2)).2) := by
  intro k
  induction k with
  | zero => intro p; rfl
  | succ k ih => intro p; rw [Function.iterate_succ_apply, ih]; rfl

/-- The state of the run in a stack shows the table and the streams; `a0` are the accepted proposals before the stack. -/
structure ShowsC (sig : Fin n → List ℝ) (beta : Fin n → ℝ) (nline : Int) (data : List ℝ) (a0 : Fin n → Nat) (st : G n ℝ)
    (t : Fin n → Pt d × Nat) (ω : Fin n → Draws) : Prop where
  x : ∀ r, st.x r = List.ofFn (t r).1.1
  lp : ∀ r, st.lp r = (t r).1.2
  accA : ∀ r, st.accA r = a0 r + (t r).2
  cur : st.cur = sig
  sig : st.sig = sig
  beta : st.beta = beta
  g : ∀ r, streamOf (st.g r) = ω r
  nline : st.nline = nline
  data : st.data = data

variable {sig : Fin n → List ℝ} {beta : Fin n → ℝ} {a0 : Fin n → Nat}

theorem batch_streamT (hf : Fits cfg S nline data) (hlen : ∀ r, (sig r).length = d) (nb : Int) (hb : 0 < nb) (w w' : W n ℝ)
    (t : Fin n → Pt d × Nat) (ω : Fin n → Draws) (hp : ShowsC sig beta nline data a0 w.st t ω) (h : seqBatch cfg nb w = .ok w') :
    ShowsC sig beta nline data a0 w'.st ((roundT S.T S.lo S.hi (fun r => vec d (sig r)) beta)^[nb.toNat] (t, ω)).1
      ((roundT S.T S.lo S.hi (fun r => vec d (sig r)) beta)^[nb.toNat] (t, ω)).2 ∧ ∀ r, w'.st.acc r = w.st.acc r + nb.toNat := by
  unfold seqBatch at h
  obtain ⟨bs, hbs, h⟩ := exc_bind.1 h
  rw [allOk_ok] at hbs
  have hw := (Except.ok.inj h).symm
  subst hw
  have it := fun r => SameCh.iter hf (vec d (sig r)) (beta r) nb.toNat (a0 := a0 r) (c := ⟨w.st.x r, w.st.lp r, w.st.acc r, w.st.accA r, w.st.g r⟩) (p := (t r, ω r))
    ⟨hp.x r, hp.lp r, hp.accA r, hp.g r⟩
  have key : ∀ r, (bs r).x = (Spec.mhIter cfg.user (List.ofFn (vec d (sig r))) nline data (beta r) nb.toNat ⟨w.st.x r, w.st.lp r, w.st.acc r, w.st.accA r, w.st.g r⟩).x ∧
      (bs r).lp = (Spec.mhIter cfg.user (List.ofFn (vec d (sig r))) nline data (beta r) nb.toNat ⟨w.st.x r, w.st.lp r, w.st.acc r, w.st.accA r, w.st.g r⟩).lp ∧
      (bs r).g = (Spec.mhIter cfg.user (List.ofFn (vec d (sig r))) nline data (beta r) nb.toNat ⟨w.st.x r, w.st.lp r, w.st.acc r, w.st.accA r, w.st.g r⟩).g ∧
      (bs r).acc = (Spec.mhIter cfg.user (List.ofFn (vec d (sig r))) nline data (beta r) nb.toNat ⟨w.st.x r, w.st.lp r, w.st.acc r, w.st.accA r, w.st.g r⟩).acc ∧
      (bs r).accA = (Spec.mhIter cfg.user (List.ofFn (vec d (sig r))) nline data (beta r) nb.toNat ⟨w.st.x r, w.st.lp r, w.st.acc r, w.st.accA r, w.st.g r⟩).accA := fun r => by
    have h1 := hbs r
    have h2 := iterBatch_eq cfg.nParm cfg.user (w.st.cur r) w.st.nline w.st.data (w.st.beta r) hf.wf (by rw [hp.cur, hlen, hf.parms]) r.val
      cfg.saveBegin nb hb ⟨w.st.x r, w.st.lp r, w.st.acc r, w.st.accA r, w.st.g r⟩ (by rw [hp.x r, List.length_ofFn, hf.parms])
    have h3 : localBatch cfg r (w.st.loc r) nb (w.st.x r) (w.st.lp r) = _ := h2
    rw [h1] at h3
    rw [vec_ofFn _ (hlen r), Except.ok.inj h3, hp.cur, hp.nline, hp.data, hp.beta]
    exact ⟨rfl, rfl, rfl, rfl, rfl⟩
  rw [roundT_iter]
  refine ⟨⟨fun r => (key r).1.trans (it r).x, fun r => (key r).2.1.trans (it r).lp, fun r => (key r).2.2.2.2.trans (it r).accA, hp.cur, hp.sig, hp.beta,
    fun r => ?_, hp.nline, hp.data⟩, fun r => ?_⟩
  · show streamOf (bs r).g = _
    rw [(key r).2.2.1]
    exact (it r).g
  · show (bs r).acc = _
    rw [(key r).2.2.2.1]
    exact mhIter_acc _ _ _ _ _ _ _

theorem swap_streamT (hf : Fits cfg S nline data) (hm : cfg.swapmode = 0 ∨ cfg.swapmode = 1) (root : Fin n) (w : W n ℝ) (ty : Tally n ℝ) (q : W n ℝ × Tally n ℝ)
    (t : Fin n → Pt d × Nat) (l : Tries n) (ω : Fin n → Draws) (hp : ShowsC sig beta nline data a0 w.st t ω) (hty : ty = tallyOf l) (h : seqSwap cfg root w ty = .ok q) :
    ShowsC sig beta nline data a0 q.1.st (onRoot root (swapT S.T beta (decide (0 < cfg.tuneLadder)) cfg.swapmode) ((t, l), ω)).1.1
      (onRoot root (swapT S.T beta (decide (0 < cfg.tuneLadder)) cfg.swapmode) ((t, l), ω)).2 ∧
    q.2 = tallyOf (onRoot root (swapT S.T beta (decide (0 < cfg.tuneLadder)) cfg.swapmode) ((t, l), ω)).1.2 ∧ q.1.st.acc = w.st.acc := by
  unfold seqSwap at h
  obtain ⟨i, hi, h⟩ := exc_bind.1 h
  obtain ⟨j, hj, h⟩ := exc_bind.1 h
  have hq := (Except.ok.inj h).symm
  subst hq
  have hlij : logPost cfg (w.st.x i) w.st.nline w.st.data (w.st.beta j) = S.T.lp (beta j) (t i).1.1 := by
    rw [hp.x, hp.nline, hp.data, hp.beta]; exact hf.target _ _
  have hlji : logPost cfg (w.st.x j) w.st.nline w.st.data (w.st.beta i) = S.T.lp (beta i) (t j).1.1 := by
    rw [hp.x, hp.nline, hp.data, hp.beta]; exact hf.target _ _
  have hpk := pick_stream (n := n) cfg.swapmode hm (w.st.g root)
  rw [hp.g] at hpk
  set g' := (pickJ ℝ n cfg.swapmode (i4Unif0a ℝ ((n : Int) - 1) (w.st.g root)).1 (i4Unif0a ℝ ((n : Int) - 1) (w.st.g root)).2).2 with hg'
  have hS : swapT S.T beta (decide (0 < cfg.tuneLadder)) cfg.swapmode ((t, l), ω root) = judgeT S.T beta (decide (0 < cfg.tuneLadder)) i j ((t, l), streamOf g') := by
    simp only [swapT, judgeIT, hpk, hi, hj]
  -- both programs make the same decision
  set a := swapAccept (logPost cfg (w.st.x i) w.st.nline w.st.data (w.st.beta j)) (logPost cfg (w.st.x j) w.st.nline w.st.data (w.st.beta i)) (w.st.lp i) (w.st.lp j) g' with ha
  have hJ : judgeT S.T beta (decide (0 < cfg.tuneLadder)) i j ((t, l), streamOf g') = (decided S.T beta (decide (0 < cfg.tuneLadder)) i j a.1 (t, l), streamOf a.2) := by
    rw [ha, hlij, hlji, hp.lp i, hp.lp j]
    unfold judgeT swapAccept
    simp only [pop_stream]
    split <;> simp_all
  have hon : onRoot root (swapT S.T beta (decide (0 < cfg.tuneLadder)) cfg.swapmode) ((t, l), ω) =
      (decided S.T beta (decide (0 < cfg.tuneLadder)) i j a.1 (t, l), Function.update ω root (streamOf a.2)) := by
    unfold onRoot
    rw [hS, hJ]
  rw [hon]
  refine ⟨⟨fun r => ?_, fun r => ?_, fun r => ?_, hp.cur, hp.sig, hp.beta, fun r => ?_, hp.nline, hp.data⟩, ?_, rfl⟩
  · show (if a.1 then swapTab w.st.tab i j _ _ else w.st.tab).x r = List.ofFn ((if a.1 then swapped S.T beta i j t else t) r).1.1
    by_cases hA : a.1 = true
    · simp only [hA, if_true, swapTab, G.tab, swapped]
      by_cases hrj : r = j
      · subst hrj; simp [hp.x]
      · by_cases hri : r = i
        · subst hri; simp [Function.update_of_ne hrj, hrj, hp.x]
        · simp [Function.update_of_ne hrj, Function.update_of_ne hri, hrj, hri, hp.x]
    · simp only [hA, G.tab]; exact hp.x r
  · show (if a.1 then swapTab w.st.tab i j _ _ else w.st.tab).lp r = ((if a.1 then swapped S.T beta i j t else t) r).1.2
    by_cases hA : a.1 = true
    · simp only [hA, if_true, swapTab, G.tab, swapped]
      rw [hlij, hlji]
      by_cases hrj : r = j
      · subst hrj; simp
      · by_cases hri : r = i
        · subst hri; simp [Function.update_of_ne hrj, hrj]
        · simp [Function.update_of_ne hrj, Function.update_of_ne hri, hrj, hri, hp.lp]
    · simp only [hA, G.tab]; exact hp.lp r
  · show w.st.accA r = a0 r + ((if a.1 then swapped S.T beta i j t else t) r).2
    rw [hp.accA r]
    by_cases hA : a.1 = true
    · simp only [hA, if_true, swapped]
    · simp only [hA, Bool.false_eq_true, if_false]
  · show streamOf (Function.update w.st.g root a.2 r) = Function.update ω root (streamOf a.2) r
    by_cases hr : r = root
    · subst hr; simp
    · simp only [Function.update_of_ne hr]; exact hp.g r
  · show (if 0 < cfg.tuneLadder then ty.add i a.1 else ty) = tallyOf (if decide (0 < cfg.tuneLadder) = true then (i, a.1) :: l else l)
    by_cases hc : 0 < cfg.tuneLadder
    · simp only [hc, if_true, decide_true, tallyOf, hty]
    · simp only [hc, if_false, decide_false, Bool.false_eq_true, hty]

theorem swaps_streamT (hf : Fits cfg S nline data) (hm : cfg.swapmode = 0 ∨ cfg.swapmode = 1) (root : Fin n) : ∀ (k : Nat) (w : W n ℝ) (ty : Tally n ℝ)
    (q : W n ℝ × Tally n ℝ) (p : ((Fin n → Pt d × Nat) × Tries n) × (Fin n → Draws)), ShowsC sig beta nline data a0 w.st p.1.1 p.2 → ty = tallyOf p.1.2 →
    seqSwaps cfg root k w ty = .ok q →
    ShowsC sig beta nline data a0 q.1.st ((onRoot root (swapT S.T beta (decide (0 < cfg.tuneLadder)) cfg.swapmode))^[k] p).1.1
      ((onRoot root (swapT S.T beta (decide (0 < cfg.tuneLadder)) cfg.swapmode))^[k] p).2 ∧
    q.2 = tallyOf ((onRoot root (swapT S.T beta (decide (0 < cfg.tuneLadder)) cfg.swapmode))^[k] p).1.2 ∧ q.1.st.acc = w.st.acc := by
  intro k
  induction k with
  | zero =>
    intro w ty q p hp hty h
    have := (Except.ok.inj h).symm
    subst this
    exact ⟨hp, hty, rfl⟩
  | succ k ih =>
    intro w ty q p hp hty h
    unfold seqSwaps at h
    obtain ⟨r, hr, h⟩ := exc_bind.1 h
    obtain ⟨h1, h2, h3⟩ := swap_streamT hf hm root w ty r p.1.1 p.1.2 p.2 hp hty hr
    obtain ⟨h4, h5, h6⟩ := ih _ _ _ _ h1 h2 h
    exact ⟨h4, h5, h6.trans h3⟩

theorem stack_streamT (hf : Fits cfg S nline data) (hlen : ∀ r, (sig r).length = d) (hm : cfg.swapmode = 0 ∨ cfg.swapmode = 1) (root : Fin n) (nStack : Int) :
    ∀ (fuel : Nat) (i : Int) (w : W n ℝ) (ty : Tally n ℝ) (q : W n ℝ × Tally n ℝ) (p : ((Fin n → Pt d × Nat) × Tries n) × (Fin n → Draws)),
    ShowsC sig beta nline data a0 w.st p.1.1 p.2 → ty = tallyOf p.1.2 → seqStackLoop cfg root nStack fuel i w ty = .ok q →
    ShowsC sig beta nline data a0 q.1.st (stackT S.T S.lo S.hi cfg root (fun r => vec d (sig r)) beta nStack fuel i p).1.1
      (stackT S.T S.lo S.hi cfg root (fun r => vec d (sig r)) beta nStack fuel i p).2 ∧
    q.2 = tallyOf (stackT S.T S.lo S.hi cfg root (fun r => vec d (sig r)) beta nStack fuel i p).1.2 := by
  intro fuel
  induction fuel with
  | zero =>
    intro i w ty q p hp hty h
    unfold seqStackLoop at h
    split at h
    · cases h
    · have := (Except.ok.inj h).symm
      subst this
      exact ⟨hp, hty⟩
  | succ fuel ih =>
    intro i w ty q p hp hty h
    unfold seqStackLoop at h
    unfold stackT
    split at h
    · rename_i hlt
      rw [if_pos hlt]
      obtain ⟨b, hb, h⟩ := exc_bind.1 h
      obtain ⟨w1, hw1, h⟩ := exc_bind.1 h
      obtain ⟨r, hr, h⟩ := exc_bind.1 h
      obtain ⟨e1, e2, e3⟩ := nextBatch_stream nStack i _ b hb
      rw [hp.g] at e1 e3
      have hp1 : ShowsC sig beta nline data a0 { w.st with g := Function.update w.st.g root b.2.2 } p.1.1 (Function.update p.2 root (pop (p.2 root)).2) := by
        refine ⟨hp.x, hp.lp, hp.accA, hp.cur, hp.sig, hp.beta, fun r => ?_, hp.nline, hp.data⟩
        by_cases hr : r = root
        · subst hr; simpa using e3
        · simp only [Function.update_of_ne hr]; exact hp.g r
      have hpos := batch_pos b.1 _ w1 (Nat.pos_of_ne_zero fun h0 => by subst h0; exact root.elim0) hw1
      obtain ⟨h1, -⟩ := batch_streamT hf hlen b.1 hpos _ w1 _ _ hp1 hw1
      obtain ⟨h2, h2t, -⟩ := swaps_streamT hf hm root _ w1 ty r
        ((roundC S.T S.lo S.hi (fun r => vec d (sig r)) beta)^[b.1.toNat] (p.1, Function.update p.2 root (pop (p.2 root)).2)) (by rw [roundC_iter]; exact h1)
        (by rw [roundC_iter]; exact hty) hr
      have := ih _ _ _ _ _ h2 h2t h
      rw [e2] at this
      simp only [legT, ← e1]
      exact this
    · rename_i hlt
      rw [if_neg hlt]
      have := (Except.ok.inj h).symm
      subst this
      exact ⟨hp, hty⟩

/-- The state of the run between two stacks shows the table, the history and the streams. -/
structure ShowsZ (cfg : Cfg ℝ) (sig0 : Fin n → List ℝ) (beta0 : Fin n → ℝ) (nline : Int) (data : List ℝ) (st : G n ℝ)
    (p : ((Fin n → Pt d) × Hist n) × (Fin n → Draws)) : Prop where
  x : ∀ r, st.x r = List.ofFn (p.1.1 r).1
  lp : ∀ r, st.lp r = (p.1.1 r).2
  sig : st.sig = (paramsOf cfg sig0 beta0 p.1.2).1
  beta : st.beta = (paramsOf cfg sig0 beta0 p.1.2).2
  g : ∀ r, streamOf (st.g r) = p.2 r
  nline : st.nline = nline
  data : st.data = data

variable {sig0 : Fin n → List ℝ} {beta0 : Fin n → ℝ}

theorem stack_streamZ (hf : Fits cfg S nline data) (hm : cfg.swapmode = 0 ∨ cfg.swapmode = 1) (root : Fin n) (nStack t : Int) (h0 : 0 ≤ nStack) (w w1 : W n ℝ)
    (p : ((Fin n → Pt d) × Hist n) × (Fin n → Draws)) (hp : ShowsZ cfg sig0 beta0 nline data w.st p) (hok : w.st.Ok cfg) (ht : (w.st.acc root : Int) + nStack = t)
    (h : seqStack cfg root nStack (seqWidths w) = .ok w1) :
    ShowsZ cfg sig0 beta0 nline data w1.st
      ((stackZ S.T S.lo S.hi sig0 beta0 cfg root nStack t p).1.1, (stackZ S.T S.lo S.hi sig0 beta0 cfg root nStack t p).2) ∧
    ∀ r, w1.st.accA r = w.st.accA r + (stackZ S.T S.lo S.hi sig0 beta0 cfg root nStack t p).1.2 r := by
  have hlen : ∀ r, ((paramsOf cfg sig0 beta0 p.1.2).1 r).length = d := fun r => by rw [← hp.sig, hok.sig r, hf.parms]
  unfold seqStack at h
  obtain ⟨_, _, h⟩ := exc_bind.1 h
  obtain ⟨q, hq, h⟩ := exc_bind.1 h
  have hs : ShowsC (paramsOf cfg sig0 beta0 p.1.2).1 (paramsOf cfg sig0 beta0 p.1.2).2 nline data w.st.accA (seqWidths w).st (fun r => (p.1.1 r, 0)) p.2 :=
    ⟨hp.x, hp.lp, fun _ => rfl, hp.sig, hp.sig, hp.beta, hp.g, hp.nline, hp.data⟩
  obtain ⟨h1, h2⟩ := stack_streamT hf hlen hm root nStack nStack.toNat 0 { seqWidths w with log := fun r => (seqWidths w).log r ++ (if r = root then [.betas (List.ofFn (seqWidths w).st.beta)] else []) }
    Tally.zero q ((fun r => (p.1.1 r, 0), []), p.2) hs rfl hq
  have hok0 : (seqWidths w).st.Ok cfg := ⟨hok.acc, hok.x, hok.sig, hok.sig⟩
  obtain ⟨_, _, _, _, _, _, hacc, _⟩ := seqStackLoop_hist hf.wf (w := { seqWidths w with log := fun r => (seqWidths w).log r ++ (if r = root then [.betas (List.ofFn (seqWidths w).st.beta)] else []) })
    (w' := q.1) (ty' := q.2) h0 hok0 hq
  have hacc' : (q.1.st.acc root : Int) = t := by
    rw [hacc root, ← ht]
    show (w.st.acc root : Int) + (nStack - 0) = _
    omega
  rw [hacc'] at h
  by_cases hc : t < cfg.nStopTuneLadder ∧ 0 < cfg.tuneLadder
  · rw [if_pos hc] at h
    have := (Except.ok.inj h).symm
    subst this
    refine ⟨⟨h1.x, h1.lp, ?_, ?_, h1.g, h1.nline, h1.data⟩, h1.accA⟩
    · simp only [stackZ, if_pos hc, paramsOf]
      exact h1.sig
    · simp only [stackZ, if_pos hc, paramsOf]
      show tuneLadder cfg.scaleLadder cfg.zeroStretch q.2.nsw q.2.npr q.1.st.beta = _
      rw [h2, h1.beta]
  · rw [if_neg hc] at h
    have := (Except.ok.inj h).symm
    subst this
    refine ⟨⟨h1.x, h1.lp, ?_, ?_, h1.g, h1.nline, h1.data⟩, h1.accA⟩
    · simp only [stackZ, if_neg hc]
      exact h1.sig
    · simp only [stackZ, if_neg hc]
      exact h1.beta

theorem trials_stream (hf : Fits cfg S nline data) (root rk : Fin n) (sig : List ℝ) (hlen : sig.length = d) (b : ℝ) (grid : List (Fin n → ℝ)) (tab : Fin n → Pt d) :
    ∀ (k j : Nat) (s : G n ℝ) (ars : List (Fin n → ℝ)) (q : G n ℝ × List (Fin n → ℝ)) (c : Counts n) (ω : Fin n → Draws),
    s.sig rk = sig → s.beta rk = b → s.nline = nline → s.data = data → s.x rk = List.ofFn (tab rk).1 → s.lp rk = (tab rk).2 → (∀ r, streamOf (s.g r) = ω r) →
    ars = ratesOf cfg c → seqTuneParms cfg rk grid k j s ars = .ok q →
    q.1 = { s with cur := q.1.cur, g := q.1.g } ∧ q.2 = ratesOf cfg (trialsT S.T S.lo S.hi cfg rk sig grid b k j ((tab, c), ω)).1.2 ∧
    ∀ r, streamOf (q.1.g r) = (trialsT S.T S.lo S.hi cfg rk sig grid b k j ((tab, c), ω)).2 r := by
  intro k
  induction k with
  | zero =>
    intro j s ars q c ω h1 h2 h3 h4 h5 h6 h7 h8 h
    have := (Except.ok.inj h).symm
    subst this
    exact ⟨rfl, h8, h7⟩
  | succ k ih =>
    intro j s ars q c ω h1 h2 h3 h4 h5 h6 h7 h8 h
    unfold seqTuneParms at h
    obtain ⟨rows, hrows, h⟩ := exc_bind.1 h
    obtain ⟨a, ha, h⟩ := exc_bind.1 h
    rw [allOk_ok] at ha
    rw [h1] at hrows
    have hN : 0 < cfg.nIterInTune := by
      by_contra hc
      have := ha root
      unfold iterBatchTune at this
      rw [if_pos (by omega)] at this
      cases this
    have hrl : ∀ r, (rows r).length = d := fun r => by
      unfold trialRows at hrows
      obtain ⟨row, _, hrows⟩ := exc_bind.1 hrows
      obtain ⟨_, _, hrows⟩ := exc_bind.1 hrows
      have := (Except.ok.inj hrows).symm
      subst this
      rw [List.length_set, hlen]
    have hw : ∀ r, trialWidths d sig grid j r = vec d (rows r) := fun r => by simp only [trialWidths, hrows]
    have key : ∀ r, (a r).1 = ofI ((trialT S.T S.lo S.hi cfg rk (trialWidths d sig grid j) b (tab, ω)).1 r : Int) /. ofI cfg.nIterInTune ∧
        streamOf (a r).2 = (trialT S.T S.lo S.hi cfg rk (trialWidths d sig grid j) b (tab, ω)).2 r := fun r => by
      have e1 := ha r
      rw [iterBatchTune_eq cfg.nParm cfg.user (rows r) s.nline s.data (s.beta rk) hf.wf (by rw [hrl, hf.parms]) cfg.nIterInTune hN (s.x rk) (s.lp rk) (s.g r)
        (by rw [h5, List.length_ofFn, hf.parms])] at e1
      have e2 := SameCh.iter hf (vec d (rows r)) b cfg.nIterInTune.toNat (a0 := 0) (c := ⟨s.x rk, s.lp rk, 0, 0, s.g r⟩) (p := ((tab rk, 0), ω r))
        ⟨h5, h6, rfl, h7 r⟩
      rw [vec_ofFn _ (hrl r)] at e2
      rw [← Except.ok.inj e1, h2, h3, h4]
      simp only [trialT, hw r]
      exact ⟨by rw [e2.accA]; simp only [Nat.zero_add], e2.g⟩
    obtain ⟨i1, i2, i3⟩ := ih (j + 1) { s with cur := rows, g := fun r => (a r).2 } (ars ++ [fun r => (a r).1]) q
      (c ++ [(trialT S.T S.lo S.hi cfg rk (trialWidths d sig grid j) b (tab, ω)).1]) (trialT S.T S.lo S.hi cfg rk (trialWidths d sig grid j) b (tab, ω)).2
      h1 h2 h3 h4 h5 h6 (fun r => (key r).2) (by
        rw [h8, ratesOf, ratesOf, List.map_append, List.map_singleton]
        congr 2
        funext r
        exact (key r).1) h
    exact ⟨i1, i2, i3⟩

theorem decide_stream (ars : List (Fin n → ℝ)) (g : Rng) (e : (Int × Int) × Rng) (h : decideSigma cfg ars g = .ok e) :
    decideT cfg ars (streamOf g) = (e.1, streamOf e.2) := by
  unfold decideSigma at h
  obtain ⟨p, hp, h⟩ := exc_bind.1 h
  obtain ⟨row, hrow, h⟩ := exc_bind.1 h
  obtain ⟨c1, hc1, h⟩ := exc_bind.1 h
  obtain ⟨c2, hc2, h⟩ := exc_bind.1 h
  have hcore : decideCore cfg ars = (if c1.1 <. cfg.arAcceptDiff then
      if c2.1 <. cfg.arAcceptDiff then .ok (.inr (((p : Int), (c1.2 : Int)), ((c2.2.1 : Int), (c2.2.2 : Int)))) else .ok (.inl (p, c1.2))
    else if c2.1 <. cfg.arAcceptDiff then .ok (.inl (c2.2.1, c2.2.2))
    else .ok (.inr ((-1, 0), (-1, -1)))) := by
    unfold decideCore
    simp only [hp, hrow, hc1, hc2, bind, Except.bind]
  unfold decideT
  rw [hcore]
  by_cases h1 : (c1.1 <. cfg.arAcceptDiff) = true
  · by_cases h2 : (c2.1 <. cfg.arAcceptDiff) = true
    · simp only [h1, h2, if_true] at h ⊢
      rw [pop_stream]
      by_cases h3 : (Arith.lit 1 2 <. (drand48 (F := ℝ) g).1) = true
      · rw [if_pos h3] at h
        rw [← Except.ok.inj h, if_pos h3]
      · rw [if_neg h3] at h
        rw [← Except.ok.inj h, if_neg h3]
    · simp only [h1, h2, if_true, Bool.false_eq_true, if_false] at h ⊢
      rw [← Except.ok.inj h]
  · by_cases h2 : (c2.1 <. cfg.arAcceptDiff) = true
    · simp only [h1, h2, if_true, Bool.false_eq_true, if_false] at h ⊢
      rw [← Except.ok.inj h]
    · simp only [h1, h2, Bool.false_eq_true, if_false] at h ⊢
      rw [pop_stream]
      by_cases h3 : (Arith.lit 1 2 <. (drand48 (F := ℝ) g).1) = true
      · rw [if_pos h3] at h
        rw [← Except.ok.inj h, if_pos h3]
      · rw [if_neg h3] at h
        rw [← Except.ok.inj h, if_neg h3]

theorem tuneRank_stream (hf : Fits cfg S nline data) (root rk : Fin n) (w w' : W n ℝ) (p : ((Fin n → Pt d) × Hist n) × (Fin n → Draws))
    (hp : ShowsZ cfg sig0 beta0 nline data w.st p) (hok : w.st.Ok cfg) (h : seqTuneRank cfg root rk w = .ok w') :
    ShowsZ cfg sig0 beta0 nline data w'.st (tuneRankT S.T S.lo S.hi sig0 beta0 cfg root rk p) := by
  unfold seqTuneRank at h
  obtain ⟨grid, hgrid, h⟩ := exc_bind.1 h
  obtain ⟨q, hq, h⟩ := exc_bind.1 h
  obtain ⟨e, he, h⟩ := exc_bind.1 h
  obtain ⟨sg, hsg, h⟩ := exc_bind.1 h
  have := (Except.ok.inj h).symm
  subst this
  rw [hp.sig] at hgrid
  have hgr : gridOf n cfg ((paramsOf cfg sig0 beta0 p.1.2).1 rk) = grid := by simp only [gridOf, hgrid]
  obtain ⟨t1, t2, t3⟩ := trials_stream hf root rk ((paramsOf cfg sig0 beta0 p.1.2).1 rk) (by rw [← hp.sig, hok.sig rk, hf.parms]) ((paramsOf cfg sig0 beta0 p.1.2).2 rk) grid p.1.1
    cfg.nParm 0 w.st [] q [] p.2 (by rw [hp.sig]) (by rw [hp.beta]) hp.nline hp.data (hp.x rk) (hp.lp rk) hp.g rfl hq
  have hd := decide_stream _ _ _ he
  rw [t3, t2] at hd
  have hqs : q.1.sig = (paramsOf cfg sig0 beta0 p.1.2).1 := by rw [t1]; exact hp.sig
  rw [hqs, t2] at hsg
  have hon : onRoot root (fun z : Counts n × Draws => decideT cfg (ratesOf cfg z.1) z.2)
      ((trialsT S.T S.lo S.hi cfg rk ((paramsOf cfg sig0 beta0 p.1.2).1 rk) grid ((paramsOf cfg sig0 beta0 p.1.2).2 rk) cfg.nParm 0 ((p.1.1, []), p.2)).1.2,
       (trialsT S.T S.lo S.hi cfg rk ((paramsOf cfg sig0 beta0 p.1.2).1 rk) grid ((paramsOf cfg sig0 beta0 p.1.2).2 rk) cfg.nParm 0 ((p.1.1, []), p.2)).2) =
      (e.1, Function.update (trialsT S.T S.lo S.hi cfg rk ((paramsOf cfg sig0 beta0 p.1.2).1 rk) grid ((paramsOf cfg sig0 beta0 p.1.2).2 rk) cfg.nParm 0 ((p.1.1, []), p.2)).2 root
        (streamOf e.2)) := by
    unfold onRoot
    simp only [hd]
  unfold tuneRankT
  simp only [hgr, hon]
  refine ⟨fun r => ?_, fun r => ?_, ?_, ?_, fun r => ?_, ?_, ?_⟩
  · show q.1.x r = _
    rw [t1]; exact hp.x r
  · show q.1.lp r = _
    rw [t1]; exact hp.lp r
  · show Function.update q.1.sig rk sg = _
    simp only [paramsOf, retuned, hgr, hsg, hqs]
  · show q.1.beta = _
    rw [t1]
    simp only [paramsOf]
    exact hp.beta
  · show streamOf (Function.update q.1.g root e.2 r) = _
    by_cases hr : r = root
    · subst hr; simp
    · simp only [Function.update_of_ne hr]; exact t3 r
  · show q.1.nline = _
    rw [t1]; exact hp.nline
  · show q.1.data = _
    rw [t1]; exact hp.data

theorem tuneRanks_stream (hf : Fits cfg S nline data) (root : Fin n) (fl : Fin n → Int) : ∀ (l : List (Fin n)) (w w' : W n ℝ)
    (p : ((Fin n → Pt d) × Hist n) × (Fin n → Draws)), ShowsZ cfg sig0 beta0 nline data w.st p → w.st.Ok cfg → seqTuneRanks cfg root fl l w = .ok w' →
    ShowsZ cfg sig0 beta0 nline data w'.st (tuneRanksT S.T S.lo S.hi sig0 beta0 cfg root fl l p) := by
  intro l
  induction l with
  | nil =>
    intro w w' p hp _ h
    have := (Except.ok.inj h).symm
    subst this
    exact hp
  | cons rk l ih =>
    intro w w' p hp hok h
    unfold seqTuneRanks at h
    obtain ⟨w1, hw1, hl⟩ := exc_bind.1 h
    clear h
    unfold tuneRanksT
    by_cases hfl : fl rk = 1
    · rw [if_pos hfl] at hw1 ⊢
      exact ih w1 w' _ (tuneRank_stream hf root rk w w1 p hp hok hw1) ((Step.tune w w1 rk hw1).ok hf.wf hok) hl
    · rw [if_neg hfl] at hw1 ⊢
      have := (Except.ok.inj hw1).symm
      subst this
      exact ih _ w' p hp hok hl

/-- The first `k` stacks of the main loop, tuning included, compute `preT` of the table, the history and the streams of the generators. -/
theorem pre_stream (hf : Fits cfg S nline data) (hm : cfg.swapmode = 0 ∨ cfg.swapmode = 1) (hn : 1 ≤ cfg.nStack) (root : Fin n) : ∀ (k fuel : Nat) (i : Int) (w w' : W n ℝ)
    (p : ((Fin n → Pt d) × Hist n) × (Fin n → Draws)), ShowsZ cfg sig0 beta0 nline data w.st p → w.st.Ok cfg → (∀ r, (w.st.acc r : Int) = i) →
    i + k * cfg.nStack ≤ cfg.nIter → seqFlowLoop cfg root fuel cfg.nStack i w = .ok w' →
    ∃ wk fuel', fuel = fuel' + k ∧ seqFlowLoop cfg root fuel' cfg.nStack (i + k * cfg.nStack) wk = .ok w' ∧ wk.st.Ok cfg ∧ (∀ r, (wk.st.acc r : Int) = i + k * cfg.nStack) ∧
      Steps cfg root w wk ∧ ShowsZ cfg sig0 beta0 nline data wk.st (preT S.T S.lo S.hi sig0 beta0 cfg root k i p) := by
  intro k
  induction k with
  | zero =>
    intro fuel i w w' p hp hok hacc _ h
    refine ⟨w, fuel, rfl, ?_, hok, fun r => ?_, .refl _, hp⟩
    · simpa using h
    · simpa using hacc r
  | succ k ih =>
    intro fuel i w w' p hp hok hacc hle h
    have hk : (0 : Int) ≤ k * cfg.nStack := by positivity
    have e2 : i + ((k + 1 : Nat) : Int) * cfg.nStack = i + cfg.nStack + k * cfg.nStack := by push_cast; ring
    rw [e2] at hle ⊢
    cases fuel with
    | zero =>
      unfold seqFlowLoop at h
      rw [if_pos (by omega)] at h
      cases h
    | succ fuel =>
      unfold seqFlowLoop at h
      rw [if_pos (by omega)] at h
      obtain ⟨nx, hnx, h⟩ := exc_bind.1 h
      have e : nx = i + cfg.nStack := by
        unfold i32 at hnx
        split at hnx
        · exact (Except.ok.inj hnx).symm
        · cases hnx
      subst e
      have hno : ¬ cfg.nIter < i + cfg.nStack := by omega
      simp only [if_neg hno] at h
      obtain ⟨w1, hw1, h⟩ := exc_bind.1 h
      obtain ⟨w2, hw2, hl⟩ := exc_bind.1 h
      clear h
      obtain ⟨s1, s2⟩ := stack_streamZ hf hm root cfg.nStack (i + cfg.nStack) (by omega) w w1 p hp hok (by rw [hacc root]) hw1
      have hok0 : (seqWidths w).st.Ok cfg := ⟨hok.acc, hok.x, hok.sig, hok.sig⟩
      obtain ⟨_, _, _, _, _, hacc1, hok1, _⟩ := seqStack_hist hf.wf (by omega) hok0 hw1
      have st1 : Steps cfg root w w1 := (Steps.single (.widths w)).trans (seqStack_steps cfg root _ _ w1 hw1)
      have hacc1' : ∀ r, (w1.st.acc r : Int) = i + cfg.nStack := fun r => by
        rw [hacc1 r]
        show (w.st.acc r : Int) + _ = _
        rw [hacc r]
      have hfl : (fun r => tuneFlag cfg (stackRate ℝ (w.st.accA r) (w1.st.accA r) cfg.nStack)) =
          flagsOf cfg cfg.nStack (stackZ S.T S.lo S.hi sig0 beta0 cfg root cfg.nStack (i + cfg.nStack) p).1.2 := by
        funext r
        simp only [flagsOf, stackRate, s2 r, Nat.add_sub_cancel_left, Nat.sub_zero]
      unfold preT roundZ
      by_cases hT : inTuneWindow cfg (i + cfg.nStack) = true
      · rw [if_pos hT, hfl] at hw2
        simp only [if_pos hT]
        have s3 := tuneRanks_stream hf root _ _ w1 w2 _ s1 hok1 hw2
        have st2 := seqTuneRanks_steps cfg root _ _ w1 w2 hw2
        obtain ⟨f1, _⟩ := seqTuneRanks_frame hw2
        obtain ⟨wk, fuel', a1, a2, a3, a4, a5, a6⟩ := ih fuel (i + cfg.nStack) w2 w' _ s3 (seqTuneRanks_ok hf.wf hw2 hok1) (by rw [f1]; exact hacc1') hle hl
        exact ⟨wk, fuel', by omega, a2, a3, a4, (st1.trans st2).trans a5, a6⟩
      · rw [if_neg hT] at hw2
        have := (Except.ok.inj hw2).symm
        subst this
        simp only [if_neg hT]
        obtain ⟨wk, fuel', a1, a2, a3, a4, a5, a6⟩ := ih fuel (i + cfg.nStack) _ w' _ s1 hok1 hacc1' hle hl
        exact ⟨wk, fuel', by omega, a2, a3, a4, st1.trans a5, a6⟩

end

end NiiC
