import Verif.Refine.Tuned
import Verif.Props.Average

/-!
# The tuning part leaves the streams as good as new

The functions of `Verif.Refine.Tuned` are measurable, and with streams of independent uniform numbers what they leave of the streams is again such a family, independent
of everything computed so far (`Clean`). Helpers for C83 and C84.
-/

set_option linter.unusedSectionVars false
set_option linter.unusedSimpArgs false

namespace NiiC

open MeasureTheory ProbabilityTheory Set

section
variable {n d : Nat} (T : Target d) (lo hi : Fin d → ℝ)

theorem Clean.lazy {α β : Type} [MeasurableSpace α] [MeasurableSpace β] {p : α → Prop} [DecidablePred p] (hp : MeasurableSet {a | p a}) {f : α × ℝ → β}
    (hf : Measurable f) {f0 : α → β} (hf0 : Measurable f0) (h : ∀ a u, p a → f (a, u) = f0 a) :
    Clean unifStream (fun q : α × Draws => if p q.1 then (f0 q.1, q.2) else (f (q.1, (NiiC.pop q.2).1), (NiiC.pop q.2).2)) := by
  have : IsMarkovKernel ((Kernel.id ×ₖ Kernel.const α unif).map f) := Kernel.IsMarkovKernel.map _ hf
  exact (Fresh.lazy hp hf hf0 h).clean

theorem measurable_proposalT (s : Fin d → ℝ) : Measurable (fun p : (Fin d → ℝ) × (Fin d → ℝ × ℝ) => proposalT lo hi s p.1 p.2) := by
  refine measurable_pi_lambda _ fun i => ?_
  unfold proposalT
  simp only [RealArith.add_eq, RealArith.mul_eq]
  refine (measurable_bounce _ _).comp (((measurable_pi_apply i).comp measurable_fst).add (Measurable.mul_const ?_ _))
  exact (measurable_boxMuller piLit).comp ((measurable_pi_apply i).comp measurable_snd)

theorem chain_clean (s : Fin d → ℝ) (b : ℝ) : Clean unifStream (chainT T lo hi s b) := by
  have hy : Measurable (fun a : (Pt d × Nat) × (Fin d → ℝ × ℝ) => proposalT lo hi s a.1.1.1 a.2) :=
    (measurable_proposalT lo hi s).comp ((measurable_fst.comp (measurable_fst.comp measurable_fst)).prodMk measurable_snd)
  have hnew : Measurable (fun a : (Pt d × Nat) × (Fin d → ℝ × ℝ) => T.lp b (proposalT lo hi s a.1.1.1 a.2)) := (T.measurable b).comp hy
  have hold : Measurable (fun a : (Pt d × Nat) × (Fin d → ℝ × ℝ) => a.1.1.2) := measurable_snd.comp (measurable_fst.comp measurable_fst)
  have hset : MeasurableSet {a : (Pt d × Nat) × (Fin d → ℝ × ℝ) | (Arith.log (ofI 1 /. ofI 1) <. (T.lp b (proposalT lo hi s a.1.1.1 a.2) -. a.1.1.2)) = true} := by
    simp only [RealArith.lt_iff, RealArith.sub_eq]
    exact measurableSet_lt measurable_const (hnew.sub hold)
  have hf0 : Measurable (fun a : (Pt d × Nat) × (Fin d → ℝ × ℝ) => ((proposalT lo hi s a.1.1.1 a.2, T.lp b (proposalT lo hi s a.1.1.1 a.2)), a.1.2 + 1)) :=
    (hy.prodMk hnew).prodMk ((Measurable.of_discrete (f := fun k : Nat => k + 1)).comp (measurable_snd.comp measurable_fst))
  have hf : Measurable (fun z : ((Pt d × Nat) × (Fin d → ℝ × ℝ)) × ℝ =>
      if (Arith.log (ofI 1 /. ofI 1) <. (T.lp b (proposalT lo hi s z.1.1.1.1 z.1.2) -. z.1.1.1.2)) = true ∨
        (z.2 <. (Arith.exp (T.lp b (proposalT lo hi s z.1.1.1.1 z.1.2) -. z.1.1.1.2) *. ofI 1)) = true then
        ((proposalT lo hi s z.1.1.1.1 z.1.2, T.lp b (proposalT lo hi s z.1.1.1.1 z.1.2)), z.1.1.2 + 1) else z.1.1) := by
    refine Measurable.ite ((measurable_fst hset).union ?_) (hf0.comp measurable_fst) (measurable_fst.comp measurable_fst)
    simp only [RealArith.lt_iff, RealArith.sub_eq, RealArith.mul_eq, RealArith.exp_eq]
    exact measurableSet_lt measurable_snd ((Real.measurable_exp.comp ((hnew.sub hold).comp measurable_fst)).mul_const _)
  have h := (pairs_fresh (α := Pt d × Nat) d).clean.keep.comp (Clean.lazy hset hf hf0 fun a u ha => by
    have ha' : (Arith.log (ofI 1 /. ofI 1) <. (T.lp b (proposalT lo hi s a.1.1.1 a.2) -. a.1.1.2)) = true := ha
    simp only [ha', true_or, if_true])
  have e : chainT T lo hi s b = fun p : (Pt d × Nat) × Draws =>
      if (Arith.log (ofI 1 /. ofI 1) <. (T.lp b (proposalT lo hi s p.1.1.1 (pairsS d p.2).1) -. p.1.1.2)) = true then
        (((proposalT lo hi s p.1.1.1 (pairsS d p.2).1, T.lp b (proposalT lo hi s p.1.1.1 (pairsS d p.2).1)), p.1.2 + 1), (pairsS d p.2).2)
      else (if (Arith.log (ofI 1 /. ofI 1) <. (T.lp b (proposalT lo hi s p.1.1.1 (pairsS d p.2).1) -. p.1.1.2)) = true ∨
        ((pop (pairsS d p.2).2).1 <. (Arith.exp (T.lp b (proposalT lo hi s p.1.1.1 (pairsS d p.2).1) -. p.1.1.2) *. ofI 1)) = true then
        ((proposalT lo hi s p.1.1.1 (pairsS d p.2).1, T.lp b (proposalT lo hi s p.1.1.1 (pairsS d p.2).1)), p.1.2 + 1) else p.1, (pop (pairsS d p.2).2).2) := by
    funext p
    by_cases hq : (Arith.log (ofI 1 /. ofI 1) <. (T.lp b (proposalT lo hi s p.1.1.1 (pairsS d p.2).1) -. p.1.1.2)) = true
    · simp only [chainT, acceptS, hq, if_true]
    · simp only [chainT, acceptS, hq, if_false, Bool.false_eq_true, false_or]
  rw [e]
  exact h

theorem round_clean (s : Fin n → Fin d → ℝ) (b : Fin n → ℝ) : Clean (unifStreams n) (roundC T lo hi s b) :=
  Clean.part (γ := Tries n) (Clean.par fun r => chain_clean T lo hi (s r) (b r))

theorem measurable_swapped (b : Fin n → ℝ) (i j : Fin n) : Measurable (swapped T b i j) := by
  refine measurable_pi_lambda _ fun r => Measurable.prodMk ?_ (measurable_snd.comp (measurable_pi_apply r))
  have hx : ∀ q : Fin n, Measurable (fun t : Fin n → Pt d × Nat => (t q).1.1) := fun q => measurable_fst.comp (measurable_fst.comp (measurable_pi_apply q))
  by_cases h1 : r = j
  · simp only [h1, if_true]
    exact (hx i).prodMk ((T.measurable _).comp (hx i))
  · by_cases h2 : r = i
    · simp only [h1, h2, if_true, if_false]
      by_cases h3 : i = j
      · simp only [h3, if_true]; exact (hx j).prodMk ((T.measurable _).comp (hx j))
      · simp only [h3, if_false]; exact (hx j).prodMk ((T.measurable _).comp (hx j))
    · simp only [h1, h2, if_false]
      exact measurable_fst.comp (measurable_pi_apply r)

theorem measurable_decided (b : Fin n → ℝ) (count : Bool) (i j : Fin n) (did : Bool) : Measurable (decided T b count i j did) := by
  refine Measurable.prodMk ?_ ?_
  · cases did
    · simp only [Bool.false_eq_true, if_false]; exact measurable_fst
    · simp only [if_true]; exact (measurable_swapped T b i j).comp measurable_fst
  · cases count
    · simp only [Bool.false_eq_true, if_false]; exact measurable_snd
    · simp only [if_true]; exact Measurable.of_discrete.comp measurable_snd

theorem judge_clean (b : Fin n → ℝ) (count : Bool) (i j : Fin n) : Clean unifStream (judgeT T b count i j) := by
  have hx : ∀ q : Fin n, Measurable (fun p : (Fin n → Pt d × Nat) × Tries n => (p.1 q).1.1) := fun q =>
    measurable_fst.comp (measurable_fst.comp ((measurable_pi_apply q).comp measurable_fst))
  have hl : ∀ q : Fin n, Measurable (fun p : (Fin n → Pt d × Nat) × Tries n => (p.1 q).1.2) := fun q =>
    measurable_snd.comp (measurable_fst.comp ((measurable_pi_apply q).comp measurable_fst))
  have hδ : Measurable (fun p : (Fin n → Pt d × Nat) × Tries n => T.lp (b j) (p.1 i).1.1 +. T.lp (b i) (p.1 j).1.1 -. (p.1 i).1.2 -. (p.1 j).1.2) :=
    ((((T.measurable _).comp (hx i)).add ((T.measurable _).comp (hx j))).sub (hl i)).sub (hl j)
  have hset : MeasurableSet {p : (Fin n → Pt d × Nat) × Tries n | (ofI 0 <. (T.lp (b j) (p.1 i).1.1 +. T.lp (b i) (p.1 j).1.1 -. (p.1 i).1.2 -. (p.1 j).1.2)) = true} := by
    simp only [RealArith.lt_iff]
    exact measurableSet_lt measurable_const hδ
  have hf : Measurable (fun z : ((Fin n → Pt d × Nat) × Tries n) × ℝ =>
      if (ofI 0 <. (T.lp (b j) (z.1.1 i).1.1 +. T.lp (b i) (z.1.1 j).1.1 -. (z.1.1 i).1.2 -. (z.1.1 j).1.2)) = true ∨
        (z.2 <. Arith.exp (T.lp (b j) (z.1.1 i).1.1 +. T.lp (b i) (z.1.1 j).1.1 -. (z.1.1 i).1.2 -. (z.1.1 j).1.2)) = true then
      decided T b count i j true z.1 else decided T b count i j false z.1) := by
    refine Measurable.ite ((measurable_fst hset).union ?_) ((measurable_decided T b count i j true).comp measurable_fst) ((measurable_decided T b count i j false).comp measurable_fst)
    simp only [RealArith.lt_iff, RealArith.exp_eq]
    exact measurableSet_lt measurable_snd (Real.measurable_exp.comp (hδ.comp measurable_fst))
  have h := Clean.lazy (p := fun p : (Fin n → Pt d × Nat) × Tries n =>
      (ofI 0 <. (T.lp (b j) (p.1 i).1.1 +. T.lp (b i) (p.1 j).1.1 -. (p.1 i).1.2 -. (p.1 j).1.2)) = true) hset hf (measurable_decided T b count i j true)
    fun a u ha => by simp only [ha, true_or, if_true]
  have e : judgeT T b count i j = fun q : ((Fin n → Pt d × Nat) × Tries n) × Draws =>
      if (ofI 0 <. (T.lp (b j) (q.1.1 i).1.1 +. T.lp (b i) (q.1.1 j).1.1 -. (q.1.1 i).1.2 -. (q.1.1 j).1.2)) = true then (decided T b count i j true q.1, q.2)
      else (if (ofI 0 <. (T.lp (b j) (q.1.1 i).1.1 +. T.lp (b i) (q.1.1 j).1.1 -. (q.1.1 i).1.2 -. (q.1.1 j).1.2)) = true ∨
        ((pop q.2).1 <. Arith.exp (T.lp (b j) (q.1.1 i).1.1 +. T.lp (b i) (q.1.1 j).1.1 -. (q.1.1 i).1.2 -. (q.1.1 j).1.2)) = true then
        decided T b count i j true q.1 else decided T b count i j false q.1, (pop q.2).2) := by
    funext q
    unfold judgeT
    by_cases hq : (ofI 0 <. (T.lp (b j) (q.1.1 i).1.1 +. T.lp (b i) (q.1.1 j).1.1 -. (q.1.1 i).1.2 -. (q.1.1 j).1.2)) = true
    · simp only [hq, if_true]
    · simp only [hq, if_false, Bool.false_eq_true, false_or]
      cases ((pop q.2).1 <. Arith.exp (T.lp (b j) (q.1.1 i).1.1 +. T.lp (b i) (q.1.1 j).1.1 -. (q.1.1 i).1.2 -. (q.1.1 j).1.2)) <;> simp
  rw [e]
  exact h

theorem judgeI_clean (b : Fin n → ℝ) (count : Bool) (ij : Int × Int) : Clean unifStream (judgeIT T b count ij) := by
  have e : judgeIT T b count ij = fun p => match toIdx n ij.1, toIdx n ij.2 with
    | .ok i, .ok j => judgeT T b count i j p
    | _, _ => p := rfl
  rw [e]
  cases toIdx n ij.1 with
  | error => exact Clean.id
  | ok i =>
    cases toIdx n ij.2 with
    | error => exact Clean.id
    | ok j => exact judge_clean T b count i j

theorem swap_clean (b : Fin n → ℝ) (count : Bool) (mode : Int) : Clean unifStream (swapT T b count mode) :=
  Clean.choose (pick_fresh (n := n) mode).clean fun ij => judgeI_clean T b count ij

theorem leg_clean (cfg : Cfg ℝ) (root : Fin n) (s : Fin n → Fin d → ℝ) (b : Fin n → ℝ) (k : Int) : Clean (unifStreams n) (legT T lo hi cfg root s b k) := by
  have h : Clean (unifStreams n) (onRoot root (swapT T b (decide (0 < cfg.tuneLadder)) cfg.swapmode)) := (swap_clean T b _ cfg.swapmode).root root
  exact ((round_clean T lo hi s b).iterate k.toNat).comp (h.iterate cfg.nSwap.toNat)

theorem stack_clean (cfg : Cfg ℝ) (root : Fin n) (s : Fin n → Fin d → ℝ) (b : Fin n → ℝ) (nStack : Int) : ∀ (fuel : Nat) (i : Int),
    Clean (unifStreams n) (stackT T lo hi cfg root s b nStack fuel i) := by
  intro fuel
  induction fuel with
  | zero => exact fun i => Clean.id
  | succ fuel ih =>
    intro i
    by_cases hi' : i < nStack
    · have h0 : Clean (unifStreams n) (onRoot root fun p : ((Fin n → Pt d × Nat) × Tries n) × Draws => (i4UnifAbVal (-cfg.rand) cfg.rand (pop p.2).1, (pop p.2).2)) :=
        (size_fresh cfg.rand).clean.root root
      have h := h0.choose fun k : Int => (leg_clean T lo hi cfg root s b (sizeOf' cfg nStack i k)).comp (ih (i + sizeOf' cfg nStack i k))
      have e : stackT T lo hi cfg root s b nStack (fuel + 1) i = fun p => stackT T lo hi cfg root s b nStack fuel
          (i + sizeOf' cfg nStack i (i4UnifAbVal (-cfg.rand) cfg.rand (pop (p.2 root)).1))
          (legT T lo hi cfg root s b (sizeOf' cfg nStack i (i4UnifAbVal (-cfg.rand) cfg.rand (pop (p.2 root)).1)) (p.1, Function.update p.2 root (pop (p.2 root)).2)) := by
        funext p
        rw [stackT, if_pos hi']
      rw [e]
      exact h
    · have e : stackT T lo hi cfg root s b nStack (fuel + 1) i = fun p => p := by
        funext p
        rw [stackT, if_neg hi']
      rw [e]
      exact Clean.id

variable (sig0 : Fin n → List ℝ) (beta0 : Fin n → ℝ)

theorem stackZ_clean (cfg : Cfg ℝ) (root : Fin n) (nStack t : Int) : Clean (unifStreams n) (stackZ (d := d) T lo hi sig0 beta0 cfg root nStack t) := by
  have key : ∀ h : Hist n, Clean (unifStreams n) (fun p : (Fin n → Pt d) × (Fin n → Draws) => stackZ T lo hi sig0 beta0 cfg root nStack t ((p.1, h), p.2)) := fun h => by
    have h1 : Measurable (fun tab : Fin n → Pt d => ((fun r => (tab r, 0), []) : (Fin n → Pt d × Nat) × Tries n)) :=
      (measurable_pi_lambda _ fun r => (measurable_pi_apply r).prodMk measurable_const).prodMk measurable_const
    refine ((stack_clean T lo hi cfg root (fun r => vec d ((paramsOf cfg sig0 beta0 h).1 r)) (paramsOf cfg sig0 beta0 h).2 nStack nStack.toNat 0).arg h1).map
      (f := fun q : (Fin n → Pt d × Nat) × Tries n => (((fun r => (q.1 r).1, if t < cfg.nStopTuneLadder ∧ 0 < cfg.tuneLadder then .inr q.2 :: h else h), fun r => (q.1 r).2) :
        ((Fin n → Pt d) × Hist n) × (Fin n → Nat))) ?_
    refine Measurable.prodMk (Measurable.prodMk (measurable_pi_lambda _ fun r => measurable_fst.comp ((measurable_pi_apply r).comp measurable_fst)) ?_)
      (measurable_pi_lambda _ fun r => measurable_snd.comp ((measurable_pi_apply r).comp measurable_fst))
    split
    · exact (Measurable.of_discrete (f := fun l : Tries n => (.inr l :: h : Hist n))).comp measurable_snd
    · exact measurable_const
  exact Clean.param key

theorem trial_clean (cfg : Cfg ℝ) (rk : Fin n) (s : Fin n → Fin d → ℝ) (b : ℝ) : Clean (unifStreams n) (trialT T lo hi cfg rk s b) := by
  have h1 : Measurable (fun tab : Fin n → Pt d => (fun _ => (tab rk, 0) : Fin n → Pt d × Nat)) :=
    measurable_pi_lambda _ fun r => (measurable_pi_apply rk).prodMk measurable_const
  have h2 : Clean (unifStreams n) _ := Clean.par fun r : Fin n => (chain_clean T lo hi (s r) b).iterate cfg.nIterInTune.toNat
  exact (h2.arg h1).map (f := fun t : Fin n → Pt d × Nat => fun r => (t r).2) (measurable_pi_lambda _ fun r => measurable_snd.comp (measurable_pi_apply r))

theorem trials_clean (cfg : Cfg ℝ) (rk : Fin n) (sig : List ℝ) (grid : List (Fin n → ℝ)) (b : ℝ) : ∀ k j, Clean (unifStreams n) (trialsT (d := d) T lo hi cfg rk sig grid b k j) := by
  intro k
  induction k with
  | zero => exact fun j => Clean.id
  | succ k ih =>
    intro j
    have h1 := ((trial_clean T lo hi cfg rk (trialWidths d sig grid j) b).arg (measurable_fst (α := Fin n → Pt d) (β := Counts n))).keep
    have h2 : Measurable (fun q : ((Fin n → Pt d) × Counts n) × (Fin n → Nat) => (q.1.1, q.1.2 ++ [q.2])) :=
      (measurable_fst.comp measurable_fst).prodMk ((Measurable.of_discrete (f := fun z : Counts n × (Fin n → Nat) => z.1 ++ [z.2])).comp
        ((measurable_snd.comp measurable_fst).prodMk measurable_snd))
    exact (h1.map h2).comp (ih (j + 1))

theorem decide_clean (cfg : Cfg ℝ) : Clean unifStream (fun z : Counts n × Draws => decideT cfg (ratesOf cfg z.1) z.2) := by
  have key : ∀ c : Counts n, Clean unifStream (fun p : Unit × Draws => decideT cfg (ratesOf cfg c) p.2) := fun c => by
    have e : (fun p : Unit × Draws => decideT cfg (ratesOf cfg c) p.2) = fun p => match decideCore cfg (ratesOf cfg c) with
      | .ok (.inl c) => (c, p.2)
      | .ok (.inr (a, b)) => (if Arith.lit 1 2 <. (pop p.2).1 then a else b, (pop p.2).2)
      | .error _ => ((0, 0), p.2) := by
      funext p
      rfl
    rw [e]
    rcases decideCore cfg (ratesOf cfg c) with er | (ch | ⟨a, b⟩)
    · exact Clean.pure (l := unifStream) (f := fun _ : Unit => ((0 : Int), (0 : Int))) measurable_const
    · exact Clean.pure (l := unifStream) (f := fun _ : Unit => ch) measurable_const
    · refine (Clean.pop (α := Unit) unif).map (f := fun u : ℝ => if Arith.lit 1 2 <. u then a else b) (Measurable.ite ?_ measurable_const measurable_const)
      simp only [RealArith.lt_iff]
      exact measurableSet_lt measurable_const measurable_id
  exact (Clean.param key).arg (f := fun c : Counts n => ((), c)) (measurable_const.prodMk measurable_id)

theorem tuneRank_clean (cfg : Cfg ℝ) (root rk : Fin n) : Clean (unifStreams n) (tuneRankT (d := d) T lo hi sig0 beta0 cfg root rk) := by
  have key : ∀ h : Hist n, Clean (unifStreams n) (fun p : (Fin n → Pt d) × (Fin n → Draws) => tuneRankT T lo hi sig0 beta0 cfg root rk ((p.1, h), p.2)) := fun h => by
    have h1 := ((trials_clean (d := d) T lo hi cfg rk ((paramsOf cfg sig0 beta0 h).1 rk) (gridOf n cfg ((paramsOf cfg sig0 beta0 h).1 rk)) ((paramsOf cfg sig0 beta0 h).2 rk) cfg.nParm 0).arg
      (f := fun tab : Fin n → Pt d => (tab, ([] : Counts n))) (measurable_id.prodMk measurable_const)).keep
    have hd : Clean (unifStreams n) (onRoot root fun z : Counts n × Draws => decideT cfg (ratesOf cfg z.1) z.2) := (decide_clean cfg).root root
    have h2 := (hd.arg (f := fun q : (Fin n → Pt d) × ((Fin n → Pt d) × Counts n) => q.2.2) (measurable_snd.comp measurable_snd)).keep
    have h3 : Measurable (fun q : ((Fin n → Pt d) × ((Fin n → Pt d) × Counts n)) × (Int × Int) => ((q.1.1, .inl (rk, q.1.2.2, q.2) :: h) : (Fin n → Pt d) × Hist n)) :=
      (measurable_fst.comp measurable_fst).prodMk ((Measurable.of_discrete (f := fun z : Counts n × (Int × Int) => (.inl (rk, z.1, z.2) :: h : Hist n))).comp
        ((measurable_snd.comp (measurable_snd.comp measurable_fst)).prodMk measurable_snd))
    exact (h1.comp h2).map h3
  exact Clean.param key

theorem tuneRanks_clean (cfg : Cfg ℝ) (root : Fin n) (fl : Fin n → Int) : ∀ l : List (Fin n), Clean (unifStreams n) (tuneRanksT (d := d) T lo hi sig0 beta0 cfg root fl l)
  | [] => Clean.id
  | rk :: l => by
    have h := tuneRanks_clean cfg root fl l
    by_cases hf : fl rk = 1
    · have e : tuneRanksT (d := d) T lo hi sig0 beta0 cfg root fl (rk :: l) = fun p => tuneRanksT T lo hi sig0 beta0 cfg root fl l (tuneRankT T lo hi sig0 beta0 cfg root rk p) := by
        funext p
        rw [tuneRanksT, if_pos hf]
      rw [e]
      exact (tuneRank_clean T lo hi sig0 beta0 cfg root rk).comp h
    · have e : tuneRanksT (d := d) T lo hi sig0 beta0 cfg root fl (rk :: l) = tuneRanksT T lo hi sig0 beta0 cfg root fl l := by
        funext p
        rw [tuneRanksT, if_neg hf]
      rw [e]
      exact h

theorem roundZ_clean (cfg : Cfg ℝ) (root : Fin n) (i : Int) : Clean (unifStreams n) (roundZ (d := d) T lo hi sig0 beta0 cfg root i) := by
  have h := stackZ_clean (d := d) T lo hi sig0 beta0 cfg root cfg.nStack (i + cfg.nStack)
  by_cases hT : inTuneWindow cfg (i + cfg.nStack) = true
  · have h2 := h.comp (Clean.param (ι := Fin n → Nat) fun a => tuneRanks_clean (d := d) T lo hi sig0 beta0 cfg root (flagsOf cfg cfg.nStack a) (List.finRange n))
    have e : roundZ (d := d) T lo hi sig0 beta0 cfg root i = fun p => tuneRanksT T lo hi sig0 beta0 cfg root
        (flagsOf cfg cfg.nStack (stackZ T lo hi sig0 beta0 cfg root cfg.nStack (i + cfg.nStack) p).1.2) (List.finRange n)
        ((stackZ T lo hi sig0 beta0 cfg root cfg.nStack (i + cfg.nStack) p).1.1, (stackZ T lo hi sig0 beta0 cfg root cfg.nStack (i + cfg.nStack) p).2) := by
      funext p
      simp only [roundZ, if_pos hT]
    rw [e]
    exact h2
  · have e : roundZ (d := d) T lo hi sig0 beta0 cfg root i = fun p =>
        ((stackZ T lo hi sig0 beta0 cfg root cfg.nStack (i + cfg.nStack) p).1.1, (stackZ T lo hi sig0 beta0 cfg root cfg.nStack (i + cfg.nStack) p).2) := by
      funext p
      simp only [roundZ, if_neg hT]
    rw [e]
    exact h.map measurable_fst

theorem pre_clean (cfg : Cfg ℝ) (root : Fin n) : ∀ (k : Nat) (i : Int), Clean (unifStreams n) (preT (d := d) T lo hi sig0 beta0 cfg root k i)
  | 0, _ => Clean.id
  | k + 1, i => (roundZ_clean T lo hi sig0 beta0 cfg root i).comp (pre_clean cfg root k (i + cfg.nStack))

end

end NiiC
