import Mathlib.MeasureTheory.Function.Floor
import Verif.Refine.Streamed
import Verif.Props.Converge
import Verif.Props.Prior

/-!
# The law of a whole run: C77

`flowS` (`Verif.Refine.Streamed`) is the program without tuning as a function of the streams of numbers that its generators give. Here the streams
consist of independent uniform numbers of [0, 1). The number of draws of an iteration depends on the chain: the acceptance test reads a number only
when the log-posterior does not rise, the root also draws batch sizes and swap partners from its stream, and what is left over of a stream is used by
whatever comes next. All of this is fresh (`Verif.Prob.Fresh`), so the table after the run has the law of a composition of Markov kernels, and the
bounds of C75 and C76 hold for the run: exactly `N_iter` iterations of every chain, whatever the batches and swaps.
-/

set_option linter.unusedSectionVars false
set_option linter.unusedSimpArgs false

namespace NiiC

open MeasureTheory ProbabilityTheory Set ENNReal NNReal

/-- A stream of independent uniform numbers. -/
noncomputable def unifStream : Measure Draws := streamLaw unif

instance : IsProbabilityMeasure unifStream := by unfold unifStream; infer_instance

/-! ## What the program reads -/

theorem measurable_pop2 : Measurable pop2 := by
  have h1 : Measurable (fun ω => pop (pop ω).2) := measurable_pop.comp (measurable_snd.comp measurable_pop)
  exact ((measurable_fst.comp measurable_pop).prodMk (measurable_fst.comp h1)).prodMk (measurable_snd.comp h1)

theorem pop2_law : unifStream.map pop2 = (unif.prod unif).prod unifStream := by
  have h2 : Measurable (Prod.map (id : ℝ → ℝ) pop) := measurable_id.prodMap measurable_pop
  have e : pop2 = MeasurableEquiv.prodAssoc.symm ∘ (Prod.map id pop) ∘ pop := rfl
  rw [e, ← Measure.map_map (MeasurableEquiv.measurable _) (h2.comp measurable_pop), ← Measure.map_map h2 measurable_pop, unifStream, pop_law,
    ← Measure.map_prod_map _ _ measurable_id measurable_pop, Measure.map_id, pop_law]
  exact ((measurePreserving_prodAssoc unif unif (streamLaw unif)).symm _).map_eq

theorem cons_law {α : Type} [MeasurableSpace α] (μ : Measure α) [IsProbabilityMeasure μ] (d : Nat) :
    (μ.prod (Measure.pi fun _ : Fin d => μ)).map (fun q => (Fin.cons q.1 q.2 : Fin (d + 1) → α)) = Measure.pi fun _ : Fin (d + 1) => μ := by
  have hm : Measurable (fun q : α × (Fin d → α) => (Fin.cons q.1 q.2 : Fin (d + 1) → α)) := by
    refine measurable_pi_lambda _ fun i => ?_
    refine Fin.cases ?_ (fun i => ?_) i
    · simpa using measurable_fst
    · simp only [Fin.cons_succ]; fun_prop
  symm
  refine Measure.pi_eq fun C hC => ?_
  rw [Measure.map_apply hm (MeasurableSet.univ_pi hC)]
  have e : (fun q : α × (Fin d → α) => (Fin.cons q.1 q.2 : Fin (d + 1) → α)) ⁻¹' univ.pi C = C 0 ×ˢ univ.pi fun i : Fin d => C i.succ := by
    ext q
    simp only [mem_preimage, mem_univ_pi, mem_prod]
    constructor
    · intro h
      exact ⟨by simpa using h 0, fun i => by simpa using h i.succ⟩
    · rintro ⟨h1, h2⟩ i
      refine Fin.cases ?_ (fun i => ?_) i
      · simpa using h1
      · simpa using h2 i
  rw [e, Measure.prod_prod, Measure.pi_pi, Fin.prod_univ_succ]

theorem measurable_pairsS : ∀ d, Measurable (pairsS d)
  | 0 => measurable_const.prodMk measurable_id
  | d + 1 => by
    have h1 : Measurable (fun ω => pairsS d (pop2 ω).2) := (measurable_pairsS d).comp (measurable_snd.comp measurable_pop2)
    have h0 : Measurable (fun ω => (pop2 ω).1) := measurable_fst.comp measurable_pop2
    refine Measurable.prodMk (measurable_pi_lambda _ fun i => ?_) (measurable_snd.comp h1)
    refine Fin.cases ?_ (fun i => ?_) i
    · exact h0
    · exact (measurable_pi_apply i).comp (measurable_fst.comp h1)

theorem pairs_law : ∀ d, unifStream.map (pairsS d) = (Measure.pi fun _ : Fin d => unif.prod unif).prod unifStream
  | 0 => by
    have e : pairsS 0 = Prod.mk Fin.elim0 := rfl
    rw [e, Measure.pi_of_empty _ (Fin.elim0 : Fin 0 → ℝ × ℝ), Measure.dirac_prod]
  | d + 1 => by
    have hc : Measurable (fun q : (ℝ × ℝ) × (Fin d → ℝ × ℝ) => (Fin.cons q.1 q.2 : Fin (d + 1) → ℝ × ℝ)) := by
      refine measurable_pi_lambda _ fun i => ?_
      refine Fin.cases ?_ (fun i => ?_) i
      · simpa using measurable_fst
      · simp only [Fin.cons_succ]; fun_prop
    have h2 : Measurable (Prod.map (id : ℝ × ℝ → ℝ × ℝ) (pairsS d)) := measurable_id.prodMap (measurable_pairsS d)
    have h3 : Measurable (Prod.map (fun q : (ℝ × ℝ) × (Fin d → ℝ × ℝ) => (Fin.cons q.1 q.2 : Fin (d + 1) → ℝ × ℝ)) (id : Draws → Draws)) :=
      hc.prodMap measurable_id
    have e : pairsS (d + 1) = (Prod.map (fun q : (ℝ × ℝ) × (Fin d → ℝ × ℝ) => (Fin.cons q.1 q.2 : Fin (d + 1) → ℝ × ℝ)) (id : Draws → Draws)) ∘
        MeasurableEquiv.prodAssoc.symm ∘ (Prod.map id (pairsS d)) ∘ pop2 := rfl
    rw [e, ← Measure.map_map h3 ((MeasurableEquiv.measurable _).comp (h2.comp measurable_pop2)),
      ← Measure.map_map (MeasurableEquiv.measurable _) (h2.comp measurable_pop2), ← Measure.map_map h2 measurable_pop2, pop2_law,
      ← Measure.map_prod_map _ _ measurable_id (measurable_pairsS d), Measure.map_id, pairs_law d,
      ((measurePreserving_prodAssoc (unif.prod unif) (Measure.pi fun _ : Fin d => unif.prod unif) unifStream).symm _).map_eq,
      ← Measure.map_prod_map _ _ hc measurable_id, Measure.map_id, cons_law]

/-- A decision that reads a number only when it needs one. -/
theorem Fresh.lazy {α β : Type} [MeasurableSpace α] [MeasurableSpace β] {p : α → Prop} [DecidablePred p] (hp : MeasurableSet {a | p a}) {f : α × ℝ → β}
    (hf : Measurable f) {f0 : α → β} (hf0 : Measurable f0) (h : ∀ a u, p a → f (a, u) = f0 a) :
    Fresh unifStream (fun q : α × Draws => if p q.1 then (f0 q.1, q.2) else (f (q.1, (NiiC.pop q.2).1), (NiiC.pop q.2).2))
      ((Kernel.id ×ₖ Kernel.const α unif).map f) := by
  have hpm : Measurable (fun q : α × Draws => NiiC.pop q.2) := measurable_pop.comp measurable_snd
  refine ⟨Measurable.ite (measurable_fst hp) ((hf0.comp measurable_fst).prodMk measurable_snd)
    ((hf.comp (measurable_fst.prodMk (measurable_fst.comp hpm))).prodMk (measurable_snd.comp hpm)), fun a => ?_⟩
  have hk : ((Kernel.id ×ₖ Kernel.const α unif).map f) a = unif.map fun u => f (a, u) := by
    rw [Kernel.map_apply _ hf, Kernel.prod_apply, Kernel.id_apply, Kernel.const_apply, Measure.dirac_prod, Measure.map_map hf measurable_prodMk_left]
    rfl
  have hfa : Measurable fun u => f (a, u) := hf.comp measurable_prodMk_left
  rw [hk]
  by_cases ha : p a
  · have e1 : (fun u => f (a, u)) = fun _ => f0 a := funext fun u => h a u ha
    simp only [ha, if_true]
    rw [e1, Measure.map_const, measure_univ, one_smul, Measure.dirac_prod]
  · simp only [ha, if_false]
    have e2 : (fun ω : Draws => (f (a, (NiiC.pop ω).1), (NiiC.pop ω).2)) = (Prod.map (fun u => f (a, u)) (_root_.id : Draws → Draws)) ∘ NiiC.pop := rfl
    rw [e2, ← Measure.map_map (hfa.prodMap measurable_id) measurable_pop, unifStream, pop_law, ← Measure.map_prod_map _ _ hfa measurable_id, Measure.map_id]

section
variable {n d : Nat} (S : Setting n d)

/-! ## The parts of the program -/

/-- A proposal and its test, with the number of the test read only if it is needed. -/
theorem test_fresh (lp : (Fin d → ℝ) → ℝ) (hlp : Measurable lp) (pr : (Fin d → ℝ) × (Fin d → ℝ × ℝ) → (Fin d → ℝ)) (hpr : Measurable pr) :
    Fresh unifStream (fun q : ((Fin d → ℝ) × (Fin d → ℝ × ℝ)) × Draws => (if (acceptS (lp (pr q.1)) (lp q.1.1) q.2).1 then pr q.1 else q.1.1,
      (acceptS (lp (pr q.1)) (lp q.1.1) q.2).2))
      ((Kernel.id ×ₖ Kernel.const ((Fin d → ℝ) × (Fin d → ℝ × ℝ)) unif).map (fun z => mhMove lp (z.1.1, pr z.1, z.2))) := by
  have hnew : Measurable (fun q : (Fin d → ℝ) × (Fin d → ℝ × ℝ) => lp (pr q)) := hlp.comp hpr
  have hold : Measurable (fun q : (Fin d → ℝ) × (Fin d → ℝ × ℝ) => lp q.1) := hlp.comp measurable_fst
  have hset : MeasurableSet {q : (Fin d → ℝ) × (Fin d → ℝ × ℝ) | (Arith.log (ofI 1 /. ofI 1) <. (lp (pr q) -. lp q.1)) = true} := by
    have : {q : (Fin d → ℝ) × (Fin d → ℝ × ℝ) | (Arith.log (ofI 1 /. ofI 1) <. (lp (pr q) -. lp q.1)) = true} = {q | 0 < lp (pr q) - lp q.1} := by
      ext q
      simp only [RealArith.lt_iff, RealArith.log_eq, RealArith.ofI_eq, RealArith.div_eq, RealArith.sub_eq, Int.cast_one, div_one, Real.log_one, mem_ofPred_eq]
    rw [this]
    exact measurableSet_lt measurable_const (hnew.sub hold)
  have hf : Measurable (fun z : ((Fin d → ℝ) × (Fin d → ℝ × ℝ)) × ℝ => mhMove lp (z.1.1, pr z.1, z.2)) :=
    (measurable_mhMove lp hlp).comp ((measurable_fst.comp measurable_fst).prodMk ((hpr.comp measurable_fst).prodMk measurable_snd))
  have h2 := Fresh.lazy hset hf (f0 := pr) hpr (fun q u hq => by
    have hq' : (Arith.log (ofI 1 /. ofI 1) <. (lp (pr q) -. lp q.1)) = true := hq
    simp only [mhMove, mhTest, hq', Bool.true_or, if_true])
  have e : (fun q : ((Fin d → ℝ) × (Fin d → ℝ × ℝ)) × Draws => (if (acceptS (lp (pr q.1)) (lp q.1.1) q.2).1 then pr q.1 else q.1.1,
      (acceptS (lp (pr q.1)) (lp q.1.1) q.2).2)) = fun q => if (Arith.log (ofI 1 /. ofI 1) <. (lp (pr q.1) -. lp q.1.1)) = true then (pr q.1, q.2)
      else (mhMove lp (q.1.1, pr q.1, (pop q.2).1), (pop q.2).2) := by
    funext q
    by_cases hq : (Arith.log (ofI 1 /. ofI 1) <. (lp (pr q.1) -. lp q.1.1)) = true
    · simp only [acceptS, hq, if_true]
    · simp only [acceptS, mhMove, mhTest, Bool.eq_false_iff.2 hq, Bool.false_or, Bool.false_eq_true, if_false]
  rw [e]
  exact h2

theorem pairs_fresh {α : Type} [MeasurableSpace α] (d : Nat) :
    Fresh unifStream (fun p : α × Draws => pairsS d p.2) (Kernel.const α (Measure.pi fun _ : Fin d => unif.prod unif)) :=
  ⟨(measurable_pairsS d).comp measurable_snd, fun _ => by rw [Kernel.const_apply]; exact pairs_law d⟩

theorem test_comp (lp : (Fin d → ℝ) → ℝ) (hlp : Measurable lp) (pr : (Fin d → ℝ) × (Fin d → ℝ × ℝ) → (Fin d → ℝ)) (hpr : Measurable pr) (x : Fin d → ℝ) :
    (((Kernel.id ×ₖ Kernel.const ((Fin d → ℝ) × (Fin d → ℝ × ℝ)) unif).map (fun z => mhMove lp (z.1.1, pr z.1, z.2))) ∘ₖ
      (Kernel.id ×ₖ Kernel.const (Fin d → ℝ) (Measure.pi fun _ : Fin d => unif.prod unif))) x =
      ((Measure.pi fun _ : Fin d => unif.prod unif).prod unif).map fun q => mhMove lp (x, pr (x, q.1), q.2) := by
  have hf : Measurable (fun z : ((Fin d → ℝ) × (Fin d → ℝ × ℝ)) × ℝ => mhMove lp (z.1.1, pr z.1, z.2)) :=
    (measurable_mhMove lp hlp).comp ((measurable_fst.comp measurable_fst).prodMk ((hpr.comp measurable_fst).prodMk measurable_snd))
  have hmx : Measurable (fun q : (Fin d → ℝ × ℝ) × ℝ => mhMove lp (x, pr (x, q.1), q.2)) :=
    hf.comp ((measurable_const.prodMk measurable_fst).prodMk measurable_snd)
  ext B hB
  rw [Kernel.comp_apply' _ _ _ hB, Kernel.prod_apply, Kernel.id_apply, Kernel.const_apply, Measure.dirac_prod,
    lintegral_map (Kernel.measurable_coe _ hB) measurable_prodMk_left, Measure.map_apply hmx hB, Measure.prod_apply (hmx hB)]
  refine lintegral_congr fun w => ?_
  rw [Kernel.map_apply' _ hf _ hB, Kernel.prod_apply, Kernel.id_apply, Kernel.const_apply, Measure.dirac_prod,
    Measure.map_apply measurable_prodMk_left (hf hB)]
  rfl

theorem step_fresh (r : Fin n) : Fresh unifStream (stepS S r) (iterKernel S.lo S.hi (S.s r) (S.T.lp (S.beta r))) := by
  have hlp : Measurable (S.T.lp (S.beta r)) := S.T.measurable _
  have hpr := measurable_proposal S.lo S.hi (S.s r)
  have hf : Measurable (fun z : ((Fin d → ℝ) × (Fin d → ℝ × ℝ)) × ℝ => mhMove (S.T.lp (S.beta r)) (z.1.1, proposal S.lo S.hi (S.s r) z.1.1 z.1.2, z.2)) :=
    (measurable_mhMove _ hlp).comp ((measurable_fst.comp measurable_fst).prodMk ((hpr.comp measurable_fst).prodMk measurable_snd))
  have hmk : IsMarkovKernel ((Kernel.id ×ₖ Kernel.const ((Fin d → ℝ) × (Fin d → ℝ × ℝ)) unif).map
      (fun z : ((Fin d → ℝ) × (Fin d → ℝ × ℝ)) × ℝ => mhMove (S.T.lp (S.beta r)) (z.1.1, proposal S.lo S.hi (S.s r) z.1.1 z.1.2, z.2))) :=
    Kernel.IsMarkovKernel.map _ hf
  have h3 := (pairs_fresh (α := Fin d → ℝ) d).keep.comp (test_fresh (S.T.lp (S.beta r)) hlp _ hpr)
  refine Fresh.congr h3 fun x => ?_
  rw [test_comp _ hlp _ hpr]
  have hm := measurable_iteration S.lo S.hi (S.s r) hlp
  rw [iterKernel, Kernel.map_apply _ hm, Kernel.prod_apply, Kernel.id_apply, Kernel.const_apply, Measure.dirac_prod,
    Measure.map_map hm measurable_prodMk_left]
  rfl

/-- The streams of all ranks: independent. -/
noncomputable def unifStreams (n : Nat) : Measure (Fin n → Draws) := Measure.pi fun _ => unifStream

instance (n : Nat) : IsProbabilityMeasure (unifStreams n) := by unfold unifStreams; infer_instance

theorem round_fresh : Fresh (unifStreams n) (roundS S) (moveKernel S.T S.lo S.hi S.s S.beta .iter) :=
  Fresh.par fun r => step_fresh S r

theorem measurable_swapMove (beta : Fin n → ℝ) (T : Target d) (i j : Fin n) :
    Measurable (fun p : (Fin n → Fin d → ℝ) × ℝ => swapMove beta T.L T.Pr i j p.1 p.2) := by
  have a : ∀ r, Measurable (fun p : (Fin n → Fin d → ℝ) × ℝ => T.L (p.1 r)) := fun r => T.hL.comp ((measurable_pi_apply r).comp measurable_fst)
  have b : ∀ r, Measurable (fun p : (Fin n → Fin d → ℝ) × ℝ => T.Pr (p.1 r)) := fun r => T.hP.comp ((measurable_pi_apply r).comp measurable_fst)
  have c : ∀ s r, Measurable (fun p : (Fin n → Fin d → ℝ) × ℝ => beta s * T.L (p.1 r) + T.Pr (p.1 r)) := fun s r => (measurable_const.mul (a r)).add (b r)
  have e := (((c j i).add (c i j)).sub (c i i)).sub (c j j)
  refine Measurable.ite ?_ ((measurable_swapIdx i j).comp measurable_fst) measurable_fst
  simp only [swapTest, Bool.or_eq_true, RealArith.lt_iff, RealArith.ofI_eq, RealArith.sub_eq, RealArith.add_eq, RealArith.exp_eq, Int.cast_zero]
  exact (measurableSet_lt measurable_const e).union (measurableSet_lt measurable_snd (Real.measurable_exp.comp e))

theorem swapKernel_markov' (beta : Fin n → ℝ) (T : Target d) (i j : Fin n) : IsMarkovKernel (swapKernel beta T.L T.Pr i j) :=
  Kernel.IsMarkovKernel.map _ (measurable_swapMove beta T i j)

theorem judge_fresh (i j : Fin n) : Fresh unifStream (judgeS S i j) (swapKernel S.beta S.T.L S.T.Pr i j) := by
  have hd : ∀ a b : Fin n, Measurable (fun x : Fin n → Fin d → ℝ => S.T.lp (S.beta a) (x b)) := fun a b =>
    (S.T.measurable _).comp (measurable_pi_apply b)
  have hset : MeasurableSet {x : Fin n → Fin d → ℝ | (ofI 0 <. (S.T.lp (S.beta j) (x i) +. S.T.lp (S.beta i) (x j) -. S.T.lp (S.beta i) (x i) -.
      S.T.lp (S.beta j) (x j))) = true} := by
    simp only [RealArith.lt_iff, RealArith.ofI_eq, RealArith.sub_eq, RealArith.add_eq, Int.cast_zero]
    exact measurableSet_lt measurable_const ((((hd j i).add (hd i j)).sub (hd i i)).sub (hd j j))
  have h := Fresh.lazy (p := fun x : Fin n → Fin d → ℝ => (ofI 0 <. (S.T.lp (S.beta j) (x i) +. S.T.lp (S.beta i) (x j) -. S.T.lp (S.beta i) (x i) -.
      S.T.lp (S.beta j) (x j))) = true) hset (measurable_swapMove S.beta S.T i j) (f0 := fun x => x ∘ Equiv.swap i j) (measurable_swapIdx i j)
      (fun x u hx => by
        have hx' : (ofI 0 <. ((S.beta j * S.T.L (x i) + S.T.Pr (x i)) +. (S.beta i * S.T.L (x j) + S.T.Pr (x j)) -. (S.beta i * S.T.L (x i) + S.T.Pr (x i)) -.
          (S.beta j * S.T.L (x j) + S.T.Pr (x j)))) = true := hx
        simp only [swapMove, swapTest, hx', Bool.true_or, if_true])
  have e : judgeS S i j = fun q : (Fin n → Fin d → ℝ) × Draws => if (ofI 0 <. (S.T.lp (S.beta j) (q.1 i) +. S.T.lp (S.beta i) (q.1 j) -.
      S.T.lp (S.beta i) (q.1 i) -. S.T.lp (S.beta j) (q.1 j))) = true then (q.1 ∘ Equiv.swap i j, q.2)
      else (swapMove S.beta S.T.L S.T.Pr i j q.1 (pop q.2).1, (pop q.2).2) := by
    funext q
    simp only [judgeS]
    split
    · rfl
    · rename_i hno
      have hno' : (ofI 0 <. ((S.beta j * S.T.L (q.1 i) + S.T.Pr (q.1 i)) +. (S.beta i * S.T.L (q.1 j) + S.T.Pr (q.1 j)) -.
          (S.beta i * S.T.L (q.1 i) + S.T.Pr (q.1 i)) -. (S.beta j * S.T.L (q.1 j) + S.T.Pr (q.1 j)))) = false := Bool.eq_false_iff.2 hno
      simp only [swapMove, swapTest, hno', Bool.false_or]
      rfl
  rw [e]
  exact h

/-- The law of the judgement for numbers that may be no indices. -/
noncomputable def judgeKernel (ij : Int × Int) : Kernel (Fin n → Fin d → ℝ) (Fin n → Fin d → ℝ) :=
  match toIdx n ij.1, toIdx n ij.2 with
  | .ok i, .ok j => swapKernel S.beta S.T.L S.T.Pr i j
  | _, _ => Kernel.id

theorem judgeI_fresh (ij : Int × Int) : Fresh unifStream (judgeI S ij) (judgeKernel S ij) := by
  unfold judgeKernel
  have e : judgeI S ij = fun p => match toIdx n ij.1, toIdx n ij.2 with
    | .ok i, .ok j => judgeS S i j p
    | _, _ => p := rfl
  rw [e]
  cases toIdx n ij.1 with
  | error => exact Fresh.id
  | ok i =>
    cases toIdx n ij.2 with
    | error => exact Fresh.id
    | ok j => exact judge_fresh S i j

instance (ij : Int × Int) : IsMarkovKernel (judgeKernel S ij) := by
  unfold judgeKernel
  split
  · exact swapKernel_markov' _ _ _ _
  · infer_instance

theorem measurable_unif0a (a : Int) : Measurable (fun u : ℝ => i4Unif0aVal a u) := by
  simp only [i4Unif0aVal, RealArith.floorI_eq, RealArith.mul_eq]
  exact Int.measurable_floor.comp (by fun_prop)

theorem measurable_unifAb (a b : Int) : Measurable (fun u : ℝ => i4UnifAbVal a b u) := by
  simp only [i4UnifAbVal, RealArith.roundI_eq, RealArith.mul_eq]
  refine (Measurable.ite (measurableSet_le measurable_const (by fun_prop)) (Int.measurable_floor.comp (by fun_prop)) (Int.measurable_ceil.comp (by fun_prop))).add measurable_const

/-- The law of the pair of chains chosen for a swap. -/
noncomputable def pickLaw (n : Nat) (mode : Int) : Measure (Int × Int) :=
  if mode = 0 then unif.map fun u => (i4Unif0aVal ((n : Int) - 1) u, i4Unif0aVal ((n : Int) - 1) u + 1)
  else (unif.prod unif).map fun u => (i4Unif0aVal ((n : Int) - 1) u.1,
    if i4Unif0aVal ((n : Int) - 1) u.1 ≤ i4Unif0aVal ((n : Int) - 1) u.2 then i4Unif0aVal ((n : Int) - 1) u.2 + 1 else i4Unif0aVal ((n : Int) - 1) u.2)

theorem measurable_pick0 (n : Nat) : Measurable (fun u : ℝ => (i4Unif0aVal ((n : Int) - 1) u, i4Unif0aVal ((n : Int) - 1) u + 1)) :=
  (measurable_unif0a _).prodMk ((measurable_unif0a _).add measurable_const)

theorem measurable_pick1 (n : Nat) : Measurable (fun u : ℝ × ℝ => (i4Unif0aVal ((n : Int) - 1) u.1,
    if i4Unif0aVal ((n : Int) - 1) u.1 ≤ i4Unif0aVal ((n : Int) - 1) u.2 then i4Unif0aVal ((n : Int) - 1) u.2 + 1 else i4Unif0aVal ((n : Int) - 1) u.2)) := by
  have h1 : Measurable (fun u : ℝ × ℝ => i4Unif0aVal ((n : Int) - 1) u.1) := (measurable_unif0a _).comp measurable_fst
  have h2 : Measurable (fun u : ℝ × ℝ => i4Unif0aVal ((n : Int) - 1) u.2) := (measurable_unif0a _).comp measurable_snd
  exact h1.prodMk (Measurable.ite (measurableSet_le h1 h2) (h2.add measurable_const) h2)

instance (mode : Int) : IsProbabilityMeasure (pickLaw n mode) := by
  unfold pickLaw
  split
  · exact Measure.isProbabilityMeasure_map (measurable_pick0 n).aemeasurable
  · exact Measure.isProbabilityMeasure_map (measurable_pick1 n).aemeasurable

theorem pick_fresh {α : Type} [MeasurableSpace α] (mode : Int) : Fresh unifStream (fun p : α × Draws => pickS n mode p.2) (Kernel.const α (pickLaw n mode)) := by
  by_cases hm : mode = 0
  · have e : pickS n mode = fun ω => Prod.map (fun u => (i4Unif0aVal ((n : Int) - 1) u, i4Unif0aVal ((n : Int) - 1) u + 1)) id (pop ω) := by
      funext ω; simp only [pickS, hm, if_true, Prod.map]; rfl
    have hmm := (measurable_pick0 n).prodMap (measurable_id (α := Draws))
    refine ⟨by rw [e]; exact (hmm.comp measurable_pop).comp measurable_snd, fun a => ?_⟩
    simp only [e]
    rw [Kernel.const_apply]
    have e2 : (fun ω : Draws => Prod.map (fun u => (i4Unif0aVal ((n : Int) - 1) u, i4Unif0aVal ((n : Int) - 1) u + 1)) id (pop ω)) =
        (Prod.map (fun u => (i4Unif0aVal ((n : Int) - 1) u, i4Unif0aVal ((n : Int) - 1) u + 1)) id) ∘ pop := rfl
    rw [e2, ← Measure.map_map hmm measurable_pop, unifStream, pop_law, ← Measure.map_prod_map _ _ (measurable_pick0 n) measurable_id, Measure.map_id,
      pickLaw, if_pos hm]
  · have e : pickS n mode = fun ω => Prod.map (fun u : ℝ × ℝ => (i4Unif0aVal ((n : Int) - 1) u.1,
        if i4Unif0aVal ((n : Int) - 1) u.1 ≤ i4Unif0aVal ((n : Int) - 1) u.2 then i4Unif0aVal ((n : Int) - 1) u.2 + 1 else i4Unif0aVal ((n : Int) - 1) u.2)) id (pop2 ω) := by
      funext ω; simp only [pickS, hm, if_false, Prod.map]; rfl
    have hmm := (measurable_pick1 n).prodMap (measurable_id (α := Draws))
    refine ⟨by rw [e]; exact (hmm.comp measurable_pop2).comp measurable_snd, fun a => ?_⟩
    rw [Kernel.const_apply, pickLaw, if_neg hm, ← Measure.map_id (μ := unifStream), Measure.map_prod_map _ _ (measurable_pick1 n) measurable_id, Measure.map_id,
      ← pop2_law, Measure.map_map hmm measurable_pop2, e]
    rfl

/-- The law of a swap attempt. -/
noncomputable def attemptKernel (mode : Int) : Kernel (Fin n → Fin d → ℝ) (Fin n → Fin d → ℝ) := mixKernel (pickLaw n mode) (judgeKernel S)

theorem swap_fresh (mode : Int) : Fresh unifStream (swapS S mode) (attemptKernel S mode) :=
  Fresh.branch (pickLaw n mode) (judgeKernel S) (pick_fresh mode) (fun ij => judgeI_fresh S ij)

/-- Two different chains are chosen. -/
theorem pick_apart (hn : 2 ≤ n) (mode : Int) : ∀ᵐ ij ∂(pickLaw n mode), ∃ i j : Fin n, toIdx n ij.1 = .ok i ∧ toIdx n ij.2 = .ok j ∧ i ≠ j := by
  have hu : ∀ᵐ u ∂unif, u ∈ Ico (0 : ℝ) 1 := ae_restrict_mem measurableSet_Ico
  have hval : ∀ u : ℝ, u ∈ Ico (0 : ℝ) 1 → 0 ≤ i4Unif0aVal ((n : Int) - 1) u ∧ i4Unif0aVal ((n : Int) - 1) u < (n : Int) - 1 := fun u hu =>
    i4Unif0aVal_real ((n : Int) - 1) (by omega) u hu.1 hu.2
  have hidx : ∀ a b : Int, 0 ≤ a → a < n → 0 ≤ b → b < n → a ≠ b → ∃ i j : Fin n, toIdx n a = .ok i ∧ toIdx n b = .ok j ∧ i ≠ j := by
    intro a b h1 h2 h3 h4 h5
    obtain ⟨i, hi⟩ := toIdx_ok (n := n) h1 h2
    obtain ⟨j, hj⟩ := toIdx_ok (n := n) h3 h4
    refine ⟨i, j, hi, hj, fun hij => h5 ?_⟩
    have e1 := toIdx_val hi
    have e2 := toIdx_val hj
    rw [← e1, ← e2, hij]
  unfold pickLaw
  split
  · rw [ae_map_iff (measurable_pick0 n).aemeasurable (MeasurableSet.of_discrete)]
    filter_upwards [hu] with u hu
    obtain ⟨h1, h2⟩ := hval u hu
    exact hidx _ _ h1 (by omega) (by omega) (by omega) (by omega)
  · rw [ae_map_iff (measurable_pick1 n).aemeasurable (MeasurableSet.of_discrete)]
    have h2 : ∀ᵐ p ∂(unif.prod unif), p.1 ∈ Ico (0 : ℝ) 1 ∧ p.2 ∈ Ico (0 : ℝ) 1 := by
      have a1 := (Measure.quasiMeasurePreserving_fst (μ := unif) (ν := unif)).ae hu
      have a2 := (Measure.quasiMeasurePreserving_snd (μ := unif) (ν := unif)).ae hu
      exact a1.and a2
    filter_upwards [h2] with p hp
    obtain ⟨h1, h2⟩ := hval p.1 hp.1
    obtain ⟨h3, h4⟩ := hval p.2 hp.2
    refine hidx _ _ h1 (by omega) ?_ ?_ ?_ <;> split <;> omega

/-- The law of the random part of a batch. -/
noncomputable def sizeLaw (rand : Int) : Measure Int := unif.map fun u => i4UnifAbVal (-rand) rand u

instance (rand : Int) : IsProbabilityMeasure (sizeLaw rand) := Measure.isProbabilityMeasure_map (measurable_unifAb _ _).aemeasurable

theorem size_range (rand : Int) (h : 0 ≤ rand) : ∀ᵐ k ∂(sizeLaw rand), -rand ≤ k ∧ k ≤ rand := by
  have hu : ∀ᵐ u ∂unif, u ∈ Ico (0 : ℝ) 1 := ae_restrict_mem measurableSet_Ico
  rw [sizeLaw, ae_map_iff (measurable_unifAb _ _).aemeasurable (MeasurableSet.of_discrete)]
  filter_upwards [hu] with u hu
  exact i4UnifAbVal_real (-rand) rand (by omega) u hu.1 hu.2

theorem size_fresh {α : Type} [MeasurableSpace α] (rand : Int) :
    Fresh unifStream (fun p : α × Draws => (i4UnifAbVal (-rand) rand (pop p.2).1, (pop p.2).2)) (Kernel.const α (sizeLaw rand)) := by
  have h := (Fresh.pop (α := α) unif).map (measurable_unifAb (-rand) rand)
  refine Fresh.congr h fun a => ?_
  rw [Kernel.map_apply _ (measurable_unifAb _ _), Kernel.const_apply, Kernel.const_apply]
  rfl

/-! ## Kernels that approach the target -/

/-- The kernel keeps the box and brings laws nearer to the target as `k` iterations do (C76). -/
structure Good (v : Fin n → ℝ) (k : Nat) (κ : Kernel (Fin n → Fin d → ℝ) (Fin n → Fin d → ℝ)) : Prop where
  box : ∀ x ∈ tableBox (n := n) S.lo S.hi, ∀ᵐ y ∂(κ x), y ∈ tableBox S.lo S.hi
  near : ∀ (P : Measure (Fin n → Fin d → ℝ)) [IsProbabilityMeasure P] (δ : ℝ≥0∞), (∀ᵐ x ∂P, x ∈ tableBox S.lo S.hi) → Tv δ P (jointLaw S.T S.lo S.hi S.beta) →
    Tv (deviation (gain S.lo S.hi S.s v) (leakAll S.lo S.hi S.s) k δ) (P.bind κ) (jointLaw S.T S.lo S.hi S.beta)
  shrink : ∀ (P Q : Measure (Fin n → Fin d → ℝ)) [IsProbabilityMeasure P] [IsProbabilityMeasure Q] (δ : ℝ≥0∞), (∀ᵐ x ∂P, x ∈ tableBox S.lo S.hi) →
    (∀ᵐ x ∂Q, x ∈ tableBox S.lo S.hi) → Tv δ P Q → Tv ((1 - gain S.lo S.hi S.s v) ^ k * δ) (P.bind κ) (Q.bind κ)

theorem deviation_add (c e : ℝ≥0∞) : ∀ (a b : Nat) (δ : ℝ≥0∞), deviation c e b (deviation c e a δ) = deviation c e (a + b) δ := by
  intro a
  induction a with
  | zero => intro b δ; simp [deviation]
  | succ a ih =>
    intro b δ
    rw [deviation, ih, Nat.add_right_comm]
    rfl

variable {S}

theorem Good.id (v : Fin n → ℝ) : Good S v 0 Kernel.id := by
  refine ⟨fun x hx => ?_, fun P _ δ _ h => ?_, fun P Q _ _ δ _ _ h => ?_⟩
  · rw [Kernel.id_apply]
    exact (ae_dirac_iff (p := fun y => y ∈ tableBox (n := n) S.lo S.hi) (measurableSet_tableBox _ _)).2 hx
  · simpa [deviation, Measure.id_comp] using h
  · simpa [Measure.id_comp] using h

theorem Good.comp {v : Fin n → ℝ} {a b : Nat} {κ η : Kernel (Fin n → Fin d → ℝ) (Fin n → Fin d → ℝ)} [IsMarkovKernel κ] [IsMarkovKernel η]
    (h : Good S v a κ) (h' : Good S v b η) : Good S v (a + b) (η ∘ₖ κ) := by
  refine ⟨fun x hx => ?_, fun P _ δ hP hT => ?_, fun P Q _ _ δ hP hQ hT => ?_⟩
  · rw [Kernel.comp_apply]
    exact bind_ae η (measurableSet_tableBox _ _) (h.box x hx) h'.box
  · rw [← Measure.comp_assoc, ← deviation_add]
    exact h'.near _ _ (bind_ae κ (measurableSet_tableBox _ _) hP h.box) (h.near P δ hP hT)
  · rw [← Measure.comp_assoc, ← Measure.comp_assoc, pow_add, mul_comm (_ ^ a), mul_assoc]
    exact h'.shrink _ _ _ (bind_ae κ (measurableSet_tableBox _ _) hP h.box) (bind_ae κ (measurableSet_tableBox _ _) hQ h.box) (h.shrink P Q δ hP hQ hT)

theorem Good.mix {v : Fin n → ℝ} {k : Nat} {ι : Type} [Countable ι] [MeasurableSpace ι] [DiscreteMeasurableSpace ι] (ν : Measure ι) [IsProbabilityMeasure ν]
    (κ : ι → Kernel (Fin n → Fin d → ℝ) (Fin n → Fin d → ℝ)) [∀ i, IsMarkovKernel (κ i)] (h : ∀ᵐ i ∂ν, Good S v k (κ i)) : Good S v k (mixKernel ν κ) := by
  have hS := measurableSet_tableBox (n := n) S.lo S.hi
  refine ⟨fun x hx => ?_, fun P _ δ hP hT A hA => ?_, fun P Q _ _ δ hP hQ hT A hA => ?_⟩
  · show mixKernel ν κ x (tableBox S.lo S.hi)ᶜ = 0
    rw [mixKernel_apply ν κ x hS.compl, lintegral_eq_zero_iff (measurable_of_countable _)]
    exact h.mono fun i hi => hi.box x hx
  · rw [mixKernel_bind ν κ P hA]
    calc ∫⁻ i, P.bind (κ i) A ∂ν ≤ ∫⁻ _i, (jointLaw S.T S.lo S.hi S.beta A + deviation (gain S.lo S.hi S.s v) (leakAll S.lo S.hi S.s) k δ) ∂ν :=
          lintegral_mono_ae (h.mono fun i hi => hi.near P δ hP hT A hA)
      _ = _ := by rw [lintegral_const, measure_univ, mul_one]
  · rw [mixKernel_bind ν κ P hA, mixKernel_bind ν κ Q hA]
    calc ∫⁻ i, P.bind (κ i) A ∂ν ≤ ∫⁻ i, (Q.bind (κ i) A + (1 - gain S.lo S.hi S.s v) ^ k * δ) ∂ν :=
          lintegral_mono_ae (h.mono fun i hi => hi.shrink P Q δ hP hQ hT A hA)
      _ = _ := by rw [lintegral_add_right _ measurable_const, lintegral_const, measure_univ, mul_one]

/-- The hypotheses of C76. -/
structure Setting.Proper (S : Setting n d) (v : Fin n → ℝ) : Prop where
  range : ∀ i, S.lo i < S.hi i
  width : ∀ r i, S.s r i ≠ 0
  varies : ∀ r, Varies S.lo S.hi (S.T.lp (S.beta r)) (v r)

theorem Good.iter {v : Fin n → ℝ} (hS : S.Proper v) : Good S v 1 (moveKernel S.T S.lo S.hi S.s S.beta .iter) := by
  have hap : Apart ([.iter] : List (Move n)) := fun i j h => by simp at h
  have hmk := moveKernel_markov S.T S.lo S.hi S.s S.beta (.iter : Move n) (fun i j e => by cases e)
  have hle := gain_le_one S.T S.lo S.hi hS.range S.s hS.width S.beta v hS.varies
  have hup := uniformAll_prob (n := n) S.lo S.hi hS.range
  refine ⟨fun x hx => move_closed S.T S.lo S.hi hS.range S.s S.beta .iter (fun i j e => by cases e) x hx, fun P _ δ hP hT => ?_, fun P Q _ _ δ hP hQ hT => ?_⟩
  · exact converge_tv S.T S.lo S.hi hS.range S.s hS.width S.beta v hS.varies [.iter] hap δ P hP hT
  · rw [pow_one]
    exact hT.contract (moveKernel S.T S.lo S.hi S.s S.beta .iter) (uniformAll n S.lo S.hi) (tableBox S.lo S.hi) hle
      (fun x hx B _ => round_gain S.T S.lo S.hi hS.range S.s hS.width S.beta v hS.varies x hx B) hP hQ

theorem Good.swap {v : Fin n → ℝ} (hS : S.Proper v) {i j : Fin n} (hij : i ≠ j) : Good S v 0 (swapKernel S.beta S.T.L S.T.Pr i j) := by
  have hne : ∀ a b, (Move.swap i j : Move n) = .swap a b → a ≠ b := fun a b e => by cases e; exact hij
  have hap : Apart ([.swap i j] : List (Move n)) := fun a b h => by
    simp at h; obtain ⟨rfl, rfl⟩ := h; exact hij
  have hmk := moveKernel_markov S.T S.lo S.hi S.s S.beta (.swap i j) hne
  refine ⟨fun x hx => move_closed S.T S.lo S.hi hS.range S.s S.beta (.swap i j) hne x hx, fun P _ δ hP hT => ?_, fun P Q _ _ δ hP hQ hT => ?_⟩
  · exact converge_tv S.T S.lo S.hi hS.range S.s hS.width S.beta v hS.varies [.swap i j] hap δ P hP hT
  · rw [pow_zero, one_mul]
    exact hT.bind (moveKernel S.T S.lo S.hi S.s S.beta (.swap i j))

theorem Good.attempt {v : Fin n → ℝ} (hS : S.Proper v) (hn : 2 ≤ n) (mode : Int) : Good S v 0 (attemptKernel S mode) := by
  refine Good.mix _ _ ((pick_apart hn mode).mono fun ij h => ?_)
  obtain ⟨i, j, hi, hj, hij⟩ := h
  unfold judgeKernel
  rw [hi, hj]
  exact Good.swap hS hij

/-! ## The whole run -/

variable (S) in
/-- The program `m` is fresh, and its law is that of a Markov kernel that behaves like `k` iterations, if `good`. -/
def Runs (v : Fin n → ℝ) (good : Prop) (k : Nat) (m : (Fin n → Fin d → ℝ) × (Fin n → Draws) → (Fin n → Fin d → ℝ) × (Fin n → Draws)) : Prop :=
  ∃ κ : Kernel (Fin n → Fin d → ℝ) (Fin n → Fin d → ℝ), IsMarkovKernel κ ∧ Fresh (unifStreams n) m κ ∧ (good → Good S v k κ)

theorem Runs.comp {v : Fin n → ℝ} {g g' : Prop} {a b : Nat} {m m' : (Fin n → Fin d → ℝ) × (Fin n → Draws) → (Fin n → Fin d → ℝ) × (Fin n → Draws)}
    (h : Runs S v g a m) (h' : Runs S v g' b m') : Runs S v (g ∧ g') (a + b) (fun p => m' (m p)) := by
  obtain ⟨κ, hk, hf, hg⟩ := h
  obtain ⟨η, hk', hf', hg'⟩ := h'
  exact ⟨η ∘ₖ κ, inferInstance, hf.comp hf', fun c => (hg c.1).comp (hg' c.2)⟩

theorem Runs.iterate {v : Fin n → ℝ} {g : Prop} {a : Nat} {m : (Fin n → Fin d → ℝ) × (Fin n → Draws) → (Fin n → Fin d → ℝ) × (Fin n → Draws)}
    (h : Runs S v g a m) : ∀ k : Nat, Runs S v g (k * a) (m^[k]) := by
  intro k
  induction k with
  | zero => exact ⟨Kernel.id, inferInstance, Fresh.id, fun _ => by rw [Nat.zero_mul]; exact Good.id v⟩
  | succ k ih =>
    obtain ⟨κ, h1, h2, h3⟩ := h.comp ih
    refine ⟨κ, h1, ?_, fun c => ?_⟩
    · exact h2
    · rw [Nat.succ_mul, Nat.add_comm]
      exact h3 ⟨c, c⟩

variable {v : Fin n → ℝ} (cfg : Cfg ℝ) (root : Fin n)

theorem leg_runs (hS : S.Proper v) (hn : 2 ≤ n) (b : Int) : Runs S v True b.toNat (legS S cfg root b) := by
  have h1 : Runs S v True 1 (roundS S) := ⟨_, moveKernel_markov S.T S.lo S.hi S.s S.beta (.iter : Move n) (fun i j e => by cases e), round_fresh S, fun _ => Good.iter hS⟩
  have hmk : IsMarkovKernel (attemptKernel S cfg.swapmode) := by unfold attemptKernel; infer_instance
  have h2 : Runs S v True 0 (onRoot root (swapS S cfg.swapmode)) := ⟨_, hmk, (swap_fresh S cfg.swapmode).root root, fun _ => Good.attempt hS hn cfg.swapmode⟩
  obtain ⟨κ, a1, a2, a3⟩ := (h1.iterate b.toNat).comp (h2.iterate cfg.nSwap.toNat)
  refine ⟨κ, a1, a2, fun _ => ?_⟩
  have := a3 ⟨trivial, trivial⟩
  rwa [Nat.mul_one, Nat.mul_zero, Nat.add_zero] at this

theorem stack_runs (hS : S.Proper v) (hn : 2 ≤ n) (hr : 0 ≤ cfg.rand) (hb : cfg.rand < cfg.base) (nStack : Int) : ∀ (fuel : Nat) (i : Int),
    Runs S v (i ≤ nStack ∧ nStack - i ≤ fuel) (nStack - i).toNat (stackS S cfg root nStack fuel i) := by
  intro fuel
  induction fuel with
  | zero =>
    intro i
    refine ⟨Kernel.id, inferInstance, Fresh.id, fun c => ?_⟩
    have : (nStack - i).toNat = 0 := by omega
    rw [this]
    exact Good.id v
  | succ fuel ih =>
    intro i
    by_cases hi : i < nStack
    · have hk := fun k : Int => (leg_runs (S := S) (v := v) cfg root hS hn (sizeOf' cfg nStack i k)).comp (ih (i + sizeOf' cfg nStack i k))
      choose κ h1 h2 h3 using hk
      have hsz : Fresh (unifStreams n) (onRoot root fun p : (Fin n → Fin d → ℝ) × Draws => (i4UnifAbVal (-cfg.rand) cfg.rand (pop p.2).1, (pop p.2).2))
          (Kernel.const _ (sizeLaw cfg.rand)) := (size_fresh cfg.rand).root root
      have hbr := Fresh.branch (sizeLaw cfg.rand) κ hsz h2
      refine ⟨mixKernel (sizeLaw cfg.rand) κ, inferInstance, ?_, fun c => ?_⟩
      · have e : stackS S cfg root nStack (fuel + 1) i = fun p => stackS S cfg root nStack fuel (i + sizeOf' cfg nStack i (i4UnifAbVal (-cfg.rand) cfg.rand (pop (p.2 root)).1))
            (legS S cfg root (sizeOf' cfg nStack i (i4UnifAbVal (-cfg.rand) cfg.rand (pop (p.2 root)).1)) (p.1, Function.update p.2 root (pop (p.2 root)).2)) := by
          funext p
          rw [stackS, if_pos hi]
        rw [e]
        exact hbr
      · refine Good.mix _ _ ((size_range cfg.rand hr).mono fun k hkr => ?_)
        have hpos : 0 < sizeOf' cfg nStack i k ∧ i + sizeOf' cfg nStack i k ≤ nStack := by
          unfold sizeOf'; split <;> omega
        have := h3 k ⟨trivial, hpos.2, by omega⟩
        have e : (nStack - i).toNat = (sizeOf' cfg nStack i k).toNat + (nStack - (i + sizeOf' cfg nStack i k)).toNat := by omega
        rw [e]
        exact this
    · refine ⟨Kernel.id, inferInstance, ?_, fun c => ?_⟩
      · have e : stackS S cfg root nStack (fuel + 1) i = fun p => p := by
          funext p
          rw [stackS, if_neg hi]
        rw [e]
        exact Fresh.id
      · have : (nStack - i).toNat = 0 := by omega
        rw [this]
        exact Good.id v

theorem flow_runs (hS : S.Proper v) (hn : 2 ≤ n) (hr : 0 ≤ cfg.rand) (hb : cfg.rand < cfg.base) : ∀ (fuel : Nat) (nStack i : Int),
    Runs S v (1 ≤ nStack ∧ i ≤ cfg.nIter ∧ cfg.nIter - i ≤ fuel) (cfg.nIter - i).toNat (flowS S cfg root fuel nStack i) := by
  intro fuel
  induction fuel with
  | zero =>
    intro nStack i
    refine ⟨Kernel.id, inferInstance, Fresh.id, fun c => ?_⟩
    have : (cfg.nIter - i).toNat = 0 := by omega
    rw [this]
    exact Good.id v
  | succ fuel ih =>
    intro nStack i
    by_cases hi : i < cfg.nIter
    · set nS := (if cfg.nIter < i + nStack then cfg.nIter - i else nStack) with hnS
      obtain ⟨κ, h1, h2, h3⟩ := (stack_runs (S := S) (v := v) cfg root hS hn hr hb nS nS.toNat 0).comp (ih nS (i + nS))
      refine ⟨κ, h1, ?_, fun c => ?_⟩
      · have e : flowS S cfg root (fuel + 1) nStack i = fun p => flowS S cfg root fuel nS (i + nS) (stackS S cfg root nS nS.toNat 0 p) := by
          funext p
          rw [flowS, if_pos hi]
        rw [e]
        exact h2
      · have hpos : 1 ≤ nS ∧ i + nS ≤ cfg.nIter := by rw [hnS]; split <;> omega
        have := h3 ⟨⟨by omega, by omega⟩, by omega, hpos.2, by omega⟩
        have e : (cfg.nIter - i).toNat = (nS - 0).toNat + (cfg.nIter - (i + nS)).toNat := by omega
        rw [e]
        exact this
    · refine ⟨Kernel.id, inferInstance, ?_, fun c => ?_⟩
      · have e : flowS S cfg root (fuel + 1) nStack i = fun p => p := by
          funext p
          rw [flowS, if_neg hi]
        rw [e]
        exact Fresh.id
      · have : (cfg.nIter - i).toNat = 0 := by omega
        rw [this]
        exact Good.id v

end

/-! ## The start -/

/-- The value of a start parameter for a number of the stream. -/
noncomputable def Draw.value (k : Draw) (lo hi u : ℝ) : ℝ :=
  match k with
  | .unif => unifVal lo hi u
  | .logunif => logunifVal lo hi u

/-- Read a number for each parameter. -/
def numsS : (d : Nat) → Draws → (Fin d → ℝ) × Draws
  | 0, ω => (Fin.elim0, ω)
  | d + 1, ω => (Fin.cons (pop ω).1 (numsS d (pop ω).2).1, (numsS d (pop ω).2).2)

/-- The start parameters of one rank. -/
noncomputable def startS {d : Nat} (ks : Fin d → Draw) (lo hi : Fin d → ℝ) (ω : Draws) : (Fin d → ℝ) × Draws :=
  (fun i => (ks i).value (lo i) (hi i) ((numsS d ω).1 i), (numsS d ω).2)

/-- The whole program without tuning: the start on every rank, then the flow. -/
noncomputable def mainS {n d : Nat} (S : Setting n d) (ks : Fin d → Draw) (cfg : Cfg ℝ) (root : Fin n) (ω : Fin n → Draws) : (Fin n → Fin d → ℝ) × (Fin n → Draws) :=
  flowS S cfg root cfg.nIter.toNat cfg.nStack 0 (fun r => (startS ks S.lo S.hi (ω r)).1, fun r => (startS ks S.lo S.hi (ω r)).2)

theorem start_stream [Source ℝ] : ∀ (d : Nat) (ks : Fin d → Draw) (lo hi : Fin d → ℝ) (g : Rng),
    (initDraws ((List.ofFn ks).zip (List.ofFn fun i => (lo i, hi i))) g).1 = List.ofFn (startS ks lo hi (streamOf g)).1 ∧
    streamOf (initDraws ((List.ofFn ks).zip (List.ofFn fun i => (lo i, hi i))) g).2 = (startS ks lo hi (streamOf g)).2 := by
  intro d
  induction d with
  | zero => intro ks lo hi g; simp [initDraws, startS, numsS]
  | succ d ih =>
    intro ks lo hi g
    have hd : (ks 0).draw (lo 0, hi 0) g = ((ks 0).value (lo 0) (hi 0) (pop (streamOf g)).1, (drand48 (F := ℝ) g).2) := by
      rw [pop_stream]
      cases ks 0 <;> rfl
    obtain ⟨h1, h2⟩ := ih (fun i => ks i.succ) (fun i => lo i.succ) (fun i => hi i.succ) (drand48 (F := ℝ) g).2
    have hp : (pop (streamOf g)).2 = streamOf (drand48 (F := ℝ) g).2 := by rw [pop_stream]
    constructor
    · simp only [List.ofFn_succ, List.zip_cons_cons, initDraws, hd, h1]
      simp only [startS, numsS, hp, Fin.cons_zero, Fin.cons_succ]
    · simp only [List.ofFn_succ, List.zip_cons_cons, initDraws, hd, h2]
      simp only [startS, numsS, hp]

theorem measurable_numsS : ∀ d, Measurable (numsS d)
  | 0 => measurable_const.prodMk measurable_id
  | d + 1 => by
    have h1 : Measurable (fun ω => numsS d (pop ω).2) := (measurable_numsS d).comp (measurable_snd.comp measurable_pop)
    have h0 : Measurable (fun ω => (pop ω).1) := measurable_fst.comp measurable_pop
    refine Measurable.prodMk (measurable_pi_lambda _ fun i => ?_) (measurable_snd.comp h1)
    refine Fin.cases ?_ (fun i => ?_) i
    · exact h0
    · exact (measurable_pi_apply i).comp (measurable_fst.comp h1)

theorem nums_law : ∀ d, unifStream.map (numsS d) = (Measure.pi fun _ : Fin d => unif).prod unifStream
  | 0 => by
    have e : numsS 0 = Prod.mk Fin.elim0 := rfl
    rw [e, Measure.pi_of_empty _ (Fin.elim0 : Fin 0 → ℝ), Measure.dirac_prod]
  | d + 1 => by
    have hc : Measurable (fun q : ℝ × (Fin d → ℝ) => (Fin.cons q.1 q.2 : Fin (d + 1) → ℝ)) := by
      refine measurable_pi_lambda _ fun i => ?_
      refine Fin.cases ?_ (fun i => ?_) i
      · simpa using measurable_fst
      · simp only [Fin.cons_succ]; fun_prop
    have h2 : Measurable (Prod.map (id : ℝ → ℝ) (numsS d)) := measurable_id.prodMap (measurable_numsS d)
    have h3 : Measurable (Prod.map (fun q : ℝ × (Fin d → ℝ) => (Fin.cons q.1 q.2 : Fin (d + 1) → ℝ)) (id : Draws → Draws)) :=
      hc.prodMap measurable_id
    have e : numsS (d + 1) = (Prod.map (fun q : ℝ × (Fin d → ℝ) => (Fin.cons q.1 q.2 : Fin (d + 1) → ℝ)) (id : Draws → Draws)) ∘
        MeasurableEquiv.prodAssoc.symm ∘ (Prod.map id (numsS d)) ∘ pop := rfl
    have hpop : unifStream.map pop = unif.prod unifStream := pop_law unif
    rw [e, ← Measure.map_map h3 ((MeasurableEquiv.measurable _).comp (h2.comp measurable_pop)),
      ← Measure.map_map (MeasurableEquiv.measurable _) (h2.comp measurable_pop), ← Measure.map_map h2 measurable_pop, hpop,
      ← Measure.map_prod_map _ _ measurable_id (measurable_numsS d), Measure.map_id, nums_law d,
      ((measurePreserving_prodAssoc unif (Measure.pi fun _ : Fin d => unif) unifStream).symm _).map_eq,
      ← Measure.map_prod_map _ _ hc measurable_id, Measure.map_id, cons_law]

theorem measurable_value (k : Draw) (lo hi : ℝ) : Measurable (k.value lo hi) := by
  cases k
  · show Measurable fun u : ℝ => unifVal lo hi u
    simp only [unifVal, RealArith.mul_eq, RealArith.sub_eq, RealArith.add_eq]
    fun_prop
  · show Measurable fun u : ℝ => logunifVal lo hi u
    simp only [logunifVal, RealArith.mul_eq, RealArith.exp_eq, RealArith.log_eq, RealArith.div_eq]
    fun_prop

theorem value_mem (k : Draw) (lo hi u : ℝ) (h : k.Fits (lo, hi)) (h0 : 0 ≤ u) (h1 : u ≤ 1) : lo ≤ k.value lo hi u ∧ k.value lo hi u ≤ hi := by
  cases k with
  | unif =>
    have h' : lo ≤ hi := h
    simp only [Draw.value, unifVal, RealArith.mul_eq, RealArith.sub_eq, RealArith.add_eq]
    constructor <;> nlinarith
  | logunif =>
    obtain ⟨hp, hle⟩ : 0 < lo ∧ lo ≤ hi := h
    simp only [Draw.value, logunifVal, RealArith.mul_eq, RealArith.exp_eq, RealArith.log_eq, RealArith.div_eq]
    have hl : 0 ≤ Real.log (hi / lo) := Real.log_nonneg (by rw [le_div_iff₀ hp]; linarith)
    have e1 : 1 ≤ Real.exp (u * Real.log (hi / lo)) := Real.one_le_exp (mul_nonneg h0 hl)
    have e2 : Real.exp (u * Real.log (hi / lo)) ≤ hi / lo := by
      calc _ ≤ Real.exp (Real.log (hi / lo)) := Real.exp_le_exp.2 (by nlinarith)
        _ = hi / lo := Real.exp_log (div_pos (hp.trans_le hle) hp)
    refine ⟨by nlinarith, ?_⟩
    calc lo * Real.exp (u * Real.log (hi / lo)) ≤ lo * (hi / lo) := by gcongr
      _ = hi := by field_simp

/-- The law of the start parameters of one rank. -/
noncomputable def startLaw {d : Nat} (ks : Fin d → Draw) (lo hi : Fin d → ℝ) : Measure (Fin d → ℝ) :=
  (Measure.pi fun _ : Fin d => unif).map fun w i => (ks i).value (lo i) (hi i) (w i)

theorem measurable_values {d : Nat} (ks : Fin d → Draw) (lo hi : Fin d → ℝ) : Measurable (fun (w : Fin d → ℝ) i => (ks i).value (lo i) (hi i) (w i)) :=
  measurable_pi_lambda _ fun i => (measurable_value _ _ _).comp (measurable_pi_apply i)

instance {d : Nat} (ks : Fin d → Draw) (lo hi : Fin d → ℝ) : IsProbabilityMeasure (startLaw ks lo hi) :=
  Measure.isProbabilityMeasure_map (measurable_values ks lo hi).aemeasurable

theorem start_box {d : Nat} (ks : Fin d → Draw) (lo hi : Fin d → ℝ) (h : ∀ i, (ks i).Fits (lo i, hi i)) :
    ∀ᵐ x ∂(startLaw ks lo hi), ∀ i, lo i ≤ x i ∧ x i ≤ hi i := by
  have hu : ∀ᵐ u ∂unif, u ∈ Ico (0 : ℝ) 1 := ae_restrict_mem measurableSet_Ico
  have hset : MeasurableSet {x : Fin d → ℝ | ∀ i, lo i ≤ x i ∧ x i ≤ hi i} := by
    have : {x : Fin d → ℝ | ∀ i, lo i ≤ x i ∧ x i ≤ hi i} = univ.pi fun i => Icc (lo i) (hi i) := by ext x; simp only [mem_ofPred_eq, Set.mem_univ_pi, mem_Icc]
    rw [this]
    exact MeasurableSet.univ_pi fun i => measurableSet_Icc
  rw [startLaw, ae_map_iff (measurable_values ks lo hi).aemeasurable hset]
  have : ∀ᵐ w ∂(Measure.pi fun _ : Fin d => unif), ∀ i, w i ∈ Ico (0 : ℝ) 1 := by
    rw [ae_all_iff]
    exact fun i => (Measure.quasiMeasurePreserving_eval (fun _ : Fin d => unif) i).ae hu
  filter_upwards [this] with w hw i
  exact value_mem _ _ _ _ (h i) (hw i).1 (hw i).2.le

theorem start_fresh {d : Nat} (ks : Fin d → Draw) (lo hi : Fin d → ℝ) :
    Fresh unifStream (fun p : (Fin d → ℝ) × Draws => startS ks lo hi p.2) (Kernel.const (Fin d → ℝ) (startLaw ks lo hi)) := by
  have hm := (measurable_values ks lo hi).prodMap (measurable_id (α := Draws))
  have e : startS ks lo hi = (Prod.map (fun (w : Fin d → ℝ) i => (ks i).value (lo i) (hi i) (w i)) id) ∘ numsS d := rfl
  refine ⟨by rw [e]; exact (hm.comp (measurable_numsS d)).comp measurable_snd, fun a => ?_⟩
  show unifStream.map (startS ks lo hi) = _
  rw [e, ← Measure.map_map hm (measurable_numsS d), nums_law, ← Measure.map_prod_map _ _ (measurable_values ks lo hi) measurable_id, Measure.map_id,
    Kernel.const_apply, startLaw]

/-! ## C77 -/

section
variable {n d : Nat}

theorem mainS_law (S : Setting n d) (v : Fin n → ℝ) (hS : S.Proper v) (hn : 2 ≤ n) (ks : Fin d → Draw) (hk : ∀ i, (ks i).Fits (S.lo i, S.hi i)) (cfg : Cfg ℝ)
    (hr : 0 ≤ cfg.rand) (hb : cfg.rand < cfg.base) (hi : 0 ≤ cfg.nIter) (hst : 1 ≤ cfg.nStack) (root : Fin n) :
    ∃ (κ : Kernel (Fin n → Fin d → ℝ) (Fin n → Fin d → ℝ)) (P : Measure (Fin n → Fin d → ℝ)), IsMarkovKernel κ ∧ IsProbabilityMeasure P ∧
      (∀ᵐ x ∂P, x ∈ tableBox S.lo S.hi) ∧ Good S v cfg.nIter.toNat κ ∧ Measurable (mainS S ks cfg root) ∧
      (unifStreams n).map (fun ω => (mainS S ks cfg root ω).1) = P.bind κ := by
  obtain ⟨κ, h1, h2, h3⟩ := flow_runs (S := S) (v := v) cfg root hS hn hr hb cfg.nIter.toNat cfg.nStack 0
  have hp : Fresh (unifStreams n) (fun p : (Fin n → Fin d → ℝ) × (Fin n → Draws) => (fun r => (startS ks S.lo S.hi (p.2 r)).1, fun r => (startS ks S.lo S.hi (p.2 r)).2))
      (parKernel fun _ => Kernel.const (Fin d → ℝ) (startLaw ks S.lo S.hi)) := Fresh.par fun r => start_fresh ks S.lo S.hi
  have hc := hp.comp h2
  refine ⟨κ, parKernel (fun _ => Kernel.const (Fin d → ℝ) (startLaw ks S.lo S.hi)) fun _ _ => 0, h1, inferInstance, ?_, ?_, ?_, ?_⟩
  · rw [parKernel_apply]
    have hbox : ∀ᵐ x ∂(Measure.pi fun _ : Fin n => startLaw ks S.lo S.hi), ∀ r, ∀ i, S.lo i ≤ x r i ∧ x r i ≤ S.hi i := by
      rw [ae_all_iff]
      exact fun r => (Measure.quasiMeasurePreserving_eval (fun _ : Fin n => startLaw ks S.lo S.hi) r).ae (start_box ks S.lo S.hi hk)
    filter_upwards [hbox] with x hx r _ i _
    exact hx r i
  · have := h3 ⟨hst, hi, by omega⟩
    rwa [sub_zero] at this
  · exact hc.meas.comp (measurable_prodMk_left (x := fun _ _ => 0))
  · have := hc.law fun _ _ => 0
    have hm : Measurable (mainS S ks cfg root) := hc.meas.comp (measurable_prodMk_left (x := fun _ _ => 0))
    have e : (fun ω => (mainS S ks cfg root ω).1) = Prod.fst ∘ mainS S ks cfg root := rfl
    rw [e, ← Measure.map_map measurable_fst hm]
    have h' : (unifStreams n).map (mainS S ks cfg root) = ((κ ∘ₖ parKernel fun _ => Kernel.const (Fin d → ℝ) (startLaw ks S.lo S.hi)) fun _ _ => 0).prod (unifStreams n) := this
    rw [h', Measure.map_fst_prod, measure_univ, one_smul, Kernel.comp_apply]

/-- **C77, law.** The streams of the ranks consist of independent uniform numbers. The table of parameters after the run - start values, batches of random size, swap
attempts between random pairs, all drawn from the streams as the program draws them - then lies in any set with a probability that differs from the one under the product
of the normalised tempered posteriors by at most `(1 - c) ^ N_iter` plus the deviation of one round (C75) times `∑ j < N_iter, (1 - c) ^ j`. -/
theorem whole_run_law (S : Setting n d) (v : Fin n → ℝ) (hS : S.Proper v) (hn : 2 ≤ n) (ks : Fin d → Draw) (hk : ∀ i, (ks i).Fits (S.lo i, S.hi i)) (cfg : Cfg ℝ)
    (hr : 0 ≤ cfg.rand) (hb : cfg.rand < cfg.base) (hi : 0 ≤ cfg.nIter) (hst : 1 ≤ cfg.nStack) (root : Fin n) (A : Set (Fin n → Fin d → ℝ)) (hA : MeasurableSet A) :
    0 < (gain S.lo S.hi S.s v).toReal ∧ (gain S.lo S.hi S.s v).toReal ≤ 1 ∧
    |(unifStreams n).real {ω | (mainS S ks cfg root ω).1 ∈ A} - (joint S.T S.lo S.hi S.beta).real A / (joint S.T S.lo S.hi S.beta).real univ| ≤
      (1 - (gain S.lo S.hi S.s v).toReal) ^ cfg.nIter.toNat + (∑ r, ∑ i, ((tail (S.lo i) (S.hi i) (S.s r i)).toReal + 1 / 10 ^ 16)) *
        ∑ j ∈ Finset.range cfg.nIter.toNat, (1 - (gain S.lo S.hi S.s v).toReal) ^ j := by
  obtain ⟨κ, P, h1, h2, h3, h4, h5, h6⟩ := mainS_law S v hS hn ks hk cfg hr hb hi hst root
  obtain ⟨g1, g2, -⟩ := start_forgotten S.T S.lo S.hi hS.range S.s hS.width S.beta v hS.varies
  refine ⟨g1, g2, ?_⟩
  obtain ⟨hz, ht⟩ := joint_mass S.T S.lo S.hi hS.range S.beta v hS.varies
  have hle := gain_le_one S.T S.lo S.hi hS.range S.s hS.width S.beta v hS.varies
  have hprob : IsProbabilityMeasure (jointLaw S.T S.lo S.hi S.beta) := ⟨by
    rw [jointLaw, Measure.smul_apply, smul_eq_mul]; exact ENNReal.inv_mul_cancel hz ht⟩
  have hT := h4.near P 1 h3 (Tv.one P _)
  rw [deviation_eq, mul_one] at hT
  obtain ⟨hlt, hlr⟩ := leakAll_real S.lo S.hi S.s
  have hne1 : ∀ k, (1 - gain S.lo S.hi S.s v) ^ k ≠ ∞ := fun k => ENNReal.pow_ne_top (ENNReal.sub_ne_top ENNReal.one_ne_top)
  have hne2 : ∑ j ∈ Finset.range cfg.nIter.toNat, (1 - gain S.lo S.hi S.s v) ^ j ≠ ∞ := ENNReal.sum_ne_top.2 fun j _ => hne1 j
  have hne3 : leakAll S.lo S.hi S.s * ∑ j ∈ Finset.range cfg.nIter.toNat, (1 - gain S.lo S.hi S.s v) ^ j ≠ ∞ := ENNReal.mul_ne_top hlt hne2
  have hsub : (1 - gain S.lo S.hi S.s v).toReal = 1 - (gain S.lo S.hi S.s v).toReal := by
    rw [ENNReal.toReal_sub_of_le hle ENNReal.one_ne_top, ENNReal.toReal_one]
  have hR := hT.real (ENNReal.add_ne_top.2 ⟨hne1 _, hne3⟩) A hA
  have e : (jointLaw S.T S.lo S.hi S.beta).real A = (joint S.T S.lo S.hi S.beta).real A / (joint S.T S.lo S.hi S.beta).real univ := by
    rw [measureReal_def, jointLaw, Measure.smul_apply, smul_eq_mul, ENNReal.toReal_mul, ENNReal.toReal_inv, measureReal_def, measureReal_def, div_eq_inv_mul]
  have e' : (P.bind κ).real A = (unifStreams n).real {ω | (mainS S ks cfg root ω).1 ∈ A} := by
    have hm : Measurable (fun ω => (mainS S ks cfg root ω).1) := measurable_fst.comp h5
    rw [← h6, measureReal_def, Measure.map_apply hm hA, measureReal_def]
    rfl
  rw [e, e'] at hR
  refine hR.trans (le_of_eq ?_)
  rw [ENNReal.toReal_add (hne1 _) hne3, ENNReal.toReal_mul, hlr, ENNReal.toReal_pow, hsub, ENNReal.toReal_sum fun j _ => hne1 j]
  congr 2
  exact Finset.sum_congr rfl fun j _ => by rw [ENNReal.toReal_pow, hsub]

/-- The setting of a run of a model with the given ranges: the start widths are kept, since nothing is tuned. -/
noncomputable def settingOf (T : Target d) (lo hi : Fin d → ℝ) (ratio : ℝ) (beta : Fin n → ℝ) : Setting n d where
  T := T
  lo := lo
  hi := hi
  s := fun _ i => ((hi i - lo i) * ratio).toNNReal
  beta := beta

/-- The state of a run after its start: the parameters are those of `startS`, and the streams what is left of those of the generators. -/
theorem init_shows [Source ℝ] (m : Model ℝ) (ndim : Int) (ks : Fin d → Draw) (lo hi : Fin d → ℝ) (T : Target d) (cfg : Cfg ℝ) (file : DataFile ℝ) (hv : Valid n cfg file)
    (hu : cfg.user = m.user (List.ofFn fun i => (lo i, hi i)) ndim) (hd : m.draws = List.ofFn ks) (hN : cfg.nParm = d) (hlo : ∀ i, lo i ≤ hi i)
    (hratio : 0 ≤ cfg.initGpRatio) (data : List ℝ) (hdata : file.cells = .ok data)
    (hT : ∀ b (x : Fin d → ℝ), Spec.target cfg.user file.nlines data b (List.ofFn x) = T.lp b x) (clock : Nat) (root : Fin n) (w0 : W n ℝ)
    (h0 : seqInit cfg file clock root = .ok w0) :
    ∃ beta : Fin n → ℝ, copyBetas n cfg.betas = .ok beta ∧ Fits cfg (settingOf T lo hi cfg.initGpRatio beta) file.nlines data ∧
      Shows cfg (settingOf T lo hi cfg.initGpRatio beta) file.nlines data { w0.st with cur := w0.st.sig }
        (fun r => (startS ks lo hi (streamOf (srand48 ℝ (seedOf root (startSeed cfg clock) r)))).1,
         fun r => (startS ks lo hi (streamOf (srand48 ℝ (seedOf root (startSeed cfg clock) r)))).2) ∧
      (∀ r, w0.st.acc r = 0) ∧ ∀ r, ∀ a ∈ fileRows r.val (w0.log r), a.iter = 0 := by
  unfold seqInit at h0
  obtain ⟨cells, hc, h0⟩ := exc_bind.1 h0
  obtain ⟨data', hdata', h0⟩ := exc_bind.1 h0
  obtain ⟨_, -, h0⟩ := exc_bind.1 h0
  obtain ⟨_, -, h0⟩ := exc_bind.1 h0
  obtain ⟨_, -, h0⟩ := exc_bind.1 h0
  obtain ⟨beta, hbeta, h0⟩ := exc_bind.1 h0
  have hw0 := (Except.ok.inj h0).symm
  have : data' = data := by rw [hdata] at hdata'; exact (Except.ok.inj hdata').symm
  subst this
  have hf : Fits cfg (settingOf T lo hi cfg.initGpRatio beta) file.nlines data' := ⟨hN, hv.user, by rw [hu]; rfl, hT⟩
  have hinit : ∀ q : Nat, cfg.user.initParm q = initDraws ((List.ofFn ks).zip (List.ofFn fun i => (lo i, hi i))) (srand48 ℝ q) := fun q => by
    rw [hu, ← hd]; rfl
  have hwid : cfg.user.initGp cfg.initGpRatio = List.ofFn fun i => (((hi i - lo i) * cfg.initGpRatio).toNNReal : ℝ) := by
    rw [hu]
    show (List.ofFn fun i => (lo i, hi i)).map _ = _
    rw [List.map_ofFn]
    congr 1
    funext i
    simp only [Function.comp, RealArith.mul_eq, RealArith.sub_eq]
    rw [Real.coe_toNNReal _ (mul_nonneg (sub_nonneg.2 (hlo i)) hratio)]
  refine ⟨beta, hbeta, hf, ?_, ?_, ?_⟩
  · rw [hw0]
    have hx := fun r : Fin n => start_stream d ks lo hi (srand48 ℝ (seedOf root (startSeed cfg clock) r))
    refine ⟨fun r => ?_, fun r => ?_, fun r => hwid, fun r => hwid, rfl, fun r => ?_, rfl, rfl⟩
    · show (cfg.user.initParm _).1 = _
      rw [hinit]; exact (hx r).1
    · show logPost cfg (cfg.user.initParm _).1 _ _ _ = _
      rw [hinit, (hx r).1]; exact hT _ _
    · show streamOf (cfg.user.initParm _).2 = _
      rw [hinit]; exact (hx r).2
  · rw [hw0]
    exact fun r => rfl
  · rw [hw0]
    intro r a ha
    simp only [fileRows, List.mem_filterMap] at ha
    obtain ⟨l, hl, ha⟩ := ha
    cases l with
    | row k x lp i c =>
      have : i = 0 := by
        by_cases hr : r = root <;> simp [hr] at hl <;> exact hl.2.2.2.1
      subst this
      by_cases hk : k = r.val
      · simp only [hk, if_true, Option.some.injEq] at ha
        rw [← ha]
      · simp only [hk, if_false] at ha
        cases ha
    | _ => cases ha

/-- **C77, program.** A run of a bundled model in which nothing is tuned, started with a usable configuration: in every finished execution of the MPI program the
parameters on every rank are those of `mainS`, applied to the numbers that the generators of the ranks give after seeding. -/
theorem whole_run_stream [Source ℝ] [UnitDraws] (m : Model ℝ) (ndim : Int) (ks : Fin d → Draw) (lo hi : Fin d → ℝ) (T : Target d) (cfg : Cfg ℝ) (file : DataFile ℝ) (hv : Valid n cfg file)
    (hu : cfg.user = m.user (List.ofFn fun i => (lo i, hi i)) ndim) (hd : m.draws = List.ofFn ks) (hN : cfg.nParm = d) (hlo : ∀ i, lo i ≤ hi i)
    (hratio : 0 ≤ cfg.initGpRatio) (data : List ℝ) (hdata : file.cells = .ok data)
    (hT : ∀ b (x : Fin d → ℝ), Spec.target cfg.user file.nlines data b (List.ofFn x) = T.lp b x)
    (hw : ∀ k, 0 < k → inTuneWindow cfg k = false) (hl : cfg.tuneLadder ≤ 0) (clock : Nat) (root : Fin n) :
    ∃ beta : Fin n → ℝ, copyBetas n cfg.betas = .ok beta ∧
      ∀ (w₁ : List (Label n)) (t : Sys n (Msg ℝ) (Line ℝ) (RSt n ℝ)), (initSys cfg file clock root).exec w₁ = some t → t.AllDone →
        ∀ r, ∃ st : RSt n ℝ, t.procs r = .ret st ∧
          (r = root → ∃ tab, st.tab = some tab ∧ ∀ q, tab.x q = List.ofFn ((mainS (settingOf T lo hi cfg.initGpRatio beta) ks cfg root fun q =>
            streamOf (srand48 ℝ (seedOf root (startSeed cfg clock) q))).1 q)) := by
  obtain ⟨w, len, hseq, hex⟩ := distributed_eq_sequential cfg file hv clock root
  have hseq' := hseq
  unfold seqMain at hseq
  obtain ⟨w0, h0, h1⟩ := exc_bind.1 hseq
  obtain ⟨beta, hbeta, hf, hshow, -, -⟩ := init_shows m ndim ks lo hi T cfg file hv hu hd hN hlo hratio data hdata hT clock root w0 h0
  have hfin := flow_stream hf hv.mode root _ _ _ w0 w _ hshow hw (Or.inl hl) hv.stack h1
  refine ⟨beta, hbeta, fun w₁ t ht hdone r => ?_⟩
  obtain ⟨-, h2⟩ := hex w₁ t ht
  refine ⟨_, (h2 hdone).1 r, fun hr => ⟨w.st.tab, by simp [view, hr], fun q => ?_⟩⟩
  exact hfin.x q

end

/-- The run of the egg box model on the ranges of its sample input. -/
noncomputable def eggboxSetting (ratio : ℝ) (beta : Fin 3 → ℝ) : Setting 3 2 := settingOf eggboxTarget (fun _ => 0) (fun _ => 50) ratio beta

/-- The rate at which it forgets its start: its log-likelihood varies by at most 2. -/
noncomputable def eggboxRate (ratio : ℝ) (beta : Fin 3 → ℝ) : ℝ := (gain (fun _ => 0) (fun _ => 50) (eggboxSetting ratio beta).s fun r => 2 * beta r).toReal

/-- **C77 for the egg box model**: three ranks, the ranges of its sample input, nothing tuned. The parameters at the end of every execution are those of `mainS` on the three streams
of numbers, and for independent uniform streams their law is near the product of the tempered posteriors. -/
theorem eggbox_whole_run [Source ℝ] [UnitDraws] (cfg : Cfg ℝ) (file : DataFile ℝ) (hv : Valid 3 cfg file) (ndim : Int) (hu : cfg.user = eggbox.user [(0, 50), (0, 50)] ndim)
    (hN : cfg.nParm = 2) (hr0 : 0 < cfg.initGpRatio) (hr1 : cfg.initGpRatio ≤ 1 / 5) (hb : ∀ b ∈ cfg.betas, 0 ≤ b) (hi : 0 ≤ cfg.nIter)
    (hw : ∀ k, 0 < k → inTuneWindow cfg k = false) (hl : cfg.tuneLadder ≤ 0) (clock : Nat) (root : Fin 3) :
    ∃ beta : Fin 3 → ℝ, copyBetas 3 cfg.betas = .ok beta ∧ 0 < eggboxRate cfg.initGpRatio beta ∧ eggboxRate cfg.initGpRatio beta ≤ 1 ∧
      (∀ (w₁ : List (Label 3)) (t : Sys 3 (Msg ℝ) (Line ℝ) (RSt 3 ℝ)), (initSys cfg file clock root).exec w₁ = some t → t.AllDone →
        ∃ st tab, t.procs root = .ret st ∧ st.tab = some tab ∧
          ∀ q, tab.x q = List.ofFn
            ((mainS (eggboxSetting cfg.initGpRatio beta) (fun _ => .unif) cfg root fun q => streamOf (srand48 ℝ (seedOf root (startSeed cfg clock) q))).1 q)) ∧
      ∀ (A : Set (Fin 3 → Fin 2 → ℝ)) (_ : MeasurableSet A),
        |(unifStreams 3).real {ω | (mainS (eggboxSetting cfg.initGpRatio beta) (fun _ => .unif) cfg root ω).1 ∈ A} -
          (joint eggboxTarget (fun _ => 0) (fun _ => 50) beta).real A / (joint eggboxTarget (fun _ => 0) (fun _ => 50) beta).real univ| ≤
        (1 - eggboxRate cfg.initGpRatio beta) ^ cfg.nIter.toNat +
          46 / 10 ^ 6 * ∑ j ∈ Finset.range cfg.nIter.toNat, (1 - eggboxRate cfg.initGpRatio beta) ^ j := by
  obtain ⟨data, hdata, -, -⟩ := hv.cells
  have hu' : cfg.user = eggbox.user (List.ofFn fun i : Fin 2 => ((fun _ => (0 : ℝ)) i, (fun _ => (50 : ℝ)) i)) ndim := by rw [hu]; simp [List.ofFn_succ]
  obtain ⟨beta, hbeta, hex⟩ := whole_run_stream (n := 3) eggbox ndim (fun _ : Fin 2 => .unif) (fun _ => 0) (fun _ => 50) eggboxTarget cfg file hv hu'
    (by simp [eggbox, model2, List.ofFn_succ]) hN (fun _ => by norm_num) hr0.le data hdata (fun b x => by rw [hu]; exact eggbox_target _ _ _ _ b x) hw hl clock root
  have hbnn : ∀ r, 0 ≤ beta r := by
    unfold copyBetas at hbeta
    split at hbeta
    · have := (Except.ok.inj hbeta).symm
      subst this
      exact fun r => hb _ (List.getElem_mem _)
    · cases hbeta
  set S : Setting 3 2 := settingOf eggboxTarget (fun _ => 0) (fun _ => 50) cfg.initGpRatio beta with hS
  have hwid : ∀ r i, (S.s r i : ℝ) = 50 * cfg.initGpRatio := fun r i => by
    show (((50 - 0) * cfg.initGpRatio).toNNReal : ℝ) = _
    rw [Real.coe_toNNReal _ (by linarith), sub_zero]
  have hprop : S.Proper (fun r => 2 * beta r) :=
    ⟨fun _ => by show (0 : ℝ) < 50; norm_num, fun r i h0 => by
      have := hwid r i
      rw [h0, NNReal.coe_zero] at this
      linarith, fun r => eggbox_varies _ _ _ (hbnn r)⟩
  have hlaw := whole_run_law S _ hprop (by norm_num) (fun _ => .unif) (fun _ => by show (0 : ℝ) ≤ 50; norm_num) cfg hv.rand hv.base hi hv.stack root
  obtain ⟨g1, g2, -⟩ := hlaw univ MeasurableSet.univ
  refine ⟨beta, hbeta, g1, g2, fun w₁ t ht hd => ?_, fun A hA => ?_⟩
  · obtain ⟨st, h1, h2⟩ := hex w₁ t ht hd root
    obtain ⟨tab, h3, h4⟩ := h2 rfl
    exact ⟨st, tab, h1, h3, h4⟩
  · obtain ⟨-, -, h3⟩ := hlaw A hA
    refine h3.trans ?_
    have hsum : ∑ r : Fin 3, ∑ i : Fin 2, ((tail (S.lo i) (S.hi i) (S.s r i)).toReal + 1 / 10 ^ 16) ≤ 46 / 10 ^ 6 := by
      have ht : ∀ r i, (tail (S.lo i) (S.hi i) (S.s r i)).toReal + 1 / 10 ^ 16 ≤ 75 / 10 ^ 7 + 1 / 10 ^ 16 := fun r i => by
        have : (tail (S.lo i) (S.hi i) (S.s r i)).toReal ≤ 75 / 10 ^ 7 :=
          tail_fifth 0 50 (by norm_num) (S.s r i) (hprop.width r i) (by rw [hwid]; linarith)
        linarith
      calc _ ≤ ∑ r : Fin 3, ∑ i : Fin 2, ((75 : ℝ) / 10 ^ 7 + 1 / 10 ^ 16) := Finset.sum_le_sum fun r _ => Finset.sum_le_sum fun i _ => ht r i
        _ ≤ _ := by norm_num
    have hnn : 0 ≤ ∑ j ∈ Finset.range cfg.nIter.toNat, (1 - (gain S.lo S.hi S.s fun r => 2 * beta r).toReal) ^ j :=
      Finset.sum_nonneg fun j _ => pow_nonneg (by linarith) j
    rw [show eggboxRate cfg.initGpRatio beta = (gain S.lo S.hi S.s fun r => 2 * beta r).toReal from rfl]
    gcongr

/-- A run of the egg box model without tuning: three ranks, 20000 iterations in stacks of 1000, batches of 10 ± 5. -/
noncomputable def eggboxRun : Cfg ℝ :=
  { demoCfg with
    nParm := 2
    nIter := 20000
    nStack := 1000
    base := 10
    rand := 5
    nSwap := 3
    swapmode := 1
    nBegintune := 100000
    nStoptune := 100001
    tuneLadder := 0
    nIterInTune := 100
    initGpRatio := 1 / 10
    betas := [1 / 10, 1 / 2, 1]
    sigmaMin := [1, 1]
    sigmaMax := [10, 10]
    user := eggbox.user [(0, 50), (0, 50)] 1 }

/-- The data file of the egg box run; the likelihood does not read it. -/
noncomputable def eggboxFile : DataFile ℝ := { nlines := 1, ndim := 1, cells := .ok [0] }

theorem eggbox_valid : Valid 3 eggboxRun eggboxFile where
  ranks := by norm_num
  ranksInt := by norm_num
  betas := by simp [eggboxRun]
  parm := by simp [eggboxRun]
  user := ⟨fun x hx => by rw [show eggboxRun.user.boundary = paraBoundary [(0, 50), (0, 50)] from rfl, paraBoundary_length]; exact hx,
    fun s => by show (initDraws _ _).1.length = 2; rw [initDraws_length]; simp [eggbox, model2], fun r => rfl⟩
  stack := by simp [eggboxRun]
  rand := by simp [eggboxRun]
  base := by simp [eggboxRun]
  randInt := by simp [eggboxRun]
  stackInt := by simp [eggboxRun]
  iterInt := .of_sum (by simp [eggboxRun])
  mode := by simp [eggboxRun]
  inTune := by simp [eggboxRun]
  sigmaMin := by simp [eggboxRun]
  sigmaMax := by simp [eggboxRun]
  cells := ⟨[0], rfl, by simp [eggboxFile], by simp⟩

/-- The hypotheses of the theorems of this file hold for the run above. -/
example (clock : Nat) : ∃ beta : Fin 3 → ℝ, copyBetas 3 eggboxRun.betas = .ok beta ∧ 0 < eggboxRate (1 / 10) beta ∧ eggboxRate (1 / 10) beta ≤ 1 ∧
    (∀ (w₁ : List (Label 3)) (t : Sys 3 (Msg ℝ) (Line ℝ) (RSt 3 ℝ)), (initSys eggboxRun eggboxFile clock 0).exec w₁ = some t → t.AllDone →
      ∃ st tab, t.procs 0 = .ret st ∧ st.tab = some tab ∧
        ∀ q, tab.x q = List.ofFn
          ((mainS (eggboxSetting (1 / 10) beta) (fun _ => .unif) eggboxRun 0 fun q => streamOf (srand48 ℝ (seedOf 0 (startSeed eggboxRun clock) q))).1 q)) ∧
    ∀ (A : Set (Fin 3 → Fin 2 → ℝ)) (_ : MeasurableSet A),
      |(unifStreams 3).real {ω | (mainS (eggboxSetting (1 / 10) beta) (fun _ => .unif) eggboxRun 0 ω).1 ∈ A} -
        (joint eggboxTarget (fun _ => 0) (fun _ => 50) beta).real A / (joint eggboxTarget (fun _ => 0) (fun _ => 50) beta).real univ| ≤
      (1 - eggboxRate (1 / 10) beta) ^ 20000 + 46 / 10 ^ 6 * ∑ j ∈ Finset.range 20000, (1 - eggboxRate (1 / 10) beta) ^ j :=
  eggbox_whole_run eggboxRun eggboxFile eggbox_valid 1 rfl rfl (by simp [eggboxRun]) (by simp only [eggboxRun]; norm_num)
    (by simp [eggboxRun]) (by simp [eggboxRun]) (fun k _ => by
      show (decide ((100000 : Int) < k) && decide (k < 100001) && decide (k < 20000)) = false
      rw [Bool.eq_false_iff]; simp only [ne_eq, Bool.and_eq_true, decide_eq_true_eq]; omega)
    (by simp [eggboxRun]) clock 0

end NiiC
