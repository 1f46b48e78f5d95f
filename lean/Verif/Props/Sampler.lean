import Verif.Prob.Par
import Verif.Props.Reflect
import Verif.Props.Normal

/-!
# The sampler as a whole: C75

The program with its draws replaced by independent uniform numbers of [0, 1), in exact arithmetic, with fixed widths and a fixed ladder.
One iteration is a function of the point and of `2 d + 1` draws (`program_step`); one iteration of every chain and one swap attempt are then
Markov kernels on the table of all chains. The product of the tempered posteriors is almost kept: each round of iterations adds at most the
probability that a normal step is as long as a range, plus `1e-16` for the literal of pi, for each chain and each parameter.
-/

set_option linter.unusedSectionVars false
set_option linter.unusedSimpArgs false

namespace NiiC

open MeasureTheory ProbabilityTheory Set ENNReal NNReal

/-! ## One iteration is a function of the draws -/

section
variable {d : Nat}

/-- The `k`-th draw from the generator state `g`. -/
noncomputable def drawAt [Source ℝ] (g : Rng) (k : Nat) : ℝ := (drand48 (F := ℝ) ((Source.next ℝ)^[k] g)).1

/-- The proposal made with the draws `w`: parameter `i` uses the pair `w i`. -/
noncomputable def proposal (lo hi : Fin d → ℝ) (s : Fin d → ℝ≥0) (x : Fin d → ℝ) (w : Fin d → ℝ × ℝ) (i : Fin d) : ℝ :=
  bounce (lo i) (hi i) (x i +. boxMuller piLit (w i).1 (w i).2 *. (s i : ℝ))

/-- One iteration with the draws `w`. -/
noncomputable def iteration (lo hi : Fin d → ℝ) (s : Fin d → ℝ≥0) (lp : (Fin d → ℝ) → ℝ) (x : Fin d → ℝ) (w : (Fin d → ℝ × ℝ) × ℝ) : Fin d → ℝ :=
  if mhTest (lp (proposal lo hi s x w.1)) (lp x) w.2 then proposal lo hi s x w.1 else x

/-- The proposal of the program uses two draws for each parameter, in order. -/
theorem propose_draws [Source ℝ] : ∀ (d : Nat) (x s : Fin d → ℝ) (g : Rng), Spec.propose (List.ofFn x) (List.ofFn s) g =
    (List.ofFn fun i : Fin d => x i +. boxMuller piLit (drawAt g (2 * i)) (drawAt g (2 * i + 1)) *. s i, (Source.next ℝ)^[2 * d] g) := by
  intro d
  induction d with
  | zero => intro x s g; simp [Spec.propose]
  | succ d ih =>
    intro x s g
    have h := ih (fun i => x i.succ) (fun i => s i.succ) (Source.next ℝ (Source.next ℝ g))
    have hz : (r8Normal01 (F := ℝ) g).2 = Source.next ℝ (Source.next ℝ g) := rfl
    rw [List.ofFn_succ, List.ofFn_succ, List.ofFn_succ]
    simp only [Spec.propose, hz, h]
    rw [normal01_boxMuller]
    refine Prod.ext ?_ ?_
    · simp only [List.cons.injEq]
      exact ⟨rfl, rfl⟩
    · show (Source.next ℝ)^[2 * d] (Source.next ℝ (Source.next ℝ g)) = (Source.next ℝ)^[2 * (d + 1)] g
      rw [Nat.mul_add, Nat.mul_one, Function.iterate_add_apply]
      rfl

theorem paraBoundary_ofFn : ∀ (d : Nat) (lo hi y : Fin d → ℝ),
    paraBoundary (List.ofFn fun i => (lo i, hi i)) (List.ofFn y) = List.ofFn fun i => bounce (lo i) (hi i) (y i) := by
  intro d
  induction d with
  | zero => intro lo hi y; simp [paraBoundary]
  | succ d ih =>
    intro lo hi y
    rw [List.ofFn_succ, List.ofFn_succ, List.ofFn_succ]
    simp only [paraBoundary, List.cons.injEq, true_and]
    exact ih (fun i => lo i.succ) (fun i => hi i.succ) (fun i => y i.succ)

/-- **C75, one iteration.** An iteration of the program is the function `iteration` of the point and of the next `2 d + 1` draws. -/
theorem program_step [Source ℝ] (u : User ℝ) (lo hi : Fin d → ℝ) (hb : u.boundary = paraBoundary (List.ofFn fun i => (lo i, hi i))) (s : Fin d → ℝ≥0)
    (nline : Int) (data : List ℝ) (beta : ℝ) (c : Spec.Ch ℝ) (x : Fin d → ℝ) (hx : c.x = List.ofFn x)
    (hlp : c.lp = Spec.target u nline data beta c.x) :
    (Spec.mhStep u (List.ofFn fun i => (s i : ℝ)) nline data beta c).x =
      List.ofFn (iteration lo hi s (fun y => Spec.target u nline data beta (List.ofFn y)) x
        (fun i => (drawAt c.g (2 * i), drawAt c.g (2 * i + 1)), drawAt c.g (2 * d))) := by
  rw [(mhStep_move u _ nline data beta c hlp).1, hx, propose_draws, hb, paraBoundary_ofFn]
  have e : (fun i => bounce (lo i) (hi i) (x i +. boxMuller piLit (drawAt c.g (2 * i)) (drawAt c.g (2 * i + 1)) *. (s i : ℝ))) =
      proposal lo hi s x (fun i => (drawAt c.g (2 * i), drawAt c.g (2 * i + 1))) := rfl
  rw [e]
  simp only [iteration, drawAt]
  exact (apply_ite List.ofFn _ _ _).symm

end

/-! ## Kernels -/

section
variable {α : Type} [MeasurableSpace α]

theorem mhKernel_map (q : Kernel α α) [IsMarkovKernel q] (lp : α → ℝ) (hlp : Measurable lp) (x : α) :
    mhKernel q lp x = ((q x).prod unif).map (fun p => mhMove lp (x, p.1, p.2)) := by
  have hm := measurable_mhMove lp hlp
  rw [mhKernel, Kernel.map_apply _ hm, Kernel.prod_apply, Kernel.id_apply, Measure.dirac_prod, Kernel.prod_apply, Kernel.const_apply,
    Measure.map_map hm measurable_prodMk_left]
  rfl

/-- Proposals that are close give iterations that are close. -/
theorem mh_tv (q q' : Kernel α α) [IsMarkovKernel q] [IsMarkovKernel q'] (lp : α → ℝ) (hlp : Measurable lp) {δ : ℝ≥0∞} (x : α)
    (h : Tv δ (q x) (q' x)) : Tv δ (mhKernel q lp x) (mhKernel q' lp x) := by
  rw [mhKernel_map q lp hlp, mhKernel_map q' lp hlp]
  have := (h.prod (Tv.refl unif)).map (f := fun p : α × ℝ => mhMove lp (x, p.1, p.2)) ((measurable_mhMove lp hlp).comp (by fun_prop))
  rwa [add_zero] at this

/-- Propose with `κ`, but stay when the proposal is outside `S`. -/
noncomputable def stayKernel (κ : Kernel α α) (S : Set α) : Kernel α α :=
  open Classical in (Kernel.id ×ₖ κ).map (fun p => if p.2 ∈ S then p.2 else p.1)

theorem measurable_stay {S : Set α} (hS : MeasurableSet S) : open Classical in Measurable (fun p : α × α => if p.2 ∈ S then p.2 else p.1) :=
  Measurable.ite (measurable_snd hS) measurable_snd measurable_fst

theorem stayKernel_markov (κ : Kernel α α) [IsMarkovKernel κ] {S : Set α} (hS : MeasurableSet S) : IsMarkovKernel (stayKernel κ S) :=
  Kernel.IsMarkovKernel.map _ (measurable_stay hS)

theorem stayKernel_apply (κ : Kernel α α) [IsMarkovKernel κ] {S : Set α} (hS : MeasurableSet S) (x : α) {B : Set α} (hB : MeasurableSet B) :
    stayKernel κ S x B = κ x (B ∩ S) + κ x Sᶜ * B.indicator 1 x := by
  classical
  have hm := measurable_stay (α := α) hS
  rw [stayKernel, Kernel.map_apply' _ hm _ hB, Kernel.prod_apply, Kernel.id_apply, Measure.dirac_prod,
    Measure.map_apply measurable_prodMk_left (hm hB)]
  have e : Prod.mk x ⁻¹' ((fun p : α × α => if p.2 ∈ S then p.2 else p.1) ⁻¹' B) = (B ∩ S) ∪ (Sᶜ ∩ {_y | x ∈ B}) := by
    ext y
    by_cases hy : y ∈ S <;> simp [hy]
  have hms : MeasurableSet {_y : α | x ∈ B} := MeasurableSet.const _
  rw [e, measure_union _ (hS.compl.inter hms)]
  · congr 1
    by_cases hx : x ∈ B <;> simp [hx]
  · exact Set.disjoint_left.2 fun y h1 h2 => h2.1 h1.2

theorem stay_tv (κ : Kernel α α) [IsMarkovKernel κ] {S : Set α} (hS : MeasurableSet S) (x : α) : Tv (κ x Sᶜ) (κ x) (stayKernel κ S x) := by
  intro A hA
  rw [stayKernel_apply κ hS x hA, add_right_comm]
  refine le_trans ?_ le_self_add
  calc κ x A = κ x (A ∩ S) + κ x (A \ S) := (measure_inter_add_sdiff A hS).symm
    _ ≤ κ x (A ∩ S) + κ x Sᶜ := by gcongr; exact fun y hy => hy.2

/-- A proposal with a symmetric density on `S`, and rejection outside `S`, is symmetric with respect to the base measure on `S`. -/
theorem stay_symmetric (κ : Kernel α α) [IsMarkovKernel κ] {S : Set α} (hS : MeasurableSet S) (μ : Measure α) [SFinite μ] (k : α → α → ℝ≥0∞)
    (hk : Measurable (Function.uncurry k)) (hsym : ∀ x y, k x y = k y x)
    (hd : ∀ x B, MeasurableSet B → B ⊆ S → κ x B = ∫⁻ y in B, k x y ∂μ) : SymmetricProposal (μ.restrict S) (stayKernel κ S) := by
  have hmk := stayKernel_markov κ hS
  have key : ∀ s : Set (α × α), MeasurableSet s → ((μ.restrict S) ⊗ₘ stayKernel κ S) s =
      (∫⁻ x in S, ∫⁻ y in S, s.indicator (Function.uncurry k) (x, y) ∂μ ∂μ) + ∫⁻ x in S, κ x Sᶜ * s.indicator 1 (x, x) ∂μ := by
    intro s hs
    rw [Measure.compProd_apply hs, ← lintegral_add_right]
    · refine lintegral_congr fun x => ?_
      have hsx : MeasurableSet (Prod.mk x ⁻¹' s) := measurable_prodMk_left hs
      rw [stayKernel_apply κ hS x hsx, hd x _ (hsx.inter hS) inter_subset_right]
      congr 1
      rw [inter_comm, ← Measure.restrict_restrict_of_subset inter_subset_left, ← lintegral_indicator (hS.inter hsx)]
      rw [← lintegral_indicator hS, ← lintegral_indicator hS]
      refine lintegral_congr fun y => ?_
      by_cases h1 : y ∈ S <;> by_cases h2 : (x, y) ∈ s <;> simp [indicator_apply, h1, h2, Function.uncurry]
    · have h1 : Measurable (fun x => κ x Sᶜ) := κ.measurable_coe hS.compl
      have h2 : Measurable (fun x : α => s.indicator (1 : α × α → ℝ≥0∞) (x, x)) := (measurable_one.indicator hs).comp (by fun_prop)
      exact h1.mul h2
  unfold SymmetricProposal
  ext s hs
  have hs' := measurable_swap hs
  have hsw := lintegral_lintegral_swap (μ := μ.restrict S) (ν := μ.restrict S) (f := fun x y => (Prod.swap ⁻¹' s).indicator (Function.uncurry k) (x, y))
    (hk.indicator hs').aemeasurable
  rw [Measure.map_apply measurable_swap hs, key s hs, key _ hs', hsw]
  congr 1
  classical
  refine lintegral_congr fun x => lintegral_congr fun y => ?_
  simp only [indicator_apply, mem_preimage, Prod.swap_prod_mk, Function.uncurry_apply_pair, hsym y x]

end

/-! ## One iteration of one chain with ideal draws -/

section
variable {d : Nat}

/-- The law of the draws of one iteration: all independent and uniform. -/
noncomputable def drawsLaw (d : Nat) : Measure ((Fin d → ℝ × ℝ) × ℝ) := (Measure.pi fun _ => unif.prod unif).prod unif

instance (d : Nat) : IsProbabilityMeasure (drawsLaw d) := by unfold drawsLaw; infer_instance

/-- One iteration with ideal draws, as a Markov kernel. -/
noncomputable def iterKernel (lo hi : Fin d → ℝ) (s : Fin d → ℝ≥0) (lp : (Fin d → ℝ) → ℝ) : Kernel (Fin d → ℝ) (Fin d → ℝ) :=
  (Kernel.id ×ₖ Kernel.const _ (drawsLaw d)).map (fun p => iteration lo hi s lp p.1 p.2)

/-- The proposal with ideal draws. -/
noncomputable def propKernel (lo hi : Fin d → ℝ) (s : Fin d → ℝ≥0) : Kernel (Fin d → ℝ) (Fin d → ℝ) :=
  (Kernel.id ×ₖ Kernel.const _ (Measure.pi fun _ => unif.prod unif)).map (fun p => proposal lo hi s p.1 p.2)

theorem measurable_proposal (lo hi : Fin d → ℝ) (s : Fin d → ℝ≥0) :
    Measurable (fun p : (Fin d → ℝ) × (Fin d → ℝ × ℝ) => proposal lo hi s p.1 p.2) := by
  refine measurable_pi_lambda _ fun i => ?_
  simp only [proposal, RealArith.add_eq, RealArith.mul_eq]
  have h1 : Measurable (fun p : (Fin d → ℝ) × (Fin d → ℝ × ℝ) => boxMuller piLit (p.2 i).1 (p.2 i).2) :=
    (measurable_boxMuller piLit).comp (by fun_prop : Measurable fun p : (Fin d → ℝ) × (Fin d → ℝ × ℝ) => p.2 i)
  exact (measurable_bounce _ _).comp (by fun_prop)

instance propKernel_markov (lo hi : Fin d → ℝ) (s : Fin d → ℝ≥0) : IsMarkovKernel (propKernel lo hi s) :=
  Kernel.IsMarkovKernel.map _ (measurable_proposal lo hi s)

theorem propKernel_apply (lo hi : Fin d → ℝ) (s : Fin d → ℝ≥0) (x : Fin d → ℝ) :
    propKernel lo hi s x = (Measure.pi fun _ => unif.prod unif).map (proposal lo hi s x) := by
  rw [propKernel, Kernel.map_apply _ (measurable_proposal lo hi s), Kernel.prod_apply, Kernel.id_apply, Kernel.const_apply, Measure.dirac_prod,
    Measure.map_map (measurable_proposal lo hi s) measurable_prodMk_left]
  rfl

theorem measurable_iteration (lo hi : Fin d → ℝ) (s : Fin d → ℝ≥0) {lp : (Fin d → ℝ) → ℝ} (hlp : Measurable lp) :
    Measurable (fun p : (Fin d → ℝ) × ((Fin d → ℝ × ℝ) × ℝ) => iteration lo hi s lp p.1 p.2) := by
  have h1 : Measurable (fun p : (Fin d → ℝ) × ((Fin d → ℝ × ℝ) × ℝ) => (p.1, proposal lo hi s p.1 p.2.1, p.2.2)) :=
    measurable_fst.prodMk (((measurable_proposal lo hi s).comp (measurable_fst.prodMk (measurable_fst.comp measurable_snd))).prodMk
      (measurable_snd.comp measurable_snd))
  exact (measurable_mhMove lp hlp).comp h1

/-- The iteration with ideal draws is the Metropolis kernel of its proposal. -/
theorem iterKernel_eq (lo hi : Fin d → ℝ) (s : Fin d → ℝ≥0) {lp : (Fin d → ℝ) → ℝ} (hlp : Measurable lp) :
    iterKernel lo hi s lp = mhKernel (propKernel lo hi s) lp := by
  have hm := measurable_iteration lo hi s hlp
  have hp : Measurable (proposal lo hi s : (Fin d → ℝ) → (Fin d → ℝ × ℝ) → Fin d → ℝ).uncurry := measurable_proposal lo hi s
  refine Kernel.ext_iff.2 fun x => ?_
  have hpx : Measurable (proposal lo hi s x) := hp.comp measurable_prodMk_left
  have hmv : Measurable (fun p : (Fin d → ℝ) × ℝ => mhMove lp (x, p.1, p.2)) := (measurable_mhMove lp hlp).comp (by fun_prop)
  rw [mhKernel_map _ lp hlp, iterKernel, Kernel.map_apply _ hm, Kernel.prod_apply, Kernel.id_apply, Kernel.const_apply, Measure.dirac_prod,
    Measure.map_map hm measurable_prodMk_left, propKernel_apply]
  have e : ((Measure.pi fun _ => unif.prod unif).map (proposal lo hi s x)).prod unif =
      (drawsLaw d).map (Prod.map (proposal lo hi s x) id) := by
    rw [drawsLaw, ← Measure.map_prod_map _ _ hpx measurable_id, Measure.map_id]
  rw [e, Measure.map_map hmv (hpx.prodMap measurable_id)]
  rfl

/-- The normal probability that a step is at least as long as the range. -/
noncomputable def tail (lo hi : ℝ) (s : ℝ≥0) : ℝ≥0∞ := gaussianReal 0 1 {z | hi - lo ≤ |z| * s}

/-- The bound for one iteration of one chain. -/
noncomputable def leak (lo hi : Fin d → ℝ) (s : Fin d → ℝ≥0) : ℝ≥0∞ := ∑ i, (tail (lo i) (hi i) (s i) + ENNReal.ofReal (1 / 10 ^ 16))

theorem boxMuller_tv : Tv (ENNReal.ofReal (1 / 10 ^ 16)) (boxMullerLaw piLit) (gaussianReal 0 1) := by
  intro A hA
  have := boxMullerLaw_prob piLit
  have h := (abs_lt.1 (normal_law_partial A hA)).2.le
  rw [← ofReal_measureReal (μ := boxMullerLaw piLit), ← ofReal_measureReal (μ := gaussianReal 0 1), ← ENNReal.ofReal_add measureReal_nonneg (by norm_num)]
  exact ENNReal.ofReal_le_ofReal (by linarith)

theorem reflectLaw_prob (lo hi : ℝ) (s : ℝ≥0) (x : ℝ) : IsProbabilityMeasure (reflectLaw lo hi s x) :=
  Measure.isProbabilityMeasure_map (measurable_move lo hi s x).aemeasurable

theorem propKernel_pi (lo hi : Fin d → ℝ) (s : Fin d → ℝ≥0) (x : Fin d → ℝ) : propKernel lo hi s x =
    Measure.pi fun i => (boxMullerLaw piLit).map (fun z => bounce (lo i) (hi i) (x i +. z *. (s i : ℝ))) := by
  rw [propKernel_apply]
  have e : ∀ i, (boxMullerLaw piLit).map (fun z => bounce (lo i) (hi i) (x i +. z *. (s i : ℝ))) =
      (unif.prod unif).map (fun w : ℝ × ℝ => bounce (lo i) (hi i) (x i +. boxMuller piLit w.1 w.2 *. (s i : ℝ))) := by
    intro i
    rw [boxMullerLaw, Measure.map_map (measurable_move _ _ _ _) (measurable_boxMuller piLit)]
    rfl
  simp only [e]
  exact Measure.pi_map_pi (fun i => ((measurable_move (lo i) (hi i) (s i) (x i)).comp (measurable_boxMuller piLit)).aemeasurable)

/-- The proposal differs from one with exactly normal steps by at most `1e-16` for each parameter. -/
theorem prop_tv (lo hi : Fin d → ℝ) (s : Fin d → ℝ≥0) (x : Fin d → ℝ) :
    Tv (∑ _i : Fin d, ENNReal.ofReal (1 / 10 ^ 16)) (propKernel lo hi s x) (reflectLawVec lo hi s x) := by
  rw [propKernel_pi, reflectLawVec_pi]
  have h1 : ∀ i, IsProbabilityMeasure ((boxMullerLaw piLit).map (fun z => bounce (lo i) (hi i) (x i +. z *. (s i : ℝ)))) := fun i => by
    have := boxMullerLaw_prob piLit
    exact Measure.isProbabilityMeasure_map (measurable_move _ _ _ _).aemeasurable
  have h2 := fun i => reflectLaw_prob (lo i) (hi i) (s i) (x i)
  exact Tv.pi fun i => boxMuller_tv.map (measurable_move _ _ _ _)

/-- The proposal with exactly normal steps, as a kernel. -/
noncomputable def reflectVec (lo hi : Fin d → ℝ) (s : Fin d → ℝ≥0) : Kernel (Fin d → ℝ) (Fin d → ℝ) :=
  (Kernel.id ×ₖ Kernel.const _ (Measure.pi fun _ => gaussianReal 0 1)).map (fun p i => bounce (lo i) (hi i) (p.1 i +. p.2 i *. (s i : ℝ)))

theorem measurable_reflectVec (lo hi : Fin d → ℝ) (s : Fin d → ℝ≥0) :
    Measurable (fun (p : (Fin d → ℝ) × (Fin d → ℝ)) i => bounce (lo i) (hi i) (p.1 i +. p.2 i *. (s i : ℝ))) := by
  refine measurable_pi_lambda _ fun i => ?_
  simp only [RealArith.add_eq, RealArith.mul_eq]
  exact (measurable_bounce _ _).comp (by fun_prop)

instance reflectVec_markov (lo hi : Fin d → ℝ) (s : Fin d → ℝ≥0) : IsMarkovKernel (reflectVec lo hi s) :=
  Kernel.IsMarkovKernel.map _ (measurable_reflectVec lo hi s)

theorem reflectVec_apply (lo hi : Fin d → ℝ) (s : Fin d → ℝ≥0) (x : Fin d → ℝ) : reflectVec lo hi s x = reflectLawVec lo hi s x := by
  have hm := measurable_reflectVec lo hi s
  rw [reflectVec, Kernel.map_apply _ hm, Kernel.prod_apply, Kernel.id_apply, Kernel.const_apply, Measure.dirac_prod, Measure.map_map hm measurable_prodMk_left]
  rfl

/-- The inside of the box. -/
def openBox (lo hi : Fin d → ℝ) : Set (Fin d → ℝ) := Set.pi univ fun i => Ioo (lo i) (hi i)

theorem measurableSet_openBox (lo hi : Fin d → ℝ) : MeasurableSet (openBox lo hi) := MeasurableSet.univ_pi fun _ => measurableSet_Ioo

/-- How much a proposal from inside the box puts on its border. -/
theorem reflect_leak (lo hi : Fin d → ℝ) (h : ∀ i, lo i < hi i) (s : Fin d → ℝ≥0) (x : Fin d → ℝ) (hx : x ∈ openBox lo hi) :
    reflectLawVec lo hi s x (openBox lo hi)ᶜ ≤ ∑ i, tail (lo i) (hi i) (s i) := by
  have hp := fun i => reflectLaw_prob (lo i) (hi i) (s i) (x i)
  rw [reflectLawVec_pi]
  have hsub : (openBox lo hi)ᶜ ⊆ ⋃ i ∈ (Finset.univ : Finset (Fin d)), (fun y : Fin d → ℝ => y i) ⁻¹' (Ioo (lo i) (hi i))ᶜ := by
    intro y hy
    simp only [openBox, mem_compl_iff, mem_univ_pi, not_forall] at hy
    obtain ⟨i, hi'⟩ := hy
    exact mem_biUnion (Finset.mem_coe.2 (Finset.mem_univ i)) hi'
  refine (measure_mono hsub).trans ((measure_biUnion_finset_le _ _).trans (Finset.sum_le_sum fun i _ => ?_))
  have hev := (measurePreserving_eval (fun i => reflectLaw (lo i) (hi i) (s i) (x i)) i).measure_preimage
    (measurableSet_Ioo.compl : MeasurableSet (Ioo (lo i) (hi i))ᶜ).nullMeasurableSet
  have hev' : (Measure.pi fun i => reflectLaw (lo i) (hi i) (s i) (x i)) ((fun y : Fin d → ℝ => y i) ⁻¹' (Ioo (lo i) (hi i))ᶜ) =
      reflectLaw (lo i) (hi i) (s i) (x i) (Ioo (lo i) (hi i))ᶜ := hev
  rw [hev']
  refine le_trans ?_ (reflect_atom_bound (lo i) (hi i) (h i) (s i) (x i) (hx i (mem_univ i)))
  rw [reflectLaw, Measure.map_apply (measurable_move _ _ _ _) measurableSet_Ioo.compl,
    Measure.map_apply (measurable_move _ _ _ _) ((measurableSet_singleton _).insert _)]
  refine measure_mono fun z hz => ?_
  obtain ⟨⟨h1, h2⟩, -⟩ := bounce_exact (lo i) (hi i) (h i).le (x i + z * s i)
  have hz' : ¬ (lo i < bounce (lo i) (hi i) (x i + z * s i) ∧ bounce (lo i) (hi i) (x i + z * s i) < hi i) := hz
  show bounce (lo i) (hi i) (x i + z * s i) = lo i ∨ bounce (lo i) (hi i) (x i + z * s i) = hi i
  by_contra hn
  rw [not_or] at hn
  exact hz' ⟨lt_of_le_of_ne h1 (Ne.symm hn.1), lt_of_le_of_ne h2 hn.2⟩

/-- The iteration that keeps the posterior: exactly normal steps, and rejection of what would be put on the border. -/
noncomputable def exactKernel (lo hi : Fin d → ℝ) (s : Fin d → ℝ≥0) (lp : (Fin d → ℝ) → ℝ) : Kernel (Fin d → ℝ) (Fin d → ℝ) :=
  mhKernel (stayKernel (reflectVec lo hi s) (openBox lo hi)) lp

theorem exactKernel_invariant (lo hi : Fin d → ℝ) (h : ∀ i, lo i < hi i) (s : Fin d → ℝ≥0) (hs : ∀ i, s i ≠ 0) {lp : (Fin d → ℝ) → ℝ} (hlp : Measurable lp) :
    (exactKernel lo hi s lp).Invariant (posterior (volume.restrict (openBox lo hi)) lp) := by
  have hmk := stayKernel_markov (reflectVec lo hi s) (measurableSet_openBox lo hi)
  have hk : Measurable (Function.uncurry (Spec.reflectDensityVec lo hi s)) := by
    unfold Spec.reflectDensityVec Spec.reflectDensity gaussianPDF gaussianPDFReal
    simp only [Function.uncurry_def]
    refine Finset.measurable_prod _ fun i _ => ?_
    fun_prop
  obtain ⟨h1, h2⟩ := reflect_symmetric_all_partial lo hi h s hs
  refine mh_invariant _ _ (stay_symmetric _ (measurableSet_openBox lo hi) volume _ hk h2 fun x B hB hsub => ?_) lp hlp
  rw [reflectVec_apply]
  exact h1 x B hB hsub

/-- From inside the box the program's iteration is close to the one that keeps the posterior. -/
theorem iter_tv (lo hi : Fin d → ℝ) (h : ∀ i, lo i < hi i) (s : Fin d → ℝ≥0) {lp : (Fin d → ℝ) → ℝ} (hlp : Measurable lp) (x : Fin d → ℝ)
    (hx : x ∈ openBox lo hi) : Tv (leak lo hi s) (iterKernel lo hi s lp x) (exactKernel lo hi s lp x) := by
  have hmk := stayKernel_markov (reflectVec lo hi s) (measurableSet_openBox lo hi)
  rw [iterKernel_eq lo hi s hlp, exactKernel]
  refine mh_tv _ _ lp hlp x ?_
  have h1 := prop_tv lo hi s x
  rw [← reflectVec_apply] at h1
  have h2 := stay_tv (reflectVec lo hi s) (measurableSet_openBox lo hi) x
  refine (h1.trans h2).mono ?_
  rw [leak, Finset.sum_add_distrib, add_comm]
  gcongr
  rw [reflectVec_apply]
  exact reflect_leak lo hi h s x hx

theorem iterKernel_markov (lo hi : Fin d → ℝ) (s : Fin d → ℝ≥0) {lp : (Fin d → ℝ) → ℝ} (hlp : Measurable lp) : IsMarkovKernel (iterKernel lo hi s lp) := by
  rw [iterKernel_eq lo hi s hlp]
  exact Kernel.IsMarkovKernel.map _ (measurable_mhMove lp hlp)

theorem exactKernel_markov (lo hi : Fin d → ℝ) (s : Fin d → ℝ≥0) {lp : (Fin d → ℝ) → ℝ} (hlp : Measurable lp) : IsMarkovKernel (exactKernel lo hi s lp) := by
  have hmk := stayKernel_markov (reflectVec lo hi s) (measurableSet_openBox lo hi)
  exact Kernel.IsMarkovKernel.map _ (measurable_mhMove lp hlp)

end

/-! ## All chains -/

/-- A likelihood and a prior, as functions of the point. -/
structure Target (d : Nat) where
  /-- log-likelihood -/
  L : (Fin d → ℝ) → ℝ
  /-- log-prior -/
  Pr : (Fin d → ℝ) → ℝ
  hL : Measurable L
  hP : Measurable Pr

/-- The log-posterior at inverse temperature `b`. -/
noncomputable def Target.lp {d : Nat} (T : Target d) (b : ℝ) (x : Fin d → ℝ) : ℝ := b * T.L x + T.Pr x

theorem Target.measurable {d : Nat} (T : Target d) (b : ℝ) : Measurable (T.lp b) := (measurable_const.mul T.hL).add T.hP

section
variable {d n : Nat}

instance (T : Target d) (lo hi : Fin d → ℝ) (s : Fin d → ℝ≥0) (b : ℝ) : IsMarkovKernel (iterKernel lo hi s (T.lp b)) :=
  iterKernel_markov lo hi s (T.measurable b)

instance (T : Target d) (lo hi : Fin d → ℝ) (s : Fin d → ℝ≥0) (b : ℝ) : IsMarkovKernel (exactKernel lo hi s (T.lp b)) :=
  exactKernel_markov lo hi s (T.measurable b)

/-- What the sampler does to the table of all chains: every chain makes one iteration, or a swap of two chains is attempted. -/
inductive Move (n : Nat) where
  | iter
  | swap (i j : Fin n)

/-- The number of iterations in a sequence of moves. -/
def iters : List (Move n) → Nat
  | [] => 0
  | .iter :: l => iters l + 1
  | .swap _ _ :: l => iters l

/-- Swaps are between different chains. -/
def Apart (l : List (Move n)) : Prop := ∀ i j, Move.swap i j ∈ l → i ≠ j

/-- A move as a Markov kernel: chain `r` has the widths `s r` and the inverse temperature `beta r`. -/
noncomputable def moveKernel (T : Target d) (lo hi : Fin d → ℝ) (s : Fin n → Fin d → ℝ≥0) (beta : Fin n → ℝ) :
    Move n → Kernel (Fin n → Fin d → ℝ) (Fin n → Fin d → ℝ)
  | .iter => parKernel fun r => iterKernel lo hi (s r) (T.lp (beta r))
  | .swap i j => swapKernel beta T.L T.Pr i j

/-- The law of the table after the moves `l`, from the law `P`. -/
noncomputable def lawAfter (T : Target d) (lo hi : Fin d → ℝ) (s : Fin n → Fin d → ℝ≥0) (beta : Fin n → ℝ) (l : List (Move n))
    (P : Measure (Fin n → Fin d → ℝ)) : Measure (Fin n → Fin d → ℝ) := l.foldl (fun m k => m.bind (moveKernel T lo hi s beta k)) P

/-- The product of the tempered posteriors on the box, without normalisation. -/
noncomputable def joint (T : Target d) (lo hi : Fin d → ℝ) (beta : Fin n → ℝ) : Measure (Fin n → Fin d → ℝ) :=
  posterior (Measure.pi fun _ => volume.restrict (openBox lo hi)) (jointLp beta T.L T.Pr)

theorem swapKernel_markov (T : Target d) (beta : Fin n → ℝ) {i j : Fin n} (hij : i ≠ j) : IsMarkovKernel (swapKernel beta T.L T.Pr i j) := by
  rw [swapKernel_eq beta T.hL T.hP hij]
  exact Kernel.IsMarkovKernel.map _ (measurable_mhMove _ (measurable_jointLp beta T.hL T.hP))

/-- The joint law is the product of the laws of the chains. -/
theorem joint_pi (T : Target d) (lo hi : Fin d → ℝ) (beta : Fin n → ℝ) :
    Measure.pi (fun r => posterior (volume.restrict (openBox lo hi)) (T.lp (beta r))) = joint T lo hi beta := by
  have hsf : ∀ r, SigmaFinite (posterior (volume.restrict (openBox lo hi)) (T.lp (beta r))) := fun r => SigmaFinite.withDensity_ofReal _
  refine Measure.pi_eq fun C hC => ?_
  rw [joint, posterior, withDensity_apply _ (MeasurableSet.univ_pi hC), Measure.restrict_pi_pi]
  have e : ∀ y : Fin n → Fin d → ℝ, dens (jointLp beta T.L T.Pr) y = ∏ r, dens (T.lp (beta r)) (y r) := by
    intro y
    simp only [dens, jointLp, Target.lp]
    rw [Real.exp_sum, ENNReal.ofReal_prod_of_nonneg fun r _ => (Real.exp_pos _).le]
  simp only [e]
  rw [lintegral_pi_mul _ _ fun r => measurable_dens (T.measurable (beta r))]
  refine Finset.prod_congr rfl fun r _ => ?_
  rw [posterior, withDensity_apply _ (hC r)]

/-- Under the joint law all chains are inside the box. -/
theorem joint_inside (T : Target d) (lo hi : Fin d → ℝ) (beta : Fin n → ℝ) : ∀ᵐ x ∂(joint T lo hi beta), ∀ r, x r ∈ openBox lo hi := by
  have h1 : ∀ᵐ x ∂(Measure.pi fun _ : Fin n => volume.restrict (openBox lo hi)), ∀ r, x r ∈ openBox lo hi := by
    rw [← Measure.restrict_pi_pi]
    refine (ae_restrict_mem (MeasurableSet.univ_pi fun _ => measurableSet_openBox lo hi)).mono fun x hx r => hx r (mem_univ r)
  exact (withDensity_absolutelyContinuous _ _) h1

/-- The sum of the bounds of all chains. -/
noncomputable def leakAll (lo hi : Fin d → ℝ) (s : Fin n → Fin d → ℝ≥0) : ℝ≥0∞ := ∑ r, leak lo hi (s r)

theorem iter_move_tv (T : Target d) (lo hi : Fin d → ℝ) (h : ∀ i, lo i < hi i) (s : Fin n → Fin d → ℝ≥0) (hs : ∀ r i, s r i ≠ 0) (beta : Fin n → ℝ) :
    Tv (leakAll lo hi s * joint T lo hi beta univ) ((joint T lo hi beta).bind (moveKernel T lo hi s beta .iter)) (joint T lo hi beta) := by
  have hsf : ∀ r, SigmaFinite (posterior (volume.restrict (openBox lo hi)) (T.lp (beta r))) := fun r => SigmaFinite.withDensity_ofReal _
  have hinv : (parKernel fun r => exactKernel lo hi (s r) (T.lp (beta r))).Invariant (joint T lo hi beta) := by
    rw [← joint_pi]
    exact parKernel_invariant _ _ fun r => exactKernel_invariant lo hi h (s r) (hs r) (T.measurable (beta r))
  have hk := Tv.bind_kernel (P := joint T lo hi beta) (δ := leakAll lo hi s) (moveKernel T lo hi s beta .iter)
    (parKernel fun r => exactKernel lo hi (s r) (T.lp (beta r))) ((joint_inside T lo hi beta).mono fun x hx => by
      rw [moveKernel, parKernel_apply, parKernel_apply]
      exact Tv.pi fun r => iter_tv lo hi h (s r) (T.measurable (beta r)) (x r) (hx r))
  rwa [hinv.def] at hk

theorem swap_move_invariant (T : Target d) (lo hi : Fin d → ℝ) (s : Fin n → Fin d → ℝ≥0) (beta : Fin n → ℝ) {i j : Fin n} (hij : i ≠ j) :
    (joint T lo hi beta).bind (moveKernel T lo hi s beta (.swap i j)) = joint T lo hi beta := by
  have hm := swapKernel_markov T beta hij
  exact (swap_reversible (volume.restrict (openBox lo hi)) beta T.hL T.hP hij).invariant.def

theorem moveKernel_markov (T : Target d) (lo hi : Fin d → ℝ) (s : Fin n → Fin d → ℝ≥0) (beta : Fin n → ℝ) (m : Move n) (hm : ∀ i j, m = .swap i j → i ≠ j) :
    IsMarkovKernel (moveKernel T lo hi s beta m) := by
  cases m with
  | iter => unfold moveKernel; infer_instance
  | swap i j => exact swapKernel_markov T beta (hm i j rfl)

theorem lawAfter_tv (T : Target d) (lo hi : Fin d → ℝ) (h : ∀ i, lo i < hi i) (s : Fin n → Fin d → ℝ≥0) (hs : ∀ r i, s r i ≠ 0) (beta : Fin n → ℝ)
    [IsFiniteMeasure (joint T lo hi beta)] : ∀ (l : List (Move n)) (_ : Apart l) (δ : ℝ≥0∞) (P : Measure (Fin n → Fin d → ℝ)) [IsFiniteMeasure P],
    Tv δ P (joint T lo hi beta) → Tv (δ + iters l * (leakAll lo hi s * joint T lo hi beta univ)) (lawAfter T lo hi s beta l P) (joint T lo hi beta) := by
  intro l
  induction l with
  | nil => intro _ δ P _ hP; simpa [iters, lawAfter] using hP
  | cons m l ih =>
    intro hl δ P _ hP
    have hl' : Apart l := fun i j hij => hl i j (List.mem_cons_of_mem _ hij)
    have hmk := moveKernel_markov T lo hi s beta m fun i j e => hl i j (by rw [e]; exact List.mem_cons_self)
    have h1 := hP.bind (moveKernel T lo hi s beta m)
    cases m with
    | iter =>
      have h2 := ih hl' _ _ (h1.trans (iter_move_tv T lo hi h s hs beta))
      refine h2.mono (le_of_eq ?_)
      simp only [iters, Nat.cast_add, Nat.cast_one]
      ring
    | swap i j =>
      rw [swap_move_invariant T lo hi s beta (hl i j List.mem_cons_self)] at h1
      exact ih hl' _ _ h1

theorem lawAfter_mass (T : Target d) (lo hi : Fin d → ℝ) (s : Fin n → Fin d → ℝ≥0) (beta : Fin n → ℝ) : ∀ (l : List (Move n)) (_ : Apart l)
    (P : Measure (Fin n → Fin d → ℝ)), lawAfter T lo hi s beta l P univ = P univ := by
  intro l
  induction l with
  | nil => intro _ P; rfl
  | cons m l ih =>
    intro hl P
    have hmk := moveKernel_markov T lo hi s beta m fun i j e => hl i j (by rw [e]; exact List.mem_cons_self)
    have := ih (fun i j hij => hl i j (List.mem_cons_of_mem _ hij)) (P.bind (moveKernel T lo hi s beta m))
    rw [lawAfter, List.foldl_cons]
    rw [lawAfter] at this
    rw [this, Measure.bind_apply MeasurableSet.univ (Kernel.aemeasurable _)]
    simp

/-- **C75.** Starting from the product of the tempered posteriors, after any sequence of iterations and swap attempts the law of the table differs from it on
no set by more than the number of iterations times the sum, over chains and parameters, of `P(|Z| s ≥ hi - lo) + 1e-16`, times the total mass. -/
theorem sampler_keeps (T : Target d) (lo hi : Fin d → ℝ) (h : ∀ i, lo i < hi i) (s : Fin n → Fin d → ℝ≥0) (hs : ∀ r i, s r i ≠ 0) (beta : Fin n → ℝ)
    (hfin : joint T lo hi beta univ ≠ ∞) (l : List (Move n)) (hl : Apart l) (A : Set (Fin n → Fin d → ℝ)) (hA : MeasurableSet A) :
    |(lawAfter T lo hi s beta l (joint T lo hi beta)).real A - (joint T lo hi beta).real A| ≤
      iters l * (∑ r, ∑ i, ((tail (lo i) (hi i) (s r i)).toReal + 1 / 10 ^ 16)) * (joint T lo hi beta).real univ := by
  have hf : IsFiniteMeasure (joint T lo hi beta) := ⟨lt_top_iff_ne_top.2 hfin⟩
  have hmass := lawAfter_mass T lo hi s beta l hl (joint T lo hi beta)
  have hf' : IsFiniteMeasure (lawAfter T lo hi s beta l (joint T lo hi beta)) := ⟨by rw [hmass]; exact lt_top_iff_ne_top.2 hfin⟩
  have h1 := lawAfter_tv T lo hi h s hs beta l hl 0 _ (Tv.refl _)
  have h2 := h1.symm hmass
  rw [zero_add] at h1 h2
  have htail : ∀ r i, tail (lo i) (hi i) (s r i) ≠ ∞ := fun r i => measure_ne_top _ _
  have hterm : ∀ r i, tail (lo i) (hi i) (s r i) + ENNReal.ofReal (1 / 10 ^ 16) ≠ ∞ := fun r i =>
    ENNReal.add_ne_top.2 ⟨htail r i, ENNReal.ofReal_ne_top⟩
  have hleak : (leakAll lo hi s).toReal = ∑ r, ∑ i, ((tail (lo i) (hi i) (s r i)).toReal + 1 / 10 ^ 16) := by
    rw [leakAll, ENNReal.toReal_sum fun r _ => by rw [leak]; exact ENNReal.sum_ne_top.2 fun i _ => hterm r i]
    refine Finset.sum_congr rfl fun r _ => ?_
    rw [leak, ENNReal.toReal_sum fun i _ => hterm r i]
    refine Finset.sum_congr rfl fun i _ => ?_
    rw [ENNReal.toReal_add (htail r i) ENNReal.ofReal_ne_top, ENNReal.toReal_ofReal (by norm_num)]
  have hltop : leakAll lo hi s ≠ ∞ := by
    rw [leakAll]
    exact ENNReal.sum_ne_top.2 fun r _ => by rw [leak]; exact ENNReal.sum_ne_top.2 fun i _ => hterm r i
  have htop : (iters l : ℝ≥0∞) * (leakAll lo hi s * joint T lo hi beta univ) ≠ ∞ := by
    refine ENNReal.mul_ne_top (by simp) (ENNReal.mul_ne_top hltop hfin)
  have hreal : ((iters l : ℝ≥0∞) * (leakAll lo hi s * joint T lo hi beta univ)).toReal =
      iters l * (∑ r, ∑ i, ((tail (lo i) (hi i) (s r i)).toReal + 1 / 10 ^ 16)) * (joint T lo hi beta).real univ := by
    rw [ENNReal.toReal_mul, ENNReal.toReal_mul, hleak, mul_assoc]
    simp [measureReal_def]
  rw [← hreal, abs_le]
  have g1 := ENNReal.toReal_mono (ENNReal.add_ne_top.2 ⟨measure_ne_top _ _, htop⟩) (h1 A hA)
  have g2 := ENNReal.toReal_mono (ENNReal.add_ne_top.2 ⟨measure_ne_top _ _, htop⟩) (h2 A hA)
  rw [ENNReal.toReal_add (measure_ne_top _ _) htop] at g1 g2
  simp only [measureReal_def]
  constructor <;> linarith

end

/-- One iteration of the egg box model at (12, 40). -/
example (c : Spec.Ch ℝ) (hx : c.x = [12, 40]) (hlp : c.lp = Spec.target (eggbox.user [(0, 50), (0, 50)] 2) 0 [] (1 / 10) c.x) :
    (Spec.mhStep (eggbox.user [((0 : ℝ), 50), (0, 50)] 2) [5, 5] 0 [] (1 / 10) c).x =
      List.ofFn (iteration (fun _ => 0) (fun _ => 50) (fun _ => 5) (fun y => Spec.target (eggbox.user [(0, 50), (0, 50)] 2) 0 [] (1 / 10) (List.ofFn y)) ![12, 40]
        (fun i : Fin 2 => (drawAt c.g (2 * i), drawAt c.g (2 * i + 1)), drawAt c.g (2 * 2))) := by
  have h := program_step (eggbox.user [((0 : ℝ), 50), (0, 50)] 2) (fun _ : Fin 2 => 0) (fun _ => 50) rfl (fun _ => 5) 0 [] (1 / 10) c ![12, 40]
    (by rw [hx]; simp [List.ofFn_succ]) hlp
  simpa [List.ofFn_succ] using h

end NiiC
