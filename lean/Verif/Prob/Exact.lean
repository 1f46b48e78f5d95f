import Verif.Prob.Local
import Verif.Props.Converge

/-!
# The iteration that keeps the posterior, parameter by parameter

The program's iteration differs from this one only by the steps that are as long as a range and by the literal of pi. Its proposal moves every parameter
independently and stays where the boundary routine would put a parameter on the border. Helper lemmas for C85.
-/

set_option linter.unusedSectionVars false
set_option linter.unusedSimpArgs false

namespace NiiC

open MeasureTheory ProbabilityTheory Set ENNReal NNReal

/-- How much is put on the ends, from any point of the closed range. -/
theorem reflect_atom_closed (lo hi : ℝ) (h : lo < hi) (s : ℝ≥0) (hs : s ≠ 0) (x : ℝ) (hx : x ∈ Icc lo hi) :
    reflectLaw lo hi s x (Ioo lo hi)ᶜ ≤ tail lo hi s := by
  rw [reflectLaw, Measure.map_apply (measurable_move lo hi s x) measurableSet_Ioo.compl]
  have hs' : (0 : ℝ) < s := NNReal.coe_pos.2 (pos_iff_ne_zero.2 hs)
  have hb : ∀ z, bounce lo hi (x + z * s) ∉ Ioo lo hi → hi - lo ≤ |z| * s ∨ x + z * s = lo ∨ x + z * s = hi := by
    intro z hz
    obtain ⟨⟨b1, b2⟩, h0, h1, h2, _, _⟩ := bounce_exact lo hi h.le (x + z * s)
    have habs : |z * (s : ℝ)| = |z| * s := by rw [abs_mul, abs_of_pos hs']
    rw [← habs]
    by_contra hn
    rw [not_or, not_or, not_le] at hn
    obtain ⟨n1, n2, n3⟩ := hn
    rw [abs_lt] at n1
    refine hz ?_
    rcases lt_trichotomy (x + z * s) lo with c | c | c
    · have := h2 (by linarith) (by linarith [hx.1])
      exact ⟨by linarith, by linarith [hx.1]⟩
    · exact absurd c n2
    · rcases lt_trichotomy (x + z * s) hi with d | d | d
      · rw [h0 c.le d.le]; exact ⟨c, d⟩
      · exact absurd d n3
      · have := h1 (by linarith) (by linarith [hx.2])
        exact ⟨by linarith [hx.2], by linarith⟩
  have hsub : ∀ c : ℝ, ({z : ℝ | x + z * s = c}).Subsingleton := by
    intro c z hz z' hz'
    have e : x + z * s = c := hz
    have e' : x + z' * s = c := hz'
    have : z * (s : ℝ) = z' * s := by linarith
    exact mul_right_cancel₀ hs'.ne' this
  have hat := noAtoms_gaussianReal (μ := 0) (one_ne_zero (α := ℝ≥0))
  refine (measure_mono (fun z hz => ?_ : _ ⊆ {z : ℝ | hi - lo ≤ |z| * s} ∪ ({z : ℝ | x + z * s = lo} ∪ {z : ℝ | x + z * s = hi}))).trans ?_
  · exact hb z hz
  · refine (measure_union_le _ _).trans ?_
    have z1 := (hsub lo).measure_zero (gaussianReal 0 1)
    have z2 := (hsub hi).measure_zero (gaussianReal 0 1)
    rw [measure_union_null z1 z2, add_zero]
    exact le_rfl

/-! ## One parameter -/

/-- The proposal of one parameter with an exactly normal step. -/
noncomputable def reflect1 (lo hi : ℝ) (s : ℝ≥0) : Kernel ℝ ℝ :=
  (Kernel.id ×ₖ Kernel.const _ (gaussianReal 0 1)).map (fun p => bounce lo hi (p.1 +. p.2 *. (s : ℝ)))

theorem measurable_reflect1 (lo hi : ℝ) (s : ℝ≥0) : Measurable (fun p : ℝ × ℝ => bounce lo hi (p.1 +. p.2 *. (s : ℝ))) := by
  simp only [RealArith.add_eq, RealArith.mul_eq]
  exact (measurable_bounce _ _).comp (by fun_prop)

instance (lo hi : ℝ) (s : ℝ≥0) : IsMarkovKernel (reflect1 lo hi s) := Kernel.IsMarkovKernel.map _ (measurable_reflect1 lo hi s)

theorem reflect1_apply (lo hi : ℝ) (s : ℝ≥0) (x : ℝ) : reflect1 lo hi s x = reflectLaw lo hi s x := by
  have hm := measurable_reflect1 lo hi s
  rw [reflect1, Kernel.map_apply _ hm, Kernel.prod_apply, Kernel.id_apply, Kernel.const_apply, Measure.dirac_prod, Measure.map_map hm measurable_prodMk_left]
  rfl

/-- The same, staying where the step would end on the border. -/
noncomputable def step1 (lo hi : ℝ) (s : ℝ≥0) : Kernel ℝ ℝ := stayKernel (reflect1 lo hi s) (Ioo lo hi)

instance (lo hi : ℝ) (s : ℝ≥0) : IsMarkovKernel (step1 lo hi s) := stayKernel_markov _ measurableSet_Ioo

theorem measurable_reflectDensity2 (lo hi : ℝ) (s : ℝ≥0) : Measurable (Function.uncurry (Spec.reflectDensity lo hi s)) := by
  unfold Spec.reflectDensity gaussianPDF gaussianPDFReal
  simp only [Function.uncurry_def]
  fun_prop

theorem step1_symmetric (lo hi : ℝ) (h : lo < hi) (s : ℝ≥0) (hs : s ≠ 0) : SymmetricProposal (volume.restrict (Ioo lo hi)) (step1 lo hi s) :=
  stay_symmetric _ measurableSet_Ioo volume _ (measurable_reflectDensity2 lo hi s) (reflectDensity_symm lo hi s) fun x B hB hsub => by
    rw [reflect1_apply]
    exact reflect_density lo hi h s hs x B hB hsub

theorem SymmetricProposal.invariant {α : Type} [MeasurableSpace α] {μ : Measure α} [SFinite μ] {q : Kernel α α} [IsMarkovKernel q] (h : SymmetricProposal μ q) :
    q.Invariant μ := by
  show μ.bind q = μ
  have h1 : (μ ⊗ₘ q).snd = μ.bind q := Measure.snd_compProd μ q
  have h2 : (μ ⊗ₘ q).fst = μ := Measure.fst_compProd μ q
  have h3 : ((μ ⊗ₘ q).map Prod.swap).snd = (μ ⊗ₘ q).fst := Measure.snd_map_swap
  rw [← h1, ← h, h3, h2]

/-- What the step contains. -/
theorem step1_part (lo hi : ℝ) (s : ℝ≥0) (x : ℝ) : (reflectLaw lo hi s x).restrict (Ioo lo hi) ≤ step1 lo hi s x := by
  refine Measure.le_iff.2 fun B hB => ?_
  rw [step1, stayKernel_apply _ measurableSet_Ioo x hB, reflect1_apply, Measure.restrict_apply hB]
  exact le_self_add

theorem step1_spreads (lo hi : ℝ) (h : lo < hi) (s : ℝ≥0) (hs : s ≠ 0) (hsL : (s : ℝ) ≤ hi - lo) : Spreads (step1 lo hi s) (uniformOn lo hi) (gap lo hi s) := by
  refine gap_spreads h hs hsL _ fun x hx => le_trans ?_ (step1_part lo hi s x)
  refine Measure.le_iff.2 fun B hB => ?_
  rw [withDensity_apply _ hB, Measure.restrict_apply hB, Measure.restrict_restrict hB,
    reflect_density lo hi h s hs x _ (hB.inter measurableSet_Ioo) inter_subset_right]
  exact lintegral_mono fun y => le_self_add.trans le_self_add

theorem uniformOn_invariant (lo hi : ℝ) (h : lo < hi) (s : ℝ≥0) (hs : s ≠ 0) : (step1 lo hi s).Invariant (uniformOn lo hi) := by
  show (uniformOn lo hi).bind (step1 lo hi s) = uniformOn lo hi
  rw [uniformOn, smul_bind, (step1_symmetric lo hi h s hs).invariant.def]

theorem step1_closed (lo hi : ℝ) (s : ℝ≥0) (x : ℝ) (hx : x ∈ Icc lo hi) : ∀ᵐ y ∂(step1 lo hi s x), y ∈ Icc lo hi := by
  rw [ae_iff]
  show step1 lo hi s x (Icc lo hi)ᶜ = 0
  rw [step1, stayKernel_apply _ measurableSet_Ioo x measurableSet_Icc.compl, indicator_of_notMem (by simpa using hx), mul_zero, add_zero]
  have : (Icc lo hi)ᶜ ∩ Ioo lo hi = ∅ := by
    ext y
    simp only [mem_inter_iff, mem_compl_iff, mem_empty_iff_false, iff_false, not_and]
    exact fun h1 h2 => h1 (Ioo_subset_Icc_self h2)
  rw [this, measure_empty]

/-- From anywhere in the range, the program's proposal is close to this one. -/
theorem step1_tv (lo hi : ℝ) (h : lo < hi) (s : ℝ≥0) (hs : s ≠ 0) (x : ℝ) (hx : x ∈ Icc lo hi) :
    Tv (tail lo hi s + ENNReal.ofReal (1 / 10 ^ 16)) ((boxMullerLaw piLit).map (fun z => bounce lo hi (x +. z *. (s : ℝ)))) (step1 lo hi s x) := by
  have h1 : Tv (ENNReal.ofReal (1 / 10 ^ 16)) ((boxMullerLaw piLit).map (fun z => bounce lo hi (x +. z *. (s : ℝ)))) (reflect1 lo hi s x) := by
    rw [reflect1_apply]
    exact boxMuller_tv.map (measurable_move _ _ _ _)
  have h2 := stay_tv (reflect1 lo hi s) (measurableSet_Ioo : MeasurableSet (Ioo lo hi)) x
  refine (h1.trans h2).mono ?_
  rw [add_comm, reflect1_apply]
  gcongr
  exact reflect_atom_closed lo hi h s hs x hx

/-- The largest density of a proposal, times the range. -/
noncomputable def crowd1 (lo hi : ℝ) (s : ℝ≥0) : ℝ := 3 * (hi - lo) / (s * Real.sqrt (2 * Real.pi))

theorem reflect_crowd (lo hi : ℝ) (h : lo < hi) (s : ℝ≥0) (hs : s ≠ 0) (x : ℝ) :
    (reflectLaw lo hi s x).restrict (Ioo lo hi) ≤ ENNReal.ofReal (crowd1 lo hi s) • uniformOn lo hi := by
  have hs' : (0 : ℝ) < s := NNReal.coe_pos.2 (pos_iff_ne_zero.2 hs)
  have hq : 0 < Real.sqrt (2 * Real.pi) := Real.sqrt_pos.2 (by positivity)
  have hL : 0 < hi - lo := by linarith
  refine Measure.le_iff.2 fun B hB => ?_
  rw [Measure.restrict_apply hB, reflect_density lo hi h s hs x _ (hB.inter measurableSet_Ioo) inter_subset_right, Measure.smul_apply, uniformOn,
    Measure.smul_apply, smul_eq_mul, smul_eq_mul, Measure.restrict_apply hB, ← mul_assoc, ← ENNReal.ofReal_mul (by unfold crowd1; positivity), ← setLIntegral_const]
  refine lintegral_mono fun y => ?_
  have hpdf : ∀ y, gaussianPDF x (s ^ 2) y ≤ ENNReal.ofReal (1 / (s * Real.sqrt (2 * Real.pi))) := fun y => by
    rw [gaussianPDF, gaussianPDFReal]
    refine ENNReal.ofReal_le_ofReal ?_
    have e : Real.sqrt (2 * Real.pi * ((s ^ 2 : ℝ≥0) : ℝ)) = s * Real.sqrt (2 * Real.pi) := by
      push_cast
      rw [Real.sqrt_mul (by positivity), Real.sqrt_sq hs'.le, mul_comm]
    rw [e, one_div]
    refine mul_le_of_le_one_right (by positivity) (Real.exp_le_one_iff.2 ?_)
    exact div_nonpos_of_nonpos_of_nonneg (neg_nonpos.2 (sq_nonneg _)) (by positivity)
  have e : crowd1 lo hi s * (hi - lo)⁻¹ = 1 / (s * Real.sqrt (2 * Real.pi)) + 1 / (s * Real.sqrt (2 * Real.pi)) + 1 / (s * Real.sqrt (2 * Real.pi)) := by
    unfold crowd1
    field_simp
    ring
  rw [e, ENNReal.ofReal_add (by positivity) (by positivity), ENNReal.ofReal_add (by positivity) (by positivity)]
  exact add_le_add (add_le_add (hpdf _) (hpdf _)) (hpdf _)

/-! ## All parameters -/

section
variable {α : Type} [MeasurableSpace α]

/-- Independent symmetric proposals are symmetric together. -/
theorem SymmetricProposal.par {d : Nat} (q : Fin d → Kernel α α) [∀ i, IsMarkovKernel (q i)] (μ : Fin d → Measure α) [∀ i, IsFiniteMeasure (μ i)]
    (h : ∀ i, SymmetricProposal (μ i) (q i)) : SymmetricProposal (Measure.pi μ) (parKernel q) := by
  let T : (Fin d → α) × (Fin d → α) → Fin d → α × α := fun p i => (p.1 i, p.2 i)
  let E : (Fin d → α × α) → (Fin d → α) × (Fin d → α) := fun w => (fun i => (w i).1, fun i => (w i).2)
  have hT : Measurable T := by fun_prop
  have hE : Measurable E := by fun_prop
  have hET : ∀ p, E (T p) = p := fun p => rfl
  have hpi : (Measure.pi μ ⊗ₘ parKernel q).map T = Measure.pi fun i => μ i ⊗ₘ q i := by
    symm
    refine Measure.pi_eq fun s hs => ?_
    rw [Measure.map_apply hT (MeasurableSet.univ_pi hs), Measure.compProd_apply (hT (MeasurableSet.univ_pi hs))]
    have e : ∀ x, (parKernel q) x (Prod.mk x ⁻¹' (T ⁻¹' Set.pi univ s)) = ∏ i, q i (x i) (Prod.mk (x i) ⁻¹' s i) := fun x => by
      rw [parKernel_apply]
      have : Prod.mk x ⁻¹' (T ⁻¹' Set.pi univ s) = Set.pi univ fun i => Prod.mk (x i) ⁻¹' s i := by
        ext y
        simp [T, Set.mem_pi]
      rw [this, Measure.pi_pi]
    simp_rw [e]
    rw [lintegral_pi_mul μ (fun i t => q i t (Prod.mk t ⁻¹' s i)) fun i => Kernel.measurable_kernel_prodMk_left (hs i)]
    exact Finset.prod_congr rfl fun i _ => (Measure.compProd_apply (hs i)).symm
  have hback : Measure.pi μ ⊗ₘ parKernel q = (Measure.pi fun i => μ i ⊗ₘ q i).map E := by
    rw [← hpi, Measure.map_map hE hT]
    have : E ∘ T = id := funext hET
    rw [this, Measure.map_id]
  unfold SymmetricProposal
  rw [hback, Measure.map_map measurable_swap hE]
  have e : Prod.swap ∘ E = E ∘ fun w i => Prod.swap (w i) := rfl
  have hsw : Measurable (fun (w : Fin d → α × α) i => Prod.swap (w i)) := measurable_pi_lambda _ fun i => measurable_swap.comp (measurable_pi_apply i)
  rw [e, ← Measure.map_map hE hsw]
  congr 1
  have := Measure.pi_map_pi (μ := fun i => μ i ⊗ₘ q i) (f := fun _ => Prod.swap) (fun i => measurable_swap.aemeasurable)
  rw [this]
  congr 1
  exact funext fun i => h i

end

section
variable {d n : Nat}

/-- The proposal of all parameters. -/
noncomputable def stepAll (lo hi : Fin d → ℝ) (s : Fin d → ℝ≥0) : Kernel (Fin d → ℝ) (Fin d → ℝ) := parKernel fun i => step1 (lo i) (hi i) (s i)

instance (lo hi : Fin d → ℝ) (s : Fin d → ℝ≥0) : IsMarkovKernel (stepAll lo hi s) := by unfold stepAll; infer_instance

/-- The iteration with this proposal. -/
noncomputable def twin (lo hi : Fin d → ℝ) (s : Fin d → ℝ≥0) (lp : (Fin d → ℝ) → ℝ) : Kernel (Fin d → ℝ) (Fin d → ℝ) := mhKernel (stepAll lo hi s) lp

theorem twin_markov (lo hi : Fin d → ℝ) (s : Fin d → ℝ≥0) {lp : (Fin d → ℝ) → ℝ} (hlp : Measurable lp) : IsMarkovKernel (twin lo hi s lp) :=
  Kernel.IsMarkovKernel.map _ (measurable_mhMove lp hlp)

theorem openBox_pi (lo hi : Fin d → ℝ) : (volume : Measure (Fin d → ℝ)).restrict (openBox lo hi) = Measure.pi fun i => volume.restrict (Ioo (lo i) (hi i)) := by
  rw [openBox, volume_pi, Measure.restrict_pi_pi]

theorem twin_invariant (lo hi : Fin d → ℝ) (h : ∀ i, lo i < hi i) (s : Fin d → ℝ≥0) (hs : ∀ i, s i ≠ 0) {lp : (Fin d → ℝ) → ℝ} (hlp : Measurable lp) :
    (twin lo hi s lp).Invariant (posterior (volume.restrict (openBox lo hi)) lp) := by
  refine mh_invariant _ _ ?_ lp hlp
  rw [openBox_pi]
  exact SymmetricProposal.par _ _ fun i => step1_symmetric _ _ (h i) _ (hs i)

theorem stepAll_closed (lo hi : Fin d → ℝ) (s : Fin d → ℝ≥0) (x : Fin d → ℝ) (hx : x ∈ closedBox lo hi) : ∀ᵐ y ∂(stepAll lo hi s x), y ∈ closedBox lo hi := by
  have : ∀ i, ∀ᵐ y ∂(stepAll lo hi s x), y i ∈ Icc (lo i) (hi i) := by
    intro i
    rw [stepAll, parKernel_apply]
    exact (measurePreserving_eval (fun i => step1 (lo i) (hi i) (s i) (x i)) i).quasiMeasurePreserving.ae (step1_closed _ _ _ _ (hx i (mem_univ i)))
  exact (ae_all_iff.2 this).mono fun y hy i _ => hy i

theorem twin_closed (lo hi : Fin d → ℝ) (s : Fin d → ℝ≥0) {lp : (Fin d → ℝ) → ℝ} (hlp : Measurable lp) (x : Fin d → ℝ) (hx : x ∈ closedBox lo hi) :
    ∀ᵐ y ∂(twin lo hi s lp x), y ∈ closedBox lo hi := by
  rw [twin, mhKernel_map _ lp hlp]
  have hmv : Measurable (fun p : (Fin d → ℝ) × ℝ => mhMove lp (x, p.1, p.2)) := (measurable_mhMove lp hlp).comp (by fun_prop)
  refine ae_mem_map hmv (measurableSet_closedBox lo hi) ?_
  have hS : MeasurableSet {p : (Fin d → ℝ) × ℝ | mhMove lp (x, p.1, p.2) ∈ closedBox lo hi} := hmv (measurableSet_closedBox lo hi)
  refine (Measure.ae_prod_iff_ae_ae hS).2 ((stepAll_closed lo hi s x hx).mono fun y hy => ae_of_all _ fun u => ?_)
  show mhMove lp (x, y, u) ∈ closedBox lo hi
  unfold mhMove
  split
  · exact hy
  · exact hx

/-- From anywhere in the box the program's iteration is close to this one. -/
theorem twin_tv (lo hi : Fin d → ℝ) (h : ∀ i, lo i < hi i) (s : Fin d → ℝ≥0) (hs : ∀ i, s i ≠ 0) {lp : (Fin d → ℝ) → ℝ} (hlp : Measurable lp) (x : Fin d → ℝ)
    (hx : x ∈ closedBox lo hi) : Tv (leak lo hi s) (iterKernel lo hi s lp x) (twin lo hi s lp x) := by
  rw [iterKernel_eq lo hi s hlp, twin]
  refine mh_tv _ _ lp hlp x ?_
  rw [propKernel_pi, stepAll, parKernel_apply]
  have h1 : ∀ i, IsProbabilityMeasure ((boxMullerLaw piLit).map (fun z => bounce (lo i) (hi i) (x i +. z *. (s i : ℝ)))) := fun i => by
    have := boxMullerLaw_prob piLit
    exact Measure.isProbabilityMeasure_map (measurable_move _ _ _ _).aemeasurable
  exact Tv.pi fun i => step1_tv _ _ (h i) _ (hs i) _ (hx i (mem_univ i))

theorem smul_mono_measure {α : Type} [MeasurableSpace α] {μ ν : Measure α} (h : μ ≤ ν) (c : ℝ≥0∞) : c • μ ≤ c • ν :=
  Measure.le_iff.2 fun B _ => by
    simp only [Measure.smul_apply, smul_eq_mul]
    gcongr

/-! ## The law of one chain -/

/-- The tempered posterior of one chain, normalised. -/
noncomputable def chainLaw (lo hi : Fin d → ℝ) (lp : (Fin d → ℝ) → ℝ) : Measure (Fin d → ℝ) :=
  (posterior (volume.restrict (openBox lo hi)) lp univ)⁻¹ • posterior (volume.restrict (openBox lo hi)) lp

/-- The uniform law on the box. -/
noncomputable def uniformBox (lo hi : Fin d → ℝ) : Measure (Fin d → ℝ) := Measure.pi fun i => uniformOn (lo i) (hi i)

theorem uniformBox_eq (lo hi : Fin d → ℝ) : uniformBox lo hi = (∏ i, ENNReal.ofReal (hi i - lo i)⁻¹) • volume.restrict (openBox lo hi) := by
  rw [uniformBox, openBox_pi, ← pi_smul_measure _ fun i => ENNReal.ofReal_ne_top]
  rfl

theorem uniformBox_prob (lo hi : Fin d → ℝ) (h : ∀ i, lo i < hi i) : IsProbabilityMeasure (uniformBox lo hi) := by
  have := fun i => uniformOn_prob (h i)
  unfold uniformBox
  infer_instance

/-- A log-posterior that varies by at most `v` lies between `m` and `m + v`. -/
theorem Varies.least {lo hi : Fin d → ℝ} (h : ∀ i, lo i < hi i) {lp : (Fin d → ℝ) → ℝ} {v : ℝ} (hv : Varies lo hi lp v) :
    ∃ m, ∀ x ∈ closedBox lo hi, m ≤ lp x ∧ lp x ≤ m + v := by
  have hlo : lo ∈ closedBox lo hi := fun i _ => ⟨le_rfl, (h i).le⟩
  have hbb : BddBelow (lp '' closedBox lo hi) := ⟨lp lo - v, by rintro _ ⟨y, hy, rfl⟩; have := hv y hy lo hlo; linarith⟩
  refine ⟨sInf (lp '' closedBox lo hi), fun x hx => ⟨csInf_le hbb ⟨x, hx, rfl⟩, ?_⟩⟩
  have : lp x - v ≤ sInf (lp '' closedBox lo hi) := le_csInf ⟨_, lo, hlo, rfl⟩ (by rintro _ ⟨y, hy, rfl⟩; have := hv y hy x hx; linarith)
  linarith

/-- The law of a chain against the uniform law. -/
theorem chainLaw_bounds {lo hi : Fin d → ℝ} (h : ∀ i, lo i < hi i) {lp : (Fin d → ℝ) → ℝ} (hlp : Measurable lp) {m v : ℝ}
    (hm : ∀ x ∈ closedBox lo hi, m ≤ lp x ∧ lp x ≤ m + v) : (posterior (volume.restrict (openBox lo hi)) lp univ ≠ 0 ∧
    posterior (volume.restrict (openBox lo hi)) lp univ ≠ ∞) ∧ ∃ θ : ℝ, 0 < θ ∧ IsProbabilityMeasure (chainLaw lo hi lp) ∧
    (chainLaw lo hi lp).withDensity (fun x => ENNReal.ofReal (min 1 (Real.exp (m - lp x)))) = ENNReal.ofReal θ • uniformBox lo hi ∧
    chainLaw lo hi lp ≤ ENNReal.ofReal (θ * Real.exp v) • uniformBox lo hi ∧ uniformBox lo hi ≤ ENNReal.ofReal (Real.exp v) • chainLaw lo hi lp := by
  have hup := uniformBox_prob lo hi h
  obtain ⟨V, hV⟩ : ∃ V, V = ∏ i, ENNReal.ofReal (hi i - lo i)⁻¹ := ⟨_, rfl⟩
  have hV0 : V ≠ 0 := by
    rw [hV]
    exact Finset.prod_ne_zero_iff.2 fun i _ => by rw [Ne, ENNReal.ofReal_eq_zero, not_le]; exact inv_pos.2 (by linarith [h i])
  have hVt : V ≠ ∞ := by rw [hV]; exact ENNReal.prod_ne_top fun i _ => ENNReal.ofReal_ne_top
  have hU := uniformBox_eq lo hi
  rw [← hV] at hU
  obtain ⟨β, hβ⟩ : ∃ β, β = (volume : Measure (Fin d → ℝ)).restrict (openBox lo hi) := ⟨_, rfl⟩
  have hin : ∀ᵐ x ∂β, x ∈ openBox lo hi := by rw [hβ]; exact ae_restrict_mem (measurableSet_openBox lo hi)
  rw [← hβ] at hU
  have hβU : β = V⁻¹ • uniformBox lo hi := by rw [hU, smul_smul, ENNReal.inv_mul_cancel hV0 hVt, one_smul]
  have hβuniv : β univ = V⁻¹ := by rw [hβU, Measure.smul_apply, measure_univ, smul_eq_mul, mul_one]
  have hVi0 : V⁻¹ ≠ 0 := ENNReal.inv_ne_zero.2 hVt
  have hVit : V⁻¹ ≠ ∞ := ENNReal.inv_ne_top.2 hV0
  obtain ⟨Z, hZ⟩ : ∃ Z, Z = posterior β lp univ := ⟨_, rfl⟩
  have hd := measurable_dens hlp
  -- the density between its bounds
  have hlow : ENNReal.ofReal (Real.exp m) • β ≤ posterior β lp := by
    refine Measure.le_iff.2 fun B hB => ?_
    rw [posterior, withDensity_apply _ hB, Measure.smul_apply, smul_eq_mul, ← setLIntegral_const]
    refine lintegral_mono_ae ((ae_restrict_of_ae hin).mono fun x hx => ?_)
    exact ENNReal.ofReal_le_ofReal (Real.exp_le_exp.2 (hm x (open_closed lo hi hx)).1)
  have hhigh : posterior β lp ≤ ENNReal.ofReal (Real.exp (m + v)) • β := by
    refine Measure.le_iff.2 fun B hB => ?_
    rw [posterior, withDensity_apply _ hB, Measure.smul_apply, smul_eq_mul, ← setLIntegral_const]
    refine lintegral_mono_ae ((ae_restrict_of_ae hin).mono fun x hx => ?_)
    exact ENNReal.ofReal_le_ofReal (Real.exp_le_exp.2 (hm x (open_closed lo hi hx)).2)
  have hem : ENNReal.ofReal (Real.exp m) ≠ 0 := by rw [Ne, ENNReal.ofReal_eq_zero, not_le]; exact Real.exp_pos _
  have hZl : ENNReal.ofReal (Real.exp m) * V⁻¹ ≤ Z := by
    have := hlow univ
    rwa [Measure.smul_apply, hβuniv, smul_eq_mul, ← hZ] at this
  have hZh : Z ≤ ENNReal.ofReal (Real.exp (m + v)) * V⁻¹ := by
    have := hhigh univ
    rwa [Measure.smul_apply, hβuniv, smul_eq_mul, ← hZ] at this
  have hZ0 : Z ≠ 0 := (lt_of_lt_of_le (pos_iff_ne_zero.2 (mul_ne_zero hem hVi0)) hZl).ne'
  have hZt : Z ≠ ∞ := (hZh.trans_lt (lt_top_iff_ne_top.2 (ENNReal.mul_ne_top ENNReal.ofReal_ne_top hVit))).ne
  have hC : chainLaw lo hi lp = Z⁻¹ • posterior β lp := by rw [chainLaw, ← hβ, ← hZ]
  have hprob : IsProbabilityMeasure (chainLaw lo hi lp) := ⟨by
    rw [hC, Measure.smul_apply, ← hZ, smul_eq_mul, ENNReal.inv_mul_cancel hZ0 hZt]⟩
  have hθt : Z⁻¹ * (ENNReal.ofReal (Real.exp m) * V⁻¹) ≠ ∞ := ENNReal.mul_ne_top (ENNReal.inv_ne_top.2 hZ0) (ENNReal.mul_ne_top ENNReal.ofReal_ne_top hVit)
  have hθ0 : Z⁻¹ * (ENNReal.ofReal (Real.exp m) * V⁻¹) ≠ 0 := mul_ne_zero (ENNReal.inv_ne_zero.2 hZt) (mul_ne_zero hem hVi0)
  refine ⟨by rw [← hβ, ← hZ]; exact ⟨hZ0, hZt⟩, (Z⁻¹ * (ENNReal.ofReal (Real.exp m) * V⁻¹)).toReal, ENNReal.toReal_pos hθ0 hθt, hprob, ?_, ?_, ?_⟩
  · rw [ENNReal.ofReal_toReal hθt, hC, withDensity_smul_measure, posterior, ← withDensity_mul _ hd (by fun_prop)]
    have e : β.withDensity (dens lp * fun x => ENNReal.ofReal (min 1 (Real.exp (m - lp x)))) = ENNReal.ofReal (Real.exp m) • β := by
      rw [← withDensity_const]
      refine withDensity_congr_ae (hin.mono fun x hx => ?_)
      have hx' := (hm x (open_closed lo hi hx)).1
      simp only [Pi.mul_apply, dens]
      rw [min_eq_right (Real.exp_le_one_iff.2 (by linarith)), ← ENNReal.ofReal_mul (Real.exp_pos _).le, ← Real.exp_add]
      congr 2
      ring
    rw [e, hβU, smul_smul, smul_smul]
    congr 1
    rw [mul_assoc]
  · rw [ENNReal.ofReal_mul ENNReal.toReal_nonneg, ENNReal.ofReal_toReal hθt, hC]
    calc Z⁻¹ • posterior β lp ≤ Z⁻¹ • (ENNReal.ofReal (Real.exp (m + v)) • β) := smul_mono_measure hhigh _
      _ = _ := by
        rw [hβU, smul_smul, smul_smul, Real.exp_add, ENNReal.ofReal_mul (Real.exp_pos _).le]
        congr 1
        ring
  · calc uniformBox lo hi = V • β := hU
      _ = (ENNReal.ofReal (Real.exp v) * Z⁻¹ * (V * Z * ENNReal.ofReal (Real.exp (-v)))) • β := by
          congr 1
          have : ENNReal.ofReal (Real.exp v) * ENNReal.ofReal (Real.exp (-v)) = 1 := by
            rw [← ENNReal.ofReal_mul (Real.exp_pos _).le, ← Real.exp_add]; simp
          calc V = V * (Z⁻¹ * Z) * (ENNReal.ofReal (Real.exp v) * ENNReal.ofReal (Real.exp (-v))) := by
                rw [ENNReal.inv_mul_cancel hZ0 hZt, this, mul_one, mul_one]
            _ = _ := by ring
      _ ≤ (ENNReal.ofReal (Real.exp v) * Z⁻¹ * ENNReal.ofReal (Real.exp m)) • β := by
          refine Measure.le_iff.2 fun B _ => ?_
          simp only [Measure.smul_apply, smul_eq_mul]
          gcongr
          calc V * Z * ENNReal.ofReal (Real.exp (-v)) ≤ V * (ENNReal.ofReal (Real.exp (m + v)) * V⁻¹) * ENNReal.ofReal (Real.exp (-v)) := by gcongr
            _ = (V * V⁻¹) * (ENNReal.ofReal (Real.exp (m + v)) * ENNReal.ofReal (Real.exp (-v))) := by ring
            _ = ENNReal.ofReal (Real.exp m) := by
              rw [ENNReal.mul_inv_cancel hV0 hVt, one_mul, ← ENNReal.ofReal_mul (Real.exp_pos _).le, ← Real.exp_add]
              congr 2
              ring
      _ = (ENNReal.ofReal (Real.exp v) * Z⁻¹) • (ENNReal.ofReal (Real.exp m) • β) := by rw [smul_smul]
      _ ≤ (ENNReal.ofReal (Real.exp v) * Z⁻¹) • posterior β lp := smul_mono_measure hlow _
      _ = _ := by rw [hC, smul_smul]

/-- The iteration contains its proposal, with a weight that depends on the log-posterior. -/
theorem twin_part {lo hi : Fin d → ℝ} (s : Fin d → ℝ≥0) {lp : (Fin d → ℝ) → ℝ} (hlp : Measurable lp) {a : ℝ} {x : Fin d → ℝ} (hx : x ∈ closedBox lo hi)
    (ha : ∀ y ∈ closedBox lo hi, a ≤ min 1 (Real.exp (lp y - lp x))) : ENNReal.ofReal a • stepAll lo hi s x ≤ twin lo hi s lp x := by
  refine Measure.le_iff.2 fun B hB => ?_
  rw [twin, mhKernel_apply _ lp hlp x hB, Measure.smul_apply, smul_eq_mul]
  calc ENNReal.ofReal a * stepAll lo hi s x B = ∫⁻ y, ENNReal.ofReal a * B.indicator 1 y ∂(stepAll lo hi s x) := by
        rw [lintegral_const_mul _ (measurable_one.indicator hB), lintegral_indicator_one hB]
    _ ≤ _ := by
        refine lintegral_mono_ae ((stepAll_closed lo hi s x hx).mono fun y hy => le_trans ?_ le_self_add)
        exact mul_le_mul' (ENNReal.ofReal_le_ofReal (ha y hy)) le_rfl

theorem Spreads.mono {α : Type} [MeasurableSpace α] {κ : Kernel α α} {μ : Measure α} [IsProbabilityMeasure μ] {g g' : ℝ} (h : Spreads κ μ g) (hg : g' ≤ g) : Spreads κ μ g' := fun f hf =>
  le_trans (mul_le_mul_of_nonneg_right hg vr_nonneg) (h f hf)

/-- How much one iteration of one chain averages out. -/
theorem twin_spreads {lo hi : Fin d → ℝ} (h : ∀ i, lo i < hi i) {s : Fin d → ℝ≥0} (hs : ∀ i, s i ≠ 0) (hsL : ∀ i, (s i : ℝ) ≤ hi i - lo i) {lp : (Fin d → ℝ) → ℝ} (hlp : Measurable lp)
    {v : ℝ} (hv : Varies lo hi lp v) {g : ℝ} (hg0 : 0 ≤ g) (hg : ∀ i, g ≤ gap (lo i) (hi i) (s i)) : Spreads (twin lo hi s lp) (chainLaw lo hi lp) (Real.exp (-v) * g) := by
  obtain ⟨m, hm⟩ := hv.least h
  obtain ⟨-, θ, hθ, hprob, h1, h2, -⟩ := chainLaw_bounds h hlp hm
  have hup := uniformBox_prob lo hi h
  have hup' := fun i => uniformOn_prob (h i)
  have hmk := twin_markov lo hi s hlp
  have hQ : Spreads (stepAll lo hi s) (uniformBox lo hi) g :=
    Spreads.par _ _ (fun i => uniformOn_invariant _ _ (h i) _ (hs i)) fun i => (step1_spreads _ _ (h i) _ (hs i) (hsL i)).mono (hg i)
  have hin : ∀ᵐ x ∂(chainLaw lo hi lp), x ∈ openBox lo hi := by
    have h0 : ∀ᵐ x ∂(posterior (volume.restrict (openBox lo hi)) lp), x ∈ openBox lo hi :=
      (withDensity_absolutelyContinuous _ _) (ae_restrict_mem (measurableSet_openBox lo hi))
    exact Measure.ae_smul_measure h0 _
  have := Spreads.compare (Q := stepAll lo hi s) (R := twin lo hi s lp) (a := fun x => min 1 (Real.exp (m - lp x))) (by fun_prop)
    (fun x => le_min zero_le_one (Real.exp_pos _).le) hθ.le (mul_pos hθ (Real.exp_pos v)) (hin.mono fun x hx => by
      refine twin_part s hlp (open_closed lo hi hx) fun y hy => ?_
      exact min_le_min le_rfl (Real.exp_le_exp.2 (by linarith [(hm y hy).1]))) h1 h2 hg0 hQ
  refine this.mono (le_of_eq ?_)
  rw [Real.exp_neg]
  field_simp

/-- The probability that one iteration moves every parameter, at least. -/
noncomputable def moveRate (lo hi : Fin d → ℝ) (s : Fin d → ℝ≥0) (v : ℝ) : ℝ := Real.exp (-v) * ∏ i, (1 - (tail (lo i) (hi i) (s i)).toReal)

theorem moveRate_nonneg (lo hi : Fin d → ℝ) (s : Fin d → ℝ≥0) (v : ℝ) : 0 ≤ moveRate lo hi s v := by
  refine mul_nonneg (Real.exp_pos _).le (Finset.prod_nonneg fun i _ => ?_)
  have : (tail (lo i) (hi i) (s i)).toReal ≤ 1 := ENNReal.toReal_le_of_le_ofReal zero_le_one (by rw [ENNReal.ofReal_one]; exact prob_le_one)
  linarith

/-- The largest density of a proposal of all parameters against the uniform law. -/
noncomputable def crowd (lo hi : Fin d → ℝ) (s : Fin d → ℝ≥0) : ℝ := ∏ i, crowd1 (lo i) (hi i) (s i)

theorem twin_opens {lo hi : Fin d → ℝ} (h : ∀ i, lo i < hi i) {s : Fin d → ℝ≥0} (hs : ∀ i, s i ≠ 0) {lp : (Fin d → ℝ) → ℝ} (hlp : Measurable lp)
    {v : ℝ} (hv : Varies lo hi lp v) : Opens (twin lo hi s lp) (chainLaw lo hi lp) (closedBox lo hi) (moveRate lo hi s v) (crowd lo hi s) := by
  intro x hx
  obtain ⟨m, hm⟩ := hv.least h
  obtain ⟨-, θ, hθ, hprob, -, -, h3⟩ := chainLaw_bounds h hlp hm
  have hv0 : 0 ≤ v := by simpa using hv x hx x hx
  have hp := fun i => reflectLaw_prob (lo i) (hi i) (s i) (x i)
  have hup := fun i => uniformOn_prob (h i)
  let G0 : Measure (Fin d → ℝ) := Measure.pi fun i => (reflectLaw (lo i) (hi i) (s i) (x i)).restrict (Ioo (lo i) (hi i))
  have hG0 : G0 ≤ stepAll lo hi s x := pi_mono_measure fun i => step1_part _ _ _ _
  have hpart := twin_part s hlp (a := Real.exp (-v)) hx fun y hy => le_min (Real.exp_le_one_iff.2 (by linarith)) (Real.exp_le_exp.2 (by linarith [hv y hy x hx]))
  have hG1 : G0 ≤ ENNReal.ofReal (crowd lo hi s) • uniformBox lo hi := by
    have hc0 : ∀ i, 0 ≤ crowd1 (lo i) (hi i) (s i) := fun i => by
      unfold crowd1
      have := h i
      exact div_nonneg (by linarith) (by positivity)
    have hsm : ∀ i, IsFiniteMeasure (ENNReal.ofReal (crowd1 (lo i) (hi i) (s i)) • uniformOn (lo i) (hi i)) := fun i => Measure.smul_finite _ ENNReal.ofReal_ne_top
    rw [crowd, ENNReal.ofReal_prod_of_nonneg fun i _ => hc0 i, uniformBox, ← pi_smul_measure _ fun i => ENNReal.ofReal_ne_top]
    exact pi_mono_measure fun i => reflect_crowd _ _ (h i) _ (hs i) _
  refine ⟨ENNReal.ofReal (Real.exp (-v)) • G0, (smul_mono_measure hG0 _).trans hpart, ?_, ?_⟩
  · calc ENNReal.ofReal (Real.exp (-v)) • G0 ≤ ENNReal.ofReal (Real.exp (-v)) • (ENNReal.ofReal (crowd lo hi s) • (ENNReal.ofReal (Real.exp v) • chainLaw lo hi lp)) :=
          smul_mono_measure (hG1.trans (smul_mono_measure h3 _)) _
      _ = ENNReal.ofReal (crowd lo hi s) • chainLaw lo hi lp := by
          rw [smul_smul, smul_smul]
          congr 1
          have : ENNReal.ofReal (Real.exp (-v)) * ENNReal.ofReal (Real.exp v) = 1 := by
            rw [← ENNReal.ofReal_mul (Real.exp_pos _).le, ← Real.exp_add]; simp
          calc _ = ENNReal.ofReal (crowd lo hi s) * (ENNReal.ofReal (Real.exp (-v)) * ENNReal.ofReal (Real.exp v)) := by ring
            _ = _ := by rw [this, mul_one]
  · rw [Measure.smul_apply, smul_eq_mul, moveRate, ENNReal.ofReal_mul (Real.exp_pos _).le]
    gcongr
    rw [Measure.pi_univ, ENNReal.ofReal_prod_of_nonneg fun i _ => ?_]
    · refine Finset.prod_le_prod' fun i _ => ?_
      have ht : tail (lo i) (hi i) (s i) ≠ ∞ := measure_ne_top _ _
      rw [Measure.restrict_apply_univ, ENNReal.ofReal_sub _ ENNReal.toReal_nonneg, ENNReal.ofReal_one, ENNReal.ofReal_toReal ht]
      refine le_trans (tsub_le_tsub_left (reflect_atom_closed _ _ (h i) _ (hs i) _ (hx i (mem_univ i))) 1) ?_
      rw [prob_compl_eq_one_sub measurableSet_Ioo]
      exact le_of_eq (ENNReal.sub_sub_cancel ENNReal.one_ne_top prob_le_one)
    · have : (tail (lo i) (hi i) (s i)).toReal ≤ 1 := ENNReal.toReal_le_of_le_ofReal zero_le_one (by rw [ENNReal.ofReal_one]; exact prob_le_one)
      linarith

/-! ## All chains -/

/-- Chains that move independently. -/
theorem Opens.par {α : Type} [MeasurableSpace α] (κ : Fin n → Kernel α α) [∀ r, IsMarkovKernel (κ r)] (μ : Fin n → Measure α) [∀ r, IsProbabilityMeasure (μ r)]
    {box : Set α} {a C : Fin n → ℝ} (ha : ∀ r, 0 ≤ a r) (hC : ∀ r, 0 ≤ C r) (h : ∀ r, Opens (κ r) (μ r) box (a r) (C r)) :
    Opens (parKernel κ) (Measure.pi μ) (Set.pi univ fun _ => box) (∏ r, a r) (∏ r, C r) := by
  intro x hx
  choose G h1 h2 h3 using fun r => h r (x r) (hx r (mem_univ r))
  have hf : ∀ r, IsFiniteMeasure (G r) := fun r => isFiniteMeasure_of_le _ (h1 r)
  have hsm : ∀ r, IsFiniteMeasure (ENNReal.ofReal (C r) • μ r) := fun r => Measure.smul_finite _ ENNReal.ofReal_ne_top
  refine ⟨Measure.pi G, pi_mono_measure h1, ?_, ?_⟩
  · rw [ENNReal.ofReal_prod_of_nonneg fun r _ => hC r, ← pi_smul_measure _ fun r => ENNReal.ofReal_ne_top]
    exact pi_mono_measure h2
  · rw [Measure.pi_univ, ENNReal.ofReal_prod_of_nonneg fun r _ => ha r]
    exact Finset.prod_le_prod' fun r _ => h3 r

instance (T : Target d) (lo hi : Fin d → ℝ) (s : Fin d → ℝ≥0) (b : ℝ) : IsMarkovKernel (twin lo hi s (T.lp b)) := twin_markov lo hi s (T.measurable b)

/-- One round of these iterations. -/
noncomputable def twinAll (T : Target d) (lo hi : Fin d → ℝ) (s : Fin n → Fin d → ℝ≥0) (beta : Fin n → ℝ) : Kernel (Fin n → Fin d → ℝ) (Fin n → Fin d → ℝ) :=
  parKernel fun r => twin lo hi (s r) (T.lp (beta r))

instance (T : Target d) (lo hi : Fin d → ℝ) (s : Fin n → Fin d → ℝ≥0) (beta : Fin n → ℝ) : IsMarkovKernel (twinAll T lo hi s beta) := by
  unfold twinAll; infer_instance

theorem chainLaw_prob {lo hi : Fin d → ℝ} (h : ∀ i, lo i < hi i) {lp : (Fin d → ℝ) → ℝ} (hlp : Measurable lp) {v : ℝ} (hv : Varies lo hi lp v) :
    IsProbabilityMeasure (chainLaw lo hi lp) := by
  obtain ⟨m, hm⟩ := hv.least h
  exact (chainLaw_bounds h hlp hm).2.choose_spec.2.1

theorem jointLaw_pi (T : Target d) {lo hi : Fin d → ℝ} (h : ∀ i, lo i < hi i) (beta : Fin n → ℝ) {v : Fin n → ℝ} (hv : ∀ r, Varies lo hi (T.lp (beta r)) (v r)) :
    jointLaw T lo hi beta = Measure.pi fun r => chainLaw lo hi (T.lp (beta r)) := by
  have hZ : ∀ r, posterior (volume.restrict (openBox lo hi)) (T.lp (beta r)) univ ≠ 0 ∧ posterior (volume.restrict (openBox lo hi)) (T.lp (beta r)) univ ≠ ∞ := fun r => by
    obtain ⟨m, hm⟩ := (hv r).least h
    exact (chainLaw_bounds h (T.measurable (beta r)) hm).1
  have hf : ∀ r, IsFiniteMeasure (posterior (volume.restrict (openBox lo hi)) (T.lp (beta r))) := fun r => ⟨lt_top_iff_ne_top.2 (hZ r).2⟩
  unfold chainLaw
  rw [pi_smul_measure _ (fun r => ENNReal.inv_ne_top.2 (hZ r).1), jointLaw, joint_pi]
  congr 1
  rw [← joint_pi, Measure.pi_univ]
  exact ENNReal.prod_inv_distrib fun r _ r' _ _ => Or.inl (hZ r).1

section
variable (T : Target d) {lo hi : Fin d → ℝ} (h : ∀ i, lo i < hi i) {s : Fin n → Fin d → ℝ≥0} (hs : ∀ r i, s r i ≠ 0) (beta : Fin n → ℝ) {v : Fin n → ℝ}
  (hv : ∀ r, Varies lo hi (T.lp (beta r)) (v r))
include h hs hv

theorem twinAll_invariant : (jointLaw T lo hi beta).bind (twinAll T lo hi s beta) = jointLaw T lo hi beta := by
  have hp := fun r => chainLaw_prob h (T.measurable (beta r)) (hv r)
  rw [jointLaw_pi T h beta hv]
  refine (parKernel_invariant _ _ fun r => ?_).def
  have := twin_invariant lo hi h (s r) (hs r) (T.measurable (beta r))
  show Measure.bind _ _ = _
  rw [chainLaw, smul_bind, this.def]

theorem twinAll_spreads (hsL : ∀ r i, (s r i : ℝ) ≤ hi i - lo i) {g : ℝ} (hg0 : 0 ≤ g) (hg : ∀ r i, g ≤ Real.exp (-v r) * gap (lo i) (hi i) (s r i)) :
    Spreads (twinAll T lo hi s beta) (jointLaw T lo hi beta) g := by
  have hp := fun r => chainLaw_prob h (T.measurable (beta r)) (hv r)
  rw [jointLaw_pi T h beta hv]
  refine Spreads.par _ _ (fun r => ?_) fun r => ?_
  · have := twin_invariant lo hi h (s r) (hs r) (T.measurable (beta r))
    show Measure.bind _ _ = _
    rw [chainLaw, smul_bind, this.def]
  · have := twin_spreads h (hs r) (hsL r) (T.measurable (beta r)) (hv r) (g := g * Real.exp (v r)) (mul_nonneg hg0 (Real.exp_pos _).le) fun i => by
      have h1 := mul_le_mul_of_nonneg_right (hg r i) (Real.exp_pos (v r)).le
      rwa [mul_right_comm, ← Real.exp_add, neg_add_cancel, Real.exp_zero, one_mul] at h1
    rwa [mul_comm, mul_assoc, ← Real.exp_add, add_neg_cancel, Real.exp_zero, mul_one] at this

theorem twinAll_opens {a C : ℝ} (ha : a ≤ ∏ r, moveRate lo hi (s r) (v r)) (hC : ∏ r, crowd lo hi (s r) ≤ C) :
    Opens (twinAll T lo hi s beta) (jointLaw T lo hi beta) (tableBox lo hi) a C := by
  have hp := fun r => chainLaw_prob h (T.measurable (beta r)) (hv r)
  rw [jointLaw_pi T h beta hv]
  have hc0 : ∀ r, 0 ≤ crowd lo hi (s r) := fun r => Finset.prod_nonneg fun i _ => by
      unfold crowd1
      have := h i
      exact div_nonneg (by linarith) (by positivity)
  have := Opens.par (fun r => twin lo hi (s r) (T.lp (beta r))) (fun r => chainLaw lo hi (T.lp (beta r))) (box := closedBox lo hi) (fun r => moveRate_nonneg lo hi (s r) (v r)) hc0
    fun r => twin_opens h (hs r) (T.measurable (beta r)) (hv r)
  intro x hx
  obtain ⟨G, h1, h2, h3⟩ := this x hx
  refine ⟨G, h1, h2.trans ?_, (ENNReal.ofReal_le_ofReal ha).trans h3⟩
  exact Measure.le_iff.2 fun B _ => by
    simp only [Measure.smul_apply, smul_eq_mul]
    exact mul_le_mul' (ENNReal.ofReal_le_ofReal hC) le_rfl

omit hs hv in
theorem twinAll_closed (x : Fin n → Fin d → ℝ) (hx : x ∈ tableBox lo hi) : ∀ᵐ y ∂(twinAll T lo hi s beta x), y ∈ tableBox lo hi := by
  have : ∀ r, ∀ᵐ y ∂(twinAll T lo hi s beta x), y r ∈ closedBox lo hi := by
    intro r
    rw [twinAll, parKernel_apply]
    exact (measurePreserving_eval (fun r => twin lo hi (s r) (T.lp (beta r)) (x r)) r).quasiMeasurePreserving.ae
      (twin_closed lo hi (s r) (T.measurable (beta r)) (x r) (hx r (mem_univ r)))
  exact (ae_all_iff.2 this).mono fun y hy r _ => hy r

omit hv in
theorem twinAll_tv (x : Fin n → Fin d → ℝ) (hx : x ∈ tableBox lo hi) : Tv (leakAll lo hi s) (moveKernel T lo hi s beta .iter x) (twinAll T lo hi s beta x) := by
  rw [moveKernel, parKernel_apply, twinAll, parKernel_apply]
  exact Tv.pi fun r => twin_tv lo hi h (s r) (hs r) (T.measurable (beta r)) (x r) (hx r (mem_univ r))

end

end

end NiiC
