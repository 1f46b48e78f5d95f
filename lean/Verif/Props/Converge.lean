import Verif.Props.Sampler
import Mathlib.Probability.Moments.SubGaussian
import Mathlib.Analysis.Complex.ExponentialBounds

/-!
# Convergence of the sampler: C76

The setting of `Props.Sampler`: ideal draws, exact arithmetic, fixed widths and ladder. When the log-posteriors are bounded on the box, every round of
iterations brings any two laws of the table closer by a fixed factor. So the start is forgotten, and what remains is at most the sum of the later
deviations of C75.
-/

set_option linter.unusedSectionVars false
set_option linter.unusedSimpArgs false

namespace NiiC

open MeasureTheory ProbabilityTheory Set ENNReal NNReal

/-! ## How likely the program proposes and accepts a set -/

/-- The formula of the program has at least half the probability of the normal law, on every set. -/
theorem boxMuller_half (A : Set ℝ) (hA : MeasurableSet A) : gaussianReal 0 1 A ≤ 2 * boxMullerLaw piLit A := by
  have hpi := Real.pi_pos
  have hp := piLit_pos
  have hlt := piLit_lt
  have hm := measurable_ray A hA
  have h1 := boxMullerLaw_apply piLit hp A hA
  have h2 := normal_apply A hA
  have hge : Real.pi ≤ 2 * (piLit : ℝ) := by
    rw [piLit_real]
    have := Real.pi_lt_d2
    norm_num
    linarith
  have heven : ∫⁻ t in Ioo (-Real.pi) 0, ray A t = ∫⁻ t in Ioo 0 Real.pi, ray A t := by
    rw [← lintegral_indicator measurableSet_Ioo, ← lintegral_indicator measurableSet_Ioo, ← lintegral_neg_eq_self]
    refine lintegral_congr fun t => ?_
    have hr : ray A (-t) = ray A t := by simp only [ray, Real.cos_neg]
    by_cases ht : t ∈ Ioo 0 Real.pi
    · have ht' : -t ∈ Ioo (-Real.pi) 0 := ⟨by linarith [ht.2], by linarith [ht.1]⟩
      rw [indicator_of_mem ht, indicator_of_mem ht', hr]
    · have ht' : -t ∉ Ioo (-Real.pi) 0 := fun hh => ht ⟨by linarith [hh.2], by linarith [hh.1]⟩
      rw [indicator_of_notMem ht, indicator_of_notMem ht']
  have hsplit : ∫⁻ t in Ioo (-Real.pi) Real.pi, ray A t = 2 * ∫⁻ t in Ioo 0 Real.pi, ray A t := by
    have e : ∫⁻ t in Ioo (-Real.pi) Real.pi, ray A t = ∫⁻ t in Ico (-Real.pi) Real.pi, ray A t := setLIntegral_congr Ioo_ae_eq_Ico
    have e1 : ∫⁻ t in Ico (-Real.pi) 0, ray A t = ∫⁻ t in Ioo (-Real.pi) 0, ray A t := setLIntegral_congr Ioo_ae_eq_Ico.symm
    have e2 : ∫⁻ t in Ico 0 Real.pi, ray A t = ∫⁻ t in Ioo 0 Real.pi, ray A t := setLIntegral_congr Ioo_ae_eq_Ico.symm
    rw [e, ← Ico_union_Ico_eq_Ico (by linarith : -Real.pi ≤ 0) hpi.le, lintegral_union measurableSet_Ico
      (Set.disjoint_left.2 fun t h1 h2 => absurd h1.2 (not_lt.2 h2.1)), e1, e2, heven, two_mul]
  have hle : ∫⁻ t in Ioo 0 Real.pi, ray A t ≤ ENNReal.ofReal (2 * piLit) * boxMullerLaw piLit A := by
    rw [h1]
    exact lintegral_mono_set fun t ht => ⟨ht.1.le, ht.2.trans_le hge⟩
  have hfin : ENNReal.ofReal (2 * Real.pi) ≠ 0 := by
    rw [Ne, ENNReal.ofReal_eq_zero, not_le]; linarith
  refine (ENNReal.mul_le_mul_iff_right hfin ENNReal.ofReal_ne_top).1 ?_
  calc ENNReal.ofReal (2 * Real.pi) * gaussianReal 0 1 A = 2 * ∫⁻ t in Ioo 0 Real.pi, ray A t := by rw [h2, hsplit]
    _ ≤ 2 * (ENNReal.ofReal (2 * piLit) * boxMullerLaw piLit A) := by gcongr
    _ ≤ 2 * (ENNReal.ofReal (2 * Real.pi) * boxMullerLaw piLit A) := by gcongr
    _ = ENNReal.ofReal (2 * Real.pi) * (2 * boxMullerLaw piLit A) := by ring

/-- The smallest density with which the program proposes a point of the range from another one. -/
noncomputable def floorOne (lo hi : ℝ) (s : ℝ≥0) : ℝ≥0∞ := 2⁻¹ * gaussianPDF 0 (s ^ 2) (hi - lo)

theorem floorOne_pos (lo hi : ℝ) (s : ℝ≥0) (hs : s ≠ 0) : floorOne lo hi s ≠ 0 := by
  have := gaussianPDF_pos 0 (pow_ne_zero 2 hs) (hi - lo)
  simp [floorOne, this.ne']

theorem floorOne_top (lo hi : ℝ) (s : ℝ≥0) : floorOne lo hi s ≠ ∞ := by
  simp [floorOne, gaussianPDF, ENNReal.mul_eq_top]

theorem propose_floor (lo hi : ℝ) (h : lo < hi) (s : ℝ≥0) (hs : s ≠ 0) (x : ℝ) (hx : x ∈ Icc lo hi) :
    floorOne lo hi s • volume.restrict (Ioo lo hi) ≤ (boxMullerLaw piLit).map (fun z => bounce lo hi (x +. z *. (s : ℝ))) := by
  refine Measure.le_iff.2 fun B hB => ?_
  have hm := measurable_move lo hi s x
  rw [Measure.map_apply hm hB, Measure.smul_apply, smul_eq_mul, Measure.restrict_apply hB, floorOne, mul_assoc]
  have h1 : reflectLaw lo hi s x (B ∩ Ioo lo hi) ≤ 2 * boxMullerLaw piLit ((fun z => bounce lo hi (x +. z *. (s : ℝ))) ⁻¹' B) := by
    rw [reflectLaw, Measure.map_apply hm (hB.inter measurableSet_Ioo)]
    exact (measure_mono (preimage_mono inter_subset_left)).trans (boxMuller_half _ (hm hB))
  have h2 : gaussianPDF 0 (s ^ 2) (hi - lo) * volume (B ∩ Ioo lo hi) ≤ reflectLaw lo hi s x (B ∩ Ioo lo hi) := by
    rw [reflect_density lo hi h s hs x _ (hB.inter measurableSet_Ioo) inter_subset_right, ← setLIntegral_const]
    refine setLIntegral_mono' (hB.inter measurableSet_Ioo) fun y hy => ?_
    refine le_trans ?_ (le_self_add.trans le_self_add : gaussianPDF x (s ^ 2) y ≤ Spec.reflectDensity lo hi s x y)
    simp only [gaussianPDF, gaussianPDFReal]
    refine ENNReal.ofReal_le_ofReal ?_
    have hd : (y - x) ^ 2 ≤ (hi - lo - 0) ^ 2 := by
      have := hy.2
      rw [sub_zero]
      refine sq_le_sq' ?_ ?_ <;> linarith [hx.1, hx.2, hy.2.1, hy.2.2]
    gcongr
  calc 2⁻¹ * (gaussianPDF 0 (s ^ 2) (hi - lo) * volume (B ∩ Ioo lo hi)) ≤
      2⁻¹ * (2 * boxMullerLaw piLit ((fun z => bounce lo hi (x +. z *. (s : ℝ))) ⁻¹' B)) := mul_le_mul' le_rfl (h2.trans h1)
    _ = _ := by rw [← mul_assoc, ENNReal.inv_mul_cancel (by norm_num) (by norm_num), one_mul]

section
variable {d n : Nat}

/-- The box with its border. -/
def closedBox (lo hi : Fin d → ℝ) : Set (Fin d → ℝ) := Set.pi univ fun i => Icc (lo i) (hi i)

theorem measurableSet_closedBox (lo hi : Fin d → ℝ) : MeasurableSet (closedBox lo hi) := MeasurableSet.univ_pi fun _ => measurableSet_Icc

theorem open_closed (lo hi : Fin d → ℝ) : openBox lo hi ⊆ closedBox lo hi := Set.pi_mono fun _ _ => Ioo_subset_Icc_self

instance (lo hi : Fin d → ℝ) : IsFiniteMeasure ((volume : Measure (Fin d → ℝ)).restrict (openBox lo hi)) := by
  rw [openBox, volume_pi, Measure.restrict_pi_pi]
  infer_instance

/-- The smallest density of the proposal of all parameters. -/
noncomputable def floorAll (lo hi : Fin d → ℝ) (s : Fin d → ℝ≥0) : ℝ≥0∞ := ∏ i, floorOne (lo i) (hi i) (s i)

theorem propose_floor_all (lo hi : Fin d → ℝ) (h : ∀ i, lo i < hi i) (s : Fin d → ℝ≥0) (hs : ∀ i, s i ≠ 0) (x : Fin d → ℝ) (hx : x ∈ closedBox lo hi) :
    floorAll lo hi s • volume.restrict (openBox lo hi) ≤ propKernel lo hi s x := by
  have hp : ∀ i, IsProbabilityMeasure ((boxMullerLaw piLit).map (fun z => bounce (lo i) (hi i) (x i +. z *. (s i : ℝ)))) := fun i => by
    have := boxMullerLaw_prob piLit
    exact Measure.isProbabilityMeasure_map (measurable_move _ _ _ _).aemeasurable
  have hf : ∀ i, IsFiniteMeasure (floorOne (lo i) (hi i) (s i) • volume.restrict (Ioo (lo i) (hi i))) := fun i =>
    Measure.smul_finite _ (floorOne_top _ _ _)
  rw [propKernel_pi, floorAll, openBox, volume_pi, Measure.restrict_pi_pi, ← pi_smul_measure _ (fun i => floorOne_top _ _ _)]
  exact pi_mono_measure fun i => propose_floor _ _ (h i) _ (hs i) _ (hx i (mem_univ i))

/-- The smallest density of one iteration, when the log-posterior varies by at most `v` on the box. -/
noncomputable def iterFloor (lo hi : Fin d → ℝ) (s : Fin d → ℝ≥0) (v : ℝ) : ℝ≥0∞ := ENNReal.ofReal (Real.exp (-v)) * floorAll lo hi s

/-- The log-posterior varies by at most `v` on the box. -/
def Varies (lo hi : Fin d → ℝ) (lp : (Fin d → ℝ) → ℝ) (v : ℝ) : Prop := ∀ x ∈ closedBox lo hi, ∀ y ∈ closedBox lo hi, lp y - lp x ≤ v

theorem iter_floor (lo hi : Fin d → ℝ) (h : ∀ i, lo i < hi i) (s : Fin d → ℝ≥0) (hs : ∀ i, s i ≠ 0) {lp : (Fin d → ℝ) → ℝ} (hlp : Measurable lp)
    {v : ℝ} (hv : Varies lo hi lp v) (x : Fin d → ℝ) (hx : x ∈ closedBox lo hi) :
    iterFloor lo hi s v • volume.restrict (openBox lo hi) ≤ iterKernel lo hi s lp x := by
  refine Measure.le_iff.2 fun B hB => ?_
  have hb := measurableSet_openBox lo hi
  have hv0 : 0 ≤ v := by simpa using hv x hx x hx
  rw [iterKernel_eq lo hi s hlp, mhKernel_apply _ lp hlp x hB, Measure.smul_apply, smul_eq_mul, iterFloor, mul_assoc]
  calc ENNReal.ofReal (Real.exp (-v)) * (floorAll lo hi s * volume.restrict (openBox lo hi) B)
      ≤ ENNReal.ofReal (Real.exp (-v)) * propKernel lo hi s x (B ∩ openBox lo hi) := by
        gcongr
        have := propose_floor_all lo hi h s hs x hx (B ∩ openBox lo hi)
        rw [Measure.smul_apply, smul_eq_mul, Measure.restrict_apply (hB.inter hb), inter_assoc, inter_self] at this
        rwa [Measure.restrict_apply hB]
    _ = ∫⁻ y in B ∩ openBox lo hi, ENNReal.ofReal (Real.exp (-v)) ∂(propKernel lo hi s x) := by rw [setLIntegral_const]
    _ ≤ ∫⁻ y in B ∩ openBox lo hi, (ENNReal.ofReal (min 1 (Real.exp (lp y - lp x))) * B.indicator 1 y +
          ENNReal.ofReal (1 - min 1 (Real.exp (lp y - lp x))) * B.indicator 1 x) ∂(propKernel lo hi s x) := by
        refine setLIntegral_mono' (hB.inter hb) fun y hy => ?_
        refine le_trans ?_ le_self_add
        rw [indicator_of_mem hy.1, Pi.one_apply, mul_one]
        refine ENNReal.ofReal_le_ofReal (le_min (Real.exp_le_one_iff.2 (by linarith)) (Real.exp_le_exp.2 ?_))
        have := hv y (open_closed lo hi hy.2) x hx
        linarith
    _ ≤ _ := setLIntegral_le_lintegral _ _

theorem iterFloor_pos (lo hi : Fin d → ℝ) (s : Fin d → ℝ≥0) (hs : ∀ i, s i ≠ 0) (v : ℝ) : iterFloor lo hi s v ≠ 0 := by
  rw [iterFloor, floorAll]
  refine mul_ne_zero ?_ (Finset.prod_ne_zero_iff.2 fun i _ => floorOne_pos _ _ _ (hs i))
  rw [Ne, ENNReal.ofReal_eq_zero, not_le]
  exact Real.exp_pos _

theorem iterFloor_top (lo hi : Fin d → ℝ) (s : Fin d → ℝ≥0) (v : ℝ) : iterFloor lo hi s v ≠ ∞ := by
  rw [iterFloor, floorAll]
  exact ENNReal.mul_ne_top ENNReal.ofReal_ne_top (ENNReal.prod_ne_top fun i _ => floorOne_top _ _ _)

/-! ## The box is never left -/

theorem proposal_closed (lo hi : Fin d → ℝ) (h : ∀ i, lo i < hi i) (s : Fin d → ℝ≥0) (x : Fin d → ℝ) (w : Fin d → ℝ × ℝ) :
    proposal lo hi s x w ∈ closedBox lo hi := fun i _ => (bounce_exact (lo i) (hi i) (h i).le _).1

theorem ae_mem_map {α β : Type} [MeasurableSpace α] [MeasurableSpace β] {P : Measure α} {f : α → β} (hf : Measurable f) {S : Set β} (hS : MeasurableSet S)
    (h : ∀ᵐ x ∂P, f x ∈ S) : ∀ᵐ y ∂(P.map f), y ∈ S := (ae_map_iff hf.aemeasurable (p := fun y => y ∈ S) hS).2 h

theorem iter_closed (lo hi : Fin d → ℝ) (h : ∀ i, lo i < hi i) (s : Fin d → ℝ≥0) {lp : (Fin d → ℝ) → ℝ} (hlp : Measurable lp) (x : Fin d → ℝ)
    (hx : x ∈ closedBox lo hi) : ∀ᵐ y ∂(iterKernel lo hi s lp x), y ∈ closedBox lo hi := by
  have hm := measurable_iteration lo hi s hlp
  rw [iterKernel, Kernel.map_apply _ hm, Kernel.prod_apply, Kernel.id_apply, Kernel.const_apply, Measure.dirac_prod, Measure.map_map hm measurable_prodMk_left]
  refine ae_mem_map (hm.comp measurable_prodMk_left) (measurableSet_closedBox lo hi) (ae_of_all _ fun w => ?_)
  show iteration lo hi s lp x w ∈ closedBox lo hi
  unfold iteration
  split
  · exact proposal_closed lo hi h s x _
  · exact hx

/-- All chains are in the box. -/
def tableBox (lo hi : Fin d → ℝ) : Set (Fin n → Fin d → ℝ) := Set.pi univ fun _ => closedBox lo hi

theorem measurableSet_tableBox (lo hi : Fin d → ℝ) : MeasurableSet (tableBox (n := n) lo hi) := MeasurableSet.univ_pi fun _ => measurableSet_closedBox lo hi

theorem move_closed (T : Target d) (lo hi : Fin d → ℝ) (h : ∀ i, lo i < hi i) (s : Fin n → Fin d → ℝ≥0) (beta : Fin n → ℝ) (m : Move n)
    (hm : ∀ i j, m = .swap i j → i ≠ j) (x : Fin n → Fin d → ℝ) (hx : x ∈ tableBox lo hi) : ∀ᵐ y ∂(moveKernel T lo hi s beta m x), y ∈ tableBox lo hi := by
  cases m with
  | iter =>
    have : ∀ r, ∀ᵐ y ∂(moveKernel T lo hi s beta .iter x), y r ∈ closedBox lo hi := by
      intro r
      rw [moveKernel, parKernel_apply]
      exact (measurePreserving_eval (fun r => iterKernel lo hi (s r) (T.lp (beta r)) (x r)) r).quasiMeasurePreserving.ae
        (iter_closed lo hi h (s r) (T.measurable (beta r)) (x r) (hx r (mem_univ r)))
    exact (ae_all_iff.2 this).mono fun y hy r _ => hy r
  | swap i j =>
    have hij := hm i j rfl
    have hlp := measurable_jointLp beta T.hL T.hP
    rw [moveKernel, swapKernel_eq beta T.hL T.hP hij, mhKernel_map _ _ hlp]
    have hmv : Measurable (fun p : (Fin n → Fin d → ℝ) × ℝ => mhMove (jointLp beta T.L T.Pr) (x, p.1, p.2)) := (measurable_mhMove _ hlp).comp (by fun_prop)
    refine ae_mem_map hmv (measurableSet_tableBox lo hi) ?_
    rw [Kernel.deterministic_apply, Measure.dirac_prod]
    refine ae_mem_map (S := (fun p : (Fin n → Fin d → ℝ) × ℝ => mhMove (jointLp beta T.L T.Pr) (x, p.1, p.2)) ⁻¹' tableBox lo hi) measurable_prodMk_left
      (hmv (measurableSet_tableBox lo hi)) (ae_of_all _ fun u => ?_)
    show mhMove (jointLp beta T.L T.Pr) (x, x ∘ Equiv.swap i j, u) ∈ tableBox lo hi
    unfold mhMove
    split
    · exact fun r _ => hx _ (mem_univ _)
    · exact hx

theorem bind_ae {α : Type} [MeasurableSpace α] {P : Measure α} (κ : Kernel α α) {S : Set α} (hS : MeasurableSet S) (hP : ∀ᵐ x ∂P, x ∈ S)
    (hκ : ∀ x ∈ S, ∀ᵐ y ∂(κ x), y ∈ S) : ∀ᵐ y ∂(P.bind κ), y ∈ S := by
  have e : ∀ (Q : Measure α), (∀ᵐ y ∂Q, y ∈ S) ↔ Q Sᶜ = 0 := fun Q => Iff.rfl
  rw [e, Measure.bind_apply hS.compl κ.aemeasurable, lintegral_eq_zero_iff (κ.measurable_coe hS.compl)]
  exact hP.mono fun x hx => (e _).1 (hκ x hx)

/-! ## Contraction -/

/-- Lebesgue measure on the inside of the box, for all chains. -/
noncomputable def baseAll (n : Nat) (lo hi : Fin d → ℝ) : Measure (Fin n → Fin d → ℝ) := Measure.pi fun _ => volume.restrict (openBox lo hi)

theorem baseAll_univ (lo hi : Fin d → ℝ) : baseAll n lo hi univ = (∏ i, ENNReal.ofReal (hi i - lo i)) ^ n := by
  rw [baseAll, Measure.pi_univ]
  simp [openBox, Real.volume_pi_Ioo]

/-- The factor by which every round of iterations brings laws closer: `1 - gain`. -/
noncomputable def gain (lo hi : Fin d → ℝ) (s : Fin n → Fin d → ℝ≥0) (v : Fin n → ℝ) : ℝ≥0∞ :=
  (∏ r, iterFloor lo hi (s r) (v r)) * (∏ i, ENNReal.ofReal (hi i - lo i)) ^ n

theorem volume_box_pos (lo hi : Fin d → ℝ) (h : ∀ i, lo i < hi i) : (∏ i, ENNReal.ofReal (hi i - lo i)) ≠ 0 :=
  Finset.prod_ne_zero_iff.2 fun i _ => by rw [Ne, ENNReal.ofReal_eq_zero, not_le]; linarith [h i]

theorem volume_box_top (lo hi : Fin d → ℝ) : (∏ i, ENNReal.ofReal (hi i - lo i)) ≠ ∞ := ENNReal.prod_ne_top fun _ _ => ENNReal.ofReal_ne_top

theorem gain_pos (lo hi : Fin d → ℝ) (h : ∀ i, lo i < hi i) (s : Fin n → Fin d → ℝ≥0) (hs : ∀ r i, s r i ≠ 0) (v : Fin n → ℝ) : gain lo hi s v ≠ 0 :=
  mul_ne_zero (Finset.prod_ne_zero_iff.2 fun r _ => iterFloor_pos lo hi (s r) (hs r) (v r)) (pow_ne_zero _ (volume_box_pos lo hi h))

/-- From every table in the box, one round of iterations reaches every set with at least this probability. -/
theorem round_floor (T : Target d) (lo hi : Fin d → ℝ) (h : ∀ i, lo i < hi i) (s : Fin n → Fin d → ℝ≥0) (hs : ∀ r i, s r i ≠ 0) (beta : Fin n → ℝ)
    (v : Fin n → ℝ) (hv : ∀ r, Varies lo hi (T.lp (beta r)) (v r)) (x : Fin n → Fin d → ℝ) (hx : x ∈ tableBox lo hi) :
    (∏ r, iterFloor lo hi (s r) (v r)) • baseAll n lo hi ≤ moveKernel T lo hi s beta .iter x := by
  have hf : ∀ r, IsFiniteMeasure (iterFloor lo hi (s r) (v r) • (volume.restrict (openBox lo hi) : Measure (Fin d → ℝ))) := fun r =>
    Measure.smul_finite _ (iterFloor_top lo hi (s r) (v r))
  rw [moveKernel, parKernel_apply, baseAll, ← pi_smul_measure _ fun r => iterFloor_top lo hi (s r) (v r)]
  exact pi_mono_measure fun r => iter_floor lo hi h (s r) (hs r) (T.measurable (beta r)) (hv r) (x r) (hx r (mem_univ r))

/-- The uniform law on the box, for all chains. -/
noncomputable def uniformAll (n : Nat) (lo hi : Fin d → ℝ) : Measure (Fin n → Fin d → ℝ) := ((∏ i, ENNReal.ofReal (hi i - lo i)) ^ n)⁻¹ • baseAll n lo hi

theorem uniformAll_prob (lo hi : Fin d → ℝ) (h : ∀ i, lo i < hi i) : IsProbabilityMeasure (uniformAll n lo hi) := ⟨by
  rw [uniformAll, Measure.smul_apply, smul_eq_mul, baseAll_univ]
  exact ENNReal.inv_mul_cancel (pow_ne_zero _ (volume_box_pos lo hi h)) (ENNReal.pow_ne_top (volume_box_top lo hi))⟩

theorem round_gain (T : Target d) (lo hi : Fin d → ℝ) (h : ∀ i, lo i < hi i) (s : Fin n → Fin d → ℝ≥0) (hs : ∀ r i, s r i ≠ 0) (beta : Fin n → ℝ)
    (v : Fin n → ℝ) (hv : ∀ r, Varies lo hi (T.lp (beta r)) (v r)) (x : Fin n → Fin d → ℝ) (hx : x ∈ tableBox lo hi) (B : Set (Fin n → Fin d → ℝ)) :
    gain lo hi s v * uniformAll n lo hi B ≤ moveKernel T lo hi s beta .iter x B := by
  refine le_trans (le_of_eq ?_) (round_floor T lo hi h s hs beta v hv x hx B)
  rw [uniformAll, Measure.smul_apply, Measure.smul_apply, smul_eq_mul, smul_eq_mul, gain, mul_assoc, ← mul_assoc ((∏ i, ENNReal.ofReal (hi i - lo i)) ^ n),
    ENNReal.mul_inv_cancel (pow_ne_zero _ (volume_box_pos lo hi h)) (ENNReal.pow_ne_top (volume_box_top lo hi)), one_mul]

theorem gain_le_one (T : Target d) (lo hi : Fin d → ℝ) (h : ∀ i, lo i < hi i) (s : Fin n → Fin d → ℝ≥0) (hs : ∀ r i, s r i ≠ 0) (beta : Fin n → ℝ)
    (v : Fin n → ℝ) (hv : ∀ r, Varies lo hi (T.lp (beta r)) (v r)) : gain lo hi s v ≤ 1 := by
  have hp := uniformAll_prob (n := n) lo hi h
  have := round_gain T lo hi h s hs beta v hv (fun _ => lo) (fun r _ i _ => ⟨le_rfl, (h i).le⟩) univ
  have hmk := moveKernel_markov T lo hi s beta (.iter : Move n) (fun i j e => by cases e)
  rwa [measure_univ, measure_univ, mul_one] at this

/-- The product of the tempered posteriors, normalised. -/
noncomputable def jointLaw (T : Target d) (lo hi : Fin d → ℝ) (beta : Fin n → ℝ) : Measure (Fin n → Fin d → ℝ) :=
  (joint T lo hi beta univ)⁻¹ • joint T lo hi beta

/-- A bounded log-posterior has a finite and positive total mass. -/
theorem joint_mass (T : Target d) (lo hi : Fin d → ℝ) (h : ∀ i, lo i < hi i) (beta : Fin n → ℝ) (v : Fin n → ℝ)
    (hv : ∀ r, Varies lo hi (T.lp (beta r)) (v r)) : joint T lo hi beta univ ≠ 0 ∧ joint T lo hi beta univ ≠ ∞ := by
  have hlo : lo ∈ closedBox lo hi := fun i _ => ⟨le_rfl, (h i).le⟩
  have hsf : ∀ r, SigmaFinite (posterior (volume.restrict (openBox lo hi)) (T.lp (beta r))) := fun r => SigmaFinite.withDensity_ofReal _
  rw [← joint_pi, Measure.pi_univ]
  have hvol : (volume : Measure (Fin d → ℝ)) (openBox lo hi) = ∏ i, ENNReal.ofReal (hi i - lo i) := by rw [openBox, Real.volume_pi_Ioo]
  have hb : ∀ r, ENNReal.ofReal (Real.exp (T.lp (beta r) lo - v r)) * (volume : Measure (Fin d → ℝ)) (openBox lo hi) ≤
      posterior (volume.restrict (openBox lo hi)) (T.lp (beta r)) univ ∧ posterior (volume.restrict (openBox lo hi)) (T.lp (beta r)) univ ≤
      ENNReal.ofReal (Real.exp (T.lp (beta r) lo + v r)) * (volume : Measure (Fin d → ℝ)) (openBox lo hi) := by
    intro r
    rw [posterior, withDensity_apply _ MeasurableSet.univ, Measure.restrict_univ, ← setLIntegral_const, ← setLIntegral_const]
    constructor
    · refine setLIntegral_mono' (measurableSet_openBox lo hi) fun x hx => ENNReal.ofReal_le_ofReal (Real.exp_le_exp.2 ?_)
      linarith [hv r x (open_closed lo hi hx) lo hlo]
    · refine setLIntegral_mono' (measurableSet_openBox lo hi) fun x hx => ENNReal.ofReal_le_ofReal (Real.exp_le_exp.2 ?_)
      linarith [hv r lo hlo x (open_closed lo hi hx)]
  constructor
  · refine Finset.prod_ne_zero_iff.2 fun r _ => ?_
    refine (lt_of_lt_of_le (pos_iff_ne_zero.2 (mul_ne_zero ?_ ?_)) (hb r).1).ne'
    · rw [Ne, ENNReal.ofReal_eq_zero, not_le]; exact Real.exp_pos _
    · rw [hvol]; exact volume_box_pos lo hi h
  · refine ENNReal.prod_ne_top fun r _ => ((hb r).2.trans_lt (lt_top_iff_ne_top.2 (ENNReal.mul_ne_top ENNReal.ofReal_ne_top ?_))).ne
    rw [hvol]
    exact volume_box_top lo hi

/-- The deviation after `k` rounds: what is left of the start, and of the deviations since. -/
noncomputable def deviation (c e : ℝ≥0∞) : Nat → ℝ≥0∞ → ℝ≥0∞
  | 0, δ => δ
  | k + 1, δ => deviation c e k ((1 - c) * δ + e)

theorem smul_bind {α : Type} [MeasurableSpace α] (c : ℝ≥0∞) (P : Measure α) (κ : Kernel α α) : (c • P).bind κ = c • P.bind κ := by
  ext A hA
  rw [Measure.bind_apply hA κ.aemeasurable, Measure.smul_apply, Measure.bind_apply hA κ.aemeasurable, lintegral_smul_measure]

theorem converge_tv (T : Target d) (lo hi : Fin d → ℝ) (h : ∀ i, lo i < hi i) (s : Fin n → Fin d → ℝ≥0) (hs : ∀ r i, s r i ≠ 0) (beta : Fin n → ℝ)
    (v : Fin n → ℝ) (hv : ∀ r, Varies lo hi (T.lp (beta r)) (v r)) : ∀ (l : List (Move n)) (_ : Apart l) (δ : ℝ≥0∞) (P : Measure (Fin n → Fin d → ℝ))
    [IsProbabilityMeasure P], (∀ᵐ x ∂P, x ∈ tableBox lo hi) → Tv δ P (jointLaw T lo hi beta) →
    Tv (deviation (gain lo hi s v) (leakAll lo hi s) (iters l) δ) (lawAfter T lo hi s beta l P) (jointLaw T lo hi beta) := by
  obtain ⟨hz, ht⟩ := joint_mass T lo hi h beta v hv
  have hprob : IsProbabilityMeasure (jointLaw T lo hi beta) := ⟨by
    rw [jointLaw, Measure.smul_apply, smul_eq_mul]; exact ENNReal.inv_mul_cancel hz ht⟩
  have hup := uniformAll_prob (n := n) lo hi h
  have hQ : ∀ᵐ x ∂(jointLaw T lo hi beta), x ∈ tableBox lo hi := by
    have h1 := (joint_inside T lo hi beta).mono fun x hx => (fun r _ => open_closed lo hi (hx r) : x ∈ tableBox lo hi)
    exact Measure.ae_smul_measure h1 _
  have hiter : Tv (leakAll lo hi s) ((jointLaw T lo hi beta).bind (moveKernel T lo hi s beta .iter)) (jointLaw T lo hi beta) := by
    intro A hA
    rw [jointLaw, smul_bind, Measure.smul_apply, Measure.smul_apply, smul_eq_mul, smul_eq_mul]
    have := iter_move_tv T lo hi h s hs beta A hA
    calc (joint T lo hi beta univ)⁻¹ * ((joint T lo hi beta).bind (moveKernel T lo hi s beta .iter)) A
        ≤ (joint T lo hi beta univ)⁻¹ * (joint T lo hi beta A + leakAll lo hi s * joint T lo hi beta univ) := by gcongr
      _ = (joint T lo hi beta univ)⁻¹ * joint T lo hi beta A + leakAll lo hi s := by
        rw [mul_add, mul_comm (leakAll lo hi s), ← mul_assoc _ (joint T lo hi beta univ), ENNReal.inv_mul_cancel hz ht, one_mul]
  intro l
  induction l with
  | nil => intro _ δ P _ _ hP; exact hP
  | cons m l ih =>
    intro hl δ P _ hin hP
    have hl' : Apart l := fun i j hij => hl i j (List.mem_cons_of_mem _ hij)
    have hne : ∀ i j, m = .swap i j → i ≠ j := fun i j e => hl i j (by rw [e]; exact List.mem_cons_self)
    have hmk := moveKernel_markov T lo hi s beta m hne
    have hin' := bind_ae (moveKernel T lo hi s beta m) (measurableSet_tableBox lo hi) hin (move_closed T lo hi h s beta m hne)
    cases m with
    | iter =>
      have h1 := hP.contract (moveKernel T lo hi s beta .iter) (uniformAll n lo hi) (tableBox lo hi) (gain_le_one T lo hi h s hs beta v hv)
        (fun x hx B _ => round_gain T lo hi h s hs beta v hv x hx B) hin hQ
      exact ih hl' _ _ hin' (h1.trans hiter)
    | swap i j =>
      have h1 := hP.bind (moveKernel T lo hi s beta (.swap i j))
      have h2 : (jointLaw T lo hi beta).bind (moveKernel T lo hi s beta (.swap i j)) = jointLaw T lo hi beta := by
        rw [jointLaw, smul_bind, swap_move_invariant T lo hi s beta (hl i j List.mem_cons_self)]
      rw [h2] at h1
      exact ih hl' _ _ hin' h1

theorem deviation_eq (c e : ℝ≥0∞) : ∀ (k : Nat) (δ : ℝ≥0∞), deviation c e k δ = (1 - c) ^ k * δ + e * ∑ j ∈ Finset.range k, (1 - c) ^ j := by
  intro k
  induction k with
  | zero => intro δ; simp [deviation]
  | succ k ih =>
    intro δ
    rw [deviation, ih, Finset.sum_range_succ]
    ring

theorem leakAll_real (lo hi : Fin d → ℝ) (s : Fin n → Fin d → ℝ≥0) : leakAll lo hi s ≠ ∞ ∧
    (leakAll lo hi s).toReal = ∑ r, ∑ i, ((tail (lo i) (hi i) (s r i)).toReal + 1 / 10 ^ 16) := by
  have htail : ∀ r i, tail (lo i) (hi i) (s r i) ≠ ∞ := fun r i => measure_ne_top _ _
  have hterm : ∀ r i, tail (lo i) (hi i) (s r i) + ENNReal.ofReal (1 / 10 ^ 16) ≠ ∞ := fun r i =>
    ENNReal.add_ne_top.2 ⟨htail r i, ENNReal.ofReal_ne_top⟩
  have hl : ∀ r, leak lo hi (s r) ≠ ∞ := fun r => by rw [leak]; exact ENNReal.sum_ne_top.2 fun i _ => hterm r i
  refine ⟨by rw [leakAll]; exact ENNReal.sum_ne_top.2 fun r _ => hl r, ?_⟩
  rw [leakAll, ENNReal.toReal_sum fun r _ => hl r]
  refine Finset.sum_congr rfl fun r _ => ?_
  rw [leak, ENNReal.toReal_sum fun i _ => hterm r i]
  refine Finset.sum_congr rfl fun i _ => ?_
  rw [ENNReal.toReal_add (htail r i) ENNReal.ofReal_ne_top, ENNReal.toReal_ofReal (by norm_num)]

/-- The two directions of `Tv` as one inequality between real numbers. -/
theorem Tv.real {α : Type} [MeasurableSpace α] {δ : ℝ≥0∞} {P Q : Measure α} [IsProbabilityMeasure P] [IsProbabilityMeasure Q] (h : Tv δ P Q) (hδ : δ ≠ ∞)
    (A : Set α) (hA : MeasurableSet A) : |P.real A - Q.real A| ≤ δ.toReal := by
  have h' := h.symm (by rw [measure_univ, measure_univ])
  have g1 := ENNReal.toReal_mono (ENNReal.add_ne_top.2 ⟨measure_ne_top _ _, hδ⟩) (h A hA)
  have g2 := ENNReal.toReal_mono (ENNReal.add_ne_top.2 ⟨measure_ne_top _ _, hδ⟩) (h' A hA)
  rw [ENNReal.toReal_add (measure_ne_top _ _) hδ] at g1 g2
  rw [abs_le]
  simp only [measureReal_def]
  constructor <;> linarith

theorem lawAfter_prob (T : Target d) (lo hi : Fin d → ℝ) (s : Fin n → Fin d → ℝ≥0) (beta : Fin n → ℝ) (l : List (Move n)) (hl : Apart l)
    (P : Measure (Fin n → Fin d → ℝ)) [IsProbabilityMeasure P] : IsProbabilityMeasure (lawAfter T lo hi s beta l P) :=
  ⟨by rw [lawAfter_mass T lo hi s beta l hl, measure_univ]⟩

/-- **C76, the start is forgotten.** After `m` iterations of every chain, with any swap attempts between them, the laws of the tables of two runs with any
two starts in the box differ on no set by more than `(1 - c) ^ m`, where `c > 0` depends on the widths, the ranges and the variation of the log-posteriors only. -/
theorem start_forgotten (T : Target d) (lo hi : Fin d → ℝ) (h : ∀ i, lo i < hi i) (s : Fin n → Fin d → ℝ≥0) (hs : ∀ r i, s r i ≠ 0) (beta : Fin n → ℝ)
    (v : Fin n → ℝ) (hv : ∀ r, Varies lo hi (T.lp (beta r)) (v r)) :
    0 < (gain lo hi s v).toReal ∧ (gain lo hi s v).toReal ≤ 1 ∧
    ∀ (l : List (Move n)) (_ : Apart l) (P Q : Measure (Fin n → Fin d → ℝ)) [IsProbabilityMeasure P] [IsProbabilityMeasure Q]
      (_ : ∀ᵐ x ∂P, x ∈ tableBox lo hi) (_ : ∀ᵐ x ∂Q, x ∈ tableBox lo hi) (A : Set (Fin n → Fin d → ℝ)) (_ : MeasurableSet A),
      |(lawAfter T lo hi s beta l P).real A - (lawAfter T lo hi s beta l Q).real A| ≤ (1 - (gain lo hi s v).toReal) ^ iters l := by
  have hle := gain_le_one T lo hi h s hs beta v hv
  have hup := uniformAll_prob (n := n) lo hi h
  have htop : gain lo hi s v ≠ ∞ := (hle.trans_lt ENNReal.one_lt_top).ne
  have key : ∀ (l : List (Move n)) (_ : Apart l) (δ : ℝ≥0∞) (P Q : Measure (Fin n → Fin d → ℝ)) [IsProbabilityMeasure P] [IsProbabilityMeasure Q],
      (∀ᵐ x ∂P, x ∈ tableBox lo hi) → (∀ᵐ x ∂Q, x ∈ tableBox lo hi) → Tv δ P Q →
      Tv ((1 - gain lo hi s v) ^ iters l * δ) (lawAfter T lo hi s beta l P) (lawAfter T lo hi s beta l Q) := by
    intro l
    induction l with
    | nil => intro _ δ P Q _ _ _ _ hPQ; simpa [iters, lawAfter] using hPQ
    | cons m l ih =>
      intro hl δ P Q _ _ hP hQ hPQ
      have hl' : Apart l := fun i j hij => hl i j (List.mem_cons_of_mem _ hij)
      have hne : ∀ i j, m = .swap i j → i ≠ j := fun i j e => hl i j (by rw [e]; exact List.mem_cons_self)
      have hmk := moveKernel_markov T lo hi s beta m hne
      have hP' := bind_ae (moveKernel T lo hi s beta m) (measurableSet_tableBox lo hi) hP (move_closed T lo hi h s beta m hne)
      have hQ' := bind_ae (moveKernel T lo hi s beta m) (measurableSet_tableBox lo hi) hQ (move_closed T lo hi h s beta m hne)
      cases m with
      | iter =>
        have h1 := hPQ.contract (moveKernel T lo hi s beta .iter) (uniformAll n lo hi) (tableBox lo hi) hle
          (fun x hx B _ => round_gain T lo hi h s hs beta v hv x hx B) hP hQ
        have h2 := ih hl' _ _ _ hP' hQ' h1
        rw [← mul_assoc, ← pow_succ] at h2
        exact h2
      | swap i j => exact ih hl' _ _ _ hP' hQ' (hPQ.bind _)
  refine ⟨ENNReal.toReal_pos (gain_pos lo hi h s hs v) htop, by simpa using ENNReal.toReal_mono ENNReal.one_ne_top hle, fun l hl P Q _ _ hP hQ A hA => ?_⟩
  have := lawAfter_prob T lo hi s beta l hl P
  have := lawAfter_prob T lo hi s beta l hl Q
  have h1 := key l hl 1 P Q hP hQ (Tv.one P Q)
  rw [mul_one] at h1
  have hne : (1 - gain lo hi s v) ^ iters l ≠ ∞ := ENNReal.pow_ne_top (ENNReal.sub_ne_top ENNReal.one_ne_top)
  refine (h1.real hne A hA).trans (le_of_eq ?_)
  rw [ENNReal.toReal_pow, ENNReal.toReal_sub_of_le hle ENNReal.one_ne_top, ENNReal.toReal_one]

/-- **C76, convergence.** From any start in the box, after `m` iterations of every chain, with any swap attempts between them, the law of the table differs from the
product of the normalised tempered posteriors on no set by more than `(1 - c) ^ m` plus the deviation of one round (C75) times `∑ j < m, (1 - c) ^ j`. -/
theorem sampler_converges (T : Target d) (lo hi : Fin d → ℝ) (h : ∀ i, lo i < hi i) (s : Fin n → Fin d → ℝ≥0) (hs : ∀ r i, s r i ≠ 0) (beta : Fin n → ℝ)
    (v : Fin n → ℝ) (hv : ∀ r, Varies lo hi (T.lp (beta r)) (v r)) (l : List (Move n)) (hl : Apart l) (P : Measure (Fin n → Fin d → ℝ)) [IsProbabilityMeasure P]
    (hP : ∀ᵐ x ∂P, x ∈ tableBox lo hi) (A : Set (Fin n → Fin d → ℝ)) (hA : MeasurableSet A) :
    |(lawAfter T lo hi s beta l P).real A - (joint T lo hi beta).real A / (joint T lo hi beta).real univ| ≤
      (1 - (gain lo hi s v).toReal) ^ iters l + (∑ r, ∑ i, ((tail (lo i) (hi i) (s r i)).toReal + 1 / 10 ^ 16)) *
        ∑ j ∈ Finset.range (iters l), (1 - (gain lo hi s v).toReal) ^ j := by
  obtain ⟨hz, ht⟩ := joint_mass T lo hi h beta v hv
  have hle := gain_le_one T lo hi h s hs beta v hv
  have hprob : IsProbabilityMeasure (jointLaw T lo hi beta) := ⟨by
    rw [jointLaw, Measure.smul_apply, smul_eq_mul]; exact ENNReal.inv_mul_cancel hz ht⟩
  have := lawAfter_prob T lo hi s beta l hl P
  have h1 := converge_tv T lo hi h s hs beta v hv l hl 1 P hP (Tv.one P _)
  rw [deviation_eq, mul_one] at h1
  obtain ⟨hlt, hlr⟩ := leakAll_real lo hi s
  have hne1 : ∀ k, (1 - gain lo hi s v) ^ k ≠ ∞ := fun k => ENNReal.pow_ne_top (ENNReal.sub_ne_top ENNReal.one_ne_top)
  have hne2 : ∑ j ∈ Finset.range (iters l), (1 - gain lo hi s v) ^ j ≠ ∞ := ENNReal.sum_ne_top.2 fun j _ => hne1 j
  have hne3 : leakAll lo hi s * ∑ j ∈ Finset.range (iters l), (1 - gain lo hi s v) ^ j ≠ ∞ := ENNReal.mul_ne_top hlt hne2
  have hsub : (1 - gain lo hi s v).toReal = 1 - (gain lo hi s v).toReal := by
    rw [ENNReal.toReal_sub_of_le hle ENNReal.one_ne_top, ENNReal.toReal_one]
  have h2 := h1.real (ENNReal.add_ne_top.2 ⟨hne1 _, hne3⟩) A hA
  have e : (jointLaw T lo hi beta).real A = (joint T lo hi beta).real A / (joint T lo hi beta).real univ := by
    rw [measureReal_def, jointLaw, Measure.smul_apply, smul_eq_mul, ENNReal.toReal_mul, ENNReal.toReal_inv, measureReal_def, measureReal_def, div_eq_inv_mul]
  rw [e] at h2
  refine h2.trans (le_of_eq ?_)
  rw [ENNReal.toReal_add (hne1 _) hne3, ENNReal.toReal_mul, hlr, ENNReal.toReal_pow, hsub, ENNReal.toReal_sum fun j _ => hne1 j]
  congr 2
  exact Finset.sum_congr rfl fun j _ => by rw [ENNReal.toReal_pow, hsub]

end

/-! ## The size of the deviation -/

/-- The normal probability of a step as long as the range. -/
theorem tail_le (lo hi : ℝ) (h : lo ≤ hi) (s : ℝ≥0) (hs : s ≠ 0) : (tail lo hi s).toReal ≤ 2 * Real.exp (-(((hi - lo) / s) ^ 2 / 2)) := by
  have hs0 : (0 : ℝ) < s := by positivity
  set t := (hi - lo) / (s : ℝ) with ht
  have ht0 : 0 ≤ t := div_nonneg (by linarith) hs0.le
  have hsub : {z : ℝ | hi - lo ≤ |z| * s} ⊆ {z | t ≤ id z} ∪ {z | t ≤ (fun z => -z) z} := by
    intro z hz
    have hz' : t ≤ |z| := by
      rw [ht, div_le_iff₀ hs0]; exact hz
    rcases le_abs.1 hz' with c | c
    · exact Or.inl c
    · exact Or.inr c
  have hneg : mgf (fun z : ℝ => -z) (gaussianReal 0 1) t = Real.exp (t ^ 2 / 2) := by
    rw [mgf_gaussianReal (μ := 0) (v := 1) (by rw [gaussianReal_map_neg, neg_zero])]
    simp
  have hpos : mgf id (gaussianReal 0 1) t = Real.exp (t ^ 2 / 2) := by
    rw [mgf_id_gaussianReal]; simp
  have b1 := measure_ge_le_exp_mul_mgf (μ := gaussianReal 0 1) (X := id) t ht0 (integrable_exp_mul_gaussianReal t)
  have hint : Integrable (fun ω : ℝ => Real.exp (t * (fun z : ℝ => -z) ω)) (gaussianReal 0 1) := by
    have := integrable_exp_mul_gaussianReal (μ := 0) (v := 1) (-t)
    simpa using this
  have b2 := measure_ge_le_exp_mul_mgf (μ := gaussianReal 0 1) (X := fun z : ℝ => -z) t ht0 hint
  rw [hpos, ← Real.exp_add] at b1
  rw [hneg, ← Real.exp_add] at b2
  have e : -t * t + t ^ 2 / 2 = -(t ^ 2 / 2) := by ring
  rw [e] at b1 b2
  calc (tail lo hi s).toReal = (gaussianReal 0 1).real {z | hi - lo ≤ |z| * s} := rfl
    _ ≤ (gaussianReal 0 1).real ({z | t ≤ id z} ∪ {z | t ≤ (fun z => -z) z}) := measureReal_mono hsub
    _ ≤ (gaussianReal 0 1).real {z | t ≤ id z} + (gaussianReal 0 1).real {z | t ≤ (fun z => -z) z} := measureReal_union_le _ _
    _ ≤ _ := by linarith

/-- **C75, in numbers.** With widths up to a fifth of the range, the largest that `scale_max = 0.2` of the sample inputs allows, one parameter of one chain adds
at most 7.5e-6 in each iteration. -/
theorem tail_fifth (lo hi : ℝ) (h : lo < hi) (s : ℝ≥0) (hs : s ≠ 0) (hw : (s : ℝ) ≤ (hi - lo) / 5) : (tail lo hi s).toReal ≤ 75 / 10 ^ 7 := by
  have hs0 : (0 : ℝ) < s := by positivity
  have h5 : 5 ≤ (hi - lo) / s := by rw [le_div_iff₀ hs0]; linarith
  refine (tail_le lo hi h.le s hs).trans ?_
  have h1 : Real.exp (-(((hi - lo) / s) ^ 2 / 2)) ≤ Real.exp (-(25 / 2)) := Real.exp_le_exp.2 (by nlinarith)
  have h2 : Real.exp (-(25 / 2)) ≤ 375 / 10 ^ 8 := by
    have e : Real.exp (-(25 / 2)) = (Real.exp (1 / 2) ^ 25)⁻¹ := by rw [← Real.exp_nat_mul, ← Real.exp_neg]; norm_num
    have hb : (1.6486 : ℝ) ≤ Real.exp (1 / 2) := by
      have h27 := Real.exp_one_gt_d9
      have hsq : Real.exp (1 / 2) ^ 2 = Real.exp 1 := by rw [← Real.exp_nat_mul]; norm_num
      nlinarith [Real.exp_pos (1 / 2 : ℝ)]
    rw [e, inv_le_comm₀ (by positivity) (by norm_num)]
    refine le_trans ?_ (pow_le_pow_left₀ (by norm_num) hb 25)
    norm_num
  linarith

/-! ## A bundled model -/

/-- The likelihood of models/eggbox and its constant prior. -/
noncomputable def eggboxTarget : Target 2 where
  L x := eggboxValue (x 0) (x 1)
  Pr _ := 1
  hL := by
    have := Real.measurable_cos
    have := Real.measurable_sin
    simp only [eggboxValue, RealArith.add_eq, RealArith.mul_eq, RealArith.div_eq, RealArith.sin_eq, RealArith.cos_eq, RealArith.ofI_eq]
    fun_prop
  hP := measurable_const

/-- This is what the program computes for the model. -/
theorem eggbox_target (bounds : List (ℝ × ℝ)) (ndim nline : Int) (data : List ℝ) (b : ℝ) (x : Fin 2 → ℝ) :
    Spec.target (eggbox.user bounds ndim) nline data b (List.ofFn x) = eggboxTarget.lp b x := by
  simp [Spec.target, eggbox, model2, Model.user, eggboxTarget, Target.lp, logll2, mul_comm]

theorem eggbox_values (x : Fin 2 → ℝ) : 1 ≤ eggboxTarget.L x ∧ eggboxTarget.L x ≤ 3 := by
  have hs := abs_le.1 (Real.abs_sin_le_one (x 1 / 2))
  have hc := abs_le.1 (Real.abs_cos_le_one (x 0 / 2))
  simp only [eggboxTarget, eggboxValue, RealArith.add_eq, RealArith.mul_eq, RealArith.div_eq, RealArith.sin_eq, RealArith.cos_eq, RealArith.ofI_eq, Int.cast_ofNat]
  constructor <;> nlinarith

theorem eggbox_varies (lo hi : Fin 2 → ℝ) (b : ℝ) (h0 : 0 ≤ b) : Varies lo hi (eggboxTarget.lp b) (2 * b) := by
  intro x _ y _
  simp only [Target.lp, eggboxTarget]
  have h1 := (eggbox_values x).1
  have h2 := (eggbox_values y).2
  simp only [eggboxTarget] at h1 h2
  nlinarith

/-- **C76 for the egg box model** with the ranges of its sample input: three chains, any positive widths up to a fifth of the range. -/
theorem eggbox_converges (s : Fin 3 → Fin 2 → ℝ≥0) (hs : ∀ r i, s r i ≠ 0) (hw : ∀ r i, (s r i : ℝ) ≤ 10) (beta : Fin 3 → ℝ) (hb : ∀ r, 0 ≤ beta r) :
    ∃ c : ℝ, 0 < c ∧ c ≤ 1 ∧ ∀ (l : List (Move 3)) (_ : Apart l) (x : Fin 3 → Fin 2 → ℝ) (_ : ∀ r i, 0 ≤ x r i ∧ x r i ≤ 50)
      (A : Set (Fin 3 → Fin 2 → ℝ)) (_ : MeasurableSet A),
      |(lawAfter eggboxTarget (fun _ => 0) (fun _ => 50) s beta l (Measure.dirac x)).real A -
        (joint eggboxTarget (fun _ => 0) (fun _ => 50) beta).real A / (joint eggboxTarget (fun _ => 0) (fun _ => 50) beta).real univ| ≤
      (1 - c) ^ iters l + 46 / 10 ^ 6 * ∑ j ∈ Finset.range (iters l), (1 - c) ^ j := by
  have h : ∀ i : Fin 2, (fun _ => (0 : ℝ)) i < (fun _ => (50 : ℝ)) i := fun _ => by norm_num
  have hv := fun r => eggbox_varies (fun _ => 0) (fun _ => 50) (beta r) (hb r)
  obtain ⟨h1, h2, -⟩ := start_forgotten eggboxTarget _ _ h s hs beta _ hv
  refine ⟨_, h1, h2, fun l hl x hx A hA => ?_⟩
  have hP : ∀ᵐ y ∂(Measure.dirac x), y ∈ tableBox (fun _ => (0 : ℝ)) (fun _ => 50) := by
    exact (ae_dirac_iff (p := fun y => y ∈ tableBox (fun _ => (0 : ℝ)) (fun _ => 50)) (measurableSet_tableBox _ _)).2 fun r _ i _ => hx r i
  refine (sampler_converges eggboxTarget _ _ h s hs beta _ hv l hl (Measure.dirac x) hP A hA).trans ?_
  have hsum : ∑ r : Fin 3, ∑ i : Fin 2, ((tail ((fun _ => (0 : ℝ)) i) ((fun _ => (50 : ℝ)) i) (s r i)).toReal + 1 / 10 ^ 16) ≤ 46 / 10 ^ 6 := by
    have ht : ∀ r i, (tail ((fun _ : Fin 2 => (0 : ℝ)) i) ((fun _ => (50 : ℝ)) i) (s r i)).toReal + 1 / 10 ^ 16 ≤ 75 / 10 ^ 7 + 1 / 10 ^ 16 := fun r i => by
      have := tail_fifth 0 50 (by norm_num) (s r i) (hs r i) (by have := hw r i; linarith)
      linarith
    calc _ ≤ ∑ r : Fin 3, ∑ i : Fin 2, ((75 : ℝ) / 10 ^ 7 + 1 / 10 ^ 16) := Finset.sum_le_sum fun r _ => Finset.sum_le_sum fun i _ => ht r i
      _ ≤ _ := by norm_num
  have hnn : 0 ≤ ∑ j ∈ Finset.range (iters l), (1 - (gain (fun _ => 0) (fun _ => 50) s fun r => 2 * beta r).toReal) ^ j :=
    Finset.sum_nonneg fun j _ => pow_nonneg (by linarith) j
  gcongr

/-- **C75 for the egg box model**: a thousand iterations of three chains change no probability under the product of the posteriors by more than 4.6 percent. -/
theorem eggbox_keeps (s : Fin 3 → Fin 2 → ℝ≥0) (hs : ∀ r i, s r i ≠ 0) (hw : ∀ r i, (s r i : ℝ) ≤ 10) (beta : Fin 3 → ℝ) (hb : ∀ r, 0 ≤ beta r)
    (l : List (Move 3)) (hl : Apart l) (h1000 : iters l ≤ 1000) (A : Set (Fin 3 → Fin 2 → ℝ)) (hA : MeasurableSet A) :
    |(lawAfter eggboxTarget (fun _ => 0) (fun _ => 50) s beta l (joint eggboxTarget (fun _ => 0) (fun _ => 50) beta)).real A -
        (joint eggboxTarget (fun _ => 0) (fun _ => 50) beta).real A| ≤ 46 / 10 ^ 3 * (joint eggboxTarget (fun _ => 0) (fun _ => 50) beta).real univ := by
  have h : ∀ i : Fin 2, (fun _ => (0 : ℝ)) i < (fun _ => (50 : ℝ)) i := fun _ => by norm_num
  have hv := fun r => eggbox_varies (fun _ => 0) (fun _ => 50) (beta r) (hb r)
  refine (sampler_keeps eggboxTarget _ _ h s hs beta (joint_mass eggboxTarget _ _ h beta _ hv).2 l hl A hA).trans ?_
  refine mul_le_mul_of_nonneg_right ?_ measureReal_nonneg
  have ht : ∀ r i, (tail ((fun _ : Fin 2 => (0 : ℝ)) i) ((fun _ => (50 : ℝ)) i) (s r i)).toReal + 1 / 10 ^ 16 ≤ 75 / 10 ^ 7 + 1 / 10 ^ 16 := fun r i => by
    have := tail_fifth 0 50 (by norm_num) (s r i) (hs r i) (by have := hw r i; linarith)
    linarith
  have hsum : ∑ r : Fin 3, ∑ i : Fin 2, ((tail ((fun _ => (0 : ℝ)) i) ((fun _ => (50 : ℝ)) i) (s r i)).toReal + 1 / 10 ^ 16) ≤ 46 / 10 ^ 6 := by
    calc _ ≤ ∑ r : Fin 3, ∑ i : Fin 2, ((75 : ℝ) / 10 ^ 7 + 1 / 10 ^ 16) := Finset.sum_le_sum fun r _ => Finset.sum_le_sum fun i _ => ht r i
      _ ≤ _ := by norm_num
  have hk : ((iters l : ℕ) : ℝ) ≤ 1000 := by exact_mod_cast h1000
  calc (iters l : ℝ) * _ ≤ 1000 * (46 / 10 ^ 6) := mul_le_mul hk hsum (Finset.sum_nonneg fun r _ => Finset.sum_nonneg fun i _ => by positivity) (by norm_num)
    _ = _ := by norm_num

/-- Widths of 5, the initial ones of the sample input, the ladder 1/3, 2/3, 1, and two iterations with a swap between them. -/
example (A : Set (Fin 3 → Fin 2 → ℝ)) (hA : MeasurableSet A) :
    |(lawAfter eggboxTarget (fun _ => 0) (fun _ => 50) (fun _ _ => 5) (fun r : Fin 3 => ((r.val : ℝ) + 1) / 3) [.iter, .swap 0 1, .iter]
        (joint eggboxTarget (fun _ => 0) (fun _ => 50) fun r : Fin 3 => ((r.val : ℝ) + 1) / 3)).real A -
        (joint eggboxTarget (fun _ => 0) (fun _ => 50) fun r : Fin 3 => ((r.val : ℝ) + 1) / 3).real A| ≤
      46 / 10 ^ 3 * (joint eggboxTarget (fun _ => 0) (fun _ => 50) fun r : Fin 3 => ((r.val : ℝ) + 1) / 3).real univ := by
  refine eggbox_keeps (fun _ _ => 5) (fun _ _ => by norm_num) (fun _ _ => by norm_num) _ (fun r => by positivity) _ ?_ (by simp [iters]) A hA
  intro i j h
  simp at h
  obtain ⟨rfl, rfl⟩ := h
  decide

/-- A thousand iterations from the middle of the box. -/
example (A : Set (Fin 3 → Fin 2 → ℝ)) (hA : MeasurableSet A) : ∃ c : ℝ, 0 < c ∧ c ≤ 1 ∧
    |(lawAfter eggboxTarget (fun _ => 0) (fun _ => 50) (fun _ _ => 5) (fun r : Fin 3 => ((r.val : ℝ) + 1) / 3) (List.replicate 1000 .iter)
        (Measure.dirac fun _ _ => 25)).real A -
        (joint eggboxTarget (fun _ => 0) (fun _ => 50) fun r : Fin 3 => ((r.val : ℝ) + 1) / 3).real A /
          (joint eggboxTarget (fun _ => 0) (fun _ => 50) fun r : Fin 3 => ((r.val : ℝ) + 1) / 3).real univ| ≤
      (1 - c) ^ iters (n := 3) (List.replicate 1000 .iter) + 46 / 10 ^ 6 * ∑ j ∈ Finset.range (iters (n := 3) (List.replicate 1000 .iter)), (1 - c) ^ j := by
  obtain ⟨c, h0, h1, h⟩ := eggbox_converges (fun _ _ => 5) (fun _ _ => by norm_num) (fun _ _ => by norm_num) (fun r : Fin 3 => ((r.val : ℝ) + 1) / 3) (fun r => by positivity)
  refine ⟨c, h0, h1, h _ ?_ (fun _ _ => 25) (fun _ _ => by norm_num) A hA⟩
  intro i j hm
  cases List.eq_of_mem_replicate hm

end NiiC
