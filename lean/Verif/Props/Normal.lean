import Verif.Props.Accept
import Verif.Props.Likelihood
import Verif.Props.Run
import Mathlib.Analysis.SpecialFunctions.PolarCoord
import Mathlib.MeasureTheory.Function.JacobianOneDim

/-!
# Standard normal draws: C61

`r8_normal_01` computes `sqrt(-2 log u) * cos(2 * PI * v)` from two uniform numbers. With the exact pi its law is the standard normal law; with the decimal literal of
the source the law differs from it by less than 10^-16 on every event.
-/

set_option linter.unusedSectionVars false
set_option linter.unusedSimpArgs false

namespace NiiC

open MeasureTheory ProbabilityTheory Set ENNReal NNReal

/-- The formula of Box and Muller with a number `p` in place of pi. -/
noncomputable def boxMuller (p u v : ℝ) : ℝ := Real.sqrt (-2 * Real.log u) * Real.cos (2 * p * v)

/-- `r8_normal_01` is this formula applied to the next two draws, with the literal of the source. -/
theorem normal01_boxMuller [Source ℝ] (g : Rng) :
    (r8Normal01 (F := ℝ) g).1 = boxMuller piLit (drand48 (F := ℝ) g).1 (drand48 (F := ℝ) (drand48 (F := ℝ) g).2).1 := by
  simp [r8Normal01, boxMuller, piLit]

/-- The law of the formula for two independent uniform numbers. -/
noncomputable def boxMullerLaw (p : ℝ) : Measure ℝ := (unif.prod unif).map (fun w => boxMuller p w.1 w.2)

theorem measurable_boxMuller (p : ℝ) : Measurable (fun w : ℝ × ℝ => boxMuller p w.1 w.2) := by
  unfold boxMuller
  have := Real.measurable_log
  have := Real.measurable_cos
  fun_prop

/-- The part of an event at angle `t`. -/
noncomputable def ray (A : Set ℝ) (t : ℝ) : ℝ≥0∞ := ∫⁻ r in Ioi (0 : ℝ), ENNReal.ofReal (r * Real.exp (-(r ^ 2 / 2))) * A.indicator 1 (r * Real.cos t)

/-- The radius of a uniform number. -/
theorem radial (h : ℝ → ℝ≥0∞) : ∫⁻ u in Ioo (0 : ℝ) 1, h (Real.sqrt (-2 * Real.log u)) =
    ∫⁻ r in Ioi (0 : ℝ), ENNReal.ofReal (r * Real.exp (-(r ^ 2 / 2))) * h r := by
  have him : (fun r : ℝ => Real.exp (-(r ^ 2 / 2))) '' Ioi 0 = Ioo 0 1 := by
    ext u
    constructor
    · rintro ⟨r, hr, rfl⟩
      have hr' : 0 < r := hr
      refine ⟨Real.exp_pos _, ?_⟩
      rw [Real.exp_lt_one_iff]
      have := pow_pos hr' 2
      linarith
    · rintro ⟨h0, h1⟩
      have hl := Real.log_neg h0 h1
      refine ⟨Real.sqrt (-2 * Real.log u), Real.sqrt_pos.2 (by linarith), ?_⟩
      show Real.exp (-((Real.sqrt (-2 * Real.log u)) ^ 2 / 2)) = u
      rw [Real.sq_sqrt (by linarith)]
      have : -(-2 * Real.log u / 2) = Real.log u := by ring
      rw [this, Real.exp_log h0]
  have hd : ∀ r ∈ Ioi (0 : ℝ), HasDerivWithinAt (fun r : ℝ => Real.exp (-(r ^ 2 / 2))) (-(r * Real.exp (-(r ^ 2 / 2)))) (Ioi 0) r := by
    intro r _
    have h1 : HasDerivAt (fun r : ℝ => -(r ^ 2 / 2)) (-r) r := by
      have := ((hasDerivAt_pow 2 r).div_const 2).neg
      refine this.congr_deriv ?_
      norm_num
    exact (h1.exp.congr_deriv (by ring)).hasDerivWithinAt
  have hinj : InjOn (fun r : ℝ => Real.exp (-(r ^ 2 / 2))) (Ioi 0) := by
    intro a ha b hb e
    have e' := Real.exp_injective e
    have ha' : (0 : ℝ) < a := ha
    have hb' : (0 : ℝ) < b := hb
    have : a ^ 2 = b ^ 2 := by linarith
    exact (pow_left_inj₀ ha'.le hb'.le two_ne_zero).1 this
  rw [← him, lintegral_image_eq_lintegral_abs_deriv_mul measurableSet_Ioi hd hinj]
  refine setLIntegral_congr_fun measurableSet_Ioi (fun r hr => ?_)
  have hr' : (0 : ℝ) < r := hr
  show ENNReal.ofReal |-(r * Real.exp (-(r ^ 2 / 2)))| * h (Real.sqrt (-2 * Real.log (Real.exp (-(r ^ 2 / 2))))) = _
  have e1 : Real.sqrt (-2 * Real.log (Real.exp (-(r ^ 2 / 2)))) = r := by
    rw [Real.log_exp]
    have : -2 * -(r ^ 2 / 2) = r ^ 2 := by ring
    rw [this, Real.sqrt_sq hr'.le]
  rw [e1, abs_neg, abs_of_pos (mul_pos hr' (Real.exp_pos _))]

/-- The angle of a uniform number. -/
theorem angular (p : ℝ) (hp : 0 < p) (k : ℝ → ℝ≥0∞) :
    ENNReal.ofReal (2 * p) * ∫⁻ v in Ico (0 : ℝ) 1, k (2 * p * v) = ∫⁻ t in Ico (0 : ℝ) (2 * p), k t := by
  have him : (fun v : ℝ => 2 * p * v) '' Ico 0 1 = Ico 0 (2 * p) := by
    ext t
    constructor
    · rintro ⟨v, ⟨h0, h1⟩, rfl⟩
      have : 0 < 2 * p := by linarith
      exact ⟨by positivity, by show 2 * p * v < 2 * p; nlinarith⟩
    · rintro ⟨h0, h1⟩
      have : 0 < 2 * p := by linarith
      refine ⟨t / (2 * p), ⟨div_nonneg h0 this.le, (div_lt_one this).2 h1⟩, ?_⟩
      show 2 * p * (t / (2 * p)) = t
      field_simp
  have hd : ∀ v ∈ Ico (0 : ℝ) 1, HasDerivWithinAt (fun v : ℝ => 2 * p * v) (2 * p) (Ico 0 1) v := fun v _ =>
    (by simpa using (hasDerivAt_id v).const_mul (2 * p) : HasDerivAt (fun v : ℝ => 2 * p * v) (2 * p) v).hasDerivWithinAt
  have hinj : InjOn (fun v : ℝ => 2 * p * v) (Ico 0 1) := fun a _ b _ e => mul_left_cancel₀ (by linarith : (2 * p) ≠ 0) e
  rw [← him, lintegral_image_eq_lintegral_abs_deriv_mul measurableSet_Ico hd hinj, abs_of_pos (by linarith), lintegral_const_mul' _ _ ENNReal.ofReal_ne_top]

theorem measurable_ray (A : Set ℝ) (hA : MeasurableSet A) : Measurable (ray A) := by
  unfold ray
  have h1 : Measurable (A.indicator (1 : ℝ → ℝ≥0∞)) := measurable_one.indicator hA
  have h2 : Measurable (fun w : ℝ × ℝ => ENNReal.ofReal (w.2 * Real.exp (-(w.2 ^ 2 / 2))) * A.indicator 1 (w.2 * Real.cos w.1)) := by
    have := Real.measurable_cos
    fun_prop
  exact h2.lintegral_prod_right'

/-- The law of the formula: the mean of the rays over the angles that it uses. -/
theorem boxMullerLaw_apply (p : ℝ) (hp : 0 < p) (A : Set ℝ) (hA : MeasurableSet A) :
    ENNReal.ofReal (2 * p) * boxMullerLaw p A = ∫⁻ t in Ico (0 : ℝ) (2 * p), ray A t := by
  have h1 : Measurable (A.indicator (1 : ℝ → ℝ≥0∞)) := measurable_one.indicator hA
  have hm := measurable_boxMuller p
  have hIoo : unif = volume.restrict (Ioo (0 : ℝ) 1) := by
    rw [unif]; exact Measure.restrict_congr_set Ioo_ae_eq_Ico.symm
  have e : boxMullerLaw p A = ∫⁻ v in Ico (0 : ℝ) 1, ray A (2 * p * v) := by
    rw [boxMullerLaw, Measure.map_apply hm hA, ← lintegral_indicator_one (hm hA), lintegral_prod_symm _ (measurable_one.indicator (hm hA)).aemeasurable]
    refine lintegral_congr (fun v => ?_)
    rw [hIoo, ray, ← radial (fun r => A.indicator 1 (r * Real.cos (2 * p * v)))]
    rfl
  rw [e, angular p hp (ray A)]

/-- The normal law: the mean of the rays over the full circle. -/
theorem normal_apply (A : Set ℝ) (hA : MeasurableSet A) :
    ENNReal.ofReal (2 * Real.pi) * gaussianReal 0 1 A = ∫⁻ t in Ioo (-Real.pi) Real.pi, ray A t := by
  have hpi := Real.pi_pos
  have h1 : Measurable (A.indicator (1 : ℝ → ℝ≥0∞)) := measurable_one.indicator hA
  have hg := measurable_gaussianPDF 0 1
  have e1 : gaussianReal 0 1 A = ∫⁻ w : ℝ × ℝ, (A.indicator 1 w.1 * gaussianPDF 0 1 w.1) * gaussianPDF 0 1 w.2 := by
    rw [Measure.volume_eq_prod, lintegral_prod_mul (f := fun x => A.indicator 1 x * gaussianPDF 0 1 x) (by fun_prop) (by fun_prop), lintegral_gaussianPDF_eq_one 0 one_ne_zero, mul_one,
      gaussianReal_apply _ one_ne_zero, ← lintegral_indicator hA]
    refine lintegral_congr (fun x => ?_)
    by_cases hx : x ∈ A <;> simp [hx]
  rw [e1, ← lintegral_comp_polarCoord_symm]
  have ht : polarCoord.target = Ioi (0 : ℝ) ×ˢ Ioo (-Real.pi) Real.pi := rfl
  rw [ht, ← lintegral_const_mul' _ _ ENNReal.ofReal_ne_top]
  have e2 : ∀ w ∈ Ioi (0 : ℝ) ×ˢ Ioo (-Real.pi) Real.pi,
      ENNReal.ofReal (2 * Real.pi) * (ENNReal.ofReal w.1 • ((A.indicator 1 (polarCoord.symm w).1 * gaussianPDF 0 1 (polarCoord.symm w).1) *
        gaussianPDF 0 1 (polarCoord.symm w).2)) = ENNReal.ofReal (w.1 * Real.exp (-(w.1 ^ 2 / 2))) * A.indicator 1 (w.1 * Real.cos w.2) := by
    rintro ⟨r, t⟩ ⟨hr, _⟩
    have hr' : (0 : ℝ) < r := hr
    show ENNReal.ofReal (2 * Real.pi) * (ENNReal.ofReal r • ((A.indicator 1 (r * Real.cos t) * gaussianPDF 0 1 (r * Real.cos t)) *
        gaussianPDF 0 1 (r * Real.sin t))) = _
    have e3 : ENNReal.ofReal (2 * Real.pi) * (ENNReal.ofReal r * (gaussianPDF 0 1 (r * Real.cos t) * gaussianPDF 0 1 (r * Real.sin t))) =
        ENNReal.ofReal (r * Real.exp (-(r ^ 2 / 2))) := by
      simp only [gaussianPDF]
      rw [← ENNReal.ofReal_mul (gaussianPDFReal_nonneg _ _ _), ← ENNReal.ofReal_mul hr'.le, ← ENNReal.ofReal_mul (by positivity)]
      congr 1
      simp only [gaussianPDFReal, NNReal.coe_one, mul_one, sub_zero]
      have hs : Real.sqrt (2 * Real.pi) ≠ 0 := (Real.sqrt_pos.2 (by positivity)).ne'
      have hss : Real.sqrt (2 * Real.pi) * Real.sqrt (2 * Real.pi) = 2 * Real.pi := Real.mul_self_sqrt (by positivity)
      have hexp : Real.exp (-(r * Real.cos t) ^ 2 / 2) * Real.exp (-(r * Real.sin t) ^ 2 / 2) = Real.exp (-(r ^ 2 / 2)) := by
        rw [← Real.exp_add]
        congr 1
        have := Real.sin_sq_add_cos_sq t
        linear_combination (-(r ^ 2) / 2) * this
      calc 2 * Real.pi * (r * ((Real.sqrt (2 * Real.pi))⁻¹ * Real.exp (-(r * Real.cos t) ^ 2 / 2) *
            ((Real.sqrt (2 * Real.pi))⁻¹ * Real.exp (-(r * Real.sin t) ^ 2 / 2))))
          = (2 * Real.pi) * (Real.sqrt (2 * Real.pi) * Real.sqrt (2 * Real.pi))⁻¹ * (r *
            (Real.exp (-(r * Real.cos t) ^ 2 / 2) * Real.exp (-(r * Real.sin t) ^ 2 / 2))) := by rw [mul_inv]; ring
        _ = r * Real.exp (-(r ^ 2 / 2)) := by rw [hss, hexp, mul_inv_cancel₀ (by positivity), one_mul]
    rw [smul_eq_mul, ← e3]
    ring
  rw [setLIntegral_congr_fun (measurableSet_Ioi.prod measurableSet_Ioo) e2, Measure.volume_eq_prod, ← Measure.prod_restrict, lintegral_prod_symm]
  · rfl
  · have := Real.measurable_cos
    have hm : Measurable (fun w : ℝ × ℝ => ENNReal.ofReal (w.1 * Real.exp (-(w.1 ^ 2 / 2))) * A.indicator 1 (w.1 * Real.cos w.2)) := by fun_prop
    exact hm.aemeasurable

/-- The rays repeat after a full turn. -/
theorem ray_turn (A : Set ℝ) (hA : MeasurableSet A) : ∫⁻ t in Ico (0 : ℝ) (2 * Real.pi), ray A t = ∫⁻ t in Ioo (-Real.pi) Real.pi, ray A t := by
  have hpi := Real.pi_pos
  have hper : ∀ t, ray A (t + 2 * Real.pi) = ray A t := fun t => by simp only [ray, Real.cos_add_two_pi]
  have hm := measurable_ray A hA
  have s1 : Ico (0 : ℝ) (2 * Real.pi) = Ico 0 Real.pi ∪ Ico Real.pi (2 * Real.pi) := (Ico_union_Ico_eq_Ico hpi.le (by linarith)).symm
  have s2 : Ico (-Real.pi) Real.pi = Ico (-Real.pi) 0 ∪ Ico 0 Real.pi := (Ico_union_Ico_eq_Ico (by linarith) hpi.le).symm
  have d1 : Disjoint (Ico (0 : ℝ) Real.pi) (Ico Real.pi (2 * Real.pi)) := Set.disjoint_left.2 fun t h1 h2 => absurd h1.2 (not_lt.2 h2.1)
  have d2 : Disjoint (Ico (-Real.pi) (0 : ℝ)) (Ico 0 Real.pi) := Set.disjoint_left.2 fun t h1 h2 => absurd h1.2 (not_lt.2 h2.1)
  have hshift : ∫⁻ t in Ico Real.pi (2 * Real.pi), ray A t = ∫⁻ t in Ico (-Real.pi) 0, ray A t := by
    rw [← lintegral_indicator measurableSet_Ico, ← lintegral_indicator measurableSet_Ico, ← lintegral_add_right_eq_self _ (2 * Real.pi)]
    refine lintegral_congr (fun t => ?_)
    by_cases ht : t ∈ Ico (-Real.pi) 0
    · have ht' : t + 2 * Real.pi ∈ Ico Real.pi (2 * Real.pi) := ⟨by linarith [ht.1], by linarith [ht.2]⟩
      rw [indicator_of_mem ht, indicator_of_mem ht', hper]
    · have ht' : t + 2 * Real.pi ∉ Ico Real.pi (2 * Real.pi) := fun hh => ht ⟨by linarith [hh.1], by linarith [hh.2]⟩
      rw [indicator_of_notMem ht, indicator_of_notMem ht']
  rw [s1, lintegral_union measurableSet_Ico d1, hshift, add_comm, ← lintegral_union measurableSet_Ico d2, ← s2]
  exact setLIntegral_congr Ioo_ae_eq_Ico.symm

/-- **C61 with the exact pi.** The formula maps two independent uniform numbers to a standard normal one. -/
theorem box_muller : boxMullerLaw Real.pi = gaussianReal 0 1 := by
  have hpi := Real.pi_pos
  ext A hA
  have h : ENNReal.ofReal (2 * Real.pi) * boxMullerLaw Real.pi A = ENNReal.ofReal (2 * Real.pi) * gaussianReal 0 1 A := by
    rw [boxMullerLaw_apply _ hpi A hA, normal_apply A hA, ray_turn A hA]
  exact (ENNReal.mul_right_inj (by simp [hpi]) ENNReal.ofReal_ne_top).1 h

/-- The law of the formula is a probability law. -/
theorem boxMullerLaw_prob (p : ℝ) : IsProbabilityMeasure (boxMullerLaw p) := by
  have hu : IsProbabilityMeasure unif := ⟨by simp [unif]⟩
  exact Measure.isProbabilityMeasure_map (measurable_boxMuller p).aemeasurable

/-- A number below pi in place of pi raises no probability by more than the factor `pi / p`. -/
theorem boxMuller_le (p : ℝ) (hp : 0 < p) (hpi : p ≤ Real.pi) (A : Set ℝ) (hA : MeasurableSet A) :
    (boxMullerLaw p).real A ≤ Real.pi / p * (gaussianReal 0 1).real A := by
  have hp1 := boxMullerLaw_prob p
  have h : ENNReal.ofReal (2 * p) * boxMullerLaw p A ≤ ENNReal.ofReal (2 * Real.pi) * gaussianReal 0 1 A := by
    rw [boxMullerLaw_apply p hp A hA, normal_apply A hA, ← ray_turn A hA]
    exact lintegral_mono_set (Ico_subset_Ico_right (by linarith))
  have h' := ENNReal.toReal_mono (ENNReal.mul_ne_top ENNReal.ofReal_ne_top (measure_ne_top _ _)) h
  rw [ENNReal.toReal_mul, ENNReal.toReal_mul, ENNReal.toReal_ofReal (by linarith), ENNReal.toReal_ofReal (by linarith)] at h'
  rw [div_mul_eq_mul_div, le_div_iff₀ hp]
  simp only [Measure.real]
  linarith

/-- Hence every probability is right up to `pi / p - 1`. -/
theorem boxMuller_close (p : ℝ) (hp : 0 < p) (hpi : p ≤ Real.pi) (A : Set ℝ) (hA : MeasurableSet A) :
    |(boxMullerLaw p).real A - (gaussianReal 0 1).real A| ≤ Real.pi / p - 1 := by
  have hp1 := boxMullerLaw_prob p
  have hle : 0 ≤ Real.pi / p - 1 := by
    have := (one_le_div hp).2 hpi
    linarith
  have key : ∀ B : Set ℝ, MeasurableSet B → (boxMullerLaw p).real B - (gaussianReal 0 1).real B ≤ Real.pi / p - 1 := by
    intro B hB
    have h1 := boxMuller_le p hp hpi B hB
    have h2 : (gaussianReal 0 1).real B ≤ 1 := measureReal_le_one
    nlinarith
  refine abs_le.2 ⟨?_, key A hA⟩
  have h := key Aᶜ hA.compl
  rw [probReal_compl_eq_one_sub hA, probReal_compl_eq_one_sub hA] at h
  linarith

theorem piLit_lt : (piLit : ℝ) < Real.pi := by
  rw [piLit_real]
  have := Real.pi_gt_d20
  norm_num at this ⊢
  linarith

/-- **C61 with the literal of the source, partial.** For two independent uniform numbers the number that `r8_normal_01` computes has every probability of the standard normal law
up to 1 in 10^16. Missing: equality of the laws, which `normal_not_exact` refutes for the decimal literal that the source uses for pi. -/
theorem normal_law_partial (A : Set ℝ) (hA : MeasurableSet A) :
    |(boxMullerLaw piLit).real A - (gaussianReal 0 1).real A| < 1 / 10 ^ 16 := by
  refine lt_of_le_of_lt (boxMuller_close piLit piLit_pos piLit_lt.le A hA) ?_
  rw [sub_lt_iff_lt_add, div_lt_iff₀ piLit_pos, piLit_real]
  have := Real.pi_lt_d20
  norm_num at this ⊢
  linarith

/-- The rays of the positive numbers. -/
theorem ray_pos (t : ℝ) : ray (Ioi 0) t = if 0 < Real.cos t then 1 else 0 := by
  have h1 : ∫⁻ r in Ioi (0 : ℝ), ENNReal.ofReal (r * Real.exp (-(r ^ 2 / 2))) = 1 := by
    have := radial (fun _ => 1)
    simp only [mul_one, lintegral_const, one_mul, Measure.restrict_apply MeasurableSet.univ, univ_inter, Real.volume_Ioo, sub_zero, ENNReal.ofReal_one] at this
    exact this.symm
  rw [ray]
  split
  · rename_i h
    rw [← h1]
    refine setLIntegral_congr_fun measurableSet_Ioi (fun r hr => ?_)
    have : r * Real.cos t ∈ Ioi (0 : ℝ) := mul_pos hr h
    simp [indicator_of_mem this]
  · rename_i h
    rw [setLIntegral_congr_fun (g := fun _ => 0) measurableSet_Ioi (fun r hr => ?_)]
    · simp
    · have : r * Real.cos t ∉ Ioi (0 : ℝ) := not_lt.2 (mul_nonpos_of_nonneg_of_nonpos (le_of_lt hr) (not_lt.1 h))
      simp [indicator_of_notMem this]

/-- With a number a little below pi the positive half line is missed by a part of the last turn. -/
theorem boxMuller_pos (p : ℝ) (hp : 3 * Real.pi / 4 ≤ p) (hpi : p ≤ Real.pi) :
    (boxMullerLaw p).real (Ioi 0) = (2 * p - Real.pi) / (2 * p) := by
  have hpi0 := Real.pi_pos
  have hp0 : 0 < p := by linarith
  have hset : ∀ t ∈ Ico (0 : ℝ) (2 * p), ray (Ioi 0) t = (Ico (0 : ℝ) (Real.pi / 2) ∪ Ioo (3 * Real.pi / 2) (2 * p)).indicator 1 t := by
    rintro t ⟨h0, h1⟩
    rw [ray_pos]
    by_cases ha : t < Real.pi / 2
    · rw [if_pos (Real.cos_pos_of_mem_Ioo ⟨by linarith, ha⟩), indicator_of_mem (mem_union_left _ (mem_Ico.2 ⟨h0, ha⟩))]; rfl
    · by_cases hb : 3 * Real.pi / 2 < t
      · have hc : 0 < Real.cos t := by
          rw [← Real.cos_sub_two_pi]
          exact Real.cos_pos_of_mem_Ioo ⟨by linarith, by linarith⟩
        rw [if_pos hc, indicator_of_mem (mem_union_right _ (mem_Ioo.2 ⟨hb, h1⟩))]; rfl
      · have hc : Real.cos t ≤ 0 := Real.cos_nonpos_of_pi_div_two_le_of_le (by linarith) (by linarith)
        rw [if_neg (not_lt.2 hc), indicator_of_notMem]
        rintro (h | h)
        · exact ha h.2
        · exact hb h.1
  have h := boxMullerLaw_apply p hp0 (Ioi 0) measurableSet_Ioi
  have hd : Disjoint (Ico (0 : ℝ) (Real.pi / 2)) (Ioo (3 * Real.pi / 2) (2 * p)) :=
    Set.disjoint_left.2 fun t h1 h2 => by linarith [h1.2, h2.1]
  have hsub : (Ico (0 : ℝ) (Real.pi / 2) ∪ Ioo (3 * Real.pi / 2) (2 * p)) ∩ Ico 0 (2 * p) = Ico (0 : ℝ) (Real.pi / 2) ∪ Ioo (3 * Real.pi / 2) (2 * p) := by
    refine inter_eq_left.2 ?_
    rintro t (h | h)
    · exact ⟨h.1, by linarith [h.2]⟩
    · exact ⟨by linarith [h.1], h.2⟩
  rw [setLIntegral_congr_fun measurableSet_Ico hset, lintegral_indicator_one (measurableSet_Ico.union measurableSet_Ioo),
    Measure.restrict_apply (measurableSet_Ico.union measurableSet_Ioo), hsub, measure_union hd measurableSet_Ioo, Real.volume_Ico, Real.volume_Ioo,
    ← ENNReal.ofReal_add (by linarith) (by linarith)] at h
  have h' := congrArg ENNReal.toReal h
  rw [ENNReal.toReal_mul, ENNReal.toReal_ofReal (by linarith), ENNReal.toReal_ofReal (by linarith)] at h'
  rw [_root_.eq_div_iff (by linarith)]
  simp only [Measure.real]
  linarith

/-- **C61 fails as an equality.** With the literal of the source a draw is positive with a probability below one half. -/
theorem normal_not_exact : (boxMullerLaw piLit).real (Ioi 0) < 1 / 2 ∧ (gaussianReal 0 1).real (Ioi 0) = 1 / 2 ∧ boxMullerLaw piLit ≠ gaussianReal 0 1 := by
  have hpi0 := Real.pi_pos
  have hl := piLit_pos
  have hlt := piLit_lt
  have h34 : 3 * Real.pi / 4 ≤ piLit := by
    rw [piLit_real]
    have := Real.pi_lt_d20
    norm_num at this ⊢
    linarith
  have h1 : (boxMullerLaw piLit).real (Ioi 0) < 1 / 2 := by
    rw [boxMuller_pos _ h34 hlt.le, div_lt_div_iff₀ (by linarith) (by norm_num)]
    linarith
  have h2 : (gaussianReal 0 1).real (Ioi 0) = 1 / 2 := by
    rw [← box_muller, boxMuller_pos _ (by linarith) le_rfl]
    field_simp
    norm_num
  exact ⟨h1, h2, fun e => by rw [e, h2] at h1; exact lt_irrefl _ h1⟩

/-- The step law of `r8_normal_ab`: the mean plus the width times the number above. -/
noncomputable def stepLaw (p a b : ℝ) : Measure ℝ := (boxMullerLaw p).map (fun z => a + b * z)

theorem normalAb_step (a b : ℝ) (g : Rng) : (r8NormalAb (F := ℝ) a b g).1 = a + b * (r8Normal01 (F := ℝ) g).1 := by
  simp [r8NormalAb]

/-- With the exact pi a step of width `b` from `a` has the normal law of mean `a` and variance `b ^ 2`. -/
theorem step_law (a b : ℝ) : stepLaw Real.pi a b = gaussianReal a ⟨b ^ 2, sq_nonneg b⟩ := by
  have e : (fun z : ℝ => a + b * z) = (fun y => a + y) ∘ (fun z => b * z) := rfl
  rw [stepLaw, box_muller, e, ← Measure.map_map (measurable_const_add a) (measurable_const_mul b), gaussianReal_map_const_mul, gaussianReal_map_const_add]
  simp
  rfl

/-- **C61 for steps, partial**, in the same sense as `normal_law_partial`. -/
theorem step_law_partial (a b : ℝ) (A : Set ℝ) (hA : MeasurableSet A) :
    |(stepLaw piLit a b).real A - (gaussianReal a ⟨b ^ 2, sq_nonneg b⟩).real A| < 1 / 10 ^ 16 := by
  have hm : Measurable (fun z : ℝ => a + b * z) := by fun_prop
  rw [← step_law, stepLaw, stepLaw, box_muller, map_measureReal_apply hm hA, map_measureReal_apply hm hA]
  exact normal_law_partial _ (hm hA)

example : |(stepLaw piLit 10 2).real (Set.Ici 12) - (gaussianReal 10 ⟨2 ^ 2, sq_nonneg 2⟩).real (Set.Ici 12)| < 1 / 10 ^ 16 :=
  step_law_partial 10 2 _ measurableSet_Ici

/-- The formula is bounded away from the draw 0. -/
theorem boxMuller_bound (p u v : ℝ) (hu : 1 / 2 ^ 48 ≤ u) : |boxMuller p u v| ≤ Real.sqrt (96 * Real.log 2) := by
  have h0 : (0 : ℝ) < 1 / 2 ^ 48 := by norm_num
  have hl : -(48 * Real.log 2) ≤ Real.log u := by
    have := Real.log_le_log h0 hu
    rw [one_div, Real.log_inv, Real.log_pow] at this
    exact_mod_cast this
  rw [boxMuller, abs_mul, abs_of_nonneg (Real.sqrt_nonneg _)]
  calc _ ≤ Real.sqrt (-2 * Real.log u) * 1 := mul_le_mul_of_nonneg_left (Real.abs_cos_le_one _) (Real.sqrt_nonneg _)
    _ ≤ _ := by rw [mul_one]; exact Real.sqrt_le_sqrt (by linarith)

/-- **C61, size of a draw.** Every draw but those that start from the generator state before 0 is smaller than `sqrt (96 log 2)`, about 8.16, so no step of a chain is longer than this
number times the width. -/
theorem normal_bounded (g : Rng) (h : lcgNext g ≠ 0) : |(r8Normal01 (F := ℝ) g).1| ≤ Real.sqrt (96 * Real.log 2) := by
  rw [normal01_boxMuller]
  refine boxMuller_bound _ _ _ ?_
  have h1 : (1 : ℝ) ≤ (lcgNext g : ℕ) := by exact_mod_cast Nat.one_le_iff_ne_zero.2 h
  have e : (drand48 (F := ℝ) g).1 = (lcgNext g : ℕ) / 2 ^ 48 := by
    have hm : ((lcgM : ℕ) : ℝ) = 2 ^ 48 := by rw [lcgM]; norm_num
    simp only [drand48_posix, RealArith.lit_eq, hm]
    norm_num
  rw [e]
  exact div_le_div_of_nonneg_right h1 (by positivity)

example : |(r8Normal01 (F := ℝ) 0).1| ≤ Real.sqrt (96 * Real.log 2) := normal_bounded 0 (by decide)

open Dbl in
/-- **C61 fails at one state of the generator.** Started from it, `drand48` returns 0, its logarithm is minus infinity and the draw is plus infinity. -/
theorem normal_infinite : (r8Normal01 (F := XReal) zeroDraw).1 = pinf := by
  have hz : lcgNext zeroDraw = 0 := by decide
  have h0 : lcgNext 0 = 11 := by decide
  have h1 : (drand48 (F := XReal) zeroDraw).1 = fin 0 := by
    simp [drand48_posix, hz]
  have hlog : Arith.log (fin 0 : XReal) = ninf := (if_neg (lt_irrefl (0 : ℝ))).trans (if_pos rfl)
  have hmul : (ofI (-2) *. ninf : XReal) = pinf := by
    rw [XReal.ofI_eq]
    show infSign (-((-2 : Int) : ℝ)) = XV.pinf
    exact if_pos (by norm_num)
  have hsqrt : Arith.sqrt (pinf : XReal) = pinf := rfl
  have hcos : 0 < Real.cos ((2 : Int) * ((3141592653589793 : Int) / (1000000000000000 : ℕ)) * ((11 : Int) / (lcgM : ℕ))) := by
    have hm : ((lcgM : ℕ) : ℝ) = 281474976710656 := by rw [lcgM]; norm_num
    rw [hm]
    have := Real.pi_gt_three
    refine Real.cos_pos_of_mem_Ioo ⟨?_, ?_⟩ <;> norm_num <;> linarith
  have hfin : ∀ c : ℝ, 0 < c → (pinf *. fin c : XReal) = pinf := fun c hc => if_pos hc
  have e : (r8Normal01 (F := XReal) zeroDraw).1 = pinf *. fin (Real.cos ((2 : Int) * ((3141592653589793 : Int) / (1000000000000000 : ℕ)) * ((11 : Int) / (lcgM : ℕ)))) := by
    have e2 : (drand48 (F := XReal) zeroDraw).2 = 0 := hz
    have e3 : (drand48 (F := XReal) 0).1 = fin ((11 : Int) / (lcgM : ℕ)) := by
      simp only [drand48_posix, h0, XReal.lit_eq]; rfl
    show Arith.sqrt (ofI (-2) *. Arith.log (drand48 (F := XReal) zeroDraw).1) *. Arith.cos (ofI 2 *. Arith.lit 3141592653589793 1000000000000000 *.
      (drand48 (F := XReal) (drand48 (F := XReal) zeroDraw).2).1) = _
    rw [h1, hlog, hmul, hsqrt, e2, e3]
    simp only [XReal.ofI_eq, XReal.lit_eq, XReal.mul_eq]
    rfl
  rw [e, hfin _ hcos]

end NiiC
