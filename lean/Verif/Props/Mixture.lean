import Verif.Props.Converge
import Verif.Props.Likelihood

/-!
# What the model multi_gaussian samples: C100

`value_calc` of models/multi_gaussian returns the density of the mixture itself. The sampler takes it for the logarithm of a likelihood.
-/

set_option linter.unusedSimpArgs false

namespace NiiC

open MeasureTheory ProbabilityTheory Set ENNReal NNReal

/-- One normal bump of the mixture. -/
noncomputable def Spec.bump (c : ℝ) (x : Fin 2 → ℝ) : ℝ := Real.exp (-(x 0 - c) ^ 2 / 2) * Real.exp (-(x 1 - c) ^ 2 / 2)

/-- The mixture of two normal densities of width 1 around (10, 10) and (-10, -10), up to a factor. -/
noncomputable def Spec.mixture (x : Fin 2 → ℝ) : ℝ := Spec.bump 10 x + Spec.bump (-10) x

theorem gauss2_real (c a b : ℝ) : gauss2 c c 1 a b = Real.exp (-(a - c) ^ 2 / 2) * Real.exp (-(b - c) ^ 2 / 2) := by
  rw [← Real.exp_add]
  simp only [gauss2, RealArith.exp_eq, RealArith.neg_eq, RealArith.add_eq, RealArith.div_eq, RealArith.pow_eq, RealArith.sub_eq, RealArith.ofI_eq, Int.cast_ofNat]
  congr 1
  rw [Real.rpow_two, Real.rpow_two, Real.rpow_two]
  ring

theorem multi_value (x : Fin 2 → ℝ) : multiGaussianValue (x 0) (x 1) = Spec.mixture x := by
  have h1 := gauss2_real 10 (x 0) (x 1)
  have h2 := gauss2_real (-10) (x 0) (x 1)
  simp only [multiGaussianValue, RealArith.add_eq, RealArith.ofI_eq, Int.cast_ofNat, Int.cast_neg, Int.cast_one, h1, h2]
  rfl

theorem measurable_bump (c : ℝ) : Measurable (Spec.bump c) := by unfold Spec.bump; fun_prop

theorem measurable_mixture : Measurable Spec.mixture := (measurable_bump _).add (measurable_bump _)

/-- The likelihood of models/multi_gaussian and its constant prior. -/
noncomputable def multiTarget : Target 2 where
  L x := multiGaussianValue (x 0) (x 1)
  Pr _ := 0
  hL := by simp only [multi_value]; exact measurable_mixture
  hP := measurable_const

/-- This is what the program computes for the model. -/
theorem multi_target (bounds : List (ℝ × ℝ)) (ndim nline : Int) (data : List ℝ) (b : ℝ) (x : Fin 2 → ℝ) :
    Spec.target (multiGaussian.user bounds ndim) nline data b (List.ofFn x) = multiTarget.lp b x := by
  simp [Spec.target, multiGaussian, model2, Model.user, multiTarget, Target.lp, logll2, mul_comm]

/-- The log-posterior is beta times the density of the mixture. -/
theorem multi_lp (b : ℝ) (x : Fin 2 → ℝ) : multiTarget.lp b x = b * Spec.mixture x := by
  simp [Target.lp, multiTarget, multi_value]

theorem bump_pos (c : ℝ) (x : Fin 2 → ℝ) : 0 < Spec.bump c x := by
  unfold Spec.bump
  positivity

theorem mixture_pos (x : Fin 2 → ℝ) : 0 < Spec.mixture x := by
  exact add_pos (bump_pos _ x) (bump_pos _ x)

theorem bump_le_one (c : ℝ) (x : Fin 2 → ℝ) : Spec.bump c x ≤ 1 := by
  have h : ∀ y : ℝ, Real.exp (-y ^ 2 / 2) ≤ 1 := fun y => Real.exp_le_one_iff.2 (by nlinarith [sq_nonneg y])
  exact mul_le_one₀ (h _) (Real.exp_pos _).le (h _)

/-- At most one of the two bumps counts. -/
theorem mixture_le (x : Fin 2 → ℝ) : Spec.mixture x ≤ 101 / 100 := by
  have e : Real.exp (-50 : ℝ) ≤ 1 / 100 := by
    have : (100 : ℝ) ≤ Real.exp 50 := by
      have := Real.add_one_le_exp (50 : ℝ)
      have h2 : Real.exp 50 = Real.exp 25 * Real.exp 25 := by rw [← Real.exp_add]; norm_num
      have h3 := Real.add_one_le_exp (25 : ℝ)
      nlinarith
    rw [Real.exp_neg, one_div]
    exact inv_anti₀ (by norm_num) this
  have hb : ∀ c, Spec.bump c x = Real.exp (-((x 0 - c) ^ 2 + (x 1 - c) ^ 2) / 2) := by
    intro c
    rw [Spec.bump, ← Real.exp_add]
    congr 1
    ring
  by_cases h : 100 ≤ (x 0 - 10) ^ 2 + (x 1 - 10) ^ 2
  · have h1 : Spec.bump 10 x ≤ 1 / 100 := by
      rw [hb]
      exact (Real.exp_le_exp.2 (by linarith)).trans e
    have := bump_le_one (-10) x
    rw [Spec.mixture]
    linarith
  · have h1 : Spec.bump (-10) x ≤ 1 / 100 := by
      rw [hb]
      refine (Real.exp_le_exp.2 ?_).trans e
      nlinarith [sq_nonneg (x 0), sq_nonneg (x 1)]
    have := bump_le_one 10 x
    rw [Spec.mixture]
    linarith

/-- **C100.** At every inverse temperature `b` the target of the chains has a density between 1 and exp(1.01 b) times that of the flat law: on no set does it differ more from the flat one. -/
theorem multi_flat (lo hi : Fin 2 → ℝ) (b : ℝ) (hb : 0 ≤ b) (A : Set (Fin 2 → ℝ)) (hA : MeasurableSet A) :
    volume (A ∩ openBox lo hi) ≤ posterior (volume.restrict (openBox lo hi)) (multiTarget.lp b) A ∧
    posterior (volume.restrict (openBox lo hi)) (multiTarget.lp b) A ≤ ENNReal.ofReal (Real.exp (101 / 100 * b)) * volume (A ∩ openBox lo hi) := by
  have hr : volume (A ∩ openBox lo hi) = ∫⁻ _ in A, 1 ∂(volume.restrict (openBox lo hi)) := by
    rw [lintegral_one, Measure.restrict_apply_univ, Measure.restrict_apply hA]
  rw [posterior, withDensity_apply _ hA, hr, ← lintegral_const_mul _ measurable_const]
  constructor
  · refine lintegral_mono fun x => ?_
    rw [dens, ← ENNReal.ofReal_one]
    refine ENNReal.ofReal_le_ofReal (Real.one_le_exp ?_)
    rw [multi_lp]
    exact mul_nonneg hb (mixture_pos x).le
  · refine lintegral_mono fun x => ?_
    rw [mul_one, dens]
    refine ENNReal.ofReal_le_ofReal (Real.exp_le_exp.2 ?_)
    rw [multi_lp, mul_comm]
    exact mul_le_mul_of_nonneg_right (mixture_le x) hb

/-! ## The sample configuration -/

/-- The points within 4 of one of the two peaks, in each coordinate. -/
def peaks : Set (Fin 2 → ℝ) := (univ.pi fun _ => Icc 6 14) ∪ (univ.pi fun _ => Icc (-14) (-6))

theorem measurableSet_peaks : MeasurableSet peaks :=
  (MeasurableSet.univ_pi fun _ => measurableSet_Icc).union (MeasurableSet.univ_pi fun _ => measurableSet_Icc)

theorem volume_peaks : volume peaks ≤ 128 := by
  have h : ∀ a b : ℝ, b - a = 8 → volume (univ.pi fun _ : Fin 2 => Icc a b) = 64 := by
    intro a b hab
    rw [volume_pi_pi]
    simp only [Real.volume_Icc, hab, Finset.prod_const, Finset.card_univ, Fintype.card_fin]
    rw [← ENNReal.ofReal_pow (by norm_num)]
    norm_num
  refine (measure_union_le _ _).trans ?_
  rw [h _ _ (by norm_num), h _ _ (by norm_num)]
  norm_num

/-- The box of the sample configuration, models/multi_gaussian/input.ini:71-74. -/
def multiBox : Set (Fin 2 → ℝ) := openBox (fun _ => -30) fun _ => 30

theorem volume_multiBox : volume multiBox = 3600 := by
  rw [multiBox, openBox, volume_pi_pi]
  simp only [Real.volume_Ioo, Finset.prod_const, Finset.card_univ, Fintype.card_fin]
  rw [← ENNReal.ofReal_pow (by norm_num)]
  norm_num

/-- **C100, sample configuration.** At no inverse temperature up to 1 does the target of a chain have more than a tenth of its mass near the peaks. -/
theorem multi_peaks (b : ℝ) (hb : 0 ≤ b) (h1 : b ≤ 1) :
    (posterior (volume.restrict multiBox) (multiTarget.lp b)).real peaks / (posterior (volume.restrict multiBox) (multiTarget.lp b)).real univ ≤ 1 / 10 := by
  have hu := multi_flat (fun _ => -30) (fun _ => 30) b hb univ MeasurableSet.univ
  have hp := (multi_flat (fun _ => -30) (fun _ => 30) b hb peaks measurableSet_peaks).2
  rw [univ_inter] at hu
  change volume multiBox ≤ posterior (volume.restrict multiBox) _ _ ∧ posterior (volume.restrict multiBox) _ _ ≤ _ * volume multiBox at hu
  change posterior (volume.restrict multiBox) _ _ ≤ _ * volume (peaks ∩ multiBox) at hp
  rw [volume_multiBox] at hu
  have hfin : posterior (volume.restrict multiBox) (multiTarget.lp b) univ ≠ ∞ := ne_top_of_le_ne_top (by finiteness) hu.2
  have he : Real.exp (101 / 100 * b) ≤ 11 / 4 := by
    have e1 : Real.exp (101 / 100 * b) ≤ Real.exp (101 / 100) := Real.exp_le_exp.2 (by linarith)
    have e2 : Real.exp (101 / 100 : ℝ) = Real.exp 1 * Real.exp (1 / 100) := by rw [← Real.exp_add]; norm_num
    have e3 : Real.exp (1 / 100 : ℝ) ≤ 100 / 99 := by
      have := Real.add_one_le_exp (-(1 / 100) : ℝ)
      rw [Real.exp_neg] at this
      have hp := Real.exp_pos (1 / 100 : ℝ)
      rw [le_inv_comm₀ (by norm_num) hp] at this
      exact this.trans (by norm_num)
    have e4 := Real.exp_one_lt_d9
    have := Real.exp_pos (1 : ℝ)
    nlinarith
  have hden : 3600 ≤ (posterior (volume.restrict multiBox) (multiTarget.lp b)).real univ := by
    have := (ENNReal.toReal_le_toReal (by norm_num) hfin).2 hu.1
    simpa [Measure.real] using this
  have hnum : (posterior (volume.restrict multiBox) (multiTarget.lp b)).real peaks ≤ 352 := by
    have h2 : posterior (volume.restrict multiBox) (multiTarget.lp b) peaks ≤ ENNReal.ofReal 352 := by
      refine hp.trans ?_
      calc _ ≤ ENNReal.ofReal (11 / 4) * 128 := by
            gcongr
            exact (measure_mono inter_subset_left).trans volume_peaks
        _ = ENNReal.ofReal 352 := by
            rw [show (128 : ℝ≥0∞) = ENNReal.ofReal 128 by norm_num, ← ENNReal.ofReal_mul (by norm_num)]
            norm_num
    exact ENNReal.toReal_le_of_le_ofReal (by norm_num) h2
  rw [div_le_iff₀ (by linarith)]
  linarith

/-! ## The mixture itself -/

theorem bump_integral (c : ℝ) (s : Set ℝ) (hs : MeasurableSet s) :
    ∫⁻ x in univ.pi fun _ : Fin 2 => s, ENNReal.ofReal (Spec.bump c x) = ENNReal.ofReal (2 * Real.pi) * (gaussianReal c 1 s) ^ 2 := by
  have h1 : ∫⁻ y in s, ENNReal.ofReal (Real.exp (-(y - c) ^ 2 / 2)) = ENNReal.ofReal (Real.sqrt (2 * Real.pi)) * gaussianReal c 1 s := by
    rw [gaussianReal_apply c one_ne_zero, ← lintegral_const_mul _ (by fun_prop)]
    refine lintegral_congr fun y => ?_
    have hq : 0 < Real.sqrt (2 * Real.pi) := by positivity
    rw [gaussianPDF, ← ENNReal.ofReal_mul hq.le, gaussianPDFReal]
    congr 1
    simp only [NNReal.coe_one, mul_one]
    rw [← mul_assoc, mul_inv_cancel₀ hq.ne', one_mul]
  have hpre : (univ.pi fun _ : Fin 2 => s) = MeasurableEquiv.finTwoArrow ⁻¹' (s ×ˢ s) := by
    ext x
    simp [MeasurableEquiv.finTwoArrow, Fin.forall_fin_two]
  have hf : (fun x : Fin 2 → ℝ => ENNReal.ofReal (Spec.bump c x)) = fun x =>
      (fun z : ℝ × ℝ => ENNReal.ofReal (Real.exp (-(z.1 - c) ^ 2 / 2)) * ENNReal.ofReal (Real.exp (-(z.2 - c) ^ 2 / 2))) (MeasurableEquiv.finTwoArrow x) := by
    funext x
    rw [Spec.bump, ENNReal.ofReal_mul (Real.exp_pos _).le]
    rfl
  rw [hpre, hf]
  refine ((volume_preserving_finTwoArrow ℝ).setLIntegral_comp_preimage (hs.prod hs)
    (f := fun z : ℝ × ℝ => ENNReal.ofReal (Real.exp (-(z.1 - c) ^ 2 / 2)) * ENNReal.ofReal (Real.exp (-(z.2 - c) ^ 2 / 2))) (by fun_prop)).trans ?_
  rw [Measure.volume_eq_prod, ← Measure.prod_restrict, lintegral_prod_mul (f := fun y => ENNReal.ofReal (Real.exp (-(y - c) ^ 2 / 2)))
      (g := fun y => ENNReal.ofReal (Real.exp (-(y - c) ^ 2 / 2))) (by fun_prop) (by fun_prop), h1]
  rw [show (2 * Real.pi) = Real.sqrt (2 * Real.pi) * Real.sqrt (2 * Real.pi) from (Real.mul_self_sqrt (by positivity)).symm,
    ENNReal.ofReal_mul (Real.sqrt_nonneg _), Real.sqrt_mul_self (Real.sqrt_nonneg _)]
  ring

/-- A normal variable is within 4 of its centre with probability at least 0.999. -/
theorem normal_four (c : ℝ) : 999 / 1000 ≤ (gaussianReal c 1).real (Icc (c - 4) (c + 4)) := by
  have hm := gaussianReal_map_add_const (μ := 0) (v := 1) c
  rw [zero_add] at hm
  have ht := tail_le 0 4 (by norm_num) 1 one_ne_zero
  have e : 2 * Real.exp (-(((4 : ℝ) - 0) / ((1 : ℝ≥0) : ℝ)) ^ 2 / 2) ≤ 1 / 1000 := by
    have h2 : (2000 : ℝ) ≤ Real.exp 8 := by
      have h3 : Real.exp 8 = Real.exp 1 ^ 8 := by rw [← Real.exp_nat_mul]; norm_num
      have h4 : (27 / 10 : ℝ) ^ 8 ≤ Real.exp 1 ^ 8 := pow_le_pow_left₀ (by norm_num) (by linarith [Real.exp_one_gt_d9]) 8
      rw [h3]
      exact le_trans (by norm_num) h4
    have h5 : Real.exp (-8 : ℝ) ≤ 1 / 2000 := by
      rw [Real.exp_neg, one_div]
      exact inv_anti₀ (by norm_num) h2
    norm_num
    linarith
  have hset : (fun y : ℝ => y + c) ⁻¹' (Icc (c - 4) (c + 4))ᶜ ⊆ {z : ℝ | 4 - 0 ≤ |z| * ((1 : ℝ≥0) : ℝ)} := by
    intro y hy
    simp only [mem_preimage, mem_compl_iff, mem_Icc, not_and_or, not_le] at hy
    simp only [mem_ofPred_eq, NNReal.coe_one, mul_one, sub_zero]
    rcases hy with h | h
    · exact le_trans (by linarith) (neg_le_abs y)
    · exact le_trans (by linarith) (le_abs_self y)
  have hc : (gaussianReal c 1).real (Icc (c - 4) (c + 4))ᶜ ≤ 1 / 1000 := by
    rw [← hm, map_measureReal_apply (by fun_prop) measurableSet_Icc.compl]
    refine (measureReal_mono hset).trans (ht.trans ?_)
    rwa [neg_div] at e
  rw [probReal_compl_eq_one_sub measurableSet_Icc] at hc
  linarith

/-- **C100, the other side.** The mixture, cut to the same box, has at least 99 hundredths of its mass near the peaks. -/
theorem mixture_peaks :
    99 / 100 ≤ (posterior (volume.restrict multiBox) fun x => Real.log (Spec.mixture x)).real peaks /
      (posterior (volume.restrict multiBox) fun x => Real.log (Spec.mixture x)).real univ := by
  set ν := posterior (volume.restrict multiBox) fun x => Real.log (Spec.mixture x) with hν
  set P := univ.pi fun _ : Fin 2 => Icc (6 : ℝ) 14 with hP
  set Q := univ.pi fun _ : Fin 2 => Icc (-14 : ℝ) (-6) with hQ
  have hPm : MeasurableSet P := MeasurableSet.univ_pi fun _ => measurableSet_Icc
  have hQm : MeasurableSet Q := MeasurableSet.univ_pi fun _ => measurableSet_Icc
  have happ : ∀ A, MeasurableSet A → ν A = ∫⁻ x in A ∩ multiBox, ENNReal.ofReal (Spec.mixture x) := by
    intro A hA
    rw [hν, posterior, withDensity_apply _ hA, Measure.restrict_restrict hA]
    refine lintegral_congr fun x => ?_
    rw [dens, Real.exp_log (mixture_pos x)]
  have hK : 0 < 2 * Real.pi := by positivity
  have hsub : peaks ⊆ multiBox := by
    rintro x (hx | hx) i hi
    · have := hx i hi
      exact ⟨by linarith [this.1], by linarith [this.2]⟩
    · have := hx i hi
      exact ⟨by linarith [this.1], by linarith [this.2]⟩
  have hdis : Disjoint P Q := by
    rw [Set.disjoint_left]
    intro x h1 h2
    have a := (h1 0 trivial).1
    have b := (h2 0 trivial).2
    linarith
  have htop : ν univ ≤ ENNReal.ofReal (2 * (2 * Real.pi)) := by
    rw [happ _ MeasurableSet.univ]
    refine (lintegral_mono_set (subset_univ _)).trans ?_
    have hall : ∀ c, ∫⁻ x in univ, ENNReal.ofReal (Spec.bump c x) = ENNReal.ofReal (2 * Real.pi) := by
      intro c
      have := bump_integral c univ MeasurableSet.univ
      rwa [pi_univ, measure_univ, one_pow, mul_one] at this
    have hadd : ∀ x, ENNReal.ofReal (Spec.mixture x) = ENNReal.ofReal (Spec.bump 10 x) + ENNReal.ofReal (Spec.bump (-10) x) := fun x =>
      ENNReal.ofReal_add (bump_pos _ x).le (bump_pos _ x).le
    simp only [hadd]
    rw [lintegral_add_left (measurable_bump _).ennreal_ofReal, hall, hall, ← ENNReal.ofReal_add hK.le hK.le]
    exact ENNReal.ofReal_le_ofReal (by linarith)
  have hsq : ∀ c : ℝ, ENNReal.ofReal (2 * Real.pi * (999 / 1000) ^ 2) ≤ ∫⁻ x in univ.pi fun _ : Fin 2 => Icc (c - 4) (c + 4), ENNReal.ofReal (Spec.bump c x) := by
    intro c
    rw [bump_integral c _ measurableSet_Icc, ENNReal.ofReal_mul hK.le, ENNReal.ofReal_pow (by norm_num)]
    gcongr
    rw [← ofReal_measureReal]
    exact ENNReal.ofReal_le_ofReal (normal_four c)
  have hlow : ENNReal.ofReal (2 * (2 * Real.pi * (999 / 1000) ^ 2)) ≤ ν peaks := by
    rw [happ _ measurableSet_peaks, inter_eq_left.2 hsub, peaks, lintegral_union hQm hdis, two_mul, ENNReal.ofReal_add (by positivity) (by positivity)]
    have h10 := hsq 10
    have h20 := hsq (-10)
    norm_num only at h10 h20 ⊢
    refine add_le_add (h10.trans (lintegral_mono fun x => ?_)) (h20.trans (lintegral_mono fun x => ?_))
    · exact ENNReal.ofReal_le_ofReal (le_add_of_nonneg_right (bump_pos _ x).le)
    · exact ENNReal.ofReal_le_ofReal (le_add_of_nonneg_left (bump_pos _ x).le)
  have hfin : ν univ ≠ ∞ := ne_top_of_le_ne_top ENNReal.ofReal_ne_top htop
  have hpf : ν peaks ≠ ∞ := ne_top_of_le_ne_top hfin (measure_mono (subset_univ _))
  have h1 : ν.real univ ≤ 2 * (2 * Real.pi) := ENNReal.toReal_le_of_le_ofReal (by positivity) htop
  have h2 : 2 * (2 * Real.pi * (999 / 1000) ^ 2) ≤ ν.real peaks := (ENNReal.ofReal_le_iff_le_toReal hpf).1 hlow
  have h3 : ν.real peaks ≤ ν.real univ := ENNReal.toReal_mono hfin (measure_mono (subset_univ _))
  rw [le_div_iff₀ (by nlinarith)]
  nlinarith

/-! ## What the chains do -/

theorem multi_varies (lo hi : Fin 2 → ℝ) (b : ℝ) (h0 : 0 ≤ b) : Varies lo hi (multiTarget.lp b) (101 / 100 * b) := by
  intro x _ y _
  rw [multi_lp, multi_lp]
  nlinarith [mixture_pos x, mixture_le y]

/-- The share of one chain under the product of the posteriors is its share under its own posterior. -/
theorem joint_share {n d : Nat} (T : Target d) (lo hi : Fin d → ℝ) (beta : Fin n → ℝ) (hz : joint T lo hi beta univ ≠ 0) (ht : joint T lo hi beta univ ≠ ∞)
    (r : Fin n) (A : Set (Fin d → ℝ)) :
    (joint T lo hi beta).real {x | x r ∈ A} / (joint T lo hi beta).real univ =
      (posterior (volume.restrict (openBox lo hi)) (T.lp (beta r))).real A / (posterior (volume.restrict (openBox lo hi)) (T.lp (beta r))).real univ := by
  classical
  have hsf : ∀ r, SigmaFinite (posterior (volume.restrict (openBox lo hi)) (T.lp (beta r))) := fun r => SigmaFinite.withDensity_ofReal _
  have hset : {x : Fin n → Fin d → ℝ | x r ∈ A} = univ.pi (Function.update (fun _ => univ) r A) := by
    ext x
    simp only [mem_ofPred_eq, mem_pi, mem_univ, true_imp_iff]
    constructor
    · intro h q
      by_cases hq : q = r
      · subst hq; simpa using h
      · simp [Function.update_of_ne hq]
    · intro h
      simpa using h r
  rw [← joint_pi, Measure.pi_univ] at hz
  rw [measureReal_def, measureReal_def, measureReal_def, measureReal_def, ← joint_pi, hset, Measure.pi_pi, Measure.pi_univ, ENNReal.toReal_prod, ENNReal.toReal_prod,
    ← Finset.mul_prod_erase _ _ (Finset.mem_univ r), ← Finset.mul_prod_erase Finset.univ (fun i => (posterior _ (T.lp (beta i)) univ).toReal) (Finset.mem_univ r),
    Function.update_self]
  rw [← joint_pi, Measure.pi_univ] at ht
  have hrest : ∀ q ∈ Finset.univ.erase r, (posterior (volume.restrict (openBox lo hi)) (T.lp (beta q)) (Function.update (fun _ => univ) r A q)).toReal =
      (posterior (volume.restrict (openBox lo hi)) (T.lp (beta q)) univ).toReal := fun q hq => by
    rw [Function.update_of_ne (Finset.ne_of_mem_erase hq)]
  rw [Finset.prod_congr rfl hrest]
  have hne : ∀ q, posterior (volume.restrict (openBox lo hi)) (T.lp (beta q)) univ ≠ 0 := fun q => Finset.prod_ne_zero_iff.1 hz q (Finset.mem_univ q)
  have hfin : ∀ q, posterior (volume.restrict (openBox lo hi)) (T.lp (beta q)) univ ≠ ∞ := fun q hq => ht (by
    rw [← Finset.mul_prod_erase _ _ (Finset.mem_univ q), hq, ENNReal.top_mul (Finset.prod_ne_zero_iff.2 fun p _ => hne p)])
  exact mul_div_mul_right _ _ (Finset.prod_ne_zero_iff.2 fun q _ => ENNReal.toReal_ne_zero.2 ⟨hne q, hfin q⟩)

/-- **C100, the chains.** Five chains in the sample box, any positive widths up to the largest the sample input allows, any inverse temperatures up to 1: the
probability that a chain is near the peaks is at most a tenth, plus what remains of the start and of the deviations of C75. -/
theorem multi_chains (s : Fin 5 → Fin 2 → ℝ≥0) (hs : ∀ r i, s r i ≠ 0) (hw : ∀ r i, (s r i : ℝ) ≤ 12) (beta : Fin 5 → ℝ) (hb : ∀ r, 0 ≤ beta r) (h1 : ∀ r, beta r ≤ 1) :
    ∃ c : ℝ, 0 < c ∧ c ≤ 1 ∧ ∀ (l : List (Move 5)) (_ : Apart l) (x : Fin 5 → Fin 2 → ℝ) (_ : ∀ r i, -30 ≤ x r i ∧ x r i ≤ 30) (r : Fin 5),
      (lawAfter multiTarget (fun _ => -30) (fun _ => 30) s beta l (Measure.dirac x)).real {y | y r ∈ peaks} ≤
        1 / 10 + (1 - c) ^ iters l + 76 / 10 ^ 6 * ∑ j ∈ Finset.range (iters l), (1 - c) ^ j := by
  have h : ∀ i : Fin 2, (fun _ => (-30 : ℝ)) i < (fun _ => (30 : ℝ)) i := fun _ => by norm_num
  have hv := fun r => multi_varies (fun _ => -30) (fun _ => 30) (beta r) (hb r)
  obtain ⟨g1, g2, -⟩ := start_forgotten multiTarget _ _ h s hs beta _ hv
  refine ⟨_, g1, g2, fun l hl x hx r => ?_⟩
  have hP : ∀ᵐ y ∂(Measure.dirac x), y ∈ tableBox (fun _ => (-30 : ℝ)) (fun _ => 30) := by
    exact (ae_dirac_iff (p := fun y => y ∈ tableBox (fun _ => (-30 : ℝ)) (fun _ => 30)) (measurableSet_tableBox _ _)).2 fun r _ i _ => hx r i
  have hA : MeasurableSet {y : Fin 5 → Fin 2 → ℝ | y r ∈ peaks} := measurable_pi_apply r measurableSet_peaks
  have hc := (abs_le.1 (sampler_converges multiTarget _ _ h s hs beta _ hv l hl (Measure.dirac x) hP _ hA)).2
  obtain ⟨hz, ht⟩ := joint_mass multiTarget _ _ h beta _ hv
  rw [joint_share multiTarget _ _ beta hz ht r peaks] at hc
  have hp := multi_peaks (beta r) (hb r) (h1 r)
  rw [multiBox] at hp
  have hsum : ∑ r : Fin 5, ∑ i : Fin 2, ((tail ((fun _ => (-30 : ℝ)) i) ((fun _ => (30 : ℝ)) i) (s r i)).toReal + 1 / 10 ^ 16) ≤ 76 / 10 ^ 6 := by
    have ht : ∀ r i, (tail ((fun _ : Fin 2 => (-30 : ℝ)) i) ((fun _ => (30 : ℝ)) i) (s r i)).toReal + 1 / 10 ^ 16 ≤ 75 / 10 ^ 7 + 1 / 10 ^ 16 := fun r i => by
      have := tail_fifth (-30) 30 (by norm_num) (s r i) (hs r i) (by have := hw r i; linarith)
      linarith
    calc _ ≤ ∑ r : Fin 5, ∑ i : Fin 2, ((75 : ℝ) / 10 ^ 7 + 1 / 10 ^ 16) := Finset.sum_le_sum fun r _ => Finset.sum_le_sum fun i _ => ht r i
      _ ≤ _ := by norm_num
  have hnn : 0 ≤ ∑ j ∈ Finset.range (iters l), (1 - (gain (fun _ => -30) (fun _ => 30) s fun r => 101 / 100 * beta r).toReal) ^ j :=
    Finset.sum_nonneg fun j _ => pow_nonneg (by linarith) j
  have := mul_le_mul_of_nonneg_right hsum hnn
  linarith

/-- The flat law on a box of the sample configuration, with the last inverse temperature of its ladder. -/
example : volume ((univ.pi fun _ : Fin 2 => Icc (6 : ℝ) 14) ∩ openBox (fun _ => -30) fun _ => 30) ≤
    posterior (volume.restrict (openBox (fun _ => -30) fun _ => 30)) (multiTarget.lp 1) (univ.pi fun _ : Fin 2 => Icc (6 : ℝ) 14) :=
  (multi_flat _ _ 1 (by norm_num) _ (MeasurableSet.univ_pi fun _ => measurableSet_Icc)).1

/-- The peak is where the program has the log-posterior: just above 1 for the last chain, and about 0 for a point between the peaks. -/
example : (1 : ℝ) ≤ Spec.target (multiGaussian.user [(-30, 30), (-30, 30)] 2) 0 [] 1 (List.ofFn ![(10 : ℝ), 10]) ∧
    Spec.target (multiGaussian.user [(-30, 30), (-30, 30)] 2) 0 [] 1 (List.ofFn ![(0 : ℝ), 0]) ≤ 1 / 100 := by
  rw [multi_target, multi_target, multi_lp, multi_lp]
  constructor
  · simp [Spec.mixture, Spec.bump]
    positivity
  · have : Real.exp (-100) ≤ 1 / 200 := by
      have h := Real.add_one_le_exp (100 : ℝ)
      have h2 : Real.exp 100 = Real.exp 50 * Real.exp 50 := by rw [← Real.exp_add]; norm_num
      have h3 := Real.add_one_le_exp (50 : ℝ)
      rw [Real.exp_neg, one_div]
      exact inv_anti₀ (by norm_num) (by nlinarith)
    have e : ∀ c : ℝ, c ^ 2 = 100 → Spec.bump c ![0, 0] = Real.exp (-100) := by
      intro c hc
      rw [Spec.bump, ← Real.exp_add]
      congr 1
      simp only [Matrix.cons_val_zero, Matrix.cons_val_one]
      linarith
    rw [Spec.mixture, e 10 (by norm_num), e (-10) (by norm_num)]
    linarith

/-- The ladder and the initial widths of the sample input, from the middle of the box. -/
example : ∃ c : ℝ, 0 < c ∧ c ≤ 1 ∧ (lawAfter multiTarget (fun _ => -30) (fun _ => 30) (fun _ _ => 6) ![1 / 10000, 1 / 1000, 1 / 100, 1 / 10, 1] [.iter, .swap 3 4, .iter]
    (Measure.dirac fun _ _ => 0)).real {y | y 4 ∈ peaks} ≤
      1 / 10 + (1 - c) ^ iters (n := 5) [.iter, .swap 3 4, .iter] + 76 / 10 ^ 6 * ∑ j ∈ Finset.range (iters (n := 5) [.iter, .swap 3 4, .iter]), (1 - c) ^ j := by
  obtain ⟨c, h0, h1, h⟩ := multi_chains (fun _ _ => 6) (fun _ _ => by norm_num) (fun _ _ => by norm_num) ![1 / 10000, 1 / 1000, 1 / 100, 1 / 10, 1]
    (fun r => by fin_cases r <;> norm_num) (fun r => by fin_cases r <;> norm_num)
  refine ⟨c, h0, h1, h _ ?_ (fun _ _ => 0) (fun _ _ => by norm_num) 4⟩
  intro i j hm
  simp at hm
  obtain ⟨rfl, rfl⟩ := hm
  decide

end NiiC
