import Mathlib.Algebra.Order.Chebyshev
import Mathlib.Analysis.Real.Pi.Bounds
import Mathlib.MeasureTheory.Measure.Lebesgue.Basic
import Mathlib.MeasureTheory.Group.LIntegral
import Mathlib.Probability.Distributions.Gaussian.Real
import Verif.Prob.Variance

/-!
# How a Gaussian step on an interval spreads

A kernel on `(lo, hi)` that contains the part inside of a Gaussian step of width `s` averages out at least the part `gap lo hi s` of every variance under
the uniform law. Helper lemmas for C85.
-/

set_option linter.unusedSectionVars false

namespace NiiC

open MeasureTheory ProbabilityTheory Set
open scoped ENNReal NNReal

/-- The part of the variance averaged out by a Gaussian step of width `s` on `(lo, hi)`. -/
noncomputable def gap (lo hi s : ℝ) : ℝ := Real.exp (-5 / 4) / (4 * Real.pi) * ((hi - lo) / s) / (⌈(hi - lo) / (2 * s)⌉₊ : ℝ) ^ 3

/-- Change of variables between two points and two intermediate points. -/
theorem lintegral_between (F : ℝ × ℝ → ℝ≥0∞) (hF : Measurable F) (a b : ℝ) (hab : a < b) :
    ∫⁻ x, ∫⁻ y, F (x + a * (y - x), x + b * (y - x)) = ENNReal.ofReal (b - a)⁻¹ * ∫⁻ x, ∫⁻ y, F (x, y) := by
  have h1 : ∀ x : ℝ, ∫⁻ y, F (x + a * (y - x), x + b * (y - x)) = ∫⁻ w, F (x + a * w, x + b * w) := fun x => by
    have := lintegral_sub_right_eq_self (μ := (volume : Measure ℝ)) (fun w => F (x + a * w, x + b * w)) x
    exact this
  simp_rw [h1]
  rw [lintegral_lintegral_swap (by fun_prop)]
  have h2 : ∀ w : ℝ, ∫⁻ x, F (x + a * w, x + b * w) = ∫⁻ x, F (x, x + (b - a) * w) := fun w => by
    have := lintegral_add_right_eq_self (μ := (volume : Measure ℝ)) (fun x => F (x, x + (b - a) * w)) (a * w)
    rw [← this]
    refine lintegral_congr fun x => ?_
    congr 2
    ring
  simp_rw [h2]
  rw [lintegral_lintegral_swap (by fun_prop), ← lintegral_const_mul _ (by fun_prop)]
  refine lintegral_congr fun x => ?_
  have hba : 0 < b - a := by linarith
  have h3 : ∫⁻ w, F (x, x + (b - a) * w) = ∫⁻ v, F (x, x + v) ∂((volume : Measure ℝ).map ((b - a) * ·)) := by
    rw [lintegral_map (by fun_prop) (by fun_prop)]
  rw [h3, Real.map_volume_mul_left hba.ne', lintegral_smul_measure, abs_of_pos (inv_pos.2 hba), smul_eq_mul]
  congr 1
  exact lintegral_add_left_eq_self (μ := (volume : Measure ℝ)) (fun y => F (x, y)) x

/-- The squared difference of two values, by the differences of neighbours among `m` intermediate points. -/
theorem sq_telescope (u : ℕ → ℝ) (m : ℕ) : (u m - u 0) ^ 2 ≤ m * ∑ i ∈ Finset.range m, (u (i + 1) - u i) ^ 2 := by
  have h := Finset.sum_range_sub u m
  rw [← h]
  have := sq_sum_le_card_mul_sum_sq (s := Finset.range m) (f := fun i => u (i + 1) - u i)
  rwa [Finset.card_range] at this

section
variable (lo hi : ℝ) (f : ℝ → ℝ)

/-- The squared difference of two values inside the interval. -/
noncomputable def sqDiff (p : ℝ × ℝ) : ℝ≥0∞ := ENNReal.ofReal ((f p.1 - f p.2) ^ 2)

theorem measurable_sqDiff {f : ℝ → ℝ} (hf : Measurable f) : Measurable (sqDiff f) :=
  (((hf.comp measurable_fst).sub (hf.comp measurable_snd)).pow_const 2).ennreal_ofReal

/-- Pairs of points of the interval at most `r` apart. -/
def near (r : ℝ) : Set (ℝ × ℝ) := {p | p.1 ∈ Ioo lo hi ∧ p.2 ∈ Ioo lo hi ∧ |p.1 - p.2| ≤ r}

theorem measurableSet_near (r : ℝ) : MeasurableSet (near lo hi r) :=
  (measurable_fst measurableSet_Ioo).inter ((measurable_snd measurableSet_Ioo).inter (measurableSet_le (measurable_fst.sub measurable_snd).norm measurable_const))

variable {lo hi f}

/-- Differences of far points, by differences of near points. -/
theorem local_global (hf : Measurable f) {r : ℝ} {m : ℕ} (hm : 0 < m) (hr : hi - lo ≤ m * r) :
    ∫⁻ x in Ioo lo hi, ∫⁻ y in Ioo lo hi, sqDiff f (x, y) ≤ (m : ℝ≥0∞) ^ 3 * ∫⁻ x, ∫⁻ y, (near lo hi r).indicator (sqDiff f) (x, y) := by
  have hm' : (0 : ℝ) < m := Nat.cast_pos.2 hm
  set F : ℝ × ℝ → ℝ≥0∞ := (near lo hi r).indicator (sqDiff f) with hFdef
  have hF : Measurable F := (measurable_sqDiff hf).indicator (measurableSet_near lo hi r)
  have hpt : ∀ x ∈ Ioo lo hi, ∀ y ∈ Ioo lo hi,
      sqDiff f (x, y) ≤ m * ∑ i ∈ Finset.range m, F (x + (i / m : ℝ) * (y - x), x + ((i + 1) / m : ℝ) * (y - x)) := by
    intro x hx y hy
    have hin : ∀ i : ℕ, i ≤ m → x + (i / m : ℝ) * (y - x) ∈ Ioo lo hi := fun i hi' => by
      have h1 : (0 : ℝ) ≤ i / m := by positivity
      have h2 : (i / m : ℝ) ≤ 1 := (div_le_one hm').2 (by exact_mod_cast hi')
      have e : x + (i / m : ℝ) * (y - x) = (1 - i / m) * x + (i / m) * y := by ring
      rw [e]
      constructor
      · nlinarith [hx.1, hy.1, mul_nonneg (sub_nonneg.2 h2) (sub_nonneg.2 hx.1.le), mul_nonneg h1 (sub_nonneg.2 hy.1.le), hx.1]
      · nlinarith [hx.2, hy.2, mul_nonneg (sub_nonneg.2 h2) (sub_nonneg.2 hx.2.le), mul_nonneg h1 (sub_nonneg.2 hy.2.le)]
    have hF' : ∀ i ∈ Finset.range m, F (x + (i / m : ℝ) * (y - x), x + ((i + 1) / m : ℝ) * (y - x)) =
        ENNReal.ofReal ((f (x + ((i + 1 : ℕ) / m : ℝ) * (y - x)) - f (x + (i / m : ℝ) * (y - x))) ^ 2) := fun i hi' => by
      rw [Finset.mem_range] at hi'
      have h1 := hin i hi'.le
      have h2 := hin (i + 1) hi'
      push_cast at h2 ⊢
      rw [hFdef, indicator_of_mem]
      · rw [sqDiff]
        congr 1
        ring
      · refine ⟨h1, h2, ?_⟩
        have e : x + (i / m : ℝ) * (y - x) - (x + ((i + 1) / m : ℝ) * (y - x)) = -((y - x) / m) := by field_simp; ring
        show |x + (i / m : ℝ) * (y - x) - (x + ((i + 1) / m : ℝ) * (y - x))| ≤ r
        rw [e, abs_neg, abs_div, abs_of_pos hm', div_le_iff₀ hm']
        have : |y - x| ≤ hi - lo := by rw [abs_le]; constructor <;> linarith [hx.1, hx.2, hy.1, hy.2]
        linarith
    rw [Finset.sum_congr rfl hF', ← ENNReal.ofReal_sum_of_nonneg (fun i _ => sq_nonneg _), ← ENNReal.ofReal_natCast m, ← ENNReal.ofReal_mul hm'.le]
    refine ENNReal.ofReal_le_ofReal ?_
    have := sq_telescope (fun i : ℕ => f (x + (i / m : ℝ) * (y - x))) m
    simp only [Nat.cast_zero, zero_div, zero_mul, add_zero, div_self hm'.ne', one_mul] at this
    have e : x + (y - x) = y := by ring
    rw [e] at this
    show (f x - f y) ^ 2 ≤ _
    calc (f x - f y) ^ 2 = (f y - f x) ^ 2 := by ring
      _ ≤ _ := this
  calc ∫⁻ x in Ioo lo hi, ∫⁻ y in Ioo lo hi, sqDiff f (x, y)
      ≤ ∫⁻ x in Ioo lo hi, ∫⁻ y in Ioo lo hi, m * ∑ i ∈ Finset.range m, F (x + (i / m : ℝ) * (y - x), x + ((i + 1) / m : ℝ) * (y - x)) :=
        setLIntegral_mono' measurableSet_Ioo fun x hx => setLIntegral_mono' measurableSet_Ioo fun y hy => hpt x hx y hy
    _ ≤ ∫⁻ x, ∫⁻ y, m * ∑ i ∈ Finset.range m, F (x + (i / m : ℝ) * (y - x), x + ((i + 1) / m : ℝ) * (y - x)) :=
        (lintegral_mono fun x => setLIntegral_le_lintegral _ _).trans (setLIntegral_le_lintegral _ _)
    _ = m * ∑ i ∈ Finset.range m, ∫⁻ x, ∫⁻ y, F (x + (i / m : ℝ) * (y - x), x + ((i + 1) / m : ℝ) * (y - x)) := by
        have e1 : ∀ x : ℝ, ∫⁻ y, m * ∑ i ∈ Finset.range m, F (x + (i / m : ℝ) * (y - x), x + ((i + 1) / m : ℝ) * (y - x)) =
            m * ∑ i ∈ Finset.range m, ∫⁻ y, F (x + (i / m : ℝ) * (y - x), x + ((i + 1) / m : ℝ) * (y - x)) := fun x => by
          rw [lintegral_const_mul _ (by fun_prop), lintegral_finsetSum _ (fun i _ => by fun_prop)]
        simp_rw [e1]
        have hmi : ∀ i : ℕ, Measurable fun x : ℝ => ∫⁻ y, F (x + (i / m : ℝ) * (y - x), x + ((i + 1) / m : ℝ) * (y - x)) := fun i =>
          Measurable.lintegral_prod_right' (f := fun p : ℝ × ℝ => F (p.1 + (i / m : ℝ) * (p.2 - p.1), p.1 + ((i + 1) / m : ℝ) * (p.2 - p.1))) (by fun_prop)
        rw [lintegral_const_mul _ (Finset.measurable_fun_sum _ fun i _ => hmi i), lintegral_finsetSum _ (fun i _ => hmi i)]
    _ = m * ∑ i ∈ Finset.range m, (m * ∫⁻ x, ∫⁻ y, F (x, y)) := by
        congr 1
        refine Finset.sum_congr rfl fun i _ => ?_
        have hlt : (i / m : ℝ) < (i + 1) / m := by gcongr; linarith
        rw [lintegral_between F hF _ _ hlt]
        have : ((i + 1) / m - i / m : ℝ)⁻¹ = m := by field_simp; ring
        rw [this, ENNReal.ofReal_natCast]
    _ = (m : ℝ≥0∞) ^ 3 * ∫⁻ x, ∫⁻ y, F (x, y) := by
        rw [Finset.sum_const, Finset.card_range, nsmul_eq_mul]
        ring

/-- The variance as a mean over two independent values. -/
theorem lintegral_sqDiff {ρ : Measure ℝ} [IsProbabilityMeasure ρ] (hf : Bdd f) : ∫⁻ y, ∫⁻ z, sqDiff f (y, z) ∂ρ ∂ρ = ENNReal.ofReal (2 * vr ρ f) := by
  have h1 : ∀ y, Bdd (fun z => (f y - f z) ^ 2) := fun y => ((Bdd.const (f y)).sub hf).sq
  have h2 : Bdd (fun p : ℝ × ℝ => (f p.1 - f p.2) ^ 2) := ((hf.comp measurable_fst).sub (hf.comp measurable_snd)).sq
  have e : ∀ y, ∫⁻ z, sqDiff f (y, z) ∂ρ = ENNReal.ofReal (∫ z, (f y - f z) ^ 2 ∂ρ) := fun y =>
    (ofReal_integral_eq_lintegral_ofReal ((h1 y).integrable ρ) (Filter.Eventually.of_forall fun z => sq_nonneg _)).symm
  simp_rw [e]
  rw [← ofReal_integral_eq_lintegral_ofReal (h2.integrable (ρ.prod ρ)).integral_prod_left (Filter.Eventually.of_forall fun y => integral_nonneg fun z => sq_nonneg _), vr_pair hf]
  congr 1
  ring

/-- Gaussian steps from a common point to two near points. -/
theorem gaussian_overlap {s : ℝ≥0} (hs : s ≠ 0) (hsL : (s : ℝ) ≤ hi - lo) {y z : ℝ} (h : (y, z) ∈ near lo hi (2 * s)) :
    ENNReal.ofReal (Real.exp (-5 / 4) / (4 * Real.pi * s)) ≤ ∫⁻ x in Ioo lo hi, gaussianPDF x (s ^ 2) y * gaussianPDF x (s ^ 2) z := by
  obtain ⟨hy, hz, hyz⟩ := h
  have hs0 : (0 : ℝ) < s := NNReal.coe_pos.2 (pos_iff_ne_zero.2 hs)
  obtain ⟨J, hJm, hJv, hJI, hJd⟩ : ∃ J : Set ℝ, MeasurableSet J ∧ volume J = ENNReal.ofReal (s / 2) ∧ J ⊆ Ioo lo hi ∧ ∀ x ∈ J, (x - (y + z) / 2) ^ 2 ≤ (s : ℝ) ^ 2 / 4 := by
    by_cases hc : (y + z) / 2 ≤ (lo + hi) / 2
    · refine ⟨Ioo ((y + z) / 2) ((y + z) / 2 + s / 2), measurableSet_Ioo, by rw [Real.volume_Ioo]; congr 1; ring, fun x hx => ⟨?_, ?_⟩, fun x hx => ?_⟩
      · linarith [hx.1, hy.1, hz.1]
      · linarith [hx.2]
      · nlinarith [hx.1, hx.2]
    · push Not at hc
      refine ⟨Ioo ((y + z) / 2 - s / 2) ((y + z) / 2), measurableSet_Ioo, by rw [Real.volume_Ioo]; congr 1; ring, fun x hx => ⟨?_, ?_⟩, fun x hx => ?_⟩
      · linarith [hx.1]
      · linarith [hx.2, hy.2, hz.2]
      · nlinarith [hx.1, hx.2]
  have hpt : ∀ x ∈ J, ENNReal.ofReal (Real.exp (-5 / 4) / (2 * Real.pi * s ^ 2)) ≤ gaussianPDF x (s ^ 2) y * gaussianPDF x (s ^ 2) z := fun x hx => by
    rw [gaussianPDF, gaussianPDF, ← ENNReal.ofReal_mul (gaussianPDFReal_nonneg _ _ _)]
    refine ENNReal.ofReal_le_ofReal ?_
    rw [gaussianPDFReal, gaussianPDFReal]
    have e1 : (Real.sqrt (2 * Real.pi * ((s ^ 2 : ℝ≥0) : ℝ)))⁻¹ * Real.exp (-(y - x) ^ 2 / (2 * ((s ^ 2 : ℝ≥0) : ℝ))) *
        ((Real.sqrt (2 * Real.pi * ((s ^ 2 : ℝ≥0) : ℝ)))⁻¹ * Real.exp (-(z - x) ^ 2 / (2 * ((s ^ 2 : ℝ≥0) : ℝ)))) =
        Real.exp (-((y - x) ^ 2 + (z - x) ^ 2) / (2 * s ^ 2)) / (2 * Real.pi * s ^ 2) := by
      rw [show -((y - x) ^ 2 + (z - x) ^ 2) / (2 * (s : ℝ) ^ 2) = -(y - x) ^ 2 / (2 * s ^ 2) + -(z - x) ^ 2 / (2 * s ^ 2) by ring, Real.exp_add]
      push_cast
      have hq : Real.sqrt (2 * Real.pi * (s : ℝ) ^ 2) * Real.sqrt (2 * Real.pi * (s : ℝ) ^ 2) = 2 * Real.pi * s ^ 2 := Real.mul_self_sqrt (by positivity)
      generalize Real.sqrt (2 * Real.pi * (s : ℝ) ^ 2) = q at hq ⊢
      rw [div_eq_mul_inv (Real.exp _ * Real.exp _), ← hq, mul_inv]
      ring
    rw [e1]
    refine div_le_div_of_nonneg_right (Real.exp_le_exp.2 ?_) (by positivity)
    rw [le_div_iff₀ (by positivity)]
    have hd := hJd x hx
    have h2 : (y - z) ^ 2 ≤ (2 * s) ^ 2 := sq_le_sq' (by linarith [(abs_le.1 hyz).1]) (by linarith [(abs_le.1 hyz).2])
    nlinarith
  calc ENNReal.ofReal (Real.exp (-5 / 4) / (4 * Real.pi * s)) = ENNReal.ofReal (Real.exp (-5 / 4) / (2 * Real.pi * s ^ 2)) * volume J := by
        rw [hJv, ← ENNReal.ofReal_mul (by positivity)]
        congr 1
        field_simp
        ring
    _ = ∫⁻ _ in J, ENNReal.ofReal (Real.exp (-5 / 4) / (2 * Real.pi * s ^ 2)) := by rw [setLIntegral_const]
    _ ≤ ∫⁻ x in J, gaussianPDF x (s ^ 2) y * gaussianPDF x (s ^ 2) z := setLIntegral_mono' hJm hpt
    _ ≤ _ := lintegral_mono_set hJI

theorem measurable_pdf (s : ℝ≥0) : Measurable (fun p : ℝ × ℝ => gaussianPDF p.1 (s ^ 2) p.2) := by
  unfold gaussianPDF gaussianPDFReal
  fun_prop

/-- The uniform law on an interval. -/
noncomputable def uniformOn (lo hi : ℝ) : Measure ℝ := ENNReal.ofReal (hi - lo)⁻¹ • volume.restrict (Ioo lo hi)

theorem uniformOn_prob (h : lo < hi) : IsProbabilityMeasure (uniformOn lo hi) := by
  refine ⟨?_⟩
  rw [uniformOn, Measure.smul_apply, Measure.restrict_apply_univ, Real.volume_Ioo, smul_eq_mul, ← ENNReal.ofReal_mul (inv_nonneg.2 (by linarith)),
    inv_mul_cancel₀ (by linarith : hi - lo ≠ 0), ENNReal.ofReal_one]

theorem lintegral_sqDiff_part {ρ μ : Measure ℝ} [SFinite μ] {g : ℝ → ℝ≥0∞} (hg : Measurable g) (hf : Measurable f) (h : μ.withDensity g ≤ ρ) :
    ∫⁻ y, ∫⁻ z, g y * g z * sqDiff f (y, z) ∂μ ∂μ ≤ ∫⁻ y, ∫⁻ z, sqDiff f (y, z) ∂ρ ∂ρ := by
  have hD := measurable_sqDiff hf
  have hD1 : Measurable fun y => ∫⁻ z, sqDiff f (y, z) ∂(μ.withDensity g) := Measurable.lintegral_prod_right' hD
  calc ∫⁻ y, ∫⁻ z, g y * g z * sqDiff f (y, z) ∂μ ∂μ = ∫⁻ y, ∫⁻ z, sqDiff f (y, z) ∂(μ.withDensity g) ∂(μ.withDensity g) := by
        rw [lintegral_withDensity_eq_lintegral_mul _ hg hD1]
        refine lintegral_congr fun y => ?_
        have hDy : Measurable fun z => sqDiff f (y, z) := hD.comp measurable_prodMk_left
        rw [Pi.mul_apply, lintegral_withDensity_eq_lintegral_mul _ hg hDy, ← lintegral_const_mul _ (hg.mul hDy)]
        refine lintegral_congr fun z => ?_
        simp only [Pi.mul_apply]
        ring
    _ ≤ ∫⁻ y, ∫⁻ z, sqDiff f (y, z) ∂(μ.withDensity g) ∂ρ := lintegral_mono' h (fun y => le_refl _)
    _ ≤ _ := lintegral_mono fun y => lintegral_mono' h (fun z => le_refl _)

/-- A kernel that contains a part with density `k`, where steps from a common point to near points overlap by `c`. -/
theorem overlap_spreads {μ : Measure ℝ} [IsFiniteMeasure μ] (Q : Kernel ℝ ℝ) [IsMarkovKernel Q] {k : ℝ × ℝ → ℝ≥0∞} (hk : Measurable k) (hf : Bdd f)
    (hQ : ∀ᵐ x ∂μ, μ.withDensity (fun y => k (x, y)) ≤ Q x) {N : Set (ℝ × ℝ)} (hN : MeasurableSet N) {c : ℝ≥0∞}
    (hc : ∀ y z, (y, z) ∈ N → c ≤ ∫⁻ x, k (x, y) * k (x, z) ∂μ) :
    c * ∫⁻ y, ∫⁻ z, N.indicator (sqDiff f) (y, z) ∂μ ∂μ ≤ ∫⁻ x, ENNReal.ofReal (2 * vr (Q x) f) ∂μ := by
  have hD := measurable_sqDiff hf.1
  have hI : Measurable (N.indicator (sqDiff f)) := hD.indicator hN
  have hkl : ∀ x, Measurable fun y => k (x, y) := fun x => hk.comp measurable_prodMk_left
  have hkr : ∀ y, Measurable fun x => k (x, y) := fun y => hk.comp measurable_prodMk_right
  have hI1 : ∀ y, Measurable fun z => N.indicator (sqDiff f) (y, z) := fun y => hI.comp measurable_prodMk_left
  have hI2 : Measurable fun y => ∫⁻ z, N.indicator (sqDiff f) (y, z) ∂μ := Measurable.lintegral_prod_right' hI
  calc c * ∫⁻ y, ∫⁻ z, N.indicator (sqDiff f) (y, z) ∂μ ∂μ
      ≤ ∫⁻ y, ∫⁻ z, (∫⁻ x, k (x, y) * k (x, z) ∂μ) * sqDiff f (y, z) ∂μ ∂μ := by
        rw [← lintegral_const_mul _ hI2]
        refine lintegral_mono fun y => ?_
        rw [← lintegral_const_mul _ (hI1 y)]
        refine lintegral_mono fun z => ?_
        by_cases hn : (y, z) ∈ N
        · rw [indicator_of_mem hn]
          gcongr
          exact hc y z hn
        · rw [indicator_of_notMem hn, mul_zero]
          exact zero_le
    _ = ∫⁻ x, ∫⁻ y, ∫⁻ z, k (x, y) * k (x, z) * sqDiff f (y, z) ∂μ ∂μ ∂μ := by
        rw [lintegral_lintegral_swap (f := fun x y => ∫⁻ z, k (x, y) * k (x, z) * sqDiff f (y, z) ∂μ)]
        · refine lintegral_congr fun y => ?_
          rw [lintegral_lintegral_swap (f := fun x z => k (x, y) * k (x, z) * sqDiff f (y, z))]
          · refine lintegral_congr fun z => ?_
            have hkk : Measurable fun x => k (x, y) * k (x, z) := (hkr y).mul (hkr z)
            rw [lintegral_mul_const _ hkk]
          · exact ((((hkr y).comp measurable_fst).mul hk).mul (hD.comp (measurable_const.prodMk measurable_snd))).aemeasurable
        · have hm3 : Measurable fun q : (ℝ × ℝ) × ℝ => k q.1 * k (q.1.1, q.2) * sqDiff f (q.1.2, q.2) :=
            ((hk.comp measurable_fst).mul (hk.comp ((measurable_fst.comp measurable_fst).prodMk measurable_snd))).mul
              (hD.comp ((measurable_snd.comp measurable_fst).prodMk measurable_snd))
          exact hm3.lintegral_prod_right'.aemeasurable
    _ ≤ _ := lintegral_mono_ae (hQ.mono fun x hx => by
        rw [← lintegral_sqDiff hf]
        exact lintegral_sqDiff_part (hkl x) hf.1 hx)

/-- A kernel that contains the part inside of a Gaussian step. -/
theorem gap_spreads (hlt : lo < hi) {s : ℝ≥0} (hs : s ≠ 0) (hsL : (s : ℝ) ≤ hi - lo) (Q : Kernel ℝ ℝ) [IsMarkovKernel Q]
    (hQ : ∀ x ∈ Ioo lo hi, (volume.restrict (Ioo lo hi)).withDensity (fun y => gaussianPDF x (s ^ 2) y) ≤ Q x) : Spreads Q (uniformOn lo hi) (gap lo hi s) := by
  intro f hf
  have := uniformOn_prob hlt
  have hs0 : (0 : ℝ) < s := NNReal.coe_pos.2 (pos_iff_ne_zero.2 hs)
  have hL : 0 < hi - lo := by linarith
  obtain ⟨m, hmdef⟩ : ∃ m, m = ⌈(hi - lo) / (2 * s)⌉₊ := ⟨_, rfl⟩
  have hm : 0 < m := by rw [hmdef]; exact Nat.ceil_pos.2 (by positivity)
  have hmr : hi - lo ≤ m * (2 * s) := by
    rw [← div_le_iff₀ (by positivity), hmdef]
    exact Nat.le_ceil _
  have hD := measurable_sqDiff hf.1
  obtain ⟨μ, hμ⟩ : ∃ μ, μ = (volume : Measure ℝ).restrict (Ioo lo hi) := ⟨_, rfl⟩
  have hfin : IsFiniteMeasure μ := by rw [hμ]; exact ⟨by rw [Measure.restrict_apply_univ, Real.volume_Ioo]; exact ENNReal.ofReal_lt_top⟩
  obtain ⟨A, hA⟩ : ∃ A, A = ∫⁻ y, ∫⁻ z, (near lo hi (2 * s)).indicator (sqDiff f) (y, z) ∂μ ∂μ := ⟨_, rfl⟩
  have hA' : ∫⁻ x, ∫⁻ y, (near lo hi (2 * s)).indicator (sqDiff f) (x, y) = A := by
    rw [hA, hμ, ← lintegral_indicator measurableSet_Ioo]
    refine lintegral_congr fun y => ?_
    by_cases hy : y ∈ Ioo lo hi
    · rw [indicator_of_mem hy, ← lintegral_indicator measurableSet_Ioo]
      refine lintegral_congr fun z => ?_
      by_cases hz : z ∈ Ioo lo hi
      · rw [indicator_of_mem hz]
      · rw [indicator_of_notMem hz, indicator_of_notMem fun h => hz h.2.1]
    · rw [indicator_of_notMem hy]
      have : ∀ z, (near lo hi (2 * s)).indicator (sqDiff f) (y, z) = 0 := fun z => indicator_of_notMem (fun h => hy h.1) _
      simp only [this, lintegral_zero]
  have h3 := local_global (lo := lo) (hi := hi) hf.1 hm hmr
  rw [hA', ← hμ] at h3
  have h2 := overlap_spreads (μ := μ) Q (measurable_pdf s) hf (by rw [hμ]; exact (ae_restrict_iff' measurableSet_Ioo).2 (Filter.Eventually.of_forall hQ))
    (measurableSet_near lo hi (2 * s)) (fun y z h => by rw [hμ]; exact gaussian_overlap hs hsL h)
  rw [← hA] at h2
  -- both under the uniform law
  have hV : Bdd (fun x => vr (Q x) f) := hf.vr Q
  have hU : uniformOn lo hi = ENNReal.ofReal (hi - lo)⁻¹ • μ := by rw [hμ]; rfl
  have e1 : ENNReal.ofReal (2 * ∫ x, vr (Q x) f ∂(uniformOn lo hi)) = ENNReal.ofReal (hi - lo)⁻¹ * ∫⁻ x, ENNReal.ofReal (2 * vr (Q x) f) ∂μ := by
    rw [← integral_const_mul, ofReal_integral_eq_lintegral_ofReal ((hV.integrable _).const_mul 2) (Filter.Eventually.of_forall fun x => mul_nonneg zero_le_two vr_nonneg),
      hU, lintegral_smul_measure, smul_eq_mul]
  have e2 : ENNReal.ofReal (2 * vr (uniformOn lo hi) f) = ENNReal.ofReal (hi - lo)⁻¹ * (ENNReal.ofReal (hi - lo)⁻¹ * ∫⁻ x, ∫⁻ y, sqDiff f (x, y) ∂μ ∂μ) := by
    have hD1 : Measurable fun x => ∫⁻ y, sqDiff f (x, y) ∂μ := Measurable.lintegral_prod_right' hD
    rw [← lintegral_sqDiff hf, hU, lintegral_smul_measure, smul_eq_mul]
    simp_rw [lintegral_smul_measure, smul_eq_mul]
    rw [lintegral_const_mul _ hD1]
  have hg0 : 0 ≤ gap lo hi s := by unfold gap; positivity
  have fin : ENNReal.ofReal (gap lo hi s * (2 * vr (uniformOn lo hi) f)) ≤ ENNReal.ofReal (2 * ∫ x, vr (Q x) f ∂(uniformOn lo hi)) := by
    rw [ENNReal.ofReal_mul hg0, e1, e2]
    calc _ ≤ ENNReal.ofReal (gap lo hi s) * (ENNReal.ofReal (hi - lo)⁻¹ * (ENNReal.ofReal (hi - lo)⁻¹ * ((m : ℝ≥0∞) ^ 3 * A))) := by gcongr
      _ = ENNReal.ofReal (hi - lo)⁻¹ * (ENNReal.ofReal (Real.exp (-5 / 4) / (4 * Real.pi * s)) * A) := by
          have hm3 : (m : ℝ≥0∞) ^ 3 = ENNReal.ofReal ((m : ℝ) ^ 3) := by
            rw [ENNReal.ofReal_pow (Nat.cast_nonneg _), ENNReal.ofReal_natCast]
          have e : gap lo hi s * (hi - lo)⁻¹ * (m : ℝ) ^ 3 = Real.exp (-5 / 4) / (4 * Real.pi * s) := by
            have hm' : (m : ℝ) ≠ 0 := Nat.cast_ne_zero.2 hm.ne'
            rw [gap, ← hmdef]
            field_simp
          rw [hm3, ← e, ENNReal.ofReal_mul (by positivity), ENNReal.ofReal_mul hg0]
          ring
      _ ≤ _ := by gcongr
  have := (ENNReal.ofReal_le_ofReal_iff (mul_nonneg zero_le_two (integral_nonneg fun x => vr_nonneg))).1 fin
  linarith

theorem gap_pos (hlt : lo < hi) {s : ℝ} (hs : 0 < s) : 0 < gap lo hi s := by
  have hm : (0 : ℝ) < (⌈(hi - lo) / (2 * s)⌉₊ : ℝ) := Nat.cast_pos.2 (Nat.ceil_pos.2 (div_pos (by linarith) (by linarith)))
  have : 0 < (hi - lo) / s := div_pos (by linarith) hs
  unfold gap
  positivity

theorem gap_le_one (hlt : lo < hi) {s : ℝ} (hs : 0 < s) : gap lo hi s ≤ 1 := by
  have hm : 0 < ⌈(hi - lo) / (2 * s)⌉₊ := Nat.ceil_pos.2 (div_pos (by linarith) (by linarith))
  have hm1 : (1 : ℝ) ≤ (⌈(hi - lo) / (2 * s)⌉₊ : ℝ) := by exact_mod_cast hm
  have hle : (hi - lo) / (2 * s) ≤ (⌈(hi - lo) / (2 * s)⌉₊ : ℝ) := Nat.le_ceil _
  set m := (⌈(hi - lo) / (2 * s)⌉₊ : ℝ) with hmdef
  have h1 : (hi - lo) / s ≤ 2 * m := by
    have : (hi - lo) / s = 2 * ((hi - lo) / (2 * s)) := by field_simp
    rw [this]; linarith
  have hpi := Real.pi_gt_three
  have he : Real.exp (-5 / 4) ≤ 1 := Real.exp_le_one_iff.2 (by norm_num)
  have hc : Real.exp (-5 / 4) / (4 * Real.pi) ≤ 1 / 12 := by
    rw [div_le_div_iff₀ (by positivity) (by norm_num)]; nlinarith
  unfold gap
  rw [← hmdef, div_le_one (by positivity)]
  have hd0 : 0 ≤ (hi - lo) / s := div_nonneg (by linarith) hs.le
  calc Real.exp (-5 / 4) / (4 * Real.pi) * ((hi - lo) / s) ≤ 1 / 12 * (2 * m) := mul_le_mul hc h1 hd0 (by norm_num)
    _ ≤ m ^ 3 := by nlinarith [mul_self_nonneg (m - 1), mul_nonneg (by linarith : (0 : ℝ) ≤ m) (by nlinarith : (0 : ℝ) ≤ m ^ 2 - 1)]

end

end NiiC
