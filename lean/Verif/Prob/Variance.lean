import Mathlib.Probability.Kernel.Composition.IntegralCompProd
import Mathlib.Probability.Kernel.Invariance
import Verif.Prob.Average
import Verif.Prob.Par

/-!
# Variances under kernels

How much of the variance of a bounded function is left after averaging it over one step of a kernel. Helper lemmas for C85.
-/

set_option linter.unusedSectionVars false

namespace NiiC

open MeasureTheory ProbabilityTheory Set
open scoped ENNReal

section
variable {α β : Type} [MeasurableSpace α] [MeasurableSpace β]

/-- Measurable and bounded. -/
def Bdd (f : α → ℝ) : Prop := Measurable f ∧ ∃ C, ∀ x, |f x| ≤ C

/-- The variance of `f`. -/
noncomputable def vr (μ : Measure α) (f : α → ℝ) : ℝ := ∫ x, (f x - ∫ y, f y ∂μ) ^ 2 ∂μ

/-- The mean of `f` after one step. -/
noncomputable def av (κ : Kernel α β) (f : β → ℝ) (x : α) : ℝ := ∫ y, f y ∂(κ x)

theorem Bdd.integrable {f : α → ℝ} (h : Bdd f) (μ : Measure α) [IsFiniteMeasure μ] : Integrable f μ :=
  integrable_of_bound h.1 h.2.choose (Filter.Eventually.of_forall h.2.choose_spec)

theorem Bdd.const (c : ℝ) : Bdd (fun _ : α => c) := ⟨measurable_const, |c|, fun _ => le_rfl⟩

theorem Bdd.add {f g : α → ℝ} (hf : Bdd f) (hg : Bdd g) : Bdd (fun x => f x + g x) := by
  obtain ⟨hf, C, hC⟩ := hf
  obtain ⟨hg, D, hD⟩ := hg
  exact ⟨hf.add hg, C + D, fun x => (abs_add_le _ _).trans (add_le_add (hC x) (hD x))⟩

theorem Bdd.sub {f g : α → ℝ} (hf : Bdd f) (hg : Bdd g) : Bdd (fun x => f x - g x) := by
  obtain ⟨hf, C, hC⟩ := hf
  obtain ⟨hg, D, hD⟩ := hg
  exact ⟨hf.sub hg, C + D, fun x => (abs_sub _ _).trans (add_le_add (hC x) (hD x))⟩

theorem Bdd.mul {f g : α → ℝ} (hf : Bdd f) (hg : Bdd g) : Bdd (fun x => f x * g x) := by
  obtain ⟨hf, C, hC⟩ := hf
  obtain ⟨hg, D, hD⟩ := hg
  refine ⟨hf.mul hg, C * D, fun x => ?_⟩
  rw [abs_mul]
  exact mul_le_mul (hC x) (hD x) (abs_nonneg _) ((abs_nonneg _).trans (hC x))

theorem Bdd.sq {f : α → ℝ} (hf : Bdd f) : Bdd (fun x => f x ^ 2) := by
  simpa only [pow_two] using hf.mul hf

theorem Bdd.comp {f : β → ℝ} (hf : Bdd f) {φ : α → β} (hφ : Measurable φ) : Bdd (fun x => f (φ x)) :=
  ⟨hf.1.comp hφ, hf.2.choose, fun x => hf.2.choose_spec (φ x)⟩

theorem Bdd.av {f : β → ℝ} (hf : Bdd f) (κ : Kernel α β) [IsMarkovKernel κ] : Bdd (av κ f) :=
  ⟨(hf.1.stronglyMeasurable.integral_kernel (κ := κ)).measurable, hf.2.choose,
    fun x => abs_integral_le (μ := κ x) (Filter.Eventually.of_forall hf.2.choose_spec)⟩

theorem integral_av {f : β → ℝ} (hf : Bdd f) (μ : Measure α) [IsProbabilityMeasure μ] (κ : Kernel α β) [IsMarkovKernel κ] :
    ∫ x, av κ f x ∂μ = ∫ y, f y ∂(μ.bind κ) := by
  have h := Kernel.integral_comp (κ := Kernel.const Unit μ) (η := κ) (a := ()) (f := f) (hf.integrable _)
  rw [Kernel.comp_apply, Kernel.const_apply] at h
  exact h.symm

section
variable {μ : Measure α} [IsProbabilityMeasure μ] {f : α → ℝ}

theorem vr_nonneg : 0 ≤ vr μ f := integral_nonneg fun _ => sq_nonneg _

theorem integral_sq_sub (hf : Bdd f) (c : ℝ) : ∫ x, (f x - c) ^ 2 ∂μ = ∫ x, f x ^ 2 ∂μ - 2 * c * ∫ x, f x ∂μ + c ^ 2 := by
  have e : ∀ x, (f x - c) ^ 2 = (f x ^ 2 - 2 * c * f x) + c ^ 2 := fun x => by ring
  simp_rw [e]
  have h1 : Integrable (fun x => 2 * c * f x) μ := (hf.integrable μ).const_mul _
  have h2 : Integrable (fun x => f x ^ 2 - 2 * c * f x) μ := (hf.sq.integrable μ).sub h1
  rw [integral_add h2 (integrable_const _), integral_sub (hf.sq.integrable μ) h1, integral_const_mul]
  simp

theorem vr_eq (hf : Bdd f) : vr μ f = ∫ x, f x ^ 2 ∂μ - (∫ x, f x ∂μ) ^ 2 := by
  rw [vr, integral_sq_sub hf]; ring

theorem vr_le_sq (hf : Bdd f) (c : ℝ) : vr μ f ≤ ∫ x, (f x - c) ^ 2 ∂μ := by
  rw [vr_eq hf, integral_sq_sub hf]
  nlinarith [sq_nonneg (c - ∫ x, f x ∂μ)]

theorem sq_integral_le (hf : Bdd f) : (∫ x, f x ∂μ) ^ 2 ≤ ∫ x, f x ^ 2 ∂μ := by
  have := vr_nonneg (μ := μ) (f := f)
  rw [vr_eq hf] at this
  linarith

theorem vr_congr {g : α → ℝ} (h : f =ᵐ[μ] g) : vr μ f = vr μ g := by
  rw [vr, vr, integral_congr_ae h]
  exact integral_congr_ae (h.mono fun x hx => by show (f x - _) ^ 2 = _; rw [hx])

theorem vr_of_mean_zero (h : ∫ x, f x ∂μ = 0) : vr μ f = ∫ x, f x ^ 2 ∂μ := by
  rw [vr, h]; simp

/-- The mean distance from the mean. -/
theorem abs_dev_le (hf : Bdd f) : ∫ x, |f x - ∫ y, f y ∂μ| ∂μ ≤ Real.sqrt (vr μ f) := by
  have hb : Bdd (fun x => |f x - ∫ y, f y ∂μ|) := by
    obtain ⟨h1, C, hC⟩ := hf.sub (Bdd.const (∫ y, f y ∂μ))
    exact ⟨h1.norm, C, fun x => by rw [abs_abs]; exact hC x⟩
  refine Real.le_sqrt_of_sq_le ?_
  have := sq_integral_le (μ := μ) hb
  simpa [vr, sq_abs] using this

/-- The inequality of Cauchy and Schwarz. -/
theorem sq_integral_mul_le {g : α → ℝ} (hf : Bdd f) (hg : Bdd g) : (∫ x, f x * g x ∂μ) ^ 2 ≤ (∫ x, f x ^ 2 ∂μ) * ∫ x, g x ^ 2 ∂μ := by
  have key : ∀ t : ℝ, 0 ≤ (∫ x, f x ^ 2 ∂μ) * (t * t) + (2 * ∫ x, f x * g x ∂μ) * t + ∫ x, g x ^ 2 ∂μ := fun t => by
    have e : ∀ x, (f x * t + g x) ^ 2 = (t * t * f x ^ 2 + 2 * t * (f x * g x)) + g x ^ 2 := fun x => by ring
    have h0 : 0 ≤ ∫ x, (f x * t + g x) ^ 2 ∂μ := integral_nonneg fun x => sq_nonneg _
    simp_rw [e] at h0
    have h1 : Integrable (fun x => t * t * f x ^ 2) μ := (hf.sq.integrable μ).const_mul _
    have h2 : Integrable (fun x => 2 * t * (f x * g x)) μ := ((hf.mul hg).integrable μ).const_mul _
    have h3 : Integrable (fun x => t * t * f x ^ 2 + 2 * t * (f x * g x)) μ := h1.add h2
    rw [integral_add h3 (hg.sq.integrable μ), integral_add h1 h2, integral_const_mul, integral_const_mul] at h0
    linarith
  have := discrim_le_zero key
  rw [discrim] at this
  nlinarith

theorem integral_mul_le_of {g : α → ℝ} (hf : Bdd f) (hg : Bdd g) {a b : ℝ} (ha : 0 ≤ a) (hb : 0 ≤ b) (h1 : ∫ x, f x ^ 2 ∂μ ≤ a ^ 2) (h2 : ∫ x, g x ^ 2 ∂μ ≤ b ^ 2) :
    ∫ x, f x * g x ∂μ ≤ a * b := by
  refine le_of_abs_le (abs_le_of_sq_le_sq ?_ (mul_nonneg ha hb))
  refine (sq_integral_mul_le hf hg).trans ?_
  rw [mul_pow]
  exact mul_le_mul h1 h2 (integral_nonneg fun _ => sq_nonneg _) (sq_nonneg _)

/-- Half the mean squared difference of two independent values. -/
theorem vr_pair (hf : Bdd f) : vr μ f = 1 / 2 * ∫ x, ∫ y, (f x - f y) ^ 2 ∂μ ∂μ := by
  have e : ∀ x, ∫ y, (f x - f y) ^ 2 ∂μ = (f x ^ 2 - 2 * (∫ y, f y ∂μ) * f x) + ∫ y, f y ^ 2 ∂μ := fun x => by
    have h := integral_sq_sub (μ := μ) hf (f x)
    have : ∀ y, (f x - f y) ^ 2 = (f y - f x) ^ 2 := fun y => by ring
    simp_rw [this]
    rw [h]; ring
  simp_rw [e]
  have h1 : Integrable (fun x => 2 * (∫ y, f y ∂μ) * f x) μ := (hf.integrable μ).const_mul _
  have h2 : Integrable (fun x => f x ^ 2 - 2 * (∫ y, f y ∂μ) * f x) μ := (hf.sq.integrable μ).sub h1
  rw [integral_add h2 (integrable_const _), integral_sub (hf.sq.integrable μ) h1, integral_const_mul, vr_eq hf]
  simp
  ring

end

theorem vr_map (μ : Measure α) {φ : α → β} (hφ : Measurable φ) {f : β → ℝ} (hf : Measurable f) : vr (μ.map φ) f = vr μ (fun x => f (φ x)) := by
  have h : Measurable fun x => (f x - ∫ y, f (φ y) ∂μ) ^ 2 := (hf.sub measurable_const).pow_const 2
  rw [vr, vr, integral_map hφ.aemeasurable hf.aestronglyMeasurable, integral_map hφ.aemeasurable h.aestronglyMeasurable]

/-- A law with a part of weight `a` that follows another law has at least `a` times its variance. -/
theorem vr_of_part {σ ρ : Measure α} [IsProbabilityMeasure σ] [IsProbabilityMeasure ρ] {a : ℝ} (ha : 0 ≤ a) (h : ENNReal.ofReal a • σ ≤ ρ) {f : α → ℝ} (hf : Bdd f) :
    a * vr σ f ≤ vr ρ f := by
  have hb := (hf.sub (Bdd.const (∫ y, f y ∂ρ))).sq
  calc a * vr σ f ≤ a * ∫ x, (f x - ∫ y, f y ∂ρ) ^ 2 ∂σ := mul_le_mul_of_nonneg_left (vr_le_sq hf _) ha
    _ = ∫ x, (f x - ∫ y, f y ∂ρ) ^ 2 ∂(ENNReal.ofReal a • σ) := by rw [integral_smul_measure, ENNReal.toReal_ofReal ha, smul_eq_mul]
    _ ≤ ∫ x, (f x - ∫ y, f y ∂ρ) ^ 2 ∂ρ := integral_mono_measure h (Filter.Eventually.of_forall fun _ => sq_nonneg _) (hb.integrable ρ)

theorem Bdd.vr {f : β → ℝ} (hf : Bdd f) (κ : Kernel α β) [IsMarkovKernel κ] : Bdd (fun x => vr (κ x) f) := by
  have e : (fun x => NiiC.vr (κ x) f) = fun x => NiiC.av κ (fun y => f y ^ 2) x - NiiC.av κ f x ^ 2 := funext fun x => vr_eq hf
  rw [e]
  exact (hf.sq.av κ).sub (hf.av κ).sq

/-- The variance splits into what one step leaves and what it averages out. -/
theorem vr_av {κ : Kernel α α} [IsMarkovKernel κ] {μ : Measure α} [IsProbabilityMeasure μ] (hκ : κ.Invariant μ) {f : α → ℝ} (hf : Bdd f) :
    vr μ (av κ f) + ∫ x, vr (κ x) f ∂μ = vr μ f := by
  have e : ∀ x, vr (κ x) f = av κ (fun y => f y ^ 2) x - av κ f x ^ 2 := fun x => vr_eq hf
  simp_rw [e]
  rw [integral_sub ((hf.sq.av κ).integrable μ) ((hf.av κ).sq.integrable μ), vr_eq (hf.av κ), vr_eq hf, integral_av hf.sq, integral_av hf, hκ.def]
  ring

/-- One step averages out at least the part `g` of every variance. -/
def Spreads (κ : Kernel α α) (μ : Measure α) (g : ℝ) : Prop := ∀ f, Bdd f → g * vr μ f ≤ ∫ x, vr (κ x) f ∂μ

theorem Spreads.av {κ : Kernel α α} [IsMarkovKernel κ] {μ : Measure α} [IsProbabilityMeasure μ] (hκ : κ.Invariant μ) {g : ℝ} (h : Spreads κ μ g) {f : α → ℝ} (hf : Bdd f) :
    vr μ (av κ f) ≤ (1 - g) * vr μ f := by
  linarith [h f hf, vr_av hκ hf]

theorem Spreads.of_av {κ : Kernel α α} [IsMarkovKernel κ] {μ : Measure α} [IsProbabilityMeasure μ] (hκ : κ.Invariant μ) {g : ℝ}
    (h : ∀ f, Bdd f → vr μ (NiiC.av κ f) ≤ (1 - g) * vr μ f) : Spreads κ μ g := fun f hf => by
  linarith [h f hf, vr_av hκ hf]

/-- Any step that keeps the law. -/
theorem vr_av_le {κ : Kernel α α} [IsMarkovKernel κ] {μ : Measure α} [IsProbabilityMeasure μ] (hκ : κ.Invariant μ) {f : α → ℝ} (hf : Bdd f) :
    vr μ (av κ f) ≤ vr μ f := by
  have : 0 ≤ ∫ x, vr (κ x) f ∂μ := integral_nonneg fun x => integral_nonneg fun _ => sq_nonneg _
  linarith [vr_av hκ hf]

/-- A kernel that contains another one, with weight `a x` at `x`. -/
theorem Spreads.compare {Q R : Kernel α α} [IsMarkovKernel Q] [IsMarkovKernel R] {U π : Measure α} [IsProbabilityMeasure U] [IsProbabilityMeasure π] {a : α → ℝ} (ha : Measurable a)
    (ha0 : ∀ x, 0 ≤ a x) {θ M g : ℝ} (hθ : 0 ≤ θ) (hM : 0 < M) (hpart : ∀ᵐ x ∂π, ENNReal.ofReal (a x) • Q x ≤ R x)
    (hw : π.withDensity (fun x => ENNReal.ofReal (a x)) = ENNReal.ofReal θ • U) (hU : π ≤ ENNReal.ofReal M • U) (hg : 0 ≤ g) (h : Spreads Q U g) : Spreads R π (θ / M * g) := by
  intro f hf
  have h1 : 1 / M * vr π f ≤ vr U f := by
    have hb := (hf.sub (Bdd.const (∫ y, f y ∂U))).sq
    have : vr π f ≤ M * vr U f := by
      calc vr π f ≤ ∫ x, (f x - ∫ y, f y ∂U) ^ 2 ∂π := vr_le_sq hf _
        _ ≤ ∫ x, (f x - ∫ y, f y ∂U) ^ 2 ∂(ENNReal.ofReal M • U) :=
          integral_mono_measure hU (Filter.Eventually.of_forall fun _ => sq_nonneg _) ((hb.integrable U).smul_measure ENNReal.ofReal_ne_top)
        _ = M * vr U f := by rw [integral_smul_measure, ENNReal.toReal_ofReal hM.le, smul_eq_mul]; rfl
    rw [one_div, inv_mul_le_iff₀ hM]
    exact this
  have hQ := hf.vr Q
  have hR := hf.vr R
  have hIU : Integrable (fun x => vr (Q x) f) (π.withDensity fun x => ENNReal.ofReal (a x)) := by
    rw [hw]
    exact (hQ.integrable U).smul_measure ENNReal.ofReal_ne_top
  have hIa : Integrable (fun x => a x * vr (Q x) f) π := by
    have := (integrable_withDensity_iff_integrable_smul' (μ := π) (f := fun x => ENNReal.ofReal (a x)) ha.ennreal_ofReal (Filter.Eventually.of_forall fun _ => ENNReal.ofReal_lt_top)).1 hIU
    simpa [ENNReal.toReal_ofReal (ha0 _)] using this
  have h2 : θ * ∫ x, vr (Q x) f ∂U = ∫ x, a x * vr (Q x) f ∂π := by
    have e := integral_withDensity_eq_integral_toReal_smul (μ := π) (f := fun x => ENNReal.ofReal (a x)) ha.ennreal_ofReal (Filter.Eventually.of_forall fun _ => ENNReal.ofReal_lt_top)
      (fun x => vr (Q x) f)
    rw [hw, integral_smul_measure, ENNReal.toReal_ofReal hθ, smul_eq_mul] at e
    rw [e]
    refine integral_congr_ae (Filter.Eventually.of_forall fun x => ?_)
    simp [ENNReal.toReal_ofReal (ha0 _)]
  calc θ / M * g * vr π f = θ * (g * (1 / M * vr π f)) := by ring
    _ ≤ θ * (g * vr U f) := by gcongr
    _ ≤ θ * ∫ x, vr (Q x) f ∂U := by gcongr; exact h f hf
    _ = ∫ x, a x * vr (Q x) f ∂π := h2
    _ ≤ ∫ x, vr (R x) f ∂π := integral_mono_ae hIa (hR.integrable π) (hpart.mono fun x hx => vr_of_part (ha0 x) hx hf)

/-- The same under a renaming of the states. -/
theorem Spreads.equiv (e : α ≃ᵐ β) {κ : Kernel α α} {κ' : Kernel β β} {μ : Measure α} {μ' : Measure β} (hμ : μ'.map e.symm = μ) (hκ : ∀ y, (κ' y).map e.symm = κ (e.symm y)) {g : ℝ}
    (h : Spreads κ' μ' g) : Spreads κ μ g := fun f hf => by
  have h1 := h (fun y => f (e.symm y)) (hf.comp e.symm.measurable)
  rw [← vr_map μ' e.symm.measurable hf.1, hμ] at h1
  refine h1.trans (le_of_eq ?_)
  rw [← hμ, integral_map_equiv]
  refine integral_congr_ae (Filter.Eventually.of_forall fun y => ?_)
  show vr (κ' y) _ = vr (κ _) f
  rw [← vr_map (κ' y) e.symm.measurable hf.1, hκ]

/-- Averaging does not raise variances. -/
theorem vr_mean_le {P : Measure α} [IsProbabilityMeasure P] {ν : Measure β} [IsProbabilityMeasure ν] {F : α × β → ℝ} (hF : Bdd F) :
    vr ν (fun y => ∫ x, F (x, y) ∂P) ≤ ∫ x, vr ν (fun y => F (x, y)) ∂P := by
  have hm : Bdd (fun x => ∫ y, F (x, y) ∂ν) :=
    ⟨hF.1.stronglyMeasurable.integral_prod_right'.measurable, hF.2.choose, fun x => abs_integral_le (μ := ν) (Filter.Eventually.of_forall fun y => hF.2.choose_spec _)⟩
  have hG : Bdd (fun p : α × β => F p - ∫ y, F (p.1, y) ∂ν) := hF.sub (hm.comp measurable_fst)
  have hc : ∫ y, ∫ x, F (x, y) ∂P ∂ν = ∫ x, ∫ y, F (x, y) ∂ν ∂P := by
    rw [integral_integral_swap (f := fun y x => F (x, y))]
    exact (hF.comp measurable_swap).integrable (ν.prod P)
  have h1 : vr ν (fun y => ∫ x, F (x, y) ∂P) = ∫ y, (∫ x, (F (x, y) - ∫ y, F (x, y) ∂ν) ∂P) ^ 2 ∂ν := by
    rw [vr, hc]
    refine integral_congr_ae (Filter.Eventually.of_forall fun y => ?_)
    show _ = (∫ x, (F (x, y) - ∫ y, F (x, y) ∂ν) ∂P) ^ 2
    rw [integral_sub ((hF.comp measurable_prodMk_right).integrable P) (hm.integrable P)]
  rw [h1]
  have h2 : ∫ x, vr ν (fun y => F (x, y)) ∂P = ∫ y, ∫ x, (F (x, y) - ∫ y, F (x, y) ∂ν) ^ 2 ∂P ∂ν := by
    rw [integral_integral_swap (f := fun y x => (F (x, y) - ∫ y, F (x, y) ∂ν) ^ 2)]
    · rfl
    · exact (hG.sq.comp measurable_swap).integrable (ν.prod P)
  rw [h2]
  have hS := hG.sq
  refine integral_mono_of_nonneg (Filter.Eventually.of_forall fun y => sq_nonneg _) ?_ (Filter.Eventually.of_forall fun y => ?_)
  · exact ((hS.comp measurable_swap).integrable (ν.prod P)).integral_prod_left
  · exact sq_integral_le (hG.comp measurable_prodMk_right)

/-- The variance over pairs. -/
theorem vr_prod {μ : Measure α} [IsProbabilityMeasure μ] {ν : Measure β} [IsProbabilityMeasure ν] {f : α × β → ℝ} (hf : Bdd f) :
    vr (μ.prod ν) f = vr μ (fun x => ∫ y, f (x, y) ∂ν) + ∫ x, vr ν (fun y => f (x, y)) ∂μ := by
  have hm : ∀ {f : α × β → ℝ}, Bdd f → Bdd (fun x => ∫ y, f (x, y) ∂ν) := fun hF =>
    ⟨hF.1.stronglyMeasurable.integral_prod_right'.measurable, hF.2.choose, fun x => abs_integral_le (μ := ν) (Filter.Eventually.of_forall fun y => hF.2.choose_spec _)⟩
  have e : ∀ x, vr ν (fun y => f (x, y)) = ∫ y, f (x, y) ^ 2 ∂ν - (∫ y, f (x, y) ∂ν) ^ 2 := fun x => vr_eq (hf.comp measurable_prodMk_left)
  simp_rw [e]
  rw [integral_sub ((hm hf.sq).integrable μ) ((hm hf).sq.integrable μ), vr_eq (hm hf), vr_eq hf, integral_prod _ (hf.integrable _), integral_prod _ (hf.sq.integrable _)]
  ring

/-- Two parts that move independently. -/
theorem Spreads.prod {κ : Kernel α α} [IsMarkovKernel κ] {η : Kernel β β} [IsMarkovKernel η] {μ : Measure α} [IsProbabilityMeasure μ] {ν : Measure β} [IsProbabilityMeasure ν]
    (hκ : κ.Invariant μ) (hη : η.Invariant ν) {g : ℝ} (h1 : Spreads κ μ g) (h2 : Spreads η ν g)
    {P : Kernel (α × β) (α × β)} [IsMarkovKernel P] (hP : ∀ p, P p = (κ p.1).prod (η p.2)) (hinv : P.Invariant (μ.prod ν)) : Spreads P (μ.prod ν) g := by
  refine Spreads.of_av hinv fun f hf => ?_
  have hf1 : Bdd (fun x => ∫ y, f (x, y) ∂ν) :=
    ⟨hf.1.stronglyMeasurable.integral_prod_right'.measurable, hf.2.choose, fun x => abs_integral_le (μ := ν) (Filter.Eventually.of_forall fun y => hf.2.choose_spec _)⟩
  let F : α × β → ℝ := fun p => NiiC.av η (fun y => f (p.1, y)) p.2
  have hF : Bdd F := by
    refine ⟨?_, hf.2.choose, fun p => abs_integral_le (μ := η p.2) (Filter.Eventually.of_forall fun y => hf.2.choose_spec _)⟩
    have := (MeasureTheory.StronglyMeasurable.integral_kernel_prod_right' (κ := η.comap (Prod.snd : α × β → β) measurable_snd) (f := fun q : (α × β) × β => f (q.1.1, q.2))
      (hf.1.comp (by fun_prop)).stronglyMeasurable).measurable
    exact this
  have hA : ∀ p, NiiC.av P f p = ∫ x, F (x, p.2) ∂(κ p.1) := fun p => by
    show ∫ q, f q ∂(P p) = _
    rw [hP, integral_prod _ (hf.integrable _)]
    rfl
  have hPf := hf.av P
  rw [vr_prod hPf, vr_prod hf, mul_add]
  refine add_le_add ?_ ?_
  · have e : (fun x => ∫ y, NiiC.av P f (x, y) ∂ν) = NiiC.av κ (fun x => ∫ y, f (x, y) ∂ν) := by
      funext x
      simp_rw [hA]
      rw [integral_integral_swap (f := fun y x' => F (x', y))]
      · show _ = ∫ x', ∫ y, f (x', y) ∂ν ∂(κ x)
        refine integral_congr_ae (Filter.Eventually.of_forall fun x' => ?_)
        show ∫ y, NiiC.av η (fun y => f (x', y)) y ∂ν = _
        rw [integral_av (hf.comp measurable_prodMk_left), hη.def]
      · exact (hF.comp measurable_swap).integrable (ν.prod (κ x))
    rw [e]
    exact h1.av hκ hf1
  · have hV : Bdd (fun x => vr ν (fun y => f (x, y))) := by
      have e : (fun x => vr ν (fun y => f (x, y))) = fun x => ∫ y, f (x, y) ^ 2 ∂ν - (∫ y, f (x, y) ∂ν) ^ 2 := funext fun x => vr_eq (hf.comp measurable_prodMk_left)
      rw [e]
      have hf2 : Bdd (fun x => ∫ y, f (x, y) ^ 2 ∂ν) := by
        have hq := hf.sq
        exact ⟨hq.1.stronglyMeasurable.integral_prod_right'.measurable, hq.2.choose, fun x => abs_integral_le (μ := ν) (Filter.Eventually.of_forall fun y => hq.2.choose_spec _)⟩
      exact hf2.sub hf1.sq
    have hx : ∀ x, vr ν (fun y => NiiC.av P f (x, y)) ≤ NiiC.av κ (fun x' => (1 - g) * vr ν (fun y => f (x', y))) x := fun x => by
      simp_rw [hA]
      refine (vr_mean_le (P := κ x) hF).trans ?_
      refine integral_mono_of_nonneg (Filter.Eventually.of_forall fun x' => vr_nonneg) (((Bdd.const (1 - g)).mul hV).integrable _) (Filter.Eventually.of_forall fun x' => ?_)
      exact h2.av hη (hf.comp measurable_prodMk_left)
    rw [← integral_const_mul]
    have hi := integral_av ((Bdd.const (1 - g)).mul hV) μ κ
    rw [hκ.def] at hi
    rw [← hi]
    exact integral_mono_of_nonneg (Filter.Eventually.of_forall fun x => vr_nonneg) ((((Bdd.const (1 - g)).mul hV).av κ).integrable μ) (Filter.Eventually.of_forall hx)

/-- Any number of parts that move independently. -/
theorem Spreads.par : ∀ {n : Nat} (κ : Fin n → Kernel α α) [∀ r, IsMarkovKernel (κ r)] (μ : Fin n → Measure α) [∀ r, IsProbabilityMeasure (μ r)]
    (_ : ∀ r, (κ r).Invariant (μ r)) {g : ℝ} (_ : ∀ r, Spreads (κ r) (μ r) g), Spreads (parKernel κ) (Measure.pi μ) g := by
  intro n
  induction n with
  | zero =>
    intro κ _ μ _ hinv g h f hf
    have e : vr (Measure.pi μ) f = 0 := by
      rw [Measure.pi_of_empty μ (fun _ => Classical.choice ⟨Fin.elim0 ‹Fin 0›⟩)]
      simp [vr, integral_dirac]
    rw [e, mul_zero]
    exact integral_nonneg fun x => vr_nonneg
  | succ n ih =>
    intro κ _ μ _ hinv g h
    have ih' := ih (fun i => κ i.succ) (fun i => μ i.succ) (fun i => hinv i.succ) (fun i => h i.succ)
    have hmp := measurePreserving_piFinSuccAbove μ 0
    let e := MeasurableEquiv.piFinSuccAbove (fun _ : Fin (n + 1) => α) 0
    let P : Kernel (α × (Fin n → α)) (α × (Fin n → α)) := (κ 0) ∥ₖ (parKernel fun i : Fin n => κ i.succ)
    have hP : ∀ p, P p = (κ 0 p.1).prod ((parKernel fun i : Fin n => κ i.succ) p.2) := fun p => Kernel.parallelComp_apply _ _ _
    have hPI : P.Invariant ((μ 0).prod (Measure.pi fun i : Fin n => μ i.succ)) := by
      have h2 := parKernel_invariant (fun i : Fin n => κ i.succ) (fun i => μ i.succ) (fun i => hinv i.succ)
      show Measure.bind _ P = _
      symm
      refine Measure.prod_eq fun s t hs ht => ?_
      rw [Measure.bind_apply (hs.prod ht) P.aemeasurable]
      simp only [hP, Measure.prod_prod]
      rw [lintegral_prod_mul (f := fun x => κ 0 x s) (g := fun y => (parKernel fun i : Fin n => κ i.succ) y t) ((κ 0).measurable_coe hs).aemeasurable
        ((parKernel fun i : Fin n => κ i.succ).measurable_coe ht).aemeasurable,
        ← Measure.bind_apply hs (κ 0).aemeasurable, ← Measure.bind_apply ht (Kernel.aemeasurable _), (hinv 0).def, h2.def]
    refine Spreads.equiv e (κ' := P) (μ' := (μ 0).prod (Measure.pi fun i : Fin n => μ i.succ)) ?_ ?_ ?_
    · exact hmp.symm.map_eq
    · intro y
      rw [hP]
      exact (measurePreserving_piFinSuccAbove (fun i => κ i (e.symm y i)) 0).symm.map_eq
    · exact Spreads.prod (hinv 0) (parKernel_invariant _ _ fun i => hinv i.succ) (h 0) ih' hP hPI

end

/-- A kernel with a part that follows `π` up to a factor `C`, of weight at least `a`. -/
def Opens {α : Type} [MeasurableSpace α] (κ : Kernel α α) (π : Measure α) (box : Set α) (a C : ℝ) : Prop :=
  ∀ x ∈ box, ∃ G : Measure α, G ≤ κ x ∧ G ≤ ENNReal.ofReal C • π ∧ ENNReal.ofReal a ≤ G univ

end NiiC
