import Mathlib.MeasureTheory.Integral.Prod
import Mathlib.MeasureTheory.Function.L1Space.Integrable
import Verif.Prob.Fresh
import Verif.Prob.Tv

/-!
# Averages over a run

A program that reads from a stream of random numbers is put together from steps that bring laws nearer to `π`, from steps that keep `π`, and from random
choices. A function of the state is added up over the steps from number `B` on. `Est` bounds the mean and the mean square of what is still to be added;
it is proved from the end of the run to its beginning. Helpers for C80.
-/

set_option linter.unusedSectionVars false

namespace NiiC

open MeasureTheory ProbabilityTheory Set
open scoped ENNReal

section
variable {α β Ω : Type} [MeasurableSpace α] [MeasurableSpace β] [MeasurableSpace Ω] {l : Measure Ω} [IsProbabilityMeasure l]

theorem integrable_of_bound {μ : Measure α} [IsFiniteMeasure μ] {f : α → ℝ} (hf : Measurable f) (C : ℝ) (hC : ∀ᵐ x ∂μ, |f x| ≤ C) : Integrable f μ :=
  Integrable.of_bound hf.aestronglyMeasurable C (hC.mono fun _ h => h)

/-- The mean of a function of what a fresh program returns. -/
theorem Fresh.integral {m : α × Ω → β × Ω} {κ : Kernel α β} [IsMarkovKernel κ] (h : Fresh l m κ) (P : Measure α) [IsProbabilityMeasure P] {F : β × Ω → ℝ}
    (hF : Measurable F) (C : ℝ) (hC : ∀ᵐ y ∂(P.bind κ), ∀ᵐ ω ∂l, |F (y, ω)| ≤ C) :
    ∫ x, ∫ ω, F (m (x, ω)) ∂l ∂P = ∫ y, ∫ ω, F (y, ω) ∂l ∂(P.bind κ) := by
  have hb : ∀ᵐ q ∂((P.bind κ).prod l), |F q| ≤ C := by
    have hS : MeasurableSet {q | |F q| ≤ C} := measurableSet_le hF.norm measurable_const
    exact (Measure.ae_prod_iff_ae_ae hS).2 hC
  have hI : Integrable F ((P.bind κ).prod l) := integrable_of_bound hF C hb
  rw [← h.run P] at hI
  have hI' : Integrable (F ∘ m) (P.prod l) := (integrable_map_measure hF.aestronglyMeasurable h.meas.aemeasurable).1 hI
  rw [h.run P] at hI
  calc ∫ x, ∫ ω, F (m (x, ω)) ∂l ∂P = ∫ p, F (m p) ∂(P.prod l) := (integral_prod _ hI').symm
    _ = ∫ q, F q ∂((P.prod l).map m) := (integral_map h.meas.aemeasurable hF.aestronglyMeasurable).symm
    _ = _ := by rw [h.run P, integral_prod _ hI]

/-- The same from one argument. -/
theorem Fresh.integral_at {m : α × Ω → β × Ω} {κ : Kernel α β} [IsMarkovKernel κ] (h : Fresh l m κ) (x : α) {F : β × Ω → ℝ}
    (hF : Measurable F) (C : ℝ) (hC : ∀ᵐ y ∂(κ x), ∀ᵐ ω ∂l, |F (y, ω)| ≤ C) :
    ∫ ω, F (m (x, ω)) ∂l = ∫ y, ∫ ω, F (y, ω) ∂l ∂(κ x) := by
  have hb : ∀ᵐ q ∂((κ x).prod l), |F q| ≤ C := by
    have hS : MeasurableSet {q | |F q| ≤ C} := measurableSet_le hF.norm measurable_const
    exact (Measure.ae_prod_iff_ae_ae hS).2 hC
  have hI : Integrable F ((κ x).prod l) := integrable_of_bound hF C hb
  have hm : Measurable (fun ω => m (x, ω)) := h.meas.comp measurable_prodMk_left
  calc ∫ ω, F (m (x, ω)) ∂l = ∫ q, F q ∂(l.map fun ω => m (x, ω)) := (integral_map hm.aemeasurable hF.aestronglyMeasurable).symm
    _ = _ := by rw [h.law x, integral_prod _ hI]

/-- A bound of what a fresh program returns. -/
theorem Fresh.ae_at {m : α × Ω → β × Ω} {κ : Kernel α β} [IsMarkovKernel κ] (h : Fresh l m κ) (x : α) {p : β × Ω → Prop} (hp : MeasurableSet {q | p q})
    (hC : ∀ᵐ y ∂(κ x), ∀ᵐ ω ∂l, p (y, ω)) : ∀ᵐ ω ∂l, p (m (x, ω)) := by
  have hb : ∀ᵐ q ∂((κ x).prod l), p q := (Measure.ae_prod_iff_ae_ae hp).2 hC
  have hm : Measurable (fun ω => m (x, ω)) := h.meas.comp measurable_prodMk_left
  rw [← h.law x] at hb
  exact ae_of_ae_map hm.aemeasurable hb

theorem measurable_mean {F : α × Ω → ℝ} (hF : Measurable F) : Measurable fun x => ∫ ω, F (x, ω) ∂l :=
  hF.stronglyMeasurable.integral_prod_right'.measurable

theorem abs_integral_le {μ : Measure α} [IsProbabilityMeasure μ] {f : α → ℝ} {C : ℝ} (hC : ∀ᵐ x ∂μ, |f x| ≤ C) : |∫ x, f x ∂μ| ≤ C := by
  have := norm_integral_le_of_norm_le_const (μ := μ) (f := f) (C := C) hC
  simpa using this

theorem integral_le_of {μ : Measure α} [IsProbabilityMeasure μ] {f : α → ℝ} (hI : Integrable f μ) {C : ℝ} (hC : ∀ᵐ x ∂μ, f x ≤ C) : ∫ x, f x ∂μ ≤ C := by
  have := integral_mono_ae hI (integrable_const C) hC
  simpa using this

/-- Means of a function that varies by at most `R` on `S`, under laws on `S`. -/
theorem Tv.integral {δ : ℝ} (hδ : 0 ≤ δ) {P Q : Measure α} [IsProbabilityMeasure P] [IsProbabilityMeasure Q] (h : Tv (ENNReal.ofReal δ) P Q) {S : Set α}
    (hP : ∀ᵐ x ∂P, x ∈ S) (hQ : ∀ᵐ x ∂Q, x ∈ S) {f : α → ℝ} (hf : Measurable f) {R : ℝ} (hR : ∀ x ∈ S, ∀ y ∈ S, f x - f y ≤ R) :
    ∫ x, f x ∂P - ∫ x, f x ∂Q ≤ R * δ := by
  obtain ⟨x0, hx0⟩ : S.Nonempty := by
    by_contra hne
    rw [not_nonempty_iff_eq_empty] at hne
    subst hne
    have : ∀ᵐ _x ∂P, False := hP
    exact absurd (ae_iff.1 this) (by simp)
  have hR0 : 0 ≤ R := by have := hR x0 hx0 x0 hx0; linarith
  -- the least value
  have hbb : BddBelow (f '' S) := ⟨f x0 - R, by rintro _ ⟨y, hy, rfl⟩; have := hR x0 hx0 y hy; linarith⟩
  set a := sInf (f '' S) with ha
  have h1 : ∀ x ∈ S, a ≤ f x := fun x hx => csInf_le hbb ⟨x, hx, rfl⟩
  have h2 : ∀ x ∈ S, f x ≤ a + R := fun x hx => by
    have : f x - R ≤ a := le_csInf ⟨_, x0, hx0, rfl⟩ (by rintro _ ⟨y, hy, rfl⟩; have := hR x hx y hy; linarith)
    linarith
  let g : α → ℝ := fun x => max 0 (min (f x - a) R)
  have hg : Measurable g := measurable_const.max ((hf.sub measurable_const).min measurable_const)
  have hg0 : ∀ x, 0 ≤ g x := fun x => le_max_left _ _
  have hg1 : ∀ x, g x ≤ R := fun x => max_le hR0 (min_le_right _ _)
  have hgf : ∀ x ∈ S, f x = g x + a := fun x hx => by
    have e1 := h1 x hx
    have e2 := h2 x hx
    simp only [g]
    rw [min_eq_left (by linarith), max_eq_right (by linarith)]; ring
  have hgI : ∀ (μ : Measure α) [IsProbabilityMeasure μ], Integrable g μ := fun μ _ =>
    integrable_of_bound hg R (Filter.Eventually.of_forall fun x => by rw [abs_of_nonneg (hg0 x)]; exact hg1 x)
  have key : ∀ (μ : Measure α) [IsProbabilityMeasure μ], (∀ᵐ x ∂μ, x ∈ S) → ∫ x, f x ∂μ = ∫ x, g x ∂μ + a := fun μ _ hμ => by
    rw [integral_congr_ae (hμ.mono hgf), integral_add (hgI μ) (integrable_const a)]
    simp
  rw [key P hP, key Q hQ]
  have hT := h.lintegral (f := fun x => ENNReal.ofReal (g x)) (m := ENNReal.ofReal R) (fun x => ENNReal.ofReal_le_ofReal (hg1 x))
  rw [← ofReal_integral_eq_lintegral_ofReal (hgI P) (Filter.Eventually.of_forall hg0), ← ofReal_integral_eq_lintegral_ofReal (hgI Q) (Filter.Eventually.of_forall hg0),
    ← ENNReal.ofReal_mul hR0, ← ENNReal.ofReal_add (integral_nonneg hg0) (mul_nonneg hR0 hδ)] at hT
  have := (ENNReal.ofReal_le_ofReal_iff (add_nonneg (integral_nonneg hg0) (mul_nonneg hR0 hδ))).1 hT
  linarith

end

/-- What a run aims at: the law `π` on `box`, rates `c` and `e`, the function `h` with mean 0, added up from step `B` to step `N`. -/
structure Aim (X : Type) [MeasurableSpace X] where
  box : Set X
  box_meas : MeasurableSet box
  π : Measure X
  prob : IsProbabilityMeasure π
  inside : ∀ᵐ x ∂π, x ∈ box
  c : ℝ
  e : ℝ
  c_pos : 0 < c
  c_le : c ≤ 1
  e_nn : 0 ≤ e
  h : X → ℝ
  h_meas : Measurable h
  h_abs : ∀ x, |h x| ≤ 1
  h_osc : ∀ x y, h x - h y ≤ 1
  h_mean : ∫ x, h x ∂π = 0
  N : Nat
  B : Nat

namespace Aim

variable {X Ω : Type} [MeasurableSpace X] [MeasurableSpace Ω] (A : Aim X)

instance : IsProbabilityMeasure A.π := A.prob

/-- How much the expected sum depends on the state. -/
noncomputable def R : ℝ := (1 - A.c) / A.c

/-- How large the expected sum can be. -/
noncomputable def M : ℝ := A.R + (A.N - A.B : Nat) * (A.e / A.c)

theorem R_nn : 0 ≤ A.R := div_nonneg (by linarith [A.c_le]) A.c_pos.le

theorem M_nn : 0 ≤ A.M := add_nonneg A.R_nn (mul_nonneg (Nat.cast_nonneg _) (div_nonneg A.e_nn A.c_pos.le))

/-- `D` is what will be added after step `t`. -/
structure Est (l : Measure Ω) (t : Nat) (D : X × Ω → ℝ) : Prop where
  bdd : ∀ x, ∀ᵐ ω ∂l, |D (x, ω)| ≤ (A.N - t : Nat)
  osc : A.B ≤ t → ∀ x ∈ A.box, ∀ y ∈ A.box, ∫ ω, D (x, ω) ∂l - ∫ ω, D (y, ω) ∂l ≤ A.R
  mean : A.B ≤ t → |∫ x, ∫ ω, D (x, ω) ∂l ∂A.π| ≤ (A.N - t : Nat) * (A.e / A.c)
  sq : ∀ x ∈ A.box, ∫ ω, D (x, ω) ^ 2 ∂l ≤ (A.N - max t A.B : Nat) * (1 + 2 * A.M)

variable {A} {l : Measure Ω} [IsProbabilityMeasure l] {t : Nat} {D : X × Ω → ℝ}

theorem Est.stop : A.Est l A.N (fun _ : X × Ω => 0) where
  bdd x := by simp
  osc _ x _ y _ := by simpa using A.R_nn
  mean _ := by simp
  sq x _ := by simp

theorem Est.abs_mean (hD : Measurable D) (h : A.Est l t D) (ht : A.B ≤ t) (x : X) (hx : x ∈ A.box) : |∫ ω, D (x, ω) ∂l| ≤ A.M := by
  set g : X → ℝ := fun x => ∫ ω, D (x, ω) ∂l with hg
  have hgm : Measurable g := measurable_mean hD
  have hgb : ∀ y, |g y| ≤ (A.N - t : Nat) := fun y => abs_integral_le (h.bdd y)
  have hgI : Integrable g A.π := integrable_of_bound hgm _ (Filter.Eventually.of_forall hgb)
  have h1 : g x - ∫ y, g y ∂A.π ≤ A.R := by
    have := integral_le_of (f := fun y => g x - g y) ((integrable_const (g x)).sub hgI) (A.inside.mono fun y hy => h.osc ht x hx y hy)
    rwa [integral_sub (integrable_const _) hgI, integral_const, probReal_univ, one_smul] at this
  have h2 : ∫ y, g y ∂A.π - g x ≤ A.R := by
    have := integral_le_of (f := fun y => g y - g x) (hgI.sub (integrable_const (g x))) (A.inside.mono fun y hy => h.osc ht y hy x hx)
    rwa [integral_sub hgI (integrable_const _), integral_const, probReal_univ, one_smul] at this
  have h3 := abs_le.1 (h.mean ht)
  have h4 : ((A.N - t : Nat) : ℝ) * (A.e / A.c) ≤ (A.N - A.B : Nat) * (A.e / A.c) :=
    mul_le_mul_of_nonneg_right (by exact_mod_cast Nat.sub_le_sub_left ht _) (div_nonneg A.e_nn A.c_pos.le)
  show |g x| ≤ A.M
  unfold M
  rw [abs_le]
  constructor <;> linarith [h3.1, h3.2]

/-- A step that keeps `π`. -/
theorem Est.still {m : X × Ω → X × Ω} {κ : Kernel X X} [IsMarkovKernel κ] (hm : Fresh l m κ) (hbox : ∀ x ∈ A.box, ∀ᵐ y ∂(κ x), y ∈ A.box)
    (hinv : A.π.bind κ = A.π) (hD : Measurable D) (h : A.Est l t D) : A.Est l t (fun p => D (m p)) where
  bdd x := hm.ae_at x (measurableSet_le hD.norm measurable_const) (Filter.Eventually.of_forall h.bdd)
  osc ht x hx y hy := by
    rw [hm.integral_at x hD _ (Filter.Eventually.of_forall h.bdd), hm.integral_at y hD _ (Filter.Eventually.of_forall h.bdd)]
    have := Tv.integral (δ := 1) zero_le_one (by rw [ENNReal.ofReal_one]; exact Tv.one (κ x) (κ y)) (hbox x hx) (hbox y hy) (measurable_mean (l := l) hD) (h.osc ht)
    rwa [mul_one] at this
  mean ht := by
    rw [hm.integral A.π hD _ (Filter.Eventually.of_forall h.bdd), hinv]
    exact h.mean ht
  sq x hx := by
    have hb : ∀ y, ∀ᵐ ω ∂l, |D (y, ω) ^ 2| ≤ ((A.N - t : Nat) : ℝ) ^ 2 := fun y => (h.bdd y).mono fun ω hω => by
      rw [abs_pow]; exact pow_le_pow_left₀ (abs_nonneg _) hω 2
    rw [hm.integral_at x (F := fun q => D q ^ 2) (hD.pow_const 2) _ (Filter.Eventually.of_forall hb)]
    refine integral_le_of (integrable_of_bound (measurable_mean (F := fun q => D q ^ 2) (hD.pow_const 2)) _
      (Filter.Eventually.of_forall fun y => abs_integral_le (hb y))) ((hbox x hx).mono fun y hy => h.sq y hy)

/-- A step that brings laws nearer to `π`; its result is added to the sum if the step number is above `B`. -/
theorem Est.step {m : X × Ω → X × Ω} {κ : Kernel X X} [IsMarkovKernel κ] (hm : Fresh l m κ) (hbox : ∀ x ∈ A.box, ∀ᵐ y ∂(κ x), y ∈ A.box)
    (hshrink : ∀ x ∈ A.box, ∀ y ∈ A.box, Tv (ENNReal.ofReal (1 - A.c)) (κ x) (κ y)) (hnear : Tv (ENNReal.ofReal A.e) (A.π.bind κ) A.π)
    (htN : t < A.N) (hD : Measurable D) (h : A.Est l (t + 1) D) : A.Est l t (fun p => (if A.B ≤ t then A.h (m p).1 else 0) + D (m p)) := by
  by_cases ht : A.B ≤ t
  · have ht1 : A.B ≤ t + 1 := by omega
    simp only [ht, if_true]
    set F : X × Ω → ℝ := fun q => A.h q.1 + D q with hFdef
    have hF : Measurable F := (A.h_meas.comp measurable_fst).add hD
    have hN : ((A.N - t : Nat) : ℝ) = (A.N - (t + 1) : Nat) + 1 := by
      have : A.N - t = (A.N - (t + 1)) + 1 := by omega
      rw [this]; push_cast; ring
    have hb : ∀ y, ∀ᵐ ω ∂l, |F (y, ω)| ≤ (A.N - t : Nat) := fun y => (h.bdd y).mono fun ω hω => by
      rw [hN]
      calc |F (y, ω)| ≤ |A.h y| + |D (y, ω)| := abs_add_le _ _
        _ ≤ _ := by linarith [A.h_abs y]
    have hDI : ∀ y, Integrable (fun ω => D (y, ω)) l := fun y => integrable_of_bound (hD.comp measurable_prodMk_left) _ (h.bdd y)
    have hFm : ∀ y, ∫ ω, F (y, ω) ∂l = A.h y + ∫ ω, D (y, ω) ∂l := fun y => by
      show ∫ ω, (A.h y + D (y, ω)) ∂l = _
      rw [integral_add (integrable_const _) (hDI y), integral_const, probReal_univ, one_smul]
    have hosc : ∀ x ∈ A.box, ∀ y ∈ A.box, ∫ ω, F (x, ω) ∂l - ∫ ω, F (y, ω) ∂l ≤ 1 / A.c := fun x hx y hy => by
      rw [hFm, hFm]
      have e : 1 / A.c = 1 + A.R := by rw [R]; field_simp [A.c_pos.ne']; ring
      rw [e]
      linarith [h.osc ht1 x hx y hy, A.h_osc x y]
    have hgI : ∀ (μ : Measure X) [IsProbabilityMeasure μ], Integrable (fun y => ∫ ω, D (y, ω) ∂l) μ := fun μ _ =>
      integrable_of_bound (measurable_mean hD) _ (Filter.Eventually.of_forall fun y => abs_integral_le (h.bdd y))
    have hhI : ∀ (μ : Measure X) [IsProbabilityMeasure μ], Integrable A.h μ := fun μ _ =>
      integrable_of_bound A.h_meas 1 (Filter.Eventually.of_forall A.h_abs)
    refine ⟨fun x => hm.ae_at x (p := fun q => |F q| ≤ (A.N - t : Nat)) (measurableSet_le hF.norm measurable_const) (Filter.Eventually.of_forall hb),
      fun _ x hx y hy => ?_, fun _ => ?_, fun x hx => ?_⟩
    · have e1 := hm.integral_at x hF _ (Filter.Eventually.of_forall hb)
      have e2 := hm.integral_at y hF _ (Filter.Eventually.of_forall hb)
      show ∫ ω, F (m (x, ω)) ∂l - ∫ ω, F (m (y, ω)) ∂l ≤ A.R
      rw [e1, e2]
      have := Tv.integral (by linarith [A.c_le]) (hshrink x hx y hy) (hbox x hx) (hbox y hy) (measurable_mean (l := l) hF) hosc
      refine this.trans (le_of_eq ?_)
      rw [R]; ring
    · have e1 := hm.integral A.π hF _ (Filter.Eventually.of_forall hb)
      show |∫ x, ∫ ω, F (m (x, ω)) ∂l ∂A.π| ≤ _
      rw [e1]
      have hin : ∀ᵐ y ∂(A.π.bind κ), y ∈ A.box := by
        rw [ae_iff]
        show (A.π.bind κ) A.boxᶜ = 0
        rw [Measure.bind_apply A.box_meas.compl κ.aemeasurable, lintegral_eq_zero_iff (κ.measurable_coe A.box_meas.compl)]
        exact A.inside.mono fun x hx => ae_iff.1 (hbox x hx)
      have u1 := Tv.integral A.e_nn hnear hin A.inside (measurable_mean (l := l) hF) hosc
      have u2 := Tv.integral A.e_nn (hnear.symm (by simp)) A.inside hin (measurable_mean (l := l) hF) hosc
      have e2 : ∫ y, ∫ ω, F (y, ω) ∂l ∂A.π = ∫ y, ∫ ω, D (y, ω) ∂l ∂A.π := by
        simp_rw [hFm]
        rw [integral_add (hhI _) (hgI _), A.h_mean, zero_add]
      have h3 := abs_le.1 (h.mean ht1)
      have e3 : 1 / A.c * A.e = A.e / A.c := by ring
      rw [hN, abs_le]
      rw [e2] at u1 u2
      rw [e3] at u1 u2
      constructor <;> linarith [h3.1, h3.2]
    · have hb2 : ∀ y, ∀ᵐ ω ∂l, |F (y, ω) ^ 2| ≤ ((A.N - t : Nat) : ℝ) ^ 2 := fun y => (hb y).mono fun ω hω => by
        rw [abs_pow]; exact pow_le_pow_left₀ (abs_nonneg _) hω 2
      show ∫ ω, F (m (x, ω)) ^ 2 ∂l ≤ _
      rw [hm.integral_at x (F := fun q => F q ^ 2) (hF.pow_const 2) _ (Filter.Eventually.of_forall hb2)]
      refine integral_le_of (integrable_of_bound (measurable_mean (F := fun q => F q ^ 2) (hF.pow_const 2)) _
        (Filter.Eventually.of_forall fun y => abs_integral_le (hb2 y))) ((hbox x hx).mono fun y hy => ?_)
      have hDb2 : ∀ᵐ ω ∂l, |D (y, ω) ^ 2| ≤ ((A.N - (t + 1) : Nat) : ℝ) ^ 2 := (h.bdd y).mono fun ω hω => by
        rw [abs_pow]; exact pow_le_pow_left₀ (abs_nonneg _) hω 2
      have hDI2 : Integrable (fun ω => D (y, ω) ^ 2) l := integrable_of_bound ((hD.comp measurable_prodMk_left).pow_const 2) _ hDb2
      have e1 : ∫ ω, F (y, ω) ^ 2 ∂l = A.h y ^ 2 + 2 * A.h y * ∫ ω, D (y, ω) ∂l + ∫ ω, D (y, ω) ^ 2 ∂l := by
        have : ∀ ω, F (y, ω) ^ 2 = (A.h y ^ 2 + 2 * A.h y * D (y, ω)) + D (y, ω) ^ 2 := fun ω => by simp only [hFdef]; ring
        simp_rw [this]
        have hI2 : Integrable (fun ω => 2 * A.h y * D (y, ω)) l := (hDI y).const_mul _
        have hI3 : Integrable (fun ω => A.h y ^ 2 + 2 * A.h y * D (y, ω)) l := (integrable_const _).add hI2
        rw [integral_add hI3 hDI2, integral_add (integrable_const _) hI2, integral_const_mul, integral_const,
          probReal_univ, one_smul]
      rw [e1]
      have a1 := h.abs_mean hD ht1 y hy
      have a2 := A.h_abs y
      have a3 := h.sq y hy
      have a4 : A.h y ^ 2 ≤ 1 := by rw [← sq_abs]; nlinarith [abs_nonneg (A.h y)]
      have a5 : A.h y * ∫ ω, D (y, ω) ∂l ≤ A.M := by
        calc _ ≤ |A.h y * ∫ ω, D (y, ω) ∂l| := le_abs_self _
          _ = |A.h y| * |∫ ω, D (y, ω) ∂l| := abs_mul _ _
          _ ≤ 1 * A.M := mul_le_mul a2 a1 (abs_nonneg _) zero_le_one
          _ = A.M := one_mul _
      rw [max_eq_left ht1] at a3
      rw [max_eq_left ht, hN]
      linarith
  · simp only [ht, if_false, zero_add]
    have hb : ∀ y, ∀ᵐ ω ∂l, |D (y, ω)| ≤ (A.N - t : Nat) := fun y => (h.bdd y).mono fun ω hω => hω.trans (by exact_mod_cast (by omega))
    refine ⟨fun x => hm.ae_at x (p := fun q => |D q| ≤ (A.N - t : Nat)) (measurableSet_le hD.norm measurable_const) (Filter.Eventually.of_forall hb), fun h' => absurd h' ht, fun h' => absurd h' ht, fun x hx => ?_⟩
    have hb2 : ∀ y, ∀ᵐ ω ∂l, |D (y, ω) ^ 2| ≤ ((A.N - (t + 1) : Nat) : ℝ) ^ 2 := fun y => (h.bdd y).mono fun ω hω => by
      rw [abs_pow]; exact pow_le_pow_left₀ (abs_nonneg _) hω 2
    rw [hm.integral_at x (F := fun q => D q ^ 2) (hD.pow_const 2) _ (Filter.Eventually.of_forall hb2)]
    have e : max t A.B = max (t + 1) A.B := by omega
    rw [e]
    exact integral_le_of (integrable_of_bound (measurable_mean (F := fun q => D q ^ 2) (hD.pow_const 2)) _
      (Filter.Eventually.of_forall fun y => abs_integral_le (hb2 y))) ((hbox x hx).mono fun y hy => h.sq y hy)

theorem measurable_choose {ι : Type} [Countable ι] [MeasurableSpace ι] [DiscreteMeasurableSpace ι] {D : ι → X × Ω → ℝ} (hD : ∀ i, Measurable (D i)) :
    Measurable fun q : (X × ι) × Ω => D q.1.2 (q.1.1, q.2) := by
  have h1 : Measurable (fun q : (X × Ω) × ι => D q.2 q.1) := measurable_from_prod_countable_left fun i => hD i
  exact h1.comp (by fun_prop : Measurable fun q : (X × ι) × Ω => ((q.1.1, q.2), q.1.2))

theorem measurable_chosen {ι : Type} [Countable ι] [MeasurableSpace ι] [DiscreteMeasurableSpace ι] {D : ι → X × Ω → ℝ} (hD : ∀ i, Measurable (D i))
    {m0 : X × Ω → ι × Ω} (hm : Measurable m0) : Measurable (fun p => D (m0 p).1 (p.1, (m0 p).2)) :=
  (measurable_choose hD).comp ((measurable_fst.prodMk (measurable_fst.comp hm)).prodMk (measurable_snd.comp hm))

/-- A random choice, independent of the state, and a program for each choice. -/
theorem Est.choose {ι : Type} [Countable ι] [MeasurableSpace ι] [DiscreteMeasurableSpace ι] (ν : Measure ι) [IsProbabilityMeasure ν] {m0 : X × Ω → ι × Ω}
    (hm : Fresh l m0 (Kernel.const X ν)) {D : ι → X × Ω → ℝ} (hD : ∀ i, Measurable (D i)) (h : ∀ᵐ i ∂ν, A.Est l t (D i)) :
    A.Est l t (fun p => D (m0 p).1 (p.1, (m0 p).2)) := by
  set F : (X × ι) × Ω → ℝ := fun q => D q.1.2 (q.1.1, q.2) with hFdef
  have hF : Measurable F := measurable_choose hD
  have hk := hm.keep
  have hat : ∀ x, (Kernel.id ×ₖ Kernel.const X ν) x = ν.map (Prod.mk x) := fun x => by
    rw [Kernel.prod_apply, Kernel.id_apply, Kernel.const_apply, Measure.dirac_prod]
  have hint : ∀ (x : X) (G : (X × ι) × Ω → ℝ) (_ : Measurable G) (C : ℝ), (∀ᵐ i ∂ν, ∀ᵐ ω ∂l, |G ((x, i), ω)| ≤ C) →
      ∫ ω, G ((x, (m0 (x, ω)).1), (m0 (x, ω)).2) ∂l = ∫ i, ∫ ω, G ((x, i), ω) ∂l ∂ν := fun x G hG C hC => by
    have hS : MeasurableSet {y : X × ι | ∀ᵐ ω ∂l, |G (y, ω)| ≤ C} := by
      have h2 : MeasurableSet {q | |G q| ≤ C} := measurableSet_le hG.norm measurable_const
      have h3 : {y : X × ι | ∀ᵐ ω ∂l, |G (y, ω)| ≤ C} = {y | l (Prod.mk y ⁻¹' {q | |G q| ≤ C}ᶜ) = 0} := rfl
      rw [h3]
      exact measurable_measure_prodMk_left h2.compl (measurableSet_singleton 0)
    rw [hk.integral_at x hG C (by rw [hat]; exact (ae_map_iff measurable_prodMk_left.aemeasurable hS).2 hC), hat,
      integral_map measurable_prodMk_left.aemeasurable (measurable_mean hG).aestronglyMeasurable]
  have hb : ∀ x, ∀ᵐ i ∂ν, ∀ᵐ ω ∂l, |F ((x, i), ω)| ≤ (A.N - t : Nat) := fun x => h.mono fun i hi => hi.bdd x
  have hmean := fun x => hint x F hF _ (hb x)
  -- the means for each choice
  set f : X → ι → ℝ := fun x i => ∫ ω, D i (x, ω) ∂l with hf
  have hfm : Measurable (fun q : X × ι => f q.1 q.2) := measurable_mean hF
  have hfb : ∀ x, ∀ᵐ i ∂ν, |f x i| ≤ (A.N - t : Nat) := fun x => h.mono fun i hi => abs_integral_le (hi.bdd x)
  have hfI : ∀ x, Integrable (f x) ν := fun x => integrable_of_bound (hfm.comp measurable_prodMk_left) _ (hfb x)
  have hmean' : ∀ x, ∫ ω, D (m0 (x, ω)).1 (x, (m0 (x, ω)).2) ∂l = ∫ i, f x i ∂ν := hmean
  refine ⟨fun x => ?_, fun ht x hx y hy => ?_, fun ht => ?_, fun x hx => ?_⟩
  · refine hk.ae_at x (p := fun q => |F q| ≤ (A.N - t : Nat)) (measurableSet_le hF.norm measurable_const) ?_
    have hS : MeasurableSet {y : X × ι | ∀ᵐ ω ∂l, |F (y, ω)| ≤ (A.N - t : Nat)} := by
      have h2 : MeasurableSet {q | |F q| ≤ (A.N - t : Nat)} := measurableSet_le hF.norm measurable_const
      have h3 : {y : X × ι | ∀ᵐ ω ∂l, |F (y, ω)| ≤ (A.N - t : Nat)} = {y | l (Prod.mk y ⁻¹' {q | |F q| ≤ (A.N - t : Nat)}ᶜ) = 0} := rfl
      rw [h3]
      exact measurable_measure_prodMk_left h2.compl (measurableSet_singleton 0)
    rw [hat]
    exact (ae_map_iff measurable_prodMk_left.aemeasurable hS).2 (hb x)
  · show ∫ ω, D (m0 (x, ω)).1 (x, (m0 (x, ω)).2) ∂l - ∫ ω, D (m0 (y, ω)).1 (y, (m0 (y, ω)).2) ∂l ≤ A.R
    rw [hmean' x, hmean' y, ← integral_sub (hfI x) (hfI y)]
    exact integral_le_of ((hfI x).sub (hfI y)) (h.mono fun i hi => hi.osc ht x hx y hy)
  · show |∫ x, ∫ ω, D (m0 (x, ω)).1 (x, (m0 (x, ω)).2) ∂l ∂A.π| ≤ _
    simp_rw [hmean']
    have hI : Integrable (Function.uncurry f) (A.π.prod ν) := by
      refine integrable_of_bound hfm (A.N - t : Nat) ?_
      have hS : MeasurableSet {q : X × ι | |Function.uncurry f q| ≤ (A.N - t : Nat)} := measurableSet_le hfm.norm measurable_const
      exact (Measure.ae_prod_iff_ae_ae hS).2 (Filter.Eventually.of_forall hfb)
    rw [integral_integral_swap hI]
    exact abs_integral_le (h.mono fun i hi => hi.mean ht)
  · have hb2 : ∀ᵐ i ∂ν, ∀ᵐ ω ∂l, |F ((x, i), ω) ^ 2| ≤ ((A.N - t : Nat) : ℝ) ^ 2 := (hb x).mono fun i hi => hi.mono fun ω hω => by
      rw [abs_pow]; exact pow_le_pow_left₀ (abs_nonneg _) hω 2
    have e := hint x (fun q => F q ^ 2) (hF.pow_const 2) _ hb2
    show ∫ ω, F ((x, (m0 (x, ω)).1), (m0 (x, ω)).2) ^ 2 ∂l ≤ _
    rw [e]
    have hgm : Measurable (fun i => ∫ ω, F ((x, i), ω) ^ 2 ∂l) := (measurable_mean (F := fun q => F q ^ 2) (hF.pow_const 2)).comp measurable_prodMk_left
    exact integral_le_of (integrable_of_bound hgm _ (hb2.mono fun i hi => abs_integral_le hi)) (h.mono fun i hi => hi.sq x hx)

/-- What the numbered states add to the sum. -/
noncomputable def add (A : Aim X) (H : List (Nat × X)) : ℝ := (H.map fun a => if A.B < a.1 then A.h a.2 else 0).sum

theorem add_append (H H' : List (Nat × X)) : A.add (H ++ H') = A.add H + A.add H' := by
  rw [add, List.map_append, List.sum_append]
  rfl

end Aim

end NiiC
