import Mathlib.Probability.Kernel.Invariance
import Mathlib.Probability.Kernel.Composition.Prod
import Mathlib.MeasureTheory.Constructions.Pi
import Mathlib.MeasureTheory.Measure.Sub
import Mathlib.MeasureTheory.Measure.Decomposition.Hahn

/-!
# Distance of laws

`Tv δ P Q`: no set has more than `δ` more probability under `P` than under `Q`. For probability measures this is the total variation distance.
Helper lemmas for `Props.Sampler`.
-/

namespace NiiC

open MeasureTheory ProbabilityTheory Set
open scoped ENNReal

variable {α β : Type*} [MeasurableSpace α] [MeasurableSpace β]

/-- `P` exceeds `Q` by at most `δ` on every set. -/
def Tv (δ : ℝ≥0∞) (P Q : Measure α) : Prop := ∀ A, MeasurableSet A → P A ≤ Q A + δ

theorem Tv.refl (P : Measure α) : Tv 0 P P := fun A _ => by simp

theorem Tv.mono {δ ε : ℝ≥0∞} {P Q : Measure α} (h : Tv δ P Q) (hle : δ ≤ ε) : Tv ε P Q :=
  fun A hA => (h A hA).trans (by gcongr)

theorem Tv.trans {δ ε : ℝ≥0∞} {P Q R : Measure α} (h : Tv δ P Q) (h' : Tv ε Q R) : Tv (δ + ε) P R := fun A hA =>
  (h A hA).trans (by rw [add_comm δ, ← add_assoc]; gcongr; exact h' A hA)

theorem Tv.one (P Q : Measure α) [IsProbabilityMeasure P] : Tv 1 P Q := fun A _ => prob_le_one.trans le_add_self

/-- For measures with the same finite mass the relation is symmetric. -/
theorem Tv.symm {δ : ℝ≥0∞} {P Q : Measure α} [IsFiniteMeasure P] [IsFiniteMeasure Q] (hm : P univ = Q univ) (h : Tv δ P Q) : Tv δ Q P := by
  intro A hA
  have h1 := h Aᶜ hA.compl
  have h2 := measure_add_measure_compl (μ := P) hA
  have h3 := measure_add_measure_compl (μ := Q) hA
  have h4 : Q A + Q Aᶜ ≤ P A + δ + Q Aᶜ := by
    rw [h3, ← hm, ← h2, add_assoc, add_comm δ]
    gcongr
  exact (ENNReal.add_le_add_iff_right (measure_ne_top Q _)).1 h4

theorem Tv.map {δ : ℝ≥0∞} {P Q : Measure α} (h : Tv δ P Q) {f : α → β} (hf : Measurable f) : Tv δ (P.map f) (Q.map f) := by
  intro A hA
  rw [Measure.map_apply hf hA, Measure.map_apply hf hA]
  exact h _ (hf hA)

/-- Integrals of a function with values between 0 and `m` differ by at most `m δ`. -/
theorem Tv.lintegral {δ : ℝ≥0∞} {P Q : Measure α} [IsFiniteMeasure P] [IsFiniteMeasure Q] (h : Tv δ P Q) {f : α → ℝ≥0∞} {m : ℝ≥0∞}
    (hm : ∀ x, f x ≤ m) : ∫⁻ x, f x ∂P ≤ ∫⁻ x, f x ∂Q + m * δ := by
  obtain ⟨s, hs, h1, h2⟩ := hahn_decomposition P Q
  have hle1 : Q.restrict s ≤ P.restrict s := Measure.le_iff.2 fun t ht => by
    rw [Measure.restrict_apply ht, Measure.restrict_apply ht]
    exact h1 _ (ht.inter hs) inter_subset_right
  have hle2 : P.restrict sᶜ ≤ Q.restrict sᶜ := Measure.le_iff.2 fun t ht => by
    rw [Measure.restrict_apply ht, Measure.restrict_apply ht]
    exact h2 _ (ht.inter hs.compl) inter_subset_right
  have hsub : (P.restrict s - Q.restrict s) univ ≤ δ := by
    rw [Measure.sub_apply MeasurableSet.univ hle1, Measure.restrict_apply MeasurableSet.univ, Measure.restrict_apply MeasurableSet.univ, univ_inter,
      tsub_le_iff_left]
    exact h s hs
  calc ∫⁻ x, f x ∂P = ∫⁻ x in s, f x ∂P + ∫⁻ x in sᶜ, f x ∂P := (lintegral_add_compl _ hs).symm
    _ ≤ (∫⁻ x in s, f x ∂Q + m * δ) + ∫⁻ x in sᶜ, f x ∂Q := by
      gcongr ?_ + ?_
      · rw [← Measure.sub_add_cancel_of_le hle1, lintegral_add_measure, add_comm]
        gcongr
        calc ∫⁻ x, f x ∂(P.restrict s - Q.restrict s) ≤ ∫⁻ _, m ∂(P.restrict s - Q.restrict s) := lintegral_mono hm
          _ = m * (P.restrict s - Q.restrict s) univ := lintegral_const m
          _ ≤ m * δ := by gcongr
      · exact lintegral_mono' hle2 le_rfl
    _ = ∫⁻ x, f x ∂Q + m * δ := by
      rw [← lintegral_add_compl (μ := Q) f hs]
      ring

/-- A Markov kernel does not increase the distance. -/
theorem Tv.bind {δ : ℝ≥0∞} {P Q : Measure α} [IsFiniteMeasure P] [IsFiniteMeasure Q] (h : Tv δ P Q) (κ : Kernel α β) [IsMarkovKernel κ] :
    Tv δ (P.bind κ) (Q.bind κ) := by
  intro A hA
  rw [Measure.bind_apply hA κ.aemeasurable, Measure.bind_apply hA κ.aemeasurable]
  simpa using h.lintegral (f := fun x => κ x A) (m := 1) (fun x => prob_le_one)

/-- Kernels that are close at almost every point give close laws. -/
theorem Tv.bind_kernel {δ : ℝ≥0∞} {P : Measure α} (κ η : Kernel α β) (h : ∀ᵐ x ∂P, Tv δ (κ x) (η x)) : Tv (δ * P univ) (P.bind κ) (P.bind η) := by
  intro A hA
  rw [Measure.bind_apply hA κ.aemeasurable, Measure.bind_apply hA η.aemeasurable]
  calc ∫⁻ x, κ x A ∂P ≤ ∫⁻ x, (η x A + δ) ∂P := lintegral_mono_ae (h.mono fun x hx => hx A hA)
    _ = ∫⁻ x, η x A ∂P + δ * P univ := by rw [lintegral_add_right _ measurable_const, lintegral_const]

/-- Products of two laws. -/
theorem Tv.prod {δ ε : ℝ≥0∞} {P P' : Measure α} {Q Q' : Measure β} [IsProbabilityMeasure P] [IsProbabilityMeasure P'] [IsProbabilityMeasure Q]
    [IsProbabilityMeasure Q'] (h : Tv δ P P') (h' : Tv ε Q Q') : Tv (δ + ε) (P.prod Q) (P'.prod Q') := by
  intro A hA
  rw [Measure.prod_apply hA, Measure.prod_apply hA]
  have h1 := h.lintegral (f := fun x => Q' (Prod.mk x ⁻¹' A)) (m := 1) (fun x => prob_le_one)
  have h2 : ∫⁻ x, Q (Prod.mk x ⁻¹' A) ∂P ≤ ∫⁻ x, (Q' (Prod.mk x ⁻¹' A) + ε) ∂P :=
    lintegral_mono fun x => h' _ (measurable_prodMk_left hA)
  rw [lintegral_add_right _ measurable_const, lintegral_const, measure_univ, mul_one] at h2
  rw [one_mul] at h1
  calc _ ≤ _ := h2
    _ ≤ ∫⁻ x, Q' (Prod.mk x ⁻¹' A) ∂P' + δ + ε := by gcongr
    _ = _ := by rw [add_assoc]

/-- Products of any number of laws. -/
theorem Tv.pi : ∀ {d : Nat} {X : Fin d → Type} [∀ i, MeasurableSpace (X i)] {δ : Fin d → ℝ≥0∞} {P Q : ∀ i, Measure (X i)}
    [∀ i, IsProbabilityMeasure (P i)] [∀ i, IsProbabilityMeasure (Q i)] (_ : ∀ i, Tv (δ i) (P i) (Q i)),
    Tv (∑ i, δ i) (Measure.pi P) (Measure.pi Q) := by
  intro d
  induction d with
  | zero =>
    intro X _ δ P Q _ _ _
    have : Measure.pi P = Measure.pi Q := by
      rw [Measure.pi_of_empty, Measure.pi_of_empty]
    rw [this]
    simpa using Tv.refl (Measure.pi Q)
  | succ d ih =>
    intro X _ δ P Q _ _ h
    have h1 := (h 0).prod (ih (fun i : Fin d => h ((0 : Fin (d + 1)).succAbove i)))
    have e1 := (measurePreserving_piFinSuccAbove P 0).symm
    have e2 := (measurePreserving_piFinSuccAbove Q 0).symm
    have h2 := h1.map e1.measurable
    rw [e1.map_eq, e2.map_eq] at h2
    rw [Fin.sum_univ_succ]
    exact h2

/-- A kernel that reaches every set `B` from every point of `S` with probability at least `c ν B` brings laws on `S` closer together. -/
theorem Tv.contract {δ c : ℝ≥0∞} {P Q : Measure α} [IsProbabilityMeasure P] [IsProbabilityMeasure Q] (h : Tv δ P Q) (κ : Kernel α β) [IsMarkovKernel κ]
    (ν : Measure β) [IsProbabilityMeasure ν] (S : Set α) (hc : c ≤ 1) (hS : ∀ x ∈ S, ∀ B, MeasurableSet B → c * ν B ≤ κ x B)
    (hP : ∀ᵐ x ∂P, x ∈ S) (hQ : ∀ᵐ x ∂Q, x ∈ S) : Tv ((1 - c) * δ) (P.bind κ) (Q.bind κ) := by
  intro B hB
  rw [Measure.bind_apply hB κ.aemeasurable, Measure.bind_apply hB κ.aemeasurable]
  have hct : c ≠ ∞ := (hc.trans_lt ENNReal.one_lt_top).ne
  have hcB : c * ν B ≠ ∞ := ENNReal.mul_ne_top hct (measure_ne_top _ _)
  -- the part above the lower bound, cut off where the bound is not known
  let f : α → ℝ≥0∞ := fun x => min (κ x B - c * ν B) (1 - c)
  have hf : ∀ x ∈ S, κ x B = f x + c * ν B := by
    intro x hx
    have h1 := hS x hx B hB
    have h2 := hS x hx Bᶜ hB.compl
    have h3 := prob_add_prob_compl (μ := κ x) hB
    have h4 := prob_add_prob_compl (μ := ν) hB
    have h5 : κ x B - c * ν B ≤ 1 - c := by
      rw [tsub_le_iff_right]
      refine ENNReal.le_of_add_le_add_right (a := c * ν Bᶜ) (ENNReal.mul_ne_top hct (measure_ne_top _ _)) ?_
      calc κ x B + c * ν Bᶜ ≤ κ x B + κ x Bᶜ := by gcongr
        _ = 1 := h3
        _ = 1 - c + c := (tsub_add_cancel_of_le hc).symm
        _ = 1 - c + (c * ν B + c * ν Bᶜ) := by rw [← mul_add, h4, mul_one]
        _ = _ := by rw [add_assoc]
    simp only [f]
    rw [min_eq_left h5, tsub_add_cancel_of_le h1]
  have eP : ∫⁻ x, κ x B ∂P = ∫⁻ x, f x ∂P + c * ν B := by
    rw [lintegral_congr_ae (hP.mono hf), lintegral_add_right _ measurable_const, lintegral_const, measure_univ, mul_one]
  have eQ : ∫⁻ x, κ x B ∂Q = ∫⁻ x, f x ∂Q + c * ν B := by
    rw [lintegral_congr_ae (hQ.mono hf), lintegral_add_right _ measurable_const, lintegral_const, measure_univ, mul_one]
  rw [eP, eQ]
  have h1 := h.lintegral (f := f) (m := 1 - c) (fun x => min_le_right _ _)
  calc ∫⁻ x, f x ∂P + c * ν B ≤ (∫⁻ x, f x ∂Q + (1 - c) * δ) + c * ν B := by gcongr
    _ = _ := by ring

end NiiC
