import Verif.Prob.Tv

/-!
# Independent moves of several chains, and sequences of moves

Helper lemmas for `Props.Sampler`.
-/

namespace NiiC

open MeasureTheory ProbabilityTheory Set
open scoped ENNReal

theorem lintegral_pi_mul {α : Type} [MeasurableSpace α] : ∀ {d : Nat} (μ : Fin d → Measure α) [∀ i, SigmaFinite (μ i)]
    (f : Fin d → α → ℝ≥0∞) (_ : ∀ i, Measurable (f i)), ∫⁻ y, ∏ i, f i (y i) ∂(Measure.pi μ) = ∏ i, ∫⁻ t, f i t ∂(μ i) := by
  intro d
  induction d with
  | zero => intro μ _ f _; simp
  | succ d ih =>
    intro μ _ f hf
    have hmp := measurePreserving_piFinSuccAbove μ 0
    have hg2 : Measurable (fun y : Fin d → α => ∏ i : Fin d, f i.succ (y i)) :=
      Finset.measurable_prod _ fun i _ => (hf i.succ).comp (measurable_pi_apply i)
    have hg : Measurable (fun p : α × (Fin d → α) => f 0 p.1 * ∏ i : Fin d, f i.succ (p.2 i)) :=
      ((hf 0).comp measurable_fst).mul (hg2.comp measurable_snd)
    have e : ∀ y : Fin (d + 1) → α, ∏ i, f i (y i) =
        (fun p : α × (Fin d → α) => f 0 p.1 * ∏ i : Fin d, f i.succ (p.2 i)) (MeasurableEquiv.piFinSuccAbove (fun _ => α) 0 y) := by
      intro y
      rw [Fin.prod_univ_succ]
      rfl
    simp only [e]
    rw [hmp.lintegral_comp hg, lintegral_prod_mul (g := fun y : Fin d → α => ∏ i : Fin d, f i.succ (y i)) (hf 0).aemeasurable hg2.aemeasurable,
      Fin.prod_univ_succ]
    congr 1
    exact ih (fun i => μ i.succ) (fun i => f i.succ) (fun i => hf i.succ)

section
variable {α : Type} [MeasurableSpace α] {n : Nat}

/-- Every chain moves with its own kernel, independently of the others. -/
noncomputable def parKernel (κ : Fin n → Kernel α α) [∀ r, IsMarkovKernel (κ r)] : Kernel (Fin n → α) (Fin n → α) where
  toFun x := Measure.pi fun r => κ r (x r)
  measurable' := by
    refine Measurable.measure_of_isPiSystem_of_isProbabilityMeasure generateFrom_pi.symm isPiSystem_pi ?_
    rintro _ ⟨s, hs, rfl⟩
    simp only [Measure.pi_pi]
    exact Finset.measurable_prod _ fun r _ => ((κ r).measurable_coe (hs r (mem_univ r))).comp (measurable_pi_apply r)

theorem parKernel_apply (κ : Fin n → Kernel α α) [∀ r, IsMarkovKernel (κ r)] (x : Fin n → α) :
    parKernel κ x = Measure.pi fun r => κ r (x r) := rfl

instance (κ : Fin n → Kernel α α) [∀ r, IsMarkovKernel (κ r)] : IsMarkovKernel (parKernel κ) :=
  ⟨fun x => by rw [parKernel_apply]; infer_instance⟩

/-- When every chain keeps its own law, together they keep the product. -/
theorem parKernel_invariant (κ : Fin n → Kernel α α) [∀ r, IsMarkovKernel (κ r)] (ν : Fin n → Measure α) [∀ r, SigmaFinite (ν r)]
    (h : ∀ r, (κ r).Invariant (ν r)) : (parKernel κ).Invariant (Measure.pi ν) := by
  show (Measure.pi ν).bind (parKernel κ) = Measure.pi ν
  symm
  refine Measure.pi_eq fun s hs => ?_
  rw [Measure.bind_apply (MeasurableSet.univ_pi hs) (parKernel κ).aemeasurable]
  simp only [parKernel_apply, Measure.pi_pi]
  rw [lintegral_pi_mul ν (fun r t => κ r t (s r)) (fun r => (κ r).measurable_coe (hs r))]
  refine Finset.prod_congr rfl fun r _ => ?_
  rw [← Measure.bind_apply (hs r) (κ r).aemeasurable, (h r).def]

end

/-- Larger factors give a larger product. -/
theorem pi_mono_measure : ∀ {d : Nat} {X : Fin d → Type} [∀ i, MeasurableSpace (X i)] {μ ν : ∀ i, Measure (X i)} [∀ i, IsFiniteMeasure (μ i)]
    [∀ i, IsFiniteMeasure (ν i)] (_ : ∀ i, μ i ≤ ν i), Measure.pi μ ≤ Measure.pi ν := by
  intro d
  induction d with
  | zero =>
    intro X _ μ ν _ _ _
    rw [Measure.pi_of_empty, Measure.pi_of_empty]
  | succ d ih =>
    intro X _ μ ν _ _ h
    have h1 := Measure.prod_mono (h 0) (ih (fun i : Fin d => h ((0 : Fin (d + 1)).succAbove i)))
    have e1 := (measurePreserving_piFinSuccAbove μ 0).symm
    have e2 := (measurePreserving_piFinSuccAbove ν 0).symm
    have h2 := Measure.map_mono h1 e1.measurable
    rw [e1.map_eq, e2.map_eq] at h2
    exact h2

/-- Constant factors of a product of measures. -/
theorem pi_smul_measure {d : Nat} {X : Fin d → Type} [∀ i, MeasurableSpace (X i)] (c : Fin d → ℝ≥0∞) (hc : ∀ i, c i ≠ ∞) (μ : ∀ i, Measure (X i))
    [∀ i, IsFiniteMeasure (μ i)] : Measure.pi (fun i => c i • μ i) = (∏ i, c i) • Measure.pi μ := by
  have : ∀ i, IsFiniteMeasure (c i • μ i) := fun i => Measure.smul_finite _ (hc i)
  refine Measure.pi_eq fun s hs => ?_
  rw [Measure.smul_apply, Measure.pi_pi, smul_eq_mul, ← Finset.prod_mul_distrib]
  rfl

end NiiC
