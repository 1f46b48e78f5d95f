import Verif.Prob.Clean

/-!
# Faults that programs on streams repair

A set `A` of faulty states. A program never makes a state faulty; of the runs from a faulty state at most a fraction `c` ends in one. Fractions multiply when programs
run one after the other. Helpers for C84.
-/

set_option linter.unusedSectionVars false

namespace NiiC

open MeasureTheory ProbabilityTheory Set ENNReal

section
variable {α β γ Ω : Type} [MeasurableSpace α] [MeasurableSpace β] [MeasurableSpace γ] [MeasurableSpace Ω]

/-- From states with `P` the program leads to states with `P'`. A state in `A'` comes from one in `A` only, and with at most probability `c`. -/
structure Shrinks (l : Measure Ω) (c : ℝ≥0∞) (P : α → Prop) (A : Set α) (m : α × Ω → β × Ω) (P' : β → Prop) (A' : Set β) : Prop where
  keep : ∀ a ω, P a → P' (m (a, ω)).1
  old : ∀ a ω, P a → (m (a, ω)).1 ∈ A' → a ∈ A
  rate : ∀ a, P a → l {ω | (m (a, ω)).1 ∈ A'} ≤ c

variable {l : Measure Ω} [IsProbabilityMeasure l] {P : α → Prop} {A : Set α} {P' : β → Prop} {A' : Set β} {P'' : γ → Prop} {A'' : Set γ} {c c' : ℝ≥0∞}

theorem Shrinks.one {m : α × Ω → β × Ω} (keep : ∀ a ω, P a → P' (m (a, ω)).1) (old : ∀ a ω, P a → (m (a, ω)).1 ∈ A' → a ∈ A) : Shrinks l 1 P A m P' A' :=
  ⟨keep, old, fun _ _ => prob_le_one⟩

theorem Shrinks.comp {m : α × Ω → β × Ω} {m' : β × Ω → γ × Ω} (hm : Clean l m) (hm' : Measurable m') (hA' : MeasurableSet A') (hA'' : MeasurableSet A'')
    (h : Shrinks l c P A m P' A') (h' : Shrinks l c' P' A' m' P'' A'') : Shrinks l (c * c') P A (fun p => m' (m p)) P'' A'' := by
  refine ⟨fun a ω hp => h'.keep _ (m (a, ω)).2 (h.keep a ω hp), fun a ω hp hA => h.old a ω hp (h'.old _ (m (a, ω)).2 (h.keep a ω hp) hA), fun a hp => ?_⟩
  have hma : Measurable (fun ω => m (a, ω)) := hm.meas.comp measurable_prodMk_left
  have h1 : Measurable (fun ω => (m (a, ω)).1) := measurable_fst.comp hma
  have hS : MeasurableSet {q : β × Ω | (m' q).1 ∈ A''} := (measurable_fst.comp hm') hA''
  have hf : Measurable (fun b => l (Prod.mk b ⁻¹' {q : β × Ω | (m' q).1 ∈ A''})) := measurable_measure_prodMk_left hS
  have e : l {ω | (m' (m (a, ω))).1 ∈ A''} = (l.map fun ω => m (a, ω)) {q | (m' q).1 ∈ A''} := (Measure.map_apply hma hS).symm
  have hset : MeasurableSet {ω | (m (a, ω)).1 ∈ A'} := h1 hA'
  rw [e, hm.indep a, Measure.prod_apply hS, lintegral_map hf h1]
  calc ∫⁻ ω, l (Prod.mk (m (a, ω)).1 ⁻¹' {q : β × Ω | (m' q).1 ∈ A''}) ∂l ≤ ∫⁻ ω, {ω | (m (a, ω)).1 ∈ A'}.indicator (fun _ => c') ω ∂l := by
        refine lintegral_mono fun ω => ?_
        by_cases hω : (m (a, ω)).1 ∈ A'
        · rw [indicator_of_mem (show ω ∈ {ω | (m (a, ω)).1 ∈ A'} from hω)]
          exact h'.rate _ (h.keep a ω hp)
        · rw [indicator_of_notMem (show ω ∉ {ω | (m (a, ω)).1 ∈ A'} from hω)]
          have : Prod.mk (m (a, ω)).1 ⁻¹' {q : β × Ω | (m' q).1 ∈ A''} = ∅ := by
            ext ω'
            simp only [mem_preimage, mem_empty_iff_false, iff_false]
            exact fun hh => hω (h'.old _ ω' (h.keep a ω hp) hh)
          rw [this, measure_empty]
    _ = c' * l {ω | (m (a, ω)).1 ∈ A'} := lintegral_indicator_const hset c'
    _ ≤ c * c' := by rw [mul_comm]; exact mul_le_mul' (h.rate a hp) le_rfl

theorem Shrinks.iterate {m : α × Ω → α × Ω} (hm : Clean l m) (hA : MeasurableSet A) (h : Shrinks l c P A m P A) : ∀ k, Shrinks l (c ^ k) P A (m^[k]) P A
  | 0 => by rw [pow_zero]; exact Shrinks.one (fun _ _ h => h) fun _ _ _ h => h
  | k + 1 => by
    have e : m^[k + 1] = fun p => m^[k] (m p) := funext fun p => Function.iterate_succ_apply m k p
    rw [e, pow_succ']
    exact h.comp hm (hm.iterate k).meas hA hA (Shrinks.iterate hm hA h k)

/-- First one program; then, according to its result, another one. Results outside `good` have probability zero. -/
theorem Shrinks.choose {ι : Type} [Countable ι] [MeasurableSpace ι] [DiscreteMeasurableSpace ι] {m0 : α × Ω → ι × Ω} (h0 : Clean l m0) {m : ι → α × Ω → β × Ω}
    (hm : ∀ i, Measurable (m i)) (hA' : MeasurableSet A') (keep : ∀ i a ω, P a → P' (m i (a, ω)).1) (old : ∀ i a ω, P a → (m i (a, ω)).1 ∈ A' → a ∈ A) (good : Set ι)
    (hgood : ∀ a, ∀ᵐ ω ∂l, (m0 (a, ω)).1 ∈ good) (h : ∀ i ∈ good, ∀ a, P a → l {ω | (m i (a, ω)).1 ∈ A'} ≤ c) :
    Shrinks l c P A (fun p => m (m0 p).1 (p.1, (m0 p).2)) P' A' := by
  refine ⟨fun a ω => keep _ a _, fun a ω => old _ a _, fun a hp => ?_⟩
  have hS : MeasurableSet {q : ι × Ω | q.1 ∈ good ∧ (m q.1 (a, q.2)).1 ∈ A'} := by
    have : Measurable fun q : ι × Ω => (m q.1 (a, q.2)).1 :=
      measurable_from_prod_countable_right fun i => measurable_fst.comp ((hm i).comp measurable_prodMk_left)
    exact (measurable_fst MeasurableSet.of_discrete).inter (this hA')
  refine le_trans (measure_mono_ae ?_) (h0.bound a hS fun i => ?_)
  · filter_upwards [hgood a] with ω hω hh
    exact ⟨hω, hh⟩
  · by_cases hi : i ∈ good
    · exact (measure_mono fun ω hω => hω.2).trans (h i hi a hp)
    · have : Prod.mk i ⁻¹' {q : ι × Ω | q.1 ∈ good ∧ (m q.1 (a, q.2)).1 ∈ A'} = ∅ := by
        ext ω
        simp only [mem_preimage, mem_empty_iff_false, iff_false]
        exact fun hh => hi hh.1
      rw [this, measure_empty]
      exact zero_le

/-- What has probability at most `c` with new streams after almost all results of the program has probability at most `c` with the rest of the streams. -/
theorem Clean.bound_ae {m : α × Ω → β × Ω} (h : Clean l m) (a : α) {B : Set (β × Ω)} (hB : MeasurableSet B)
    (hb : ∀ᵐ ω ∂l, l (Prod.mk (m (a, ω)).1 ⁻¹' B) ≤ c) : l {ω | m (a, ω) ∈ B} ≤ c := by
  have h1 : Measurable (fun ω => m (a, ω)) := h.meas.comp measurable_prodMk_left
  have h2 : Measurable (fun ω => (m (a, ω)).1) := measurable_fst.comp h1
  have e : l {ω | m (a, ω) ∈ B} = (l.map fun ω => m (a, ω)) B := (Measure.map_apply h1 hB).symm
  rw [e, h.indep a, Measure.prod_apply hB, lintegral_map (measurable_measure_prodMk_left hB) h2]
  calc _ ≤ ∫⁻ _ω, c ∂l := lintegral_mono_ae hb
    _ = c := by rw [lintegral_const, measure_univ, mul_one]

theorem Shrinks.mono {m : α × Ω → β × Ω} (h : Shrinks l c P A m P' A') (hc : c ≤ c') : Shrinks l c' P A m P' A' :=
  ⟨h.keep, h.old, fun a hp => (h.rate a hp).trans hc⟩

end

end NiiC
