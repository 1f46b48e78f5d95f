import Verif.Props.Bounce
import Verif.Props.Accept
import Mathlib.Probability.Distributions.Gaussian.Real
import Mathlib.MeasureTheory.Constructions.Pi

/-!
# Symmetry of the reflected proposal: C45

The proposal of one parameter is `bounce lo hi (x + z * s)` with `z` standard normal (mpi_batch.c:325-335 followed by
`para_boundary`), and the parameters are independent of each other. Exact arithmetic; `z` is taken to have the normal law (C61 is
about that).
-/

set_option linter.unusedSectionVars false
set_option linter.unusedSimpArgs false

namespace NiiC

open MeasureTheory ProbabilityTheory Set ENNReal NNReal

/-- The law of the proposal for one parameter at `x`. -/
noncomputable def reflectLaw (lo hi : ℝ) (s : ℝ≥0) (x : ℝ) : Measure ℝ := (gaussianReal 0 1).map (fun z => bounce lo hi (x +. z *. (s : ℝ)))

/-- Its density inside the box: the straight way, and once reflected at either end. -/
noncomputable def Spec.reflectDensity (lo hi : ℝ) (s : ℝ≥0) (x y : ℝ) : ℝ≥0∞ :=
  gaussianPDF x (s ^ 2) y + gaussianPDF x (s ^ 2) (2 * hi - y) + gaussianPDF x (s ^ 2) (2 * lo - y)

theorem gaussianPDF_symm (x y : ℝ) (v : ℝ≥0) : gaussianPDF x v y = gaussianPDF y v x := by
  simp only [gaussianPDF, gaussianPDFReal]
  have : (y - x) ^ 2 = (x - y) ^ 2 := by ring
  rw [this]

theorem gaussianPDF_mirror (x y c : ℝ) (v : ℝ≥0) : gaussianPDF x v (c - y) = gaussianPDF y v (c - x) := by
  simp only [gaussianPDF, gaussianPDFReal]
  have : (c - y - x) ^ 2 = (c - x - y) ^ 2 := by ring
  rw [this]

theorem reflectDensity_symm (lo hi : ℝ) (s : ℝ≥0) (x y : ℝ) : Spec.reflectDensity lo hi s x y = Spec.reflectDensity lo hi s y x := by
  simp only [Spec.reflectDensity]
  rw [gaussianPDF_symm x y, gaussianPDF_mirror x y (2 * hi), gaussianPDF_mirror x y (2 * lo)]

theorem measurable_bounce (lo hi : ℝ) : Measurable (bounce lo hi : ℝ → ℝ) := by
  have h1 : Measurable (fun x : ℝ => if hi < x then max (hi - (x - hi)) lo else x) :=
    Measurable.ite measurableSet_Ioi (by fun_prop) measurable_id
  have h2 : Measurable (fun y : ℝ => if y < lo then min (lo + (lo - y)) hi else y) :=
    Measurable.ite measurableSet_Iio (by fun_prop) measurable_id
  have e : (bounce lo hi : ℝ → ℝ) = fun x => (fun y : ℝ => if y < lo then min (lo + (lo - y)) hi else y) (if hi < x then max (hi - (x - hi)) lo else x) := by
    funext x
    rw [bounce_real]
  rw [e]
  exact h2.comp h1

theorem measurable_move (lo hi : ℝ) (s : ℝ≥0) (x : ℝ) : Measurable (fun z : ℝ => bounce lo hi (x +. z *. (s : ℝ))) := by
  simp only [RealArith.add_eq, RealArith.mul_eq]
  exact (measurable_bounce lo hi).comp (by fun_prop)

theorem reflectLaw_apply (lo hi : ℝ) (s : ℝ≥0) (x : ℝ) (B : Set ℝ) (hB : MeasurableSet B) :
    reflectLaw lo hi s x B = gaussianReal x (s ^ 2) (bounce lo hi ⁻¹' B) := by
  have h1 : (gaussianReal 0 1).map (fun z => x + z * (s : ℝ)) = gaussianReal x (s ^ 2) := by
    have e : (fun z : ℝ => x + z * (s : ℝ)) = (fun t => x + t) ∘ (fun z => z * (s : ℝ)) := rfl
    rw [e, ← Measure.map_map (by fun_prop) (by fun_prop), gaussianReal_map_mul_const, gaussianReal_map_const_add]
    congr 1
    · ring
    · ext; simp
  rw [reflectLaw, Measure.map_apply (measurable_move lo hi s x) hB, ← h1, Measure.map_apply (by fun_prop) (measurable_bounce lo hi hB)]
  rfl

/-- Where the boundary routine puts a point strictly inside the box. -/
theorem bounce_inside (lo hi : ℝ) (h : lo < hi) (B : Set ℝ) (hB : B ⊆ Ioo lo hi) (t : ℝ) :
    (bounce lo hi ⁻¹' B).indicator (1 : ℝ → ℝ≥0∞) t = B.indicator 1 t + B.indicator 1 (2 * hi - t) + B.indicator 1 (2 * lo - t) := by
  obtain ⟨_, h0, h1, h2, h3, h4⟩ := bounce_exact lo hi h.le t
  have out : ∀ y, y ∉ Ioo lo hi → B.indicator (1 : ℝ → ℝ≥0∞) y = 0 := fun y hy => indicator_of_notMem (fun hb => hy (hB hb)) _
  rcases le_total t hi with ht | ht
  · rcases le_total lo t with ht' | ht'
    · rw [out (2 * hi - t) (fun hh => by linarith [hh.2]), out (2 * lo - t) (fun hh => by linarith [hh.1])]
      simp only [add_zero]
      by_cases hb : t ∈ B
      · rw [indicator_of_mem hb, indicator_of_mem (show t ∈ bounce lo hi ⁻¹' B by simp only [mem_preimage, h0 ht' ht, hb])]
      · rw [indicator_of_notMem hb, indicator_of_notMem (show t ∉ bounce lo hi ⁻¹' B by simp only [mem_preimage, h0 ht' ht, hb, not_false_eq_true])]
    · rw [out t (fun hh => by linarith [hh.1]), out (2 * hi - t) (fun hh => by linarith [hh.2])]
      simp only [zero_add]
      rcases le_total (lo - t) (hi - lo) with hc | hc
      · have e : bounce lo hi t = 2 * lo - t := by linarith [h2 (by linarith) hc]
        by_cases hb : 2 * lo - t ∈ B
        · rw [indicator_of_mem hb, indicator_of_mem (show t ∈ bounce lo hi ⁻¹' B by simp only [mem_preimage, e, hb])]; rfl
        · rw [indicator_of_notMem hb, indicator_of_notMem (show t ∉ bounce lo hi ⁻¹' B by simp only [mem_preimage, e, hb, not_false_eq_true])]
      · have e : bounce lo hi t = hi := h4 hc
        rw [out (2 * lo - t) (fun hh => by linarith [hh.2]), indicator_of_notMem]
        intro hb
        rw [mem_preimage, e] at hb
        exact lt_irrefl _ (hB hb).2
  · rw [out t (fun hh => by linarith [hh.2]), out (2 * lo - t) (fun hh => by linarith [hh.1])]
    simp only [zero_add, add_zero]
    rcases le_total (t - hi) (hi - lo) with hc | hc
    · have e : bounce lo hi t = 2 * hi - t := by linarith [h1 (by linarith) hc]
      by_cases hb : 2 * hi - t ∈ B
      · rw [indicator_of_mem hb, indicator_of_mem (show t ∈ bounce lo hi ⁻¹' B by simp only [mem_preimage, e, hb])]; rfl
      · rw [indicator_of_notMem hb, indicator_of_notMem (show t ∉ bounce lo hi ⁻¹' B by simp only [mem_preimage, e, hb, not_false_eq_true])]
    · have e : bounce lo hi t = lo := h3 hc
      rw [out (2 * hi - t) (fun hh => by linarith [hh.1]), indicator_of_notMem]
      intro hb
      rw [mem_preimage, e] at hb
      exact lt_irrefl _ (hB hb).1

theorem measurable_reflectDensity (lo hi : ℝ) (s : ℝ≥0) (x : ℝ) : Measurable (Spec.reflectDensity lo hi s x) := by
  have := measurable_gaussianPDF x (s ^ 2)
  unfold Spec.reflectDensity
  fun_prop

/-- Inside the box the proposal has the density `reflectDensity`. -/
theorem reflect_density (lo hi : ℝ) (h : lo < hi) (s : ℝ≥0) (hs : s ≠ 0) (x : ℝ) (B : Set ℝ) (hB : MeasurableSet B) (hi' : B ⊆ Ioo lo hi) :
    reflectLaw lo hi s x B = ∫⁻ y in B, Spec.reflectDensity lo hi s x y := by
  have hv : s ^ 2 ≠ 0 := pow_ne_zero 2 hs
  have hp := measurable_gaussianPDF x (s ^ 2)
  have hb1 : Measurable (B.indicator (1 : ℝ → ℝ≥0∞)) := measurable_one.indicator hB
  have hpre := measurable_bounce lo hi hB
  rw [reflectLaw_apply _ _ _ _ _ hB, gaussianReal_apply _ hv, ← lintegral_indicator hpre, ← lintegral_indicator hB]
  have e1 : ∀ t, (bounce lo hi ⁻¹' B).indicator (gaussianPDF x (s ^ 2)) t =
      B.indicator 1 t * gaussianPDF x (s ^ 2) t + B.indicator 1 (2 * hi - t) * gaussianPDF x (s ^ 2) t
        + B.indicator 1 (2 * lo - t) * gaussianPDF x (s ^ 2) t := by
    intro t
    have : (bounce lo hi ⁻¹' B).indicator (gaussianPDF x (s ^ 2)) t = (bounce lo hi ⁻¹' B).indicator 1 t * gaussianPDF x (s ^ 2) t := by
      by_cases ht : t ∈ bounce lo hi ⁻¹' B <;> simp [ht]
    rw [this, bounce_inside lo hi h B hi', add_mul, add_mul]
  have e2 : ∀ y, B.indicator (Spec.reflectDensity lo hi s x) y =
      B.indicator 1 y * gaussianPDF x (s ^ 2) y + B.indicator 1 y * gaussianPDF x (s ^ 2) (2 * hi - y)
        + B.indicator 1 y * gaussianPDF x (s ^ 2) (2 * lo - y) := by
    intro y
    by_cases hy : y ∈ B <;> simp [hy, Spec.reflectDensity]
  have mir : ∀ c : ℝ, ∫⁻ t, B.indicator 1 (c - t) * gaussianPDF x (s ^ 2) t = ∫⁻ y, B.indicator 1 y * gaussianPDF x (s ^ 2) (c - y) := by
    intro c
    have e := lintegral_sub_left_eq_self (μ := volume) (fun y => B.indicator 1 y * gaussianPDF x (s ^ 2) (c - y)) c
    simp only [_root_.sub_sub_cancel] at e
    exact e
  simp only [e1, e2]
  rw [lintegral_add_left (by fun_prop), lintegral_add_left (by fun_prop), lintegral_add_left (by fun_prop), lintegral_add_left (by fun_prop), mir, mir]

/-- **C45 (partial), one parameter.** Strictly inside the box the proposal has a density, and the density of proposing `y` from `x` equals that of proposing `x` from
`y`. Consequently the flows between any two sets strictly inside the box are equal. What is missing for the full claim is the part of the proposal that lands exactly on
an end of the box: `reflect_not_symmetric` shows that the claim fails there. -/
theorem reflect_symmetric_partial (lo hi : ℝ) (h : lo < hi) (s : ℝ≥0) (hs : s ≠ 0) :
    (∀ x (B : Set ℝ), MeasurableSet B → B ⊆ Ioo lo hi → reflectLaw lo hi s x B = ∫⁻ y in B, Spec.reflectDensity lo hi s x y) ∧
    (∀ x y, Spec.reflectDensity lo hi s x y = Spec.reflectDensity lo hi s y x) ∧
    (∀ A B : Set ℝ, MeasurableSet A → MeasurableSet B → A ⊆ Ioo lo hi → B ⊆ Ioo lo hi →
      ∫⁻ x in A, reflectLaw lo hi s x B = ∫⁻ x in B, reflectLaw lo hi s x A) := by
  refine ⟨fun x B hB hi' => reflect_density lo hi h s hs x B hB hi', reflectDensity_symm lo hi s, fun A B hA hB ha hb => ?_⟩
  have hm : Measurable (Function.uncurry (Spec.reflectDensity lo hi s)) := by
    unfold Spec.reflectDensity gaussianPDF gaussianPDFReal
    simp only [Function.uncurry_def]
    fun_prop
  simp only [reflect_density lo hi h s hs _ A hA ha, reflect_density lo hi h s hs _ B hB hb]
  rw [lintegral_lintegral_swap hm.aemeasurable]
  simp only [reflectDensity_symm lo hi s]

/-! ## The part that is put on an end -/

/-- From any point the lower end itself is proposed with positive probability. -/
theorem reflect_atom_pos (lo hi : ℝ) (h : lo ≤ hi) (s : ℝ≥0) (hs : s ≠ 0) (x : ℝ) : 0 < reflectLaw lo hi s x {lo} := by
  rw [reflectLaw_apply _ _ _ _ _ (measurableSet_singleton lo), pos_iff_ne_zero]
  intro h0
  have hv : s ^ 2 ≠ 0 := pow_ne_zero 2 hs
  have h1 : volume (bounce lo hi ⁻¹' {lo}) = 0 := gaussianReal_absolutelyContinuous' x hv h0
  have h2 : Ici (2 * hi - lo) ⊆ bounce lo hi ⁻¹' {lo} := fun t ht => (bounce_exact lo hi h t).2.2.2.2.1 (by
    have : 2 * hi - lo ≤ t := ht
    linarith)
  have h3 := measure_mono_null h2 h1
  simp at h3

/-- The further up the start, the more likely the lower end is proposed. -/
theorem reflect_atom_mono (lo hi : ℝ) (h : lo < hi) (s : ℝ≥0) (x : ℝ) (hx : lo ≤ x) :
    (gaussianReal 0 1) {z | 2 * hi - lo ≤ lo + z * s} ≤ reflectLaw lo hi s x {lo} := by
  rw [reflectLaw, Measure.map_apply (measurable_move lo hi s x) (measurableSet_singleton lo)]
  refine measure_mono (fun z hz => ?_)
  have hz' : 2 * hi - lo ≤ lo + z * s := hz
  exact (bounce_exact lo hi h.le _).2.2.2.2.1 (by simp only [RealArith.add_eq, RealArith.mul_eq]; linarith)

theorem reflect_tail_pos (lo hi : ℝ) (s : ℝ≥0) (hs : s ≠ 0) : 0 < (gaussianReal 0 1) {z | 2 * hi - lo ≤ lo + z * s} := by
  rw [pos_iff_ne_zero]
  intro h0
  have h1 := gaussianReal_absolutelyContinuous' 0 (one_ne_zero) h0
  have hs' : (0 : ℝ) < s := lt_of_le_of_ne s.2 (fun e => hs (by ext; exact e.symm))
  have h2 : Ici ((2 * hi - lo - lo) / s) ⊆ {z | 2 * hi - lo ≤ lo + z * s} := fun z hz => by
    have : (2 * hi - lo - lo) / s ≤ z := hz
    rw [div_le_iff₀ hs'] at this
    show 2 * hi - lo ≤ lo + z * s
    linarith
  have h3 := measure_mono_null h2 h1
  simp at h3

/-- **C45 as stated is false.** The flow from the inside of the box onto its lower end is positive, the flow back is zero. -/
theorem reflect_not_symmetric (lo hi : ℝ) (h : lo < hi) (s : ℝ≥0) (hs : s ≠ 0) :
    0 < ∫⁻ x in Ioo lo hi, reflectLaw lo hi s x {lo} ∧ ∫⁻ x in {lo}, reflectLaw lo hi s x (Ioo lo hi) = 0 := by
  constructor
  · have hc := reflect_tail_pos lo hi s hs
    refine lt_of_lt_of_le ?_ (setLIntegral_mono' measurableSet_Ioo (fun x hx => reflect_atom_mono lo hi h s x hx.1.le))
    rw [setLIntegral_const, Real.volume_Ioo]
    exact ENNReal.mul_pos hc.ne' (by simp [h])
  · exact setLIntegral_measure_zero _ _ (by simp)

/-- How much is put on the ends: at most the probability that a normal variable exceeds the width of the box in units of `s`. -/
theorem reflect_atom_bound (lo hi : ℝ) (h : lo < hi) (s : ℝ≥0) (x : ℝ) (hx : x ∈ Ioo lo hi) :
    reflectLaw lo hi s x {lo, hi} ≤ (gaussianReal 0 1) {z | hi - lo ≤ |z| * s} := by
  have hm : MeasurableSet ({lo, hi} : Set ℝ) := (measurableSet_singleton hi).insert lo
  rw [reflectLaw, Measure.map_apply (measurable_move lo hi s x) hm]
  have hs' : (0 : ℝ) ≤ s := s.2
  have hb : ∀ z, bounce lo hi (x + z * s) ∈ ({lo, hi} : Set ℝ) → hi - lo ≤ |z| * s ∨ x + z * s = lo ∨ x + z * s = hi := by
    intro z hz
    obtain ⟨_, h0, h1, h2, _, _⟩ := bounce_exact lo hi h.le (x + z * s)
    have habs : |z * (s : ℝ)| = |z| * s := by rw [abs_mul, abs_of_nonneg hs']
    rw [← habs]
    by_contra hn
    rw [not_or, not_or, not_le] at hn
    obtain ⟨n1, n2, n3⟩ := hn
    rw [abs_lt] at n1
    rcases lt_trichotomy (x + z * s) lo with c | c | c
    · have := h2 (by linarith) (by linarith [hx.1])
      rcases hz with e | e
      · rw [e] at this; linarith
      · have e' : bounce lo hi (x + z * s) = hi := e
        rw [e'] at this; linarith [hx.1]
    · exact n2 c
    · rcases lt_trichotomy (x + z * s) hi with d | d | d
      · rw [h0 c.le d.le] at hz
        rcases hz with e | e
        · exact n2 e
        · exact n3 e
      · exact n3 d
      · have := h1 (by linarith) (by linarith [hx.2])
        rcases hz with e | e
        · rw [e] at this; linarith [hx.2]
        · have e' : bounce lo hi (x + z * s) = hi := e
          rw [e'] at this; linarith
  have hsub : ∀ c : ℝ, c ∉ Ioo lo hi → ({z : ℝ | x + z * s = c}).Subsingleton := by
    intro c hc z hz z' hz'
    have e : x + z * s = c := hz
    have e' : x + z' * s = c := hz'
    by_cases h0 : (s : ℝ) = 0
    · rw [h0, mul_zero, add_zero] at e
      exact absurd (e ▸ hx) hc
    · have : z * (s : ℝ) = z' * s := by linarith
      exact mul_right_cancel₀ h0 this
  have hat := noAtoms_gaussianReal (μ := 0) (one_ne_zero (α := ℝ≥0))
  refine (measure_mono (fun z hz => ?_ : _ ⊆ {z : ℝ | hi - lo ≤ |z| * s} ∪ ({z : ℝ | x + z * s = lo} ∪ {z : ℝ | x + z * s = hi}))).trans ?_
  · exact hb z hz
  · refine (measure_union_le _ _).trans ?_
    have z1 := (hsub lo (fun hh => lt_irrefl _ hh.1)).measure_zero (gaussianReal 0 1)
    have z2 := (hsub hi (fun hh => lt_irrefl _ hh.2)).measure_zero (gaussianReal 0 1)
    rw [measure_union_null z1 z2, add_zero]

/-! ## Consequence for one iteration -/

/-- The proposal as a Markov kernel: a step of the Gaussian walk, then the boundary routine. -/
noncomputable def reflectKernel (lo hi : ℝ) (s : ℝ≥0) : Kernel ℝ ℝ := (walk s).map (bounce lo hi)

theorem reflectKernel_apply (lo hi : ℝ) (s : ℝ≥0) (hs : s ≠ 0) (x : ℝ) : reflectKernel lo hi s x = reflectLaw lo hi s x := by
  ext B hB
  rw [reflectKernel, Kernel.map_apply' _ (measurable_bounce lo hi) _ hB, walk_apply s hs, reflectLaw_apply _ _ _ _ _ hB]

/-- **C11 fails at the ends of the box.** Even for a constant posterior, one iteration with the reflected proposal does not leave the uniform distribution on the box
invariant: it moves a positive amount of probability onto the lower end. -/
theorem reflect_mh_not_invariant (lo hi : ℝ) (h : lo < hi) (s : ℝ≥0) (hs : s ≠ 0) :
    ¬ (mhKernel (reflectKernel lo hi s) (fun _ => 0)).Invariant (volume.restrict (Icc lo hi)) := by
  intro hinv
  have hmk : IsMarkovKernel (reflectKernel lo hi s) := by
    have := walk_markov s hs
    exact Kernel.IsMarkovKernel.map _ (measurable_bounce lo hi)
  have e : (volume.restrict (Icc lo hi)).bind (mhKernel (reflectKernel lo hi s) (fun _ => 0)) {lo} = (volume.restrict (Icc lo hi)) {lo} := by
    rw [hinv.def]
  rw [Measure.bind_apply (measurableSet_singleton lo) (Kernel.aemeasurable _)] at e
  have e0 : (volume.restrict (Icc lo hi)) {lo} = 0 := by
    rw [Measure.restrict_apply (measurableSet_singleton lo)]
    exact measure_mono_null inter_subset_left (by simp)
  have ek : ∀ x, mhKernel (reflectKernel lo hi s) (fun _ => 0) x {lo} = reflectLaw lo hi s x {lo} := by
    intro x
    rw [mhKernel_apply _ _ measurable_const _ (measurableSet_singleton lo), reflectKernel_apply _ _ _ hs]
    simp only [sub_self, Real.exp_zero, min_self, ENNReal.ofReal_one, one_mul, ENNReal.ofReal_zero, zero_mul, add_zero]
    rw [lintegral_indicator_one (measurableSet_singleton lo)]
  simp only [ek] at e
  rw [e0] at e
  have hpos := (reflect_not_symmetric lo hi h s hs).1
  have hle : ∫⁻ x in Ioo lo hi, reflectLaw lo hi s x {lo} ≤ ∫⁻ x in Icc lo hi, reflectLaw lo hi s x {lo} :=
    lintegral_mono_set Ioo_subset_Icc_self
  rw [e] at hle
  exact absurd hpos (not_lt.2 hle)

/-! ## Several parameters -/

theorem lintegral_pi_prod : ∀ (d : Nat) (μ : Fin d → Measure ℝ) [∀ i, SigmaFinite (μ i)] (f : Fin d → ℝ → ℝ≥0∞) (_ : ∀ i, Measurable (f i)),
    ∫⁻ y, ∏ i, f i (y i) ∂(Measure.pi μ) = ∏ i, ∫⁻ t, f i t ∂(μ i) := by
  intro d
  induction d with
  | zero => intro μ _ f _; simp
  | succ d ih =>
    intro μ _ f hf
    have hmp := measurePreserving_piFinSuccAbove μ 0
    have hg : Measurable (fun p : ℝ × (Fin d → ℝ) => f 0 p.1 * ∏ i : Fin d, f i.succ (p.2 i)) := by
      have := hf 0
      refine Measurable.mul (by fun_prop) (Finset.measurable_prod _ fun i _ => (hf i.succ).comp (by fun_prop))
    have e : ∀ y : Fin (d + 1) → ℝ, ∏ i, f i (y i) =
        (fun p : ℝ × (Fin d → ℝ) => f 0 p.1 * ∏ i : Fin d, f i.succ (p.2 i)) (MeasurableEquiv.piFinSuccAbove (fun _ => ℝ) 0 y) := by
      intro y
      rw [Fin.prod_univ_succ]
      rfl
    have hg2 : Measurable (fun y : Fin d → ℝ => ∏ i : Fin d, f i.succ (y i)) :=
      Finset.measurable_prod _ fun i _ => (hf i.succ).comp (measurable_pi_apply i)
    simp only [e]
    rw [hmp.lintegral_comp hg, lintegral_prod_mul (g := fun y : Fin d → ℝ => ∏ i : Fin d, f i.succ (y i)) (hf 0).aemeasurable hg2.aemeasurable,
      Fin.prod_univ_succ]
    congr 1
    exact ih (fun i => μ i.succ) (fun i => f i.succ) (fun i => hf i.succ)

/-- The law of the proposal for `d` parameters: independent normal numbers, each reflected into its range. -/
noncomputable def reflectLawVec {d : Nat} (lo hi : Fin d → ℝ) (s : Fin d → ℝ≥0) (x : Fin d → ℝ) : Measure (Fin d → ℝ) :=
  (Measure.pi fun _ => gaussianReal 0 1).map (fun z i => bounce (lo i) (hi i) (x i +. z i *. (s i : ℝ)))

/-- Its density inside the box. -/
noncomputable def Spec.reflectDensityVec {d : Nat} (lo hi : Fin d → ℝ) (s : Fin d → ℝ≥0) (x y : Fin d → ℝ) : ℝ≥0∞ :=
  ∏ i, Spec.reflectDensity (lo i) (hi i) (s i) (x i) (y i)

theorem reflectLawVec_pi {d : Nat} (lo hi : Fin d → ℝ) (s : Fin d → ℝ≥0) (x : Fin d → ℝ) :
    reflectLawVec lo hi s x = Measure.pi fun i => reflectLaw (lo i) (hi i) (s i) (x i) := by
  rw [reflectLawVec]
  exact Measure.pi_map_pi (fun i => (measurable_move (lo i) (hi i) (s i) (x i)).aemeasurable)

/-- **C45 (partial), all parameters.** Strictly inside the box the proposal of all parameters together has a density that is symmetric in the two points. -/
theorem reflect_symmetric_all_partial {d : Nat} (lo hi : Fin d → ℝ) (h : ∀ i, lo i < hi i) (s : Fin d → ℝ≥0) (hs : ∀ i, s i ≠ 0) :
    (∀ x (B : Set (Fin d → ℝ)), MeasurableSet B → B ⊆ Set.pi univ (fun i => Ioo (lo i) (hi i)) →
      reflectLawVec lo hi s x B = ∫⁻ y in B, Spec.reflectDensityVec lo hi s x y) ∧
    (∀ x y, Spec.reflectDensityVec lo hi s x y = Spec.reflectDensityVec lo hi s y x) := by
  refine ⟨fun x B hB hsub => ?_, fun x y => Finset.prod_congr rfl fun i _ => reflectDensity_symm _ _ _ _ _⟩
  have hprob : ∀ i, IsProbabilityMeasure (reflectLaw (lo i) (hi i) (s i) (x i)) := fun i =>
    Measure.isProbabilityMeasure_map (measurable_move _ _ _ _).aemeasurable
  set box := Set.pi univ (fun i => Ioo (lo i) (hi i)) with hbox
  have hboxm : MeasurableSet box := MeasurableSet.univ_pi fun i => measurableSet_Ioo
  have hr : ∀ i, (reflectLaw (lo i) (hi i) (s i) (x i)).restrict (Ioo (lo i) (hi i)) =
      (volume.restrict (Ioo (lo i) (hi i))).withDensity (Spec.reflectDensity (lo i) (hi i) (s i) (x i)) := by
    intro i
    ext C hC
    rw [Measure.restrict_apply hC, withDensity_apply _ hC, Measure.restrict_restrict hC]
    exact reflect_density _ _ (h i) _ (hs i) _ _ (hC.inter measurableSet_Ioo) inter_subset_right
  have hfin : ∀ i, IsFiniteMeasure ((volume.restrict (Ioo (lo i) (hi i))).withDensity (Spec.reflectDensity (lo i) (hi i) (s i) (x i))) := by
    intro i
    rw [← hr i]
    infer_instance
  have hpi : Measure.pi (fun i => (volume.restrict (Ioo (lo i) (hi i))).withDensity (Spec.reflectDensity (lo i) (hi i) (s i) (x i))) =
      (volume.restrict box).withDensity (Spec.reflectDensityVec lo hi s x) := by
    refine Measure.pi_eq fun C hC => ?_
    rw [withDensity_apply _ (MeasurableSet.univ_pi hC), Measure.restrict_restrict (MeasurableSet.univ_pi hC), hbox, ← Set.pi_inter_distrib, volume_pi,
      Measure.restrict_pi_pi]
    simp only [Spec.reflectDensityVec]
    rw [lintegral_pi_prod _ _ _ (fun i => measurable_reflectDensity _ _ _ _)]
    refine Finset.prod_congr rfl fun i _ => ?_
    rw [withDensity_apply _ (hC i), Measure.restrict_restrict (hC i)]
  have e1 : reflectLawVec lo hi s x B = ((reflectLawVec lo hi s x).restrict box) B := by
    rw [Measure.restrict_apply hB, inter_eq_left.2 hsub]
  rw [e1, reflectLawVec_pi, hbox, Measure.restrict_pi_pi]
  simp only [hr]
  rw [hpi, withDensity_apply _ hB, Measure.restrict_restrict hB, inter_eq_left.2 hsub]

/-- The hypotheses can be met: the two-dimensional box of the Gaussian mixture with the initial widths of its sample input. -/
example : (∀ i : Fin 2, (fun _ => (-30 : ℝ)) i < (fun _ => (30 : ℝ)) i) ∧ ∀ i : Fin 2, (fun _ => (6 : ℝ≥0)) i ≠ 0 := by
  refine ⟨fun _ => by norm_num, fun _ => by norm_num⟩

/-- The box and the width of the Gaussian mixture: the flow from the left half to the right half is the flow back. -/
example : ∫⁻ x in Ioo (-30) 0, reflectLaw (-30) 30 6 x (Ioo 0 30) = ∫⁻ x in Ioo 0 30, reflectLaw (-30) 30 6 x (Ioo (-30) 0) :=
  (reflect_symmetric_partial (-30) 30 (by norm_num) 6 (by norm_num)).2.2 _ _ measurableSet_Ioo measurableSet_Ioo (Ioo_subset_Ioo_right (by norm_num))
    (Ioo_subset_Ioo_left (by norm_num))
example : 0 < ∫⁻ x in Ioo (-30) 30, reflectLaw (-30) 30 6 x {-30} := (reflect_not_symmetric (-30) 30 (by norm_num) 6 (by norm_num)).1
example : ¬ (mhKernel (reflectKernel (-30) 30 6) (fun _ => 0)).Invariant (volume.restrict (Icc (-30) 30)) :=
  reflect_mh_not_invariant (-30) 30 (by norm_num) 6 (by norm_num)

end NiiC
