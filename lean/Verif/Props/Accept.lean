import Verif.Props.State
import Verif.Num.Real
import Mathlib.Probability.Kernel.Invariance
import Mathlib.Probability.Kernel.Composition.Prod
import Mathlib.Probability.Kernel.Composition.MeasureCompProd
import Mathlib.Probability.Kernel.WithDensity
import Mathlib.MeasureTheory.Constructions.Pi
import Mathlib.MeasureTheory.Measure.Lebesgue.Basic
import Mathlib.Probability.Distributions.Gaussian.Real

/-!
# The acceptance rules: C10, C11, C21

Exact arithmetic. The draw is a point of [0, 1); where probability is meant it has Lebesgue measure.
-/

set_option linter.unusedSectionVars false

namespace NiiC

open MeasureTheory ProbabilityTheory Set RealArith
open scoped ENNReal

/-! ## C10 -/

/-- The test of `mhAccept` with a number `u` in place of the draw: mpi_batch.c:209-235 with `q_factor = 1`. -/
noncomputable def mhTest (new old u : ℝ) : Bool :=
  (Arith.log (ofI 1 /. ofI 1) <. (new -. old)) || (u <. (Arith.exp (new -. old) *. ofI 1))

theorem mhAccept_test [Source ℝ] (new old : ℝ) (g : Rng) : (mhAccept new old (ofI 1) g).1 = mhTest new old (drand48 (F := ℝ) g).1 := by
  unfold mhAccept mhTest
  split
  · rename_i h; simp only [h, Bool.true_or]
  · rename_i h; simp only [Bool.eq_false_iff.2 h, Bool.false_or]

theorem mhTest_iff (new old u : ℝ) (h1 : u < 1) : mhTest new old u = true ↔ u < min 1 (Real.exp (new - old)) := by
  simp only [mhTest, Bool.or_eq_true, lt_iff, log_eq, ofI_eq, div_eq, sub_eq, mul_eq, exp_eq, Int.cast_one, div_one, Real.log_one,
    mul_one, lt_min_iff, h1, true_and]
  constructor
  · rintro (h | h)
    · exact h1.trans (Real.one_lt_exp_iff.2 h)
    · exact h
  · exact .inr

/-- **C10.** The test made in a batch accepts exactly when the draw is below `min(1, exp(delta))`. -/
theorem mh_accept_iff [Source ℝ] [UnitDraws] (new old : ℝ) (g : Rng) :
    (mhAccept new old (ofI 1) g).1 = true ↔ (drand48 (F := ℝ) g).1 < min 1 (Real.exp (new - old)) := by
  rw [mhAccept_test]
  exact mhTest_iff new old _ (UnitDraws.mem g).2

theorem min_exp_mem (d : ℝ) : 0 < min 1 (Real.exp d) ∧ min 1 (Real.exp d) ≤ 1 :=
  ⟨lt_min one_pos (Real.exp_pos d), min_le_left _ _⟩

theorem volume_below (a : ℝ) (h1 : a ≤ 1) : volume {u | u ∈ Ico (0 : ℝ) 1 ∧ u < a} = ENNReal.ofReal a := by
  have : {u | u ∈ Ico (0 : ℝ) 1 ∧ u < a} = Ico 0 a := by
    ext u; simp only [mem_ofPred_eq, mem_Ico]; constructor
    · rintro ⟨⟨h, _⟩, h'⟩; exact ⟨h, h'⟩
    · rintro ⟨h, h'⟩; exact ⟨⟨h, h'.trans_le h1⟩, h'⟩
  rw [this, Real.volume_Ico, sub_zero]

/-- **C10.** The accepting draws have measure `min(1, exp(delta))`. -/
theorem mh_accept_measure (new old : ℝ) :
    volume {u | u ∈ Ico (0 : ℝ) 1 ∧ mhTest new old u = true} = ENNReal.ofReal (min 1 (Real.exp (new - old))) := by
  rw [← volume_below _ (min_exp_mem _).2]
  congr 1
  ext u
  simp only [mem_ofPred_eq, and_congr_right_iff]
  exact fun h => mhTest_iff new old u h.2

/-! ### The same for the 48-bit generator -/

/-- `lcgNext` is injective on states: the multiplier is odd. -/
theorem lcgNext_inj {x y : Rng} (hx : x < lcgM) (hy : y < lcgM) (h : lcgNext x = lcgNext y) : x = y := by
  have h1 : lcgA * x + lcgC ≡ lcgA * y + lcgC [MOD lcgM] := h
  have h2 : lcgA * x ≡ lcgA * y [MOD lcgM] := Nat.ModEq.add_right_cancel' _ h1
  have h3 : x ≡ y [MOD lcgM] := Nat.ModEq.cancel_left_of_coprime (by decide) h2
  rw [Nat.ModEq, Nat.mod_eq_of_lt hx, Nat.mod_eq_of_lt hy] at h3
  exact h3

theorem card_draw (p : Nat → Prop) [DecidablePred p] :
    ((Finset.range lcgM).filter (fun g => p (lcgNext g))).card = ((Finset.range lcgM).filter p).card := by
  have himg : (Finset.range lcgM).image lcgNext = Finset.range lcgM := by
    apply Finset.eq_of_subset_of_card_le
    · intro x hx
      obtain ⟨g, _, rfl⟩ := Finset.mem_image.1 hx
      exact Finset.mem_range.2 (lcgNext_lt g)
    · rw [Finset.card_image_of_injOn]
      intro x hx y hy h
      exact lcgNext_inj (Finset.mem_range.1 hx) (Finset.mem_range.1 hy) h
  conv_rhs => rw [← himg]
  rw [Finset.filter_image, Finset.card_image_of_injOn]
  intro x hx y hy h
  exact lcgNext_inj (Finset.mem_range.1 (Finset.mem_filter.1 hx).1) (Finset.mem_range.1 (Finset.mem_filter.1 hy).1) h

theorem card_below (a : ℝ) (h1 : a ≤ 1) :
    ((Finset.range lcgM).filter (fun x : Nat => (x : ℝ) / (lcgM : ℝ) < a)).card = ⌈a * lcgM⌉₊ := by
  have hM : (0 : ℝ) < (lcgM : ℝ) := by norm_num [lcgM]
  have : (Finset.range lcgM).filter (fun x : Nat => (x : ℝ) / (lcgM : ℝ) < a) = Finset.range ⌈a * lcgM⌉₊ := by
    ext x
    simp only [Finset.mem_filter, Finset.mem_range, div_lt_iff₀ hM, Nat.lt_ceil, and_iff_right_iff_imp]
    intro h
    have : (x : ℝ) < lcgM := h.trans_le (by nlinarith)
    exact_mod_cast this
  rw [this, Finset.card_range]

/-- **C10, the generator as it is.** Of the `2^48` states of `drand48`, exactly `ceil(2^48 * min(1, exp(delta)))` accept, so the
acceptance probability over a uniformly distributed state differs from `min(1, exp(delta))` by less than `2^-48`. -/
theorem mh_accept_count (new old : ℝ) :
    ((Finset.range lcgM).filter (fun g => (mhAccept new old (ofI 1) g).1 = true)).card = ⌈min 1 (Real.exp (new - old)) * lcgM⌉₊ := by
  classical
  rw [← card_below _ (min_exp_mem (new - old)).2, ← card_draw (fun x : Nat => (x : ℝ) / (lcgM : ℝ) < min 1 (Real.exp (new - old)))]
  refine congrArg Finset.card (Finset.filter_congr (fun g _ => ?_))
  rw [mh_accept_iff]
  simp only [drand48_posix, lit_eq, Int.cast_natCast]

/-! ## C11 -/

section
variable {α : Type*} [MeasurableSpace α]

/-- The density `exp(lp)` of the target with respect to the base measure. -/
noncomputable def dens (lp : α → ℝ) (x : α) : ℝ≥0∞ := ENNReal.ofReal (Real.exp (lp x))

/-- **C11, pointwise.** For a symmetric proposal the flow from `x` to `y` equals the flow from `y` to `x`. -/
theorem balance (lp : α → ℝ) (x y : α) :
    dens lp x * volume {u | u ∈ Ico (0 : ℝ) 1 ∧ mhTest (lp y) (lp x) u = true} =
      dens lp y * volume {u | u ∈ Ico (0 : ℝ) 1 ∧ mhTest (lp x) (lp y) u = true} := by
  rw [mh_accept_measure, mh_accept_measure, dens, dens, ← ENNReal.ofReal_mul (Real.exp_pos _).le,
    ← ENNReal.ofReal_mul (Real.exp_pos _).le]
  congr 1
  rw [mul_min_of_nonneg _ _ (Real.exp_pos _).le, mul_min_of_nonneg _ _ (Real.exp_pos _).le, ← Real.exp_add, ← Real.exp_add,
    mul_one, mul_one, add_sub_cancel, add_sub_cancel, min_comm]

/-- A uniform draw. -/
noncomputable def unif : Measure ℝ := volume.restrict (Ico 0 1)

instance : IsProbabilityMeasure unif := ⟨by simp [unif, Real.volume_Ico]⟩

/-- The update made by one iteration: with the proposal `y` and the draw `u`, move or stay. -/
noncomputable def mhMove (lp : α → ℝ) (p : α × α × ℝ) : α := if mhTest (lp p.2.1) (lp p.1) p.2.2 then p.2.1 else p.1

theorem mhTest_set (lp : α → ℝ) (hlp : Measurable lp) : MeasurableSet {p : α × α × ℝ | mhTest (lp p.2.1) (lp p.1) p.2.2 = true} := by
  have : {p : α × α × ℝ | mhTest (lp p.2.1) (lp p.1) p.2.2 = true} =
      {p | 0 < lp p.2.1 - lp p.1} ∪ {p | p.2.2 < Real.exp (lp p.2.1 - lp p.1)} := by
    ext p
    simp only [mhTest, Bool.or_eq_true, lt_iff, log_eq, ofI_eq, div_eq, sub_eq, mul_eq, exp_eq, Int.cast_one, div_one, Real.log_one,
      mul_one, mem_ofPred_eq, mem_union]
  rw [this]
  have h1 : Measurable (fun p : α × α × ℝ => lp p.2.1 - lp p.1) :=
    (hlp.comp (measurable_fst.comp measurable_snd)).sub (hlp.comp measurable_fst)
  exact (measurableSet_lt measurable_const h1).union (measurableSet_lt (measurable_snd.comp measurable_snd) (Real.measurable_exp.comp h1))

theorem measurable_mhMove (lp : α → ℝ) (hlp : Measurable lp) : Measurable (mhMove lp) :=
  Measurable.ite (mhTest_set lp hlp) (measurable_fst.comp measurable_snd) measurable_fst

/-- One iteration as a Markov kernel: the proposal is drawn from `q`, the number compared with from [0, 1). -/
noncomputable def mhKernel (q : Kernel α α) (lp : α → ℝ) : Kernel α α :=
  (Kernel.id ×ₖ (q ×ₖ Kernel.const α unif)).map (mhMove lp)

theorem mhKernel_apply (q : Kernel α α) [IsMarkovKernel q] (lp : α → ℝ) (hlp : Measurable lp) (x : α) {B : Set α} (hB : MeasurableSet B) :
    mhKernel q lp x B = ∫⁻ y, (ENNReal.ofReal (min 1 (Real.exp (lp y - lp x))) * B.indicator 1 y +
      ENNReal.ofReal (1 - min 1 (Real.exp (lp y - lp x))) * B.indicator 1 x) ∂(q x) := by
  have hm := measurable_mhMove lp hlp
  rw [mhKernel, Kernel.map_apply' _ hm _ hB, Kernel.prod_apply, Kernel.id_apply, Measure.dirac_prod,
    Measure.map_apply measurable_prodMk_left (hm hB), Kernel.prod_apply, Kernel.const_apply,
    Measure.prod_apply (measurable_prodMk_left (hm hB))]
  refine lintegral_congr (fun y => ?_)
  set a := min 1 (Real.exp (lp y - lp x)) with ha
  have ha0 : 0 < a := (min_exp_mem _).1
  have ha1 : a ≤ 1 := (min_exp_mem _).2
  have hs : ∀ u ∈ Ico (0 : ℝ) 1, mhMove lp (x, y, u) = if u < a then y else x := by
    intro u hu
    simp only [mhMove, mhTest_iff _ _ _ hu.2, ← ha]
  have hset : MeasurableSet (Prod.mk y ⁻¹' (Prod.mk x ⁻¹' (mhMove lp ⁻¹' B))) := measurable_prodMk_left (measurable_prodMk_left (hm hB))
  rw [unif, Measure.restrict_apply hset]
  have e : Prod.mk y ⁻¹' (Prod.mk x ⁻¹' (mhMove lp ⁻¹' B)) ∩ Ico 0 1 =
      ({u | u ∈ Ico (0 : ℝ) a ∧ y ∈ B}) ∪ ({u | u ∈ Ico a 1 ∧ x ∈ B}) := by
    ext u
    simp only [mem_inter_iff, mem_preimage, mem_union, mem_ofPred_eq]
    constructor
    · rintro ⟨h, hu⟩
      rw [hs u hu] at h
      by_cases hua : u < a
      · rw [if_pos hua] at h; exact .inl ⟨⟨hu.1, hua⟩, h⟩
      · rw [if_neg hua] at h; exact .inr ⟨⟨not_lt.1 hua, hu.2⟩, h⟩
    · rintro (⟨⟨h1, h2⟩, h⟩ | ⟨⟨h1, h2⟩, h⟩)
      · have hu : u ∈ Ico (0 : ℝ) 1 := ⟨h1, h2.trans_le ha1⟩
        rw [hs u hu, if_pos h2]; exact ⟨h, hu⟩
      · have hu : u ∈ Ico (0 : ℝ) 1 := ⟨ha0.le.trans h1, h2⟩
        rw [hs u hu, if_neg (not_lt.2 h1)]; exact ⟨h, hu⟩
  have v : ∀ (s t : ℝ) (p : Prop) [Decidable p], volume {u | u ∈ Ico s t ∧ p} = ENNReal.ofReal (t - s) * (if p then 1 else 0) := by
    intro s t p _
    by_cases hp : p
    · have : {u | u ∈ Ico s t ∧ p} = Ico s t := by ext u; simp [hp]
      rw [this, Real.volume_Ico, if_pos hp, mul_one]
    · simp [hp]
  have m : ∀ (s t : ℝ) (p : Prop), MeasurableSet {u | u ∈ Ico s t ∧ p} := by
    intro s t p
    by_cases hp : p
    · simp only [hp, and_true]; exact measurableSet_Ico
    · simp only [hp, and_false, ofPred_false]; exact MeasurableSet.empty
  classical
  rw [e, measure_union _ (m _ _ _), v, v, sub_zero]
  · simp [indicator_apply]
  · rw [Set.disjoint_left]
    rintro u ⟨h1, _⟩ ⟨h2, _⟩
    exact absurd h1.2 (not_lt.2 h2.1)

/-- A proposal is symmetric with respect to a base measure: choosing `x` from the base measure and then proposing `y` has the same law
as the other way round. -/
def SymmetricProposal (μ : Measure α) (q : Kernel α α) : Prop := (μ ⊗ₘ q).map Prod.swap = μ ⊗ₘ q

theorem SymmetricProposal.swap {μ : Measure α} [SFinite μ] {q : Kernel α α} [IsMarkovKernel q] (h : SymmetricProposal μ q)
    (f : α → α → ℝ≥0∞) (hf : Measurable (Function.uncurry f)) :
    ∫⁻ x, ∫⁻ y, f x y ∂(q x) ∂μ = ∫⁻ x, ∫⁻ y, f y x ∂(q x) ∂μ := by
  have h1 := Measure.lintegral_compProd (μ := μ) (κ := q) hf
  have h2 := Measure.lintegral_compProd (μ := μ) (κ := q) (hf.comp measurable_swap)
  have h3 : ∫⁻ p, Function.uncurry f p ∂(μ ⊗ₘ q) = ∫⁻ p, (Function.uncurry f ∘ Prod.swap) p ∂(μ ⊗ₘ q) := by
    conv_lhs => rw [← h]
    rw [lintegral_map hf measurable_swap]
    rfl
  rw [h1, h2] at h3
  exact h3

/-- The tempered posterior: density `exp(lp)` with respect to the base measure (Lebesgue measure on the prior box). -/
noncomputable def posterior (μ : Measure α) (lp : α → ℝ) : Measure α := μ.withDensity (dens lp)

theorem measurable_dens {lp : α → ℝ} (h : Measurable lp) : Measurable (dens lp) := (Real.measurable_exp.comp h).ennreal_ofReal

/-- **C11.** For a symmetric proposal the iteration satisfies detailed balance for the tempered posterior. -/
theorem mh_reversible (μ : Measure α) [SFinite μ] (q : Kernel α α) [IsMarkovKernel q] (hq : SymmetricProposal μ q) (lp : α → ℝ)
    (hlp : Measurable lp) : (mhKernel q lp).IsReversible (posterior μ lp) := by
  intro A B hA hB
  have hd := measurable_dens hlp
  have hpair : Measurable (fun p : α × α => min 1 (Real.exp (lp p.2 - lp p.1))) :=
    measurable_const.min (Real.measurable_exp.comp ((hlp.comp measurable_snd).sub (hlp.comp measurable_fst)))
  have key : ∀ A B : Set α, MeasurableSet A → MeasurableSet B → ∫⁻ x in A, mhKernel q lp x B ∂(posterior μ lp) =
      (∫⁻ x, ∫⁻ y, A.indicator 1 x * B.indicator 1 y * (dens lp x * ENNReal.ofReal (min 1 (Real.exp (lp y - lp x)))) ∂(q x) ∂μ) +
      ∫⁻ x, ∫⁻ y, A.indicator 1 x * B.indicator 1 x * (dens lp x * ENNReal.ofReal (1 - min 1 (Real.exp (lp y - lp x)))) ∂(q x) ∂μ := by
    intro A B hA hB
    have i1 : Measurable (fun p : α × α => (A.indicator 1 p.1 : ℝ≥0∞)) := (measurable_one.indicator hA).comp measurable_fst
    have i2 : Measurable (fun p : α × α => (B.indicator 1 p.2 : ℝ≥0∞)) := (measurable_one.indicator hB).comp measurable_snd
    have i3 : Measurable (fun p : α × α => (B.indicator 1 p.1 : ℝ≥0∞)) := (measurable_one.indicator hB).comp measurable_fst
    have m1 : Measurable (fun p : α × α => A.indicator 1 p.1 * B.indicator 1 p.2 *
        (dens lp p.1 * ENNReal.ofReal (min 1 (Real.exp (lp p.2 - lp p.1))))) :=
      (i1.mul i2).mul ((hd.comp measurable_fst).mul hpair.ennreal_ofReal)
    have m2 : Measurable (fun p : α × α => A.indicator 1 p.1 * B.indicator 1 p.1 *
        (dens lp p.1 * ENNReal.ofReal (1 - min 1 (Real.exp (lp p.2 - lp p.1))))) :=
      (i1.mul i3).mul ((hd.comp measurable_fst).mul (measurable_const.sub hpair).ennreal_ofReal)
    rw [posterior, setLIntegral_withDensity_eq_setLIntegral_mul μ hd (Kernel.measurable_coe _ hB) hA, ← lintegral_indicator hA,
      ← lintegral_add_left (Measurable.lintegral_kernel_prod_right' m1)]
    refine lintegral_congr (fun x => ?_)
    have n1 : Measurable (fun y => A.indicator 1 x * B.indicator 1 y * (dens lp x * ENNReal.ofReal (min 1 (Real.exp (lp y - lp x))))) :=
      m1.comp measurable_prodMk_left
    rw [← lintegral_add_left n1]
    by_cases hx : x ∈ A
    · rw [indicator_of_mem hx, Pi.mul_apply, mhKernel_apply q lp hlp x hB, ← lintegral_const_mul']
      · refine lintegral_congr (fun y => ?_)
        simp only [indicator_of_mem hx, Pi.one_apply, one_mul]
        ring
      · exact ENNReal.ofReal_ne_top
    · simp [indicator_of_notMem hx]
  rw [key A B hA hB, key B A hB hA]
  congr 1
  · rw [hq.swap _ ?_]
    · refine lintegral_congr (fun x => lintegral_congr (fun y => ?_))
      have hb := balance lp x y
      rw [mh_accept_measure, mh_accept_measure] at hb
      rw [hb]
      ring
    · have i1 : Measurable (fun p : α × α => (A.indicator 1 p.1 : ℝ≥0∞)) := (measurable_one.indicator hA).comp measurable_fst
      have i2 : Measurable (fun p : α × α => (B.indicator 1 p.2 : ℝ≥0∞)) := (measurable_one.indicator hB).comp measurable_snd
      exact (i1.mul i2).mul ((hd.comp measurable_fst).mul hpair.ennreal_ofReal)
  · refine lintegral_congr (fun x => lintegral_congr (fun y => ?_))
    ring

/-- **C11.** Hence the iteration leaves the tempered posterior invariant. -/
theorem mh_invariant (μ : Measure α) [SFinite μ] (q : Kernel α α) [IsMarkovKernel q] (hq : SymmetricProposal μ q) (lp : α → ℝ)
    (hlp : Measurable lp) : (mhKernel q lp).Invariant (posterior μ lp) := by
  have : IsMarkovKernel (mhKernel q lp) := Kernel.IsMarkovKernel.map _ (measurable_mhMove lp hlp)
  exact (mh_reversible μ q hq lp hlp).invariant

/-- Any number of iterations leaves it invariant. -/
theorem mh_iter_invariant (μ : Measure α) [SFinite μ] (q : Kernel α α) [IsMarkovKernel q] (hq : SymmetricProposal μ q) (lp : α → ℝ)
    (hlp : Measurable lp) (k : Nat) : ((fun κ => mhKernel q lp ∘ₖ κ)^[k] Kernel.id).Invariant (posterior μ lp) := by
  induction k with
  | zero =>
    simp only [Function.iterate_zero, id_eq]
    show (posterior μ lp).bind _ = _
    simp
  | succ k ih =>
    rw [Function.iterate_succ_apply']
    exact (mh_invariant μ q hq lp hlp).comp ih

/-- A proposal with a symmetric density is symmetric. -/
theorem SymmetricProposal.of_density {μ : Measure α} [SFinite μ] (k : α → α → ℝ≥0∞) (hk : Measurable (Function.uncurry k))
    (hs : ∀ x y, k x y = k y x) {q : Kernel α α} [IsMarkovKernel q] (hq : ∀ x, q x = μ.withDensity (k x)) : SymmetricProposal μ q := by
  unfold SymmetricProposal
  ext s hs'
  rw [Measure.map_apply measurable_swap hs', Measure.compProd_apply (measurable_swap hs'), Measure.compProd_apply hs']
  have e : ∀ (s : Set (α × α)), MeasurableSet s → ∫⁻ x, q x (Prod.mk x ⁻¹' s) ∂μ = ∫⁻ x, ∫⁻ y, s.indicator (Function.uncurry k) (x, y) ∂μ ∂μ := by
    intro s hs
    refine lintegral_congr (fun x => ?_)
    rw [hq x, withDensity_apply _ (measurable_prodMk_left hs), ← lintegral_indicator (measurable_prodMk_left hs)]
    rfl
  rw [e s hs', e _ (measurable_swap hs'), lintegral_lintegral_swap]
  · classical
    refine lintegral_congr (fun x => lintegral_congr (fun y => ?_))
    simp only [indicator_apply, mem_preimage, Prod.swap_prod_mk, Function.uncurry_apply_pair, hs y x]
  · exact (hk.indicator (measurable_swap hs')).aemeasurable

/-- Proposing the image under a measure-preserving involution is symmetric. -/
theorem SymmetricProposal.of_involution {μ : Measure α} [SFinite μ] (f : α → α) (hf : MeasurePreserving f μ μ) (hi : ∀ x, f (f x) = x) :
    SymmetricProposal μ (Kernel.deterministic f hf.measurable) := by
  unfold SymmetricProposal
  ext s hs
  rw [Measure.map_apply measurable_swap hs, Measure.compProd_apply (measurable_swap hs), Measure.compProd_apply hs]
  have hm : Measurable (fun x => (Kernel.deterministic f hf.measurable) x (Prod.mk x ⁻¹' s)) := Kernel.measurable_kernel_prodMk_left hs
  rw [← hf.lintegral_comp hm]
  refine lintegral_congr (fun x => ?_)
  rw [Kernel.deterministic_apply' _ _ (measurable_prodMk_left (measurable_swap hs)), Kernel.deterministic_apply' _ _ (measurable_prodMk_left hs)]
  classical
  simp [indicator_apply, hi]

end

/-- One iteration of the program is this move: the proposal is the reflected Gaussian step, the number compared with is the next draw. -/
theorem mhStep_move [Source ℝ] (u : User ℝ) (sigma : List ℝ) (nline : Int) (data : List ℝ) (beta : ℝ) (c : Spec.Ch ℝ)
    (h : c.lp = Spec.target u nline data beta c.x) :
    (Spec.mhStep u sigma nline data beta c).x =
      (if mhTest (Spec.target u nline data beta (u.boundary (Spec.propose c.x sigma c.g).1)) (Spec.target u nline data beta c.x)
        (drand48 (F := ℝ) (Spec.propose c.x sigma c.g).2).1 then u.boundary (Spec.propose c.x sigma c.g).1 else c.x) ∧
    (Spec.mhStep u sigma nline data beta c).lp = Spec.target u nline data beta (Spec.mhStep u sigma nline data beta c).x := by
  rw [← h, ← mhAccept_test]
  unfold Spec.mhStep
  simp only
  have e : Spec.accept (Spec.target u nline data beta (u.boundary (Spec.propose c.x sigma c.g).1)) c.lp (Spec.propose c.x sigma c.g).2 =
      mhAccept (Spec.target u nline data beta (u.boundary (Spec.propose c.x sigma c.g).1)) c.lp (ofI 1) (Spec.propose c.x sigma c.g).2 := rfl
  rw [e]
  split
  · exact ⟨rfl, rfl⟩
  · exact ⟨rfl, h⟩

/-- A step of the demo model from (1, 2), with the widths 1/2 and 1/4 and the inverse temperature 1/10. -/
example (g : Rng) : (Spec.mhStep demoUser [1 / 2, 1 / 4] 0 [] (1 / 10) ⟨[1, 2], Spec.target demoUser 0 [] (1 / 10) [1, 2], 0, 0, g⟩).lp =
    Spec.target demoUser 0 [] (1 / 10) (Spec.mhStep demoUser [1 / 2, 1 / 4] 0 [] (1 / 10) ⟨[1, 2], Spec.target demoUser 0 [] (1 / 10) [1, 2], 0, 0, g⟩).x :=
  (mhStep_move demoUser _ 0 [] _ ⟨[1, 2], _, 0, 0, g⟩ rfl).2

/-- The Gaussian random walk of width `s` on the line. -/
noncomputable def walk (s : NNReal) : Kernel ℝ ℝ := (Kernel.const ℝ volume).withDensity (fun x y => gaussianPDF x (s ^ 2) y)

theorem measurable_walk_pdf (s : NNReal) : Measurable (Function.uncurry fun x y : ℝ => gaussianPDF x (s ^ 2) y) := by
  unfold gaussianPDF gaussianPDFReal
  fun_prop

theorem walk_apply (s : NNReal) (hs : s ≠ 0) (x : ℝ) : walk s x = gaussianReal x (s ^ 2) := by
  rw [walk, Kernel.withDensity_apply _ (measurable_walk_pdf s), Kernel.const_apply, gaussianReal_of_var_ne_zero _ (pow_ne_zero 2 hs)]

theorem walk_markov (s : NNReal) (hs : s ≠ 0) : IsMarkovKernel (walk s) :=
  ⟨fun x => by rw [walk_apply s hs]; infer_instance⟩

/-- The Gaussian random walk is symmetric with respect to Lebesgue measure, so the hypotheses of the theorems can be met. -/
theorem walk_symmetric (s : NNReal) (hs : s ≠ 0) : SymmetricProposal volume (walk s) := by
  have := walk_markov s hs
  refine SymmetricProposal.of_density (fun x y => gaussianPDF x (s ^ 2) y) (measurable_walk_pdf s) (fun x y => ?_) (fun x => ?_)
  · simp only [gaussianPDF, gaussianPDFReal]
    rw [← neg_sub x y, neg_sq]
  · rw [walk_apply s hs, gaussianReal_of_var_ne_zero _ (pow_ne_zero 2 hs)]

example : (mhKernel (walk 1) (fun x => -x ^ 2)).Invariant (posterior volume fun x => -x ^ 2) :=
  have := walk_markov 1 one_ne_zero
  mh_invariant volume (walk 1) (walk_symmetric 1 one_ne_zero) _ (by fun_prop)

example : (mhKernel (walk 1) (fun x => -x ^ 2)).IsReversible (posterior volume fun x => -x ^ 2) :=
  have := walk_markov 1 one_ne_zero
  mh_reversible volume (walk 1) (walk_symmetric 1 one_ne_zero) _ (by fun_prop)

/-- A thousand steps. -/
example : ((fun κ => mhKernel (walk 1) (fun x => -x ^ 2) ∘ₖ κ)^[1000] Kernel.id).Invariant (posterior volume fun x => -x ^ 2) :=
  have := walk_markov 1 one_ne_zero
  mh_iter_invariant volume (walk 1) (walk_symmetric 1 one_ne_zero) _ (by fun_prop) 1000

/-! ## C21 -/

/-- The test of `swapAccept` with a number `u` in place of the draw: mpi_stack.c:296-309. -/
noncomputable def swapTest (lij lji lii ljj u : ℝ) : Bool :=
  (ofI 0 <. (lij +. lji -. lii -. ljj)) || (u <. Arith.exp (lij +. lji -. lii -. ljj))

theorem swapAccept_test (a b c d : ℝ) (g : Rng) : (swapAccept a b c d g).1 = swapTest a b c d (drand48 (F := ℝ) g).1 := by
  unfold swapAccept swapTest
  simp only
  split
  · rename_i h; simp only [h, Bool.true_or]
  · rename_i h; simp only [Bool.eq_false_iff.2 h, Bool.false_or]

theorem swapTest_iff (a b c d u : ℝ) (h1 : u < 1) : swapTest a b c d u = true ↔ u < min 1 (Real.exp (a + b - c - d)) := by
  simp only [swapTest, Bool.or_eq_true, lt_iff, ofI_eq, sub_eq, add_eq, exp_eq, Int.cast_zero, lt_min_iff, h1, true_and]
  constructor
  · rintro (h | h)
    · exact h1.trans (Real.one_lt_exp_iff.2 h)
    · exact h
  · exact .inr

/-- A model whose tempered log-likelihood is `beta` times the log-likelihood `L`. -/
def Tempered (u : User ℝ) (nline : Int) (data : List ℝ) (L : List ℝ → ℝ) : Prop := ∀ x b, u.logll x nline data b = b * L x

/-- **C21.** When the two stored log-posteriors are in step, a swap attempt between the chains it has chosen goes through exactly when
the draw is below `min(1, exp((beta_i - beta_j) * (L(x_j) - L(x_i))))`. -/
theorem swap_ratio {n : Nat} (cfg : Cfg ℝ) (root : Fin n) (w w' : W n ℝ) (ty ty' : Tally n ℝ) (h : seqSwap cfg root w ty = .ok (w', ty'))
    (L : List ℝ → ℝ) (hL : Tempered cfg.user w.st.nline w.st.data L)
    (hstep : ∀ r, w.st.lp r = Spec.target cfg.user w.st.nline w.st.data (w.st.beta r) (w.st.x r)) :
    ∃ i j : Fin n, ∃ d : Bool, ∃ g : Rng, w'.hist = w.hist ++ [(Ev.swap i j d, w'.st)] ∧
      (d = true ↔ (drand48 (F := ℝ) g).1 <
        min 1 (Real.exp ((w.st.beta i - w.st.beta j) * (L (w.st.x j) - L (w.st.x i))))) := by
  simp only [seqSwap, exc_bind, Except.ok.injEq, Prod.mk.injEq] at h
  obtain ⟨i, hi, j, hj, rfl, rfl⟩ := h
  refine ⟨i, j, _, (pickJ ℝ n cfg.swapmode (i4Unif0a ℝ ((n : Int) - 1) (w.st.g root)).1 (i4Unif0a ℝ ((n : Int) - 1) (w.st.g root)).2).2, rfl, ?_⟩
  rw [swapAccept_test, swapTest_iff _ _ _ _ _ (drand48_real_mem _).2, hstep i, hstep j]
  have hL' : ∀ x b, cfg.user.logll x w.st.nline w.st.data b = b * L x := hL
  simp only [logPost, Spec.target, hL', add_eq]
  ring_nf

/-- A swap of the demo, from any state whose stored values are in step. -/
example (w : W 3 ℝ) (ty : Tally 3 ℝ) (hstep : ∀ r, w.st.lp r = Spec.target demoUser w.st.nline w.st.data (w.st.beta r) (w.st.x r)) :
    ∃ w' ty', seqSwap demoCfg 0 w ty = .ok (w', ty') ∧ ∃ i j d g, w'.hist = w.hist ++ [(Ev.swap i j d, w'.st)] ∧
      (d = true ↔ (drand48 (F := ℝ) g).1 < min 1 (Real.exp ((w.st.beta i - w.st.beta j) *
        (-((w.st.x j).map fun v => v * v).sum - -((w.st.x i).map fun v => v * v).sum)))) := by
  obtain ⟨⟨w', ty'⟩, h⟩ := seqSwap_total demoCfg demo_valid.ranks demo_valid.ranksInt demo_valid.mode 0 w ty
  exact ⟨w', ty', h, swap_ratio demoCfg 0 w w' ty ty' h (fun x => -(x.map fun v => v * v).sum) (fun _ _ => rfl) hstep⟩

/-- The accepting draws of a swap have the measure of the parallel-tempering rule. -/
theorem swap_measure (bi bj Li Lj Pi Pj : ℝ) :
    volume {u | u ∈ Ico (0 : ℝ) 1 ∧ swapTest (bj * Li + Pi) (bi * Lj + Pj) (bi * Li + Pi) (bj * Lj + Pj) u = true} =
      ENNReal.ofReal (min 1 (Real.exp ((bi - bj) * (Lj - Li)))) := by
  rw [← volume_below _ (min_exp_mem _).2]
  congr 1
  ext u
  simp only [mem_ofPred_eq, and_congr_right_iff]
  intro h
  rw [swapTest_iff _ _ _ _ _ h.2]
  ring_nf

section
variable {α : Type*} [MeasurableSpace α] {n : Nat}

/-- Log-density of the product of the tempered posteriors: chain `r` at inverse temperature `beta r`. -/
def jointLp (beta : Fin n → ℝ) (L Pr : α → ℝ) (x : Fin n → α) : ℝ := ∑ r, (beta r * L (x r) + Pr (x r))

/-- The attempt to swap chains `i` and `j` as a Markov kernel on the table of all chains: with the draw `u`, exchange or stay. -/
noncomputable def swapMove (beta : Fin n → ℝ) (L Pr : α → ℝ) (i j : Fin n) (x : Fin n → α) (u : ℝ) : Fin n → α :=
  if swapTest (beta j * L (x i) + Pr (x i)) (beta i * L (x j) + Pr (x j)) (beta i * L (x i) + Pr (x i)) (beta j * L (x j) + Pr (x j)) u
  then x ∘ Equiv.swap i j else x

theorem jointLp_swap (beta : Fin n → ℝ) (L Pr : α → ℝ) {i j : Fin n} (hij : i ≠ j) (x : Fin n → α) :
    jointLp beta L Pr (x ∘ Equiv.swap i j) - jointLp beta L Pr x =
      (beta j * L (x i) + Pr (x i)) + (beta i * L (x j) + Pr (x j)) - (beta i * L (x i) + Pr (x i)) - (beta j * L (x j) + Pr (x j)) := by
  unfold jointLp
  rw [← Finset.sum_sub_distrib]
  have : ∀ r, r ∉ ({i, j} : Finset (Fin n)) → (beta r * L ((x ∘ Equiv.swap i j) r) + Pr ((x ∘ Equiv.swap i j) r)) - (beta r * L (x r) + Pr (x r)) = 0 := by
    intro r hr
    simp only [Finset.mem_insert, Finset.mem_singleton, not_or] at hr
    simp [Equiv.swap_apply_of_ne_of_ne hr.1 hr.2]
  rw [← Finset.sum_subset (Finset.subset_univ {i, j}) (fun r _ hr => this r hr), Finset.sum_pair hij]
  simp only [Function.comp_apply, Equiv.swap_apply_left, Equiv.swap_apply_right]
  ring

/-- The swap move is the Metropolis move whose proposal is the exchanged table and whose target is the joint density. -/
theorem swapMove_eq (beta : Fin n → ℝ) (L Pr : α → ℝ) {i j : Fin n} (hij : i ≠ j) (x : Fin n → α) (u : ℝ) (hu : u < 1) :
    swapMove beta L Pr i j x u = mhMove (jointLp beta L Pr) (x, x ∘ Equiv.swap i j, u) := by
  have : swapTest (beta j * L (x i) + Pr (x i)) (beta i * L (x j) + Pr (x j)) (beta i * L (x i) + Pr (x i)) (beta j * L (x j) + Pr (x j)) u =
      mhTest (jointLp beta L Pr (x ∘ Equiv.swap i j)) (jointLp beta L Pr x) u := by
    rw [Bool.eq_iff_iff, swapTest_iff _ _ _ _ _ hu, mhTest_iff _ _ _ hu, jointLp_swap beta L Pr hij]
  simp only [swapMove, mhMove, this]

theorem preserving_swap (μ : Measure α) [SigmaFinite μ] (i j : Fin n) :
    MeasurePreserving (fun x : Fin n → α => x ∘ Equiv.swap i j) (Measure.pi fun _ => μ) (Measure.pi fun _ => μ) := by
  have h := measurePreserving_piCongrLeft (fun _ : Fin n => μ) (Equiv.swap i j)
  convert h using 1
  funext x r
  obtain ⟨s, rfl⟩ := (Equiv.swap i j).surjective r
  rw [MeasurableEquiv.coe_piCongrLeft, Equiv.piCongrLeft_apply_apply]
  simp

/-- One swap attempt between the chains `i` and `j` as a Markov kernel. -/
noncomputable def swapKernel (beta : Fin n → ℝ) (L Pr : α → ℝ) (i j : Fin n) : Kernel (Fin n → α) (Fin n → α) :=
  (Kernel.id ×ₖ Kernel.const _ unif).map (fun p => swapMove beta L Pr i j p.1 p.2)

theorem measurable_jointLp (beta : Fin n → ℝ) {L Pr : α → ℝ} (hL : Measurable L) (hP : Measurable Pr) : Measurable (jointLp beta L Pr) := by
  unfold jointLp
  exact Finset.measurable_sum _ (fun r _ => (measurable_const.mul (hL.comp (measurable_pi_apply r))).add (hP.comp (measurable_pi_apply r)))

theorem measurable_swapIdx (i j : Fin n) : Measurable (fun x : Fin n → α => x ∘ Equiv.swap i j) :=
  measurable_pi_lambda _ (fun _ => measurable_pi_apply _)

theorem swapKernel_eq (beta : Fin n → ℝ) {L Pr : α → ℝ} (hL : Measurable L) (hP : Measurable Pr) {i j : Fin n} (hij : i ≠ j) :
    swapKernel beta L Pr i j = mhKernel (Kernel.deterministic _ (measurable_swapIdx (α := α) i j)) (jointLp beta L Pr) := by
  have hm := measurable_mhMove (jointLp beta L Pr) (measurable_jointLp beta hL hP)
  have hsw : Measurable (fun p : (Fin n → α) × ℝ => swapMove beta L Pr i j p.1 p.2) := by
    have a : ∀ r, Measurable (fun p : (Fin n → α) × ℝ => L (p.1 r)) := fun r => hL.comp ((measurable_pi_apply r).comp measurable_fst)
    have b : ∀ r, Measurable (fun p : (Fin n → α) × ℝ => Pr (p.1 r)) := fun r => hP.comp ((measurable_pi_apply r).comp measurable_fst)
    have c : ∀ s r, Measurable (fun p : (Fin n → α) × ℝ => beta s * L (p.1 r) + Pr (p.1 r)) := fun s r => (measurable_const.mul (a r)).add (b r)
    have d := (((c j i).add (c i j)).sub (c i i)).sub (c j j)
    refine Measurable.ite ?_ ((measurable_swapIdx i j).comp measurable_fst) measurable_fst
    simp only [swapTest, Bool.or_eq_true, lt_iff, ofI_eq, sub_eq, add_eq, exp_eq, Int.cast_zero]
    exact (measurableSet_lt measurable_const d).union (measurableSet_lt measurable_snd (Real.measurable_exp.comp d))
  refine Kernel.ext_iff.2 (fun x => Measure.ext (fun s hs => ?_))
  rw [swapKernel, mhKernel, Kernel.map_apply' _ hsw _ hs, Kernel.map_apply' _ hm _ hs, Kernel.prod_apply, Kernel.prod_apply, Kernel.prod_apply,
    Kernel.id_apply, Kernel.const_apply, Kernel.deterministic_apply, Measure.dirac_prod, Measure.dirac_prod, Measure.dirac_prod,
    Measure.map_apply measurable_prodMk_left (hsw hs), Measure.map_apply measurable_prodMk_left (hm hs),
    Measure.map_apply measurable_prodMk_left (measurable_prodMk_left (hm hs)), unif,
    Measure.restrict_apply (measurable_prodMk_left (hsw hs)), Measure.restrict_apply (measurable_prodMk_left (measurable_prodMk_left (hm hs)))]
  congr 1
  ext u
  simp only [mem_inter_iff, mem_preimage, and_congr_left_iff]
  intro hu
  rw [swapMove_eq beta L Pr hij x u hu.2]

/-- **C21.** The swap of two different chains satisfies detailed balance for the product of the tempered posteriors. -/
theorem swap_reversible (μ : Measure α) [SigmaFinite μ] (beta : Fin n → ℝ) {L Pr : α → ℝ} (hL : Measurable L) (hP : Measurable Pr)
    {i j : Fin n} (hij : i ≠ j) : (swapKernel beta L Pr i j).IsReversible (posterior (Measure.pi fun _ => μ) (jointLp beta L Pr)) := by
  rw [swapKernel_eq beta hL hP hij]
  exact mh_reversible _ _ (SymmetricProposal.of_involution _ (preserving_swap μ i j) (fun x => by funext r; simp)) _ (measurable_jointLp beta hL hP)

end

/-- Three chains with different temperatures and a likelihood that is not constant. -/
example : (swapKernel (α := ℝ) (fun r : Fin 3 => (r.val + 1 : ℝ) / 3) (fun x => -x ^ 2) (fun _ => 0) 0 1).IsReversible
    (posterior (Measure.pi fun _ => volume) (jointLp (fun r : Fin 3 => (r.val + 1 : ℝ) / 3) (fun x => -x ^ 2) (fun _ => 0))) :=
  swap_reversible volume _ (by fun_prop) (by fun_prop) (by decide)

end NiiC
