import Verif.Prob.Variance

/-!
# Runs from any start, by variances

A program that reads from a stream of random numbers is put together from steps that are near to a kernel that keeps `π` and averages functions out, from steps
that keep `π`, and from random choices. `Est` follows, from the end of the run to its beginning, the joint law of the sum that is still to be added and of the
last state. Helpers for C85.
-/

set_option linter.unusedSectionVars false

namespace NiiC

open MeasureTheory ProbabilityTheory Set
open scoped ENNReal

section
variable {α β γ : Type} [MeasurableSpace α] [MeasurableSpace β] [MeasurableSpace γ]

/-- Measurable with values in `[0, 1]`. -/
structure InOne (φ : α → ℝ) : Prop where
  meas : Measurable φ
  nn : ∀ x, 0 ≤ φ x
  le : ∀ x, φ x ≤ 1

theorem InOne.bdd {φ : α → ℝ} (h : InOne φ) : Bdd φ := ⟨h.meas, 1, fun x => by rw [abs_of_nonneg (h.nn x)]; exact h.le x⟩

theorem InOne.av {φ : β → ℝ} (h : InOne φ) (κ : Kernel α β) [IsMarkovKernel κ] : InOne (av κ φ) :=
  ⟨(h.bdd.av κ).1, fun _ => integral_nonneg h.nn, fun x => integral_le_of (h.bdd.integrable (κ x)) (Filter.Eventually.of_forall h.le)⟩

theorem InOne.vr_le {φ : α → ℝ} (h : InOne φ) (μ : Measure α) [IsProbabilityMeasure μ] : vr μ φ ≤ 1 := by
  refine (vr_le_sq h.bdd 0).trans ?_
  refine integral_le_of ((h.bdd.sub (Bdd.const 0)).sq.integrable μ) (Filter.Eventually.of_forall fun x => ?_)
  rw [sub_zero]
  exact pow_le_one₀ (h.nn x) (h.le x)

theorem av_comp {κ : Kernel α β} [IsMarkovKernel κ] {η : Kernel β γ} [IsMarkovKernel η] {f : γ → ℝ} (hf : Bdd f) : av (η ∘ₖ κ) f = av κ (av η f) := by
  funext x
  exact Kernel.integral_comp (hf.integrable _)

theorem ae_comp_of {κ : Kernel α β} {η : Kernel β γ} {p : γ → Prop} (hp : MeasurableSet {z | p z}) (h : ∀ y, ∀ᵐ z ∂(η y), p z) (x : α) : ∀ᵐ z ∂((η ∘ₖ κ) x), p z := by
  rw [ae_iff]
  show (η ∘ₖ κ) x {z | p z}ᶜ = 0
  rw [Kernel.comp_apply' _ _ _ hp.compl]
  rw [lintegral_eq_zero_iff (η.measurable_coe hp.compl)]
  exact Filter.Eventually.of_forall fun y => ae_iff.1 (h y)

theorem av_mono_ae {κ : Kernel α β} [IsMarkovKernel κ] {f g : β → ℝ} (hf : Bdd f) (hg : Bdd g) {x : α} (h : ∀ᵐ y ∂(κ x), f y ≤ g y) : av κ f x ≤ av κ g x :=
  integral_mono_ae (hf.integrable _) (hg.integrable _) h

/-- Start by choosing. -/
theorem av_mix {ι : Type} [Countable ι] [MeasurableSpace ι] [DiscreteMeasurableSpace ι] (ν : Measure ι) [IsProbabilityMeasure ν] (κ : ι → Kernel α β) [∀ i, IsMarkovKernel (κ i)]
    {f : β → ℝ} (hf : Bdd f) (x : α) : av (mixKernel ν κ) f x = ∫ i, av (κ i) f x ∂ν := by
  let η : Kernel ι β := ⟨fun i => κ i x, Measurable.of_discrete⟩
  have hη : IsMarkovKernel η := ⟨fun i => (inferInstance : IsProbabilityMeasure (κ i x))⟩
  have e : mixKernel ν κ x = ν.bind η := by
    ext B hB
    rw [mixKernel_apply ν κ x hB, Measure.bind_apply hB η.aemeasurable]
    rfl
  have := integral_av hf ν η
  rw [← e] at this
  exact this.symm

end

/-- What a run aims at: the law `π` on `box`, how much of the variance one step takes away (`g`), how far a step of the program is from a step that keeps `π` (`e`),
the weight `a` of a part of a step that follows `π` up to a factor `C`, the function `h` with mean 0, added up from step `B` to step `N`. -/
structure Cold (X : Type) [MeasurableSpace X] where
  box : Set X
  box_meas : MeasurableSet box
  π : Measure X
  prob : IsProbabilityMeasure π
  inside : ∀ᵐ x ∂π, x ∈ box
  g : ℝ
  g_pos : 0 < g
  g_le : g ≤ 1
  e : ℝ
  e_nn : 0 ≤ e
  a : ℝ
  a_pos : 0 < a
  a_le : a ≤ 1
  C : ℝ
  C_nn : 0 ≤ C
  h : X → ℝ
  h_meas : Measurable h
  h_abs : ∀ x, |h x| ≤ 1
  h_mean : ∫ x, h x ∂π = 0
  N : Nat
  B : Nat

namespace Cold

variable {X Ω : Type} [MeasurableSpace X] [MeasurableSpace Ω] (A : Cold X)

instance : IsProbabilityMeasure A.π := A.prob

/-- The factor by which one step shrinks standard deviations. -/
noncomputable def ρ : ℝ := Real.sqrt (1 - A.g)

theorem ρ_nn : 0 ≤ A.ρ := Real.sqrt_nonneg _

theorem ρ_sq : A.ρ ^ 2 = 1 - A.g := Real.sq_sqrt (by linarith [A.g_le])

theorem ρ_lt : A.ρ < 1 := by
  have := A.ρ_sq
  nlinarith [A.g_pos, A.ρ_nn]

/-- The largest standard deviation of the expected sum, relative to that of `h`. -/
noncomputable def R : ℝ := A.ρ / (1 - A.ρ)

theorem R_nn : 0 ≤ A.R := div_nonneg A.ρ_nn (by linarith [A.ρ_lt])

theorem R_eq : A.ρ * (1 + A.R) = A.R := by
  have : 1 - A.ρ ≠ 0 := by linarith [A.ρ_lt]
  rw [R]
  field_simp
  ring

/-- The variance of `h`. -/
noncomputable def S : ℝ := ∫ x, A.h x ^ 2 ∂A.π

theorem S_nn : 0 ≤ A.S := integral_nonneg fun _ => sq_nonneg _

theorem h_bdd : Bdd A.h := ⟨A.h_meas, 1, A.h_abs⟩

/-- The sum, cut off where it cannot be. -/
noncomputable def cut (q : ℝ × X) : ℝ := max (-(A.N : ℝ)) (min A.N q.1)

theorem cut_bdd : Bdd A.cut := by
  refine ⟨measurable_const.max (measurable_const.min measurable_fst), A.N, fun q => ?_⟩
  rw [abs_le]
  have : (0 : ℝ) ≤ A.N := Nat.cast_nonneg _
  exact ⟨le_max_left _ _, max_le (by linarith) (min_le_left _ _)⟩

theorem cut_eq {q : ℝ × X} (h : |q.1| ≤ A.N) : A.cut q = q.1 := by
  rw [abs_le] at h
  rw [cut, min_eq_right h.2, max_eq_right h.1]

/-- A kernel from the state after step `t` to what will be added and the last state. -/
structure Good (t : Nat) (K : Kernel X (ℝ × X)) : Prop where
  bdd : ∀ x, ∀ᵐ q ∂(K x), |q.1| ≤ ((A.N - t : Nat) : ℝ)
  mean : ∫ x, av K A.cut x ∂A.π = 0
  pull : ∫ x, av K A.cut x ^ 2 ∂A.π ≤ (A.R * Real.sqrt A.S) ^ 2
  sq : ∫ x, av K (fun q => A.cut q ^ 2) x ∂A.π ≤ (A.N - max t A.B : Nat) * (A.S * (1 + 2 * A.R))
  law : ∀ ψ : X → ℝ, Bdd ψ → ∫ x, av K (fun q => ψ q.2) x ∂A.π = ∫ x, ψ x ∂A.π
  forget : ∀ φ : ℝ × X → ℝ, InOne φ → vr A.π (av K φ) ≤ (1 - A.g) ^ (A.B - t)
  cold : ∀ (φ : ℝ × X → ℝ) (_ : InOne φ) (j : Nat), t + j ≤ A.B → ∀ x ∈ A.box,
    av K φ x ≤ ∫ y, av K φ y ∂A.π + A.C / A.a * A.ρ ^ (A.B - t - j) + (1 - A.a) ^ j

/-- A step that keeps `π` and averages out. -/
structure Step (κ : Kernel X X) : Prop where
  inv : κ.Invariant A.π
  box : ∀ x ∈ A.box, ∀ᵐ y ∂(κ x), y ∈ A.box
  spreads : Spreads κ A.π A.g
  opens : Opens κ A.π A.box A.a A.C

/-- Add `h` of the state. -/
noncomputable def shift (K : Kernel X (ℝ × X)) : Kernel X (ℝ × X) :=
  (Kernel.id ×ₖ K).map fun q : X × (ℝ × X) => (A.h q.1 + q.2.1, q.2.2)

variable {A}

theorem measurable_shift : Measurable fun q : X × (ℝ × X) => (A.h q.1 + q.2.1, q.2.2) := by
  have := A.h_meas
  fun_prop

theorem shift_apply (K : Kernel X (ℝ × X)) [IsMarkovKernel K] (x : X) : A.shift K x = (K x).map fun q => (A.h x + q.1, q.2) := by
  rw [shift, Kernel.map_apply _ measurable_shift, Kernel.prod_apply, Kernel.id_apply, Measure.dirac_prod, Measure.map_map measurable_shift measurable_prodMk_left]
  rfl

instance (K : Kernel X (ℝ × X)) [IsMarkovKernel K] : IsMarkovKernel (A.shift K) := Kernel.IsMarkovKernel.map _ measurable_shift

theorem av_shift (K : Kernel X (ℝ × X)) [IsMarkovKernel K] {f : ℝ × X → ℝ} (hf : Measurable f) (x : X) :
    av (A.shift K) f x = ∫ q, f (A.h x + q.1, q.2) ∂(K x) := by
  rw [av, shift_apply, integral_map (by fun_prop) hf.aestronglyMeasurable]

/-! ## The kernels -/

/-- The end of the run. -/
theorem Good.stop (hB : A.B ≤ A.N) : A.Good A.N (Kernel.deterministic (fun x : X => ((0 : ℝ), x)) measurable_prodMk_left) := by
  have hav : ∀ f : ℝ × X → ℝ, Measurable f → ∀ x, av (Kernel.deterministic (fun x : X => ((0 : ℝ), x)) measurable_prodMk_left) f x = f (0, x) := fun f hf x => by
    rw [av, Kernel.deterministic_apply, integral_dirac' _ _ hf.stronglyMeasurable]
  have hc : ∀ x : X, A.cut (0, x) = 0 := fun x => A.cut_eq (by simp)
  refine ⟨fun x => ?_, ?_, ?_, ?_, fun ψ hψ => ?_, fun φ hφ => ?_, fun φ hφ j hj x hx => ?_⟩
  · rw [Kernel.deterministic_apply]
    exact (ae_dirac_iff (measurableSet_le measurable_fst.norm measurable_const)).2 (by simp)
  · simp only [hav _ A.cut_bdd.1, hc, integral_zero]
  · simp only [hav _ A.cut_bdd.1, hc]
    simp only [ne_eq, OfNat.ofNat_ne_zero, not_false_eq_true, zero_pow, integral_zero]
    positivity
  · simp only [hav _ A.cut_bdd.sq.1, hc]
    simp only [ne_eq, OfNat.ofNat_ne_zero, not_false_eq_true, zero_pow, integral_zero]
    have := A.S_nn
    have := A.R_nn
    positivity
  · exact integral_congr_ae (Filter.Eventually.of_forall fun x => hav (fun q => ψ q.2) (hψ.1.comp measurable_snd) x)
  · refine ((hφ.av _).vr_le A.π).trans ?_
    rw [Nat.sub_eq_zero_of_le hB, pow_zero]
  · have hj0 : j = 0 := by omega
    subst hj0
    have h1 := (hφ.av (Kernel.deterministic (fun x : X => ((0 : ℝ), x)) measurable_prodMk_left)).le x
    have h2 : 0 ≤ ∫ x, av (Kernel.deterministic (fun x : X => ((0 : ℝ), x)) measurable_prodMk_left) φ x ∂A.π := integral_nonneg (hφ.av _).nn
    have h3 : 0 ≤ A.C / A.a * A.ρ ^ (A.B - A.N - 0) := mul_nonneg (div_nonneg A.C_nn A.a_pos.le) (pow_nonneg A.ρ_nn _)
    rw [pow_zero]
    linarith

theorem Good.still {t : Nat} {K : Kernel X (ℝ × X)} [IsMarkovKernel K] (h : A.Good t K) {κ : Kernel X X} [IsMarkovKernel κ] (hinv : κ.Invariant A.π)
    (hbox : ∀ x ∈ A.box, ∀ᵐ y ∂(κ x), y ∈ A.box) : A.Good t (K ∘ₖ κ) := by
  have hmean : ∀ f : ℝ × X → ℝ, Bdd f → ∫ x, av (K ∘ₖ κ) f x ∂A.π = ∫ x, av K f x ∂A.π := fun f hf => by
    rw [av_comp hf, integral_av (hf.av K), hinv.def]
  refine ⟨ae_comp_of (measurableSet_le measurable_fst.norm measurable_const) h.bdd, ?_, ?_, ?_, fun ψ hψ => ?_, fun φ hφ => ?_, fun φ hφ j hj x hx => ?_⟩
  · rw [hmean _ A.cut_bdd, h.mean]
  · have hb := A.cut_bdd.av K
    rw [av_comp A.cut_bdd, ← vr_of_mean_zero (by rw [integral_av hb, hinv.def, h.mean])]
    refine (vr_av_le hinv hb).trans ?_
    rw [vr_of_mean_zero h.mean]
    exact h.pull
  · rw [hmean _ A.cut_bdd.sq]
    exact h.sq
  · rw [hmean _ (hψ.comp measurable_snd), h.law ψ hψ]
  · rw [av_comp hφ.bdd]
    exact (vr_av_le hinv (hφ.bdd.av K)).trans (h.forget φ hφ)
  · rw [hmean _ hφ.bdd, av_comp hφ.bdd]
    exact integral_le_of ((hφ.bdd.av K).integrable _) ((hbox x hx).mono fun y hy => h.cold φ hφ j hj y hy)

/-- One step towards a law from any state. -/
theorem Step.near {κ : Kernel X X} [IsMarkovKernel κ] (hκ : A.Step κ) {f : X → ℝ} (hf : Bdd f) {c v : ℝ} (hc0 : 0 ≤ c) (hc : ∀ x ∈ A.box, f x ≤ ∫ y, f y ∂A.π + c)
    (hv : vr A.π f ≤ v) (x : X) (hx : x ∈ A.box) : av κ f x ≤ ∫ y, f y ∂A.π + A.C * Real.sqrt v + (1 - A.a) * c := by
  obtain ⟨G, h1, h2, h3⟩ := hκ.opens x hx
  obtain ⟨p, hp⟩ : ∃ p, p = ∫ y, f y ∂A.π := ⟨_, rfl⟩
  rw [← hp] at hc ⊢
  have hGf : IsFiniteMeasure G := isFiniteMeasure_of_le _ h1
  obtain ⟨H, hH⟩ : ∃ H, H = κ x - G := ⟨_, rfl⟩
  have hsum : κ x = G + H := by rw [hH, add_comm, Measure.sub_add_cancel_of_le h1]
  have hHf : IsFiniteMeasure H := by rw [hH]; infer_instance
  have hψ : Bdd fun y => max 0 (f y - p) := by
    obtain ⟨m, C, hC⟩ := hf.sub (Bdd.const p)
    exact ⟨measurable_const.max m, C, fun y => by rw [abs_of_nonneg (le_max_left _ _)]; exact max_le ((abs_nonneg _).trans (hC y)) ((le_abs_self _).trans (hC y))⟩
  have habs : Bdd fun y => |f y - p| := by
    obtain ⟨m, C, hC⟩ := hf.sub (Bdd.const p)
    exact ⟨m.norm, C, fun y => by rw [abs_abs]; exact hC y⟩
  have e1 : av κ f x - p = ∫ y, (f y - p) ∂(κ x) := by
    rw [integral_sub (hf.integrable _) (integrable_const _), integral_const, probReal_univ, one_smul]
    rfl
  have e2 : ∫ y, (f y - p) ∂(κ x) ≤ ∫ y, max 0 (f y - p) ∂(κ x) :=
    integral_mono ((hf.sub (Bdd.const p)).integrable _) (hψ.integrable _) fun y => le_max_right _ _
  have e3 : ∫ y, max 0 (f y - p) ∂(κ x) = ∫ y, max 0 (f y - p) ∂G + ∫ y, max 0 (f y - p) ∂H := by
    rw [hsum, integral_add_measure (hψ.integrable _) (hψ.integrable _)]
  have e4 : ∫ y, max 0 (f y - p) ∂G ≤ A.C * Real.sqrt v := by
    have hfin : IsFiniteMeasure (ENNReal.ofReal A.C • A.π) := Measure.smul_finite _ ENNReal.ofReal_ne_top
    calc ∫ y, max 0 (f y - p) ∂G ≤ ∫ y, max 0 (f y - p) ∂(ENNReal.ofReal A.C • A.π) :=
          integral_mono_measure h2 (Filter.Eventually.of_forall fun y => le_max_left _ _) (hψ.integrable _)
      _ = A.C * ∫ y, max 0 (f y - p) ∂A.π := by rw [integral_smul_measure, ENNReal.toReal_ofReal A.C_nn, smul_eq_mul]
      _ ≤ A.C * ∫ y, |f y - p| ∂A.π := mul_le_mul_of_nonneg_left (integral_mono (hψ.integrable _) (habs.integrable _) fun y => max_le (abs_nonneg _) (le_abs_self _)) A.C_nn
      _ ≤ A.C * Real.sqrt v := mul_le_mul_of_nonneg_left (by rw [hp]; exact (abs_dev_le hf).trans (Real.sqrt_le_sqrt hv)) A.C_nn
  have e5 : ∫ y, max 0 (f y - p) ∂H ≤ (1 - A.a) * c := by
    have hin : ∀ᵐ y ∂H, y ∈ A.box := (Measure.absolutelyContinuous_of_le (by rw [hsum]; exact Measure.le_add_left le_rfl)).ae_le (hκ.box x hx)
    have hHu : H.real univ ≤ 1 - A.a := by
      have e : (κ x).real univ = G.real univ + H.real univ := by rw [hsum, measureReal_add_apply]
      rw [probReal_univ] at e
      have : A.a ≤ G.real univ := (ENNReal.ofReal_le_iff_le_toReal (measure_ne_top _ _)).1 h3
      linarith
    calc ∫ y, max 0 (f y - p) ∂H ≤ ∫ _y, c ∂H := integral_mono_ae (hψ.integrable _) (integrable_const _) (hin.mono fun y hy => max_le hc0 (by linarith [hc y hy]))
      _ = H.real univ * c := by rw [integral_const, smul_eq_mul]
      _ ≤ _ := mul_le_mul_of_nonneg_right hHu hc0
  linarith

/-- A step whose result is not added. -/
theorem Good.pass {t : Nat} {K : Kernel X (ℝ × X)} [IsMarkovKernel K] (h : A.Good (t + 1) K) {κ : Kernel X X} [IsMarkovKernel κ] (hκ : A.Step κ) (ht : t < A.B) :
    A.Good t (K ∘ₖ κ) := by
  have hs := h.still hκ.inv hκ.box
  refine ⟨fun x => (hs.bdd x).mono fun q hq => hq.trans (by exact_mod_cast (by omega)), hs.mean, hs.pull, ?_, hs.law, fun φ hφ => ?_, fun φ hφ j hj x hx => ?_⟩
  · have e : max t A.B = max (t + 1) A.B := by omega
    rw [e]
    exact hs.sq
  · rw [av_comp hφ.bdd]
    refine (hκ.spreads.av hκ.inv (hφ.bdd.av K)).trans ?_
    have e : A.B - t = (A.B - (t + 1)) + 1 := by omega
    rw [e, pow_succ, mul_comm]
    exact mul_le_mul_of_nonneg_right (h.forget φ hφ) (by linarith [A.g_le])
  · have hmean : ∫ x, av (K ∘ₖ κ) φ x ∂A.π = ∫ x, av K φ x ∂A.π := by rw [av_comp hφ.bdd, integral_av (hφ.bdd.av K), hκ.inv.def]
    have hCa : 0 ≤ A.C / A.a := div_nonneg A.C_nn A.a_pos.le
    have hρ := A.ρ_nn
    rw [hmean]
    rcases j with _ | j
    · have h1 : av (K ∘ₖ κ) φ x ≤ 1 := (hφ.av _).le x
      have h2 : 0 ≤ ∫ x, av K φ x ∂A.π := integral_nonneg (hφ.av K).nn
      have h3 : 0 ≤ A.C / A.a * A.ρ ^ (A.B - t - 0) := by positivity
      rw [pow_zero]
      linarith
    · have h1a : 0 ≤ 1 - A.a := by linarith [A.a_le]
      have := hκ.near (hφ.bdd.av K) (c := A.C / A.a * A.ρ ^ (A.B - (t + 1) - j) + (1 - A.a) ^ j) (by positivity)
        (fun y hy => by linarith [h.cold φ hφ j (by omega) y hy]) (h.forget φ hφ) x hx
      rw [av_comp hφ.bdd]
      refine this.trans ?_
      have e1 : Real.sqrt ((1 - A.g) ^ (A.B - (t + 1))) = A.ρ ^ (A.B - (t + 1)) := by
        rw [← A.ρ_sq, ← pow_mul, mul_comm, pow_mul, Real.sqrt_sq (pow_nonneg hρ _)]
      have e2 : A.ρ ^ (A.B - (t + 1)) ≤ A.ρ ^ (A.B - (t + 1) - j) := pow_le_pow_of_le_one hρ A.ρ_lt.le (by omega)
      have e3 : A.B - t - (j + 1) = A.B - (t + 1) - j := by omega
      rw [e1, e3, pow_succ]
      have e4 := mul_le_mul_of_nonneg_left e2 A.C_nn
      have e5 : A.C / A.a * A.ρ ^ (A.B - (t + 1) - j) = A.C * A.ρ ^ (A.B - (t + 1) - j) + (1 - A.a) * (A.C / A.a * A.ρ ^ (A.B - (t + 1) - j)) := by
        have := A.a_pos.ne'
        field_simp
        ring
      linarith

/-- A step whose result is added. -/
theorem Good.count {t : Nat} {K : Kernel X (ℝ × X)} [IsMarkovKernel K] (h : A.Good (t + 1) K) {κ : Kernel X X} [IsMarkovKernel κ] (hκ : A.Step κ) (ht : A.B ≤ t) (hN : t < A.N) :
    A.Good t (A.shift K ∘ₖ κ) := by
  have hN' : ((A.N - t : Nat) : ℝ) = (A.N - (t + 1) : Nat) + 1 := by
    have : A.N - t = (A.N - (t + 1)) + 1 := by omega
    rw [this]; push_cast; ring
  have hle : ((A.N - t : Nat) : ℝ) ≤ A.N := by exact_mod_cast Nat.sub_le _ _
  have hb : ∀ x, ∀ᵐ q ∂(K x), A.cut q = q.1 ∧ A.cut (A.h x + q.1, q.2) = A.h x + q.1 := fun x => (h.bdd x).mono fun q hq => by
    refine ⟨A.cut_eq (by linarith), A.cut_eq ?_⟩
    refine (abs_add_le _ _).trans ?_
    have := A.h_abs x
    linarith
  have hmean : ∀ f : ℝ × X → ℝ, Bdd f → ∫ x, av (A.shift K ∘ₖ κ) f x ∂A.π = ∫ x, av (A.shift K) f x ∂A.π := fun f hf => by
    rw [av_comp hf, integral_av (hf.av _), hκ.inv.def]
  have hf := A.cut_bdd.av K
  have e1 : av (A.shift K) A.cut = fun x => A.h x + av K A.cut x := funext fun x => by
    rw [av_shift K A.cut_bdd.1, integral_congr_ae ((hb x).mono fun q hq => (show A.cut (A.h x + q.1, q.2) = A.h x + A.cut q by rw [hq.1, hq.2])),
      integral_add (integrable_const _) (A.cut_bdd.integrable _), integral_const, probReal_univ, one_smul]
    rfl
  have e2 : av (A.shift K) (fun q => A.cut q ^ 2) = fun x => (A.h x ^ 2 + 2 * (A.h x * av K A.cut x)) + av K (fun q => A.cut q ^ 2) x := funext fun x => by
    rw [av_shift K A.cut_bdd.sq.1, integral_congr_ae ((hb x).mono fun q hq =>
      (show A.cut (A.h x + q.1, q.2) ^ 2 = (A.h x ^ 2 + 2 * A.h x * A.cut q) + A.cut q ^ 2 by rw [hq.1, hq.2]; ring))]
    have i1 : Integrable (fun q => 2 * A.h x * A.cut q) (K x) := (A.cut_bdd.integrable _).const_mul _
    have i2 : Integrable (fun q => A.h x ^ 2 + 2 * A.h x * A.cut q) (K x) := (integrable_const _).add i1
    rw [integral_add i2 (A.cut_bdd.sq.integrable _), integral_add (integrable_const _) i1, integral_const_mul, integral_const, probReal_univ, one_smul, mul_assoc]
    rfl
  have hcross : ∫ x, A.h x * av K A.cut x ∂A.π ≤ A.R * A.S := by
    have := integral_mul_le_of (μ := A.π) A.h_bdd hf (Real.sqrt_nonneg A.S) (mul_nonneg A.R_nn (Real.sqrt_nonneg A.S)) (by rw [Real.sq_sqrt A.S_nn]; rfl) h.pull
    refine this.trans (le_of_eq ?_)
    rw [mul_left_comm, Real.mul_self_sqrt A.S_nn]
  have hz : ∫ x, av (A.shift K) A.cut x ∂A.π = 0 := by
    rw [e1, integral_add (A.h_bdd.integrable _) (hf.integrable _), A.h_mean, h.mean, add_zero]
  have hB : A.B - t = 0 := by omega
  refine ⟨ae_comp_of (measurableSet_le measurable_fst.norm measurable_const) fun x => ?_, ?_, ?_, ?_, fun ψ hψ => ?_, fun φ hφ => ?_, fun φ hφ j hj x hx => ?_⟩
  · have hS : MeasurableSet {q : ℝ × X | |q.1| ≤ ((A.N - t : Nat) : ℝ)} := measurableSet_le measurable_fst.norm measurable_const
    have hs : Measurable fun q : ℝ × X => (A.h x + q.1, q.2) := by fun_prop
    rw [shift_apply]
    refine (ae_map_iff hs.aemeasurable hS).2 ?_
    refine (h.bdd x).mono fun q hq => (abs_add_le _ _).trans ?_
    have := A.h_abs x
    linarith
  · rw [hmean _ A.cut_bdd, hz]
  · have hb' : Bdd (av (A.shift K) A.cut) := A.cut_bdd.av _
    rw [av_comp A.cut_bdd, ← vr_of_mean_zero (by rw [integral_av hb', hκ.inv.def, hz])]
    refine (hκ.spreads.av hκ.inv hb').trans ?_
    rw [vr_of_mean_zero hz, e1, ← A.ρ_sq]
    have e3 : ∫ x, (A.h x + av K A.cut x) ^ 2 ∂A.π ≤ ((1 + A.R) * Real.sqrt A.S) ^ 2 := by
      have e : ∀ x, (A.h x + av K A.cut x) ^ 2 = (A.h x ^ 2 + 2 * (A.h x * av K A.cut x)) + av K A.cut x ^ 2 := fun x => by ring
      simp_rw [e]
      have i1 : Integrable (fun x => 2 * (A.h x * av K A.cut x)) A.π := ((A.h_bdd.mul hf).integrable _).const_mul _
      have i2 : Integrable (fun x => A.h x ^ 2 + 2 * (A.h x * av K A.cut x)) A.π := (A.h_bdd.sq.integrable _).add i1
      rw [integral_add i2 (hf.sq.integrable _), integral_add (A.h_bdd.sq.integrable _) i1, integral_const_mul, mul_pow, Real.sq_sqrt A.S_nn]
      have hp := h.pull
      rw [mul_pow, Real.sq_sqrt A.S_nn] at hp
      have : ∫ x, A.h x ^ 2 ∂A.π = A.S := rfl
      rw [this]
      nlinarith
    calc A.ρ ^ 2 * ∫ x, (A.h x + av K A.cut x) ^ 2 ∂A.π ≤ A.ρ ^ 2 * ((1 + A.R) * Real.sqrt A.S) ^ 2 := mul_le_mul_of_nonneg_left e3 (sq_nonneg _)
      _ = (A.ρ * (1 + A.R) * Real.sqrt A.S) ^ 2 := by ring
      _ = _ := by rw [A.R_eq]
  · rw [hmean _ A.cut_bdd.sq, e2]
    have i1 : Integrable (fun x => 2 * (A.h x * av K A.cut x)) A.π := ((A.h_bdd.mul hf).integrable _).const_mul _
    have i2 : Integrable (fun x => A.h x ^ 2 + 2 * (A.h x * av K A.cut x)) A.π := (A.h_bdd.sq.integrable _).add i1
    rw [integral_add i2 ((A.cut_bdd.sq.av K).integrable _), integral_add (A.h_bdd.sq.integrable _) i1, integral_const_mul]
    have hq := h.sq
    have e3 : ∫ x, A.h x ^ 2 ∂A.π = A.S := rfl
    rw [max_eq_left (by omega)] at hq ⊢
    rw [e3, hN']
    linarith
  · rw [hmean _ (hψ.comp measurable_snd)]
    have e : av (A.shift K) (fun q => ψ q.2) = av K fun q => ψ q.2 := funext fun x => av_shift K (f := fun q => ψ q.2) (hψ.1.comp measurable_snd) x
    rw [e, h.law ψ hψ]
  · rw [hB, pow_zero]
    exact (hφ.av _).vr_le A.π
  · have hj0 : j = 0 := by omega
    subst hj0
    have h1 : av (A.shift K ∘ₖ κ) φ x ≤ 1 := (hφ.av _).le x
    have h2 : 0 ≤ ∫ x, av (A.shift K ∘ₖ κ) φ x ∂A.π := integral_nonneg (hφ.av _).nn
    have h3 : 0 ≤ A.C / A.a * A.ρ ^ (A.B - t - 0) := mul_nonneg (div_nonneg A.C_nn A.a_pos.le) (pow_nonneg A.ρ_nn _)
    rw [pow_zero]
    linarith

/-- A random choice. -/
theorem Good.mix {ι : Type} [Countable ι] [MeasurableSpace ι] [DiscreteMeasurableSpace ι] (ν : Measure ι) [IsProbabilityMeasure ν] {t : Nat} {K : ι → Kernel X (ℝ × X)}
    [∀ i, IsMarkovKernel (K i)] (h : ∀ᵐ i ∂ν, A.Good t (K i)) : A.Good t (mixKernel ν K) := by
  have hav : ∀ f : ℝ × X → ℝ, Bdd f → av (mixKernel ν K) f = fun x => ∫ i, av (K i) f x ∂ν := fun f hf => funext fun x => av_mix ν K hf x
  have hF : ∀ f : ℝ × X → ℝ, Bdd f → Bdd (fun q : ι × X => av (K q.1) f q.2) := fun f hf =>
    ⟨measurable_from_prod_countable_right fun i => (hf.av (K i)).1, hf.2.choose, fun q => abs_integral_le (μ := K q.1 q.2) (Filter.Eventually.of_forall hf.2.choose_spec)⟩
  have hmeas : ∀ f : ℝ × X → ℝ, Bdd f → Bdd (fun i => ∫ x, av (K i) f x ∂A.π) := fun f hf =>
    ⟨Measurable.of_discrete, hf.2.choose, fun i => abs_integral_le (μ := A.π) (Filter.Eventually.of_forall fun x =>
      abs_integral_le (μ := K i x) (Filter.Eventually.of_forall hf.2.choose_spec))⟩
  have hmean : ∀ f : ℝ × X → ℝ, Bdd f → ∫ x, av (mixKernel ν K) f x ∂A.π = ∫ i, ∫ x, av (K i) f x ∂A.π ∂ν := fun f hf => by
    rw [hav f hf]
    refine integral_integral_swap (f := fun x i => av (K i) f x) ?_
    exact ((hF f hf).comp measurable_swap).integrable _
  have hcl : ∀ {f : ι → ℝ} (hf : Bdd f) {c : ℝ}, (∀ᵐ i ∂ν, f i ≤ c) → ∫ i, f i ∂ν ≤ c := fun hf _ hc => integral_le_of (hf.integrable ν) hc
  refine ⟨fun x => ?_, ?_, ?_, ?_, fun ψ hψ => ?_, fun φ hφ => ?_, fun φ hφ j hj x hx => ?_⟩
  · have hS : MeasurableSet {q : ℝ × X | |q.1| ≤ ((A.N - t : Nat) : ℝ)} := measurableSet_le measurable_fst.norm measurable_const
    rw [ae_iff]
    show mixKernel ν K x {q : ℝ × X | |q.1| ≤ ((A.N - t : Nat) : ℝ)}ᶜ = 0
    rw [mixKernel_apply ν K x hS.compl, lintegral_eq_zero_iff Measurable.of_discrete]
    exact h.mono fun i hi => ae_iff.1 (hi.bdd x)
  · rw [hmean _ A.cut_bdd, integral_congr_ae (h.mono fun i hi => hi.mean), integral_zero]
  · have hz : ∫ x, av (mixKernel ν K) A.cut x ∂A.π = 0 := by rw [hmean _ A.cut_bdd, integral_congr_ae (h.mono fun i hi => hi.mean), integral_zero]
    rw [← vr_of_mean_zero hz, hav _ A.cut_bdd]
    refine (vr_mean_le (hF _ A.cut_bdd)).trans ?_
    refine integral_le_of ?_ (h.mono fun i hi => by rw [vr_of_mean_zero hi.mean]; exact hi.pull)
    refine integrable_of_bound Measurable.of_discrete ((A.R * Real.sqrt A.S) ^ 2) (h.mono fun i hi => ?_)
    rw [abs_of_nonneg vr_nonneg, vr_of_mean_zero hi.mean]
    exact hi.pull
  · rw [hmean _ A.cut_bdd.sq]
    exact hcl (hmeas _ A.cut_bdd.sq) (h.mono fun i hi => hi.sq)
  · rw [hmean _ (hψ.comp measurable_snd), integral_congr_ae (h.mono fun i hi => hi.law ψ hψ), integral_const, probReal_univ, one_smul]
  · rw [hav _ hφ.bdd]
    refine (vr_mean_le (hF _ hφ.bdd)).trans ?_
    refine integral_le_of ?_ (h.mono fun i hi => hi.forget φ hφ)
    refine integrable_of_bound Measurable.of_discrete ((1 - A.g) ^ (A.B - t)) (h.mono fun i hi => ?_)
    rw [abs_of_nonneg vr_nonneg]
    exact hi.forget φ hφ
  · rw [hmean _ hφ.bdd, hav _ hφ.bdd]
    have hb1 : Bdd fun i => av (K i) φ x := (hF _ hφ.bdd).comp measurable_prodMk_right
    have := integral_mono_ae (hb1.integrable ν) (((hmeas _ hφ.bdd).integrable ν).add (integrable_const (A.C / A.a * A.ρ ^ (A.B - t - j) + (1 - A.a) ^ j)))
      (h.mono fun i hi => by
        have := hi.cold φ hφ j hj x hx
        simp only [Pi.add_apply]
        linarith)
    simp only [Pi.add_apply] at this
    rw [integral_add ((hmeas _ hφ.bdd).integrable ν) (integrable_const _), integral_const, probReal_univ, one_smul] at this
    linarith

/-! ## The program -/

variable (A)

/-- `D` gives, from the state after step `t` and the streams, what will be added and the last state. -/
def Est (l : Measure Ω) (t : Nat) (D : X × Ω → ℝ × X) : Prop :=
  ∃ K : Kernel X (ℝ × X), IsMarkovKernel K ∧ A.Good t K ∧ ∀ x ∈ A.box, Tv (ENNReal.ofReal ((A.N - t : Nat) * A.e)) (l.map fun ω => D (x, ω)) (K x)

variable {A} {l : Measure Ω} [IsProbabilityMeasure l] {t : Nat} {D : X × Ω → ℝ × X}

theorem Est.stop (hB : A.B ≤ A.N) : A.Est l A.N (fun p : X × Ω => (0, p.1)) := by
  refine ⟨_, inferInstance, Good.stop hB, fun x _ => ?_⟩
  have e : (l.map fun _ : Ω => ((0 : ℝ), x)) = Measure.dirac (0, x) := by rw [Measure.map_const, measure_univ, one_smul]
  show Tv _ (l.map fun _ : Ω => ((0 : ℝ), x)) _
  rw [Kernel.deterministic_apply, e]
  exact (Tv.refl _).mono zero_le

/-- Steps in front. -/
theorem near_pre {δ ε : ℝ≥0∞} {m : X × Ω → X × Ω} {κ κ' : Kernel X X} [IsMarkovKernel κ] [IsMarkovKernel κ'] (hm : Fresh l m κ) {K : Kernel X (ℝ × X)} [IsMarkovKernel K]
    (hbox : ∀ x ∈ A.box, ∀ᵐ y ∂(κ x), y ∈ A.box) (hκ : ∀ x ∈ A.box, Tv ε (κ x) (κ' x)) (hD : Measurable D)
    (h : ∀ x ∈ A.box, Tv δ (l.map fun ω => D (x, ω)) (K x)) : ∀ x ∈ A.box, Tv (δ + ε) (l.map fun ω => D (m (x, ω))) ((K ∘ₖ κ') x) := by
  intro x hx E hE
  have hmx : Measurable fun ω => m (x, ω) := hm.meas.comp measurable_prodMk_left
  have e : (l.map fun ω => D (m (x, ω))) = ((κ x).prod l).map D := by rw [← hm.law x, Measure.map_map hD hmx]; rfl
  rw [e, Measure.map_apply hD hE, Measure.prod_apply (hD hE), Kernel.comp_apply' _ _ _ hE]
  have h1 : ∀ᵐ y ∂(κ x), l (Prod.mk y ⁻¹' (D ⁻¹' E)) ≤ K y E + δ := (hbox x hx).mono fun y hy => by
    have := h y hy E hE
    have hDy : Measurable fun ω => D (y, ω) := hD.comp measurable_prodMk_left
    rwa [Measure.map_apply hDy hE] at this
  calc ∫⁻ y, l (Prod.mk y ⁻¹' (D ⁻¹' E)) ∂(κ x) ≤ ∫⁻ y, (K y E + δ) ∂(κ x) := lintegral_mono_ae h1
    _ = ∫⁻ y, K y E ∂(κ x) + δ := by rw [lintegral_add_right _ measurable_const, lintegral_const, measure_univ, mul_one]
    _ ≤ (∫⁻ y, K y E ∂(κ' x) + 1 * ε) + δ := by gcongr; exact (hκ x hx).lintegral (m := 1) fun y => prob_le_one
    _ = _ := by ring

theorem Est.still {m : X × Ω → X × Ω} {κ : Kernel X X} [IsMarkovKernel κ] (hm : Fresh l m κ) (hinv : κ.Invariant A.π) (hbox : ∀ x ∈ A.box, ∀ᵐ y ∂(κ x), y ∈ A.box)
    (hD : Measurable D) (h : A.Est l t D) : A.Est l t (fun p => D (m p)) := by
  obtain ⟨K, hK, hg, hn⟩ := h
  refine ⟨K ∘ₖ κ, inferInstance, hg.still hinv hbox, fun x hx => ?_⟩
  have := near_pre hm hbox (fun x _ => Tv.refl (κ x)) hD hn x hx
  rwa [add_zero] at this

/-- A step of the program, near to a step that keeps `π`; its result is added to the sum if the step number is above `B`. -/
theorem Est.step {m : X × Ω → X × Ω} {κ κ' : Kernel X X} [IsMarkovKernel κ] [IsMarkovKernel κ'] (hm : Fresh l m κ) (hκ : A.Step κ') (hbox : ∀ x ∈ A.box, ∀ᵐ y ∂(κ x), y ∈ A.box)
    (hnear : ∀ x ∈ A.box, Tv (ENNReal.ofReal A.e) (κ x) (κ' x)) (htN : t < A.N) (hD : Measurable D) (h : A.Est l (t + 1) D) :
    A.Est l t (fun p => ((if A.B ≤ t then A.h (m p).1 else 0) + (D (m p)).1, (D (m p)).2)) := by
  obtain ⟨K, hK, hg, hn⟩ := h
  have he : ENNReal.ofReal ((A.N - (t + 1) : Nat) * A.e) + ENNReal.ofReal A.e = ENNReal.ofReal ((A.N - t : Nat) * A.e) := by
    rw [← ENNReal.ofReal_add (mul_nonneg (Nat.cast_nonneg _) A.e_nn) A.e_nn]
    have : A.N - t = (A.N - (t + 1)) + 1 := by omega
    rw [this]
    push_cast
    congr 1
    ring
  by_cases ht : A.B ≤ t
  · simp only [ht, if_true]
    have hD' : Measurable fun p : X × Ω => (A.h p.1 + (D p).1, (D p).2) := measurable_shift.comp (measurable_fst.prodMk hD)
    refine ⟨A.shift K ∘ₖ κ', inferInstance, hg.count hκ ht htN, fun x hx => ?_⟩
    have hn' : ∀ x ∈ A.box, Tv (ENNReal.ofReal ((A.N - (t + 1) : Nat) * A.e)) (l.map fun ω => (A.h x + (D (x, ω)).1, (D (x, ω)).2)) (A.shift K x) := fun x hx => by
      have hs : Measurable fun q : ℝ × X => (A.h x + q.1, q.2) := by fun_prop
      have hDx : Measurable fun ω => D (x, ω) := hD.comp measurable_prodMk_left
      have := (hn x hx).map hs
      rwa [← shift_apply, Measure.map_map hs hDx] at this
    have := near_pre (D := fun p : X × Ω => (A.h p.1 + (D p).1, (D p).2)) hm hbox hnear hD' hn' x hx
    rwa [he] at this
  · simp only [ht, if_false, zero_add]
    refine ⟨K ∘ₖ κ', inferInstance, hg.pass hκ (by omega), fun x hx => ?_⟩
    have := near_pre hm hbox hnear hD hn x hx
    rwa [he] at this

theorem measurable_chosen {ι : Type} [Countable ι] [MeasurableSpace ι] [DiscreteMeasurableSpace ι] {D : ι → X × Ω → ℝ × X} (hD : ∀ i, Measurable (D i))
    {m0 : X × Ω → ι × Ω} (hm : Measurable m0) : Measurable (fun p => D (m0 p).1 (p.1, (m0 p).2)) := by
  have h1 : Measurable (fun q : (X × Ω) × ι => D q.2 q.1) := measurable_from_prod_countable_left fun i => hD i
  exact h1.comp ((measurable_fst.prodMk (measurable_snd.comp hm)).prodMk (measurable_fst.comp hm))

/-- A random choice, independent of the state, and a program for each choice. -/
theorem Est.choose {ι : Type} [Countable ι] [MeasurableSpace ι] [DiscreteMeasurableSpace ι] (ν : Measure ι) [IsProbabilityMeasure ν] {m0 : X × Ω → ι × Ω}
    (hm : Fresh l m0 (Kernel.const X ν)) {D : ι → X × Ω → ℝ × X} (hD : ∀ i, Measurable (D i)) (h : ∀ᵐ i ∂ν, A.Est l t (D i)) :
    A.Est l t (fun p => D (m0 p).1 (p.1, (m0 p).2)) := by
  classical
  have hex : ∀ i, ∃ K : Kernel X (ℝ × X), IsMarkovKernel K ∧ (A.Est l t (D i) → A.Good t K ∧
      ∀ x ∈ A.box, Tv (ENNReal.ofReal ((A.N - t : Nat) * A.e)) (l.map fun ω => D i (x, ω)) (K x)) := fun i => by
    by_cases hi : A.Est l t (D i)
    · obtain ⟨K, h1, h2, h3⟩ := id hi
      exact ⟨K, h1, fun _ => ⟨h2, h3⟩⟩
    · exact ⟨Kernel.deterministic (fun x : X => ((0 : ℝ), x)) measurable_prodMk_left, inferInstance, fun h => absurd h hi⟩
  choose K hK hgood using hex
  refine ⟨mixKernel ν K, inferInstance, Good.mix ν (h.mono fun i hi => (hgood i hi).1), fun x hx E hE => ?_⟩
  have hF : Measurable fun q : ι × Ω => D q.1 (x, q.2) := by
    have h1 : Measurable (fun q : (X × Ω) × ι => D q.2 q.1) := measurable_from_prod_countable_left fun i => hD i
    exact h1.comp (by fun_prop : Measurable fun q : ι × Ω => ((x, q.2), q.1))
  have hmx : Measurable fun ω => m0 (x, ω) := hm.meas.comp measurable_prodMk_left
  have e : (l.map fun ω => D (m0 (x, ω)).1 (x, (m0 (x, ω)).2)) = (ν.prod l).map fun q => D q.1 (x, q.2) := by
    have := hm.law x
    rw [Kernel.const_apply] at this
    rw [← this, Measure.map_map hF hmx]
    rfl
  show (l.map fun ω => D (m0 (x, ω)).1 (x, (m0 (x, ω)).2)) E ≤ _
  rw [e, Measure.map_apply hF hE, Measure.prod_apply (hF hE), mixKernel_apply ν K x hE]
  calc ∫⁻ i, l (Prod.mk i ⁻¹' ((fun q : ι × Ω => D q.1 (x, q.2)) ⁻¹' E)) ∂ν ≤ ∫⁻ i, (K i x E + ENNReal.ofReal ((A.N - t : Nat) * A.e)) ∂ν :=
        lintegral_mono_ae (h.mono fun i hi => by
          have := (hgood i hi).2 x hx E hE
          have hDx : Measurable fun ω => D i (x, ω) := (hD i).comp measurable_prodMk_left
          rwa [Measure.map_apply hDx hE] at this)
    _ = _ := by rw [lintegral_add_right _ measurable_const, lintegral_const, measure_univ, mul_one]

/-! ## What follows for a run from a state -/

/-- How much the start and the steps of the program add to a probability. -/
noncomputable def lag (A : Cold X) (t j : Nat) : ℝ := (A.N - t : Nat) * A.e + A.C / A.a * A.ρ ^ (A.B - t - j) + (1 - A.a) ^ j

theorem Est.event (hD : Measurable D) (h : A.Est l t D) {j : Nat} (hj : t + j ≤ A.B) : ∃ K : Kernel X (ℝ × X), IsMarkovKernel K ∧ A.Good t K ∧
    ∀ E, MeasurableSet E → ∀ x ∈ A.box, l.real {ω | D (x, ω) ∈ E} ≤ (A.π.bind K).real E + A.lag t j := by
  obtain ⟨K, hK, hg, hn⟩ := h
  refine ⟨K, hK, hg, fun E hE x hx => ?_⟩
  have hone : InOne (E.indicator (fun _ => (1 : ℝ)) : ℝ × X → ℝ) := ⟨measurable_const.indicator hE, fun q => indicator_nonneg (fun _ _ => zero_le_one) q, fun q => by
    by_cases hq : q ∈ E <;> simp [hq]⟩
  have e1 : ∀ μ : Measure (ℝ × X), ∫ q, E.indicator (fun _ => (1 : ℝ)) q ∂μ = μ.real E := fun μ => by
    rw [integral_indicator_const _ hE, smul_eq_mul, mul_one]
  have hc := hg.cold _ hone j hj x hx
  rw [integral_av hone.bdd, e1, av, e1] at hc
  have hDx : Measurable fun ω => D (x, ω) := hD.comp measurable_prodMk_left
  have h1 := hn x hx E hE
  rw [Measure.map_apply hDx hE] at h1
  have hδ : (0 : ℝ) ≤ (A.N - t : Nat) * A.e := mul_nonneg (Nat.cast_nonneg _) A.e_nn
  have h2 : l.real {ω | D (x, ω) ∈ E} ≤ (K x).real E + (A.N - t : Nat) * A.e := by
    rw [measureReal_def, measureReal_def, ← ENNReal.toReal_ofReal hδ, ← ENNReal.toReal_add (measure_ne_top _ _) ENNReal.ofReal_ne_top]
    exact ENNReal.toReal_mono (ENNReal.add_ne_top.2 ⟨measure_ne_top _ _, ENNReal.ofReal_ne_top⟩) h1
  rw [lag]
  linarith

/-- The law of the last state. -/
theorem Est.last (hD : Measurable D) (h : A.Est l t D) {j : Nat} (hj : t + j ≤ A.B) {F : Set X} (hF : MeasurableSet F) {x : X} (hx : x ∈ A.box) :
    l.real {ω | (D (x, ω)).2 ∈ F} ≤ A.π.real F + A.lag t j := by
  obtain ⟨K, hK, hg, hE⟩ := h.event hD hj
  have := hE (Prod.snd ⁻¹' F) (measurable_snd hF) x hx
  refine this.trans (le_of_eq ?_)
  congr 1
  have hone : Bdd (F.indicator (fun _ => (1 : ℝ)) : X → ℝ) := ⟨measurable_const.indicator hF, 1, fun q => by by_cases hq : q ∈ F <;> simp [hq]⟩
  have h1 := hg.law _ hone
  rw [integral_av (hone.comp measurable_snd), integral_indicator_const _ hF, smul_eq_mul, mul_one] at h1
  have h2 : ∫ q, (Prod.snd ⁻¹' F).indicator (fun _ : ℝ × X => (1 : ℝ)) q ∂(A.π.bind K) = (A.π.bind K).real (Prod.snd ⁻¹' F) := by
    rw [integral_indicator_const _ (measurable_snd hF), smul_eq_mul, mul_one]
  rw [← h1, ← h2]
  rfl

/-- The size of the sum. -/
theorem Est.sum (hD : Measurable D) (h : A.Est l t D) {j : Nat} (hj : t + j ≤ A.B) {c : ℝ} (hc : 0 < c) {x : X} (hx : x ∈ A.box) :
    l.real {ω | c ≤ |(D (x, ω)).1|} ≤ (A.N - A.B : Nat) * (A.S * (4 / A.g)) / c ^ 2 + A.lag t j := by
  obtain ⟨K, hK, hg, hE⟩ := h.event hD hj
  have hS : MeasurableSet {q : ℝ × X | c ≤ |q.1|} := measurableSet_le measurable_const measurable_fst.norm
  have := hE {q | c ≤ |q.1|} hS x hx
  refine this.trans ?_
  gcongr
  have hle : ((A.N - t : Nat) : ℝ) ≤ A.N := by exact_mod_cast Nat.sub_le _ _
  have hcut : ∀ᵐ q ∂(A.π.bind K), A.cut q = q.1 := by
    have hm : MeasurableSet {q : ℝ × X | A.cut q = q.1} := measurableSet_eq_fun A.cut_bdd.1 measurable_fst
    rw [ae_iff]
    show (A.π.bind K) {q : ℝ × X | A.cut q = q.1}ᶜ = 0
    rw [Measure.bind_apply hm.compl K.aemeasurable, lintegral_eq_zero_iff (K.measurable_coe hm.compl)]
    exact Filter.Eventually.of_forall fun y => ae_iff.1 ((hg.bdd y).mono fun q hq => A.cut_eq (hq.trans hle))
  have hsq := hg.sq
  rw [integral_av A.cut_bdd.sq, max_eq_right (by omega)] at hsq
  have hC := mul_meas_ge_le_integral_of_nonneg (μ := A.π.bind K) (f := fun q => A.cut q ^ 2) (Filter.Eventually.of_forall fun q => sq_nonneg _) (A.cut_bdd.sq.integrable _) (c ^ 2)
  have e : (A.π.bind K).real {q | c ≤ |q.1|} = (A.π.bind K).real {q | c ^ 2 ≤ A.cut q ^ 2} := by
    rw [measureReal_def, measureReal_def]
    congr 1
    refine measure_congr (hcut.mono fun q hq => ?_)
    refine propext ?_
    show c ≤ |q.1| ↔ c ^ 2 ≤ A.cut q ^ 2
    rw [hq, ← sq_abs q.1, sq_le_sq₀ hc.le (abs_nonneg _)]
  rw [e, le_div_iff₀ (by positivity), mul_comm]
  refine hC.trans (hsq.trans ?_)
  gcongr
  · exact A.S_nn
  · have h1 := A.ρ_lt
    have h0 := A.ρ_nn
    have h2 : (1 - A.ρ) * (1 + A.ρ) = A.g := by have := A.ρ_sq; linarith
    have hg0 := A.g_pos
    rw [R, le_div_iff₀ hg0, ← h2]
    have h3 : (1 : ℝ) - A.ρ ≠ 0 := by linarith
    have h4 : (1 + 2 * (A.ρ / (1 - A.ρ))) * ((1 - A.ρ) * (1 + A.ρ)) = (1 + A.ρ) ^ 2 := by
      field_simp
      ring
    rw [h4]
    nlinarith

/-- From a start that the program draws. -/
theorem real_le_of_start {m : X × Ω → X × Ω} {κ : Kernel X X} [IsMarkovKernel κ] (hm : Fresh l m κ) (x : X) {E : Set (X × Ω)} (hE : MeasurableSet E) {c : ℝ}
    (h : ∀ᵐ y ∂(κ x), l.real {ω | (y, ω) ∈ E} ≤ c) : l.real {ω | m (x, ω) ∈ E} ≤ c := by
  have hmx : Measurable fun ω => m (x, ω) := hm.meas.comp measurable_prodMk_left
  have e : l {ω | m (x, ω) ∈ E} = ∫⁻ y, l (Prod.mk y ⁻¹' E) ∂(κ x) := by
    rw [← Measure.prod_apply hE, ← hm.law x, Measure.map_apply hmx hE]
    rfl
  have hc : 0 ≤ c := by
    obtain ⟨y, hy⟩ := h.exists
    exact measureReal_nonneg.trans hy
  rw [measureReal_def, e]
  refine ENNReal.toReal_le_of_le_ofReal hc ?_
  calc ∫⁻ y, l (Prod.mk y ⁻¹' E) ∂(κ x) ≤ ∫⁻ _y, ENNReal.ofReal c ∂(κ x) := lintegral_mono_ae (h.mono fun y hy => by
        rw [← ofReal_measureReal (μ := l)]
        exact ENNReal.ofReal_le_ofReal hy)
    _ = _ := by rw [lintegral_const, measure_univ, mul_one]

/-- What the numbered states add to the sum. -/
noncomputable def add (A : Cold X) (H : List (Nat × X)) : ℝ := (H.map fun a => if A.B < a.1 then A.h a.2 else 0).sum

theorem add_append (H H' : List (Nat × X)) : A.add (H ++ H') = A.add H + A.add H' := by
  rw [add, List.map_append, List.sum_append]
  rfl

end Cold

end NiiC
