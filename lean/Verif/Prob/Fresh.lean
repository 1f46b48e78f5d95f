import Mathlib.Probability.ProductMeasure
import Mathlib.MeasureTheory.Constructions.Pi
import Mathlib.Probability.Kernel.Composition.MeasureComp
import Mathlib.Probability.Kernel.Composition.KernelLemmas
import Verif.Prob.Par

/-!
# Programs that read from a stream of random numbers

A program that reads numbers from a stream, as many as it needs, is a function from an argument and the stream to a result and the rest of the
stream. It is *fresh* when, with a stream of independent numbers, the rest is again such a stream and independent of the result. Fresh programs
can be composed; their results are then composed as Markov kernels. Helpers for C77.
-/

set_option linter.unusedSectionVars false

namespace NiiC

open MeasureTheory ProbabilityTheory Set ENNReal

section
variable {α β γ Ω : Type} [MeasurableSpace α] [MeasurableSpace β] [MeasurableSpace γ] [MeasurableSpace Ω]

/-- With the source `l`, the program `m` has a result of law `κ` and leaves the source as it was. -/
structure Fresh (l : Measure Ω) (m : α × Ω → β × Ω) (κ : Kernel α β) : Prop where
  meas : Measurable m
  law : ∀ a, l.map (fun ω => m (a, ω)) = (κ a).prod l

variable {l : Measure Ω} [IsProbabilityMeasure l]

theorem Fresh.run {m : α × Ω → β × Ω} {κ : Kernel α β} [IsMarkovKernel κ] (h : Fresh l m κ) (P : Measure α) [SFinite P] :
    (P.prod l).map m = (P.bind κ).prod l := by
  have hs : SFinite (P.bind κ) := inferInstance
  ext C hC
  rw [Measure.map_apply h.meas hC, Measure.prod_apply (h.meas hC), Measure.prod_apply hC, Measure.lintegral_bind κ.aemeasurable
    (measurable_measure_prodMk_left hC).aemeasurable]
  refine lintegral_congr fun a => ?_
  have h1 : Measurable (fun ω => m (a, ω)) := h.meas.comp measurable_prodMk_left
  rw [← Measure.prod_apply hC, ← h.law a, Measure.map_apply h1 hC]
  rfl

/-- One program after the other. -/
theorem Fresh.comp {m : α × Ω → β × Ω} {κ : Kernel α β} [IsMarkovKernel κ] {m' : β × Ω → γ × Ω} {η : Kernel β γ} [IsMarkovKernel η]
    (h : Fresh l m κ) (h' : Fresh l m' η) : Fresh l (fun p => m' (m p)) (η ∘ₖ κ) where
  meas := h'.meas.comp h.meas
  law a := by
    have h1 : Measurable (fun ω => m (a, ω)) := h.meas.comp measurable_prodMk_left
    have : l.map (fun ω => m' (m (a, ω))) = (l.map (fun ω => m (a, ω))).map m' := (Measure.map_map h'.meas h1).symm
    rw [this, h.law, h'.run, Kernel.comp_apply]

/-- The empty program. -/
theorem Fresh.id : Fresh l (fun p : α × Ω => p) Kernel.id where
  meas := measurable_id
  law a := by rw [Kernel.id_apply, Measure.dirac_prod]

/-- Compute something from the argument, without the stream. -/
theorem Fresh.pure {f : α → β} (hf : Measurable f) : Fresh l (fun p : α × Ω => (f p.1, p.2)) (Kernel.deterministic f hf) where
  meas := (hf.comp measurable_fst).prodMk measurable_snd
  law a := by rw [Kernel.deterministic_apply, Measure.dirac_prod]

/-- A program whose argument is computed first. -/
theorem Fresh.arg {m : β × Ω → γ × Ω} {κ : Kernel β γ} (h : Fresh l m κ) {f : α → β} (hf : Measurable f) :
    Fresh l (fun p : α × Ω => m (f p.1, p.2)) (κ.comap f hf) where
  meas := h.meas.comp ((hf.comp measurable_fst).prodMk measurable_snd)
  law a := by rw [Kernel.comap_apply]; exact h.law (f a)

/-- A program whose result is used for a computation. -/
theorem Fresh.map {m : α × Ω → β × Ω} {κ : Kernel α β} [IsMarkovKernel κ] (h : Fresh l m κ) {f : β → γ} (hf : Measurable f) :
    Fresh l (fun p => (f (m p).1, (m p).2)) (κ.map f) where
  meas := (hf.comp (measurable_fst.comp h.meas)).prodMk (measurable_snd.comp h.meas)
  law a := by
    have h1 : Measurable (fun ω => m (a, ω)) := h.meas.comp measurable_prodMk_left
    have h2 : Measurable (Prod.map f (_root_.id : Ω → Ω)) := hf.prodMap measurable_id
    have : l.map (fun ω => (f (m (a, ω)).1, (m (a, ω)).2)) = (l.map (fun ω => m (a, ω))).map (Prod.map f _root_.id) := (Measure.map_map h2 h1).symm
    rw [this, h.law, Kernel.map_apply _ hf, ← Measure.map_prod_map _ _ hf measurable_id, Measure.map_id]

/-- A program that keeps its argument. -/
theorem Fresh.keep {m : α × Ω → β × Ω} {κ : Kernel α β} [IsMarkovKernel κ] (h : Fresh l m κ) :
    Fresh l (fun p => ((p.1, (m p).1), (m p).2)) (Kernel.id ×ₖ κ) where
  meas := (measurable_fst.prodMk (measurable_fst.comp h.meas)).prodMk (measurable_snd.comp h.meas)
  law a := by
    have h1 : Measurable (fun ω => m (a, ω)) := h.meas.comp measurable_prodMk_left
    have h2 : Measurable (Prod.map (Prod.mk a : β → α × β) (_root_.id : Ω → Ω)) := measurable_prodMk_left.prodMap measurable_id
    have : l.map (fun ω => ((a, (m (a, ω)).1), (m (a, ω)).2)) = (l.map (fun ω => m (a, ω))).map (Prod.map (Prod.mk a) _root_.id) :=
      (Measure.map_map h2 h1).symm
    rw [this, h.law, Kernel.prod_apply, Kernel.id_apply, Measure.dirac_prod, ← Measure.map_prod_map _ _ measurable_prodMk_left measurable_id, Measure.map_id]

/-- Kernels with the same values. -/
theorem Fresh.congr {m : α × Ω → β × Ω} {κ η : Kernel α β} (h : Fresh l m κ) (e : ∀ a, κ a = η a) : Fresh l m η :=
  ⟨h.meas, fun a => by rw [h.law a, e a]⟩

/-- The law of a program that is given by a random choice independent of the argument and a program for each choice. -/
noncomputable def mixKernel {ι : Type} [Countable ι] [MeasurableSpace ι] [DiscreteMeasurableSpace ι] (ν : Measure ι) (κ : ι → Kernel α β) : Kernel α β :=
  (Kernel.mk (fun p : α × ι => κ p.2 p.1) (measurable_from_prod_countable_left fun i => (κ i).measurable)) ∘ₖ (Kernel.id ×ₖ Kernel.const α ν)

section
variable {ι : Type} [Countable ι] [MeasurableSpace ι] [DiscreteMeasurableSpace ι] (ν : Measure ι) [IsProbabilityMeasure ν] (κ : ι → Kernel α β)

theorem mixKernel_apply (a : α) {B : Set β} (hB : MeasurableSet B) : mixKernel ν κ a B = ∫⁻ i, κ i a B ∂ν := by
  rw [mixKernel, Kernel.comp_apply' _ _ _ hB, Kernel.prod_apply, Kernel.id_apply, Kernel.const_apply, Measure.dirac_prod,
    lintegral_map (Kernel.measurable_coe _ hB) measurable_prodMk_left]
  rfl

instance [∀ i, IsMarkovKernel (κ i)] : IsMarkovKernel (mixKernel ν κ) := by
  refine ⟨fun a => ⟨?_⟩⟩
  rw [mixKernel_apply ν κ a MeasurableSet.univ]
  simp

/-- From any law of the argument. -/
theorem mixKernel_bind (P : Measure α) [SFinite P] [∀ i, IsMarkovKernel (κ i)] {B : Set β} (hB : MeasurableSet B) :
    P.bind (mixKernel ν κ) B = ∫⁻ i, P.bind (κ i) B ∂ν := by
  rw [Measure.bind_apply hB (Kernel.aemeasurable _)]
  simp_rw [mixKernel_apply ν κ _ hB, Measure.bind_apply hB (Kernel.aemeasurable (κ _))]
  refine lintegral_lintegral_swap (f := fun a i => κ i a B) ?_
  exact (measurable_from_prod_countable_left fun i => (κ i).measurable_coe hB).aemeasurable

/-- Choose, then go on according to the choice. -/
theorem Fresh.branch {m0 : α × Ω → ι × Ω} (h0 : Fresh l m0 (Kernel.const α ν)) {m : ι → α × Ω → β × Ω} [∀ i, IsMarkovKernel (κ i)]
    (h : ∀ i, Fresh l (m i) (κ i)) : Fresh l (fun p => m (m0 p).1 (p.1, (m0 p).2)) (mixKernel ν κ) := by
  have hm : Measurable (fun q : (α × ι) × Ω => m q.1.2 (q.1.1, q.2)) := by
    have h1 : Measurable (fun q : (α × Ω) × ι => m q.2 q.1) := measurable_from_prod_countable_left fun i => (h i).meas
    exact h1.comp (by fun_prop : Measurable fun q : (α × ι) × Ω => ((q.1.1, q.2), q.1.2))
  have hK : IsMarkovKernel (Kernel.mk (fun p : α × ι => κ p.2 p.1) (measurable_from_prod_countable_left fun i => (κ i).measurable)) :=
    ⟨fun p => (inferInstance : IsProbabilityMeasure (κ p.2 p.1))⟩
  have h2 : Fresh l (fun q : (α × ι) × Ω => m q.1.2 (q.1.1, q.2))
      (Kernel.mk (fun p : α × ι => κ p.2 p.1) (measurable_from_prod_countable_left fun i => (κ i).measurable)) :=
    ⟨hm, fun p => (h p.2).law p.1⟩
  exact h0.keep.comp h2

end

/-! ## Several sources -/

variable {n : Nat}

/-- Every chain runs its own program with its own source. -/
theorem Fresh.par {m : Fin n → α × Ω → α × Ω} {κ : Fin n → Kernel α α} [∀ r, IsMarkovKernel (κ r)] (h : ∀ r, Fresh l (m r) (κ r)) :
    Fresh (Measure.pi fun _ : Fin n => l) (fun p : (Fin n → α) × (Fin n → Ω) => (fun r => (m r (p.1 r, p.2 r)).1, fun r => (m r (p.1 r, p.2 r)).2))
      (parKernel κ) where
  meas := by
    have h1 : ∀ r, Measurable (fun p : (Fin n → α) × (Fin n → Ω) => m r (p.1 r, p.2 r)) := fun r => (h r).meas.comp (by fun_prop)
    exact (measurable_pi_lambda _ fun r => measurable_fst.comp (h1 r)).prodMk (measurable_pi_lambda _ fun r => measurable_snd.comp (h1 r))
  law x := by
    have h1 : ∀ r, Measurable (fun ω => m r (x r, ω)) := fun r => (h r).meas.comp measurable_prodMk_left
    have h2 : Measurable (fun (ω : Fin n → Ω) r => m r (x r, ω r)) := measurable_pi_lambda _ fun r => (h1 r).comp (measurable_pi_apply r)
    have hp : (Measure.pi fun _ : Fin n => l).map (fun (ω : Fin n → Ω) r => m r (x r, ω r)) = Measure.pi fun r => (κ r (x r)).prod l := by
      rw [← funext fun r => (h r).law (x r)]
      exact Measure.pi_map_pi fun r => (h1 r).aemeasurable
    have he := (measurePreserving_arrowProdEquivProdArrow α Ω (Fin n) (fun r => κ r (x r)) (fun _ => l)).map_eq
    rw [parKernel_apply, ← he, ← hp, Measure.map_map (MeasurableEquiv.measurable _) h2]
    rfl

/-- Replacing one component by an independent one of the same law changes nothing. -/
theorem resample (r : Fin n) : (l.prod (Measure.pi fun _ : Fin n => l)).map (fun p => Function.update p.2 r p.1) = Measure.pi fun _ : Fin n => l := by
  have hm : Measurable (fun p : Ω × (Fin n → Ω) => Function.update p.2 r p.1) := by
    refine measurable_pi_lambda _ fun i => ?_
    by_cases hi : i = r
    · subst hi; simpa using measurable_fst
    · simp only [Function.update_of_ne hi]; fun_prop
  symm
  refine Measure.pi_eq fun C hC => ?_
  rw [Measure.map_apply hm (MeasurableSet.univ_pi hC)]
  have e : (fun p : Ω × (Fin n → Ω) => Function.update p.2 r p.1) ⁻¹' (univ.pi C) = C r ×ˢ univ.pi (Function.update C r univ) := by
    ext p
    simp only [mem_preimage, mem_univ_pi, mem_prod]
    constructor
    · intro h
      refine ⟨by simpa using h r, fun i => ?_⟩
      by_cases hi : i = r
      · subst hi; simp
      · have := h i; simpa [Function.update_of_ne hi] using this
    · rintro ⟨h1, h2⟩ i
      by_cases hi : i = r
      · subst hi; simpa using h1
      · have := h2 i; simpa [Function.update_of_ne hi] using this
  rw [e, Measure.prod_prod, Measure.pi_pi, ← Finset.mul_prod_erase Finset.univ (fun i => l (C i)) (Finset.mem_univ r),
    ← Finset.mul_prod_erase Finset.univ (fun i => l (Function.update C r univ i)) (Finset.mem_univ r)]
  simp only [Function.update_self, measure_univ, one_mul]
  congr 1
  refine Finset.prod_congr rfl fun i hi => ?_
  rw [Function.update_of_ne (Finset.ne_of_mem_erase hi)]

/-- A program of one rank that works on the whole table. -/
theorem Fresh.root (r : Fin n) {m : α × Ω → β × Ω} {κ : Kernel α β} [IsMarkovKernel κ] (h : Fresh l m κ) :
    Fresh (Measure.pi fun _ : Fin n => l) (fun p : α × (Fin n → Ω) => ((m (p.1, p.2 r)).1, Function.update p.2 r (m (p.1, p.2 r)).2)) κ := by
  have hup : Measurable (fun p : Ω × (Fin n → Ω) => Function.update p.2 r p.1) := by
    refine measurable_pi_lambda _ fun i => ?_
    by_cases hi : i = r
    · subst hi; simpa using measurable_fst
    · simp only [Function.update_of_ne hi]; fun_prop
  have h1 : Measurable (fun p : α × (Fin n → Ω) => m (p.1, p.2 r)) := h.meas.comp (by fun_prop)
  have hm : Measurable (fun p : α × (Fin n → Ω) => ((m (p.1, p.2 r)).1, Function.update p.2 r (m (p.1, p.2 r)).2)) :=
    (measurable_fst.comp h1).prodMk (hup.comp ((measurable_snd.comp h1).prodMk measurable_snd))
  refine ⟨hm, fun a => ?_⟩
  have hma : Measurable (fun ω : Ω => m (a, ω)) := h.meas.comp measurable_prodMk_left
  have hg : Measurable (fun ω : Fin n → Ω => ((m (a, ω r)).1, Function.update ω r (m (a, ω r)).2)) := hm.comp measurable_prodMk_left
  conv_lhs => rw [← resample (l := l) r]
  rw [Measure.map_map hg hup]
  have e : ((fun ω : Fin n → Ω => ((m (a, ω r)).1, Function.update ω r (m (a, ω r)).2)) ∘ fun p : Ω × (Fin n → Ω) => Function.update p.2 r p.1) =
      (fun q : (β × Ω) × (Fin n → Ω) => (q.1.1, Function.update q.2 r q.1.2)) ∘ Prod.map (fun ω => m (a, ω)) _root_.id := by
    funext p
    simp
  have hq : Measurable (fun q : (β × Ω) × (Fin n → Ω) => (q.1.1, Function.update q.2 r q.1.2)) :=
    (by fun_prop : Measurable fun q : (β × Ω) × (Fin n → Ω) => q.1.1).prodMk (hup.comp (by fun_prop : Measurable fun q : (β × Ω) × (Fin n → Ω) => (q.1.2, q.2)))
  rw [e, ← Measure.map_map hq (hma.prodMap measurable_id), ← Measure.map_prod_map _ _ hma measurable_id, Measure.map_id, h.law a]
  have ha := (measurePreserving_prodAssoc (κ a) l (Measure.pi fun _ : Fin n => l)).map_eq
  have e2 : (fun q : (β × Ω) × (Fin n → Ω) => (q.1.1, Function.update q.2 r q.1.2)) =
      (Prod.map (_root_.id : β → β) fun p : Ω × (Fin n → Ω) => Function.update p.2 r p.1) ∘ MeasurableEquiv.prodAssoc := rfl
  rw [e2, ← Measure.map_map (measurable_id.prodMap hup) (MeasurableEquiv.measurable _), ha, ← Measure.map_prod_map _ _ measurable_id hup, Measure.map_id, resample]

end

/-! ## Streams of numbers -/

/-- A stream of numbers. -/
abbrev Draws := ℕ → ℝ

/-- Read one number. -/
def pop (ω : Draws) : ℝ × Draws := (ω 0, fun k => ω (k + 1))

theorem measurable_pop : Measurable pop := by
  refine (measurable_pi_apply 0).prodMk (measurable_pi_lambda _ fun k => measurable_pi_apply _)

/-- Put one number in front. -/
def push (p : ℝ × Draws) : Draws
  | 0 => p.1
  | k + 1 => p.2 k

theorem measurable_push : Measurable push := by
  refine measurable_pi_lambda _ fun k => ?_
  cases k with
  | zero => exact measurable_fst
  | succ k => exact (measurable_pi_apply k).comp measurable_snd

theorem push_law (μ : Measure ℝ) [IsProbabilityMeasure μ] :
    (μ.prod (Measure.infinitePi fun _ : ℕ => μ)).map push = Measure.infinitePi fun _ : ℕ => μ := by
  classical
  refine Measure.eq_infinitePi _ fun s t ht => ?_
  obtain ⟨N, hN⟩ : ∃ N, s ⊆ Finset.range (N + 1) := by
    obtain ⟨N, hN⟩ := s.exists_nat_subset_range
    exact ⟨N, hN.trans (Finset.range_mono (Nat.le_succ N))⟩
  set t' : ℕ → Set ℝ := fun i => if i ∈ s then t i else univ with ht'
  have htm : ∀ i, MeasurableSet (t' i) := fun i => by
    simp only [ht']; split_ifs
    · exact ht i
    · exact MeasurableSet.univ
  have hpi : Set.pi (s : Set ℕ) t = Set.pi (Finset.range (N + 1) : Set ℕ) t' := by
    ext ω
    simp only [Set.mem_pi, Finset.mem_coe, ht']
    constructor
    · intro h i _
      split_ifs with hi
      · exact h i hi
      · trivial
    · intro h i hi
      have := h i (hN hi)
      rwa [if_pos hi] at this
  have hprod : ∏ i ∈ s, μ (t i) = ∏ i ∈ Finset.range (N + 1), μ (t' i) := by
    rw [← Finset.prod_subset hN fun i _ hi => by simp [ht', hi]]
    exact Finset.prod_congr rfl fun i hi => by simp [ht', hi]
  rw [hpi, hprod, Measure.map_apply measurable_push (MeasurableSet.pi (Finset.countable_toSet _) fun i _ => htm i)]
  have e : push ⁻¹' Set.pi (Finset.range (N + 1) : Set ℕ) t' = t' 0 ×ˢ Set.pi (Finset.range N : Set ℕ) (fun i => t' (i + 1)) := by
    ext p
    simp only [mem_preimage, Set.mem_pi, Finset.mem_coe, Finset.mem_range, mem_prod]
    constructor
    · intro h
      exact ⟨h 0 (by omega), fun i hi => h (i + 1) (by omega)⟩
    · rintro ⟨h1, h2⟩ i hi
      cases i with
      | zero => exact h1
      | succ i => exact h2 i (by omega)
  rw [e, Measure.prod_prod, Measure.infinitePi_pi (s := Finset.range N) (t := fun i => t' (i + 1)) _ (fun i _ => htm _), Finset.prod_range_succ', mul_comm]

/-- A stream of independent numbers of law `μ`. -/
noncomputable def streamLaw (μ : Measure ℝ) [IsProbabilityMeasure μ] : Measure Draws := Measure.infinitePi fun _ : ℕ => μ

instance (μ : Measure ℝ) [IsProbabilityMeasure μ] : IsProbabilityMeasure (streamLaw μ) := by unfold streamLaw; infer_instance

/-- The first number of such a stream has the law `μ`; the rest is again such a stream, and independent of it. -/
theorem pop_law (μ : Measure ℝ) [IsProbabilityMeasure μ] : (streamLaw μ).map pop = μ.prod (streamLaw μ) := by
  conv_lhs => rw [streamLaw, ← push_law μ]
  rw [Measure.map_map measurable_pop measurable_push]
  have : pop ∘ push = id := by
    funext p
    rfl
  rw [this, Measure.map_id]
  rfl

theorem Fresh.pop {α : Type} [MeasurableSpace α] (μ : Measure ℝ) [IsProbabilityMeasure μ] :
    Fresh (streamLaw μ) (fun p : α × Draws => pop p.2) (Kernel.const α μ) where
  meas := measurable_pop.comp measurable_snd
  law _ := by rw [Kernel.const_apply]; exact pop_law μ

end NiiC
