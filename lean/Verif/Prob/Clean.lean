import Verif.Prob.Fresh

/-!
# Programs that read from streams, without naming the law of their result

`Fresh` (`Verif.Prob.Fresh`) names the Markov kernel of a program. For the part of a run in which the program tunes itself only one thing is needed: after
it, the rest of the streams is as good as new and independent of everything the program has computed. Helpers for C83.
-/

set_option linter.unusedSectionVars false

namespace NiiC

open MeasureTheory ProbabilityTheory Set ENNReal

section
variable {α β γ Ω : Type} [MeasurableSpace α] [MeasurableSpace β] [MeasurableSpace γ] [MeasurableSpace Ω]

/-- With the source `l`, the program `m` leaves a source as good as new, independent of its result. -/
structure Clean (l : Measure Ω) (m : α × Ω → β × Ω) : Prop where
  meas : Measurable m
  indep : ∀ a, l.map (fun ω => m (a, ω)) = (l.map fun ω => (m (a, ω)).1).prod l

variable {l : Measure Ω} [IsProbabilityMeasure l]

theorem measurable_law {m : α × Ω → β} (h : Measurable m) : Measurable fun a => l.map fun ω => m (a, ω) := by
  refine Measure.measurable_of_measurable_coe _ fun B hB => ?_
  have e : (fun a => (l.map fun ω => m (a, ω)) B) = fun a => l (Prod.mk a ⁻¹' (m ⁻¹' B)) := by
    funext a
    exact Measure.map_apply (h.comp measurable_prodMk_left : Measurable fun ω => m (a, ω)) hB
  rw [e]
  exact measurable_measure_prodMk_left (h hB)

/-- The law of the result. -/
noncomputable def Clean.kernel {m : α × Ω → β × Ω} (h : Clean l m) : Kernel α β where
  toFun a := l.map fun ω => (m (a, ω)).1
  measurable' := measurable_law (measurable_fst.comp h.meas)

instance {m : α × Ω → β × Ω} (h : Clean l m) : IsMarkovKernel h.kernel :=
  ⟨fun a => Measure.isProbabilityMeasure_map ((measurable_fst.comp h.meas).comp measurable_prodMk_left).aemeasurable⟩

theorem Clean.fresh {m : α × Ω → β × Ω} (h : Clean l m) : Fresh l m h.kernel := ⟨h.meas, h.indep⟩

theorem Fresh.clean {m : α × Ω → β × Ω} {κ : Kernel α β} [IsMarkovKernel κ] (h : Fresh l m κ) : Clean l m := by
  refine ⟨h.meas, fun a => ?_⟩
  have h1 : Measurable (fun ω => m (a, ω)) := h.meas.comp measurable_prodMk_left
  have e : (l.map fun ω => (m (a, ω)).1) = κ a := by
    have := congrArg (Measure.map Prod.fst) (h.law a)
    rw [Measure.map_map measurable_fst h1, Measure.map_fst_prod, measure_univ, one_smul] at this
    exact this
  rw [e]
  exact h.law a

theorem Clean.comp {m : α × Ω → β × Ω} {m' : β × Ω → γ × Ω} (h : Clean l m) (h' : Clean l m') : Clean l (fun p => m' (m p)) :=
  (h.fresh.comp h'.fresh).clean

theorem Clean.id : Clean l (fun p : α × Ω => p) := Fresh.id.clean

theorem Clean.pure {f : α → β} (hf : Measurable f) : Clean l (fun p : α × Ω => (f p.1, p.2)) := (Fresh.pure hf).clean

theorem Clean.arg {m : β × Ω → γ × Ω} (h : Clean l m) {f : α → β} (hf : Measurable f) : Clean l (fun p : α × Ω => m (f p.1, p.2)) :=
  (h.fresh.arg hf).clean

theorem Clean.map {m : α × Ω → β × Ω} (h : Clean l m) {f : β → γ} (hf : Measurable f) : Clean l (fun p => (f (m p).1, (m p).2)) := by
  have : IsMarkovKernel (h.kernel.map f) := Kernel.IsMarkovKernel.map _ hf
  exact (h.fresh.map hf).clean

theorem Clean.keep {m : α × Ω → β × Ω} (h : Clean l m) : Clean l (fun p => ((p.1, (m p).1), (m p).2)) := h.fresh.keep.clean

/-- A program that uses a part of the state. -/
theorem Clean.part {m : α × Ω → β × Ω} (h : Clean l m) : Clean l (fun p : (α × γ) × Ω => (((m (p.1.1, p.2)).1, p.1.2), (m (p.1.1, p.2)).2)) :=
  ((h.arg (measurable_fst (α := α) (β := γ))).keep).map (f := fun q : (α × γ) × β => (q.2, q.1.2)) (by fun_prop)

/-- Both branches of a decision about the argument. -/
theorem Clean.ite {p : α → Prop} [DecidablePred p] (hp : MeasurableSet {a | p a}) {m m' : α × Ω → β × Ω} (h : Clean l m) (h' : Clean l m') :
    Clean l (fun q => if p q.1 then m q else m' q) := by
  refine ⟨Measurable.ite (measurable_fst hp) h.meas h'.meas, fun a => ?_⟩
  by_cases ha : p a
  · simp only [ha, if_true]; exact h.indep a
  · simp only [ha, if_false]; exact h'.indep a

/-- A program for each value of a countable part of the state. -/
theorem Clean.param {ι : Type} [Countable ι] [MeasurableSpace ι] [DiscreteMeasurableSpace ι] {m : ι → α × Ω → β × Ω} (h : ∀ i, Clean l (m i)) :
    Clean l (fun p : (α × ι) × Ω => m p.1.2 (p.1.1, p.2)) := by
  refine ⟨?_, fun a => (h a.2).indep a.1⟩
  have h1 : Measurable (fun q : (α × Ω) × ι => m q.2 q.1) := measurable_from_prod_countable_left fun i => (h i).meas
  exact h1.comp (by fun_prop : Measurable fun q : (α × ι) × Ω => ((q.1.1, q.2), q.1.2))

/-- First one program; then, according to its result, another one. -/
theorem Clean.choose {ι : Type} [Countable ι] [MeasurableSpace ι] [DiscreteMeasurableSpace ι] {m0 : α × Ω → ι × Ω} (h0 : Clean l m0) {m : ι → α × Ω → β × Ω}
    (h : ∀ i, Clean l (m i)) : Clean l (fun p => m (m0 p).1 (p.1, (m0 p).2)) := h0.keep.comp (Clean.param h)

theorem Clean.iterate {m : α × Ω → α × Ω} (h : Clean l m) : ∀ k, Clean l (m^[k])
  | 0 => Clean.id
  | k + 1 => by
    have e : m^[k + 1] = fun p => m^[k] (m p) := funext fun p => Function.iterate_succ_apply m k p
    rw [e]
    exact h.comp (Clean.iterate h k)

variable {n : Nat}

theorem Clean.par {m : Fin n → α × Ω → α × Ω} (h : ∀ r, Clean l (m r)) :
    Clean (Measure.pi fun _ : Fin n => l) (fun p : (Fin n → α) × (Fin n → Ω) => (fun r => (m r (p.1 r, p.2 r)).1, fun r => (m r (p.1 r, p.2 r)).2)) :=
  (Fresh.par fun r => (h r).fresh).clean

theorem Clean.root (r : Fin n) {m : α × Ω → β × Ω} (h : Clean l m) :
    Clean (Measure.pi fun _ : Fin n => l) (fun p : α × (Fin n → Ω) => ((m (p.1, p.2 r)).1, Function.update p.2 r (m (p.1, p.2 r)).2)) :=
  (h.fresh.root r).clean

/-- What has probability at most `c` with new streams, whatever the result of the program, has probability at most `c` with the result and the rest of the streams. -/
theorem Clean.bound {m : α × Ω → β × Ω} (h : Clean l m) (a : α) {A : Set (β × Ω)} (hA : MeasurableSet A) {c : ℝ≥0∞}
    (hb : ∀ b, l (Prod.mk b ⁻¹' A) ≤ c) : l {ω | m (a, ω) ∈ A} ≤ c := by
  have h1 : Measurable (fun ω => m (a, ω)) := h.meas.comp measurable_prodMk_left
  have hp : IsProbabilityMeasure (l.map fun ω => (m (a, ω)).1) := Measure.isProbabilityMeasure_map (measurable_fst.comp h1).aemeasurable
  have e : l {ω | m (a, ω) ∈ A} = (l.map fun ω => m (a, ω)) A := (Measure.map_apply h1 hA).symm
  rw [e, h.indep a, Measure.prod_apply hA]
  calc _ ≤ ∫⁻ _b, c ∂(l.map fun ω => (m (a, ω)).1) := lintegral_mono hb
    _ = c := by rw [lintegral_const, measure_univ, mul_one]

end

theorem Clean.pop {α : Type} [MeasurableSpace α] (μ : Measure ℝ) [IsProbabilityMeasure μ] : Clean (streamLaw μ) (fun p : α × Draws => pop p.2) :=
  (Fresh.pop μ).clean

end NiiC
