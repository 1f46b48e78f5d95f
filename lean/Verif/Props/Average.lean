import Verif.Prob.Average
import Verif.Refine.History
import Verif.Props.Whole

/-!
# Averages over the rows of a chain file: C80

What a user does with a chain file: drop the rows of the burn-in and average a function of the parameters over the rest. Here the error of this average
is bounded for a run without tuning, with streams of independent uniform numbers.
-/

set_option linter.unusedSectionVars false
set_option linter.unusedSimpArgs false

namespace NiiC

open MeasureTheory ProbabilityTheory Set ENNReal NNReal

section
variable {n d : Nat} {S : Setting n d} {v : Fin n → ℝ}

/-- The mean of a function of the parameters of chain `r` under the product of the normalised tempered posteriors. -/
noncomputable def targetMean (S : Setting n d) (r : Fin n) (f : (Fin d → ℝ) → ℝ) : ℝ := ∫ x, f (x r) ∂(jointLaw S.T S.lo S.hi S.beta)

theorem jointLaw_prob (hS : S.Proper v) : IsProbabilityMeasure (jointLaw S.T S.lo S.hi S.beta) := by
  obtain ⟨hz, ht⟩ := joint_mass S.T S.lo S.hi hS.range S.beta v hS.varies
  exact ⟨by rw [jointLaw, Measure.smul_apply, smul_eq_mul]; exact ENNReal.inv_mul_cancel hz ht⟩

theorem jointLaw_inside (S : Setting n d) : ∀ᵐ x ∂(jointLaw S.T S.lo S.hi S.beta), x ∈ tableBox S.lo S.hi := by
  have h1 := (joint_inside S.T S.lo S.hi S.beta).mono fun x hx => (fun r _ => open_closed S.lo S.hi (hx r) : x ∈ tableBox S.lo S.hi)
  exact Measure.ae_smul_measure h1 _

/-- The aim of a run: the average of `f` for chain `r` over the iterations above `B` of `N`. -/
noncomputable def aimOf (hS : S.Proper v) (r : Fin n) (f : (Fin d → ℝ) → ℝ) (hf : Measurable f) (h0 : ∀ x, 0 ≤ f x) (h1 : ∀ x, f x ≤ 1) (N B : Nat) :
    Aim (Fin n → Fin d → ℝ) where
  box := tableBox S.lo S.hi
  box_meas := measurableSet_tableBox _ _
  π := jointLaw S.T S.lo S.hi S.beta
  prob := jointLaw_prob hS
  inside := jointLaw_inside S
  c := (gain S.lo S.hi S.s v).toReal
  e := (leakAll S.lo S.hi S.s).toReal
  c_pos := (start_forgotten S.T S.lo S.hi hS.range S.s hS.width S.beta v hS.varies).1
  c_le := (start_forgotten S.T S.lo S.hi hS.range S.s hS.width S.beta v hS.varies).2.1
  e_nn := ENNReal.toReal_nonneg
  h := fun x => f (x r) - targetMean S r f
  h_meas := (hf.comp (measurable_pi_apply r)).sub measurable_const
  h_abs := fun x => by
    have := jointLaw_prob hS
    have hI : Integrable (fun y : Fin n → Fin d → ℝ => f (y r)) (jointLaw S.T S.lo S.hi S.beta) :=
      integrable_of_bound (hf.comp (measurable_pi_apply r)) 1 (Filter.Eventually.of_forall fun y => by rw [abs_of_nonneg (h0 _)]; exact h1 _)
    have a1 : 0 ≤ targetMean S r f := integral_nonneg fun y => h0 _
    have a2 : targetMean S r f ≤ 1 := integral_le_of hI (Filter.Eventually.of_forall fun y => h1 _)
    rw [abs_le]
    constructor <;> linarith [h0 (x r), h1 (x r)]
  h_osc := fun x y => by linarith [h0 (y r), h1 (x r)]
  h_mean := by
    have := jointLaw_prob hS
    have hI : Integrable (fun y : Fin n → Fin d → ℝ => f (y r)) (jointLaw S.T S.lo S.hi S.beta) :=
      integrable_of_bound (hf.comp (measurable_pi_apply r)) 1 (Filter.Eventually.of_forall fun y => by rw [abs_of_nonneg (h0 _)]; exact h1 _)
    rw [integral_sub hI (integrable_const _), integral_const, probReal_univ, one_smul]
    exact sub_self _
  N := N
  B := B

section
variable (A : Aim (Fin n → Fin d → ℝ))

/-- The aim is one for the setting. -/
structure AimFor (S : Setting n d) (v : Fin n → ℝ) : Prop where
  box : A.box = tableBox S.lo S.hi
  π : A.π = jointLaw S.T S.lo S.hi S.beta
  c : A.c = (gain S.lo S.hi S.s v).toReal
  e : A.e = (leakAll S.lo S.hi S.s).toReal

variable {A}

theorem iter_fits (hS : S.Proper v) (hA : AimFor A S v) :
    (∀ x ∈ A.box, ∀ᵐ y ∂(moveKernel S.T S.lo S.hi S.s S.beta .iter x), y ∈ A.box) ∧
    (∀ x ∈ A.box, ∀ y ∈ A.box, Tv (ENNReal.ofReal (1 - A.c)) (moveKernel S.T S.lo S.hi S.s S.beta .iter x) (moveKernel S.T S.lo S.hi S.s S.beta .iter y)) ∧
    Tv (ENNReal.ofReal A.e) (A.π.bind (moveKernel S.T S.lo S.hi S.s S.beta .iter)) A.π := by
  have hg := Good.iter hS
  have hle := gain_le_one S.T S.lo S.hi hS.range S.s hS.width S.beta v hS.varies
  have hmk := moveKernel_markov S.T S.lo S.hi S.s S.beta (.iter : Move n) (fun i j e => by cases e)
  obtain ⟨hlt, -⟩ := leakAll_real S.lo S.hi S.s
  have hprob := jointLaw_prob hS
  rw [hA.box, hA.π, hA.e, hA.c, ENNReal.ofReal_toReal hlt]
  refine ⟨hg.box, fun x hx y hy => ?_, ?_⟩
  · have hd : ∀ z ∈ tableBox (n := n) S.lo S.hi, ∀ᵐ x ∂(Measure.dirac z), x ∈ tableBox (n := n) S.lo S.hi := fun z hz =>
      (ae_dirac_iff (p := fun y => y ∈ tableBox (n := n) S.lo S.hi) (measurableSet_tableBox _ _)).2 hz
    have := hg.shrink (Measure.dirac x) (Measure.dirac y) 1 (hd x hx) (hd y hy) (Tv.one _ _)
    rw [Measure.dirac_bind (Kernel.measurable _), Measure.dirac_bind (Kernel.measurable _), pow_one, mul_one] at this
    refine this.mono (le_of_eq ?_)
    rw [← ENNReal.toReal_one, ← ENNReal.toReal_sub_of_le hle ENNReal.one_ne_top, ENNReal.ofReal_toReal (ENNReal.sub_ne_top ENNReal.one_ne_top)]
  · have := hg.near (jointLaw S.T S.lo S.hi S.beta) 0 (jointLaw_inside S) (Tv.refl _)
    rw [deviation_eq] at this
    simpa using this

theorem attempt_fits (hS : S.Proper v) (hn : 2 ≤ n) (hA : AimFor A S v) (mode : Int) :
    (∀ x ∈ A.box, ∀ᵐ y ∂(attemptKernel S mode x), y ∈ A.box) ∧ A.π.bind (attemptKernel S mode) = A.π := by
  have hg := Good.attempt hS hn mode
  have hprob := jointLaw_prob hS
  have hmk : IsMarkovKernel (attemptKernel S mode) := by unfold attemptKernel; infer_instance
  rw [hA.box, hA.π]
  refine ⟨hg.box, ?_⟩
  have := hg.near (jointLaw S.T S.lo S.hi S.beta) 0 (jointLaw_inside S) (Tv.refl _)
  rw [deviation_eq] at this
  simp only [pow_zero, mul_zero, Finset.range_zero, Finset.sum_empty, add_zero] at this
  refine Measure.eq_of_le_of_measure_univ_eq (Measure.le_iff.2 fun s hs => ?_) (by simp)
  simpa using this s hs

/-- A part of the program, of `t' - t` iterations, that gives the tables `H`: an estimate of what comes after it gives one of what comes from it on. -/
def Carries (A : Aim (Fin n → Fin d → ℝ)) (good : Prop) (t t' : Nat) (m : (Fin n → Fin d → ℝ) × (Fin n → Draws) → (Fin n → Fin d → ℝ) × (Fin n → Draws))
    (H : (Fin n → Fin d → ℝ) × (Fin n → Draws) → List (Nat × (Fin n → Fin d → ℝ))) : Prop :=
  ∀ D, Measurable D → Measurable (fun p => A.add (H p) + D (m p)) ∧
    (good → t' ≤ A.N → A.Est (unifStreams n) t' D → A.Est (unifStreams n) t (fun p => A.add (H p) + D (m p)))

theorem Carries.id (t : Nat) : Carries A True t t (fun p => p) (fun _ => []) := by
  intro D hD
  have e : (fun p => A.add [] + D p) = D := by funext p; simp [Aim.add]
  rw [e]
  exact ⟨hD, fun _ _ h => h⟩

theorem Carries.comp {g g' : Prop} {t t' t'' : Nat} {m m' : (Fin n → Fin d → ℝ) × (Fin n → Draws) → (Fin n → Fin d → ℝ) × (Fin n → Draws)}
    {H H' : (Fin n → Fin d → ℝ) × (Fin n → Draws) → List (Nat × (Fin n → Fin d → ℝ))} (h : Carries A g t t' m H) (h' : Carries A g' t' t'' m' H') (hle : t' ≤ t'') :
    Carries A (g ∧ g') t t'' (fun p => m' (m p)) (fun p => H p ++ H' (m p)) := by
  intro D hD
  obtain ⟨a1, a2⟩ := h' D hD
  obtain ⟨b1, b2⟩ := h _ a1
  have e : (fun p => A.add (H p ++ H' (m p)) + D (m' (m p))) = fun p => A.add (H p) + (A.add (H' (m p)) + D (m' (m p))) := by
    funext p
    rw [A.add_append]
    ring
  rw [e]
  exact ⟨b1, fun c hN hE => b2 c.1 (hle.trans hN) (a2 c.2 hN hE)⟩

theorem rounds_carry (hS : S.Proper v) (hA : AimFor A S v) : ∀ (k t : Nat), Carries A True t (t + k) ((roundS S)^[k]) (roundsH S t k) := by
  intro k
  induction k with
  | zero => exact fun t => Carries.id t
  | succ k ih =>
    intro t D hD
    obtain ⟨a1, a2⟩ := ih (t + 1) D hD
    have hmk := moveKernel_markov S.T S.lo S.hi S.s S.beta (.iter : Move n) (fun i j e => by cases e)
    obtain ⟨f1, f2, f3⟩ := iter_fits hS hA
    have hfr := round_fresh S
    have e : (fun p => A.add (roundsH S t (k + 1) p) + D ((roundS S)^[k + 1] p)) = fun p => (if A.B ≤ t then A.h (roundS S p).1 else 0) +
        (A.add (roundsH S (t + 1) k (roundS S p)) + D ((roundS S)^[k] (roundS S p))) := by
      funext p
      rw [roundsH, Aim.add, List.map_cons, List.sum_cons, add_assoc, Function.iterate_succ_apply]
      simp only [Nat.lt_succ_iff]
      rfl
    rw [e]
    refine ⟨?_, fun _ hN hE => ?_⟩
    · have h1 : Measurable (fun p => A.h (roundS S p).1) := A.h_meas.comp (measurable_fst.comp hfr.meas)
      refine Measurable.add ?_ (a1.comp hfr.meas)
      by_cases hB : A.B ≤ t
      · simpa only [hB, if_true] using h1
      · simp only [hB, if_false]; exact measurable_const
    · have e2 : t + (k + 1) = t + 1 + k := by omega
      rw [e2] at hN hE
      exact Aim.Est.step hfr f1 f2 f3 (by omega) a1 (a2 trivial hN hE)

theorem swaps_carry (hS : S.Proper v) (hn : 2 ≤ n) (hA : AimFor A S v) (root : Fin n) (mode : Int) : ∀ (k t : Nat),
    Carries A True t t ((onRoot root (swapS S mode))^[k]) (fun _ => []) := by
  intro k
  induction k with
  | zero => exact fun t => Carries.id t
  | succ k ih =>
    intro t D hD
    obtain ⟨a1, a2⟩ := ih t D hD
    have hmk : IsMarkovKernel (attemptKernel S mode) := by unfold attemptKernel; infer_instance
    obtain ⟨f1, f2⟩ := attempt_fits hS hn hA mode
    have hfr : Fresh (unifStreams n) (onRoot root (swapS S mode)) (attemptKernel S mode) := (swap_fresh S mode).root root
    refine ⟨a1.comp hfr.meas, fun _ hN hE => ?_⟩
    exact Aim.Est.still hfr f1 f2 a1 (a2 trivial hN hE)

variable (cfg : Cfg ℝ) (root : Fin n)

theorem leg_carry (hS : S.Proper v) (hn : 2 ≤ n) (hA : AimFor A S v) (b : Int) (t : Nat) :
    Carries A True t (t + b.toNat) (legS S cfg root b) (roundsH S t b.toNat) := by
  have h := (rounds_carry hS hA b.toNat t).comp (swaps_carry hS hn hA root cfg.swapmode cfg.nSwap.toNat (t + b.toNat)) le_rfl
  intro D hD
  obtain ⟨a1, a2⟩ := h D hD
  simp only [List.append_nil] at a1 a2
  exact ⟨a1, fun _ => a2 ⟨trivial, trivial⟩⟩

theorem stack_carry (hS : S.Proper v) (hn : 2 ≤ n) (hA : AimFor A S v) (hr : 0 ≤ cfg.rand) (hb : cfg.rand < cfg.base) (nStack : Int) : ∀ (fuel t : Nat) (i : Int),
    Carries A (i ≤ nStack ∧ nStack - i ≤ fuel) t (t + (nStack - i).toNat) (stackS S cfg root nStack fuel i) (stackH S cfg root nStack fuel t i) := by
  intro fuel
  induction fuel with
  | zero =>
    intro t i D hD
    obtain ⟨a1, a2⟩ := Carries.id (A := A) t D hD
    refine ⟨a1, fun c hN hE => a2 trivial ?_ ?_⟩
    · omega
    · have : (nStack - i).toNat = 0 := by omega
      rwa [this] at hE
  | succ fuel ih =>
    intro t i
    by_cases hi : i < nStack
    · intro D hD
      have hin := fun k : Int => ih (t + (sizeOf' cfg nStack i k).toNat) (i + sizeOf' cfg nStack i k) D hD
      have hout := fun k : Int => leg_carry (A := A) cfg root hS hn hA (sizeOf' cfg nStack i k) t _ (hin k).1
      have hfr : Fresh (unifStreams n) (onRoot root fun p : (Fin n → Fin d → ℝ) × Draws => (i4UnifAbVal (-cfg.rand) cfg.rand (pop p.2).1, (pop p.2).2))
          (Kernel.const _ (sizeLaw cfg.rand)) := (size_fresh cfg.rand).root root
      obtain ⟨D', hD'⟩ : ∃ D' : Int → (Fin n → Fin d → ℝ) × (Fin n → Draws) → ℝ, D' = fun k q => A.add (roundsH S t (sizeOf' cfg nStack i k).toNat q) +
        (A.add (stackH S cfg root nStack fuel (t + (sizeOf' cfg nStack i k).toNat) (i + sizeOf' cfg nStack i k) (legS S cfg root (sizeOf' cfg nStack i k) q)) +
          D (stackS S cfg root nStack fuel (i + sizeOf' cfg nStack i k) (legS S cfg root (sizeOf' cfg nStack i k) q))) := ⟨_, rfl⟩
      have hm : ∀ k, Measurable (D' k) := fun k => by rw [hD']; exact (hout k).1
      have e : (fun p => A.add (stackH S cfg root nStack (fuel + 1) t i p) + D (stackS S cfg root nStack (fuel + 1) i p)) = fun p =>
          D' (onRoot root (fun p : (Fin n → Fin d → ℝ) × Draws => (i4UnifAbVal (-cfg.rand) cfg.rand (pop p.2).1, (pop p.2).2)) p).1
            (p.1, (onRoot root (fun p : (Fin n → Fin d → ℝ) × Draws => (i4UnifAbVal (-cfg.rand) cfg.rand (pop p.2).1, (pop p.2).2)) p).2) := by
        funext p
        rw [stackH, if_pos hi, stackS, if_pos hi, A.add_append, add_assoc, hD']
        rfl
      rw [e]
      refine ⟨Aim.measurable_chosen hm hfr.meas, fun c hN hE => ?_⟩
      refine Aim.Est.choose (sizeLaw cfg.rand) hfr hm ((size_range cfg.rand hr).mono fun k hk => ?_)
      have hpos : 0 < sizeOf' cfg nStack i k ∧ i + sizeOf' cfg nStack i k ≤ nStack := by
        simp only [sizeOf']; split <;> omega
      have et : t + (sizeOf' cfg nStack i k).toNat + (nStack - (i + sizeOf' cfg nStack i k)).toNat = t + (nStack - i).toNat := by omega
      rw [hD']
      refine (hout k).2 trivial (by omega) ((hin k).2 ⟨hpos.2, by omega⟩ (by omega) ?_)
      rw [et]
      exact hE
    · intro D hD
      obtain ⟨a1, a2⟩ := Carries.id (A := A) t D hD
      have e : (fun p => A.add (stackH S cfg root nStack (fuel + 1) t i p) + D (stackS S cfg root nStack (fuel + 1) i p)) = fun p => A.add [] + D p := by
        funext p
        rw [stackH, if_neg hi, stackS, if_neg hi]
      rw [e]
      refine ⟨a1, fun c hN hE => a2 trivial (by omega) ?_⟩
      have : (nStack - i).toNat = 0 := by omega
      rwa [this] at hE

theorem flow_carry (hS : S.Proper v) (hn : 2 ≤ n) (hA : AimFor A S v) (hr : 0 ≤ cfg.rand) (hb : cfg.rand < cfg.base) : ∀ (fuel : Nat) (nStack i : Int),
    Carries A (1 ≤ nStack ∧ 0 ≤ i ∧ i ≤ cfg.nIter ∧ cfg.nIter - i ≤ fuel) i.toNat cfg.nIter.toNat (flowS S cfg root fuel nStack i) (flowH S cfg root fuel nStack i) := by
  intro fuel
  induction fuel with
  | zero =>
    intro nStack i D hD
    obtain ⟨a1, a2⟩ := Carries.id (A := A) i.toNat D hD
    refine ⟨a1, fun c hN hE => a2 trivial ?_ ?_⟩
    · omega
    · have : cfg.nIter = i := by omega
      rwa [this] at hE
  | succ fuel ih =>
    intro nStack i
    by_cases hi : i < cfg.nIter
    · intro D hD
      set nS := (if cfg.nIter < i + nStack then cfg.nIter - i else nStack) with hnS
      obtain ⟨a1, a2⟩ := ih nS (i + nS) D hD
      obtain ⟨b1, b2⟩ := stack_carry (A := A) cfg root hS hn hA hr hb nS nS.toNat i.toNat 0 _ a1
      have e : (fun p => A.add (flowH S cfg root (fuel + 1) nStack i p) + D (flowS S cfg root (fuel + 1) nStack i p)) = fun p =>
          A.add (stackH S cfg root nS nS.toNat i.toNat 0 p) + (A.add (flowH S cfg root fuel nS (i + nS) (stackS S cfg root nS nS.toNat 0 p)) +
            D (flowS S cfg root fuel nS (i + nS) (stackS S cfg root nS nS.toNat 0 p))) := by
        funext p
        rw [flowH, if_pos hi, flowS, if_pos hi, A.add_append, add_assoc]
      rw [e]
      refine ⟨b1, fun c hN hE => ?_⟩
      have hpos : 1 ≤ nS ∧ i + nS ≤ cfg.nIter := by rw [hnS]; split <;> omega
      have et : i.toNat + (nS - 0).toNat = (i + nS).toNat := by omega
      refine b2 ⟨by omega, by omega⟩ (by omega) ?_
      rw [et]
      exact a2 ⟨hpos.1, by omega, hpos.2, by omega⟩ hN hE
    · intro D hD
      obtain ⟨a1, a2⟩ := Carries.id (A := A) i.toNat D hD
      have e : (fun p => A.add (flowH S cfg root (fuel + 1) nStack i p) + D (flowS S cfg root (fuel + 1) nStack i p)) = fun p => A.add [] + D p := by
        funext p
        rw [flowH, if_neg hi, flowS, if_neg hi]
      rw [e]
      refine ⟨a1, fun c hN hE => a2 trivial (by omega) ?_⟩
      have : cfg.nIter = i := by omega
      rwa [this] at hE

end

/-! ## C80, the law -/

/-- The average of a function of the parameters of chain `r` over the tables with a number above `B`. -/
noncomputable def averageAbove (B : Nat) (r : Fin n) (f : (Fin d → ℝ) → ℝ) (H : List (Nat × (Fin n → Fin d → ℝ))) : ℝ :=
  (((H.filter fun a => decide (B < a.1)).map fun a => f (a.2 r)).sum) / ((H.filter fun a => decide (B < a.1)).length : ℝ)

/-- The tables of the whole program without tuning, one for each iteration. -/
noncomputable def mainH (S : Setting n d) (ks : Fin d → Draw) (cfg : Cfg ℝ) (root : Fin n) (ω : Fin n → Draws) : List (Nat × (Fin n → Fin d → ℝ)) :=
  flowH S cfg root cfg.nIter.toNat cfg.nStack 0 (fun r => (startS ks S.lo S.hi (ω r)).1, fun r => (startS ks S.lo S.hi (ω r)).2)

theorem sum_above (A : Aim (Fin n → Fin d → ℝ)) (r : Fin n) (f : (Fin d → ℝ) → ℝ) (μ : ℝ) (hh : ∀ x, A.h x = f (x r) - μ) : ∀ H : List (Nat × (Fin n → Fin d → ℝ)),
    A.add H = ((H.filter fun a => decide (A.B < a.1)).map fun a => f (a.2 r)).sum - ((H.filter fun a => decide (A.B < a.1)).length : ℝ) * μ
  | [] => by simp [Aim.add]
  | a :: H => by
    have ih := sum_above A r f μ hh H
    have e : A.add (a :: H) = (if A.B < a.1 then A.h a.2 else 0) + A.add H := by rw [Aim.add, List.map_cons, List.sum_cons]; rfl
    rw [e, ih]
    by_cases h : A.B < a.1
    · simp only [List.filter_cons, h, decide_true, if_true, List.map_cons, List.sum_cons, List.length_cons, hh]
      push_cast
      ring
    · simp only [List.filter_cons, h, decide_false, if_false, Bool.false_eq_true]
      ring

theorem length_above {H : List (Nat × (Fin n → Fin d → ℝ))} {t t' B : Nat} (h : H.map Prod.fst = List.range' (t + 1) (t' - t)) (hB : t ≤ B) :
    (H.filter fun a => decide (B < a.1)).length = t' - B := by
  have e : (H.filter fun a => decide (B < a.1)).length = ((H.map Prod.fst).filter fun a => decide (B < a)).length := by
    rw [List.filter_map, List.length_map]; rfl
  rw [e, h, ← List.countP_eq_length_filter]
  generalize hk : t' - t = k
  have : ∀ (k t : Nat), t ≤ B → List.countP (fun a => decide (B < a)) (List.range' (t + 1) k) = t + k - B := by
    intro k
    induction k with
    | zero => intro t ht; simp; omega
    | succ k ih =>
      intro t ht
      rw [List.range'_succ, List.countP_cons]
      by_cases e : B < t + 1
      · have ht' : t = B := by omega
        have : List.countP (fun a => decide (B < a)) (List.range' (t + 1 + 1) k) = k := by
          rw [List.countP_eq_length.2, List.length_range']
          intro a ha
          have := List.mem_range'_1.1 ha
          simp; omega
        rw [this]; simp [e]; omega
      · rw [ih (t + 1) (by omega)]; simp [e]; omega
  rw [this k t hB]
  omega

theorem average_unit (B : Nat) (r : Fin n) (f : (Fin d → ℝ) → ℝ) (h0 : ∀ x, 0 ≤ f x) (h1 : ∀ x, f x ≤ 1) (H : List (Nat × (Fin n → Fin d → ℝ))) :
    0 ≤ averageAbove B r f H ∧ averageAbove B r f H ≤ 1 := by
  rw [averageAbove]
  generalize (H.filter fun a => decide (B < a.1)) = l
  have h : ∀ l : List (Nat × (Fin n → Fin d → ℝ)), 0 ≤ (l.map fun a => f (a.2 r)).sum ∧ (l.map fun a => f (a.2 r)).sum ≤ l.length := fun l => by
    induction l with
    | nil => simp
    | cons a l ih =>
      rw [List.map_cons, List.sum_cons, List.length_cons]
      push_cast
      exact ⟨add_nonneg (h0 _) ih.1, by linarith [h1 (a.2 r), ih.2]⟩
  exact ⟨div_nonneg (h l).1 (Nat.cast_nonneg _), div_le_one_of_le₀ (h l).2 (Nat.cast_nonneg _)⟩

theorem inUnit_ae (n : Nat) : ∀ᵐ ω ∂(unifStreams n), InUnit ω := by
  have hu : ∀ᵐ u ∂unif, u ∈ Ico (0 : ℝ) 1 := ae_restrict_mem measurableSet_Ico
  have hs : ∀ᵐ ω ∂unifStream, ∀ k, ω k ∈ Ico (0 : ℝ) 1 := by
    rw [ae_all_iff]
    exact fun k => (measurePreserving_eval_infinitePi (fun _ : ℕ => unif) k).quasiMeasurePreserving.ae hu
  have : ∀ᵐ ω ∂(unifStreams n), ∀ r, ∀ k, ω r k ∈ Ico (0 : ℝ) 1 := by
    rw [ae_all_iff]
    exact fun r => (Measure.quasiMeasurePreserving_eval (fun _ : Fin n => unifStream) r).ae hs
  exact this.mono fun ω h r k => h r k

/-- The mean under the product of the tempered posteriors is the one under the tempered posterior of the chain. -/
theorem targetMean_eq (hS : S.Proper v) (r : Fin n) (f : (Fin d → ℝ) → ℝ) (hf : Measurable f) :
    targetMean S r f = (∫ x, f x ∂(posterior (volume.restrict (openBox S.lo S.hi)) (S.T.lp (S.beta r)))) /
      (posterior (volume.restrict (openBox S.lo S.hi)) (S.T.lp (S.beta r))).real univ := by
  set P := fun r => posterior (volume.restrict (openBox S.lo S.hi)) (S.T.lp (S.beta r)) with hP
  have hsf : ∀ r, SigmaFinite (P r) := fun r => SigmaFinite.withDensity_ofReal _
  obtain ⟨hz, ht⟩ := joint_mass S.T S.lo S.hi hS.range S.beta v hS.varies
  have hj : Measure.pi P = joint S.T S.lo S.hi S.beta := joint_pi S.T S.lo S.hi S.beta
  have hprob := jointLaw_prob hS
  have hu : joint S.T S.lo S.hi S.beta univ = ∏ q, P q univ := by rw [← hj, Measure.pi_univ]
  rw [hu] at hz ht
  have hne : ∀ q, P q univ ≠ 0 := fun q h0 => hz (Finset.prod_eq_zero (Finset.mem_univ q) h0)
  have hnt : ∀ q, P q univ ≠ ∞ := fun q h0 => by
    refine ht ?_
    rw [← Finset.mul_prod_erase _ _ (Finset.mem_univ q), h0]
    exact ENNReal.top_mul (Finset.prod_ne_zero_iff.2 fun i _ => hne i)
  have hfin : ∀ q, IsFiniteMeasure (P q) := fun q => ⟨(hnt q).lt_top⟩
  have hmap : (jointLaw S.T S.lo S.hi S.beta).map (fun x => x r) = (P r univ)⁻¹ • P r := by
    have h1 : (joint S.T S.lo S.hi S.beta).map (fun x => x r) = (∏ j ∈ Finset.univ.erase r, P j univ) • P r := by
      rw [← hj]; exact Measure.pi_map_eval P r
    rw [jointLaw, Measure.map_smul, h1, smul_smul, hu, ← Finset.mul_prod_erase _ _ (Finset.mem_univ r)]
    congr 1
    have ha : ∏ j ∈ Finset.univ.erase r, P j univ ≠ 0 := Finset.prod_ne_zero_iff.2 fun i _ => hne i
    have hb : ∏ j ∈ Finset.univ.erase r, P j univ ≠ ∞ := ENNReal.prod_ne_top fun i _ => hnt i
    rw [ENNReal.mul_inv (Or.inl (hne r)) (Or.inl (hnt r)), mul_assoc, ENNReal.inv_mul_cancel ha hb, mul_one]
  have e : targetMean S r f = ∫ x, f x ∂((jointLaw S.T S.lo S.hi S.beta).map fun x => x r) := by
    rw [integral_map (measurable_pi_apply r).aemeasurable hf.aestronglyMeasurable, targetMean]
  rw [e, hmap, integral_smul_measure, smul_eq_mul, ENNReal.toReal_inv, measureReal_def, inv_mul_eq_div]

/-- The bound on the mean square of the error of an average over `K` rows: `c` the gain of one round, `e` its deviation. -/
noncomputable def errorBound (c e : ℝ) (K : Nat) : ℝ := (2 / c - 1) / K + 2 * e / c

theorem aim_for (hS : S.Proper v) (r : Fin n) (f : (Fin d → ℝ) → ℝ) (hf : Measurable f) (h0 : ∀ x, 0 ≤ f x) (h1 : ∀ x, f x ≤ 1) (N B : Nat) :
    AimFor (aimOf hS r f hf h0 h1 N B) S v := ⟨rfl, rfl, rfl, rfl⟩

/-- On streams with numbers from `[0, 1)` the error of the average is the sum of the deviations of its rows over their number. -/
theorem average_add (hS : S.Proper v) (cfg : Cfg ℝ) (hr : 0 ≤ cfg.rand) (hb : cfg.rand < cfg.base) (root r : Fin n) (f : (Fin d → ℝ) → ℝ) (hf : Measurable f)
    (h0 : ∀ x, 0 ≤ f x) (h1 : ∀ x, f x ≤ 1) (nStack i : Int) (hst : 1 ≤ nStack) (hi : 0 ≤ i) (B : Nat) (hiB : i.toNat ≤ B) (hB : B < cfg.nIter.toNat)
    (p : (Fin n → Fin d → ℝ) × (Fin n → Draws)) (hp : InUnit p.2) :
    averageAbove B r f (flowH S cfg root cfg.nIter.toNat nStack i p) - targetMean S r f =
      (aimOf hS r f hf h0 h1 cfg.nIter.toNat B).add (flowH S cfg root cfg.nIter.toNat nStack i p) / (cfg.nIter.toNat - B : Nat) := by
  have hlen := length_above (flowH_numbers S hr hb root cfg.nIter.toNat nStack i p hp hst hi (by omega) (by omega)) hiB
  have hsum := sum_above (aimOf hS r f hf h0 h1 cfg.nIter.toNat B) r f (targetMean S r f) (fun _ => rfl) (flowH S cfg root cfg.nIter.toNat nStack i p)
  have e : (aimOf hS r f hf h0 h1 cfg.nIter.toNat B).B = B := rfl
  rw [e] at hsum
  have hK : ((cfg.nIter.toNat - B : Nat) : ℝ) ≠ 0 := by
    have : 0 < cfg.nIter.toNat - B := by omega
    positivity
  rw [hsum, averageAbove, hlen]
  field_simp

theorem aim_error {A : Aim (Fin n → Fin d → ℝ)} (hB : A.B < A.N) {t : Nat} (ht : t ≤ A.B) {D : (Fin n → Fin d → ℝ) × (Fin n → Draws) → ℝ} (hE : A.Est (unifStreams n) t D)
    {x : Fin n → Fin d → ℝ} (hx : x ∈ A.box) : ∫ ω, (D (x, ω) / (A.N - A.B : Nat)) ^ 2 ∂(unifStreams n) ≤ errorBound A.c A.e (A.N - A.B) := by
  have h := hE.sq x hx
  rw [max_eq_right ht] at h
  have hK : (0 : ℝ) < (A.N - A.B : Nat) := by
    have : 0 < A.N - A.B := by omega
    exact_mod_cast this
  have hc := A.c_pos
  simp only [div_pow]
  rw [integral_div]
  rw [div_le_iff₀ (by positivity)]
  refine h.trans (le_of_eq ?_)
  rw [errorBound, Aim.M, Aim.R]
  field_simp
  ring

/-- The mean square error from any table in the box and any iteration on. -/
theorem flow_error (hS : S.Proper v) (hn : 2 ≤ n) (cfg : Cfg ℝ) (hr : 0 ≤ cfg.rand) (hb : cfg.rand < cfg.base) (root r : Fin n) (f : (Fin d → ℝ) → ℝ) (hf : Measurable f)
    (h0 : ∀ x, 0 ≤ f x) (h1 : ∀ x, f x ≤ 1) (nStack i : Int) (hst : 1 ≤ nStack) (hi : 0 ≤ i) (B : Nat) (hiB : i.toNat ≤ B) (hB : B < cfg.nIter.toNat) :
    ∀ x ∈ tableBox S.lo S.hi, ∫ ω, (averageAbove B r f (flowH S cfg root cfg.nIter.toNat nStack i (x, ω)) - targetMean S r f) ^ 2 ∂(unifStreams n) ≤
      errorBound (gain S.lo S.hi S.s v).toReal (leakAll S.lo S.hi S.s).toReal (cfg.nIter.toNat - B) := by
  intro x hx
  have hA := aim_for hS r f hf h0 h1 cfg.nIter.toNat B
  obtain ⟨-, hE⟩ := flow_carry cfg root hS hn hA hr hb cfg.nIter.toNat nStack i (fun _ => 0) measurable_const
  have := aim_error (A := aimOf hS r f hf h0 h1 cfg.nIter.toNat B) hB hiB (hE ⟨hst, hi, by omega, by omega⟩ le_rfl Aim.Est.stop) hx
  refine le_trans (le_of_eq (integral_congr_ae ?_)) this
  filter_upwards [inUnit_ae n] with ω hω
  have e := average_add hS cfg hr hb root r f hf h0 h1 nStack i hst hi B hiB hB (x, ω) hω
  simp only [e, add_zero]
  rfl

theorem startS_part {d : Nat} (ks : Fin d → Draw) (lo hi : Fin d → ℝ) (ω : Draws) : Part ω (startS ks lo hi ω).2 := by
  have : ∀ (d : Nat) (ω : Draws), Part ω (numsS d ω).2 := fun d => by
    induction d with
    | zero => exact fun ω => Part.id ω
    | succ d ih => exact fun ω => (Part.pop ω).trans (ih _)
  exact this d ω

/-- **C80, law.** The streams of the ranks consist of independent uniform numbers. Average a measurable function of the parameters with values in `[0, 1]` over the rows of
chain `r` after the first `B` iterations, as many as there are: the mean square of its error as an estimate of the mean under the tempered posterior of the chain
is at most `(2 / c - 1) / K + 2 * e / c`, for `K` rows, with the gain `c` of one round (C76) and its deviation `e` (C75). The probability of an error of `ε` or more is at
most this over `ε ^ 2`. -/
theorem average_error (S : Setting n d) (v : Fin n → ℝ) (hS : S.Proper v) (hn : 2 ≤ n) (ks : Fin d → Draw) (hk : ∀ i, (ks i).Fits (S.lo i, S.hi i)) (cfg : Cfg ℝ)
    (hr : 0 ≤ cfg.rand) (hb : cfg.rand < cfg.base) (hst : 1 ≤ cfg.nStack) (root r : Fin n) (f : (Fin d → ℝ) → ℝ) (hf : Measurable f)
    (h0 : ∀ x, 0 ≤ f x) (h1 : ∀ x, f x ≤ 1) (B : Nat) (hB : B < cfg.nIter.toNat) :
    ∫ ω, (averageAbove B r f (mainH S ks cfg root ω) - (∫ x, f x ∂(posterior (volume.restrict (openBox S.lo S.hi)) (S.T.lp (S.beta r)))) /
        (posterior (volume.restrict (openBox S.lo S.hi)) (S.T.lp (S.beta r))).real univ) ^ 2 ∂(unifStreams n) ≤
      errorBound (gain S.lo S.hi S.s v).toReal (∑ r, ∑ i, ((tail (S.lo i) (S.hi i) (S.s r i)).toReal + 1 / 10 ^ 16)) (cfg.nIter.toNat - B) ∧
    ∀ ε : ℝ, 0 < ε → (unifStreams n).real {ω | ε ≤ |averageAbove B r f (mainH S ks cfg root ω) -
        (∫ x, f x ∂(posterior (volume.restrict (openBox S.lo S.hi)) (S.T.lp (S.beta r)))) /
          (posterior (volume.restrict (openBox S.lo S.hi)) (S.T.lp (S.beta r))).real univ|} ≤
      errorBound (gain S.lo S.hi S.s v).toReal (∑ r, ∑ i, ((tail (S.lo i) (S.hi i) (S.s r i)).toReal + 1 / 10 ^ 16)) (cfg.nIter.toNat - B) / ε ^ 2 := by
  obtain ⟨hlt, hlr⟩ := leakAll_real S.lo S.hi S.s
  rw [← targetMean_eq hS r f hf, ← hlr]
  have hA := aim_for hS r f hf h0 h1 cfg.nIter.toNat B
  obtain ⟨hM, hE⟩ := flow_carry cfg root hS hn hA hr hb cfg.nIter.toNat cfg.nStack 0 (fun _ => 0) measurable_const
  have hE := hE ⟨hst, le_rfl, by omega, by omega⟩ le_rfl Aim.Est.stop
  simp only [add_zero] at hM hE
  set A := aimOf hS r f hf h0 h1 cfg.nIter.toNat B with hAdef
  set D := fun p => A.add (flowH S cfg root cfg.nIter.toNat cfg.nStack 0 p) with hD
  have hp : Fresh (unifStreams n) (fun p : (Fin n → Fin d → ℝ) × (Fin n → Draws) => (fun r => (startS ks S.lo S.hi (p.2 r)).1, fun r => (startS ks S.lo S.hi (p.2 r)).2))
      (parKernel fun _ => Kernel.const (Fin d → ℝ) (startLaw ks S.lo S.hi)) := Fresh.par fun r => start_fresh ks S.lo S.hi
  have hbox : ∀ᵐ x ∂((parKernel fun _ : Fin n => Kernel.const (Fin d → ℝ) (startLaw ks S.lo S.hi)) fun _ _ => 0), x ∈ tableBox S.lo S.hi := by
    rw [parKernel_apply]
    have hbox : ∀ᵐ x ∂(Measure.pi fun _ : Fin n => startLaw ks S.lo S.hi), ∀ r, ∀ i, S.lo i ≤ x r i ∧ x r i ≤ S.hi i := by
      rw [ae_all_iff]
      exact fun r => (Measure.quasiMeasurePreserving_eval (fun _ : Fin n => startLaw ks S.lo S.hi) r).ae (start_box ks S.lo S.hi hk)
    filter_upwards [hbox] with x hx r _ i _
    exact hx r i
  have hK : (0 : ℝ) < (cfg.nIter.toNat - B : Nat) := by
    have : 0 < cfg.nIter.toNat - B := by omega
    exact_mod_cast this
  -- the error is a.e. a measurable and bounded function of the streams
  have hcongr : ∀ᵐ ω ∂(unifStreams n), averageAbove B r f (mainH S ks cfg root ω) - targetMean S r f =
      D (fun r => (startS ks S.lo S.hi (ω r)).1, fun r => (startS ks S.lo S.hi (ω r)).2) / (cfg.nIter.toNat - B : Nat) := by
    filter_upwards [inUnit_ae n] with ω hω
    exact average_add hS cfg hr hb root r f hf h0 h1 cfg.nStack 0 hst le_rfl B (Nat.zero_le _) hB (_, _) (hω.part fun r => startS_part ks S.lo S.hi (ω r))
  have hF : Measurable fun q => (D q / (cfg.nIter.toNat - B : Nat)) ^ 2 := (hM.div_const _).pow_const 2
  have hbd : ∀ x, ∀ᵐ ω ∂(unifStreams n), |(D (x, ω) / (cfg.nIter.toNat - B : Nat)) ^ 2| ≤ ((A.N - (0 : Int).toNat : Nat) / (cfg.nIter.toNat - B : Nat)) ^ 2 := fun x => by
    filter_upwards [hE.bdd x] with ω hω
    rw [abs_pow, abs_div, abs_of_pos hK]
    gcongr
  have hint := hp.integral_at (fun _ _ => 0) hF _ (Filter.Eventually.of_forall hbd)
  have hmain : ∫ ω, (averageAbove B r f (mainH S ks cfg root ω) - targetMean S r f) ^ 2 ∂(unifStreams n) ≤
      errorBound (gain S.lo S.hi S.s v).toReal (leakAll S.lo S.hi S.s).toReal (cfg.nIter.toNat - B) := by
    have e : ∫ ω, (averageAbove B r f (mainH S ks cfg root ω) - targetMean S r f) ^ 2 ∂(unifStreams n) =
        ∫ ω, (D (fun r => (startS ks S.lo S.hi (ω r)).1, fun r => (startS ks S.lo S.hi (ω r)).2) / (cfg.nIter.toNat - B : Nat)) ^ 2 ∂(unifStreams n) :=
      integral_congr_ae (hcongr.mono fun ω h => by simp only [h])
    rw [e]
    refine le_trans (le_of_eq hint) (integral_le_of (f := fun y => ∫ ω, (D (y, ω) / (cfg.nIter.toNat - B : Nat)) ^ 2 ∂(unifStreams n)) ?_ (hbox.mono fun y hy => ?_))
    · refine integrable_of_bound (measurable_mean hF) _ (Filter.Eventually.of_forall fun y => abs_integral_le (hbd y))
    · exact aim_error (A := A) hB (Nat.zero_le _) hE hy
  refine ⟨hmain, fun ε hε => ?_⟩
  have hI : Integrable (fun ω => (averageAbove B r f (mainH S ks cfg root ω) - targetMean S r f) ^ 2) (unifStreams n) := by
    have hms : Measurable fun ω : Fin n → Draws => (D (fun r => (startS ks S.lo S.hi (ω r)).1, fun r => (startS ks S.lo S.hi (ω r)).2) / (cfg.nIter.toNat - B : Nat)) ^ 2 :=
      hF.comp (hp.meas.comp (measurable_prodMk_left (x := fun _ _ => 0)))
    refine Integrable.of_bound (hms.aestronglyMeasurable.congr (hcongr.mono fun ω h => by simp only [h])) 1 (Filter.Eventually.of_forall fun ω => ?_)
    have ha := average_unit B r f h0 h1 (mainH S ks cfg root ω)
    have hb := A.h_abs
    rw [Real.norm_eq_abs, abs_pow]
    refine pow_le_one₀ (abs_nonneg _) ?_
    have hm := jointLaw_prob hS
    have hI : Integrable (fun y : Fin n → Fin d → ℝ => f (y r)) (jointLaw S.T S.lo S.hi S.beta) :=
      integrable_of_bound (hf.comp (measurable_pi_apply r)) 1 (Filter.Eventually.of_forall fun y => by rw [abs_of_nonneg (h0 _)]; exact h1 _)
    have a1 : 0 ≤ targetMean S r f := integral_nonneg fun y => h0 _
    have a2 : targetMean S r f ≤ 1 := integral_le_of hI (Filter.Eventually.of_forall fun y => h1 _)
    rw [abs_le]
    constructor <;> linarith [ha.1, ha.2]
  have hC := mul_meas_ge_le_integral_of_nonneg (Filter.Eventually.of_forall fun ω => sq_nonneg _) hI (ε ^ 2)
  rw [le_div_iff₀ (by positivity), mul_comm]
  refine le_trans (le_of_eq ?_) (hC.trans hmain)
  congr 3
  ext ω
  show ε ≤ |_| ↔ ε ^ 2 ≤ _ ^ 2
  rw [← sq_abs (_ - _), sq_le_sq₀ hε.le (abs_nonneg _)]

/-! ## C80, the program -/

/-- What a user computes from the rows of a chain file: the average of a function of the parameters over the rows with an iteration number above `B`. -/
noncomputable def rowAverage (B : Nat) (g : List ℝ → ℝ) (rows : List (Row ℝ)) : ℝ :=
  (((rows.filter fun a => decide (B < a.iter)).map fun a => g a.x).sum) / ((rows.filter fun a => decide (B < a.iter)).length : ℝ)

theorem filter_above {B t' : Nat} : (List.range' 1 t').filter (fun a => decide (B < a)) = List.range' (B + 1) (t' - B) := by
  have h1 : ∀ (k a : Nat), a ≤ B + 1 → (List.range' a k).filter (fun a => decide (B < a)) = List.range' (B + 1) (a + k - (B + 1)) := by
    intro k
    induction k with
    | zero => intro a ha; simp [show a - (B + 1) = 0 by omega]
    | succ k ih =>
      intro a ha
      rw [List.range'_succ, List.filter_cons]
      by_cases e : B < a
      · have : a = B + 1 := by omega
        subst this
        have hall : (List.range' (B + 1 + 1) k).filter (fun a => decide (B < a)) = List.range' (B + 1 + 1) k := by
          rw [List.filter_eq_self]
          intro x hx
          have := List.mem_range'_1.1 hx
          simp; omega
        rw [if_pos (by simp), hall, ← List.range'_succ]
        congr 1
        omega
      · rw [if_neg (by simpa using e), ih (a + 1) (by omega)]
        congr 1
        omega
  rw [h1 t' 1 (by omega)]
  congr 1
  omega

/-- **C80, program.** A run of a bundled model in which nothing is tuned, started with a usable configuration and with `N_save_begin` at most `B + 1`. In every finished
execution of the MPI program the chain file of every rank has one row for each iteration after the first `B`, in order, and an average over these rows is the average
over the tables of `mainH`, applied to the numbers that the generators of the ranks give after seeding. -/
theorem average_stream [Source ℝ] [UnitDraws] (m : Model ℝ) (ndim : Int) (ks : Fin d → Draw) (lo hi : Fin d → ℝ) (T : Target d) (cfg : Cfg ℝ) (file : DataFile ℝ) (hv : Valid n cfg file)
    (hu : cfg.user = m.user (List.ofFn fun i => (lo i, hi i)) ndim) (hd : m.draws = List.ofFn ks) (hN : cfg.nParm = d) (hlo : ∀ i, lo i ≤ hi i)
    (hratio : 0 ≤ cfg.initGpRatio) (data : List ℝ) (hdata : file.cells = .ok data)
    (hT : ∀ b (x : Fin d → ℝ), Spec.target cfg.user file.nlines data b (List.ofFn x) = T.lp b x)
    (hw : ∀ k, 0 < k → inTuneWindow cfg k = false) (hl : cfg.tuneLadder ≤ 0) (hit : 0 ≤ cfg.nIter) (B : Nat) (hB : cfg.saveBegin ≤ B + 1) (clock : Nat) (root : Fin n) :
    ∃ beta : Fin n → ℝ, copyBetas n cfg.betas = .ok beta ∧
      ∀ (w₁ : List (Label n)) (t : Sys n (Msg ℝ) (Line ℝ) (RSt n ℝ)), (initSys cfg file clock root).exec w₁ = some t → t.AllDone →
        ∀ r : Fin n, ((fileRows r.val (t.log r)).filter fun a => decide (B < a.iter)).map (fun a => a.iter) = List.range' (B + 1) (cfg.nIter.toNat - B) ∧
          ∀ g : List ℝ → ℝ, rowAverage B g (fileRows r.val (t.log r)) =
            averageAbove B r (fun x => g (List.ofFn x)) (mainH (settingOf T lo hi cfg.initGpRatio beta) ks cfg root fun q =>
              streamOf (srand48 ℝ (seedOf root (startSeed cfg clock) q))) := by
  obtain ⟨w, len, hseq, hex⟩ := distributed_eq_sequential cfg file hv clock root
  unfold seqMain at hseq
  obtain ⟨w0, h0, h1⟩ := exc_bind.1 hseq
  obtain ⟨beta, hbeta, hf, hshow, hacc, hrow⟩ := init_shows m ndim ks lo hi T cfg file hv hu hd hN hlo hratio data hdata hT clock root w0 h0
  refine ⟨beta, hbeta, fun w₁ t ht hdone r => ?_⟩
  obtain ⟨-, h2⟩ := hex w₁ t ht
  obtain ⟨l, hlog, hwr⟩ := flow_writes hf hv.mode hB root r _ _ _ w0 w _ hshow hw (Or.inl hl) hv.stack le_rfl (hacc r) hit h1
  have hwr : Writes B r 0 cfg.nIter.toNat l (mainH (settingOf T lo hi cfg.initGpRatio beta) ks cfg root fun q => streamOf (srand48 ℝ (seedOf root (startSeed cfg clock) q))) := hwr
  have hfil : (fileRows r.val (t.log r)).filter (fun a => decide (B < a.iter)) = l.filter fun a => decide (B < a.iter) := by
    rw [(h2 hdone).2.1, hlog, List.filter_append, List.filter_eq_nil_iff.2 fun a ha => by simp [hrow r a ha], List.nil_append]
  have hnum : (l.filter fun a => decide (B < a.iter)).map (fun a => a.iter) = List.range' (B + 1) (cfg.nIter.toNat - B) := by
    have e := congrArg (List.map Prod.fst) hwr.rows
    rw [List.map_map, List.map_map] at e
    have e' : (l.filter fun a => decide (B < a.iter)).map (fun a => a.iter) =
        ((mainH (settingOf T lo hi cfg.initGpRatio beta) ks cfg root fun q => streamOf (srand48 ℝ (seedOf root (startSeed cfg clock) q))).map Prod.fst).filter
          fun a => decide (B < a) := by
      rw [List.filter_map]; exact e
    rw [e', hwr.numbers]
    exact filter_above
  refine ⟨by rw [hfil]; exact hnum, fun g => ?_⟩
  have hpts : (l.filter fun a => decide (B < a.iter)).map (fun a => g a.x) =
      ((mainH (settingOf T lo hi cfg.initGpRatio beta) ks cfg root fun q => streamOf (srand48 ℝ (seedOf root (startSeed cfg clock) q))).filter fun a => decide (B < a.1)).map
        fun a => g (List.ofFn (a.2 r)) := by
    have e := congrArg (List.map fun a : Nat × List ℝ => g a.2) hwr.rows
    rw [List.map_map, List.map_map] at e
    exact e
  have hlen := congrArg List.length hpts
  rw [List.length_map, List.length_map] at hlen
  rw [rowAverage, averageAbove, hfil, hpts, hlen]

end

/-- **C80 for the egg box model**: three ranks, the ranges of its sample input, nothing tuned. The average over the rows of a chain file after any finished execution is that over the
tables of `mainH` on the three streams of numbers, and for independent uniform streams it estimates the mean under the tempered posterior with the stated error. -/
theorem eggbox_average [Source ℝ] [UnitDraws] (cfg : Cfg ℝ) (file : DataFile ℝ) (hv : Valid 3 cfg file) (ndim : Int) (hu : cfg.user = eggbox.user [(0, 50), (0, 50)] ndim)
    (hN : cfg.nParm = 2) (hr0 : 0 < cfg.initGpRatio) (hr1 : cfg.initGpRatio ≤ 1 / 5) (hb : ∀ b ∈ cfg.betas, 0 ≤ b)
    (hw : ∀ k, 0 < k → inTuneWindow cfg k = false) (hl : cfg.tuneLadder ≤ 0) (B : Nat) (hs : cfg.saveBegin ≤ B + 1) (hB : B < cfg.nIter.toNat) (clock : Nat) (root r : Fin 3)
    (g : List ℝ → ℝ) (hg : Measurable fun x : Fin 2 → ℝ => g (List.ofFn x)) (g0 : ∀ x, 0 ≤ g x) (g1 : ∀ x, g x ≤ 1) :
    ∃ beta : Fin 3 → ℝ, copyBetas 3 cfg.betas = .ok beta ∧ 0 < eggboxRate cfg.initGpRatio beta ∧ eggboxRate cfg.initGpRatio beta ≤ 1 ∧
      (∀ (w₁ : List (Label 3)) (t : Sys 3 (Msg ℝ) (Line ℝ) (RSt 3 ℝ)), (initSys cfg file clock root).exec w₁ = some t → t.AllDone →
        rowAverage B g (fileRows r.val (t.log r)) = averageAbove B r (fun x => g (List.ofFn x))
          (mainH (eggboxSetting cfg.initGpRatio beta) (fun _ => .unif) cfg root fun q => streamOf (srand48 ℝ (seedOf root (startSeed cfg clock) q)))) ∧
      ∀ ε : ℝ, 0 < ε → (unifStreams 3).real {ω | ε ≤ |averageAbove B r (fun x => g (List.ofFn x)) (mainH (eggboxSetting cfg.initGpRatio beta) (fun _ => .unif) cfg root ω) -
          (∫ x : Fin 2 → ℝ, g (List.ofFn x) ∂(posterior (volume.restrict (openBox (fun _ => 0) fun _ => 50)) (eggboxTarget.lp (beta r)))) /
            (posterior (volume.restrict (openBox (fun _ => 0) fun _ => 50)) (eggboxTarget.lp (beta r))).real univ|} ≤
        errorBound (eggboxRate cfg.initGpRatio beta) (46 / 10 ^ 6) (cfg.nIter.toNat - B) / ε ^ 2 := by
  obtain ⟨data, hdata, -, -⟩ := hv.cells
  have hu' : cfg.user = eggbox.user (List.ofFn fun i : Fin 2 => ((fun _ => (0 : ℝ)) i, (fun _ => (50 : ℝ)) i)) ndim := by rw [hu]; simp [List.ofFn_succ]
  obtain ⟨beta, hbeta, hex⟩ := average_stream (n := 3) eggbox ndim (fun _ : Fin 2 => .unif) (fun _ => 0) (fun _ => 50) eggboxTarget cfg file hv hu'
    (by simp [eggbox, model2, List.ofFn_succ]) hN (fun _ => by norm_num) hr0.le data hdata (fun b x => by rw [hu]; exact eggbox_target _ _ _ _ b x) hw hl (by omega) B hs clock root
  have hbnn : ∀ r, 0 ≤ beta r := by
    unfold copyBetas at hbeta
    split at hbeta
    · have := (Except.ok.inj hbeta).symm
      subst this
      exact fun r => hb _ (List.getElem_mem _)
    · cases hbeta
  set S : Setting 3 2 := settingOf eggboxTarget (fun _ => 0) (fun _ => 50) cfg.initGpRatio beta with hS
  have hwid : ∀ r i, (S.s r i : ℝ) = 50 * cfg.initGpRatio := fun r i => by
    show (((50 - 0) * cfg.initGpRatio).toNNReal : ℝ) = _
    rw [Real.coe_toNNReal _ (by linarith), sub_zero]
  have hprop : S.Proper (fun r => 2 * beta r) :=
    ⟨fun _ => by show (0 : ℝ) < 50; norm_num, fun r i h0 => by
      have := hwid r i
      rw [h0, NNReal.coe_zero] at this
      linarith, fun r => eggbox_varies _ _ _ (hbnn r)⟩
  obtain ⟨-, herr⟩ := average_error S _ hprop (by norm_num) (fun _ => .unif) (fun _ => by show (0 : ℝ) ≤ 50; norm_num) cfg hv.rand hv.base hv.stack root r
    (fun x => g (List.ofFn x)) hg (fun _ => g0 _) (fun _ => g1 _) B hB
  obtain ⟨c1, c2, -⟩ := start_forgotten S.T S.lo S.hi hprop.range S.s hprop.width S.beta _ hprop.varies
  refine ⟨beta, hbeta, c1, c2, fun w₁ t ht hd => (hex w₁ t ht hd r).2 g, fun ε hε => ?_⟩
  refine (herr ε hε).trans ?_
  have hsum : ∑ r : Fin 3, ∑ i : Fin 2, ((tail (S.lo i) (S.hi i) (S.s r i)).toReal + 1 / 10 ^ 16) ≤ 46 / 10 ^ 6 := by
    have ht : ∀ r i, (tail (S.lo i) (S.hi i) (S.s r i)).toReal + 1 / 10 ^ 16 ≤ 75 / 10 ^ 7 + 1 / 10 ^ 16 := fun r i => by
      have : (tail (S.lo i) (S.hi i) (S.s r i)).toReal ≤ 75 / 10 ^ 7 :=
        tail_fifth 0 50 (by norm_num) (S.s r i) (hprop.width r i) (by rw [hwid]; linarith)
      linarith
    calc _ ≤ ∑ r : Fin 3, ∑ i : Fin 2, ((75 : ℝ) / 10 ^ 7 + 1 / 10 ^ 16) := Finset.sum_le_sum fun r _ => Finset.sum_le_sum fun i _ => ht r i
      _ ≤ _ := by norm_num
  rw [errorBound, errorBound]
  rw [show eggboxRate cfg.initGpRatio beta = (gain S.lo S.hi S.s fun r => 2 * beta r).toReal from rfl]
  gcongr

/-- The hypotheses hold for the run of `Verif.Props.Whole`: the fraction of rows of the coldest chain, after the first half of the iterations, with both parameters below 25. -/
example (clock : Nat) : ∃ beta : Fin 3 → ℝ, copyBetas 3 eggboxRun.betas = .ok beta ∧ 0 < eggboxRate (1 / 10) beta ∧ eggboxRate (1 / 10) beta ≤ 1 ∧
    (∀ (w₁ : List (Label 3)) (t : Sys 3 (Msg ℝ) (Line ℝ) (RSt 3 ℝ)), (initSys eggboxRun eggboxFile clock 0).exec w₁ = some t → t.AllDone →
      rowAverage 10000 (fun x => if ∀ y ∈ x, y < 25 then 1 else 0) (fileRows 2 (t.log 2)) =
        averageAbove 10000 2 (fun x => if ∀ y ∈ List.ofFn x, y < 25 then 1 else 0)
          (mainH (eggboxSetting (1 / 10) beta) (fun _ => .unif) eggboxRun 0 fun q => streamOf (srand48 ℝ (seedOf 0 (startSeed eggboxRun clock) q)))) ∧
    ∀ ε : ℝ, 0 < ε → (unifStreams 3).real {ω | ε ≤
        |averageAbove 10000 2 (fun x => if ∀ y ∈ List.ofFn x, y < 25 then 1 else 0) (mainH (eggboxSetting (1 / 10) beta) (fun _ => .unif) eggboxRun 0 ω) -
        (∫ x : Fin 2 → ℝ, (if ∀ y ∈ List.ofFn x, y < 25 then 1 else 0) ∂(posterior (volume.restrict (openBox (fun _ => 0) fun _ => 50)) (eggboxTarget.lp (beta 2)))) /
          (posterior (volume.restrict (openBox (fun _ => 0) fun _ => 50)) (eggboxTarget.lp (beta 2))).real univ|} ≤
      errorBound (eggboxRate (1 / 10) beta) (46 / 10 ^ 6) 10000 / ε ^ 2 :=
  eggbox_average eggboxRun eggboxFile eggbox_valid 1 rfl rfl (by simp [eggboxRun]) (by simp only [eggboxRun]; norm_num)
    (by simp [eggboxRun]) (fun k _ => by
      show (decide ((100000 : Int) < k) && decide (k < 100001) && decide (k < 20000)) = false
      rw [Bool.eq_false_iff]; simp only [ne_eq, Bool.and_eq_true, decide_eq_true_eq]; omega)
    (by simp [eggboxRun]) 10000 (by simp [eggboxRun, demoCfg]) (by simp [eggboxRun]) clock 0 2 (fun x => if ∀ y ∈ x, y < 25 then 1 else 0)
    (by
      refine Measurable.ite ?_ measurable_const measurable_const
      have : {x : Fin 2 → ℝ | ∀ y ∈ List.ofFn x, y < 25} = {x | x 0 < 25} ∩ {x | x 1 < 25} := by
        ext x
        simp [List.ofFn_succ]
      rw [this]
      exact (measurableSet_lt (measurable_pi_apply 0) measurable_const).inter (measurableSet_lt (measurable_pi_apply 1) measurable_const))
    (fun x => by split <;> norm_num) (fun x => by split <;> norm_num)

end NiiC
