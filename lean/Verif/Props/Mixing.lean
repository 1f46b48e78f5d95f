import Verif.Prob.Cold
import Verif.Prob.Exact
import Verif.Props.Average

/-!
# How long a run has to be: C85

The bounds of C76, C77 and C80 rest on the part of one round that reaches every table at once. That part is so small that they say nothing about runs of a realistic
length. Here the rate is the one at which a round averages functions out, which is that of a random walk through the ranges.
-/

set_option linter.unusedSectionVars false
set_option linter.unusedSimpArgs false

namespace NiiC

open MeasureTheory ProbabilityTheory Set ENNReal NNReal

section
variable {n d : Nat} {S : Setting n d} {v : Fin n → ℝ}

/-- Rates of a run: `g` is at most the share of the variance that one round takes away, `a` is at most the probability that one round moves all parameters of all chains,
and `C` is at least the density with which it does so, relative to the posterior. -/
structure Setting.Mixes (S : Setting n d) (v : Fin n → ℝ) (g a C : ℝ) : Prop where
  width_le : ∀ r i, (S.s r i : ℝ) ≤ S.hi i - S.lo i
  g_pos : 0 < g
  g_one : g ≤ 1
  rate : ∀ r i, g ≤ Real.exp (-v r) * gap (S.lo i) (S.hi i) (S.s r i)
  a_pos : 0 < a
  a_one : a ≤ 1
  move : a ≤ ∏ r, moveRate S.lo S.hi (S.s r) (v r)
  crowd : ∏ r, crowd S.lo S.hi (S.s r) ≤ C

/-- What a run of `N` iterations adds to a probability: the deviation of the rounds, what is left of the start after `M` iterations, and the probability that not all
parameters were moved together in `j` rounds. -/
noncomputable def mixError (e g a C : ℝ) (N M j : Nat) : ℝ := N * e + C / a * Real.sqrt (1 - g) ^ (M - j) + (1 - a) ^ j

theorem Setting.Mixes.C_nn {g a C : ℝ} (hS : S.Proper v) (hM : S.Mixes v g a C) : 0 ≤ C := by
  refine le_trans (Finset.prod_nonneg fun r _ => Finset.prod_nonneg fun i _ => ?_) hM.crowd
  unfold crowd1
  have := hS.range i
  exact div_nonneg (by linarith) (by positivity)

/-- The aim of a run: the average of `f` for chain `r` over the iterations above `B` of `N`. -/
noncomputable def coldOf {g a C : ℝ} (hS : S.Proper v) (hM : S.Mixes v g a C) (r : Fin n) (f : (Fin d → ℝ) → ℝ) (hf : Measurable f) (h0 : ∀ x, 0 ≤ f x) (h1 : ∀ x, f x ≤ 1)
    (N B : Nat) : Cold (Fin n → Fin d → ℝ) where
  box := tableBox S.lo S.hi
  box_meas := measurableSet_tableBox _ _
  π := jointLaw S.T S.lo S.hi S.beta
  prob := jointLaw_prob hS
  inside := jointLaw_inside S
  g := g
  g_pos := hM.g_pos
  g_le := hM.g_one
  e := (leakAll S.lo S.hi S.s).toReal
  e_nn := ENNReal.toReal_nonneg
  a := a
  a_pos := hM.a_pos
  a_le := hM.a_one
  C := C
  C_nn := hM.C_nn hS
  h := (aimOf hS r f hf h0 h1 N B).h
  h_meas := (aimOf hS r f hf h0 h1 N B).h_meas
  h_abs := (aimOf hS r f hf h0 h1 N B).h_abs
  h_mean := (aimOf hS r f hf h0 h1 N B).h_mean
  N := N
  B := B

section
variable (A : Cold (Fin n → Fin d → ℝ))

/-- The aim is one for the setting. -/
structure ColdFor (S : Setting n d) (v : Fin n → ℝ) : Prop where
  mixes : S.Mixes v A.g A.a A.C
  box : A.box = tableBox S.lo S.hi
  π : A.π = jointLaw S.T S.lo S.hi S.beta
  e : (leakAll S.lo S.hi S.s).toReal ≤ A.e

variable {A}

theorem iter_steps (hS : S.Proper v) (hA : ColdFor A S v) : A.Step (twinAll S.T S.lo S.hi S.s S.beta) ∧
    (∀ x ∈ A.box, ∀ᵐ y ∂(moveKernel S.T S.lo S.hi S.s S.beta .iter x), y ∈ A.box) ∧
    ∀ x ∈ A.box, Tv (ENNReal.ofReal A.e) (moveKernel S.T S.lo S.hi S.s S.beta .iter x) (twinAll S.T S.lo S.hi S.s S.beta x) := by
  obtain ⟨hlt, -⟩ := leakAll_real S.lo S.hi S.s
  have hM := hA.mixes
  refine ⟨⟨?_, ?_, ?_, ?_⟩, ?_, ?_⟩
  · rw [hA.π]
    exact twinAll_invariant S.T hS.range hS.width S.beta hS.varies
  · rw [hA.box]
    exact twinAll_closed S.T hS.range S.beta
  · rw [hA.π]
    exact twinAll_spreads S.T hS.range hS.width S.beta hS.varies hM.width_le hM.g_pos.le hM.rate
  · rw [hA.π, hA.box]
    exact twinAll_opens S.T hS.range hS.width S.beta hS.varies hM.move hM.crowd
  · rw [hA.box]
    exact fun x hx => move_closed S.T S.lo S.hi hS.range S.s S.beta .iter (fun i j e => by cases e) x hx
  · rw [hA.box]
    refine fun x hx => (twinAll_tv S.T hS.range hS.width S.beta x hx).mono ?_
    rw [← ENNReal.ofReal_toReal hlt]
    exact ENNReal.ofReal_le_ofReal hA.e

theorem attempt_keeps (hS : S.Proper v) (hn : 2 ≤ n) (hA : ColdFor A S v) (mode : Int) :
    (∀ x ∈ A.box, ∀ᵐ y ∂(attemptKernel S mode x), y ∈ A.box) ∧ (attemptKernel S mode).Invariant A.π := by
  rw [hA.box, hA.π]
  exact attempt_fits hS hn (aim_for hS ⟨0, by omega⟩ (fun _ => 0) measurable_const (fun _ => le_rfl) (fun _ => zero_le_one) 0 0) mode

/-- A part of the program, of `t' - t` iterations, that gives the tables `H`: an estimate of what comes after it gives one of what comes from it on. -/
def Conveys (A : Cold (Fin n → Fin d → ℝ)) (good : Prop) (t t' : Nat) (m : (Fin n → Fin d → ℝ) × (Fin n → Draws) → (Fin n → Fin d → ℝ) × (Fin n → Draws))
    (H : (Fin n → Fin d → ℝ) × (Fin n → Draws) → List (Nat × (Fin n → Fin d → ℝ))) : Prop :=
  ∀ D, Measurable D → Measurable (fun p => (A.add (H p) + (D (m p)).1, (D (m p)).2)) ∧
    (good → t' ≤ A.N → A.Est (unifStreams n) t' D → A.Est (unifStreams n) t (fun p => (A.add (H p) + (D (m p)).1, (D (m p)).2)))

theorem Conveys.id (t : Nat) : Conveys A True t t (fun p => p) (fun _ => []) := by
  intro D hD
  have e : (fun p => (A.add [] + (D p).1, (D p).2)) = D := by funext p; simp [Cold.add]
  rw [e]
  exact ⟨hD, fun _ _ h => h⟩

theorem Conveys.comp {g g' : Prop} {t t' t'' : Nat} {m m' : (Fin n → Fin d → ℝ) × (Fin n → Draws) → (Fin n → Fin d → ℝ) × (Fin n → Draws)}
    {H H' : (Fin n → Fin d → ℝ) × (Fin n → Draws) → List (Nat × (Fin n → Fin d → ℝ))} (h : Conveys A g t t' m H) (h' : Conveys A g' t' t'' m' H') (hle : t' ≤ t'') :
    Conveys A (g ∧ g') t t'' (fun p => m' (m p)) (fun p => H p ++ H' (m p)) := by
  intro D hD
  obtain ⟨a1, a2⟩ := h' D hD
  obtain ⟨b1, b2⟩ := h _ a1
  have e : (fun p => (A.add (H p ++ H' (m p)) + (D (m' (m p))).1, (D (m' (m p))).2)) =
      fun p => (A.add (H p) + (A.add (H' (m p)) + (D (m' (m p))).1), (D (m' (m p))).2) := by
    funext p
    rw [A.add_append, add_assoc]
  rw [e]
  exact ⟨b1, fun c hN hE => b2 c.1 (hle.trans hN) (a2 c.2 hN hE)⟩

theorem rounds_convey (hS : S.Proper v) (hA : ColdFor A S v) : ∀ (k t : Nat), Conveys A True t (t + k) ((roundS S)^[k]) (roundsH S t k) := by
  intro k
  induction k with
  | zero => exact fun t => Conveys.id t
  | succ k ih =>
    intro t D hD
    obtain ⟨a1, a2⟩ := ih (t + 1) D hD
    have hmk := moveKernel_markov S.T S.lo S.hi S.s S.beta (.iter : Move n) (fun i j e => by cases e)
    obtain ⟨f1, f2, f3⟩ := iter_steps hS hA
    have hfr := round_fresh S
    have e : (fun p => (A.add (roundsH S t (k + 1) p) + (D ((roundS S)^[k + 1] p)).1, (D ((roundS S)^[k + 1] p)).2)) = fun p => ((if A.B ≤ t then A.h (roundS S p).1 else 0) +
        (A.add (roundsH S (t + 1) k (roundS S p)) + (D ((roundS S)^[k] (roundS S p))).1), (D ((roundS S)^[k] (roundS S p))).2) := by
      funext p
      rw [roundsH, Cold.add, List.map_cons, List.sum_cons, add_assoc, Function.iterate_succ_apply]
      simp only [Nat.lt_succ_iff]
      rfl
    rw [e]
    refine ⟨?_, fun _ hN hE => ?_⟩
    · have h1 : Measurable (fun p => A.h (roundS S p).1) := A.h_meas.comp (measurable_fst.comp hfr.meas)
      have h2 := a1.comp hfr.meas
      have h3 : Measurable fun p => A.add (roundsH S (t + 1) k (roundS S p)) + (D ((roundS S)^[k] (roundS S p))).1 := measurable_fst.comp h2
      have h4 := measurable_snd.comp h2
      refine Measurable.prodMk (Measurable.add ?_ h3) h4
      by_cases hB : A.B ≤ t
      · simpa only [hB, if_true] using h1
      · simp only [hB, if_false]; exact measurable_const
    · have e2 : t + (k + 1) = t + 1 + k := by omega
      rw [e2] at hN hE
      exact Cold.Est.step hfr f1 f2 f3 (by omega) a1 (a2 trivial hN hE)

theorem swaps_convey (hS : S.Proper v) (hn : 2 ≤ n) (hA : ColdFor A S v) (root : Fin n) (mode : Int) : ∀ (k t : Nat),
    Conveys A True t t ((onRoot root (swapS S mode))^[k]) (fun _ => []) := by
  intro k
  induction k with
  | zero => exact fun t => Conveys.id t
  | succ k ih =>
    intro t D hD
    obtain ⟨a1, a2⟩ := ih t D hD
    have hmk : IsMarkovKernel (attemptKernel S mode) := by unfold attemptKernel; infer_instance
    obtain ⟨f1, f2⟩ := attempt_keeps hS hn hA mode
    have hfr : Fresh (unifStreams n) (onRoot root (swapS S mode)) (attemptKernel S mode) := (swap_fresh S mode).root root
    refine ⟨a1.comp hfr.meas, fun _ hN hE => ?_⟩
    exact Cold.Est.still hfr f2 f1 a1 (a2 trivial hN hE)

variable (cfg : Cfg ℝ) (root : Fin n)

theorem leg_convey (hS : S.Proper v) (hn : 2 ≤ n) (hA : ColdFor A S v) (b : Int) (t : Nat) :
    Conveys A True t (t + b.toNat) (legS S cfg root b) (roundsH S t b.toNat) := by
  have h := (rounds_convey hS hA b.toNat t).comp (swaps_convey hS hn hA root cfg.swapmode cfg.nSwap.toNat (t + b.toNat)) le_rfl
  intro D hD
  obtain ⟨a1, a2⟩ := h D hD
  simp only [List.append_nil] at a1 a2
  exact ⟨a1, fun _ => a2 ⟨trivial, trivial⟩⟩

theorem stack_convey (hS : S.Proper v) (hn : 2 ≤ n) (hA : ColdFor A S v) (hr : 0 ≤ cfg.rand) (hb : cfg.rand < cfg.base) (nStack : Int) : ∀ (fuel t : Nat) (i : Int),
    Conveys A (i ≤ nStack ∧ nStack - i ≤ fuel) t (t + (nStack - i).toNat) (stackS S cfg root nStack fuel i) (stackH S cfg root nStack fuel t i) := by
  intro fuel
  induction fuel with
  | zero =>
    intro t i D hD
    obtain ⟨a1, a2⟩ := Conveys.id (A := A) t D hD
    refine ⟨a1, fun c hN hE => a2 trivial ?_ ?_⟩
    · omega
    · have : (nStack - i).toNat = 0 := by omega
      rwa [this] at hE
  | succ fuel ih =>
    intro t i
    by_cases hi : i < nStack
    · intro D hD
      have hin := fun k : Int => ih (t + (sizeOf' cfg nStack i k).toNat) (i + sizeOf' cfg nStack i k) D hD
      have hout := fun k : Int => leg_convey (A := A) cfg root hS hn hA (sizeOf' cfg nStack i k) t _ (hin k).1
      have hfr : Fresh (unifStreams n) (onRoot root fun p : (Fin n → Fin d → ℝ) × Draws => (i4UnifAbVal (-cfg.rand) cfg.rand (pop p.2).1, (pop p.2).2))
          (Kernel.const _ (sizeLaw cfg.rand)) := (size_fresh cfg.rand).root root
      obtain ⟨D', hD'⟩ : ∃ D' : Int → (Fin n → Fin d → ℝ) × (Fin n → Draws) → ℝ × (Fin n → Fin d → ℝ), D' = fun k q =>
        (A.add (roundsH S t (sizeOf' cfg nStack i k).toNat q) +
        (A.add (stackH S cfg root nStack fuel (t + (sizeOf' cfg nStack i k).toNat) (i + sizeOf' cfg nStack i k) (legS S cfg root (sizeOf' cfg nStack i k) q)) +
          (D (stackS S cfg root nStack fuel (i + sizeOf' cfg nStack i k) (legS S cfg root (sizeOf' cfg nStack i k) q))).1),
          (D (stackS S cfg root nStack fuel (i + sizeOf' cfg nStack i k) (legS S cfg root (sizeOf' cfg nStack i k) q))).2) := ⟨_, rfl⟩
      have hm : ∀ k, Measurable (D' k) := fun k => by rw [hD']; exact (hout k).1
      have e : (fun p => (A.add (stackH S cfg root nStack (fuel + 1) t i p) + (D (stackS S cfg root nStack (fuel + 1) i p)).1, (D (stackS S cfg root nStack (fuel + 1) i p)).2)) = fun p =>
          D' (onRoot root (fun p : (Fin n → Fin d → ℝ) × Draws => (i4UnifAbVal (-cfg.rand) cfg.rand (pop p.2).1, (pop p.2).2)) p).1
            (p.1, (onRoot root (fun p : (Fin n → Fin d → ℝ) × Draws => (i4UnifAbVal (-cfg.rand) cfg.rand (pop p.2).1, (pop p.2).2)) p).2) := by
        funext p
        rw [stackH, if_pos hi, stackS, if_pos hi, A.add_append, add_assoc, hD']
        rfl
      rw [e]
      refine ⟨Cold.measurable_chosen hm hfr.meas, fun c hN hE => ?_⟩
      refine Cold.Est.choose (sizeLaw cfg.rand) hfr hm ((size_range cfg.rand hr).mono fun k hk => ?_)
      have hpos : 0 < sizeOf' cfg nStack i k ∧ i + sizeOf' cfg nStack i k ≤ nStack := by
        simp only [sizeOf']; split <;> omega
      have et : t + (sizeOf' cfg nStack i k).toNat + (nStack - (i + sizeOf' cfg nStack i k)).toNat = t + (nStack - i).toNat := by omega
      rw [hD']
      refine (hout k).2 trivial (by omega) ((hin k).2 ⟨hpos.2, by omega⟩ (by omega) ?_)
      rw [et]
      exact hE
    · intro D hD
      obtain ⟨a1, a2⟩ := Conveys.id (A := A) t D hD
      have e : (fun p => (A.add (stackH S cfg root nStack (fuel + 1) t i p) + (D (stackS S cfg root nStack (fuel + 1) i p)).1, (D (stackS S cfg root nStack (fuel + 1) i p)).2)) =
          fun p => (A.add [] + (D p).1, (D p).2) := by
        funext p
        rw [stackH, if_neg hi, stackS, if_neg hi]
      rw [e]
      refine ⟨a1, fun c hN hE => a2 trivial (by omega) ?_⟩
      have : (nStack - i).toNat = 0 := by omega
      rwa [this] at hE

theorem flow_convey (hS : S.Proper v) (hn : 2 ≤ n) (hA : ColdFor A S v) (hr : 0 ≤ cfg.rand) (hb : cfg.rand < cfg.base) : ∀ (fuel : Nat) (nStack i : Int),
    Conveys A (1 ≤ nStack ∧ 0 ≤ i ∧ i ≤ cfg.nIter ∧ cfg.nIter - i ≤ fuel) i.toNat cfg.nIter.toNat (flowS S cfg root fuel nStack i) (flowH S cfg root fuel nStack i) := by
  intro fuel
  induction fuel with
  | zero =>
    intro nStack i D hD
    obtain ⟨a1, a2⟩ := Conveys.id (A := A) i.toNat D hD
    refine ⟨a1, fun c hN hE => a2 trivial ?_ ?_⟩
    · omega
    · have : cfg.nIter = i := by omega
      rwa [this] at hE
  | succ fuel ih =>
    intro nStack i
    by_cases hi : i < cfg.nIter
    · intro D hD
      set nS := (if cfg.nIter < i + nStack then cfg.nIter - i else nStack) with hnS
      obtain ⟨a1, a2⟩ := ih nS (i + nS) D hD
      obtain ⟨b1, b2⟩ := stack_convey (A := A) cfg root hS hn hA hr hb nS nS.toNat i.toNat 0 _ a1
      have e : (fun p => (A.add (flowH S cfg root (fuel + 1) nStack i p) + (D (flowS S cfg root (fuel + 1) nStack i p)).1, (D (flowS S cfg root (fuel + 1) nStack i p)).2)) = fun p =>
          (A.add (stackH S cfg root nS nS.toNat i.toNat 0 p) + (A.add (flowH S cfg root fuel nS (i + nS) (stackS S cfg root nS nS.toNat 0 p)) +
            (D (flowS S cfg root fuel nS (i + nS) (stackS S cfg root nS nS.toNat 0 p))).1), (D (flowS S cfg root fuel nS (i + nS) (stackS S cfg root nS nS.toNat 0 p))).2) := by
        funext p
        rw [flowH, if_pos hi, flowS, if_pos hi, A.add_append, add_assoc]
      rw [e]
      refine ⟨b1, fun c hN hE => ?_⟩
      have hpos : 1 ≤ nS ∧ i + nS ≤ cfg.nIter := by rw [hnS]; split <;> omega
      have et : i.toNat + (nS - 0).toNat = (i + nS).toNat := by omega
      refine b2 ⟨by omega, by omega⟩ (by omega) ?_
      rw [et]
      exact a2 ⟨hpos.1, by omega, hpos.2, by omega⟩ hN hE
    · intro D hD
      obtain ⟨a1, a2⟩ := Conveys.id (A := A) i.toNat D hD
      have e : (fun p => (A.add (flowH S cfg root (fuel + 1) nStack i p) + (D (flowS S cfg root (fuel + 1) nStack i p)).1, (D (flowS S cfg root (fuel + 1) nStack i p)).2)) =
          fun p => (A.add [] + (D p).1, (D p).2) := by
        funext p
        rw [flowH, if_neg hi, flowS, if_neg hi]
      rw [e]
      refine ⟨a1, fun c hN hE => a2 trivial (by omega) ?_⟩
      have : cfg.nIter = i := by omega
      rwa [this] at hE

end

theorem cold_for {g a C : ℝ} (hS : S.Proper v) (hM : S.Mixes v g a C) (r : Fin n) (f : (Fin d → ℝ) → ℝ) (hf : Measurable f) (h0 : ∀ x, 0 ≤ f x) (h1 : ∀ x, f x ≤ 1) (N B : Nat) :
    ColdFor (coldOf hS hM r f hf h0 h1 N B) S v := ⟨hM, rfl, rfl, le_rfl⟩

/-- The variance of a function with values in `[0, 1]`. -/
theorem cold_S {g a C : ℝ} (hS : S.Proper v) (hM : S.Mixes v g a C) (r : Fin n) (f : (Fin d → ℝ) → ℝ) (hf : Measurable f) (h0 : ∀ x, 0 ≤ f x) (h1 : ∀ x, f x ≤ 1) (N B : Nat) :
    (coldOf hS hM r f hf h0 h1 N B).S ≤ 1 / 4 := by
  have := jointLaw_prob hS
  have hb : Bdd fun x : Fin n → Fin d → ℝ => f (x r) := ⟨hf.comp (measurable_pi_apply r), 1, fun y => by rw [abs_of_nonneg (h0 _)]; exact h1 _⟩
  have h := vr_le_sq (μ := jointLaw S.T S.lo S.hi S.beta) hb (1 / 2)
  refine le_trans h ?_
  refine integral_le_of ((hb.sub (Bdd.const _)).sq.integrable _) (Filter.Eventually.of_forall fun x => ?_)
  have a1 := h0 (x r)
  have a2 := h1 (x r)
  nlinarith

/-- The flow from a table in the box: its last table, and the average of a function over the rows after the first `B` iterations. -/
theorem flow_mixing {g a C : ℝ} (hS : S.Proper v) (hn : 2 ≤ n) (hM : S.Mixes v g a C) (cfg : Cfg ℝ) (hr : 0 ≤ cfg.rand) (hb : cfg.rand < cfg.base) (root r : Fin n)
    (f : (Fin d → ℝ) → ℝ) (hf : Measurable f) (h0 : ∀ x, 0 ≤ f x) (h1 : ∀ x, f x ≤ 1) (nStack i : Int) (hst : 1 ≤ nStack) (hi : 0 ≤ i) (hiN : i ≤ cfg.nIter) (B : Nat)
    (hB : B ≤ cfg.nIter.toNat) :
    let A := coldOf hS hM r f hf h0 h1 cfg.nIter.toNat B
    let D := fun p => (A.add (flowH S cfg root cfg.nIter.toNat nStack i p), (flowS S cfg root cfg.nIter.toNat nStack i p).1)
    Measurable D ∧ ∀ x ∈ tableBox S.lo S.hi, ∀ j, i.toNat + j ≤ B →
      (∀ F, MeasurableSet F → (unifStreams n).real {ω | (D (x, ω)).2 ∈ F} ≤ (jointLaw S.T S.lo S.hi S.beta).real F +
        mixError (leakAll S.lo S.hi S.s).toReal g a C (cfg.nIter.toNat - i.toNat) (B - i.toNat) j) ∧
      ∀ c : ℝ, 0 < c → (unifStreams n).real {ω | c ≤ |(D (x, ω)).1|} ≤ (cfg.nIter.toNat - B : Nat) / (g * c ^ 2) +
        mixError (leakAll S.lo S.hi S.s).toReal g a C (cfg.nIter.toNat - i.toNat) (B - i.toNat) j := by
  intro A D
  have hA : ColdFor A S v := cold_for hS hM r f hf h0 h1 cfg.nIter.toNat B
  obtain ⟨hD', hE'⟩ := flow_convey cfg root hS hn hA hr hb cfg.nIter.toNat nStack i (fun p => (0, p.1)) (measurable_const.prodMk measurable_fst)
  have hE' := hE' ⟨hst, hi, by omega, by omega⟩ le_rfl (Cold.Est.stop hB)
  simp only [add_zero] at hD' hE'
  have hD : Measurable D := hD'
  have hE : A.Est (unifStreams n) i.toNat D := hE'
  have hlag : ∀ j, A.lag i.toNat j = mixError (leakAll S.lo S.hi S.s).toReal g a C (cfg.nIter.toNat - i.toNat) (B - i.toNat) j := fun j => rfl
  refine ⟨hD, fun x hx j hj => ⟨fun F hF => ?_, fun c hc => ?_⟩⟩
  · rw [← hlag]
    exact hE.last hD hj hF hx
  · rw [← hlag]
    refine (hE.sum hD hj hc hx).trans ?_
    have hS4 : A.S ≤ 1 / 4 := cold_S hS hM r f hf h0 h1 cfg.nIter.toNat B
    have hg := hM.g_pos
    have e : ((A.N - A.B : Nat) : ℝ) * (A.S * (4 / A.g)) / c ^ 2 ≤ (cfg.nIter.toNat - B : Nat) / (g * c ^ 2) := by
      have e1 : ((A.N - A.B : Nat) : ℝ) * (A.S * (4 / A.g)) / c ^ 2 = (4 * A.S) * ((cfg.nIter.toNat - B : Nat) / (g * c ^ 2)) := by
        show ((cfg.nIter.toNat - B : Nat) : ℝ) * (A.S * (4 / g)) / c ^ 2 = _
        field_simp
      rw [e1]
      have : (0 : ℝ) ≤ (cfg.nIter.toNat - B : Nat) / (g * c ^ 2) := by positivity
      nlinarith
    linarith

/-- The start of the program is in the box. -/
theorem starts_inside (ks : Fin d → Draw) (hk : ∀ i, (ks i).Fits (S.lo i, S.hi i)) :
    ∀ᵐ x ∂((parKernel fun _ : Fin n => Kernel.const (Fin d → ℝ) (startLaw ks S.lo S.hi)) fun _ _ => 0), x ∈ tableBox S.lo S.hi := by
  rw [parKernel_apply]
  have hbox : ∀ᵐ x ∂(Measure.pi fun _ : Fin n => startLaw ks S.lo S.hi), ∀ r, ∀ i, S.lo i ≤ x r i ∧ x r i ≤ S.hi i := by
    rw [ae_all_iff]
    exact fun r => (Measure.quasiMeasurePreserving_eval (fun _ : Fin n => startLaw ks S.lo S.hi) r).ae (start_box ks S.lo S.hi hk)
  filter_upwards [hbox] with x hx r _ i _
  exact hx r i

theorem Tv_two_sided {Ω X : Type} [MeasurableSpace Ω] [MeasurableSpace X] {l : Measure Ω} [IsProbabilityMeasure l] {π : Measure X} [IsProbabilityMeasure π] {m : Ω → X}
    (hm : Measurable m) {δ : ℝ} (h : ∀ F, MeasurableSet F → l.real {ω | m ω ∈ F} ≤ π.real F + δ) (F : Set X) (hF : MeasurableSet F) : |l.real {ω | m ω ∈ F} - π.real F| ≤ δ := by
  have h1 := h F hF
  have h2 := h Fᶜ hF.compl
  have e : l.real {ω | m ω ∈ Fᶜ} = 1 - l.real {ω | m ω ∈ F} := probReal_compl_eq_one_sub (hm hF)
  rw [e, probReal_compl_eq_one_sub hF] at h2
  rw [abs_le]
  constructor <;> linarith

theorem jointLaw_real (T : Target d) (lo hi : Fin d → ℝ) (beta : Fin n → ℝ) (A : Set (Fin n → Fin d → ℝ)) :
    (jointLaw T lo hi beta).real A = (joint T lo hi beta).real A / (joint T lo hi beta).real univ := by
  rw [measureReal_def, jointLaw, Measure.smul_apply, smul_eq_mul, ENNReal.toReal_mul, ENNReal.toReal_inv, measureReal_def, measureReal_def, div_eq_inv_mul]

theorem mainS_measurable (S : Setting n d) (v : Fin n → ℝ) (hS : S.Proper v) (hn : 2 ≤ n) (g a C : ℝ) (hM : S.Mixes v g a C) (ks : Fin d → Draw)
    (cfg : Cfg ℝ) (hr : 0 ≤ cfg.rand) (hb : cfg.rand < cfg.base) (hst : 1 ≤ cfg.nStack) (hN : 0 ≤ cfg.nIter) (root : Fin n) :
    Measurable fun ω => (mainS S ks cfg root ω).1 := by
  have hp : Fresh (unifStreams n) (fun p : (Fin n → Fin d → ℝ) × (Fin n → Draws) => (fun r => (startS ks S.lo S.hi (p.2 r)).1, fun r => (startS ks S.lo S.hi (p.2 r)).2))
      (parKernel fun _ => Kernel.const (Fin d → ℝ) (startLaw ks S.lo S.hi)) := Fresh.par fun r => start_fresh ks S.lo S.hi
  obtain ⟨hD, -⟩ := flow_mixing hS hn hM cfg hr hb root ⟨0, by omega⟩ (fun _ => 0) measurable_const (fun _ => le_rfl) (fun _ => zero_le_one) cfg.nStack 0 hst le_rfl hN cfg.nIter.toNat le_rfl
  have hD2 : Measurable fun p => (flowS S cfg root cfg.nIter.toNat cfg.nStack 0 p).1 := measurable_snd.comp hD
  exact hD2.comp (hp.meas.comp (measurable_prodMk_left (x := fun _ _ => 0)))

/-- **C85, law.** The streams of the ranks consist of independent uniform numbers. The probability that the table of parameters after the run lies in a set differs from the one
under the product of the normalised tempered posteriors by at most `N * e + C / a * √(1 - g) ^ (N - j) + (1 - a) ^ j`, for every `j ≤ N`. -/
theorem mixing_law (S : Setting n d) (v : Fin n → ℝ) (hS : S.Proper v) (hn : 2 ≤ n) (g a C : ℝ) (hM : S.Mixes v g a C) (ks : Fin d → Draw)
    (hk : ∀ i, (ks i).Fits (S.lo i, S.hi i)) (cfg : Cfg ℝ) (hr : 0 ≤ cfg.rand) (hb : cfg.rand < cfg.base) (hst : 1 ≤ cfg.nStack) (hN : 0 ≤ cfg.nIter) (root : Fin n) (j : Nat) (hj : j ≤ cfg.nIter.toNat)
    (A : Set (Fin n → Fin d → ℝ)) (hA : MeasurableSet A) :
    |(unifStreams n).real {ω | (mainS S ks cfg root ω).1 ∈ A} - (joint S.T S.lo S.hi S.beta).real A / (joint S.T S.lo S.hi S.beta).real univ| ≤
      mixError (∑ r, ∑ i, ((tail (S.lo i) (S.hi i) (S.s r i)).toReal + 1 / 10 ^ 16)) g a C cfg.nIter.toNat cfg.nIter.toNat j := by
  obtain ⟨-, hlr⟩ := leakAll_real S.lo S.hi S.s
  rw [← hlr, ← jointLaw_real]
  have hprob := jointLaw_prob hS
  have hp : Fresh (unifStreams n) (fun p : (Fin n → Fin d → ℝ) × (Fin n → Draws) => (fun r => (startS ks S.lo S.hi (p.2 r)).1, fun r => (startS ks S.lo S.hi (p.2 r)).2))
      (parKernel fun _ => Kernel.const (Fin d → ℝ) (startLaw ks S.lo S.hi)) := Fresh.par fun r => start_fresh ks S.lo S.hi
  obtain ⟨hD, hF⟩ := flow_mixing hS hn hM cfg hr hb root ⟨0, by omega⟩ (fun _ => 0) measurable_const (fun _ => le_rfl) (fun _ => zero_le_one) cfg.nStack 0 hst le_rfl hN cfg.nIter.toNat le_rfl
  have hD2 : Measurable fun p => (flowS S cfg root cfg.nIter.toNat cfg.nStack 0 p).1 := measurable_snd.comp hD
  have hm := mainS_measurable S v hS hn g a C hM ks cfg hr hb hst hN root
  refine Tv_two_sided hm (fun F hF' => ?_) A hA
  refine Cold.real_le_of_start hp (fun _ _ => 0) (E := {p | (flowS S cfg root cfg.nIter.toNat cfg.nStack 0 p).1 ∈ F}) (hD2 hF') ((starts_inside ks hk).mono fun x hx => ?_)
  exact (hF x hx j (by simpa using hj)).1 F hF'

/-- **C85, averages.** The streams of the ranks consist of independent uniform numbers. Average a measurable function of the parameters with values in `[0, 1]` over the rows of
chain `r` after the first `B` iterations, as many as there are: its error as an estimate of the mean under the tempered posterior of the chain is `ε` or more with a probability
of at most `1 / (g * K * ε ^ 2)`, for `K` rows, and what the start and the rounds add to a probability. -/
theorem mixing_average (S : Setting n d) (v : Fin n → ℝ) (hS : S.Proper v) (hn : 2 ≤ n) (g a C : ℝ) (hM : S.Mixes v g a C) (ks : Fin d → Draw)
    (hk : ∀ i, (ks i).Fits (S.lo i, S.hi i)) (cfg : Cfg ℝ) (hr : 0 ≤ cfg.rand) (hb : cfg.rand < cfg.base) (hst : 1 ≤ cfg.nStack) (root r : Fin n) (f : (Fin d → ℝ) → ℝ)
    (hf : Measurable f) (h0 : ∀ x, 0 ≤ f x) (h1 : ∀ x, f x ≤ 1) (B : Nat) (hB : B < cfg.nIter.toNat) (j : Nat) (hj : j ≤ B) (ε : ℝ) (hε : 0 < ε) :
    (unifStreams n).real {ω | ε ≤ |averageAbove B r f (mainH S ks cfg root ω) -
        (∫ x, f x ∂(posterior (volume.restrict (openBox S.lo S.hi)) (S.T.lp (S.beta r)))) /
          (posterior (volume.restrict (openBox S.lo S.hi)) (S.T.lp (S.beta r))).real univ|} ≤
      1 / (g * (cfg.nIter.toNat - B : Nat) * ε ^ 2) +
        mixError (∑ r, ∑ i, ((tail (S.lo i) (S.hi i) (S.s r i)).toReal + 1 / 10 ^ 16)) g a C cfg.nIter.toNat B j := by
  obtain ⟨-, hlr⟩ := leakAll_real S.lo S.hi S.s
  rw [← targetMean_eq hS r f hf, ← hlr]
  have hp : Fresh (unifStreams n) (fun p : (Fin n → Fin d → ℝ) × (Fin n → Draws) => (fun r => (startS ks S.lo S.hi (p.2 r)).1, fun r => (startS ks S.lo S.hi (p.2 r)).2))
      (parKernel fun _ => Kernel.const (Fin d → ℝ) (startLaw ks S.lo S.hi)) := Fresh.par fun r => start_fresh ks S.lo S.hi
  obtain ⟨hD, hF⟩ := flow_mixing hS hn hM cfg hr hb root r f hf h0 h1 cfg.nStack 0 hst le_rfl (by omega) B hB.le
  have hK : (0 : ℝ) < (cfg.nIter.toNat - B : Nat) := by
    have : 0 < cfg.nIter.toNat - B := by omega
    exact_mod_cast this
  have hg := hM.g_pos
  set A := coldOf hS hM r f hf h0 h1 cfg.nIter.toNat B with hA
  have hD1 : Measurable fun p => |A.add (flowH S cfg root cfg.nIter.toNat cfg.nStack 0 p)| := (measurable_fst.comp hD).norm
  have hmain := Cold.real_le_of_start hp (fun _ _ => 0) (E := {p | ε * (cfg.nIter.toNat - B : Nat) ≤ |A.add (flowH S cfg root cfg.nIter.toNat cfg.nStack 0 p)|})
    (measurableSet_le measurable_const hD1) ((starts_inside ks hk).mono fun x hx => (hF x hx j (by simpa using hj)).2 (ε * (cfg.nIter.toNat - B : Nat)) (by positivity))
  have e1 : ((cfg.nIter.toNat - B : Nat) : ℝ) / (g * (ε * (cfg.nIter.toNat - B : Nat)) ^ 2) = 1 / (g * (cfg.nIter.toNat - B : Nat) * ε ^ 2) := by
    field_simp
  rw [e1] at hmain
  refine le_trans (le_of_eq ?_) hmain
  rw [measureReal_def, measureReal_def]
  congr 1
  refine measure_congr ?_
  filter_upwards [inUnit_ae n] with ω hω
  have e := average_add hS cfg hr hb root r f hf h0 h1 cfg.nStack 0 hst le_rfl B (Nat.zero_le _) hB
    (fun r => (startS ks S.lo S.hi (ω r)).1, fun r => (startS ks S.lo S.hi (ω r)).2) (hω.part fun r => startS_part ks S.lo S.hi (ω r))
  refine propext ?_
  show ε ≤ |averageAbove B r f (flowH S cfg root cfg.nIter.toNat cfg.nStack 0 _) - targetMean S r f| ↔ ε * _ ≤ |A.add _|
  rw [e, abs_div, abs_of_pos hK, le_div_iff₀ hK]
  rfl

end

/-! ## The egg box model -/

theorem exp_bounds : Real.exp (-2) ≥ 1 / 8 ∧ Real.exp (-5 / 4) ≥ 2 / 7 ∧ Real.exp (-50) ≤ 1 / 10 ^ 20 ∧ Real.exp (-10) ≤ 5 / 10 ^ 5 ∧ Real.exp (-49) ≤ 1 / 10 ^ 20 := by
  have h1 := Real.exp_one_gt_d9
  have h2 := Real.exp_one_lt_d9
  have hp := Real.exp_pos 1
  have e : ∀ k : Nat, Real.exp (-(k : ℝ)) = (Real.exp 1 ^ k)⁻¹ := fun k => by rw [← Real.exp_nat_mul, ← Real.exp_neg, mul_one]
  have big : ∀ k : Nat, (27 / 10 : ℝ) ^ k ≤ Real.exp 1 ^ k := fun k => pow_le_pow_left₀ (by norm_num) (by linarith) k
  refine ⟨?_, ?_, ?_, ?_, ?_⟩
  · rw [show (-2 : ℝ) = -((2 : Nat) : ℝ) by norm_num, e, ge_iff_le, one_div]
    refine inv_anti₀ (by positivity) ?_
    nlinarith
  · have e4 : Real.exp (-5 / 4) = (Real.exp (5 / 4))⁻¹ := by rw [← Real.exp_neg]; norm_num
    have h5 : Real.exp (5 / 4) ^ 4 = Real.exp 1 ^ 5 := by rw [← Real.exp_nat_mul, ← Real.exp_nat_mul]; norm_num
    have h6 : Real.exp 1 ^ 5 ≤ (7 / 2) ^ 4 := (pow_le_pow_left₀ hp.le h2.le 5).trans (by norm_num)
    have h7 : Real.exp (5 / 4) ≤ 7 / 2 := le_of_pow_le_pow_left₀ (by norm_num) (by norm_num) (h5.le.trans h6)
    rw [e4, ge_iff_le, show (2 / 7 : ℝ) = (7 / 2)⁻¹ by norm_num]
    exact inv_anti₀ (Real.exp_pos _) h7
  · rw [show (-50 : ℝ) = -((50 : Nat) : ℝ) by norm_num, e, one_div]
    exact inv_anti₀ (by positivity) (le_trans (by norm_num) (big 50))
  · rw [show (-10 : ℝ) = -((10 : Nat) : ℝ) by norm_num, e, show (5 / 10 ^ 5 : ℝ) = (20000)⁻¹ by norm_num]
    exact inv_anti₀ (by positivity) (le_trans (by norm_num) (big 10))
  · rw [show (-49 : ℝ) = -((49 : Nat) : ℝ) by norm_num, e, one_div]
    exact inv_anti₀ (by positivity) (le_trans (by norm_num) (big 49))

/-- Widths of a tenth of the range are almost never left by more than a range. -/
theorem tail_tenth (lo hi : ℝ) (h : lo < hi) (s : ℝ≥0) (hs : s ≠ 0) (hw : (s : ℝ) ≤ (hi - lo) / 10) : (tail lo hi s).toReal ≤ 2 / 10 ^ 20 := by
  have hs0 : (0 : ℝ) < s := NNReal.coe_pos.2 (pos_iff_ne_zero.2 hs)
  have h5 : 10 ≤ (hi - lo) / s := by rw [le_div_iff₀ hs0]; linarith
  refine (tail_le lo hi h.le s hs).trans ?_
  have h1 : Real.exp (-(((hi - lo) / s) ^ 2 / 2)) ≤ Real.exp (-50) := Real.exp_le_exp.2 (by nlinarith)
  linarith [exp_bounds.2.2.1]

theorem eggbox_mixes (beta : Fin 3 → ℝ) (h0 : ∀ r, 0 ≤ beta r) (h1 : ∀ r, beta r ≤ 1) :
    (eggboxSetting (1 / 10) beta).Proper (fun r => 2 * beta r) ∧ (eggboxSetting (1 / 10) beta).Mixes (fun r => 2 * beta r) (1 / 5000) (1 / 600) (3 * 10 ^ 6) ∧
      ∑ r, ∑ i, ((tail ((eggboxSetting (1 / 10) beta).lo i) ((eggboxSetting (1 / 10) beta).hi i) ((eggboxSetting (1 / 10) beta).s r i)).toReal + 1 / 10 ^ 16) ≤ 1 / 10 ^ 15 := by
  set S := eggboxSetting (1 / 10) beta with hS
  have hlo : ∀ i, S.lo i = 0 := fun _ => rfl
  have hhi : ∀ i, S.hi i = 50 := fun _ => rfl
  have hwid : ∀ r i, (S.s r i : ℝ) = 5 := fun r i => by
    show ((((50 : ℝ) - 0) * (1 / 10)).toNNReal : ℝ) = _
    rw [Real.coe_toNNReal _ (by norm_num)]; norm_num
  have hne : ∀ r i, S.s r i ≠ 0 := fun r i h => by
    have := hwid r i
    rw [h, NNReal.coe_zero] at this
    norm_num at this
  have ht : ∀ r i, (tail (S.lo i) (S.hi i) (S.s r i)).toReal ≤ 2 / 10 ^ 20 := fun r i =>
    tail_tenth _ _ (by rw [hlo, hhi]; norm_num) _ (hne r i) (by rw [hwid, hlo, hhi]; norm_num)
  obtain ⟨b1, b2, -⟩ := exp_bounds
  have hexp : ∀ r, Real.exp (-2) ≤ Real.exp (-(2 * beta r)) := fun r => Real.exp_le_exp.2 (by linarith [h1 r])
  refine ⟨⟨fun i => by rw [hlo, hhi]; norm_num, hne, fun r => eggbox_varies _ _ _ (h0 r)⟩, ⟨fun r i => by rw [hwid, hlo, hhi]; norm_num, by norm_num, by norm_num, fun r i => ?_, by norm_num,
    by norm_num, ?_, ?_⟩, ?_⟩
  · have hc : ⌈((50 : ℝ) - 0) / (2 * 5)⌉₊ = 5 := by
      rw [show ((50 : ℝ) - 0) / (2 * 5) = ((5 : Nat) : ℝ) by norm_num, Nat.ceil_natCast]
    rw [gap, hwid, hlo, hhi, hc]
    have hpi := Real.pi_lt_d2
    have hpp := Real.pi_pos
    have g1 : (2 / 7) / (4 * 3.15) ≤ Real.exp (-5 / 4) / (4 * Real.pi) := by
      refine div_le_div₀ (Real.exp_pos _).le b2 (by positivity) (by linarith)
    have g2 : 1 / 8 * ((2 / 7) / (4 * 3.15)) ≤ Real.exp (-(2 * beta r)) * (Real.exp (-5 / 4) / (4 * Real.pi)) :=
      mul_le_mul (b1.trans (hexp r)) g1 (by norm_num) (Real.exp_pos _).le
    have e : Real.exp (-(2 * beta r)) * (Real.exp (-5 / 4) / (4 * Real.pi) * ((50 - 0) / 5) / ((5 : Nat) : ℝ) ^ 3) =
        Real.exp (-(2 * beta r)) * (Real.exp (-5 / 4) / (4 * Real.pi)) * (2 / 25) := by push_cast; ring
    rw [e]
    refine le_trans ?_ (mul_le_mul_of_nonneg_right g2 (by norm_num))
    norm_num
  · have hm : ∀ r, (1 / 8 * (99 / 100) : ℝ) ≤ moveRate S.lo S.hi (S.s r) (2 * beta r) := fun r => by
      rw [moveRate]
      refine mul_le_mul (b1.trans (hexp r)) ?_ (by norm_num) (Real.exp_pos _).le
      rw [Fin.prod_univ_two]
      have t0 := ht r 0
      have t1 := ht r 1
      have : (999 / 1000 : ℝ) * (999 / 1000) ≤ (1 - (tail (S.lo 0) (S.hi 0) (S.s r 0)).toReal) * (1 - (tail (S.lo 1) (S.hi 1) (S.s r 1)).toReal) :=
        mul_le_mul (by linarith) (by linarith) (by norm_num) (by linarith)
      linarith
    calc (1 / 600 : ℝ) ≤ ∏ r : Fin 3, (1 / 8 * (99 / 100) : ℝ) := by rw [Finset.prod_const, Finset.card_univ, Fintype.card_fin]; norm_num
      _ ≤ _ := Finset.prod_le_prod (fun _ _ => by norm_num) fun r _ => hm r
  · have hq : (5 / 2 : ℝ) ≤ Real.sqrt (2 * Real.pi) := Real.le_sqrt_of_sq_le (by linarith [Real.pi_gt_d2])
    have hc : ∀ r i, crowd1 (S.lo i) (S.hi i) (S.s r i) ≤ 12 := fun r i => by
      rw [crowd1, hwid, hlo, hhi, div_le_iff₀ (by positivity)]
      linarith
    have hc0 : ∀ r i, 0 ≤ crowd1 (S.lo i) (S.hi i) (S.s r i) := fun r i => by
      rw [crowd1, hwid, hlo, hhi]; positivity
    calc _ ≤ ∏ r : Fin 3, (144 : ℝ) := Finset.prod_le_prod (fun r _ => Finset.prod_nonneg fun i _ => hc0 r i) fun r _ => by
          show ∏ i, crowd1 (S.lo i) (S.hi i) (S.s r i) ≤ 144
          rw [Fin.prod_univ_two]
          calc _ ≤ (12 : ℝ) * 12 := mul_le_mul (hc r 0) (hc r 1) (hc0 r 1) (by norm_num)
            _ = 144 := by norm_num
      _ ≤ _ := by rw [Finset.prod_const, Finset.card_univ, Fintype.card_fin]; norm_num
  · calc _ ≤ ∑ r : Fin 3, ∑ i : Fin 2, ((2 : ℝ) / 10 ^ 20 + 1 / 10 ^ 16) := Finset.sum_le_sum fun r _ => Finset.sum_le_sum fun i _ => by linarith [ht r i]
      _ ≤ _ := by norm_num

/-- The powers of the bound. -/
theorem pow_sub_le {x : ℝ} (h : x ≤ 1) (k : Nat) : (1 - x) ^ k ≤ Real.exp (-(k * x)) := by
  rw [show -(k * x) = (k : ℝ) * (-x) by ring, Real.exp_nat_mul]
  exact pow_le_pow_left₀ (by linarith) (by linarith [Real.add_one_le_exp (-x)]) k

theorem eggbox_mixError (N M : Nat) (hM : 500000 ≤ M) (hN : N ≤ 10 ^ 9) (e : ℝ) (he : e ≤ 1 / 10 ^ 15) : mixError e (1 / 5000) (1 / 600) (3 * 10 ^ 6) N M 6000 ≤ 1 / 10 ^ 4 := by
  obtain ⟨-, -, -, b4, b5⟩ := exp_bounds
  have h1 : (N : ℝ) * e ≤ 1 / 10 ^ 6 := by
    have : (N : ℝ) ≤ 10 ^ 9 := by exact_mod_cast hN
    have hN0 : (0 : ℝ) ≤ N := Nat.cast_nonneg N
    nlinarith
  obtain ⟨j, hj⟩ : ∃ j : Nat, j = 6000 := ⟨_, rfl⟩
  rw [← hj]
  have h2 : (1 - 1 / 600 : ℝ) ^ j ≤ 5 / 10 ^ 5 := by
    refine (pow_sub_le (by norm_num) j).trans (le_trans (Real.exp_le_exp.2 ?_) b4)
    have : (j : ℝ) = 6000 := by rw [hj]; norm_num
    rw [this]
    norm_num
  have h3 : Real.sqrt (1 - 1 / 5000) ^ (M - j) ≤ 1 / 10 ^ 20 := by
    have hs : Real.sqrt (1 - 1 / 5000) ≤ 1 - 1 / 10000 := by
      rw [Real.sqrt_le_iff]
      constructor <;> norm_num
    refine (pow_le_pow_left₀ (Real.sqrt_nonneg _) hs _).trans ((pow_sub_le (by norm_num) _).trans (le_trans (Real.exp_le_exp.2 ?_) b5))
    have : ((490000 : Nat) : ℝ) ≤ (M - j : Nat) := by exact_mod_cast (by omega : 490000 ≤ M - j)
    push_cast at this ⊢
    linarith
  rw [mixError]
  generalize (1 - 1 / 600 : ℝ) ^ j = y at h2
  generalize Real.sqrt (1 - 1 / 5000) ^ (M - j) = z at h3
  linarith

section
variable [Source ℝ] [UnitDraws]

theorem copyBetas_mem {n : Nat} {l : List ℝ} {beta : Fin n → ℝ} (h : copyBetas n l = .ok beta) (r : Fin n) : beta r ∈ l := by
  unfold copyBetas at h
  split at h
  · have := (Except.ok.inj h).symm
    subst this
    exact List.getElem_mem _
  · cases h

/-- **C85 for the egg box model**: three ranks, the ranges of its sample input, widths of a tenth of the ranges, nothing tuned, and at least half a million iterations. The
parameters at the end of every execution are those of `mainS` on the three streams of numbers, and for independent uniform streams the probability that they lie in a set
differs from that under the product of the tempered posteriors by at most `1 / 10 ^ 4`. -/
theorem eggbox_mixed (cfg : Cfg ℝ) (file : DataFile ℝ) (hv : Valid 3 cfg file) (ndim : Int) (hu : cfg.user = eggbox.user [(0, 50), (0, 50)] ndim)
    (hN : cfg.nParm = 2) (hr : cfg.initGpRatio = 1 / 10) (hb : ∀ b ∈ cfg.betas, 0 ≤ b ∧ b ≤ 1) (hlong : 500000 ≤ cfg.nIter) (hlim : cfg.nIter ≤ 10 ^ 9)
    (hw : ∀ k, 0 < k → inTuneWindow cfg k = false) (hl : cfg.tuneLadder ≤ 0) (clock : Nat) (root : Fin 3) :
    ∃ beta : Fin 3 → ℝ, copyBetas 3 cfg.betas = .ok beta ∧
      (∀ (w₁ : List (Label 3)) (t : Sys 3 (Msg ℝ) (Line ℝ) (RSt 3 ℝ)), (initSys cfg file clock root).exec w₁ = some t → t.AllDone →
        ∃ st tab, t.procs root = .ret st ∧ st.tab = some tab ∧
          ∀ q, tab.x q = List.ofFn
            ((mainS (eggboxSetting (1 / 10) beta) (fun _ => .unif) cfg root fun q => streamOf (srand48 ℝ (seedOf root (startSeed cfg clock) q))).1 q)) ∧
      ∀ (A : Set (Fin 3 → Fin 2 → ℝ)) (_ : MeasurableSet A),
        |(unifStreams 3).real {ω | (mainS (eggboxSetting (1 / 10) beta) (fun _ => .unif) cfg root ω).1 ∈ A} -
          (joint eggboxTarget (fun _ => 0) (fun _ => 50) beta).real A / (joint eggboxTarget (fun _ => 0) (fun _ => 50) beta).real univ| ≤ 1 / 10 ^ 4 := by
  obtain ⟨beta, hbeta, -, -, hex, -⟩ := eggbox_whole_run cfg file hv ndim hu hN (by rw [hr]; norm_num) (by rw [hr]; norm_num) (fun b hm => (hb b hm).1) (by omega) hw hl clock root
  rw [hr] at hex
  obtain ⟨hS, hM, he⟩ := eggbox_mixes beta (fun r => (hb _ (copyBetas_mem hbeta r)).1) fun r => (hb _ (copyBetas_mem hbeta r)).2
  refine ⟨beta, hbeta, hex, fun A hA => ?_⟩
  have h := mixing_law (eggboxSetting (1 / 10) beta) _ hS (by norm_num) _ _ _ hM (fun _ => .unif) (fun _ => by show (0 : ℝ) ≤ 50; norm_num) cfg hv.rand hv.base hv.stack (by omega) root
    6000 (by omega) A hA
  exact h.trans (eggbox_mixError _ _ (by omega) (by omega) _ he)

/-- **C85 for averages of the egg box model**: in the setting above, with the first half million iterations or more left out. The average over the remaining `K` rows of a
chain file is that over the tables of `mainH` on the three streams of numbers, and for independent uniform streams it misses the mean under the tempered posterior by `ε` or more
with a probability of at most `5000 / (K * ε ^ 2) + 1 / 10 ^ 4`. -/
theorem eggbox_mixed_average (cfg : Cfg ℝ) (file : DataFile ℝ) (hv : Valid 3 cfg file) (ndim : Int) (hu : cfg.user = eggbox.user [(0, 50), (0, 50)] ndim)
    (hN : cfg.nParm = 2) (hr : cfg.initGpRatio = 1 / 10) (hb : ∀ b ∈ cfg.betas, 0 ≤ b ∧ b ≤ 1) (hlim : cfg.nIter ≤ 10 ^ 9)
    (hw : ∀ k, 0 < k → inTuneWindow cfg k = false) (hl : cfg.tuneLadder ≤ 0) (B : Nat) (hs : cfg.saveBegin ≤ B + 1) (hlong : 500000 ≤ B) (hB : B < cfg.nIter.toNat)
    (clock : Nat) (root r : Fin 3) (g : List ℝ → ℝ) (hg : Measurable fun x : Fin 2 → ℝ => g (List.ofFn x)) (g0 : ∀ x, 0 ≤ g x) (g1 : ∀ x, g x ≤ 1) :
    ∃ beta : Fin 3 → ℝ, copyBetas 3 cfg.betas = .ok beta ∧
      (∀ (w₁ : List (Label 3)) (t : Sys 3 (Msg ℝ) (Line ℝ) (RSt 3 ℝ)), (initSys cfg file clock root).exec w₁ = some t → t.AllDone →
        rowAverage B g (fileRows r.val (t.log r)) = averageAbove B r (fun x => g (List.ofFn x))
          (mainH (eggboxSetting (1 / 10) beta) (fun _ => .unif) cfg root fun q => streamOf (srand48 ℝ (seedOf root (startSeed cfg clock) q)))) ∧
      ∀ ε : ℝ, 0 < ε → (unifStreams 3).real {ω | ε ≤ |averageAbove B r (fun x => g (List.ofFn x)) (mainH (eggboxSetting (1 / 10) beta) (fun _ => .unif) cfg root ω) -
          (∫ x : Fin 2 → ℝ, g (List.ofFn x) ∂(posterior (volume.restrict (openBox (fun _ => 0) fun _ => 50)) (eggboxTarget.lp (beta r)))) /
            (posterior (volume.restrict (openBox (fun _ => 0) fun _ => 50)) (eggboxTarget.lp (beta r))).real univ|} ≤
        5000 / ((cfg.nIter.toNat - B : Nat) * ε ^ 2) + 1 / 10 ^ 4 := by
  obtain ⟨beta, hbeta, -, -, hex, -⟩ := eggbox_average cfg file hv ndim hu hN (by rw [hr]; norm_num) (by rw [hr]; norm_num) (fun b hm => (hb b hm).1) hw hl B hs hB clock root r g hg g0 g1
  rw [hr] at hex
  obtain ⟨hS, hM, he⟩ := eggbox_mixes beta (fun r => (hb _ (copyBetas_mem hbeta r)).1) fun r => (hb _ (copyBetas_mem hbeta r)).2
  refine ⟨beta, hbeta, hex, fun ε hε => ?_⟩
  have h := mixing_average (eggboxSetting (1 / 10) beta) _ hS (by norm_num) _ _ _ hM (fun _ => .unif) (fun _ => by show (0 : ℝ) ≤ 50; norm_num) cfg hv.rand hv.base hv.stack root r
    (fun x => g (List.ofFn x)) hg (fun _ => g0 _) (fun _ => g1 _) B hB 6000 (by omega) ε hε
  have h2 := eggbox_mixError cfg.nIter.toNat B hlong (by omega) _ he
  have hK : (0 : ℝ) < (cfg.nIter.toNat - B : Nat) := by
    have : 0 < cfg.nIter.toNat - B := by omega
    exact_mod_cast this
  have e : 1 / (1 / 5000 * ((cfg.nIter.toNat - B : Nat) : ℝ) * ε ^ 2) = 5000 / ((cfg.nIter.toNat - B : Nat) * ε ^ 2) := by
    field_simp
  rw [e] at h
  exact h.trans (by linarith)

end

/-- A longer run of the egg box model. -/
noncomputable def eggboxLong : Cfg ℝ :=
  { eggboxRun with
    nIter := 10500000
    nBegintune := 20000000
    nStoptune := 20000001 }

theorem eggboxLong_valid : Valid 3 eggboxLong eggboxFile where
  ranks := by norm_num
  ranksInt := by norm_num
  betas := by simp [eggboxLong, eggboxRun]
  parm := by simp [eggboxLong, eggboxRun]
  user := ⟨fun x hx => by rw [show eggboxLong.user.boundary = paraBoundary [(0, 50), (0, 50)] from rfl, paraBoundary_length]; exact hx,
    fun s => by show (initDraws _ _).1.length = 2; rw [initDraws_length]; simp [eggbox, model2], fun r => rfl⟩
  stack := by simp [eggboxLong, eggboxRun]
  rand := by simp [eggboxLong, eggboxRun]
  base := by simp [eggboxLong, eggboxRun]
  randInt := by simp [eggboxLong, eggboxRun]
  stackInt := by simp [eggboxLong, eggboxRun]
  iterInt := .of_sum (by simp [eggboxLong, eggboxRun])
  mode := by simp [eggboxLong, eggboxRun]
  inTune := by simp [eggboxLong, eggboxRun]
  sigmaMin := by simp [eggboxLong, eggboxRun]
  sigmaMax := by simp [eggboxLong, eggboxRun]
  cells := ⟨[0], rfl, by simp [eggboxFile], by simp⟩

theorem eggboxLong_still (k : Int) (_ : 0 < k) : inTuneWindow eggboxLong k = false := by
  show (decide ((20000000 : Int) < k) && decide (k < 20000001) && decide (k < 10500000)) = false
  rw [Bool.eq_false_iff]; simp only [ne_eq, Bool.and_eq_true, decide_eq_true_eq]; omega

/-- The hypotheses hold for this run, and the bound says something: the fraction of rows of the coldest chain with both parameters below 25, after the first half million of
ten and a half million iterations, is off by a tenth or more with a probability below six percent. -/
example (clock : Nat) : ∃ beta : Fin 3 → ℝ, copyBetas 3 eggboxLong.betas = .ok beta ∧
    (∀ (w₁ : List (Label 3)) (t : Sys 3 (Msg ℝ) (Line ℝ) (RSt 3 ℝ)), (initSys eggboxLong eggboxFile clock 0).exec w₁ = some t → t.AllDone →
      rowAverage 500000 (fun x => if ∀ y ∈ x, y < 25 then 1 else 0) (fileRows 2 (t.log 2)) =
        averageAbove 500000 2 (fun x => if ∀ y ∈ List.ofFn x, y < 25 then 1 else 0)
          (mainH (eggboxSetting (1 / 10) beta) (fun _ => .unif) eggboxLong 0 fun q => streamOf (srand48 ℝ (seedOf 0 (startSeed eggboxLong clock) q)))) ∧
    (unifStreams 3).real {ω | 1 / 10 ≤
        |averageAbove 500000 2 (fun x => if ∀ y ∈ List.ofFn x, y < 25 then 1 else 0) (mainH (eggboxSetting (1 / 10) beta) (fun _ => .unif) eggboxLong 0 ω) -
        (∫ x : Fin 2 → ℝ, (if ∀ y ∈ List.ofFn x, y < 25 then 1 else 0) ∂(posterior (volume.restrict (openBox (fun _ => 0) fun _ => 50)) (eggboxTarget.lp (beta 2)))) /
          (posterior (volume.restrict (openBox (fun _ => 0) fun _ => 50)) (eggboxTarget.lp (beta 2))).real univ|} < 6 / 100 := by
  obtain ⟨beta, h1, h2, h3⟩ := eggbox_mixed_average eggboxLong eggboxFile eggboxLong_valid 1 rfl rfl rfl
    (by simp only [eggboxLong, eggboxRun]; intro b hb; simp at hb; rcases hb with rfl | rfl | rfl <;> norm_num) (by simp [eggboxLong]) eggboxLong_still (by simp [eggboxLong, eggboxRun])
    500000 (by simp [eggboxLong, eggboxRun, demoCfg]) le_rfl (by simp [eggboxLong]) clock 0 2 (fun x => if ∀ y ∈ x, y < 25 then 1 else 0)
    (by
      refine Measurable.ite ?_ measurable_const measurable_const
      have : {x : Fin 2 → ℝ | ∀ y ∈ List.ofFn x, y < 25} = {x | x 0 < 25} ∩ {x | x 1 < 25} := by
        ext x
        simp [List.ofFn_succ]
      rw [this]
      exact (measurableSet_lt (measurable_pi_apply 0) measurable_const).inter (measurableSet_lt (measurable_pi_apply 1) measurable_const))
    (fun x => by split <;> norm_num) (fun x => by split <;> norm_num)
  refine ⟨beta, h1, h2, lt_of_le_of_lt (h3 (1 / 10) (by norm_num)) ?_⟩
  have e : eggboxLong.nIter.toNat - 500000 = 10000000 := rfl
  rw [e]
  norm_num

/-- The same run: the law of its last table. -/
example (clock : Nat) : ∃ beta : Fin 3 → ℝ, copyBetas 3 eggboxLong.betas = .ok beta ∧
    (∀ (w₁ : List (Label 3)) (t : Sys 3 (Msg ℝ) (Line ℝ) (RSt 3 ℝ)), (initSys eggboxLong eggboxFile clock 0).exec w₁ = some t → t.AllDone →
      ∃ st tab, t.procs 0 = .ret st ∧ st.tab = some tab ∧
        ∀ q, tab.x q = List.ofFn
          ((mainS (eggboxSetting (1 / 10) beta) (fun _ => .unif) eggboxLong 0 fun q => streamOf (srand48 ℝ (seedOf 0 (startSeed eggboxLong clock) q))).1 q)) ∧
    ∀ (A : Set (Fin 3 → Fin 2 → ℝ)) (_ : MeasurableSet A),
      |(unifStreams 3).real {ω | (mainS (eggboxSetting (1 / 10) beta) (fun _ => .unif) eggboxLong 0 ω).1 ∈ A} -
        (joint eggboxTarget (fun _ => 0) (fun _ => 50) beta).real A / (joint eggboxTarget (fun _ => 0) (fun _ => 50) beta).real univ| ≤ 1 / 10 ^ 4 :=
  eggbox_mixed eggboxLong eggboxFile eggboxLong_valid 1 rfl rfl rfl
    (by simp only [eggboxLong, eggboxRun]; intro b hb; simp at hb; rcases hb with rfl | rfl | rfl <;> norm_num) (by simp [eggboxLong]) (by simp [eggboxLong]) eggboxLong_still
    (by simp [eggboxLong, eggboxRun]) clock 0

/-- The rows of the coldest chain of the egg box run from iteration 10000 on, from any start. -/
example (x : Fin 3 → Fin 2 → ℝ) (hx : x ∈ tableBox (fun _ : Fin 2 => (0 : ℝ)) (fun _ => 50)) :
    ∫ ω, (averageAbove 10000 2 (fun x => if x 0 < 25 then 1 else 0)
        (flowH (eggboxSetting (1 / 10) fun r => (r.val : ℝ) / 2) eggboxRun 0 eggboxRun.nIter.toNat 1000 0 (x, ω)) -
        targetMean (eggboxSetting (1 / 10) fun r => (r.val : ℝ) / 2) 2 (fun x => if x 0 < 25 then 1 else 0)) ^ 2 ∂(unifStreams 3) ≤
      errorBound (gain (fun _ : Fin 2 => 0) (fun _ => 50) (eggboxSetting (1 / 10) fun r => (r.val : ℝ) / 2).s fun r => 2 * ((r.val : ℝ) / 2)).toReal
        (leakAll (fun _ : Fin 2 => 0) (fun _ => 50) (eggboxSetting (1 / 10) fun r => (r.val : ℝ) / 2).s).toReal (20000 - 10000) := by
  have hp := (eggbox_mixes (fun r => (r.val : ℝ) / 2) (fun r => by positivity) (fun r => by
    have : (r.val : ℝ) ≤ 2 := by exact_mod_cast (by omega : r.val ≤ 2)
    linarith)).1
  exact flow_error hp (by norm_num) eggboxRun (by simp [eggboxRun]) (by simp [eggboxRun]) 0 2
    (fun x => if x 0 < 25 then 1 else 0)
    (Measurable.ite (measurableSet_lt (measurable_pi_apply 0) measurable_const) measurable_const measurable_const)
    (fun x => by split <;> norm_num) (fun x => by split <;> norm_num) 1000 0 (by norm_num) le_rfl 10000 (by norm_num) (by simp [eggboxRun]) x hx

end NiiC
