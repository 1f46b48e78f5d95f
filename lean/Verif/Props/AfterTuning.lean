import Verif.Refine.TunedInv

/-!
# C83: averages over the rows of a chain file after tuning

A run that tunes the widths of its proposals, and perhaps its ladder, during its first stacks. What the tuning does depends on the same random numbers as the chains, so the
widths and the ladder used afterwards are random, and so are the points at which the chains stand. Still the rows written afterwards estimate means under the posterior with the
error that a run without tuning has that uses those widths from the start.
-/

set_option linter.unusedSectionVars false
set_option linter.unusedSimpArgs false

namespace NiiC

open MeasureTheory ProbabilityTheory Set
open scoped ENNReal NNReal

/-- A run in exact arithmetic: target, box, start values, first widths, first ladder, configuration, and the root rank. -/
structure Job (n d : Nat) where
  T : Target d
  lo : Fin d → ℝ
  hi : Fin d → ℝ
  ks : Fin d → Draw
  sig : Fin n → List ℝ
  beta : Fin n → ℝ
  cfg : Cfg ℝ
  root : Fin n

namespace Job

variable {n d : Nat} (J : Job n d)

/-- The state before the first stack, from the streams of numbers of the ranks, mpi_init.c:28-162. -/
noncomputable def begin (ω : Fin n → Draws) : ((Fin n → Pt d) × Hist n) × (Fin n → Draws) :=
  ((fun r => ((startS J.ks J.lo J.hi (ω r)).1, J.T.lp (J.beta r) (startS J.ks J.lo J.hi (ω r)).1), []), fun r => (startS J.ks J.lo J.hi (ω r)).2)

/-- The state after `k` stacks. -/
noncomputable def tuned (k : Nat) (ω : Fin n → Draws) : ((Fin n → Pt d) × Hist n) × (Fin n → Draws) :=
  preT J.T J.lo J.hi J.sig J.beta J.cfg J.root k 0 (J.begin ω)

/-- The outcomes of the tuning in the first `k` stacks. -/
noncomputable def history (k : Nat) (ω : Fin n → Draws) : Hist n := (J.tuned k ω).1.2

/-- The widths after a history. -/
noncomputable def widths (h : Hist n) (r : Fin n) : Fin d → ℝ := vec d ((paramsOf J.cfg J.sig J.beta h).1 r)

/-- The ladder after a history. -/
noncomputable def ladder (h : Hist n) : Fin n → ℝ := (paramsOf J.cfg J.sig J.beta h).2

/-- Target, box, widths and ladder after a history. -/
noncomputable def setting (h : Hist n) : Setting n d where
  T := J.T
  lo := J.lo
  hi := J.hi
  s := fun r i => (J.widths h r i).toNNReal
  beta := J.ladder h

/-- The average of `f` over the points of chain `r` after iteration `B`, with nothing tuned after the first `k` stacks. -/
noncomputable def estimate (k B : Nat) (r : Fin n) (f : (Fin d → ℝ) → ℝ) (ω : Fin n → Draws) : ℝ :=
  averageAbove B r f (flowH (J.setting (J.history k ω)) J.cfg J.root J.cfg.nIter.toNat J.cfg.nStack (k * J.cfg.nStack)
    (fun r => ((J.tuned k ω).1.1 r).1, (J.tuned k ω).2))

/-- The mean of `f` under the tempered posterior with `b`. -/
noncomputable def mean (b : ℝ) (f : (Fin d → ℝ) → ℝ) : ℝ :=
  (∫ x, f x ∂(posterior (volume.restrict (openBox J.lo J.hi)) (J.T.lp b))) / (posterior (volume.restrict (openBox J.lo J.hi)) (J.T.lp b)).real univ

/-! ## The start -/

theorem begin_clean : Clean (unifStreams n) (fun p : (Fin n → Fin d → ℝ) × (Fin n → Draws) => J.begin p.2) := by
  have hp : Fresh (unifStreams n) (fun p : (Fin n → Fin d → ℝ) × (Fin n → Draws) => (fun r => (startS J.ks J.lo J.hi (p.2 r)).1, fun r => (startS J.ks J.lo J.hi (p.2 r)).2))
      (parKernel fun _ => Kernel.const (Fin d → ℝ) (startLaw J.ks J.lo J.hi)) := Fresh.par fun r => start_fresh J.ks J.lo J.hi
  refine hp.clean.map (f := fun x : Fin n → Fin d → ℝ => ((fun r => (x r, J.T.lp (J.beta r) (x r)), []) : (Fin n → Pt d) × Hist n)) ?_
  exact (measurable_pi_lambda _ fun r => (measurable_pi_apply r).prodMk ((J.T.measurable _).comp (measurable_pi_apply r))).prodMk measurable_const

theorem tuned_clean (k : Nat) : Clean (unifStreams n) (fun p : (Fin n → Fin d → ℝ) × (Fin n → Draws) => J.tuned k p.2) :=
  J.begin_clean.comp (pre_clean J.T J.lo J.hi J.sig J.beta J.cfg J.root k 0)

theorem _root_.NiiC.nums_from : ∀ (d : Nat) (ω : Draws) (i : Fin d), ∃ j, (numsS d ω).1 i = ω j
  | 0, _, i => i.elim0
  | d + 1, ω, i => by
    refine Fin.cases ?_ (fun i => ?_) i
    · exact ⟨0, rfl⟩
    · obtain ⟨j, hj⟩ := nums_from d (pop ω).2 i
      exact ⟨j + 1, hj⟩

theorem begin_sound (hk : ∀ i, (J.ks i).Fits (J.lo i, J.hi i)) {ω : Fin n → Draws} (hω : InUnit ω) : SoundZ J.T J.lo J.hi J.cfg J.beta (J.begin ω).1 := by
  refine ⟨fun r => ⟨fun i => ?_, fun _ => rfl⟩, fun _ o ho => by cases ho⟩
  obtain ⟨j, hj⟩ := nums_from d (ω r) i
  have := hω r j
  rw [← hj] at this
  exact value_mem _ _ _ _ (hk i) this.1 this.2.le

theorem tuned_sound (hk : ∀ i, (J.ks i).Fits (J.lo i, J.hi i)) (k : Nat) {ω : Fin n → Draws} (hω : InUnit ω) :
    SoundZ J.T J.lo J.hi J.cfg J.beta (J.tuned k ω).1 :=
  SoundZ.pre (fun i => (hk i).le) J.cfg J.root k 0 _ (J.begin_sound hk hω)

theorem _root_.NiiC.stream_unit [Source ℝ] [UnitDraws] (g : Fin n → Rng) : InUnit fun q => streamOf (g q) := fun _ _ => UnitDraws.mem _

/-- The ranges of the widths: as the configuration has them, positive, and at least as wide as the jump ratio. -/
structure Ranges (a b : Fin d → ℝ) : Prop where
  half : 1 ≤ J.cfg.halfRatio
  jump : 1 ≤ J.cfg.jumpin
  parms : J.cfg.nParm = d
  min : ∀ i, J.cfg.sigmaMin[i.val]? = some (a i)
  max : ∀ i, J.cfg.sigmaMax[i.val]? = some (b i)
  pos : ∀ i, 0 < a i
  wide : ∀ i, a i * J.cfg.jumpin ≤ b i
  first : ∀ i, a i ≤ vec d (J.cfg.user.initGp J.cfg.initGpRatio) i ∧ vec d (J.cfg.user.initGp J.cfg.initGpRatio) i ≤ b i
  count : (J.cfg.user.initGp J.cfg.initGpRatio).length = d
  same : ∀ r, J.sig r = J.cfg.user.initGp J.cfg.initGpRatio

/-- After every history all widths are in their ranges. -/
theorem widths_range (hn : 2 ≤ n) {a b : Fin d → ℝ} (hR : J.Ranges a b) (h : Hist n) (r : Fin n) (i : Fin d) : a i ≤ J.widths h r i ∧ J.widths h r i ≤ b i := by
  have hlen : ∀ (l : List ℝ), (∀ i : Fin d, l[i.val]? ≠ none) → J.cfg.nParm ≤ l.length := fun l hl => by
    rw [hR.parms]
    rcases Nat.eq_zero_or_pos d with h0 | h0
    · omega
    · have := hl ⟨d - 1, by omega⟩
      rw [Ne, List.getElem?_eq_none_iff] at this
      simp only at this
      omega
  have hgp : WidthsQ J.cfg (fun j w => ∀ i : Fin d, i.val = j → a i ≤ w ∧ w ≤ b i) (J.cfg.user.initGp J.cfg.initGpRatio) := by
    refine ⟨by rw [hR.count, hR.parms], fun j w hw i hi' => ?_⟩
    subst hi'
    have := hR.first i
    rw [vec, hw] at this
    exact this
  have hQ := widthsQ_all (n := n) (sig0 := J.sig) (beta0 := J.beta) (hlen _ fun i => by rw [hR.min]; simp) (hlen _ fun i => by rw [hR.max]; simp) hgp
    (fun j w lo' hi' r' e1 e2 hq i hij => by
      subst hij
      rw [hR.min i, Option.some.injEq] at e1
      rw [hR.max i, Option.some.injEq] at e2
      subst e1
      subst e2
      exact grid_in_range _ _ _ _ _ _ hn (lt_of_lt_of_le (hR.pos i) (hq i rfl).1) hR.half (hR.pos i) hR.jump (hR.wide i) _ r'.isLt)
    (fun r => by rw [hR.same]; exact hgp) h r
  have hlt : i.val < ((paramsOf J.cfg J.sig J.beta h).1 r).length := by rw [hQ.1, hR.parms]; exact i.isLt
  have := hQ.2 i.val _ (List.getElem?_eq_getElem hlt) i rfl
  rw [widths, vec, List.getElem?_eq_getElem hlt]
  exact this

theorem setting_s (hn : 2 ≤ n) {a b : Fin d → ℝ} (hR : J.Ranges a b) (h : Hist n) (r : Fin n) (i : Fin d) : ((J.setting h).s r i : ℝ) = J.widths h r i :=
  Real.coe_toNNReal _ ((hR.pos i).le.trans (J.widths_range hn hR h r i).1)

/-! ## C83, law -/

theorem _root_.NiiC.measurableSet_inUnit (n : Nat) : MeasurableSet {ω : Fin n → Draws | InUnit ω} := by
  have : {ω : Fin n → Draws | InUnit ω} = ⋂ r, ⋂ k, {ω | 0 ≤ ω r k ∧ ω r k < 1} := by
    ext ω
    simp only [mem_ofPred_eq, mem_iInter]
    exact Iff.rfl
  rw [this]
  refine MeasurableSet.iInter fun r => MeasurableSet.iInter fun k => ?_
  have hm : Measurable (fun ω : Fin n → Draws => ω r k) := (measurable_pi_apply k).comp (measurable_pi_apply r)
  exact (measurableSet_le measurable_const hm).inter (measurableSet_lt hm measurable_const)

/-- What is left of the streams are numbers from `[0, 1)`. -/
theorem rest_unit (k : Nat) : ∀ᵐ ω ∂(unifStreams n), InUnit (J.tuned k ω).2 := by
  have h := (J.tuned_clean k).bound (fun _ _ => 0) (A := {q | ¬ InUnit q.2}) (measurable_snd (measurableSet_inUnit n).compl) (c := 0) fun b => by
    have : (unifStreams n) {ω | ¬ InUnit ω} = 0 := inUnit_ae n
    exact this.le
  exact le_antisymm h (zero_le)

theorem _root_.NiiC.errorBound_mono {c c' e e' : ℝ} (hc : 0 < c) (h : c ≤ c') (he : 0 ≤ e) (he' : e ≤ e') (K : Nat) : errorBound c' e K ≤ errorBound c e' K := by
  have : 0 ≤ e' := he.trans he'
  rw [errorBound, errorBound]
  gcongr

/-- The average over the rows after the tuning, from what is known for every outcome of it: the tuning uses numbers that come before those of the rows. -/
theorem after_bound (hk : ∀ i, (J.ks i).Fits (J.lo i, J.hi i)) (k B : Nat) (r : Fin n) (f : (Fin d → ℝ) → ℝ) (good : Set (Hist n)) (ε δ : ℝ) (hδ : 0 ≤ δ)
    (key : ∀ h ∈ good, ∃ D : (Fin n → Fin d → ℝ) × (Fin n → Draws) → ℝ, Measurable D ∧
      (∀ p, InUnit p.2 → averageAbove B r f (flowH (J.setting h) J.cfg J.root J.cfg.nIter.toNat J.cfg.nStack (k * J.cfg.nStack) p) - J.mean (J.ladder h r) f = D p) ∧
        ∀ x ∈ tableBox J.lo J.hi, unifStreams n {ω | ε ≤ |D (x, ω)|} ≤ ENNReal.ofReal δ) :
    (unifStreams n).real {ω | J.history k ω ∈ good ∧ ε ≤ |J.estimate k B r f ω - J.mean (J.ladder (J.history k ω) r) f|} ≤ δ := by
  classical
  have key : ∀ h : Hist n, ∃ D : (Fin n → Fin d → ℝ) × (Fin n → Draws) → ℝ, Measurable D ∧
      (h ∈ good → (∀ p, InUnit p.2 → averageAbove B r f (flowH (J.setting h) J.cfg J.root J.cfg.nIter.toNat J.cfg.nStack (k * J.cfg.nStack) p) - J.mean (J.ladder h r) f = D p) ∧
        ∀ x ∈ tableBox J.lo J.hi, unifStreams n {ω | ε ≤ |D (x, ω)|} ≤ ENNReal.ofReal δ) := fun h => by
    by_cases hh : h ∈ good
    · obtain ⟨D, h1, h2, h3⟩ := key h hh
      exact ⟨D, h1, fun _ => ⟨h2, h3⟩⟩
    · exact ⟨fun _ => 0, measurable_const, fun h' => absurd h' hh⟩
  choose D hD hgoodD using key
  -- the bad set, after the first stacks
  have hmeas : Measurable fun q : ((Fin n → Pt d) × Hist n) × (Fin n → Draws) => D q.1.2 (fun r => (q.1.1 r).1, q.2) := by
    have h1 : Measurable (fun z : ((Fin n → Fin d → ℝ) × (Fin n → Draws)) × Hist n => D z.2 z.1) := measurable_from_prod_countable_left fun i => hD i
    refine h1.comp (Measurable.prodMk (Measurable.prodMk (measurable_pi_lambda _ fun r => ?_) measurable_snd) (measurable_snd.comp measurable_fst))
    exact measurable_fst.comp ((measurable_pi_apply r).comp (measurable_fst.comp measurable_fst))
  have hbox : Measurable fun q : ((Fin n → Pt d) × Hist n) × (Fin n → Draws) => (fun r => (q.1.1 r).1 : Fin n → Fin d → ℝ) :=
    measurable_pi_lambda _ fun r => measurable_fst.comp ((measurable_pi_apply r).comp (measurable_fst.comp measurable_fst))
  have hgm : Measurable fun q : ((Fin n → Pt d) × Hist n) × (Fin n → Draws) => q.1.2 := measurable_snd.comp measurable_fst
  set A : Set (((Fin n → Pt d) × Hist n) × (Fin n → Draws)) :=
    {q | (fun r => (q.1.1 r).1) ∈ tableBox J.lo J.hi} ∩ {q | q.1.2 ∈ good} ∩ {q | ε ≤ |D q.1.2 (fun r => (q.1.1 r).1, q.2)|} with hAdef
  have hA : MeasurableSet A := ((hbox (measurableSet_tableBox _ _)).inter (hgm MeasurableSet.of_discrete)).inter (measurableSet_le measurable_const hmeas.norm)
  have hbound := (J.tuned_clean k).bound (fun _ _ => 0) hA (c := ENNReal.ofReal δ) fun b => by
    by_cases hb1 : (fun r => (b.1 r).1) ∈ tableBox J.lo J.hi ∧ b.2 ∈ good
    · exact (measure_mono fun ω hω => hω.2).trans ((hgoodD b.2 hb1.2).2 _ hb1.1)
    · have : Prod.mk b ⁻¹' A = ∅ := by
        ext ω
        simp only [mem_preimage, mem_empty_iff_false, iff_false]
        exact fun h => hb1 ⟨h.1.1, h.1.2⟩
      rw [this, measure_empty]
      exact zero_le
  have hsub : (unifStreams n) {ω | J.history k ω ∈ good ∧ ε ≤ |J.estimate k B r f ω - J.mean (J.ladder (J.history k ω) r) f|} ≤ (unifStreams n) {ω | J.tuned k ω ∈ A} := by
    refine measure_mono_ae ?_
    filter_upwards [inUnit_ae n, J.rest_unit k] with ω h1 h2 h3
    refine ⟨⟨fun q _ i _ => ((J.tuned_sound hk k h1).pts q).1 i, h3.1⟩, ?_⟩
    have := (hgoodD _ h3.1).1 (fun r => ((J.tuned k ω).1.1 r).1, (J.tuned k ω).2) h2
    have h4 := h3.2
    rw [estimate, this] at h4
    exact h4
  have := ENNReal.toReal_mono ENNReal.ofReal_ne_top (hsub.trans hbound)
  rwa [ENNReal.toReal_ofReal hδ] at this

/-- **C83, law.** The streams of the ranks consist of independent uniform numbers. Let `good` be a set of outcomes of the tuning in the first `k` stacks after which the widths are
positive, the gain of one round is at least `c` and its deviation at most `e`. The probability that the outcome of the tuning is good and the average over the iterations of chain
`r` after the first `B` differs by `ε` or more from the mean under the tempered posterior, for the beta that the chain has then, is at most the bound of C80. -/
theorem tuned_average_error (hn : 2 ≤ n) (hk : ∀ i, (J.ks i).Fits (J.lo i, J.hi i)) (hr : 0 ≤ J.cfg.rand) (hb : J.cfg.rand < J.cfg.base)
    (hst : 1 ≤ J.cfg.nStack) (k B : Nat) (hkB : k * J.cfg.nStack ≤ B) (hB : B < J.cfg.nIter.toNat) (r : Fin n) (f : (Fin d → ℝ) → ℝ) (hf : Measurable f)
    (h0 : ∀ x, 0 ≤ f x) (h1 : ∀ x, f x ≤ 1) (good : Set (Hist n)) (v : Hist n → Fin n → ℝ) (c e : ℝ) (hc : 0 < c) (hc1 : c ≤ 1) (he : 0 ≤ e)
    (hgood : ∀ h ∈ good, (J.setting h).Proper (v h) ∧ c ≤ (gain J.lo J.hi (J.setting h).s (v h)).toReal ∧
      ∑ r, ∑ i, ((tail (J.lo i) (J.hi i) ((J.setting h).s r i)).toReal + 1 / 10 ^ 16) ≤ e) (ε : ℝ) (hε : 0 < ε) :
    (unifStreams n).real {ω | J.history k ω ∈ good ∧ ε ≤ |J.estimate k B r f ω - J.mean (J.ladder (J.history k ω) r) f|} ≤
      errorBound c e (J.cfg.nIter.toNat - B) / ε ^ 2 := by
  have hi0 : (0 : Int) ≤ k * J.cfg.nStack := by positivity
  have hpos : 0 ≤ errorBound c e (J.cfg.nIter.toNat - B) / ε ^ 2 := by
    have : 1 ≤ 2 / c := by rw [le_div_iff₀ hc]; linarith
    have : 0 ≤ 2 / c - 1 := by linarith
    rw [errorBound]
    positivity
  refine J.after_bound hk k B r f good ε _ hpos fun h hh => ?_
  obtain ⟨hS, hgain, hleak⟩ := hgood h hh
  have hA := aim_for hS r f hf h0 h1 J.cfg.nIter.toNat B
  obtain ⟨hM, hE⟩ := flow_carry J.cfg J.root hS hn hA hr hb J.cfg.nIter.toNat J.cfg.nStack (k * J.cfg.nStack) (fun _ => 0) measurable_const
  have hE := hE ⟨hst, hi0, by omega, by omega⟩ le_rfl Aim.Est.stop
  simp only [add_zero] at hM hE
  have hmean : J.mean (J.ladder h r) f = targetMean (J.setting h) r f := (targetMean_eq hS r f hf).symm
  have hadd := average_add hS J.cfg hr hb J.root r f hf h0 h1 J.cfg.nStack (k * J.cfg.nStack) hst hi0 B (by omega) hB
  have herr := fun x hx => aim_error (A := aimOf hS r f hf h0 h1 J.cfg.nIter.toNat B) hB (t := (k * J.cfg.nStack : Int).toNat) (by show _ ≤ B; omega) hE (x := x) hx
  have hbdd := hE.bdd
  obtain ⟨D, hD⟩ : ∃ D, D = fun p => (aimOf hS r f hf h0 h1 J.cfg.nIter.toNat B).add (flowH (J.setting h) J.cfg J.root J.cfg.nIter.toNat J.cfg.nStack (k * J.cfg.nStack) p) := ⟨_, rfl⟩
  simp only [← hD] at hM
  refine ⟨fun p => D p / (J.cfg.nIter.toNat - B : Nat), hM.div_const _, fun p hp => ?_, fun x hx => ?_⟩
  · rw [hmean, hadd p hp, hD]
  have herr := herr x hx
  have hms : Measurable fun ω => (D (x, ω) / (J.cfg.nIter.toNat - B : Nat)) ^ 2 := ((hM.comp measurable_prodMk_left).div_const _).pow_const 2
  have hI : Integrable (fun ω => (D (x, ω) / (J.cfg.nIter.toNat - B : Nat)) ^ 2) (unifStreams n) := by
    refine Integrable.of_bound hms.aestronglyMeasurable ((((aimOf hS r f hf h0 h1 J.cfg.nIter.toNat B).N - (k * J.cfg.nStack : Int).toNat : Nat) / (J.cfg.nIter.toNat - B : Nat)) ^ 2) ?_
    filter_upwards [hbdd x] with ω hω
    rw [Real.norm_eq_abs, abs_pow, abs_div, Nat.abs_cast]
    gcongr
    rw [hD]
    exact hω
  have hC := mul_meas_ge_le_integral_of_nonneg (Filter.Eventually.of_forall fun ω => sq_nonneg _) hI (ε ^ 2)
  have hset : {ω | ε ≤ |D (x, ω) / (J.cfg.nIter.toNat - B : Nat)|} = {ω | ε ^ 2 ≤ (D (x, ω) / (J.cfg.nIter.toNat - B : Nat)) ^ 2} := by
    ext ω
    show ε ≤ |_| ↔ ε ^ 2 ≤ _ ^ 2
    rw [← sq_abs (_ / _), sq_le_sq₀ hε.le (abs_nonneg _)]
  rw [← ofReal_measureReal, hset]
  refine ENNReal.ofReal_le_ofReal ?_
  rw [le_div_iff₀ (by positivity), mul_comm]
  refine hC.trans (le_trans ?_ (errorBound_mono hc hgain ENNReal.toReal_nonneg ((leakAll_real J.lo J.hi (J.setting h).s).2.le.trans hleak) _))
  rw [hD]
  exact herr

end Job

/-! ## C83, program -/

section
variable {n d : Nat}

/-- The run of a configuration: all chains start with the same widths. -/
noncomputable def jobOf (T : Target d) (lo hi : Fin d → ℝ) (ks : Fin d → Draw) (beta : Fin n → ℝ) (cfg : Cfg ℝ) (root : Fin n) : Job n d :=
  ⟨T, lo, hi, ks, fun _ => cfg.user.initGp cfg.initGpRatio, beta, cfg, root⟩

/-- **C83, program.** A run of a bundled model, started with a usable configuration, in which nothing is tuned after the first `k` stacks, with `N_save_begin` at most `B + 1` and
`B` at least the iterations of these stacks. If after them no width is negative and every stored log-posterior is the one of the stored point for the beta in use, then in every
finished execution of the MPI program an average over the rows after iteration `B` of the chain file of any rank is `estimate` of the numbers that the generators of the ranks give
after seeding. -/
theorem tuned_average_stream [Source ℝ] [UnitDraws] (m : Model ℝ) (ndim : Int) (ks : Fin d → Draw) (lo hi : Fin d → ℝ) (T : Target d) (cfg : Cfg ℝ) (file : DataFile ℝ) (hv : Valid n cfg file)
    (hu : cfg.user = m.user (List.ofFn fun i => (lo i, hi i)) ndim) (hd : m.draws = List.ofFn ks) (hN : cfg.nParm = d) (hlo : ∀ i, lo i ≤ hi i)
    (hratio : 0 ≤ cfg.initGpRatio) (data : List ℝ) (hdata : file.cells = .ok data)
    (hT : ∀ b (x : Fin d → ℝ), Spec.target cfg.user file.nlines data b (List.ofFn x) = T.lp b x) (k B : Nat) (hkB : k * cfg.nStack ≤ B) (hBN : B < cfg.nIter.toNat)
    (hw : ∀ j, k * cfg.nStack < j → inTuneWindow cfg j = false) (hl : cfg.tuneLadder ≤ 0 ∨ cfg.nStopTuneLadder ≤ k * cfg.nStack)
    (hB : cfg.saveBegin ≤ B + 1) (clock : Nat) (root : Fin n) :
    ∃ beta : Fin n → ℝ, copyBetas n cfg.betas = .ok beta ∧
      ∀ ω : Fin n → Draws, (∀ q, ω q = streamOf (srand48 ℝ (seedOf root (startSeed cfg clock) q))) →
        (∀ r i, 0 ≤ (jobOf T lo hi ks beta cfg root).widths ((jobOf T lo hi ks beta cfg root).history k ω) r i) →
        (∀ r, (((jobOf T lo hi ks beta cfg root).tuned k ω).1.1 r).2 =
          T.lp ((jobOf T lo hi ks beta cfg root).ladder ((jobOf T lo hi ks beta cfg root).history k ω) r) (((jobOf T lo hi ks beta cfg root).tuned k ω).1.1 r).1) →
        ∀ (w₁ : List (Label n)) (t : Sys n (Msg ℝ) (Line ℝ) (RSt n ℝ)), (initSys cfg file clock root).exec w₁ = some t → t.AllDone →
          ∀ (r : Fin n) (g : List ℝ → ℝ), rowAverage B g (fileRows r.val (t.log r)) = (jobOf T lo hi ks beta cfg root).estimate k B r (fun x => g (List.ofFn x)) ω := by
  obtain ⟨w, len, hseq, hex⟩ := distributed_eq_sequential cfg file hv clock root
  unfold seqMain at hseq
  obtain ⟨w0, h0, h1⟩ := exc_bind.1 hseq
  obtain ⟨beta, hbeta, hf, hshow, hacc, hrow⟩ := init_shows m ndim ks lo hi T cfg file hv hu hd hN hlo hratio data hdata hT clock root w0 h0
  refine ⟨beta, hbeta, fun ω hω hwid hstep w₁ t ht hdone r g => ?_⟩
  obtain ⟨J, hJ⟩ : ∃ J, J = jobOf T lo hi ks beta cfg root := ⟨_, rfl⟩
  rw [← hJ] at hwid hstep ⊢
  have hω' : ω = fun q => streamOf (srand48 ℝ (seedOf root (startSeed cfg clock) q)) := funext hω
  have hok := seqInit_ok hv.user h0
  have hz0 : ShowsZ cfg J.sig J.beta file.nlines data w0.st (J.begin ω) := by
    have hsig : w0.st.sig = J.sig := by
      funext r
      rw [hJ]
      have h0 := h0
      simp only [seqInit, exc_bind, Except.ok.injEq] at h0
      obtain ⟨_, _, _, _, _, _, _, _, _, _, _, _, rfl⟩ := h0
      rfl
    refine ⟨fun r => ?_, fun r => ?_, hsig, ?_, fun r => ?_, hshow.nline, hshow.data⟩
    · rw [hω', hJ]; exact hshow.x r
    · rw [hω', hJ]; exact hshow.lp r
    · rw [hJ]; exact hshow.beta
    · rw [hω', hJ]; exact hshow.g r
  have hk0 : (0 : Int) ≤ k * cfg.nStack := by have := hv.stack; positivity
  obtain ⟨wk, fuel', e1, e2, hokk, hacck, hsteps, hzk⟩ := pre_stream hf hv.mode hv.stack root k _ 0 w0 w _ hz0 hok (fun r => by rw [hacc r]; rfl) (by omega) h1
  rw [zero_add] at e2 hacck
  have hzk : ShowsZ cfg J.sig J.beta file.nlines data wk.st (J.tuned k ω) := by rw [hJ] at hzk ⊢; exact hzk
  -- the rows so far have numbers up to `B`
  have hold : ∀ a ∈ fileRows r.val (wk.log r), a.iter ≤ B := by
    obtain ⟨data', beta', -, -, -, -, hfile⟩ := seqInit_file h0 r
    have hinv := hsteps.inv (P := fun w => w.st.Ok cfg ∧ FileInv cfg (firstRow cfg file data' clock root r beta') w r)
      (fun w w' hp h => ⟨h.ok hv.user hp.1, FileInv.step hv.user h hp.1 r hp.2⟩) ⟨hok, hfile⟩
    obtain ⟨tl, m, f1, f2, f3, -⟩ := hinv.2.file
    intro a ha
    rw [f1] at ha
    rcases List.mem_cons.1 ha with rfl | ha
    · exact Nat.zero_le _
    · have : a.iter ∈ tl.map Row.iter := List.mem_map_of_mem ha
      rw [f3] at this
      have := List.mem_range'_1.1 this
      have := hacck r
      omega
  -- the state shows the setting
  have hS : Shows cfg (J.setting (J.history k ω)) file.nlines data { wk.st with cur := wk.st.sig } (fun r => ((J.tuned k ω).1.1 r).1, (J.tuned k ω).2) := by
    have hs : ∀ r, wk.st.sig r = List.ofFn fun i => ((J.setting (J.history k ω)).s r i : ℝ) := fun r => by
      have hlen : ((paramsOf cfg J.sig J.beta (J.history k ω)).1 r).length = d := by
        have := hokk.sig r
        rw [hzk.sig, hN] at this
        exact this
      have e : (fun i => ((J.setting (J.history k ω)).s r i : ℝ)) = vec d ((paramsOf cfg J.sig J.beta (J.history k ω)).1 r) := by
        funext i
        show ((J.widths (J.history k ω) r i).toNNReal : ℝ) = _
        rw [Real.coe_toNNReal _ (hwid r i), Job.widths, hJ]
        rfl
      rw [e, vec_ofFn _ hlen, hzk.sig]
      rfl
    refine ⟨hzk.x, fun r => (hzk.lp r).trans ?_, hs, hs, ?_, hzk.g, hzk.nline, hzk.data⟩
    · rw [hstep r, hJ]; rfl
    · show wk.st.beta = _
      rw [hzk.beta, hJ]
      rfl
  have hfit : Fits cfg (J.setting (J.history k ω)) file.nlines data := ⟨hf.parms, hf.wf, by rw [hJ]; exact hf.box, by rw [hJ]; exact hf.target⟩
  have hl' : cfg.tuneLadder ≤ 0 ∨ cfg.nStopTuneLadder ≤ (wk.st.acc root : Int) := by
    rw [hacck root]; exact hl
  obtain ⟨l, hlog, hwr⟩ := flow_writes hfit hv.mode hB root r fuel' _ _ wk w _ hS hw hl' hv.stack hk0 (by have := hacck r; omega) (by omega) e2
  have hfuel : flowH (J.setting (J.history k ω)) cfg root fuel' cfg.nStack (k * cfg.nStack) (fun r => ((J.tuned k ω).1.1 r).1, (J.tuned k ω).2) =
      flowH (J.setting (J.history k ω)) cfg root cfg.nIter.toNat cfg.nStack (k * cfg.nStack) (fun r => ((J.tuned k ω).1.1 r).1, (J.tuned k ω).2) := by
    have : (k : Int) ≤ k * cfg.nStack := by have := hv.stack; nlinarith
    exact flowH_fuel _ _ _ _ _ _ _ _ hv.stack (by omega) (by omega)
  rw [hfuel] at hwr
  obtain ⟨-, h2⟩ := hex w₁ t ht
  have hfil : (fileRows r.val (t.log r)).filter (fun a => decide (B < a.iter)) = l.filter fun a => decide (B < a.iter) := by
    rw [(h2 hdone).2.1, hlog, List.filter_append, List.filter_eq_nil_iff.2 fun a ha => by simp [hold a ha], List.nil_append]
  have hest : J.estimate k B r (fun x => g (List.ofFn x)) ω = averageAbove B r (fun x => g (List.ofFn x))
      (flowH (J.setting (J.history k ω)) cfg root cfg.nIter.toNat cfg.nStack (k * cfg.nStack) (fun r => ((J.tuned k ω).1.1 r).1, (J.tuned k ω).2)) := by
    rw [Job.estimate, hJ]; rfl
  rw [hest]
  generalize flowH (J.setting (J.history k ω)) cfg root cfg.nIter.toNat cfg.nStack (k * cfg.nStack) (fun r => ((J.tuned k ω).1.1 r).1, (J.tuned k ω).2) = H at hwr ⊢
  have hpts : (l.filter fun a => decide (B < a.iter)).map (fun a => g a.x) = (H.filter fun a => decide (B < a.1)).map fun a => g (List.ofFn (a.2 r)) := by
    have e := congrArg (List.map fun a : Nat × List ℝ => g a.2) hwr.rows
    rw [List.map_map, List.map_map] at e
    exact e
  have hlen := congrArg List.length hpts
  rw [List.length_map, List.length_map] at hlen
  rw [rowAverage, averageAbove, hfil, hpts, hlen]

end

/-! ## C83 for tuned widths -/

theorem step_mono {u w : ℝ} (hu : 1 ≤ u) (h : u ≤ w) : w * Real.exp (-(w ^ 2 / 2)) ≤ u * Real.exp (-(u ^ 2 / 2)) := by
  have h1 : w ≤ u * Real.exp ((w ^ 2 - u ^ 2) / 2) := by
    have := Real.add_one_le_exp ((w ^ 2 - u ^ 2) / 2)
    have h2 : w ≤ u * ((w ^ 2 - u ^ 2) / 2 + 1) := by nlinarith [mul_nonneg (sub_nonneg.2 h) (sub_nonneg.2 hu), mul_nonneg (mul_nonneg (sub_nonneg.2 h) (sub_nonneg.2 hu)) (by linarith : (0:ℝ) ≤ u), mul_nonneg (sub_nonneg.2 h) (sub_nonneg.2 h)]
    exact h2.trans (mul_le_mul_of_nonneg_left this (by linarith))
  calc w * Real.exp (-(w ^ 2 / 2)) ≤ u * Real.exp ((w ^ 2 - u ^ 2) / 2) * Real.exp (-(w ^ 2 / 2)) := by gcongr
    _ = u * Real.exp (-(u ^ 2 / 2)) := by rw [mul_assoc, ← Real.exp_add]; congr 2; ring

/-- Wider proposals reach the whole range more easily, as long as they are not wider than the range. -/
theorem floorOne_mono (lo hi : ℝ) {s s' : ℝ≥0} (hs : s ≠ 0) (h : s ≤ s') (hw : (s' : ℝ) ≤ hi - lo) : floorOne lo hi s ≤ floorOne lo hi s' := by
  have hs0 : (0 : ℝ) < s := by positivity
  have hs0' : (0 : ℝ) < s' := lt_of_lt_of_le hs0 h
  have hle : (s : ℝ) ≤ s' := h
  unfold floorOne gaussianPDF
  refine mul_le_mul' le_rfl (ENNReal.ofReal_le_ofReal ?_)
  have e : ∀ t : ℝ≥0, t ≠ 0 → gaussianPDFReal 0 (t ^ 2) (hi - lo) = (√(2 * Real.pi))⁻¹ * (hi - lo)⁻¹ * ((hi - lo) / t * Real.exp (-(((hi - lo) / t) ^ 2 / 2))) := fun t ht => by
    have ht0 : (0 : ℝ) < t := by positivity
    have hne : hi - lo ≠ 0 := by linarith
    rw [gaussianPDFReal]
    push_cast
    rw [Real.sqrt_mul (by positivity), Real.sqrt_sq ht0.le, sub_zero]
    have : -(hi - lo) ^ 2 / (2 * (t : ℝ) ^ 2) = -(((hi - lo) / t) ^ 2 / 2) := by field_simp
    rw [this]
    field_simp
  rw [e s hs, e s' (by intro h0; rw [h0] at hs0'; simp at hs0')]
  refine mul_le_mul_of_nonneg_left (step_mono ?_ ?_) (mul_nonneg (by positivity) (inv_nonneg.2 (by linarith)))
  · rw [le_div_iff₀ hs0']; linarith
  · gcongr
    linarith

theorem gain_mono {n d : Nat} (lo hi : Fin d → ℝ) {s s' : Fin n → Fin d → ℝ≥0} (hs : ∀ r i, s r i ≠ 0) (h : ∀ r i, s r i ≤ s' r i) (hw : ∀ r i, (s' r i : ℝ) ≤ hi i - lo i)
    (v : Fin n → ℝ) : gain lo hi s v ≤ gain lo hi s' v := by
  unfold gain iterFloor floorAll
  refine mul_le_mul' (Finset.prod_le_prod' fun r _ => mul_le_mul' le_rfl (Finset.prod_le_prod' fun i _ => floorOne_mono _ _ (hs r i) (h r i) (hw r i))) le_rfl
section
variable {n d : Nat}

/-- The law for a run that does not tune its ladder and whose widths stay in ranges up to a fifth of those of the parameters. -/
theorem Job.fixed_ladder_error (J : Job n d) (hn : 2 ≤ n) (hk : ∀ i, (J.ks i).Fits (J.lo i, J.hi i)) (hlo : ∀ i, J.lo i < J.hi i) (hr : 0 ≤ J.cfg.rand)
    (hb : J.cfg.rand < J.cfg.base) (hst : 1 ≤ J.cfg.nStack) (hl : J.cfg.tuneLadder ≤ 0) (k B : Nat) (hkB : k * J.cfg.nStack ≤ B) (hB : B < J.cfg.nIter.toNat) (r : Fin n)
    (f : (Fin d → ℝ) → ℝ) (hf : Measurable f) (h0 : ∀ x, 0 ≤ f x) (h1 : ∀ x, f x ≤ 1) {a b : Fin d → ℝ} (hR : J.Ranges a b) (hb5 : ∀ i, b i ≤ (J.hi i - J.lo i) / 5)
    (v : Fin n → ℝ) (hv : ∀ r, Varies J.lo J.hi (J.T.lp (J.beta r)) (v r)) :
    (0 < (gain J.lo J.hi (fun (_ : Fin n) i => (a i).toNNReal) v).toReal ∧ ∀ ε : ℝ, 0 < ε →
      (unifStreams n).real {ω | ε ≤ |J.estimate k B r f ω - J.mean (J.beta r) f|} ≤
        errorBound (gain J.lo J.hi (fun (_ : Fin n) i => (a i).toNNReal) v).toReal (n * d * (76 / 10 ^ 7)) (J.cfg.nIter.toNat - B) / ε ^ 2) ∧
    (∀ ω, InUnit ω → ∀ r, ((J.tuned k ω).1.1 r).2 = J.T.lp (J.ladder (J.history k ω) r) ((J.tuned k ω).1.1 r).1) ∧ ∀ ω r i, 0 ≤ J.widths (J.history k ω) r i := by
  have hlad : ∀ ω, InUnit ω → J.ladder (J.history k ω) = J.beta := fun ω hω => ((J.tuned_sound hk k hω).hist hl).beta
  have hnoz : ∀ i, (a i).toNNReal ≠ 0 := fun i h0 => by rw [Real.toNNReal_eq_zero] at h0; linarith [hR.pos i]
  have hs := J.setting_s hn hR
  have hsne : ∀ h r i, (J.setting h).s r i ≠ 0 := fun h r i h0 => by
    have := hs h r i
    rw [h0, NNReal.coe_zero] at this
    linarith [hR.pos i, (J.widths_range hn hR h r i).1]
  obtain ⟨c1, c2, -⟩ := start_forgotten J.T J.lo J.hi hlo (fun (_ : Fin n) i => (a i).toNNReal) (fun _ i => hnoz i) J.beta v hv
  refine ⟨⟨c1, fun ε hε => ?_⟩, fun ω hω r => ?_, fun ω r i => (hR.pos i).le.trans (J.widths_range hn hR _ r i).1⟩
  · have main := J.tuned_average_error hn hk hr hb hst k B hkB hB r f hf h0 h1 {h | J.ladder h = J.beta} (fun _ => v) _ (n * d * (76 / 10 ^ 7)) c1 c2 (by positivity)
      (fun h hh => ⟨⟨hlo, hsne h, fun r => by
        show Varies J.lo J.hi (J.T.lp (J.ladder h r)) (v r)
        rw [hh]; exact hv r⟩, ?_, ?_⟩) ε hε
    · refine le_trans (le_of_eq ?_) main
      refine measureReal_congr ?_
      filter_upwards [inUnit_ae n] with ω hω
      refine propext ⟨fun h => ⟨hlad ω hω, ?_⟩, fun h => ?_⟩
      · rw [hlad ω hω]; exact h
      · have := h.2
        rw [hlad ω hω] at this
        exact this
    · refine ENNReal.toReal_mono (lt_of_le_of_lt (gain_le_one J.T J.lo J.hi hlo _ (hsne h) (J.ladder h) v fun r => by rw [hh]; exact hv r) ENNReal.one_lt_top).ne
        (gain_mono J.lo J.hi (fun _ i => hnoz i) (fun r i => ?_) (fun r i => ?_) v)
      · rw [← NNReal.coe_le_coe, hs, Real.coe_toNNReal _ (hR.pos i).le]
        exact (J.widths_range hn hR h r i).1
      · rw [hs]
        linarith [(J.widths_range hn hR h r i).2, hb5 i, hlo i]
    · have ht : ∀ r i, (tail (J.lo i) (J.hi i) ((J.setting h).s r i)).toReal + 1 / 10 ^ 16 ≤ 76 / 10 ^ 7 := fun r i => by
        have := tail_fifth (J.lo i) (J.hi i) (hlo i) ((J.setting h).s r i) (hsne h r i) (by rw [hs]; linarith [(J.widths_range hn hR h r i).2, hb5 i])
        have e : (75 : ℝ) / 10 ^ 7 + 1 / 10 ^ 16 ≤ 76 / 10 ^ 7 := by norm_num
        linarith
      calc _ ≤ ∑ _r : Fin n, ∑ _i : Fin d, ((76 : ℝ) / 10 ^ 7) := Finset.sum_le_sum fun r _ => Finset.sum_le_sum fun i _ => ht r i
        _ = _ := by simp only [Finset.sum_const, Finset.card_univ, Fintype.card_fin, nsmul_eq_mul]; ring
  · rw [hlad ω hω]
    exact ((J.tuned_sound hk k hω).pts r).2 hl

/-- **C83.** A run of a bundled model, started with a usable configuration, that tunes the widths of its proposals during the first `k` stacks and does not tune its ladder. The
range of widths of every parameter has a positive lower end, is at least as wide as the jump ratio, ends at a fifth of the range of the parameter or before, and contains the first
width. There is a function of the streams of numbers of the ranks that gives the average over the rows after iteration `B` of the chain file of rank `r` after any finished
execution of the MPI program, and for independent uniform streams it estimates the mean under the tempered posterior with the error of C80, where the gain is the one for the
smallest widths. -/
theorem tuned_widths_average [Source ℝ] [UnitDraws] (m : Model ℝ) (ndim : Int) (ks : Fin d → Draw) (lo hi : Fin d → ℝ) (T : Target d) (cfg : Cfg ℝ) (file : DataFile ℝ) (hv : Valid n cfg file)
    (hu : cfg.user = m.user (List.ofFn fun i => (lo i, hi i)) ndim) (hd : m.draws = List.ofFn ks) (hN : cfg.nParm = d) (hlo : ∀ i, lo i < hi i)
    (hfit : ∀ i, (ks i).Fits (lo i, hi i)) (data : List ℝ) (hdata : file.cells = .ok data)
    (hT : ∀ b (x : Fin d → ℝ), Spec.target cfg.user file.nlines data b (List.ofFn x) = T.lp b x) (hl : cfg.tuneLadder ≤ 0)
    (k B : Nat) (hkB : k * cfg.nStack ≤ B) (hBN : B < cfg.nIter.toNat) (hw : ∀ j, k * cfg.nStack < j → inTuneWindow cfg j = false) (hB : cfg.saveBegin ≤ B + 1)
    (hh : 1 ≤ cfg.halfRatio) (hj : 1 ≤ cfg.jumpin) (a b : Fin d → ℝ) (ha : ∀ i, cfg.sigmaMin[i.val]? = some (a i)) (hb : ∀ i, cfg.sigmaMax[i.val]? = some (b i))
    (ha0 : ∀ i, 0 < a i) (hab : ∀ i, a i * cfg.jumpin ≤ b i) (hb5 : ∀ i, b i ≤ (hi i - lo i) / 5)
    (hinit : ∀ i, a i ≤ (hi i - lo i) * cfg.initGpRatio ∧ (hi i - lo i) * cfg.initGpRatio ≤ b i)
    (v : ℝ → ℝ) (hvar : ∀ t ∈ cfg.betas, Varies lo hi (T.lp t) (v t)) (clock : Nat) (root r : Fin n) (g : List ℝ → ℝ)
    (hg : Measurable fun x : Fin d → ℝ => g (List.ofFn x)) (g0 : ∀ x, 0 ≤ g x) (g1 : ∀ x, g x ≤ 1) :
    ∃ beta : Fin n → ℝ, copyBetas n cfg.betas = .ok beta ∧
      (∀ (w₁ : List (Label n)) (t : Sys n (Msg ℝ) (Line ℝ) (RSt n ℝ)), (initSys cfg file clock root).exec w₁ = some t → t.AllDone →
        rowAverage B g (fileRows r.val (t.log r)) = (jobOf T lo hi ks beta cfg root).estimate k B r (fun x => g (List.ofFn x)) fun q =>
          streamOf (srand48 ℝ (seedOf root (startSeed cfg clock) q))) ∧
      0 < (gain lo hi (fun (_ : Fin n) i => (a i).toNNReal) fun r => v (beta r)).toReal ∧
      ∀ ε : ℝ, 0 < ε → (unifStreams n).real {ω | ε ≤ |(jobOf T lo hi ks beta cfg root).estimate k B r (fun x => g (List.ofFn x)) ω - (∫ x : Fin d → ℝ, g (List.ofFn x) ∂(posterior (volume.restrict (openBox lo hi)) (T.lp (beta r)))) /
            (posterior (volume.restrict (openBox lo hi)) (T.lp (beta r))).real univ|} ≤
        errorBound (gain lo hi (fun (_ : Fin n) i => (a i).toNNReal) fun r => v (beta r)).toReal (n * d * (76 / 10 ^ 7)) (cfg.nIter.toNat - B) / ε ^ 2 := by
  rcases Nat.eq_zero_or_pos d with hd0 | hd0
  · have := hv.parm
    omega
  have hratio : 0 ≤ cfg.initGpRatio := by
    have h1 := (hinit ⟨0, hd0⟩).1
    have h2 := ha0 ⟨0, hd0⟩
    have h3 := hlo ⟨0, hd0⟩
    by_contra hc
    nlinarith [mul_nonneg (sub_nonneg.2 h3.le) (neg_nonneg.2 (not_le.1 hc).le)]
  obtain ⟨beta, hbeta, hex⟩ := tuned_average_stream m ndim ks lo hi T cfg file hv hu hd hN (fun i => (hlo i).le) hratio data hdata hT k B hkB hBN hw (.inl hl) hB clock root
  have e : cfg.user.initGp cfg.initGpRatio = List.ofFn fun i : Fin d => (hi i - lo i) * cfg.initGpRatio := by
    rw [hu]
    show (List.ofFn fun i => (lo i, hi i)).map _ = _
    rw [List.map_ofFn]
    rfl
  have hR : (jobOf T lo hi ks beta cfg root).Ranges a b := by
    refine ⟨hh, hj, hN, ha, hb, ha0, hab, fun i => ?_, ?_, fun _ => rfl⟩
    · show a i ≤ vec d (cfg.user.initGp cfg.initGpRatio) i ∧ vec d (cfg.user.initGp cfg.initGpRatio) i ≤ b i
      rw [e, vec, List.getElem?_ofFn]
      simp only [i.isLt, dif_pos]
      exact hinit i
    · show (cfg.user.initGp cfg.initGpRatio).length = d
      rw [e, List.length_ofFn]
  have hbmem : ∀ r, beta r ∈ cfg.betas := by
    unfold copyBetas at hbeta
    split at hbeta
    · have := (Except.ok.inj hbeta).symm
      subst this
      exact fun r => List.getElem_mem _
    · cases hbeta
  obtain ⟨law, step, nonneg⟩ := (jobOf T lo hi ks beta cfg root).fixed_ladder_error hv.ranks hfit hlo hv.rand hv.base hv.stack hl k B hkB hBN r (fun x => g (List.ofFn x)) hg (fun _ => g0 _)
    (fun _ => g1 _) hR hb5 (fun r => v (beta r)) fun r => hvar _ (hbmem r)
  have hω := stream_unit fun q => srand48 ℝ (seedOf root (startSeed cfg clock) q)
  exact ⟨beta, hbeta,
    fun w₁ t ht hdone => hex _ (fun _ => rfl) (nonneg _) (step _ hω) w₁ t ht hdone r g, law.1, law.2⟩

end

/-- A run of the egg box model that tunes the widths of its proposals at the ends of its stacks 4 to 8 and then goes on for 11000 iterations. -/
noncomputable def eggboxTuned : Cfg ℝ :=
  { eggboxRun with
    nBegintune := 3000
    nStoptune := 9000
    jumpin := 4
    halfRatio := 2 }

theorem eggboxTuned_valid : Valid 3 eggboxTuned eggboxFile where
  ranks := by norm_num
  ranksInt := by norm_num
  betas := by simp [eggboxTuned, eggboxRun]
  parm := by simp [eggboxTuned, eggboxRun]
  user := eggbox_valid.user
  stack := by simp [eggboxTuned, eggboxRun]
  rand := by simp [eggboxTuned, eggboxRun]
  base := by simp [eggboxTuned, eggboxRun]
  randInt := by simp [eggboxTuned, eggboxRun]
  stackInt := by simp [eggboxTuned, eggboxRun]
  iterInt := .of_sum (by simp [eggboxTuned, eggboxRun])
  mode := by simp [eggboxTuned, eggboxRun]
  inTune := by simp [eggboxTuned, eggboxRun]
  sigmaMin := by simp [eggboxTuned, eggboxRun]
  sigmaMax := by simp [eggboxTuned, eggboxRun]
  cells := ⟨[0], rfl, by simp [eggboxFile], by simp⟩

/-- It does tune: the check at the end of its fourth stack is inside the window. -/
example : inTuneWindow eggboxTuned 4000 = true := by
  show (decide ((3000 : Int) < 4000) && decide ((4000 : Int) < 9000) && decide ((4000 : Int) < 20000)) = true
  decide

/-- The hypotheses of C83 hold for that run: the fraction of rows of the coldest chain, after the tuning, with both parameters below 25. -/
example (clock : Nat) : ∃ beta : Fin 3 → ℝ, copyBetas 3 eggboxTuned.betas = .ok beta ∧
    (∀ (w₁ : List (Label 3)) (t : Sys 3 (Msg ℝ) (Line ℝ) (RSt 3 ℝ)), (initSys eggboxTuned eggboxFile clock 0).exec w₁ = some t → t.AllDone →
      rowAverage 9000 (fun x => if ∀ y ∈ x, y < 25 then 1 else 0) (fileRows 2 (t.log 2)) =
        (jobOf eggboxTarget (fun _ => 0) (fun _ => 50) (fun _ => .unif) beta eggboxTuned 0).estimate 9 9000 2 (fun x => if ∀ y ∈ List.ofFn x, y < 25 then 1 else 0) fun q =>
          streamOf (srand48 ℝ (seedOf 0 (startSeed eggboxTuned clock) q))) ∧
    0 < (gain (fun _ => 0) (fun _ => 50) (fun (_ : Fin 3) (_ : Fin 2) => (1 : ℝ).toNNReal) fun r => 2 * beta r).toReal ∧
    ∀ ε : ℝ, 0 < ε → (unifStreams 3).real {ω | ε ≤ |(jobOf eggboxTarget (fun _ => 0) (fun _ => 50) (fun _ => .unif) beta eggboxTuned 0).estimate 9 9000 2 (fun x => if ∀ y ∈ List.ofFn x, y < 25 then 1 else 0) ω -
        (∫ x : Fin 2 → ℝ, (if ∀ y ∈ List.ofFn x, y < 25 then 1 else 0) ∂(posterior (volume.restrict (openBox (fun _ => 0) fun _ => 50)) (eggboxTarget.lp (beta 2)))) /
          (posterior (volume.restrict (openBox (fun _ => 0) fun _ => 50)) (eggboxTarget.lp (beta 2))).real univ|} ≤
      errorBound (gain (fun _ => 0) (fun _ => 50) (fun (_ : Fin 3) (_ : Fin 2) => (1 : ℝ).toNNReal) fun r => 2 * beta r).toReal ((3 : Nat) * (2 : Nat) * (76 / 10 ^ 7)) 11000 / ε ^ 2 :=
  tuned_widths_average (n := 3) eggbox 1 (fun _ : Fin 2 => .unif) (fun _ => 0) (fun _ => 50) eggboxTarget eggboxTuned eggboxFile eggboxTuned_valid
    (by show eggbox.user _ 1 = _; simp [List.ofFn_succ]) (by simp [eggbox, model2, List.ofFn_succ]) rfl (fun _ => by norm_num) (fun _ => by show (0 : ℝ) ≤ 50; norm_num) [0] rfl
    (fun b x => eggbox_target _ _ _ _ b x) (by simp [eggboxTuned, eggboxRun]) 9 9000 (by simp [eggboxTuned, eggboxRun]) (by simp [eggboxTuned, eggboxRun])
    (fun j hj => by
      have hj : 9 * 1000 < j := hj
      show (decide ((3000 : Int) < j) && decide ((j : Int) < 9000) && decide ((j : Int) < 20000)) = false
      rw [Bool.eq_false_iff]; simp only [ne_eq, Bool.and_eq_true, decide_eq_true_eq]; omega)
    (by simp [eggboxTuned, eggboxRun, demoCfg]) (by simp [eggboxTuned]) (by simp [eggboxTuned]) (fun _ => 1) (fun _ => 10)
    (fun i => by fin_cases i <;> rfl) (fun i => by fin_cases i <;> rfl) (fun _ => one_pos) (fun _ => by simp only [eggboxTuned]; norm_num) (fun _ => by norm_num)
    (fun _ => by simp only [eggboxTuned, eggboxRun]; norm_num) (fun t => 2 * t)
    (fun t ht => eggbox_varies _ _ _ (by
      simp only [eggboxTuned, eggboxRun, List.mem_cons, List.not_mem_nil, or_false] at ht
      rcases ht with h | h | h <;> subst h <;> norm_num))
    clock 0 2 (fun x => if ∀ y ∈ x, y < 25 then 1 else 0)
    (by
      refine Measurable.ite ?_ measurable_const measurable_const
      have : {x : Fin 2 → ℝ | ∀ y ∈ List.ofFn x, y < 25} = ⋂ i, {x | x i < 25} := by
        ext x
        simp [List.mem_ofFn]
      rw [this]
      exact MeasurableSet.iInter fun i => measurableSet_lt (measurable_pi_apply i) measurable_const)
    (fun x => by split <;> norm_num) (fun x => by split <;> norm_num)

end NiiC
