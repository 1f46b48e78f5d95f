import Verif.Model.Older
import Verif.Props.Prior
import Verif.Props.Underflow
import Mathlib.MeasureTheory.Integral.Pi

/-!
# The prior code of models/fit_orbit and models/hier_R: C78, C79
-/

set_option linter.unusedSectionVars false
set_option linter.unusedSimpArgs false

namespace NiiC

open Spec Dbl MeasureTheory

/-! ## C78: fit_orbit -/

/-- The parameters with a log-uniform prior: masses, noise and periods. -/
def orbitLog : List (Fin 15) := [5, 6, 7, 13, 14]

/-- **C78, start points.** For ranges with minimum at most maximum every seed starts in the box. Exact arithmetic. -/
theorem orbit_init (ll : Int → List ℝ → Int → List ℝ → ℝ → ℝ) (b : Fin 15 → ℝ × ℝ) (ndim : Int) (h : ∀ i, (b i).1 ≤ (b i).2) (seed : Nat) :
    InBox (List.ofFn b) (((fitOrbit ll).user (List.ofFn b) ndim).initParm seed).1 := by
  refine init_in_box _ _ _ ?_ seed
  rw [List.forall₂_iff_get]
  refine ⟨by simp [fitOrbit], fun i h1 h2 => ?_⟩
  simp only [fitOrbit, List.get_eq_getElem, List.getElem_replicate, List.getElem_ofFn]
  exact h _

/-- The density of one parameter. -/
noncomputable def orbitDensity (b : Fin 15 → ℝ × ℝ) (i : Fin 15) (x : ℝ) : ℝ := if i ∈ orbitLog then priorLogunif (b i) x else priorUnif (b i)

theorem orbitDensity_pos {b : Fin 15 → ℝ × ℝ} (h : ∀ i, (b i).1 < (b i).2) (h0 : ∀ i ∈ orbitLog, 0 < (b i).1) (i : Fin 15) {x : ℝ} (hx : (b i).1 ≤ x) :
    0 < orbitDensity b i x := by
  unfold orbitDensity
  split_ifs with hi
  · exact priorLogunif_pos _ (h0 i hi) (h i) x ((h0 i hi).trans_le hx)
  · exact priorUnif_pos _ (h i)

theorem orbitPrior_exp {b : Fin 15 → ℝ × ℝ} (h : ∀ i, (b i).1 < (b i).2) (h0 : ∀ i ∈ orbitLog, 0 < (b i).1) (x : Fin 15 → ℝ) (hx : ∀ i, (b i).1 ≤ x i) :
    Real.exp (orbitLogPrior (List.ofFn b) (List.ofFn x)) = ∏ i, orbitDensity b i (x i) := by
  have hp := fun i => orbitDensity_pos h h0 i (hx i)
  have e : orbitLogPrior (List.ofFn b) (List.ofFn x) = ∑ i, Real.log (orbitDensity b i (x i)) := by
    simp only [List.ofFn_succ, List.ofFn_zero, orbitLogPrior, Fin.sum_univ_succ, Finset.univ_eq_empty, Finset.sum_empty, RealArith.add_eq, RealArith.log_eq]
    have hd : ∀ (i : Fin 15) (y : ℝ), orbitDensity b i y = if i ∈ orbitLog then priorLogunif (b i) y else priorUnif (b i) := fun _ _ => rfl
    simp only [hd]
    simp [orbitLog, Fin.succ]
    ring
  rw [e, Real.exp_sum]
  exact Finset.prod_congr rfl fun i _ => Real.exp_log (hp i)

/-- **C78, normalisation.** For ranges `min < max`, positive for masses, noise and periods, the exponential of what `log_prior` returns integrates to one over
the box. -/
theorem orbit_prior (b : Fin 15 → ℝ × ℝ) (h : ∀ i, (b i).1 < (b i).2) (h0 : ∀ i ∈ orbitLog, 0 < (b i).1) :
    ∫ x in Set.univ.pi fun i => Set.Icc (b i).1 (b i).2, Real.exp (orbitLogPrior (List.ofFn b) (List.ofFn x)) = 1 := by
  rw [setIntegral_congr_fun (g := fun x : Fin 15 → ℝ => ∏ i, orbitDensity b i (x i)) (MeasurableSet.univ_pi fun _ => measurableSet_Icc)
    (fun x hx => orbitPrior_exp h h0 x fun i => (Set.mem_univ_pi.1 hx i).1)]
  rw [volume_pi, Measure.restrict_pi_pi, integral_fintype_prod_eq_prod]
  refine Finset.prod_eq_one fun i _ => ?_
  rw [integral_Icc_eq_integral_Ioc, ← intervalIntegral.integral_of_le (h i).le]
  unfold orbitDensity
  split_ifs with hi
  · exact priorLogunif_integral _ (h0 i hi) (h i)
  · exact priorUnif_integral _ (h i)

/-- The ranges of models/fit_orbit/input.ini. -/
noncomputable def orbitSample : Fin 15 → ℝ × ℝ :=
  ![(0, 1), (0, 1 / 2), (0, 360), (0, 360), (0, 360), (1 / 10, 1000), (1 / 10, 10), (1 / 2, 3000), (0, 1), (0, 1 / 2), (0, 360), (0, 360), (0, 360), (1 / 10, 1000),
    (1 / 2, 3000)]

theorem orbitSample_ranges : (∀ i, (orbitSample i).1 < (orbitSample i).2) ∧ ∀ i ∈ orbitLog, 0 < (orbitSample i).1 := by
  constructor
  · intro i
    fin_cases i <;> norm_num [orbitSample]
  · intro i hi
    simp only [orbitLog, List.mem_cons, List.not_mem_nil, or_false] at hi
    rcases hi with rfl | rfl | rfl | rfl | rfl
    · exact (by norm_num : (0 : ℝ) < 1 / 10)
    · exact (by norm_num : (0 : ℝ) < 1 / 10)
    · exact (by norm_num : (0 : ℝ) < 1 / 2)
    · exact (by norm_num : (0 : ℝ) < 1 / 10)
    · exact (by norm_num : (0 : ℝ) < 1 / 2)

/-- The sample configuration meets the hypotheses. -/
example : ∫ x in Set.univ.pi fun i => Set.Icc (orbitSample i).1 (orbitSample i).2, Real.exp (orbitLogPrior (List.ofFn orbitSample) (List.ofFn x)) = 1 :=
  orbit_prior orbitSample orbitSample_ranges.1 orbitSample_ranges.2

/-! ## C79: hier_R, exact arithmetic -/

/-- Ranges with minimum at most maximum. -/
def HierRanges.Fits (h : HierRanges ℝ) : Prop := ∀ b ∈ h.box, b.1 ≤ b.2

/-- **C79, start points.** Every seed starts with six values, of which all but the first lie in their ranges. (The first may not: `hier_start_outside`.) -/
theorem hier_init (h : HierRanges ℝ) (hf : h.Fits) (seed : Nat) : (h.start seed).1.length = 6 ∧ InBox h.box.tail (h.start seed).1.tail := by
  have hb : InBox h.box.tail (initDraws ((List.replicate 5 Draw.unif).zip h.box.tail) (hierGammaInit h.gammaMean h.gammaSd (srand48 ℝ seed)).2).1 := by
    refine initDraws_inBox _ _ _ ?_
    simp only [HierRanges.Fits, HierRanges.box, List.mem_cons, List.not_mem_nil, or_false, forall_eq_or_imp, forall_eq] at hf
    obtain ⟨-, h1, h2, h3, h4, h5⟩ := hf
    exact .cons h1 (.cons h2 (.cons h3 (.cons h4 (.cons h5 .nil))))
  refine ⟨?_, hb⟩
  exact congrArg (· + 1) (initDraws_length ((List.replicate 5 Draw.unif).zip h.box.tail) _)

theorem hier_wf {F : Type} [Arith F] (h : HierRanges F) (ll : List F → Int → List F → F → F) : (h.user ll).Wf 6 where
  boundary x hx := by rw [← hx]; exact paraBoundary_length _ _
  initParm s := by
    exact congrArg (· + 1) (initDraws_length ((List.replicate 5 Draw.unif).zip h.box.tail) _)
  initGp r := by simp [HierRanges.user, initWidths, HierRanges.box]

/-- **C79, saved rows.** In every execution each row of each chain file lies in the box, or is the start point of some seed; in either case all parameters but the
first are in their ranges. -/
theorem hier_saved {n : Nat} (h : HierRanges ℝ) (hf : h.Fits) (ll : List ℝ → Int → List ℝ → ℝ → ℝ) (cfg : Cfg ℝ) (hc : cfg.user = h.user ll)
    (hp : cfg.nParm = 6) (file : DataFile ℝ) (hv : Valid n cfg file) (clock : Nat) (root : Fin n) (w : List (Label n))
    (t : Sys n (Msg ℝ) (Line ℝ) (RSt n ℝ)) (ht : (initSys cfg file clock root).exec w = some t) (r : Fin n) (k : Nat) (a : Row ℝ)
    (ha : a ∈ fileRows k (t.log r)) : (InBox h.box a.x ∨ ∃ s, a.x = (h.start s).1) ∧ InBox h.box.tail a.x.tail := by
  have key : InBox h.box a.x ∨ ∃ s, a.x = (h.start s).1 := by
    refine (saved_in_box cfg file hv clock root (fun x => InBox h.box x ∨ ∃ s, x = (h.start s).1) (fun y hy => ?_) (fun s => ?_) w t ht).1 r k a ha
    · rw [hc]
      exact .inl (paraBoundary_inBox h.box y hf (hy.trans hp))
    · rw [hc]
      exact .inr ⟨s, rfl⟩
  refine ⟨key, ?_⟩
  rcases key with hx | ⟨s, hs⟩
  · generalize a.x = y at hx
    cases hx with
    | cons _ h2 => exact h2
  · rw [hs]
    exact (hier_init h hf s).2

/-- **C79, widths.** The start width of the first parameter is a share of its range, but the tuner is allowed multiples of the standard deviation of its prior: it
lies in the allowed range exactly when `sigma_scale_min * gamma_sd <= (gamma_max - gamma_min) * init_gp_ratio <= sigma_scale_max * gamma_sd`. -/
theorem hier_width (h : HierRanges ℝ) (ll : List ℝ → Int → List ℝ → ℝ → ℝ) (ratio smin smax : ℝ) :
    ∃ w lo hi, ((h.user ll).initGp ratio)[0]? = some w ∧ (h.widthTable smin)[0]? = some lo ∧ (h.widthTable smax)[0]? = some hi ∧
      (lo ≤ w ∧ w ≤ hi ↔ smin * h.gammaSd ≤ (h.gamma.2 - h.gamma.1) * ratio ∧ (h.gamma.2 - h.gamma.1) * ratio ≤ smax * h.gammaSd) :=
  ⟨_, _, _, rfl, rfl, rfl, Iff.rfl⟩

/-- The ranges of models/hier_R/input.ini. -/
noncomputable def hierSample : HierRanges ℝ where
  gammaMean := 3
  gammaSd := 3
  gamma := (-4, 7)
  logC := (-20, 4)
  logLambdaY := (-12, 4)
  logLambdaYobs := (-7, 6)
  logLambdaXobs := (-7, 6)
  gammaLambdaY := (-8, 20)

theorem hierSample_fits : hierSample.Fits := by
  simp only [HierRanges.Fits, HierRanges.box, List.mem_cons, List.not_mem_nil, or_false, forall_eq_or_imp, forall_eq, hierSample]
  norm_num

/-- **C79, the sample configuration starts too wide.** With the numbers of models/hier_R/input.ini the first parameter starts with a width above the largest the
tuner allows. -/
theorem hier_sample_width (ll : List ℝ → Int → List ℝ → ℝ → ℝ) :
    ∃ w hi, ((hierSample.user ll).initGp (1 / 10))[0]? = some w ∧ (hierSample.widthTable (2 / 10))[0]? = some hi ∧ hi < w := by
  refine ⟨_, _, rfl, rfl, ?_⟩
  simp only [RealArith.mul_eq, RealArith.sub_eq, hierSample]
  norm_num

example (seed : Nat) : InBox [(-20, 4), (-12, 4), (-7, 6), (-7, 6), (-8, 20)] (hierSample.start seed).1.tail := (hier_init hierSample hierSample_fits seed).2

/-! ## A target that is nowhere a number -/

section
variable {R : Rounding} {n : Nat}

/-- A log-posterior that is no number: minus infinity or NaN. -/
def Bad (v : Dbl R) : Prop := v = ninf ∨ v = nan

theorem Bad.add_left {a : Dbl R} (h : Bad a) (b : Dbl R) : a +. b = ninf ∨ a +. b = nan := by
  rcases h with rfl | rfl
  · cases b
    · exact .inr rfl
    · exact .inl rfl
    · exact .inr rfl
    · exact .inl rfl
  · exact .inr rfl

theorem Bad.add_right {b : Dbl R} (h : Bad b) (a : Dbl R) : a +. b = ninf ∨ a +. b = nan := by
  rcases h with rfl | rfl
  · cases a
    · exact .inr rfl
    · exact .inl rfl
    · exact .inr rfl
    · exact .inl rfl
  · exact .inr (add_nan a)

theorem Bad.sub {a b : Dbl R} (h : Bad a) (h' : Bad b) : a -. b = nan := by
  rcases h with rfl | rfl <;> rcases h' with rfl | rfl <;> rfl

theorem bad_rejected {a b : Dbl R} (ha : Bad a) (hb : Bad b) (q : Dbl R) (g : Rng) : (mhAccept a b q g).1 = false := by
  unfold mhAccept
  simp [ha.sub hb]

theorem bad_swap_rejected {a b c : Dbl R} (ha : Bad a) (hc : Bad c) (d : Dbl R) (g : Rng) : (swapAccept a b c d g).1 = false := by
  have : (a +. b -. c -. d : Dbl R) = nan := by
    rw [Bad.sub (ha.add_left b) hc, nan_sub]
  unfold swapAccept
  simp [this]

/-- What holds of chain `r` throughout. -/
structure Still (s : Fin n → List (Dbl R)) (w : W n (Dbl R)) : Prop where
  x : ∀ r, w.st.x r = s r
  lp : ∀ r, Bad (w.st.lp r)
  accA : ∀ r, w.st.accA r = 0
  rows : ∀ r : Fin n, ∀ a ∈ fileRows r.val (w.log r), a.x = s r ∧ a.accepted = 0

theorem bad_step (u : User (Dbl R)) {d : Nat} (hu : u.Wf d) (hbad : ∀ nline data b x, x.length = d → Bad (target u nline data b x)) (sigma : List (Dbl R)) (nline : Int) (data : List (Dbl R))
    (beta : Dbl R) (hs : sigma.length = d) (c : Ch (Dbl R)) (hx : c.x.length = d) (hc : Bad c.lp) : (mhStep u sigma nline data beta c).x = c.x ∧ (mhStep u sigma nline data beta c).lp = c.lp ∧
      (mhStep u sigma nline data beta c).accA = c.accA := by
  have e : ∀ new old g, (Spec.accept (F := Dbl R) new old g).1 = (mhAccept new old (ofI 1) g).1 := fun _ _ _ => rfl
  unfold mhStep
  simp only
  rw [if_neg]
  · exact ⟨rfl, rfl, rfl⟩
  · rw [e, bad_rejected (hbad _ _ _ _ (hu.boundary _ (by rw [propose_length _ _ _ (hx.trans hs.symm), hx]))) hc]
    simp

theorem Still.step {cfg : Cfg (Dbl R)} (hu : cfg.user.Wf cfg.nParm) (hbad : ∀ nline data b x, x.length = cfg.nParm → Bad (target cfg.user nline data b x)) {root : Fin n}
    {x : Fin n → List (Dbl R)} {w w' : W n (Dbl R)} (h : Step cfg root w w') (hok : w.st.Ok cfg) (hl : Still x w) : Still x w' := by
  cases h with
  | widths => exact ⟨hl.x, hl.lp, hl.accA, fun r a ha => hl.rows r a (fileRows_sub ha rfl)⟩
  | betas =>
    refine ⟨hl.x, hl.lp, hl.accA, fun r a ha => hl.rows r a (fileRows_sub ha ?_)⟩
    split <;> rfl
  | draw nStack i b h => exact ⟨hl.x, hl.lp, hl.accA, hl.rows⟩
  | batch _ nb h =>
    obtain ⟨hc, _, _⟩ := seqBatch_chain hu h hok
    have hstep : ∀ (r : Fin n) (c : Ch (Dbl R)), c.x = x r ∧ Bad c.lp ∧ c.accA = 0 →
        (mhStep cfg.user (w.st.cur r) w.st.nline w.st.data (w.st.beta r) c).x = x r ∧
        Bad (mhStep cfg.user (w.st.cur r) w.st.nline w.st.data (w.st.beta r) c).lp ∧
        (mhStep cfg.user (w.st.cur r) w.st.nline w.st.data (w.st.beta r) c).accA = 0 := by
      intro r c hc
      obtain ⟨h1, h2, h3⟩ := bad_step cfg.user hu hbad (w.st.cur r) w.st.nline w.st.data (w.st.beta r) (hok.cur r) c
        (by rw [hc.1, ← hl.x r]; exact hok.x r) hc.2.1
      rw [h1, h2, h3]
      exact hc
    have h0 : ∀ r, (w.st.ch r).x = x r ∧ Bad (w.st.ch r).lp ∧ (w.st.ch r).accA = 0 := fun r => ⟨hl.x r, hl.lp r, hl.accA r⟩
    have hi := fun r => mhIter_inv (P := fun c => c.x = x r ∧ Bad c.lp ∧ c.accA = 0) _ _ _ _ _ (hstep r) nb.toNat _ (h0 r)
    refine ⟨fun r => ?_, fun r => ?_, fun r => ?_, fun r a ha => ?_⟩
    · rw [show w'.st.x r = _ from congrArg Ch.x (hc r).2.1]
      exact (hi r).1
    · rw [show w'.st.lp r = _ from congrArg Ch.lp (hc r).2.1]
      exact (hi r).2.1
    · rw [show w'.st.accA r = _ from congrArg Ch.accA (hc r).2.1]
      exact (hi r).2.2
    · rw [(hc r).2.2, fileRows_append, fileRows_note] at ha
      rcases List.mem_append.1 ha with ha | ha
      · exact hl.rows r a ha
      · split at ha
        · obtain ⟨c, hcm, rfl⟩ := fileRows_lines_mem ha
          have := mhRun_inv (P := fun c => c.x = x r ∧ Bad c.lp ∧ c.accA = 0) _ _ _ _ _ (hstep r) nb.toNat _ (h0 r) c hcm
          exact ⟨this.1, this.2.2⟩
        · simp [fileRows] at ha
  | swap _ ty ty' h =>
    have hlog := seqSwap_log cfg root w w' ty ty' h
    simp only [seqSwap, exc_bind, Except.ok.injEq, Prod.mk.injEq] at h
    obtain ⟨i, hi, j, hj, rfl, rfl⟩ := h
    have hr := bad_swap_rejected (a := logPost cfg (w.st.x i) w.st.nline w.st.data (w.st.beta j))
      (b := logPost cfg (w.st.x j) w.st.nline w.st.data (w.st.beta i)) (hbad _ _ _ _ (hok.x i)) (hl.lp i) (w.st.lp j)
      (pickJ (Dbl R) n cfg.swapmode (i4Unif0a (Dbl R) ((n : Int) - 1) (w.st.g root)).1 (i4Unif0a (Dbl R) ((n : Int) - 1) (w.st.g root)).2).2
    refine ⟨fun r => ?_, fun r => ?_, hl.accA, fun r a ha => ?_⟩
    · simp only [W.push, hr]
      exact hl.x r
    · simp only [W.push, hr]
      exact hl.lp r
    · rw [hlog] at ha
      exact hl.rows r a (fileRows_sub ha rfl)
  | ladder ty h h' => exact ⟨hl.x, hl.lp, hl.accA, fun r a ha => hl.rows r a (fileRows_sub ha rfl)⟩
  | tune _ rk h =>
    obtain ⟨⟨sg, hst⟩, hlog, _⟩ := seqTuneRank_frame h
    exact ⟨by rw [hst]; exact hl.x, by rw [hst]; exact hl.lp, by rw [hst]; exact hl.accA, by rw [hlog]; exact hl.rows⟩

/-- **C79, no number, no move.** If the log-posterior is minus infinity or NaN at every vector of the right length (any mixture), then in every execution no proposal and no swap is ever
accepted: every row of the file of each chain is the start point of its rank, with no accepted proposals, and so are the chains when all ranks have finished. -/
theorem bad_stands_still (cfg : Cfg (Dbl R)) (file : DataFile (Dbl R)) (hv : Valid n cfg file) (hbad : ∀ nline data b x, x.length = cfg.nParm → Bad (target cfg.user nline data b x))
    (clock : Nat) (root : Fin n) (w : List (Label n)) (t : Sys n (Msg (Dbl R)) (Line (Dbl R)) (RSt n (Dbl R)))
    (h : (initSys cfg file clock root).exec w = some t) :
    (∀ (r : Fin n) (a : Row (Dbl R)), a ∈ fileRows r.val (t.log r) →
      a.x = (cfg.user.initParm (seedOf root (startSeed cfg clock) r)).1 ∧ a.accepted = 0) ∧
    (t.AllDone → ∃ s tab, t.procs root = .ret s ∧ s.tab = some tab ∧
      ∀ r, tab.x r = (cfg.user.initParm (seedOf root (startSeed cfg clock) r)).1) := by
  obtain ⟨wf, hw, hall⟩ := log_prefix cfg file hv clock root
  obtain ⟨w0, hi, hs⟩ := seqMain_steps cfg file clock root wf hw
  have hI : Still (fun r => (cfg.user.initParm (seedOf root (startSeed cfg clock) r)).1) w0 := by
    have hrow := fun r => seqInit_row hi r
    have hi' := hi
    simp only [seqInit, exc_bind, Except.ok.injEq] at hi'
    obtain ⟨_, _, data, hd, _, _, _, _, _, _, beta, hb, rfl⟩ := hi'
    refine ⟨fun r => rfl, fun r => hbad _ _ _ _ (hv.user.initParm _), fun r => rfl, fun r a ha => ?_⟩
    rw [hrow] at ha
    rw [List.mem_singleton.1 ha]
    exact ⟨rfl, rfl⟩
  have hf := (hs.inv (P := fun w => w.st.Ok cfg ∧ Still _ w) (fun _ _ hp h => ⟨h.ok hv.user hp.1, hp.2.step hv.user hbad h hp.1⟩)
    ⟨seqInit_ok hv.user hi, hI⟩).2
  refine ⟨fun r a ha => hf.rows r a ((fileRows_prefix ((hall w t h).1 r)).subset ha), fun hd => ?_⟩
  rw [(hall w t h).2 hd]
  refine ⟨view root wf.st root, wf.st.tab, rfl, ?_, fun r => hf.x r⟩
  simp [view]

end

/-! ## C79: hier_R in doubles -/

theorem rnd_huge {x : ℝ} (h : 2 ^ 1024 ≤ x) : Binary64.rnd x = .pinf := by
  have h1 : Binary64.round53 (2 ^ 1024) = 2 ^ 1024 := by
    have := Binary64.round53_repr 1 1024 (by norm_num) (by norm_num)
    rw [Int.cast_one, one_mul] at this
    rwa [show (2 : ℝ) ^ (1024 : Int) = 2 ^ 1024 from zpow_natCast 2 1024] at this
  have h2 := Binary64.round53_mono h
  rw [h1] at h2
  exact if_pos h2

/-- **C79, overflow.** If the upper range of the logarithm of an error scale of models/hier_R is at least 7 and the lower at most 6, the logarithm of its prior is
minus infinity or NaN for every argument. -/
theorem hier_lambda_bad (lo hi : ℝ) (hlo : lo ≤ 6) (hhi : 7 ≤ hi) (v : Double) :
    Bad (Arith.log (hierLambdaPrior (fin lo) (fin hi) (Arith.exp v)) : Double) := by
  have e1 := Real.exp_one_gt_d9
  have e2 := Real.exp_one_lt_d9
  -- the inner exponentials
  have hl : ∃ y, (Arith.exp (fin lo) : Double) = fin y ∧ 0 ≤ y ∧ y ≤ 512 := by
    rw [exp_double]
    have h6 : Real.exp lo ≤ 512 := by
      calc Real.exp lo ≤ Real.exp ((6 : ℕ) * 1) := by gcongr; norm_num; exact hlo
        _ = Real.exp 1 ^ 6 := by rw [Real.exp_nat_mul]
        _ ≤ 2.72 ^ 6 := by gcongr; linarith
        _ ≤ 512 := by norm_num
    have h5 : Binary64.rnd 512 = .fin 512 := by simpa using Binary64.rnd_repr 512 0 (by norm_num) (by norm_num) (by norm_num)
    exact rnd_between (R := Rounding.binary64) (Real.exp_pos lo).le h6 rnd_zero h5
  have hh : (Arith.exp (Arith.exp (fin hi)) : Double) = pinf := by
    have h7 : 1024 ≤ Real.exp hi := by
      calc (1024 : ℝ) ≤ 2.7 ^ 7 := by norm_num
        _ ≤ Real.exp 1 ^ 7 := by gcongr; linarith
        _ = Real.exp ((7 : ℕ) * 1) := by rw [Real.exp_nat_mul]
        _ ≤ Real.exp hi := by gcongr; norm_num; exact hhi
    have h10 : Binary64.rnd 1024 = .fin 1024 := by simpa using Binary64.rnd_repr 1024 0 (by norm_num) (by norm_num) (by norm_num)
    have hm := Binary64.rnd_mono h7
    rw [h10] at hm
    rw [exp_double]
    cases hr : Binary64.rnd (Real.exp hi) with
    | nan => exact absurd hr (Binary64.rnd_ne_nan _)
    | ninf => rw [hr] at hm; exact absurd hm id
    | pinf => exact Rounding.binary64.exp_pinf
    | fin y =>
      rw [hr] at hm
      have hy : (1024 : ℝ) ≤ y := hm
      show Binary64.rnd (Real.exp y) = _
      refine rnd_huge ?_
      calc (2 : ℝ) ^ 1024 ≤ Real.exp 1 ^ 1024 := by gcongr; linarith
        _ = Real.exp ((1024 : ℕ) * 1) := by rw [Real.exp_nat_mul]
        _ ≤ Real.exp y := by gcongr; norm_num; exact hy
  obtain ⟨y, hy, y0, y1⟩ := hl
  have hz : ∃ z, (Arith.exp (fin y) : Double) = fin z ∧ 1 ≤ z := by
    rw [exp_double]
    have h1 : Real.exp y ≤ 2 ^ 1000 := by
      calc Real.exp y ≤ Real.exp ((512 : ℕ) * 1) := by gcongr; norm_num; exact y1
        _ = Real.exp 1 ^ 512 := by rw [Real.exp_nat_mul]
        _ ≤ (2 ^ (3 / 2 : ℝ)) ^ 512 := by
          gcongr
          have h3 : (2 : ℝ) ^ (3 / 2 : ℝ) = Real.exp (Real.log 2 * (3 / 2)) := Real.rpow_def_of_pos (by norm_num) _
          rw [h3]
          gcongr
          have := Real.log_two_gt_d9
          linarith
        _ = 2 ^ 768 := by rw [← Real.rpow_natCast, ← Real.rpow_mul (by norm_num), ← Real.rpow_natCast]; norm_num
        _ ≤ 2 ^ 1000 := pow_le_pow_right₀ (by norm_num) (by norm_num)
    have h2 : Binary64.rnd (2 ^ 1000) = .fin (2 ^ 1000) := by
      have := Binary64.rnd_repr (2 ^ 40) 960 (by norm_num) (by norm_num) (by norm_num)
      rw [show (((2 : Int) ^ 40 : Int) : ℝ) * 2 ^ (960 : Int) = 2 ^ 1000 by
        rw [show (2 : ℝ) ^ (960 : Int) = 2 ^ 960 from zpow_natCast 2 960, Int.cast_pow, Int.cast_ofNat, ← pow_add]] at this
      exact this
    obtain ⟨z, hz, z1, -⟩ := rnd_between (R := Rounding.binary64) (Real.one_le_exp y0) h1 rnd_one h2
    exact ⟨z, hz, z1⟩
  obtain ⟨z, hz, z1⟩ := hz
  have hq : (Arith.log (Arith.exp (Arith.exp (fin hi)) /. Arith.exp (Arith.exp (fin lo))) : Double) = pinf := by
    rw [hh, hy, hz]
    have : (pinf /. fin z : Double) = pinf := by
      show (if z = 0 then XV.pinf else infSign z) = XV.pinf
      rw [if_neg (by linarith)]
      exact if_pos (by linarith)
    rw [this]
    exact Rounding.binary64.log_pinf
  have hone : (ofI 1 : Double) = fin 1 := by simpa using ofI_int (R := Rounding.binary64) 1 (by norm_num)
  show Bad (Arith.log (ofI 1 /. (Arith.sqrt (Arith.fabs (Arith.exp v)) *. Arith.log (Arith.exp (Arith.exp (fin hi)) /. Arith.exp (Arith.exp (fin lo))))) : Double)
  rw [hq, hone]
  generalize (Arith.sqrt (Arith.fabs (Arith.exp v)) : Double) = s
  have hm : (s *. pinf : Double) = nan ∨ (s *. pinf : Double) = pinf ∨ (s *. pinf : Double) = ninf := by
    cases s with
    | nan => exact .inl rfl
    | ninf => exact .inr (.inr rfl)
    | pinf => exact .inr (.inl rfl)
    | fin a =>
      show infSign a = XV.nan ∨ infSign a = XV.pinf ∨ infSign a = XV.ninf
      unfold infSign
      split_ifs <;> simp
  rcases hm with hm | hm | hm
  · rw [hm, div_nan, log_nan]
    exact .inr rfl
  · rw [hm]
    exact .inl Rounding.binary64.log_zero
  · rw [hm]
    exact .inl Rounding.binary64.log_zero

/-- **C79, the prior is zero everywhere.** In doubles: if the range of the logarithm of any of the three error scales reaches up to 7 or more, and down to 6 or less,
the log-posterior is minus infinity or NaN at every point, whatever the likelihood. -/
theorem hier_target_bad (h : HierRanges Double) (ll : List Double → Int → List Double → Double → Double) (lo hi : ℝ) (hlo : lo ≤ 6) (hhi : 7 ≤ hi)
    (hb : h.logLambdaY = (fin lo, fin hi) ∨ h.logLambdaYobs = (fin lo, fin hi) ∨ h.logLambdaXobs = (fin lo, fin hi)) (nline : Int) (data : List Double)
    (b : Double) (x : List Double) (hx : x.length = 6) : Bad (target (h.user ll) nline data b x) := by
  refine Bad.add_right ?_ _
  match x, hx with
  | [gam, c, ly, lyo, lxo, gl], _ =>
    show Bad (_ +. _ +. _ +. _ +. _ +. _)
    rcases hb with hb | hb | hb
    · rw [hb]
      exact Bad.add_left (Bad.add_left (Bad.add_left (Bad.add_right (hier_lambda_bad lo hi hlo hhi ly) _) _) _) _
    · rw [hb]
      exact Bad.add_left (Bad.add_left (Bad.add_right (hier_lambda_bad lo hi hlo hhi lyo) _) _) _
    · rw [hb]
      exact Bad.add_left (Bad.add_right (hier_lambda_bad lo hi hlo hhi lxo) _) _

/-- **C79, consequence.** With such a range, in every execution of the program with models/hier_R in doubles no chain ever leaves its start point. -/
theorem hier_never_moves {n : Nat} (h : HierRanges Double) (ll : List Double → Int → List Double → Double → Double) (lo hi : ℝ) (hlo : lo ≤ 6) (hhi : 7 ≤ hi)
    (hb : h.logLambdaY = (fin lo, fin hi) ∨ h.logLambdaYobs = (fin lo, fin hi) ∨ h.logLambdaXobs = (fin lo, fin hi)) (cfg : Cfg Double)
    (hc : cfg.user = h.user ll) (hp : cfg.nParm = 6) (file : DataFile Double) (hv : Valid n cfg file) (clock : Nat) (root : Fin n) (w : List (Label n))
    (t : Sys n (Msg Double) (Line Double) (RSt n Double)) (ht : (initSys cfg file clock root).exec w = some t) (r : Fin n) (a : Row Double)
    (ha : a ∈ fileRows r.val (t.log r)) : a.x = (h.start (seedOf root (startSeed cfg clock) r)).1 ∧ a.accepted = 0 := by
  have := (bad_stands_still cfg file hv (fun nline data b x hx => by rw [hc]; exact hier_target_bad h ll lo hi hlo hhi hb nline data b x (hx.trans hp))
    clock root w t ht).1 r a ha
  rwa [hc] at this

/-- The ranges of models/hier_R/input.ini in doubles, with 7 in place of 6 as the maximum of `log_lambda_Yobs`. -/
noncomputable def hierWide : HierRanges Double where
  gammaMean := fin 3
  gammaSd := fin 3
  gamma := (fin (-4), fin 7)
  logC := (fin (-20), fin 4)
  logLambdaY := (fin (-12), fin 4)
  logLambdaYobs := (fin (-7), fin 7)
  logLambdaXobs := (fin (-7), fin 6)
  gammaLambdaY := (fin (-8), fin 20)

/-- A run with them on three ranks. -/
noncomputable def hierWideCfg (ll : List Double → Int → List Double → Double → Double) : Cfg Double where
  nParm := 6
  nIter := 1000
  nStack := 300
  base := 50
  rand := 10
  nSwap := 2
  swapmode := 0
  nBegintune := 200
  nStoptune := 950
  tuneLadder := 1
  nStopTuneLadder := 700
  nIterInTune := 100
  saveBegin := 500
  initSeed := 20
  arLower := fin (1 / 10)
  arUpper := fin (6 / 10)
  arBest := fin (23 / 100)
  arAcceptDiff := fin (1 / 10)
  halfRatio := fin 10
  jumpin := fin 10
  initGpRatio := fin (1 / 10)
  scaleLadder := fin (9 / 10)
  zeroStretch := fin (3 / 10)
  betas := [fin (1 / 10), fin (1 / 2), fin 1]
  sigmaMin := hierWide.widthTable (fin (5 / 100000))
  sigmaMax := hierWide.widthTable (fin (2 / 10))
  user := hierWide.user ll

theorem hierWide_valid (ll : List Double → Int → List Double → Double → Double) : Valid 3 (hierWideCfg ll) { nlines := 0, ndim := 1, cells := .ok [] } where
  ranks := by decide
  ranksInt := by decide
  betas := Nat.le_refl 3
  parm := by simp [hierWideCfg]
  user := hier_wf hierWide ll
  stack := by simp [hierWideCfg]
  rand := by simp [hierWideCfg]
  base := by simp [hierWideCfg]
  randInt := by simp [hierWideCfg]
  stackInt := by simp [hierWideCfg]
  iterInt := .of_sum (by simp [hierWideCfg])
  mode := by simp [hierWideCfg]
  inTune := by simp [hierWideCfg]
  sigmaMin := Nat.le_refl 6
  sigmaMax := Nat.le_refl 6
  cells := ⟨[], rfl, by simp, by simp⟩

/-- The theorem applies to it: a thousand iterations, and the file of rank 1 repeats its start point. -/
example (ll : List Double → Int → List Double → Double → Double) (w : List (Label 3)) (t : Sys 3 (Msg Double) (Line Double) (RSt 3 Double))
    (ht : (initSys (hierWideCfg ll) { nlines := 0, ndim := 1, cells := .ok [] } 7 0).exec w = some t) (a : Row Double) (ha : a ∈ fileRows 1 (t.log 1)) :
    a.x = (hierWide.start 21).1 ∧ a.accepted = 0 :=
  hier_never_moves hierWide ll (-7) 7 (by norm_num) le_rfl (.inr (.inl rfl)) (hierWideCfg ll) rfl rfl _ (hierWide_valid ll) 7 0 w t ht 1 a ha

/-- Start points of the orbit model in the ranges of its sample input. -/
example (ll : Int → List ℝ → Int → List ℝ → ℝ → ℝ) (seed : Nat) : InBox (List.ofFn orbitSample) (((fitOrbit ll).user (List.ofFn orbitSample) 5).initParm seed).1 :=
  orbit_init ll orbitSample 5 (fun i => (orbitSample_ranges.1 i).le) seed

/-- The demo with the hierarchical model. -/
example (ll : List ℝ → Int → List ℝ → ℝ → ℝ) (w : List (Label 3)) (t : Sys 3 (Msg ℝ) (Line ℝ) (RSt 3 ℝ))
    (ht : (initSys { demoCfg with nParm := 6, sigmaMin := hierSample.widthTable (1 / 1000), sigmaMax := hierSample.widthTable (2 / 10), user := hierSample.user ll }
      demoFile 7 0).exec w = some t) (a : Row ℝ) (ha : a ∈ fileRows 1 (t.log 1)) : InBox [(-20, 4), (-12, 4), (-7, 6), (-7, 6), (-8, 20)] a.x.tail := by
  have hv : Valid 3 { demoCfg with nParm := 6, sigmaMin := hierSample.widthTable (1 / 1000), sigmaMax := hierSample.widthTable (2 / 10), user := hierSample.user ll }
      demoFile :=
    { demo_valid with parm := by simp, user := hier_wf hierSample ll, sigmaMin := Nat.le_refl 6, sigmaMax := Nat.le_refl 6 }
  exact (hier_saved hierSample hierSample_fits ll _ rfl rfl demoFile hv 7 0 w t ht 1 1 a ha).2

/-- With the ratio 0.05 the width of the sample is inside its limits. -/
example (ll : List ℝ → Int → List ℝ → ℝ → ℝ) : ∃ w lo hi, ((hierSample.user ll).initGp (1 / 20))[0]? = some w ∧ (hierSample.widthTable (1 / 1000))[0]? = some lo ∧
    (hierSample.widthTable (2 / 10))[0]? = some hi ∧ lo ≤ w ∧ w ≤ hi := by
  obtain ⟨w, lo, hi, h1, h2, h3, h4⟩ := hier_width hierSample ll (1 / 20) (1 / 1000) (2 / 10)
  exact ⟨w, lo, hi, h1, h2, h3, h4.2 (by norm_num [hierSample])⟩

end NiiC
