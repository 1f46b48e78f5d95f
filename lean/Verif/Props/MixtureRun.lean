import Verif.Props.Ideal
import Verif.Props.Mixture

/-!
# The rows of a run of multi_gaussian: C100

Five ranks, the ranges and the initial widths of the sample input, nothing tuned. The numbers of `Props.Mixing` for the model multi_gaussian.
-/

set_option linter.unusedSimpArgs false

namespace NiiC

open MeasureTheory ProbabilityTheory Set ENNReal NNReal

/-- The run of the model on the ranges of its sample input. -/
noncomputable def multiSetting (ratio : ℝ) (beta : Fin 5 → ℝ) : Setting 5 2 := settingOf multiTarget (fun _ => -30) (fun _ => 30) ratio beta

theorem exp_variation : 36 / 100 ≤ Real.exp (-(101 / 100)) := by
  have e3 : Real.exp (1 / 100 : ℝ) ≤ 100 / 99 := by
    have := Real.add_one_le_exp (-(1 / 100) : ℝ)
    rw [Real.exp_neg] at this
    rw [le_inv_comm₀ (by norm_num) (Real.exp_pos _)] at this
    exact this.trans (by norm_num)
  have e2 : Real.exp (101 / 100 : ℝ) = Real.exp 1 * Real.exp (1 / 100) := by rw [← Real.exp_add]; norm_num
  have e4 := Real.exp_one_lt_d9
  have h : Real.exp (101 / 100 : ℝ) ≤ 100 / 36 := by
    rw [e2]
    calc _ ≤ (2.7182818286 : ℝ) * (100 / 99) := mul_le_mul e4.le e3 (Real.exp_pos _).le (by norm_num)
      _ ≤ _ := by norm_num
  rw [Real.exp_neg, show (36 / 100 : ℝ) = (100 / 36)⁻¹ by norm_num]
  exact inv_anti₀ (Real.exp_pos _) h

theorem multi_mixes (beta : Fin 5 → ℝ) (h0 : ∀ r, 0 ≤ beta r) (h1 : ∀ r, beta r ≤ 1) :
    (multiSetting (1 / 10) beta).Proper (fun r => 101 / 100 * beta r) ∧ (multiSetting (1 / 10) beta).Mixes (fun r => 101 / 100 * beta r) (1 / 2000) (1 / 200) (62 * 10 ^ 9) ∧
      ∑ r, ∑ i, ((tail ((multiSetting (1 / 10) beta).lo i) ((multiSetting (1 / 10) beta).hi i) ((multiSetting (1 / 10) beta).s r i)).toReal + 1 / 10 ^ 16) ≤ 2 / 10 ^ 15 := by
  set S := multiSetting (1 / 10) beta with hS
  have hlo : ∀ i, S.lo i = -30 := fun _ => rfl
  have hhi : ∀ i, S.hi i = 30 := fun _ => rfl
  have hwid : ∀ r i, (S.s r i : ℝ) = 6 := fun r i => by
    show ((((30 : ℝ) - -30) * (1 / 10)).toNNReal : ℝ) = _
    rw [Real.coe_toNNReal _ (by norm_num)]; norm_num
  have hne : ∀ r i, S.s r i ≠ 0 := fun r i h => by
    have := hwid r i
    rw [h, NNReal.coe_zero] at this
    norm_num at this
  have ht : ∀ r i, (tail (S.lo i) (S.hi i) (S.s r i)).toReal ≤ 2 / 10 ^ 20 := fun r i =>
    tail_tenth _ _ (by rw [hlo, hhi]; norm_num) _ (hne r i) (by rw [hwid, hlo, hhi]; norm_num)
  obtain ⟨-, b2, -⟩ := exp_bounds
  have hexp : ∀ r, 36 / 100 ≤ Real.exp (-(101 / 100 * beta r)) := fun r => exp_variation.trans (Real.exp_le_exp.2 (by linarith [h1 r]))
  refine ⟨⟨fun i => by rw [hlo, hhi]; norm_num, hne, fun r => multi_varies _ _ _ (h0 r)⟩, ⟨fun r i => by rw [hwid, hlo, hhi]; norm_num, by norm_num, by norm_num, fun r i => ?_, by norm_num,
    by norm_num, ?_, ?_⟩, ?_⟩
  · have hc : ⌈((30 : ℝ) - -30) / (2 * 6)⌉₊ = 5 := by
      rw [show ((30 : ℝ) - -30) / (2 * 6) = ((5 : Nat) : ℝ) by norm_num, Nat.ceil_natCast]
    rw [gap, hwid, hlo, hhi, hc]
    have hpi := Real.pi_lt_d2
    have hpp := Real.pi_pos
    have g1 : (2 / 7) / (4 * 3.15) ≤ Real.exp (-5 / 4) / (4 * Real.pi) := by
      refine div_le_div₀ (Real.exp_pos _).le b2 (by positivity) (by linarith)
    have g2 : 36 / 100 * ((2 / 7) / (4 * 3.15)) ≤ Real.exp (-(101 / 100 * beta r)) * (Real.exp (-5 / 4) / (4 * Real.pi)) :=
      mul_le_mul (hexp r) g1 (by norm_num) (Real.exp_pos _).le
    have e : Real.exp (-(101 / 100 * beta r)) * (Real.exp (-5 / 4) / (4 * Real.pi) * ((30 - -30) / 6) / ((5 : Nat) : ℝ) ^ 3) =
        Real.exp (-(101 / 100 * beta r)) * (Real.exp (-5 / 4) / (4 * Real.pi)) * (2 / 25) := by push_cast; ring
    rw [e]
    refine le_trans ?_ (mul_le_mul_of_nonneg_right g2 (by norm_num))
    norm_num
  · have hm : ∀ r, (36 / 100 * (99 / 100) : ℝ) ≤ moveRate S.lo S.hi (S.s r) (101 / 100 * beta r) := fun r => by
      rw [moveRate]
      refine mul_le_mul (hexp r) ?_ (by norm_num) (Real.exp_pos _).le
      rw [Fin.prod_univ_two]
      have t0 := ht r 0
      have t1 := ht r 1
      have : (999 / 1000 : ℝ) * (999 / 1000) ≤ (1 - (tail (S.lo 0) (S.hi 0) (S.s r 0)).toReal) * (1 - (tail (S.lo 1) (S.hi 1) (S.s r 1)).toReal) :=
        mul_le_mul (by linarith) (by linarith) (by norm_num) (by linarith)
      linarith
    calc (1 / 200 : ℝ) ≤ ∏ r : Fin 5, (36 / 100 * (99 / 100) : ℝ) := by rw [Finset.prod_const, Finset.card_univ, Fintype.card_fin]; norm_num
      _ ≤ _ := Finset.prod_le_prod (fun _ _ => by norm_num) fun r _ => hm r
  · have hq : (5 / 2 : ℝ) ≤ Real.sqrt (2 * Real.pi) := Real.le_sqrt_of_sq_le (by linarith [Real.pi_gt_d2])
    have hc : ∀ r i, crowd1 (S.lo i) (S.hi i) (S.s r i) ≤ 12 := fun r i => by
      rw [crowd1, hwid, hlo, hhi, div_le_iff₀ (by positivity)]
      linarith
    have hc0 : ∀ r i, 0 ≤ crowd1 (S.lo i) (S.hi i) (S.s r i) := fun r i => by
      rw [crowd1, hwid, hlo, hhi]
      have : (0 : ℝ) ≤ 30 - -30 := by norm_num
      positivity
    calc _ ≤ ∏ r : Fin 5, (144 : ℝ) := Finset.prod_le_prod (fun r _ => Finset.prod_nonneg fun i _ => hc0 r i) fun r _ => by
          show ∏ i, crowd1 (S.lo i) (S.hi i) (S.s r i) ≤ 144
          rw [Fin.prod_univ_two]
          calc _ ≤ (12 : ℝ) * 12 := mul_le_mul (hc r 0) (hc r 1) (hc0 r 1) (by norm_num)
            _ = 144 := by norm_num
      _ ≤ _ := by rw [Finset.prod_const, Finset.card_univ, Fintype.card_fin]; norm_num
  · calc _ ≤ ∑ r : Fin 5, ∑ i : Fin 2, ((2 : ℝ) / 10 ^ 20 + 1 / 10 ^ 16) := Finset.sum_le_sum fun r _ => Finset.sum_le_sum fun i _ => by linarith [ht r i]
      _ ≤ _ := by norm_num

theorem multi_mixError (N M : Nat) (hM : 200000 ≤ M) (hN : N ≤ 10 ^ 9) (e : ℝ) (he : e ≤ 2 / 10 ^ 15) : mixError e (1 / 2000) (1 / 200) (62 * 10 ^ 9) N M 2000 ≤ 1 / 10 ^ 4 := by
  obtain ⟨-, -, -, b4, b5⟩ := exp_bounds
  have h1 : (N : ℝ) * e ≤ 2 / 10 ^ 6 := by
    have : (N : ℝ) ≤ 10 ^ 9 := by exact_mod_cast hN
    have hN0 : (0 : ℝ) ≤ N := Nat.cast_nonneg N
    nlinarith
  obtain ⟨j, hj⟩ : ∃ j : Nat, j = 2000 := ⟨_, rfl⟩
  rw [← hj]
  have h2 : (1 - 1 / 200 : ℝ) ^ j ≤ 5 / 10 ^ 5 := by
    refine (pow_sub_le (by norm_num) j).trans (le_trans (Real.exp_le_exp.2 ?_) b4)
    have : (j : ℝ) = 2000 := by rw [hj]; norm_num
    rw [this]
    norm_num
  have h3 : Real.sqrt (1 - 1 / 2000) ^ (M - j) ≤ 1 / 10 ^ 20 := by
    have hs : Real.sqrt (1 - 1 / 2000) ≤ 1 - 1 / 4000 := by
      rw [Real.sqrt_le_iff]
      constructor <;> norm_num
    refine (pow_le_pow_left₀ (Real.sqrt_nonneg _) hs _).trans ((pow_sub_le (by norm_num) _).trans (le_trans (Real.exp_le_exp.2 ?_) b5))
    have : ((196000 : Nat) : ℝ) ≤ (M - j : Nat) := by exact_mod_cast (by omega : 196000 ≤ M - j)
    push_cast at this ⊢
    linarith
  rw [mixError]
  generalize (1 - 1 / 200 : ℝ) ^ j = y at h2
  generalize Real.sqrt (1 - 1 / 2000) ^ (M - j) = z at h3
  linarith

/-- The parameters of a row are within 4 of one of the peaks. -/
def Spec.NearPeak (x : List ℝ) : Prop := (∀ y ∈ x, 6 ≤ y ∧ y ≤ 14) ∨ ∀ y ∈ x, -14 ≤ y ∧ y ≤ -6

theorem nearPeak_ofFn (x : Fin 2 → ℝ) : Spec.NearPeak (List.ofFn x) ↔ x ∈ peaks := by
  simp only [Spec.NearPeak, peaks, List.forall_mem_ofFn_iff, mem_union, mem_pi, mem_univ, true_imp_iff, mem_Icc]

open Classical in
theorem measurable_nearPeak : Measurable fun x : Fin 2 → ℝ => if Spec.NearPeak (List.ofFn x) then (1 : ℝ) else 0 := by
  simp only [nearPeak_ofFn]
  exact Measurable.ite measurableSet_peaks measurable_const measurable_const

open Classical in
theorem integral_nearPeak (μ : Measure (Fin 2 → ℝ)) : ∫ x, (if Spec.NearPeak (List.ofFn x) then (1 : ℝ) else 0) ∂μ = μ.real peaks := by
  simp only [nearPeak_ofFn]
  rw [← integral_indicator_one measurableSet_peaks]
  rfl

open Classical in
/-- **C100, a whole run.** Five ranks, the ranges and initial widths of the sample input, inverse temperatures up to 1, nothing tuned, at least two hundred thousand iterations left
out. In every finished execution the share of the `K` remaining rows of a chain file that are near a peak is the one computed from the streams of numbers, and for independent
uniform streams it is a tenth plus `ε` or more with a probability of at most `2000 / (K * ε ^ 2) + 1 / 10 ^ 4`. The mixture has 99 hundredths there (`mixture_peaks`). -/
theorem multi_rows [Source ℝ] [UnitDraws] (cfg : Cfg ℝ) (file : DataFile ℝ) (hv : Valid 5 cfg file) (ndim : Int) (hu : cfg.user = multiGaussian.user [(-30, 30), (-30, 30)] ndim)
    (hN : cfg.nParm = 2) (hr : cfg.initGpRatio = 1 / 10) (hb : ∀ b ∈ cfg.betas, 0 ≤ b ∧ b ≤ 1) (hlim : cfg.nIter ≤ 10 ^ 9)
    (hw : ∀ k, 0 < k → inTuneWindow cfg k = false) (hl : cfg.tuneLadder ≤ 0) (B : Nat) (hs : cfg.saveBegin ≤ B + 1) (hlong : 200000 ≤ B) (hB : B < cfg.nIter.toNat)
    (clock : Nat) (root r : Fin 5) :
    ∃ beta : Fin 5 → ℝ, copyBetas 5 cfg.betas = .ok beta ∧
      (∀ (w₁ : List (Label 5)) (t : Sys 5 (Msg ℝ) (Line ℝ) (RSt 5 ℝ)), (initSys cfg file clock root).exec w₁ = some t → t.AllDone →
        rowAverage B (fun x => if Spec.NearPeak x then 1 else 0) (fileRows r.val (t.log r)) = averageAbove B r (fun x => if Spec.NearPeak (List.ofFn x) then 1 else 0)
          (mainH (multiSetting (1 / 10) beta) (fun _ => .unif) cfg root fun q => streamOf (srand48 ℝ (seedOf root (startSeed cfg clock) q)))) ∧
      ∀ ε : ℝ, 0 < ε → (unifStreams 5).real {ω | 1 / 10 + ε ≤
          averageAbove B r (fun x => if Spec.NearPeak (List.ofFn x) then 1 else 0) (mainH (multiSetting (1 / 10) beta) (fun _ => .unif) cfg root ω)} ≤
        2000 / ((cfg.nIter.toNat - B : Nat) * ε ^ 2) + 1 / 10 ^ 4 := by
  obtain ⟨data, hdata, -, -⟩ := hv.cells
  have hu' : cfg.user = multiGaussian.user (List.ofFn fun i : Fin 2 => ((fun _ => (-30 : ℝ)) i, (fun _ => (30 : ℝ)) i)) ndim := by rw [hu]; simp [List.ofFn_succ]
  obtain ⟨beta, hbeta, hex⟩ := average_stream (n := 5) multiGaussian ndim (fun _ : Fin 2 => .unif) (fun _ => -30) (fun _ => 30) multiTarget cfg file hv hu'
    (by simp [multiGaussian, model2, List.ofFn_succ]) hN (fun _ => by norm_num) (by rw [hr]; norm_num) data hdata (fun b x => by rw [hu]; exact multi_target _ _ _ _ b x) hw hl
    (by omega) B hs clock root
  have b0 := fun r => (hb _ (copyBetas_mem hbeta r)).1
  have b1 := fun r => (hb _ (copyBetas_mem hbeta r)).2
  obtain ⟨hS, hM, he⟩ := multi_mixes beta b0 b1
  refine ⟨beta, hbeta, fun w₁ t ht hd => ?_, fun ε hε => ?_⟩
  · rw [(hex w₁ t ht hd r).2, hr]
    rfl
  have h := mixing_average (multiSetting (1 / 10) beta) _ hS (by norm_num) _ _ _ hM (fun _ => .unif) (fun _ => by show (-30 : ℝ) ≤ 30; norm_num) cfg hv.rand hv.base hv.stack root r
    _ measurable_nearPeak (fun _ => by split <;> norm_num) (fun _ => by split <;> norm_num) B hB 2000 (by omega) ε hε
  have h2 := multi_mixError cfg.nIter.toNat B hlong (by omega) _ he
  have hK : (0 : ℝ) < (cfg.nIter.toNat - B : Nat) := by
    have : 0 < cfg.nIter.toNat - B := by omega
    exact_mod_cast this
  have e : 1 / (1 / 2000 * ((cfg.nIter.toNat - B : Nat) : ℝ) * ε ^ 2) = 2000 / ((cfg.nIter.toNat - B : Nat) * ε ^ 2) := by
    field_simp
  rw [e] at h
  refine le_trans (measureReal_mono ?_) (h.trans (by linarith))
  intro ω hω
  have hp := multi_peaks (beta r) (b0 r) (b1 r)
  rw [← integral_nearPeak] at hp
  show ε ≤ |_ - _|
  refine le_trans ?_ (le_abs_self _)
  have hω' : 1 / 10 + ε ≤ averageAbove B r (fun x => if Spec.NearPeak (List.ofFn x) then 1 else 0) (mainH (multiSetting (1 / 10) beta) (fun _ => .unif) cfg root ω) := hω
  have hp' : (∫ x : Fin 2 → ℝ, (if Spec.NearPeak (List.ofFn x) then (1 : ℝ) else 0) ∂(posterior (volume.restrict (openBox (multiSetting (1 / 10) beta).lo (multiSetting (1 / 10) beta).hi))
      ((multiSetting (1 / 10) beta).T.lp ((multiSetting (1 / 10) beta).beta r)))) / (posterior (volume.restrict (openBox (multiSetting (1 / 10) beta).lo (multiSetting (1 / 10) beta).hi))
      ((multiSetting (1 / 10) beta).T.lp ((multiSetting (1 / 10) beta).beta r))).real univ ≤ 1 / 10 := hp
  linarith

open Classical in
/-- **C100, executions.** The same with an ideal generator: the probability that some finished execution leaves a chain file in which the share of rows near a peak is a tenth plus
`ε` or more. -/
theorem multi_driven (cfg : Cfg ℝ) (file : DataFile ℝ) (hv : Valid 5 cfg file) (ndim : Int) (hu : cfg.user = multiGaussian.user [(-30, 30), (-30, 30)] ndim)
    (hN : cfg.nParm = 2) (hr : cfg.initGpRatio = 1 / 10) (hb : ∀ b ∈ cfg.betas, 0 ≤ b ∧ b ≤ 1) (hlim : cfg.nIter ≤ 10 ^ 9)
    (hw : ∀ k, 0 < k → inTuneWindow cfg k = false) (hl : cfg.tuneLadder ≤ 0) (B : Nat) (hs : cfg.saveBegin ≤ B + 1) (hlong : 200000 ≤ B) (hB : B < cfg.nIter.toNat)
    (clock : Nat) (root r : Fin 5) (ε : ℝ) (hε : 0 < ε) :
    unifSeeds.real {Ω | ∃ (w : List (Label 5)) (t : Sys 5 (Msg ℝ) (Line ℝ) (RSt 5 ℝ)),
        (drivenBy Ω multiGaussian [(-30, 30), (-30, 30)] ndim cfg file clock root).exec w = some t ∧ t.AllDone ∧
        1 / 10 + ε ≤ rowAverage B (fun x => if Spec.NearPeak x then 1 else 0) (fileRows r.val (t.log r))} ≤
      2000 / ((cfg.nIter.toNat - B : Nat) * ε ^ 2) + 1 / 10 ^ 4 := by
  obtain ⟨data, hdata, -⟩ := hv.cells
  have hranges : (List.ofFn fun _ : Fin 2 => ((-30 : ℝ), (30 : ℝ))) = [(-30, 30), (-30, 30)] := by simp [List.ofFn_succ]
  obtain ⟨beta, hbeta, h⟩ := driven_average (m := multiGaussian) ndim (fun _ : Fin 2 => .unif) (fun _ => -30) (fun _ => 30) multiTarget hv (by rw [hu, hranges])
    (by simp [multiGaussian, model2, List.ofFn_succ]) hN (fun _ => by norm_num) (fun _ => by show (-30 : ℝ) ≤ 30; norm_num) (by rw [hr]; norm_num) data hdata
    (fun b x => by rw [hu]; exact multi_target _ _ _ _ b x) hw hl B hs hB clock root r
    (fun x => if Spec.NearPeak x then 1 else 0) measurable_nearPeak (fun _ => by split <;> norm_num) (fun _ => by split <;> norm_num)
  rw [hr] at h
  have b0 := fun r => (hb _ (copyBetas_mem hbeta r)).1
  have b1 := fun r => (hb _ (copyBetas_mem hbeta r)).2
  obtain ⟨hS, hM, he⟩ := multi_mixes beta b0 b1
  have h := h _ _ _ _ hS hM 2000 (by omega) ε hε
  rw [hranges] at h
  have h2 := multi_mixError cfg.nIter.toNat B hlong (by omega) _ he
  have e : 1 / (1 / 2000 * ((cfg.nIter.toNat - B : Nat) : ℝ) * ε ^ 2) = 2000 / ((cfg.nIter.toNat - B : Nat) * ε ^ 2) := by
    have hK : (0 : ℝ) < (cfg.nIter.toNat - B : Nat) := by
      have : 0 < cfg.nIter.toNat - B := by omega
      exact_mod_cast this
    field_simp
  rw [e] at h
  have hp := multi_peaks (beta r) (b0 r) (b1 r)
  rw [← integral_nearPeak] at hp
  refine le_trans (measureReal_mono ?_) (h.trans (add_le_add le_rfl h2))
  rintro Ω ⟨w, t, hw, hd, hx⟩
  refine ⟨w, t, hw, hd, le_trans ?_ (le_abs_self _)⟩
  rw [multiBox] at hp
  linarith

/-- The sample input of multi_gaussian, models/multi_gaussian/input.ini, without its tuning. -/
noncomputable def multiRun : Cfg ℝ :=
  { demoCfg with
    nParm := 2
    nIter := 5000000
    nStack := 5000
    base := 20
    rand := 5
    nSwap := 1
    swapmode := 0
    nBegintune := 6000000
    nStoptune := 6000001
    tuneLadder := 0
    nIterInTune := 2000
    initGpRatio := 1 / 10
    saveBegin := 500000
    betas := [1 / 10000, 1 / 1000, 1 / 100, 1 / 10, 1]
    sigmaMin := [6 / 10 ^ 9, 6 / 10 ^ 9]
    sigmaMax := [12, 12]
    user := multiGaussian.user [(-30, 30), (-30, 30)] 1 }

theorem multiRun_valid : Valid 5 multiRun eggboxFile where
  ranks := by norm_num
  ranksInt := by norm_num
  betas := by simp [multiRun]
  parm := by simp [multiRun]
  user := ⟨fun x hx => by rw [show multiRun.user.boundary = paraBoundary [(-30, 30), (-30, 30)] from rfl, paraBoundary_length]; exact hx,
    fun s => by show (initDraws _ _).1.length = 2; rw [initDraws_length]; simp [multiGaussian, model2], fun r => rfl⟩
  stack := by simp [multiRun]
  rand := by simp [multiRun]
  base := by simp [multiRun]
  randInt := by simp [multiRun]
  stackInt := by simp [multiRun]
  iterInt := .of_sum (by simp [multiRun])
  mode := by simp [multiRun]
  inTune := by simp [multiRun]
  sigmaMin := by simp [multiRun]
  sigmaMax := by simp [multiRun]
  cells := ⟨[0], rfl, by simp [eggboxFile], by simp⟩

theorem multiRun_betas : ∀ b ∈ multiRun.betas, 0 ≤ b ∧ b ≤ 1 := by
  simp only [multiRun]; intro b hb; simp at hb; rcases hb with rfl | rfl | rfl | rfl | rfl <;> norm_num

theorem multiRun_still (k : Int) (_ : 0 < k) : inTuneWindow multiRun k = false := by
  show (decide ((6000000 : Int) < k) && decide (k < 6000001) && decide (k < 5000000)) = false
  rw [Bool.eq_false_iff]; simp only [ne_eq, Bool.and_eq_true, decide_eq_true_eq]; omega

open Classical in
/-- The hypotheses hold for the sample input without its tuning: a fifth or more of the rows of its coldest chain are near the peaks with a probability below five percent. -/
example (clock : Nat) : ∃ beta : Fin 5 → ℝ, copyBetas 5 multiRun.betas = .ok beta ∧
    (∀ (w₁ : List (Label 5)) (t : Sys 5 (Msg ℝ) (Line ℝ) (RSt 5 ℝ)), (initSys multiRun eggboxFile clock 0).exec w₁ = some t → t.AllDone →
      rowAverage 500000 (fun x => if Spec.NearPeak x then 1 else 0) (fileRows 4 (t.log 4)) = averageAbove 500000 4 (fun x => if Spec.NearPeak (List.ofFn x) then 1 else 0)
        (mainH (multiSetting (1 / 10) beta) (fun _ => .unif) multiRun 0 fun q => streamOf (srand48 ℝ (seedOf 0 (startSeed multiRun clock) q)))) ∧
    (unifStreams 5).real {ω | 2 / 10 ≤
        averageAbove 500000 4 (fun x => if Spec.NearPeak (List.ofFn x) then 1 else 0) (mainH (multiSetting (1 / 10) beta) (fun _ => .unif) multiRun 0 ω)} < 5 / 100 := by
  obtain ⟨beta, h1, h2, h3⟩ := multi_rows multiRun eggboxFile multiRun_valid 1 rfl rfl rfl multiRun_betas (by simp [multiRun]) multiRun_still (by simp [multiRun]) 500000 (by simp [multiRun]) (by norm_num) (by simp [multiRun]) clock 0 4
  refine ⟨beta, h1, h2, lt_of_le_of_lt ?_ (lt_of_le_of_lt (h3 (1 / 10) (by norm_num)) ?_)⟩
  · norm_num
  · have e : multiRun.nIter.toNat - 500000 = 4500000 := rfl
    rw [e]
    norm_num

open Classical in
/-- The same run: some finished execution has a fifth or more of the rows of its coldest chain near the peaks with a probability below five percent. -/
example (clock : Nat) : unifSeeds.real {Ω | ∃ (w : List (Label 5)) (t : Sys 5 (Msg ℝ) (Line ℝ) (RSt 5 ℝ)),
    (drivenBy Ω multiGaussian [(-30, 30), (-30, 30)] 1 multiRun eggboxFile clock 0).exec w = some t ∧ t.AllDone ∧
    1 / 10 + 1 / 10 ≤ rowAverage 500000 (fun x => if Spec.NearPeak x then 1 else 0) (fileRows 4 (t.log 4))} < 5 / 100 := by
  refine lt_of_le_of_lt (multi_driven multiRun eggboxFile multiRun_valid 1 rfl rfl rfl multiRun_betas (by simp [multiRun]) multiRun_still (by simp [multiRun]) 500000
    (by simp [multiRun]) (by norm_num) (by simp [multiRun]) clock 0 4 (1 / 10) (by norm_num)) ?_
  have e : multiRun.nIter.toNat - 500000 = 4500000 := rfl
  rw [e]
  norm_num

end NiiC
