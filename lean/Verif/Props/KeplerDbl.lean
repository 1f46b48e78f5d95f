import Verif.Props.Kepler
import Verif.Num.Binary64
import Mathlib.Analysis.Real.Pi.Bounds

/-!
# Kepler's equation in double arithmetic: C99

The loop of `newton_solver`, models/fit_orbit/user_logll.c:210-225, ends when a step is at most 1e-8 long. Doubles beyond 2^26 are further apart than
that, so whether the loop ends there depends on whether a step is exactly zero.
-/

set_option linter.unusedSimpArgs false

namespace NiiC

open Dbl

/-- Rounding to nearest and a libm whose sine and cosine are off by at most 2^-50. -/
structure Nearest (R : Rounding) : Prop where
  rnd : ∀ x : ℝ, |x| ≤ 2 ^ 30 → ∃ y, R.rnd x = .fin y ∧ |y - x| ≤ |x| / 2 ^ 53 + 1 / 2 ^ 70
  sin : ∀ x : ℝ, ∃ y, R.sin (.fin x) = .fin y ∧ |y - Real.sin x| ≤ 1 / 2 ^ 50
  cos : ∀ x : ℝ, ∃ y, R.cos (.fin x) = .fin y ∧ |y - Real.cos x| ≤ 1 / 2 ^ 50

theorem binary64_round {x : ℝ} (h : |x| ≤ 2 ^ 30) : ∃ y, Binary64.rnd x = .fin y ∧ |y - x| ≤ |x| / 2 ^ 53 + 1 / 2 ^ 70 := by
  have h1 := Binary64.round53_abs_err x
  have h2 : (2 : ℝ) ^ (-1075 : Int) ≤ 1 / 2 ^ 70 := by
    rw [one_div, ← zpow_natCast, ← zpow_neg]
    exact zpow_le_zpow_right₀ (by norm_num) (by norm_num)
  have h3 : |Binary64.round53 x| < 2 ^ 1024 := by
    have a1 : |Binary64.round53 x| ≤ |Binary64.round53 x - x| + |x| := by
      simpa using abs_add_le (Binary64.round53 x - x) x
    have a2 : |Binary64.round53 x| ≤ 2 ^ 32 := by
      have : |x| / 2 ^ 53 ≤ 1 := by rw [div_le_one (by positivity)]; exact h.trans (by norm_num)
      have : (1 : ℝ) / 2 ^ 70 ≤ 1 := by norm_num
      have : (2 : ℝ) ^ 30 + 2 ≤ 2 ^ 32 := by norm_num
      linarith
    exact a2.trans_lt (pow_lt_pow_right₀ (by norm_num) (by norm_num))
  exact ⟨_, Binary64.rnd_fin h3, h1.trans (by linarith)⟩

theorem binary64_nearest : Nearest Rounding.binary64 where
  rnd _ h := binary64_round h
  sin x := by
    obtain ⟨y, h1, h2⟩ := binary64_round (x := Real.sin x) ((Real.abs_sin_le_one x).trans (by norm_num))
    refine ⟨y, h1, h2.trans ?_⟩
    have := Real.abs_sin_le_one x
    have : |Real.sin x| / 2 ^ 53 ≤ 1 / 2 ^ 53 := by gcongr
    refine (add_le_add_left this _).trans ?_
    norm_num
  cos x := by
    obtain ⟨y, h1, h2⟩ := binary64_round (x := Real.cos x) ((Real.abs_cos_le_one x).trans (by norm_num))
    refine ⟨y, h1, h2.trans ?_⟩
    have := Real.abs_cos_le_one x
    have : |Real.cos x| / 2 ^ 53 ≤ 1 / 2 ^ 53 := by gcongr
    refine (add_le_add_left this _).trans ?_
    norm_num

variable {R : Rounding}

/-- A number and its neighbours in terms of a bound of their size. -/
theorem Nearest.close (hR : Nearest R) {x b : ℝ} (h : |x| ≤ b) (hb : b ≤ 2 ^ 30) : ∃ y, R.rnd x = .fin y ∧ |y - x| ≤ b / 2 ^ 53 + 1 / 2 ^ 70 := by
  obtain ⟨y, h1, h2⟩ := hR.rnd x (h.trans hb)
  exact ⟨y, h1, h2.trans (by gcongr)⟩

/-- The error of one step of the solver for numbers up to `b`. -/
noncomputable def stepErr (b : ℝ) : ℝ := 31 / 10 * b / 2 ^ 53 + 1 / 2 ^ 45

theorem Nearest.sinBound (hR : Nearest R) (x : ℝ) : ∃ s, R.sin (.fin x) = .fin s ∧ |s| ≤ 1 ∧ |s - Real.sin x| ≤ 1 / 2 ^ 50 := by
  obtain ⟨s, hs, h⟩ := hR.sin x
  obtain ⟨h1, h2⟩ := R.sin_fin x
  rw [hs] at h1 h2
  exact ⟨s, hs, abs_le.2 ⟨h1, h2⟩, h⟩

theorem Nearest.cosBound (hR : Nearest R) (x : ℝ) : ∃ c, R.cos (.fin x) = .fin c ∧ |c| ≤ 1 ∧ |c - Real.cos x| ≤ 1 / 2 ^ 50 := by
  obtain ⟨s, hs, h⟩ := hR.cos x
  obtain ⟨h1, h2⟩ := R.cos_fin x
  rw [hs] at h1 h2
  exact ⟨s, hs, abs_le.2 ⟨h1, h2⟩, h⟩

/-- A factor of at most a half halves an error and a size. -/
theorem half_mul {e a b : ℝ} (h0 : 0 ≤ e) (hh : e ≤ 1 / 2) (h : |a| ≤ b) : |e * a| ≤ b / 2 := by
  rw [abs_mul, abs_of_nonneg h0]
  nlinarith [abs_nonneg a]

/-- The numerator of a step. -/
theorem numerator_dbl (hR : Nearest R) {m e x b : ℝ} (h0 : 0 ≤ e) (hh : e ≤ 1 / 2) (hx : |x| ≤ b) (hb : b ≤ 2 ^ 24)
    (hxm : |x - m| ≤ 1) : ∃ n, (fin x -. fin e *. Arith.sin (fin x) -. fin m : Dbl R) = fin n ∧
      |n - (x - e * Real.sin x - m)| ≤ b / 2 ^ 53 + 1 / 2 ^ 49 := by
  have hb0 : 0 ≤ b := (abs_nonneg x).trans hx
  obtain ⟨s, hs, hs2, hs1⟩ := hR.sinBound x
  have hes := half_mul h0 hh hs2
  have hed := half_mul h0 hh hs1
  obtain ⟨p, hp, hp1⟩ := hR.close (x := e * s) (b := 1) (by linarith) (by norm_num)
  rw [abs_le] at hp1 hes hed hx hxm
  have tp : (1 : ℝ) / 2 ^ 53 + 1 / 2 ^ 70 ≤ 1 / 2 ^ 52 := by norm_num
  have t1 : (1 : ℝ) / 2 ^ 52 ≤ 1 / 8 := by norm_num
  have hx' : |x - p| ≤ b + 1 := by rw [abs_le]; constructor <;> linarith only [hp1.1, hp1.2, hes.1, hes.2, hx.1, hx.2, tp, t1]
  obtain ⟨a, ha, ha1⟩ := hR.close hx' (by linarith only [hb, show (2 : ℝ) ^ 24 + 1 ≤ 2 ^ 30 by norm_num])
  rw [abs_le] at ha1
  have tb : (b + 1) / 2 ^ 53 + 1 / 2 ^ 70 ≤ 1 / 8 := by
    have : (b + 1) / 2 ^ 53 ≤ (2 ^ 24 + 1) / 2 ^ 53 := by gcongr
    have t : ((2 : ℝ) ^ 24 + 1) / 2 ^ 53 + 1 / 2 ^ 70 ≤ 1 / 8 := by norm_num
    linarith only [this, t]
  have ham : |a - m| ≤ 2 := by
    rw [abs_le]
    constructor <;> linarith only [ha1.1, ha1.2, hp1.1, hp1.2, hes.1, hes.2, hxm.1, hxm.2, tp, t1, tb]
  obtain ⟨n, hn, hn1⟩ := hR.close ham (by norm_num)
  rw [abs_le] at hn1
  refine ⟨n, ?_, ?_⟩
  · have hs' : Arith.sin (fin x : Dbl R) = fin s := hs
    have hp' : (fin e *. fin s : Dbl R) = fin p := hp
    have ha' : (fin x -. fin p : Dbl R) = fin a := (sub_fin x p).trans ha
    rw [hs', hp', ha', sub_fin]
    exact hn
  · have h2 : (b + 1) / 2 ^ 53 = b / 2 ^ 53 + 1 / 2 ^ 53 := add_div _ _ _
    have h3 : (1 : ℝ) / 2 ^ 50 / 2 + (1 / 2 ^ 53 + 1 / 2 ^ 70) + (1 / 2 ^ 53 + 1 / 2 ^ 70) + (2 / 2 ^ 53 + 1 / 2 ^ 70) ≤ 1 / 2 ^ 49 := by norm_num
    have h4 : e * (s - Real.sin x) = e * s - e * Real.sin x := by ring
    rw [h4] at hed
    rw [abs_le]
    constructor <;> linarith only [ha1.1, ha1.2, hp1.1, hp1.2, hed.1, hed.2, hn1.1, hn1.2, h2, h3]

/-- The denominator of a step. -/
theorem denominator_dbl (hR : Nearest R) {e x : ℝ} (h0 : 0 ≤ e) (hh : e ≤ 1 / 2) :
    ∃ w, (ofI 1 -. fin e *. Arith.cos (fin x) : Dbl R) = fin w ∧ |w - (1 - e * Real.cos x)| ≤ 1 / 2 ^ 50 := by
  obtain ⟨c, hc, hc2, hc1⟩ := hR.cosBound x
  have hec := half_mul h0 hh hc2
  have hed := half_mul h0 hh hc1
  obtain ⟨t, ht, ht1⟩ := hR.close (x := e * c) (b := 1 / 2) hec (by norm_num)
  rw [abs_le] at ht1 hec hed
  have t1 : (1 / 2 : ℝ) / 2 ^ 53 + 1 / 2 ^ 70 ≤ 1 / 10 := by norm_num
  have hw' : |1 - t| ≤ 8 / 5 := by rw [abs_le]; constructor <;> linarith only [ht1.1, ht1.2, hec.1, hec.2, t1]
  obtain ⟨w, hw, hw1⟩ := hR.close hw' (by norm_num)
  rw [abs_le] at hw1
  refine ⟨w, ?_, ?_⟩
  · have h1 : (ofI 1 : Dbl R) = fin 1 := by simpa using ofI_int (R := R) 1 (by norm_num)
    have hc' : Arith.cos (fin x : Dbl R) = fin c := hc
    have ht' : (fin e *. fin c : Dbl R) = fin t := ht
    rw [h1, hc', ht', sub_fin]
    exact hw
  · have h3 : (1 : ℝ) / 2 ^ 50 / 2 + (1 / 2 / 2 ^ 53 + 1 / 2 ^ 70) + (8 / 5 / 2 ^ 53 + 1 / 2 ^ 70) ≤ 1 / 2 ^ 50 := by norm_num
    have h4 : e * (c - Real.cos x) = e * c - e * Real.cos x := by ring
    rw [h4] at hed
    rw [abs_le]
    constructor <;> linarith only [ht1.1, ht1.2, hed.1, hed.2, hw1.1, hw1.2, h3]

/-- The quotient of a step. -/
theorem quotient_near {n N w D ε : ℝ} (hN : |N| ≤ 3 / 2) (hD : 1 / 2 ≤ D) (hn : |n - N| ≤ ε) (hw : |w - D| ≤ 1 / 2 ^ 50) :
    0 < w ∧ |N / D| ≤ 3 ∧ |n / w - N / D| ≤ 2005 / 1000 * ε + 1 / 2 ^ 47 := by
  have hε : 0 ≤ ε := (abs_nonneg _).trans hn
  have hw2 : 499 / 1000 ≤ w := by
    have := (abs_le.1 hw).1
    linarith only [this, hD, show (1 : ℝ) / 2 ^ 50 ≤ 1 / 1000 by norm_num]
  have hw0 : 0 < w := by linarith only [hw2]
  have hD0 : 0 < D := by linarith only [hD]
  refine ⟨hw0, ?_, ?_⟩
  · rw [abs_div, abs_of_pos hD0, div_le_iff₀ hD0]
    linarith only [hN, hD]
  · have e1 : n / w - N / D = (n - N) / w + N * (D - w) / (w * D) := by field_simp; ring
    rw [e1]
    refine (abs_add_le _ _).trans (add_le_add ?_ ?_)
    · rw [abs_div, abs_of_pos hw0, div_le_iff₀ hw0]
      nlinarith only [hn, hw2, hε]
    · rw [abs_div, abs_of_pos (mul_pos hw0 hD0), abs_mul, div_le_iff₀ (mul_pos hw0 hD0), abs_sub_comm D w]
      have h1 : |N| * |w - D| ≤ 3 / 2 * (1 / 2 ^ 50) := mul_le_mul hN hw (abs_nonneg _) (by norm_num)
      have h2 : 249 / 1000 ≤ w * D := by nlinarith only [hw2, hD]
      have h3 : (1 : ℝ) / 2 ^ 47 * (249 / 1000) ≤ 1 / 2 ^ 47 * (w * D) := mul_le_mul_of_nonneg_left h2 (by positivity)
      have h4 : (3 / 2 * (1 / 2 ^ 50) : ℝ) ≤ 1 / 2 ^ 47 * (249 / 1000) := by norm_num
      exact h1.trans (h4.trans h3)

/-- One step in doubles is one step in reals up to `stepErr`. -/
theorem newtonStep_dbl (hR : Nearest R) {m e x b : ℝ} (h0 : 0 ≤ e) (hh : e ≤ 1 / 2) (hx : |x| ≤ b) (hb : b ≤ 2 ^ 24)
    (hxm : |x - m| ≤ 1) : ∃ x', newtonStep (fin m : Dbl R) (fin e) (fin x) = fin x' ∧ |x' - newtonStep m e x| ≤ stepErr b := by
  have hb0 : 0 ≤ b := (abs_nonneg x).trans hx
  obtain ⟨n, hn, hN⟩ := numerator_dbl hR h0 hh hx hb hxm
  obtain ⟨w, hw, hD⟩ := denominator_dbl hR (x := x) h0 hh
  have hs := half_mul h0 hh (Real.abs_sin_le_one x)
  have hc := half_mul h0 hh (Real.abs_cos_le_one x)
  have hNr : |x - e * Real.sin x - m| ≤ 3 / 2 := by
    rw [abs_le] at hs hxm ⊢
    constructor <;> linarith only [hs.1, hs.2, hxm.1, hxm.2]
  have hDr : 1 / 2 ≤ 1 - e * Real.cos x := by
    rw [abs_le] at hc
    linarith only [hc.2]
  rw [newtonStep_real]
  unfold newtonStep
  rw [hn, hw]
  generalize x - e * Real.sin x - m = N at *
  generalize 1 - e * Real.cos x = D at *
  obtain ⟨hw0, hND, hq0⟩ := quotient_near hNr hDr hN hD
  have hb53 : b / 2 ^ 53 ≤ 1 / 2 ^ 29 := by
    refine (div_le_div_of_nonneg_right hb (by positivity)).trans ?_
    norm_num
  have hsmall : 2005 / 1000 * (b / 2 ^ 53 + 1 / 2 ^ 49) + 1 / 2 ^ 47 ≤ 1 / 10 := by
    have : (2005 / 1000 : ℝ) * (1 / 2 ^ 29 + 1 / 2 ^ 49) + 1 / 2 ^ 47 ≤ 1 / 10 := by norm_num
    linarith only [this, hb53]
  have hnw : |n / w| ≤ 31 / 10 := by
    have := abs_add_le (n / w - N / D) (N / D)
    rw [sub_add_cancel] at this
    linarith only [this, hq0, hND, hsmall]
  obtain ⟨q, hq, hq1⟩ := hR.close hnw (by norm_num)
  have hq2 : |q| ≤ 4 := by
    have := abs_add_le (q - n / w) (n / w)
    rw [sub_add_cancel] at this
    linarith only [this, hq1, hnw, show (31 / 10 : ℝ) / 2 ^ 53 + 1 / 2 ^ 70 ≤ 1 / 10 by norm_num]
  have hxq : |x - q| ≤ b + 4 := (abs_sub x q).trans (add_le_add hx hq2)
  obtain ⟨x', hx', hx1⟩ := hR.close hxq (by linarith only [hb, show (2 : ℝ) ^ 24 + 4 ≤ 2 ^ 30 by norm_num])
  refine ⟨x', ?_, ?_⟩
  · have hq' : (fin n /. fin w : Dbl R) = fin q := (div_fin _ _ hw0.ne').trans hq
    rw [hq', sub_fin]
    exact hx'
  · have h1 : x' - (x - N / D) = (x' - (x - q)) - (q - n / w) - (n / w - N / D) := by ring
    rw [h1]
    have h2 := abs_sub (x' - (x - q) - (q - n / w)) (n / w - N / D)
    have h3 := abs_sub (x' - (x - q)) (q - n / w)
    have h4 : (b + 4) / 2 ^ 53 = b / 2 ^ 53 + 4 / 2 ^ 53 := add_div _ _ _
    have h5 : stepErr b = 31 / 10 * (b / 2 ^ 53) + 1 / 2 ^ 45 := by rw [stepErr, mul_div_assoc]
    have h6 : (4 / 2 ^ 53 + 1 / 2 ^ 70 : ℝ) + (31 / 10 / 2 ^ 53 + 1 / 2 ^ 70) + (2005 / 1000 * (1 / 2 ^ 49) + 1 / 2 ^ 47) ≤ 1 / 2 ^ 45 := by norm_num
    have h7 : 0 ≤ b / 2 ^ 53 := by positivity
    rw [h5]
    linarith only [h2, h3, h4, h6, h7, hx1, hq1, hq0]

/-! ## The loop up to 2^23 -/

/-- The bound of the loop as a double. -/
theorem newtonTol_dbl (hR : Nearest R) : ∃ t, (Arith.lit 1 100000000 : Dbl R) = fin t ∧ |t - newtonTol| ≤ 1 / 2 ^ 69 := by
  have h : |newtonTol| ≤ 1 / 10 ^ 8 := by rw [abs_of_pos newtonTol_pos, newtonTol]
  obtain ⟨t, ht, h1⟩ := hR.close h (by norm_num)
  refine ⟨t, ?_, h1.trans (by norm_num)⟩
  have e : ((1 : Int) : ℝ) / ((100000000 : Nat) : ℝ) = newtonTol := by rw [newtonTol]; norm_num
  show R.rnd (((1 : Int) : ℝ) / ((100000000 : Nat) : ℝ)) = _
  rw [e]
  exact ht

theorem newtonLoop_dbl {t : ℝ} (ht : (Arith.lit 1 100000000 : Dbl R) = fin t) (m e : Dbl R) (n : Nat) (x : Dbl R) (eps : ℝ) :
    newtonLoop m e (n + 1) x (fin eps) = if t < |eps| then newtonLoop m e n (newtonStep m e x) (newtonStep m e x -. x) else .ok x := by
  rw [newtonLoop, ht, show Arith.fabs (fin eps : Dbl R) = fin |eps| from rfl]
  simp only [lt_fin]

/-- The loop with fuel `n` returns a root up to `ρ` from every number within `d` of the root and every last step up to `c`. -/
def Solves (R : Rounding) (m e r t ρ : ℝ) (n : Nat) (d c : ℝ) : Prop := ∀ x eps : ℝ, |x - r| ≤ d → |eps| ≤ c → (|eps| ≤ t → |x - r| ≤ ρ) →
  ∃ y, newtonLoop (fin m : Dbl R) (fin e) n (fin x) (fin eps) = .ok (fin y) ∧ |y - r| ≤ ρ

theorem solves_last {m e r t ρ d c : ℝ} (ht : (Arith.lit 1 100000000 : Dbl R) = fin t) (hc : c ≤ t) : Solves R m e r t ρ 1 d c := by
  intro x eps _ h2 h3
  refine ⟨x, ?_, h3 (h2.trans hc)⟩
  rw [newtonLoop_dbl ht, if_neg (not_lt.2 (h2.trans hc))]

theorem stepErr_le {b : ℝ} (hb : b ≤ 2 ^ 23 + 1) : stepErr b ≤ 29 / 10 ^ 10 := by
  rw [stepErr]
  have : 31 / 10 * b / 2 ^ 53 ≤ 31 / 10 * (2 ^ 23 + 1) / 2 ^ 53 := by gcongr
  have h : (31 / 10 * (2 ^ 23 + 1) / 2 ^ 53 : ℝ) + 1 / 2 ^ 45 ≤ 29 / 10 ^ 10 := by norm_num
  linarith only [this, h]

theorem stepErr_nonneg {b : ℝ} (hb : 0 ≤ b) : 0 ≤ stepErr b := by rw [stepErr]; positivity

theorem solves_step (hR : Nearest R) {m e r t d d' c : ℝ} {n : Nat} (h0 : 0 ≤ e) (hh : e ≤ 1 / 2) (hm : |m| ≤ 2 ^ 23) (hr : Spec.Kepler m e r)
    (ht : (Arith.lit 1 100000000 : Dbl R) = fin t) (ht1 : |t - newtonTol| ≤ 1 / 2 ^ 69) (hd : d ≤ 1 / 2) (hd' : d ^ 2 / 2 + stepErr (|m| + 1) ≤ d')
    (hn : Solves R m e r t (stepErr (|m| + 1) + 2 / 2 ^ 53) n d' (d + d' + 1 / 2 ^ 50)) : Solves R m e r t (stepErr (|m| + 1) + 2 / 2 ^ 53) (n + 1) d c := by
  intro x eps hx _ hs
  rw [newtonLoop_dbl ht]
  split
  swap
  · rename_i h
    exact ⟨x, rfl, hs (not_lt.1 h)⟩
  have hmr := (newton_start m e r h0 hr).trans hh
  have hxm : |x - m| ≤ 1 := by
    rw [abs_le] at hmr hx ⊢
    constructor <;> linarith only [hmr.1, hmr.2, hx.1, hx.2, hd]
  have hxb : |x| ≤ |m| + 1 := by
    have := abs_add_le (x - m) m
    rw [sub_add_cancel] at this
    linarith only [this, hxm]
  obtain ⟨x', hx', he⟩ := newtonStep_dbl hR h0 hh hxb (by linarith only [hm, show (2 : ℝ) ^ 23 + 1 ≤ 2 ^ 24 by norm_num]) hxm
  have hk : e / (2 * (1 - e)) ≤ 1 / 2 := by
    rw [div_le_div_iff₀ (by linarith only [hh]) (by norm_num)]
    linarith only [hh]
  have hq : |newtonStep m e x - r| ≤ |x - r| ^ 2 / 2 := by
    refine (newtonStep_error m e r x h0 (by linarith only [hh]) hr).trans ?_
    rw [sq_abs]
    nlinarith only [hk, sq_nonneg (x - r)]
  have hδ := stepErr_le (b := |m| + 1) (by linarith only [hm])
  have hδ0 := stepErr_nonneg (b := |m| + 1) (by positivity)
  generalize stepErr (|m| + 1) = δ at *
  have hnew : |x' - r| ≤ |x - r| ^ 2 / 2 + δ := by
    have := abs_add_le (x' - newtonStep m e x) (newtonStep m e x - r)
    rw [sub_add_sub_cancel] at this
    linarith only [this, he, hq]
  have hnew' : |x' - r| ≤ d' := by
    have : |x - r| ^ 2 ≤ d ^ 2 := pow_le_pow_left₀ (abs_nonneg _) hx 2
    linarith only [this, hnew, hd']
  -- the step as the program computes it
  have hdist : |x' - x| ≤ |x - r| + |x' - r| := by
    have := abs_sub (x' - r) (x - r)
    rw [sub_sub_sub_cancel_right] at this
    linarith only [this]
  have hxr : |x - r| ≤ 1 / 2 := hx.trans hd
  have hx'1 : |x' - r| ≤ 1 / 2 := by
    nlinarith only [hnew, hxr, hδ, abs_nonneg (x - r)]
  obtain ⟨s, hs1, hs2⟩ := hR.close (x := x' - x) (b := 1) (by linarith only [hdist, hxr, hx'1]) (by norm_num)
  have hs3 : |s - (x' - x)| ≤ 1 / 2 ^ 50 := hs2.trans (by norm_num)
  rw [hx', sub_fin, show (R.rnd (x' - x) : Dbl R) = (fin s : Dbl R) from hs1]
  refine hn x' s hnew' ?_ ?_
  · have := abs_add_le (s - (x' - x)) (x' - x)
    rw [sub_add_cancel] at this
    linarith only [this, hs3, hdist, hx, hnew']
  · intro hst
    have h1 : |x' - x| ≤ t + 1 / 2 ^ 50 := by
      have := abs_sub s (s - (x' - x))
      rw [_root_.sub_sub_cancel] at this
      linarith only [this, hs3, hst]
    have h2 : t ≤ 101 / 10 ^ 10 := by
      have := (abs_le.1 ht1).2
      rw [newtonTol] at this
      linarith only [this, show (1 : ℝ) / 2 ^ 69 + 1 / 10 ^ 8 ≤ 101 / 10 ^ 10 by norm_num]
    have h3 : |x - r| ≤ |x' - x| + |x' - r| := by
      have := abs_sub (x' - r) (x' - x)
      rw [show x' - r - (x' - x) = x - r by ring] at this
      linarith only [this]
    have h4 : |x - r| ≤ 18 / 10 ^ 9 := by
      have a1 : |x - r| ^ 2 ≤ 1 / 2 * |x - r| := by nlinarith only [hxr, abs_nonneg (x - r)]
      have a2 : (101 / 10 ^ 10 + 1 / 2 ^ 50 + 29 / 10 ^ 10 : ℝ) * (4 / 3) ≤ 18 / 10 ^ 9 := by norm_num
      linarith only [a1, a2, h1, h2, h3, hnew, hδ]
    have h5 : |x - r| ^ 2 ≤ (18 / 10 ^ 9) ^ 2 := pow_le_pow_left₀ (abs_nonneg _) h4 2
    have h6 : ((18 / 10 ^ 9) ^ 2 / 2 : ℝ) ≤ 2 / 2 ^ 53 := by norm_num
    linarith only [h5, h6, hnew]

/-- **C99.** For every mean anomaly up to 2^23 and every eccentricity from 0 to 1/2 the solver in doubles stops after at most five steps, and what it returns is the
eccentric anomaly up to a few units in the last place of the mean anomaly. -/
theorem kepler_dbl (hR : Nearest R) (m e : ℝ) (h0 : 0 ≤ e) (hh : e ≤ 1 / 2) (hm : |m| ≤ 2 ^ 23) : ∃ y r, Spec.Kepler m e r ∧
    (∀ fuel, 6 ≤ fuel → newtonSolver fuel (fin m : Dbl R) (fin e) = .ok (fin y)) ∧ |y - r| ≤ (4 * |m| + 1024) / 2 ^ 53 := by
  obtain ⟨r, hr, _⟩ := kepler_unique_root m e h0 (by linarith only [hh])
  obtain ⟨t, ht, ht1⟩ := newtonTol_dbl hR
  have ht0 : 99 / 10 ^ 10 ≤ t := by
    have := (abs_le.1 ht1).1
    rw [newtonTol] at this
    linarith only [this, show (99 : ℝ) / 10 ^ 10 + 1 / 2 ^ 69 ≤ 1 / 10 ^ 8 by norm_num]
  have hδ := stepErr_le (b := |m| + 1) (by linarith only [hm])
  have hs : Solves R m e r t (stepErr (|m| + 1) + 2 / 2 ^ 53) 6 (1 / 2) 1 := by
    refine solves_step hR (d' := 126 / 1000) h0 hh hm hr ht ht1 le_rfl (by linarith only [hδ, show (1 / 2 : ℝ) ^ 2 / 2 + 29 / 10 ^ 10 ≤ 126 / 1000 by norm_num]) ?_
    refine solves_step hR (d' := 8 / 1000) h0 hh hm hr ht ht1 (by norm_num) (by linarith only [hδ, show (126 / 1000 : ℝ) ^ 2 / 2 + 29 / 10 ^ 10 ≤ 8 / 1000 by norm_num]) ?_
    refine solves_step hR (d' := 33 / 10 ^ 6) h0 hh hm hr ht ht1 (by norm_num) (by linarith only [hδ, show (8 / 1000 : ℝ) ^ 2 / 2 + 29 / 10 ^ 10 ≤ 33 / 10 ^ 6 by norm_num]) ?_
    refine solves_step hR (d' := 35 / 10 ^ 10) h0 hh hm hr ht ht1 (by norm_num) (by linarith only [hδ, show (33 / 10 ^ 6 : ℝ) ^ 2 / 2 + 29 / 10 ^ 10 ≤ 35 / 10 ^ 10 by norm_num]) ?_
    refine solves_step hR (d' := 30 / 10 ^ 10) h0 hh hm hr ht ht1 (by norm_num) (by linarith only [hδ, show (35 / 10 ^ 10 : ℝ) ^ 2 / 2 + 29 / 10 ^ 10 ≤ 30 / 10 ^ 10 by norm_num]) ?_
    exact solves_last ht (by linarith only [ht0, show (35 / 10 ^ 10 + 30 / 10 ^ 10 + 1 / 2 ^ 50 : ℝ) ≤ 99 / 10 ^ 10 by norm_num])
  have ht2 : t < 1 := by
    have := (abs_le.1 ht1).2
    rw [newtonTol] at this
    linarith only [this, show (1 : ℝ) / 10 ^ 8 + 1 / 2 ^ 69 < 1 by norm_num]
  obtain ⟨y, hy, hyr⟩ := hs m 1 ((newton_start m e r h0 hr).trans hh) (by norm_num) (fun h => absurd ht2 (by simpa using h))
  refine ⟨y, r, hr, fun fuel hf => ?_, hyr.trans ?_⟩
  · obtain ⟨j, rfl⟩ := Nat.exists_eq_add_of_le hf
    have h1 : (ofI 1 : Dbl R) = fin 1 := by simpa using ofI_int (R := R) 1 (by norm_num)
    rw [newtonSolver, h1]
    exact newtonLoop_fuel _ _ 6 j _ _ _ hy
  · have e1 : stepErr (|m| + 1) + 2 / 2 ^ 53 = (31 / 10 * |m| + (31 / 10 + 256 + 2)) / 2 ^ 53 := by rw [stepErr]; ring
    rw [e1]
    gcongr
    · norm_num
    · norm_num

/-- Five years of days with a period of half a day, in C doubles. -/
example : ∃ y r, Spec.Kepler 22949 (1 / 2) r ∧ (∀ fuel, 6 ≤ fuel → newtonSolver fuel (fin 22949 : Double) (fin (1 / 2)) = .ok (fin y)) ∧ |y - r| ≤ 1 / 10 ^ 10 := by
  obtain ⟨y, r, h1, h2, h3⟩ := kepler_dbl binary64_nearest 22949 (1 / 2) (by norm_num) le_rfl (by norm_num)
  exact ⟨y, r, h1, h2, h3.trans (by norm_num)⟩

/-! ## Mean anomalies beyond 2^26 -/

/-- From 2^26 to 2^27 doubles are the multiples of 2^-26. -/
theorem grid_round {t : ℝ} (n : Int) (h1 : 2 ^ 26 ≤ t) (h2 : t < 2 ^ 27) (h : |t * 2 ^ 26 - n| < 1 / 2) : Binary64.rnd t = .fin (n / 2 ^ 26) := by
  have ht : 0 < t := lt_of_lt_of_le (by norm_num) h1
  have hl : Int.log 2 |t| = 26 := by
    rw [abs_of_pos ht]
    have a1 := Binary64.log_le ht
    have a2 := Binary64.lt_log t
    have b1 : (2 : ℝ) ^ Int.log 2 t < 2 ^ (27 : Int) := lt_of_le_of_lt a1 (by exact_mod_cast h2)
    have b2 : (2 : ℝ) ^ (26 : Int) < 2 ^ (Int.log 2 t + 1) := lt_of_le_of_lt (by exact_mod_cast h1) a2
    have c1 := (zpow_lt_zpow_iff_right₀ (by norm_num : (1 : ℝ) < 2)).1 b1
    have c2 := (zpow_lt_zpow_iff_right₀ (by norm_num : (1 : ℝ) < 2)).1 b2
    omega
  have he : Binary64.lastExp t = -26 := by rw [Binary64.lastExp, hl]; rfl
  have hz : (2 : ℝ) ^ (-26 : Int) = 1 / 2 ^ 26 := by rw [zpow_neg, one_div]; rfl
  have hr : Binary64.rne (t * 2 ^ 26) = n := by
    have a := Binary64.rne_err (t * 2 ^ 26)
    have b : |((Binary64.rne (t * 2 ^ 26) : Int) : ℝ) - n| < 1 := by
      have := abs_add_le (((Binary64.rne (t * 2 ^ 26) : Int) : ℝ) - t * 2 ^ 26) (t * 2 ^ 26 - n)
      rw [sub_add_sub_cancel] at this
      exact this.trans_lt ((add_lt_add_of_le_of_lt a h).trans_eq (by norm_num))
    have c : |Binary64.rne (t * 2 ^ 26) - n| < 1 := by exact_mod_cast b
    rw [Int.abs_lt_one_iff] at c
    omega
  have h53 : Binary64.round53 t = n / 2 ^ 26 := by
    rw [Binary64.round53, he, hz, div_div_eq_mul_div, div_one, hr, mul_one_div]
  rw [Binary64.rnd_fin, h53]
  have := Binary64.round53_abs_err t
  have e1 := abs_add_le (Binary64.round53 t - t) t
  rw [sub_add_cancel, abs_of_pos ht] at e1
  rw [abs_of_pos ht] at this
  have e2 : (2 : ℝ) ^ (-1075 : Int) ≤ 1 := zpow_le_one_of_nonpos₀ (by norm_num) (by norm_num)
  have e3 : t / 2 ^ 53 ≤ 1 := by rw [div_le_one (by positivity)]; exact h2.le.trans (by norm_num)
  have e4 : |Binary64.round53 t| ≤ 2 ^ 28 := by linarith only [this, e1, e2, e3, h2, show (2 : ℝ) ^ 27 + 2 ≤ 2 ^ 28 by norm_num]
  exact e4.trans_lt (pow_lt_pow_right₀ (by norm_num) (by norm_num))

/-- An odd multiple of pi. -/
noncomputable def oddPi : ℝ := 21361417 * Real.pi

theorem oddPi_bounds : 4503600078172150 + 51 / 100 < oddPi * 2 ^ 26 ∧ oddPi * 2 ^ 26 < 4503600078172150 + 52 / 100 := by
  have h1 := Real.pi_gt_d20
  have h2 := Real.pi_lt_d20
  rw [oddPi]
  constructor <;> norm_num at h1 h2 ⊢ <;> linarith only [h1, h2]

theorem sin_oddPi (θ : ℝ) : Real.sin (oddPi + θ) = -Real.sin θ := by
  have e : oddPi + θ = (θ + Real.pi) + (10680708 : Nat) * (2 * Real.pi) := by rw [oddPi]; push_cast; ring
  rw [e, Real.sin_add_nat_mul_two_pi, Real.sin_add_pi]

theorem cos_oddPi (θ : ℝ) : Real.cos (oddPi + θ) = -Real.cos θ := by
  have e : oddPi + θ = (θ + Real.pi) + (10680708 : Nat) * (2 * Real.pi) := by rw [oddPi]; push_cast; ring
  rw [e, Real.cos_add_nat_mul_two_pi, Real.cos_add_pi]

/-- Doubles rounded to nearest, ties to even, with a sine and a cosine off by at most 2^-50. -/
structure IeeeNearest (R : Rounding) : Prop extends Nearest R where
  ieee : ∀ x, R.rnd x = Binary64.rnd x

theorem binary64_ieee : IeeeNearest Rounding.binary64 where
  toNearest := binary64_nearest
  ieee _ := rfl

/-- A step on the grid near an odd multiple of pi with eccentricity 1/2: the sine moves `x` by half its distance from the multiple, the denominator is 3/2. -/
theorem grid_step (hR : IeeeNearest R) {nx nm na ny : Int} (hθ : |(nx : ℝ) / 2 ^ 26 - oddPi| ≤ 2 / 2 ^ 26)
    (ha : |(nx : ℝ) + (nx - oddPi * 2 ^ 26) / 2 - na| ≤ 3 / 10) (hna : |na - nm| ≤ 1) (hy : |(nx : ℝ) - (na - nm) * (2 / 3) - ny| ≤ 2 / 5) :
    newtonStep (fin (nm / 2 ^ 26) : Dbl R) (fin (1 / 2)) (fin (nx / 2 ^ 26)) = fin (ny / 2 ^ 26) := by
  have hO := oddPi_bounds
  generalize hx : (nx : ℝ) / 2 ^ 26 = x at *
  have hnx : (nx : ℝ) = x * 2 ^ 26 := by rw [← hx]; field_simp
  rw [hnx] at ha hy
  obtain ⟨s, hs, hs2, hs1⟩ := hR.sinBound x
  obtain ⟨c, hc, hc2, hc1⟩ := hR.cosBound x
  have hsx : Real.sin x = -Real.sin (x - oddPi) := by rw [← sin_oddPi]; congr 1; ring
  have hcx : Real.cos x = -Real.cos (x - oddPi) := by rw [← cos_oddPi]; congr 1; ring
  generalize hθe : x - oddPi = θ at *
  have hxθ : x = oddPi + θ := by linarith only [hθe]
  -- sine and cosine of the small angle
  have hsθ : |Real.sin θ - θ| ≤ 1 / 2 ^ 50 := by
    have := sin_taylor 0 θ
    simp only [Real.sin_zero, Real.cos_zero, zero_sub, mul_one] at this
    have e : |(-Real.sin θ - -θ)| = |Real.sin θ - θ| := by rw [← abs_neg]; congr 1; ring
    rw [e] at this
    refine this.trans ?_
    have : (-θ) ^ 2 ≤ (2 / 2 ^ 26) ^ 2 := by rw [neg_sq, ← sq_abs]; exact pow_le_pow_left₀ (abs_nonneg _) hθ 2
    have h : ((2 / 2 ^ 26) ^ 2 / 2 : ℝ) ≤ 1 / 2 ^ 50 := by norm_num
    linarith only [this, h]
  have hcθ : |Real.cos θ - 1| ≤ 1 / 2 ^ 50 := by
    have a1 := Real.one_sub_sq_div_two_le_cos (x := θ)
    have a2 := Real.cos_le_one θ
    have : θ ^ 2 ≤ (2 / 2 ^ 26) ^ 2 := by rw [← sq_abs]; exact pow_le_pow_left₀ (abs_nonneg _) hθ 2
    have h : ((2 / 2 ^ 26) ^ 2 / 2 : ℝ) ≤ 1 / 2 ^ 50 := by norm_num
    rw [abs_le]
    constructor <;> linarith only [a1, a2, this, h]
  rw [hsx] at hs1
  rw [hcx] at hc1
  rw [abs_le] at hs1 hc1 hsθ hcθ hθ hs2 hc2 ha hy
  -- the product with the eccentricity
  obtain ⟨p, hp, hp1⟩ := hR.close (x := 1 / 2 * s) (b := 1) (by rw [abs_le]; constructor <;> linarith only [hs2.1, hs2.2]) (by norm_num)
  have hp2 : |p + θ / 2| ≤ 1 / 2 ^ 48 := by
    rw [abs_le] at hp1 ⊢
    constructor <;> linarith only [hp1.1, hp1.2, hs1.1, hs1.2, hsθ.1, hsθ.2, show (1 : ℝ) / 2 ^ 53 + 1 / 2 ^ 70 ≤ 1 / 2 ^ 50 by norm_num, show (2 : ℝ) / 2 ^ 50 ≤ 1 / 2 ^ 48 by norm_num]
  rw [abs_le] at hp2
  have hpbig : -(1 / 8) ≤ p ∧ p ≤ 1 / 8 := by
    constructor <;> linarith only [hp2.1, hp2.2, hθ.1, hθ.2, show (2 : ℝ) / 2 ^ 26 ≤ 1 / 16 by norm_num, show (1 : ℝ) / 2 ^ 48 ≤ 1 / 16 by norm_num]
  have hxlo : 2 ^ 26 + 1 ≤ x ∧ x ≤ 2 ^ 26 + 100 := by
    constructor <;> linarith only [hxθ, hθ.1, hθ.2, hO.1, hO.2, show (2 : ℝ) / 2 ^ 26 ≤ 1 / 16 by norm_num]
  have ha' : R.rnd (x - p) = .fin (na / 2 ^ 26) := by
    rw [hR.ieee]
    refine grid_round na (by linarith only [hxlo.1, hpbig.2]) (by linarith only [hxlo.2, hpbig.1]) ?_
    rw [abs_lt]
    constructor <;> linarith only [ha.1, ha.2, hp2.1, hp2.2, hxθ]
  -- the numerator
  have hn' : R.rnd ((na : ℝ) / 2 ^ 26 - nm / 2 ^ 26) = .fin ((na - nm : Int) / 2 ^ 26) := by
    have e1 : (na : ℝ) / 2 ^ 26 - nm / 2 ^ 26 = ((na - nm : Int) : ℝ) * 2 ^ (-26 : Int) := by push_cast; rw [zpow_neg, show (2 : ℝ) ^ (26 : Int) = 2 ^ 26 from rfl]; ring
    have e2 : (((na - nm : Int) : ℝ)) / 2 ^ 26 = ((na - nm : Int) : ℝ) * 2 ^ (-26 : Int) := by rw [zpow_neg, show (2 : ℝ) ^ (26 : Int) = 2 ^ 26 from rfl]; ring
    rw [hR.ieee, e1, e2]
    exact Binary64.rnd_repr _ _ (hna.trans (by norm_num)) (by norm_num) (by norm_num)
  -- the denominator
  obtain ⟨w, hw, hw1⟩ := denominator_dbl hR.toNearest (e := 1 / 2) (x := x) (by norm_num) le_rfl
  rw [hcx, abs_le] at hw1
  have hw2 : |w - 3 / 2| ≤ 1 / 2 ^ 49 := by
    rw [abs_le]
    constructor <;> linarith only [hw1.1, hw1.2, hcθ.1, hcθ.2, show (1 : ℝ) / 2 ^ 50 + 1 / 2 * (1 / 2 ^ 50) ≤ 1 / 2 ^ 49 by norm_num]
  rw [abs_le] at hw2
  have hw0 : 1 ≤ w := by linarith only [hw2.1, show (1 : ℝ) / 2 ^ 49 ≤ 1 / 4 by norm_num]
  have hnn : |((na - nm : Int) : ℝ)| ≤ 1 := by exact_mod_cast hna
  -- the quotient
  have hqe : |((na - nm : Int) : ℝ) / 2 ^ 26 / w - ((na - nm : Int) : ℝ) / 2 ^ 26 * (2 / 3)| ≤ 1 / 2 ^ 49 := by
    have e1 : ((na - nm : Int) : ℝ) / 2 ^ 26 / w - ((na - nm : Int) : ℝ) / 2 ^ 26 * (2 / 3) = ((na - nm : Int) : ℝ) * ((3 / 2 - w) / (w * (3 / 2) * 2 ^ 26)) := by
      field_simp
    rw [e1, abs_mul, abs_div, abs_of_pos (by positivity : 0 < w * (3 / 2) * 2 ^ 26)]
    have e2 : |3 / 2 - w| ≤ 1 / 2 ^ 49 := by rw [abs_le]; constructor <;> linarith only [hw2.1, hw2.2]
    have e3 : |3 / 2 - w| / (w * (3 / 2) * 2 ^ 26) ≤ 1 / 2 ^ 49 := by
      rw [div_le_iff₀ (by positivity)]
      refine e2.trans (le_mul_of_one_le_right (by positivity) ?_)
      linarith only [hw0, show (1 : ℝ) ≤ 2 ^ 26 by norm_num]
    calc _ ≤ 1 * (1 / 2 ^ 49) := mul_le_mul hnn e3 (by positivity) zero_le_one
      _ = _ := one_mul _
  have hqs : |((na - nm : Int) : ℝ) / 2 ^ 26 / w| ≤ 1 := by
    rw [div_div, abs_div, abs_of_pos (by positivity : 0 < 2 ^ 26 * w), div_le_one (by positivity)]
    linarith only [hnn, hw0]
  obtain ⟨q, hq, hq1⟩ := hR.close hqs (by norm_num)
  have hq2 : |q - ((na - nm : Int) : ℝ) / 2 ^ 26 * (2 / 3)| ≤ 1 / 2 ^ 48 := by
    have := abs_add_le (q - ((na - nm : Int) : ℝ) / 2 ^ 26 / w) (((na - nm : Int) : ℝ) / 2 ^ 26 / w - ((na - nm : Int) : ℝ) / 2 ^ 26 * (2 / 3))
    rw [sub_add_sub_cancel] at this
    exact this.trans ((add_le_add hq1 hqe).trans (by norm_num))
  push_cast at hq2 hnn
  rw [abs_le] at hq2 hnn
  have hfin : R.rnd (x - q) = .fin (ny / 2 ^ 26) := by
    rw [hR.ieee]
    refine grid_round ny ?_ ?_ ?_
    · linarith only [hxlo.1, hq2.2, hnn.2, show (1 : ℝ) / 2 ^ 48 ≤ 1 / 4 by norm_num]
    · linarith only [hxlo.2, hq2.1, hnn.1, show (1 : ℝ) / 2 ^ 48 ≤ 1 / 4 by norm_num]
    · rw [abs_lt]
      constructor <;> linarith only [hy.1, hy.2, hq2.1, hq2.2]
  -- together
  have hs' : Arith.sin (fin x : Dbl R) = fin s := hs
  have hp' : (fin (1 / 2) *. fin s : Dbl R) = fin p := hp
  have hax : (fin x -. fin p : Dbl R) = fin (na / 2 ^ 26) := (sub_fin _ _).trans ha'
  have hnx' : (fin (na / 2 ^ 26) -. fin (nm / 2 ^ 26) : Dbl R) = fin ((na - nm : Int) / 2 ^ 26) := (sub_fin _ _).trans hn'
  have hq' : (fin ((na - nm : Int) / 2 ^ 26) /. fin w : Dbl R) = fin q := (div_fin _ _ (by linarith only [hw0])).trans hq
  unfold newtonStep
  rw [hw, hs', hp', hax, hnx', hq', sub_fin]
  exact hfin

/-- The mean anomaly the solver does not end for. -/
noncomputable def endlessM : ℝ := 4503600078172152 / 2 ^ 26

theorem endless_down (hR : IeeeNearest R) : newtonStep (fin endlessM : Dbl R) (fin (1 / 2)) (fin endlessM) = fin (4503600078172151 / 2 ^ 26) := by
  have hO := oddPi_bounds
  have := grid_step hR (nx := 4503600078172152) (nm := 4503600078172152) (na := 4503600078172153) (ny := 4503600078172151)
    (by rw [abs_le]; push_cast; constructor <;> linarith only [hO.1, hO.2])
    (by rw [abs_le]; push_cast; constructor <;> linarith only [hO.1, hO.2]) (by norm_num) (by norm_num [abs_le])
  push_cast at this
  exact this

theorem endless_up (hR : IeeeNearest R) : newtonStep (fin endlessM : Dbl R) (fin (1 / 2)) (fin (4503600078172151 / 2 ^ 26)) = fin endlessM := by
  have hO := oddPi_bounds
  have := grid_step hR (nx := 4503600078172151) (nm := 4503600078172152) (na := 4503600078172151) (ny := 4503600078172152)
    (by rw [abs_le]; push_cast; constructor <;> linarith only [hO.1, hO.2])
    (by rw [abs_le]; push_cast; constructor <;> linarith only [hO.1, hO.2]) (by norm_num) (by norm_num [abs_le])
  push_cast at this
  exact this

/-- **C99, the other side.** Beyond 2^26 neighbouring doubles are further apart than the bound of the loop: here the solver alternates between two of them for ever. -/
theorem newton_endless (hR : IeeeNearest R) (fuel : Nat) : newtonSolver fuel (fin endlessM : Dbl R) (fin (1 / 2)) = .error .fuel := by
  obtain ⟨t, ht, ht1⟩ := newtonTol_dbl hR.toNearest
  have ht2 : t < 1 / 2 ^ 26 := by
    have := (abs_le.1 ht1).2
    rw [newtonTol] at this
    linarith only [this, show (1 : ℝ) / 10 ^ 8 + 1 / 2 ^ 69 < 1 / 2 ^ 26 by norm_num]
  have hstep : ∀ (a b : ℝ) (k : Int), |k| = 1 → b - a = k / 2 ^ 26 → (fin b -. fin a : Dbl R) = fin (k / 2 ^ 26) := by
    intro a b k hk h
    have e : (k : ℝ) / 2 ^ 26 = (k : ℝ) * 2 ^ (-26 : Int) := by rw [zpow_neg, show (2 : ℝ) ^ (26 : Int) = 2 ^ 26 from rfl]; ring
    rw [sub_fin, h, hR.ieee, e]
    exact Binary64.rnd_repr _ _ (by rw [hk]; norm_num) (by norm_num) (by norm_num)
  have h1 := hstep endlessM (4503600078172151 / 2 ^ 26) (-1) (by norm_num) (by rw [endlessM]; norm_num)
  have h2 := hstep (4503600078172151 / 2 ^ 26) endlessM 1 (by norm_num) (by rw [endlessM]; norm_num)
  have key : ∀ n : Nat, (∀ eps : ℝ, t < |eps| → newtonLoop (fin endlessM : Dbl R) (fin (1 / 2)) n (fin endlessM) (fin eps) = .error .fuel) ∧
      (∀ eps : ℝ, t < |eps| → newtonLoop (fin endlessM : Dbl R) (fin (1 / 2)) n (fin (4503600078172151 / 2 ^ 26)) (fin eps) = .error .fuel) := by
    intro n
    induction n with
    | zero => exact ⟨fun _ _ => rfl, fun _ _ => rfl⟩
    | succ n ih =>
      constructor
      · intro eps he
        rw [newtonLoop_dbl ht, if_pos he, endless_down hR, h1]
        exact ih.2 _ (by push_cast; rw [abs_div]; norm_num at ht2 ⊢; exact ht2)
      · intro eps he
        rw [newtonLoop_dbl ht, if_pos he, endless_up hR, h2]
        exact ih.1 _ (by push_cast; rw [abs_div]; norm_num at ht2 ⊢; exact ht2)
  have h3 : (ofI 1 : Dbl R) = fin 1 := by simpa using ofI_int (R := R) 1 (by norm_num)
  rw [newtonSolver, h3]
  refine (key fuel).1 1 ?_
  rw [abs_one]
  exact ht2.trans (by norm_num)

/-- In C doubles. -/
example : Binary64.Number endlessM ∧ ∀ fuel, newtonSolver fuel (fin endlessM : Double) (fin (1 / 2)) = .error .fuel := by
  refine ⟨⟨⟨4503600078172152, -26, ?_, by norm_num, by norm_num⟩, ?_⟩, newton_endless binary64_ieee⟩
  · rw [endlessM, zpow_neg, show (2 : ℝ) ^ (26 : Int) = 2 ^ 26 from rfl]; push_cast; ring
  · have h : |endlessM| ≤ 2 ^ 27 := by rw [endlessM]; norm_num
    exact h.trans_lt (pow_lt_pow_right₀ (by norm_num) (by norm_num))

end NiiC
