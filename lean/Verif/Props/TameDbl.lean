import Verif.Props.TemperedDbl
import Verif.Props.Underflow

/-!
# C103 for the other models: bounds on what the likelihood code returns

`tame_swaps_doubles` and `tame_moves_doubles` need a bound on the values that the code of a model returns between the bounds of its parameters. The egg box has one; here are
the two Gaussians and the regression.
-/

set_option linter.unusedSectionVars false

namespace NiiC

open Spec Dbl

theorem FinIn.within {lo hi : Int} {v : Double} (h : FinIn ((lo : ℝ), (hi : ℝ)) v) : Within v lo hi := h

/-- **C103, the two Gaussians.** In the box of the sample the values are between 0 and 2, and the log-prior is 0. -/
theorem multi_tame (ndim nline : Int) (data : List Double) : TameOn multiGaussian [((-30 : ℝ), (30 : ℝ)), (-30, 30)] ndim nline data 2 := by
  intro x hx
  match x, hx with
  | _, .cons h (.cons h' .nil) =>
    have g : Within _ (-30) 30 := FinIn.within (lo := -30) (hi := 30) (by simpa using h)
    have g' : Within _ (-30) 30 := FinIn.within (lo := -30) (hi := 30) (by simpa using h')
    obtain ⟨v, hv, h1, h2⟩ := multiGaussian_double g g'
    push_cast at h1 h2
    refine ⟨v, 0, fun b => by rw [← hv]; rfl, ?_, by rw [abs_of_nonneg h1, abs_zero, add_zero]; exact h2⟩
    have zero : (ofI 0 : Double) = fin 0 := by rw [ofI_int 0 (by norm_num)]; norm_num
    rw [← zero]
    rfl

/-! ## Regression -/

/-- A finite double between two doubles. -/
theorem FinIn.of_rnd {y lo hi : ℝ} (h1 : lo ≤ y) (h2 : y ≤ hi) (hl : Rounding.binary64.rnd lo = .fin lo) (hh : Rounding.binary64.rnd hi = .fin hi) :
    FinIn (R := Rounding.binary64) (lo, hi) (Rounding.binary64.rnd y) := rnd_between h1 h2 hl hh

theorem rnd_two_inv (k : Nat) (hk : k ≤ 48) : Rounding.binary64.rnd (1 / 2 ^ k) = .fin (1 / 2 ^ k) := by
  have h := Rounding.binary64.rnd_frac (2 ^ (48 - k)) (by
    rw [abs_of_nonneg (by positivity)]
    exact pow_le_pow_right₀ (by norm_num) (by omega))
  have e : (((2 : Int) ^ (48 - k) : Int) : ℝ) / 2 ^ 48 = 1 / 2 ^ k := by
    push_cast
    rw [div_eq_div_iff (by positivity) (by positivity), ← pow_add, one_mul]
    congr 1
    omega
  rwa [e] at h

theorem rnd_two_pow (k : Nat) (hk : k ≤ 53) : Rounding.binary64.rnd (2 ^ k) = .fin (2 ^ k) := by
  have h := b64_int (2 ^ k) (by
    rw [abs_of_nonneg (by positivity)]
    exact pow_le_pow_right₀ (by norm_num) hk)
  push_cast at h
  exact h

/-- The square of the standard deviation. -/
theorem regression_var {d : Double} (h : FinIn (1 / 2 ^ 7, 2 ^ 7) d) : FinIn (1 / 2 ^ 14, 2 ^ 14) (Arith.pow d (ofI 2)) := by
  obtain ⟨y, rfl, h1, h2⟩ := h
  rw [pow_two_double]
  refine FinIn.of_rnd ?_ ?_ (rnd_two_inv 14 (by norm_num)) (rnd_two_pow 14 (by norm_num))
  · have := pow_le_pow_left₀ (by positivity) h1 2
    norm_num at this ⊢
    exact this
  · have := pow_le_pow_left₀ (by linarith [show (0 : ℝ) ≤ 1 / 2 ^ 7 by positivity]) h2 2
    norm_num at this ⊢
    exact this

theorem log_within {v : Double} {k : Nat} (hk : k ≤ 48) (h : FinIn (1 / 2 ^ k, 2 ^ k) v) : Within (Arith.log v) (-k) k := by
  obtain ⟨y, rfl, h1, h2⟩ := h
  have hy : 0 < y := lt_of_lt_of_le (by positivity) h1
  rw [log_double hy]
  have l2 : Real.log 2 ≤ 1 := by have := Real.log_two_lt_d9; norm_num at this; linarith
  have l0 : 0 ≤ Real.log 2 := Real.log_nonneg (by norm_num)
  have kk : (k : ℝ) * Real.log 2 ≤ k := by nlinarith [Nat.cast_nonneg (α := ℝ) k]
  have hb : |((k : Nat) : Int)| ≤ 2 ^ 53 := by
    rw [abs_of_nonneg (by positivity)]
    have : ((k : Nat) : Int) ≤ 48 := by exact_mod_cast hk
    exact this.trans (by norm_num)
  refine Within.of_rnd ?_ ?_ (by rwa [abs_neg]) hb
  · have := Real.log_le_log (by positivity) h1
    rw [Real.log_div (by norm_num) (by positivity), Real.log_one, Real.log_pow] at this
    push_cast
    linarith
  · have := Real.log_le_log hy h2
    rw [Real.log_pow] at this
    push_cast
    linarith

/-- Half of a value. -/
theorem Within.half {v : Double} {a : Int} (h : Within v (-a) a) (hb : |a| ≤ 2 ^ 53) : Within (Arith.lit 1 2 *. v) (-a) a := by
  obtain ⟨y, rfl, h1, h2⟩ := h
  push_cast at h1
  rw [half_lit, mul_fin]
  have : 0 ≤ (a : ℝ) := by linarith
  exact Within.of_rnd (by push_cast; linarith) (by linarith) (by rwa [abs_neg]) hb

theorem half_neg_lit : (Arith.lit (-1) 2 : Double) = fin (-(1 / 2)) := by
  have h := Rounding.binary64.rnd_frac (-(2 ^ 47)) (by norm_num)
  show Rounding.binary64.rnd (((-1 : Int) : ℝ) / ((2 : Nat) : ℝ)) = _
  rw [show (((-1 : Int) : ℝ) / ((2 : Nat) : ℝ)) = (((-(2 ^ 47) : Int)) : ℝ) / 2 ^ 48 by norm_num, h]
  show XV.fin _ = XV.fin _
  norm_num

theorem Within.negHalf {v : Double} {a : Int} (h : Within v (-a) a) (hb : |a| ≤ 2 ^ 53) : Within (Arith.lit (-1) 2 *. v) (-a) a := by
  obtain ⟨y, rfl, h1, h2⟩ := h
  push_cast at h1
  rw [half_neg_lit, mul_fin]
  have : 0 ≤ (a : ℝ) := by linarith
  exact Within.of_rnd (by push_cast; linarith) (by linarith) (by rwa [abs_neg]) hb

/-- Division by a number of at least `1 / 2^14`. -/
theorem Within.div_var {v w : Double} {a : Int} (h : Within v 0 a) (h' : FinIn (1 / 2 ^ 14, 2 ^ 14) w) (hb : |a * 2 ^ 14| ≤ 2 ^ 53) : Within (v /. w) 0 (a * 2 ^ 14) := by
  obtain ⟨x, rfl, x1, x2⟩ := h
  obtain ⟨y, rfl, y1, y2⟩ := h'
  have hy : 0 < y := lt_of_lt_of_le (by positivity) y1
  push_cast at x1
  rw [div_fin _ _ hy.ne']
  refine Within.of_rnd (by push_cast; positivity) ?_ (by norm_num) hb
  rw [div_le_iff₀ hy]
  push_cast
  have : (1 : ℝ) ≤ 2 ^ 14 * y := by
    have := mul_le_mul_of_nonneg_left y1 (show (0 : ℝ) ≤ 2 ^ 14 by positivity)
    norm_num at this ⊢
    linarith
  nlinarith

/-- One line of data. -/
theorem regressionOne_within {a b d x y : Double} {K : Int} (hd : FinIn (1 / 2 ^ 7, 2 ^ 7) d) (hr : Within (x *. a +. b -. y) (-K) K) (hK : |K| ≤ 2 ^ 18) :
    Within (regressionOne a b d x y) (-(20 + K ^ 2 * 2 ^ 14)) (20 + K ^ 2 * 2 ^ 14) := by
  have hK2 : K ^ 2 ≤ 2 ^ 36 := by
    rw [← sq_abs]
    exact le_trans (pow_le_pow_left₀ (abs_nonneg K) hK 2) (by norm_num)
  have hK0 : 0 ≤ K ^ 2 := sq_nonneg K
  have var := regression_var hd
  have pi4 : FinIn (2 ^ 0, 2 ^ 2) (piLit : Double) := FinIn.of_rnd (y := ((3141592653589793 : Int) : ℝ) / ((1000000000000000 : Nat) : ℝ)) (by norm_num) (by norm_num)
    (rnd_two_pow 0 (by norm_num)) (rnd_two_pow 2 (by norm_num))
  have two : (ofI 2 : Double) = fin 2 := by rw [ofI_int 2 (by norm_num)]; norm_num
  have tp : FinIn (1 / 2 ^ 3, 2 ^ 3) (ofI 2 *. piLit : Double) := by
    obtain ⟨p, hp, p1, p2⟩ := pi4
    rw [hp, two, mul_fin]
    exact FinIn.of_rnd (by norm_num at p1 ⊢; linarith) (by norm_num at p2 ⊢; linarith) (rnd_two_inv 3 (by norm_num)) (rnd_two_pow 3 (by norm_num))
  have t1 := (log_within (by norm_num) tp).negHalf (by norm_num)
  have t2 := (log_within (by norm_num) var).half (by norm_num)
  have t3 := (hr.sq (abs_le.2 ⟨by linarith, by linarith⟩)).div ((Within.int 2 (by norm_num)).wider (by norm_num) (by norm_num)) (abs_le.2 ⟨by linarith, by linarith⟩)
  have t4 := t3.div_var var (abs_le.2 ⟨by linarith, by linarith⟩)
  have t5 := (t1.sub t2 (by norm_num) (by norm_num)).sub t4 (abs_le.2 ⟨by push_cast; linarith, by push_cast; linarith⟩) (by norm_num)
  exact t5.wider (by push_cast; linarith) (by push_cast; linarith)

/-- The sum over the lines of data. -/
theorem regressionSum_within {a b d : Double} {ndim : Nat} {data : List Double} {K : Int} (hd : FinIn (1 / 2 ^ 7, 2 ^ 7) d) (hK : |K| ≤ 2 ^ 18) :
    ∀ (k i : Nat) (s : Double) (T : Int), Within s (-T) T → 0 ≤ T → T + k * (20 + K ^ 2 * 2 ^ 14) ≤ 2 ^ 53 →
      (∀ l, i ≤ l → l < i + k → Within (data.getD (l * ndim) (ofI 0) *. a +. b -. data.getD (l * ndim + 1) (ofI 0)) (-K) K) →
      Within (regressionSum a b d ndim data k i s) (-(T + k * (20 + K ^ 2 * 2 ^ 14))) (T + k * (20 + K ^ 2 * 2 ^ 14))
  | 0, i, s, T, hs, _, _, _ => by simpa [regressionSum] using hs
  | k + 1, i, s, T, hs, hT, hb, hall => by
    have hM : 0 ≤ 20 + K ^ 2 * 2 ^ 14 := by positivity
    obtain ⟨M, hMe⟩ : ∃ M, M = 20 + K ^ 2 * 2 ^ 14 := ⟨_, rfl⟩
    have h1 := regressionOne_within hd (hall i le_rfl (by omega)) hK
    rw [← hMe] at hM h1 hb
    rw [← hMe]
    have hk : 0 ≤ (k : Int) * M := mul_nonneg (by positivity) hM
    push_cast at hb
    have hb' : T + M + k * M ≤ 2 ^ 53 := by linarith
    have h2 := hs.add h1 (abs_le.2 ⟨by linarith, by linarith⟩) (abs_le.2 ⟨by linarith, by linarith⟩)
    rw [show -T + -M = -(T + M) by ring] at h2
    have h3 := regressionSum_within hd hK k (i + 1) _ (T + M) h2 (by linarith) (by rw [← hMe]; exact hb') (fun l l1 l2 => hall l (by omega) (by omega))
    rw [← hMe] at h3
    rw [regressionSum, show T + ((k + 1 : Nat) : Int) * M = T + M + k * M by push_cast; ring]
    exact h3

theorem inv_within {v : Double} {j k : Nat} (hj : j ≤ 48) (hk : k ≤ 48) (h : FinIn (1 / 2 ^ j, 2 ^ k) v) : FinIn (1 / 2 ^ k, 2 ^ j) (ofI 1 /. v) := by
  obtain ⟨y, rfl, h1, h2⟩ := h
  have hy : 0 < y := lt_of_lt_of_le (by positivity) h1
  have one : (ofI 1 : Double) = fin 1 := by rw [ofI_int 1 (by norm_num)]; norm_num
  rw [one, div_fin _ _ hy.ne']
  refine FinIn.of_rnd ?_ ?_ (rnd_two_inv k hk) (rnd_two_pow j (by omega))
  · exact one_div_le_one_div_of_le hy h2
  · rw [div_le_iff₀ hy]
    have := mul_le_mul_of_nonneg_left h1 (show (0 : ℝ) ≤ 2 ^ j by positivity)
    rwa [mul_one_div_cancel (by positivity)] at this

/-- The log-prior of a parameter with a uniform prior. -/
theorem priorUnif_within (b : ℝ × ℝ) (h1 : 1 / 2 ^ 20 ≤ b.2 - b.1) (h2 : b.2 - b.1 ≤ 2 ^ 20) : Within (Arith.log (priorUnif (fin b.1, fin b.2))) (-20) 20 := by
  have h : FinIn (1 / 2 ^ 20, 2 ^ 20) (fin b.2 -. fin b.1 : Double) := by
    rw [sub_fin]
    exact FinIn.of_rnd h1 h2 (rnd_two_inv 20 (by norm_num)) (rnd_two_pow 20 (by norm_num))
  exact log_within (by norm_num) (inv_within (by norm_num) (by norm_num) h)

/-- The log-prior of the standard deviation. -/
theorem priorLogunif_within (b : ℝ × ℝ) (h0 : 1 / 2 ^ 7 ≤ b.1) (h1 : 2 * b.1 ≤ b.2) (h2 : b.2 ≤ 2 ^ 7) {d : Double} (hd : FinIn (1 / 2 ^ 7, 2 ^ 7) d) :
    Within (Arith.log (priorLogunif (fin b.1, fin b.2) d)) (-11) 11 := by
  have hb : 0 < b.1 := lt_of_lt_of_le (by positivity) h0
  have q : FinIn (2 ^ 1, 2 ^ 14) (fin b.2 /. fin b.1 : Double) := by
    rw [div_fin _ _ hb.ne']
    refine FinIn.of_rnd ?_ ?_ (rnd_two_pow 1 (by norm_num)) (rnd_two_pow 14 (by norm_num))
    · rw [le_div_iff₀ hb]; norm_num; exact h1
    · rw [div_le_iff₀ hb]
      have := mul_le_mul_of_nonneg_left h0 (show (0 : ℝ) ≤ 2 ^ 14 by positivity)
      norm_num at this h2 ⊢
      linarith
  have l : FinIn (1 / 2 ^ 1, 2 ^ 4) (Arith.log (fin b.2 /. fin b.1 : Double)) := by
    obtain ⟨y, hy, y1, y2⟩ := q
    have y0 : 0 < y := lt_of_lt_of_le (by positivity) y1
    rw [hy, log_double y0]
    have l2 := Real.log_two_gt_d9
    have l2' := Real.log_two_lt_d9
    have m1 := Real.log_le_log (by positivity) y1
    have m2 := Real.log_le_log y0 y2
    rw [Real.log_pow] at m1 m2
    push_cast at m1 m2
    norm_num at l2 l2' m1 m2
    exact FinIn.of_rnd (by norm_num; linarith) (by norm_num; linarith) (rnd_two_inv 1 (by norm_num)) (rnd_two_pow 4 (by norm_num))
  have p : FinIn (1 / 2 ^ 8, 2 ^ 11) (d *. Arith.log (fin b.2 /. fin b.1 : Double)) := by
    obtain ⟨x, rfl, x1, x2⟩ := hd
    obtain ⟨y, hy, y1, y2⟩ := l
    rw [hy, mul_fin]
    have x0 : 0 < x := lt_of_lt_of_le (by positivity) x1
    have y0 : 0 < y := lt_of_lt_of_le (by positivity) y1
    refine FinIn.of_rnd ?_ ?_ (rnd_two_inv 8 (by norm_num)) (rnd_two_pow 11 (by norm_num))
    · have := mul_le_mul x1 y1 (by positivity) x0.le
      norm_num at this ⊢
      exact this
    · have := mul_le_mul x2 y2 y0.le (by positivity)
      norm_num at this ⊢
      exact this
  have r := inv_within (by norm_num) (by norm_num) p
  refine log_within (k := 11) (by norm_num) ?_
  obtain ⟨y, hy, y1, y2⟩ := r
  exact ⟨y, hy, y1, y2.trans (by norm_num)⟩

/-- **C103, the regression.** With slopes of size at most `A`, intercepts of at most `B`, standard deviations between 1/128 and 128 and `N` lines of data of size at most `X` the
log-likelihood and the log-prior are together at most `N * (20 + 2^14 * (X * A + B + X)^2) + 51`. -/
theorem regression_tame (A B X : Int) (N : Nat) (ba bb bd : ℝ × ℝ) (ha : -(A : ℝ) ≤ ba.1 ∧ ba.2 ≤ A) (hb : -(B : ℝ) ≤ bb.1 ∧ bb.2 ≤ B)
    (ha' : 1 / 2 ^ 20 ≤ ba.2 - ba.1 ∧ ba.2 - ba.1 ≤ 2 ^ 20) (hb' : 1 / 2 ^ 20 ≤ bb.2 - bb.1 ∧ bb.2 - bb.1 ≤ 2 ^ 20)
    (hd : 1 / 2 ^ 7 ≤ bd.1 ∧ 2 * bd.1 ≤ bd.2 ∧ bd.2 ≤ 2 ^ 7) (hA : 0 ≤ A) (hB : 0 ≤ B) (hX : 0 ≤ X) (hK : X * A + B + X ≤ 2 ^ 18)
    (hN : N * (20 + (X * A + B + X) ^ 2 * 2 ^ 14) ≤ (2 ^ 53 : Int)) (ndim : Int) (data : List Double)
    (hdata : ∀ l < N, Within (data.getD (l * ndim.toNat) (ofI 0)) (-X) X ∧ Within (data.getD (l * ndim.toNat + 1) (ofI 0)) (-X) X) :
    TameOn regression [ba, bb, bd] ndim N data ((N * (20 + (X * A + B + X) ^ 2 * 2 ^ 14) : Int) + 51) := by
  intro x hx
  match x, hx with
  | [a, b, d], .cons ka (.cons kb (.cons kd .nil)) =>
    have wa : Within a (-A) A := by
      obtain ⟨y, rfl, y1, y2⟩ := ka
      exact ⟨y, rfl, by push_cast; linarith, by linarith⟩
    have wb : Within b (-B) B := by
      obtain ⟨y, rfl, y1, y2⟩ := kb
      exact ⟨y, rfl, by push_cast; linarith, by linarith⟩
    have wd : FinIn (1 / 2 ^ 7, 2 ^ 7) d := by
      obtain ⟨y, rfl, y1, y2⟩ := kd
      exact ⟨y, rfl, hd.1.trans y1, y2.trans hd.2.2⟩
    have hXA : 0 ≤ X * A := mul_nonneg hX hA
    have big : (2 : Int) ^ 18 ≤ 2 ^ 53 := by norm_num
    have hsum := regressionSum_within (ndim := ndim.toNat) (data := data) (a := a) (b := b) (K := X * A + B + X) wd (abs_le.2 ⟨by linarith, hK⟩) N 0 (ofI 0) 0
      ((Within.int 0 (by norm_num)).wider (by norm_num) (by norm_num)) le_rfl (by simpa using hN) (fun l _ hl => by
        obtain ⟨w1, w2⟩ := hdata l (by simpa using hl)
        have e1 := (w1.mul wa (abs_le.2 ⟨by linarith, by linarith⟩)).add wb (abs_le.2 ⟨by linarith, by linarith⟩) (abs_le.2 ⟨by linarith, by linarith⟩)
        exact (e1.sub w2 (abs_le.2 ⟨by linarith, by linarith⟩) (abs_le.2 ⟨by linarith, by linarith⟩)).wider (by linarith) (by linarith))
    simp only [zero_add] at hsum
    obtain ⟨v, hv, v1, v2⟩ := hsum
    have p1 := priorUnif_within ba ha'.1 ha'.2
    have p2 := priorUnif_within bb hb'.1 hb'.2
    have p3 := priorLogunif_within bd hd.1 hd.2.1 hd.2.2 wd
    obtain ⟨P, hP, q1, q2⟩ := (p1.add p2 (by norm_num) (by norm_num)).add p3 (by norm_num) (by norm_num)
    refine ⟨v, P, fun β => ?_, hP, ?_⟩
    · rw [← hv]
      simp only [regression, Int.toNat_natCast]
    · have t1 : |v| ≤ ((N * (20 + (X * A + B + X) ^ 2 * 2 ^ 14) : Int) : ℝ) := abs_le.2 ⟨by push_cast at v1 ⊢; linarith, v2⟩
      have t2 : |P| ≤ 51 := abs_le.2 ⟨by push_cast at q1; linarith, by push_cast at q2; linarith⟩
      linarith

/-! ## Examples -/

/-- The two Gaussians at the point (3, -5). -/
example : ∃ v P : ℝ, (∀ b : Double, multiGaussian.logll 2 [fin 3, fin (-5)] 0 [] b = fin v *. b) ∧
    multiGaussian.logPrior (dblBounds Rounding.binary64 [(-30, 30), (-30, 30)]) [fin 3, fin (-5)] = fin P ∧ |v| + |P| ≤ 2 :=
  multi_tame 2 0 [] _ (.cons ⟨3, rfl, by norm_num, by norm_num⟩ (.cons ⟨-5, rfl, by norm_num, by norm_num⟩ .nil))

/-- The regression on two lines of data. -/
theorem regrD_tame (data : List Double) (h : regrFileD.cells = .ok data) :
    TameOn regression [((-20 : ℝ), (20 : ℝ)), (-50, 50), (1, 30)] 2 regrFileD.nlines data (2 * (20 + 113 ^ 2 * 2 ^ 14) + 51) := by
  obtain rfl : [.fin 0, .fin 1, .fin 1, .fin 3] = data := by simpa [regrFileD] using h
  have := regression_tame 20 50 3 2 (-20, 20) (-50, 50) (1, 30) (by norm_num) (by norm_num) (by norm_num) (by norm_num) (by norm_num) (by norm_num) (by norm_num) (by norm_num)
    (by norm_num) (by norm_num) 2 [.fin 0, .fin 1, .fin 1, .fin 3] (fun l hl => by
      match l, hl with
      | 0, _ => exact ⟨⟨0, rfl, by norm_num, by norm_num⟩, ⟨1, rfl, by norm_num, by norm_num⟩⟩
      | 1, _ => exact ⟨⟨1, rfl, by norm_num, by norm_num⟩, ⟨3, rfl, by norm_num, by norm_num⟩⟩)
  norm_num at this ⊢
  exact this

/-- Swaps of every run of this regression without tuning of the ladder. -/
example (clock : Nat) (root : Fin 3) (w0 w w' : W 3 Double) (h0 : seqInit { regrCfgD with tuneLadder := 0 } regrFileD clock root = .ok w0)
    (hs : Steps { regrCfgD with tuneLadder := 0 } root w0 w) (ty ty' : Tally 3 Double) (h : seqSwap { regrCfgD with tuneLadder := 0 } root w ty = .ok (w', ty')) :
    ∃ (i j : Fin 3) (test : Rng → Bool) (g : Rng) (Li Lj : ℝ), w'.hist = w.hist ++ [(Ev.swap i j (test g), w'.st)] ∧
      |(((Finset.range lcgM).filter (fun g => test g = true)).card : ℝ) - 2 ^ 48 * min 1 (Real.exp ((![1 / 8, 1 / 2, 1] i - ![1 / 8, 1 / 2, 1] j) * (Lj - Li)))| < 2 ^ 29 := by
  obtain ⟨i, j, test, g, Li, Lj, e, -, -, k⟩ := tame_swaps_doubles libm_binary64 regression (by simp [bundled]) [((-20 : ℝ), (20 : ℝ)), (-50, 50), (1, 30)]
    (fitsDbl_repr regression_fits_b64) powNan_binary64 2 rfl { regrCfgD with tuneLadder := 0 } rfl rfl regrD_valid.user (.inl le_rfl) regrFileD (.inl (by decide))
    (fun s => initDraws_in regression_fits_b64 _) clock root w0 h0 ![1 / 8, 1 / 2, 1] (fun r => by fin_cases r <;> exact ⟨rfl, by norm_num, by norm_num⟩) _
    (le_trans (by norm_num : _ ≤ (2 : ℝ) ^ 29) (pow_le_pow_right₀ (by norm_num) (by norm_num))) regrD_tame w hs w' ty ty' h
  exact ⟨i, j, test, g, Li, Lj, e, k.trans (by norm_num)⟩

/-- Moves of every batch of the same runs. -/
example (clock : Nat) (root : Fin 3) (w0 w w' : W 3 Double) (h0 : seqInit { regrCfgD with tuneLadder := 0 } regrFileD clock root = .ok w0)
    (hs : Steps { regrCfgD with tuneLadder := 0 } root w0 w) (h : seqBatch { regrCfgD with tuneLadder := 0 } 50 w = .ok w') (r : Fin 3) :
    ∃ c : Nat → Ch Double, c 0 = w.st.ch r ∧ c 50 = w'.st.ch r ∧ ∀ k, ∃ (y : List Double) (test : Rng → Bool) (g : Rng) (L P : ℝ),
      (c (k + 1)).x = (if test g then y else (c k).x) ∧
      ((nan ∈ y ∧ ∀ g, test g = false) ∨ ∃ L' P' : ℝ,
        |(((Finset.range lcgM).filter (fun g => test g = true)).card : ℝ) - 2 ^ 48 * min 1 (Real.exp (![1 / 8, 1 / 2, 1] r * (L' - L) + P' - P))| < 2 ^ 27) := by
  obtain ⟨c, c0, c1, hc⟩ := tame_moves_doubles libm_binary64 regression (by simp [bundled]) [((-20 : ℝ), (20 : ℝ)), (-50, 50), (1, 30)]
    (fitsDbl_repr regression_fits_b64) powNan_binary64 2 rfl { regrCfgD with tuneLadder := 0 } rfl rfl regrD_valid.user (.inl le_rfl) regrFileD (.inl (by decide))
    (fun s => initDraws_in regression_fits_b64 _) clock root w0 h0 ![1 / 8, 1 / 2, 1] (fun r => by fin_cases r <;> exact ⟨rfl, by norm_num, by norm_num⟩) _
    (le_trans (by norm_num : _ ≤ (2 : ℝ) ^ 29) (pow_le_pow_right₀ (by norm_num) (by norm_num))) regrD_tame w hs w' 50 h r
  refine ⟨c, c0, c1, fun k => ?_⟩
  obtain ⟨y, test, g, L, P, -, h1, -, -, -, h2⟩ := hc k
  refine ⟨y, test, g, L, P, h1, h2.imp_right ?_⟩
  rintro ⟨L', P', -, -, q⟩
  exact ⟨L', P', q.trans (by norm_num)⟩

end NiiC
