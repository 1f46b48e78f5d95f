import Verif.Model.Orbit
import Verif.Num.Real
import Verif.Num.XReal
import Mathlib.Analysis.Calculus.MeanValue
import Mathlib.Analysis.SpecialFunctions.Trigonometric.Deriv
import Mathlib.Analysis.SpecialFunctions.Trigonometric.Bounds
import Mathlib.Tactic.Linarith
import Mathlib.Tactic.Positivity
import Mathlib.Tactic.FieldSimp

/-!
# Kepler's equation in the orbit model: C64
-/

set_option linter.unusedSectionVars false
set_option linter.unusedSimpArgs false

namespace NiiC

/-- Kepler's equation: `x` is the eccentric anomaly that belongs to the mean anomaly `m`. -/
def Spec.Kepler (m e x : ℝ) : Prop := x - e * Real.sin x = m

/-- For every mean anomaly there is exactly one eccentric anomaly. -/
theorem kepler_unique_root (m e : ℝ) (h0 : 0 ≤ e) (h1 : e < 1) : ∃! x, Spec.Kepler m e x := by
  have hc : ContinuousOn (fun x : ℝ => x - e * Real.sin x) (Set.Icc (m - e) (m + e)) := by fun_prop
  have hlo : m - e - e * Real.sin (m - e) ≤ m := by nlinarith [Real.neg_one_le_sin (m - e)]
  have hhi : m ≤ m + e - e * Real.sin (m + e) := by nlinarith [Real.sin_le_one (m + e)]
  obtain ⟨x, _, hx⟩ := intermediate_value_Icc (by linarith) hc ⟨hlo, hhi⟩
  refine ⟨x, hx, fun y hy => ?_⟩
  have hx' : x - e * Real.sin x = m := hx
  have hy' : y - e * Real.sin y = m := hy
  have hs : |Real.sin y - Real.sin x| ≤ |y - x| := by
    have := Real.abs_sin_sub_sin_le y x
    exact this
  have e1 : y - x = e * (Real.sin y - Real.sin x) := by linear_combination hy' - hx'
  have : |y - x| ≤ e * |y - x| := by
    calc |y - x| = e * |Real.sin y - Real.sin x| := by rw [e1, abs_mul, abs_of_nonneg h0]
      _ ≤ _ := mul_le_mul_of_nonneg_left hs h0
  have h2 : |y - x| = 0 := by nlinarith [abs_nonneg (y - x)]
  linarith [abs_eq_zero.1 h2]

theorem sin_taylor_pos (x d : ℝ) (hd : 0 ≤ d) : |Real.sin x - Real.sin (x - d) - d * Real.cos x| ≤ d ^ 2 / 2 := by
  have key := image_norm_le_of_norm_deriv_right_le_deriv_boundary (E := ℝ) (a := 0) (b := d)
    (f := fun t => Real.sin x - Real.sin (x - t) - t * Real.cos x) (f' := fun t => Real.cos (x - t) - Real.cos x)
    (B := fun t => t ^ 2 / 2) (B' := fun t => t) (by fun_prop)
    (fun t _ => by
      have h1 : HasDerivAt (fun t => x - t) (-1) t := by simpa using (hasDerivAt_id t).const_sub x
      have h2 : HasDerivAt (fun t => Real.sin (x - t)) (Real.cos (x - t) * (-1)) t := h1.sin
      have h3 : HasDerivAt (fun t : ℝ => t * Real.cos x) (1 * Real.cos x) t := (hasDerivAt_id t).mul_const _
      have h4 := (h2.const_sub (Real.sin x)).sub h3
      exact (h4.congr_deriv (by ring)).hasDerivWithinAt)
    (by simp)
    (fun t => ((hasDerivAt_pow 2 t).div_const 2).congr_deriv (by norm_num))
    (fun t ht => by
      have := Real.abs_cos_sub_cos_le (x - t) x
      have ht0 : 0 ≤ t := ht.1
      rw [show x - t - x = -t by ring, abs_neg, abs_of_nonneg ht0] at this
      exact this)
  exact key ⟨hd, le_rfl⟩

/-- The error of the tangent of the sine. -/
theorem sin_taylor (x y : ℝ) : |Real.sin x - Real.sin y - (x - y) * Real.cos x| ≤ (x - y) ^ 2 / 2 := by
  rcases le_total y x with h | h
  · have := sin_taylor_pos x (x - y) (by linarith)
    rwa [_root_.sub_sub_cancel] at this
  · have := sin_taylor_pos (-x) (y - x) (by linarith)
    have e : -x - (y - x) = -y := by ring
    rw [e, Real.sin_neg, Real.sin_neg, Real.cos_neg, ← abs_neg] at this
    calc _ = |-(-Real.sin x - -Real.sin y - (y - x) * Real.cos x)| := by congr 1; ring
      _ ≤ _ := this
      _ = _ := by ring

theorem newtonStep_real (m e x : ℝ) : newtonStep m e x = x - (x - e * Real.sin x - m) / (1 - e * Real.cos x) := by
  simp [newtonStep]

/-- One step of the solver squares the error. -/
theorem newtonStep_error (m e r x : ℝ) (h0 : 0 ≤ e) (h1 : e < 1) (hr : Spec.Kepler m e r) :
    |newtonStep m e x - r| ≤ e / (2 * (1 - e)) * (x - r) ^ 2 := by
  have hd : 1 - e ≤ 1 - e * Real.cos x := by nlinarith [Real.cos_le_one x]
  have hpos : 0 < 1 - e * Real.cos x := by linarith
  have hr' : r - e * Real.sin r = m := hr
  have e1 : newtonStep m e x - r = e * (Real.sin x - Real.sin r - (x - r) * Real.cos x) / (1 - e * Real.cos x) := by
    rw [newtonStep_real, eq_div_iff hpos.ne', ← hr']
    field_simp
    ring
  rw [e1, abs_div, abs_of_pos hpos, abs_mul, abs_of_nonneg h0, div_le_iff₀ hpos]
  have h2 := sin_taylor x r
  have hk : 0 ≤ e / (2 * (1 - e)) * (x - r) ^ 2 := mul_nonneg (div_nonneg h0 (by linarith)) (sq_nonneg _)
  calc e * |Real.sin x - Real.sin r - (x - r) * Real.cos x| ≤ e * ((x - r) ^ 2 / 2) := mul_le_mul_of_nonneg_left h2 h0
    _ = e / (2 * (1 - e)) * (x - r) ^ 2 * (1 - e) := by
        have : (1 - e) ≠ 0 := by linarith
        field_simp
    _ ≤ _ := mul_le_mul_of_nonneg_left hd hk

/-- The start of the solver is off by at most the eccentricity. -/
theorem newton_start (m e r : ℝ) (h0 : 0 ≤ e) (hr : Spec.Kepler m e r) : |m - r| ≤ e := by
  have hr' : r - e * Real.sin r = m := hr
  rw [← hr', show r - e * Real.sin r - r = -(e * Real.sin r) by ring, abs_neg, abs_mul, abs_of_nonneg h0]
  nlinarith [Real.abs_sin_le_one r]

/-- The factor by which a step shrinks the error at least. -/
noncomputable def newtonRate (e : ℝ) : ℝ := e / (2 * (1 - e)) * e

theorem newtonRate_nonneg {e : ℝ} (h0 : 0 ≤ e) (h1 : e < 1) : 0 ≤ newtonRate e :=
  mul_nonneg (div_nonneg h0 (by linarith)) h0

theorem newtonRate_lt {e : ℝ} (h1 : e < 1) (h2 : e ^ 2 + 2 * e < 2) : newtonRate e < 1 := by
  rw [newtonRate, div_mul_eq_mul_div, div_lt_one (by linarith)]
  nlinarith

theorem newtonStep_shrink (m e r x : ℝ) (h0 : 0 ≤ e) (h1 : e < 1) (hr : Spec.Kepler m e r) (hx : |x - r| ≤ e) :
    |newtonStep m e x - r| ≤ newtonRate e * |x - r| := by
  refine (newtonStep_error m e r x h0 h1 hr).trans ?_
  have hk : 0 ≤ e / (2 * (1 - e)) := div_nonneg h0 (by linarith)
  rw [newtonRate, ← sq_abs, pow_two, mul_assoc]
  exact mul_le_mul_of_nonneg_left (mul_le_mul_of_nonneg_right hx (abs_nonneg _)) hk

/-- The bound of the loop. -/
noncomputable def newtonTol : ℝ := 1 / 10 ^ 8

theorem newtonLoop_succ (m e : ℝ) (n : Nat) (x eps : ℝ) : newtonLoop m e (n + 1) x eps =
    if newtonTol < |eps| then newtonLoop m e n (newtonStep m e x) (newtonStep m e x - x) else .ok x := by
  have ht : (Arith.lit 1 100000000 : ℝ) = newtonTol := by rw [RealArith.lit_eq, newtonTol]; norm_num
  rw [newtonLoop]
  simp only [ht, RealArith.lt_iff, RealArith.fabs_eq, RealArith.sub_eq]

/-- More fuel does not change the result. -/
theorem newtonLoop_fuel {F : Type} [Arith F] (m e : F) : ∀ (n k : Nat) (x eps y : F), newtonLoop m e n x eps = .ok y → newtonLoop m e (n + k) x eps = .ok y := by
  intro n
  induction n with
  | zero => intro k x eps y h; simp [newtonLoop] at h
  | succ n ih =>
    intro k x eps y h
    rw [show n + 1 + k = (n + k) + 1 by omega]
    rw [newtonLoop] at h ⊢
    split at h
    · rename_i hc; rw [if_pos hc]; exact ih k _ _ _ h
    · rename_i hc; rw [if_neg hc]; exact h

/-- The loop ends. -/
theorem newtonLoop_ends (m e r : ℝ) (h0 : 0 ≤ e) (h1 : e < 1) (h2 : e ^ 2 + 2 * e < 2) (hr : Spec.Kepler m e r) :
    ∀ (k : Nat) (x eps : ℝ), |x - r| ≤ e → 2 * (newtonRate e ^ k * |x - r|) ≤ newtonTol → ∃ y, newtonLoop m e (k + 2) x eps = .ok y := by
  have hq0 := newtonRate_nonneg h0 h1
  have hq1 := newtonRate_lt h1 h2
  intro k
  induction k with
  | zero =>
    intro x eps hx hk
    rw [pow_zero, one_mul] at hk
    rw [newtonLoop_succ]
    split
    · have hs := newtonStep_shrink m e r x h0 h1 hr hx
      have ht : |newtonStep m e x - x| ≤ newtonTol := by
        calc |newtonStep m e x - x| ≤ |newtonStep m e x - r| + |r - x| := abs_sub_le _ _ _
          _ ≤ newtonRate e * |x - r| + |x - r| := by rw [abs_sub_comm r x]; linarith
          _ ≤ 2 * |x - r| := by nlinarith [abs_nonneg (x - r)]
          _ ≤ _ := hk
      rw [newtonLoop_succ, if_neg (not_lt.2 ht)]
      exact ⟨_, rfl⟩
    · exact ⟨_, rfl⟩
  | succ k ih =>
    intro x eps hx hk
    rw [show k + 1 + 2 = (k + 2) + 1 by omega, newtonLoop_succ]
    split
    · have hs := newtonStep_shrink m e r x h0 h1 hr hx
      refine ih _ _ (hs.trans (by nlinarith [abs_nonneg (x - r)])) ?_
      refine le_trans ?_ hk
      have hp : 0 ≤ newtonRate e ^ k := pow_nonneg hq0 k
      calc 2 * (newtonRate e ^ k * |newtonStep m e x - r|) ≤ 2 * (newtonRate e ^ k * (newtonRate e * |x - r|)) := by
            have := mul_le_mul_of_nonneg_left hs hp
            linarith
        _ = _ := by rw [pow_succ]; ring
    · exact ⟨_, rfl⟩

/-- What the loop returns is the start, or the result of a step of at most the tolerance from a point no further from the root than the start. -/
theorem newtonLoop_result (m e r : ℝ) (h0 : 0 ≤ e) (h1 : e < 1) (h2 : e ^ 2 + 2 * e < 2) (hr : Spec.Kepler m e r) :
    ∀ (n : Nat) (x eps y : ℝ), |x - r| ≤ e → newtonTol < |eps| → newtonLoop m e n x eps = .ok y →
      ∃ z, |z - r| ≤ e ∧ y = newtonStep m e z ∧ |y - z| ≤ newtonTol := by
  have hq0 := newtonRate_nonneg h0 h1
  have hq1 := newtonRate_lt h1 h2
  intro n
  induction n with
  | zero => intro x eps y _ _ h; simp [newtonLoop] at h
  | succ n ih =>
    intro x eps y hx he h
    rw [newtonLoop_succ, if_pos he] at h
    have hs := newtonStep_shrink m e r x h0 h1 hr hx
    by_cases ht : newtonTol < |newtonStep m e x - x|
    · exact ih _ _ _ (hs.trans (by nlinarith [abs_nonneg (x - r)])) ht h
    · cases n with
      | zero => simp [newtonLoop] at h
      | succ n =>
        rw [newtonLoop_succ, if_neg ht] at h
        injection h with h
        subst h
        exact ⟨x, hx, rfl, not_lt.1 ht⟩

theorem newtonTol_pos : 0 < newtonTol := by rw [newtonTol]; norm_num
theorem newtonTol_lt_one : newtonTol < |(1 : ℝ)| := by rw [newtonTol]; norm_num

/-- **C64, general.** For every eccentricity below `sqrt 3 - 1` and every mean anomaly the solver stops, and what it returns solves Kepler's equation up to the square of the tolerance. -/
theorem kepler_solved (m e : ℝ) (h0 : 0 ≤ e) (h2 : e ^ 2 + 2 * e < 2) :
    ∃ N y r, Spec.Kepler m e r ∧ (∀ fuel, N ≤ fuel → newtonSolver fuel m e = .ok y) ∧
      |y - r| ≤ e / (2 * (1 - e)) * (newtonTol / (1 - newtonRate e)) ^ 2 := by
  have h1 : e < 1 := by nlinarith
  obtain ⟨r, hr, _⟩ := kepler_unique_root m e h0 h1
  have hq0 := newtonRate_nonneg h0 h1
  have hq1 := newtonRate_lt h1 h2
  have hstart := newton_start m e r h0 hr
  obtain ⟨k, hk⟩ := exists_pow_lt_of_lt_one (show 0 < newtonTol / (2 * (e + 1)) from div_pos newtonTol_pos (by linarith)) hq1
  have hk' : 2 * (newtonRate e ^ k * |m - r|) ≤ newtonTol := by
    rw [lt_div_iff₀ (by linarith)] at hk
    have hp := pow_nonneg hq0 k
    have : newtonRate e ^ k * |m - r| ≤ newtonRate e ^ k * (e + 1) := mul_le_mul_of_nonneg_left (by linarith) hp
    linarith
  obtain ⟨y, hy⟩ := newtonLoop_ends m e r h0 h1 h2 hr k m 1 hstart hk'
  refine ⟨k + 2, y, r, hr, fun fuel hf => ?_, ?_⟩
  · obtain ⟨j, rfl⟩ := Nat.exists_eq_add_of_le hf
    have := newtonLoop_fuel m e (k + 2) j m 1 y hy
    simpa [newtonSolver] using this
  · obtain ⟨z, hz, rfl, ht⟩ := newtonLoop_result m e r h0 h1 h2 hr (k + 2) m 1 y hstart newtonTol_lt_one hy
    have hs := newtonStep_shrink m e r z h0 h1 hr hz
    have hz2 : |z - r| ≤ newtonTol / (1 - newtonRate e) := by
      rw [le_div_iff₀ (by linarith)]
      have : |z - r| ≤ |z - newtonStep m e z| + |newtonStep m e z - r| := abs_sub_le _ _ _
      rw [abs_sub_comm z (newtonStep m e z)] at this
      nlinarith
    refine (newtonStep_error m e r z h0 h1 hr).trans ?_
    have hk0 : 0 ≤ e / (2 * (1 - e)) := div_nonneg h0 (by linarith)
    refine mul_le_mul_of_nonneg_left ?_ hk0
    rw [← sq_abs]
    exact pow_le_pow_left₀ (abs_nonneg _) hz2 2

/-- Five steps from the start the error is below the tolerance. -/
theorem newton_five (m e r : ℝ) (h0 : 0 ≤ e) (hh : e ≤ 1 / 2) (hr : Spec.Kepler m e r) : ∃ y, newtonSolver 6 m e = .ok y := by
  have hk : e / (2 * (1 - e)) ≤ 1 / 2 := by
    rw [div_le_div_iff₀ (by linarith) (by norm_num)]
    linarith
  have hstep : ∀ x d : ℝ, |x - r| ≤ d → |newtonStep m e x - r| ≤ d ^ 2 / 2 := by
    intro x d hx
    refine (newtonStep_error m e r x h0 (by linarith) hr).trans ?_
    have h1 : (x - r) ^ 2 ≤ d ^ 2 := by rw [← sq_abs]; exact pow_le_pow_left₀ (abs_nonneg _) hx 2
    nlinarith [sq_nonneg (x - r)]
  have hd : ∀ x d d' : ℝ, |x - r| ≤ d → |newtonStep m e x - r| ≤ d' → |newtonStep m e x - x| ≤ d + d' := by
    intro x d d' h1 h2
    have := abs_sub_le (newtonStep m e x) r x
    rw [abs_sub_comm r x] at this
    linarith
  have e0 : |m - r| ≤ 1 / 2 := (newton_start m e r h0 hr).trans hh
  have e1 := hstep _ _ e0
  have e2 := hstep _ _ e1
  have e3 := hstep _ _ e2
  have e4 := hstep _ _ e3
  have e5 := hstep _ _ e4
  have f5 := hd _ _ _ e4 e5
  norm_num at f5
  have f5' := not_lt.2 (f5.trans (show _ ≤ newtonTol by rw [newtonTol]; norm_num))
  have go : ∀ (n : Nat) (x eps : ℝ), (∃ y, newtonLoop m e n (newtonStep m e x) (newtonStep m e x - x) = .ok y) → ∃ y, newtonLoop m e (n + 1) x eps = .ok y := by
    intro n x eps h
    rw [newtonLoop_succ]
    split
    · exact h
    · exact ⟨_, rfl⟩
  rw [newtonSolver]
  refine go _ _ _ (go _ _ _ (go _ _ _ (go _ _ _ (go _ _ _ ?_))))
  rw [newtonLoop_succ, if_neg f5']
  exact ⟨_, rfl⟩

/-- **C64 in the box of the sample configuration.** For every eccentricity from 0 to 1/2 and every mean anomaly the solver stops after at most five steps and returns the
eccentric anomaly up to 10^-16. -/
theorem kepler_five_steps (m e : ℝ) (h0 : 0 ≤ e) (hh : e ≤ 1 / 2) :
    ∃ y r, Spec.Kepler m e r ∧ (∀ fuel, 6 ≤ fuel → newtonSolver fuel m e = .ok y) ∧ |y - r| ≤ 1 / 10 ^ 16 := by
  obtain ⟨N, y, r, hr, hy, hb⟩ := kepler_solved m e h0 (by nlinarith)
  obtain ⟨y', hy'⟩ := newton_five m e r h0 hh hr
  have hmono : ∀ fuel, 6 ≤ fuel → newtonSolver fuel m e = .ok y' := by
    intro fuel hf
    obtain ⟨j, rfl⟩ := Nat.exists_eq_add_of_le hf
    exact newtonLoop_fuel m e 6 j m _ y' hy'
  have hyy : y' = y := by
    have h1 := hmono (6 + N) (by omega)
    rw [hy (6 + N) (by omega)] at h1
    injection h1 with h1
    exact h1.symm
  refine ⟨y, r, hr, fun fuel hf => by rw [hmono fuel hf, hyy], hb.trans ?_⟩
  have hk0 : 0 ≤ e / (2 * (1 - e)) := div_nonneg h0 (by linarith)
  have hk : e / (2 * (1 - e)) ≤ 1 / 2 := by
    rw [div_le_div_iff₀ (by linarith) (by norm_num)]
    linarith
  have hq : newtonRate e ≤ 1 / 4 := by
    rw [newtonRate]
    nlinarith
  have hq0 := newtonRate_nonneg h0 (show e < 1 by linarith)
  have ht : newtonTol / (1 - newtonRate e) ≤ 4 / 3 * newtonTol := by
    rw [div_le_iff₀ (by linarith)]
    nlinarith [newtonTol_pos]
  have ht0 : 0 ≤ newtonTol / (1 - newtonRate e) := div_nonneg newtonTol_pos.le (by linarith)
  calc _ ≤ 1 / 2 * (4 / 3 * newtonTol) ^ 2 := mul_le_mul hk (pow_le_pow_left₀ ht0 ht 2) (by positivity) (by norm_num)
    _ ≤ _ := by rw [newtonTol]; norm_num

/-- A circular and an eccentric orbit. -/
example : ∃ y r, Spec.Kepler 3 (1 / 2) r ∧ (∀ fuel, 6 ≤ fuel → newtonSolver fuel (3 : ℝ) (1 / 2) = .ok y) ∧ |y - r| ≤ 1 / 10 ^ 16 :=
  kepler_five_steps 3 (1 / 2) (by norm_num) le_rfl

open Dbl in
/-- A NaN ends the loop after one step. -/
theorem newton_nan {R : Rounding} (e : Dbl R) (fuel : Nat) : newtonSolver (fuel + 2) (nan : Dbl R) e = .ok nan := by
  have hs : newtonStep (nan : Dbl R) e nan = nan := rfl
  have hc : ∀ t : Dbl R, (t <. Arith.fabs ((nan : Dbl R) -. nan)) = false := by
    intro t
    have hn : Arith.fabs ((nan : Dbl R) -. nan) = nan := rfl
    rw [hn, lt_nan]
  rw [newtonSolver, newtonLoop, hs]
  split
  · rw [newtonLoop, if_neg (by rw [hc]; decide)]
  · rfl

open Dbl in
/-- At eccentricity 1 and mean anomaly 0, where the root is 0, the solver divides 0 by 0 and returns NaN. -/
theorem newton_parabola : newtonSolver (F := XReal) 2 (fin 0) (fin 1) = .ok nan := by
  have hsin : Arith.sin (fin 0 : XReal) = fin 0 := congrArg (fun x => (fin x : XReal)) Real.sin_zero
  have hcos : Arith.cos (fin 0 : XReal) = fin 1 := congrArg (fun x => (fin x : XReal)) Real.cos_zero
  have hs : newtonStep (F := XReal) (fin 0) (fin 1) (fin 0) = nan := by
    simp only [newtonStep, hsin, hcos, XReal.mul_eq, XReal.sub_eq, XReal.ofI_eq, mul_zero, sub_zero, Int.cast_one, mul_one, sub_self, zero_div_zero, sub_nan]
  have hn : Arith.fabs ((nan : XReal) -. fin 0) = nan := rfl
  rw [newtonSolver, newtonLoop, hs]
  have h1 : (Arith.lit 1 100000000 <. Arith.fabs (ofI 1 : XReal)) = true := by
    rw [XReal.ofI_eq, XReal.lit_eq]
    show ((fin _ : XReal) <. fin |((1 : Int) : ℝ)|) = true
    rw [lt_fin]
    norm_num
  rw [if_pos h1, newtonLoop, hn, lt_nan, if_neg (by decide)]

end NiiC
