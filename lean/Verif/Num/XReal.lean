import Verif.Num.Dbl

/-!
# Rules for exact arithmetic with NaN and infinities
-/

namespace NiiC.XReal
open Dbl

@[simp] theorem add_eq (a b : ℝ) : (fin a +. fin b : XReal) = fin (a + b) := rfl
@[simp] theorem sub_eq (a b : ℝ) : (fin a -. fin b : XReal) = fin (a - b) := by rw [sub_fin]; rfl
@[simp] theorem mul_eq (a b : ℝ) : (fin a *. fin b : XReal) = fin (a * b) := rfl
theorem div_eq (a b : ℝ) (h : b ≠ 0) : (fin a /. fin b : XReal) = fin (a / b) := by rw [div_fin _ _ h]; rfl
@[simp] theorem neg_eq (a : ℝ) : Arith.neg (fin a : XReal) = fin (-a) := rfl
@[simp] theorem lit_eq (p : Int) (q : Nat) : (Arith.lit p q : XReal) = fin ((p : ℝ) / (q : ℝ)) := rfl
@[simp] theorem ofI_eq (p : Int) : (ofI p : XReal) = fin p := by
  show (fin ((p : ℝ) / ((1 : Nat) : ℝ)) : XReal) = _
  simp
@[simp] theorem exp_eq (a : ℝ) : Arith.exp (fin a : XReal) = fin (Real.exp a) := rfl
theorem log_eq (a : ℝ) (h : 0 < a) : Arith.log (fin a : XReal) = fin (Real.log a) :=
  (if_neg h.not_gt).trans (if_neg h.ne')
theorem sqrt_eq (a : ℝ) (h : 0 ≤ a) : Arith.sqrt (fin a : XReal) = fin (Real.sqrt a) := if_neg h.not_gt
theorem pow_eq (a b : ℝ) (h : 0 < a) : Arith.pow (fin a : XReal) (fin b) = fin (a ^ b) := if_pos (.inl h)
@[simp] theorem sq_eq (a : ℝ) : Arith.pow (fin a : XReal) (fin 2) = fin (a ^ 2) := by
  have h : Arith.pow (fin a : XReal) (fin 2) = fin (a ^ (2 : ℝ)) := if_pos (.inr rfl)
  rw [h, Real.rpow_two]
@[simp] theorem fmin_eq (a b : ℝ) : Arith.fmin (fin a : XReal) (fin b) = fin (min a b) := by
  by_cases h : a < b
  · rw [min_eq_left h.le]; exact if_pos h
  · rw [min_eq_right (not_lt.1 h)]; exact if_neg h
@[simp] theorem fmax_eq (a b : ℝ) : Arith.fmax (fin a : XReal) (fin b) = fin (max a b) := by
  by_cases h : b < a
  · rw [max_eq_left h.le]; exact if_pos h
  · rw [max_eq_right (not_lt.1 h)]; exact if_neg h
theorem fin_inj {a b : ℝ} (h : (fin a : XReal) = fin b) : a = b := by injection h
theorem fin_ne_nan (a : ℝ) : (fin a : XReal) ≠ nan := by intro h; cases h

end NiiC.XReal
