import Verif.Model.Rand
import Mathlib.Analysis.SpecialFunctions.Pow.Real
import Mathlib.Analysis.SpecialFunctions.Trigonometric.Basic
import Mathlib.Analysis.SpecialFunctions.Log.Basic

/-!
# Exact real arithmetic

The C operations without rounding. `log` of a non-positive number and division by zero have Mathlib's junk values here, so
theorems about this instance say where they exclude such arguments; the instance in `Verif.Num.Dbl` has NaN and infinities.
-/

namespace NiiC

open Classical in
/-- Exact reals. `roundI` is C's `round`: halves go away from zero. -/
noncomputable instance : Arith ℝ where
  add := (· + ·)
  sub := (· - ·)
  mul := (· * ·)
  div := (· / ·)
  neg := (- ·)
  lt a b := decide (a < b)
  eq a b := decide (a = b)
  lit p q := (p : ℝ) / (q : ℝ)
  exp := Real.exp
  log := Real.log
  sqrt := Real.sqrt
  cos := Real.cos
  sin := Real.sin
  fabs := fun x => |x|
  fmin := min
  fmax := max
  pow := fun x y => x ^ y
  floorI := fun x => ⌊x⌋
  roundI := fun x => if 0 ≤ x then ⌊x + 1 / 2⌋ else ⌈x - 1 / 2⌉

namespace RealArith

@[simp] theorem add_eq (a b : ℝ) : (a +. b) = a + b := rfl
@[simp] theorem sub_eq (a b : ℝ) : (a -. b) = a - b := rfl
@[simp] theorem mul_eq (a b : ℝ) : (a *. b) = a * b := rfl
@[simp] theorem div_eq (a b : ℝ) : (a /. b) = a / b := rfl
@[simp] theorem neg_eq (a : ℝ) : Arith.neg a = -a := rfl
@[simp] theorem lt_iff (a b : ℝ) : (a <. b) = true ↔ a < b := by show decide _ = true ↔ _; simp
@[simp] theorem lt_false_iff (a b : ℝ) : (a <. b) = false ↔ b ≤ a := by show decide _ = false ↔ _; simp
@[simp] theorem eq_iff (a b : ℝ) : (a ==. b) = true ↔ a = b := by show decide _ = true ↔ _; simp
@[simp] theorem lit_eq (p : Int) (q : Nat) : (Arith.lit p q : ℝ) = (p : ℝ) / (q : ℝ) := rfl
@[simp] theorem ofI_eq (p : Int) : (ofI p : ℝ) = (p : ℝ) := by show (p : ℝ) / ((1 : Nat) : ℝ) = p; simp
@[simp] theorem exp_eq (a : ℝ) : Arith.exp a = Real.exp a := rfl
@[simp] theorem log_eq (a : ℝ) : Arith.log a = Real.log a := rfl
@[simp] theorem sqrt_eq (a : ℝ) : Arith.sqrt a = Real.sqrt a := rfl
@[simp] theorem cos_eq (a : ℝ) : Arith.cos a = Real.cos a := rfl
@[simp] theorem sin_eq (a : ℝ) : Arith.sin a = Real.sin a := rfl
@[simp] theorem fabs_eq (a : ℝ) : Arith.fabs a = |a| := rfl
@[simp] theorem fmin_eq (a b : ℝ) : Arith.fmin a b = min a b := rfl
@[simp] theorem fmax_eq (a b : ℝ) : Arith.fmax a b = max a b := rfl
@[simp] theorem pow_eq (a b : ℝ) : Arith.pow a b = a ^ b := rfl
@[simp] theorem floorI_eq (a : ℝ) : Arith.floorI a = ⌊a⌋ := rfl
theorem roundI_eq (a : ℝ) : Arith.roundI a = if 0 ≤ a then ⌊a + 1 / 2⌋ else ⌈a - 1 / 2⌉ := rfl
theorem roundI_nonneg {a : ℝ} (h : 0 ≤ a) : Arith.roundI a = ⌊a + 1 / 2⌋ := by rw [roundI_eq, if_pos h]

end RealArith

theorem lcgNext_lt (g : Rng) : lcgNext g < lcgM := Nat.mod_lt _ (by decide)

/-- A draw lies in `[0, 1)`. -/
theorem drand48_real_mem (g : Rng) : 0 ≤ (drand48 (F := ℝ) g).1 ∧ (drand48 (F := ℝ) g).1 < 1 := by
  have h := lcgNext_lt g
  have hM : (0 : ℝ) < (lcgM : ℝ) := by norm_num [lcgM]
  simp only [drand48_posix, RealArith.lit_eq]
  constructor
  · positivity
  · rw [div_lt_one hM]
    exact_mod_cast h

theorem i4UnifAbVal_real (a b : Int) (h : a ≤ b) (u : ℝ) (h0 : 0 ≤ u) (h1 : u < 1) :
    a ≤ i4UnifAbVal a b u ∧ i4UnifAbVal a b u ≤ b := by
  have hab : (0 : ℝ) ≤ ((b - a : Int) : ℝ) := by exact_mod_cast (by omega : 0 ≤ b - a)
  have hx : 0 ≤ u * ((b - a : Int) : ℝ) := mul_nonneg h0 hab
  have hy : u * ((b - a : Int) : ℝ) ≤ ((b - a : Int) : ℝ) := by nlinarith
  simp only [i4UnifAbVal, RealArith.mul_eq, RealArith.ofI_eq]
  rw [RealArith.roundI_nonneg hx]
  have h2 : 0 ≤ ⌊u * ((b - a : Int) : ℝ) + 1 / 2⌋ := Int.floor_nonneg.2 (by linarith)
  have h3 : ⌊u * ((b - a : Int) : ℝ) + 1 / 2⌋ < b - a + 1 := by
    rw [Int.floor_lt]
    push_cast at *
    linarith
  omega

theorem i4Unif0aVal_real (a : Int) (h : 1 ≤ a) (u : ℝ) (h0 : 0 ≤ u) (h1 : u < 1) :
    0 ≤ i4Unif0aVal a u ∧ i4Unif0aVal a u < a := by
  have ha : (1 : ℝ) ≤ (a : ℝ) := by exact_mod_cast h
  simp only [i4Unif0aVal, RealArith.mul_eq, RealArith.ofI_eq, RealArith.floorI_eq]
  refine ⟨Int.floor_nonneg.2 (by positivity), ?_⟩
  rw [Int.floor_lt]
  nlinarith

/-- The numbers of a generator of reals are in [0, 1). -/
class UnitDraws [Source ℝ] : Prop where
  mem : ∀ g, 0 ≤ (drand48 (F := ℝ) g).1 ∧ (drand48 (F := ℝ) g).1 < 1

instance : UnitDraws := ⟨drand48_real_mem⟩

instance [Source ℝ] [UnitDraws] : LawfulDraws ℝ where
  unifAb a b g h _ := i4UnifAbVal_real a b h _ (UnitDraws.mem g).1 (UnitDraws.mem g).2
  unif0a a g h _ := i4Unif0aVal_real a h _ (UnitDraws.mem g).1 (UnitDraws.mem g).2

end NiiC
