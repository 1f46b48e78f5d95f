import Verif.Num.Real
import Mathlib.Algebra.Order.Floor.Ring
import Mathlib.Tactic.Linarith
import Mathlib.Tactic.Positivity

/-!
# Doubles: rounded reals with NaN and infinities

`Dbl R` is the type of C doubles for a rounding `R`. The laws asked of `R` are those of IEEE 754 binary64 in any rounding
mode and of any libm that treats NaN and infinities as the C standard says; nothing is assumed about the accuracy of libm
other than the signs and bounds stated. `Rounding.exact` is arithmetic without rounding or overflow, but with NaN and infinities.

Not modelled: the sign of zero (every zero is `+0`), so `x / 0` has the sign of `x`. No theorem below divides by a zero that
could be negative.
-/

namespace NiiC

/-- A NaN, an infinity or a finite number. -/
inductive XV where
  | nan
  | ninf
  | pinf
  | fin (x : ℝ)

namespace XV

/-- `a < b`, false for NaN. -/
def Lt : XV → XV → Prop
  | nan, _ => False
  | _, nan => False
  | ninf, ninf => False
  | ninf, _ => True
  | _, ninf => False
  | pinf, _ => False
  | fin _, pinf => True
  | fin a, fin b => a < b

/-- `a <= b`, false for NaN. -/
def Le : XV → XV → Prop
  | nan, _ => False
  | _, nan => False
  | ninf, _ => True
  | _, pinf => True
  | fin a, fin b => a ≤ b
  | _, _ => False

/-- Sign change. -/
def neg : XV → XV
  | nan => nan
  | ninf => pinf
  | pinf => ninf
  | fin a => fin (-a)

end XV

open XV in
/-- A way of rounding, and a libm. -/
structure Rounding where
  /-- the result delivered for the exact result `x` of an operation on finite numbers -/
  rnd : ℝ → XV
  rnd_ne_nan : ∀ x, rnd x ≠ nan
  rnd_mono : ∀ x y, x ≤ y → (rnd x).Le (rnd y)
  /-- numbers that are results of rounding are not changed by it -/
  rnd_idem : ∀ x y, rnd x = fin y → rnd y = fin y
  rnd_neg : ∀ x, rnd x = fin x → rnd (-x) = fin (-x)
  /-- integers up to 2^53 are exact -/
  rnd_int : ∀ k : Int, |k| ≤ 2 ^ 53 → rnd k = fin k
  /-- multiples of 2^-48 below 2^5 are exact -/
  rnd_frac : ∀ k : Int, |k| ≤ 2 ^ 53 → rnd (k / 2 ^ 48) = fin (k / 2 ^ 48)
  /-- in this range the relative error is at most 2^-52 -/
  rnd_err : ∀ x, 2⁻¹ ^ 1000 ≤ |x| → |x| ≤ 2 ^ 1000 → ∃ y, rnd x = fin y ∧ |y - x| ≤ |x| / 2 ^ 52
  exp : XV → XV
  exp_nan : exp nan = nan
  exp_ninf : exp ninf = fin 0
  exp_pinf : exp pinf = pinf
  exp_nonneg : ∀ x, (fin 0).Le (exp (fin x))
  log : XV → XV
  log_nan : log nan = nan
  log_ninf : log ninf = nan
  log_pinf : log pinf = pinf
  log_zero : log (fin 0) = ninf
  log_one : log (fin 1) = fin 0
  log_neg : ∀ x, x < 0 → log (fin x) = nan
  log_pos : ∀ x, 0 < x → log (fin x) ≠ nan
  sqrt : XV → XV
  sqrt_nan : sqrt nan = nan
  sqrt_ninf : sqrt ninf = nan
  sqrt_pinf : sqrt pinf = pinf
  sqrt_neg : ∀ x, x < 0 → sqrt (fin x) = nan
  sqrt_nonneg : ∀ x, 0 ≤ x → (fin 0).Le (sqrt (fin x))
  cos : XV → XV
  sin : XV → XV
  cos_nan : cos nan = nan
  sin_nan : sin nan = nan
  cos_fin : ∀ x, (fin (-1)).Le (cos (fin x)) ∧ (cos (fin x)).Le (fin 1)
  sin_fin : ∀ x, (fin (-1)).Le (sin (fin x)) ∧ (sin (fin x)).Le (fin 1)
  pow : XV → XV → XV
  pow_sq : ∀ x, (fin 0).Le (pow (fin x) (fin 2))

/-- C doubles for the rounding `R`. -/
def Dbl (_ : Rounding) : Type := XV

namespace Dbl
open XV
variable {R : Rounding}

def nan : Dbl R := XV.nan
def ninf : Dbl R := XV.ninf
def pinf : Dbl R := XV.pinf
def fin (x : ℝ) : Dbl R := XV.fin x

/-- `a + b`. -/
def add (R : Rounding) : XV → XV → XV
  | .nan, _ => .nan
  | _, .nan => .nan
  | .pinf, .ninf => .nan
  | .ninf, .pinf => .nan
  | .pinf, _ => .pinf
  | _, .pinf => .pinf
  | .ninf, _ => .ninf
  | _, .ninf => .ninf
  | .fin a, .fin b => R.rnd (a + b)

open Classical in
/-- An infinity with the sign of `a`; NaN for 0. -/
noncomputable def infSign (a : ℝ) : XV := if 0 < a then .pinf else if a < 0 then .ninf else .nan

/-- `a * b`. -/
noncomputable def mul (R : Rounding) : XV → XV → XV
  | .nan, _ => .nan
  | _, .nan => .nan
  | .pinf, .pinf => .pinf
  | .ninf, .ninf => .pinf
  | .pinf, .ninf => .ninf
  | .ninf, .pinf => .ninf
  | .pinf, .fin b => infSign b
  | .ninf, .fin b => infSign (-b)
  | .fin a, .pinf => infSign a
  | .fin a, .ninf => infSign (-a)
  | .fin a, .fin b => R.rnd (a * b)

open Classical in
/-- `a / b`; a zero divisor counts as `+0`. -/
noncomputable def div (R : Rounding) : XV → XV → XV
  | .nan, _ => .nan
  | _, .nan => .nan
  | .fin _, .pinf => .fin 0
  | .fin _, .ninf => .fin 0
  | .fin a, .fin b => if b = 0 then infSign a else R.rnd (a / b)
  | .pinf, .fin b => if b = 0 then .pinf else infSign b
  | .ninf, .fin b => if b = 0 then .ninf else infSign (-b)
  | _, _ => .nan

open Classical in
/-- `a < b`. -/
noncomputable def lt (a b : XV) : Bool := decide (a.Lt b)

open Classical in
/-- `a == b`. -/
noncomputable def eq : XV → XV → Bool
  | .nan, _ => false
  | _, .nan => false
  | a, b => decide (a = b)

/-- `fabs`. -/
noncomputable def fabs : XV → XV
  | .nan => .nan
  | .fin a => .fin |a|
  | _ => .pinf

open Classical in
/-- `fmin`: a NaN argument is ignored. -/
noncomputable def fmin : XV → XV → XV
  | .nan, b => b
  | a, .nan => a
  | a, b => if a.Lt b then a else b

open Classical in
/-- `fmax`: a NaN argument is ignored. -/
noncomputable def fmax : XV → XV → XV
  | .nan, b => b
  | a, .nan => a
  | a, b => if b.Lt a then a else b

/-- `(int) floor(x)`; converting NaN or an infinity is undefined in C and 0 here. -/
noncomputable def floorI : XV → Int
  | .fin a => ⌊a⌋
  | _ => 0

/-- `(int) round(x)`; converting NaN or an infinity is undefined in C and 0 here. -/
noncomputable def roundI : XV → Int
  | .fin a => Arith.roundI a
  | _ => 0

noncomputable instance (R : Rounding) : Arith (Dbl R) where
  add := add R
  sub a b := add R a (XV.neg b)
  mul := mul R
  div := div R
  neg := XV.neg
  lt := lt
  eq := eq
  lit p q := R.rnd ((p : ℝ) / (q : ℝ))
  exp := R.exp
  log := R.log
  sqrt := R.sqrt
  cos := R.cos
  sin := R.sin
  fabs := fabs
  fmin := fmin
  fmax := fmax
  pow := R.pow
  floorI := floorI
  roundI := roundI

/-! ## Comparisons -/

@[simp] theorem lt_iff (a b : Dbl R) : (a <. b) = true ↔ XV.Lt a b := by
  classical
  show @decide _ _ = true ↔ _
  exact decide_eq_true_iff
@[simp] theorem lt_fin (a b : ℝ) : ((fin a : Dbl R) <. fin b) = true ↔ a < b := lt_iff _ _
@[simp] theorem lt_fin_false (a b : ℝ) : ((fin a : Dbl R) <. fin b) = false ↔ b ≤ a := by
  rw [← not_lt, ← lt_fin (R := R) a b, Bool.not_eq_true]
@[simp] theorem nan_lt (a : Dbl R) : ((nan : Dbl R) <. a) = false := by
  rw [← Bool.not_eq_true, lt_iff]; exact fun h => h
@[simp] theorem lt_nan (a : Dbl R) : (a <. (nan : Dbl R)) = false := by
  rw [← Bool.not_eq_true, lt_iff]; cases a <;> exact fun h => h
@[simp] theorem eq_fin (a b : ℝ) : ((fin a : Dbl R) ==. fin b) = true ↔ a = b := by
  classical
  show @decide (XV.fin a = XV.fin b) _ = true ↔ _
  rw [decide_eq_true_iff]
  exact XV.fin.injEq a b ▸ Iff.rfl

/-! ## NaN is contagious -/

@[simp] theorem nan_add (a : Dbl R) : (nan +. a : Dbl R) = nan := rfl
@[simp] theorem add_nan (a : Dbl R) : (a +. nan : Dbl R) = nan := by cases a <;> rfl
@[simp] theorem nan_sub (a : Dbl R) : (nan -. a : Dbl R) = nan := rfl
@[simp] theorem sub_nan (a : Dbl R) : (a -. nan : Dbl R) = nan := by cases a <;> rfl
@[simp] theorem nan_mul (a : Dbl R) : (nan *. a : Dbl R) = nan := rfl
@[simp] theorem mul_nan (a : Dbl R) : (a *. nan : Dbl R) = nan := by cases a <;> rfl
@[simp] theorem nan_div (a : Dbl R) : (nan /. a : Dbl R) = nan := rfl
@[simp] theorem div_nan (a : Dbl R) : (a /. nan : Dbl R) = nan := by cases a <;> rfl
@[simp] theorem exp_nan : Arith.exp (nan : Dbl R) = nan := R.exp_nan
@[simp] theorem log_nan : Arith.log (nan : Dbl R) = nan := R.log_nan
@[simp] theorem sqrt_nan : Arith.sqrt (nan : Dbl R) = nan := R.sqrt_nan

/-! ## Finite operations -/

theorem add_fin (a b : ℝ) : (fin a +. fin b : Dbl R) = R.rnd (a + b) := rfl
theorem sub_fin (a b : ℝ) : (fin a -. fin b : Dbl R) = R.rnd (a - b) := by rw [sub_eq_add_neg]; rfl
theorem mul_fin (a b : ℝ) : (fin a *. fin b : Dbl R) = R.rnd (a * b) := rfl
theorem div_fin (a b : ℝ) (h : b ≠ 0) : (fin a /. fin b : Dbl R) = R.rnd (a / b) := by
  exact if_neg h
theorem zero_div_zero : (fin 0 /. fin 0 : Dbl R) = nan := by
  have h : infSign 0 = XV.nan := by simp [infSign]
  exact (if_pos rfl).trans h

theorem ofI_int (k : Int) (h : |k| ≤ 2 ^ 53) : (ofI k : Dbl R) = fin k := by
  show R.rnd ((k : ℝ) / ((1 : Nat) : ℝ)) = _
  rw [Nat.cast_one, div_one, R.rnd_int k h]
  rfl

theorem drand48_dbl (g : Rng) : (drand48 (F := Dbl R) g).1 = fin ((lcgNext g : ℝ) / 2 ^ 48) := by
  have h := lcgNext_lt g
  have hM : lcgM = 2 ^ 48 := by decide
  have h1 := R.rnd_frac (lcgNext g : Int) (by
    rw [abs_of_nonneg (Int.natCast_nonneg _)]
    rw [hM] at h
    have : (lcgNext g : Int) < 2 ^ 48 := by exact_mod_cast h
    have h3 : (2 : Int) ^ 48 ≤ 2 ^ 53 := by norm_num
    omega)
  have h2 : (lcgM : ℝ) = 2 ^ 48 := by rw [hM]; norm_num
  show R.rnd (((lcgNext g : Int) : ℝ) / (lcgM : ℝ)) = _
  rw [h2, h1, Int.cast_natCast]
  rfl

/-- If `x` is at most a number that rounding does not change, so is the rounded `x`. -/
theorem rnd_le {x y : ℝ} (h : x ≤ y) (hy : R.rnd y = .fin y) : (R.rnd x).Le (.fin y) := hy ▸ R.rnd_mono x y h
theorem le_rnd {x y : ℝ} (h : x ≤ y) (hx : R.rnd x = .fin x) : XV.Le (.fin x) (R.rnd y) := hx ▸ R.rnd_mono x y h

/-- Between two finite numbers that rounding does not change, rounding stays finite and between them. -/
theorem rnd_between {x y z : ℝ} (hxy : x ≤ y) (hyz : y ≤ z) (hx : R.rnd x = .fin x) (hz : R.rnd z = .fin z) :
    ∃ v, R.rnd y = .fin v ∧ x ≤ v ∧ v ≤ z := by
  have h1 := le_rnd hxy hx
  have h2 := rnd_le hyz hz
  cases h : R.rnd y with
  | nan => exact absurd h (R.rnd_ne_nan y)
  | ninf => rw [h] at h1; exact absurd h1 (fun h => h)
  | pinf => rw [h] at h2; exact absurd h2 (fun h => h)
  | fin v => rw [h] at h1 h2; exact ⟨v, rfl, h1, h2⟩

theorem rnd_zero : R.rnd 0 = .fin 0 := by simpa using R.rnd_int 0 (by norm_num)
theorem rnd_one : R.rnd 1 = .fin 1 := by simpa using R.rnd_int 1 (by norm_num)

/-- A draw times a positive integer, rounded, stays below the integer. -/
theorem draw_mul_lt (g : Rng) (a : Int) (h1 : 1 ≤ a) (h2 : a ≤ 2 ^ 31) :
    ∃ v : ℝ, ((drand48 (F := Dbl R) g).1 *. ofI a : Dbl R) = fin v ∧ 0 ≤ v ∧ v < a := by
  have hg := lcgNext_lt g
  have hM : lcgM = 2 ^ 48 := by decide
  rw [hM] at hg
  rw [drand48_dbl, ofI_int a (by rw [abs_of_nonneg (by omega)]; have : (2:Int) ^ 31 ≤ 2 ^ 53 := by norm_num
                                 omega), mul_fin]
  have hk : ((lcgNext g : ℕ) : ℝ) ≤ 2 ^ 48 - 1 := by
    have : lcgNext g + 1 ≤ 2 ^ 48 := hg
    have : ((lcgNext g : ℕ) : ℝ) + 1 ≤ 2 ^ 48 := by exact_mod_cast this
    linarith
  have ha : (1 : ℝ) ≤ (a : ℝ) := by exact_mod_cast h1
  have ha2 : (a : ℝ) ≤ 2 ^ 31 := by exact_mod_cast h2
  generalize hu : ((lcgNext g : ℕ) : ℝ) / 2 ^ 48 * (a : ℝ) = x
  have hx : x ≤ (a : ℝ) * (1 - 1 / 2 ^ 48) := by
    rw [← hu, mul_comm]
    refine mul_le_mul_of_nonneg_left ?_ (by linarith)
    rw [div_le_iff₀ (by positivity)]
    nlinarith
  rcases Nat.eq_zero_or_pos (lcgNext g) with h0 | h0
  · rw [h0] at hu
    simp only [Nat.cast_zero, zero_div, zero_mul] at hu
    subst hu
    rw [rnd_zero]
    exact ⟨0, rfl, le_rfl, by linarith⟩
  · have h0' : (1 : ℝ) ≤ ((lcgNext g : ℕ) : ℝ) := by exact_mod_cast h0
    have hx0 : 1 / 2 ^ 48 ≤ x := by
      rw [← hu, div_mul_eq_mul_div, div_le_div_iff_of_pos_right (by positivity)]
      nlinarith
    have hxp : 0 < x := lt_of_lt_of_le (by positivity) hx0
    have e1 : (2⁻¹ : ℝ) ^ 1000 ≤ 1 / 2 ^ 48 := by
      rw [inv_pow, one_div]
      exact inv_anti₀ (by positivity) (pow_le_pow_right₀ (by norm_num) (by norm_num))
    have e2 : (2 : ℝ) ^ 31 ≤ 2 ^ 1000 := pow_le_pow_right₀ (by norm_num) (by norm_num)
    obtain ⟨y, hy, he⟩ := R.rnd_err x (by rw [abs_of_pos hxp]; exact e1.trans hx0) (by
      rw [abs_of_pos hxp]
      have : (a : ℝ) * (1 - 1 / 2 ^ 48) ≤ a := by nlinarith [show (0 : ℝ) < 1 / 2 ^ 48 by positivity]
      exact (hx.trans this).trans (ha2.trans e2))
    rw [abs_of_pos hxp, abs_le] at he
    refine ⟨y, hy, ?_, ?_⟩
    · have : x / 2 ^ 52 ≤ x := div_le_self hxp.le (by norm_num)
      linarith
    · have h3 : x / 2 ^ 52 ≤ (a : ℝ) / 2 ^ 52 := by
        have : x ≤ a := by nlinarith [show (0 : ℝ) < 1 / 2 ^ 48 by positivity]
        gcongr
      have h4 : (a : ℝ) * (1 - 1 / 2 ^ 48) + (a : ℝ) / 2 ^ 52 < a := by
        have : (a : ℝ) / 2 ^ 52 < a / 2 ^ 48 := by
          apply div_lt_div_of_pos_left (by linarith) (by positivity)
          norm_num
        have e : (a : ℝ) * (1 - 1 / 2 ^ 48) = a - a / 2 ^ 48 := by ring
        rw [e]
        linarith
      linarith [he.2]

noncomputable instance (R : Rounding) : LawfulDraws (Dbl R) where
  unifAb a b g h hlt := by
    rcases eq_or_lt_of_le h with rfl | h1
    · have : ((drand48 (F := Dbl R) g).1 *. ofI (a - a) : Dbl R) = fin 0 := by
        rw [drand48_dbl, Int.sub_self, ofI_int 0 (by norm_num), mul_fin, Int.cast_zero, mul_zero, rnd_zero]
        rfl
      have h2 : (i4UnifAb (Dbl R) a a g).1 = Arith.roundI ((drand48 (F := Dbl R) g).1 *. ofI (a - a)) + a := rfl
      rw [h2, this]
      have h3 : Arith.roundI (fin 0 : Dbl R) = 0 := by
        show (Arith.roundI (0 : ℝ) : Int) = 0
        rw [RealArith.roundI_nonneg le_rfl]
        norm_num
      rw [h3]
      omega
    · obtain ⟨v, hv, h2, h3⟩ := draw_mul_lt (R := R) g (b - a) (by omega) (by
        have : (2 : Int) ^ 31 = 2147483648 := by norm_num
        omega)
      have h4 : (i4UnifAb (Dbl R) a b g).1 = Arith.roundI ((drand48 (F := Dbl R) g).1 *. ofI (b - a)) + a := rfl
      rw [h4, hv]
      have h5 : Arith.roundI (fin v : Dbl R) = ⌊v + 1 / 2⌋ := by
        show (Arith.roundI (v : ℝ) : Int) = _
        rw [RealArith.roundI_nonneg h2]
      rw [h5]
      have h6 : 0 ≤ ⌊v + 1 / 2⌋ := Int.floor_nonneg.2 (by linarith)
      have h7 : ⌊v + 1 / 2⌋ < b - a + 1 := by
        rw [Int.floor_lt]
        push_cast at *
        linarith
      omega
  unif0a a g h hlt := by
    obtain ⟨v, hv, h2, h3⟩ := draw_mul_lt (R := R) g a h (by
      have : (2 : Int) ^ 31 = 2147483648 := by norm_num
      omega)
    have h4 : (i4Unif0a (Dbl R) a g).1 = Arith.floorI ((drand48 (F := Dbl R) g).1 *. ofI a) := rfl
    rw [h4, hv]
    have h5 : Arith.floorI (fin v : Dbl R) = ⌊v⌋ := rfl
    rw [h5]
    exact ⟨Int.floor_nonneg.2 h2, by rw [Int.floor_lt]; exact h3⟩

end Dbl

open XV in
open Classical in
/-- Arithmetic without rounding and overflow, with NaN and infinities. -/
noncomputable def Rounding.exact : Rounding where
  rnd x := fin x
  rnd_ne_nan x h := by cases h
  rnd_mono x y h := h
  rnd_idem x y h := by rfl
  rnd_neg x _ := rfl
  rnd_int k _ := rfl
  rnd_frac k _ := rfl
  rnd_err x _ _ := ⟨x, rfl, by rw [sub_self, abs_zero]; positivity⟩
  exp v := match v with | nan => nan | ninf => fin 0 | pinf => pinf | fin x => fin (Real.exp x)
  exp_nan := rfl
  exp_ninf := rfl
  exp_pinf := rfl
  exp_nonneg x := (Real.exp_pos x).le
  log v := match v with
    | nan => nan | ninf => nan | pinf => pinf
    | fin x => if x < 0 then nan else if x = 0 then ninf else fin (Real.log x)
  log_nan := rfl
  log_ninf := rfl
  log_pinf := rfl
  log_zero := by simp
  log_one := by norm_num
  log_neg x h := by simp [h]
  log_pos x h := by simp [h.not_gt, h.ne']
  sqrt v := match v with
    | nan => nan | ninf => nan | pinf => pinf
    | fin x => if x < 0 then nan else fin (Real.sqrt x)
  sqrt_nan := rfl
  sqrt_ninf := rfl
  sqrt_pinf := rfl
  sqrt_neg x h := by simp [h]
  sqrt_nonneg x h := by simp only [h.not_gt, if_false]; exact Real.sqrt_nonneg x
  cos v := match v with | fin x => fin (Real.cos x) | _ => nan
  sin v := match v with | fin x => fin (Real.sin x) | _ => nan
  cos_nan := rfl
  sin_nan := rfl
  cos_fin x := ⟨Real.neg_one_le_cos x, Real.cos_le_one x⟩
  sin_fin x := ⟨Real.neg_one_le_sin x, Real.sin_le_one x⟩
  pow a b := match a, b with
    | fin x, fin y => if 0 < x ∨ y = 2 then fin (x ^ y) else nan
    | _, _ => nan
  pow_sq x := by
    simp only [or_true, if_true]
    show (0 : ℝ) ≤ x ^ (2 : ℝ)
    rw [Real.rpow_two]
    positivity

/-- Exact arithmetic with NaN and infinities. `pow` is only used with a positive finite base or for squares and is NaN otherwise. -/
abbrev XReal := Dbl Rounding.exact

end NiiC
