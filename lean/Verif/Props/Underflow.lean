import Verif.Num.Binary64
import Verif.Props.Likelihood
import Verif.Props.Nan
import Mathlib.Analysis.Complex.ExponentialBounds

/-!
# Where the likelihood underflows: C71

In IEEE 754 binary64 (`Double`), with a correctly rounded libm.
-/

set_option linter.unusedSectionVars false
set_option linter.unusedSimpArgs false

namespace NiiC

open Spec Dbl

/-! ## Rounding of numbers of moderate size -/

/-- The double `v` is finite and within `ε` of `x`. -/
def Near (v : Double) (x ε : ℝ) : Prop := ∃ y, v = fin y ∧ |y - x| ≤ ε

theorem Near.of_rnd {x y ε : ℝ} (h : |y - x| ≤ ε) (hb : |x| + ε ≤ 2 ^ 20) : Near (Binary64.rnd y) x (ε + 1 / 2 ^ 30) := by
  have h1 : |y| ≤ 2 ^ 20 := by
    have := abs_sub_abs_le_abs_sub y x
    linarith
  obtain ⟨z, hz, hd⟩ := Binary64.rnd_close h1
  refine ⟨z, hz, ?_⟩
  calc |z - x| ≤ |z - y| + |y - x| := abs_sub_le _ _ _
    _ ≤ _ := by linarith

theorem Near.int (k : Int) (h : |k| ≤ 2 ^ 53) : Near (ofI k) k 0 := ⟨k, ofI_int k h, by simp⟩

theorem Near.self (x : ℝ) : Near (fin x) x 0 := ⟨x, rfl, by simp⟩

theorem Near.mono {v : Double} {x y ε δ : ℝ} (h : Near v x ε) (hd : |x - y| + ε ≤ δ) : Near v y δ := by
  obtain ⟨z, rfl, hz⟩ := h
  exact ⟨z, rfl, (abs_sub_le z x y).trans (by linarith)⟩

theorem Near.add {v w : Double} {x y ε δ : ℝ} (h : Near v x ε) (h' : Near w y δ) (hb : |x + y| + (ε + δ) ≤ 2 ^ 20) :
    Near (v +. w) (x + y) (ε + δ + 1 / 2 ^ 30) := by
  obtain ⟨a, rfl, ha⟩ := h
  obtain ⟨b, rfl, hb'⟩ := h'
  rw [add_fin]
  refine Near.of_rnd ?_ hb
  rw [show a + b - (x + y) = (a - x) + (b - y) by ring]
  exact (abs_add_le _ _).trans (add_le_add ha hb')

theorem Near.neg {v : Double} {x ε : ℝ} (h : Near v x ε) : Near (Arith.neg v) (-x) ε := by
  obtain ⟨a, rfl, ha⟩ := h
  refine ⟨-a, rfl, ?_⟩
  rwa [show -a - -x = -(a - x) by ring, abs_neg]

theorem Near.sub {v w : Double} {x y ε δ : ℝ} (h : Near v x ε) (h' : Near w y δ) (hb : |x - y| + (ε + δ) ≤ 2 ^ 20) :
    Near (v -. w) (x - y) (ε + δ + 1 / 2 ^ 30) := by
  obtain ⟨a, rfl, ha⟩ := h
  obtain ⟨b, rfl, hb'⟩ := h'
  rw [sub_fin]
  refine Near.of_rnd ?_ hb
  rw [show a - b - (x - y) = (a - x) - (b - y) by ring]
  exact (abs_sub _ _).trans (add_le_add ha hb')

/-- A product with an exact factor. -/
theorem Near.mul_int {w : Double} {y δ : ℝ} (k : Int) (hk : |k| ≤ 2 ^ 53) (h : Near w y δ) (hb : |(k : ℝ) * y| + |(k : ℝ)| * δ ≤ 2 ^ 20) :
    Near (ofI k *. w) (k * y) (|(k : ℝ)| * δ + 1 / 2 ^ 30) := by
  obtain ⟨b, rfl, hb'⟩ := h
  rw [ofI_int k hk, mul_fin]
  refine Near.of_rnd ?_ hb
  rw [← mul_sub, abs_mul]
  gcongr

theorem pow_two_double (x : ℝ) : (Arith.pow (fin x) (ofI 2) : Double) = Binary64.rnd (x ^ 2) := by
  rw [ofI_int 2 (by norm_num)]
  have h : (Arith.pow (fin x) (fin ((2 : Int) : ℝ)) : Double) = Binary64.rnd (x ^ (((2 : Int) : ℝ))) := if_pos (.inr (by norm_num))
  rw [h, Real.rpow_intCast]
  rfl

theorem Near.sq {v : Double} {x ε : ℝ} (h : Near v x ε) (hb : |x ^ 2| + ε * (2 * |x| + ε) ≤ 2 ^ 20) :
    Near (Arith.pow v (ofI 2)) (x ^ 2) (ε * (2 * |x| + ε) + 1 / 2 ^ 30) := by
  obtain ⟨a, rfl, ha⟩ := h
  rw [pow_two_double]
  refine Near.of_rnd ?_ hb
  have h1 : |a + x| ≤ 2 * |x| + ε := by
    have := abs_add_le (a - x) (2 * x)
    rw [show a - x + 2 * x = a + x by ring, abs_mul, abs_of_pos (by norm_num : (0 : ℝ) < 2)] at this
    linarith
  rw [show a ^ 2 - x ^ 2 = (a - x) * (a + x) by ring, abs_mul]
  exact mul_le_mul ha h1 (abs_nonneg _) ((abs_nonneg _).trans ha)

/-! ## The exponential -/

theorem exp_double (x : ℝ) : (Arith.exp (fin x) : Double) = Binary64.rnd (Real.exp x) := rfl

theorem zpow_exp (k : Int) : (2 : ℝ) ^ k = Real.exp (k * Real.log 2) := by
  rw [mul_comm, ← Real.rpow_intCast, Real.rpow_def_of_pos (by norm_num)]

/-- From -746 on the exponential underflows to zero. -/
theorem exp_underflow {x : ℝ} (h : x ≤ -746) : (Arith.exp (fin x) : Double) = fin 0 := by
  rw [exp_double]
  refine Binary64.rnd_tiny (Real.exp_pos x).le ?_
  rw [zpow_exp, Real.exp_le_exp]
  have := Real.log_two_lt_d9
  push_cast
  linarith

/-- Down to -745 it does not; `e` is the exponent of a number reached. -/
theorem exp_no_underflow {x : ℝ} {e : Int} (he : -1074 ≤ e) (he' : e ≤ 0) (h : e * Real.log 2 ≤ x ∨ e = -1074 ∧ -745 ≤ x) (h' : x ≤ 1 / 2) :
    ∃ y, (Arith.exp (fin x) : Double) = fin y ∧ (2 : ℝ) ^ e ≤ y ∧ y ≤ 2 := by
  rw [exp_double]
  have hx2 : Real.exp x ≤ 2 := by
    rw [← Real.le_log_iff_exp_le (by norm_num)]
    have := Real.log_two_gt_d9
    linarith
  have two : Binary64.rnd 2 = .fin 2 := by simpa using Binary64.rnd_repr 2 0 (by norm_num) (by norm_num) (by norm_num)
  rcases h with h | ⟨rfl, h⟩
  · have h1 : (2 : ℝ) ^ e ≤ Real.exp x := by
      rw [zpow_exp, Real.exp_le_exp]
      exact h
    have := Binary64.rnd_repr 1 e (by norm_num) he (by omega)
    rw [Int.cast_one, one_mul] at this
    exact rnd_between (R := Rounding.binary64) h1 hx2 this two
  · have h1 : (2 : ℝ) ^ (-1075 : Int) < Real.exp x := by
      rw [zpow_exp, Real.exp_lt_exp]
      have := Real.log_two_gt_d9
      push_cast
      linarith
    obtain ⟨v, hv, h2, h3⟩ := rnd_between (R := Rounding.binary64) (Real.exp_pos x).le hx2 rnd_zero two
    refine ⟨v, hv, ?_, h3⟩
    have h4 := Binary64.round53_pos h1
    rwa [(Binary64.rnd_eq_fin hv).1] at h4

theorem exp_two {x : ℝ} (h' : x ≤ 1 / 2) : ∃ y, (Arith.exp (fin x) : Double) = fin y ∧ 0 ≤ y ∧ y ≤ 2 := by
  have hx2 : Real.exp x ≤ 2 := by
    rw [← Real.le_log_iff_exp_le (by norm_num)]
    have := Real.log_two_gt_d9
    linarith
  have two : Binary64.rnd 2 = .fin 2 := by simpa using Binary64.rnd_repr 2 0 (by norm_num) (by norm_num) (by norm_num)
  exact rnd_between (R := Rounding.binary64) (Real.exp_pos x).le hx2 rnd_zero two

theorem log_double {x : ℝ} (h : 0 < x) : (Arith.log (fin x) : Double) = Binary64.rnd (Real.log x) :=
  (if_neg h.not_gt).trans (if_neg h.ne')

/-! ## The curved likelihood -/

/-- Exponent of the first term, models/curved_likelihood/user_logll.c:38, without rounding. -/
def curvedE1 (a b : ℝ) : ℝ := a ^ 2 + (9 + 4 * a ^ 2 + 9 * b) ^ 2

/-- Exponent of the second term. -/
def curvedE2 (a b : ℝ) : ℝ := 8 * a ^ 2 + 8 * (b - 2) ^ 2

theorem sq_box {a : ℝ} (h : |a| ≤ 10) : a ^ 2 ≤ 100 := by
  have := pow_le_pow_left₀ (abs_nonneg a) h 2
  rw [sq_abs] at this
  linarith

theorem curved_exp1 {a b : ℝ} (ha : |a| ≤ 10) (hb : |b| ≤ 10) :
    Near (Arith.neg (Arith.pow (fin a) (ofI 2)) -. Arith.pow (ofI 9 +. ofI 4 *. Arith.pow (fin a) (ofI 2) +. ofI 9 *. fin b) (ofI 2)) (-curvedE1 a b) (1 / 2) := by
  have h1 := sq_box ha
  have h0 : 0 ≤ a ^ 2 := sq_nonneg a
  have hb' := abs_le.1 hb
  have p := Near.sq (Near.self a) (by rw [abs_of_nonneg h0]; norm_num; linarith)
  have q := Near.mul_int 4 (by norm_num) p (by rw [abs_of_nonneg (by push_cast; linarith)]; norm_num; linarith)
  have r := Near.add (Near.int 9 (by norm_num)) q (by rw [abs_of_nonneg (by push_cast; linarith)]; norm_num; linarith)
  have s := Near.mul_int 9 (by norm_num) (Near.self b) (by
    rw [abs_mul]
    norm_num
    linarith)
  have t := Near.add r s (by
    have : |((9 : Int) : ℝ) + ((4 : Int) : ℝ) * a ^ 2 + ((9 : Int) : ℝ) * b| ≤ 499 := by
      rw [abs_le]
      push_cast
      constructor <;> linarith [hb'.1, hb'.2]
    norm_num at this ⊢
    linarith)
  have ht : |9 + 4 * a ^ 2 + 9 * b| ≤ 499 := by
    rw [abs_le]
    constructor <;> linarith [hb'.1, hb'.2]
  have t' : Near (ofI 9 +. ofI 4 *. Arith.pow (fin a) (ofI 2) +. ofI 9 *. fin b) (9 + 4 * a ^ 2 + 9 * b) (1 / 10 ^ 6) :=
    t.mono (by push_cast; rw [sub_self, abs_zero]; norm_num)
  have hsq : (9 + 4 * a ^ 2 + 9 * b) ^ 2 ≤ 499 ^ 2 := by
    have := pow_le_pow_left₀ (abs_nonneg _) ht 2
    rwa [sq_abs] at this
  have v := Near.sq t' (by
    rw [abs_of_nonneg (sq_nonneg _)]
    norm_num at hsq ⊢
    nlinarith)
  have w := Near.sub p.neg v (by
    rw [show -a ^ 2 - (9 + 4 * a ^ 2 + 9 * b) ^ 2 = -(a ^ 2 + (9 + 4 * a ^ 2 + 9 * b) ^ 2) by ring, abs_neg,
      abs_of_nonneg (add_nonneg h0 (sq_nonneg _))]
    norm_num at hsq ⊢
    nlinarith)
  refine w.mono ?_
  rw [show -a ^ 2 - (9 + 4 * a ^ 2 + 9 * b) ^ 2 - -curvedE1 a b = 0 by unfold curvedE1; ring, abs_zero]
  norm_num at ht ⊢
  nlinarith

theorem curved_exp2 {a b : ℝ} (ha : |a| ≤ 10) (hb : |b| ≤ 10) :
    Near (ofI (-8) *. Arith.pow (fin a) (ofI 2) -. ofI 8 *. Arith.pow (fin b -. ofI 2) (ofI 2)) (-curvedE2 a b) (1 / 2) := by
  have h1 := sq_box ha
  have h0 : 0 ≤ a ^ 2 := sq_nonneg a
  have hb' := abs_le.1 hb
  have p := Near.sq (Near.self a) (by rw [abs_of_nonneg h0]; norm_num; linarith)
  have q := Near.mul_int (-8) (by norm_num) p (by rw [abs_mul, abs_of_nonneg h0]; norm_num; linarith)
  have hd : |b - 2| ≤ 12 := by
    rw [abs_le]
    constructor <;> linarith [hb'.1, hb'.2]
  have s := Near.sub (Near.self b) (Near.int 2 (by norm_num)) (by push_cast; norm_num at hd ⊢; linarith)
  have hsq : (b - 2) ^ 2 ≤ 12 ^ 2 := by
    have := pow_le_pow_left₀ (abs_nonneg _) hd 2
    rwa [sq_abs] at this
  have s' : Near (fin b -. ofI 2) (b - 2) (1 / 10 ^ 6) := s.mono (by push_cast; rw [sub_self, abs_zero]; norm_num)
  have v := Near.sq s' (by
    rw [abs_of_nonneg (sq_nonneg _)]
    norm_num at hsq ⊢
    nlinarith)
  have v' : Near (Arith.pow (fin b -. ofI 2) (ofI 2)) ((b - 2) ^ 2) (1 / 10 ^ 3) := v.mono (by
    rw [sub_self, abs_zero]
    norm_num at hd ⊢
    nlinarith)
  have w := Near.mul_int 8 (by norm_num) v' (by
    rw [abs_of_nonneg (mul_nonneg (by norm_num) (sq_nonneg _))]
    norm_num at hsq ⊢
    nlinarith)
  have z := Near.sub q w (by
    push_cast
    rw [show (-8 : ℝ) * a ^ 2 - 8 * (b - 2) ^ 2 = -(8 * a ^ 2 + 8 * (b - 2) ^ 2) by ring, abs_neg,
      abs_of_nonneg (add_nonneg (by linarith) (mul_nonneg (by norm_num) (sq_nonneg _)))]
    norm_num at hsq ⊢
    nlinarith)
  refine z.mono ?_
  push_cast
  rw [show (-8 : ℝ) * a ^ 2 - 8 * (b - 2) ^ 2 - -curvedE2 a b = 0 by unfold curvedE2; ring, abs_zero]
  norm_num

theorem half_lit : (Arith.lit 1 2 : Double) = fin (1 / 2) := by
  have := Binary64.rnd_repr 1 (-1) (by norm_num) (by norm_num) (by norm_num)
  show Binary64.rnd (((1 : Int) : ℝ) / ((2 : Nat) : ℝ)) = _
  norm_num at this ⊢
  exact this

/-- **C71, underflow.** At every point of the box of the sample configuration at which both exponents of the curved likelihood exceed 747, the
computed log-likelihood is minus infinity, although the exact one is finite. -/
theorem curved_underflow (a b : ℝ) (ha : |a| ≤ 10) (hb : |b| ≤ 10) (h1 : 747 ≤ curvedE1 a b) (h2 : 747 ≤ curvedE2 a b) :
    curvedValue (fin a : Double) (fin b) = ninf ∧ ∃ v, curvedValue (fin a : XReal) (fin b) = fin v := by
  constructor
  · obtain ⟨y1, e1, d1⟩ := curved_exp1 ha hb
    obtain ⟨y2, e2, d2⟩ := curved_exp2 ha hb
    rw [abs_le] at d1 d2
    unfold curvedValue curvedArg
    rw [e1, e2, exp_underflow (by linarith [d1.2]), exp_underflow (by linarith [d2.2]), half_lit, mul_fin, mul_zero, rnd_zero]
    show Arith.log (fin 0 +. fin 0 : Double) = _
    rw [add_fin, add_zero, rnd_zero]
    exact Rounding.binary64.log_zero
  · obtain ⟨s, -, -, -, hv, -⟩ := curved_bounds a b
    exact ⟨_, hv⟩

/-- **C71, no underflow.** Where the first exponent is at most 744 or the second at most 742, the computed log-likelihood is finite. -/
theorem curved_no_underflow (a b : ℝ) (ha : |a| ≤ 10) (hb : |b| ≤ 10) (h : curvedE1 a b ≤ 744 ∨ curvedE2 a b ≤ 742) :
    ∃ v, curvedValue (fin a : Double) (fin b) = fin v := by
  obtain ⟨y1, e1, d1⟩ := curved_exp1 ha hb
  obtain ⟨y2, e2, d2⟩ := curved_exp2 ha hb
  have n1 : 0 ≤ curvedE1 a b := add_nonneg (sq_nonneg _) (sq_nonneg _)
  have n2 : 0 ≤ curvedE2 a b := add_nonneg (mul_nonneg (by norm_num) (sq_nonneg _)) (mul_nonneg (by norm_num) (sq_nonneg _))
  rw [abs_le] at d1 d2
  have one : ∀ e : Int, -1074 ≤ e → e ≤ 970 → Binary64.rnd ((2 : ℝ) ^ e) = .fin (2 ^ e) := by
    intro e h1 h2
    simpa using Binary64.rnd_repr 1 e (by norm_num) h1 h2
  -- it is enough that one of the two terms is at least the least number
  have key : ∀ z1 z2 : ℝ, 0 ≤ z1 → 0 ≤ z2 → z1 ≤ 2 → z2 ≤ 2 → ((2 : ℝ) ^ (-1074 : Int) ≤ z1 ∨ (2 : ℝ) ^ (-1074 : Int) ≤ z2) →
      ∃ v, Arith.log (fin z1 +. fin z2 : Double) = fin v := by
    intro z1 z2 p1 p2 q1 q2 hz
    have hlow : (2 : ℝ) ^ (-1074 : Int) ≤ z1 + z2 := by rcases hz with hz | hz <;> linarith
    have h4 : Binary64.rnd 4 = .fin 4 := by simpa using Binary64.rnd_repr 4 0 (by norm_num) (by norm_num) (by norm_num)
    obtain ⟨s, hs, l, u⟩ := rnd_between (R := Rounding.binary64) hlow (show z1 + z2 ≤ 4 by linarith) (one _ le_rfl (by norm_num)) h4
    rw [add_fin, hs]
    have hs0 : 0 < s := (Binary64.two_zpow_pos _).trans_le l
    refine (log_double hs0 ▸ ?_)
    have b1 : -(1074 : ℝ) * Real.log 2 ≤ Real.log s := by
      rw [Real.le_log_iff_exp_le hs0]
      have := zpow_exp (-1074)
      push_cast at this
      rw [← this]
      exact l
    have b2 : Real.log s ≤ 3 := by
      have := Real.log_le_sub_one_of_pos hs0
      linarith
    have hl2 := Real.log_two_lt_d9
    obtain ⟨v, hv, -⟩ := Binary64.rnd_close (x := Real.log s) (by rw [abs_le]; constructor <;> norm_num <;> linarith)
    exact ⟨v, hv⟩
  unfold curvedValue curvedArg
  rw [e1, e2, half_lit]
  rcases h with h | h
  · obtain ⟨z1, f1, l1, u1⟩ := exp_no_underflow (x := y1) (e := -1074) le_rfl (by norm_num) (.inr ⟨rfl, by linarith [d1.1]⟩) (by linarith [d1.2])
    obtain ⟨z2, f2, l2, u2⟩ := exp_two (x := y2) (by linarith [d2.2])
    obtain ⟨w, hw, l3, u3⟩ := rnd_between (R := Rounding.binary64) (show 0 ≤ 1 / 2 * z2 by linarith) (show 1 / 2 * z2 ≤ 1 by linarith) rnd_zero rnd_one
    rw [f1, f2, mul_fin, hw]
    exact key z1 w ((Binary64.two_zpow_pos _).le.trans l1) l3 u1 (by linarith) (.inl l1)
  · obtain ⟨z1, f1, l1, u1⟩ := exp_two (x := y1) (by linarith [d1.2])
    obtain ⟨z2, f2, l2, u2⟩ := exp_no_underflow (x := y2) (e := -1073) (by norm_num) (by norm_num) (.inl (by
      have := Real.log_two_gt_d9
      push_cast
      linarith [d2.1])) (by linarith [d2.2])
    have hh : (2 : ℝ) ^ (-1073 : Int) = 2 * 2 ^ (-1074 : Int) := by
      rw [show (-1073 : Int) = 1 + -1074 by norm_num, zpow_add₀ (by norm_num), zpow_one]
    obtain ⟨w, hw, l3, u3⟩ := rnd_between (R := Rounding.binary64) (show (2 : ℝ) ^ (-1074 : Int) ≤ 1 / 2 * z2 by linarith) (show 1 / 2 * z2 ≤ 1 by linarith)
      (one _ le_rfl (by norm_num)) rnd_one
    rw [f1, f2, mul_fin, hw]
    exact key z1 w l1 ((Binary64.two_zpow_pos _).le.trans l3) u1 (by linarith) (.inr l3)

/-- Both cases occur: the corner (10, -10) underflows, the starting region around (0, 2) does not. -/
example : curvedValue (fin 10 : Double) (fin (-10)) = ninf ∧ ∃ v, curvedValue (fin 0 : Double) (fin 2) = fin v := by
  refine ⟨(curved_underflow 10 (-10) (by norm_num) (by norm_num) ?_ ?_).1, curved_no_underflow 0 2 (by norm_num) (by norm_num) (.inr ?_)⟩ <;>
    norm_num [curvedE1, curvedE2]

/-! ## What this does to the chain -/

variable {R : Rounding}

theorem ninf_sub_ninf : (ninf -. ninf : Dbl R) = nan := rfl

/-- **C71, moves.** From a point whose log-posterior is minus infinity, a proposal whose log-posterior is minus infinity, too, is rejected for every
draw, where the rule for equal values would accept it. -/
theorem ninf_rejected (q : Dbl R) (g : Rng) : (mhAccept (ninf : Dbl R) ninf q g).1 = false := by
  unfold mhAccept
  simp [ninf_sub_ninf]

/-- **C71, swaps.** A chain whose log-posterior is minus infinity at its own and at the partner's temperature takes part in no swap. -/
theorem ninf_swap_rejected (b d : Dbl R) (g : Rng) : (swapAccept (ninf : Dbl R) b ninf d g).1 = false ∧ (swapAccept b (ninf : Dbl R) d ninf g).1 = false := by
  have h1 : (ninf +. b -. ninf -. d : Dbl R) = nan := by
    have : (ninf +. b -. ninf : Dbl R) = nan := by cases b <;> rfl
    rw [this, nan_sub]
  have h2 : (b +. ninf -. d -. ninf : Dbl R) = nan := by
    cases b <;> cases d <;> rfl
  unfold swapAccept
  simp [h1, h2]

/-- At a positive finite inverse temperature, the target of the curved model is minus infinity where its value is. -/
theorem curved_target_ninf (bounds : List (Double × Double)) (ndim nline : Int) (data : List Double) (beta : ℝ) (hbeta : 0 < beta) (a b : Double)
    (h : curvedValue a b = ninf) : target (curved.user bounds ndim) nline data (fin beta) [a, b] = ninf := by
  show curvedValue a b *. fin beta +. ofI 0 = ninf
  rw [h, ofI_int 0 (by norm_num)]
  have : (ninf *. fin beta : Double) = ninf := by
    show infSign (-beta) = XV.ninf
    unfold infSign
    rw [if_neg (by linarith), if_pos (by linarith)]
  rw [this]
  rfl

/-- **C71, iterations.** In the part of the box where both exponents exceed 747 a chain of the curved model stands still until a proposal leaves that part. -/
theorem curved_stands_still (bounds : List (Double × Double)) (ndim nline : Int) (data sigma : List Double) (beta : ℝ) (hbeta : 0 < beta)
    (c : Ch Double) (hc : c.lp = ninf) (a b : ℝ) (ha : |a| ≤ 10) (hb : |b| ≤ 10) (h1 : 747 ≤ curvedE1 a b) (h2 : 747 ≤ curvedE2 a b)
    (hy : (curved.user bounds ndim).boundary (propose c.x sigma c.g).1 = [fin a, fin b]) :
    (mhStep (curved.user bounds ndim) sigma nline data (fin beta) c).x = c.x ∧
      (mhStep (curved.user bounds ndim) sigma nline data (fin beta) c).lp = ninf ∧
      (mhStep (curved.user bounds ndim) sigma nline data (fin beta) c).accA = c.accA := by
  have ht := curved_target_ninf bounds ndim nline data beta hbeta (fin a) (fin b) (curved_underflow a b ha hb h1 h2).1
  have e : ∀ new old g, (Spec.accept (F := Double) new old g).1 = (mhAccept new old (ofI 1) g).1 := fun _ _ _ => rfl
  unfold mhStep
  simp only
  rw [hy, ht, if_neg]
  · exact ⟨rfl, hc, rfl⟩
  · rw [e, hc, ninf_rejected]
    simp

/-! ## Normal draws -/

/-- **C61, doubles.** Every normal draw but the one after a single state of the generator is a finite double of size at most 9. -/
theorem normal_double_bounded (g : Rng) (h : lcgNext g ≠ 0) : ∃ z, (r8Normal01 (F := Double) g).1 = fin z ∧ |z| ≤ 9 := by
  have hg := lcgNext_lt g
  have hM : lcgM = 2 ^ 48 := by decide
  rw [hM] at hg
  have hg' : ((lcgNext g : ℕ) : ℝ) < 2 ^ 48 := by exact_mod_cast hg
  have h1 : (1 : ℝ) ≤ (lcgNext g : ℕ) := by exact_mod_cast Nat.one_le_iff_ne_zero.2 h
  obtain ⟨u, hu⟩ : ∃ u : ℝ, u = ((lcgNext g : ℕ) : ℝ) / 2 ^ 48 := ⟨_, rfl⟩
  have u0 : 1 / 2 ^ 48 ≤ u := by
    rw [hu]
    gcongr
  have u1 : u ≤ 1 := by
    rw [hu, div_le_one (by norm_num)]
    exact hg'.le
  have up : 0 < u := lt_of_lt_of_le (by norm_num) u0
  have int : ∀ k : Int, |k| ≤ 2 ^ 53 → Rounding.binary64.rnd k = .fin k := Rounding.binary64.rnd_int
  -- the logarithm
  have l1 : ((-34 : Int) : ℝ) ≤ Real.log u := by
    have h2 : Real.log (1 / 2 ^ 48) ≤ Real.log u := Real.log_le_log (by norm_num) u0
    rw [one_div, Real.log_inv, Real.log_pow] at h2
    have := Real.log_two_lt_d9
    push_cast at h2 ⊢
    linarith
  have l2 : Real.log u ≤ ((0 : Int) : ℝ) := by
    push_cast
    exact Real.log_nonpos up.le u1
  obtain ⟨w, hw, w1, w2⟩ := rnd_between l1 l2 (int (-34) (by norm_num)) (int 0 (by norm_num))
  push_cast at w1 w2
  obtain ⟨p, hp, p1, p2⟩ := rnd_between (R := Rounding.binary64) (x := ((0 : Int) : ℝ)) (y := ((-2 : Int) : ℝ) * w) (z := ((68 : Int) : ℝ)) (by push_cast; linarith)
    (by push_cast; linarith) (int 0 (by norm_num)) (int 68 (by norm_num))
  push_cast at p1 p2
  obtain ⟨s, hs, s1, s2⟩ := rnd_between (R := Rounding.binary64) (x := ((0 : Int) : ℝ)) (y := Real.sqrt p) (z := ((9 : Int) : ℝ))
    (by push_cast; exact Real.sqrt_nonneg p) (by push_cast; rw [Real.sqrt_le_left (by norm_num)]; linarith) (int 0 (by norm_num)) (int 9 (by norm_num))
  push_cast at s1 s2
  have es : Arith.sqrt (ofI (-2) *. Arith.log (drand48 (F := Double) g).1 : Double) = fin s := by
    rw [drand48_dbl, ← hu, log_double up]
    have : Binary64.rnd (Real.log u) = .fin w := hw
    rw [this, ofI_int (-2) (by norm_num)]
    show Arith.sqrt (fin ((-2 : Int) : ℝ) *. fin w : Double) = _
    rw [mul_fin, hp]
    show (if p < 0 then XV.nan else Binary64.rnd (Real.sqrt p)) = _
    rw [if_neg p1.not_gt]
    exact hs
  -- the angle
  have hg2 := lcgNext_lt (lcgNext g)
  rw [hM] at hg2
  have hg2' : ((lcgNext (lcgNext g) : ℕ) : ℝ) < 2 ^ 48 := by exact_mod_cast hg2
  have v0 : 0 ≤ ((lcgNext (lcgNext g) : ℕ) : ℝ) / 2 ^ 48 := by positivity
  have v1 : ((lcgNext (lcgNext g) : ℕ) : ℝ) / 2 ^ 48 ≤ 1 := by
    rw [div_le_one (by norm_num)]
    exact hg2'.le
  obtain ⟨q, hq, q1, q2⟩ := rnd_between (R := Rounding.binary64) (x := ((3 : Int) : ℝ)) (y := ((3141592653589793 : Int) : ℝ) / ((1000000000000000 : Nat) : ℝ)) (z := ((4 : Int) : ℝ))
    (by norm_num) (by norm_num) (int 3 (by norm_num)) (int 4 (by norm_num))
  push_cast at q1 q2
  obtain ⟨q', hq', q1', q2'⟩ := rnd_between (R := Rounding.binary64) (x := ((6 : Int) : ℝ)) (y := ((2 : Int) : ℝ) * q) (z := ((8 : Int) : ℝ))
    (by push_cast; linarith) (by push_cast; linarith) (int 6 (by norm_num)) (int 8 (by norm_num))
  push_cast at q1' q2'
  obtain ⟨t, ht, t1, t2⟩ := rnd_between (R := Rounding.binary64) (x := ((0 : Int) : ℝ)) (y := q' * (((lcgNext (lcgNext g) : ℕ) : ℝ) / 2 ^ 48)) (z := ((8 : Int) : ℝ))
    (by push_cast; exact mul_nonneg (by linarith) v0) (by push_cast; nlinarith) (int 0 (by norm_num)) (int 8 (by norm_num))
  have et : (ofI 2 *. Arith.lit 3141592653589793 1000000000000000 *. (drand48 (F := Double) (lcgNext g)).1 : Double) = fin t := by
    rw [drand48_dbl, ofI_int 2 (by norm_num)]
    have : (Arith.lit 3141592653589793 1000000000000000 : Double) = fin q := hq
    rw [this, mul_fin, hq']
    show (fin q' *. fin _ : Double) = _
    rw [mul_fin]
    exact ht
  obtain ⟨c, hc, c1, c2⟩ : ∃ c, (Arith.cos (fin t) : Double) = fin c ∧ -1 ≤ c ∧ c ≤ 1 :=
    rnd_between (R := Rounding.binary64) (Real.neg_one_le_cos t) (Real.cos_le_one t) Binary64.rnd_neg_one rnd_one
  obtain ⟨z, hz, z1, z2⟩ := rnd_between (R := Rounding.binary64) (x := ((-9 : Int) : ℝ)) (y := s * c) (z := ((9 : Int) : ℝ))
    (by push_cast; nlinarith) (by push_cast; nlinarith) (int (-9) (by norm_num)) (int 9 (by norm_num))
  push_cast at z1 z2
  refine ⟨z, ?_, abs_le.2 ⟨by linarith, z2⟩⟩
  show (Arith.sqrt (ofI (-2) *. Arith.log (drand48 (F := Double) g).1)
    *. Arith.cos (ofI 2 *. Arith.lit 3141592653589793 1000000000000000 *. (drand48 (F := Double) (lcgNext g)).1) : Double) = fin z
  rw [es, et, hc, mul_fin, hz]
  rfl

/-- A chain of the curved model in the corner, with narrow widths, meets the hypotheses of `curved_stands_still`. -/
example (g : Rng) (h : lcgNext g ≠ 0) (h' : lcgNext (lcgNext (lcgNext g)) ≠ 0) :
    (mhStep (curved.user [(fin (-10), fin 10), (fin (-10), fin 10)] 2) [fin 0, fin 0] 0 [] (fin 1) (⟨[fin 10, fin (-10)], ninf, 0, 0, g⟩ : Ch Double)).accA = 0 := by
  obtain ⟨z, hz, -⟩ := normal_double_bounded g h
  obtain ⟨z', hz', -⟩ := normal_double_bounded (lcgNext (lcgNext g)) h'
  have e1 : (fin 10 +. fin z *. fin 0 : Double) = fin 10 := by
    rw [mul_fin, mul_zero, rnd_zero]
    show (fin 10 +. fin 0 : Double) = _
    rw [add_fin, add_zero]
    exact_mod_cast Rounding.binary64.rnd_int 10 (by norm_num)
  have e2 : (fin (-10) +. fin z' *. fin 0 : Double) = fin (-10) := by
    rw [mul_fin, mul_zero, rnd_zero]
    show (fin (-10) +. fin 0 : Double) = _
    rw [add_fin, add_zero]
    exact_mod_cast Rounding.binary64.rnd_int (-10) (by norm_num)
  have hy : (propose [fin 10, fin (-10)] [fin 0, fin 0] g : List Double × Rng).1 = [fin 10, fin (-10)] := by
    show [fin 10 +. (r8Normal01 (F := Double) g).1 *. fin 0, fin (-10) +. (r8Normal01 (F := Double) (lcgNext (lcgNext g))).1 *. fin 0] = _
    rw [hz, hz', e1, e2]
  refine (curved_stands_still _ 2 0 [] _ 1 one_pos _ rfl 10 (-10) (by norm_num) (by norm_num) (by norm_num [curvedE1]) (by norm_num [curvedE2]) ?_).2.2
  show paraBoundary _ (propose [fin 10, fin (-10)] [fin 0, fin 0] g : List Double × Rng).1 = _
  rw [hy]
  have f1 : ((fin 10 : Double) <. fin 10) = false := (lt_fin_false _ _).2 le_rfl
  have f2 : ((fin 10 : Double) <. fin (-10)) = false := (lt_fin_false _ _).2 (by norm_num)
  have f3 : ((fin (-10) : Double) <. fin (-10)) = false := (lt_fin_false _ _).2 le_rfl
  simp only [paraBoundary, bounce, f1, f2, f3, Bool.false_eq_true, if_false]

/-! ## The other bundled likelihoods in doubles: C58 -/

/-- The double `v` is finite and between two integers. -/
def Within (v : Double) (lo hi : Int) : Prop := ∃ y, v = fin y ∧ (lo : ℝ) ≤ y ∧ y ≤ hi

theorem Within.of_rnd {y : ℝ} {lo hi : Int} (h1 : (lo : ℝ) ≤ y) (h2 : y ≤ hi) (hl : |lo| ≤ 2 ^ 53) (hh : |hi| ≤ 2 ^ 53) : Within (Binary64.rnd y) lo hi :=
  rnd_between (R := Rounding.binary64) h1 h2 (Rounding.binary64.rnd_int lo hl) (Rounding.binary64.rnd_int hi hh)

theorem Within.int (k : Int) (h : |k| ≤ 2 ^ 53) : Within (ofI k) k k := ⟨k, ofI_int k h, le_rfl, le_rfl⟩

theorem Within.add {v w : Double} {a b c d : Int} (h : Within v a b) (h' : Within w c d) (hl : |a + c| ≤ 2 ^ 53) (hh : |b + d| ≤ 2 ^ 53) :
    Within (v +. w) (a + c) (b + d) := by
  obtain ⟨x, rfl, x1, x2⟩ := h
  obtain ⟨y, rfl, y1, y2⟩ := h'
  rw [add_fin]
  exact Within.of_rnd (by push_cast; linarith) (by push_cast; linarith) hl hh

theorem Within.sub {v w : Double} {a b c d : Int} (h : Within v a b) (h' : Within w c d) (hl : |a - d| ≤ 2 ^ 53) (hh : |b - c| ≤ 2 ^ 53) :
    Within (v -. w) (a - d) (b - c) := by
  obtain ⟨x, rfl, x1, x2⟩ := h
  obtain ⟨y, rfl, y1, y2⟩ := h'
  rw [sub_fin]
  exact Within.of_rnd (by push_cast; linarith) (by push_cast; linarith) hl hh

theorem Within.neg {v : Double} {a b : Int} (h : Within v a b) : Within (Arith.neg v) (-b) (-a) := by
  obtain ⟨x, rfl, x1, x2⟩ := h
  exact ⟨-x, rfl, by push_cast; linarith, by push_cast; linarith⟩

/-- A product of numbers of bounded size. -/
theorem Within.mul {v w : Double} {a b : Int} (h : Within v (-a) a) (h' : Within w (-b) b) (hb : |a * b| ≤ 2 ^ 53) : Within (v *. w) (-(a * b)) (a * b) := by
  obtain ⟨x, rfl, x1, x2⟩ := h
  obtain ⟨y, rfl, y1, y2⟩ := h'
  rw [mul_fin]
  have hx : |x| ≤ a := abs_le.2 ⟨by push_cast at x1; linarith, x2⟩
  have hy : |y| ≤ b := abs_le.2 ⟨by push_cast at y1; linarith, y2⟩
  have := mul_le_mul hx hy (abs_nonneg _) ((abs_nonneg _).trans hx)
  rw [← abs_mul, abs_le] at this
  exact Within.of_rnd (by push_cast; linarith [this.1]) (by push_cast; linarith [this.2]) (by rwa [abs_neg]) hb

theorem Within.sq {v : Double} {a : Int} (h : Within v (-a) a) (hb : |a ^ 2| ≤ 2 ^ 53) : Within (Arith.pow v (ofI 2)) 0 (a ^ 2) := by
  obtain ⟨x, rfl, x1, x2⟩ := h
  rw [pow_two_double]
  have hx : |x| ≤ a := abs_le.2 ⟨by push_cast at x1; linarith, x2⟩
  have := pow_le_pow_left₀ (abs_nonneg x) hx 2
  rw [sq_abs] at this
  exact Within.of_rnd (by push_cast; exact sq_nonneg x) (by push_cast; exact this) (by norm_num) hb

theorem Within.cos {v : Double} {a b : Int} (h : Within v a b) : Within (Arith.cos v) (-1) 1 := by
  obtain ⟨x, rfl, -⟩ := h
  exact Within.of_rnd (y := Real.cos x) (by push_cast; exact Real.neg_one_le_cos x) (by push_cast; exact Real.cos_le_one x) (by norm_num) (by norm_num)

/-- Division by a number between 1 and 2. -/
theorem Within.div {v w : Double} {a : Int} (h : Within v 0 a) (h' : Within w 1 2) (hb : |a| ≤ 2 ^ 53) : Within (v /. w) 0 a := by
  obtain ⟨x, rfl, x1, x2⟩ := h
  obtain ⟨y, rfl, y1, y2⟩ := h'
  push_cast at x1 y1
  rw [div_fin _ _ (by linarith)]
  exact Within.of_rnd (by push_cast; exact div_nonneg x1 (by linarith)) ((div_le_self x1 y1).trans x2) (by norm_num) hb

theorem Within.exp {v : Double} {a : Int} (h : Within v a 0) : Within (Arith.exp v) 0 1 := by
  obtain ⟨x, rfl, -, x2⟩ := h
  push_cast at x2
  exact Within.of_rnd (y := Real.exp x) (by push_cast; exact (Real.exp_pos x).le) (by push_cast; exact Real.exp_le_one_iff.2 x2) (by norm_num) (by norm_num)

theorem Within.wider {v : Double} {a b c d : Int} (h : Within v a b) (h1 : c ≤ a) (h2 : b ≤ d) : Within v c d := by
  obtain ⟨x, rfl, x1, x2⟩ := h
  have h1' : (c : ℝ) ≤ a := by exact_mod_cast h1
  have h2' : (b : ℝ) ≤ d := by exact_mod_cast h2
  exact ⟨x, rfl, by linarith, by linarith⟩

theorem gauss2_double {v w : Double} (m k : Int) (hm : |m| ≤ 10) (hk : |k| ≤ 10) (h : Within v (-30) 30) (h' : Within w (-30) 30) :
    Within (gauss2 (ofI m) (ofI k) (ofI 1) v w) 0 1 := by
  rw [abs_le] at hm hk
  have one : Within (Arith.pow (ofI 1 : Double) (ofI 2)) 1 2 := by
    rw [ofI_int 1 (by norm_num), pow_two_double]
    exact Within.of_rnd (by norm_num) (by norm_num) (by norm_num) (by norm_num)
  have p : ∀ (u : Double) (j : Int), -10 ≤ j → j ≤ 10 → Within u (-30) 30 → Within (Arith.pow (u -. ofI j) (ofI 2) /. ofI 2 /. Arith.pow (ofI 1 : Double) (ofI 2)) 0 1600 := by
    intro u j j1 j2 hu
    have hj : |j| ≤ 2 ^ 53 := abs_le.2 ⟨by omega, by omega⟩
    have q := hu.sub (Within.int j hj) (abs_le.2 ⟨by omega, by omega⟩) (abs_le.2 ⟨by omega, by omega⟩)
    have q' := q.wider (c := -40) (d := 40) (by omega) (by omega)
    exact ((q'.sq (by norm_num)).div ((Within.int 2 (by norm_num)).wider (by norm_num) (by norm_num)) (by norm_num)).div one (by norm_num)
  have s := (p v m hm.1 hm.2 h).add (p w k hk.1 hk.2 h') (by norm_num) (by norm_num)
  exact s.neg.exp

/-- **C58, two Gaussians, doubles.** In the box of the sample configuration the value is a finite double in [0, 2], including where the exponentials underflow. -/
theorem multiGaussian_double {v w : Double} (h : Within v (-30) 30) (h' : Within w (-30) 30) : Within (multiGaussianValue v w) 0 2 :=
  (gauss2_double 10 10 (by norm_num) (by norm_num) h h').add (gauss2_double (-10) (-10) (by norm_num) (by norm_num) h h') (by norm_num) (by norm_num)

example : Within (multiGaussianValue (fin (-13) : Double) (fin 29)) 0 2 :=
  multiGaussian_double ⟨-13, rfl, by norm_num, by norm_num⟩ ⟨29, rfl, by norm_num, by norm_num⟩

/-- **C58, Rastrigin, doubles.** In a box around that of the sample configuration rounding never makes the argument of the logarithm negative: the
log-likelihood is minus infinity or a finite double, never NaN. -/
theorem rastrigin_double {a b c d e : Double} (ha : Within a (-6) 6) (hb : Within b (-6) 6) (hc : Within c (-6) 6) (hd : Within d (-6) 6) (he : Within e (-6) 6) :
    Within (rastriginSum a b c d e) 0 280 ∧
      (rastriginValue a b c d e = ninf ∨ ∃ v, rastriginValue a b c d e = fin v) := by
  have pi4 : Within (piLit : Double) (-4) 4 := Within.of_rnd (y := ((3141592653589793 : Int) : ℝ) / ((1000000000000000 : Nat) : ℝ)) (by norm_num) (by norm_num) (by norm_num) (by norm_num)
  have two : Within (ofI 2) (-2) 2 := (Within.int 2 (by norm_num)).wider (by norm_num) le_rfl
  have ten : Within (ofI 10) (-10) 10 := (Within.int 10 (by norm_num)).wider (by norm_num) le_rfl
  have q : ∀ x : Double, Within x (-6) 6 → Within (Arith.pow x (ofI 2)) 0 36 := fun x hx => hx.sq (by norm_num)
  have k : ∀ x : Double, Within x (-6) 6 → Within (ofI 10 *. Arith.cos (ofI 2 *. piLit *. x)) (-10) 10 := fun x hx =>
    ten.mul ((two.mul pi4 (by norm_num)).mul hx (by norm_num)).cos (by norm_num)
  have s1 := (q a ha).sub (k a ha) (by norm_num) (by norm_num)
  have s2 := (s1.add (q b hb) (by norm_num) (by norm_num)).sub (k b hb) (by norm_num) (by norm_num)
  have s3 := (s2.add (q c hc) (by norm_num) (by norm_num)).sub (k c hc) (by norm_num) (by norm_num)
  have s4 := (s3.add (q d hd) (by norm_num) (by norm_num)).sub (k d hd) (by norm_num) (by norm_num)
  have s5 := (s4.add (q e he) (by norm_num) (by norm_num)).sub (k e he) (by norm_num) (by norm_num)
  have s6 := s5.add (Within.int 50 (by norm_num)) (by norm_num) (by norm_num)
  have hs : Within (rastriginSum a b c d e) 0 280 := s6
  refine ⟨hs, ?_⟩
  obtain ⟨s, es, h0, h1⟩ := hs
  unfold rastriginValue
  rw [es]
  push_cast at h0 h1
  rcases h0.eq_or_lt with rfl | hp
  · exact .inl Rounding.binary64.log_zero
  · right
    rw [log_double hp]
    have hr : Binary64.rnd s = .fin s := by
      obtain ⟨x, hx, -⟩ := s5
      have e1 : rastriginSum a b c d e = Binary64.rnd (x + ((50 : Int) : ℝ)) := by
        unfold rastriginSum
        rw [hx, ofI_int 50 (by norm_num), add_fin]
        rfl
      exact Rounding.binary64.rnd_idem _ _ (e1.symm.trans es)
    have hl : (2 : ℝ) ^ (-1075 : Int) < s := by
      by_contra hn
      rw [Binary64.rnd_tiny hp.le (not_lt.1 hn)] at hr
      exact hp.ne (XV.fin.inj hr)
    have b1 : -(1075 : ℝ) * Real.log 2 ≤ Real.log s := by
      rw [Real.le_log_iff_exp_le hp]
      have := zpow_exp (-1075)
      push_cast at this
      rw [← this]
      exact hl.le
    have b2 : Real.log s ≤ 280 := by
      have := Real.log_le_sub_one_of_pos hp
      linarith
    have hl2 := Real.log_two_lt_d9
    obtain ⟨v, hv, -⟩ := Binary64.rnd_close (x := Real.log s) (by rw [abs_le]; constructor <;> norm_num <;> linarith)
    exact ⟨v, hv⟩

example : Within (rastriginSum (fin 5 : Double) (fin (-5)) (fin 0) (fin 1) (fin 5)) 0 280 :=
  (rastrigin_double ⟨5, rfl, by norm_num, by norm_num⟩ ⟨-5, rfl, by norm_num, by norm_num⟩ ⟨0, rfl, by norm_num, by norm_num⟩
    ⟨1, rfl, by norm_num, by norm_num⟩ ⟨5, rfl, by norm_num, by norm_num⟩).1

end NiiC
