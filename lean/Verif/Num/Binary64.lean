import Verif.Num.Dbl
import Mathlib.Data.Int.Log
import Mathlib.Algebra.Ring.Int.Parity
import Mathlib.Analysis.SpecialFunctions.Pow.Real
import Mathlib.Analysis.SpecialFunctions.Trigonometric.Basic

/-!
# IEEE 754 binary64 with rounding to nearest, ties to even

The laws asked of a `Rounding` are met by the real thing: 53 significant bits, exponents from -1074, overflow from `2^1024 - 2^970` on.
Functions of libm are taken as correctly rounded here. Theorems for an arbitrary `Rounding` do not depend on that.
-/

set_option linter.unusedSectionVars false

namespace NiiC.Binary64

/-! ## Rounding to an integer -/

open Classical in
/-- The nearest integer; of two nearest ones the even one. -/
noncomputable def rne (t : ℝ) : Int :=
  if t - ⌊t⌋ < 1 / 2 then ⌊t⌋ else if 1 / 2 < t - ⌊t⌋ then ⌊t⌋ + 1 else if Even ⌊t⌋ then ⌊t⌋ else ⌊t⌋ + 1

theorem rne_cases (t : ℝ) : (rne t = ⌊t⌋ ∧ t - ⌊t⌋ ≤ 1 / 2) ∨ (rne t = ⌊t⌋ + 1 ∧ 1 / 2 ≤ t - ⌊t⌋) := by
  unfold rne
  split_ifs with h1 h2 h3
  · exact .inl ⟨rfl, h1.le⟩
  · exact .inr ⟨rfl, h2.le⟩
  · exact .inl ⟨rfl, not_lt.1 h2⟩
  · exact .inr ⟨rfl, not_lt.1 h1⟩

theorem rne_err (t : ℝ) : |(rne t : ℝ) - t| ≤ 1 / 2 := by
  rw [abs_le]
  have h1 := Int.floor_le t
  have h2 := Int.lt_floor_add_one t
  rcases rne_cases t with ⟨h, h'⟩ | ⟨h, h'⟩ <;> rw [h] <;> push_cast <;> constructor <;> linarith

theorem rne_int (k : Int) : rne (k : ℝ) = k := by
  simp [rne]

theorem rne_mono {s t : ℝ} (h : s ≤ t) : rne s ≤ rne t := by
  have hf : ⌊s⌋ ≤ ⌊t⌋ := Int.floor_le_floor h
  rcases hf.lt_or_eq with hl | he
  · have hl' : ⌊s⌋ + 1 ≤ ⌊t⌋ := hl
    rcases rne_cases s with ⟨a, _⟩ | ⟨a, _⟩ <;> rcases rne_cases t with ⟨b, _⟩ | ⟨b, _⟩ <;> rw [a, b] <;> omega
  · unfold rne
    rw [he]
    split_ifs <;> first | omega | linarith

theorem rne_neg (t : ℝ) : rne (-t) = -rne t := by
  have h1 := Int.floor_le t
  have h2 := Int.lt_floor_add_one t
  by_cases hi : t = (⌊t⌋ : ℝ)
  · rw [hi, ← Int.cast_neg, rne_int, rne_int]
  · have hlt : (⌊t⌋ : ℝ) < t := lt_of_le_of_ne h1 (Ne.symm hi)
    have hf : ⌊-t⌋ = -⌊t⌋ - 1 := by
      rw [Int.floor_eq_iff]
      push_cast
      constructor <;> linarith
    unfold rne
    rw [hf]
    push_cast
    have hev : Even (-⌊t⌋ - 1) ↔ ¬ Even ⌊t⌋ := by
      rw [Int.even_sub_one, even_neg]
    simp only [hev]
    split_ifs <;> first | omega | (exfalso; linarith) | tauto

/-! ## Rounding to 53 bits -/

/-- Exponent of the last bit kept for `x`: 52 below the leading bit, but not below -1074. -/
noncomputable def lastExp (x : ℝ) : Int := max (Int.log 2 |x| - 52) (-1074)

/-- `x` rounded to 53 significant bits, with unbounded exponents upwards. -/
noncomputable def round53 (x : ℝ) : ℝ := rne (x / 2 ^ lastExp x) * 2 ^ lastExp x

theorem two_zpow_pos (e : Int) : (0 : ℝ) < 2 ^ e := zpow_pos (by norm_num) e

theorem round53_neg (x : ℝ) : round53 (-x) = -round53 x := by
  unfold round53 lastExp
  rw [abs_neg, neg_div, rne_neg]
  push_cast
  ring

theorem log_le {x : ℝ} (h : 0 < x) : (2 : ℝ) ^ Int.log 2 x ≤ x := by
  exact_mod_cast Int.zpow_log_le_self (R := ℝ) (b := 2) (by norm_num) h

theorem lt_log (x : ℝ) : x < (2 : ℝ) ^ (Int.log 2 x + 1) := by
  exact_mod_cast Int.lt_zpow_succ_log_self (R := ℝ) (b := 2) (by norm_num) x

/-- A nonnegative power of two is an integer. -/
theorem zpow_int {e : Int} (h : 0 ≤ e) : ((2 ^ e.toNat : Int) : ℝ) = (2 : ℝ) ^ e := by
  push_cast
  rw [← zpow_natCast, Int.toNat_of_nonneg h]

/-- Numbers with at most 53 bits are kept. -/
theorem round53_repr (m e : Int) (hm : |m| ≤ 2 ^ 53) (he : -1074 ≤ e) : round53 ((m : ℝ) * 2 ^ e) = (m : ℝ) * 2 ^ e := by
  by_cases h0 : m = 0
  · subst h0
    simp [round53, show rne 0 = 0 by simpa using rne_int 0]
  have key : ∀ k : Int, (m : ℝ) * 2 ^ e / 2 ^ lastExp ((m : ℝ) * 2 ^ e) = (k : ℝ) → round53 ((m : ℝ) * 2 ^ e) = (m : ℝ) * 2 ^ e := by
    intro k hk
    unfold round53
    rw [hk, rne_int, ← hk, div_mul_cancel₀ _ (two_zpow_pos _).ne']
  have habs : |(m : ℝ) * 2 ^ e| = (|m| : Int) * 2 ^ e := by
    rw [abs_mul, abs_of_pos (two_zpow_pos e), Int.cast_abs]
  have hpos : 0 < |(m : ℝ) * 2 ^ e| := abs_pos.2 (mul_ne_zero (by exact_mod_cast h0) (two_zpow_pos e).ne')
  have hle : lastExp ((m : ℝ) * 2 ^ e) ≤ e ∨ |m| = 2 ^ 53 := by
    rcases hm.lt_or_eq with hlt | heq
    · left
      have h1 : (2 : ℝ) ^ Int.log 2 |(m : ℝ) * 2 ^ e| < 2 ^ (53 + e) := by
        refine (log_le hpos).trans_lt ?_
        rw [habs, zpow_add₀ (by norm_num)]
        refine mul_lt_mul_of_pos_right ?_ (two_zpow_pos e)
        exact_mod_cast hlt
      have h2 := (zpow_lt_zpow_iff_right₀ (by norm_num : (1 : ℝ) < 2)).1 h1
      unfold lastExp
      omega
    · exact .inr heq
  rcases hle with hle | heq
  · refine key (m * 2 ^ (e - lastExp ((m : ℝ) * 2 ^ e)).toNat) ?_
    rw [Int.cast_mul, zpow_int (by omega), zpow_sub₀ (by norm_num), mul_div_assoc]
  · have hlog : Int.log 2 |(m : ℝ) * 2 ^ e| = 53 + e := by
      rw [habs, heq]
      have : ((2 ^ 53 : Int) : ℝ) * 2 ^ e = ((2 : Nat) : ℝ) ^ (53 + e) := by
        push_cast
        rw [zpow_add₀ (by norm_num)]
        norm_num
      rw [this, Int.log_zpow (by norm_num)]
    have hl : lastExp ((m : ℝ) * 2 ^ e) = e + 1 := by
      unfold lastExp
      rw [hlog]
      omega
    obtain ⟨s, hs⟩ : ∃ s : Int, m = s * 2 ^ 53 := by
      rcases abs_choice m with h | h
      · exact ⟨1, by omega⟩
      · exact ⟨-1, by omega⟩
    refine key (s * 2 ^ 52) ?_
    rw [hl, zpow_add₀ (by norm_num), hs]
    push_cast
    field_simp
    ring

/-- The result of rounding has at most 53 bits. -/
theorem round53_form (x : ℝ) : ∃ m e : Int, round53 x = (m : ℝ) * 2 ^ e ∧ |m| ≤ 2 ^ 53 ∧ -1074 ≤ e := by
  refine ⟨rne (x / 2 ^ lastExp x), lastExp x, rfl, ?_, le_max_right _ _⟩
  have h1 : |x| < 2 ^ (lastExp x + 53) := by
    refine (lt_log |x|).trans_le (zpow_le_zpow_right₀ (by norm_num) ?_)
    unfold lastExp
    omega
  have h2 : |x / 2 ^ lastExp x| ≤ 2 ^ 53 := by
    rw [abs_div, abs_of_pos (two_zpow_pos _), div_le_iff₀ (two_zpow_pos _)]
    rw [zpow_add₀ (by norm_num), mul_comm] at h1
    exact_mod_cast h1.le
  rw [abs_le] at h2 ⊢
  constructor
  · have := rne_mono h2.1
    rwa [show (-2 ^ 53 : ℝ) = ((-2 ^ 53 : Int) : ℝ) by norm_num, rne_int] at this
  · have := rne_mono h2.2
    rwa [show (2 ^ 53 : ℝ) = ((2 ^ 53 : Int) : ℝ) by norm_num, rne_int] at this

theorem round53_idem (x : ℝ) : round53 (round53 x) = round53 x := by
  obtain ⟨m, e, h, hm, he⟩ := round53_form x
  rw [h, round53_repr m e hm he]

theorem round53_nonneg {x : ℝ} (h : 0 ≤ x) : 0 ≤ round53 x := by
  unfold round53
  refine mul_nonneg ?_ (two_zpow_pos _).le
  have := rne_mono (div_nonneg h (two_zpow_pos (lastExp x)).le)
  rw [show (0 : ℝ) = ((0 : Int) : ℝ) by norm_num, rne_int] at this
  exact_mod_cast this

theorem round53_mono_pos {x y : ℝ} (hx : 0 < x) (h : x ≤ y) : round53 x ≤ round53 y := by
  have hy : 0 < y := hx.trans_le h
  have hlog : Int.log 2 x ≤ Int.log 2 y := Int.log_mono_right hx h
  have hle : lastExp x ≤ lastExp y := by
    unfold lastExp
    rw [abs_of_pos hx, abs_of_pos hy]
    omega
  rcases hle.lt_or_eq with hlt | heq
  · have hey : lastExp y = Int.log 2 y - 52 := by
      unfold lastExp at hlt ⊢
      rw [abs_of_pos hx, abs_of_pos hy] at *
      omega
    have hll : Int.log 2 x < Int.log 2 y := by
      unfold lastExp at hlt hey
      rw [abs_of_pos hx, abs_of_pos hy] at *
      omega
    have hxl : x ≤ 2 ^ Int.log 2 y := (lt_log x).le.trans (zpow_le_zpow_right₀ (by norm_num) hll)
    have h1 : round53 x ≤ 2 ^ Int.log 2 y := by
      unfold round53
      have hk : (0 : Int) ≤ Int.log 2 y - lastExp x := by omega
      have : rne (x / 2 ^ lastExp x) ≤ 2 ^ (Int.log 2 y - lastExp x).toNat := by
        rw [← rne_int (2 ^ (Int.log 2 y - lastExp x).toNat)]
        refine rne_mono ?_
        rw [zpow_int hk, zpow_sub₀ (by norm_num)]
        gcongr
      have h2 : (rne (x / 2 ^ lastExp x) : ℝ) ≤ 2 ^ (Int.log 2 y - lastExp x) := by
        rw [← zpow_int hk]
        exact_mod_cast this
      calc _ ≤ (2 : ℝ) ^ (Int.log 2 y - lastExp x) * 2 ^ lastExp x := mul_le_mul_of_nonneg_right h2 (two_zpow_pos _).le
        _ = _ := by rw [← zpow_add₀ (by norm_num)]; congr 1; omega
    have h2 : 2 ^ Int.log 2 y ≤ round53 y := by
      unfold round53
      have : (2 ^ 52 : Int) ≤ rne (y / 2 ^ lastExp y) := by
        rw [← rne_int (2 ^ 52)]
        refine rne_mono ?_
        rw [le_div_iff₀ (two_zpow_pos _), hey]
        refine le_trans (le_of_eq ?_) (log_le hy)
        rw [zpow_sub₀ (by norm_num)]
        push_cast
        field_simp
        norm_num
      calc (2 : ℝ) ^ Int.log 2 y = ((2 ^ 52 : Int) : ℝ) * 2 ^ lastExp y := by
            rw [hey, zpow_sub₀ (by norm_num)]
            push_cast
            field_simp
            norm_num
        _ ≤ _ := mul_le_mul_of_nonneg_right (by exact_mod_cast this) (two_zpow_pos _).le
    exact h1.trans h2
  · unfold round53
    rw [heq]
    refine mul_le_mul_of_nonneg_right ?_ (two_zpow_pos _).le
    have : rne (x / 2 ^ lastExp y) ≤ rne (y / 2 ^ lastExp y) := rne_mono (by gcongr)
    exact_mod_cast this

theorem round53_zero : round53 0 = 0 := by
  simpa using round53_repr 0 0 (by norm_num) (by norm_num)

theorem round53_mono {x y : ℝ} (h : x ≤ y) : round53 x ≤ round53 y := by
  rcases lt_trichotomy x 0 with hx | rfl | hx
  · rcases lt_or_ge y 0 with hy | hy
    · have := round53_mono_pos (neg_pos.2 hy) (neg_le_neg h)
      rw [round53_neg, round53_neg] at this
      linarith
    · have h1 := round53_nonneg (neg_pos.2 hx).le
      rw [round53_neg] at h1
      have := round53_nonneg hy
      linarith
  · rw [round53_zero]
    exact round53_nonneg h
  · exact round53_mono_pos hx h

theorem round53_err {x : ℝ} (h : (2 : ℝ) ^ (-1022 : Int) ≤ |x|) : |round53 x - x| ≤ |x| / 2 ^ 53 := by
  have hpos : 0 < |x| := (two_zpow_pos _).trans_le h
  have hl : -1022 ≤ Int.log 2 |x| := by
    have := h.trans_lt (lt_log |x|)
    have := (zpow_lt_zpow_iff_right₀ (by norm_num : (1 : ℝ) < 2)).1 this
    omega
  have he : lastExp x = Int.log 2 |x| - 52 := by
    unfold lastExp
    omega
  have e1 : round53 x - x = ((rne (x / 2 ^ lastExp x) : ℝ) - x / 2 ^ lastExp x) * 2 ^ lastExp x := by
    unfold round53
    rw [sub_mul, div_mul_cancel₀ _ (two_zpow_pos _).ne']
  rw [e1, abs_mul, abs_of_pos (two_zpow_pos _)]
  calc _ ≤ 1 / 2 * (2 : ℝ) ^ lastExp x := mul_le_mul_of_nonneg_right (rne_err _) (two_zpow_pos _).le
    _ = 2 ^ Int.log 2 |x| / 2 ^ 53 := by
      rw [he, zpow_sub₀ (by norm_num)]
      field_simp
    _ ≤ _ := by gcongr; exact log_le hpos

/-! ## Overflow -/

open Classical in
/-- Rounding with overflow: a rounded value of at least `2^1024` in size is an infinity. -/
noncomputable def rnd (x : ℝ) : XV :=
  if 2 ^ 1024 ≤ round53 x then .pinf else if round53 x ≤ -2 ^ 1024 then .ninf else .fin (round53 x)

theorem rnd_fin {x : ℝ} (h : |round53 x| < 2 ^ 1024) : rnd x = .fin (round53 x) := by
  unfold rnd
  rw [abs_lt] at h
  rw [if_neg (not_le.2 h.2), if_neg (not_le.2 h.1)]

theorem rnd_eq_fin {x y : ℝ} (h : rnd x = .fin y) : round53 x = y ∧ |round53 x| < 2 ^ 1024 := by
  unfold rnd at h
  split_ifs at h with h1 h2
  refine ⟨XV.fin.inj h, ?_⟩
  rw [abs_lt]
  exact ⟨not_le.1 h2, not_le.1 h1⟩

theorem rnd_repr (m e : Int) (hm : |m| ≤ 2 ^ 53) (he : -1074 ≤ e) (he' : e ≤ 970) : rnd ((m : ℝ) * 2 ^ e) = .fin ((m : ℝ) * 2 ^ e) := by
  have h := round53_repr m e hm he
  rw [← h, rnd_fin, h, h]
  rw [h, h, abs_mul, abs_of_pos (two_zpow_pos e)]
  have h1 : |(m : ℝ)| ≤ 2 ^ 53 := by exact_mod_cast hm
  have h2 : (2 : ℝ) ^ e ≤ 2 ^ (970 : Int) := zpow_le_zpow_right₀ (by norm_num) he'
  calc |(m : ℝ)| * 2 ^ e ≤ 2 ^ 53 * 2 ^ (970 : Int) := by gcongr
    _ < 2 ^ 1024 := by
      rw [show (2 : ℝ) ^ (970 : Int) = 2 ^ 970 from zpow_natCast 2 970, ← pow_add]
      exact pow_lt_pow_right₀ (by norm_num) (by norm_num)

theorem rnd_ne_nan (x : ℝ) : rnd x ≠ .nan := by
  unfold rnd
  split_ifs <;> simp

theorem rnd_mono {x y : ℝ} (h : x ≤ y) : (rnd x).Le (rnd y) := by
  have hm := round53_mono h
  unfold rnd
  split_ifs with h1 h2 h3 h4 h5 h6 <;> simp only [XV.Le] <;> linarith

theorem rnd_zero : rnd 0 = .fin 0 := by
  simpa using rnd_repr 0 0 (by norm_num) (by norm_num) (by norm_num)

theorem rnd_nonneg {x : ℝ} (h : 0 ≤ x) : (XV.fin 0).Le (rnd x) := by
  rw [← rnd_zero]
  exact rnd_mono h

theorem rnd_one : rnd 1 = .fin 1 := by
  simpa using rnd_repr 1 0 (by norm_num) (by norm_num) (by norm_num)

theorem rnd_neg_one : rnd (-1) = .fin (-1) := by
  simpa using rnd_repr (-1) 0 (by norm_num) (by norm_num) (by norm_num)

theorem rnd_err {x : ℝ} (h1 : 2⁻¹ ^ 1000 ≤ |x|) (h2 : |x| ≤ 2 ^ 1000) : ∃ y, rnd x = .fin y ∧ |y - x| ≤ |x| / 2 ^ 53 := by
  have hlow : (2 : ℝ) ^ (-1022 : Int) ≤ |x| := by
    refine le_trans ?_ h1
    rw [inv_pow, ← zpow_natCast, ← zpow_neg]
    exact zpow_le_zpow_right₀ (by norm_num) (by norm_num)
  have he := round53_err hlow
  refine ⟨_, rnd_fin ?_, he⟩
  have h3 : |round53 x| ≤ 2 * |x| := by
    have := abs_sub_abs_le_abs_sub (round53 x) x
    have h4 : |x| / 2 ^ 53 ≤ |x| := div_le_self (abs_nonneg x) (by norm_num)
    linarith
  calc |round53 x| ≤ 2 * |x| := h3
    _ ≤ 2 * 2 ^ 1000 := by gcongr
    _ = 2 ^ 1001 := (pow_succ' 2 1000).symm
    _ < 2 ^ 1024 := pow_lt_pow_right₀ (by norm_num) (by norm_num)

/-- The error of a rounding, without a lower limit for `x`. -/
theorem round53_abs_err (x : ℝ) : |round53 x - x| ≤ |x| / 2 ^ 53 + 2 ^ (-1075 : Int) := by
  rcases eq_or_ne x 0 with rfl | hx
  · rw [round53_zero]
    simpa using (two_zpow_pos (-1075)).le
  rcases le_or_gt ((2 : ℝ) ^ (-1022 : Int)) |x| with h | h
  · exact (round53_err h).trans (le_add_of_nonneg_right (two_zpow_pos _).le)
  · have he : lastExp x = -1074 := by
      unfold lastExp
      have h1 := (log_le (abs_pos.2 hx)).trans_lt h
      have := (zpow_lt_zpow_iff_right₀ (by norm_num : (1 : ℝ) < 2)).1 h1
      omega
    have e1 : round53 x - x = ((rne (x / 2 ^ lastExp x) : ℝ) - x / 2 ^ lastExp x) * 2 ^ lastExp x := by
      unfold round53
      rw [sub_mul, div_mul_cancel₀ _ (two_zpow_pos _).ne']
    rw [e1, abs_mul, abs_of_pos (two_zpow_pos _)]
    calc _ ≤ 1 / 2 * (2 : ℝ) ^ lastExp x := mul_le_mul_of_nonneg_right (rne_err _) (two_zpow_pos _).le
      _ = 2 ^ (-1075 : Int) := by
        rw [he, show (-1074 : Int) = -1075 + 1 by norm_num, zpow_add₀ (by norm_num)]
        ring
      _ ≤ _ := le_add_of_nonneg_left (by positivity)

/-- Rounding of numbers of moderate size. -/
theorem rnd_close {x : ℝ} (h : |x| ≤ 2 ^ 20) : ∃ y, rnd x = .fin y ∧ |y - x| ≤ 1 / 2 ^ 30 := by
  have he := round53_abs_err x
  have h1 : (2 : ℝ) ^ (-1075 : Int) ≤ 2 ^ (-40 : Int) := zpow_le_zpow_right₀ (by norm_num) (by norm_num)
  have h2 : |x| / 2 ^ 53 ≤ 2 ^ 20 / 2 ^ 53 := by gcongr
  have h3 : |round53 x - x| ≤ 1 / 2 ^ 30 := by
    refine he.trans ((add_le_add h2 h1).trans ?_)
    norm_num
  refine ⟨_, rnd_fin ?_, h3⟩
  have := abs_sub_abs_le_abs_sub (round53 x) x
  have h4 : |round53 x| ≤ 2 ^ 21 := by
    have : (1 : ℝ) / 2 ^ 30 ≤ 1 := by norm_num
    linarith
  exact h4.trans_lt (pow_lt_pow_right₀ (by norm_num) (by norm_num))

/-- Positive numbers up to half of the least one become zero. -/
theorem rnd_tiny {x : ℝ} (h0 : 0 ≤ x) (h : x ≤ 2 ^ (-1075 : Int)) : rnd x = .fin 0 := by
  have key : round53 ((2 : ℝ) ^ (-1075 : Int)) = 0 := by
    have hl : lastExp ((2 : ℝ) ^ (-1075 : Int)) = -1074 := by
      unfold lastExp
      rw [abs_of_pos (two_zpow_pos _), show (2 : ℝ) ^ (-1075 : Int) = ((2 : Nat) : ℝ) ^ (-1075 : Int) by norm_num, Int.log_zpow (by norm_num)]
      norm_num
    unfold round53
    rw [hl, ← zpow_sub₀ (by norm_num)]
    have : rne ((2 : ℝ) ^ ((-1075 : Int) - -1074)) = 0 := by
      rw [show ((-1075 : Int) - -1074) = -1 by norm_num, zpow_neg_one]
      have hf : ⌊(2⁻¹ : ℝ)⌋ = 0 := by
        rw [Int.floor_eq_iff]
        norm_num
      unfold rne
      rw [hf]
      norm_num
    rw [this]
    simp
  have h1 := round53_mono h
  have h2 := round53_nonneg h0
  rw [key] at h1
  have h3 : round53 x = 0 := le_antisymm h1 h2
  rw [rnd_fin (by rw [h3, abs_zero]; exact pow_pos (by norm_num) _), h3]

/-- Larger ones do not. -/
theorem round53_pos {x : ℝ} (h : 2 ^ (-1075 : Int) < x) : 2 ^ (-1074 : Int) ≤ round53 x := by
  have hx : 0 < x := (two_zpow_pos _).trans h
  have h1 : (2 : ℝ) ^ (-1075 : Int) = 1 / 2 * 2 ^ (-1074 : Int) := by
    rw [show (-1074 : Int) = -1075 + 1 by norm_num, zpow_add₀ (by norm_num)]
    ring
  rcases le_or_gt ((2 : ℝ) ^ (-1074 : Int)) x with h2 | h2
  · have := round53_mono h2
    rwa [show (2 : ℝ) ^ (-1074 : Int) = ((1 : Int) : ℝ) * 2 ^ (-1074 : Int) by norm_num, round53_repr 1 (-1074) (by norm_num) le_rfl,
      Int.cast_one, one_mul] at this
  · have he : lastExp x = -1074 := by
      have h3 := (log_le hx).trans_lt h2
      have := (zpow_lt_zpow_iff_right₀ (by norm_num : (1 : ℝ) < 2)).1 h3
      unfold lastExp
      rw [abs_of_pos hx]
      omega
    unfold round53
    rw [he]
    have h4 : (1 : Int) ≤ rne (x / 2 ^ (-1074 : Int)) := by
      have h5 : 1 / 2 < x / 2 ^ (-1074 : Int) := by
        rw [lt_div_iff₀ (two_zpow_pos _)]
        linarith
      by_contra hc
      have h6 : rne (x / 2 ^ (-1074 : Int)) ≤ 0 := by omega
      have h7 := rne_err (x / 2 ^ (-1074 : Int))
      rw [abs_le] at h7
      have h8 : (rne (x / 2 ^ (-1074 : Int)) : ℝ) ≤ 0 := by exact_mod_cast h6
      linarith [h7.1]
    have h9 : (1 : ℝ) ≤ (rne (x / 2 ^ (-1074 : Int)) : ℝ) := by exact_mod_cast h4
    calc (2 : ℝ) ^ (-1074 : Int) = 1 * 2 ^ (-1074 : Int) := (one_mul _).symm
      _ ≤ _ := mul_le_mul_of_nonneg_right h9 (two_zpow_pos _).le

/-! ## It is the nearest number -/

/-- The numbers of the format: at most 53 bits, last bit not below `2^-1074`, size below `2^1024`. -/
def Number (y : ℝ) : Prop := (∃ m e : Int, y = (m : ℝ) * 2 ^ e ∧ |m| ≤ 2 ^ 53 ∧ -1074 ≤ e) ∧ |y| < 2 ^ 1024

theorem number_iff (y : ℝ) : Number y ↔ rnd y = .fin y := by
  constructor
  · rintro ⟨⟨m, e, rfl, hm, he⟩, hb⟩
    have h := round53_repr m e hm he
    rw [rnd_fin (by rwa [h]), h]
  · intro h
    obtain ⟨h1, h2⟩ := rnd_eq_fin h
    refine ⟨?_, by rwa [h1] at h2⟩
    have := round53_form y
    rwa [h1] at this

/-- No number of the format is nearer to `x` than the rounded one. -/
theorem rnd_nearest {x y z : ℝ} (h : rnd x = .fin y) (hz : Number z) : |y - x| ≤ |z - x| := by
  obtain ⟨rfl, -⟩ := rnd_eq_fin h
  by_contra hlt
  rw [not_le] at hlt
  have hz53 : round53 z = z := (rnd_eq_fin ((number_iff z).1 hz)).1
  have hd : |round53 x - x| ≤ 1 / 2 * 2 ^ lastExp x := by
    have e1 : round53 x - x = ((rne (x / 2 ^ lastExp x) : ℝ) - x / 2 ^ lastExp x) * 2 ^ lastExp x := by
      unfold round53
      rw [sub_mul, div_mul_cancel₀ _ (two_zpow_pos _).ne']
    rw [e1, abs_mul, abs_of_pos (two_zpow_pos _)]
    exact mul_le_mul_of_nonneg_right (rne_err _) (two_zpow_pos _).le
  -- a number closer than half a last place, on the grid of `x`, is the rounded one
  have grid : ∀ (k : Int) (z : ℝ), |z - x| < |round53 x - x| → z = k * 2 ^ lastExp x → False := by
    intro k z hlt hk
    have e2 : |(k : ℝ) - x / 2 ^ lastExp x| < 1 / 2 := by
      have : |z - x| < 1 / 2 * 2 ^ lastExp x := hlt.trans_le hd
      rw [hk, show (k : ℝ) * 2 ^ lastExp x - x = (k - x / 2 ^ lastExp x) * 2 ^ lastExp x by
        rw [sub_mul, div_mul_cancel₀ _ (two_zpow_pos _).ne'], abs_mul, abs_of_pos (two_zpow_pos _)] at this
      exact lt_of_mul_lt_mul_right this (two_zpow_pos _).le
    have e3 := rne_err (x / 2 ^ lastExp x)
    have e4 : |((rne (x / 2 ^ lastExp x) - k : Int) : ℝ)| < 1 := by
      push_cast
      rw [abs_lt] at e2 ⊢
      rw [abs_le] at e3
      constructor <;> linarith [e2.1, e2.2, e3.1, e3.2]
    have e5 : rne (x / 2 ^ lastExp x) = k := by
      have : |rne (x / 2 ^ lastExp x) - k| < 1 := by exact_mod_cast e4
      rw [abs_lt] at this
      omega
    have e6 : z = round53 x := by
      unfold round53
      rw [e5, hk]
    rw [e6] at hlt
    exact lt_irrefl _ hlt
  obtain ⟨⟨m, e, hze, hm, he⟩, -⟩ := hz
  rcases le_or_gt (lastExp x) e with hle | hgt
  · refine grid (m * 2 ^ (e - lastExp x).toNat) z hlt ?_
    rw [hze, Int.cast_mul, zpow_int (by omega), mul_assoc, ← zpow_add₀ (by norm_num)]
    congr 2
    omega
  · -- the other numbers are no larger than the power of two below `x`
    have hl : lastExp x = Int.log 2 |x| - 52 := by
      unfold lastExp at hgt ⊢
      omega
    by_cases hx0 : x = 0
    · subst hx0
      rw [round53_zero] at hlt
      exact absurd hlt (by simp)
    have hpos : 0 < |x| := abs_pos.2 hx0
    have hzb : |z| ≤ 2 ^ Int.log 2 |x| := by
      rw [hze, abs_mul, abs_of_pos (two_zpow_pos e)]
      have h1 : |(m : ℝ)| ≤ 2 ^ (53 : Int) := by exact_mod_cast hm
      calc |(m : ℝ)| * 2 ^ e ≤ 2 ^ (53 : Int) * 2 ^ e := mul_le_mul_of_nonneg_right h1 (two_zpow_pos e).le
        _ = 2 ^ (53 + e) := (zpow_add₀ (by norm_num) _ _).symm
        _ ≤ _ := zpow_le_zpow_right₀ (by norm_num) (by omega)
    have hlx := log_le hpos
    have hdist : |x| - 2 ^ Int.log 2 |x| < |round53 x - x| := by
      have := abs_sub_abs_le_abs_sub x z
      rw [abs_sub_comm x z] at this
      linarith
    have hgrid : (2 : ℝ) ^ Int.log 2 |x| = ((2 ^ 52 : Int) : ℝ) * 2 ^ lastExp x := by
      rw [hl, zpow_sub₀ (by norm_num)]
      push_cast
      field_simp
      norm_num
    rcases lt_or_gt_of_ne hx0 with hx | hx
    · refine grid (-2 ^ 52) (-2 ^ Int.log 2 |x|) ?_ ?_
      · refine lt_of_eq_of_lt ?_ hdist
        rw [abs_of_neg hx] at hlx ⊢
        rw [abs_of_nonneg (by linarith)]
        ring
      · rw [hgrid]
        push_cast
        ring
    · refine grid (2 ^ 52) (2 ^ Int.log 2 |x|) ?_ hgrid
      refine lt_of_eq_of_lt ?_ hdist
      rw [abs_of_pos hx] at hlx ⊢
      rw [abs_of_nonpos (by linarith)]
      ring

end NiiC.Binary64

namespace NiiC

open XV in
open Classical in
/-- IEEE 754 binary64, rounding to nearest, with a libm that rounds the exact values. -/
noncomputable def Rounding.binary64 : Rounding where
  rnd := Binary64.rnd
  rnd_ne_nan := Binary64.rnd_ne_nan
  rnd_mono _ _ h := Binary64.rnd_mono h
  rnd_idem x y h := by
    obtain ⟨h1, h2⟩ := Binary64.rnd_eq_fin h
    have h3 := Binary64.round53_idem x
    rw [h1] at h3 h2
    rw [Binary64.rnd_fin (by rwa [h3]), h3]
  rnd_neg x h := by
    obtain ⟨h1, h2⟩ := Binary64.rnd_eq_fin h
    have h3 := Binary64.round53_neg x
    rw [h1] at h3 h2
    rw [Binary64.rnd_fin (by rwa [h3, abs_neg]), h3]
  rnd_int k h := by simpa using Binary64.rnd_repr k 0 h (by norm_num) (by norm_num)
  rnd_frac k h := by
    have := Binary64.rnd_repr k (-48) h (by norm_num) (by norm_num)
    rwa [zpow_neg, ← div_eq_mul_inv, show (2 : ℝ) ^ (48 : Int) = 2 ^ 48 from zpow_natCast 2 48] at this
  rnd_err x h1 h2 := by
    obtain ⟨y, hy, he⟩ := Binary64.rnd_err h1 h2
    refine ⟨y, hy, he.trans ?_⟩
    gcongr <;> norm_num
  exp v := match v with | nan => nan | ninf => fin 0 | pinf => pinf | fin x => Binary64.rnd (Real.exp x)
  exp_nan := rfl
  exp_ninf := rfl
  exp_pinf := rfl
  exp_nonneg x := Binary64.rnd_nonneg (Real.exp_pos x).le
  log v := match v with
    | nan => nan | ninf => nan | pinf => pinf
    | fin x => if x < 0 then nan else if x = 0 then ninf else Binary64.rnd (Real.log x)
  log_nan := rfl
  log_ninf := rfl
  log_pinf := rfl
  log_zero := by simp
  log_one := by norm_num [Binary64.rnd_zero]
  log_neg x h := by simp [h]
  log_pos x h := by simp [h.not_gt, h.ne', Binary64.rnd_ne_nan]
  sqrt v := match v with
    | nan => nan | ninf => nan | pinf => pinf
    | fin x => if x < 0 then nan else Binary64.rnd (Real.sqrt x)
  sqrt_nan := rfl
  sqrt_ninf := rfl
  sqrt_pinf := rfl
  sqrt_neg x h := by simp [h]
  sqrt_nonneg x h := by simp only [h.not_gt, if_false]; exact Binary64.rnd_nonneg (Real.sqrt_nonneg x)
  cos v := match v with | fin x => Binary64.rnd (Real.cos x) | _ => nan
  sin v := match v with | fin x => Binary64.rnd (Real.sin x) | _ => nan
  cos_nan := rfl
  sin_nan := rfl
  cos_fin x := by
    rw [← Binary64.rnd_neg_one, ← Binary64.rnd_one]
    exact ⟨Binary64.rnd_mono (Real.neg_one_le_cos x), Binary64.rnd_mono (Real.cos_le_one x)⟩
  sin_fin x := by
    rw [← Binary64.rnd_neg_one, ← Binary64.rnd_one]
    exact ⟨Binary64.rnd_mono (Real.neg_one_le_sin x), Binary64.rnd_mono (Real.sin_le_one x)⟩
  pow a b := match a, b with
    | fin x, fin y => if 0 < x ∨ y = 2 then Binary64.rnd (x ^ y) else nan
    | _, _ => nan
  pow_sq x := by
    simp only [or_true, if_true]
    refine Binary64.rnd_nonneg ?_
    rw [Real.rpow_two]
    positivity

/-- The doubles of the C program: IEEE 754 binary64. -/
abbrev Double := Dbl Rounding.binary64

end NiiC
