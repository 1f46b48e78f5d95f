import Verif.Num.Binary64
import Mathlib.RingTheory.Coprime.Lemmas

/-!
# Reciprocals of reciprocals in binary64

`T = 1/beta` and `beta = 1/T` are computed again and again by the tuning of the ladder (mpi_ladder.c:115 and 265). Rounded reciprocals of
rounded reciprocals do not drift: after the first reciprocal, taking two more changes nothing.
-/

namespace NiiC.Binary64

theorem odd_dvd_two_pow {k : Int} (j : Int) (hk : k = 2 * j + 1) {n : Nat} (h : k ∣ 2 ^ n) : k = 1 ∨ k = -1 := by
  have h1 : IsCoprime k 2 := ⟨1, -j, by rw [hk]; ring⟩
  exact Int.isUnit_iff.1 ((h1.pow_right (n := n)).isUnit_of_dvd' (dvd_refl k) h)

/-- The arithmetic of integers behind it: `X` rounds to `Y` and `Y` to `Z`, then `Z = X` or `Z` rounds to `Y`. -/
theorem recip_int {X Y Z N : Int} {n : Nat} (hN : N = 2 ^ n) (hY : 2 ≤ Y) (hX : 2 ≤ X)
    (h1 : |2 * X * Y - N| ≤ X) (h2 : |2 * Z * Y - N| ≤ Y) : Z = X ∨ |2 * Z * Y - N| < Z := by
  rw [abs_le] at h1
  rcases lt_or_ge Y Z with h | hZ
  · exact .inr (lt_of_le_of_lt h2 h)
  left
  rw [abs_le] at h2
  rcases le_or_gt X Y with hXY | hXY
  · by_contra hne
    rcases lt_or_gt_of_ne hne with h | h
    · have h3 : Z + 1 ≤ X := h
      have h4 : 2 * (Z + 1) * Y ≤ 2 * X * Y := by nlinarith
      have h5 : 2 * X * Y - N = Y := by nlinarith
      have h6 : (2 * X - 1) ∣ 2 ^ n := ⟨Y, by rw [← hN]; linarith⟩
      rcases odd_dvd_two_pow (X - 1) (by ring) h6 with h | h <;> omega
    · have h3 : X + 1 ≤ Z := h
      have h4 : 2 * (X + 1) * Y ≤ 2 * Z * Y := by nlinarith
      have h5 : 2 * X * Y - N = -Y := by nlinarith
      have h6 : (2 * X + 1) ∣ 2 ^ n := ⟨Y, by rw [← hN]; linarith⟩
      rcases odd_dvd_two_pow X (by ring) h6 with h | h <;> omega
  · exfalso
    have h3 : N ≤ 2 * Y * Y + Y := by nlinarith
    have h4 : 2 * Y * Y + Y - 1 ≤ N := by nlinarith
    rcases (show N = 2 * Y * Y + Y ∨ N = 2 * Y * Y + Y - 1 by omega) with h | h
    · have h6 : (2 * Y + 1) ∣ 2 ^ n := ⟨Y, by rw [← hN]; linarith⟩
      rcases odd_dvd_two_pow Y (by ring) h6 with h | h <;> omega
    · have h6 : (2 * Y - 1) ∣ 2 ^ n := ⟨Y + 1, by rw [← hN]; linarith⟩
      rcases odd_dvd_two_pow (Y - 1) (by ring) h6 with h | h <;> omega

theorem rne_near {t : ℝ} {k : Int} (h : |t - k| < 1 / 2) : rne t = k := by
  have h1 := abs_le.1 (rne_err t)
  rw [abs_lt] at h
  have e1 : ((rne t : Int) : ℝ) < ((k + 1 : Int) : ℝ) := by push_cast; linarith
  have e2 : ((k : Int) : ℝ) < ((rne t + 1 : Int) : ℝ) := by push_cast; linarith
  have := Int.cast_lt.1 e1
  have := Int.cast_lt.1 e2
  omega

/-- Rounding where the binary exponent is known. -/
theorem round53_at {t : ℝ} {e : Int} (h1 : 2 ^ 52 ≤ t) (h2 : t < 2 ^ 53) (he : -1074 ≤ e) : round53 (t * 2 ^ e) = rne t * 2 ^ e := by
  have t0 : 0 < t := lt_of_lt_of_le (by norm_num) h1
  have hp := two_zpow_pos e
  have hx : 0 < t * 2 ^ e := mul_pos t0 hp
  have c1 : (2 : ℝ) ^ (52 + e) ≤ t * 2 ^ e := by
    rw [zpow_add₀ (by norm_num)]
    gcongr
    exact_mod_cast h1
  have c2 : t * 2 ^ e < (2 : ℝ) ^ (53 + e) := by
    rw [zpow_add₀ (by norm_num)]
    gcongr
    exact_mod_cast h2
  have hl : Int.log 2 |t * 2 ^ e| = 52 + e := by
    rw [abs_of_pos hx]
    have d1 := (Int.zpow_le_iff_le_log (b := 2) (by norm_num) hx (x := 52 + e)).1 (by exact_mod_cast c1)
    have d2 := (Int.lt_zpow_iff_log_lt (b := 2) (by norm_num) hx (x := 53 + e)).1 (by exact_mod_cast c2)
    omega
  have hL : lastExp (t * 2 ^ e) = e := by
    unfold lastExp
    rw [hl]
    omega
  unfold round53
  rw [hL, mul_div_assoc, div_self hp.ne', mul_one]

/-- The reciprocal of `X * 2^e`. -/
theorem round53_recip {X e : Int} (h1 : 2 ^ 52 < X) (h2 : X < 2 ^ 53) (he : e ≤ 900) :
    round53 (1 / ((X : ℝ) * 2 ^ e)) = rne (2 ^ 105 / (X : ℝ)) * 2 ^ (-105 - e) ∧
    |2 * X * rne (2 ^ 105 / (X : ℝ)) - 2 ^ 106| ≤ X ∧ 2 ^ 52 < rne (2 ^ 105 / (X : ℝ)) ∧ rne (2 ^ 105 / (X : ℝ)) < 2 ^ 53 := by
  have X0 : (0 : ℝ) < X := by exact_mod_cast (lt_trans (by norm_num) h1)
  have r1 : (2 : ℝ) ^ 52 + 1 ≤ X := by exact_mod_cast h1
  have r2 : (X : ℝ) ≤ 2 ^ 53 - 1 := by
    have : X ≤ 2 ^ 53 - 1 := by omega
    exact_mod_cast this
  have t1 : (2 : ℝ) ^ 52 + 1 / 2 < 2 ^ 105 / (X : ℝ) := by
    rw [lt_div_iff₀ X0]
    calc ((2 : ℝ) ^ 52 + 1 / 2) * X ≤ (2 ^ 52 + 1 / 2) * (2 ^ 53 - 1) := by gcongr
      _ < 2 ^ 105 := by norm_num
  have t2 : 2 ^ 105 / (X : ℝ) < 2 ^ 53 - 1 := by
    rw [div_lt_iff₀ X0]
    calc (2 : ℝ) ^ 105 < (2 ^ 53 - 1) * (2 ^ 52 + 1 : ℝ) := by norm_num
      _ ≤ (2 ^ 53 - 1) * (X : ℝ) := mul_le_mul_of_nonneg_left r1 (by norm_num)
  have err := abs_le.1 (rne_err (2 ^ 105 / (X : ℝ)))
  obtain ⟨Y, hY⟩ : ∃ Y, rne (2 ^ 105 / (X : ℝ)) = Y := ⟨_, rfl⟩
  refine ⟨?_, ?_, ?_, ?_⟩
  · rw [← round53_at (by linarith) (by linarith) (by omega)]
    congr 1
    rw [zpow_sub₀ (by norm_num), zpow_neg]
    have : (2 : ℝ) ^ e ≠ 0 := (two_zpow_pos e).ne'
    field_simp
  · rw [hY] at err ⊢
    have e1 : ((2 * X * Y - 2 ^ 106 : Int) : ℝ) = 2 * X * (Y - 2 ^ 105 / X) := by
      push_cast
      field_simp
      ring
    have e2 : |((2 * X * Y - 2 ^ 106 : Int) : ℝ)| ≤ X := by
      rw [e1, abs_mul, abs_of_pos (by positivity)]
      calc 2 * (X : ℝ) * |(Y : ℝ) - 2 ^ 105 / X| ≤ 2 * X * (1 / 2) := by gcongr; exact abs_le.2 err
        _ = X := by ring
    exact_mod_cast e2
  · rw [hY] at err ⊢
    have : ((2 ^ 52 : Int) : ℝ) < Y := by push_cast; linarith
    exact_mod_cast this
  · rw [hY] at err ⊢
    have : (Y : ℝ) < ((2 ^ 53 : Int) : ℝ) := by push_cast; linarith
    exact_mod_cast this

/-- **Reciprocals do not drift.** For numbers of moderate size, the reciprocal of the reciprocal of the reciprocal is the reciprocal. -/
theorem recip_stable {x : ℝ} (hx : Number x) (h1 : 1 / 2 ^ 200 ≤ x) (h2 : x ≤ 2 ^ 200) :
    round53 (1 / round53 (1 / round53 (1 / x))) = round53 (1 / x) := by
  have x0 : 0 < x := lt_of_lt_of_le (by positivity) h1
  obtain ⟨hr, -⟩ := rnd_eq_fin ((number_iff x).1 hx)
  -- the normal form of `x`
  obtain ⟨L, hL⟩ : ∃ L, Int.log 2 x = L := ⟨_, rfl⟩
  have l1 := log_le x0
  have l2 := lt_log x
  rw [hL] at l1 l2
  have L1 : -200 ≤ L := by
    rw [← hL]
    refine (Int.zpow_le_iff_le_log (b := 2) (by norm_num) x0).1 ?_
    refine le_trans (le_of_eq ?_) h1
    norm_num
  have L2 : L ≤ 200 := by
    by_contra hc
    have : (2 : ℝ) ^ (201 : Int) ≤ 2 ^ L := zpow_le_zpow_right₀ (by norm_num) (by omega)
    have h3 := (this.trans l1).trans h2
    norm_num at h3
  have hlast : lastExp x = L - 52 := by
    unfold lastExp
    rw [abs_of_pos x0, hL]
    omega
  obtain ⟨X, hX⟩ : ∃ X, rne (x / 2 ^ lastExp x) = X := ⟨_, rfl⟩
  have ex : x = X * 2 ^ (L - 52) := by
    unfold round53 at hr
    rw [hX, hlast] at hr
    exact hr.symm
  have hp := two_zpow_pos (L - 52)
  have m1 : (2 : ℝ) ^ 52 ≤ X := by
    have : (2 : ℝ) ^ L = 2 ^ 52 * 2 ^ (L - 52) := by
      rw [show L = 52 + (L - 52) by ring, zpow_add₀ (by norm_num)]
      norm_num
    rw [ex, this] at l1
    exact le_of_mul_le_mul_right l1 hp
  have m2 : (X : ℝ) < 2 ^ 53 := by
    have : (2 : ℝ) ^ (L + 1) = 2 ^ 53 * 2 ^ (L - 52) := by
      rw [show L + 1 = 53 + (L - 52) by ring, zpow_add₀ (by norm_num)]
      norm_num
    rw [ex, this] at l2
    exact lt_of_mul_lt_mul_right l2 hp.le
  have m1' : 2 ^ 52 ≤ X := by exact_mod_cast m1
  have m2' : X < 2 ^ 53 := by exact_mod_cast m2
  obtain ⟨e, he⟩ : ∃ e, L - 52 = e := ⟨_, rfl⟩
  rw [he] at ex hp
  rcases m1'.eq_or_lt with hpow | hlt
  · -- a power of two
    have ex' : x = ((1 : Int) : ℝ) * 2 ^ L := by
      rw [ex, ← hpow, ← he]
      rw [show L = 52 + (L - 52) by ring, zpow_add₀ (by norm_num)]
      push_cast
      norm_num
    have inv : 1 / x = ((1 : Int) : ℝ) * 2 ^ (-L) := by
      rw [ex', zpow_neg]; simp
    have inv' : 1 / (1 / x) = x := by simp
    have e1 : round53 (1 / x) = 1 / x := by
      rw [inv]; exact round53_repr 1 (-L) (by norm_num) (by omega)
    rw [e1, inv', hr, e1]
  · obtain ⟨a1, a2, a3, a4⟩ := round53_recip hlt m2' (e := e) (by omega)
    obtain ⟨Y, hY⟩ : ∃ Y, rne (2 ^ 105 / (X : ℝ)) = Y := ⟨_, rfl⟩
    rw [hY] at a1 a2 a3 a4
    obtain ⟨b1, b2, b3, b4⟩ := round53_recip a3 a4 (e := -105 - e) (by omega)
    obtain ⟨Z, hZ⟩ : ∃ Z, rne (2 ^ 105 / (Y : ℝ)) = Z := ⟨_, rfl⟩
    rw [hZ] at b1 b2 b3 b4
    rw [show -105 - (-105 - e) = e by ring] at b1
    obtain ⟨c1, -, -, -⟩ := round53_recip b3 b4 (e := e) (by omega)
    rw [ex, a1, b1, c1]
    congr 2
    rcases recip_int (N := 2 ^ 106) rfl (le_trans (by norm_num) a3.le) (le_trans (by norm_num) hlt.le) a2
      (by rw [show 2 * Z * Y = 2 * Y * Z by ring]; exact b2) with h | h
    · rw [h, hY]
    · have Z0 : (0 : ℝ) < Z := by exact_mod_cast (lt_trans (by norm_num) b3)
      refine rne_near ?_
      have e1 : 2 ^ 105 / (Z : ℝ) - Y = -((2 * Z * Y - 2 ^ 106 : Int) : ℝ) / (2 * Z) := by
        push_cast
        field_simp
        ring
      have e2 : |((2 * Z * Y - 2 ^ 106 : Int) : ℝ)| < Z := by exact_mod_cast h
      rw [e1, abs_div, abs_neg, abs_of_pos (show (0 : ℝ) < 2 * Z by positivity), div_lt_iff₀ (by positivity)]
      calc _ < (Z : ℝ) := e2
        _ = 1 / 2 * (2 * Z) := by ring

end NiiC.Binary64
