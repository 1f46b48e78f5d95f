import Verif.Num.Binary64

/-!
# Real numbers near a double are rounded to it

Within `2^-54` of its size, a number of the format is what rounding gives. Decimal numbers of seventeen significant digits are that close.
-/

namespace NiiC.Binary64

/-- A number on the grid of `v`, less than half a last place away, is the rounded one. -/
theorem round53_grid {v z : ℝ} (k : Int) (hz : z = k * 2 ^ lastExp v) (h : |v - z| < 1 / 2 * 2 ^ lastExp v) : round53 v = z := by
  have e2 : |(k : ℝ) - v / 2 ^ lastExp v| < 1 / 2 := by
    rw [abs_sub_comm, hz, show (k : ℝ) * 2 ^ lastExp v - v = (k - v / 2 ^ lastExp v) * 2 ^ lastExp v by
      rw [sub_mul, div_mul_cancel₀ _ (two_zpow_pos _).ne'], abs_mul, abs_of_pos (two_zpow_pos _)] at h
    exact lt_of_mul_lt_mul_right h (two_zpow_pos _).le
  have e3 := rne_err (v / 2 ^ lastExp v)
  have e4 : |((rne (v / 2 ^ lastExp v) - k : Int) : ℝ)| < 1 := by
    push_cast
    rw [abs_lt] at e2 ⊢
    rw [abs_le] at e3
    constructor <;> linarith [e2.1, e2.2, e3.1, e3.2]
  have e5 : rne (v / 2 ^ lastExp v) = k := by
    have : |rne (v / 2 ^ lastExp v) - k| < 1 := by exact_mod_cast e4
    rw [abs_lt] at this
    omega
  unfold round53
  rw [e5, hz]

theorem zpow_split (L : Int) (j : Nat) : (2 : ℝ) ^ (L - j) = 2 ^ L / 2 ^ j := by
  rw [zpow_sub₀ (by norm_num), zpow_natCast]

/-- A whole number of steps below a power of two that is itself on the grid is at least one step below. -/
theorem step_below {k : Int} {E T : Int} (hET : E ≤ T) (h : (k : ℝ) * 2 ^ E < 2 ^ T) : ((k : ℝ) + 1) * 2 ^ E ≤ 2 ^ T := by
  have e : (2 : ℝ) ^ T = ((2 ^ (T - E).toNat : Int) : ℝ) * 2 ^ E := by
    rw [zpow_int (by omega), ← zpow_add₀ (by norm_num)]
    congr 1
    omega
  rw [e] at h ⊢
  have h1 : (k : ℝ) < ((2 ^ (T - E).toNat : Int) : ℝ) := lt_of_mul_lt_mul_right h (two_zpow_pos E).le
  have h2 : k < 2 ^ (T - E).toNat := by exact_mod_cast h1
  have h3 : k + 1 ≤ 2 ^ (T - E).toNat := h2
  exact mul_le_mul_of_nonneg_right (by exact_mod_cast h3) (two_zpow_pos E).le

theorem round53_near_pos {v x : ℝ} (hx : round53 x = x) (hp : 0 < x) (h : |v - x| < x / 2 ^ 54) : round53 v = x := by
  obtain ⟨k, hk⟩ : ∃ k : Int, x = k * 2 ^ lastExp x := ⟨_, hx.symm⟩
  have hE : lastExp x = max (Int.log 2 x - 52) (-1074) := by rw [lastExp, abs_of_pos hp]
  have b1 := log_le hp
  have b2 := lt_log x
  generalize hL : Int.log 2 x = L at hE b1 b2
  have hkpos : 0 < k := by
    by_contra hn
    have : (k : ℝ) ≤ 0 := by exact_mod_cast not_lt.1 hn
    have := mul_nonpos_of_nonpos_of_nonneg this (two_zpow_pos (lastExp x)).le
    linarith
  have hLlow : -1074 ≤ L := by
    by_contra hn
    have h1 : (2 : ℝ) ^ (L + 1) ≤ 2 ^ (-1074 : Int) := zpow_le_zpow_right₀ (by norm_num) (by omega)
    have h2 : (2 : ℝ) ^ (-1074 : Int) ≤ 2 ^ lastExp x := zpow_le_zpow_right₀ (by norm_num) (by omega)
    have h3 : (1 : ℝ) ≤ k := by exact_mod_cast hkpos
    have h4 : (2 : ℝ) ^ lastExp x ≤ k * 2 ^ lastExp x := le_mul_of_one_le_left (two_zpow_pos _).le h3
    linarith
  have hLp := two_zpow_pos L
  have e1 : (2 : ℝ) ^ (L + 1) = 2 * 2 ^ L := by rw [zpow_add_one₀ (by norm_num), mul_comm]
  have hsub := zpow_split L
  have hstep : (2 : ℝ) ^ L / 2 ^ 52 ≤ 2 ^ lastExp x := by
    rw [← hsub 52]
    exact zpow_le_zpow_right₀ (by norm_num) (by push_cast; omega)
  obtain ⟨a1, a2⟩ := abs_lt.1 h
  have htop : x + 2 ^ lastExp x ≤ 2 ^ (L + 1) := by
    have := step_below (k := k) (E := lastExp x) (T := L + 1) (by omega) (by rw [← hk]; exact b2)
    rw [add_mul, one_mul, ← hk] at this
    exact this
  have hv2 : v < 2 ^ (L + 1) := by
    rw [e1] at htop b2 ⊢
    generalize (2 : ℝ) ^ L = p at *
    norm_num at a2 hstep
    linarith
  have hv1 : (2 : ℝ) ^ (L - 1) < v := by
    have := hsub 1
    push_cast at this
    rw [this]
    generalize (2 : ℝ) ^ L = p at *
    norm_num at a1 ⊢
    linarith
  have hvp : 0 < v := (two_zpow_pos _).trans hv1
  have hEv : lastExp v = max (Int.log 2 v - 52) (-1074) := by rw [lastExp, abs_of_pos hvp]
  have c1 := log_le hvp
  have c2 := lt_log v
  generalize Int.log 2 v = M at hEv c1 c2
  have hM1 : M < L + 1 := (zpow_lt_zpow_iff_right₀ (by norm_num : (1 : ℝ) < 2)).1 (c1.trans_lt hv2)
  have hM2 : L - 1 < M + 1 := (zpow_lt_zpow_iff_right₀ (by norm_num : (1 : ℝ) < 2)).1 (hv1.trans c2)
  by_cases hsame : lastExp v = lastExp x
  · refine round53_grid k (by rw [hsame]; exact hk) ?_
    rw [hsame]
    refine h.trans_le ?_
    rw [e1] at b2
    generalize (2 : ℝ) ^ L = p at *
    norm_num at hstep ⊢
    linarith
  · have hML : M = L - 1 := by
      by_contra hn
      have : M = L := by omega
      rw [this, ← hE] at hEv
      exact hsame hEv
    have hEx : lastExp x = L - 52 := by omega
    have hEv' : lastExp v = L - 53 := by omega
    have hvL : v < 2 ^ L := by
      rw [hML] at c2
      simpa using c2
    -- the number is the power of two
    have hxL : x = 2 ^ L := by
      refine le_antisymm ?_ b1
      by_contra hn
      rw [not_le] at hn
      have e52 : (2 : ℝ) ^ L = ((2 ^ 52 : Int) : ℝ) * 2 ^ (L - 52) := by
        have := hsub 52
        push_cast at this ⊢
        rw [this]
        ring
      have hkk : (2 ^ 52 : Int) < k := by
        rw [hk, hEx, e52] at hn
        exact_mod_cast lt_of_mul_lt_mul_right hn (two_zpow_pos _).le
      have hkk' : ((2 ^ 52 : Int) : ℝ) + 1 ≤ k := by exact_mod_cast hkk
      have h5 : ((2 ^ 52 : Int) : ℝ) * 2 ^ (L - 52) + 2 ^ (L - 52) ≤ x := by
        rw [hk, hEx]
        have := mul_le_mul_of_nonneg_right hkk' (two_zpow_pos (L - 52)).le
        linarith
      rw [← e52] at h5
      have h6 := hsub 52
      push_cast at h6
      rw [h6] at h5
      rw [e1] at b2
      generalize (2 : ℝ) ^ L = p at *
      norm_num at a1 h5
      linarith
    refine round53_grid (k * 2) ?_ ?_
    · rw [hEv']
      nth_rw 1 [hk]
      rw [hEx, show L - 52 = (L - 53) + 1 by ring, zpow_add_one₀ (by norm_num)]
      push_cast
      ring
    · have h6 := hsub 53
      push_cast at h6
      rw [hEv', h6]
      refine h.trans_le ?_
      rw [hxL]
      generalize (2 : ℝ) ^ L = p at *
      norm_num
      linarith

/-- A real number within `2^-54` of the size of a number of the format is rounded to that number. -/
theorem rnd_near {v x : ℝ} (hx : Number x) (h : |v - x| < |x| / 2 ^ 54) : rnd v = .fin x := by
  have hx53 := (rnd_eq_fin ((number_iff x).1 hx)).1
  have hv : round53 v = x := by
    rcases lt_trichotomy x 0 with hn | h0 | hp
    · have h1 : round53 (-v) = -x := by
        refine round53_near_pos (by rw [round53_neg, hx53]) (by linarith) ?_
        rw [abs_of_neg hn] at h
        rwa [show -v - -x = -(v - x) by ring, abs_neg]
      rw [round53_neg] at h1
      exact neg_injective h1
    · subst h0
      simp at h
      exact absurd h (not_lt.2 (abs_nonneg v))
    · rw [abs_of_pos hp] at h
      exact round53_near_pos hx53 hp h
  rw [rnd_fin (by rw [hv]; exact hx.2), hv]

end NiiC.Binary64
