import Verif.Model.Numpy
import Verif.Refine.Print
import Verif.Num.Nearby

/-!
# Scientific notation with any number of decimals

As in `Verif.Refine.Print` for twelve decimals.
-/

namespace NiiC
namespace Print
open Spec

theorem digitsAt_err (p : Nat) (x : ℝ) (hx : x ≠ 0) : |(digitsAt p x : ℝ) * (10 : ℝ) ^ (lead x - p) - (|x|)| ≤ 1 / 2 / 10 ^ p * |x| := by
  have hq : (0 : ℝ) < (10 : ℝ) ^ (lead x - p) := by positivity
  have h := rne_nat_err (x := |x| / (10 : ℝ) ^ (lead x - p)) (by positivity)
  have e : (digitsAt p x : ℝ) * (10 : ℝ) ^ (lead x - p) - |x| = ((digitsAt p x : ℝ) - |x| / (10 : ℝ) ^ (lead x - p)) * (10 : ℝ) ^ (lead x - p) := by
    rw [sub_mul, div_mul_cancel₀ _ hq.ne']
  have h2 : (10 : ℝ) ^ (lead x - p) = (10 : ℝ) ^ lead x * (1 / 10 ^ p) := by
    rw [zpow_sub₀ (by norm_num), zpow_natCast]
    ring
  rw [e, abs_mul, abs_of_pos hq]
  calc _ ≤ (1 / 2 : ℝ) * (10 : ℝ) ^ (lead x - p) := mul_le_mul_of_nonneg_right h hq.le
    _ = 1 / 2 / 10 ^ p * (10 : ℝ) ^ lead x := by rw [h2]; ring
    _ ≤ _ := mul_le_mul_of_nonneg_left (lead_bounds hx).1 (by positivity)

theorem digitsAt_bounds (p : Nat) (x : ℝ) (hx : x ≠ 0) : 10 ^ p ≤ digitsAt p x ∧ digitsAt p x ≤ 10 ^ (p + 1) := by
  have hq : (0 : ℝ) < (10 : ℝ) ^ (lead x - p) := by positivity
  obtain ⟨h1, h2⟩ := lead_bounds hx
  have e1 : ((10 ^ p : Int) : ℝ) * (10 : ℝ) ^ (lead x - p) = (10 : ℝ) ^ lead x := by
    rw [show ((10 ^ p : Int) : ℝ) = (10 : ℝ) ^ (p : Int) by rw [zpow_natCast]; push_cast; rfl, ← zpow_add₀ (by norm_num)]
    congr 1
    ring
  have e2 : ((10 ^ (p + 1) : Int) : ℝ) * (10 : ℝ) ^ (lead x - p) = (10 : ℝ) ^ (lead x + 1) := by
    rw [show ((10 ^ (p + 1) : Int) : ℝ) = (10 : ℝ) ^ ((p + 1 : Nat) : Int) by rw [zpow_natCast]; push_cast; rfl, ← zpow_add₀ (by norm_num)]
    congr 1
    push_cast
    ring
  have g1 : ((10 ^ p : Int) : ℝ) ≤ |x| / (10 : ℝ) ^ (lead x - p) := by
    rw [le_div_iff₀ hq, e1]
    exact h1
  have g2 : |x| / (10 : ℝ) ^ (lead x - p) ≤ ((10 ^ (p + 1) : Int) : ℝ) := by
    rw [div_le_iff₀ hq, e2]
    exact h2.le
  have k1 := Binary64.rne_mono g1
  have k2 := Binary64.rne_mono g2
  rw [Binary64.rne_int] at k1 k2
  unfold digitsAt
  refine ⟨?_, ?_⟩
  · have : ((10 ^ p : Nat) : Int) ≤ Binary64.rne (|x| / (10 : ℝ) ^ (lead x - p)) := by push_cast; exact k1
    omega
  · have : Binary64.rne (|x| / (10 : ℝ) ^ (lead x - p)) ≤ ((10 ^ (p + 1) : Nat) : Int) := by push_cast; exact k2
    omega

/-- Digits and exponent of `%.<p>e` give the number with an error of half a unit of the last digit. -/
theorem mantAt_err (p : Nat) (x : ℝ) : |(mantAt p x : ℝ) * (10 : ℝ) ^ (expoAt p x - p) - (|x|)| ≤ 1 / 2 / 10 ^ p * |x| := by
  by_cases hx : x = 0
  · simp [hx, mantAt]
  · have h := digitsAt_err p x hx
    by_cases ht : digitsAt p x = 10 ^ (p + 1)
    · have e : (mantAt p x : ℝ) * (10 : ℝ) ^ (expoAt p x - p) = (digitsAt p x : ℝ) * (10 : ℝ) ^ (lead x - p) := by
        rw [mantAt, expoAt, if_neg hx, if_neg hx, if_pos ht, if_pos ht, ht, show lead x + 1 - p = (lead x - p) + 1 by ring, zpow_add_one₀ (by norm_num)]
        push_cast
        ring
      rw [e]
      exact h
    · rw [mantAt, expoAt, if_neg hx, if_neg hx, if_neg ht, if_neg ht]
      exact h

theorem mantAt_bounds (p : Nat) (x : ℝ) : mantAt p x < 10 ^ (p + 1) ∧ (x ≠ 0 → 10 ^ p ≤ mantAt p x) := by
  by_cases hx : x = 0
  · simp [hx, mantAt]
  · have h := digitsAt_bounds p x hx
    by_cases ht : digitsAt p x = 10 ^ (p + 1)
    · rw [mantAt, if_neg hx, if_pos ht]
      exact ⟨Nat.pow_lt_pow_right (by norm_num) (by omega), fun _ => le_refl _⟩
    · rw [mantAt, if_neg hx, if_neg ht]
      exact ⟨by omega, fun _ => h.1⟩

/-- `%.<p>e` prints a decimal number in scientific notation with `p` decimals, one digit before the point, and a relative error of at most half a unit of the last digit. -/
theorem sciAt_text (p : Nat) (x : ℝ) : ∃ t : DecText, sciAt p x = t.text ∧ t.Wf ∧ (∃ ds, t.decimals = some ds ∧ ds.length = p) ∧
    digitsValue t.digits < 10 ∧ |val t - x| ≤ 1 / 2 / 10 ^ p * |x| := by
  obtain ⟨ds, h1, h2, h3⟩ := printNat_text (mantAt p x / 10 ^ p)
  obtain ⟨fs, g1, g2, g3⟩ := pad_text p (mantAt p x)
  obtain ⟨e, k1, k2, k3⟩ := expo_text (expoAt p x)
  refine ⟨⟨signOf x, ds, some fs, some e⟩, ?_, ⟨.inl h3, ?_⟩, ⟨fs, rfl, g3⟩, ?_, ?_⟩
  · rw [sciAt, sign_text, h1, g1, k1]
    simp [DecText.text]
  · intro e' he
    rw [← Option.some.inj he]
    exact k3
  · show digitsValue ds < 10
    rw [h2]
    exact Nat.div_lt_of_lt_mul (by have := (mantAt_bounds p x).1; rwa [pow_succ] at this)
  · have hm : digitsValue (ds ++ fs) = mantAt p x := by
      rw [digitsValue_append, h2, g2, g3]
      exact Nat.div_add_mod' _ _
    have hp : (DecText.power ⟨signOf x, ds, some fs, some e⟩) = expoAt p x - p := by
      simp [DecText.power, g3, k2]
    rw [val, hp]
    simp only [DecText.mantissa, Option.getD_some, hm]
    exact sign_err x _ _ _ (mantAt_err p x)

theorem sciAt_twelve (x : ℝ) : sciAt 12 x = sci x := rfl

/-- Seventeen digits are enough: a number of the format is what the nearest double to its text is. -/
theorem sciAt_exact (p : Nat) (hp : 16 ≤ p) {x : ℝ} (hx : Binary64.Number x) {t : DecText} (h : |val t - x| ≤ 1 / 2 / 10 ^ p * |x|) :
    Binary64.rnd (val t) = .fin x := by
  by_cases h0 : x = 0
  · subst h0
    simp only [abs_zero, mul_zero, sub_zero] at h
    rw [abs_eq_zero.1 (le_antisymm h (abs_nonneg _))]
    exact Binary64.rnd_zero
  · refine Binary64.rnd_near hx (h.trans_lt ?_)
    have hpos : 0 < |x| := abs_pos.2 h0
    have h1 : (10 : ℝ) ^ 16 ≤ 10 ^ p := pow_le_pow_right₀ (by norm_num) hp
    have h2 : 1 / 2 / (10 : ℝ) ^ p ≤ 1 / 2 / 10 ^ 16 := div_le_div_of_nonneg_left (by norm_num) (by norm_num) h1
    calc _ ≤ 1 / 2 / (10 : ℝ) ^ 16 * |x| := mul_le_mul_of_nonneg_right h2 hpos.le
      _ < |x| / 2 ^ 54 := by
        norm_num
        linarith

end Print
end NiiC
