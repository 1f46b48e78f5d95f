import Verif.Model.Print
import Verif.Props.IniFile
import Verif.Props.FileNames
import Verif.Props.Data

/-!
# Printed numbers are decimal numbers

Lemmas about the printing of numbers: the text is a decimal number of `Spec.DecText`, close to the number printed.
-/

set_option linter.unusedSectionVars false

namespace NiiC
namespace Print
open Spec

/-! ## Digits -/

theorem digit_char (c : Char) (h : isDigit c = true) : ∃ d, digitChar d = c := by
  simp only [isDigit, Bool.or_eq_true, beq_iff_eq] at h
  rcases h with ((((((((h | h) | h) | h) | h) | h) | h) | h) | h) | h <;> subst h
  exacts [⟨0, rfl⟩, ⟨1, rfl⟩, ⟨2, rfl⟩, ⟨3, rfl⟩, ⟨4, rfl⟩, ⟨5, rfl⟩, ⟨6, rfl⟩, ⟨7, rfl⟩, ⟨8, rfl⟩, ⟨9, rfl⟩]

theorem digits_of (s : Str) (h : ∀ c ∈ s, isDigit c = true) : ∃ ds, s = digitsText ds ∧ digitsValue ds = natOf s ∧ ds.length = s.length := by
  have : ∃ ds, s = digitsText ds := by
    induction s with
    | nil => exact ⟨[], rfl⟩
    | cons c s ih =>
      obtain ⟨ds, rfl⟩ := ih (fun c hc => h c (by simp [hc]))
      obtain ⟨d, rfl⟩ := digit_char c (h c (by simp))
      exact ⟨d :: ds, rfl⟩
  obtain ⟨ds, rfl⟩ := this
  exact ⟨ds, rfl, (natOf_digits ds).symm, by simp [digitsText]⟩

theorem pad_digits : ∀ (k m : Nat), ∀ c ∈ pad k m, isDigit c = true := by
  intro k
  induction k with
  | zero => intro m c hc; cases hc
  | succ k ih =>
    intro m c hc
    rcases List.mem_append.1 hc with h | h
    · exact ih _ c h
    · rw [List.mem_singleton.1 h]
      exact (digitOut_val _ (Nat.mod_lt _ (by omega))).2

theorem pad_length : ∀ (k m : Nat), (pad k m).length = k := by
  intro k
  induction k with
  | zero => intro m; rfl
  | succ k ih => intro m; simp [pad, ih]

theorem pad_value : ∀ (k m : Nat), natOf (pad k m) = m % 10 ^ k := by
  intro k
  induction k with
  | zero => intro m; simp [pad, natOf, Nat.mod_one]
  | succ k ih =>
    intro m
    have h1 := ih (m / 10)
    simp only [natOf] at h1
    simp only [pad, natOf, List.foldl_append, h1, List.foldl_cons, List.foldl_nil, (digitOut_val (m % 10) (Nat.mod_lt _ (by omega))).1]
    rw [Nat.pow_succ, Nat.mul_comm (10 ^ k) 10, Nat.mod_mul]
    omega

theorem digitsValue_append (a b : List (Fin 10)) : digitsValue (a ++ b) = digitsValue a * 10 ^ b.length + digitsValue b := by
  induction a with
  | nil => simp [digitsValue]
  | cons d a ih =>
    simp only [List.cons_append, digitsValue, ih, List.length_append, pow_add]
    ring

/-- The digits of a number, and digits with leading zeros. -/
theorem printNat_text (k : Nat) : ∃ ds, printNat k = digitsText ds ∧ digitsValue ds = k ∧ ds ≠ [] := by
  obtain ⟨ds, h1, h2, h3⟩ := digits_of _ (printNat_digits k)
  refine ⟨ds, h1, h2.trans (natOf_printNat k), ?_⟩
  rintro rfl
  obtain ⟨c, cs, e, _⟩ := printNat_ne k
  rw [h1] at e
  cases e

theorem pad_text (k m : Nat) : ∃ ds, pad k m = digitsText ds ∧ digitsValue ds = m % 10 ^ k ∧ ds.length = k := by
  obtain ⟨ds, h1, h2, h3⟩ := digits_of _ (pad_digits k m)
  exact ⟨ds, h1, h2.trans (pad_value k m), h3.trans (pad_length k m)⟩

/-! ## Integers -/

/-- The text of an integer is an integer of the notation, and a decimal number without decimals. -/
theorem int_text (k : Int) : ∃ t : IntText, int k = t.text ∧ t.value = k ∧ t.digits ≠ [] := by
  obtain ⟨ds, h1, h2, h3⟩ := printNat_text k.natAbs
  by_cases hk : k < 0
  · refine ⟨⟨.minus, ds⟩, ?_, ?_, h3⟩
    · rw [int, if_pos hk, h1]
      rfl
    · show -(digitsValue ds : Int) = k
      omega
  · refine ⟨⟨.none, ds⟩, ?_, ?_, h3⟩
    · rw [int, if_neg hk, h1]
      rfl
    · show (digitsValue ds : Int) = k
      omega

theorem int_dec (k : Int) : ∃ t : DecText, int k = t.text ∧ t.mantissa = k ∧ t.power = 0 ∧ t.Wf := by
  obtain ⟨t, h1, h2, h3⟩ := int_text k
  refine ⟨⟨t.sign, t.digits, none, none⟩, ?_, ?_, rfl, ⟨.inl h3, by simp⟩⟩
  · rw [h1]
    simp [DecText.text, IntText.text]
  · rw [← h2]
    simp [DecText.mantissa, IntText.value]

/-! ## Decimals -/

/-- The value of a decimal number of the notation. -/
noncomputable def val (t : DecText) : ℝ := (t.mantissa : ℝ) * (10 : ℝ) ^ t.power

/-- The sign printed. -/
noncomputable def signOf (x : ℝ) : Sign := open Classical in if x < 0 then .minus else .none

theorem sign_text (x : ℝ) : sign x = (signOf x).text := by
  unfold sign signOf
  split <;> rfl

theorem sign_err (x : ℝ) (m : Nat) (p : Int) (b : ℝ) (h : |(m : ℝ) * (10 : ℝ) ^ p - (|x|)| ≤ b) :
    |(((signOf x).apply m : Int) : ℝ) * (10 : ℝ) ^ p - x| ≤ b := by
  unfold signOf
  split
  · rename_i hx
    rw [abs_of_neg hx] at h
    have : (((Sign.minus).apply m : Int) : ℝ) * (10 : ℝ) ^ p - x = -((m : ℝ) * (10 : ℝ) ^ p - -x) := by
      simp only [Sign.apply, Int.cast_neg, Int.cast_natCast]
      ring
    rw [this, abs_neg]
    exact h
  · rename_i hx
    rw [abs_of_nonneg (not_lt.1 hx)] at h
    simpa [Sign.apply] using h

theorem rne_nonneg {x : ℝ} (h : 0 ≤ x) : 0 ≤ Binary64.rne x := by
  have := Binary64.rne_mono h
  have h0 : Binary64.rne (0 : ℝ) = 0 := by simpa using Binary64.rne_int 0
  rwa [h0] at this

theorem rne_nat_err {x : ℝ} (h : 0 ≤ x) : |((Binary64.rne x).toNat : ℝ) - x| ≤ 1 / 2 := by
  have e : (((Binary64.rne x).toNat : Int) : ℝ) = (Binary64.rne x : ℝ) := by rw [Int.toNat_of_nonneg (rne_nonneg h)]
  have := Binary64.rne_err x
  rw [← e, Int.cast_natCast] at this
  exact this

theorem millionths_err (x : ℝ) : |(millionths x : ℝ) * (10 : ℝ) ^ (-6 : Int) - (|x|)| ≤ 5 / 10 ^ 7 := by
  have h := rne_nat_err (x := |x| * 10 ^ 6) (by positivity)
  have e : (millionths x : ℝ) * (10 : ℝ) ^ (-6 : Int) - |x| = ((millionths x : ℝ) - |x| * 10 ^ 6) * (1 / 10 ^ 6) := by
    norm_num
    ring
  rw [e, abs_mul, abs_of_pos (show (0 : ℝ) < 1 / 10 ^ 6 by positivity)]
  calc _ ≤ (1 / 2 : ℝ) * (1 / 10 ^ 6) := mul_le_mul_of_nonneg_right h (by positivity)
    _ = _ := by norm_num

/-- `%lf` prints a decimal number with six decimals at most `5e-7` away. -/
theorem fixed_text (x : ℝ) : ∃ t : DecText, fixed x = t.text ∧ t.Wf ∧ (∃ ds, t.decimals = some ds ∧ ds.length = 6) ∧ t.exponent = none ∧ |val t - x| ≤ 5 / 10 ^ 7 := by
  obtain ⟨ds, h1, h2, h3⟩ := printNat_text (millionths x / 10 ^ 6)
  obtain ⟨fs, g1, g2, g3⟩ := pad_text 6 (millionths x)
  refine ⟨⟨signOf x, ds, some fs, none⟩, ?_, ⟨.inl h3, by simp⟩, ⟨fs, rfl, g3⟩, rfl, ?_⟩
  · rw [fixed, sign_text, h1, g1]
    simp [DecText.text]
  · have hm : digitsValue (ds ++ fs) = millionths x := by
      rw [digitsValue_append, h2, g2, g3]
      exact Nat.div_add_mod' _ _
    have hp : (DecText.power ⟨signOf x, ds, some fs, none⟩) = -6 := by
      simp [DecText.power, g3]
    rw [val, hp]
    simp only [DecText.mantissa, Option.getD_some, hm]
    exact sign_err x _ _ _ (millionths_err x)

theorem expo_text (e : Int) : ∃ t : IntText, expoText e = t.text ∧ t.value = e ∧ t.digits ≠ [] := by
  have hd : ∃ ds, (if e.natAbs < 100 then pad 2 e.natAbs else printNat e.natAbs) = digitsText ds ∧ digitsValue ds = e.natAbs ∧ ds ≠ [] := by
    split
    · rename_i h
      obtain ⟨ds, h1, h2, h3⟩ := pad_text 2 e.natAbs
      refine ⟨ds, h1, h2.trans (Nat.mod_eq_of_lt (by omega)), ?_⟩
      rintro rfl
      cases h3
    · exact printNat_text _
  obtain ⟨ds, h1, h2, h3⟩ := hd
  by_cases he : e < 0
  · refine ⟨⟨.minus, ds⟩, ?_, ?_, h3⟩
    · rw [expoText, if_pos he, h1]
      rfl
    · show -(digitsValue ds : Int) = e
      omega
  · refine ⟨⟨.plus, ds⟩, ?_, ?_, h3⟩
    · rw [expoText, if_neg he, h1]
      rfl
    · show (digitsValue ds : Int) = e
      omega

theorem lead_bounds {x : ℝ} (hx : x ≠ 0) : (10 : ℝ) ^ lead x ≤ |x| ∧ |x| < (10 : ℝ) ^ (lead x + 1) := by
  have hp : 0 < |x| := abs_pos.2 hx
  constructor
  · simpa [lead] using Int.zpow_log_le_self (b := 10) (by norm_num) hp
  · simpa [lead] using Int.lt_zpow_succ_log_self (b := 10) (by norm_num) |x|

theorem thirteen_err (x : ℝ) (hx : x ≠ 0) : |(thirteen x : ℝ) * (10 : ℝ) ^ (lead x - 12) - (|x|)| ≤ 5 / 10 ^ 13 * |x| := by
  have hq : (0 : ℝ) < (10 : ℝ) ^ (lead x - 12) := by positivity
  have h := rne_nat_err (x := |x| / (10 : ℝ) ^ (lead x - 12)) (by positivity)
  have e : (thirteen x : ℝ) * (10 : ℝ) ^ (lead x - 12) - |x| = ((thirteen x : ℝ) - |x| / (10 : ℝ) ^ (lead x - 12)) * (10 : ℝ) ^ (lead x - 12) := by
    rw [sub_mul, div_mul_cancel₀ _ hq.ne']
  have h2 : (10 : ℝ) ^ (lead x - 12) = (10 : ℝ) ^ lead x * (1 / 10 ^ 12) := by
    rw [zpow_sub₀ (by norm_num)]
    norm_num
    ring
  rw [e, abs_mul, abs_of_pos hq]
  calc _ ≤ (1 / 2 : ℝ) * (10 : ℝ) ^ (lead x - 12) := mul_le_mul_of_nonneg_right h hq.le
    _ = 5 / 10 ^ 13 * (10 : ℝ) ^ lead x := by rw [h2]; ring
    _ ≤ _ := mul_le_mul_of_nonneg_left (lead_bounds hx).1 (by positivity)

theorem thirteen_bounds (x : ℝ) (hx : x ≠ 0) : 10 ^ 12 ≤ thirteen x ∧ thirteen x ≤ 10 ^ 13 := by
  have hq : (0 : ℝ) < (10 : ℝ) ^ (lead x - 12) := by positivity
  obtain ⟨h1, h2⟩ := lead_bounds hx
  have e1 : ((10 ^ 12 : Int) : ℝ) * (10 : ℝ) ^ (lead x - 12) = (10 : ℝ) ^ lead x := by
    rw [show ((10 ^ 12 : Int) : ℝ) = (10 : ℝ) ^ (12 : Int) by norm_num, ← zpow_add₀ (by norm_num)]
    congr 1
    ring
  have e2 : ((10 ^ 13 : Int) : ℝ) * (10 : ℝ) ^ (lead x - 12) = (10 : ℝ) ^ (lead x + 1) := by
    rw [show ((10 ^ 13 : Int) : ℝ) = (10 : ℝ) ^ (13 : Int) by norm_num, ← zpow_add₀ (by norm_num)]
    congr 1
    ring
  have g1 : ((10 ^ 12 : Int) : ℝ) ≤ |x| / (10 : ℝ) ^ (lead x - 12) := by
    rw [le_div_iff₀ hq, e1]
    exact h1
  have g2 : |x| / (10 : ℝ) ^ (lead x - 12) ≤ ((10 ^ 13 : Int) : ℝ) := by
    rw [div_le_iff₀ hq, e2]
    exact h2.le
  have k1 := Binary64.rne_mono g1
  have k2 := Binary64.rne_mono g2
  rw [Binary64.rne_int] at k1 k2
  unfold thirteen
  omega

/-- Digits and exponent of `%.12e`: at most 13 digits, the first one not zero, and a value within half a unit of the last digit. -/
theorem mant_err (x : ℝ) : |(mant x : ℝ) * (10 : ℝ) ^ (expo x - 12) - (|x|)| ≤ 5 / 10 ^ 13 * |x| := by
  by_cases hx : x = 0
  · simp [hx, mant]
  · have h := thirteen_err x hx
    by_cases ht : thirteen x = 10 ^ 13
    · have e : (mant x : ℝ) * (10 : ℝ) ^ (expo x - 12) = (thirteen x : ℝ) * (10 : ℝ) ^ (lead x - 12) := by
        rw [mant, expo, if_neg hx, if_neg hx, if_pos ht, if_pos ht, ht, show lead x + 1 - 12 = (lead x - 12) + 1 by ring, zpow_add_one₀ (by norm_num)]
        push_cast
        ring
      rw [e]
      exact h
    · rw [mant, expo, if_neg hx, if_neg hx, if_neg ht, if_neg ht]
      exact h

theorem mant_bounds (x : ℝ) : mant x < 10 ^ 13 ∧ (x ≠ 0 → 10 ^ 12 ≤ mant x) := by
  by_cases hx : x = 0
  · simp [hx, mant]
  · have h := thirteen_bounds x hx
    by_cases ht : thirteen x = 10 ^ 13
    · rw [mant, if_neg hx, if_pos ht]
      exact ⟨by norm_num, fun _ => le_refl _⟩
    · rw [mant, if_neg hx, if_neg ht]
      exact ⟨by omega, fun _ => h.1⟩

/-- `%.12e` prints a decimal number in scientific notation with thirteen digits, with a relative error of at most `5e-13`. -/
theorem sci_text (x : ℝ) : ∃ t : DecText, sci x = t.text ∧ t.Wf ∧ (∃ ds, t.decimals = some ds ∧ ds.length = 12) ∧ |val t - x| ≤ 5 / 10 ^ 13 * |x| := by
  obtain ⟨ds, h1, h2, h3⟩ := printNat_text (mant x / 10 ^ 12)
  obtain ⟨fs, g1, g2, g3⟩ := pad_text 12 (mant x)
  obtain ⟨e, k1, k2, k3⟩ := expo_text (expo x)
  refine ⟨⟨signOf x, ds, some fs, some e⟩, ?_, ⟨.inl h3, ?_⟩, ⟨fs, rfl, g3⟩, ?_⟩
  · rw [sci, sign_text, h1, g1, k1]
    simp [DecText.text]
  · intro e' he
    rw [← Option.some.inj he]
    exact k3
  · have hm : digitsValue (ds ++ fs) = mant x := by
      rw [digitsValue_append, h2, g2, g3]
      exact Nat.div_add_mod' _ _
    have hp : (DecText.power ⟨signOf x, ds, some fs, some e⟩) = expo x - 12 := by
      simp [DecText.power, g3, k2]
    rw [val, hp]
    simp only [DecText.mantissa, Option.getD_some, hm]
    exact sign_err x _ _ _ (mant_err x)

end Print
end NiiC
