import Verif.Props.Grid
import Verif.Props.AcceptDbl

/-!
# The grid of trial widths in doubles: C96
-/

set_option linter.unusedSectionVars false
set_option linter.unusedSimpArgs false

namespace NiiC

open Dbl

/-! ## Logarithms of moderate numbers -/

/-- A positive number of moderate size: between `2^-200` and `2^200`. -/
def Moderate (x : ℝ) : Prop := 1 / 2 ^ 200 ≤ x ∧ x ≤ 2 ^ 200

theorem Moderate.pos {x : ℝ} (h : Moderate x) : 0 < x := lt_of_lt_of_le (by positivity) h.1

theorem Moderate.log {x : ℝ} (h : Moderate x) : |Real.log x| ≤ 140 := by
  have h2 : Real.log ((2 : ℝ) ^ 200) ≤ 140 := by
    rw [Real.log_pow]
    have := Real.log_two_lt_d9
    push_cast
    linarith
  have e1 : Real.log x ≤ 140 := (Real.log_le_log h.pos h.2).trans h2
  have e2 : -140 ≤ Real.log x := by
    have := Real.log_le_log (by positivity) h.1
    rw [one_div, Real.log_inv] at this
    linarith
  exact abs_le.2 ⟨e2, e1⟩

theorem two_pow_exp (x : ℝ) (hx : |x| ≤ 600) : (2⁻¹ : ℝ) ^ 1000 ≤ Real.exp x ∧ Real.exp x ≤ 2 ^ 1000 := by
  have hl := Real.log_two_gt_d9
  have e : (2 : ℝ) ^ 1000 = Real.exp (1000 * Real.log 2) := by
    rw [show (1000 : ℝ) = ((1000 : ℕ) : ℝ) by norm_num, Real.exp_nat_mul, Real.exp_log (by norm_num)]
  rw [abs_le] at hx
  rw [inv_pow, e, ← Real.exp_neg]
  exact ⟨Real.exp_le_exp.2 (by linarith), Real.exp_le_exp.2 (by linarith)⟩

/-- A number of the form `exp x` that is not too large, rounded: the logarithm moves by at most `2^-52`. -/
theorem rnd_exp (x : ℝ) (hx : |x| ≤ 600) : ∃ y, Binary64.rnd (Real.exp x) = .fin y ∧ 0 < y ∧ |Real.log y - x| ≤ 1 / 2 ^ 52 := by
  obtain ⟨h1, h2⟩ := two_pow_exp x hx
  have hp := Real.exp_pos x
  obtain ⟨y, hy, he⟩ := Binary64.rnd_err (x := Real.exp x) (by rwa [abs_of_pos hp]) (by rwa [abs_of_pos hp])
  rw [abs_of_pos hp, abs_le] at he
  have y0 : 0 < y := by linarith
  refine ⟨y, hy, y0, ?_⟩
  have hq : Real.log y - x = Real.log (y / Real.exp x) := by rw [Real.log_div y0.ne' hp.ne', Real.log_exp]
  have q0 : 0 < y / Real.exp x := div_pos y0 hp
  have q1 : y / Real.exp x ≤ 1 + 1 / 2 ^ 53 := by
    rw [div_le_iff₀ hp]; linarith
  have q2 : 1 - 1 / 2 ^ 53 ≤ y / Real.exp x := by
    rw [le_div_iff₀ hp]; linarith
  rw [hq, abs_le]
  constructor
  · have := Real.one_sub_inv_le_log_of_pos q0
    have h3 : (y / Real.exp x)⁻¹ ≤ 1 + 1 / 2 ^ 52 := by
      rw [inv_le_comm₀ q0 (by norm_num)]
      refine le_trans ?_ q2
      norm_num
    linarith
  · have := Real.log_le_sub_one_of_pos q0
    norm_num at q1 ⊢
    linarith

/-- A sum, a product or a logarithm of size at most `B`, rounded. -/
theorem rnd_abs {x B : ℝ} (hx : |x| ≤ B) (hB : B ≤ 4096) : ∃ y, Binary64.rnd x = .fin y ∧ |y - x| ≤ B / 2 ^ 53 + 1 / 2 ^ 60 := by
  refine rnd_step libm_binary64 hx (hB.trans ?_)
  calc (4096 : ℝ) = 2 ^ 12 := by norm_num
    _ ≤ 2 ^ 1010 := pow_le_pow_right₀ (by norm_num) (by norm_num)

/-! ## C33 in doubles -/

/-- The intermediate results of `create_logspace_array` that do not depend on the cell: logarithm of the lower end, length of the interval and
of a step. -/
structure GridLogs (b h : ℝ) (n : Nat) (L0 s t : ℝ) : Prop where
  comp : ∀ i : Nat, i < n → ∀ p q y, Binary64.rnd (t * i) = .fin p → Binary64.rnd (L0 + p) = .fin q → Binary64.rnd (Real.exp q) = .fin y →
    logspace (fin b : Double) (fin h) n i = fin y
  low : |L0 - (Real.log b - Real.log h)| ≤ 310 / 2 ^ 53
  len : |s - 2 * Real.log h| ≤ 1400 / 2 ^ 53
  s0 : 0 ≤ s
  t0 : 0 ≤ t
  step : |t - s / ((n : ℝ) - 1)| ≤ s / ((n : ℝ) - 1) / 2 ^ 53 + 1 / 2 ^ 100

theorem gridLogs_exist (b h : ℝ) (hb : Moderate b) (hh : Moderate h) (h1 : 1 ≤ h) (n : Nat) (hn : 2 ≤ n) (hn' : n ≤ 2 ^ 31) :
    ∃ L0 s t, GridLogs b h n L0 s t := by
  have b0 := hb.pos
  have h0 := hh.pos
  have lb := hb.log
  have lh := hh.log
  have lh0 : 0 ≤ Real.log h := Real.log_nonneg h1
  rw [abs_le] at lb lh
  obtain ⟨m, em, m0, hm⟩ := rnd_exp (Real.log b - Real.log h) (by rw [abs_le]; constructor <;> linarith)
  obtain ⟨M, eM, M0, hM⟩ := rnd_exp (Real.log b + Real.log h) (by rw [abs_le]; constructor <;> linarith)
  have hmM : Real.log m ≤ Real.log M := by
    refine Real.log_le_log m0 ?_
    have := Binary64.rnd_mono (Real.exp_le_exp.2 (show Real.log b - Real.log h ≤ Real.log b + Real.log h by linarith))
    rw [em, eM] at this
    exact this
  rw [Real.exp_sub, Real.exp_log b0, Real.exp_log h0] at em
  rw [Real.exp_add, Real.exp_log b0, Real.exp_log h0] at eM
  rw [abs_le] at hm hM
  obtain ⟨L0, eL0, hL0⟩ := rnd_abs (x := Real.log m) (B := 300) (by rw [abs_le]; constructor <;> norm_num at hm ⊢ <;> linarith) (by norm_num)
  obtain ⟨L1, eL1, hL1⟩ := rnd_abs (x := Real.log M) (B := 300) (by rw [abs_le]; constructor <;> norm_num at hM ⊢ <;> linarith) (by norm_num)
  have hL01 : L0 ≤ L1 := by
    have := Binary64.rnd_mono hmM
    rw [eL0, eL1] at this
    exact this
  rw [abs_le] at hL0 hL1
  norm_num1 at hL0 hL1 hm hM
  obtain ⟨hL0a, hL0b⟩ := hL0
  obtain ⟨hL1a, hL1b⟩ := hL1
  obtain ⟨hma, hmb⟩ := hm
  obtain ⟨hMa, hMb⟩ := hM
  have low : |L0 - (Real.log b - Real.log h)| ≤ 310 / 2 ^ 53 := by
    rw [abs_le]; norm_num1; constructor <;> linarith only [hL0a, hL0b, hma, hmb]
  have high : |L1 - (Real.log b + Real.log h)| ≤ 310 / 2 ^ 53 := by
    rw [abs_le]; norm_num1; constructor <;> linarith only [hL1a, hL1b, hMa, hMb]
  have low' := abs_le.1 low
  rw [abs_le] at high
  norm_num1 at low' high
  obtain ⟨la, lb'⟩ := low'
  obtain ⟨ha, hb'⟩ := high
  have sB : |L1 - L0| ≤ 700 := by
    rw [abs_le]; constructor <;> linarith only [la, lb', ha, hb', lh.1, lh.2]
  obtain ⟨s, es, hs⟩ := rnd_abs (x := L1 - L0) (B := 700) sB (by norm_num)
  have s0 : 0 ≤ s := by
    have := Binary64.rnd_nonneg (x := L1 - L0) (by linarith)
    rw [es] at this
    exact this
  have n1 : (1 : ℝ) ≤ (n : ℝ) - 1 := by
    have : (2 : ℝ) ≤ n := by exact_mod_cast hn
    linarith
  rw [abs_le] at hs
  norm_num1 at hs
  obtain ⟨hsa, hsb⟩ := hs
  have len : |s - 2 * Real.log h| ≤ 1400 / 2 ^ 53 := by
    rw [abs_le]; norm_num1; constructor <;> linarith only [hsa, hsb, la, lb', ha, hb']
  have hsB : s ≤ 701 := by
    rw [abs_le] at sB; linarith only [hsb, sB.2]
  have et0 := Binary64.round53_abs_err (s / ((n : ℝ) - 1))
  have q0 : 0 ≤ s / ((n : ℝ) - 1) := div_nonneg s0 (by linarith)
  have q1 : s / ((n : ℝ) - 1) ≤ 701 := (div_le_self s0 n1).trans hsB
  rw [abs_of_nonneg q0] at et0
  obtain ⟨t, ht⟩ : ∃ t, Binary64.round53 (s / ((n : ℝ) - 1)) = t := ⟨_, rfl⟩
  have et : Binary64.rnd (s / ((n : ℝ) - 1)) = .fin t := by
    obtain ⟨y, hy, -⟩ := rnd_abs (x := s / ((n : ℝ) - 1)) (B := 701) (by rwa [abs_of_nonneg q0]) (by norm_num)
    obtain ⟨h1, -⟩ := Binary64.rnd_eq_fin hy
    rw [hy, ← h1, ht]
  rw [ht] at et0
  have t0 : 0 ≤ t := by
    have := Binary64.rnd_nonneg q0
    rw [et] at this
    exact this
  have tiny : (2 : ℝ) ^ (-1075 : Int) ≤ 1 / 2 ^ 100 := by
    calc (2 : ℝ) ^ (-1075 : Int) ≤ 2 ^ (-100 : Int) := zpow_le_zpow_right₀ (by norm_num) (by norm_num)
      _ = 1 / 2 ^ 100 := by norm_num
  refine ⟨L0, s, t, fun i hi p q y ep eq ey => ?_, low, len, s0, t0, et0.trans (by gcongr)⟩
  have en : (ofI ((n : Int) - 1) : Double) = fin ((n : ℝ) - 1) := by
    rw [ofI_int _ (by rw [abs_of_nonneg (by omega)]; norm_num at hn' ⊢; omega)]
    push_cast
    rfl
  have ei : (ofI ((i : Nat) : Int) : Double) = fin (i : ℝ) := by
    rw [ofI_int _ (by rw [abs_of_nonneg (by omega)]; norm_num at hn' ⊢; omega)]
    push_cast
    rfl
  have em' : (fin b /. fin h : Double) = fin m := (div_fin b h h0.ne').trans em
  have eM' : (fin b *. fin h : Double) = fin M := eM
  have eL0' : (Arith.log (fin m) : Double) = fin L0 := (log_double m0).trans eL0
  have eL1' : (Arith.log (fin M) : Double) = fin L1 := (log_double M0).trans eL1
  have es' : (fin L1 -. fin L0 : Double) = fin s := (sub_fin L1 L0).trans es
  have et' : (fin s /. fin ((n : ℝ) - 1) : Double) = fin t := (div_fin _ _ (by linarith)).trans et
  have ep' : (fin t *. fin (i : ℝ) : Double) = fin p := ep
  have eq' : (fin L0 +. fin p : Double) = fin q := eq
  simp only [logspace, en, ei, em', eM', eL0', eL1', es', et', ep', eq']
  exact ey

/-- One cell. -/
theorem GridLogs.cell {b h : ℝ} (hb : Moderate b) (hh : Moderate h) (h1 : 1 ≤ h) {n : Nat} (hn' : n ≤ 2 ^ 31) {L0 s t : ℝ}
    (g : GridLogs b h n L0 s t) (i : Nat) (hi : i < n) (hn : 2 ≤ n) :
    ∃ p q y, Binary64.rnd (t * i) = .fin p ∧ Binary64.rnd (L0 + p) = .fin q ∧ Binary64.rnd (Real.exp q) = .fin y ∧
      |y - logspace b h n i| ≤ logspace b h n i / 2 ^ 37 := by
  have b0 := hb.pos
  have h0 := hh.pos
  have lb := abs_le.1 hb.log
  have lh := abs_le.1 hh.log
  have lh0 : 0 ≤ Real.log h := Real.log_nonneg h1
  obtain ⟨-, low, len, s0, t0, step⟩ := g
  have n1 : (1 : ℝ) ≤ (n : ℝ) - 1 := by
    have : (2 : ℝ) ≤ n := by exact_mod_cast hn
    linarith
  have i0 : (0 : ℝ) ≤ i := Nat.cast_nonneg i
  have i1 : (i : ℝ) ≤ (n : ℝ) - 1 := by
    have : ((i + 1 : Nat) : ℝ) ≤ n := by exact_mod_cast hi
    push_cast at this
    linarith
  have i2 : (i : ℝ) ≤ 2147483648 := by
    have : ((i : Nat) : ℝ) ≤ ((2147483648 : Nat) : ℝ) := by exact_mod_cast (hi.le.trans hn')
    push_cast at this
    exact this
  rw [abs_le] at low len
  norm_num1 at low len
  obtain ⟨la, lb'⟩ := low
  obtain ⟨na, nb⟩ := len
  have hsB : s ≤ 701 := by linarith only [nb, lh.2]
  -- the part of the way
  obtain ⟨f, hf⟩ : ∃ f : ℝ, f = i / ((n : ℝ) - 1) := ⟨_, rfl⟩
  have f0 : 0 ≤ f := by rw [hf]; exact div_nonneg i0 (by linarith)
  have f1 : f ≤ 1 := by rw [hf]; exact (div_le_one (by linarith)).2 i1
  have hsf : s / ((n : ℝ) - 1) * i = s * f := by rw [hf]; ring
  have sf0 : 0 ≤ s * f := mul_nonneg s0 f0
  have sf1 : s * f ≤ 701 := (mul_le_of_le_one_right s0 f1).trans hsB
  have hti : |t * i - s * f| ≤ 701 / 2 ^ 53 + 1 / 2 ^ 60 := by
    rw [← hsf, ← sub_mul, abs_mul, abs_of_nonneg i0]
    have e1 : |t - s / ((n : ℝ) - 1)| * i ≤ (s / ((n : ℝ) - 1) / 2 ^ 53 + 1 / 2 ^ 100) * i :=
      mul_le_mul_of_nonneg_right step i0
    have e2 : s / ((n : ℝ) - 1) / 2 ^ 53 * i ≤ 701 / 2 ^ 53 := by
      rw [div_mul_eq_mul_div, hsf]
      gcongr
    have e3 : 1 / 2 ^ 100 * (i : ℝ) ≤ 1 / 2 ^ 60 := by
      have : 1 / 2 ^ 100 * (i : ℝ) ≤ 1 / 2 ^ 100 * 2147483648 := by gcongr
      refine this.trans (by norm_num)
    rw [add_mul] at e1
    exact e1.trans (add_le_add e2 e3)
  rw [abs_le] at hti
  norm_num1 at hti
  obtain ⟨ta, tb⟩ := hti
  obtain ⟨p, ep, hp⟩ := rnd_abs (x := t * i) (B := 702) (by rw [abs_of_nonneg (mul_nonneg t0 i0)]; linarith only [tb, sf1]) (by norm_num)
  rw [abs_le] at hp
  norm_num1 at hp
  obtain ⟨pa, pb⟩ := hp
  obtain ⟨q, eq, hq⟩ := rnd_abs (x := L0 + p) (B := 1100)
    (by rw [abs_le]; constructor <;> linarith only [ta, tb, pa, pb, la, lb', sf0, sf1, lb.1, lb.2, lh.1, lh.2]) (by norm_num)
  rw [abs_le] at hq
  norm_num1 at hq
  obtain ⟨qa, qb⟩ := hq
  obtain ⟨x, hx⟩ : ∃ x : ℝ, x = Real.log b - Real.log h + 2 * Real.log h * f := ⟨_, rfl⟩
  have hgx : logspace b h n i = Real.exp x := by
    rw [logspace_real b h b0 h0, hx, Real.exp_add, Real.exp_sub, Real.exp_log b0, Real.exp_log h0, hf]
    congr 2
    ring
  have fl0 : 0 ≤ Real.log h * f := mul_nonneg lh0 f0
  have fl1 : Real.log h * f ≤ Real.log h := mul_le_of_le_one_right lh0 f1
  -- the error of the logarithm
  have d2 : |s * f - 2 * (Real.log h * f)| ≤ 1400 / 2 ^ 53 := by
    rw [← mul_assoc, ← sub_mul, abs_mul, abs_of_nonneg f0]
    have d1 : |s - 2 * Real.log h| ≤ 1400 / 2 ^ 53 := by rw [abs_le]; norm_num1; exact ⟨na, nb⟩
    calc _ ≤ 1400 / 2 ^ 53 * f := mul_le_mul_of_nonneg_right d1 f0
      _ ≤ 1400 / 2 ^ 53 * 1 := by gcongr
      _ = _ := mul_one _
  rw [abs_le] at d2
  norm_num1 at d2
  obtain ⟨da, db⟩ := d2
  have hx' : x = Real.log b - Real.log h + 2 * (Real.log h * f) := by rw [hx]; ring
  have d3 : |q - x| ≤ 1 / 2 ^ 40 := by
    rw [hx', abs_le]; norm_num1; constructor <;> linarith only [da, db, qa, qb, pa, pb, ta, tb, la, lb']
  have d3' := abs_le.1 d3
  norm_num1 at d3'
  obtain ⟨ca, cb⟩ := d3'
  obtain ⟨y, ey, y0, hy⟩ := rnd_exp q (by rw [abs_le]; constructor <;> linarith only [ca, cb, hx', fl0, fl1, lb.1, lb.2, lh.1, lh.2])
  refine ⟨p, q, y, ep, eq, ey, ?_⟩
  rw [hgx]
  have d4 : |Real.log y - x| ≤ 1 / 2 ^ 39 := by
    rw [abs_le] at hy ⊢; norm_num1 at hy ⊢; constructor <;> linarith only [hy.1, hy.2, ca, cb]
  have e := Real.abs_exp_sub_one_le (x := Real.log y - x) (d4.trans (by norm_num))
  rw [Real.exp_sub, Real.exp_log y0] at e
  have hx0 := Real.exp_pos x
  have e' : y - Real.exp x = (y / Real.exp x - 1) * Real.exp x := by field_simp
  rw [e', abs_mul, abs_of_pos hx0]
  calc _ ≤ 2 * (1 / 2 ^ 39) * Real.exp x := by gcongr; exact e.trans (by gcongr)
    _ = 1 / 2 ^ 38 * Real.exp x := by ring
    _ ≤ 1 / 2 ^ 37 * Real.exp x := by gcongr <;> norm_num
    _ = Real.exp x / 2 ^ 37 := by ring

/-- **C96, the grid.** In doubles, too, the cells of the grid increase, and each is within a relative error of `2^-37` of the exact one
(C33), for moderate bases and half ratios and any number of ranks from 2 on. -/
theorem grid_doubles (b h : ℝ) (hb : Moderate b) (hh : Moderate h) (h1 : 1 ≤ h) (n : Nat) (hn : 2 ≤ n) (hn' : n ≤ 2 ^ 31) :
    ∃ g : Nat → ℝ, (∀ i, i < n → logspace (fin b : Double) (fin h) n i = fin (g i)) ∧ (∀ i j, i ≤ j → j < n → g i ≤ g j) ∧
      ∀ i, i < n → |g i - logspace b h n i| ≤ logspace b h n i / 2 ^ 37 := by
  obtain ⟨L0, s, t, g⟩ := gridLogs_exist b h hb hh h1 n hn hn'
  have cell := fun i hi => g.cell hb hh h1 hn' i hi hn
  choose! p q y ep eq ey hy using cell
  refine ⟨y, fun i hi => g.comp i hi _ _ _ (ep i hi) (eq i hi) (ey i hi), fun i j hij hj => ?_, hy⟩
  have hi := hij.trans_lt hj
  have t0 := g.t0
  have hpp : p i ≤ p j := by
    have := Binary64.rnd_mono (show t * (i : ℝ) ≤ t * j by gcongr)
    rw [ep i hi, ep j hj] at this
    exact this
  have hqq : q i ≤ q j := by
    have := Binary64.rnd_mono (show L0 + p i ≤ L0 + p j by linarith)
    rw [eq i hi, eq j hj] at this
    exact this
  have := Binary64.rnd_mono (Real.exp_le_exp.2 hqq)
  rw [ey i hi, ey j hj] at this
  exact this

/-- Base 1, half ratio 10, three ranks. -/
example : ∃ g : Nat → ℝ, (∀ i, i < 3 → logspace (fin 1 : Double) (fin 10) 3 i = fin (g i)) ∧ g 0 ≤ g 1 ∧ g 1 ≤ g 2 := by
  obtain ⟨g, h1, h2, -⟩ := grid_doubles 1 10 ⟨by norm_num, by norm_num⟩ ⟨by norm_num, by norm_num⟩ (by norm_num) 3 (by norm_num) (by norm_num)
  exact ⟨g, h1, h2 0 1 (by norm_num) (by norm_num), h2 1 2 (by norm_num) (by norm_num)⟩

/-! ## C34 in doubles -/

/-- A number between `2^-250` and `2^250` is rounded with a relative error of at most `2^-53`. -/
theorem rnd_rel {x : ℝ} (h1 : 1 / 2 ^ 250 ≤ x) (h2 : x ≤ 2 ^ 250) :
    ∃ y, Binary64.rnd x = .fin y ∧ x * (1 - 1 / 2 ^ 53) ≤ y ∧ y ≤ x * (1 + 1 / 2 ^ 53) := by
  have hx : 0 < x := lt_of_lt_of_le (by positivity) h1
  obtain ⟨y, hy, he⟩ := Binary64.rnd_err (x := x)
    (by
      rw [abs_of_pos hx]
      refine le_trans ?_ h1
      rw [inv_pow, ← one_div]
      exact one_div_le_one_div_of_le (by positivity) (pow_le_pow_right₀ (by norm_num) (by norm_num)))
    (by rw [abs_of_pos hx]; exact h2.trans (pow_le_pow_right₀ (by norm_num) (by norm_num)))
  rw [abs_of_pos hx, abs_le] at he
  exact ⟨y, hy, by linarith, by linarith⟩

/-- The lower and the upper bound of the widths: between `2^-199` and `2^199`, the upper one at least the lower one times the jump ratio,
which is at least 1. -/
structure Range (smin smax jump : ℝ) : Prop where
  low : 1 / 2 ^ 199 ≤ smin
  high : smax ≤ 2 ^ 199
  ratio : 1 ≤ jump
  fits : smin * jump ≤ smax

theorem Range.pos {smin smax jump : ℝ} (h : Range smin smax jump) : 0 < smin := lt_of_lt_of_le (by positivity) h.low

theorem Range.le {smin smax jump : ℝ} (h : Range smin smax jump) : smin ≤ smax := by
  have := h.pos
  have := h.ratio
  have := h.fits
  nlinarith

/-- A width that is in its range up to a relative error of `2^-36` is moderate. -/
theorem Range.moderate {smin smax jump v : ℝ} (h : Range smin smax jump) (h1 : smin * (1 - 1 / 2 ^ 36) ≤ v) (h2 : v ≤ smax * (1 + 1 / 2 ^ 36)) :
    Moderate v := by
  have e1 := h.low
  have e2 := h.high
  constructor
  · refine le_trans ?_ h1
    calc (1 : ℝ) / 2 ^ 200 ≤ 1 / 2 ^ 199 * (1 - 1 / 2 ^ 36) := by norm_num
      _ ≤ _ := by gcongr
  · refine h2.trans ?_
    calc smax * (1 + 1 / 2 ^ 36) ≤ 2 ^ 199 * (1 + 1 / 2 ^ 36) := by gcongr
      _ ≤ 2 ^ 200 := by norm_num

/-- Moving the grid inside, part one: the grid around `smin * sqrt(jump)` starts at `smin`, nearly. -/
theorem Range.lower {smin smax jump : ℝ} (h : Range smin smax jump) {s : ℝ} (s1 : 1 ≤ s) (hs : s ≤ Real.sqrt jump * (1 + 1 / 2 ^ 53))
    (n : Nat) (hn : 2 ≤ n) (hn' : n ≤ 2 ^ 31) :
    ∃ g : Nat → ℝ, (∀ i, i < n → logspace (fin smin *. fin s : Double) (fin s) n i = fin (g i)) ∧ (∀ i j, i ≤ j → j < n → g i ≤ g j) ∧
      smin * (1 - 1 / 2 ^ 36) ≤ g 0 := by
  have p0 := h.pos
  have j0 : 0 < jump := by linarith [h.ratio]
  have hj : Real.sqrt jump ≤ jump := by
    rw [Real.sqrt_le_left j0.le]
    nlinarith [h.ratio]
  have hsj : smin * s ≤ 2 ^ 199 * (1 + 1 / 2 ^ 53) := by
    calc smin * s ≤ smin * (jump * (1 + 1 / 2 ^ 53)) := by gcongr; exact hs.trans (by gcongr)
      _ = smin * jump * (1 + 1 / 2 ^ 53) := by ring
      _ ≤ 2 ^ 199 * (1 + 1 / 2 ^ 53) := by gcongr; exact h.fits.trans h.high
  have hlow : (1 : ℝ) / 2 ^ 199 ≤ smin * s := h.low.trans (le_mul_of_one_le_right p0.le s1)
  obtain ⟨b, hb, b1, b2⟩ := rnd_rel (x := smin * s) (le_trans (by norm_num) hlow) (hsj.trans (by norm_num))
  have mb : Moderate b := by
    constructor
    · refine le_trans ?_ b1
      calc (1 : ℝ) / 2 ^ 200 ≤ 1 / 2 ^ 199 * (1 - 1 / 2 ^ 53) := by norm_num
        _ ≤ _ := by gcongr
    · refine b2.trans ?_
      calc smin * s * (1 + 1 / 2 ^ 53) ≤ 2 ^ 199 * (1 + 1 / 2 ^ 53) * (1 + 1 / 2 ^ 53) := by gcongr
        _ ≤ 2 ^ 200 := by norm_num
  have ms : Moderate s := by
    refine ⟨le_trans (by norm_num) s1, ?_⟩
    have hjs : Real.sqrt jump ≤ 2 ^ 199 := by
      rw [Real.sqrt_le_left (by norm_num)]
      have := h.low
      have := h.high
      have := h.fits
      have h3 : 1 / 2 ^ 199 * jump ≤ 2 ^ 199 := le_trans (by gcongr) (h.fits.trans h.high)
      have h4 : jump = 2 ^ 199 * (1 / 2 ^ 199 * jump) := by field_simp
      rw [h4, pow_two]
      gcongr
    calc s ≤ 2 ^ 199 * (1 + 1 / 2 ^ 53) := hs.trans (by gcongr)
      _ ≤ 2 ^ 200 := by norm_num
  obtain ⟨g, g1, g2, g3⟩ := grid_doubles b s mb ms s1 n hn hn'
  refine ⟨g, fun i hi => ?_, g2, ?_⟩
  · rw [← g1 i hi]
    congr 1
  · have e := (abs_le.1 (g3 0 (by omega))).1
    rw [(grid_ends b s mb.pos s1 n hn).1] at e
    have hq : smin * (1 - 1 / 2 ^ 53) ≤ b / s := by
      rw [le_div_iff₀ ms.pos]
      linarith
    have : b / s * (1 - 1 / 2 ^ 37) ≤ g 0 := by linarith
    refine le_trans ?_ this
    calc smin * (1 - 1 / 2 ^ 36) ≤ smin * ((1 - 1 / 2 ^ 53) * (1 - 1 / 2 ^ 37)) := by gcongr; norm_num
      _ = smin * (1 - 1 / 2 ^ 53) * (1 - 1 / 2 ^ 37) := by ring
      _ ≤ _ := by gcongr

/-- Moving the grid inside, part two: the grid around `smax / sqrt(jump)` is inside, nearly. -/
theorem Range.upper {smin smax jump : ℝ} (h : Range smin smax jump) {s : ℝ} (s1 : 1 ≤ s) (hs : s ≤ Real.sqrt jump * (1 + 1 / 2 ^ 53))
    (n : Nat) (hn : 2 ≤ n) (hn' : n ≤ 2 ^ 31) :
    ∃ g : Nat → ℝ, (∀ i, i < n → logspace (fin smax /. fin s : Double) (fin s) n i = fin (g i)) ∧
      ∀ i, i < n → smin * (1 - 1 / 2 ^ 36) ≤ g i ∧ g i ≤ smax * (1 + 1 / 2 ^ 36) := by
  have p0 := h.pos
  have j0 : 0 < jump := by linarith [h.ratio]
  have m0 : 0 < smax := p0.trans_le h.le
  have s0 : 0 < s := by linarith
  have hss : s * s ≤ jump * (1 + 1 / 2 ^ 53) ^ 2 := by
    calc s * s ≤ (Real.sqrt jump * (1 + 1 / 2 ^ 53)) * (Real.sqrt jump * (1 + 1 / 2 ^ 53)) := by gcongr
      _ = (Real.sqrt jump * Real.sqrt jump) * (1 + 1 / 2 ^ 53) ^ 2 := by ring
      _ = _ := by rw [Real.mul_self_sqrt j0.le]
  have hq1 : smax / s ≤ smax := div_le_self m0.le s1
  have hq2 : smin * (1 - 1 / 2 ^ 51) ≤ smax / s := by
    rw [le_div_iff₀ s0]
    calc smin * (1 - 1 / 2 ^ 51) * s ≤ smin * (1 - 1 / 2 ^ 51) * (s * s) := by
          refine mul_le_mul_of_nonneg_left (le_mul_of_one_le_right s0.le s1) ?_
          have : (0 : ℝ) ≤ 1 - 1 / 2 ^ 51 := by norm_num
          positivity
      _ ≤ smin * (1 - 1 / 2 ^ 51) * (jump * (1 + 1 / 2 ^ 53) ^ 2) := by gcongr
      _ = smin * jump * ((1 - 1 / 2 ^ 51) * (1 + 1 / 2 ^ 53) ^ 2) := by ring
      _ ≤ smin * jump * 1 := by gcongr; norm_num
      _ ≤ smax := by rw [mul_one]; exact h.fits
  have hlow : (1 : ℝ) / 2 ^ 199 * (1 - 1 / 2 ^ 51) ≤ smax / s := le_trans (mul_le_mul_of_nonneg_right h.low (by norm_num)) hq2
  obtain ⟨b, hb, b1, b2⟩ := rnd_rel (x := smax / s) (le_trans (by norm_num) hlow) ((hq1.trans h.high).trans (by norm_num))
  have mb : Moderate b := by
    constructor
    · refine le_trans ?_ b1
      calc (1 : ℝ) / 2 ^ 200 ≤ 1 / 2 ^ 199 * (1 - 1 / 2 ^ 51) * (1 - 1 / 2 ^ 53) := by norm_num
        _ ≤ _ := by gcongr
    · refine b2.trans ?_
      calc smax / s * (1 + 1 / 2 ^ 53) ≤ 2 ^ 199 * (1 + 1 / 2 ^ 53) := by gcongr; exact hq1.trans h.high
        _ ≤ 2 ^ 200 := by norm_num
  have ms : Moderate s := by
    refine ⟨le_trans (by norm_num) s1, ?_⟩
    have hjs : Real.sqrt jump ≤ 2 ^ 199 := by
      rw [Real.sqrt_le_left (by norm_num)]
      have h3 : 1 / 2 ^ 199 * jump ≤ 2 ^ 199 := le_trans (by gcongr; exact h.low) (h.fits.trans h.high)
      have h4 : jump = 2 ^ 199 * (1 / 2 ^ 199 * jump) := by field_simp
      rw [h4, pow_two]
      gcongr
    calc s ≤ 2 ^ 199 * (1 + 1 / 2 ^ 53) := hs.trans (by gcongr)
      _ ≤ 2 ^ 200 := by norm_num
  obtain ⟨g, g1, g2, g3⟩ := grid_doubles b s mb ms s1 n hn hn'
  obtain ⟨e0, e1⟩ := grid_ends b s mb.pos s1 n hn
  have hg0 : smin * (1 - 1 / 2 ^ 36) ≤ g 0 := by
    have e := (abs_le.1 (g3 0 (by omega))).1
    rw [e0] at e
    have h5 : b / s * (1 - 1 / 2 ^ 37) ≤ g 0 := by linarith
    refine le_trans ?_ h5
    rw [div_mul_eq_mul_div, le_div_iff₀ s0]
    refine le_of_mul_le_mul_right (a := s) ?_ s0
    have h6 : smax * (1 - 1 / 2 ^ 53) ≤ b * s := by
      have : smax / s * (1 - 1 / 2 ^ 53) * s ≤ b * s := by gcongr
      have e : smax / s * (1 - 1 / 2 ^ 53) * s = smax * (1 - 1 / 2 ^ 53) := by field_simp
      linarith
    calc smin * (1 - 1 / 2 ^ 36) * s * s = smin * (1 - 1 / 2 ^ 36) * (s * s) := by ring
      _ ≤ smin * (1 - 1 / 2 ^ 36) * (jump * (1 + 1 / 2 ^ 53) ^ 2) := by gcongr
      _ = smin * jump * ((1 - 1 / 2 ^ 36) * (1 + 1 / 2 ^ 53) ^ 2) := by ring
      _ ≤ smax * ((1 - 1 / 2 ^ 53) * (1 - 1 / 2 ^ 37)) := by
        refine mul_le_mul h.fits ?_ ?_ m0.le
        · norm_num
        · norm_num
      _ = smax * (1 - 1 / 2 ^ 53) * (1 - 1 / 2 ^ 37) := by ring
      _ ≤ b * s * (1 - 1 / 2 ^ 37) := by gcongr
      _ = b * (1 - 1 / 2 ^ 37) * s := by ring
  have hg1 : g (n - 1) ≤ smax * (1 + 1 / 2 ^ 36) := by
    have e := (abs_le.1 (g3 (n - 1) (by omega))).2
    rw [e1] at e
    have h5 : g (n - 1) ≤ b * s * (1 + 1 / 2 ^ 37) := by linarith
    refine h5.trans ?_
    have h6 : b * s ≤ smax * (1 + 1 / 2 ^ 53) := by
      have : b * s ≤ smax / s * (1 + 1 / 2 ^ 53) * s := by gcongr
      have e : smax / s * (1 + 1 / 2 ^ 53) * s = smax * (1 + 1 / 2 ^ 53) := by field_simp
      linarith
    calc b * s * (1 + 1 / 2 ^ 37) ≤ smax * (1 + 1 / 2 ^ 53) * (1 + 1 / 2 ^ 37) := by gcongr
      _ = smax * ((1 + 1 / 2 ^ 53) * (1 + 1 / 2 ^ 37)) := by ring
      _ ≤ _ := by gcongr; norm_num
  refine ⟨g, fun i hi => ?_, fun i hi => ⟨hg0.trans (g2 0 i (Nat.zero_le _) hi), (g2 i (n - 1) (by omega) (by omega)).trans hg1⟩⟩
  rw [← g1 i hi]
  congr 1
  exact (div_fin _ _ s0.ne').trans hb

/-- **C96, the trial widths.** In doubles every trial width is in its range up to a relative error of `2^-36`, whatever moderate width the
chain has. The range is not exceeded at all if the grid is not moved. -/
theorem trial_widths_doubles (half smin smax jump width : ℝ) (h : Range smin smax jump) (hw : Moderate width) (hh : Moderate half) (h1 : 1 ≤ half)
    (n : Nat) (hn : 2 ≤ n) (hn' : n ≤ 2 ^ 31) (i : Nat) (hi : i < n) :
    ∃ v, gridRow (fin half : Double) (fin smin) (fin smax) (fin jump) (fin width) n i = fin v ∧
      smin * (1 - 1 / 2 ^ 36) ≤ v ∧ v ≤ smax * (1 + 1 / 2 ^ 36) := by
  have p0 := h.pos
  have m0 : 0 < smax := p0.trans_le h.le
  have below : smin * (1 - 1 / 2 ^ 36) ≤ smin := mul_le_of_le_one_right p0.le (by norm_num)
  have above : smax ≤ smax * (1 + 1 / 2 ^ 36) := le_mul_of_one_le_right m0.le (by norm_num)
  have j0 : 0 < jump := by linarith [h.ratio]
  have hjs1 : 1 ≤ Real.sqrt jump := Real.one_le_sqrt.2 h.ratio
  have hjs : Real.sqrt jump ≤ 2 ^ 199 := by
    rw [Real.sqrt_le_left (by norm_num)]
    have h3 : 1 / 2 ^ 199 * jump ≤ 2 ^ 199 := le_trans (by gcongr; exact h.low) (h.fits.trans h.high)
    have h4 : jump = 2 ^ 199 * (1 / 2 ^ 199 * jump) := by field_simp
    rw [h4, pow_two]
    gcongr
  obtain ⟨s, es, -, hs⟩ := rnd_rel (x := Real.sqrt jump) (le_trans (by norm_num) hjs1) (hjs.trans (by norm_num))
  have s1 : 1 ≤ s := by
    have := Binary64.rnd_mono hjs1
    rw [es, Binary64.rnd_one] at this
    exact this
  have es' : (Arith.sqrt (fin jump) : Double) = fin s := (if_neg j0.not_gt).trans es
  obtain ⟨g, g1, g2, -⟩ := grid_doubles width half hw hh h1 n hn hn'
  obtain ⟨lo, lo1, lo2, lo3⟩ := h.lower s1 hs n hn hn'
  obtain ⟨up, up1, up2⟩ := h.upper s1 hs n hn hn'
  simp only [gridRow, bounceInside, es']
  by_cases c1 : g 0 < smin
  · have d1 : (logspace (fin width : Double) (fin half) n 0 <. fin smin) = true := by rw [g1 0 (by omega)]; exact (lt_fin _ _).2 c1
    rw [d1, if_pos rfl]
    by_cases c2 : smax < lo (n - 1)
    · rw [if_pos (by rw [lo1 (n - 1) (by omega)]; exact (lt_fin _ _).2 c2)]
      exact ⟨up i, up1 i hi, up2 i hi⟩
    · rw [if_neg (by rw [lo1 (n - 1) (by omega)]; exact fun e => c2 ((lt_fin _ _).1 e))]
      exact ⟨lo i, lo1 i hi, lo3.trans (lo2 0 i (Nat.zero_le _) hi), ((lo2 i (n - 1) (by omega) (by omega)).trans (not_lt.1 c2)).trans above⟩
  · have d1 : (logspace (fin width : Double) (fin half) n 0 <. fin smin) = false := by
      rw [g1 0 (by omega)]; exact (lt_fin_false _ _).2 (not_lt.1 c1)
    simp only [d1, Bool.false_eq_true, if_false]
    by_cases c2 : smax < g (n - 1)
    · rw [if_pos (by rw [g1 (n - 1) (by omega)]; exact (lt_fin _ _).2 c2)]
      exact ⟨up i, up1 i hi, up2 i hi⟩
    · rw [if_neg (by rw [g1 (n - 1) (by omega)]; exact fun e => c2 ((lt_fin _ _).1 e))]
      exact ⟨g i, g1 i hi, below.trans ((not_lt.1 c1).trans (g2 0 i (Nat.zero_le _) hi)),
        ((g2 i (n - 1) (by omega) (by omega)).trans (not_lt.1 c2)).trans above⟩

/-- The ranges of the demo: widths in [0.001, 5], jump ratio 10, half ratio 10, whatever the width is. -/
example (w : ℝ) (hw : Moderate w) : ∃ v, gridRow (fin 10 : Double) (fin (1 / 1000)) (fin 5) (fin 10) (fin w) 3 2 = fin v ∧
    1 / 1000 * (1 - 1 / 2 ^ 36) ≤ v ∧ v ≤ 5 * (1 + 1 / 2 ^ 36) :=
  trial_widths_doubles 10 (1 / 1000) 5 10 w ⟨by norm_num, by norm_num, by norm_num, by norm_num⟩ hw ⟨by norm_num, by norm_num⟩ (by norm_num) 3
    (by norm_num) (by norm_num) 2 (by norm_num)

/-! ## C35 in doubles -/

/-- **C96, the widths of a run.** If the bounds of every parameter form a range (`Range`) and the initial widths are in it, then in every
execution in doubles every width used for sampling, and every width in the width files, is a finite number that is in its range up to a
relative error of `2^-36`. The error does not grow with the number of tunings. -/
theorem widths_in_range_doubles {n : Nat} (cfg : Cfg Double) (file : DataFile Double) (hv : Valid n cfg file) (clock : Nat) (root : Fin n)
    (half jump : ℝ) (eh : cfg.halfRatio = fin half) (ej : cfg.jumpin = fin jump) (hh : Moderate half) (h1 : 1 ≤ half)
    (hr : ∀ (j : Nat) lo hi, cfg.sigmaMin[j]? = some lo → cfg.sigmaMax[j]? = some hi → ∃ a b, lo = fin a ∧ hi = fin b ∧ Range a b jump)
    (hinit : ∀ (j : Nat) v, j < cfg.nParm → (cfg.user.initGp cfg.initGpRatio)[j]? = some v → ∃ x, v = fin x ∧
      ∀ a b, cfg.sigmaMin[j]? = some (fin a) → cfg.sigmaMax[j]? = some (fin b) → a ≤ x ∧ x ≤ b)
    (w : List (Label n)) (t : Sys n (Msg Double) (Line Double) (RSt n Double)) (h : (initSys cfg file clock root).exec w = some t) (q : Fin n)
    (s : List Double) (hs : (∃ k, Line.sigma k s ∈ t.log q) ∨ ∃ a ∈ notes (t.log q), a.widths = s)
    (j : Nat) (hjn : j < cfg.nParm) (v : Double) (e1 : s[j]? = some v) :
    ∃ x a b, v = fin x ∧ cfg.sigmaMin[j]? = some (fin a) ∧ cfg.sigmaMax[j]? = some (fin b) ∧ 0 < a ∧
      a * (1 - 1 / 2 ^ 36) ≤ x ∧ x ≤ b * (1 + 1 / 2 ^ 36) := by
  have rng : ∀ j, j < cfg.nParm → ∃ a b, cfg.sigmaMin[j]? = some (fin a) ∧ cfg.sigmaMax[j]? = some (fin b) ∧ Range a b jump := by
    intro j hj
    have l1 : j < cfg.sigmaMin.length := hj.trans_le hv.sigmaMin
    have l2 : j < cfg.sigmaMax.length := hj.trans_le hv.sigmaMax
    obtain ⟨a, b, ea, eb, hR⟩ := hr j _ _ (List.getElem?_eq_getElem l1) (List.getElem?_eq_getElem l2)
    exact ⟨a, b, by rw [List.getElem?_eq_getElem l1, ea], by rw [List.getElem?_eq_getElem l2, eb], hR⟩
  have key := run_widths_inv cfg file hv clock root
    (Q := fun j v => ∃ x, v = fin x ∧ ∀ a b, cfg.sigmaMin[j]? = some (fin a) → cfg.sigmaMax[j]? = some (fin b) →
      a * (1 - 1 / 2 ^ 36) ≤ x ∧ x ≤ b * (1 + 1 / 2 ^ 36))
    (fun j v hj hv => by
      obtain ⟨x, rfl, hx⟩ := hinit j v hj hv
      refine ⟨x, rfl, fun a b ea eb => ?_⟩
      obtain ⟨a', b', ea', eb', hR⟩ := rng j hj
      rw [ea] at ea'; rw [eb] at eb'; cases ea'; cases eb'
      obtain ⟨c, d⟩ := hx a b ea eb
      have p := hR.pos
      have p' : 0 < b := p.trans_le hR.le
      exact ⟨(mul_le_of_le_one_right p.le (by norm_num)).trans c, d.trans (le_mul_of_one_le_right p'.le (by norm_num))⟩)
    (fun j v lo hi r e2 e3 hq => by
      obtain ⟨x, rfl, hx⟩ := hq
      obtain ⟨a, b, rfl, rfl, hR⟩ := hr j lo hi e2 e3
      obtain ⟨c, d⟩ := hx a b e2 e3
      rw [eh, ej]
      obtain ⟨y, ey, y1, y2⟩ := trial_widths_doubles half a b jump x hR (hR.moderate c d) hh h1 n hv.ranks
        (hv.ranksInt.trans (by norm_num)) r.val r.isLt
      refine ⟨y, ey, fun a' b' ea' eb' => ?_⟩
      rw [e2] at ea'; rw [e3] at eb'; cases ea'; cases eb'
      exact ⟨y1, y2⟩) w t h q
  obtain ⟨a, b, ea, eb, hR⟩ := rng j hjn
  have fin' : ∃ x, v = fin x ∧ ∀ a b, cfg.sigmaMin[j]? = some (fin a) → cfg.sigmaMax[j]? = some (fin b) →
      a * (1 - 1 / 2 ^ 36) ≤ x ∧ x ≤ b * (1 + 1 / 2 ^ 36) := by
    rcases hs with ⟨k, hk⟩ | ⟨m, hm, rfl⟩
    · exact key.1 k s hk j v hjn e1
    · exact key.2 m hm j v hjn e1
  obtain ⟨x, rfl, hx⟩ := fin'
  obtain ⟨c, d⟩ := hx a b ea eb
  exact ⟨x, a, b, rfl, ea, eb, hR.pos, c, d⟩

/-- A one-parameter model in the box [-5, 5] in doubles. -/
noncomputable def demoUserD : User Double where
  logll x _ _ b := b *. (match x with | v :: _ => Arith.neg (v *. v) | [] => ofI 0)
  logPrior _ := ofI 0
  boundary x := x.map (fun v => Arith.fmax (fin (-5)) (Arith.fmin (fin 5) v))
  initParm s := let a := r8UnifAb (F := Double) (fin (-5)) (fin 5) (srand48 Double s); ([a.1], a.2)
  initGp _ := [fin 1]

/-- A configuration for it. -/
noncomputable def demoCfgD : Cfg Double where
  nParm := 1
  nIter := 1000
  nStack := 300
  base := 50
  rand := 10
  nSwap := 2
  swapmode := 0
  nBegintune := 200
  nStoptune := 950
  tuneLadder := 1
  nStopTuneLadder := 700
  nIterInTune := 100
  saveBegin := 500
  initSeed := 20
  arLower := Arith.lit 1 10
  arUpper := Arith.lit 6 10
  arBest := Arith.lit 23 100
  arAcceptDiff := Arith.lit 1 10
  halfRatio := fin 10
  jumpin := fin 10
  initGpRatio := Arith.lit 1 10
  scaleLadder := fin (7 / 8)
  zeroStretch := fin (1 / 4)
  betas := [fin (1 / 8), fin (1 / 2), fin 1]
  sigmaMin := [fin (1 / 1024)]
  sigmaMax := [fin 5]
  user := demoUserD

/-- An empty data file. -/
def demoFileD : DataFile Double where
  nlines := 0
  ndim := 1
  cells := .ok []

theorem demoD_valid : Valid 3 demoCfgD demoFileD where
  ranks := by decide
  ranksInt := by decide
  betas := Nat.le_refl 3
  parm := by simp [demoCfgD]
  user := { boundary := fun x h => by simpa [demoCfgD, demoUserD] using h
            initParm := fun s => rfl
            initGp := fun r => rfl }
  stack := by simp [demoCfgD]
  rand := by simp [demoCfgD]
  base := by simp [demoCfgD]
  randInt := by simp [demoCfgD]
  stackInt := by simp [demoCfgD]
  iterInt := .of_sum (by simp [demoCfgD])
  mode := by simp [demoCfgD]
  inTune := by simp [demoCfgD]
  sigmaMin := Nat.le_refl 1
  sigmaMax := Nat.le_refl 1
  cells := ⟨[], rfl, by simp [demoFileD], by simp⟩

/-- The width files of the demo: every width is at least 0.0009 and at most 5.1. -/
example (w : List (Label 3)) (t : Sys 3 (Msg Double) (Line Double) (RSt 3 Double)) (h : (initSys demoCfgD demoFileD 7 0).exec w = some t) (q : Fin 3)
    (k : Nat) (s : List Double) (hs : Line.sigma k s ∈ t.log q) (v : Double) (e : s[0]? = some v) :
    ∃ x : ℝ, v = fin x ∧ 9 / 10000 ≤ x ∧ x ≤ 51 / 10 := by
  obtain ⟨x, a, b, rfl, ea, eb, -, h1, h2⟩ := widths_in_range_doubles demoCfgD demoFileD demoD_valid 7 0 10 10 rfl rfl ⟨by norm_num, by norm_num⟩
    (by norm_num) (fun j lo hi e1 e2 => by
      match j with
      | 0 =>
        simp only [demoCfgD, List.getElem?_cons_zero, Option.some.injEq] at e1 e2
        exact ⟨1 / 1024, 5, e1.symm, e2.symm, by norm_num, by norm_num, by norm_num, by norm_num⟩
      | j + 1 => simp [demoCfgD] at e1)
    (fun j v hj e0 => by
      match j with
      | 0 =>
        simp only [demoCfgD, demoUserD, List.getElem?_cons_zero, Option.some.injEq] at e0
        refine ⟨1, e0.symm, fun a b e1 e2 => ?_⟩
        simp only [demoCfgD, List.getElem?_cons_zero, Option.some.injEq] at e1 e2
        cases e1; cases e2
        norm_num
      | j + 1 => simp [demoCfgD] at hj)
    w t h q s (.inl ⟨k, hs⟩) 0 (by simp [demoCfgD]) v e
  simp only [demoCfgD, List.getElem?_cons_zero, Option.some.injEq] at ea eb
  cases ea; cases eb
  refine ⟨x, rfl, ?_, ?_⟩
  · exact le_trans (by norm_num) h1
  · exact h2.trans (by norm_num)

end NiiC
