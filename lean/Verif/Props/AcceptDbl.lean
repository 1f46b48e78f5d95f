import Verif.Props.Period
import Verif.Props.Underflow

/-!
# The acceptance rules in doubles: C93
-/

set_option linter.unusedSectionVars false
set_option linter.unusedSimpArgs false

namespace NiiC

open Dbl

/-- Binary64 arithmetic with an `exp` of libm that is off by at most one unit in the last place where the result is at most 1. A correctly
rounded one is (`libm_binary64`). -/
structure Libm (R : Rounding) : Prop where
  rnd : R.rnd = Binary64.rnd
  exp : ∀ x : ℝ, x ≤ 0 → ∃ y, R.exp (.fin x) = .fin y ∧ Binary64.Number y ∧ |y - Real.exp x| ≤ Real.exp x / 2 ^ 52 + 2 ^ (-1074 : Int)

theorem libm_binary64 : Libm Rounding.binary64 where
  rnd := rfl
  exp x hx := by
    have h1 : Real.exp x ≤ 1 := Real.exp_le_one_iff.2 hx
    have he := Binary64.round53_abs_err (Real.exp x)
    rw [abs_of_pos (Real.exp_pos x)] at he
    obtain ⟨y, hy, -, -⟩ := rnd_between (R := Rounding.binary64) (Real.exp_pos x).le h1 rnd_zero rnd_one
    obtain ⟨e1, -⟩ := Binary64.rnd_eq_fin hy
    refine ⟨y, hy, (Binary64.number_iff y).2 (Rounding.binary64.rnd_idem _ _ hy), ?_⟩
    rw [← e1]
    refine he.trans (add_le_add ?_ ?_)
    · have := (Real.exp_pos x).le
      gcongr <;> norm_num
    · exact zpow_le_zpow_right₀ (by norm_num) (by norm_num)

/-! ## Exponentials of close numbers -/

theorem exp_sub_le {a b : ℝ} (h : b ≤ a) : Real.exp a - Real.exp b ≤ Real.exp a * (a - b) := by
  have h1 : Real.exp b = Real.exp a * Real.exp (b - a) := by rw [← Real.exp_add]; congr 1; ring
  have h2 := Real.add_one_le_exp (b - a)
  have h3 := Real.exp_pos a
  rw [h1]
  nlinarith

theorem abs_exp_sub (a b : ℝ) : |Real.exp a - Real.exp b| ≤ Real.exp (max a b) * |a - b| := by
  rcases le_total b a with h | h
  · rw [max_eq_left h, abs_of_nonneg (by linarith [Real.exp_le_exp.2 h]), abs_of_nonneg (by linarith)]
    exact exp_sub_le h
  · rw [max_eq_right h, abs_sub_comm, abs_sub_comm a b, abs_of_nonneg (by linarith [Real.exp_le_exp.2 h]), abs_of_nonneg (by linarith)]
    exact exp_sub_le h

theorem min_one_exp (d : ℝ) : min 1 (Real.exp d) = Real.exp (min d 0) := by
  rcases le_total d 0 with h | h
  · rw [min_eq_left h, min_eq_right (Real.exp_le_one_iff.2 h)]
  · rw [min_eq_right h, Real.exp_zero, min_eq_left (Real.one_le_exp h)]

theorem min_exp_lip (d e : ℝ) : |min 1 (Real.exp d) - min 1 (Real.exp e)| ≤ |d - e| := by
  rw [min_one_exp, min_one_exp]
  have h1 := abs_exp_sub (min d 0) (min e 0)
  have h2 : Real.exp (max (min d 0) (min e 0)) ≤ 1 := Real.exp_le_one_iff.2 (max_le (min_le_right _ _) (min_le_right _ _))
  have h3 : |min d 0 - min e 0| ≤ |d - e| := abs_min_sub_min_le_max _ _ _ _ |>.trans (by simp)
  exact h1.trans ((mul_le_of_le_one_left (abs_nonneg _) h2).trans h3)

/-- A relative error of the exponent is harmless: where the exponent is large its exponential is small. -/
theorem min_exp_close {d e t : ℝ} (ht : 0 ≤ t) (ht' : t ≤ 1 / 100) (h : |d - e| ≤ |e| / 2 ^ 53 + t) :
    |min 1 (Real.exp d) - min 1 (Real.exp e)| ≤ 1 / 2 ^ 53 + t := by
  rw [min_one_exp, min_one_exp]
  have h1 := abs_exp_sub (min d 0) (min e 0)
  have h3 : |min d 0 - min e 0| ≤ |d - e| := abs_min_sub_min_le_max _ _ _ _ |>.trans (by simp)
  have hle : Real.exp (max (min d 0) (min e 0)) ≤ 1 := Real.exp_le_one_iff.2 (max_le (min_le_right _ _) (min_le_right _ _))
  have habs := abs_le.1 h
  rcases le_total 0 e with he | he
  · rw [abs_of_nonneg he] at h habs
    have h4 : |min d 0 - min e 0| ≤ t := by
      rw [min_eq_right he, sub_zero, abs_of_nonpos (min_le_right _ _)]
      have : -t ≤ min d 0 := le_min (by have : e / 2 ^ 53 ≤ e := div_le_self he (by norm_num); linarith [habs.1]) (by linarith)
      linarith
    refine h1.trans ((mul_le_of_le_one_left (abs_nonneg _) hle).trans (h4.trans ?_))
    have : (0 : ℝ) ≤ 1 / 2 ^ 53 := by positivity
    linarith
  · rw [abs_of_nonpos he] at h habs
    obtain ⟨D, hD⟩ : ∃ D, D = -e := ⟨_, rfl⟩
    rw [← hD] at h habs
    have hD0 : 0 ≤ D := by linarith
    have hmax : max (min d 0) (min e 0) ≤ -(D / 2) + t := by
      have h5 : D / 2 ^ 53 ≤ D / 2 := div_le_div_of_nonneg_left hD0 (by norm_num) (by norm_num)
      refine max_le ((min_le_left _ _).trans ?_) ((min_le_left _ _).trans ?_) <;> linarith [habs.2]
    have h6 : Real.exp (max (min d 0) (min e 0)) * D ≤ 1 := by
      have h7 : Real.exp (-(D / 2) + t) * D ≤ 1 := by
        have e1 := Real.add_one_le_exp (D / 2 - 1)
        have e2 : Real.exp (D / 2 - t) = Real.exp (D / 2 - 1) * Real.exp 1 * Real.exp (-t) := by
          rw [← Real.exp_add, ← Real.exp_add]; congr 1; ring
        have e3 : D ≤ Real.exp (D / 2 - t) := by
          have e4 := Real.exp_one_gt_d9
          have e5 := Real.add_one_le_exp (-t)
          have e6 : 2 ≤ Real.exp 1 * Real.exp (-t) := by nlinarith [Real.exp_pos (-t)]
          rw [e2, mul_assoc]
          have e7 := Real.exp_pos (D / 2 - 1)
          nlinarith
        rw [show -(D / 2) + t = -(D / 2 - t) by ring, Real.exp_neg, inv_mul_le_iff₀ (Real.exp_pos _)]
        linarith
      exact (mul_le_mul_of_nonneg_right (Real.exp_le_exp.2 hmax) hD0).trans h7
    have hpos := Real.exp_pos (max (min d 0) (min e 0))
    calc _ ≤ Real.exp (max (min d 0) (min e 0)) * (D / 2 ^ 53 + t) := h1.trans (mul_le_mul_of_nonneg_left (h3.trans h) hpos.le)
      _ = Real.exp (max (min d 0) (min e 0)) * D / 2 ^ 53 + Real.exp (max (min d 0) (min e 0)) * t := by ring
      _ ≤ 1 / 2 ^ 53 + t := by
        gcongr
        exact mul_le_of_le_one_left ht hle

/-! ## The test -/

/-- The test that both rules make with the computed exponent `d`. -/
noncomputable def stage {R : Rounding} (d : Dbl R) (g : Rng) : Bool := (fin 0 <. d) || ((drand48 (F := Dbl R) g).1 <. Arith.exp d)

section
variable {R : Rounding} (hL : Libm R)
include hL

theorem number_fix {y : ℝ} (h : Binary64.Number y) : R.rnd y = .fin y := by
  rw [hL.rnd]
  exact (Binary64.number_iff y).1 h

theorem mh_stage (new old : Dbl R) (g : Rng) : (mhAccept new old (ofI 1) g).1 = stage (new -. old) g := by
  have h1 : (ofI 1 : Dbl R) = fin 1 := by simpa using ofI_int (R := R) 1 (by norm_num)
  have h2 : (fin 1 /. fin 1 : Dbl R) = fin 1 := by rw [div_fin _ _ one_ne_zero, div_one]; exact rnd_one
  have h3 : (Arith.log (fin 1) : Dbl R) = fin 0 := R.log_one
  unfold mhAccept stage
  rw [h1, h2, h3]
  rcases hb : (fin 0 <. (new -. old) : Bool) with _ | _
  · simp only [hb, Bool.false_or, if_neg (Bool.false_ne_true)]
    congr 1
    obtain ⟨d, hd⟩ : ∃ d : Dbl R, d = new -. old := ⟨_, rfl⟩
    rw [← hd] at hb ⊢
    cases d with
    | nan => show (Arith.exp (nan : Dbl R) *. fin 1 : Dbl R) = Arith.exp (nan : Dbl R); rw [Dbl.exp_nan]; rfl
    | ninf =>
      have e : (Arith.exp (ninf : Dbl R) : Dbl R) = fin 0 := R.exp_ninf
      show (Arith.exp (ninf : Dbl R) *. fin 1 : Dbl R) = Arith.exp (ninf : Dbl R)
      rw [e, mul_fin, zero_mul]
      exact rnd_zero
    | pinf =>
      have h : (fin 0 <. (pinf : Dbl R) : Bool) = true := (lt_iff _ _).2 trivial
      exact absurd (h.symm.trans hb) (by decide)
    | fin x =>
      have hx : x ≤ 0 := (lt_fin_false (R := R) 0 x).1 hb
      obtain ⟨y, hy, hn, -⟩ := hL.exp x hx
      have e : (Arith.exp (fin x : Dbl R) : Dbl R) = fin y := hy
      show (Arith.exp (fin x : Dbl R) *. fin 1 : Dbl R) = Arith.exp (fin x : Dbl R)
      rw [e, mul_fin, mul_one]
      exact number_fix hL hn
  · simp only [hb, Bool.true_or, if_true]

omit hL in
theorem swap_stage (a b c d : Dbl R) (g : Rng) : (swapAccept a b c d g).1 = stage (a +. b -. c -. d) g := by
  have h1 : (ofI 0 : Dbl R) = fin 0 := by simpa using ofI_int (R := R) 0 (by norm_num)
  unfold swapAccept stage
  rw [h1]
  rcases hb : (fin 0 <. (a +. b -. c -. d) : Bool) with _ | _
  · simp only [hb, Bool.false_or, if_neg (Bool.false_ne_true)]
  · simp only [hb, Bool.true_or, if_true]

omit hL in
/-- The number of states at which a draw passes the test. -/
noncomputable def passes (R : Rounding) (d : Dbl R) : Nat := ((Finset.range lcgM).filter (fun g => stage d g = true)).card

omit hL in
theorem passes_pos {d : Dbl R} (h : (fin 0 <. d : Bool) = true) : passes R d = lcgM := by
  unfold passes stage
  simp [h]

omit hL in
theorem passes_ninf : passes R ninf = 0 := by
  unfold passes
  rw [Finset.card_eq_zero, Finset.filter_eq_empty_iff]
  intro g _
  have e : (Arith.exp (ninf : Dbl R) : Dbl R) = fin 0 := R.exp_ninf
  have h0 : (fin 0 <. (ninf : Dbl R) : Bool) = false := by rw [← Bool.not_eq_true, lt_iff]; exact fun h => h
  have h1 : ((drand48 (F := Dbl R) g).1 <. fin 0 : Bool) = false := by rw [drand48_dbl, lt_fin_false]; positivity
  unfold stage
  rw [e, h0, h1]
  simp

/-- The number of states that pass with a finite exponent. -/
theorem passes_fin (x : ℝ) : |(passes R (fin x) : ℝ) - 2 ^ 48 * min 1 (Real.exp x)| < 1 + 1 / 15 := by
  classical
  have hM : (lcgM : ℝ) = 2 ^ 48 := by norm_num [lcgM]
  rcases lt_or_ge 0 x with h | h
  · rw [passes_pos ((lt_fin (R := R) 0 x).2 h), min_eq_left (Real.one_le_exp h.le), hM]
    norm_num
  · obtain ⟨y, hy, hn, herr⟩ := hL.exp x h
    have e : (Arith.exp (fin x : Dbl R) : Dbl R) = fin y := hy
    have hy0 : 0 ≤ y := by
      have := R.exp_nonneg x
      rwa [hy] at this
    have hx1 : Real.exp x ≤ 1 := Real.exp_le_one_iff.2 h
    have hcard : passes R (fin x) = ⌈min 1 y * lcgM⌉₊ := by
      rw [← card_below _ (min_le_left _ _), ← card_draw (fun x : Nat => (x : ℝ) / (lcgM : ℝ) < min 1 y)]
      refine congrArg Finset.card (Finset.filter_congr (fun g _ => ?_))
      have hu : ((lcgNext g : ℕ) : ℝ) / lcgM < 1 := by
        rw [div_lt_one (by rw [hM]; norm_num)]
        exact_mod_cast lcgNext_lt g
      have h0 : (fin 0 <. (fin x : Dbl R) : Bool) = false := (lt_fin_false (R := R) 0 x).2 h
      unfold stage
      rw [e, h0, Bool.false_or, drand48_dbl, lt_fin, ← hM, lt_min_iff, and_iff_right hu]
    have hc1 := Nat.le_ceil (min 1 y * lcgM)
    have hc2 := Nat.ceil_lt_add_one (a := min 1 y * lcgM) (by rw [hM]; positivity)
    rw [← hcard, hM] at hc1 hc2
    obtain ⟨w, hw⟩ : ∃ w, w = min 1 y := ⟨_, rfl⟩
    obtain ⟨v, hv⟩ : ∃ v, v = min 1 (Real.exp x) := ⟨_, rfl⟩
    obtain ⟨k, hk⟩ : ∃ k : ℝ, k = (passes R (fin x) : ℝ) := ⟨_, rfl⟩
    have hs : |min 1 y - min 1 (Real.exp x)| ≤ 1 / 2 ^ 52 + 1 / 2 ^ 60 := by
      have h1 : |min 1 y - min 1 (Real.exp x)| ≤ |y - Real.exp x| := abs_min_sub_min_le_max _ _ _ _ |>.trans (by simp)
      refine h1.trans (herr.trans (add_le_add (by gcongr) ?_))
      calc (2 : ℝ) ^ (-1074 : Int) ≤ 2 ^ (-60 : Int) := zpow_le_zpow_right₀ (by norm_num) (by norm_num)
        _ = 1 / 2 ^ 60 := by norm_num
    rw [← hw] at hs hc1 hc2
    rw [← hk] at hc1 hc2 ⊢
    rw [← hv] at hs ⊢
    rw [abs_le] at hs
    rw [abs_lt]
    norm_num at hs hc1 hc2 ⊢
    constructor <;> linarith [hs.1, hs.2]

/-- **C93, iterations.** Of the `2^48` states of the generator the test made in an iteration with two finite doubles accepts
`2^48 * min(1, exp(new - old))`, up to an error of less than 9/8, although the difference, the exponential and the product are rounded and
may overflow or underflow. -/
theorem mh_accept_doubles (new old : ℝ) :
    |(((Finset.range lcgM).filter (fun g => (mhAccept (fin new : Dbl R) (fin old) (ofI 1) g).1 = true)).card : ℝ) -
      2 ^ 48 * min 1 (Real.exp (new - old))| < 9 / 8 := by
  have hp : ((Finset.range lcgM).filter (fun g => (mhAccept (fin new : Dbl R) (fin old) (ofI 1) g).1 = true)).card =
      passes R (fin new -. fin old) :=
    congrArg Finset.card (Finset.filter_congr (fun g _ => by rw [mh_stage hL]))
  have hM : (lcgM : ℝ) = 2 ^ 48 := by norm_num [lcgM]
  rw [hp, sub_fin, hL.rnd]
  obtain ⟨δ, hδ⟩ : ∃ δ, δ = new - old := ⟨_, rfl⟩
  rw [← hδ]
  cases h : Binary64.rnd δ with
  | nan => exact absurd h (Binary64.rnd_ne_nan δ)
  | pinf =>
    have hpos : 0 < δ := by
      by_contra hc
      have := Binary64.rnd_mono (not_lt.1 hc)
      rw [h, Binary64.rnd_zero] at this
      exact this
    have : passes R pinf = lcgM := passes_pos (by rw [lt_iff]; exact trivial)
    show |(passes R pinf : ℝ) - _| < _
    rw [this, hM, min_eq_left (Real.one_le_exp hpos.le)]
    norm_num
  | ninf =>
    have hneg : δ < -50 := by
      by_contra hc
      have h50 : Binary64.rnd (-50) = .fin (-50) := by simpa using (show Binary64.rnd ((-50 : Int) : ℝ) = _ from Rounding.binary64.rnd_int (-50) (by norm_num))
      have := Binary64.rnd_mono (not_lt.1 hc)
      rw [h, h50] at this
      exact this
    show |(passes R ninf : ℝ) - _| < _
    rw [passes_ninf]
    have h1 : Real.exp δ ≤ 1 / 2 ^ 48 := by
      have e1 : Real.exp δ ≤ Real.exp (-1) ^ 50 := by
        rw [← Real.exp_nat_mul]
        exact Real.exp_le_exp.2 (by push_cast; linarith)
      have e2 : Real.exp (-1) ≤ 1 / 2 := by
        rw [Real.exp_neg, inv_le_comm₀ (Real.exp_pos _) (by norm_num)]
        have := Real.exp_one_gt_d9
        norm_num
        linarith
      have e3 : Real.exp (-1) ^ 50 ≤ (1 / 2) ^ 50 := by gcongr
      refine e1.trans (e3.trans ?_)
      norm_num
    rw [min_eq_right (h1.trans (by norm_num)), Nat.cast_zero, zero_sub, abs_neg, abs_of_pos (by positivity)]
    rw [le_div_iff₀ (by norm_num)] at h1
    linarith
  | fin d =>
    obtain ⟨e1, -⟩ := Binary64.rnd_eq_fin h
    have herr := Binary64.round53_abs_err δ
    rw [e1] at herr
    have ht : (2 : ℝ) ^ (-1075 : Int) ≤ 1 / 2 ^ 60 := by
      calc (2 : ℝ) ^ (-1075 : Int) ≤ 2 ^ (-60 : Int) := zpow_le_zpow_right₀ (by norm_num) (by norm_num)
        _ = 1 / 2 ^ 60 := by norm_num
    have hcl := min_exp_close (t := 1 / 2 ^ 60) (by positivity) (by norm_num) (herr.trans (add_le_add le_rfl ht))
    have hf := passes_fin hL d
    show |(passes R (fin d) : ℝ) - _| < _
    obtain ⟨w, hw⟩ : ∃ w, w = min 1 (Real.exp d) := ⟨_, rfl⟩
    obtain ⟨v, hv⟩ : ∃ v, v = min 1 (Real.exp δ) := ⟨_, rfl⟩
    rw [← hw] at hcl hf
    rw [← hv] at hcl ⊢
    rw [abs_le] at hcl
    rw [abs_lt] at hf ⊢
    norm_num at hcl
    constructor <;> linarith [hf.1, hf.2, hcl.1, hcl.2]

/-- **C93, iterations, along the generator.** Whatever the seed, if the same test is made with `2^48` successive states of the generator it
accepts `2^48 * min(1, exp(new - old))` times up to an error of less than 9/8. -/
theorem mh_frequency_doubles (seed : Nat) (new old : ℝ) :
    |(((Finset.range lcgM).filter (fun i => (mhAccept (fin new : Dbl R) (fin old) (ofI 1) (lcgNext^[i] (lcgSeed seed))).1 = true)).card : ℝ) -
      2 ^ 48 * min 1 (Real.exp (new - old))| < 9 / 8 := by
  rw [cycle_count (fun g => (mhAccept (fin new : Dbl R) (fin old) (ofI 1) g).1 = true) _ (lcgSeed_lt seed)]
  exact mh_accept_doubles hL new old

/-- A finite sum or difference of moderate numbers, rounded. -/
theorem rnd_step {x B : ℝ} (hx : |x| ≤ B) (hB : B ≤ 2 ^ 1010) : ∃ y, R.rnd x = .fin y ∧ |y - x| ≤ B / 2 ^ 53 + 1 / 2 ^ 60 := by
  have he := Binary64.round53_abs_err x
  have ht : (2 : ℝ) ^ (-1075 : Int) ≤ 1 / 2 ^ 60 := by
    calc (2 : ℝ) ^ (-1075 : Int) ≤ 2 ^ (-60 : Int) := zpow_le_zpow_right₀ (by norm_num) (by norm_num)
      _ = 1 / 2 ^ 60 := by norm_num
  have h1 : |Binary64.round53 x - x| ≤ B / 2 ^ 53 + 1 / 2 ^ 60 := he.trans (add_le_add (by gcongr) ht)
  refine ⟨_, ?_, h1⟩
  rw [hL.rnd]
  refine Binary64.rnd_fin ?_
  have h2 := abs_sub_abs_le_abs_sub (Binary64.round53 x) x
  have h0 : 0 ≤ B := (abs_nonneg x).trans hx
  have h3 : B / 2 ^ 53 ≤ B := div_le_self h0 (by norm_num)
  have h4 : |Binary64.round53 x| ≤ 2 * B + 1 := by
    have : (1 : ℝ) / 2 ^ 60 ≤ 1 := by norm_num
    linarith
  have h5 : (1 : ℝ) ≤ 2 ^ 1010 := one_le_pow₀ (by norm_num)
  have h6 : (2 : ℝ) ^ 1024 = 2 ^ 14 * 2 ^ 1010 := by rw [← pow_add]
  rw [h6]
  obtain ⟨P, hP⟩ : ∃ P : ℝ, P = 2 ^ 1010 := ⟨_, rfl⟩
  rw [← hP] at h5 hB ⊢
  norm_num1
  linarith only [h5, hB, h4]

/-- **C93, swaps.** The test of a swap with four log-posteriors of size at most `M` accepts `2^48 * min(1, exp(a + b - c - d))` of the `2^48`
states up to an error of less than `9/8 + M/2`: the probability is off by at most about `M / 2^49`. -/
theorem swap_accept_doubles (a b c d M : ℝ) (ha : |a| ≤ M) (hb : |b| ≤ M) (hc : |c| ≤ M) (hd : |d| ≤ M) (hM : M ≤ 2 ^ 1000) :
    |(((Finset.range lcgM).filter (fun g => (swapAccept (fin a : Dbl R) (fin b) (fin c) (fin d) g).1 = true)).card : ℝ) -
      2 ^ 48 * min 1 (Real.exp (a + b - c - d))| < 9 / 8 + M / 2 := by
  have hp : ((Finset.range lcgM).filter (fun g => (swapAccept (fin a : Dbl R) (fin b) (fin c) (fin d) g).1 = true)).card =
      passes R (fin a +. fin b -. fin c -. fin d) :=
    congrArg Finset.card (Finset.filter_congr (fun g _ => by rw [swap_stage]))
  have hM0 : 0 ≤ M := (abs_nonneg a).trans ha
  have hbig : (7 * M + 3 : ℝ) ≤ 2 ^ 1010 := by
    have h1 : (1 : ℝ) ≤ 2 ^ 1000 := one_le_pow₀ (by norm_num)
    have h2 : (2 : ℝ) ^ 1010 = 2 ^ 10 * 2 ^ 1000 := by rw [← pow_add]
    rw [h2]
    obtain ⟨P, hP⟩ : ∃ P : ℝ, P = 2 ^ 1000 := ⟨_, rfl⟩
    rw [← hP] at h1 hM ⊢
    norm_num1
    linarith only [h1, hM]
  have hstep : ∀ x B : ℝ, |x| ≤ B → B ≤ 7 * M + 3 → ∃ y, R.rnd x = .fin y ∧ |y - x| ≤ B / 2 ^ 53 + 1 / 2 ^ 60 := fun x B hx hB =>
    rnd_step hL hx (hB.trans hbig)
  clear hM hbig
  have hdiv : M / 2 ^ 53 ≤ M / 16 := div_le_div_of_nonneg_left hM0 (by norm_num) (by norm_num)
  have s60 : (1 : ℝ) / 2 ^ 60 ≤ 1 / 64 := by norm_num
  rw [abs_le] at ha hb hc hd
  obtain ⟨s1, e1, r1⟩ := hstep (a + b) (2 * M) (by rw [abs_le]; constructor <;> linarith) (by linarith)
  rw [abs_le] at r1
  obtain ⟨s2, e2, r2⟩ := hstep (s1 - c) (4 * M + 1 / 64)
    (by rw [abs_le]; constructor <;> linarith [r1.1, r1.2]) (by linarith)
  rw [abs_le] at r2
  obtain ⟨s3, e3, r3⟩ := hstep (s2 - d) (6 * M + 3 / 64)
    (by rw [abs_le]; constructor <;> linarith [r1.1, r1.2, r2.1, r2.2]) (by linarith)
  rw [abs_le] at r3
  have hs : (fin a +. fin b -. fin c -. fin d : Dbl R) = fin s3 := by
    have f1 : (fin a +. fin b : Dbl R) = fin s1 := e1
    have f2 : (fin s1 -. fin c : Dbl R) = fin s2 := (sub_fin _ _).trans e2
    rw [f1, f2]
    exact (sub_fin _ _).trans e3
  rw [hp, hs]
  have hf := passes_fin hL s3
  have hl := min_exp_lip s3 (a + b - c - d)
  have herr : |s3 - (a + b - c - d)| ≤ 12 * M / 2 ^ 53 + 1 / 16 / 2 ^ 53 + 3 / 2 ^ 60 := by
    rw [abs_le]
    have q1 : 2 * M / 2 ^ 53 + (4 * M + 1 / 64) / 2 ^ 53 + (6 * M + 3 / 64) / 2 ^ 53 = 12 * M / 2 ^ 53 + 1 / 16 / 2 ^ 53 := by ring
    have q2 : (3 : ℝ) / 2 ^ 60 = 1 / 2 ^ 60 + 1 / 2 ^ 60 + 1 / 2 ^ 60 := by norm_num
    constructor <;> linarith [r1.1, r1.2, r2.1, r2.2, r3.1, r3.2]
  have hl' := hl.trans herr
  obtain ⟨w, hw⟩ : ∃ w, w = min 1 (Real.exp s3) := ⟨_, rfl⟩
  obtain ⟨v, hv⟩ : ∃ v, v = min 1 (Real.exp (a + b - c - d)) := ⟨_, rfl⟩
  rw [← hw] at hl' hf
  rw [← hv] at hl' ⊢
  rw [abs_le] at hl'
  rw [abs_lt] at hf ⊢
  norm_num at hl'
  constructor <;> linarith [hf.1, hf.2, hl'.1, hl'.2]

end

/-! ## Infinite values -/

/-- **C93, infinities.** From a point whose log-posterior is minus infinity every proposal with a finite one is taken, and no proposal whose
log-posterior is minus infinity is taken from a point with a finite one, as the rule `min(1, exp(new - old))` says. -/
theorem mh_accept_infinite {R : Rounding} (hL : Libm R) (x : ℝ) (g : Rng) :
    (mhAccept (fin x : Dbl R) ninf (ofI 1) g).1 = true ∧ (mhAccept (ninf : Dbl R) (fin x) (ofI 1) g).1 = false := by
  rw [mh_stage hL, mh_stage hL]
  have e1 : (fin x -. ninf : Dbl R) = pinf := rfl
  have e2 : (ninf -. fin x : Dbl R) = ninf := rfl
  rw [e1, e2]
  constructor
  · have h : (fin 0 <. (pinf : Dbl R) : Bool) = true := (lt_iff _ _).2 trivial
    unfold stage
    rw [h, Bool.true_or]
  · have e : (Arith.exp (ninf : Dbl R) : Dbl R) = fin 0 := R.exp_ninf
    have h0 : (fin 0 <. (ninf : Dbl R) : Bool) = false := by rw [← Bool.not_eq_true, lt_iff]; exact fun h => h
    have h1 : ((drand48 (F := Dbl R) g).1 <. fin 0 : Bool) = false := by rw [drand48_dbl, lt_fin_false]; positivity
    unfold stage
    rw [e, h0, h1, Bool.or_self]

/-! ## How far a swap can be off -/

/-- **C93, swaps: the dependence on `M` is real.** With log-posteriors of size `2^53` a swap that should be made with probability `1/e` is made
at every state of the generator: `a + b` loses the 1. -/
theorem swap_off (g : Rng) :
    (swapAccept (fin (-2 ^ 53) : Double) (fin (-1)) (fin (-2 ^ 53)) (fin 0) g).1 = true ∧
      Real.exp ((-2 ^ 53) + (-1) - (-2 ^ 53) - 0) < 1 / 2 := by
  constructor
  · rw [swap_stage]
    have e1 : (fin (-2 ^ 53) +. fin (-1) : Double) = fin (-2 ^ 53) := by
      rw [add_fin]
      show Binary64.rnd _ = _
      have hl : Binary64.lastExp (-2 ^ 53 + -1) = 1 := by
        have : Int.log 2 |(-2 ^ 53 + -1 : ℝ)| = 53 := by
          have h1 : |(-2 ^ 53 + -1 : ℝ)| = 2 ^ 53 + 1 := by
            rw [abs_of_neg (by norm_num)]
            norm_num
          rw [h1]
          apply le_antisymm
          · have := (Int.lt_zpow_iff_log_lt (b := 2) (by norm_num) (x := 54) (r := (2 ^ 53 + 1 : ℝ)) (by norm_num)).1 (by norm_num)
            omega
          · exact (Int.zpow_le_iff_le_log (b := 2) (by norm_num) (x := 53) (r := (2 ^ 53 + 1 : ℝ)) (by norm_num)).1 (by norm_num)
        unfold Binary64.lastExp
        rw [this]
        norm_num
      have hr : Binary64.round53 (-2 ^ 53 + -1) = -2 ^ 53 := by
        unfold Binary64.round53
        rw [hl]
        have hf : ⌊((-2 ^ 53 + -1 : ℝ) / 2 ^ (1 : Int))⌋ = -2 ^ 52 - 1 := by
          rw [Int.floor_eq_iff]
          norm_num
        have : Binary64.rne ((-2 ^ 53 + -1 : ℝ) / 2 ^ (1 : Int)) = -2 ^ 52 := by
          unfold Binary64.rne
          rw [hf, if_neg (by norm_num), if_neg (by norm_num), if_neg (by decide)]
          norm_num
        rw [this]
        norm_num
      rw [Binary64.rnd_fin (by rw [hr, abs_neg, abs_of_pos (by positivity)]; exact pow_lt_pow_right₀ (by norm_num) (by norm_num)), hr]
      rfl
    have e2 : (fin (-2 ^ 53) -. fin (-2 ^ 53) : Double) = fin 0 := by rw [sub_fin, sub_self]; exact rnd_zero
    have e3 : (fin 0 -. fin 0 : Double) = fin 0 := by rw [sub_fin, sub_self]; exact rnd_zero
    have e4 : (Arith.exp (fin 0) : Double) = fin 1 := by rw [exp_double, Real.exp_zero]; exact Binary64.rnd_one
    have h := lcgNext_lt g
    have hM : (lcgM : ℝ) = 2 ^ 48 := by norm_num [lcgM]
    have h1 : ((drand48 (F := Double) g).1 <. fin 1 : Bool) = true := by
      rw [drand48_dbl, lt_fin, ← hM, div_lt_one (by rw [hM]; norm_num)]
      exact_mod_cast h
    unfold stage
    rw [e1, e2, e3, e4, h1, Bool.or_true]
  · rw [show ((-2 ^ 53) + (-1) - (-2 ^ 53) - 0 : ℝ) = -1 by norm_num, Real.exp_neg, inv_lt_comm₀ (Real.exp_pos _) (by norm_num)]
    have := Real.exp_one_gt_d9
    norm_num
    linarith

/-- For the arithmetic of the machine: a proposal that lowers the log-posterior from -12.5 to -13.25 is taken at about `2^48 * exp(-3/4)` states. -/
example : |(((Finset.range lcgM).filter (fun g => (mhAccept (fin (-13.25) : Double) (fin (-12.5)) (ofI 1) g).1 = true)).card : ℝ) -
    2 ^ 48 * Real.exp (-(3 / 4))| < 9 / 8 := by
  have h := mh_accept_doubles libm_binary64 (-13.25) (-12.5)
  rwa [show (-13.25 - -12.5 : ℝ) = -(3 / 4) by norm_num, min_eq_right (Real.exp_le_one_iff.2 (by norm_num))] at h

/-- Log-posteriors of size at most 1000: the swap is made with its probability up to `502 / 2^48`. -/
example : |(((Finset.range lcgM).filter (fun g => (swapAccept (fin (-900) : Double) (fin (-20)) (fin (-890)) (fin (-29)) g).1 = true)).card : ℝ) -
    2 ^ 48 * Real.exp (-1)| < 502 := by
  have h := swap_accept_doubles libm_binary64 (-900) (-20) (-890) (-29) 1000 (by norm_num) (by norm_num) (by norm_num) (by norm_num)
    (le_trans (by norm_num : (1000 : ℝ) ≤ 2 ^ 10) (pow_le_pow_right₀ (by norm_num) (by norm_num)))
  rw [show (-900 + -20 - -890 - -29 : ℝ) = -1 by norm_num, min_eq_right (Real.exp_le_one_iff.2 (by norm_num))] at h
  exact h.trans (by norm_num)

/-- A chain at minus infinity takes any finite value, and no chain goes there. -/
example (g : Rng) : (mhAccept (fin (-900) : Double) ninf (ofI 1) g).1 = true ∧ (mhAccept (ninf : Double) (fin (-900)) (ofI 1) g).1 = false :=
  mh_accept_infinite libm_binary64 (-900) g

end NiiC
