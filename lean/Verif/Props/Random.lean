import Verif.Props.Accept
import Verif.Props.Demo
import Verif.Seq.Steps
import Verif.Num.Dbl

/-!
# Random helpers: C38, C39, C40, C41
-/

set_option linter.unusedSectionVars false
set_option linter.unusedSimpArgs false

namespace NiiC

open MeasureTheory Set

/-! ## C38: `i4_unif_0a` -/

/-- **C38, range.** For doubles with any rounding, `i4_unif_0a(a)` returns a value in `0 .. a-1` for every positive `int` `a` and every state
of the generator. -/
theorem unif0a_range {R : Rounding} (a : Int) (g : Rng) (h1 : 1 ≤ a) (h2 : a ≤ 2147483647) :
    0 ≤ (i4Unif0a (Dbl R) a g).1 ∧ (i4Unif0a (Dbl R) a g).1 ≤ a - 1 := by
  have := LawfulDraws.unif0a (F := Dbl R) a g h1 (by omega)
  omega

example (g : Rng) : 0 ≤ (i4Unif0a (Dbl Rounding.exact) 7 g).1 ∧ (i4Unif0a (Dbl Rounding.exact) 7 g).1 ≤ 6 := unif0a_range 7 g (by decide) (by decide)

/-- Lebesgue measure of a half-open interval inside `[0, 1)` given by two bounds. -/
theorem volume_between (p q : ℝ) (h0 : 0 ≤ p) (h1 : q ≤ 1) :
    volume {u : ℝ | u ∈ Ico (0 : ℝ) 1 ∧ p ≤ u ∧ u < q} = ENNReal.ofReal (q - p) := by
  have : {u : ℝ | u ∈ Ico (0 : ℝ) 1 ∧ p ≤ u ∧ u < q} = Ico p q := by
    ext u
    simp only [mem_ofPred_eq, mem_Ico]
    constructor
    · rintro ⟨_, h⟩; exact h
    · rintro ⟨h, h'⟩; exact ⟨⟨h0.trans h, h'.trans_le h1⟩, h, h'⟩
  rw [this, Real.volume_Ico]

/-- **C38, law.** For a uniform draw every value of `0 .. a-1` has probability `1/a`. -/
theorem unif0a_law (a : Int) (h : 1 ≤ a) (k : Int) (hk0 : 0 ≤ k) (hk1 : k < a) :
    volume {u : ℝ | u ∈ Ico (0 : ℝ) 1 ∧ i4Unif0aVal a u = k} = ENNReal.ofReal (1 / a) := by
  have ha : (0 : ℝ) < (a : ℝ) := by exact_mod_cast h
  have hk0' : (0 : ℝ) ≤ (k : ℝ) := by exact_mod_cast hk0
  have hk1' : (k : ℝ) + 1 ≤ (a : ℝ) := by exact_mod_cast hk1
  rw [show (1 : ℝ) / a = ((k : ℝ) + 1) / a - k / a by ring, ← volume_between _ _ (by positivity) ((div_le_one ha).2 hk1')]
  congr 1
  ext u
  simp only [mem_ofPred_eq, i4Unif0aVal, RealArith.mul_eq, RealArith.ofI_eq, RealArith.floorI_eq, Int.floor_eq_iff, div_le_iff₀ ha, lt_div_iff₀ ha]

theorem card_below_mono (N : Nat) (f : Nat → ℝ) (p q : ℝ) (h : p ≤ q) :
    ((Finset.range N).filter (fun x => f x < p)).card ≤ ((Finset.range N).filter (fun x => f x < q)).card := by
  refine Finset.card_le_card (fun x hx => ?_)
  rw [Finset.mem_filter] at hx ⊢
  exact ⟨hx.1, hx.2.trans_le h⟩

theorem card_between (N : Nat) (f : Nat → ℝ) (p q : ℝ) (h : p ≤ q) :
    ((Finset.range N).filter (fun x => p ≤ f x ∧ f x < q)).card =
      ((Finset.range N).filter (fun x => f x < q)).card - ((Finset.range N).filter (fun x => f x < p)).card := by
  rw [← Finset.card_sdiff_of_subset]
  · refine congrArg Finset.card ?_
    ext x
    simp only [Finset.mem_filter, Finset.mem_sdiff, not_and, not_lt]
    constructor
    · rintro ⟨h1, h2, h3⟩; exact ⟨⟨h1, h3⟩, fun _ => h2⟩
    · rintro ⟨⟨h1, h3⟩, h2⟩; exact ⟨h1, h2 h1, h3⟩
  · intro x hx
    rw [Finset.mem_filter] at hx ⊢
    exact ⟨hx.1, hx.2.trans_le h⟩

/-- **C38, law for the generator.** Among the 2^48 states of the generator, the number of those that make `i4_unif_0a(a)` return `k` differs from
`2^48 / a` by less than one, for every `k` in `0 .. a-1`. -/
theorem unif0a_count (a : Int) (h : 1 ≤ a) (k : Int) (hk0 : 0 ≤ k) (hk1 : k < a) :
    |(((Finset.range lcgM).filter (fun g => (i4Unif0a ℝ a g).1 = k)).card : ℝ) - lcgM / a| < 1 := by
  classical
  have ha : (0 : ℝ) < (a : ℝ) := by exact_mod_cast h
  have hM : (0 : ℝ) < (lcgM : ℝ) := by norm_num [lcgM]
  have hk0' : (0 : ℝ) ≤ (k : ℝ) := by exact_mod_cast hk0
  have hk1' : (k : ℝ) + 1 ≤ (a : ℝ) := by exact_mod_cast hk1
  have e : ((Finset.range lcgM).filter (fun g => (i4Unif0a ℝ a g).1 = k)).card =
      ((Finset.range lcgM).filter (fun x : Nat => (k : ℝ) / a ≤ (x : ℝ) / lcgM ∧ (x : ℝ) / lcgM < ((k : ℝ) + 1) / a)).card := by
    rw [← card_draw (fun x : Nat => (k : ℝ) / a ≤ (x : ℝ) / lcgM ∧ (x : ℝ) / lcgM < ((k : ℝ) + 1) / a)]
    refine congrArg Finset.card (Finset.filter_congr (fun g _ => ?_))
    simp only [i4Unif0a, drand48_posix, i4Unif0aVal, RealArith.mul_eq, RealArith.ofI_eq, RealArith.floorI_eq, RealArith.lit_eq, Int.cast_natCast,
      Int.floor_eq_iff, div_le_iff₀ ha, lt_div_iff₀ ha]
  rw [e, card_between _ _ _ _ (by gcongr; linarith), Nat.cast_sub (card_below_mono _ _ _ _ (by gcongr; linarith)),
    card_below _ ((div_le_one ha).2 hk1'), card_below _ ((div_le_one ha).2 (by linarith))]
  have p1 : 0 ≤ ((k : ℝ) + 1) / a * lcgM := mul_nonneg (div_nonneg (by linarith) ha.le) hM.le
  have p2 : 0 ≤ (k : ℝ) / a * lcgM := mul_nonneg (div_nonneg hk0' ha.le) hM.le
  have c1 := Nat.le_ceil (((k : ℝ) + 1) / a * lcgM)
  have c2 := Nat.ceil_lt_add_one p1
  have c3 := Nat.le_ceil ((k : ℝ) / a * lcgM)
  have c4 := Nat.ceil_lt_add_one p2
  have e2 : ((k : ℝ) + 1) / a * lcgM - (k : ℝ) / a * lcgM = lcgM / a := by ring
  rw [abs_lt]
  constructor <;> linarith

example : |(((Finset.range lcgM).filter (fun g => (i4Unif0a ℝ 7 g).1 = 6)).card : ℝ) - lcgM / (7 : Int)| < 1 := unif0a_count 7 (by decide) 6 (by decide) (by decide)

example : volume {u : ℝ | u ∈ Ico (0 : ℝ) 1 ∧ i4Unif0aVal 7 u = 6} = ENNReal.ofReal (1 / (7 : Int)) :=
  unif0a_law 7 (by norm_num) 6 (by norm_num) (by norm_num)

/-! ## C39, C40: `i4_unif_ab` -/

/-- **C39.** For doubles with any rounding, `i4_unif_ab(a, b)` returns a value in `a .. b` for all `a <= b` whose difference is an `int`
(otherwise the subtraction in the source overflows), for every state of the generator. -/
theorem unifAb_range {R : Rounding} (a b : Int) (g : Rng) (h : a ≤ b) (hi : b - a ≤ 2147483647) :
    a ≤ (i4UnifAb (Dbl R) a b g).1 ∧ (i4UnifAb (Dbl R) a b g).1 ≤ b :=
  LawfulDraws.unifAb (F := Dbl R) a b g h (by omega)

/-- The value of `i4_unif_ab` for a draw `u`. -/
theorem unifAb_eq_iff (a b : Int) (h : a < b) (k : Int) (u : ℝ) (hu : u ∈ Ico (0 : ℝ) 1) :
    i4UnifAbVal a b u = k ↔ ((k : ℝ) - a - 1 / 2) / (b - a) ≤ u ∧ u < ((k : ℝ) - a + 1 / 2) / (b - a) := by
  have hd : (0 : ℝ) < (b : ℝ) - a := sub_pos.2 (by exact_mod_cast h)
  have h0 : 0 ≤ u * ((b : ℝ) - a) := mul_nonneg hu.1 hd.le
  simp only [i4UnifAbVal, RealArith.mul_eq, RealArith.ofI_eq]
  push_cast
  rw [RealArith.roundI_nonneg h0, ← eq_sub_iff_add_eq, Int.floor_eq_iff, div_le_iff₀ hd, lt_div_iff₀ hd]
  push_cast
  constructor
  · rintro ⟨h1, h2⟩; exact ⟨by linarith, by linarith⟩
  · rintro ⟨h1, h2⟩; exact ⟨by linarith, by linarith⟩

/-- **C40 (partial): the law of `i4_unif_ab`.** For a uniform draw every inner value of `a .. b` has probability `1/(b-a)`, and each of the two
end points half of that. So the values are not equally likely. -/
theorem unifAb_law_partial (a b : Int) (h : a < b) (k : Int) (hk0 : a ≤ k) (hk1 : k ≤ b) :
    volume {u : ℝ | u ∈ Ico (0 : ℝ) 1 ∧ i4UnifAbVal a b u = k} =
      ENNReal.ofReal (if k = a ∨ k = b then 1 / (2 * ((b : ℝ) - a)) else 1 / ((b : ℝ) - a)) := by
  have hd : (0 : ℝ) < (b : ℝ) - a := sub_pos.2 (by exact_mod_cast h)
  have hset : {u : ℝ | u ∈ Ico (0 : ℝ) 1 ∧ i4UnifAbVal a b u = k} =
      {u : ℝ | u ∈ Ico (0 : ℝ) 1 ∧ max 0 (((k : ℝ) - a - 1 / 2) / (b - a)) ≤ u ∧ u < min 1 (((k : ℝ) - a + 1 / 2) / (b - a))} := by
    ext u
    simp only [mem_ofPred_eq, and_congr_right_iff, max_le_iff, lt_min_iff]
    intro hu
    rw [unifAb_eq_iff a b h k u hu]
    exact ⟨fun h => ⟨⟨hu.1, h.1⟩, hu.2, h.2⟩, fun h => ⟨h.1.2, h.2.2⟩⟩
  rw [hset, volume_between _ _ (le_max_left _ _) (min_le_left _ _)]
  congr 1
  by_cases e1 : k = a
  · subst e1
    have hb1 : (k : ℝ) + 1 ≤ b := by exact_mod_cast h
    rw [if_pos (.inl rfl), max_eq_left (div_nonpos_of_nonpos_of_nonneg (by linarith) hd.le),
      min_eq_right ((div_le_one hd).2 (by linarith))]
    field_simp
    ring
  · by_cases e2 : k = b
    · subst e2
      have ha1 : (a : ℝ) + 1 ≤ k := by exact_mod_cast h
      rw [if_pos (.inr rfl), max_eq_right (div_nonneg (by linarith) hd.le), min_eq_left ((one_le_div hd).2 (by linarith))]
      field_simp
      ring
    · have ha1 : (a : ℝ) + 1 ≤ k := by exact_mod_cast (by omega : a + 1 ≤ k)
      have hb1 : (k : ℝ) + 1 ≤ b := by exact_mod_cast (by omega : k + 1 ≤ b)
      rw [if_neg (by simp [e1, e2]), max_eq_right (div_nonneg (by linarith) hd.le), min_eq_right ((div_le_one hd).2 (by linarith))]
      field_simp
      ring

/-- **C40 is false.** Whenever there are at least three values, the two end points are less likely than the others. -/
theorem unifAb_not_uniform (a b k : Int) (h0 : a < k) (h1 : k < b) :
    volume {u : ℝ | u ∈ Ico (0 : ℝ) 1 ∧ i4UnifAbVal a b u = a} < volume {u : ℝ | u ∈ Ico (0 : ℝ) 1 ∧ i4UnifAbVal a b u = k} := by
  have hd : (0 : ℝ) < (b : ℝ) - a := sub_pos.2 (by exact_mod_cast h0.trans h1)
  rw [unifAb_law_partial a b (h0.trans h1) a (le_refl _) (h0.trans h1).le, unifAb_law_partial a b (h0.trans h1) k h0.le h1.le, if_pos (.inl rfl),
    if_neg (by omega), ENNReal.ofReal_lt_ofReal_iff (by positivity), one_div_lt_one_div (by positivity) hd]
  linarith

example : volume {u : ℝ | u ∈ Ico (0 : ℝ) 1 ∧ i4UnifAbVal (-20) 20 u = -20} < volume {u : ℝ | u ∈ Ico (0 : ℝ) 1 ∧ i4UnifAbVal (-20) 20 u = 7} :=
  unifAb_not_uniform (-20) 20 7 (by decide) (by decide)

/-- The batch lengths of the sample configuration: base 100, random part 20, so `i4_unif_ab(-20, 20)`; length 80 has probability 1/80, length 100 has 1/40. -/
example : volume {u : ℝ | u ∈ Ico (0 : ℝ) 1 ∧ i4UnifAbVal (-20) 20 u = -20} = ENNReal.ofReal (1 / 80) ∧
    volume {u : ℝ | u ∈ Ico (0 : ℝ) 1 ∧ i4UnifAbVal (-20) 20 u = 0} = ENNReal.ofReal (1 / 40) := by
  rw [unifAb_law_partial (-20) 20 (by norm_num) (-20) (by norm_num) (by norm_num), unifAb_law_partial (-20) 20 (by norm_num) 0 (by norm_num) (by norm_num)]
  norm_num

/-! ## C41: `r8_unif_ab`, `r8_logunif_ab` -/

/-- The value of `r8_unif_ab` for a draw `u`, rand_func.c:140. -/
def unifVal {F : Type} [Arith F] (a b u : F) : F := u *. (b -. a) +. a

/-- The value of `r8_logunif_ab` for a draw `u`, rand_func.c:109. -/
def logunifVal {F : Type} [Arith F] (a b u : F) : F := a *. Arith.exp (u *. Arith.log (b /. a))

theorem r8UnifAb_val {F : Type} [Arith F] [Source F] (a b : F) (g : Rng) : r8UnifAb a b g = (unifVal a b (drand48 g).1, (drand48 (F := F) g).2) := rfl
theorem r8LogunifAb_val {F : Type} [Arith F] [Source F] (a b : F) (g : Rng) :
    r8LogunifAb a b g = (logunifVal a b (drand48 g).1, (drand48 (F := F) g).2) := rfl

/-- **C41, uniform: range.** -/
theorem unif_range [Source ℝ] [UnitDraws] (a b : ℝ) (h : a < b) (g : Rng) : a ≤ (r8UnifAb a b g).1 ∧ (r8UnifAb a b g).1 < b := by
  obtain ⟨h0, h1⟩ := UnitDraws.mem g
  simp only [r8UnifAb_val, unifVal, RealArith.mul_eq, RealArith.sub_eq, RealArith.add_eq]
  constructor <;> nlinarith

example (g : Rng) : -5 ≤ (r8UnifAb (-5 : ℝ) 12 g).1 ∧ (r8UnifAb (-5 : ℝ) 12 g).1 < 12 := unif_range _ _ (by norm_num) g

/-- **C41, uniform: law.** The probability of a value below `x` is `(x - a)/(b - a)`. -/
theorem unif_law (a b : ℝ) (h : a < b) (x : ℝ) (_hx0 : a ≤ x) (hx1 : x ≤ b) :
    volume {u : ℝ | u ∈ Ico (0 : ℝ) 1 ∧ unifVal a b u < x} = ENNReal.ofReal ((x - a) / (b - a)) := by
  have hd : 0 < b - a := by linarith
  rw [← volume_below _ ((div_le_one hd).2 (by linarith : x - a ≤ b - a))]
  congr 1
  ext u
  simp only [mem_ofPred_eq, unifVal, RealArith.mul_eq, RealArith.sub_eq, RealArith.add_eq, lt_div_iff₀ hd, lt_sub_iff_add_lt]

example : volume {u : ℝ | u ∈ Ico (0 : ℝ) 1 ∧ unifVal (-5) 15 u < 0} = ENNReal.ofReal (1 / 4) := by
  rw [unif_law (-5) 15 (by norm_num) 0 (by norm_num) (by norm_num)]
  norm_num

/-- **C41, log-uniform: range.** -/
theorem logunif_range [Source ℝ] [UnitDraws] (a b : ℝ) (h0 : 0 < a) (h : a < b) (g : Rng) : a ≤ (r8LogunifAb a b g).1 ∧ (r8LogunifAb a b g).1 < b := by
  obtain ⟨u0, u1⟩ := UnitDraws.mem g
  have hl : 0 < Real.log (b / a) := Real.log_pos ((one_lt_div h0).2 h)
  have hb : 0 < b := h0.trans h
  simp only [r8LogunifAb_val, logunifVal, RealArith.mul_eq, RealArith.div_eq, RealArith.exp_eq, RealArith.log_eq]
  constructor
  · have : 1 ≤ Real.exp ((drand48 g).1 * Real.log (b / a)) := Real.one_le_exp (mul_nonneg u0 hl.le)
    nlinarith
  · have h1 : Real.exp ((drand48 g).1 * Real.log (b / a)) < b / a := by
      rw [← Real.lt_log_iff_exp_lt (div_pos hb h0)]
      nlinarith
    calc a * Real.exp ((drand48 g).1 * Real.log (b / a)) < a * (b / a) := by gcongr
      _ = b := by field_simp

example (g : Rng) : 1 / 100 ≤ (r8LogunifAb (1 / 100 : ℝ) 12 g).1 ∧ (r8LogunifAb (1 / 100 : ℝ) 12 g).1 < 12 := logunif_range _ _ (by norm_num) (by norm_num) g

/-- **C41, log-uniform: law.** The probability of a value below `x` is `log(x/a)/log(b/a)`. -/
theorem logunif_law (a b : ℝ) (h0 : 0 < a) (h : a < b) (x : ℝ) (hx0 : a ≤ x) (hx1 : x ≤ b) :
    volume {u : ℝ | u ∈ Ico (0 : ℝ) 1 ∧ logunifVal a b u < x} = ENNReal.ofReal (Real.log (x / a) / Real.log (b / a)) := by
  have hl : 0 < Real.log (b / a) := Real.log_pos ((one_lt_div h0).2 h)
  have hx : 0 < x := h0.trans_le hx0
  have hle : Real.log (x / a) ≤ Real.log (b / a) := Real.log_le_log (div_pos hx h0) (by gcongr)
  rw [← volume_below _ ((div_le_one hl).2 hle)]
  congr 1
  ext u
  simp only [mem_ofPred_eq, logunifVal, RealArith.mul_eq, RealArith.div_eq, RealArith.exp_eq, RealArith.log_eq, lt_div_iff₀ hl, and_congr_right_iff]
  intro _
  rw [Real.lt_log_iff_exp_lt (div_pos hx h0), lt_div_iff₀ h0, mul_comm]

/-- The median of a log-uniform draw on [1, 100] is 10. -/
example : volume {u : ℝ | u ∈ Ico (0 : ℝ) 1 ∧ logunifVal 1 100 u < 10} = ENNReal.ofReal (1 / 2) := by
  rw [logunif_law 1 100 (by norm_num) (by norm_num) 10 (by norm_num) (by norm_num)]
  have : Real.log (100 / 1) = 2 * Real.log (10 / 1) := by
    rw [show (100 : ℝ) / 1 = (10 / 1) ^ 2 by norm_num, Real.log_pow]; norm_num
  have h10 : Real.log (10 / 1) ≠ 0 := (Real.log_pos (by norm_num)).ne'
  rw [this]
  congr 1
  field_simp

open Dbl in
/-- Rounding keeps a number between the roundings of its bounds. -/
theorem Dbl.rnd_sandwich {R : Rounding} {x y z x' z' : ℝ} (hxy : x ≤ y) (hyz : y ≤ z) (hx : R.rnd x = .fin x') (hz : R.rnd z = .fin z') :
    ∃ v, R.rnd y = .fin v ∧ x' ≤ v ∧ v ≤ z' := by
  have h1 := R.rnd_mono x y hxy
  have h2 := R.rnd_mono y z hyz
  rw [hx] at h1
  rw [hz] at h2
  cases h : R.rnd y with
  | nan => exact absurd h (R.rnd_ne_nan y)
  | ninf => rw [h] at h1; exact absurd h1 (fun h => h)
  | pinf => rw [h] at h2; exact absurd h2 (fun h => h)
  | fin v => rw [h] at h1 h2; exact ⟨v, rfl, h1, h2⟩

open Dbl in
/-- **C41, uniform: range under rounding.** For doubles `a < b` whose difference is between 2^-990 and 2^990, `r8_unif_ab(a, b)` returns a number in
[a, b] for every state of the generator and any rounding. -/
theorem unif_range_dbl {R : Rounding} (a b : ℝ) (ha : R.rnd a = .fin a) (hb : R.rnd b = .fin b) (h0 : 2⁻¹ ^ 990 ≤ b - a) (h1 : b - a ≤ 2 ^ 990)
    (g : Rng) : ∃ v : ℝ, (r8UnifAb (fin a : Dbl R) (fin b) g).1 = fin v ∧ a ≤ v ∧ v ≤ b := by
  have hM : (lcgM : ℝ) = 2 ^ 48 := by norm_num [lcgM]
  obtain ⟨u, hue⟩ : ∃ u : ℝ, u = (lcgNext g : ℝ) / 2 ^ 48 := ⟨_, rfl⟩
  obtain ⟨e48, he48, he48b⟩ : ∃ e : ℝ, e = 1 / 2 ^ 48 ∧ 0 < e := ⟨_, rfl, by positivity⟩
  obtain ⟨e52, he52, he52b⟩ : ∃ e : ℝ, e = 1 / 2 ^ 52 ∧ 0 < e := ⟨_, rfl, by positivity⟩
  have hrel : e48 = 16 * e52 := by rw [he48, he52]; norm_num
  have hsmall : e52 ≤ 1 / 1000 := by rw [he52]; norm_num
  have hu : u ≤ 1 - e48 := by
    have : (lcgNext g : ℝ) + 1 ≤ lcgM := by exact_mod_cast lcgNext_lt g
    rw [hM] at this
    rw [hue, he48, div_le_iff₀ (by positivity)]
    have e : (1 - 1 / 2 ^ 48 : ℝ) * 2 ^ 48 = 2 ^ 48 - 1 := by norm_num
    rw [e]; linarith
  have hu0 : 0 ≤ u := by rw [hue]; positivity
  obtain ⟨D, hD⟩ : ∃ D, D = b - a := ⟨_, rfl⟩
  have pL : (2⁻¹ : ℝ) ^ 1000 ≤ 2⁻¹ ^ 990 * (1 / 4) := by
    rw [show (1000 : ℕ) = 990 + 10 by norm_num, pow_add]
    gcongr; norm_num
  have pH : (2 : ℝ) ^ 990 * 4 ≤ 2 ^ 1000 := by
    rw [show (1000 : ℕ) = 990 + 10 by norm_num, pow_add]
    gcongr; norm_num
  have q0 : (0 : ℝ) < 2⁻¹ ^ 990 := by positivity
  have herr := R.rnd_err
  rw [← hD] at h0 h1
  generalize (2⁻¹ : ℝ) ^ 1000 = L at *
  generalize (2 : ℝ) ^ 1000 = H at *
  generalize (2⁻¹ : ℝ) ^ 990 = l at *
  generalize (2 : ℝ) ^ 990 = hh at *
  have hD0 : 0 < D := by linarith
  have hdiv : ∀ x : ℝ, x / 2 ^ 52 = x * e52 := fun x => by rw [he52]; ring
  obtain ⟨d, hd, hde⟩ := herr D (by rw [abs_of_pos hD0]; linarith) (by rw [abs_of_pos hD0]; linarith)
  rw [abs_of_pos hD0, hdiv] at hde
  obtain ⟨hde1, hde2⟩ := abs_le.1 hde
  have hd1 : D * (1 - e52) ≤ d := by linarith
  have hd2 : d ≤ D * (1 + e52) := by linarith
  have hd0 : 0 < d := lt_of_lt_of_le (mul_pos hD0 (by linarith)) hd1
  have hdl : D / 2 ≤ d := by nlinarith
  have hdh : d ≤ 2 * D := by nlinarith
  have hU : 0 < (1 - e48) * d := mul_pos (by linarith) hd0
  have hU1 : d / 2 ≤ (1 - e48) * d := by nlinarith
  have hU2 : (1 - e48) * d ≤ d := by nlinarith
  obtain ⟨m, hm, hme⟩ := herr ((1 - e48) * d) (by rw [abs_of_pos hU]; linarith) (by rw [abs_of_pos hU]; linarith)
  rw [abs_of_pos hU, hdiv] at hme
  have hmle : m ≤ D := by
    have h2 := (abs_le.1 hme).2
    have h5 : (1 + e52) * ((1 - e48) * (1 + e52)) ≤ 1 := by
      rw [hrel, show (1 + e52) * ((1 - 16 * e52) * (1 + e52)) = 1 - e52 * (14 + 31 * e52 + 16 * e52 ^ 2) by ring]
      have : 0 ≤ e52 * (14 + 31 * e52 + 16 * e52 ^ 2) := by positivity
      linarith
    calc m ≤ (1 + e52) * ((1 - e48) * d) := by linarith
      _ ≤ (1 + e52) * ((1 - e48) * (D * (1 + e52))) := by
        have : 0 ≤ 1 - e48 := by linarith
        gcongr
      _ = (1 + e52) * ((1 - e48) * (1 + e52)) * D := by ring
      _ ≤ 1 * D := by gcongr
      _ = D := one_mul _
  obtain ⟨p, hp, hp0, hpm⟩ := Dbl.rnd_sandwich (R := R) (x := 0) (y := u * d) (z := (1 - e48) * d) (mul_nonneg hu0 hd0.le) (by gcongr) rnd_zero hm
  obtain ⟨v, hv, hv0, hv1⟩ := rnd_between (R := R) (x := a) (y := p + a) (z := b) (by linarith) (by linarith) ha hb
  refine ⟨v, ?_, hv0, hv1⟩
  have e1 : (fin b -. fin a : Dbl R) = fin d := by rw [sub_fin, ← hD, hd]; rfl
  have e2 : (fin u *. fin d : Dbl R) = fin p := by rw [mul_fin, hp]; rfl
  have e3 : (fin p +. fin a : Dbl R) = fin v := by rw [add_fin, hv]; rfl
  rw [r8UnifAb_val]
  simp only [unifVal, drand48_dbl, ← hue, e1, e2, e3]

end NiiC
