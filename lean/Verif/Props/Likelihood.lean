import Verif.Model.Models
import Verif.Num.XReal
import Mathlib.Probability.Distributions.Gaussian.Real
import Mathlib.Analysis.Real.Pi.Bounds
import Mathlib.Tactic.FieldSimp

/-!
# The likelihoods of the bundled models: C56, C57, C58
-/

set_option linter.unusedSectionVars false
set_option linter.unusedSimpArgs false

namespace NiiC

open Dbl

/-- The bundled models of the current version. -/
def bundled (F : Type) [Arith F] : List (Model F) := [regression, multiGaussian, eggbox, curved, rastrigin]

/-! ## C56 -/

/-- Each bundled likelihood is a value that does not depend on beta, times beta. -/
theorem tempered_form {F : Type} [Arith F] (m : Model F) (hm : m ∈ bundled F) (ndim : Int) (x : List F) (nline : Int) (data : List F)
    (hx : x.length = m.names.length) : ∃ value, ∀ beta, m.logll ndim x nline data beta = value *. beta := by
  simp only [bundled, List.mem_cons, List.not_mem_nil, or_false] at hm
  rcases hm with rfl | rfl | rfl | rfl | rfl
  · obtain ⟨a, b, d, rfl⟩ : ∃ a b d, x = [a, b, d] := by
      match x, hx with
      | [a, b, d], _ => exact ⟨a, b, d, rfl⟩
    exact ⟨_, fun _ => rfl⟩
  all_goals first
    | (obtain ⟨a, b, rfl⟩ : ∃ a b, x = [a, b] := by
        match x, hx with
        | [a, b], _ => exact ⟨a, b, rfl⟩
       exact ⟨_, fun _ => rfl⟩)
    | (obtain ⟨a, b, c, d, e, rfl⟩ : ∃ a b c d e, x = [a, b, c, d, e] := by
        match x, hx with
        | [a, b, c, d, e], _ => exact ⟨a, b, c, d, e, rfl⟩
       exact ⟨_, fun _ => rfl⟩)

/-- **C56, exact arithmetic.** The log-likelihood of each bundled model at inverse temperature beta is beta times the one at 1, and zero at 0. -/
theorem tempered (m : Model ℝ) (hm : m ∈ bundled ℝ) (ndim : Int) (x : List ℝ) (nline : Int) (data : List ℝ) (hx : x.length = m.names.length) :
    (∀ beta, m.logll ndim x nline data beta = beta * m.logll ndim x nline data 1) ∧ m.logll ndim x nline data 0 = 0 := by
  obtain ⟨v, hv⟩ := tempered_form m hm ndim x nline data hx
  simp only [hv, RealArith.mul_eq]
  exact ⟨fun beta => by ring, by ring⟩

/-- **C56, doubles.** At beta = 1 rounding does not change the value; at beta = 0 the result is zero exactly when the value is finite, and NaN otherwise. -/
theorem tempered_dbl {R : Rounding} (m : Model (Dbl R)) (hm : m ∈ bundled (Dbl R)) (ndim : Int) (x : List (Dbl R)) (nline : Int) (data : List (Dbl R))
    (hx : x.length = m.names.length) : ∃ value, (∀ beta, m.logll ndim x nline data beta = value *. beta) ∧
      ((∃ v, value = fin v) ↔ m.logll ndim x nline data (fin 0) = fin 0) ∧ ((¬ ∃ v, value = fin v) ↔ m.logll ndim x nline data (fin 0) = nan) := by
  obtain ⟨v, hv⟩ := tempered_form m hm ndim x nline data hx
  have hs0 : infSign 0 = XV.nan := by simp [infSign]
  have hs1 : infSign (-0) = XV.nan := by simp [infSign]
  refine ⟨v, hv, ?_⟩
  rw [hv]
  cases v with
  | nan => exact ⟨⟨fun ⟨_, h⟩ => (by cases h), fun h => (by cases h)⟩, fun _ => rfl, fun _ ⟨_, h⟩ => (by cases h)⟩
  | ninf =>
    have e : ((ninf : Dbl R) *. fin 0) = nan := hs1
    refine ⟨⟨fun ⟨_, h⟩ => (by cases h), fun h => ?_⟩, fun _ => e, fun _ ⟨_, h⟩ => (by cases h)⟩
    have h' : ((ninf : Dbl R) *. fin 0) = fin 0 := h
    rw [e] at h'; cases h'
  | pinf =>
    have e : ((pinf : Dbl R) *. fin 0) = nan := hs0
    refine ⟨⟨fun ⟨_, h⟩ => (by cases h), fun h => ?_⟩, fun _ => e, fun _ ⟨_, h⟩ => (by cases h)⟩
    have h' : ((pinf : Dbl R) *. fin 0) = fin 0 := h
    rw [e] at h'; cases h'
  | fin a =>
    have e : ((fin a : Dbl R) *. fin 0) = fin 0 := by rw [mul_fin, mul_zero, rnd_zero]; rfl
    refine ⟨⟨fun _ => e, fun _ => ⟨a, rfl⟩⟩, fun h => absurd ⟨a, rfl⟩ h, fun h => ?_⟩
    have h' : ((fin a : Dbl R) *. fin 0) = nan := h
    rw [e] at h'; cases h'

example : (regression (F := ℝ)).logll 2 [3, 4, 2] 2 [1, 7, 2, 12] (1 / 10) = 1 / 10 * (regression (F := ℝ)).logll 2 [3, 4, 2] 2 [1, 7, 2, 12] 1 :=
  (tempered regression (by simp [bundled]) 2 [3, 4, 2] 2 [1, 7, 2, 12] rfl).1 (1 / 10)

example (x : XReal) : ∃ value, ∀ beta, (eggbox (F := XReal)).logll 2 [x, nan] 0 [] beta = value *. beta :=
  tempered_form eggbox (by simp [bundled]) 2 [x, nan] 0 [] rfl

/-- A parameter that is NaN shows at the inverse temperature 0. -/
example : ∃ value, (∀ beta, (eggbox (F := XReal)).logll 2 [fin 1, nan] 0 [] beta = value *. beta) ∧
    ((¬ ∃ v, value = fin v) ↔ (eggbox (F := XReal)).logll 2 [fin 1, nan] 0 [] (fin 0) = nan) := by
  obtain ⟨value, h1, -, h3⟩ := tempered_dbl (R := Rounding.exact) eggbox (by simp [bundled]) 2 [fin 1, nan] 0 [] rfl
  exact ⟨value, h1, h3⟩

/-! ## C57 -/

open ProbabilityTheory

/-- Log density of a normal law: what the regression likelihood should add up (independent of the model). -/
noncomputable def Spec.normalLogDensity (mean sd y : ℝ) : ℝ := Real.log (gaussianPDFReal mean (sd ^ 2).toNNReal y)

/-- The log-likelihood the regression model describes: rows `(x, y)` with `y` normal around `a x + b`. -/
noncomputable def Spec.regressionLogLik (a b d : ℝ) (rows : List (ℝ × ℝ)) : ℝ :=
  (rows.map fun p => Spec.normalLogDensity (a * p.1 + b) d p.2).sum

theorem piLit_real : (piLit : ℝ) = 3141592653589793 / 1000000000000000 := by
  simp only [piLit, RealArith.lit_eq]
  push_cast
  rfl

theorem piLit_pos : (0 : ℝ) < piLit := by rw [piLit_real]; norm_num

theorem normalLogDensity_eq (mean sd y : ℝ) (h : 0 < sd) :
    Spec.normalLogDensity mean sd y = -(1 / 2) * Real.log (2 * Real.pi) - 1 / 2 * Real.log (sd ^ 2) - (y - mean) ^ 2 / 2 / sd ^ 2 := by
  have hs : 0 < sd ^ 2 := by positivity
  have hp := Real.pi_pos
  rw [Spec.normalLogDensity, gaussianPDFReal, Real.coe_toNNReal _ hs.le, Real.log_mul (by positivity) (Real.exp_pos _).ne', Real.log_exp,
    Real.log_inv, Real.log_sqrt (by positivity), Real.log_mul (by positivity) hs.ne']
  field_simp
  ring

theorem regressionOne_real (a b d x y : ℝ) (h : 0 < d) :
    regressionOne a b d x y = Spec.normalLogDensity (a * x + b) d y + 1 / 2 * Real.log (Real.pi / piLit) := by
  have hp := Real.pi_pos
  have hl := piLit_pos
  rw [normalLogDensity_eq _ _ _ h, Real.log_div hp.ne' hl.ne', Real.log_mul (by norm_num) hp.ne']
  simp only [regressionOne, RealArith.lit_eq, RealArith.mul_eq, RealArith.log_eq, RealArith.sub_eq, RealArith.pow_eq, RealArith.add_eq, RealArith.div_eq,
    RealArith.ofI_eq]
  push_cast
  rw [Real.rpow_two, Real.rpow_two, Real.log_mul (by norm_num) hl.ne']
  ring

/-- The rows of a flat table of `ndim` columns, first two columns. -/
def Spec.tableRows (ndim : Nat) (data : List ℝ) (k : Nat) : List (ℝ × ℝ) :=
  (List.range k).map fun i => (data.getD (i * ndim) 0, data.getD (i * ndim + 1) 0)

theorem regressionSum_real (a b d : ℝ) (h : 0 < d) (ndim : Nat) (data : List ℝ) : ∀ (k i : Nat) (s : ℝ),
    regressionSum a b d ndim data k i s = s + Spec.regressionLogLik a b d ((List.range' i k).map fun i => (data.getD (i * ndim) 0, data.getD (i * ndim + 1) 0))
      + k * (1 / 2 * Real.log (Real.pi / piLit)) := by
  intro k
  induction k with
  | zero => intro i s; simp [regressionSum, Spec.regressionLogLik]
  | succ k ih =>
    intro i s
    simp only [regressionSum]
    have e0 : (ofI 0 : ℝ) = 0 := by simp
    rw [ih, RealArith.add_eq, e0, regressionOne_real _ _ _ _ _ h, List.range'_succ]
    simp only [Spec.regressionLogLik, List.map_cons, List.sum_cons]
    push_cast
    ring

/-- **C57 (partial).** For noise `d > 0`, any number of rows and any data, the regression log-likelihood is beta times the sum of the log densities of
Normal(a x + b, d), plus a constant per row that comes from the decimal literal used for pi; the constant is positive and below 10^-16. The full claim, equality
with the sum of log densities, is false by that constant (`regression_pi_offset`); it is the same for all parameters and so drops out of every acceptance test
(`regression_ratio`). -/
theorem regression_loglik_partial (a b d : ℝ) (h : 0 < d) (ndim nline : Nat) (data : List ℝ) (beta : ℝ) :
    (regression (F := ℝ)).logll ndim [a, b, d] nline data beta =
      beta * (Spec.regressionLogLik a b d (Spec.tableRows ndim data nline) + nline * (1 / 2 * Real.log (Real.pi / piLit))) ∧
    0 < 1 / 2 * Real.log (Real.pi / piLit) ∧ 1 / 2 * Real.log (Real.pi / piLit) < 1 / 10 ^ 16 := by
  have hl := piLit_pos
  have g1 : piLit < Real.pi := by
    rw [piLit_real]
    have := Real.pi_gt_d20
    norm_num at this ⊢
    linarith
  have hr : Real.pi / piLit < 1 + 2 / 10 ^ 16 := by
    rw [div_lt_iff₀ hl, piLit_real]
    have := Real.pi_lt_d20
    norm_num at this ⊢
    linarith
  refine ⟨?_, by have := Real.log_pos ((one_lt_div hl).2 g1); linarith, ?_⟩
  · have e0 : (ofI 0 : ℝ) = 0 := by simp
    simp only [regression, RealArith.mul_eq, Int.toNat_natCast]
    rw [regressionSum_real _ _ _ h, e0, zero_add, Spec.tableRows, List.range_eq_range']
    ring
  · have := Real.log_le_sub_one_of_pos (div_pos Real.pi_pos hl)
    linarith

/-- **C57, ratios.** Differences of the log-likelihood between two parameter vectors, on which all decisions of the sampler rest, are exactly those of the normal
log densities. -/
theorem regression_ratio (a b d a' b' d' : ℝ) (h : 0 < d) (h' : 0 < d') (ndim nline : Nat) (data : List ℝ) (beta : ℝ) :
    (regression (F := ℝ)).logll ndim [a, b, d] nline data beta - (regression (F := ℝ)).logll ndim [a', b', d'] nline data beta =
      beta * (Spec.regressionLogLik a b d (Spec.tableRows ndim data nline) - Spec.regressionLogLik a' b' d' (Spec.tableRows ndim data nline)) := by
  rw [(regression_loglik_partial a b d h ndim nline data beta).1, (regression_loglik_partial a' b' d' h' ndim nline data beta).1]
  ring

/-- Two rows, the true line against the flat one. -/
example : (regression (F := ℝ)).logll (2 : Nat) [3, 4, 2] (2 : Nat) [1, 7, 2, 12] (1 / 10) - (regression (F := ℝ)).logll (2 : Nat) [0, 9, 2] (2 : Nat) [1, 7, 2, 12] (1 / 10) =
    1 / 10 * (Spec.regressionLogLik 3 4 2 (Spec.tableRows 2 [1, 7, 2, 12] 2) - Spec.regressionLogLik 0 9 2 (Spec.tableRows 2 [1, 7, 2, 12] 2)) :=
  regression_ratio 3 4 2 0 9 2 (by norm_num) (by norm_num) 2 2 _ _

/-- **C57 as stated is false.** With at least one row the value at beta = 1 is strictly larger than the sum of log densities. -/
theorem regression_pi_offset (a b d : ℝ) (h : 0 < d) (ndim nline : Nat) (hn : 0 < nline) (data : List ℝ) :
    Spec.regressionLogLik a b d (Spec.tableRows ndim data nline) < (regression (F := ℝ)).logll ndim [a, b, d] nline data 1 := by
  obtain ⟨h1, h2, _⟩ := regression_loglik_partial a b d h ndim nline data 1
  rw [h1]
  have : (0 : ℝ) < nline := by exact_mod_cast hn
  have := mul_pos this h2
  linarith

example : Spec.regressionLogLik 3 4 2 (Spec.tableRows 2 [1, 7, 2, 12] 2) < (regression (F := ℝ)).logll (2 : Nat) [3, 4, 2] (2 : Nat) [1, 7, 2, 12] 1 :=
  regression_pi_offset 3 4 2 (by norm_num) 2 2 (by norm_num) _

/-- The exponential of the specified log-likelihood is the product of the densities. -/
theorem regression_product (a b d : ℝ) (h : 0 < d) (rows : List (ℝ × ℝ)) :
    Real.exp (Spec.regressionLogLik a b d rows) = (rows.map fun p => gaussianPDFReal (a * p.1 + b) (d ^ 2).toNNReal p.2).prod := by
  induction rows with
  | nil => simp [Spec.regressionLogLik]
  | cons p rows ih =>
    simp only [Spec.regressionLogLik, List.map_cons, List.sum_cons, List.prod_cons] at ih ⊢
    rw [Real.exp_add, ih, Spec.normalLogDensity, Real.exp_log (gaussianPDFReal_pos _ _ _ ?_)]
    rw [Ne, Real.toNNReal_eq_zero, not_le]
    positivity

example : Real.exp (Spec.regressionLogLik 3 4 2 [(1, 7), (2, 12)]) =
    gaussianPDFReal (3 * 1 + 4) (2 ^ 2 : ℝ).toNNReal 7 * (gaussianPDFReal (3 * 2 + 4) (2 ^ 2 : ℝ).toNNReal 12 * 1) :=
  regression_product 3 4 2 (by norm_num) [(1, 7), (2, 12)]

/-- Two rows: the value is what it should be up to the constant. -/
example : (regression (F := ℝ)).logll 2 [3, 4, 2] (2 : Nat) [1, 7, 2, 12] 1 =
    Spec.normalLogDensity 7 2 7 + Spec.normalLogDensity 10 2 12 + 2 * (1 / 2 * Real.log (Real.pi / piLit)) := by
  have := (regression_loglik_partial 3 4 2 (by norm_num) 2 2 [1, 7, 2, 12] 1).1
  have e : Spec.tableRows 2 [1, 7, 2, 12] 2 = [((1 : ℝ), (7 : ℝ)), (2, 12)] := by
    simp [Spec.tableRows, List.range, List.range.loop]
  rw [e] at this
  simp only [Spec.regressionLogLik, List.map_cons, List.map_nil, List.sum_cons, List.sum_nil] at this
  norm_num at this ⊢
  linarith

/-- `normal_pdf` of rand_func.c is the normal density up to the relative error of the literal for `1/sqrt(2 pi)`, which is below 10^-15. -/
theorem normal_pdf_density (x mean sd : ℝ) (h : 0 < sd) : ∃ c : ℝ, |c - 1| < 1 / 10 ^ 15 ∧
    normalPdf x mean sd = c * gaussianPDFReal mean (sd ^ 2).toNNReal x := by
  have hp := Real.pi_pos
  have hs : 0 < sd ^ 2 := by positivity
  refine ⟨3989422804014327 / 10000000000000000 * Real.sqrt (2 * Real.pi), ?_, ?_⟩
  · have l20 := Real.pi_gt_d20
    have u20 := Real.pi_lt_d20
    have lo : (1 - 1 / 10 ^ 15) / (3989422804014327 / 10000000000000000) < Real.sqrt (2 * Real.pi) := by
      apply Real.lt_sqrt_of_sq_lt
      norm_num at l20 ⊢
      linarith
    have hi : Real.sqrt (2 * Real.pi) < (1 + 1 / 10 ^ 15) / (3989422804014327 / 10000000000000000) := by
      rw [Real.sqrt_lt' (by norm_num)]
      norm_num at u20 ⊢
      linarith
    rw [div_lt_iff₀ (by norm_num)] at lo
    rw [lt_div_iff₀ (by norm_num)] at hi
    rw [abs_lt]
    constructor <;> linarith
  · rw [gaussianPDFReal, Real.coe_toNNReal _ hs.le]
    simp only [normalPdf, RealArith.lit_eq, RealArith.mul_eq, RealArith.div_eq, RealArith.sub_eq, RealArith.exp_eq]
    rw [Real.sqrt_mul (by positivity) (sd ^ 2), Real.sqrt_sq h.le]
    have hq : Real.sqrt (2 * Real.pi) ≠ 0 := (Real.sqrt_pos.2 (by positivity)).ne'
    have e : (((-1 : ℤ) : ℝ) / ((2 : ℕ) : ℝ) * ((x - mean) / sd) * ((x - mean) / sd)) = -(x - mean) ^ 2 / (2 * sd ^ 2) := by
      push_cast
      field_simp
    rw [e]
    push_cast
    field_simp

example : ∃ c : ℝ, |c - 1| < 1 / 10 ^ 15 ∧ normalPdf (7 : ℝ) 3 2 = c * gaussianPDFReal 3 (2 ^ 2 : ℝ).toNNReal 7 := normal_pdf_density 7 3 2 (by norm_num)

/-! ## C58 -/

theorem rastrigin_term (t c : ℝ) (h : c ≤ 1) : t ^ 2 ≤ t ^ 2 - 10 * c + 10 := by linarith

/-- **C58, Rastrigin.** In arithmetic with NaN and infinities and for finite parameters: the sum is at least the sum of squares; the log-likelihood is minus infinity
when all parameters are zero and a finite number otherwise. -/
theorem rastrigin_bounds (a b c d e : ℝ) : ∃ s : ℝ, rastriginSum (fin a : XReal) (fin b) (fin c) (fin d) (fin e) = fin s ∧
    a ^ 2 + b ^ 2 + c ^ 2 + d ^ 2 + e ^ 2 ≤ s ∧
    (s = 0 ↔ a = 0 ∧ b = 0 ∧ c = 0 ∧ d = 0 ∧ e = 0) ∧
    (a = 0 ∧ b = 0 ∧ c = 0 ∧ d = 0 ∧ e = 0 → rastriginValue (fin a : XReal) (fin b) (fin c) (fin d) (fin e) = ninf) ∧
    (¬ (a = 0 ∧ b = 0 ∧ c = 0 ∧ d = 0 ∧ e = 0) → rastriginValue (fin a : XReal) (fin b) (fin c) (fin d) (fin e) = fin (Real.log s)) := by
  have hp : (piLit : XReal) = fin piLit := by
    rw [piLit_real]
    simp only [piLit, XReal.lit_eq]
    push_cast
    rfl
  have hcos : ∀ t : ℝ, Arith.cos (fin t : XReal) = fin (Real.cos t) := fun _ => rfl
  have hs : rastriginSum (fin a : XReal) (fin b) (fin c) (fin d) (fin e) =
      fin (a ^ 2 - 10 * Real.cos (2 * piLit * a) + b ^ 2 - 10 * Real.cos (2 * piLit * b) + c ^ 2 - 10 * Real.cos (2 * piLit * c)
        + d ^ 2 - 10 * Real.cos (2 * piLit * d) + e ^ 2 - 10 * Real.cos (2 * piLit * e) + 50) := by
    simp only [rastriginSum, hp, XReal.ofI_eq, Int.cast_ofNat, XReal.mul_eq, XReal.sq_eq, XReal.add_eq, XReal.sub_eq, hcos]
  have ha := Real.cos_le_one (2 * piLit * a)
  have hb := Real.cos_le_one (2 * piLit * b)
  have hc := Real.cos_le_one (2 * piLit * c)
  have hd := Real.cos_le_one (2 * piLit * d)
  have he := Real.cos_le_one (2 * piLit * e)
  have qa := sq_nonneg a
  have qb := sq_nonneg b
  have qc := sq_nonneg c
  have qd := sq_nonneg d
  have qe := sq_nonneg e
  refine ⟨_, hs, by linarith, ⟨fun h => ?_, ?_⟩, ?_, fun h => ?_⟩
  · refine ⟨?_, ?_, ?_, ?_, ?_⟩ <;> exact pow_eq_zero_iff (two_ne_zero) |>.1 (by linarith)
  · rintro ⟨rfl, rfl, rfl, rfl, rfl⟩
    norm_num
  · rintro ⟨rfl, rfl, rfl, rfl, rfl⟩
    rw [rastriginValue, hs]
    norm_num
    exact Rounding.exact.log_zero
  · rw [rastriginValue, hs]
    refine XReal.log_eq _ ?_
    have : 0 < a ^ 2 + b ^ 2 + c ^ 2 + d ^ 2 + e ^ 2 := by
      by_contra hn
      refine h ⟨?_, ?_, ?_, ?_, ?_⟩ <;> exact pow_eq_zero_iff (two_ne_zero) |>.1 (by linarith)
    linarith

/-- **C58, egg box, with rounding.** For finite `a` and `b` between doubles, any rounding and any libm whose sine and cosine stay within [-1, 1], the value is a finite number
in [1, 3]. -/
theorem eggbox_bounds_in {R : Rounding} (a b lo hi lo' hi' : ℝ) (hlo : R.rnd lo = .fin lo) (hhi : R.rnd hi = .fin hi) (hlo' : R.rnd lo' = .fin lo')
    (hhi' : R.rnd hi' = .fin hi') (a1 : lo ≤ a) (a2 : a ≤ hi) (b1 : lo' ≤ b) (b2 : b ≤ hi') :
    ∃ v : ℝ, eggboxValue (fin a : Dbl R) (fin b) = fin v ∧ 1 ≤ v ∧ v ≤ 3 := by
  have h2 : (ofI 2 : Dbl R) = fin 2 := by rw [ofI_int 2 (by norm_num)]; norm_num
  have half : ∀ t lo hi : ℝ, R.rnd lo = .fin lo → R.rnd hi = .fin hi → lo ≤ t → t ≤ hi → ∃ v : ℝ, (fin t /. ofI 2 : Dbl R) = fin v := by
    intro t lo hi hlo hhi l1 l2
    rw [h2, div_fin _ _ (by norm_num)]
    have m1 : R.rnd (min lo 0) = .fin (min lo 0) := by
      rcases min_choice lo 0 with h | h <;> rw [h]
      · exact hlo
      · exact rnd_zero
    have m2 : R.rnd (max hi 0) = .fin (max hi 0) := by
      rcases max_choice hi 0 with h | h <;> rw [h]
      · exact hhi
      · exact rnd_zero
    have k1 := min_le_left lo 0
    have k2 := min_le_right lo 0
    have k3 := le_max_left hi 0
    have k4 := le_max_right hi 0
    obtain ⟨v, hv, _⟩ := rnd_between (R := R) (x := min lo 0) (y := t / 2) (z := max hi 0) (by linarith) (by linarith) m1 m2
    exact ⟨v, hv⟩
  have unit : ∀ x : Dbl R, XV.Le (.fin (-1)) x ∧ XV.Le x (.fin 1) → ∃ v : ℝ, x = fin v ∧ -1 ≤ v ∧ v ≤ 1 := by
    rintro x ⟨h1, h2⟩
    cases x with
    | nan => exact absurd h1 (fun h => h)
    | ninf => exact absurd h1 (fun h => h)
    | pinf => exact absurd h2 (fun h => h)
    | fin v => exact ⟨v, rfl, h1, h2⟩
  obtain ⟨a', ha'⟩ := half a lo hi hlo hhi a1 a2
  obtain ⟨b', hb'⟩ := half b lo' hi' hlo' hhi' b1 b2
  obtain ⟨s, hs, s0, s1⟩ := unit (Arith.sin (fin b' : Dbl R)) (R.sin_fin b')
  obtain ⟨c, hc, c0, c1⟩ := unit (Arith.cos (fin a' : Dbl R)) (R.cos_fin a')
  have hm1 : R.rnd (-1) = .fin (-1) := by simpa using R.rnd_int (-1) (by norm_num)
  have h3 : R.rnd 3 = .fin 3 := by simpa using R.rnd_int 3 (by norm_num)
  obtain ⟨p, hp, p0, p1⟩ := rnd_between (R := R) (x := -1) (y := s * c) (z := 1) (by nlinarith) (by nlinarith) hm1 rnd_one
  obtain ⟨v, hv, v0, v1⟩ := rnd_between (R := R) (x := 1) (y := p + 2) (z := 3) (by linarith) (by linarith) rnd_one h3
  refine ⟨v, ?_, v0, v1⟩
  have e1 : (fin s *. fin c : Dbl R) = fin p := by rw [mul_fin, hp]; rfl
  have e2 : (fin p +. fin 2 : Dbl R) = fin v := by rw [add_fin, hv]; rfl
  rw [eggboxValue, ha', hb', hs, hc, e1, h2, e2]

/-- **C58, egg box, with rounding.** For doubles `a` and `b`, any rounding and any libm whose sine and cosine stay within [-1, 1], the value is a finite number
in [1, 3]. -/
theorem eggbox_bounds {R : Rounding} (a b : ℝ) (ha : R.rnd a = .fin a) (hb : R.rnd b = .fin b) :
    ∃ v : ℝ, eggboxValue (fin a : Dbl R) (fin b) = fin v ∧ 1 ≤ v ∧ v ≤ 3 :=
  eggbox_bounds_in a b a a b b ha ha hb hb le_rfl le_rfl le_rfl le_rfl

example : ∃ v : ℝ, eggboxValue (fin 12 : XReal) (fin 40) = fin v ∧ 1 ≤ v ∧ v ≤ 3 := eggbox_bounds 12 40 rfl rfl

theorem gauss2_bounds (mx my a b : ℝ) : ∃ v : ℝ, gauss2 (fin mx : XReal) (fin my) (fin 1) (fin a) (fin b) = fin v ∧ 0 < v ∧ v ≤ 1 := by
  refine ⟨Real.exp (-((a - mx) ^ 2 / 2 / 1 ^ 2 + (b - my) ^ 2 / 2 / 1 ^ 2)), ?_, Real.exp_pos _, ?_⟩
  · simp only [gauss2, XReal.ofI_eq, Int.cast_ofNat, XReal.sub_eq, XReal.sq_eq]
    rw [XReal.div_eq _ _ (by norm_num), XReal.div_eq _ _ (by norm_num), XReal.div_eq _ _ (by norm_num), XReal.div_eq _ _ (by norm_num), XReal.add_eq,
      XReal.neg_eq, XReal.exp_eq]
  · rw [Real.exp_le_one_iff]
    have := sq_nonneg (a - mx)
    have := sq_nonneg (b - my)
    norm_num
    linarith

/-- **C58, Gaussian mixture.** The value is a finite number in (0, 2]. Exact arithmetic with infinities. -/
theorem multiGaussian_bounds (a b : ℝ) : ∃ v : ℝ, multiGaussianValue (fin a : XReal) (fin b) = fin v ∧ 0 < v ∧ v ≤ 2 := by
  obtain ⟨v, hv, v0, v1⟩ := gauss2_bounds 10 10 a b
  obtain ⟨w, hw, w0, w1⟩ := gauss2_bounds (-10) (-10) a b
  refine ⟨v + w, ?_, by linarith, by linarith⟩
  simp only [multiGaussianValue, XReal.ofI_eq, Int.cast_ofNat, Int.cast_neg, Int.cast_one, hv, hw, XReal.add_eq]

/-- **C58, curved likelihood.** The argument of the logarithm is in (0, 3/2], so the value is a finite number of at most log(3/2). Exact arithmetic with infinities. -/
theorem curved_bounds (a b : ℝ) : ∃ s : ℝ, curvedArg (fin a : XReal) (fin b) = fin s ∧ 0 < s ∧ s ≤ 3 / 2 ∧
    curvedValue (fin a : XReal) (fin b) = fin (Real.log s) ∧ Real.log s ≤ Real.log (3 / 2) := by
  have hs : curvedArg (fin a : XReal) (fin b) = fin (Real.exp (-a ^ 2 - (9 + 4 * a ^ 2 + 9 * b) ^ 2) + 1 / 2 * Real.exp (-8 * a ^ 2 - 8 * (b - 2) ^ 2)) := by
    simp only [curvedArg, XReal.ofI_eq, Int.cast_ofNat, Int.cast_neg, Int.cast_one, XReal.lit_eq, XReal.sub_eq, XReal.sq_eq, XReal.neg_eq, XReal.mul_eq,
      XReal.add_eq, XReal.exp_eq, Nat.cast_ofNat]
  have h0 : 0 < Real.exp (-a ^ 2 - (9 + 4 * a ^ 2 + 9 * b) ^ 2) + 1 / 2 * Real.exp (-8 * a ^ 2 - 8 * (b - 2) ^ 2) := by
    have := Real.exp_pos (-a ^ 2 - (9 + 4 * a ^ 2 + 9 * b) ^ 2)
    have := Real.exp_pos (-8 * a ^ 2 - 8 * (b - 2) ^ 2)
    linarith
  have h1 : Real.exp (-a ^ 2 - (9 + 4 * a ^ 2 + 9 * b) ^ 2) + 1 / 2 * Real.exp (-8 * a ^ 2 - 8 * (b - 2) ^ 2) ≤ 3 / 2 := by
    have e1 : Real.exp (-a ^ 2 - (9 + 4 * a ^ 2 + 9 * b) ^ 2) ≤ 1 := by
      rw [Real.exp_le_one_iff]; nlinarith [sq_nonneg a, sq_nonneg (9 + 4 * a ^ 2 + 9 * b)]
    have e2 : Real.exp (-8 * a ^ 2 - 8 * (b - 2) ^ 2) ≤ 1 := by
      rw [Real.exp_le_one_iff]; nlinarith [sq_nonneg a, sq_nonneg (b - 2)]
    linarith
  refine ⟨_, hs, h0, h1, ?_, Real.log_le_log h0 h1⟩
  rw [curvedValue, hs]
  exact XReal.log_eq _ h0

/-- **C58 and temperature zero.** At the optimum the Rastrigin log-likelihood is minus infinity, and at beta = 0 it is NaN: such a chain never leaves the optimum (C16). -/
theorem rastrigin_nan_at_zero : (rastrigin (F := XReal)).logll 0 [fin 0, fin 0, fin 0, fin 0, fin 0] 0 [] (fin 0) = nan := by
  obtain ⟨_, _, _, _, h, _⟩ := rastrigin_bounds 0 0 0 0 0
  show rastriginValue (fin 0 : XReal) (fin 0) (fin 0) (fin 0) (fin 0) *. fin 0 = nan
  rw [h ⟨rfl, rfl, rfl, rfl, rfl⟩]
  have hs1 : infSign (-0) = XV.nan := by simp [infSign]
  exact hs1

end NiiC
