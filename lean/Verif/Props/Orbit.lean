import Verif.Props.Kepler
import Verif.Props.Likelihood

/-!
# The orbit model: positions (C65), the third law (C66), the likelihood (C67)
-/

set_option linter.unusedSectionVars false
set_option linter.unusedSimpArgs false

namespace NiiC

/-! ## Positions -/

/-- Rotation about the third axis. -/
noncomputable def Spec.rotZ (t : ℝ) (v : ℝ × ℝ × ℝ) : ℝ × ℝ × ℝ :=
  (Real.cos t * v.1 - Real.sin t * v.2.1, Real.sin t * v.1 + Real.cos t * v.2.1, v.2.2)

/-- Rotation about the first axis. -/
noncomputable def Spec.rotX (t : ℝ) (v : ℝ × ℝ × ℝ) : ℝ × ℝ × ℝ :=
  (v.1, Real.cos t * v.2.1 - Real.sin t * v.2.2, Real.sin t * v.2.1 + Real.cos t * v.2.2)

/-- The point of an ellipse with semi-major axis `a`, eccentricity `e` and one focus at the origin, at the eccentric anomaly `x`, turned in its plane by the argument of the
periapsis, tilted by the inclination and turned by the longitude of the node. The first axis points north, the second east. -/
noncomputable def Spec.orbitPoint (a e x omega inc node : ℝ) : ℝ × ℝ × ℝ :=
  Spec.rotZ node (Spec.rotX inc (Spec.rotZ omega (a * (Real.cos x - e), a * (Real.sqrt (1 - e ^ 2) * Real.sin x), 0)))

/-- The mean anomaly at time `t`, with the literals of the source. -/
noncomputable def meanAnomaly (per t m0 : ℝ) : ℝ := 2 * orbitPi / per * t - m0 * deg2rad

/-- Rotations keep the distance to the origin. -/
theorem rotZ_norm (t : ℝ) (v : ℝ × ℝ × ℝ) :
    (Spec.rotZ t v).1 ^ 2 + (Spec.rotZ t v).2.1 ^ 2 + (Spec.rotZ t v).2.2 ^ 2 = v.1 ^ 2 + v.2.1 ^ 2 + v.2.2 ^ 2 := by
  have h := Real.sin_sq_add_cos_sq t
  simp only [Spec.rotZ]
  linear_combination (v.1 ^ 2 + v.2.1 ^ 2) * h

theorem rotX_norm (t : ℝ) (v : ℝ × ℝ × ℝ) :
    (Spec.rotX t v).1 ^ 2 + (Spec.rotX t v).2.1 ^ 2 + (Spec.rotX t v).2.2 ^ 2 = v.1 ^ 2 + v.2.1 ^ 2 + v.2.2 ^ 2 := by
  have h := Real.sin_sq_add_cos_sq t
  simp only [Spec.rotX]
  linear_combination (v.2.1 ^ 2 + v.2.2 ^ 2) * h

/-- Hence the distance of the planet from the focus is `a (1 - e cos x)`. -/
theorem orbitPoint_norm (a e x omega inc node : ℝ) (h0 : 0 ≤ e) (h1 : e < 1) :
    (Spec.orbitPoint a e x omega inc node).1 ^ 2 + (Spec.orbitPoint a e x omega inc node).2.1 ^ 2 + (Spec.orbitPoint a e x omega inc node).2.2 ^ 2
      = (a * (1 - e * Real.cos x)) ^ 2 := by
  rw [Spec.orbitPoint, rotZ_norm, rotX_norm, rotZ_norm]
  have hs : Real.sqrt (1 - e ^ 2) ^ 2 = 1 - e ^ 2 := Real.sq_sqrt (by nlinarith)
  have h := Real.sin_sq_add_cos_sq x
  linear_combination (a ^ 2 * Real.sin x ^ 2) * hs + (a ^ 2 * (1 - e ^ 2)) * h

/-- The position that `func_as` computes from the eccentric anomaly `x`. -/
theorem orbitAt_point (fuel : Nat) (osi inc node omega ecc m0 per t x : ℝ) (hx : newtonSolver fuel (meanAnomaly per t m0) ecc = .ok x) :
    orbitAt fuel (elements osi (Real.cos inc) node omega) ecc m0 per t =
      .ok ((Spec.orbitPoint osi ecc x (omega * deg2rad) inc (node * deg2rad)).2.1, (Spec.orbitPoint osi ecc x (omega * deg2rad) inc (node * deg2rad)).1) := by
  have hm : (ofI 2 *. orbitPi /. per *. t -. m0 *. deg2rad : ℝ) = meanAnomaly per t m0 := by simp [meanAnomaly]
  have h2 : ecc ^ (((2 : Int) : ℝ)) = ecc ^ 2 := by
    rw [show (((2 : Int) : ℝ)) = ((2 : ℕ) : ℝ) by norm_num, Real.rpow_natCast]
  rw [orbitAt, hm, hx]
  simp only [bind, Except.bind, elements, RealArith.add_eq, RealArith.sub_eq, RealArith.mul_eq, RealArith.cos_eq, RealArith.sin_eq, RealArith.sqrt_eq, RealArith.pow_eq,
    RealArith.ofI_eq, RealArith.neg_eq, h2, Int.cast_one, Spec.orbitPoint, Spec.rotZ, Spec.rotX]
  congr 2 <;> ring

/-- A change of the eccentric anomaly moves the position no further than the change times twice the axis, in each coordinate. -/
theorem orbitPoint_close (a e x y omega inc node : ℝ) (h0 : 0 ≤ e) (h1 : e < 1) :
    |(Spec.orbitPoint a e x omega inc node).1 - (Spec.orbitPoint a e y omega inc node).1| ≤ 2 * |a| * |x - y| ∧
    |(Spec.orbitPoint a e x omega inc node).2.1 - (Spec.orbitPoint a e y omega inc node).2.1| ≤ 2 * |a| * |x - y| := by
  have hd : ∀ v w : ℝ × ℝ × ℝ, ∀ t, Spec.rotZ t v - Spec.rotZ t w = Spec.rotZ t (v - w) := by
    intro v w t
    simp only [Spec.rotZ, Prod.fst_sub, Prod.snd_sub]
    ext <;> simp <;> ring
  have hx : ∀ v w : ℝ × ℝ × ℝ, ∀ t, Spec.rotX t v - Spec.rotX t w = Spec.rotX t (v - w) := by
    intro v w t
    simp only [Spec.rotX, Prod.fst_sub, Prod.snd_sub]
    ext <;> simp <;> ring
  have key : Spec.orbitPoint a e x omega inc node - Spec.orbitPoint a e y omega inc node =
      Spec.rotZ node (Spec.rotX inc (Spec.rotZ omega (a * (Real.cos x - Real.cos y), a * (Real.sqrt (1 - e ^ 2) * (Real.sin x - Real.sin y)), 0))) := by
    rw [Spec.orbitPoint, Spec.orbitPoint, hd, hx, hd]
    congr 3
    ext <;> simp <;> ring
  have hn : (Spec.orbitPoint a e x omega inc node - Spec.orbitPoint a e y omega inc node).1 ^ 2 + (Spec.orbitPoint a e x omega inc node - Spec.orbitPoint a e y omega inc node).2.1 ^ 2
      ≤ (2 * |a| * |x - y|) ^ 2 := by
    have e1 := rotZ_norm node (Spec.rotX inc (Spec.rotZ omega (a * (Real.cos x - Real.cos y), a * (Real.sqrt (1 - e ^ 2) * (Real.sin x - Real.sin y)), 0)))
    rw [← key, rotX_norm, rotZ_norm] at e1
    have hs : Real.sqrt (1 - e ^ 2) ^ 2 = 1 - e ^ 2 := Real.sq_sqrt (by nlinarith)
    have hc1 : (Real.cos x - Real.cos y) ^ 2 ≤ (x - y) ^ 2 := sq_le_sq.2 (Real.abs_cos_sub_cos_le x y)
    have hc2 : (Real.sin x - Real.sin y) ^ 2 ≤ (x - y) ^ 2 := sq_le_sq.2 (Real.abs_sin_sub_sin_le x y)
    have e2 : (2 * |a| * |x - y|) ^ 2 = 4 * a ^ 2 * (x - y) ^ 2 := by rw [mul_pow, mul_pow, sq_abs, sq_abs]; ring
    have e3 : (a * (Real.sqrt (1 - e ^ 2) * (Real.sin x - Real.sin y))) ^ 2 = a ^ 2 * (1 - e ^ 2) * (Real.sin x - Real.sin y) ^ 2 := by
      rw [mul_pow, mul_pow, hs]; ring
    have e4 : a ^ 2 * (1 - e ^ 2) * (Real.sin x - Real.sin y) ^ 2 ≤ a ^ 2 * (x - y) ^ 2 := by
      have : (1 - e ^ 2) * (Real.sin x - Real.sin y) ^ 2 ≤ (x - y) ^ 2 := by nlinarith [sq_nonneg (Real.sin x - Real.sin y), sq_nonneg e]
      have := mul_le_mul_of_nonneg_left this (sq_nonneg a)
      linarith
    have e5 : (a * (Real.cos x - Real.cos y)) ^ 2 ≤ a ^ 2 * (x - y) ^ 2 := by
      rw [mul_pow]; exact mul_le_mul_of_nonneg_left hc1 (sq_nonneg a)
    have e6 : 0 ≤ a ^ 2 * (x - y) ^ 2 := by positivity
    rw [e2]
    simp only [e3] at e1
    nlinarith [sq_nonneg (Spec.orbitPoint a e x omega inc node - Spec.orbitPoint a e y omega inc node).2.2]
  have hb : 0 ≤ 2 * |a| * |x - y| := by positivity
  exact ⟨abs_le_of_sq_le_sq (by simp only [Prod.fst_sub, Prod.snd_sub] at hn; nlinarith) hb,
    abs_le_of_sq_le_sq (by simp only [Prod.fst_sub, Prod.snd_sub] at hn; nlinarith) hb⟩

/-- **C65.** For every eccentricity from 0 to 1/2, every orientation and every time, `func_as` delivers the position of the planet on its tilted ellipse, at the eccentric anomaly that
belongs to the mean anomaly by Kepler's equation, up to `2 |osi| 10^-16` in each coordinate. -/
theorem orbit_position (fuel : Nat) (hf : 6 ≤ fuel) (osi inc node omega ecc m0 per t : ℝ) (h0 : 0 ≤ ecc) (hh : ecc ≤ 1 / 2) :
    ∃ p x, Spec.Kepler (meanAnomaly per t m0) ecc x ∧ orbitAt fuel (elements osi (Real.cos inc) node omega) ecc m0 per t = .ok p ∧
      |p.1 - (Spec.orbitPoint osi ecc x (omega * deg2rad) inc (node * deg2rad)).2.1| ≤ 2 * |osi| / 10 ^ 16 ∧
      |p.2 - (Spec.orbitPoint osi ecc x (omega * deg2rad) inc (node * deg2rad)).1| ≤ 2 * |osi| / 10 ^ 16 := by
  obtain ⟨y, x, hx, hy, hb⟩ := kepler_five_steps (meanAnomaly per t m0) ecc h0 hh
  refine ⟨_, x, hx, orbitAt_point fuel osi inc node omega ecc m0 per t y (hy fuel hf), ?_⟩
  have hc := orbitPoint_close osi ecc y x (omega * deg2rad) inc (node * deg2rad) h0 (by linarith)
  have hm : 2 * |osi| * |y - x| ≤ 2 * |osi| / 10 ^ 16 := by
    rw [div_eq_mul_one_div]
    exact mul_le_mul_of_nonneg_left hb (by positivity)
  exact ⟨hc.2.trans hm, hc.1.trans hm⟩

/-- **C65, size.** No predicted position is further from the star than the apoapsis. -/
theorem orbit_radius (fuel : Nat) (osi inc node omega ecc m0 per t : ℝ) (h0 : 0 ≤ ecc) (h1 : ecc < 1) (p : ℝ × ℝ)
    (hp : orbitAt fuel (elements osi (Real.cos inc) node omega) ecc m0 per t = .ok p) : p.1 ^ 2 + p.2 ^ 2 ≤ (osi * (1 + ecc)) ^ 2 := by
  cases hn : newtonSolver fuel (meanAnomaly per t m0) ecc with
  | error e =>
    have hm : (ofI 2 *. orbitPi /. per *. t -. m0 *. deg2rad : ℝ) = meanAnomaly per t m0 := by simp [meanAnomaly]
    rw [orbitAt, hm, hn] at hp
    cases hp
  | ok x =>
    rw [orbitAt_point fuel osi inc node omega ecc m0 per t x hn] at hp
    injection hp with hp
    subst hp
    have h := orbitPoint_norm osi ecc x (omega * deg2rad) inc (node * deg2rad) h0 h1
    have hc := Real.neg_one_le_cos x
    have hc' := Real.cos_le_one x
    have hle : (osi * (1 - ecc * Real.cos x)) ^ 2 ≤ (osi * (1 + ecc)) ^ 2 := by
      rw [mul_pow, mul_pow]
      refine mul_le_mul_of_nonneg_left (pow_le_pow_left₀ (by nlinarith) (by nlinarith) 2) (sq_nonneg _)
    nlinarith [sq_nonneg (Spec.orbitPoint osi ecc x (omega * deg2rad) inc (node * deg2rad)).2.2]

example (p : ℝ × ℝ) (hp : orbitAt 6 (elements 2 (Real.cos 1) 40 50) (1 / 3) 30 400 1000 = .ok p) : p.1 ^ 2 + p.2 ^ 2 ≤ (2 * (1 + 1 / 3)) ^ 2 :=
  orbit_radius 6 2 1 40 50 (1 / 3) 30 400 1000 (by norm_num) (by norm_num) p hp

/-- `func_as` treats the times one by one. -/
theorem funcAs_map (fuel : Nat) (ecc osi cosi node m0 omega per : ℝ) (times : List ℝ) (ps : List (ℝ × ℝ)) :
    funcAs fuel ecc osi cosi node m0 omega per times = .ok ps ↔
      List.Forall₂ (fun t p => orbitAt fuel (elements osi cosi node omega) ecc m0 per t = .ok p) times ps := by
  induction times generalizing ps with
  | nil =>
    constructor
    · intro h; injection h with h; subst h; exact .nil
    · intro h; cases h; rfl
  | cons t ts ih =>
    rw [funcAs]
    constructor
    · intro h
      cases h1 : orbitAt fuel (elements osi cosi node omega) ecc m0 per t with
      | error e => rw [h1] at h; cases h
      | ok p =>
        cases h2 : funcAs fuel ecc osi cosi node m0 omega per ts with
        | error e => rw [h1, h2] at h; cases h
        | ok qs =>
          rw [h1, h2] at h
          injection h with h
          subst h
          exact .cons h1 ((ih qs).1 h2)
    · intro h
      cases h with
      | cons h1 h2 =>
        rw [h1, (ih _).2 h2]
        rfl

/-- `func_as` always delivers a position for each time. -/
theorem funcAs_total (fuel : Nat) (hf : 6 ≤ fuel) (ecc osi inc node m0 omega per : ℝ) (h0 : 0 ≤ ecc) (hh : ecc ≤ 1 / 2) (times : List ℝ) :
    ∃ ps, funcAs fuel ecc osi (Real.cos inc) node m0 omega per times = .ok ps ∧ ps.length = times.length := by
  induction times with
  | nil => exact ⟨[], rfl, rfl⟩
  | cons t ts ih =>
    obtain ⟨ps, h1, h2⟩ := ih
    obtain ⟨p, _, _, hp, _⟩ := orbit_position fuel hf osi inc node omega ecc m0 per t h0 hh
    exact ⟨p :: ps, by rw [funcAs, hp, h1]; rfl, by simp [h2]⟩

example : ∃ p x, Spec.Kepler (meanAnomaly 400 1000 30) (1 / 3) x ∧ orbitAt 6 (elements 2 (Real.cos 1) 40 50) (1 / 3) 30 400 1000 = .ok p ∧
    |p.1 - (Spec.orbitPoint 2 (1 / 3) x (50 * deg2rad) 1 (40 * deg2rad)).2.1| ≤ 2 * |(2 : ℝ)| / 10 ^ 16 ∧
    |p.2 - (Spec.orbitPoint 2 (1 / 3) x (50 * deg2rad) 1 (40 * deg2rad)).1| ≤ 2 * |(2 : ℝ)| / 10 ^ 16 :=
  orbit_position 6 le_rfl 2 1 40 50 (1 / 3) 30 400 1000 (by norm_num) (by norm_num)

/-! ## The third law -/

theorem orbitPi_real : (orbitPi : ℝ) = 314159265358 / 100000000000 := by
  simp only [orbitPi, RealArith.lit_eq]
  push_cast
  rfl

/-- **C66.** The semi-major axis that `period_to_au` computes obeys Kepler's third law: with the axis in centimetres and the period in seconds, the cube of the axis is `G M` times
the square of the period over the square of two pi (all constants as in the source). -/
theorem third_law (days ms : ℝ) (hm : 0 ≤ ms) :
    (periodToAu days ms * 14959787000000) ^ 3 = 667259 / 10 ^ 13 * (19891 * 10 ^ 29) * ms * (days * 86400 / (2 * orbitPi)) ^ 2 := by
  have hr : 0 ≤ (days * 24 * 3600 / 2 / orbitPi) ^ 2 * (667259 / 10000000000000 * 1989100000000000000000000000000000 * ms) := by positivity
  have e2 : (days * 24 * 3600 / 2 / orbitPi) ^ (((2 : Int) : ℝ)) = (days * 24 * 3600 / 2 / orbitPi) ^ 2 := by
    rw [show (((2 : Int) : ℝ)) = ((2 : ℕ) : ℝ) by norm_num, Real.rpow_natCast]
  simp only [periodToAu, RealArith.lit_eq, RealArith.mul_eq, RealArith.div_eq, RealArith.pow_eq, RealArith.ofI_eq]
  push_cast at e2 ⊢
  rw [e2, div_mul_cancel₀ _ (by norm_num), ← Real.rpow_natCast, ← Real.rpow_mul hr]
  norm_num
  rw [orbitPi_real]
  ring

/-- With these constants the Earth's orbit has an axis of one astronomical unit up to one part in a thousand. -/
theorem third_law_earth : |(periodToAu 365.25 1 : ℝ) - 1| < 1 / 1000 := by
  have h := third_law 365.25 1 zero_le_one
  rw [orbitPi_real] at h
  have e : (periodToAu 365.25 1 : ℝ) ^ 3 = 667259 / 10 ^ 13 * (19891 * 10 ^ 29) * 1 * (365.25 * 86400 / (2 * (314159265358 / 100000000000))) ^ 2 / 14959787000000 ^ 3 := by
    rw [← h, mul_pow]
    field_simp
  rw [abs_lt]
  constructor
  · by_contra hc
    have h1 : (periodToAu 365.25 1 : ℝ) ≤ 999 / 1000 := by linarith
    have h2 : (periodToAu 365.25 1 : ℝ) ^ 3 ≤ (999 / 1000) ^ 3 := by
      exact (Odd.strictMono_pow (by decide : Odd 3)).monotone h1
    rw [e] at h2
    norm_num at h2
  · by_contra hc
    have h1 : (1001 / 1000 : ℝ) ≤ periodToAu 365.25 1 := by linarith
    have h2 : (1001 / 1000 : ℝ) ^ 3 ≤ (periodToAu 365.25 1 : ℝ) ^ 3 := (Odd.strictMono_pow (by decide : Odd 3)).monotone h1
    rw [e] at h2
    norm_num at h2

/-- The size of the star's motion: three times the planet's mass and its axis over the star's mass and distance. -/
theorem osi_value (mp ms a d : ℝ) : calcOsi mp ms a d = 3 * mp * a / (ms * d) := by
  simp only [calcOsi, RealArith.mul_eq, RealArith.pow_eq, RealArith.ofI_eq]
  push_cast
  rw [Real.rpow_neg_one, Real.rpow_neg_one, mul_comm ms d, div_eq_mul_inv, mul_inv]
  ring

/-! ## The likelihood -/

/-- The log-likelihood that the orbit model describes: both coordinates of each measurement are normal around the predicted ones. -/
noncomputable def Spec.orbitLogLik (sd : ℝ) (pairs : List ((ℝ × ℝ) × (ℝ × ℝ))) : ℝ :=
  (pairs.map fun q => Spec.normalLogDensity q.1.1 sd q.2.1 + Spec.normalLogDensity q.1.2 sd q.2.2).sum

/-- The offset of one measurement, due to the literal of two pi. -/
noncomputable def orbitOffset : ℝ := Real.log (2 * Real.pi / (628318530716 / 100000000000))

theorem orbitSum_real (sd : ℝ) (h : 0 < sd) (pairs : List ((ℝ × ℝ) × (ℝ × ℝ))) : ∀ s : ℝ,
    orbitSum (sd * sd) pairs s = s + Spec.orbitLogLik sd pairs + pairs.length * orbitOffset := by
  induction pairs with
  | nil => intro s; simp [orbitSum, Spec.orbitLogLik]
  | cons q rest ih =>
    intro s
    obtain ⟨p, d⟩ := q
    have hpi := Real.pi_pos
    simp only [orbitSum]
    rw [ih]
    simp only [Spec.orbitLogLik, List.map_cons, List.sum_cons, normalLogDensity_eq _ _ _ h, List.length_cons]
    have e1 : (orbitNorm (sd * sd) : ℝ) = -Real.log (628318530716 / 100000000000) - Real.log (sd ^ 2) := by
      simp only [orbitNorm, RealArith.add_eq, RealArith.mul_eq, RealArith.log_eq, RealArith.pow_eq, RealArith.lit_eq, RealArith.ofI_eq]
      push_cast
      rw [Real.log_rpow (by norm_num), Real.log_rpow (by positivity), pow_two]
      ring
    have e2 : orbitOffset = Real.log (2 * Real.pi) - Real.log (628318530716 / 100000000000) := by
      rw [orbitOffset, Real.log_div (by positivity) (by norm_num)]
    simp only [RealArith.add_eq, RealArith.sub_eq, RealArith.neg_eq, RealArith.div_eq, RealArith.pow_eq, RealArith.ofI_eq, e1, e2]
    push_cast
    rw [Real.rpow_two, Real.rpow_two]
    ring

/-- **C67.** For a positive width the log-likelihood is the sum of the normal log densities of all coordinates, plus an offset for each measurement that does not depend on
the parameters and is below 10^-11. -/
theorem orbit_loglik (sd : ℝ) (h : 0 < sd) (pairs : List ((ℝ × ℝ) × (ℝ × ℝ))) :
    NiiC.orbitLogLik sd pairs = Spec.orbitLogLik sd pairs + pairs.length * orbitOffset ∧ 0 < orbitOffset ∧ orbitOffset < 1 / 10 ^ 11 := by
  refine ⟨?_, ?_, ?_⟩
  · have := orbitSum_real sd h pairs 0
    rw [zero_add] at this
    rw [← this, NiiC.orbitLogLik]
    simp
  · refine Real.log_pos ?_
    rw [one_lt_div (by norm_num)]
    have := Real.pi_gt_d20
    norm_num at this ⊢
    linarith
  · have hpi := Real.pi_pos
    refine lt_of_le_of_lt (Real.log_le_sub_one_of_pos (by positivity)) ?_
    rw [sub_lt_iff_lt_add, div_lt_iff₀ (by norm_num)]
    have := Real.pi_lt_d20
    norm_num at this ⊢
    linarith

/-- Two positions, predicted and measured. -/
example : NiiC.orbitLogLik 2 [((1, 2), (1, 3)), ((4, 5), (3, (6 : ℝ)))] = Spec.orbitLogLik 2 [((1, 2), (1, 3)), ((4, 5), (3, (6 : ℝ)))] + (2 : Nat) * orbitOffset :=
  (orbit_loglik 2 (by norm_num) [((1, 2), (1, 3)), ((4, 5), (3, 6))]).1

/-- **C67, ratios.** The offset cancels when two proposals are compared for the same data. -/
theorem orbit_loglik_ratio (sd sd' : ℝ) (h : 0 < sd) (h' : 0 < sd') (pred pred' dat : List (ℝ × ℝ)) (hl : pred.length = dat.length) (hl' : pred'.length = dat.length) :
    NiiC.orbitLogLik sd (pred.zip dat) - NiiC.orbitLogLik sd' (pred'.zip dat) = Spec.orbitLogLik sd (pred.zip dat) - Spec.orbitLogLik sd' (pred'.zip dat) := by
  rw [(orbit_loglik sd h _).1, (orbit_loglik sd' h' _).1, List.length_zip, List.length_zip, hl, hl']
  ring

example : NiiC.orbitLogLik (2 : ℝ) [((1, 2), (1, 3)), ((4, 5), (3, 6))] - NiiC.orbitLogLik 7 [((0, 2), (1, 3)), ((4, 9), (3, (6 : ℝ)))] =
    Spec.orbitLogLik 2 [((1, 2), (1, 3)), ((4, 5), (3, 6))] - Spec.orbitLogLik 7 [((0, 2), (1, 3)), ((4, 9), (3, 6))] :=
  orbit_loglik_ratio 2 7 (by norm_num) (by norm_num) [(1, 2), (4, 5)] [(0, 2), (4, 9)] [(1, 3), (3, 6)] rfl rfl

/-- The width enters by its square: a width and its negative give the same likelihood. -/
theorem orbit_loglik_even (sd : ℝ) (pairs : List ((ℝ × ℝ) × (ℝ × ℝ))) : NiiC.orbitLogLik (-sd) pairs = NiiC.orbitLogLik sd pairs := by
  simp [NiiC.orbitLogLik]

/-! ## The whole function -/

theorem orbitRows_total (ndim : Nat) (hn : 2 ≤ ndim) (data : List ℝ) : ∀ k i, (i + k) * 2 * ndim ≤ data.length →
    orbitRows ndim data k i = .ok ((List.range' i k).map fun j => (data.getD (j * 2 * ndim) 0, (data.getD (j * 2 * ndim + 1) 0, data.getD ((j * 2 + 1) * ndim + 1) 0))) := by
  intro k
  induction k with
  | zero => intro i _; rfl
  | succ k ih =>
    intro i h
    have hlt : (i * 2 + 2) * ndim ≤ data.length := by
      refine le_trans ?_ h
      exact Nat.mul_le_mul_right _ (by omega)
    have e : (i * 2 + 2) * ndim = i * 2 * ndim + 2 * ndim := by ring
    have e' : (i * 2 + 1) * ndim = i * 2 * ndim + ndim := by ring
    have h1 : i * 2 * ndim < data.length := by omega
    have h2 : i * 2 * ndim + 1 < data.length := by omega
    have h3 : (i * 2 + 1) * ndim + 1 < data.length := by omega
    have r : ∀ j, j < data.length → rd data j = .ok (data.getD j 0) := by
      intro j hj
      simp [rd, hj, List.getD]
    rw [orbitRows, ih (i + 1) (by rw [show i + 1 + k = i + (k + 1) by omega]; exact h), orbitData, r _ h1, r _ h2, r _ h3]
    simp [bind, Except.bind, List.range'_succ]

/-- **C65, C67 together.** On a table of at least two columns with all its cells, for fifteen parameters with eccentricities from 0 to 1/2 and cosines of the inclinations from -1 to 1,
`logll_beta` reads only inside its arrays, stops, and returns beta times the likelihood of the sum of the two planets' motions. -/
theorem orbit_logll (fuel : Nat) (hf : 6 ≤ fuel) (ndim : Nat) (hn : 2 ≤ ndim) (nline : Nat) (data : List ℝ) (hd : data.length = nline * ndim) (p : OrbitParms ℝ) (x : List ℝ)
    (hx : orbitParms x = .ok p) (he1 : 0 ≤ p.ecc1 ∧ p.ecc1 ≤ 1 / 2) (he2 : 0 ≤ p.ecc2 ∧ p.ecc2 ≤ 1 / 2) (hi1 : |p.cosInc1| ≤ 1) (hi2 : |p.cosInc2| ≤ 1) (beta : ℝ) :
    ∃ s1 s2 : List (ℝ × ℝ), s1.length = nline / 2 ∧ s2.length = nline / 2 ∧
      List.Forall₂ (fun j q => orbitAt fuel (elements (3 * p.plM1 * periodToAu p.period1 1 / 3) p.cosInc1 p.anOmg1 p.pOmg1) p.ecc1 p.m01 p.period1
        (data.getD (j * 2 * ndim) 0) = .ok q) (List.range (nline / 2)) s1 ∧
      List.Forall₂ (fun j q => orbitAt fuel (elements (3 * p.plM2 * periodToAu p.period2 1 / 3) p.cosInc2 p.anOmg2 p.pOmg2) p.ecc2 p.m02 p.period2
        (data.getD (j * 2 * ndim) 0) = .ok q) (List.range (nline / 2)) s2 ∧
      orbitLogll fuel ndim x nline data beta = .ok (beta * NiiC.orbitLogLik p.varUk ((List.zipWith (fun a b => (a.1 + b.1, a.2 + b.2)) s1 s2).zip
        ((List.range (nline / 2)).map fun j => (data.getD (j * 2 * ndim + 1) 0, data.getD ((j * 2 + 1) * ndim + 1) 0)))) := by
  have hrows := orbitRows_total ndim hn data (nline / 2) 0 (by rw [hd, zero_add]; exact Nat.mul_le_mul_right _ (Nat.div_mul_le_self _ _))
  rw [← List.range_eq_range'] at hrows
  have hosi : ∀ m per : ℝ, (calcOsi m (ofI 1) (periodToAu per (ofI 1)) (ofI 3) : ℝ) = 3 * m * periodToAu per 1 / 3 := by
    intro m per
    rw [osi_value]
    simp
  have c1 : p.cosInc1 = Real.cos (Real.arccos p.cosInc1) := (Real.cos_arccos (abs_le.1 hi1).1 (abs_le.1 hi1).2).symm
  have c2 : p.cosInc2 = Real.cos (Real.arccos p.cosInc2) := (Real.cos_arccos (abs_le.1 hi2).1 (abs_le.1 hi2).2).symm
  obtain ⟨s1, h1, l1⟩ := funcAs_total fuel hf p.ecc1 (3 * p.plM1 * periodToAu p.period1 1 / 3) (Real.arccos p.cosInc1) p.anOmg1 p.m01 p.pOmg1 p.period1 he1.1 he1.2
    ((List.range (nline / 2)).map fun j => data.getD (j * 2 * ndim) 0)
  obtain ⟨s2, h2, l2⟩ := funcAs_total fuel hf p.ecc2 (3 * p.plM2 * periodToAu p.period2 1 / 3) (Real.arccos p.cosInc2) p.anOmg2 p.m02 p.pOmg2 p.period2 he2.1 he2.2
    ((List.range (nline / 2)).map fun j => data.getD (j * 2 * ndim) 0)
  rw [← c1] at h1
  rw [← c2] at h2
  have f1 := (funcAs_map _ _ _ _ _ _ _ _ _ _).1 h1
  have f2 := (funcAs_map _ _ _ _ _ _ _ _ _ _).1 h2
  rw [List.forall₂_map_left_iff] at f1 f2
  have hboth : ∀ a b : List (ℝ × ℝ), orbitBoth a b = List.zipWith (fun a b => (a.1 + b.1, a.2 + b.2)) a b := by
    intro a
    induction a with
    | nil => intro b; simp [orbitBoth]
    | cons u a ih =>
      intro b
      cases b with
      | nil => simp [orbitBoth]
      | cons v b => simp [orbitBoth, ih]
  refine ⟨s1, s2, by simpa using l1, by simpa using l2, f1, f2, ?_⟩
  have ht : ((nline : Int) / 2).toNat = nline / 2 := by omega
  simp only [orbitLogll, hx, ht, hrows, bind, Except.bind, hosi, List.map_map]
  have m1 : (List.map ((fun r : ℝ × (ℝ × ℝ) => r.1) ∘ fun j => (data.getD (j * 2 * ndim) 0, (data.getD (j * 2 * ndim + 1) 0, data.getD ((j * 2 + 1) * ndim + 1) 0)))
      (List.range (nline / 2))) = (List.range (nline / 2)).map fun j => data.getD (j * 2 * ndim) 0 := rfl
  rw [m1, h1, h2]
  simp only [hboth, RealArith.mul_eq, mul_comm]
  rfl

/-- Two measurements of a star with two planets. -/
example : ∃ v, orbitLogll 6 2 [(1 / 2 : ℝ), 1 / 10, 30, 40, 50, 3, 1, 400, 1 / 3, 1 / 5, 60, 70, 80, 5, 900] (4 : ℕ) [0, 1, 0, 2, 100, 3, 100, 4] (1 / 2) = .ok v := by
  obtain ⟨s1, s2, _, _, _, _, h⟩ := orbit_logll 6 le_rfl 2 le_rfl 4 [0, 1, 0, 2, 100, 3, 100, (4 : ℝ)] rfl
    ⟨1 / 2, 1 / 10, 30, 40, 50, 3, 1, 400, 1 / 3, 1 / 5, 60, 70, 80, 5, 900⟩ [(1 / 2 : ℝ), 1 / 10, 30, 40, 50, 3, 1, 400, 1 / 3, 1 / 5, 60, 70, 80, 5, 900] rfl
    (by norm_num) (by norm_num) (by norm_num [abs_le]) (by norm_num [abs_le]) (1 / 2)
  exact ⟨_, h⟩

/-- Kepler's third law around one solar mass: period in days, axis in astronomical units, constants of the source in CGS units. -/
def Spec.ThirdLaw (days au : ℝ) : Prop :=
  (au * 14959787000000) ^ 3 = 667259 / 10 ^ 13 * (19891 * 10 ^ 29) * (days * 86400 / (2 * (314159265358 / 10 ^ 11))) ^ 2

/-- The position `q` (east, north) at time `t` of a planet on its tilted ellipse, up to `δ` in each coordinate. Angles are in degrees. -/
def Spec.PlanetAt (size ecc cosInc node omega m0 per t δ : ℝ) (q : ℝ × ℝ) : Prop :=
  ∃ x, Spec.Kepler (2 * (314159265358 / 10 ^ 11) / per * t - m0 * (174532925 / 10 ^ 10)) ecc x ∧
    |q.1 - (Spec.orbitPoint size ecc x (omega * (174532925 / 10 ^ 10)) (Real.arccos cosInc) (node * (174532925 / 10 ^ 10))).2.1| ≤ δ ∧
    |q.2 - (Spec.orbitPoint size ecc x (omega * (174532925 / 10 ^ 10)) (Real.arccos cosInc) (node * (174532925 / 10 ^ 10))).1| ≤ δ

theorem deg2rad_real : (deg2rad : ℝ) = 174532925 / 10 ^ 10 := by
  simp only [deg2rad, RealArith.lit_eq]
  norm_num

theorem orbitAt_planet (fuel : Nat) (hf : 6 ≤ fuel) (osi cosInc node omega ecc m0 per t : ℝ) (h0 : 0 ≤ ecc) (hh : ecc ≤ 1 / 2) (hi : |cosInc| ≤ 1) (q : ℝ × ℝ)
    (hq : orbitAt fuel (elements osi cosInc node omega) ecc m0 per t = .ok q) :
    Spec.PlanetAt osi ecc cosInc node omega m0 per t (2 * |osi| / 10 ^ 16) q := by
  have hc := Real.cos_arccos (abs_le.1 hi).1 (abs_le.1 hi).2
  obtain ⟨p, x, hx, hp, h1, h2⟩ := orbit_position fuel hf osi (Real.arccos cosInc) node omega ecc m0 per t h0 hh
  rw [hc, hq] at hp
  injection hp with hp
  subst hp
  rw [deg2rad_real] at h1 h2
  refine ⟨x, ?_, h1, h2⟩
  rw [meanAnomaly, orbitPi_real, deg2rad_real] at hx
  convert hx using 2
  norm_num

/-- **C65, C66, C67 in one statement.** On a table of at least two columns with all its cells, for fifteen parameters with eccentricities from 0 to 1/2, cosines of the inclinations from
-1 to 1 and a positive width, `logll_beta` is beta times the logarithm of the product of the normal densities of all measured coordinates around the sum of the positions of two planets, up to an
offset for each measurement that is the same for all parameters. Each planet moves by Kepler's equation on an ellipse; its axis is the mass times the axis of the third law. -/
theorem orbit_logll_density (fuel : Nat) (hf : 6 ≤ fuel) (ndim : Nat) (hn : 2 ≤ ndim) (nline : Nat) (data : List ℝ) (hd : data.length = nline * ndim) (p : OrbitParms ℝ) (x : List ℝ)
    (hx : orbitParms x = .ok p) (he1 : 0 ≤ p.ecc1 ∧ p.ecc1 ≤ 1 / 2) (he2 : 0 ≤ p.ecc2 ∧ p.ecc2 ≤ 1 / 2) (hi1 : |p.cosInc1| ≤ 1) (hi2 : |p.cosInc2| ≤ 1) (hv : 0 < p.varUk) (beta : ℝ) :
    ∃ (a1 a2 : ℝ) (pred : List (ℝ × ℝ)), Spec.ThirdLaw p.period1 a1 ∧ Spec.ThirdLaw p.period2 a2 ∧ pred.length = nline / 2 ∧
      (∀ (j : Nat) q, pred[j]? = some q → ∃ q1 q2 : ℝ × ℝ, q = q1 + q2 ∧
        Spec.PlanetAt (p.plM1 * a1) p.ecc1 p.cosInc1 p.anOmg1 p.pOmg1 p.m01 p.period1 (data.getD (j * 2 * ndim) 0) (2 * |p.plM1 * a1| / 10 ^ 16) q1 ∧
        Spec.PlanetAt (p.plM2 * a2) p.ecc2 p.cosInc2 p.anOmg2 p.pOmg2 p.m02 p.period2 (data.getD (j * 2 * ndim) 0) (2 * |p.plM2 * a2| / 10 ^ 16) q2) ∧
      orbitLogll fuel ndim x nline data beta = .ok (beta * (Spec.orbitLogLik p.varUk (pred.zip
        ((List.range (nline / 2)).map fun j => (data.getD (j * 2 * ndim + 1) 0, data.getD ((j * 2 + 1) * ndim + 1) 0))) + (nline / 2 : Nat) * orbitOffset)) := by
  obtain ⟨s1, s2, l1, l2, f1, f2, h⟩ := orbit_logll fuel hf ndim hn nline data hd p x hx he1 he2 hi1 hi2 beta
  have hlaw : ∀ days : ℝ, Spec.ThirdLaw days (periodToAu days 1) := by
    intro days
    have := third_law days 1 zero_le_one
    rw [orbitPi_real, mul_one] at this
    rw [Spec.ThirdLaw, this]
    norm_num
  have hs : ∀ m a : ℝ, 3 * m * a / 3 = m * a := by intro m a; ring
  rw [hs] at f1 f2
  refine ⟨periodToAu p.period1 1, periodToAu p.period2 1, List.zipWith (fun a b => (a.1 + b.1, a.2 + b.2)) s1 s2, hlaw _, hlaw _, by simp [l1, l2], ?_, ?_⟩
  · intro j q hq
    rw [List.getElem?_zipWith] at hq
    cases h1 : s1[j]? with
    | none => rw [h1] at hq; cases hq
    | some q1 =>
      cases h2 : s2[j]? with
      | none => rw [h1, h2] at hq; cases hq
      | some q2 =>
        rw [h1, h2] at hq
        cases hq
        obtain ⟨b1, rfl⟩ := List.getElem?_eq_some_iff.1 h1
        obtain ⟨b2, rfl⟩ := List.getElem?_eq_some_iff.1 h2
        have g1 := f1.get (i := j) (by simpa [l1] using b1) b1
        have g2 := f2.get (i := j) (by simpa [l2] using b2) b2
        simp only [List.get_eq_getElem, List.getElem_range] at g1 g2
        exact ⟨s1[j], s2[j], rfl, orbitAt_planet fuel hf _ _ _ _ _ _ _ _ he1.1 he1.2 hi1 _ g1, orbitAt_planet fuel hf _ _ _ _ _ _ _ _ he2.1 he2.2 hi2 _ g2⟩
  · rw [h, (orbit_loglik p.varUk hv _).1]
    simp [l1, l2]

example : ∃ (a1 : ℝ) (pred : List (ℝ × ℝ)), Spec.ThirdLaw 400 a1 ∧ pred.length = 2 ∧
    orbitLogll 6 2 [(1 / 2 : ℝ), 1 / 10, 30, 40, 50, 3, 1, 400, 1 / 3, 1 / 5, 60, 70, 80, 5, 900] (4 : ℕ) [0, 1, 0, 2, 100, 3, 100, 4] (1 / 2) =
      .ok (1 / 2 * (Spec.orbitLogLik 1 (pred.zip [(1, 2), (3, 4)]) + (2 : Nat) * orbitOffset)) := by
  obtain ⟨a1, a2, pred, h1, _, hl, _, h⟩ := orbit_logll_density 6 le_rfl 2 le_rfl 4 [0, 1, 0, 2, 100, 3, 100, (4 : ℝ)] rfl
    ⟨1 / 2, 1 / 10, 30, 40, 50, 3, 1, 400, 1 / 3, 1 / 5, 60, 70, 80, 5, 900⟩ [(1 / 2 : ℝ), 1 / 10, 30, 40, 50, 3, 1, 400, 1 / 3, 1 / 5, 60, 70, 80, 5, 900] rfl
    (by norm_num) (by norm_num) (by norm_num [abs_le]) (by norm_num [abs_le]) one_pos (1 / 2)
  exact ⟨a1, pred, h1, hl, h⟩

/-- With fewer than two columns the table is read beyond its end. -/
theorem orbit_one_column (fuel : Nat) (data : List ℝ) (hd : data.length = 2) (x : List ℝ) (p : OrbitParms ℝ) (hx : orbitParms x = .ok p) (beta : ℝ) :
    orbitLogll fuel 1 x 2 data beta = .error .oob := by
  match data, hd with
  | [a, b], _ =>
    have h : orbitRows 1 [a, b] 1 0 = .error .oob := rfl
    simp only [orbitLogll, hx, bind, Except.bind]
    rw [show ((2 : Int) / 2).toNat = 1 by rfl, h]

example : orbitLogll 6 1 [(1 / 2 : ℝ), 1 / 10, 30, 40, 50, 3, 1, 400, 1 / 3, 1 / 5, 60, 70, 80, 5, 900] 2 [0, 1] (1 / 2) = .error .oob :=
  orbit_one_column 6 [0, 1] rfl [(1 / 2 : ℝ), 1 / 10, 30, 40, 50, 3, 1, 400, 1 / 3, 1 / 5, 60, 70, 80, 5, 900] _ rfl (1 / 2)

end NiiC
