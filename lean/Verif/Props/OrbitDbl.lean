import Verif.Props.KeplerDbl

/-!
# The likelihood of the orbit model in double arithmetic: C99
-/

set_option linter.unusedSimpArgs false

namespace NiiC

open Dbl

variable {R : Rounding}

/-- Twice the literal of pi. -/
theorem twoPi_dbl (hR : Nearest R) : ∃ p, (ofI 2 *. orbitPi : Dbl R) = fin p ∧ |p - 628318530716 / 10 ^ 11| ≤ 1 / 2 ^ 45 := by
  obtain ⟨a, ha, ha1⟩ := hR.close (x := 314159265358 / 10 ^ 11) (b := 4) (by norm_num [abs_le]) (by norm_num)
  have ha' : (orbitPi : Dbl R) = fin a := by
    show R.rnd (((314159265358 : Int) : ℝ) / ((100000000000 : Nat) : ℝ)) = _
    rw [show ((314159265358 : Int) : ℝ) / ((100000000000 : Nat) : ℝ) = 314159265358 / 10 ^ 11 by norm_num]
    exact ha
  have h2 : (ofI 2 : Dbl R) = fin 2 := by simpa using ofI_int (R := R) 2 (by norm_num)
  rw [abs_le] at ha1
  have t : (4 : ℝ) / 2 ^ 53 + 1 / 2 ^ 70 ≤ 1 / 2 ^ 50 := by norm_num
  obtain ⟨p, hp, hp1⟩ := hR.close (x := 2 * a) (b := 8) (by rw [abs_le]; constructor <;> linarith only [ha1.1, ha1.2, t, show (1 : ℝ) / 2 ^ 50 ≤ 1 / 4 by norm_num]) (by norm_num)
  refine ⟨p, ?_, ?_⟩
  · rw [h2, ha', mul_fin]
    exact hp
  · rw [abs_le] at hp1 ⊢
    constructor <;> linarith only [ha1.1, ha1.2, hp1.1, hp1.2, t, show (8 : ℝ) / 2 ^ 53 + 1 / 2 ^ 70 + 2 * (1 / 2 ^ 50) ≤ 1 / 2 ^ 45 by norm_num]

/-- The literal that turns degrees into radians. -/
theorem deg2rad_dbl (hR : Nearest R) : ∃ g, (deg2rad : Dbl R) = fin g ∧ |g| ≤ 1 / 50 := by
  obtain ⟨g, hg, hg1⟩ := hR.close (x := 174532925 / 10 ^ 10) (b := 1) (by norm_num [abs_le]) (by norm_num)
  refine ⟨g, ?_, ?_⟩
  · show R.rnd (((174532925 : Int) : ℝ) / ((10000000000 : Nat) : ℝ)) = _
    rw [show ((174532925 : Int) : ℝ) / ((10000000000 : Nat) : ℝ) = 174532925 / 10 ^ 10 by norm_num]
    exact hg
  · rw [abs_le] at hg1 ⊢
    constructor <;> linarith only [hg1.1, hg1.2, show (1 : ℝ) / 2 ^ 53 + 1 / 2 ^ 70 ≤ 1 / 1000 by norm_num]

/-- The mean anomaly of a time up to 2^19 days for a period of at least half a day is below 2^23. -/
theorem meanAnomaly_dbl (hR : Nearest R) {per t m0 : ℝ} (hper : 1 / 2 ≤ per) (ht : |t| ≤ 2 ^ 19) (hm : |m0| ≤ 360) :
    ∃ m, (ofI 2 *. orbitPi /. fin per *. fin t -. fin m0 *. deg2rad : Dbl R) = fin m ∧ |m| ≤ 2 ^ 23 := by
  obtain ⟨p, hp, hp1⟩ := twoPi_dbl hR
  obtain ⟨g, hg, hg1⟩ := deg2rad_dbl hR
  have hp0 : |p| ≤ 63 / 10 := by
    rw [abs_le] at hp1 ⊢
    constructor <;> linarith only [hp1.1, hp1.2, show (1 : ℝ) / 2 ^ 45 ≤ 1 / 1000 by norm_num]
  have hper0 : 0 < per := by linarith only [hper]
  have small : ∀ b : ℝ, b ≤ 2 ^ 30 → b / 2 ^ 53 + 1 / 2 ^ 70 ≤ 1 / 2 ^ 22 := by
    intro b hb
    have : b / 2 ^ 53 ≤ 2 ^ 30 / 2 ^ 53 := by gcongr
    exact (add_le_add_left this _).trans (by norm_num)
  have near : ∀ (x b : ℝ), |x| ≤ b → b ≤ 2 ^ 30 → ∃ y, R.rnd x = .fin y ∧ |y| ≤ b + 1 / 2 ^ 22 := by
    intro x b hx hb
    obtain ⟨y, hy, hy1⟩ := hR.close hx hb
    refine ⟨y, hy, ?_⟩
    have := abs_add_le (y - x) x
    rw [sub_add_cancel] at this
    linarith only [this, hy1, hx, small b hb]
  obtain ⟨q, hq, hq1⟩ := near (p / per) (126 / 10) (by
    rw [abs_div, abs_of_pos hper0, div_le_iff₀ hper0]
    linarith only [hp0, hper]) (by norm_num)
  obtain ⟨a, ha, ha1⟩ := near (q * t) (12601 / 1000 * 2 ^ 19) (by
    rw [abs_mul]
    refine mul_le_mul (hq1.trans (by norm_num)) ht (abs_nonneg _) (by norm_num)) (by norm_num)
  obtain ⟨d, hd, hd1⟩ := near (m0 * g) (360 * (1 / 50)) (by
    rw [abs_mul]
    exact mul_le_mul hm hg1 (abs_nonneg _) (by norm_num)) (by norm_num)
  obtain ⟨m, hm', hm1⟩ := near (a - d) (12601 / 1000 * 2 ^ 19 + 10) (by
    refine (abs_sub a d).trans ?_
    linarith only [ha1, hd1, show (1 : ℝ) / 2 ^ 22 ≤ 1 by norm_num]) (by norm_num)
  refine ⟨m, ?_, hm1.trans (by norm_num)⟩
  have hq' : (fin p /. fin per : Dbl R) = fin q := (div_fin _ _ hper0.ne').trans hq
  have ha' : (fin q *. fin t : Dbl R) = fin a := ha
  have hd' : (fin m0 *. fin g : Dbl R) = fin d := hd
  rw [hp, hg, hq', ha', hd', sub_fin]
  exact hm'

/-- What the sample configuration asks of the elements of a planet that reach the solver. -/
structure PlanetBox (ecc m0 per : ℝ) : Prop where
  ecc0 : 0 ≤ ecc
  ecc1 : ecc ≤ 1 / 2
  m0 : |m0| ≤ 360
  per : 1 / 2 ≤ per

theorem orbitAt_dbl (hR : Nearest R) {ecc m0 per t : ℝ} (hb : PlanetBox ecc m0 per) (ht : |t| ≤ 2 ^ 19) (el : Elements (Dbl R)) :
    ∃ q, ∀ fuel, 6 ≤ fuel → orbitAt fuel el (fin ecc) (fin m0) (fin per) (fin t) = .ok q := by
  obtain ⟨m, hm, hm1⟩ := meanAnomaly_dbl hR hb.per ht hb.m0
  obtain ⟨y, r, _, hy, _⟩ := kepler_dbl hR m ecc hb.ecc0 hb.ecc1 hm1
  refine ⟨(el.b *. (Arith.cos (fin y) -. fin ecc) +. el.g *. (Arith.sqrt (ofI 1 -. Arith.pow (fin ecc) (ofI 2)) *. Arith.sin (fin y)),
    el.a *. (Arith.cos (fin y) -. fin ecc) +. el.f *. (Arith.sqrt (ofI 1 -. Arith.pow (fin ecc) (ofI 2)) *. Arith.sin (fin y))), fun fuel hf => ?_⟩
  rw [orbitAt, hm, hy fuel hf]
  rfl

theorem funcAs_dbl (hR : Nearest R) {ecc m0 per : ℝ} (hb : PlanetBox ecc m0 per) (osi cosi bigOmega omega : Dbl R) (times : List (Dbl R))
    (ht : ∀ t ∈ times, ∃ u : ℝ, t = fin u ∧ |u| ≤ 2 ^ 19) :
    ∃ ps, ∀ fuel, 6 ≤ fuel → funcAs fuel (fin ecc) osi cosi bigOmega (fin m0) omega (fin per) times = .ok ps := by
  induction times with
  | nil => exact ⟨[], fun _ _ => rfl⟩
  | cons t ts ih =>
    obtain ⟨u, rfl, hu⟩ := ht t (by simp)
    obtain ⟨ps, hps⟩ := ih fun s hs => ht s (by simp [hs])
    obtain ⟨q, hq⟩ := orbitAt_dbl hR hb hu (elements osi cosi bigOmega omega)
    refine ⟨q :: ps, fun fuel hf => ?_⟩
    rw [funcAs, hq fuel hf, hps fuel hf]
    rfl

/-- The rows of a complete table are read inside it, and their times are the first cells of every other line. -/
theorem orbitRows_ok {F : Type} [Arith F] (ndim : Nat) (hn : 2 ≤ ndim) (data : List F) : ∀ k i, (i + k) * 2 * ndim ≤ data.length →
    ∃ rows, orbitRows ndim data k i = .ok rows ∧ ∀ j < k, (rows.map (·.1))[j]? = data[(i + j) * 2 * ndim]? := by
  intro k
  induction k with
  | zero => intro i _; exact ⟨[], rfl, fun j hj => absurd hj (by omega)⟩
  | succ k ih =>
    intro i h
    obtain ⟨rows, hr, hj⟩ := ih (i + 1) (by rw [show i + 1 + k = i + (k + 1) by omega]; exact h)
    have hlt : (i * 2 + 2) * ndim ≤ data.length := le_trans (Nat.mul_le_mul_right _ (by omega)) h
    have e : (i * 2 + 2) * ndim = i * 2 * ndim + 2 * ndim := by ring
    have e' : (i * 2 + 1) * ndim = i * 2 * ndim + ndim := by ring
    have r : ∀ j (hj : j < data.length), rd data j = .ok data[j] := by
      intro j hj
      simp [rd, hj]
    have h1 : i * 2 * ndim < data.length := by omega
    have h2 : i * 2 * ndim + 1 < data.length := by omega
    have h3 : (i * 2 + 1) * ndim + 1 < data.length := by omega
    refine ⟨(data[i * 2 * ndim], data[i * 2 * ndim + 1], data[(i * 2 + 1) * ndim + 1]) :: rows, ?_, ?_⟩
    · rw [orbitRows, hr, orbitData, r _ h1, r _ h2, r _ h3]
      rfl
    · intro j hj'
      cases j with
      | zero => simp [h1]
      | succ j =>
        have := hj j (by omega)
        rw [List.map_cons, List.getElem?_cons_succ, this]
        congr 3
        omega

theorem orbitRows_length {F : Type} [Arith F] (ndim : Nat) (data : List F) : ∀ k i rows, orbitRows ndim data k i = .ok rows → rows.length = k := by
  intro k
  induction k with
  | zero => intro i rows h; cases h; rfl
  | succ k ih =>
    intro i rows h
    rw [orbitRows] at h
    cases h1 : orbitData ndim data i with
    | error f => rw [h1] at h; cases h
    | ok q =>
      cases h2 : orbitRows ndim data k (i + 1) with
      | error f => rw [h1, h2] at h; cases h
      | ok rs =>
        rw [h1, h2] at h
        cases h
        simp [ih _ _ h2]

/-- **C99 for the whole likelihood.** In the box of the sample configuration, on a complete table with times up to 2^19 days (the sample ends after 1826.25), `logll_beta` in doubles
returns, and six tests of the condition in the solver are enough for every measurement. -/
theorem orbit_logll_dbl (hR : Nearest R) (ndim : Nat) (hn : 2 ≤ ndim) (nline : Nat) (data : List (Dbl R)) (hd : data.length = nline * ndim)
    (ht : ∀ j < nline / 2, ∃ u : ℝ, data[j * 2 * ndim]? = some (fin u) ∧ |u| ≤ 2 ^ 19) (x : List (Dbl R)) (p : OrbitParms (Dbl R)) (hx : orbitParms x = .ok p)
    {e1 m1 t1 e2 m2 t2 : ℝ} (hp1 : p.ecc1 = fin e1 ∧ p.m01 = fin m1 ∧ p.period1 = fin t1) (hp2 : p.ecc2 = fin e2 ∧ p.m02 = fin m2 ∧ p.period2 = fin t2)
    (hb1 : PlanetBox e1 m1 t1) (hb2 : PlanetBox e2 m2 t2) (beta : Dbl R) : ∃ v, ∀ fuel, 6 ≤ fuel → orbitLogll fuel ndim x nline data beta = .ok v := by
  obtain ⟨rows, hr, hj⟩ := orbitRows_ok ndim hn data (nline / 2) 0 (by rw [hd, zero_add]; exact Nat.mul_le_mul_right _ (Nat.div_mul_le_self _ _))
  have hl := orbitRows_length _ _ _ _ _ hr
  have htimes : ∀ t ∈ rows.map (·.1), ∃ u : ℝ, t = fin u ∧ |u| ≤ 2 ^ 19 := by
    intro t hmem
    obtain ⟨j, hjl, rfl⟩ := List.mem_iff_getElem.1 hmem
    have hjk : j < nline / 2 := by simpa [hl] using hjl
    obtain ⟨u, hu, hu1⟩ := ht j hjk
    refine ⟨u, ?_, hu1⟩
    have := hj j hjk
    rw [zero_add, hu, List.getElem?_eq_getElem hjl] at this
    exact Option.some.inj this
  obtain ⟨s1, hs1⟩ := funcAs_dbl hR hb1 (calcOsi p.plM1 (ofI 1) (periodToAu p.period1 (ofI 1)) (ofI 3)) p.cosInc1 p.anOmg1 p.pOmg1 _ htimes
  obtain ⟨s2, hs2⟩ := funcAs_dbl hR hb2 (calcOsi p.plM2 (ofI 1) (periodToAu p.period2 (ofI 1)) (ofI 3)) p.cosInc2 p.anOmg2 p.pOmg2 _ htimes
  rw [← hp1.1, ← hp1.2.1] at hs1
  rw [← hp2.1, ← hp2.2.1] at hs2
  have k : ((nline : Int) / 2).toNat = nline / 2 := by omega
  refine ⟨orbitLogLik p.varUk ((orbitBoth s1 s2).zip (rows.map (·.2))) *. beta, fun fuel hf => ?_⟩
  have a1 := hs1 fuel hf
  have a2 := hs2 fuel hf
  rw [← hp1.2.2] at a1
  rw [← hp2.2.2] at a2
  simp only [orbitLogll, hx, k, hr, bind, Except.bind, a1, a2]

/-- The mean anomaly of time `endlessM` for a period of two pi days is the time itself. -/
theorem meanAnomaly_endless (hR : IeeeNearest R) : (ofI 2 *. orbitPi /. (ofI 2 *. orbitPi) *. fin endlessM -. fin 0 *. deg2rad : Dbl R) = fin endlessM := by
  obtain ⟨p, hp, hp1⟩ := twoPi_dbl hR.toNearest
  obtain ⟨g, hg, _⟩ := deg2rad_dbl hR.toNearest
  have hp0 : p ≠ 0 := by
    rintro rfl
    norm_num [abs_le] at hp1
  have hm : R.rnd endlessM = .fin endlessM := by
    have e : endlessM = ((4503600078172152 : Int) : ℝ) * 2 ^ (-26 : Int) := by
      rw [endlessM, zpow_neg, show (2 : ℝ) ^ (26 : Int) = 2 ^ 26 from rfl]; push_cast; ring
    rw [hR.ieee, e]
    exact Binary64.rnd_repr _ _ (by norm_num) (by norm_num) (by norm_num)
  have h1 : (fin p /. fin p : Dbl R) = fin 1 := by
    rw [div_fin _ _ hp0, div_self hp0]
    have := R.rnd_int 1 (by norm_num)
    rw [Int.cast_one] at this
    exact this
  have h2 : (fin 1 *. fin endlessM : Dbl R) = fin endlessM := by
    rw [mul_fin, one_mul]
    exact hm
  have h3 : (fin 0 *. fin g : Dbl R) = fin 0 := by
    rw [mul_fin, zero_mul]
    have := R.rnd_int 0 (by norm_num)
    rw [Int.cast_zero] at this
    exact this
  rw [hp, hg, h1, h2, h3, sub_fin, _root_.sub_zero]
  exact hm

/-- **C99, the other side, for the whole likelihood.** A time of 67108870.7 days with a period of 6.28318530716 days, both well-formed input, keeps `logll_beta` from returning: no number of
tests of the condition in the solver is enough. -/
theorem orbit_logll_endless (hR : IeeeNearest R) (fuel ndim : Nat) (hn : 2 ≤ ndim) (nline : Nat) (h2 : 2 ≤ nline) (data : List (Dbl R)) (hd : data.length = nline * ndim)
    (ht : data[0]? = some (fin endlessM)) (x : List (Dbl R)) (p : OrbitParms (Dbl R)) (hx : orbitParms x = .ok p)
    (he : p.ecc1 = fin (1 / 2)) (hm : p.m01 = fin 0) (hp : p.period1 = ofI 2 *. orbitPi) (beta : Dbl R) :
    orbitLogll fuel ndim x nline data beta = .error .fuel := by
  obtain ⟨rows, hr, hj⟩ := orbitRows_ok ndim hn data (nline / 2) 0 (by rw [hd, zero_add]; exact Nat.mul_le_mul_right _ (Nat.div_mul_le_self _ _))
  have h0 := hj 0 (by omega)
  rw [show (0 + 0) * 2 * ndim = 0 by simp, ht] at h0
  have k : ((nline : Int) / 2).toNat = nline / 2 := by omega
  cases rows with
  | nil => simp at h0
  | cons q rows =>
    simp only [List.map_cons, List.getElem?_cons_zero, Option.some.injEq] at h0
    simp only [orbitLogll, hx, k, hr, bind, Except.bind, List.map_cons, h0, he, hm, hp, funcAs, orbitAt, meanAnomaly_endless hR, newton_endless hR]

/-- Fifteen parameters inside the box of the sample configuration, with the period of the first planet given. -/
noncomputable def orbitX (per : Double) : List Double :=
  [fin (1 / 2), fin (1 / 2), fin 30, fin 40, fin 0, fin 3, fin 1, per, fin (1 / 2), fin (1 / 4), fin 60, fin 70, fin 80, fin 5, fin 900]

/-- Two measurements, 1826.25 days apart, in C doubles. -/
example : ∃ v, ∀ fuel, 6 ≤ fuel → orbitLogll fuel 2 (orbitX (fin (1 / 2))) (4 : Nat) [fin 0, fin 1, fin 0, fin 2, fin 1826.25, fin 3, fin 1826.25, fin 4] (fin 1) = .ok v := by
  refine orbit_logll_dbl binary64_nearest 2 le_rfl 4 _ rfl ?_ _ _ rfl ⟨rfl, rfl, rfl⟩ ⟨rfl, rfl, rfl⟩ ⟨by norm_num, by norm_num, by norm_num, by norm_num⟩
    ⟨by norm_num, by norm_num, by norm_num [abs_le], by norm_num⟩ _
  intro j hj
  have : j = 0 ∨ j = 1 := by omega
  rcases this with rfl | rfl
  · exact ⟨0, rfl, by norm_num⟩
  · exact ⟨1826.25, rfl, by norm_num [abs_le]⟩

/-- The same star at a late time. -/
example (fuel : Nat) : orbitLogll fuel 2 (orbitX (ofI 2 *. orbitPi)) (2 : Nat) [fin endlessM, fin 1, fin endlessM, fin 2] (fin 1) = .error .fuel :=
  orbit_logll_endless binary64_ieee fuel 2 le_rfl 2 le_rfl _ rfl rfl _ _ rfl rfl rfl rfl _

end NiiC
