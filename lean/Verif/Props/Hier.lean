import Verif.Model.Hier
import Verif.Props.Likelihood
import Mathlib.Analysis.Complex.ExponentialBounds

/-!
# The likelihood of the hierarchical model: C68 (density), C69 (planets)
-/

set_option linter.unusedSectionVars false
set_option linter.unusedSimpArgs false

namespace NiiC

/-! ## C68: the density of one measurement -/

/-- What the constant of the source misses of `log (2 pi) / 2`. -/
noncomputable def hierOffset : ℝ := 1 / 2 * Real.log (2 * Real.pi) - 9189385332046727 / 10000000000000000

theorem halfLog_real : (halfLog2Pi : ℝ) = 9189385332046727 / 10000000000000000 := by
  simp only [halfLog2Pi, RealArith.lit_eq]
  push_cast
  rfl

/-- One factor of the likelihood is the normal log density up to the constant. -/
theorem hierNormal_real (obs v lam : ℝ) (h : 0 < lam) : hierNormal obs v lam = Spec.normalLogDensity v lam obs + hierOffset := by
  rw [normalLogDensity_eq _ _ _ h, hierOffset]
  simp only [hierNormal, RealArith.sub_eq, RealArith.neg_eq, RealArith.mul_eq, RealArith.div_eq, RealArith.log_eq, RealArith.lit_eq, RealArith.ofI_eq, halfLog_real]
  push_cast
  rw [← pow_two, ← pow_two]
  ring

/-- The log density of one measurement `(x, y)` of a planet with true values `(xtr, ytr)`: the measured values are normal around the true ones, and the true `y` is normal around
the power law of the true `x` with a width that is itself a power of that value. -/
noncomputable def Spec.hierOne (gammaPower logC lamY lamYobs lamXobs gammaLam : ℝ) (x y xtr ytr : ℝ) : ℝ :=
  Spec.normalLogDensity ytr lamYobs y +
  Spec.normalLogDensity (Real.exp logC * xtr ^ gammaPower) (lamY * (Real.exp logC * xtr ^ gammaPower) ^ gammaLam) ytr +
  Spec.normalLogDensity xtr lamXobs x

/-- **C68.** For positive widths and a positive true `x`, the log-likelihood of one measurement is the sum of the three normal log densities plus a constant. -/
theorem hier_one (p : HierParms ℝ) (hY : 0 < p.lambdaY) (hYo : 0 < p.lambdaYobs) (hXo : 0 < p.lambdaXobs) (x y xtr ytr : ℝ) (hx : 0 < xtr) :
    NiiC.hierOne p y ytr x xtr = Spec.hierOne p.gammaPower p.logC p.lambdaY p.lambdaYobs p.lambdaXobs p.gammaLambdaY x y xtr ytr + 3 * hierOffset := by
  have hmu : 0 < Real.exp p.logC * xtr ^ p.gammaPower := mul_pos (Real.exp_pos _) (Real.rpow_pos_of_pos hx _)
  have hw : 0 < p.lambdaY * (Real.exp p.logC * xtr ^ p.gammaPower) ^ p.gammaLambdaY := mul_pos hY (Real.rpow_pos_of_pos hmu _)
  simp only [NiiC.hierOne, hierNormalGamma, RealArith.add_eq, RealArith.mul_eq, RealArith.exp_eq, RealArith.pow_eq, Spec.hierOne]
  rw [hierNormal_real _ _ _ hYo, hierNormal_real _ _ _ hw, hierNormal_real _ _ _ hXo]
  ring

example : NiiC.hierOne ⟨2, 1, 3, 1, 1, (1 / 2 : ℝ)⟩ 5 6 7 8 = Spec.hierOne 2 1 3 1 1 (1 / 2) 7 5 8 6 + 3 * hierOffset :=
  hier_one ⟨2, 1, 3, 1, 1, 1 / 2⟩ (by norm_num) (by norm_num) (by norm_num) 7 5 8 6 (by norm_num)

/-- The widths that the code passes are positive whatever the chain proposes, since it takes their exponentials. -/
theorem hierParms_pos (x : List ℝ) (p : HierParms ℝ) (h : hierParms x = .ok p) : 0 < p.lambdaY ∧ 0 < p.lambdaYobs ∧ 0 < p.lambdaXobs := by
  match x, h with
  | a :: b :: c :: d :: e :: f :: _, h =>
    injection h with h
    subst h
    exact ⟨Real.exp_pos _, Real.exp_pos _, Real.exp_pos _⟩

/-- The widths are given by their logarithms, so that negative parameters are fine. -/
example (p : HierParms ℝ) (h : hierParms [2, -1, -3, -4, -5, 1 / 2] = .ok p) : 0 < p.lambdaY ∧ 0 < p.lambdaYobs ∧ 0 < p.lambdaXobs := hierParms_pos _ p h

/-- The constant is tiny. -/
theorem hierOffset_bound : |hierOffset| < 1 / 10 ^ 15 := by
  have hpi := Real.pi_pos
  have key : ∀ c : ℝ, 2 * Real.pi < Real.exp c ^ 2 → 1 / 2 * Real.log (2 * Real.pi) < c := by
    intro c h
    have h1 := Real.log_lt_log (by positivity) h
    rw [← Real.exp_nat_mul, Real.log_exp] at h1
    push_cast at h1
    linarith
  have key2 : ∀ c : ℝ, Real.exp c ^ 2 < 2 * Real.pi → c < 1 / 2 * Real.log (2 * Real.pi) := by
    intro c h
    have h1 := Real.log_lt_log (by positivity) h
    rw [← Real.exp_nat_mul, Real.log_exp] at h1
    push_cast at h1
    linarith
  have hp1 := Real.pi_gt_d20
  have hp2 := Real.pi_lt_d20
  have hlo : Real.exp (9189385332046717 / 10000000000000000) ≤ 25066282746309990 / 10000000000000000 := by
    refine (Real.exp_bound' (by norm_num) (by norm_num) (show 0 < 22 by norm_num)).trans ?_
    simp only [Finset.sum_range_succ, Finset.sum_range_zero, Nat.factorial]
    norm_num
  have hhi : 25066282746310020 / 10000000000000000 ≤ Real.exp (9189385332046737 / 10000000000000000) := by
    refine le_trans ?_ (Real.sum_le_exp_of_nonneg (by norm_num) 22)
    simp only [Finset.sum_range_succ, Finset.sum_range_zero, Nat.factorial]
    norm_num
  have h1 := key (9189385332046737 / 10000000000000000) (lt_of_lt_of_le (by norm_num at hp2 ⊢; linarith) (pow_le_pow_left₀ (by norm_num) hhi 2))
  have h2 := key2 (9189385332046717 / 10000000000000000) (lt_of_le_of_lt (pow_le_pow_left₀ (Real.exp_pos _).le hlo 2) (by norm_num at hp1 ⊢; linarith))
  rw [hierOffset, abs_lt]
  constructor <;> norm_num at h1 h2 ⊢ <;> linarith

/-! ## C69: the planets -/

/-- A table in two sections: `hs` lists, for each planet, the line where its measurements start and their number. The starts increase, all measurements lie in the table, and the
first row behind the first section does not look like the description of a further planet. -/
structure Spec.HierTable {F : Type} [Arith F] (ndim nline : Nat) (data : List F) (hs : List (Nat × Nat)) : Prop where
  columns : 2 ≤ ndim
  cells : data.length = nline * ndim
  small : nline ≤ 2147483647
  some : hs ≠ []
  inside : hs.length < nline
  start : ∀ i (h : i < hs.length), hierHead ndim nline data i 0 = .ok hs[i].1
  count : ∀ i (h : i < hs.length), hierHead ndim nline data i 1 = .ok hs[i].2
  pos : ∀ q ∈ hs, 1 ≤ q.2
  fits : ∀ q ∈ hs, q.1 + q.2 ≤ nline
  increasing : ∀ i (h : i + 1 < hs.length), hs[i].1 < hs[i + 1].1
  last : ∃ a b : Int, hierHead ndim nline data hs.length 0 = .ok a ∧ hierHead ndim nline data hs.length 1 = .ok b ∧ -2147483648 ≤ a + b ∧ a + b ≤ 2147483647 ∧
    ¬(a + b ≤ nline ∧ ∀ q ∈ hs.getLast?, (q.1 : Int) < a)

section
variable {F : Type} [Arith F] (ndim nline : Nat) (data : List F)

theorem rdAt_ok (base i col : Nat) (h : base + i * 2 + col < data.length) : rdAt data base i col = .ok data[base + i * 2 + col] := by
  rw [rdAt, rd, List.getElem?_eq_getElem h]

/-- Sums over the measurements of a planet succeed when they lie in the table. -/
theorem hierSumCol_ok (base col : Nat) (hc : col ≤ 1) : ∀ (k i : Nat) (s : F), base + (i + k) * 2 ≤ data.length → ∃ v, hierSumCol data base col k i s = .ok v := by
  intro k
  induction k with
  | zero => intro i s _; exact ⟨s, rfl⟩
  | succ k ih =>
    intro i s h
    rw [hierSumCol, rdAt_ok data base i col (by omega)]
    exact ih (i + 1) _ (by omega)

theorem hierSum_ok (p : HierParms F) (base : Nat) (xmu ymu : F) : ∀ (k i : Nat) (s : F), base + (i + k) * 2 ≤ data.length → ∃ v, hierSum p data base xmu ymu k i s = .ok v := by
  intro k
  induction k with
  | zero => intro i s _; exact ⟨s, rfl⟩
  | succ k ih =>
    intro i s h
    rw [hierSum, rdAt_ok data base i 0 (by omega), rdAt_ok data base i 1 (by omega)]
    exact ih (i + 1) _ (by omega)

variable {ndim nline data}

theorem hierRow_ok (p : HierParms F) (hs : List (Nat × Nat)) (ht : Spec.HierTable ndim nline data hs) (i : Nat) (h : i < hs.length) :
    ∃ v, hierRow p ndim nline data i = .ok v := by
  have hq := ht.fits _ (List.getElem_mem h)
  have hp := ht.pos _ (List.getElem_mem h)
  have hc := ht.columns
  have hb : hs[i].1 * ndim + (0 + hs[i].2) * 2 ≤ data.length := by
    rw [ht.cells]
    calc hs[i].1 * ndim + (0 + hs[i].2) * 2 ≤ hs[i].1 * ndim + hs[i].2 * ndim := by
          have := Nat.mul_le_mul_left hs[i].2 hc
          omega
      _ = (hs[i].1 + hs[i].2) * ndim := by ring
      _ ≤ _ := Nat.mul_le_mul_right _ hq
  obtain ⟨sx, hsx⟩ := hierSumCol_ok data (hs[i].1 * ndim) 0 (by omega) hs[i].2 0 (ofI 0) hb
  obtain ⟨sy, hsy⟩ := hierSumCol_ok data (hs[i].1 * ndim) 1 (by omega) hs[i].2 0 (ofI 0) hb
  obtain ⟨v, hv⟩ := hierSum_ok data p (hs[i].1 * ndim) (sx /. ofI hs[i].2) (sy /. ofI hs[i].2) hs[i].2 0 (ofI 0) hb
  have hline : (0 : Int) ≤ (hs[i].1 : Int) ∧ ((hs[i].1 : Nat) : Int) < (nline : Int) := by omega
  simp only [hierRow, ht.start i h, ht.count i h, bind, Except.bind, if_pos hline, calcMean, Int.toNat_natCast, hsx, hsy, hierPlanet, hv]
  split
  · rename_i h1
    rw [rdAt_ok data _ 0 1 (by omega)]
    exact ⟨_, rfl⟩
  · exact ⟨_, rfl⟩

/-- The loop over the planets from row `i` on adds their values in order and stops behind the last one. -/
theorem hierLoop_planets (p : HierParms F) (hs : List (Nat × Nat)) (ht : Spec.HierTable ndim nline data hs) (v : Nat → F)
    (hv : ∀ i, i < hs.length → hierRow p ndim nline data i = .ok (v i)) : ∀ (k i fuel : Nat) (s : F), 1 ≤ i → i + k = hs.length → k < fuel →
      hierLoop p ndim nline data fuel i s = .ok ((List.range' i k).foldl (fun s j => s +. v j) s) := by
  intro k
  induction k with
  | zero =>
    intro i fuel s h1 hk hf
    obtain ⟨fuel, rfl⟩ : ∃ f, fuel = f + 1 := ⟨fuel - 1, by omega⟩
    obtain rfl : i = hs.length := by omega
    obtain ⟨a, b, ha, hb, hr1, hr2, hstop⟩ := ht.last
    have hprev : hierHead ndim nline data (hs.length - 1) 0 = .ok (hs[hs.length - 1]'(by omega)).1 := ht.start _ (by omega)
    rw [hierLoop]
    simp only [ha, hb, bind, Except.bind, if_pos (And.intro hr1 hr2), hprev]
    split
    · rename_i hle
      have hl : ¬ ((hs[hs.length - 1]'(by omega)).1 : Int) < a := by
        intro hlt
        refine hstop ⟨hle, fun q hq => ?_⟩
        rw [List.getLast?_eq_getElem?, List.getElem?_eq_getElem (by omega)] at hq
        injection hq with hq
        rw [← hq]
        exact hlt
      rw [if_neg hl]
      rfl
    · rfl
  | succ k ih =>
    intro i fuel s h1 hk hf
    obtain ⟨fuel, rfl⟩ : ∃ f, fuel = f + 1 := ⟨fuel - 1, by omega⟩
    have hi : i < hs.length := by omega
    have hq := ht.fits _ (List.getElem_mem hi)
    have hsm := ht.small
    have hprev : hierHead ndim nline data (i - 1) 0 = .ok (hs[i - 1]'(by omega)).1 := ht.start _ (by omega)
    have hinc : (hs[i - 1]'(by omega)).1 < hs[i].1 := by
      have := ht.increasing (i - 1) (by omega)
      simpa [Nat.sub_add_cancel h1] using this
    have hr : -2147483648 ≤ ((hs[i].1 : Nat) : Int) + ((hs[i].2 : Nat) : Int) ∧ ((hs[i].1 : Nat) : Int) + ((hs[i].2 : Nat) : Int) ≤ 2147483647 := by omega
    have hle : ((hs[i].1 : Nat) : Int) + ((hs[i].2 : Nat) : Int) ≤ (nline : Int) := by omega
    have hlt : (((hs[i - 1]'(by omega)).1 : Nat) : Int) < ((hs[i].1 : Nat) : Int) := by omega
    rw [hierLoop]
    simp only [ht.start i hi, ht.count i hi, bind, Except.bind, if_pos hr, if_pos hle, hprev, if_pos hlt, hv i hi]
    rw [ih (i + 1) fuel _ (by omega) (by omega) (by omega), List.range'_succ]
    rfl

/-- **C69, safety.** On such a table, with six parameters, `logll_beta` reads no cell outside the table, overflows nowhere and stops, whatever the arithmetic. Its value is beta times the sum
of the values of exactly the planets of the first section. -/
theorem hier_planets (hs : List (Nat × Nat)) (ht : Spec.HierTable ndim nline data hs) (x : List F) (p : HierParms F) (hx : hierParms x = .ok p) (beta : F) :
    ∃ v : Nat → F, (∀ i, i < hs.length → hierRow p ndim nline data i = .ok (v i)) ∧
      hierLogll ndim x nline data beta = .ok ((List.range hs.length).foldl (fun s j => s +. v j) (ofI 0) *. beta) := by
  classical
  have hex : ∀ i, ∃ v, i < hs.length → hierRow p ndim nline data i = .ok v := by
    intro i
    by_cases h : i < hs.length
    · obtain ⟨v, hv⟩ := hierRow_ok p hs ht i h
      exact ⟨v, fun _ => hv⟩
    · exact ⟨ofI 0, fun h' => absurd h' h⟩
  choose v hv using hex
  have hlen : 0 < hs.length := List.length_pos_iff.2 ht.some
  have hin := ht.inside
  refine ⟨v, hv, ?_⟩
  simp only [hierLogll, hx, bind, Except.bind, hv 0 hlen]
  rw [hierLoop_planets p hs ht v hv (hs.length - 1) 1 nline _ (by omega) (by omega) (by omega)]
  have hr : List.range hs.length = 0 :: List.range' 1 (hs.length - 1) := by
    rw [List.range_eq_range']
    obtain ⟨m, hm⟩ : ∃ m, hs.length = m + 1 := ⟨hs.length - 1, by omega⟩
    rw [hm, List.range'_succ]
    rfl
  rw [hr]
  rfl

end

/-! ## C69 with the value -/

/-- The measurements of a planet in a table of two columns. -/
noncomputable def Spec.measurements (data : List ℝ) (q : Nat × Nat) : List (ℝ × ℝ) :=
  (List.range q.2).map fun j => (data.getD ((q.1 + j) * 2) 0, data.getD ((q.1 + j) * 2 + 1) 0)

/-- The mean of a list. -/
noncomputable def Spec.mean (l : List ℝ) : ℝ := l.sum / l.length

/-- The log-likelihood of a planet: its true values are the means of its measurements. -/
noncomputable def Spec.hierPlanet (gammaPower logC lamY lamYobs lamXobs gammaLam : ℝ) (rows : List (ℝ × ℝ)) : ℝ :=
  (rows.map fun r => Spec.hierOne gammaPower logC lamY lamYobs lamXobs gammaLam r.1 r.2 (Spec.mean (rows.map (·.1))) (Spec.mean (rows.map (·.2)))).sum

section
variable {nline : Nat} {data : List ℝ}

theorem getD_eq {l : List ℝ} {i : Nat} (h : i < l.length) : l[i] = l.getD i 0 := by simp [List.getD, h]

theorem hierSumCol_real (base col : Nat) (hc : col ≤ 1) : ∀ (k i : Nat) (s : ℝ), base + (i + k) * 2 ≤ data.length →
    hierSumCol data base col k i s = .ok (s + ((List.range' i k).map fun j => data.getD (base + j * 2 + col) 0).sum) := by
  intro k
  induction k with
  | zero => intro i s _; simp [hierSumCol]
  | succ k ih =>
    intro i s h
    have hlt : base + i * 2 + col < data.length := by omega
    rw [hierSumCol, rdAt_ok data base i col hlt]
    show hierSumCol data base col k (i + 1) _ = _
    rw [ih (i + 1) _ (by omega), getD_eq hlt, List.range'_succ, List.map_cons, List.sum_cons, RealArith.add_eq, add_assoc]

theorem hierSum_real (p : HierParms ℝ) (base : Nat) (xmu ymu : ℝ) : ∀ (k i : Nat) (s : ℝ), base + (i + k) * 2 ≤ data.length →
    hierSum p data base xmu ymu k i s = .ok (s + ((List.range' i k).map fun j => NiiC.hierOne p (data.getD (base + j * 2 + 1) 0) ymu (data.getD (base + j * 2) 0) xmu).sum) := by
  intro k
  induction k with
  | zero => intro i s _; simp [hierSum]
  | succ k ih =>
    intro i s h
    have h0 : base + i * 2 + 0 < data.length := by omega
    have h1 : base + i * 2 + 1 < data.length := by omega
    rw [hierSum, rdAt_ok data base i 0 h0, rdAt_ok data base i 1 h1]
    show hierSum p data base xmu ymu k (i + 1) _ = _
    rw [ih (i + 1) _ (by omega), getD_eq h0, getD_eq h1, List.range'_succ, List.map_cons, List.sum_cons, RealArith.add_eq, add_assoc]
    rfl

/-- The value of a planet. The case of a single measurement is no exception: its mean is its value. -/
theorem hierRow_real (p : HierParms ℝ) (hs : List (Nat × Nat)) (ht : Spec.HierTable 2 nline data hs) (i : Nat) (h : i < hs.length)
    (hY : 0 < p.lambdaY) (hYo : 0 < p.lambdaYobs) (hXo : 0 < p.lambdaXobs) (hx : 0 < Spec.mean ((Spec.measurements data hs[i]).map (·.1))) :
    hierRow p 2 nline data i = .ok (Spec.hierPlanet p.gammaPower p.logC p.lambdaY p.lambdaYobs p.lambdaXobs p.gammaLambdaY (Spec.measurements data hs[i])
      + hs[i].2 * (3 * hierOffset)) := by
  generalize hq : hs[i] = q at hx
  obtain ⟨st, cnt⟩ := q
  have hfit := ht.fits _ (List.getElem_mem h)
  have hpos := ht.pos _ (List.getElem_mem h)
  rw [hq] at hfit hpos
  simp only at hfit hpos
  have hb : st * 2 + (0 + cnt) * 2 ≤ data.length := by rw [ht.cells]; omega
  have hx' : ∀ j, st * 2 + j * 2 = (st + j) * 2 := fun j => by ring
  have mx : Spec.mean ((Spec.measurements data (st, cnt)).map (·.1)) = ((List.range' 0 cnt).map fun j => data.getD (st * 2 + j * 2 + 0) 0).sum / cnt := by
    simp only [Spec.mean, Spec.measurements, List.map_map, List.length_map, List.length_range, ← List.range_eq_range', Nat.add_zero, hx']
    rfl
  have my : Spec.mean ((Spec.measurements data (st, cnt)).map (·.2)) = ((List.range' 0 cnt).map fun j => data.getD (st * 2 + j * 2 + 1) 0).sum / cnt := by
    simp only [Spec.mean, Spec.measurements, List.map_map, List.length_map, List.length_range, ← List.range_eq_range', hx']
    rfl
  have hline : (0 : Int) ≤ (st : Int) ∧ (st : Int) < (nline : Int) := by omega
  have e0 : (ofI 0 : ℝ) = 0 := by simp
  have hst := ht.start i h
  have hct := ht.count i h
  rw [hq] at hst hct
  have eX : calcMean data (st * 2) (cnt : Int) 0 = .ok (Spec.mean ((Spec.measurements data (st, cnt)).map (·.1))) := by
    rw [calcMean, Int.toNat_natCast, hierSumCol_real _ _ (by omega) _ _ _ hb, e0, zero_add, mx]
    show Except.ok _ = _
    rw [RealArith.div_eq, RealArith.ofI_eq, Int.cast_natCast]
  have eY : calcMean data (st * 2) (cnt : Int) 1 = .ok (Spec.mean ((Spec.measurements data (st, cnt)).map (·.2))) := by
    rw [calcMean, Int.toNat_natCast, hierSumCol_real _ _ (by omega) _ _ _ hb, e0, zero_add, my]
    show Except.ok _ = _
    rw [RealArith.div_eq, RealArith.ofI_eq, Int.cast_natCast]
  have hsum : ∀ xm ym : ℝ, 0 < xm → ((List.range' 0 cnt).map fun j => NiiC.hierOne p (data.getD (st * 2 + j * 2 + 1) 0) ym (data.getD (st * 2 + j * 2) 0) xm).sum =
      ((Spec.measurements data (st, cnt)).map fun r => Spec.hierOne p.gammaPower p.logC p.lambdaY p.lambdaYobs p.lambdaXobs p.gammaLambdaY r.1 r.2 xm ym).sum + cnt * (3 * hierOffset) := by
    intro xm ym hxm
    simp only [Spec.measurements, ← List.range_eq_range', hier_one p hY hYo hXo _ _ xm ym hxm, hx', List.map_map]
    rw [List.sum_map_add]
    simp
    rfl
  have hsingle : ∀ (c : Int) (xm ym : ℝ), c = cnt → xm = Spec.mean ((Spec.measurements data (st, cnt)).map (·.1)) →
      hierPlanet p data (st * 2) c xm ym = .ok ((List.range' 0 cnt).map fun j => NiiC.hierOne p (data.getD (st * 2 + j * 2 + 1) 0) ym (data.getD (st * 2 + j * 2) 0) xm).sum := by
    intro c xm ym hc hxm
    rw [NiiC.hierPlanet]
    split
    · rename_i h1
      obtain rfl : cnt = 1 := by omega
      have hlt : st * 2 + 0 * 2 + 1 < data.length := by omega
      rw [rdAt_ok data _ 0 1 hlt]
      have hxx : xm = data.getD (st * 2 + 0 * 2) 0 := by
        rw [hxm, mx]
        simp
      show Except.ok (NiiC.hierOne p _ ym xm xm) = _
      rw [getD_eq hlt]
      simp only [List.range'_one, List.map_cons, List.map_nil, List.sum_cons, List.sum_nil, add_zero]
      rw [← hxx]
    · rw [hc, Int.toNat_natCast, hierSum_real p _ _ _ _ _ _ hb, e0, zero_add]
  simp only [hierRow, hst, hct, bind, Except.bind, if_pos hline, Int.toNat_natCast, eX, eY]
  rw [hsingle _ _ _ rfl rfl, hsum _ _ hx]
  rfl

/-- **C69 with the value.** On a table of two columns whose planets have positive means of x, `logll_beta` is beta times the sum of the planets' log-likelihoods, plus a constant for each measurement. -/
theorem hier_loglik (hs : List (Nat × Nat)) (ht : Spec.HierTable 2 nline data hs) (x : List ℝ) (p : HierParms ℝ) (hx : hierParms x = .ok p)
    (hpos : ∀ q ∈ hs, 0 < Spec.mean ((Spec.measurements data q).map (·.1))) (beta : ℝ) :
    hierLogll 2 x nline data beta = .ok (beta * ((hs.map fun q => Spec.hierPlanet p.gammaPower p.logC p.lambdaY p.lambdaYobs p.lambdaXobs p.gammaLambdaY (Spec.measurements data q)).sum
      + (hs.map fun q => (q.2 : ℝ)).sum * (3 * hierOffset))) := by
  obtain ⟨hY, hYo, hXo⟩ := hierParms_pos x p hx
  obtain ⟨v, hv, hl⟩ := hier_planets hs ht x p hx beta
  rw [hl]
  have hval : ∀ i (h : i < hs.length), v i = Spec.hierPlanet p.gammaPower p.logC p.lambdaY p.lambdaYobs p.lambdaXobs p.gammaLambdaY (Spec.measurements data hs[i])
      + hs[i].2 * (3 * hierOffset) := by
    intro i h
    have h1 := hv i h
    rw [hierRow_real p hs ht i h hY hYo hXo (hpos _ (List.getElem_mem h))] at h1
    injection h1 with h1
    exact h1.symm
  have hfold : ∀ (l : List Nat) (s : ℝ), l.foldl (fun s j => s +. v j) s = s + (l.map v).sum := by
    intro l
    induction l with
    | nil => intro s; simp
    | cons a l ih => intro s; rw [List.foldl_cons, ih, List.map_cons, List.sum_cons, RealArith.add_eq, add_assoc]
  have hmap : (List.range hs.length).map v = hs.map fun q => Spec.hierPlanet p.gammaPower p.logC p.lambdaY p.lambdaYobs p.lambdaXobs p.gammaLambdaY (Spec.measurements data q)
      + q.2 * (3 * hierOffset) := by
    refine List.ext_getElem (by simp) (fun i h1 h2 => ?_)
    simp only [List.getElem_map, List.getElem_range]
    exact hval i (by simpa using h1)
  rw [hfold, hmap, List.sum_map_add, List.sum_map_mul_right, RealArith.mul_eq, RealArith.ofI_eq]
  congr 1
  push_cast
  ring

end

/-! ## Tables that are misread -/

theorem truncI_nat (k : ℕ) (h : k < 2147483648) : truncI (k : ℝ) = .ok (k : Int) := by
  have hk : ((k : ℕ) : ℝ) < 2147483648 := by exact_mod_cast h
  have h0 : (0 : ℝ) ≤ (k : ℕ) := Nat.cast_nonneg k
  have c1 : (ofI (-2147483649) <. (k : ℝ)) = true := by rw [RealArith.lt_iff, RealArith.ofI_eq]; push_cast; linarith
  have c2 : ((k : ℝ) <. ofI 2147483648) = true := by rw [RealArith.lt_iff, RealArith.ofI_eq]; push_cast; linarith
  have c3 : ¬((k : ℝ) <. ofI 0) = true := by rw [RealArith.lt_iff, RealArith.ofI_eq]; push_cast; linarith
  rw [truncI, c1, c2, if_neg c3]
  simp

/-- A planet with two measurements: described in row 0, measured in rows 1 and 2. -/
theorem demoPlanet_table : Spec.HierTable 2 3 [1, 2, 1, 5, 1, (7 : ℝ)] [(1, 2)] := by
  have t : ∀ k : ℕ, k < 2147483648 → truncI (k : ℝ) = .ok (k : Int) := truncI_nat
  have t1 := t 1 (by norm_num)
  have t2 := t 2 (by norm_num)
  have t5 := t 5 (by norm_num)
  norm_num at t1 t2 t5
  have h00 : hierHead 2 3 [1, 2, 1, 5, 1, (7 : ℝ)] 0 0 = .ok 1 := t1
  have h01 : hierHead 2 3 [1, 2, 1, 5, 1, (7 : ℝ)] 0 1 = .ok 2 := t2
  have h10 : hierHead 2 3 [1, 2, 1, 5, 1, (7 : ℝ)] 1 0 = .ok 1 := t1
  have h11 : hierHead 2 3 [1, 2, 1, 5, 1, (7 : ℝ)] 1 1 = .ok 5 := t5
  refine ⟨by norm_num, by norm_num, by norm_num, by simp, by simp, ?_, ?_, by simp, by simp, by simp, 1, 5, h10, h11, by norm_num, by norm_num, by norm_num⟩
  · intro i h
    obtain rfl : i = 0 := by simpa using h
    exact h00
  · intro i h
    obtain rfl : i = 0 := by simpa using h
    exact h01

example (beta : ℝ) : ∃ v : Nat → ℝ, hierLogll 2 [2, -1, -3, -4, -5, 1 / 2] 3 [1, 2, 1, 5, 1, 7] beta = .ok (([0].foldl (fun s j => s +. v j) (ofI 0)) *. beta) := by
  obtain ⟨v, -, h⟩ := hier_planets [(1, 2)] demoPlanet_table [2, -1, -3, -4, -5, 1 / 2] _ rfl beta
  exact ⟨v, h⟩

example (beta : ℝ) : hierLogll 2 [2, -1, -3, -4, -5, 1 / 2] 3 [1, 2, 1, 5, 1, 7] beta =
    .ok (beta * (Spec.hierPlanet 2 (-1) (Real.exp (-3)) (Real.exp (-4)) (Real.exp (-5)) (1 / 2) [(1, 5), (1, 7)] + 2 * (3 * hierOffset))) := by
  have e : Spec.measurements [1, 2, 1, 5, 1, (7 : ℝ)] (1, 2) = [(1, 5), (1, 7)] := by simp [Spec.measurements, List.range, List.range.loop]
  rw [hier_loglik [(1, 2)] demoPlanet_table [2, -1, -3, -4, -5, 1 / 2] _ rfl (fun q hq => ?_) beta]
  · simp only [List.map_cons, List.map_nil, List.sum_cons, List.sum_nil, add_zero, e]
    norm_num
  · rw [List.mem_singleton.1 hq, e]
    norm_num [Spec.mean]

/-- **C69 fails without the condition on the first measurement.** One planet with one measurement whose x is 2 in a table of two rows: the loop takes the measurement for the description of
a second planet and reads a row behind the table. -/
theorem hier_oob (x : List ℝ) (p : HierParms ℝ) (hx : hierParms x = .ok p) (beta : ℝ) : hierLogll 2 x 2 [1, 1, 2, 0] beta = .error .oob := by
  have t0 := truncI_nat 0 (by norm_num)
  have t1 := truncI_nat 1 (by norm_num)
  have t2 := truncI_nat 2 (by norm_num)
  norm_num at t0 t1 t2
  have h00 : hierHead 2 2 [1, 1, 2, (0 : ℝ)] 0 0 = .ok 1 := t1
  have h01 : hierHead 2 2 [1, 1, 2, (0 : ℝ)] 0 1 = .ok 1 := t1
  have h10 : hierHead 2 2 [1, 1, 2, (0 : ℝ)] 1 0 = .ok 2 := t2
  have h11 : hierHead 2 2 [1, 1, 2, (0 : ℝ)] 1 1 = .ok 0 := t0
  have hrow : ∃ v, hierRow p 2 2 [1, 1, 2, (0 : ℝ)] 0 = .ok v := by
    rw [hierRow, h00, h01]
    exact ⟨_, rfl⟩
  have hrow1 : hierRow p 2 2 [1, 1, 2, (0 : ℝ)] 1 = .error .oob := by
    rw [hierRow, h10, h11]
    rfl
  obtain ⟨v, hv⟩ := hrow
  have hl : ∀ s : ℝ, hierLoop p 2 2 [1, 1, 2, (0 : ℝ)] 2 1 s = .error .oob := by
    intro s
    rw [hierLoop, h10, h11]
    simp [bind, Except.bind, h00, hrow1]
  simp only [hierLogll, hx, bind, Except.bind, hv, hl]

example : hierLogll 2 [2, -1, -3, -4, -5, (1 / 2 : ℝ)] 2 [1, 1, 2, 0] 1 = .error .oob := hier_oob _ _ rfl 1

end NiiC
