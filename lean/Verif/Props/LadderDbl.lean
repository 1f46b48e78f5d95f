import Verif.Props.GridDbl
import Verif.Props.Ladder
import Verif.Num.Recip

/-!
# Counts, rates and the ladder in doubles: C97
-/

set_option linter.unusedSectionVars false
set_option linter.unusedSimpArgs false

namespace NiiC

open Dbl

/-! ## Tallies and rates -/

/-- Counting in doubles is exact up to `2^53`, for any rounding. -/
theorem countsExact_doubles (R : Rounding) : CountsExact (Dbl R) (2 ^ 53) := by
  intro a ha
  have h1 : |((a : Int))| ≤ 2 ^ 53 := by rw [abs_of_nonneg (by omega)]; exact_mod_cast ha.le
  have h2 : |(((a + 1 : Nat) : Int))| ≤ 2 ^ 53 := by rw [abs_of_nonneg (by omega)]; exact_mod_cast ha
  rw [ofI_int _ h1, ofI_int _ h2, ofI_int 1 (by norm_num), ofI_int 0 (by norm_num)]
  constructor
  · have := R.rnd_int _ h2
    rw [add_fin]
    push_cast at this ⊢
    exact this
  · have := R.rnd_int _ h1
    rw [add_fin]
    push_cast at this ⊢
    rw [add_zero]
    exact this

/-- The tallies of the pairs in doubles: whole numbers up to `2^53`, made at most proposed. -/
def CountsD {n : Nat} (nsw npr : Fin n → Double) : Prop :=
  ∀ r, ∃ m p : Nat, m ≤ p ∧ p ≤ 2 ^ 53 ∧ nsw r = fin (m : ℝ) ∧ npr r = fin (p : ℝ)

/-- In binary64 a counter stops at `2^53`. -/
theorem counter_stops (a : Nat) (h : a ≤ 2 ^ 53) : (fin (a : ℝ) +. ofI 1 : Double) = fin ((min (a + 1) (2 ^ 53) : Nat) : ℝ) := by
  rw [ofI_int 1 (by norm_num), add_fin]
  rcases h.lt_or_eq with h | h
  · have := Rounding.binary64.rnd_int ((a + 1 : Nat) : Int) (by rw [abs_of_nonneg (by omega)]; exact_mod_cast h)
    rw [min_eq_left (by omega)]
    push_cast at this ⊢
    exact this
  · rw [min_eq_right (by omega)]
    have hr : Binary64.rne (((2 : ℝ) ^ 53 + 1) / 2) = 2 ^ 52 := by
      have hf : ⌊((2 : ℝ) ^ 53 + 1) / 2⌋ = 2 ^ 52 := by
        rw [Int.floor_eq_iff]
        push_cast
        constructor <;> norm_num
      unfold Binary64.rne
      rw [hf]
      norm_num
      exact ⟨2251799813685248, by norm_num⟩
    have h1 := Binary64.round53_at (t := ((2 : ℝ) ^ 53 + 1) / 2) (e := 1) (by norm_num) (by norm_num) (by norm_num)
    rw [hr] at h1
    have e : ((a : ℝ) + ((1 : Int) : ℝ)) = ((2 : ℝ) ^ 53 + 1) / 2 * 2 ^ (1 : Int) := by
      rw [h]; push_cast; norm_num
    show Binary64.rnd _ = _
    rw [e, Binary64.rnd_fin, h1]
    · push_cast
      norm_num
      rfl
    · rw [h1]
      push_cast
      have h2 : (2 : ℝ) ^ 53 < 2 ^ 1024 := pow_lt_pow_right₀ (by norm_num) (by norm_num)
      rw [show (4503599627370496 : ℝ) * 2 ^ (1 : Int) = 2 ^ 53 by norm_num, abs_of_nonneg (by positivity)]
      exact h2

theorem fin_add_zero (a : Nat) (h : a ≤ 2 ^ 53) : (fin (a : ℝ) +. ofI 0 : Double) = fin (a : ℝ) := by
  rw [ofI_int 0 (by norm_num), add_fin]
  have := Rounding.binary64.rnd_int (a : Int) (by rw [abs_of_nonneg (by omega)]; exact_mod_cast h)
  push_cast at this ⊢
  rw [add_zero]
  exact this

/-- Whatever the number of swaps, the tallies of a stack are whole numbers of which made is at most proposed. -/
theorem Tally.Reach.countsD {n : Nat} {ty : Tally n Double} (h : ty.Reach) : CountsD ty.nsw ty.npr := by
  have z : (ofI 0 : Double) = fin ((0 : Nat) : ℝ) := by rw [ofI_int 0 (by norm_num)]; norm_num
  induction h with
  | zero => exact fun r => ⟨0, 0, le_refl _, by norm_num, z, z⟩
  | add ty i d _ ih =>
    intro r
    obtain ⟨m, p, h, hp, h1, h2⟩ := ih r
    by_cases hr : r = i
    · subst hr
      refine ⟨if d then min (m + 1) (2 ^ 53) else m, min (p + 1) (2 ^ 53), by split <;> omega, by omega, ?_, ?_⟩
      · simp only [Tally.add, Function.update_self, h1]
        cases d
        · simpa using fin_add_zero m (by omega)
        · simpa using counter_stops m (by omega)
      · simp only [Tally.add, Function.update_self, h2]
        exact counter_stops p hp
    · exact ⟨m, p, h, hp, by simp only [Tally.add, Function.update_of_ne hr, h1], by simp only [Tally.add, Function.update_of_ne hr, h2]⟩

/-- **C97, swap rates.** The swap rate of a pair is NaN if no swap was proposed, else the fraction of swaps made, rounded, a number in [0, 1]. -/
theorem swap_rate_doubles {n : Nat} {nsw npr : Fin n → Double} {r : Fin n} {m p : Nat} (h : m ≤ p) (h1 : nsw r = fin (m : ℝ))
    (h2 : npr r = fin (p : ℝ)) :
    (p = 0 → swapRate (ext nsw) (ext npr) r.val = nan) ∧
    (0 < p → swapRate (ext nsw) (ext npr) r.val = Binary64.rnd ((m : ℝ) / p) ∧
      ∃ v, swapRate (ext nsw) (ext npr) r.val = fin v ∧ 0 ≤ v ∧ v ≤ 1) := by
  simp only [swapRate, ext, r.isLt, dif_pos, h1, h2]
  constructor
  · rintro rfl
    obtain rfl : m = 0 := by omega
    simpa using zero_div_zero (R := Rounding.binary64)
  · intro hp
    have hp' : (0 : ℝ) < p := by exact_mod_cast hp
    have e := div_fin (R := Rounding.binary64) (m : ℝ) (p : ℝ) hp'.ne'
    refine ⟨e, ?_⟩
    obtain ⟨v, hv, a, b⟩ := rnd_between (R := Rounding.binary64) (div_nonneg (Nat.cast_nonneg m) hp'.le)
      ((div_le_one hp').2 (by exact_mod_cast h)) rnd_zero rnd_one
    exact ⟨v, e.trans hv, a, b⟩

/-- A swap rate in doubles. -/
def RateD (v : Double) : Prop := v = nan ∨ ∃ p : ℝ, v = fin p ∧ 0 ≤ p ∧ p ≤ 1

theorem CountsD.rate {n : Nat} {nsw npr : Fin n → Double} (h : CountsD nsw npr) (r : Fin n) : RateD (swapRate (ext nsw) (ext npr) r.val) := by
  obtain ⟨m, p, hmp, -, h1, h2⟩ := h r
  obtain ⟨c1, c2⟩ := swap_rate_doubles hmp h1 h2
  rcases Nat.eq_zero_or_pos p with hp | hp
  · exact .inl (c1 hp)
  · exact .inr (c2 hp).2

/-- One swap made of three proposed, and a pair never proposed. -/
example : ∃ v, swapRate (ext (n := 2) (fun _ => (fin ((1 : Nat) : ℝ) : Double))) (ext (n := 2) (fun _ => fin ((3 : Nat) : ℝ))) 0 = fin v ∧ 0 ≤ v ∧ v ≤ 1 :=
  ((swap_rate_doubles (n := 2) (nsw := fun _ => fin ((1 : Nat) : ℝ)) (npr := fun _ => fin ((3 : Nat) : ℝ)) (r := 0) (by norm_num) rfl rfl).2
    (by norm_num)).2

/-- **C97, acceptance rates of stacks.** In doubles of any rounding the rate used for the decision to tune is the fraction of accepted
proposals, rounded, and lies in [0, 1]. -/
theorem stack_rate_doubles {R : Rounding} {n : Nat} (cfg : Cfg (Dbl R)) (i e : Int) (w w1 w2 : W n (Dbl R)) (h : Round cfg i e w w1 w2) (hi : i < e)
    (hie : e - i ≤ 2 ^ 53) (r : Fin n) :
    roundRate i e w w1 r = R.rnd ((((w1.st.accA r : Int) - w.st.accA r : Int) : ℝ) / (((w1.st.acc r : Int) - w.st.acc r : Int) : ℝ)) ∧
    ∃ v, roundRate i e w w1 r = fin v ∧ 0 ≤ v ∧ v ≤ 1 := by
  have h1 := h.accepted r
  have h2 := h.before r
  have h3 := h.after r
  obtain ⟨a, ha⟩ : ∃ a : Int, (w1.st.accA r : Int) - w.st.accA r = a := ⟨_, rfl⟩
  obtain ⟨b, hb⟩ : ∃ b : Int, e - i = b := ⟨_, rfl⟩
  have a0 : 0 ≤ a := by omega
  have ab : a ≤ b := by omega
  have b0 : 0 < b := by omega
  have b0' : (0 : ℝ) < b := by exact_mod_cast b0
  have e0 : roundRate i e w w1 r = R.rnd ((a : ℝ) / (b : ℝ)) := by
    simp only [roundRate, ha, hb]
    rw [ofI_int a (by rw [abs_of_nonneg a0]; omega), ofI_int b (by rw [abs_of_nonneg b0.le]; omega), div_fin _ _ b0'.ne']
  have e1 : (w1.st.acc r : Int) - w.st.acc r = b := by omega
  refine ⟨by rw [e0, ha, e1], ?_⟩
  obtain ⟨v, hv, c, d⟩ := rnd_between (R := R) (div_nonneg (by exact_mod_cast a0 : (0 : ℝ) ≤ (a : ℝ)) b0'.le)
      ((div_le_one b0').2 (by exact_mod_cast ab : (a : ℝ) ≤ (b : ℝ))) rnd_zero rnd_one
  exact ⟨v, e0.trans hv, c, d⟩

/-- The first round of the demo. -/
example : ∃ w0 w w1 w2 : W 3 Double, seqMain demoCfgD demoFileD 0 (0 : Fin 3) = .ok w ∧ Round demoCfgD 0 300 w0 w1 w2 ∧
    ∀ r, ∃ v, roundRate 0 300 w0 w1 r = fin v ∧ 0 ≤ v ∧ v ≤ 1 := by
  obtain ⟨w, hw⟩ := seqMain_total demoCfgD demoFileD demoD_valid 0 (0 : Fin 3)
  obtain ⟨w0, h0, hr⟩ := run_rounds demoCfgD demoFileD demoD_valid 0 0 w hw
  cases hr with
  | done i w h => simp [demoCfgD] at h
  | more i e w w1 w2 w3 h hr hrest =>
    obtain rfl : e = 300 := by rw [hr.length]; simp [demoCfgD]
    exact ⟨_, _, w1, w2, hw, hr, fun r => (stack_rate_doubles demoCfgD 0 300 _ w1 w2 hr (by decide) (by decide) r).2⟩

/-- **C97, acceptance rates of tuning runs.** -/
theorem tune_rate_doubles {R : Rounding} (nParm : Nat) (u : User (Dbl R)) (hu : u.Wf nParm) (sigma : List (Dbl R)) (hs : sigma.length = nParm)
    (nline : Int) (data : List (Dbl R)) (beta : Dbl R) (nIter : Int) (h0 : 1 ≤ nIter) (h1 : nIter ≤ 2147483647) (x : List (Dbl R))
    (hx : x.length = nParm) (lp : Dbl R) (g : Rng) :
    ∃ rate g', iterBatchTune nParm u sigma nline data beta nIter x lp g = .ok (rate, g') ∧
      rate = R.rnd ((acceptedIn u sigma nline data beta nIter.toNat ⟨x, lp, 0, 0, g⟩ : ℝ) / (nIter : ℝ)) ∧ ∃ v, rate = fin v ∧ 0 ≤ v ∧ v ≤ 1 := by
  have h := iterBatchTune_eq nParm u sigma nline data beta hu hs nIter (by omega) x lp g hx
  rw [h]
  have hle := acceptedIn_le u sigma nline data beta nIter.toNat ⟨x, lp, 0, 0, g⟩
  obtain ⟨k, hk⟩ : ∃ k, acceptedIn u sigma nline data beta nIter.toNat ⟨x, lp, 0, 0, g⟩ = k := ⟨_, rfl⟩
  rw [hk] at hle
  have hn : (0 : ℝ) < (nIter : ℝ) := by exact_mod_cast (by omega : 0 < nIter)
  have hkn : ((k : Nat) : ℝ) ≤ (nIter : ℝ) := by
    have : (k : Int) ≤ nIter := by omega
    exact_mod_cast this
  refine ⟨_, _, rfl, ?_⟩
  rw [mhIter_accepted, hk]
  have e : (ofI (((0 + k : Nat) : Int)) /. ofI nIter : Dbl R) = R.rnd ((k : ℝ) / (nIter : ℝ)) := by
    rw [ofI_int _ (by rw [abs_of_nonneg (by omega)]; norm_num; omega), ofI_int nIter (by rw [abs_of_nonneg (by omega)]; norm_num; omega),
      div_fin _ _ hn.ne']
    push_cast
    rw [zero_add]
  obtain ⟨v, hv, c, d⟩ := rnd_between (R := R) (div_nonneg (Nat.cast_nonneg k) hn.le) ((div_le_one hn).2 hkn) rnd_zero rnd_one
  exact ⟨e, v, e.trans hv, c, d⟩

/-- Ten tuning iterations of the demo posterior. -/
example (g : Rng) : ∃ rate g', iterBatchTune 1 demoUserD [fin 1] 0 [] (fin 1) 10 [fin 0] (fin 0) g = .ok (rate, g') ∧ ∃ v, rate = fin v ∧ 0 ≤ v ∧ v ≤ 1 := by
  obtain ⟨rate, g', h, -, hv⟩ := tune_rate_doubles 1 demoUserD demoD_valid.user [fin 1] rfl 0 [] (fin 1) 10 (by norm_num) (by norm_num) [fin 0] rfl (fin 0) g
  exact ⟨rate, g', h, hv⟩

/-! ## The ladder of three ranks -/

theorem fmin_fin (a b : ℝ) : (Arith.fmin (fin a) (fin b) : Double) = fin (min a b) := by
  by_cases h : a < b
  · rw [min_eq_left h.le]; exact if_pos h
  · rw [min_eq_right (not_lt.1 h)]; exact if_neg h

theorem fmax_fin (a b : ℝ) : (Arith.fmax (fin a) (fin b) : Double) = fin (max a b) := by
  by_cases h : b < a
  · rw [max_eq_left h.le]; exact if_pos h
  · rw [max_eq_right (not_lt.1 h)]; exact if_neg h

/-- A rounded result between two numbers of the format is a number of the format between them. -/
theorem rnd_in {x y z : ℝ} (hxy : x ≤ y) (hyz : y ≤ z) (hx : Binary64.Number x) (hz : Binary64.Number z) :
    ∃ v, Binary64.rnd y = .fin v ∧ Binary64.Number v ∧ x ≤ v ∧ v ≤ z := by
  obtain ⟨v, hv, h1, h2⟩ := rnd_between (R := Rounding.binary64) hxy hyz ((Binary64.number_iff x).1 hx) ((Binary64.number_iff z).1 hz)
  exact ⟨v, hv, (Binary64.number_iff v).2 (Rounding.binary64.rnd_idem _ _ hv), h1, h2⟩

theorem number_pow (k : Nat) (h : k ≤ 970) : Binary64.Number ((2 : ℝ) ^ k) := by
  rw [Binary64.number_iff]
  have := Binary64.rnd_repr 1 (k : Int) (by norm_num) (by omega) (by omega)
  rw [Int.cast_one, one_mul, zpow_natCast] at this
  exact this

theorem number_zero : Binary64.Number 0 := (Binary64.number_iff 0).2 Binary64.rnd_zero
theorem number_one : Binary64.Number 1 := (Binary64.number_iff 1).2 Binary64.rnd_one

theorem number_div (m : Int) (k : Nat) (hm : |m| ≤ 2 ^ 53) (hk : k ≤ 1074) : Binary64.Number ((m : ℝ) / 2 ^ k) := by
  rw [Binary64.number_iff]
  have := Binary64.rnd_repr m (-(k : Int)) hm (by omega) (by omega)
  rw [zpow_neg, zpow_natCast, ← div_eq_mul_inv] at this
  exact this

/-- The two factors next to one: `1 - 0.01` and `1 + 0.01`. -/
theorem hundredth_factors : (∃ c, (ofI 1 -. Arith.lit 1 100 : Double) = fin c ∧ 63 / 64 ≤ c ∧ c ≤ 1) ∧
    ∃ c, (ofI 1 +. Arith.lit 1 100 : Double) = fin c ∧ 1 ≤ c ∧ c ≤ 65 / 64 := by
  obtain ⟨l, hl, -, l0, l1⟩ := rnd_in (x := 0) (y := ((1 : Int) : ℝ) / ((100 : Nat) : ℝ)) (z := 1 / 64) (by norm_num) (by norm_num) number_zero
    (by simpa [show (2 : ℝ) ^ 6 = 64 by norm_num] using number_div 1 6 (by norm_num) (by norm_num))
  have e : (Arith.lit 1 100 : Double) = fin l := hl
  rw [e, ofI_int 1 (by norm_num), sub_fin, add_fin]
  constructor
  · obtain ⟨c, hc, -, h1, h2⟩ := rnd_in (x := 63 / 64) (y := ((1 : Int) : ℝ) - l) (z := 1) (by push_cast; linarith) (by push_cast; linarith)
      (by simpa [show (2 : ℝ) ^ 6 = 64 by norm_num] using number_div 63 6 (by norm_num) (by norm_num)) number_one
    exact ⟨c, hc, h1, h2⟩
  · obtain ⟨c, hc, -, h1, h2⟩ := rnd_in (x := 1) (y := ((1 : Int) : ℝ) + l) (z := 65 / 64) (by push_cast; linarith) (by push_cast; linarith) number_one
      (by simpa [show (2 : ℝ) ^ 6 = 64 by norm_num] using number_div 65 6 (by norm_num) (by norm_num))
    exact ⟨c, hc, h1, h2⟩

/-- The relative difference of two rates lies in [-1, 1]. -/
theorem rate_difference {p q : ℝ} (hp : 0 ≤ p) (hp1 : p ≤ 1) (hq : 0 ≤ q) (hq1 : q ≤ 1)
    (h : ((ofI 0 : Double) <. (fin p +. fin q)) = true) :
    ∃ d, ((fin q -. fin p) /. (fin q +. fin p) : Double) = fin d ∧ -1 ≤ d ∧ d ≤ 1 := by
  have n2 : Binary64.Number 2 := by simpa using number_pow 1 (by norm_num)
  obtain ⟨s, hs, -, s0, s2⟩ := rnd_in (x := 0) (y := p + q) (z := 2) (by linarith) (by linarith) number_zero n2
  obtain ⟨m, hm, -, m0, m1⟩ := rnd_in (x := -1) (y := q - p) (z := 1) (by linarith) (by linarith)
    ((Binary64.number_iff _).2 Binary64.rnd_neg_one) number_one
  have es : (fin p +. fin q : Double) = fin s := hs
  have es' : (fin q +. fin p : Double) = fin s := by
    rw [add_fin, add_comm]
    exact hs
  have em : (fin q -. fin p : Double) = fin m := by
    rw [sub_fin]
    exact hm
  rw [es, ofI_int 0 (by norm_num), lt_fin, Int.cast_zero] at h
  have c1 : m ≤ s := by
    rw [← (Binary64.rnd_eq_fin hm).1, ← (Binary64.rnd_eq_fin hs).1]
    exact Binary64.round53_mono (by linarith)
  have c2 : -s ≤ m := by
    rw [← (Binary64.rnd_eq_fin hm).1, ← (Binary64.rnd_eq_fin hs).1, ← Binary64.round53_neg]
    exact Binary64.round53_mono (by linarith)
  rw [em, es', div_fin _ _ h.ne']
  obtain ⟨d, hd, -, h1, h2⟩ := rnd_in (x := -1) (y := m / s) (z := 1) (by rw [le_div_iff₀ h]; linarith) (by rw [div_le_iff₀ h]; linarith)
    ((Binary64.number_iff _).2 Binary64.rnd_neg_one) number_one
  exact ⟨d, hd, h1, h2⟩

/-- Temperatures of the two ends, in doubles. -/
structure Ends (T0 T2 : ℝ) : Prop where
  n0 : Binary64.Number T0
  n2 : Binary64.Number T2
  low : 1 / 2 ^ 110 ≤ T2
  gap : T2 * (64 / 63) ≤ T0
  high : T0 ≤ 2 ^ 110

theorem Ends.pos {T0 T2 : ℝ} (h : Ends T0 T2) : 0 < T2 := lt_of_lt_of_le (by positivity) h.low
theorem Ends.le {T0 T2 : ℝ} (h : Ends T0 T2) : T2 ≤ T0 := by
  have := h.gap
  have := h.pos
  linarith

/-- A product of nonnegative numbers of which one is at most one. -/
theorem mul_in {a d : ℝ} (ha : 0 ≤ a) (hd : 0 ≤ d) (hd1 : d ≤ 1) (na : Binary64.Number a) :
    ∃ v, (fin a *. fin d : Double) = fin v ∧ Binary64.Number v ∧ 0 ≤ v ∧ v ≤ a :=
  rnd_in (mul_nonneg ha hd) (mul_le_of_le_one_right ha hd1) number_zero na

theorem one_sub_in {z : ℝ} (h0 : 0 ≤ z) (h1 : z ≤ 1) : ∃ v, (ofI 1 -. fin z : Double) = fin v ∧ 0 ≤ v ∧ v ≤ 1 := by
  rw [ofI_int 1 (by norm_num), sub_fin]
  obtain ⟨v, hv, -, a, b⟩ := rnd_in (x := 0) (y := ((1 : Int) : ℝ) - z) (z := 1) (by push_cast; linarith) (by push_cast; linarith) number_zero number_one
  exact ⟨v, hv, a, b⟩

/-- The reset lands between the neighbours. -/
theorem reset_in {T0 T2 : ℝ} (h : Ends T0 T2) {b T : Nat → Double} (b0 : invB b 0 = fin T0) (b2 : invB b 2 = fin T2) (t0 : T 0 = fin T0) :
    ∃ v, ladderReset b T 1 = fin v ∧ Binary64.Number v ∧ T2 ≤ v ∧ v ≤ T0 := by
  have p2 := h.pos
  have p0 : 0 < T0 := p2.trans_le h.le
  have x1 : 64 / 63 ≤ T0 / T2 := by rw [le_div_iff₀ p2]; linarith [h.gap]
  have x2 : T0 / T2 ≤ 2 ^ 250 := by
    rw [div_le_iff₀ p2]
    have h1 := h.low
    have h2 := h.high
    calc T0 ≤ 2 ^ 110 := h2
      _ ≤ 2 ^ 250 * (1 / 2 ^ 110) := by norm_num
      _ ≤ _ := mul_le_mul_of_nonneg_left h1 (by positivity)
  obtain ⟨x, hx⟩ : ∃ x, T0 / T2 = x := ⟨_, rfl⟩
  rw [hx] at x1 x2
  obtain ⟨r, hr, r1, r2⟩ := rnd_rel (x := x) (le_trans (by norm_num) x1) x2
  have r0 : 1 ≤ r := by
    refine le_trans ?_ r1
    nlinarith
  have q1 : 1 ≤ Real.sqrt r := Real.one_le_sqrt.2 r0
  have q2 : Real.sqrt r ≤ 2 ^ 250 := by
    rw [Real.sqrt_le_left (by positivity)]
    refine r2.trans ?_
    have : x * (1 + 1 / 2 ^ 53) ≤ 2 ^ 250 * (1 + 1 / 2 ^ 53) := mul_le_mul_of_nonneg_right x2 (by positivity)
    refine this.trans ?_
    norm_num
  obtain ⟨s, hs, s1, s2⟩ := rnd_rel (x := Real.sqrt r) (le_trans (by norm_num) q1) q2
  have s0 : 1 ≤ s := by
    obtain ⟨v, hv, -, c, -⟩ := rnd_in q1 q2 number_one (number_pow 250 (by norm_num))
    rw [hs] at hv
    cases hv
    exact c
  have sx : s ≤ x := by
    refine s2.trans ?_
    have hsq : Real.sqrt r * (1 + 1 / 2 ^ 53) = Real.sqrt (r * (1 + 1 / 2 ^ 53) ^ 2) := by
      rw [Real.sqrt_mul (by linarith), Real.sqrt_sq (by positivity)]
    rw [hsq, Real.sqrt_le_left (by linarith)]
    have e1 : r * (1 + 1 / 2 ^ 53) ^ 2 ≤ x * (1 + 1 / 2 ^ 53) * (1 + 1 / 2 ^ 53) ^ 2 := mul_le_mul_of_nonneg_right r2 (by positivity)
    refine e1.trans ?_
    have e2 : ((1 : ℝ) + 1 / 2 ^ 53) * (1 + 1 / 2 ^ 53) ^ 2 ≤ 64 / 63 := by norm_num
    calc x * (1 + 1 / 2 ^ 53) * (1 + 1 / 2 ^ 53) ^ 2 = x * ((1 + 1 / 2 ^ 53) * (1 + 1 / 2 ^ 53) ^ 2) := by ring
      _ ≤ x * x := mul_le_mul_of_nonneg_left (e2.trans x1) (by linarith)
      _ = x ^ 2 := by ring
  have e1 : (fin T0 /. fin T2 : Double) = fin r := by
    rw [div_fin _ _ p2.ne', hx]
    exact hr
  have e2 : (Arith.lit 1 2 : Double) = fin (1 / 2) := by
    have := (Binary64.number_iff _).1 (number_div 1 1 (by norm_num) (by norm_num))
    show Binary64.rnd (((1 : Int) : ℝ) / ((2 : Nat) : ℝ)) = _
    rw [pow_one] at this
    push_cast at this ⊢
    exact this
  have e3 : (Arith.pow (fin r) (fin (1 / 2)) : Double) = fin s := by
    have : (Arith.pow (fin r) (fin (1 / 2)) : Double) = Binary64.rnd (r ^ ((1 : ℝ) / 2)) := if_pos (.inl (by linarith))
    rw [this, ← Real.sqrt_eq_rpow]
    exact hs
  obtain ⟨v, hv, nv, v1, v2⟩ := rnd_in (x := T2) (y := T0 / s) (z := T0)
    (by
      rw [le_div_iff₀ (by linarith)]
      rw [← hx, le_div_iff₀ p2] at sx
      linarith)
    (div_le_self p0.le s0) h.n2 h.n0
  refine ⟨v, ?_, nv, v1, v2⟩
  simp only [ladderReset]
  rw [b0, b2, t0, e1, e2, e3, div_fin _ _ (by linarith)]
  exact hv

/-- The main part of a round lands between the neighbours. -/
theorem main_in {T0 T1 T2 scale zs : ℝ} (h : Ends T0 T2) (h12 : T2 ≤ T1) (h10 : T1 ≤ T0) (n1 : Binary64.Number T1) (hs0 : 0 ≤ scale)
    (hs1 : scale ≤ 1) (hz0 : 0 ≤ zs) (hz1 : zs ≤ 1) {b T ar : Nat → Double} (b0 : invB b 0 = fin T0) (b1 : invB b 1 = fin T1)
    (b2 : invB b 2 = fin T2) (t0 : T 0 = fin T0) (t1 : T 1 = fin T1) (a0 : RateD (ar 0)) (a1 : RateD (ar 1)) :
    ∃ v, ladderMain (fin scale) (fin zs) b ar T 1 = fin v ∧ Binary64.Number v ∧ T2 ≤ v ∧ v ≤ T0 := by
  have hreset := reset_in h b0 b2 t0
  have p2 := h.pos
  have p1 : 0 < T1 := p2.trans_le h12
  have p0 : 0 < T0 := p2.trans_le h.le
  have hg := h.gap
  have nbig : Binary64.Number ((2 : ℝ) ^ 120) := number_pow 120 (by norm_num)
  obtain ⟨⟨c, hc, c1, c2⟩, c', hc', c1', c2'⟩ := hundredth_factors
  obtain ⟨y, hy, y0, y1⟩ := one_sub_in hz0 hz1
  simp only [ladderMain, Nat.sub_self, Nat.reduceAdd, b0, b1, b2, t1, hc, hc', hy]
  split
  swap
  · exact hreset
  rename_i hcond
  obtain ⟨p, ep, hp0, hp1⟩ : ∃ p, ar 0 = fin p ∧ 0 ≤ p ∧ p ≤ 1 := by
    rcases a0 with a0 | a0
    · rw [a0, nan_add, lt_nan] at hcond
      exact absurd hcond (by simp)
    · exact a0
  obtain ⟨q, eq, hq0, hq1⟩ : ∃ p, ar 1 = fin p ∧ 0 ≤ p ∧ p ≤ 1 := by
    rcases a1 with a1 | a1
    · rw [a1, add_nan, lt_nan] at hcond
      exact absurd hcond (by simp)
    · exact a1
  rw [ep, eq] at hcond ⊢
  obtain ⟨d, hd, d1, d2⟩ := rate_difference hp0 hp1 hq0 hq1 hcond
  rw [hd]
  split
  · rename_i hpos
    have d0 : 0 < d := by rwa [ofI_int 0 (by norm_num), lt_fin, Int.cast_zero] at hpos
    -- upwards
    obtain ⟨f, hf, nf, f0, f1⟩ := rnd_in (x := 0) (y := T0 - T1) (z := T0) (by linarith) (by linarith) number_zero h.n0
    have ef : (fin T0 -. fin T1 : Double) = fin f := by rw [sub_fin]; exact hf
    obtain ⟨w, hw, nw, w1, w2⟩ := rnd_in (x := T2) (y := T0 * c) (z := T0) (by nlinarith) (mul_le_of_le_one_right p0.le c2) h.n2 h.n0
    have ew : (fin T0 *. fin c : Double) = fin w := hw
    have hinc : ∃ g, (if (fin d : Double) ==. ofI 1 then fin f *. fin y else fin f *. fin d *. fin scale : Double) = fin g ∧ 0 ≤ g ∧ g ≤ T0 := by
      split
      · obtain ⟨g, hg, -, g0, g1⟩ := mul_in f0 y0 y1 nf
        exact ⟨g, hg, g0, g1.trans f1⟩
      · obtain ⟨g, hg, ng, g0, g1⟩ := mul_in f0 d0.le d2 nf
        obtain ⟨k, hk, -, k0, k1⟩ := mul_in g0 hs0 hs1 ng
        rw [hg]
        exact ⟨k, hk, k0, k1.trans (g1.trans f1)⟩
    rw [ef, ew]
    obtain ⟨g, hg, g0, g1⟩ := hinc
    rw [hg]
    obtain ⟨u, hu, nu, u1, u2⟩ := rnd_in (x := T1) (y := T1 + g) (z := 2 ^ 120) (by linarith)
      (by
        have := h.high
        refine le_trans (by linarith : T1 + g ≤ 2 ^ 110 + 2 ^ 110) (by norm_num)) n1 nbig
    have eu : (fin T1 +. fin g : Double) = fin u := hu
    rw [eu]
    refine ⟨min u w, fmin_fin u w, ?_, le_min (h12.trans u1) w1, (min_le_right _ _).trans w2⟩
    rcases min_choice u w with e | e <;> rw [e]
    · exact nu
    · exact nw
  · rename_i hpos
    have d0 : d ≤ 0 := by
      rw [ofI_int 0 (by norm_num), Bool.not_eq_true, lt_fin_false, Int.cast_zero] at hpos
      exact hpos
    split
    · exact hreset
    -- downwards
    obtain ⟨f, hf, nf, f0, f1⟩ := rnd_in (x := 0) (y := T1 - T2) (z := T1) (by linarith) (by linarith) number_zero n1
    have ef : (fin T1 -. fin T2 : Double) = fin f := by rw [sub_fin]; exact hf
    obtain ⟨w, hw, nw, w1, w2⟩ := rnd_in (x := T2) (y := T2 * c') (z := T0) (le_mul_of_one_le_right p2.le c1') (by nlinarith) h.n2 h.n0
    have ew : (fin T2 *. fin c' : Double) = fin w := hw
    have en : (Arith.neg (fin d) : Double) = fin (-d) := rfl
    have hdec : ∃ g, (if (fin d : Double) ==. ofI (-1) then fin f *. fin y else fin f *. fin (-d) *. fin scale : Double) = fin g ∧ 0 ≤ g ∧ g ≤ T1 := by
      split
      · obtain ⟨g, hg, -, g0, g1⟩ := mul_in f0 y0 y1 nf
        exact ⟨g, hg, g0, g1.trans f1⟩
      · obtain ⟨g, hg, ng, g0, g1⟩ := mul_in f0 (by linarith : 0 ≤ -d) (by linarith) nf
        obtain ⟨k, hk, -, k0, k1⟩ := mul_in g0 hs0 hs1 ng
        rw [hg]
        exact ⟨k, hk, k0, k1.trans (g1.trans f1)⟩
    rw [en, ef, ew]
    obtain ⟨g, hg, g0, g1⟩ := hdec
    rw [hg]
    obtain ⟨u, hu, nu, u1, u2⟩ := rnd_in (x := 0) (y := T1 - g) (z := T1) (by linarith) (by linarith) number_zero n1
    have eu : (fin T1 -. fin g : Double) = fin u := by rw [sub_fin]; exact hu
    rw [eu]
    refine ⟨max u w, fmax_fin u w, ?_, w1.trans (le_max_right _ _), max_le (u2.trans h10) w2⟩
    rcases max_choice u w with e | e <;> rw [e]
    · exact nu
    · exact nw

/-- The adjustment next to an end lands between the ends. -/
theorem adjust_in {T0 T2 z : ℝ} (h : Ends T0 T2) (hz0 : 0 ≤ z) (hz1 : z ≤ 1 - 1 / 2 ^ 49) :
    ∃ v, (fin T0 -. (fin T0 -. fin T2) *. fin z : Double) = fin v ∧ Binary64.Number v ∧ T2 ≤ v ∧ v ≤ T0 := by
  have p2 := h.pos
  have hg := h.gap
  have p0 : 0 < T0 := p2.trans_le h.le
  obtain ⟨g, hgap⟩ : ∃ g, T0 - T2 = g := ⟨_, rfl⟩
  have g1 : 1 / 2 ^ 120 ≤ g := by
    have := h.low
    have : (1 : ℝ) / 2 ^ 120 ≤ 1 / 2 ^ 110 * (1 / 63) := by norm_num
    linarith
  have g2 : g ≤ 2 ^ 110 := by linarith [h.high]
  have gp : 0 < g := lt_of_lt_of_le (by positivity) g1
  obtain ⟨D, hD, D1, D2⟩ := rnd_rel (x := g) (le_trans (by norm_num) g1) (g2.trans (by norm_num))
  have D0 : 0 < D := lt_of_lt_of_le (mul_pos gp (by norm_num)) D1
  obtain ⟨D', hD', nD, -, -⟩ := rnd_in (x := 0) (y := g) (z := 2 ^ 110) gp.le g2 number_zero (number_pow 110 (by norm_num))
  rw [hD] at hD'
  cases hD'
  obtain ⟨E, hE, nE, E0, -⟩ := mul_in D0.le hz0 (hz1.trans (by norm_num)) nD
  have EB : E ≤ g := by
    have h1 := Binary64.round53_abs_err (D * z)
    rw [(Binary64.rnd_eq_fin hE).1, abs_of_nonneg (mul_nonneg D0.le hz0), abs_le] at h1
    have tiny : (2 : ℝ) ^ (-1075 : Int) ≤ g / 2 ^ 60 := by
      have e : (2 : ℝ) ^ (-1075 : Int) ≤ 2 ^ (-180 : Int) := zpow_le_zpow_right₀ (by norm_num) (by norm_num)
      refine e.trans ?_
      have : (1 : ℝ) / 2 ^ 120 / 2 ^ 60 ≤ g / 2 ^ 60 := by gcongr
      refine le_trans ?_ this
      norm_num
    have h2 : D * z ≤ g * (1 + 1 / 2 ^ 53) * (1 - 1 / 2 ^ 49) :=
      mul_le_mul D2 hz1 hz0 (by positivity)
    have h3 := h1.2
    have h4 : E ≤ D * z * (1 + 1 / 2 ^ 53) + g / 2 ^ 60 := by
      have e : D * z * (1 + 1 / 2 ^ 53) = D * z + D * z / 2 ^ 53 := by ring
      rw [e]
      linarith
    have h5 : D * z * (1 + 1 / 2 ^ 53) ≤ g * (1 + 1 / 2 ^ 53) * (1 - 1 / 2 ^ 49) * (1 + 1 / 2 ^ 53) :=
      mul_le_mul_of_nonneg_right h2 (by positivity)
    refine h4.trans ((add_le_add_left h5 _).trans ?_)
    have e : g * (1 + 1 / 2 ^ 53) * (1 - 1 / 2 ^ 49) * (1 + 1 / 2 ^ 53) + g / 2 ^ 60 =
        g * ((1 + 1 / 2 ^ 53) * (1 - 1 / 2 ^ 49) * (1 + 1 / 2 ^ 53) + 1 / 2 ^ 60) := by ring
    rw [e]
    refine mul_le_of_le_one_right gp.le ?_
    norm_num
  obtain ⟨v, hv, nv, v1, v2⟩ := rnd_in (x := T2) (y := T0 - E) (z := T0) (by linarith) (by linarith) h.n2 h.n0
  refine ⟨v, ?_, nv, v1, v2⟩
  have e1 : (fin T0 -. fin T2 : Double) = fin D := by rw [sub_fin, hgap]; exact hD
  rw [e1, hE, sub_fin]
  exact hv

/-- **C97, one update.** With three ranks the new inner temperature lies between the temperatures of the ends, whatever the tallies. -/
theorem ladder_three_doubles {T0 T1 T2 scale zs : ℝ} (h : Ends T0 T2) (h12 : T2 ≤ T1) (h10 : T1 ≤ T0) (n1 : Binary64.Number T1) (hs0 : 0 ≤ scale)
    (hs1 : scale ≤ 1) (hz0 : 1 / 2 ^ 49 ≤ zs) (hz1 : zs ≤ 1 - 1 / 2 ^ 49) {nsw npr b : Fin 3 → Double} (hc : CountsD nsw npr)
    (b0 : (ofI 1 /. b 0 : Double) = fin T0) (b1 : (ofI 1 /. b 1 : Double) = fin T1) (b2 : (ofI 1 /. b 2 : Double) = fin T2) :
    ∃ v, tuneLadder (fin scale) (fin zs) nsw npr b 1 = ofI 1 /. fin v ∧ Binary64.Number v ∧ T2 ≤ v ∧ v ≤ T0 := by
  have i0 : invB (ext b) 0 = fin T0 := b0
  have i1 : invB (ext b) 1 = fin T1 := b1
  have i2 : invB (ext b) 2 = fin T2 := b2
  have z0 : 0 ≤ zs := le_trans (by positivity) hz0
  obtain ⟨m, hm, nm, m1, m2⟩ := main_in (ar := swapRate (ext nsw) (ext npr)) h h12 h10 n1 hs0 hs1 z0 (hz1.trans (by norm_num)) i0 i1 i2 i0 i1
    (hc.rate 0) (hc.rate 1)
  obtain ⟨y, hy, ny, y0, y1⟩ := rnd_in (x := 0) (y := 1 - zs) (z := 1 - 1 / 2 ^ 49) (by linarith [show (0 : ℝ) ≤ 1 / 2 ^ 49 by positivity]) (by linarith) number_zero
    (by
      have := number_div (2 ^ 49 - 1) 49 (by norm_num) (by norm_num)
      convert this using 1
      norm_num)
  have ey : (ofI 1 -. fin zs : Double) = fin y := by
    rw [ofI_int 1 (by norm_num), sub_fin, Int.cast_one]
    exact hy
  obtain ⟨lo, hlo, nlo, lo1, lo2⟩ := adjust_in h z0 hz1
  obtain ⟨hi, hhi, nhi, hi1, hi2⟩ := adjust_in h y0 y1
  have hT : tuneLadder (fin scale) (fin zs) nsw npr b 1 =
      ofI 1 /. ladderStep 3 (fin scale) (fin zs) (ext b) (swapRate (ext nsw) (ext npr)) (invB (ext b)) 1 1 := rfl
  rw [hT]
  simp only [ladderStep, ladderHigh, ladderLow, hm, ey]
  split
  · split
    · exact ⟨hi, by simp [Function.update_apply, i0, i2, hhi], nhi, hi1, hi2⟩
    · exact ⟨hi, by simp [Function.update_apply, i0, i2, hhi], nhi, hi1, hi2⟩
  · split
    · exact ⟨lo, by simp [Function.update_apply, i0, i2, hlo], nlo, lo1, lo2⟩
    · exact ⟨m, by simp [Function.update_apply], nm, m1, m2⟩

/-- A beta of an end: a number of the format of moderate size. -/
structure EndBeta (x : ℝ) : Prop where
  num : Binary64.Number x
  low : 1 / 2 ^ 100 ≤ x
  high : x ≤ 2 ^ 100

theorem EndBeta.pos {x : ℝ} (h : EndBeta x) : 0 < x := lt_of_lt_of_le (by positivity) h.low

/-- The temperature of an end. -/
theorem EndBeta.temp {x : ℝ} (h : EndBeta x) : ∃ T, Binary64.rnd (1 / x) = .fin T ∧ Binary64.Number T ∧ 1 / x * (1 - 1 / 2 ^ 53) ≤ T ∧
    T ≤ 1 / x * (1 + 1 / 2 ^ 53) ∧ 1 / 2 ^ 110 ≤ T ∧ T ≤ 2 ^ 110 := by
  have hx := h.pos
  have i1 : 1 / 2 ^ 100 ≤ 1 / x := one_div_le_one_div_of_le hx h.high
  have i2 : 1 / x ≤ 2 ^ 100 := by
    rw [div_le_iff₀ hx]
    have := mul_le_mul_of_nonneg_left h.low (show (0 : ℝ) ≤ 2 ^ 100 by positivity)
    refine le_trans ?_ this
    norm_num
  obtain ⟨T, hT, a, b⟩ := rnd_rel (x := 1 / x) (le_trans (by norm_num) i1) (i2.trans (by norm_num))
  refine ⟨T, hT, (Binary64.number_iff T).2 (Rounding.binary64.rnd_idem _ _ hT), a, b, ?_, ?_⟩
  · refine le_trans ?_ a
    refine le_trans ?_ (mul_le_mul_of_nonneg_right i1 (by norm_num))
    norm_num
  · refine b.trans ((mul_le_mul_of_nonneg_right i2 (by norm_num)).trans ?_)
    norm_num

/-- Beta, temperature, beta, temperature: back at the same temperature. -/
theorem EndBeta.back {x T y : ℝ} (h : EndBeta x) (hT : Binary64.rnd (1 / x) = .fin T) (hy : Binary64.rnd (1 / T) = .fin y) :
    Binary64.rnd (1 / y) = .fin T := by
  have e1 := (Binary64.rnd_eq_fin hT).1
  have e2 := (Binary64.rnd_eq_fin hy).1
  have h3 := Binary64.recip_stable h.num (le_trans (by norm_num) h.low) (h.high.trans (by norm_num))
  rw [e1, e2] at h3
  have := Binary64.rnd_fin (x := 1 / y) (by rw [h3, ← e1]; exact (Binary64.rnd_eq_fin hT).2)
  rw [this, h3]

/-- The ladder of three ranks during a run: the ends as configured, the middle one between them up to `2^-51`, its temperature
between the temperatures of the ends. -/
def LadderD (lo hi : ℝ) (b : Fin 3 → Double) : Prop :=
  b 0 = fin lo ∧ b 2 = fin hi ∧ ∃ x T0 T1 T2, b 1 = fin x ∧ lo * (1 - 1 / 2 ^ 51) ≤ x ∧ x ≤ hi * (1 + 1 / 2 ^ 51) ∧
    Binary64.rnd (1 / lo) = .fin T0 ∧ Binary64.rnd (1 / x) = .fin T1 ∧ Binary64.rnd (1 / hi) = .fin T2 ∧ T2 ≤ T1 ∧ T1 ≤ T0

theorem ends_of_betas {lo hi T0 T2 : ℝ} (hlo : EndBeta lo) (hhi : EndBeta hi) (hgap : lo * (1 + 2 / 100) ≤ hi)
    (h0 : Binary64.rnd (1 / lo) = .fin T0) (h2 : Binary64.rnd (1 / hi) = .fin T2) : Ends T0 T2 := by
  obtain ⟨S0, e0, n0, a0, b0, c0, d0⟩ := hlo.temp
  obtain ⟨S2, e2, n2, a2, b2, c2, d2⟩ := hhi.temp
  rw [h0] at e0
  rw [h2] at e2
  cases e0
  cases e2
  refine ⟨n0, n2, c2, ?_, d0⟩
  have p := hlo.pos
  have q := hhi.pos
  have i : 1 / hi * (1 + 2 / 100) ≤ 1 / lo := by
    rw [div_mul_eq_mul_div, one_mul, div_le_div_iff₀ q p, one_mul]
    linarith
  have ip : 0 < 1 / hi := by positivity
  calc T2 * (64 / 63) ≤ 1 / hi * (1 + 1 / 2 ^ 53) * (64 / 63) := mul_le_mul_of_nonneg_right b2 (by norm_num)
    _ = 1 / hi * ((1 + 1 / 2 ^ 53) * (64 / 63)) := by ring
    _ ≤ 1 / hi * ((1 + 2 / 100) * (1 - 1 / 2 ^ 53)) := mul_le_mul_of_nonneg_left (by norm_num) ip.le
    _ = 1 / hi * (1 + 2 / 100) * (1 - 1 / 2 ^ 53) := by ring
    _ ≤ 1 / lo * (1 - 1 / 2 ^ 53) := mul_le_mul_of_nonneg_right i (by norm_num)
    _ ≤ T0 := a0

/-- Rounded reciprocals are in the opposite order. -/
theorem recip_anti {a b A B : ℝ} (ha : 0 < a) (h : a ≤ b) (hA : Binary64.rnd (1 / a) = .fin A) (hB : Binary64.rnd (1 / b) = .fin B) : B ≤ A := by
  rw [← (Binary64.rnd_eq_fin hA).1, ← (Binary64.rnd_eq_fin hB).1]
  exact Binary64.round53_mono (one_div_le_one_div_of_le ha h)

theorem inv_fin {x : ℝ} (h : x ≠ 0) : (ofI 1 /. fin x : Double) = Binary64.rnd (1 / x) := by
  rw [ofI_int 1 (by norm_num), div_fin _ _ h, Int.cast_one]
  rfl

/-- The update keeps the ladder of three ranks in order, without drift. -/
theorem LadderD.tune {lo hi scale zs : ℝ} (hlo : EndBeta lo) (hhi : EndBeta hi) (hgap : lo * (1 + 2 / 100) ≤ hi) (hs0 : 0 ≤ scale)
    (hs1 : scale ≤ 1) (hz0 : 1 / 2 ^ 49 ≤ zs) (hz1 : zs ≤ 1 - 1 / 2 ^ 49) {nsw npr b : Fin 3 → Double} (hc : CountsD nsw npr)
    (hb : LadderD lo hi b) : LadderD lo hi (tuneLadder (fin scale) (fin zs) nsw npr b) := by
  obtain ⟨b0, b2, x, T0, T1, T2, b1, x1, x2, e0, e1, e2, t12, t10⟩ := hb
  have E := ends_of_betas hlo hhi hgap e0 e2
  have plo := hlo.pos
  have phi := hhi.pos
  have px : 0 < x := lt_of_lt_of_le (mul_pos plo (by norm_num)) x1
  have n1 : Binary64.Number T1 := (Binary64.number_iff T1).2 (Rounding.binary64.rnd_idem _ _ e1)
  obtain ⟨v, hv, nv, v1, v2⟩ := ladder_three_doubles E t12 t10 n1 hs0 hs1 hz0 hz1 hc
    (b := b) (by rw [b0, inv_fin plo.ne']; exact e0) (by rw [b1, inv_fin px.ne']; exact e1) (by rw [b2, inv_fin phi.ne']; exact e2)
  have p2 := E.pos
  have pv : 0 < v := p2.trans_le v1
  have p0 : 0 < T0 := pv.trans_le v2
  -- the new beta
  have near : ∀ {y T : ℝ}, EndBeta y → Binary64.rnd (1 / y) = .fin T → ∃ z, Binary64.rnd (1 / T) = .fin z ∧ Binary64.Number z ∧ 0 < z ∧
      y * (1 - 1 / 2 ^ 51) ≤ z ∧ z ≤ y * (1 + 1 / 2 ^ 51) := by
    intro y T hy hT
    obtain ⟨T', hT', -, a, b, c, d⟩ := hy.temp
    rw [hT] at hT'
    cases hT'
    have py := hy.pos
    have pT : 0 < T := lt_of_lt_of_le (by positivity) c
    have k1 : y * (1 - 1 / 2 ^ 53) ≤ 1 / T := by
      rw [le_div_iff₀ pT]
      calc y * (1 - 1 / 2 ^ 53) * T ≤ y * (1 - 1 / 2 ^ 53) * (1 / y * (1 + 1 / 2 ^ 53)) :=
            mul_le_mul_of_nonneg_left b (mul_nonneg py.le (by norm_num))
        _ = (1 - 1 / 2 ^ 53) * (1 + 1 / 2 ^ 53) := by field_simp
        _ ≤ 1 := by norm_num
    have k2 : 1 / T ≤ y * (1 + 1 / 2 ^ 53 + 1 / 2 ^ 100) := by
      rw [div_le_iff₀ pT]
      calc (1 : ℝ) ≤ (1 + 1 / 2 ^ 53 + 1 / 2 ^ 100) * (1 - 1 / 2 ^ 53) := by norm_num
        _ = y * (1 + 1 / 2 ^ 53 + 1 / 2 ^ 100) * (1 / y * (1 - 1 / 2 ^ 53)) := by field_simp
        _ ≤ _ := mul_le_mul_of_nonneg_left a (mul_nonneg py.le (by norm_num))
    obtain ⟨z, hz, z1, z2⟩ := rnd_rel (x := 1 / T)
      (by
        refine le_trans ?_ (one_div_le_one_div_of_le pT d)
        norm_num)
      (by
        refine (one_div_le_one_div_of_le (by positivity) c).trans ?_
        norm_num)
    have z3 : y * (1 - 1 / 2 ^ 51) ≤ z := by
      refine le_trans ?_ z1
      refine le_trans ?_ (mul_le_mul_of_nonneg_right k1 (by norm_num))
      rw [mul_assoc]
      exact mul_le_mul_of_nonneg_left (by norm_num) py.le
    refine ⟨z, hz, (Binary64.number_iff z).2 (Rounding.binary64.rnd_idem _ _ hz), lt_of_lt_of_le (mul_pos py (by norm_num)) z3, z3, ?_⟩
    refine z2.trans ((mul_le_mul_of_nonneg_right k2 (by norm_num)).trans ?_)
    rw [mul_assoc]
    exact mul_le_mul_of_nonneg_left (by norm_num) py.le
  obtain ⟨z0, hz0', nz0, pz0, z01, z02⟩ := near hlo e0
  obtain ⟨z2, hz2', nz2, pz2, z21, z22⟩ := near hhi e2
  obtain ⟨x', hx', nx', x1', x2'⟩ : ∃ x', Binary64.rnd (1 / v) = .fin x' ∧ Binary64.Number x' ∧ z0 ≤ x' ∧ x' ≤ z2 := by
    have m1 := Binary64.rnd_mono (one_div_le_one_div_of_le pv v2)
    have m2 := Binary64.rnd_mono (one_div_le_one_div_of_le p2 v1)
    rw [hz0'] at m1
    rw [hz2'] at m2
    cases hr : Binary64.rnd (1 / v) with
    | nan => exact absurd hr (Binary64.rnd_ne_nan _)
    | ninf => rw [hr] at m1; exact absurd m1 (fun h => h)
    | pinf => rw [hr] at m2; exact absurd m2 (fun h => h)
    | fin x' =>
      rw [hr] at m1 m2
      exact ⟨x', rfl, (Binary64.number_iff x').2 (Rounding.binary64.rnd_idem _ _ hr), m1, m2⟩
  have px' : 0 < x' := pz0.trans_le x1'
  have r0 := hlo.back e0 hz0'
  have r2 := hhi.back e2 hz2'
  obtain ⟨t, ht, t2, t0⟩ : ∃ t, Binary64.rnd (1 / x') = .fin t ∧ T2 ≤ t ∧ t ≤ T0 := by
    have m1 := Binary64.rnd_mono (one_div_le_one_div_of_le pz0 x1')
    have m2 := Binary64.rnd_mono (one_div_le_one_div_of_le px' x2')
    rw [r0] at m1
    rw [r2] at m2
    cases hr : Binary64.rnd (1 / x') with
    | nan => exact absurd hr (Binary64.rnd_ne_nan _)
    | ninf => rw [hr] at m2; exact absurd m2 (fun h => h)
    | pinf => rw [hr] at m1; exact absurd m1 (fun h => h)
    | fin t =>
      rw [hr] at m1 m2
      exact ⟨t, rfl, m2, m1⟩
  refine ⟨by simpa [tuneLadder] using b0, by simpa [tuneLadder] using b2, x', T0, t, T2, ?_, z01.trans x1', x2'.trans z22, e0, ht, e2, t2, t0⟩
  rw [hv, inv_fin pv.ne']
  exact hx'

/-- **C97, whole runs.** In binary64, with three ranks, betas of the ends two percent apart, `2^-49 <= zero_stretch <= 1 - 2^-49` and
`0 <= scale_tune_ladder <= 1`, in every execution the ends of every ladder in use are the configured ones, and the middle beta is a finite
number between them up to a relative `2^-51`, however often the ladder is tuned. -/
theorem run_ladder_doubles (cfg : Cfg Double) (file : DataFile Double) (hv : Valid 3 cfg file) (clock : Nat) (root : Fin 3) (scale zs : ℝ)
    (e1 : cfg.scaleLadder = fin scale) (e2 : cfg.zeroStretch = fin zs) (hs0 : 0 ≤ scale) (hs1 : scale ≤ 1) (hz0 : 1 / 2 ^ 49 ≤ zs)
    (hz1 : zs ≤ 1 - 1 / 2 ^ 49) (lo mid hi : ℝ) (hb : cfg.betas = [fin lo, fin mid, fin hi]) (hlo : EndBeta lo) (hhi : EndBeta hi)
    (hlm : lo ≤ mid) (hmh : mid ≤ hi) (hgap : lo * (1 + 2 / 100) ≤ hi)
    (w : List (Label 3)) (t : Sys 3 (Msg Double) (Line Double) (RSt 3 Double)) (h : (initSys cfg file clock root).exec w = some t)
    (q : Fin 3) (a : Note Double) (ha : a ∈ notes (t.log q)) :
    ∃ x : ℝ, a.betas = [fin lo, fin x, fin hi] ∧ lo * (1 - 1 / 2 ^ 51) ≤ x ∧ x ≤ hi * (1 + 1 / 2 ^ 51) := by
  obtain ⟨b, e, p0, p2, x, T0, T1, T2, p1, x1, x2, -⟩ := run_betas_inv cfg file hv clock root (P := LadderD lo hi)
    (fun b hc => by
      have c0 := hc 0
      have c1 := hc 1
      have c2 := hc 2
      rw [hb] at c0 c1 c2
      have d0 : b 0 = fin lo := (Option.some.inj c0).symm
      have d1 : b 1 = fin mid := (Option.some.inj c1).symm
      have d2 : b 2 = fin hi := (Option.some.inj c2).symm
      obtain ⟨T0, h0, -⟩ := hlo.temp
      obtain ⟨T2, h2, -⟩ := hhi.temp
      have plo := hlo.pos
      have pm : 0 < mid := plo.trans_le hlm
      have m1 := Binary64.rnd_mono (one_div_le_one_div_of_le plo hlm)
      have m2 := Binary64.rnd_mono (one_div_le_one_div_of_le pm hmh)
      rw [h0] at m1
      rw [h2] at m2
      have k : (1 : ℝ) - 1 / 2 ^ 51 ≤ 1 := by norm_num
      have k' : (1 : ℝ) ≤ 1 + 1 / 2 ^ 51 := by norm_num
      cases hr : Binary64.rnd (1 / mid) with
      | nan => exact absurd hr (Binary64.rnd_ne_nan _)
      | ninf => rw [hr] at m2; exact absurd m2 (fun h => h)
      | pinf => rw [hr] at m1; exact absurd m1 (fun h => h)
      | fin T1 =>
        rw [hr] at m1 m2
        exact ⟨d0, d2, mid, T0, T1, T2, d1, (mul_le_of_le_one_right plo.le k).trans hlm,
          hmh.trans (le_mul_of_one_le_right hhi.pos.le k'), h0, hr, h2, m2, m1⟩)
    (fun b ty hty hp => by
      rw [e1, e2]
      exact hp.tune hlo hhi hgap hs0 hs1 hz0 hz1 hty.countsD) w t h q a ha
  refine ⟨x, ?_, x1, x2⟩
  rw [e]
  simp only [List.ofFn_succ, List.ofFn_zero]
  rw [← p0, ← p1, ← p2]
  rfl

/-- The hypotheses can be met: betas 1/8, 1/2 and 1, tuned with `scale_tune_ladder = 7/8` and `zero_stretch = 1/4`. -/
example (w : List (Label 3)) (t : Sys 3 (Msg Double) (Line Double) (RSt 3 Double)) (h : (initSys demoCfgD demoFileD 7 0).exec w = some t)
    (q : Fin 3) (a : Note Double) (ha : a ∈ notes (t.log q)) :
    ∃ x : ℝ, a.betas = [fin (1 / 8), fin x, fin 1] ∧ 1 / 8 * (1 - 1 / 2 ^ 51) ≤ x ∧ x ≤ 1 * (1 + 1 / 2 ^ 51) :=
  run_ladder_doubles demoCfgD demoFileD demoD_valid 7 0 (7 / 8) (1 / 4) rfl rfl (by norm_num) (by norm_num) (by norm_num) (by norm_num)
    (1 / 8) (1 / 2) 1 rfl
    ⟨by simpa [show (2 : ℝ) ^ 3 = 8 by norm_num] using number_div 1 3 (by norm_num) (by norm_num), by norm_num, by norm_num⟩
    ⟨number_one, by norm_num, by norm_num⟩ (by norm_num) (by norm_num) (by norm_num) w t h q a ha

end NiiC
