import Verif.Props.State
import Verif.Props.Demo
import Verif.Num.XReal
import Mathlib.Tactic.FieldSimp
import Mathlib.Tactic.NormNum.Basic

/-!
# The ladder update: positivity, order, range

Exact arithmetic with NaN, so that the rate 0/0 of a pair that was never proposed is the NaN it is in C.
-/

set_option linter.unusedSectionVars false
set_option linter.unusedSimpArgs false

namespace NiiC

open Dbl

/-! ## Reads and writes of the update stay inside the tables -/

section
variable {F : Type} [Arith F] [Source F]

/-- The new ladder depends only on cells `0 .. n-1` of the ladder and `0 .. n-2` of the tallies: `ext` never supplies a value. -/
theorem ladderLoop_congr (n : Nat) (hn : 3 ≤ n) (scale zs : F) (b b' ar ar' : Nat → F) (hb : ∀ i, i < n → b i = b' i)
    (har : ∀ i, i < n - 1 → ar i = ar' i) : ∀ (k i : Nat) (T T' : Nat → F), 1 ≤ i → i + k ≤ n - 1 → (∀ j, j < n → T j = T' j) →
    ∀ j, j < n → ladderLoop n scale zs b ar k i T j = ladderLoop n scale zs b' ar' k i T' j := by
  intro k
  induction k with
  | zero => intro i T T' _ _ hT; exact hT
  | succ k ih =>
    intro i T T' hi hk hT
    simp only [ladderLoop]
    refine ih (i + 1) _ _ (by omega) (by omega) ?_
    have hB : ∀ j, j < n → invB b j = invB b' j := fun j hj => by simp only [invB, hb j hj]
    have hm : ladderMain scale zs b ar T i = ladderMain scale zs b' ar' T' i := by
      simp only [ladderMain, ladderReset, hB (i - 1) (by omega), hB i (by omega), hB (i + 1) (by omega), har (i - 1) (by omega),
        har i (by omega), hT (i - 1) (by omega), hT i (by omega)]
    have h1 : ∀ j, j < n → Function.update T i (ladderMain scale zs b ar T i) j = Function.update T' i (ladderMain scale zs b' ar' T' i) j := by
      intro j hj
      rw [hm]
      by_cases h : j = i
      · subst h; simp
      · rw [Function.update_of_ne h, Function.update_of_ne h, hT j hj]
    have h2 : ∀ j, j < n → ladderLow zs ar (Function.update T i (ladderMain scale zs b ar T i)) j
        = ladderLow zs ar' (Function.update T' i (ladderMain scale zs b' ar' T' i)) j := by
      intro j hj
      simp only [ladderLow, har 0 (by omega), h1 0 (by omega), h1 2 (by omega)]
      split
      · by_cases h : j = 1
        · subst h; simp
        · rw [Function.update_of_ne h, Function.update_of_ne h, h1 j hj]
      · exact h1 j hj
    intro j hj
    simp only [ladderStep, ladderHigh, har (n - 2) (by omega), h2 (n - 3) (by omega), h2 (n - 1) (by omega)]
    split
    · by_cases h : j = n - 2
      · subst h; simp
      · rw [Function.update_of_ne h, Function.update_of_ne h, h2 j hj]
    · exact h2 j hj

theorem tuneLadderT_congr (n : Nat) (hn : 3 ≤ n) (scale zs : F) (nsw nsw' npr npr' b b' : Nat → F) (hb : ∀ i, i < n → b i = b' i)
    (h1 : ∀ i, i < n - 1 → nsw i = nsw' i) (h2 : ∀ i, i < n - 1 → npr i = npr' i) :
    ∀ j, j < n → tuneLadderT n scale zs nsw npr b j = tuneLadderT n scale zs nsw' npr' b' j :=
  ladderLoop_congr n hn scale zs b b' _ _ hb (fun i hi => by simp only [swapRate, h1 i hi, h2 i hi]) (n - 2) 1 _ _ (le_refl _)
    (by omega) (fun j hj => by simp only [invB, hb j hj])

/-- Only cells `1 .. n-2` are written. -/
theorem ladderLoop_frame (n : Nat) (hn : 3 ≤ n) (scale zs : F) (b ar : Nat → F) : ∀ (k i : Nat) (T : Nat → F), 1 ≤ i → i + k ≤ n - 1 →
    ∀ j, (j = 0 ∨ n - 1 ≤ j) → ladderLoop n scale zs b ar k i T j = T j := by
  intro k
  induction k with
  | zero => intro i T _ _ j _; rfl
  | succ k ih =>
    intro i T hi hk j hj
    simp only [ladderLoop]
    rw [ih (i + 1) _ (by omega) (by omega) j hj]
    have e1 : j ≠ n - 2 := by omega
    have e2 : j ≠ 1 := by omega
    have e3 : j ≠ i := by omega
    simp only [ladderStep, ladderHigh, ladderLow]
    split <;> split <;> simp only [Function.update_of_ne e1, Function.update_of_ne e2, Function.update_of_ne e3, ne_eq]

theorem tuneLadderT_frame (n : Nat) (hn : 3 ≤ n) (scale zs : F) (nsw npr b : Nat → F) (j : Nat) (hj : j = 0 ∨ n - 1 ≤ j) :
    tuneLadderT n scale zs nsw npr b j = invB b j :=
  ladderLoop_frame n hn scale zs b _ (n - 2) 1 _ (le_refl _) (by omega) j hj

end

/-! ## One cell -/

/-- A swap rate: NaN when the pair was not proposed, else not negative. -/
def IsRate (v : XReal) : Prop := v = nan ∨ ∃ p : ℝ, v = fin p ∧ 0 ≤ p

/-- How far the temperature moves towards its neighbour, for rates `p` and `q` on the two sides, `p < q`. -/
noncomputable def stretch (scale zs p q : ℝ) : ℝ := if p = 0 then 1 - zs else (q - p) / (q + p) * scale

theorem stretch_mem {scale zs p q : ℝ} (h1 : 0 ≤ scale) (h2 : scale ≤ 1) (h3 : 0 ≤ zs) (h4 : zs ≤ 1) (hp : 0 ≤ p) (hq : p < q) :
    0 ≤ stretch scale zs p q ∧ stretch scale zs p q ≤ 1 := by
  unfold stretch
  split
  · constructor <;> linarith
  · have hs : 0 < q + p := by linarith
    have e1 : 0 ≤ (q - p) / (q + p) := div_nonneg (by linarith) hs.le
    have e2 : (q - p) / (q + p) ≤ 1 := (div_le_one hs).2 (by linarith)
    exact ⟨mul_nonneg e1 h1, by nlinarith⟩

/-- The three outcomes of the main part of a round. -/
theorem ladderMain_cases (scale zs : ℝ) (b ar T : Nat → XReal) (i : Nat) {a c e x y : ℝ}
    (ha : invB b (i - 1) = fin a) (hc : invB b i = fin c) (he : invB b (i + 1) = fin e) (ha0 : 0 < a) (he0 : 0 < e)
    (hx : T i = fin x) (hy : T (i - 1) = fin y) (h1 : IsRate (ar (i - 1))) (h2 : IsRate (ar i)) :
    (ladderMain (fin scale) (fin zs) b ar T i = fin (y / Real.sqrt (a / e)) ∧
      ∀ p q, ar (i - 1) = fin p → ar i = fin q → p = q) ∨
    (∃ p q, ar (i - 1) = fin p ∧ ar i = fin q ∧ 0 ≤ p ∧ p < q ∧
      ladderMain (fin scale) (fin zs) b ar T i = fin (min (x + (a - c) * stretch scale zs p q) (a * (1 - 1 / 100)))) ∨
    (∃ p q, ar (i - 1) = fin p ∧ ar i = fin q ∧ 0 ≤ q ∧ q < p ∧
      ladderMain (fin scale) (fin zs) b ar T i = fin (max (x - (c - e) * stretch scale zs q p) (e * (1 + 1 / 100)))) := by
  have hreset : ladderReset b T i = fin (y / Real.sqrt (a / e)) := by
    have hd : 0 < a / e := div_pos ha0 he0
    have h3 : (a / e) ^ ((1 : ℝ) / 2) ≠ 0 := (Real.rpow_pos_of_pos hd _).ne'
    simp only [ladderReset, ha, he, hy, XReal.lit_eq, XReal.div_eq _ _ he0.ne', XReal.pow_eq _ _ hd]
    rw [show (((1 : Int) : ℝ) / ((2 : Nat) : ℝ)) = 1 / 2 by norm_num, XReal.div_eq _ _ h3, ← Real.sqrt_eq_rpow]
  have hnan : ((ofI 0 : XReal) <. nan) = false := lt_nan _
  rcases h1 with h1 | ⟨p, hp, hp0⟩
  · left
    refine ⟨?_, fun p q h => absurd (h1.symm.trans h).symm (XReal.fin_ne_nan p)⟩
    simp only [ladderMain, h1, nan_add, hnan, Bool.false_eq_true, if_false, hreset]
  rcases h2 with h2 | ⟨q, hq, hq0⟩
  · left
    refine ⟨?_, fun p q _ h => absurd (h2.symm.trans h).symm (XReal.fin_ne_nan q)⟩
    simp only [ladderMain, h2, add_nan, hnan, Bool.false_eq_true, if_false, hreset]
  by_cases hs : 0 < p + q
  · have hs' : q + p ≠ 0 := by linarith
    have hcond : ((fin 0 : XReal) <. fin (p + q)) = true := by
      rw [lt_fin]; exact hs
    have hd0 : ((fin 0 : XReal) <. fin ((q - p) / (q + p))) = true ↔ p < q := by
      rw [lt_fin, div_pos_iff_of_pos_right (by linarith)]
      constructor <;> intro h <;> linarith
    have hz : ((fin ((q - p) / (q + p)) : XReal) ==. fin 0) = true ↔ p = q := by
      rw [eq_fin, div_eq_zero_iff]
      constructor
      · rintro (h | h)
        · linarith
        · exact absurd h hs'
      · intro h; left; linarith
    have ho : ((fin ((q - p) / (q + p)) : XReal) ==. fin 1) = true ↔ p = 0 := by
      rw [eq_fin, div_eq_one_iff_eq hs']
      constructor <;> intro h <;> linarith
    have hmo : ((fin ((q - p) / (q + p)) : XReal) ==. fin (-1)) = true ↔ q = 0 := by
      rw [eq_fin, div_eq_iff hs']
      constructor <;> intro h <;> linarith
    rcases lt_trichotomy p q with hlt | heq | hgt
    · right; left
      refine ⟨p, q, hp, hq, hp0, hlt, ?_⟩
      simp only [ladderMain, hp, hq, XReal.add_eq, hcond, if_true, XReal.sub_eq, XReal.div_eq _ _ hs', XReal.ofI_eq, Int.cast_zero,
        Int.cast_one, hd0.2 hlt, ha, hc, hx, XReal.mul_eq, XReal.lit_eq, stretch]
      by_cases h0 : p = 0
      · rw [if_pos (ho.2 h0), if_pos h0]
        simp only [XReal.add_eq, XReal.fmin_eq]
        norm_num
      · rw [if_neg (fun h => h0 (ho.1 h)), if_neg h0]
        simp only [XReal.add_eq, XReal.fmin_eq]
        norm_num [mul_assoc]
    · left
      refine ⟨?_, fun p' q' h3 h4 => ?_⟩
      · have hn : ¬ ((fin 0 : XReal) <. fin ((q - p) / (q + p))) = true := fun h => absurd (hd0.1 h) (by linarith)
        simp only [ladderMain, hp, hq, XReal.add_eq, hcond, if_true, XReal.sub_eq, XReal.div_eq _ _ hs', XReal.ofI_eq, Int.cast_zero,
          Int.cast_one, hz.2 heq, hreset]
        rw [if_neg hn]
      · rw [hp] at h3; rw [hq] at h4
        rw [← XReal.fin_inj h3, ← XReal.fin_inj h4, heq]
    · right; right
      refine ⟨p, q, hp, hq, hq0, hgt, ?_⟩
      have hn : ¬ ((fin 0 : XReal) <. fin ((q - p) / (q + p))) = true := fun h => absurd (hd0.1 h) (by linarith)
      have hz' : ¬ ((fin ((q - p) / (q + p)) : XReal) ==. fin 0) = true := fun h => absurd (hz.1 h) (by linarith)
      simp only [ladderMain, hp, hq, XReal.add_eq, hcond, if_true, XReal.sub_eq, XReal.div_eq _ _ hs', XReal.ofI_eq, Int.cast_zero,
        Int.cast_one, Int.cast_neg, he, hc, hx, XReal.mul_eq, XReal.lit_eq, stretch, XReal.neg_eq]
      rw [if_neg hn, if_neg hz']
      have hpq : -((q - p) / (q + p)) = (p - q) / (p + q) := by rw [← neg_div, neg_sub, add_comm]
      by_cases h0 : q = 0
      · rw [if_pos (hmo.2 h0), if_pos h0]
        simp only [XReal.sub_eq, XReal.fmax_eq]
        norm_num
      · rw [if_neg (fun h => h0 (hmo.1 h)), if_neg h0]
        simp only [XReal.sub_eq, XReal.fmax_eq, hpq]
        norm_num [mul_assoc]
  · left
    have hcond : ¬ ((ofI 0 : XReal) <. fin (p + q)) = true := by
      rw [XReal.ofI_eq, lt_fin]; simpa using hs
    refine ⟨?_, fun p' q' h3 h4 => ?_⟩
    · simp only [ladderMain, hp, hq, XReal.add_eq, hreset]
      rw [if_neg hcond]
    · rw [hp] at h3; rw [hq] at h4
      rw [← XReal.fin_inj h3, ← XReal.fin_inj h4]
      linarith

/-! ## C25: positivity -/

/-- A finite positive number. -/
def IsPos (v : XReal) : Prop := ∃ x : ℝ, v = fin x ∧ 0 < x

theorem IsPos.inv {v : XReal} (h : IsPos v) : IsPos (ofI 1 /. v) := by
  obtain ⟨x, rfl, hx⟩ := h
  refine ⟨1 / x, ?_, by positivity⟩
  rw [XReal.ofI_eq, XReal.div_eq _ _ hx.ne', Int.cast_one]

/-- A weighted mean of two positive numbers, as computed by the code. -/
theorem IsPos.mean {u v : XReal} (hu : IsPos u) (hv : IsPos v) {s : ℝ} (h0 : 0 ≤ s) (h1 : s ≤ 1) : IsPos (u -. (u -. v) *. fin s) := by
  obtain ⟨x, rfl, hx⟩ := hu
  obtain ⟨y, rfl, hy⟩ := hv
  refine ⟨x - (x - y) * s, by simp, ?_⟩
  rcases eq_or_lt_of_le h0 with rfl | h0
  · simpa using hx
  · nlinarith [mul_pos h0 hy]

theorem mean_one_sub (zs : ℝ) : (ofI 1 -. fin zs : XReal) = fin (1 - zs) := by simp

/-- A round that does not leave a bad value anywhere, as long as the main part does not spoil a cell that is read afterwards. -/
theorem low_high_pos {n : Nat} (hn : 3 ≤ n) {zs : ℝ} (h0 : 0 ≤ zs) (h1 : zs ≤ 1) {ar T : Nat → XReal} {i : Nat}
    (hT : ∀ j, j < n → j ≠ i → IsPos (T j)) (hi : IsPos (T i) ∨ (i = n - 2 ∧ (n ≠ 4 ∨ (ar 0 <. Arith.lit 1 100) = false) ∧
      (ar (n - 2) <. Arith.lit 1 100) = true)) :
    ∀ j, j < n → IsPos (ladderHigh n (fin zs) ar (ladderLow (fin zs) ar T) j) := by
  have hlow : ∀ j, j < n → (j ≠ i ∨ IsPos (T i)) → IsPos (ladderLow (fin zs) ar T j) := by
    intro j hj hji
    have hall : ∀ j, j < n → (j ≠ i ∨ IsPos (T i)) → IsPos (T j) := by
      intro j hj h
      by_cases e : j = i
      · rcases h with h | h
        · exact absurd e h
        · exact e ▸ h
      · exact hT j hj e
    unfold ladderLow
    split
    · rename_i hr0
      by_cases e : j = 1
      · subst e
        rw [Function.update_self]
        refine IsPos.mean (hall 0 (by omega) ?_) (hall 2 (by omega) ?_) h0 h1
        · rcases hi with hi | hi
          · exact .inr hi
          · left; omega
        · rcases hi with hi | ⟨hi, h4 | h4, _⟩
          · exact .inr hi
          · left; omega
          · rw [h4] at hr0; cases hr0
      · rw [Function.update_of_ne e]
        exact hall j hj hji
    · exact hall j hj hji
  intro j hj
  rcases hi with hi | ⟨hi, hn4, hr⟩
  · unfold ladderHigh
    split
    · by_cases e : j = n - 2
      · subst e
        rw [Function.update_self, mean_one_sub]
        exact IsPos.mean (hlow _ (by omega) (.inr hi)) (hlow _ (by omega) (.inr hi)) (by linarith) (by linarith)
      · rw [Function.update_of_ne e]
        exact hlow j hj (.inr hi)
    · exact hlow j hj (.inr hi)
  · unfold ladderHigh
    rw [if_pos hr]
    by_cases e : j = n - 2
    · subst e
      rw [Function.update_self, mean_one_sub]
      exact IsPos.mean (hlow _ (by omega) (.inl (by omega))) (hlow _ (by omega) (.inl (by omega))) (by linarith) (by linarith)
    · rw [Function.update_of_ne e]
      exact hlow j hj (.inl (by omega))

/-- The main part of a round yields a positive temperature if the cell still holds its old value. -/
theorem ladderMain_pos {scale zs : ℝ} (hs0 : 0 ≤ scale) (hs1 : scale ≤ 1) (h0 : 0 ≤ zs) (h1 : zs ≤ 1) {b ar T : Nat → XReal} {i : Nat}
    (ha : IsPos (invB b (i - 1))) (hc : IsPos (invB b i)) (he : IsPos (invB b (i + 1))) (hx : T i = invB b i) (hy : IsPos (T (i - 1)))
    (r1 : IsRate (ar (i - 1))) (r2 : IsRate (ar i)) : IsPos (ladderMain (fin scale) (fin zs) b ar T i) := by
  obtain ⟨a, ha, ha0⟩ := ha
  obtain ⟨c, hc, hc0⟩ := hc
  obtain ⟨e, he, he0⟩ := he
  obtain ⟨y, hy, hy0⟩ := hy
  rcases ladderMain_cases scale zs b ar T i ha hc he ha0 he0 (hx.trans hc) hy r1 r2 with
    ⟨h, _⟩ | ⟨p, q, _, _, hp0, hpq, h⟩ | ⟨p, q, _, _, hq0, hpq, h⟩
  · exact ⟨_, h, div_pos hy0 (Real.sqrt_pos.2 (div_pos ha0 he0))⟩
  · obtain ⟨s0, s1⟩ := stretch_mem hs0 hs1 h0 h1 hp0 hpq
    refine ⟨_, h, lt_min ?_ (by linarith)⟩
    rcases eq_or_lt_of_le s0 with s0 | s0
    · rw [← s0]; simpa using hc0
    · nlinarith [mul_pos s0 ha0]
  · exact ⟨_, h, lt_max_of_lt_right (by linarith)⟩

/-- Whatever the cell holds, the main part yields a finite number. -/
theorem ladderMain_fin {scale zs : ℝ} {b ar T : Nat → XReal} {i : Nat} (ha : IsPos (invB b (i - 1))) (hc : IsPos (invB b i))
    (he : IsPos (invB b (i + 1))) (hx : ∃ x, T i = fin x) (hy : ∃ y, T (i - 1) = fin y) (r1 : IsRate (ar (i - 1))) (r2 : IsRate (ar i)) :
    ∃ v, ladderMain (fin scale) (fin zs) b ar T i = fin v := by
  obtain ⟨a, ha, ha0⟩ := ha
  obtain ⟨c, hc, hc0⟩ := hc
  obtain ⟨e, he, he0⟩ := he
  obtain ⟨x, hx⟩ := hx
  obtain ⟨y, hy⟩ := hy
  rcases ladderMain_cases scale zs b ar T i ha hc he ha0 he0 hx hy r1 r2 with
    ⟨h, _⟩ | ⟨p, q, _, _, hp0, hpq, h⟩ | ⟨p, q, _, _, hq0, hpq, h⟩ <;> exact ⟨_, h⟩

theorem ladderLoop_pos {n : Nat} (hn : 3 ≤ n) {scale zs : ℝ} (hs0 : 0 ≤ scale) (hs1 : scale ≤ 1) (h0 : 0 ≤ zs) (h1 : zs ≤ 1)
    {b ar : Nat → XReal} (hn4 : n ≠ 4 ∨ (ar 0 <. Arith.lit 1 100) = false ∨ (ar (n - 2) <. Arith.lit 1 100) = false) (hb : ∀ j, j < n → IsPos (invB b j)) (har : ∀ j, j < n - 1 → IsRate (ar j)) :
    ∀ (k i : Nat) (T : Nat → XReal), 1 ≤ i → i + k = n - 1 → (∀ j, j < n → IsPos (T j)) →
    (∀ j, i ≤ j → j < n → T j = invB b j ∨ (j = n - 2 ∧ (ar (n - 2) <. Arith.lit 1 100) = true)) →
    ∀ j, j < n → IsPos (ladderLoop n (fin scale) (fin zs) b ar k i T j) := by
  intro k
  induction k with
  | zero => intro i T _ _ hT _; exact hT
  | succ k ih =>
    intro i T hi hk hT hB
    have hstep : ∀ j, j < n → IsPos (ladderStep n (fin scale) (fin zs) b ar T i j) := by
      refine low_high_pos hn h0 h1 (i := i) ?_ ?_
      · intro j hj hji
        rw [Function.update_of_ne hji]
        exact hT j hj
      · rw [Function.update_self]
        rcases hB i (le_refl _) (by omega) with h | ⟨h, h'⟩
        · left
          exact ladderMain_pos hs0 hs1 h0 h1 (hb _ (by omega)) (hb _ (by omega)) (hb _ (by omega)) h (hT _ (by omega))
            (har _ (by omega)) (har _ (by omega))
        · refine .inr ⟨h, ?_, h'⟩
          rcases hn4 with h4 | h4 | h4
          · exact .inl h4
          · exact .inr h4
          · rw [h4] at h'; cases h'
    refine ih (i + 1) _ (by omega) (by omega) hstep ?_
    intro j hj hjn
    simp only [ladderStep, ladderHigh]
    by_cases hr : (ar (n - 2) <. Arith.lit 1 100) = true
    · by_cases e : j = n - 2
      · exact .inr ⟨e, hr⟩
      · left
        rw [if_pos hr, Function.update_of_ne e]
        rcases hB j (by omega) hjn with h | h
        · simp only [ladderLow]
          split
          · rw [Function.update_of_ne (by omega), Function.update_of_ne (by omega), h]
          · rw [Function.update_of_ne (by omega), h]
        · exact absurd h.1 e
    · left
      rw [if_neg hr]
      rcases hB j (by omega) hjn with h | h
      · simp only [ladderLow]
        split
        · rw [Function.update_of_ne (by omega), Function.update_of_ne (by omega), h]
        · rw [Function.update_of_ne (by omega), h]
      · exact absurd h.2 hr

/-- Counts of a stack: `made` swaps out of `proposed`, as doubles. -/
def IsTally {n : Nat} (nsw npr : Fin n → XReal) : Prop := ∀ r, ∃ made proposed : Nat, made ≤ proposed ∧ nsw r = fin made ∧ npr r = fin proposed

theorem IsTally.rate {n : Nat} {nsw npr : Fin n → XReal} (h : IsTally nsw npr) (j : Nat) (hj : j < n) :
    IsRate (swapRate (ext nsw) (ext npr) j) := by
  obtain ⟨m, p, hmp, h1, h2⟩ := h ⟨j, hj⟩
  simp only [swapRate, ext, hj, dif_pos, h1, h2]
  by_cases hp : p = 0
  · left
    obtain rfl : m = 0 := by omega
    subst hp
    simpa using zero_div_zero (R := Rounding.exact)
  · right
    have hp' : (p : ℝ) ≠ 0 := by exact_mod_cast hp
    exact ⟨m / p, XReal.div_eq _ _ hp', by positivity⟩

theorem ext_pos {n : Nat} {beta : Fin n → XReal} (h : ∀ r, IsPos (beta r)) (j : Nat) (hj : j < n) : IsPos (invB (ext beta) j) := by
  simp only [invB, ext, hj, dif_pos]
  exact (h ⟨j, hj⟩).inv

/-- **C25 (partial).** For every number of ranks other than 4, every ladder of positive betas, in any order, and all tallies, including
pairs that were never proposed: all betas are positive after an update. Missing: 4 ranks, where it is false (`ladder_negative_beta`)
unless `beta[0] <= beta[2]` (`ladder_positive_four_partial`). -/
theorem ladder_positive_partial {n : Nat} (hn4 : n ≠ 4) (scale zs : ℝ) (hs0 : 0 ≤ scale) (hs1 : scale ≤ 1) (h0 : 0 ≤ zs) (h1 : zs ≤ 1)
    (nsw npr beta : Fin n → XReal) (hty : IsTally nsw npr) (hb : ∀ r, IsPos (beta r)) (r : Fin n) :
    IsPos (tuneLadder (fin scale) (fin zs) nsw npr beta r) := by
  unfold tuneLadder
  split
  · rename_i h
    refine IsPos.inv (ladderLoop_pos (by omega) hs0 hs1 h0 h1 (.inl hn4) (ext_pos hb) (fun j hj => hty.rate j (by omega)) (n - 2) 1 _ (le_refl _)
      (by omega) (ext_pos hb) (fun j _ _ => .inl rfl) r.val r.isLt)
  · exact hb r

/-- Three ranks in any order of their inverse temperatures. -/
example (r : Fin 3) : IsPos (tuneLadder (fin (9 / 10)) (fin (3 / 10)) (fun _ => fin (1 : Nat)) (fun _ => fin (4 : Nat)) ![fin 1, fin (1 / 100), fin (1 / 2)] r) := by
  refine ladder_positive_partial (by decide) _ _ (by norm_num) (by norm_num) (by norm_num) (by norm_num) _ _ _ (fun _ => ⟨1, 4, by decide, rfl, rfl⟩) (fun r => ?_) r
  fin_cases r
  · exact ⟨1, rfl, by norm_num⟩
  · exact ⟨1 / 100, rfl, by norm_num⟩
  · exact ⟨1 / 2, rfl, by norm_num⟩

/-- Four ranks, both end pairs hardly swapping: the temperatures after the update. `v` is what the main part of round 2 makes of cell 2. -/
theorem four_both {scale zs : ℝ} {b ar : Nat → XReal} {t0 t1 t2 t3 : ℝ} (e0 : invB b 0 = fin t0) (e1 : invB b 1 = fin t1)
    (e2 : invB b 2 = fin t2) (e3 : invB b 3 = fin t3) (p1 : 0 < t1) (p3 : 0 < t3)
    (f0 : (ar 0 <. Arith.lit 1 100) = true) (f2 : (ar 2 <. Arith.lit 1 100) = true) (r1 : IsRate (ar 1)) (r2 : IsRate (ar 2)) :
    ∃ T : Nat → XReal, T 2 = fin ((t0 - (t0 - t2) * zs) - ((t0 - (t0 - t2) * zs) - t3) * (1 - zs)) ∧ T 1 = fin (t0 - (t0 - t2) * zs) ∧
      ∃ v, ladderMain (fin scale) (fin zs) b ar T 2 = fin v ∧
      ladderLoop 4 (fin scale) (fin zs) b ar 2 1 (invB b) 1 = fin (t0 - (t0 - v) * zs) ∧
      ladderLoop 4 (fin scale) (fin zs) b ar 2 1 (invB b) 2 = fin ((t0 - (t0 - v) * zs) - ((t0 - (t0 - v) * zs) - t3) * (1 - zs)) := by
  have hT : ∃ T, ladderStep 4 (fin scale) (fin zs) b ar (invB b) 1 = T := ⟨_, rfl⟩
  obtain ⟨T, hT⟩ := hT
  have hT' := hT
  simp only [ladderStep, ladderHigh, ladderLow, f0, f2, if_true] at hT'
  have k0 : T 0 = fin t0 := by rw [← hT']; simp [Function.update_apply, e0]
  have k1 : T 1 = fin (t0 - (t0 - t2) * zs) := by rw [← hT']; simp [Function.update_apply, e0, e2]
  have k2 : T 2 = fin ((t0 - (t0 - t2) * zs) - ((t0 - (t0 - t2) * zs) - t3) * (1 - zs)) := by
    rw [← hT']; simp [Function.update_apply, e0, e2, e3]
  have k3 : T 3 = fin t3 := by rw [← hT']; simp [Function.update_apply, e3]
  refine ⟨T, k2, k1, ?_⟩
  obtain ⟨v, hv⟩ : ∃ v, ladderMain (fin scale) (fin zs) b ar T 2 = fin v := by
    rcases ladderMain_cases scale zs b ar T 2 e1 e2 e3 p1 p3 k2 k1 r1 r2 with
      ⟨h, _⟩ | ⟨p, q, _, _, hp0, hpq, h⟩ | ⟨p, q, _, _, hq0, hpq, h⟩ <;> exact ⟨_, h⟩
  refine ⟨v, hv, ?_, ?_⟩
  · simp only [ladderLoop, hT]
    simp only [ladderStep, ladderHigh, ladderLow, f0, f2, if_true, hv]
    simp [Function.update_apply, k0]
  · simp only [ladderLoop, hT]
    simp only [ladderStep, ladderHigh, ladderLow, f0, f2, if_true, hv]
    simp [Function.update_apply, k0, k3]

/-- **C25 (partial), four ranks.** All betas are positive after an update if moreover `beta[0] <= beta[2]`, in particular if the ladder
is in order. -/
theorem ladder_positive_four_partial (scale zs : ℝ) (hs0 : 0 ≤ scale) (hs1 : scale ≤ 1) (h0 : 0 ≤ zs) (h1 : zs ≤ 1)
    (nsw npr : Fin 4 → XReal) (β : Fin 4 → ℝ) (hty : IsTally nsw npr) (hb : ∀ r, 0 < β r) (h02 : β 0 ≤ β 2) (r : Fin 4) :
    IsPos (tuneLadder (fin scale) (fin zs) nsw npr (fun r => fin (β r)) r) := by
  have hpos : ∀ r, IsPos ((fun r => fin (β r) : Fin 4 → XReal) r) := fun r => ⟨_, rfl, hb r⟩
  unfold tuneLadder
  split
  · rename_i hr
    refine IsPos.inv ?_
    have rt : ∀ j, j < 4 → IsRate (swapRate (ext nsw) (ext npr) j) := fun j hj => hty.rate j hj
    by_cases f0 : (swapRate (ext nsw) (ext npr) 0 <. Arith.lit 1 100) = true
    · by_cases f2 : (swapRate (ext nsw) (ext npr) 2 <. Arith.lit 1 100) = true
      · have e : ∀ j (hj : j < 4), invB (ext (fun r => fin (β r) : Fin 4 → XReal)) j = fin (1 / β ⟨j, hj⟩) := by
          intro j hj
          simp only [invB, ext, hj, dif_pos]
          rw [XReal.ofI_eq, XReal.div_eq _ _ (hb _).ne', Int.cast_one]
        have q : ∀ r, 0 < 1 / β r := fun r => one_div_pos.2 (hb r)
        obtain ⟨T, k2, k1, v, hv, g1, g2⟩ := four_both (scale := scale) (zs := zs) (e 0 (by omega)) (e 1 (by omega)) (e 2 (by omega)) (e 3 (by omega))
          (q 1) (q 3) f0 f2 (rt 1 (by omega)) (rt 2 (by omega))
        have hle : 1 / β 2 ≤ 1 / β 0 := one_div_le_one_div_of_le (hb 0) h02
        have t0 := q 0; have t1 := q 1; have t2 := q 2; have t3 := q 3
        change _ = fin (1 / β 0 - (1 / β 0 - 1 / β 2) * zs) at k1
        change _ = fin (1 / β 0 - (1 / β 0 - 1 / β 2) * zs - (1 / β 0 - (1 / β 0 - 1 / β 2) * zs - 1 / β 3) * (1 - zs)) at k2
        change _ = fin (1 / β 0 - (1 / β 0 - v) * zs) at g1
        change _ = fin (1 / β 0 - (1 / β 0 - v) * zs - (1 / β 0 - (1 / β 0 - v) * zs - 1 / β 3) * (1 - zs)) at g2
        have c1 := e 1 (by omega)
        have c2 := e 2 (by omega)
        have c3 := e 3 (by omega)
        change _ = fin (1 / β 1) at c1
        change _ = fin (1 / β 2) at c2
        change _ = fin (1 / β 3) at c3
        generalize 1 / β 0 = x0 at *
        generalize 1 / β 1 = x1 at *
        generalize 1 / β 2 = x2 at *
        generalize 1 / β 3 = x3 at *
        have hy0 : 0 < x0 - (x0 - x2) * zs := by
          rcases eq_or_lt_of_le h0 with h | h
          · rw [← h]; simpa using t0
          · nlinarith [mul_pos h t2]
        have hw0 : 0 < x0 - (x0 - x2) * zs - (x0 - (x0 - x2) * zs - x3) * (1 - zs) := by
          rcases eq_or_lt_of_le h0 with h | h
          · rw [← h]; simpa using t3
          · nlinarith [mul_pos h hy0]
        have hmain : 0 < x0 - (x0 - v) * zs := by
          have hvpos : 0 < v → 0 < x0 - (x0 - v) * zs := by
            intro hv0
            rcases eq_or_lt_of_le h0 with h | h
            · rw [← h]; simpa using t0
            · nlinarith [mul_pos h hv0]
          rcases ladderMain_cases scale zs _ _ T 2 c1 c2 c3 t1 t3 k2 k1 (rt 1 (by omega)) (rt 2 (by omega)) with
            ⟨h, _⟩ | ⟨p, q, _, _, hp0, hpq, h⟩ | ⟨p, q, _, _, hq0, hpq, h⟩
          · have := XReal.fin_inj (hv.symm.trans h)
            exact hvpos (by rw [this]; exact div_pos hy0 (Real.sqrt_pos.2 (div_pos t1 t3)))
          · have hve := XReal.fin_inj (hv.symm.trans h)
            by_cases hv0 : 0 < v
            · exact hvpos hv0
            · obtain ⟨s0, s1⟩ := stretch_mem hs0 hs1 h0 h1 hp0 hpq
              generalize stretch scale zs p q = s at *
              have hve' : v = x0 - (x0 - x2) * zs - (x0 - (x0 - x2) * zs - x3) * (1 - zs) + (x1 - x2) * s := by
                rcases min_choice (x0 - (x0 - x2) * zs - (x0 - (x0 - x2) * zs - x3) * (1 - zs) + (x1 - x2) * s) (x1 * (1 - 1 / 100)) with hm | hm
                · rw [hve, hm]
                · rw [hm] at hve
                  exact absurd (by rw [hve]; linarith) hv0
              have hgt : x0 - (x0 - x2) * zs - (x0 - (x0 - x2) * zs - x3) * (1 - zs) - x2 < v := by
                rw [hve']
                rcases eq_or_lt_of_le s0 with hs | hs
                · rw [← hs]; linarith
                · nlinarith [mul_pos hs t1]
              rcases eq_or_lt_of_le h0 with hz | hz
              · rw [← hz]; simpa using t0
              · have key : 0 ≤ (1 - zs) * (x0 * (1 + zs ^ 2) + zs * x3 - zs * (1 + zs) * x2) := by
                  refine mul_nonneg (by linarith) ?_
                  have : zs * (1 + zs) * x2 ≤ zs * (1 + zs) * x0 := by
                    refine mul_le_mul_of_nonneg_left hle (by positivity)
                  nlinarith [mul_pos hz t3]
                nlinarith [mul_lt_mul_of_pos_left hgt hz]
          · have := XReal.fin_inj (hv.symm.trans h)
            exact hvpos (by rw [this]; exact lt_max_of_lt_right (by linarith))
        have hr' : r.val = 1 ∨ r.val = 2 := by omega
        rcases hr' with hr' | hr'
        · rw [hr']
          exact ⟨_, g1, hmain⟩
        · rw [hr']
          refine ⟨_, g2, ?_⟩
          rcases eq_or_lt_of_le h0 with h | h
          · rw [← h]; simpa using t3
          · nlinarith [mul_pos h hmain]
      · exact ladderLoop_pos (by omega) hs0 hs1 h0 h1 (.inr (.inr (Bool.eq_false_iff.2 f2))) (ext_pos hpos) (fun j hj => rt j (by omega)) 2 1 _
          (le_refl _) (by omega) (ext_pos hpos) (fun j _ _ => .inl rfl) r.val r.isLt
    · exact ladderLoop_pos (by omega) hs0 hs1 h0 h1 (.inr (.inl (Bool.eq_false_iff.2 f0))) (ext_pos hpos) (fun j hj => rt j (by omega)) 2 1 _
          (le_refl _) (by omega) (ext_pos hpos) (fun j _ _ => .inl rfl) r.val r.isLt
  · exact hpos r

example (r : Fin 4) : IsPos (tuneLadder (fin (9 / 10)) (fin (3 / 10)) (fun _ => fin (1 : Nat)) (fun _ => fin (4 : Nat))
    (fun r => fin ((![1 / 100, 1, 1 / 10, 1 / 2] : Fin 4 → ℝ) r)) r) := by
  refine ladder_positive_four_partial _ _ (by norm_num) (by norm_num) (by norm_num) (by norm_num) _ _ _ (fun _ => ⟨1, 4, by decide, rfl, rfl⟩) (fun r => ?_)
    (by simp; norm_num) r
  fin_cases r <;> simp

/-- The ladder 1, 1, 1/100, 1 of the counterexample. -/
noncomputable def badLadder : Fin 4 → XReal := fun r => fin (if r = 2 then 1 / 100 else 1)
/-- Its tallies: swaps made, -/
noncomputable def badMade : Fin 4 → XReal := fun r => fin (if r = 2 then (1 : Nat) else (0 : Nat))
/-- and swaps proposed. -/
noncomputable def badProposed : Fin 4 → XReal := fun r => fin (if r = 2 then (200 : Nat) else (1 : Nat))

theorem badTally : IsTally badMade badProposed := by
  intro r
  by_cases h : r = 2
  · exact ⟨1, 200, by omega, by simp [badMade, h], by simp [badProposed, h]⟩
  · exact ⟨0, 1, by omega, by simp [badMade, h], by simp [badProposed, h]⟩

theorem swapRate_eq {n : Nat} {nsw npr : Fin n → XReal} {j : Nat} (hj : j < n) {m p : ℝ} (h1 : nsw ⟨j, hj⟩ = fin m) (h2 : npr ⟨j, hj⟩ = fin p)
    (hp : p ≠ 0) : swapRate (ext nsw) (ext npr) j = fin (m / p) := by
  simp only [swapRate, ext, hj, dif_pos, h1, h2]
  exact XReal.div_eq _ _ hp

theorem invB_eq {n : Nat} {beta : Fin n → XReal} {j : Nat} (hj : j < n) {x : ℝ} (h : beta ⟨j, hj⟩ = fin x) (hx : x ≠ 0) :
    invB (ext beta) j = fin (1 / x) := by
  simp only [invB, ext, hj, dif_pos, h]
  rw [XReal.ofI_eq, XReal.div_eq _ _ hx, Int.cast_one]

/-- **C25 is false for four ranks**: positive betas, `zero_stretch = 1/2`, `scale_tune_ladder = 1`, and tallies of a stack in which a
beta becomes negative. -/
theorem ladder_negative_beta : (∀ r, IsPos (badLadder r)) ∧ IsTally badMade badProposed ∧
    tuneLadder (fin 1) (fin (1 / 2)) badMade badProposed badLadder 1 = fin (-8 / 91) := by
  refine ⟨fun r => ⟨_, rfl, by split <;> norm_num⟩, badTally, ?_⟩
  have e0 : invB (ext badLadder) 0 = fin 1 := by simpa using invB_eq (beta := badLadder) (j := 0) (x := 1) (by omega) (by simp [badLadder]) (by norm_num)
  have e1 : invB (ext badLadder) 1 = fin 1 := by simpa using invB_eq (beta := badLadder) (j := 1) (x := 1) (by omega) (by simp [badLadder]) (by norm_num)
  have e2 : invB (ext badLadder) 2 = fin 100 := by
    have := invB_eq (beta := badLadder) (j := 2) (x := 1 / 100) (by omega) (by simp [badLadder]) (by norm_num)
    simpa using this
  have e3 : invB (ext badLadder) 3 = fin 1 := by simpa using invB_eq (beta := badLadder) (j := 3) (x := 1) (by omega) (by simp [badLadder]) (by norm_num)
  have a0 : swapRate (ext badMade) (ext badProposed) 0 = fin 0 := by
    simpa using swapRate_eq (nsw := badMade) (npr := badProposed) (j := 0) (by omega) (m := 0) (p := 1) (by simp [badMade]) (by simp [badProposed]) (by norm_num)
  have a1 : swapRate (ext badMade) (ext badProposed) 1 = fin 0 := by
    simpa using swapRate_eq (nsw := badMade) (npr := badProposed) (j := 1) (by omega) (m := 0) (p := 1) (by simp [badMade]) (by simp [badProposed]) (by norm_num)
  have a2 : swapRate (ext badMade) (ext badProposed) 2 = fin (1 / 200) :=
    swapRate_eq (nsw := badMade) (npr := badProposed) (j := 2) (by omega) (m := 1) (p := 200) (by simp [badMade]) (by simp [badProposed]) (by norm_num)
  have r1 : IsRate (swapRate (ext badMade) (ext badProposed) 1) := badTally.rate 1 (by omega)
  have r2 : IsRate (swapRate (ext badMade) (ext badProposed) 2) := badTally.rate 2 (by omega)
  obtain ⟨T, k2, k1, v, hv, g1, _⟩ := four_both (scale := 1) (zs := 1 / 2) e0 e1 e2 e3 one_pos one_pos
    (by rw [a0, XReal.lit_eq, lt_fin]; norm_num) (by rw [a2, XReal.lit_eq, lt_fin]; norm_num) r1 r2
  have hv' : v = -95 / 4 := by
    rcases ladderMain_cases 1 (1 / 2) _ _ T 2 e1 e2 e3 one_pos one_pos k2 k1 r1 r2 with
      ⟨_, h⟩ | ⟨p, q, hp, hq, _, _, h⟩ | ⟨p, q, hp, hq, _, hpq, h⟩
    · have := h _ _ a1 a2
      norm_num at this
    · have h3 := XReal.fin_inj (hv.symm.trans h)
      rw [h3]
      rw [← XReal.fin_inj (a1.symm.trans hp)]
      simp only [stretch, if_true]
      norm_num
    · rw [← XReal.fin_inj (a1.symm.trans hp), ← XReal.fin_inj (a2.symm.trans hq)] at hpq
      norm_num at hpq
  have h1 : (1 : Fin 4).val = 1 := rfl
  unfold tuneLadder
  rw [if_pos (by rw [h1]; omega), h1]
  show (ofI 1 /. ladderLoop 4 (fin 1) (fin (1 / 2)) (ext badLadder) (swapRate (ext badMade) (ext badProposed)) 2 1 (invB (ext badLadder)) 1) = _
  rw [g1, hv', XReal.ofI_eq, XReal.div_eq _ _ (by norm_num)]
  norm_num

/-! ## C26 and C27: order and range -/

/-- Updates without the two end adjustments: every new temperature is the main part applied to the new temperature on its left. -/
theorem ladder_plain {F : Type} [Arith F] {n : Nat} (scale zs : F) (b ar : Nat → F) (f0 : (ar 0 <. Arith.lit 1 100) = false)
    (f1 : (ar (n - 2) <. Arith.lit 1 100) = false) : ∀ (k i : Nat) (T : Nat → F), 1 ≤ i → i + k = n - 1 → (∀ j, i ≤ j → T j = invB b j) →
    (∀ j, j < i → ladderLoop n scale zs b ar k i T j = T j) ∧
    ∀ j, i ≤ j → j < n - 1 → ∃ T', T' j = invB b j ∧ T' (j - 1) = ladderLoop n scale zs b ar k i T (j - 1) ∧
      ladderLoop n scale zs b ar k i T j = ladderMain scale zs b ar T' j := by
  intro k
  induction k with
  | zero => intro i T _ hk hT; exact ⟨fun j _ => rfl, fun j h1 h2 => by omega⟩
  | succ k ih =>
    intro i T hi hk hT
    have hs : ladderStep n scale zs b ar T i = Function.update T i (ladderMain scale zs b ar T i) := by
      simp [ladderStep, ladderHigh, ladderLow, f0, f1]
    simp only [ladderLoop, hs]
    obtain ⟨h1, h2⟩ := ih (i + 1) (Function.update T i (ladderMain scale zs b ar T i)) (by omega) (by omega)
      (fun j hj => by rw [Function.update_of_ne (by omega)]; exact hT j (by omega))
    refine ⟨fun j hj => ?_, fun j hj hjn => ?_⟩
    · rw [h1 j (by omega), Function.update_of_ne (by omega)]
    · by_cases e : j = i
      · subst e
        refine ⟨T, hT j (le_refl _), ?_, ?_⟩
        · rw [h1 (j - 1) (by omega), Function.update_of_ne (by omega)]
        · rw [h1 j (by omega), Function.update_self]
      · exact h2 j (by omega) hjn

/-- A ladder in order: positive and strictly increasing. -/
def Ordered {n : Nat} (beta : Fin n → XReal) : Prop :=
  ∃ β : Fin n → ℝ, (∀ r, beta r = fin (β r)) ∧ (∀ r, 0 < β r) ∧ StrictMono β

/-- If the new temperatures decrease strictly from the first to the last, the new ladder is in order. -/
theorem ordered_of_temps {n : Nat} {scale zs : XReal} {nsw npr beta : Fin n → XReal} {t : Nat → ℝ} (hpos : ∀ j, j < n → 0 < t j)
    (hdec : ∀ j, j + 1 < n → t (j + 1) < t j) (ht : ∀ j, 1 ≤ j → j < n - 1 → tuneLadderT n scale zs (ext nsw) (ext npr) (ext beta) j = fin (t j))
    (h0 : ∀ r : Fin n, (r.val = 0 ∨ r.val = n - 1) → beta r = fin (1 / t r.val)) :
    Ordered (tuneLadder scale zs nsw npr beta) := by
  refine ⟨fun r => 1 / t r.val, fun r => ?_, fun r => one_div_pos.2 (hpos _ r.isLt), ?_⟩
  · unfold tuneLadder
    split
    · rename_i h
      rw [ht r.val h.1 h.2, XReal.ofI_eq, XReal.div_eq _ _ (hpos _ r.isLt).ne', Int.cast_one]
    · rename_i h
      exact h0 r (by omega)
  · have hanti : ∀ k j, j + k + 1 < n → t (j + k + 1) < t j := by
      intro k
      induction k with
      | zero => intro j hj; exact hdec j hj
      | succ k ih => intro j hj; exact (hdec (j + k + 1) hj).trans (ih j (by omega))
    intro r s hrs
    have := hanti (s.val - r.val - 1) r.val (by have := s.isLt; have : r.val < s.val := hrs; omega)
    rw [show r.val + (s.val - r.val - 1) + 1 = s.val by have : r.val < s.val := hrs; omega] at this
    exact one_div_lt_one_div_of_lt (hpos _ s.isLt) this

/-- Old temperatures of an ordered ladder, as a function on indices. -/
theorem Ordered.temps {n : Nat} {beta : Fin n → XReal} (h : Ordered beta) : ∃ t : Nat → ℝ, (∀ j, j < n → 0 < t j) ∧
    (∀ j, j + 1 < n → t (j + 1) < t j) ∧ (∀ j, j < n → invB (ext beta) j = fin (t j)) ∧ ∀ r : Fin n, beta r = fin (1 / t r.val) := by
  obtain ⟨β, h1, h2, h3⟩ := h
  refine ⟨fun j => if hj : j < n then 1 / β ⟨j, hj⟩ else 0, fun j hj => ?_, fun j hj => ?_, fun j hj => ?_, fun r => ?_⟩
  · simp only [hj, dif_pos]; exact one_div_pos.2 (h2 _)
  · simp only [hj, show j < n by omega, dif_pos]
    exact one_div_lt_one_div_of_lt (h2 _) (h3 (by simp))
  · simp only [hj, dif_pos]
    exact invB_eq hj (h1 _) (h2 _).ne'
  · simp only [r.isLt, dif_pos]
    rw [h1 r, one_div_one_div]

/-- **C26 and C27 (partial), even swap rates.** If neighbouring pairs have equal rates (or were not proposed) and the end pairs do not swap
less than one time in a hundred, the update of an ordered ladder of any length is again ordered. -/
theorem ladder_order_even_partial {n : Nat} (hn : 3 ≤ n) (scale zs : ℝ) (nsw npr beta : Fin n → XReal) (hty : IsTally nsw npr) (hb : Ordered beta)
    (hev : ∀ i, 1 ≤ i → i < n - 1 → ∀ p q : ℝ, swapRate (ext nsw) (ext npr) (i - 1) = fin p → swapRate (ext nsw) (ext npr) i = fin q → p = q)
    (f0 : (swapRate (ext nsw) (ext npr) 0 <. Arith.lit 1 100) = false)
    (f1 : (swapRate (ext nsw) (ext npr) (n - 2) <. Arith.lit 1 100) = false) :
    Ordered (tuneLadder (fin scale) (fin zs) nsw npr beta) := by
  obtain ⟨t, tpos, tdec, tinv, tb⟩ := hb.temps
  obtain ⟨hl0, hl⟩ := ladder_plain (fin scale) (fin zs) (ext beta) _ f0 f1 (n - 2) 1 (invB (ext beta)) (le_refl _) (by omega) (fun _ _ => rfl)
  have h01 : 0 < t 0 * t 1 := mul_pos (tpos 0 (by omega)) (tpos 1 (by omega))
  -- closed form
  have hcf : ∀ j, j < n - 1 → tuneLadderT n (fin scale) (fin zs) (ext nsw) (ext npr) (ext beta) j
      = fin (t 0 * Real.sqrt (t j * t (j + 1) / (t 0 * t 1))) := by
    intro j
    induction j with
    | zero =>
      intro _
      rw [tuneLadderT_frame n hn _ _ _ _ _ 0 (.inl rfl), tinv 0 (by omega), div_self h01.ne', Real.sqrt_one, mul_one]
    | succ j ih =>
      intro hj
      obtain ⟨T', e1, e2, e3⟩ := hl (j + 1) (by omega) hj
      have e2' : T' (j + 1 - 1) = fin (t 0 * Real.sqrt (t j * t (j + 1) / (t 0 * t 1))) := e2.trans (ih (by omega))
      have p0 := tpos j (by omega)
      have p1 := tpos (j + 1) (by omega)
      have p2 := tpos (j + 1 + 1) (by omega)
      rcases ladderMain_cases scale zs (ext beta) (swapRate (ext nsw) (ext npr)) T' (j + 1) (tinv (j + 1 - 1) (by omega)) (tinv (j + 1) (by omega))
          (tinv (j + 1 + 1) (by omega)) p0 p2 (e1.trans (tinv (j + 1) (by omega))) e2'
          (hty.rate _ (by omega)) (hty.rate _ (by omega)) with ⟨h, _⟩ | ⟨p, q, hp, hq, _, hpq, _⟩ | ⟨p, q, hp, hq, _, hpq, _⟩
      · refine (e3.trans h).trans ?_
        congr 1
        rw [mul_div_assoc]
        congr 1
        simp only [Nat.add_sub_cancel]
        rw [← Real.sqrt_div (by positivity)]
        congr 1
        field_simp
      · exact absurd (hev (j + 1) (by omega) hj p q hp hq) (by linarith)
      · exact absurd (hev (j + 1) (by omega) hj p q hp hq) (by linarith)
  refine ordered_of_temps (t := fun j => if j = n - 1 then t j else t 0 * Real.sqrt (t j * t (j + 1) / (t 0 * t 1))) ?_ ?_ ?_ ?_
  · intro j hj
    split
    · exact tpos j hj
    · have p0 := tpos 0 (by omega)
      have p1 := tpos j hj
      have p2 := tpos (j + 1) (by omega)
      exact mul_pos p0 (Real.sqrt_pos.2 (div_pos (mul_pos p1 p2) h01))
  · intro j hj
    have p0 := tpos 0 (by omega)
    have p1 := tpos j (by omega)
    have p2 := tpos (j + 1) hj
    simp only [show j ≠ n - 1 by omega, if_false]
    split
    · rename_i hlast
      have h4 : t (j + 1) = Real.sqrt (t (j + 1) * t (j + 1)) := (Real.sqrt_mul_self p2.le).symm
      have h5 : t 0 * Real.sqrt (t j * t (j + 1) / (t 0 * t 1)) = Real.sqrt (t 0 * t j * t (j + 1) / t 1) := by
        rw [show t 0 * Real.sqrt (t j * t (j + 1) / (t 0 * t 1)) = Real.sqrt (t 0 * t 0) * Real.sqrt (t j * t (j + 1) / (t 0 * t 1)) by
          rw [Real.sqrt_mul_self p0.le], ← Real.sqrt_mul (by positivity)]
        congr 1
        have := tpos 1 (by omega)
        field_simp
      rw [h5]
      refine h4.trans_lt (Real.sqrt_lt_sqrt (by positivity) ?_)
      have q1 := tpos 1 (by omega)
      rw [lt_div_iff₀ q1]
      have d1 := tdec 0 (by omega)
      have d2 := tdec j hj
      have : t (j + 1) * t 1 < t j * t 0 := by nlinarith
      nlinarith
    · have p3 := tpos (j + 1 + 1) (by omega)
      refine mul_lt_mul_of_pos_left (Real.sqrt_lt_sqrt (by positivity) ?_) p0
      refine div_lt_div_of_pos_right ?_ h01
      have d1 := tdec j (by omega)
      have d2 := tdec (j + 1) (by omega)
      nlinarith
  · intro j h1 h2
    rw [hcf j h2, if_neg (by omega)]
  · intro r hr
    rw [tb r]
    rcases hr with hr | hr
    · simp only [hr, show 0 ≠ n - 1 by omega, if_false, div_self h01.ne', Real.sqrt_one, mul_one]
    · simp only [hr, if_true]

/-- **C26 and C27 (partial), gentle updates.** If the scale is at most one half, no pair swaps less than one time in a hundred, no two
neighbouring pairs have exactly equal rates, and neighbouring temperatures differ by more than one percent, the update of an ordered
ladder of any length is again ordered. -/
theorem ladder_order_gentle_partial {n : Nat} (hn : 3 ≤ n) (scale zs : ℝ) (hs0 : 0 ≤ scale) (hs1 : scale ≤ 1 / 2) (nsw npr beta : Fin n → XReal)
    (hty : IsTally nsw npr) (hb : Ordered beta)
    (hrate : ∀ i, i < n - 1 → ∃ p : ℝ, swapRate (ext nsw) (ext npr) i = fin p ∧ 1 / 100 ≤ p)
    (hne : ∀ i, 1 ≤ i → i < n - 1 → swapRate (ext nsw) (ext npr) (i - 1) ≠ swapRate (ext nsw) (ext npr) i)
    (hgap : ∀ (i : Nat) (hi : i + 1 < n) (x y : ℝ), beta ⟨i, by omega⟩ = fin x → beta ⟨i + 1, hi⟩ = fin y → x * (1 + 2 / 100) < y) :
    Ordered (tuneLadder (fin scale) (fin zs) nsw npr beta) := by
  obtain ⟨t, tpos, tdec, tinv, tb⟩ := hb.temps
  have hf : ∀ i, i < n - 1 → (swapRate (ext nsw) (ext npr) i <. Arith.lit 1 100) = false := by
    intro i hi
    obtain ⟨p, hp, hp1⟩ := hrate i hi
    rw [hp, XReal.lit_eq, lt_fin_false]
    norm_num at hp1 ⊢
    exact hp1
  have gap : ∀ j, j + 1 < n → t (j + 1) * (1 + 2 / 100) < t j := by
    intro j hj
    have h1 := hgap j hj _ _ (tb ⟨j, by omega⟩) (tb ⟨j + 1, hj⟩)
    simp only at h1
    have p1 := tpos j (by omega)
    have p2 := tpos (j + 1) hj
    rw [div_mul_eq_mul_div, one_mul, div_lt_div_iff₀ p1 p2] at h1
    linarith
  obtain ⟨hl0, hl⟩ := ladder_plain (fin scale) (fin zs) (ext beta) _ (hf 0 (by omega)) (hf (n - 2) (by omega)) (n - 2) 1 (invB (ext beta))
    (le_refl _) (by omega) (fun _ _ => rfl)
  have hstretch : ∀ p q : ℝ, 1 / 100 ≤ p → p < q → 0 ≤ stretch scale zs p q ∧ stretch scale zs p q < 1 / 2 := by
    intro p q hp hpq
    have hs : 0 < q + p := by linarith
    have e1 : 0 ≤ (q - p) / (q + p) := div_nonneg (by linarith) hs.le
    have e2 : (q - p) / (q + p) < 1 := (div_lt_one hs).2 (by linarith)
    rw [stretch, if_neg (by linarith)]
    refine ⟨mul_nonneg e1 hs0, ?_⟩
    rcases eq_or_lt_of_le hs0 with h | h
    · rw [← h]; norm_num
    · nlinarith
  -- every inner temperature stays strictly within half of the way to its old neighbours
  have hmid : ∀ j, ∃ x, 1 ≤ j → j < n - 1 → tuneLadderT n (fin scale) (fin zs) (ext nsw) (ext npr) (ext beta) j = fin x ∧
      (t j + t (j + 1)) / 2 < x ∧ x < (t (j - 1) + t j) / 2 := by
    intro j
    by_cases hj : 1 ≤ j ∧ j < n - 1
    · obtain ⟨T', e1, e2, e3⟩ := hl j hj.1 hj.2
      obtain ⟨p, hp, hp1⟩ := hrate (j - 1) (by omega)
      obtain ⟨q, hq, hq1⟩ := hrate j hj.2
      have g1 := gap (j - 1) (by omega)
      rw [Nat.sub_add_cancel hj.1] at g1
      have g2 := gap j (by omega)
      have p0 := tpos (j - 1) (by omega)
      have p1 := tpos j (by omega)
      have p2 := tpos (j + 1) (by omega)
      have hneq := hne j hj.1 hj.2
      rw [hp, hq] at hneq
      have hT0 : ∃ y, T' (j - 1) = fin y := by
        have : ∀ m, m < n - 1 → ∃ y, tuneLadderT n (fin scale) (fin zs) (ext nsw) (ext npr) (ext beta) m = fin y := by
          intro m
          induction m with
          | zero => intro _; exact ⟨_, (tuneLadderT_frame n hn _ _ _ _ _ 0 (.inl rfl)).trans (tinv 0 (by omega))⟩
          | succ m ih =>
            intro hm
            obtain ⟨T2, f1, f2, f3⟩ := hl (m + 1) (by omega) hm
            obtain ⟨y, hy⟩ := ih (by omega)
            obtain ⟨v, hv⟩ := ladderMain_fin (scale := scale) (zs := zs) (b := ext beta) (ar := swapRate (ext nsw) (ext npr)) (T := T2) (i := m + 1)
              ⟨_, tinv _ (by omega), tpos _ (by omega)⟩ ⟨_, tinv _ (by omega), tpos _ (by omega)⟩ ⟨_, tinv _ (by omega), tpos _ (by omega)⟩
              ⟨_, f1.trans (tinv _ (by omega))⟩ ⟨y, f2.trans hy⟩ (hty.rate _ (by omega)) (hty.rate _ (by omega))
            exact ⟨v, f3.trans hv⟩
        obtain ⟨y, hy⟩ := this (j - 1) (by omega)
        exact ⟨y, e2.trans hy⟩
      obtain ⟨y, hy⟩ := hT0
      rcases ladderMain_cases scale zs (ext beta) (swapRate (ext nsw) (ext npr)) T' j (tinv (j - 1) (by omega)) (tinv j (by omega))
          (tinv (j + 1) (by omega)) p0 p2 (e1.trans (tinv j (by omega))) hy
          (hty.rate _ (by omega)) (hty.rate _ (by omega)) with ⟨_, h⟩ | ⟨p', q', hp', hq', _, hpq, h⟩ | ⟨p', q', hp', hq', _, hpq, h⟩
      · exact absurd (congrArg fin (h p q hp hq)) hneq
      · obtain rfl := XReal.fin_inj (hp.symm.trans hp')
        obtain ⟨s0, s1⟩ := hstretch p q' hp1 hpq
        refine ⟨_, fun _ _ => ⟨e3.trans h, ?_, ?_⟩⟩
        · refine lt_min ?_ ?_
          · nlinarith
          · nlinarith
        · exact lt_of_le_of_lt (min_le_left _ _) (by nlinarith)
      · obtain rfl := XReal.fin_inj (hq.symm.trans hq')
        obtain ⟨s0, s1⟩ := hstretch q p' hq1 hpq
        refine ⟨_, fun _ _ => ⟨e3.trans h, ?_, ?_⟩⟩
        · exact lt_of_lt_of_le (by nlinarith) (le_max_left _ _)
        · refine max_lt ?_ ?_
          · nlinarith
          · nlinarith
    · exact ⟨0, fun h1 h2 => absurd ⟨h1, h2⟩ hj⟩
  choose x hx using hmid
  refine ordered_of_temps (t := fun j => if 1 ≤ j ∧ j < n - 1 then x j else t j) ?_ ?_ ?_ ?_
  · intro j hj
    split
    · rename_i h
      have := hx j h.1 h.2
      have p1 := tpos j (by omega)
      have p2 := tpos (j + 1) (by omega)
      linarith [this.2.1]
    · exact tpos j hj
  · intro j hj
    have d := tdec j hj
    by_cases h1 : 1 ≤ j + 1 ∧ j + 1 < n - 1
    · rw [if_pos h1]
      have a1 := (hx (j + 1) h1.1 h1.2).2.2
      simp only [Nat.add_sub_cancel] at a1
      by_cases h2 : 1 ≤ j ∧ j < n - 1
      · rw [if_pos h2]
        linarith [(hx j h2.1 h2.2).2.1]
      · rw [if_neg h2]; linarith
    · rw [if_neg h1]
      rw [if_pos (by omega)]
      linarith [(hx j (by omega) (by omega)).2.1]
  · intro j h1 h2
    rw [(hx j h1 h2).1, if_pos ⟨h1, h2⟩]
  · intro r hr
    rw [tb r, if_neg (by omega)]

/-- **C26 and C27 (partial), three ranks.** With one inner chain, end temperatures more than two percent apart and
`0 < zero_stretch < 1`, the update of an ordered ladder is again ordered, for all tallies. -/
theorem ladder_order_three_partial (scale zs : ℝ) (hs0 : 0 ≤ scale) (hs1 : scale ≤ 1) (h0 : 0 < zs) (h1 : zs < 1) (nsw npr beta : Fin 3 → XReal)
    (hty : IsTally nsw npr) (hb : Ordered beta) (hgap : ∀ x y : ℝ, beta 0 = fin x → beta 2 = fin y → x * (1 + 2 / 100) < y) :
    Ordered (tuneLadder (fin scale) (fin zs) nsw npr beta) := by
  obtain ⟨t, tpos, tdec, tinv, tb⟩ := hb.temps
  have g : t 2 * (1 + 2 / 100) < t 0 := by
    have h := hgap _ _ (tb 0) (tb 2)
    have p1 := tpos 0 (by omega)
    have p2 := tpos 2 (by omega)
    have e0 : (0 : Fin 3).val = 0 := rfl
    have e2 : (2 : Fin 3).val = 2 := rfl
    rw [e0, e2, div_mul_eq_mul_div, one_mul, div_lt_div_iff₀ p1 p2] at h
    linarith
  have p0 := tpos 0 (by omega)
  have p1 := tpos 1 (by omega)
  have p2 := tpos 2 (by omega)
  have d0 := tdec 0 (by omega)
  have d1 := tdec 1 (by omega)
  obtain ⟨v, hv, hlo, hhi⟩ : ∃ v, tuneLadderT 3 (fin scale) (fin zs) (ext nsw) (ext npr) (ext beta) 1 = fin v ∧ t 2 < v ∧ v < t 0 := by
    have hm : ∃ v, ladderMain (fin scale) (fin zs) (ext beta) (swapRate (ext nsw) (ext npr)) (invB (ext beta)) 1 = fin v ∧ t 2 < v ∧ v < t 0 := by
      rcases ladderMain_cases scale zs (ext beta) (swapRate (ext nsw) (ext npr)) (invB (ext beta)) 1 (tinv 0 (by omega)) (tinv 1 (by omega))
          (tinv 2 (by omega)) p0 p2 (tinv 1 (by omega)) (tinv 0 (by omega)) (hty.rate 0 (by omega)) (hty.rate 1 (by omega)) with
        ⟨h, _⟩ | ⟨p, q, _, _, hp0, hpq, h⟩ | ⟨p, q, _, _, hq0, hpq, h⟩
      · refine ⟨_, h, ?_, ?_⟩
        · rw [lt_div_iff₀ (Real.sqrt_pos.2 (div_pos p0 p2))]
          have hr : Real.sqrt (t 0 / t 2) < t 0 / t 2 := by
            rw [Real.sqrt_lt' (div_pos p0 p2)]
            have : 1 < t 0 / t 2 := (one_lt_div p2).2 (by linarith)
            nlinarith
          calc t 2 * Real.sqrt (t 0 / t 2) < t 2 * (t 0 / t 2) := mul_lt_mul_of_pos_left hr p2
            _ = t 0 := by field_simp
        · refine div_lt_self p0 ?_
          rw [Real.lt_sqrt (by norm_num), one_pow, one_lt_div p2]
          linarith
      · obtain ⟨s0, s1⟩ := stretch_mem hs0 hs1 h0.le h1.le hp0 hpq
        refine ⟨_, h, lt_min (by nlinarith) (by linarith), lt_of_le_of_lt (min_le_right _ _) (by linarith)⟩
      · obtain ⟨s0, s1⟩ := stretch_mem hs0 hs1 h0.le h1.le hq0 hpq
        refine ⟨_, h, lt_of_lt_of_le (by linarith) (le_max_right _ _), max_lt (by nlinarith) (by linarith)⟩
    obtain ⟨m, hm, m0, m1⟩ := hm
    have hT : tuneLadderT 3 (fin scale) (fin zs) (ext nsw) (ext npr) (ext beta) =
        ladderStep 3 (fin scale) (fin zs) (ext beta) (swapRate (ext nsw) (ext npr)) (invB (ext beta)) 1 := rfl
    rw [hT]
    simp only [ladderStep, ladderHigh, ladderLow, hm]
    have i0 := tinv 0 (by omega)
    have i2 := tinv 2 (by omega)
    split
    · split
      · refine ⟨_, by simp [Function.update_apply, i0, i2]; rfl, ?_, ?_⟩ <;> nlinarith
      · refine ⟨_, by simp [Function.update_apply, i0, i2]; rfl, ?_, ?_⟩ <;> nlinarith
    · split
      · refine ⟨_, by simp [Function.update_apply, i0, i2]; rfl, ?_, ?_⟩ <;> nlinarith
      · exact ⟨m, by simp, m0, m1⟩
  refine ordered_of_temps (t := fun j => if j = 1 then v else t j) ?_ ?_ ?_ ?_
  · intro j hj
    split
    · linarith
    · exact tpos j hj
  · intro j hj
    rcases (by omega : j = 0 ∨ j = 1) with rfl | rfl
    · simpa using hhi
    · simpa using hlo
  · intro j h2 h3
    obtain rfl : j = 1 := by omega
    simpa using hv
  · intro r hr
    rw [tb r, if_neg (by omega)]

/-- **C27 (partial).** Whenever the updated ladder is in order (see the three theorems above), every beta lies between the first and the
last configured beta. -/
theorem ladder_range_partial {n : Nat} (hn : 1 ≤ n) (scale zs : XReal) (nsw npr beta : Fin n → XReal)
    (h : Ordered (tuneLadder scale zs nsw npr beta)) (lo hi : ℝ) (hlo : beta ⟨0, by omega⟩ = fin lo) (hhi : beta ⟨n - 1, by omega⟩ = fin hi) (r : Fin n) :
    ∃ x, tuneLadder scale zs nsw npr beta r = fin x ∧ lo ≤ x ∧ x ≤ hi := by
  obtain ⟨β, h1, h2, h3⟩ := h
  have e0 : tuneLadder scale zs nsw npr beta ⟨0, by omega⟩ = beta ⟨0, by omega⟩ := by simp [tuneLadder]
  have e1 : tuneLadder scale zs nsw npr beta ⟨n - 1, by omega⟩ = beta ⟨n - 1, by omega⟩ := by simp [tuneLadder]
  rw [h1, hlo] at e0
  rw [h1, hhi] at e1
  refine ⟨β r, h1 r, ?_, ?_⟩
  · rw [← XReal.fin_inj e0]
    exact h3.monotone (Fin.mk_le_of_le_val (Nat.zero_le _))
  · rw [← XReal.fin_inj e1]
    exact h3.monotone (by rw [Fin.le_def]; have := r.isLt; simp only; omega)

/-- A ladder of three ranks that stays in order, between 1/10 and 1. -/
example (r : Fin 3) : ∃ x, tuneLadder (fin (9 / 10)) (fin (3 / 10)) (fun _ => fin (1 : Nat)) (fun _ => fin (4 : Nat)) ![fin (1 / 10), fin (1 / 2), (fin 1 : XReal)] r =
    fin x ∧ 1 / 10 ≤ x ∧ x ≤ 1 := by
  refine ladder_range_partial (by decide) _ _ _ _ _ (ladder_order_three_partial _ _ (by norm_num) (by norm_num) (by norm_num) (by norm_num) _ _ _
    (fun _ => ⟨1, 4, by decide, rfl, rfl⟩) ?_ ?_) (1 / 10) 1 rfl rfl r
  · refine ⟨![1 / 10, 1 / 2, 1], fun r => by fin_cases r <;> rfl, fun r => by fin_cases r <;> norm_num, ?_⟩
    refine Fin.strictMono_iff_lt_succ.2 fun i => ?_
    fin_cases i
    · norm_num
    · change (1 / 2 : ℝ) < 1; norm_num
  · intro x y hx hy
    cases hx; cases hy; norm_num

/-- Four ranks, ends swapping well or not proposed: the two inner temperatures. -/
theorem four_plain {F : Type} [Arith F] (scale zs : F) (b ar : Nat → F) (f0 : (ar 0 <. Arith.lit 1 100) = false)
    (f2 : (ar 2 <. Arith.lit 1 100) = false) :
    ladderLoop 4 scale zs b ar 2 1 (invB b) 1 = ladderMain scale zs b ar (invB b) 1 ∧
    ladderLoop 4 scale zs b ar 2 1 (invB b) 2 =
      ladderMain scale zs b ar (Function.update (invB b) 1 (ladderMain scale zs b ar (invB b) 1)) 2 := by
  simp only [ladderLoop, ladderStep, ladderHigh, ladderLow, f0, f2, Bool.false_eq_true, if_false]
  constructor <;> simp [Function.update_apply]

/-- The betas 1/1000, 1/100, 1/10, 1. -/
noncomputable def decades : Fin 4 → XReal := fun r => fin (match r.val with | 0 => 1 / 1000 | 1 => 1 / 100 | 2 => 1 / 10 | _ => 1)
/-- One swap made between each pair of neighbours except the middle pair, -/
noncomputable def gapMade : Fin 4 → XReal := fun r => fin (match r.val with | 1 => (0 : Nat) | _ => (1 : Nat))
/-- of two proposed. -/
noncomputable def gapProposed : Fin 4 → XReal := fun _ => fin (2 : Nat)

theorem decades_ordered : Ordered decades := by
  refine ⟨_, fun r => rfl, ?_, ?_⟩
  · intro r; fin_cases r <;> norm_num
  · rw [Fin.strictMono_iff_lt_succ]
    intro r; fin_cases r <;> norm_num

/-- The decades with the swap rates 1/2, 1/4, 1/2 and the scale 1/2. -/
example : Ordered (tuneLadder (fin (1 / 2)) (fin (3 / 10)) ![fin (2 : Nat), fin (1 : Nat), fin (2 : Nat), fin (0 : Nat)] (fun _ => fin (4 : Nat)) decades) := by
  have hty : IsTally ![fin (2 : Nat), fin (1 : Nat), fin (2 : Nat), (fin (0 : Nat) : XReal)] (fun _ => fin (4 : Nat)) := fun r => by
    fin_cases r
    exacts [⟨2, 4, by decide, rfl, rfl⟩, ⟨1, 4, by decide, rfl, rfl⟩, ⟨2, 4, by decide, rfl, rfl⟩, ⟨0, 4, by decide, rfl, rfl⟩]
  have r0 : swapRate (ext ![fin (2 : Nat), fin (1 : Nat), fin (2 : Nat), (fin (0 : Nat) : XReal)]) (ext (n := 4) (fun _ => fin (4 : Nat))) 0 = fin (1 / 2) := by
    rw [swapRate_eq (by decide) (m := (2 : Nat)) (p := (4 : Nat)) rfl rfl (by norm_num)]; norm_num
  have r1 : swapRate (ext ![fin (2 : Nat), fin (1 : Nat), fin (2 : Nat), (fin (0 : Nat) : XReal)]) (ext (n := 4) (fun _ => fin (4 : Nat))) 1 = fin (1 / 4) := by
    rw [swapRate_eq (by decide) (m := (1 : Nat)) (p := (4 : Nat)) rfl rfl (by norm_num)]; norm_num
  have r2 : swapRate (ext ![fin (2 : Nat), fin (1 : Nat), fin (2 : Nat), (fin (0 : Nat) : XReal)]) (ext (n := 4) (fun _ => fin (4 : Nat))) 2 = fin (1 / 2) := by
    rw [swapRate_eq (by decide) (m := (2 : Nat)) (p := (4 : Nat)) rfl rfl (by norm_num)]; norm_num
  refine ladder_order_gentle_partial (by decide) _ _ (by norm_num) (le_refl _) _ _ _ hty decades_ordered (fun i hi => ?_) (fun i h1 hi => ?_)
    (fun i hi x y hx hy => ?_)
  · have : i = 0 ∨ i = 1 ∨ i = 2 := by omega
    rcases this with rfl | rfl | rfl
    exacts [⟨_, r0, by norm_num⟩, ⟨_, r1, by norm_num⟩, ⟨_, r2, by norm_num⟩]
  · have : i = 1 ∨ i = 2 := by omega
    rcases this with rfl | rfl
    · rw [r0, r1]; intro h; injection h with h; norm_num at h
    · rw [r1, r2]; intro h; injection h with h; norm_num at h
  · have : i = 0 ∨ i = 1 ∨ i = 2 := by omega
    rcases this with rfl | rfl | rfl <;> (injection hx.symm with hx; injection hy.symm with hy; subst hx; subst hy; norm_num)

theorem gapTally : IsTally gapMade gapProposed := by
  intro r
  refine ⟨match r.val with | 1 => 0 | _ => 1, 2, ?_, ?_, rfl⟩
  · split <;> omega
  · simp only [gapMade]
    split <;> rfl

/-- **C26 is false**: the ladder with betas 1/1000, 1/100, 1/10, 1 and `zero_stretch = 1/10`, half of the swaps of the outer pairs made
and none of the middle pair. The inner temperatures 100 and 10 become 19 and 91: they have passed each other. -/
theorem ladder_order_broken (scale : ℝ) : Ordered decades ∧ IsTally gapMade gapProposed ∧
    tuneLadder (fin scale) (fin (1 / 10)) gapMade gapProposed decades 1 = fin (1 / 19) ∧
    tuneLadder (fin scale) (fin (1 / 10)) gapMade gapProposed decades 2 = fin (1 / 91) := by
  refine ⟨decades_ordered, gapTally, ?_⟩
  have e0 : invB (ext decades) 0 = fin 1000 := by
    rw [invB_eq (beta := decades) (j := 0) (x := 1 / 1000) (by omega) rfl (by norm_num)]; norm_num
  have e1 : invB (ext decades) 1 = fin 100 := by
    rw [invB_eq (beta := decades) (j := 1) (x := 1 / 100) (by omega) rfl (by norm_num)]; norm_num
  have e2 : invB (ext decades) 2 = fin 10 := by
    rw [invB_eq (beta := decades) (j := 2) (x := 1 / 10) (by omega) rfl (by norm_num)]; norm_num
  have e3 : invB (ext decades) 3 = fin 1 := by
    rw [invB_eq (beta := decades) (j := 3) (x := 1) (by omega) rfl (by norm_num)]; norm_num
  have a0 : swapRate (ext gapMade) (ext gapProposed) 0 = fin (1 / 2) := by
    rw [swapRate_eq (nsw := gapMade) (npr := gapProposed) (j := 0) (by omega) (m := (1 : Nat)) (p := (2 : Nat)) rfl rfl (by norm_num)]; norm_num
  have a1 : swapRate (ext gapMade) (ext gapProposed) 1 = fin 0 := by
    rw [swapRate_eq (nsw := gapMade) (npr := gapProposed) (j := 1) (by omega) (m := (0 : Nat)) (p := (2 : Nat)) rfl rfl (by norm_num)]; norm_num
  have a2 : swapRate (ext gapMade) (ext gapProposed) 2 = fin (1 / 2) := by
    rw [swapRate_eq (nsw := gapMade) (npr := gapProposed) (j := 2) (by omega) (m := (1 : Nat)) (p := (2 : Nat)) rfl rfl (by norm_num)]; norm_num
  have rt : ∀ j, j < 4 → IsRate (swapRate (ext gapMade) (ext gapProposed) j) := fun j hj => gapTally.rate j hj
  obtain ⟨g1, g2⟩ := four_plain (fin scale) (fin (1 / 10)) (ext decades) (swapRate (ext gapMade) (ext gapProposed))
    (by rw [a0, XReal.lit_eq, lt_fin_false]; norm_num) (by rw [a2, XReal.lit_eq, lt_fin_false]; norm_num)
  have m1 : ladderMain (fin scale) (fin (1 / 10)) (ext decades) (swapRate (ext gapMade) (ext gapProposed)) (invB (ext decades)) 1 = fin 19 := by
    rcases ladderMain_cases scale (1 / 10) _ _ (invB (ext decades)) 1 e0 e1 e2 (by norm_num) (by norm_num) e1 e0 (rt 0 (by omega)) (rt 1 (by omega)) with
      ⟨_, h⟩ | ⟨p, q, hp, hq, _, hpq, h⟩ | ⟨p, q, hp, hq, _, hpq, h⟩
    · have := h _ _ a0 a1; norm_num at this
    · rw [← XReal.fin_inj (a0.symm.trans hp), ← XReal.fin_inj (a1.symm.trans hq)] at hpq
      norm_num at hpq
    · rw [h, ← XReal.fin_inj (a1.symm.trans hq)]
      simp only [stretch, if_true]
      norm_num
  rw [m1] at g1 g2
  have m2 : ladderMain (fin scale) (fin (1 / 10)) (ext decades) (swapRate (ext gapMade) (ext gapProposed))
      (Function.update (invB (ext decades)) 1 (fin 19)) 2 = fin 91 := by
    rcases ladderMain_cases scale (1 / 10) _ _ (Function.update (invB (ext decades)) 1 (fin 19)) 2 e1 e2 e3 (by norm_num) (by norm_num)
        (by rw [Function.update_of_ne (by omega)]; exact e2) (by rw [show 2 - 1 = 1 from rfl, Function.update_self]) (rt 1 (by omega)) (rt 2 (by omega)) with
      ⟨_, h⟩ | ⟨p, q, hp, hq, _, hpq, h⟩ | ⟨p, q, hp, hq, _, hpq, h⟩
    · have := h _ _ a1 a2; norm_num at this
    · rw [h, ← XReal.fin_inj (a1.symm.trans hp)]
      simp only [stretch, if_true]
      norm_num
    · rw [← XReal.fin_inj (a1.symm.trans hp), ← XReal.fin_inj (a2.symm.trans hq)] at hpq
      norm_num at hpq
  rw [m2] at g2
  constructor
  · have h1 : (1 : Fin 4).val = 1 := rfl
    unfold tuneLadder
    rw [if_pos (by rw [h1]; omega), h1]
    exact (congrArg (fun v => ofI 1 /. v) g1).trans (by rw [XReal.ofI_eq, XReal.div_eq _ _ (by norm_num), Int.cast_one])
  · have h1 : (2 : Fin 4).val = 2 := rfl
    unfold tuneLadder
    rw [if_pos (by rw [h1]; omega), h1]
    exact (congrArg (fun v => ofI 1 /. v) g2).trans (by rw [XReal.ofI_eq, XReal.div_eq _ _ (by norm_num), Int.cast_one])

/-- The betas 1/1000, 1/4, 100/101, 1. -/
noncomputable def steep : Fin 4 → XReal := fun r => fin (match r.val with | 0 => 1 / 1000 | 1 => 1 / 4 | 2 => 100 / 101 | _ => 1)
/-- Swaps made: one in the first pair, none in the others; -/
noncomputable def steepMade : Fin 4 → XReal := fun r => fin (match r.val with | 0 => (1 : Nat) | _ => (0 : Nat))
/-- swaps proposed: one in each of the first two pairs, none in the last. -/
noncomputable def steepProposed : Fin 4 → XReal := fun r => fin (match r.val with | 0 => (1 : Nat) | 1 => (1 : Nat) | _ => (0 : Nat))

theorem steep_ordered : Ordered steep := by
  refine ⟨_, fun r => rfl, ?_, ?_⟩
  · intro r; fin_cases r <;> norm_num
  · rw [Fin.strictMono_iff_lt_succ]
    intro r; fin_cases r <;> norm_num

theorem steepTally : IsTally steepMade steepProposed := by
  intro r
  fin_cases r
  · exact ⟨1, 1, by omega, rfl, rfl⟩
  · exact ⟨0, 1, by omega, rfl, rfl⟩
  · exact ⟨0, 0, by omega, rfl, rfl⟩
  · exact ⟨0, 0, by omega, rfl, rfl⟩

/-- **C27 is false**: the ladder with betas 1/1000, 1/4, 100/101, 1 and `zero_stretch = 1/10`, with the last pair not proposed in the stack.
The third beta becomes larger than the last one, which is 1. -/
theorem ladder_range_broken (scale : ℝ) : Ordered steep ∧ IsTally steepMade steepProposed ∧
    tuneLadder (fin scale) (fin (1 / 10)) steepMade steepProposed steep 2 = fin (2000 / 1309) := by
  refine ⟨steep_ordered, steepTally, ?_⟩
  have e0 : invB (ext steep) 0 = fin 1000 := by
    rw [invB_eq (beta := steep) (j := 0) (x := 1 / 1000) (by omega) rfl (by norm_num)]; norm_num
  have e1 : invB (ext steep) 1 = fin 4 := by
    rw [invB_eq (beta := steep) (j := 1) (x := 1 / 4) (by omega) rfl (by norm_num)]; norm_num
  have e2 : invB (ext steep) 2 = fin (101 / 100) := by
    rw [invB_eq (beta := steep) (j := 2) (x := 100 / 101) (by omega) rfl (by norm_num)]; norm_num
  have e3 : invB (ext steep) 3 = fin 1 := by
    rw [invB_eq (beta := steep) (j := 3) (x := 1) (by omega) rfl (by norm_num)]; norm_num
  have a0 : swapRate (ext steepMade) (ext steepProposed) 0 = fin 1 := by
    rw [swapRate_eq (nsw := steepMade) (npr := steepProposed) (j := 0) (by omega) (m := (1 : Nat)) (p := (1 : Nat)) rfl rfl (by norm_num)]; norm_num
  have a1 : swapRate (ext steepMade) (ext steepProposed) 1 = fin 0 := by
    rw [swapRate_eq (nsw := steepMade) (npr := steepProposed) (j := 1) (by omega) (m := (0 : Nat)) (p := (1 : Nat)) rfl rfl (by norm_num)]; norm_num
  have a2 : swapRate (ext steepMade) (ext steepProposed) 2 = nan := by
    have h1 : ext steepMade 2 = fin 0 := by simp [ext, steepMade]
    have h2 : ext steepProposed 2 = fin 0 := by simp [ext, steepProposed]
    rw [swapRate, h1, h2]
    exact zero_div_zero
  have rt : ∀ j, j < 4 → IsRate (swapRate (ext steepMade) (ext steepProposed) j) := fun j hj => steepTally.rate j hj
  obtain ⟨_, g2⟩ := four_plain (fin scale) (fin (1 / 10)) (ext steep) (swapRate (ext steepMade) (ext steepProposed))
    (by rw [a0, XReal.lit_eq, lt_fin_false]; norm_num) (by rw [a2]; exact nan_lt _)
  have m1 : ladderMain (fin scale) (fin (1 / 10)) (ext steep) (swapRate (ext steepMade) (ext steepProposed)) (invB (ext steep)) 1 = fin (1309 / 1000) := by
    rcases ladderMain_cases scale (1 / 10) _ _ (invB (ext steep)) 1 e0 e1 e2 (by norm_num) (by norm_num) e1 e0 (rt 0 (by omega)) (rt 1 (by omega)) with
      ⟨_, h⟩ | ⟨p, q, hp, hq, _, hpq, h⟩ | ⟨p, q, hp, hq, _, hpq, h⟩
    · have := h _ _ a0 a1; norm_num at this
    · rw [← XReal.fin_inj (a0.symm.trans hp), ← XReal.fin_inj (a1.symm.trans hq)] at hpq
      norm_num at hpq
    · rw [h, ← XReal.fin_inj (a1.symm.trans hq)]
      simp only [stretch, if_true]
      norm_num
  rw [m1] at g2
  have m2 : ladderMain (fin scale) (fin (1 / 10)) (ext steep) (swapRate (ext steepMade) (ext steepProposed))
      (Function.update (invB (ext steep)) 1 (fin (1309 / 1000))) 2 = fin (1309 / 2000) := by
    rcases ladderMain_cases scale (1 / 10) _ _ (Function.update (invB (ext steep)) 1 (fin (1309 / 1000))) 2 e1 e2 e3 (by norm_num) (by norm_num)
        (by rw [Function.update_of_ne (by omega)]; exact e2) (by rw [show 2 - 1 = 1 from rfl, Function.update_self]) (rt 1 (by omega)) (rt 2 (by omega)) with
      ⟨h, _⟩ | ⟨p, q, hp, hq, _, hpq, h⟩ | ⟨p, q, hp, hq, _, hpq, h⟩
    · rw [h, div_one, show (4 : ℝ) = 2 * 2 by norm_num, Real.sqrt_mul_self (by norm_num)]
      norm_num
    · exact absurd (a2.symm.trans hq).symm (XReal.fin_ne_nan q)
    · exact absurd (a2.symm.trans hq).symm (XReal.fin_ne_nan q)
  rw [m2] at g2
  have h1 : (2 : Fin 4).val = 2 := rfl
  unfold tuneLadder
  rw [if_pos (by rw [h1]; omega), h1]
  refine (congrArg (fun v => ofI 1 /. v) g2).trans ?_
  rw [XReal.ofI_eq, XReal.div_eq _ _ (by norm_num)]
  norm_num

/-- The hypotheses of the order theorems are met by ladders with moved temperatures: even rates on the decades. -/
example : Ordered (tuneLadder (fin (9 / 10)) (fin (3 / 10)) (fun _ => fin (1 : Nat)) (fun _ => fin (2 : Nat)) decades) := by
  have hty : IsTally (n := 4) (fun _ => fin (1 : Nat)) (fun _ => fin (2 : Nat)) := fun _ => ⟨1, 2, by omega, rfl, rfl⟩
  have hr : ∀ j, j < 4 → swapRate (ext (n := 4) (fun _ => fin (1 : Nat))) (ext (n := 4) (fun _ => fin (2 : Nat))) j = (fin (1 / 2) : XReal) := by
    intro j hj
    rw [swapRate_eq hj (m := (1 : Nat)) (p := (2 : Nat)) rfl rfl (by norm_num)]; norm_num
  refine ladder_order_even_partial (by omega) _ _ _ _ _ hty decades_ordered ?_ ?_ ?_
  · intro i _ hi p q hp hq
    rw [hr _ (by omega)] at hp hq
    rw [← XReal.fin_inj hp, ← XReal.fin_inj hq]
  · rw [hr 0 (by omega), XReal.lit_eq, lt_fin_false]; norm_num
  · rw [hr _ (by omega), XReal.lit_eq, lt_fin_false]; norm_num

/-! ## Whole runs -/

section
variable {n : Nat} {F : Type} [Arith F] [Source F]

omit [Source F] in
/-- A property of the ladder in use, now and at every record. -/
structure BetaInv (P : (Fin n → F) → Prop) (w : W n F) : Prop where
  now : P w.st.beta
  note : ∀ q, ∀ a ∈ notes (w.log q), ∃ b : Fin n → F, a.betas = List.ofFn b ∧ P b

theorem BetaInv.addNote {P : (Fin n → F) → Prop} {w w' : W n F} (h : BetaInv P w) (hb : w'.st.beta = w.st.beta)
    (hn : ∀ q, ∀ a ∈ notes (w'.log q), a ∈ notes (w.log q) ∨ a.betas = List.ofFn w.st.beta) : BetaInv P w' := by
  refine ⟨by rw [hb]; exact h.now, fun q a haq => ?_⟩
  rcases hn q a haq with h1 | h1
  · exact h.note q a h1
  · exact ⟨_, h1, h.now⟩

/-- A property kept by every ladder update with reachable tallies is kept by every step. -/
theorem BetaInv.step {cfg : Cfg F} (hu : cfg.user.Wf cfg.nParm) {P : (Fin n → F) → Prop}
    (hP : ∀ (b : Fin n → F) (ty : Tally n F), ty.Reach → P b → P (tuneLadder cfg.scaleLadder cfg.zeroStretch ty.nsw ty.npr b))
    {root : Fin n} {w w' : W n F} (h : Step cfg root w w') (hok : w.st.Ok cfg) (hl : BetaInv P w) : BetaInv P w' := by
  cases h with
  | widths =>
    refine hl.addNote rfl (fun q a ha => .inl ?_)
    simpa [seqWidths, W.push, notes] using ha
  | betas =>
    refine hl.addNote rfl (fun q a ha => .inl ?_)
    simp only [notes_append] at ha
    rcases List.mem_append.1 ha with ha | ha
    · exact ha
    · split at ha <;> simp [notes] at ha
  | draw nStack i b h => exact hl.addNote rfl (fun q a ha => .inl ha)
  | batch _ nb h =>
    obtain ⟨hc, hst, _⟩ := seqBatch_chain hu h hok
    refine hl.addNote (by rw [hst]) (fun q a ha => ?_)
    rw [(hc q).2.2, notes_append, notes_note] at ha
    rcases List.mem_append.1 ha with ha | ha
    · exact .inl ha
    · rcases List.mem_cons.1 ha with rfl | ha
      · exact .inr rfl
      · split at ha
        · rw [G.mh, notes_rows] at ha; cases ha
        · cases ha
  | swap _ ty ty' h =>
    obtain ⟨i, j, d, _, hst, _, _, _⟩ := seqSwap_spec h
    refine hl.addNote (by rw [hst]) (fun q a ha => ?_)
    rw [seqSwap_log cfg root w w' ty ty' h] at ha
    simp only [notes_append, notes_note] at ha
    rcases List.mem_append.1 ha with ha | ha
    · exact .inl ha
    · rcases List.mem_cons.1 ha with rfl | ha
      · exact .inr rfl
      · cases ha
  | ladder ty h h' hr =>
    have hn : ∀ q, notes ((seqLadder cfg w ty).log q) = notes (w.log q) := by
      intro q; simp [seqLadder, W.push, notes]
    refine ⟨hP _ _ hr hl.now, fun q a ha => ?_⟩
    rw [hn] at ha
    exact hl.note q a ha
  | tune _ rk h =>
    obtain ⟨⟨sg, hst⟩, hlog, _⟩ := seqTuneRank_frame h
    refine hl.addNote (by rw [hst]) (fun q a ha => .inl ?_)
    rwa [hlog] at ha

theorem run_betas_inv [LawfulDraws F] (cfg : Cfg F) (file : DataFile F) (hv : Valid n cfg file) (clock : Nat) (root : Fin n)
    {P : (Fin n → F) → Prop} (h0 : ∀ b : Fin n → F, (∀ r : Fin n, cfg.betas[r.val]? = some (b r)) → P b)
    (hP : ∀ (b : Fin n → F) (ty : Tally n F), ty.Reach → P b → P (tuneLadder cfg.scaleLadder cfg.zeroStretch ty.nsw ty.npr b))
    (w : List (Label n)) (t : Sys n (Msg F) (Line F) (RSt n F)) (h : (initSys cfg file clock root).exec w = some t)
    (q : Fin n) (a : Note F) (ha : a ∈ notes (t.log q)) : ∃ b : Fin n → F, a.betas = List.ofFn b ∧ P b := by
  obtain ⟨wf, hw, hall⟩ := log_prefix cfg file hv clock root
  obtain ⟨w0, hi, hs⟩ := seqMain_steps cfg file clock root wf hw
  have hI : BetaInv P w0 := by
    simp only [seqInit, exc_bind, Except.ok.injEq] at hi
    obtain ⟨_, _, data, hd, _, _, _, _, _, _, beta, hb, rfl⟩ := hi
    have key : ∀ (p : Prop) [Decidable p] (l : Line F), notes [l] = [] → notes (if p then [l] else []) = [] := by
      intro p _ l hl; split
      · exact hl
      · rfl
    refine ⟨h0 _ (fun r => ?_), fun q a ha => ?_⟩
    · unfold copyBetas at hb
      split at hb
      · cases hb
        exact List.getElem?_eq_getElem _
      · cases hb
    · exfalso
      simp only [notes_append] at ha
      rw [key _ _ rfl, key _ _ rfl] at ha
      cases ha
  have hf := (hs.inv (P := fun w => w.st.Ok cfg ∧ BetaInv P w)
    (fun _ _ hp h => ⟨h.ok hv.user hp.1, hp.2.step hv.user hP h hp.1⟩) ⟨seqInit_ok hv.user hi, hI⟩).2
  exact hf.note q a ((notes_prefix ((hall w t h).1 q)).subset ha)

end

theorem Tally.Reach.isTally {n : Nat} {ty : Tally n XReal} (h : ty.Reach) : IsTally ty.nsw ty.npr := by
  induction h with
  | zero => exact fun r => ⟨0, 0, le_refl _, by simp [Tally.zero, XReal.ofI_eq], by simp [Tally.zero, XReal.ofI_eq]⟩
  | add ty i d _ ih =>
    intro r
    obtain ⟨m, p, h, h1, h2⟩ := ih r
    by_cases hr : r = i
    · subst hr
      refine ⟨m + if d then 1 else 0, p + 1, by split <;> omega, ?_, ?_⟩
      · simp only [Tally.add, Function.update_self, h1, XReal.ofI_eq, XReal.add_eq]
        cases d <;> simp
      · simp only [Tally.add, Function.update_self, h2, XReal.ofI_eq, XReal.add_eq]
        simp
    · exact ⟨m, p, h, by simp only [Tally.add, Function.update_of_ne hr, h1], by simp only [Tally.add, Function.update_of_ne hr, h2]⟩

/-- **C25 (partial), whole runs.** In every execution with positive configured betas, stretch parameters in [0, 1] and any number of
ranks other than 4, whenever a rank starts a batch or a swap all betas of its ladder are positive numbers. -/
theorem run_betas_positive_partial {n : Nat} (hn4 : n ≠ 4) (cfg : Cfg XReal) (file : DataFile XReal) (hv : Valid n cfg file)
    (clock : Nat) (root : Fin n) (scale zs : ℝ) (e1 : cfg.scaleLadder = fin scale) (e2 : cfg.zeroStretch = fin zs)
    (hs0 : 0 ≤ scale) (hs1 : scale ≤ 1) (h0 : 0 ≤ zs) (h1 : zs ≤ 1) (hb : ∀ b ∈ cfg.betas, ∃ x : ℝ, b = fin x ∧ 0 < x)
    (w : List (Label n)) (t : Sys n (Msg XReal) (Line XReal) (RSt n XReal)) (h : (initSys cfg file clock root).exec w = some t)
    (q : Fin n) (a : Note XReal) (ha : a ∈ notes (t.log q)) : ∀ b ∈ a.betas, ∃ x : ℝ, b = fin x ∧ 0 < x := by
  obtain ⟨b, e, hp⟩ := run_betas_inv cfg file hv clock root (P := fun b => ∀ r, IsPos (b r))
    (fun b hc r => hb _ (List.mem_of_getElem? (hc r)))
    (fun b ty hty hp r => by rw [e1, e2]; exact ladder_positive_partial hn4 scale zs hs0 hs1 h0 h1 _ _ _ hty.isTally hp r) w t h q a ha
  rw [e]
  intro b' hb'
  obtain ⟨r, rfl⟩ := (List.mem_ofFn' _ _).1 hb'
  exact hp r

example (w : List (Label 3)) (t : Sys 3 (Msg XReal) (Line XReal) (RSt 3 XReal)) (h : (initSys demoCfgX demoFileX 7 0).exec w = some t) (a : Note XReal)
    (ha : a ∈ notes (t.log 1)) : ∀ b ∈ a.betas, ∃ x : ℝ, b = fin x ∧ 0 < x := by
  refine run_betas_positive_partial (by decide) demoCfgX demoFileX demoX_valid 7 0 (9 / 10) (3 / 10) rfl rfl (by norm_num) (by norm_num) (by norm_num)
    (by norm_num) (fun b hb => ?_) w t h 1 a ha
  simp only [demoCfgX, List.mem_cons, List.not_mem_nil, or_false] at hb
  rcases hb with rfl | rfl | rfl
  · exact ⟨_, rfl, by norm_num⟩
  · exact ⟨_, rfl, by norm_num⟩
  · exact ⟨_, rfl, by norm_num⟩

/-- **C26 and C27 (partial), whole runs.** In every execution with three ranks, betas of the ends more than two percent apart,
`0 < zero_stretch < 1` and `0 <= scale_tune_ladder <= 1`, every ladder in use is strictly increasing and keeps to the configured range. -/
theorem run_betas_ordered_three_partial (cfg : Cfg XReal) (file : DataFile XReal) (hv : Valid 3 cfg file)
    (clock : Nat) (root : Fin 3) (scale zs : ℝ) (e1 : cfg.scaleLadder = fin scale) (e2 : cfg.zeroStretch = fin zs)
    (hs0 : 0 ≤ scale) (hs1 : scale ≤ 1) (h0 : 0 < zs) (h1 : zs < 1) (lo mid hi : ℝ) (hb : cfg.betas = [fin lo, fin mid, fin hi])
    (hlo : 0 < lo) (hlm : lo < mid) (hmh : mid < hi) (hgap : lo * (1 + 2 / 100) < hi)
    (w : List (Label 3)) (t : Sys 3 (Msg XReal) (Line XReal) (RSt 3 XReal)) (h : (initSys cfg file clock root).exec w = some t)
    (q : Fin 3) (a : Note XReal) (ha : a ∈ notes (t.log q)) : ∃ x : ℝ, a.betas = [fin lo, fin x, fin hi] ∧ lo < x ∧ x < hi := by
  obtain ⟨b, e, hp, p0, p2⟩ := run_betas_inv cfg file hv clock root (P := fun b => Ordered b ∧ b 0 = fin lo ∧ b 2 = fin hi)
    (fun b hc => by
      have c0 := hc 0
      have c1 := hc 1
      have c2 := hc 2
      rw [hb] at c0 c1 c2
      have d0 : b 0 = fin lo := (Option.some.inj c0).symm
      have d1 : b 1 = fin mid := (Option.some.inj c1).symm
      have d2 : b 2 = fin hi := (Option.some.inj c2).symm
      refine ⟨⟨fun r => match r.val with | 0 => lo | 1 => mid | _ => hi, ?_, ?_, ?_⟩, d0, d2⟩
      · intro r; fin_cases r
        · exact d0
        · exact d1
        · exact d2
      · intro r; fin_cases r
        · exact hlo
        · exact hlo.trans hlm
        · exact (hlo.trans hlm).trans hmh
      · rw [Fin.strictMono_iff_lt_succ]
        intro r; fin_cases r
        · exact hlm
        · exact hmh)
    (fun b ty hty hp => by
      refine ⟨?_, ?_, ?_⟩
      · rw [e1, e2]
        refine ladder_order_three_partial scale zs hs0 hs1 h0 h1 _ _ _ hty.isTally hp.1 (fun x y hx hy => ?_)
        rw [← XReal.fin_inj (hp.2.1.symm.trans hx), ← XReal.fin_inj (hp.2.2.symm.trans hy)]
        exact hgap
      · simpa [tuneLadder] using hp.2.1
      · simpa [tuneLadder] using hp.2.2) w t h q a ha
  obtain ⟨β, h1, h2, h3⟩ := hp
  rw [h1] at p0 p2
  refine ⟨β 1, ?_, ?_, ?_⟩
  · rw [e]
    simp only [List.ofFn_succ, List.ofFn_zero]
    rw [← p0, ← p2, ← h1, ← h1, ← h1]
    rfl
  · rw [← XReal.fin_inj p0]; exact h3 (by decide)
  · rw [← XReal.fin_inj p2]; exact h3 (by decide)

/-- The hypotheses of the two theorems about whole runs can be met. -/
example (clock : Nat) (root : Fin 3) (w : List (Label 3)) (t : Sys 3 (Msg XReal) (Line XReal) (RSt 3 XReal))
    (h : (initSys demoCfgX demoFileX clock root).exec w = some t) (q : Fin 3) (a : Note XReal) (ha : a ∈ notes (t.log q)) :
    ∃ x : ℝ, a.betas = [fin (1 / 10), fin x, fin 1] ∧ 1 / 10 < x ∧ x < 1 :=
  run_betas_ordered_three_partial demoCfgX demoFileX demoX_valid clock root (9 / 10) (3 / 10) rfl rfl (by norm_num) (by norm_num) (by norm_num)
    (by norm_num) (1 / 10) (1 / 2) 1 rfl (by norm_num) (by norm_num) (by norm_num) (by norm_num) w t h q a ha

end NiiC
