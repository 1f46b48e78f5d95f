import Verif.Props.Ladder

/-!
# Four ranks: an ordered ladder is no protection against a negative inverse temperature

`ladder_positive_four_partial` shows that one update of a four-rank ladder with `beta[0] <= beta[2]` leaves all betas positive. Here:
the condition is not kept by the updates. From an ordered ladder, with any `scale_tune_ladder` and any `zero_stretch` below 1/2 (the
shipped input.ini has 0.1), a sequence of tallies leads to a negative beta.

Temperatures are written relative to that of the last rank. Two updates with the rates 1, 0, 1 multiply both inner temperatures by 0.9999
(`drift_two`), below that of the last rank and without limit; then one update with the rates 0, 1, 0/0 lifts the temperature of rank 2 far
above that of rank 0 (`lift_step`), and the next one takes beta[1] below 0 (`drop_step`).
-/

set_option linter.unusedSimpArgs false

namespace NiiC

open Dbl

/-- The ladder with temperatures `x`, `y`, `z` and 1. -/
noncomputable def temps (x y z : ℝ) : Fin 4 → XReal := ![fin (1 / x), fin (1 / y), fin (1 / z), fin 1]

/-- The tallies of one block between two updates: `m` swaps made of `p` proposed, for the pairs 0-1, 1-2 and 2-3. -/
abbrev Block := (Fin 4 → XReal) × (Fin 4 → XReal)

/-- A block from its counts. -/
noncomputable def block (m p : Fin 4 → Nat) : Block := (fun r => fin (m r), fun r => fin (p r))

theorem block_tally {m p : Fin 4 → Nat} (h : ∀ r, m r ≤ p r) : IsTally (block m p).1 (block m p).2 := fun r => ⟨m r, p r, h r, rfl, rfl⟩

/-- The ladder after the blocks `ts`. -/
noncomputable def tuned (scale zs : ℝ) (b : Fin 4 → XReal) (ts : List Block) : Fin 4 → XReal :=
  ts.foldl (fun b t => tuneLadder (fin scale) (fin zs) t.1 t.2 b) b

/-- Rates 1, 0, 1. -/
noncomputable def driftBlock : Block := block ![1, 0, 1, 0] ![1, 1, 1, 0]
/-- Rates 0, 1 and, for a pair never proposed, 0/0. -/
noncomputable def liftBlock : Block := block ![0, 1, 0, 0] ![1, 1, 0, 0]
/-- Rates 0, 0 and 1/200. -/
noncomputable def dropBlock : Block := block ![0, 0, 1, 0] ![1, 1, 200, 0]

theorem invB_temps {x y z : ℝ} (hx : 0 < x) (hy : 0 < y) (hz : 0 < z) : invB (ext (temps x y z)) 0 = fin x ∧ invB (ext (temps x y z)) 1 = fin y ∧
    invB (ext (temps x y z)) 2 = fin z ∧ invB (ext (temps x y z)) 3 = fin 1 := by
  have h : ∀ {t : ℝ}, 0 < t → 1 / (1 / t) = t := fun _ => one_div_one_div _
  refine ⟨?_, ?_, ?_, ?_⟩
  · rw [invB_eq (x := 1 / x) (by omega) rfl (one_div_pos.2 hx).ne', h hx]
  · rw [invB_eq (x := 1 / y) (by omega) rfl (one_div_pos.2 hy).ne', h hy]
  · rw [invB_eq (x := 1 / z) (by omega) rfl (one_div_pos.2 hz).ne', h hz]
  · rw [invB_eq (x := 1) (by omega) rfl one_ne_zero, one_div_one]

/-- The main part of a round after rates 0 and `q`. -/
theorem main_up {scale zs : ℝ} {b ar T : Nat → XReal} {i : Nat} {a c e x y q : ℝ} (ha : invB b (i - 1) = fin a) (hc : invB b i = fin c)
    (he : invB b (i + 1) = fin e) (ha0 : 0 < a) (he0 : 0 < e) (hx : T i = fin x) (hy : T (i - 1) = fin y) (h1 : ar (i - 1) = fin 0)
    (h2 : ar i = fin q) (hq : 0 < q) :
    ladderMain (fin scale) (fin zs) b ar T i = fin (min (x + (a - c) * (1 - zs)) (a * (1 - 1 / 100))) := by
  rcases ladderMain_cases scale zs b ar T i ha hc he ha0 he0 hx hy (.inr ⟨0, h1, le_refl _⟩) (.inr ⟨q, h2, hq.le⟩) with
    ⟨_, h⟩ | ⟨p', q', hp', _, _, _, h⟩ | ⟨p', q', hp', hq', _, hpq, h⟩
  · exact absurd (h _ _ h1 h2) hq.ne
  · rw [h, ← XReal.fin_inj (h1.symm.trans hp')]
    simp [stretch]
  · rw [← XReal.fin_inj (h1.symm.trans hp'), ← XReal.fin_inj (h2.symm.trans hq')] at hpq
    exact absurd hpq hq.not_gt

/-- The main part of a round after rates `p` and 0. -/
theorem main_down {scale zs : ℝ} {b ar T : Nat → XReal} {i : Nat} {a c e x y p : ℝ} (ha : invB b (i - 1) = fin a) (hc : invB b i = fin c)
    (he : invB b (i + 1) = fin e) (ha0 : 0 < a) (he0 : 0 < e) (hx : T i = fin x) (hy : T (i - 1) = fin y) (h1 : ar (i - 1) = fin p)
    (h2 : ar i = fin 0) (hp : 0 < p) :
    ladderMain (fin scale) (fin zs) b ar T i = fin (max (x - (c - e) * (1 - zs)) (e * (1 + 1 / 100))) := by
  rcases ladderMain_cases scale zs b ar T i ha hc he ha0 he0 hx hy (.inr ⟨p, h1, hp.le⟩) (.inr ⟨0, h2, le_refl _⟩) with
    ⟨_, h⟩ | ⟨p', q', hp', hq', _, hpq, h⟩ | ⟨p', q', hp', hq', _, hpq, h⟩
  · exact absurd (h _ _ h1 h2) hp.ne'
  · rw [← XReal.fin_inj (h1.symm.trans hp'), ← XReal.fin_inj (h2.symm.trans hq')] at hpq
    exact absurd hpq hp.not_gt
  · rw [h, ← XReal.fin_inj (h2.symm.trans hq')]
    simp [stretch]

/-- The main part of a round when the pair on the right was not proposed. -/
theorem main_reset {scale zs : ℝ} {b ar T : Nat → XReal} {i : Nat} {a c e x y p : ℝ} (ha : invB b (i - 1) = fin a) (hc : invB b i = fin c)
    (he : invB b (i + 1) = fin e) (ha0 : 0 < a) (he0 : 0 < e) (hx : T i = fin x) (hy : T (i - 1) = fin y) (h1 : ar (i - 1) = fin p)
    (hp : 0 ≤ p) (h2 : ar i = nan) : ladderMain (fin scale) (fin zs) b ar T i = fin (y / Real.sqrt (a / e)) := by
  rcases ladderMain_cases scale zs b ar T i ha hc he ha0 he0 hx hy (.inr ⟨p, h1, hp⟩) (.inl h2) with
    ⟨h, _⟩ | ⟨p', q', _, hq', _, _, h⟩ | ⟨p', q', _, hq', _, _, h⟩
  · exact h
  · exact absurd (hq'.symm.trans h2) (XReal.fin_ne_nan _)
  · exact absurd (hq'.symm.trans h2) (XReal.fin_ne_nan _)

/-- The new ladder from the temperatures after the loop. -/
theorem tuneLadder_temps {scale zs : ℝ} {t : Block} {x y z y' z' : ℝ} (hy : y' ≠ 0) (hz : z' ≠ 0)
    (e1 : ladderLoop 4 (fin scale) (fin zs) (ext (temps x y z)) (swapRate (ext t.1) (ext t.2)) 2 1 (invB (ext (temps x y z))) 1 = fin y')
    (e2 : ladderLoop 4 (fin scale) (fin zs) (ext (temps x y z)) (swapRate (ext t.1) (ext t.2)) 2 1 (invB (ext (temps x y z))) 2 = fin z') :
    tuneLadder (fin scale) (fin zs) t.1 t.2 (temps x y z) = temps x y' z' := by
  funext r
  unfold tuneLadder tuneLadderT
  fin_cases r
  · rfl
  · show (if 1 ≤ 1 ∧ 1 < 4 - 1 then ofI 1 /. ladderLoop 4 (fin scale) (fin zs) (ext (temps x y z)) (swapRate (ext t.1) (ext t.2)) 2 1
      (invB (ext (temps x y z))) 1 else _) = fin (1 / y')
    rw [if_pos (by omega), e1, XReal.ofI_eq, XReal.div_eq _ _ hy, Int.cast_one]
  · show (if 1 ≤ 2 ∧ 2 < 4 - 1 then ofI 1 /. ladderLoop 4 (fin scale) (fin zs) (ext (temps x y z)) (swapRate (ext t.1) (ext t.2)) 2 1
      (invB (ext (temps x y z))) 2 else _) = fin (1 / z')
    rw [if_pos (by omega), e2, XReal.ofI_eq, XReal.div_eq _ _ hz, Int.cast_one]
  · rfl

theorem driftRates : swapRate (ext driftBlock.1) (ext driftBlock.2) 0 = fin 1 ∧ swapRate (ext driftBlock.1) (ext driftBlock.2) 1 = fin 0 ∧
    swapRate (ext driftBlock.1) (ext driftBlock.2) 2 = fin 1 := by
  refine ⟨?_, ?_, ?_⟩
  · rw [swapRate_eq (m := 1) (p := 1) (by omega) (by simp [driftBlock, block]) (by simp [driftBlock, block]) (by norm_num)]; norm_num
  · rw [swapRate_eq (m := 0) (p := 1) (by omega) (by simp [driftBlock, block]) (by simp [driftBlock, block]) (by norm_num)]; norm_num
  · rw [swapRate_eq (m := 1) (p := 1) (by omega) (by simp [driftBlock, block]) (by simp [driftBlock, block]) (by norm_num)]; norm_num

/-- Rates 1, 0, 1 when the inner temperatures are close: rank 1 is stopped at 1.01 times rank 2, rank 2 at 0.99 times rank 1. -/
theorem drift_step {scale zs x y z : ℝ} (hx : 0 < x) (hy : 0 < y) (hz : 0 < z) (c1 : (y - z) * zs ≤ z / 100) (c2 : (y - z) * zs ≤ y / 100) :
    tuneLadder (fin scale) (fin zs) driftBlock.1 driftBlock.2 (temps x y z) = temps x (z * (1 + 1 / 100)) (y * (1 - 1 / 100)) := by
  obtain ⟨e0, e1, e2, e3⟩ := invB_temps hx hy hz
  obtain ⟨a0, a1, a2⟩ := driftRates
  have f0 : (swapRate (ext driftBlock.1) (ext driftBlock.2) 0 <. (Arith.lit 1 100 : XReal)) = false := by
    rw [a0, XReal.lit_eq, lt_fin_false]; norm_num
  have f2 : (swapRate (ext driftBlock.1) (ext driftBlock.2) (4 - 2) <. (Arith.lit 1 100 : XReal)) = false := by
    show (swapRate (ext driftBlock.1) (ext driftBlock.2) 2 <. (Arith.lit 1 100 : XReal)) = false
    rw [a2, XReal.lit_eq, lt_fin_false]; norm_num
  have m1 : ladderMain (fin scale) (fin zs) (ext (temps x y z)) (swapRate (ext driftBlock.1) (ext driftBlock.2)) (invB (ext (temps x y z))) 1
      = fin (z * (1 + 1 / 100)) := by
    rw [main_down (i := 1) e0 e1 e2 hx hz e1 e0 a0 a1 one_pos, max_eq_right (by linarith)]
  have m2 : ladderMain (fin scale) (fin zs) (ext (temps x y z)) (swapRate (ext driftBlock.1) (ext driftBlock.2))
      (Function.update (invB (ext (temps x y z))) 1 (fin (z * (1 + 1 / 100)))) 2 = fin (y * (1 - 1 / 100)) := by
    rw [main_up (i := 2) (T := Function.update (invB (ext (temps x y z))) 1 (fin (z * (1 + 1 / 100)))) e1 e2 e3 hy one_pos
      (by simpa [Function.update_apply] using e2) (Function.update_self _ _ _) a1 a2 one_pos, min_eq_right (by linarith)]
  refine tuneLadder_temps (by positivity) (by norm_num; exact hy.ne') ?_ ?_
  · simp only [ladderLoop, ladderStep, ladderHigh, ladderLow, f0, f2, Bool.false_eq_true, if_false, m1, m2]
    rw [Function.update_of_ne (by omega), Function.update_self]
  · simp only [ladderLoop, ladderStep, ladderHigh, ladderLow, f0, f2, Bool.false_eq_true, if_false, m1, m2]
    rw [Function.update_self]

/-- Two such updates: both inner temperatures shrink by the factor 0.9999. -/
theorem drift_two {scale zs x z : ℝ} (hx : 0 < x) (hz : 0 < z) (h1 : zs ≤ 99 / 100) :
    tuned scale zs (temps x (z * (1 + 1 / 100)) z) [driftBlock, driftBlock]
      = temps x (z * (9999 / 10000) * (1 + 1 / 100)) (z * (9999 / 10000)) := by
  have hzz : z * zs ≤ z * (99 / 100) := mul_le_mul_of_nonneg_left h1 hz.le
  simp only [tuned, List.foldl]
  rw [drift_step hx (by positivity) hz (by nlinarith) (by nlinarith), drift_step hx (by positivity) (by norm_num; exact hz) (by nlinarith) (by nlinarith)]
  congr 1 <;> ring

theorem tuned_append (scale zs : ℝ) (b : Fin 4 → XReal) (s t : List Block) : tuned scale zs b (s ++ t) = tuned scale zs (tuned scale zs b s) t :=
  List.foldl_append

/-- The drift has no limit. -/
theorem drift_many {scale zs x : ℝ} (hx : 0 < x) (h1 : zs ≤ 99 / 100) : ∀ (k : Nat) {z : ℝ}, 0 < z →
    tuned scale zs (temps x (z * (1 + 1 / 100)) z) (List.replicate (2 * k) driftBlock)
      = temps x (z * (9999 / 10000) ^ k * (1 + 1 / 100)) (z * (9999 / 10000) ^ k)
  | 0, z, _ => by simp [tuned]
  | k + 1, z, hz => by
    have e : List.replicate (2 * (k + 1)) driftBlock = [driftBlock, driftBlock] ++ List.replicate (2 * k) driftBlock := by
      rw [show 2 * (k + 1) = 2 * k + 1 + 1 by ring]; rfl
    rw [e, tuned_append, drift_two hx hz h1, drift_many hx h1 k (by positivity), pow_succ']
    congr 1 <;> ring

/-- **C27 is false for runs with four ranks without any bound**: from an ordered ladder, with any `scale_tune_ladder` and
`zero_stretch <= 0.99`, the two inner betas can grow beyond every number, although beta[3] stays 1. The temperatures are 2, 1.0201, 1.01
and 1. -/
theorem ladder_range_unbounded (scale zs : ℝ) (h1 : zs ≤ 99 / 100) (B : ℝ) : ∃ (β : Fin 4 → ℝ) (ts : List Block),
    (∀ r, 0 < β r) ∧ StrictMono β ∧ β 3 = 1 ∧ (∀ t ∈ ts, IsTally t.1 t.2) ∧
    ∃ b c : ℝ, B < b ∧ B < c ∧ ts.foldl (fun b t => tuneLadder (fin scale) (fin zs) t.1 t.2 b) (fun r => fin (β r))
      = ![fin (β 0), fin b, fin c, fin (β 3)] := by
  obtain ⟨k, hk⟩ := exists_pow_lt_of_lt_one (show 0 < 1 / (2 * (|B| + 1)) by positivity) (show (9999 / 10000 : ℝ) < 1 by norm_num)
  have hB : B < |B| + 1 := by linarith [le_abs_self B]
  have hp : (0 : ℝ) < (9999 / 10000) ^ k := by positivity
  have hp' : 2 * (9999 / 10000 : ℝ) ^ k < 1 / (|B| + 1) := by
    rw [lt_div_iff₀ (by positivity)] at hk ⊢
    linarith
  refine ⟨![1 / 2, 1 / (101 / 100 * (1 + 1 / 100)), 1 / (101 / 100), 1], List.replicate (2 * k) driftBlock, ?_, ?_, rfl, ?_, ?_⟩
  · intro r; fin_cases r <;> norm_num
  · rw [Fin.strictMono_iff_lt_succ]
    intro r; fin_cases r
    · show (1 / 2 : ℝ) < 1 / (101 / 100 * (1 + 1 / 100)); norm_num
    · show 1 / (101 / 100 * (1 + 1 / 100)) < (1 / (101 / 100) : ℝ); norm_num
    · show 1 / (101 / 100) < (1 : ℝ); norm_num
  · intro t ht
    rw [List.eq_of_mem_replicate ht]; exact block_tally (by decide)
  · have e : (fun r => fin ((![1 / 2, 1 / (101 / 100 * (1 + 1 / 100)), 1 / (101 / 100), 1] : Fin 4 → ℝ) r))
        = temps 2 (101 / 100 * (1 + 1 / 100)) (101 / 100) := by
      funext r; fin_cases r <;> rfl
    refine ⟨1 / (101 / 100 * (9999 / 10000) ^ k * (1 + 1 / 100)), 1 / (101 / 100 * (9999 / 10000) ^ k), ?_, ?_, ?_⟩
    · refine hB.trans ((lt_one_div (by positivity) (by positivity)).2 (lt_trans ?_ hp'))
      nlinarith
    · refine hB.trans ((lt_one_div (by positivity) (by positivity)).2 (lt_trans ?_ hp'))
      nlinarith
    · rw [e]
      exact drift_many two_pos h1 k (by norm_num)

/-- With the shipped settings an inner beta passes 1000. -/
example : ∃ (β : Fin 4 → ℝ) (ts : List Block), (∀ r, 0 < β r) ∧ StrictMono β ∧ β 3 = 1 ∧ (∀ t ∈ ts, IsTally t.1 t.2) ∧
    ∃ b c : ℝ, 1000 < b ∧ 1000 < c ∧ ts.foldl (fun b t => tuneLadder (fin (1 / 5)) (fin (1 / 10)) t.1 t.2 b) (fun r => fin (β r))
      = ![fin (β 0), fin b, fin c, fin (β 3)] := ladder_range_unbounded _ _ (by norm_num) 1000

theorem liftRates : swapRate (ext liftBlock.1) (ext liftBlock.2) 0 = fin 0 ∧ swapRate (ext liftBlock.1) (ext liftBlock.2) 1 = fin 1 ∧
    swapRate (ext liftBlock.1) (ext liftBlock.2) 2 = nan := by
  refine ⟨?_, ?_, ?_⟩
  · rw [swapRate_eq (m := 0) (p := 1) (by omega) (by simp [liftBlock, block]) (by simp [liftBlock, block]) (by norm_num)]; norm_num
  · rw [swapRate_eq (m := 1) (p := 1) (by omega) (by simp [liftBlock, block]) (by simp [liftBlock, block]) (by norm_num)]; norm_num
  · simpa [swapRate, ext, liftBlock, block] using zero_div_zero (R := Rounding.exact)

/-- Rates 0, 1, 0/0: rank 2 is set to the new temperature of rank 1, which is near that of rank 0, over the root of the old one of rank 1. -/
theorem lift_step {scale zs x y z q : ℝ} (hx : 0 < x) (hy : 0 < y) (hz : 0 < z) (h0 : 0 < zs) (h1 : zs < 1)
    (hq : q = (x - (x - z) * zs) / Real.sqrt y) :
    tuneLadder (fin scale) (fin zs) liftBlock.1 liftBlock.2 (temps x y z) = temps x (x - (x - q) * zs) q := by
  obtain ⟨e0, e1, e2, e3⟩ := invB_temps hx hy hz
  obtain ⟨a0, a1, a2⟩ := liftRates
  have f0 : (swapRate (ext liftBlock.1) (ext liftBlock.2) 0 <. (Arith.lit 1 100 : XReal)) = true := by
    rw [a0, XReal.lit_eq, lt_fin]; norm_num
  have f2 : (swapRate (ext liftBlock.1) (ext liftBlock.2) (4 - 2) <. (Arith.lit 1 100 : XReal)) = false := by
    show (swapRate (ext liftBlock.1) (ext liftBlock.2) 2 <. (Arith.lit 1 100 : XReal)) = false
    rw [a2]; exact nan_lt _
  have hk : 0 < x - (x - z) * zs := by nlinarith [mul_pos h0 hz, mul_pos hx (sub_pos.2 h1)]
  have hq0 : 0 < q := hq ▸ div_pos hk (Real.sqrt_pos.2 hy)
  have hT : ∃ T, ladderStep 4 (fin scale) (fin zs) (ext (temps x y z)) (swapRate (ext liftBlock.1) (ext liftBlock.2)) (invB (ext (temps x y z))) 1 = T :=
    ⟨_, rfl⟩
  obtain ⟨T, hT⟩ := hT
  have hT' := hT
  simp only [ladderStep, ladderHigh, ladderLow, f0, f2, if_true, Bool.false_eq_true, if_false] at hT'
  have k0 : T 0 = fin x := by rw [← hT']; simp [Function.update_apply, e0]
  have k1 : T 1 = fin (x - (x - z) * zs) := by rw [← hT']; simp [Function.update_apply, e0, e2]
  have k2 : T 2 = fin z := by rw [← hT']; simp [Function.update_apply, e2]
  have m2 : ladderMain (fin scale) (fin zs) (ext (temps x y z)) (swapRate (ext liftBlock.1) (ext liftBlock.2)) T 2 = fin q := by
    rw [main_reset (i := 2) e1 e2 e3 hy one_pos k2 k1 a1 zero_le_one a2, div_one, hq]
  refine tuneLadder_temps (by nlinarith [mul_pos h0 hq0, mul_pos hx (sub_pos.2 h1)]) hq0.ne' ?_ ?_
  · simp only [ladderLoop, hT]
    simp only [ladderStep, ladderHigh, ladderLow, f0, f2, if_true, Bool.false_eq_true, if_false, m2]
    simp [Function.update_apply, k0]
  · simp only [ladderLoop, hT]
    simp only [ladderStep, ladderHigh, ladderLow, f0, f2, if_true, Bool.false_eq_true, if_false, m2]
    simp [Function.update_apply]

theorem dropRates : swapRate (ext dropBlock.1) (ext dropBlock.2) 0 = fin 0 ∧ swapRate (ext dropBlock.1) (ext dropBlock.2) 1 = fin 0 ∧
    swapRate (ext dropBlock.1) (ext dropBlock.2) 2 = fin (1 / 200) := by
  refine ⟨?_, ?_, ?_⟩
  · rw [swapRate_eq (m := 0) (p := 1) (by omega) (by simp [dropBlock, block]) (by simp [dropBlock, block]) (by norm_num)]; norm_num
  · rw [swapRate_eq (m := 0) (p := 1) (by omega) (by simp [dropBlock, block]) (by simp [dropBlock, block]) (by norm_num)]; norm_num
  · rw [swapRate_eq (m := 1) (p := 200) (by omega) (by simp [dropBlock, block]) (by simp [dropBlock, block]) (by norm_num)]

/-- Rates 0, 0, 1/200 with rank 2 far above rank 1: rank 2 goes down by more than its height, and drags rank 1 with it. -/
theorem drop_step {scale zs x y z : ℝ} (hx : 0 < x) (hy : 0 < y) (hz : 0 < z) (h0 : 0 < zs)
    (hneg : x - (x - ((x - (x - z) * zs) - ((x - (x - z) * zs) - 1) * (1 - zs) + (y - z) * (1 - zs))) * zs < 0) :
    ∃ b : ℝ, b < 0 ∧ tuneLadder (fin scale) (fin zs) dropBlock.1 dropBlock.2 (temps x y z) 1 = fin b := by
  obtain ⟨e0, e1, e2, e3⟩ := invB_temps hx hy hz
  obtain ⟨a0, a1, a2⟩ := dropRates
  obtain ⟨T, k2, k1, v, hv, g1, _⟩ := four_both (scale := scale) (zs := zs) e0 e1 e2 e3 hy one_pos
    (ar := swapRate (ext dropBlock.1) (ext dropBlock.2)) (by rw [a0, XReal.lit_eq, lt_fin]; norm_num)
    (by rw [a2, XReal.lit_eq, lt_fin]; norm_num) (.inr ⟨_, a1, le_refl _⟩) (.inr ⟨_, a2, by norm_num⟩)
  have hv' := XReal.fin_inj (hv.symm.trans (main_up (i := 2) e1 e2 e3 hy one_pos k2 k1 a1 a2 (by norm_num)))
  have hb : x - (x - v) * zs < 0 := by
    refine lt_of_le_of_lt ?_ hneg
    have : v ≤ (x - (x - z) * zs) - ((x - (x - z) * zs) - 1) * (1 - zs) + (y - z) * (1 - zs) := by rw [hv']; exact min_le_left _ _
    nlinarith [mul_le_mul_of_nonneg_right this h0.le]
  refine ⟨1 / (x - (x - v) * zs), one_div_neg.2 hb, ?_⟩
  unfold tuneLadder tuneLadderT
  show (if 1 ≤ 1 ∧ 1 < 4 - 1 then ofI 1 /. ladderLoop 4 (fin scale) (fin zs) (ext (temps x y z)) (swapRate (ext dropBlock.1) (ext dropBlock.2)) 2 1
      (invB (ext (temps x y z))) 1 else _) = _
  rw [if_pos (by omega), g1, XReal.ofI_eq, XReal.div_eq _ _ hb.ne, Int.cast_one]

/-- **C25 is false for runs with four ranks, whatever `scale_tune_ladder` and for every `zero_stretch` between 0 and 1/2**: an ordered
ladder of positive betas and a sequence of tallies after which beta[1] is negative. The temperatures are 2, 1.0201, 1.01 and 1. -/
theorem ladder_negative_ordered (scale zs : ℝ) (h0 : 0 < zs) (h1 : zs < 1 / 2) : ∃ (β : Fin 4 → ℝ) (ts : List Block),
    (∀ r, 0 < β r) ∧ StrictMono β ∧ (∀ t ∈ ts, IsTally t.1 t.2) ∧
    ∃ b : ℝ, b < 0 ∧ ts.foldl (fun b t => tuneLadder (fin scale) (fin zs) t.1 t.2 b) (fun r => fin (β r)) 1 = fin b := by
  -- the root of the temperature of rank 1 that makes the lift high enough
  obtain ⟨s, hs0, hs⟩ : ∃ s : ℝ, 0 < s ∧ s * (1 + 2 * zs) < zs * (1 - 2 * zs) := by
    have hp : 0 < zs * (1 - 2 * zs) := mul_pos h0 (by linarith)
    refine ⟨zs * (1 - 2 * zs) / (2 * (1 + 2 * zs)), by positivity, ?_⟩
    rw [div_mul_eq_mul_div, div_lt_iff₀ (by positivity)]
    nlinarith [mul_pos hp (show 0 < 1 + 2 * zs by linarith)]
  obtain ⟨k, hk⟩ := exists_pow_lt_of_lt_one (show 0 < s ^ 2 / (101 / 100 * (1 + 1 / 100)) by positivity) (show (9999 / 10000 : ℝ) < 1 by norm_num)
  refine ⟨![1 / 2, 1 / (101 / 100 * (1 + 1 / 100)), 1 / (101 / 100), 1], List.replicate (2 * k) driftBlock ++ [liftBlock, dropBlock], ?_, ?_, ?_, ?_⟩
  · intro r; fin_cases r <;> norm_num
  · rw [Fin.strictMono_iff_lt_succ]
    intro r; fin_cases r
    · show (1 / 2 : ℝ) < 1 / (101 / 100 * (1 + 1 / 100)); norm_num
    · show 1 / (101 / 100 * (1 + 1 / 100)) < (1 / (101 / 100) : ℝ); norm_num
    · show 1 / (101 / 100) < (1 : ℝ); norm_num
  · intro t ht
    rcases List.mem_append.1 ht with h | h
    · rw [List.eq_of_mem_replicate h]; exact block_tally (by decide)
    · rcases List.mem_cons.1 h with rfl | h
      · exact block_tally (by decide)
      · rw [List.mem_singleton.1 h]; exact block_tally (by decide)
  · have e : (fun r => fin ((![1 / 2, 1 / (101 / 100 * (1 + 1 / 100)), 1 / (101 / 100), 1] : Fin 4 → ℝ) r))
        = temps 2 (101 / 100 * (1 + 1 / 100)) (101 / 100) := by
      funext r; fin_cases r <;> rfl
    rw [e]
    show ∃ b : ℝ, b < 0 ∧ tuned scale zs (temps 2 (101 / 100 * (1 + 1 / 100)) (101 / 100)) (List.replicate (2 * k) driftBlock ++ [liftBlock, dropBlock]) 1 = fin b
    rw [tuned_append, drift_many two_pos (by linarith) k (by norm_num)]
    generalize hz : 101 / 100 * (9999 / 10000 : ℝ) ^ k = z
    have hz0 : 0 < z := by rw [← hz]; positivity
    have hy : z * (1 + 1 / 100) < s ^ 2 := by
      rw [lt_div_iff₀ (by norm_num)] at hk
      rw [← hz]; linarith
    have hy0 : 0 < z * (1 + 1 / 100) := by positivity
    have hr0 := Real.sqrt_pos.2 hy0
    have hr : Real.sqrt (z * (1 + 1 / 100)) < s := (Real.sqrt_lt' hs0).2 hy
    simp only [tuned, List.foldl]
    rw [lift_step two_pos hy0 hz0 h0 (by linarith) rfl]
    generalize hq : (2 - (2 - z) * zs) / Real.sqrt (z * (1 + 1 / 100)) = q
    have hnum : 2 * (1 - zs) < 2 - (2 - z) * zs := by nlinarith [mul_pos h0 hz0]
    have hq1 : 2 * (1 - zs) < q * s := by
      have : q * Real.sqrt (z * (1 + 1 / 100)) = 2 - (2 - z) * zs := by rw [← hq]; field_simp
      have hq0 : 0 < q := by rw [← hq]; exact div_pos (by linarith) hr0
      nlinarith [mul_lt_mul_of_pos_left hr hq0]
    have hq0 : 0 < q := by
      by_contra h
      nlinarith [mul_nonneg_of_nonpos_of_nonpos (not_lt.1 h) (neg_nonpos.2 hs0.le)]
    refine drop_step two_pos (by nlinarith [mul_pos h0 hq0]) hq0 h0 ?_
    -- `q` is above `2 (1 - zs) (1 + 2 zs) / (zs (1 - 2 zs))`
    have hbig : 2 * (1 - zs) * (1 + 2 * zs) < q * (zs * (1 - 2 * zs)) := by
      have a1 : 2 * (1 - zs) * (1 + 2 * zs) < q * s * (1 + 2 * zs) := mul_lt_mul_of_pos_right hq1 (by linarith)
      have a2 : q * (s * (1 + 2 * zs)) < q * (zs * (1 - 2 * zs)) := mul_lt_mul_of_pos_left hs hq0
      nlinarith
    nlinarith [mul_pos h0 h0]

/-- The shipped settings, `scale_tune_ladder` 0.2 and `zero_stretch` 0.1. -/
example : ∃ (β : Fin 4 → ℝ) (ts : List Block), (∀ r, 0 < β r) ∧ StrictMono β ∧ (∀ t ∈ ts, IsTally t.1 t.2) ∧
    ∃ b : ℝ, b < 0 ∧ ts.foldl (fun b t => tuneLadder (fin (1 / 5)) (fin (1 / 10)) t.1 t.2 b) (fun r => fin (β r)) 1 = fin b :=
  ladder_negative_ordered _ _ (by norm_num) (by norm_num)

end NiiC
