import Verif.Refine.TunedStale
import Verif.Props.AfterTuning

/-!
# C84: runs that tune their ladder

When the ladder is tuned the stored log-posteriors of the chains still belong to the old betas. Tests with such a value are wrong until the chain accepts a proposal or is swapped. After
the last tuning of the ladder this becomes unlikely geometrically fast; from then on the run is one of C83.
-/

set_option linter.unusedSectionVars false
set_option linter.unusedSimpArgs false

namespace NiiC

open MeasureTheory ProbabilityTheory Set

/-! ## Stored values -/

namespace Job

variable {n d : Nat} (J : Job n d)

/-- After `k` stacks every stored log-posterior is the one of the stored point for the beta in use. -/
def InStep (k : Nat) (ω : Fin n → Draws) : Prop := ∀ r, ((J.tuned k ω).1.1 r).2 = J.T.lp (J.ladder (J.history k ω) r) ((J.tuned k ω).1.1 r).1

/-- No log-posterior for a ladder that was in use exceeds one for the present ladder by more than `V`. -/
def Near (V : ℝ) (h : Hist n) : Prop := ∀ h', h' <:+ h → ∀ r x y, InBox J.lo J.hi x → InBox J.lo J.hi y → J.T.lp (J.ladder h' r) x - J.T.lp (J.ladder h r) y ≤ V

theorem tuned_add (k0 k : Nat) (ω : Fin n → Draws) : J.tuned (k0 + k) ω = preT J.T J.lo J.hi J.sig J.beta J.cfg J.root k (k0 * J.cfg.nStack) (J.tuned k0 ω) := by
  rw [tuned, preT_add, zero_add]
  rfl

theorem _root_.NiiC.pre_frozen {T : Target d} {lo hi : Fin d → ℝ} {sig0 : Fin n → List ℝ} {beta0 : Fin n → ℝ} (cfg : Cfg ℝ) (hst : 1 ≤ cfg.nStack) (root : Fin n) :
    ∀ (k : Nat) (i : Int) (p : ((Fin n → Pt d) × Hist n) × (Fin n → Draws)), (0 < cfg.tuneLadder → cfg.nStopTuneLadder ≤ i + cfg.nStack) →
    (paramsOf cfg sig0 beta0 (preT T lo hi sig0 beta0 cfg root k i p).1.2).2 = (paramsOf cfg sig0 beta0 p.1.2).2
  | 0, _, _, _ => rfl
  | k + 1, i, p, hstop => by
    rw [preT, pre_frozen cfg hst root k _ _ fun h => by have := hstop h; omega, (roundZ_same cfg root i p).2.1]
    simp only [stackZ, if_neg (show ¬(i + cfg.nStack < cfg.nStopTuneLadder ∧ 0 < cfg.tuneLadder) from fun h => by have := hstop h.2; omega)]

/-- The ladder is not tuned any more after `k0` stacks. -/
theorem ladder_frozen (hst : 1 ≤ J.cfg.nStack) {k0 k : Nat} (hk0 : k0 ≤ k) (hstop : 0 < J.cfg.tuneLadder → J.cfg.nStopTuneLadder ≤ (k0 + 1) * J.cfg.nStack) (ω : Fin n → Draws) :
    J.ladder (J.history k ω) = J.ladder (J.history k0 ω) := by
  obtain ⟨k', rfl⟩ := Nat.exists_eq_add_of_le hk0
  rw [history, tuned_add]
  exact pre_frozen J.cfg hst J.root k' _ _ fun h => by have := hstop h; linarith

theorem kept (hk : ∀ i, (J.ks i).Fits (J.lo i, J.hi i)) (k : Nat) {ω : Fin n → Draws} (hω : InUnit ω) : Kept J.T J.lo J.hi J.sig J.beta J.cfg (J.tuned k ω).1 :=
  Kept.pre (fun i => (hk i).le) J.cfg J.root k 0 _ fun r => ⟨((J.begin_sound hk hω).pts r).1, [], List.suffix_refl _, rfl⟩

/-- **C84, stored values.** Independent uniform streams; the ladder is not tuned any more after `k0` stacks. The probability that the ladders passed through were near each other and yet
some stored log-posterior is still out of step after `k` stacks falls geometrically with the iterations in between. -/
theorem stale_rare (hk : ∀ i, (J.ks i).Fits (J.lo i, J.hi i)) (hr : 0 ≤ J.cfg.rand) (hb : J.cfg.rand < J.cfg.base) (hst : 1 ≤ J.cfg.nStack) {k0 k : Nat} (hk0 : k0 ≤ k)
    (hstop : 0 < J.cfg.tuneLadder → J.cfg.nStopTuneLadder ≤ (k0 + 1) * J.cfg.nStack) {V : ℝ} (hV : 0 ≤ V) :
    (unifStreams n).real {ω | J.Near V (J.history k0 ω) ∧ ¬ J.InStep k ω} ≤ n * (1 - Real.exp (-V)) ^ ((k - k0) * J.cfg.nStack.toNat) := by
  obtain ⟨k', rfl⟩ := Nat.exists_eq_add_of_le hk0
  rw [Nat.add_sub_cancel_left]
  have hlo : ∀ i, J.lo i ≤ J.hi i := fun i => (hk i).le
  have hp0 : 0 ≤ 1 - Real.exp (-V) := by linarith [Real.exp_le_one_iff.2 (show -V ≤ 0 by linarith)]
  have one : ∀ r, unifStreams n {ω | J.Near V (J.history k0 ω) ∧ (J.tuned (k0 + k') ω).1 ∈ StaleZ J.T J.sig J.beta J.cfg r} ≤ reject V ^ (k' * J.cfg.nStack.toNat) := fun r => by
    have hm : MeasurableSet {q : ((Fin n → Pt d) × Hist n) × (Fin n → Draws) | J.Near V q.1.2 ∧
        (preT J.T J.lo J.hi J.sig J.beta J.cfg J.root k' (k0 * J.cfg.nStack) q).1 ∈ StaleZ J.T J.sig J.beta J.cfg r} :=
      ((measurable_snd.comp measurable_fst) (MeasurableSet.of_discrete (s := {h : Hist n | J.Near V h}))).inter
        ((measurable_fst.comp (pre_clean J.T J.lo J.hi J.sig J.beta J.cfg J.root k' (k0 * J.cfg.nStack)).meas) (measurableSet_staleZ J.cfg r))
    have := (J.tuned_clean k0).bound_ae (fun _ _ => 0) hm (c := reject V ^ (k' * J.cfg.nStack.toNat)) ?_
    · refine le_trans (le_of_eq ?_) this
      congr 1
      ext ω
      show J.Near V (J.history k0 ω) ∧ (J.tuned (k0 + k') ω).1 ∈ _ ↔ J.Near V (J.history k0 ω) ∧ _
      rw [tuned_add]
    · filter_upwards [inUnit_ae n] with ω hω
      by_cases hN : J.Near V (J.history k0 ω)
      · have hf : Flat J.T J.lo J.hi V (J.ladder (J.history k0 ω)) := fun r x y hx hy => hN _ (List.suffix_refl _) r x y hx hy
        refine (measure_mono fun ω' h => h.2).trans ((pre_shrinks hlo J.cfg hr hb hst J.root _ hV hf r k' (k0 * J.cfg.nStack) fun h => by have := hstop h; linarith).rate _ ?_)
        refine ⟨rfl, fun q => ⟨(J.kept hk k0 hω q).1, fun y hy => ?_⟩⟩
        obtain ⟨hbox, h', hs, e⟩ := J.kept hk k0 hω q
        rw [e]
        exact hN h' hs q _ y hbox hy
      · refine le_trans (le_of_eq ?_) zero_le
        rw [← measure_empty (μ := unifStreams n)]
        congr 1
        ext ω'
        simp only [mem_preimage, mem_empty_iff_false, iff_false]
        exact fun h => hN h.1
  have hsub : {ω | J.Near V (J.history k0 ω) ∧ ¬ J.InStep (k0 + k') ω} ⊆ ⋃ r, {ω | J.Near V (J.history k0 ω) ∧ (J.tuned (k0 + k') ω).1 ∈ StaleZ J.T J.sig J.beta J.cfg r} := by
    rintro ω ⟨h1, h2⟩
    obtain ⟨r, hr⟩ := not_forall.1 h2
    exact mem_iUnion.2 ⟨r, h1, hr⟩
  have hle : unifStreams n {ω | J.Near V (J.history k0 ω) ∧ ¬ J.InStep (k0 + k') ω} ≤ n * reject V ^ (k' * J.cfg.nStack.toNat) := by
    refine (measure_mono hsub).trans ((measure_iUnion_le _).trans ?_)
    rw [tsum_fintype]
    refine (Finset.sum_le_sum fun r _ => one r).trans ?_
    rw [Finset.sum_const, Finset.card_univ, Fintype.card_fin, nsmul_eq_mul]
  have hfin : (n : ENNReal) * reject V ^ (k' * J.cfg.nStack.toNat) ≠ ⊤ := ENNReal.mul_ne_top (ENNReal.natCast_ne_top n) (ENNReal.pow_ne_top ENNReal.ofReal_ne_top)
  refine (ENNReal.toReal_mono hfin hle).trans (le_of_eq ?_)
  rw [ENNReal.toReal_mul, ENNReal.toReal_natCast, ENNReal.toReal_pow, reject, ENNReal.toReal_ofReal hp0]

/-- **C84, law.** A run whose widths stay in ranges up to a fifth of those of the parameters and whose ladder is not tuned after `k0 ≤ k` stacks: the error of an average after the first
`k` stacks, for runs in which the ladders passed through were near each other. -/
theorem tuned_ladder_error (hn : 2 ≤ n) (hk : ∀ i, (J.ks i).Fits (J.lo i, J.hi i)) (hlo : ∀ i, J.lo i < J.hi i) (hr : 0 ≤ J.cfg.rand)
    (hb : J.cfg.rand < J.cfg.base) (hst : 1 ≤ J.cfg.nStack) {k0 k : Nat} (hk0 : k0 ≤ k) (hstop : 0 < J.cfg.tuneLadder → J.cfg.nStopTuneLadder ≤ (k0 + 1) * J.cfg.nStack)
    (B : Nat) (hkB : k * J.cfg.nStack ≤ B) (hB : B < J.cfg.nIter.toNat) (r : Fin n)
    (f : (Fin d → ℝ) → ℝ) (hf : Measurable f) (h0 : ∀ x, 0 ≤ f x) (h1 : ∀ x, f x ≤ 1) {a b : Fin d → ℝ} (hR : J.Ranges a b) (hb5 : ∀ i, b i ≤ (J.hi i - J.lo i) / 5)
    {V : ℝ} (hV : 0 ≤ V) :
    0 < (gain J.lo J.hi (fun (_ : Fin n) i => (a i).toNNReal) fun _ => V).toReal ∧ ∀ ε : ℝ, 0 < ε →
      (unifStreams n).real {ω | J.Near V (J.history k0 ω) ∧ ε ≤ |J.estimate k B r f ω - J.mean (J.ladder (J.history k ω) r) f|} ≤
        errorBound (gain J.lo J.hi (fun (_ : Fin n) i => (a i).toNNReal) fun _ => V).toReal (n * d * (76 / 10 ^ 7)) (J.cfg.nIter.toNat - B) / ε ^ 2 := by
  have hnoz : ∀ i, (a i).toNNReal ≠ 0 := fun i h0 => by rw [Real.toNNReal_eq_zero] at h0; linarith [hR.pos i]
  have hs := J.setting_s hn hR
  have hsne : ∀ h r i, (J.setting h).s r i ≠ 0 := fun h r i h0 => by
    have := hs h r i
    rw [h0, NNReal.coe_zero] at this
    linarith [hR.pos i, (J.widths_range hn hR h r i).1]
  obtain ⟨c1, c2⟩ : 0 < (gain J.lo J.hi (fun (_ : Fin n) i => (a i).toNNReal) fun _ => V).toReal ∧ (gain J.lo J.hi (fun (_ : Fin n) i => (a i).toNNReal) fun _ => V).toReal ≤ 1 := by
    obtain ⟨c1, c2, -⟩ := start_forgotten (n := n) (⟨fun _ => 0, fun _ => 0, measurable_const, measurable_const⟩ : Target d) J.lo J.hi hlo (fun (_ : Fin n) i => (a i).toNNReal)
      (fun _ i => hnoz i) (fun _ => 0) (fun _ => V) fun r x _ y _ => by simpa [Target.lp] using hV
    exact ⟨c1, c2⟩
  refine ⟨c1, fun ε hε => ?_⟩
  have hvar : ∀ h ∈ {h | Flat J.T J.lo J.hi V (J.ladder h)}, ∀ r, Varies J.lo J.hi (J.T.lp (J.ladder h r)) V := fun h hh r x hx y hy =>
    hh r y x (fun i => hy i trivial) (fun i => hx i trivial)
  have main := J.tuned_average_error hn hk hr hb hst k B hkB hB r f hf h0 h1 {h | Flat J.T J.lo J.hi V (J.ladder h)} (fun _ _ => V)
    (gain J.lo J.hi (fun (_ : Fin n) i => (a i).toNNReal) fun _ => V).toReal (n * d * (76 / 10 ^ 7)) c1 c2 (by positivity)
    (fun h hh => ⟨⟨hlo, hsne h, hvar h hh⟩, ?_, ?_⟩) ε hε
  · refine le_trans (measureReal_mono ?_) main
    intro ω hω
    refine ⟨?_, hω.2⟩
    show Flat J.T J.lo J.hi V (J.ladder (J.history k ω))
    rw [J.ladder_frozen hst hk0 hstop]
    exact fun r x y hx hy => hω.1 _ (List.suffix_refl _) r x y hx hy
  · refine ENNReal.toReal_mono (lt_of_le_of_lt (gain_le_one J.T J.lo J.hi hlo _ (hsne h) (J.ladder h) (fun _ => V) (hvar h hh)) ENNReal.one_lt_top).ne
      (gain_mono J.lo J.hi (fun _ i => hnoz i) (fun r i => ?_) (fun r i => ?_) fun _ => V)
    · rw [← NNReal.coe_le_coe, hs, Real.coe_toNNReal _ (hR.pos i).le]
      exact (J.widths_range hn hR h r i).1
    · rw [hs]
      linarith [(J.widths_range hn hR h r i).2, hb5 i, hlo i]
  · have ht : ∀ r i, (tail (J.lo i) (J.hi i) ((J.setting h).s r i)).toReal + 1 / 10 ^ 16 ≤ 76 / 10 ^ 7 := fun r i => by
      have := tail_fifth (J.lo i) (J.hi i) (hlo i) ((J.setting h).s r i) (hsne h r i) (by rw [hs]; linarith [(J.widths_range hn hR h r i).2, hb5 i])
      have e : (75 : ℝ) / 10 ^ 7 + 1 / 10 ^ 16 ≤ 76 / 10 ^ 7 := by norm_num
      linarith
    calc _ ≤ ∑ _r : Fin n, ∑ _i : Fin d, ((76 : ℝ) / 10 ^ 7) := Finset.sum_le_sum fun r _ => Finset.sum_le_sum fun i _ => ht r i
      _ = _ := by simp only [Finset.sum_const, Finset.card_univ, Fintype.card_fin, nsmul_eq_mul]; ring

/-- The two ends of the ladder are never tuned. -/
theorem ladder_ends (r : Fin n) (hr : r.val = 0 ∨ r.val = n - 1) (h : Hist n) : J.ladder h r = J.beta r := by
  unfold ladder
  induction h with
  | nil => rfl
  | cons o h ih =>
    rcases o with ⟨rk, c, ch⟩ | l
    · exact ih
    · rw [paramsOf]
      show tuneLadder _ _ _ _ _ r = _
      unfold tuneLadder
      rw [if_neg (by omega)]
      exact ih

end Job

/-! ## Three ranks -/

theorem ladder_main_three {scale zs : ℝ} (hs0 : 0 ≤ scale) (h1 : zs ≤ 1) {b ar : Nat → ℝ} (h2 : 0 < invB b 2) (h21 : invB b 2 ≤ invB b 1)
    (h10 : invB b 1 ≤ invB b 0) (hgap : invB b 2 * (1 + 2 / 100) ≤ invB b 0) (hp : 0 ≤ ar 0) (hq : 0 ≤ ar 1) :
    invB b 2 ≤ ladderMain scale zs b ar (invB b) 1 ∧ ladderMain scale zs b ar (invB b) 1 ≤ invB b 0 := by
  have hreset : invB b 2 ≤ ladderReset b (invB b) 1 ∧ ladderReset b (invB b) 1 ≤ invB b 0 := by
    have e : ladderReset b (invB b) 1 = invB b 0 / Real.sqrt (invB b 0 / invB b 2) := by
      simp only [ladderReset, RealArith.div_eq, RealArith.pow_eq, RealArith.lit_eq]
      rw [Real.sqrt_eq_rpow]
      norm_num
    have hge : 1 ≤ invB b 0 / invB b 2 := by rw [le_div_iff₀ h2]; linarith
    have hs : 1 ≤ Real.sqrt (invB b 0 / invB b 2) := Real.one_le_sqrt.2 hge
    rw [e]
    constructor
    · rw [le_div_iff₀ (by linarith)]
      have : Real.sqrt (invB b 0 / invB b 2) ≤ invB b 0 / invB b 2 := by
        rw [Real.sqrt_le_left (by linarith)]
        nlinarith
      calc _ ≤ invB b 2 * (invB b 0 / invB b 2) := by gcongr
        _ = invB b 0 := by field_simp
    · exact div_le_self (by linarith) hs
  unfold ladderMain
  simp only [Nat.sub_self, RealArith.lt_iff, RealArith.eq_iff, RealArith.fmin_eq, RealArith.fmax_eq, RealArith.add_eq, RealArith.sub_eq, RealArith.mul_eq, RealArith.div_eq,
    RealArith.neg_eq, RealArith.lit_eq, RealArith.ofI_eq, Int.cast_zero, Int.cast_one, Int.cast_neg]
  obtain ⟨a, ha⟩ : ∃ a, a = invB b 0 := ⟨_, rfl⟩
  obtain ⟨c, hc⟩ : ∃ c, c = invB b 1 := ⟨_, rfl⟩
  obtain ⟨e, he⟩ : ∃ e, e = invB b 2 := ⟨_, rfl⟩
  obtain ⟨p, hp'⟩ : ∃ p, p = ar 0 := ⟨_, rfl⟩
  obtain ⟨q, hq'⟩ : ∃ q, q = ar 1 := ⟨_, rfl⟩
  simp only [← ha, ← hc, ← he, ← hp', ← hq', one_add_one_eq_two] at *
  split
  · rename_i hsum
    have habs : |(q - p) / (q + p)| ≤ 1 := by
      rw [abs_div, abs_of_pos (by linarith : 0 < q + p), div_le_one (by linarith), abs_le]
      constructor <;> linarith
    have hd := abs_le.1 habs
    split
    · rename_i hpos
      have hinc : 0 ≤ (if (q - p) / (q + p) = 1 then (a - c) * (1 - zs) else (a - c) * ((q - p) / (q + p)) * scale) := by
        split
        · exact mul_nonneg (by linarith) (by linarith)
        · exact mul_nonneg (mul_nonneg (by linarith) hpos.le) hs0
      refine ⟨le_min (by linarith) (by norm_num; linarith), (min_le_right _ _).trans (by norm_num; linarith)⟩
    · split
      · exact hreset
      · rename_i hnp _
        have hdec : 0 ≤ (if (q - p) / (q + p) = -1 then (c - e) * (1 - zs) else (c - e) * -((q - p) / (q + p)) * scale) := by
          split
          · exact mul_nonneg (by linarith) (by linarith)
          · exact mul_nonneg (mul_nonneg (by linarith) (by linarith)) hs0
        refine ⟨le_trans (by norm_num; linarith) (le_max_right _ _), max_le (by linarith) (by norm_num; linarith)⟩
  · exact hreset

theorem ladder_three_real {scale zs : ℝ} (hs0 : 0 ≤ scale) (h0 : 0 ≤ zs) (h1 : zs ≤ 1) (nsw npr beta : Fin 3 → ℝ) (hn : ∀ r, 0 ≤ nsw r) (hn' : ∀ r, 0 ≤ npr r)
    (hb0 : 0 < beta 0) (hb1 : beta 0 ≤ beta 1) (hb2 : beta 1 ≤ beta 2) (hgap : beta 0 * (1 + 2 / 100) ≤ beta 2) :
    beta 0 ≤ tuneLadder scale zs nsw npr beta 1 ∧ tuneLadder scale zs nsw npr beta 1 ≤ beta 2 := by
  have i0 : invB (ext beta) 0 = 1 / beta 0 := by simp [invB, ext]
  have i1 : invB (ext beta) 1 = 1 / beta 1 := by simp [invB, ext]
  have i2 : invB (ext beta) 2 = 1 / beta 2 := by simp [invB, ext]
  have q1 : 0 < beta 1 := by linarith
  have q2 : 0 < beta 2 := by linarith
  have m := ladder_main_three hs0 h1 (b := ext beta) (ar := swapRate (ext nsw) (ext npr)) (by rw [i2]; positivity) (by rw [i1, i2]; exact one_div_le_one_div_of_le q1 hb2)
    (by rw [i1, i0]; exact one_div_le_one_div_of_le hb0 hb1)
    (by rw [i2, i0, one_div_mul_eq_div, div_le_div_iff₀ q2 hb0]; linarith)
    (by simp only [swapRate, RealArith.div_eq, ext]; exact div_nonneg (hn _) (hn' _)) (by simp only [swapRate, RealArith.div_eq, ext]; exact div_nonneg (hn _) (hn' _))
  have key : 1 / beta 2 ≤ tuneLadderT 3 scale zs (ext nsw) (ext npr) (ext beta) 1 ∧ tuneLadderT 3 scale zs (ext nsw) (ext npr) (ext beta) 1 ≤ 1 / beta 0 := by
    have hT : tuneLadderT 3 scale zs (ext nsw) (ext npr) (ext beta) = ladderStep 3 scale zs (ext beta) (swapRate (ext nsw) (ext npr)) (invB (ext beta)) 1 := rfl
    have hle : 1 / beta 2 ≤ 1 / beta 0 := one_div_le_one_div_of_le hb0 (by linarith)
    rw [hT, ← i0, ← i2] at *
    simp only [ladderStep, ladderHigh, ladderLow]
    split
    · split
      · simp only [Function.update_apply]
        simp
        constructor <;> nlinarith
      · simp only [Function.update_apply]
        simp
        constructor <;> nlinarith
    · split
      · simp only [Function.update_apply]
        simp
        constructor <;> nlinarith
      · simpa using m
  have e : tuneLadder scale zs nsw npr beta 1 = 1 / tuneLadderT 3 scale zs (ext nsw) (ext npr) (ext beta) 1 := by simp [tuneLadder]
  have hpos : 0 < tuneLadderT 3 scale zs (ext nsw) (ext npr) (ext beta) 1 := lt_of_lt_of_le (by positivity) key.1
  rw [e]
  exact ⟨by rw [le_div_iff₀ hpos]; have := key.2; rw [le_div_iff₀ hb0] at this; linarith, by rw [div_le_iff₀ hpos]; have := key.1; rw [div_le_iff₀ q2] at this; linarith⟩
theorem tallyOf_nonneg {n : Nat} : ∀ (l : Tries n) (r : Fin n), 0 ≤ (tallyOf l).nsw r ∧ 0 ≤ (tallyOf l).npr r
  | [], r => by simp [tallyOf, Tally.zero]
  | (i, did) :: l, r => by
    have ih := fun q => tallyOf_nonneg l q
    simp only [tallyOf, Tally.add, Function.update_apply, RealArith.add_eq, RealArith.ofI_eq]
    constructor <;> split
    · have := (ih i).1
      split <;> push_cast <;> linarith
    · exact (ih r).1
    · have := (ih i).2
      push_cast
      linarith
    · exact (ih r).2

/-- Three ranks: no tuning takes the middle beta out of the range of the two ends. -/
theorem Job.ladder_three {d : Nat} (J : Job 3 d) (hs0 : 0 ≤ J.cfg.scaleLadder) (h0 : 0 ≤ J.cfg.zeroStretch) (h1 : J.cfg.zeroStretch ≤ 1)
    (hb0 : 0 < J.beta 0) (hb1 : J.beta 0 ≤ J.beta 1) (hb2 : J.beta 1 ≤ J.beta 2) (hgap : J.beta 0 * (1 + 2 / 100) ≤ J.beta 2) (h : Hist 3) (r : Fin 3) :
    J.beta 0 ≤ J.ladder h r ∧ J.ladder h r ≤ J.beta 2 := by
  have main : J.beta 0 ≤ J.ladder h 1 ∧ J.ladder h 1 ≤ J.beta 2 := by
    induction h with
    | nil => exact ⟨hb1, hb2⟩
    | cons o h ih =>
      rcases o with ⟨rk, c, ch⟩ | l
      · exact ih
      · have e0 := J.ladder_ends 0 (.inl rfl) h
        have e2 := J.ladder_ends 2 (.inr rfl) h
        rw [← e0, ← e2] at hgap ⊢
        rw [← e0] at hb0
        rw [← e0, ← e2] at ih
        exact ladder_three_real hs0 h0 h1 (tallyOf l).nsw (tallyOf l).npr (J.ladder h) (fun q => (tallyOf_nonneg l q).1) (fun q => (tallyOf_nonneg l q).2) hb0 ih.1 ih.2 hgap
  have e0 := J.ladder_ends 0 (.inl rfl) h
  have e2 := J.ladder_ends 2 (.inr rfl) h
  fin_cases r
  · show J.beta 0 ≤ J.ladder h 0 ∧ J.ladder h 0 ≤ J.beta 2
    rw [e0]
    exact ⟨le_rfl, hb1.trans hb2⟩
  · exact main
  · show J.beta 0 ≤ J.ladder h 2 ∧ J.ladder h 2 ≤ J.beta 2
    rw [e2]
    exact ⟨hb1.trans hb2, le_rfl⟩

/-! ## The program -/

section
variable {n d : Nat}

/-- **C84, program.** The widths and the ladder of a run are tuned, the ladder for the last time before the end of stack `k0 + 1`, and the widths not after `k` stacks, `k0 ≤ k`. In
every finished execution in which the stored values are in step after `k` stacks, the average over the rows of the chain file after iteration `B` is `estimate` on the streams of the
generators. For independent uniform streams, and up to outcomes where ladders passed through are not near each other by `V`: the stored values are out of step with a probability that falls
geometrically with the iterations from `k0` to `k` stacks, and `estimate` misses the mean under the tempered posterior with the beta in use by `ε` with at most the stated probability. -/
theorem tuned_ladder_average [Source ℝ] [UnitDraws] (m : Model ℝ) (ndim : Int) (ks : Fin d → Draw) (lo hi : Fin d → ℝ) (T : Target d) (cfg : Cfg ℝ) (file : DataFile ℝ) (hv : Valid n cfg file)
    (hu : cfg.user = m.user (List.ofFn fun i => (lo i, hi i)) ndim) (hd : m.draws = List.ofFn ks) (hN : cfg.nParm = d) (hlo : ∀ i, lo i < hi i)
    (hfit : ∀ i, (ks i).Fits (lo i, hi i)) (data : List ℝ) (hdata : file.cells = .ok data)
    (hT : ∀ b (x : Fin d → ℝ), Spec.target cfg.user file.nlines data b (List.ofFn x) = T.lp b x) (k0 k B : Nat) (hk0 : k0 ≤ k)
    (hstop : cfg.nStopTuneLadder ≤ (k0 + 1) * cfg.nStack) (hl : cfg.nStopTuneLadder ≤ k * cfg.nStack)
    (hkB : k * cfg.nStack ≤ B) (hBN : B < cfg.nIter.toNat) (hw : ∀ j, k * cfg.nStack < j → inTuneWindow cfg j = false) (hB : cfg.saveBegin ≤ B + 1)
    (hh : 1 ≤ cfg.halfRatio) (hj : 1 ≤ cfg.jumpin) (a b : Fin d → ℝ) (ha : ∀ i, cfg.sigmaMin[i.val]? = some (a i)) (hb : ∀ i, cfg.sigmaMax[i.val]? = some (b i))
    (ha0 : ∀ i, 0 < a i) (hab : ∀ i, a i * cfg.jumpin ≤ b i) (hb5 : ∀ i, b i ≤ (hi i - lo i) / 5)
    (hinit : ∀ i, a i ≤ (hi i - lo i) * cfg.initGpRatio ∧ (hi i - lo i) * cfg.initGpRatio ≤ b i)
    (V : ℝ) (hV : 0 ≤ V) (clock : Nat) (root r : Fin n) (g : List ℝ → ℝ)
    (hg : Measurable fun x : Fin d → ℝ => g (List.ofFn x)) (g0 : ∀ x, 0 ≤ g x) (g1 : ∀ x, g x ≤ 1) :
    ∃ beta : Fin n → ℝ, copyBetas n cfg.betas = .ok beta ∧
      (∀ (w₁ : List (Label n)) (t : Sys n (Msg ℝ) (Line ℝ) (RSt n ℝ)), (initSys cfg file clock root).exec w₁ = some t → t.AllDone →
        (jobOf T lo hi ks beta cfg root).InStep k (fun q => streamOf (srand48 ℝ (seedOf root (startSeed cfg clock) q))) →
        rowAverage B g (fileRows r.val (t.log r)) = (jobOf T lo hi ks beta cfg root).estimate k B r (fun x => g (List.ofFn x)) fun q =>
          streamOf (srand48 ℝ (seedOf root (startSeed cfg clock) q))) ∧
      (unifStreams n).real {ω | (jobOf T lo hi ks beta cfg root).Near V ((jobOf T lo hi ks beta cfg root).history k0 ω) ∧ ¬ (jobOf T lo hi ks beta cfg root).InStep k ω} ≤
        n * (1 - Real.exp (-V)) ^ ((k - k0) * cfg.nStack.toNat) ∧
      0 < (gain lo hi (fun (_ : Fin n) i => (a i).toNNReal) fun _ => V).toReal ∧
      ∀ ε : ℝ, 0 < ε → (unifStreams n).real {ω | (jobOf T lo hi ks beta cfg root).Near V ((jobOf T lo hi ks beta cfg root).history k0 ω) ∧
          ε ≤ |(jobOf T lo hi ks beta cfg root).estimate k B r (fun x => g (List.ofFn x)) ω -
            (jobOf T lo hi ks beta cfg root).mean ((jobOf T lo hi ks beta cfg root).ladder ((jobOf T lo hi ks beta cfg root).history k ω) r) fun x => g (List.ofFn x)|} ≤
        errorBound (gain lo hi (fun (_ : Fin n) i => (a i).toNNReal) fun _ => V).toReal (n * d * (76 / 10 ^ 7)) (cfg.nIter.toNat - B) / ε ^ 2 := by
  rcases Nat.eq_zero_or_pos d with hd0 | hd0
  · have := hv.parm
    omega
  have hratio : 0 ≤ cfg.initGpRatio := by
    have h1 := (hinit ⟨0, hd0⟩).1
    have h2 := ha0 ⟨0, hd0⟩
    have h3 := hlo ⟨0, hd0⟩
    by_contra hc
    nlinarith [mul_nonneg (sub_nonneg.2 h3.le) (neg_nonneg.2 (not_le.1 hc).le)]
  obtain ⟨beta, hbeta, hex⟩ := tuned_average_stream m ndim ks lo hi T cfg file hv hu hd hN (fun i => (hlo i).le) hratio data hdata hT k B hkB hBN hw (.inr hl) hB clock root
  have e : cfg.user.initGp cfg.initGpRatio = List.ofFn fun i : Fin d => (hi i - lo i) * cfg.initGpRatio := by
    rw [hu]
    show (List.ofFn fun i => (lo i, hi i)).map _ = _
    rw [List.map_ofFn]
    rfl
  have hR : (jobOf T lo hi ks beta cfg root).Ranges a b := by
    refine ⟨hh, hj, hN, ha, hb, ha0, hab, fun i => ?_, ?_, fun _ => rfl⟩
    · show a i ≤ vec d (cfg.user.initGp cfg.initGpRatio) i ∧ vec d (cfg.user.initGp cfg.initGpRatio) i ≤ b i
      rw [e, vec, List.getElem?_ofFn]
      simp only [i.isLt, dif_pos]
      exact hinit i
    · show (cfg.user.initGp cfg.initGpRatio).length = d
      rw [e, List.length_ofFn]
  obtain ⟨c1, law⟩ := (jobOf T lo hi ks beta cfg root).tuned_ladder_error hv.ranks hfit hlo hv.rand hv.base hv.stack hk0 (fun _ => hstop) B hkB hBN r (fun x => g (List.ofFn x)) hg
    (fun _ => g0 _) (fun _ => g1 _) hR hb5 hV
  have nonneg : ∀ h r i, 0 ≤ (jobOf T lo hi ks beta cfg root).widths h r i := fun h r i =>
    (ha0 i).le.trans ((jobOf T lo hi ks beta cfg root).widths_range hv.ranks hR h r i).1
  exact ⟨beta, hbeta, fun w₁ t ht hdone hstep => hex _ (fun _ => rfl) (nonneg _) hstep w₁ t ht hdone r g,
    (jobOf T lo hi ks beta cfg root).stale_rare hfit hv.rand hv.base hv.stack hk0 (fun _ => hstop) hV, c1, law⟩

end

/-- Three ranks: all ladders passed through are between the first and the last beta, and these two are never tuned. -/
theorem three_ranks {d : Nat} (T : Target d) (lo hi : Fin d → ℝ) (ks : Fin d → Draw) (cfg : Cfg ℝ)
    (hs0 : 0 ≤ cfg.scaleLadder) (hz0 : 0 ≤ cfg.zeroStretch) (hz1 : cfg.zeroStretch ≤ 1)
    (b0 b1 b2 : ℝ) (rest : List ℝ) (hbetas : cfg.betas = b0 :: b1 :: b2 :: rest) (hb0 : 0 < b0) (hb1 : b0 ≤ b1) (hb2 : b1 ≤ b2) (hgap : b0 * (1 + 2 / 100) ≤ b2)
    (V : ℝ) (hV : ∀ s ∈ Icc b0 b2, ∀ t ∈ Icc b0 b2, ∀ x y, InBox lo hi x → InBox lo hi y → T.lp s x - T.lp t y ≤ V) (root r : Fin 3) (hr : r ≠ 1) (beta : Fin 3 → ℝ)
    (hbeta : copyBetas 3 cfg.betas = .ok beta) :
    (∀ h, (jobOf T lo hi ks beta cfg root).Near V h) ∧ ∀ h, (jobOf T lo hi ks beta cfg root).ladder h r = beta r := by
  have hbe : beta 0 = b0 ∧ beta 1 = b1 ∧ beta 2 = b2 := by
    unfold copyBetas at hbeta
    split at hbeta
    · have := (Except.ok.inj hbeta).symm
      subst this
      simp [hbetas]
    · cases hbeta
  refine ⟨fun h h' _ r x y hx hy => ?_, fun h => ?_⟩
  · have range := fun h r => (jobOf T lo hi ks beta cfg root).ladder_three hs0 hz0 hz1 (by show 0 < beta 0; rw [hbe.1]; exact hb0)
      (by show beta 0 ≤ beta 1; rw [hbe.1, hbe.2.1]; exact hb1) (by show beta 1 ≤ beta 2; rw [hbe.2.1, hbe.2.2]; exact hb2)
      (by show beta 0 * _ ≤ beta 2; rw [hbe.1, hbe.2.2]; exact hgap) h r
    have e0 : (jobOf T lo hi ks beta cfg root).beta 0 = b0 := hbe.1
    have e2 : (jobOf T lo hi ks beta cfg root).beta 2 = b2 := hbe.2.2
    rw [e0, e2] at range
    exact hV _ (range h' r) _ (range h r) x y hx hy
  · exact (jobOf T lo hi ks beta cfg root).ladder_ends r (by
      rcases r with ⟨r, hr'⟩
      have : r ≠ 1 := fun h => hr (Fin.ext h)
      show r = 0 ∨ r = 2
      omega) h

/-- **C84, three ranks.** With three ranks no condition on the outcome of the tuning is left: the ladder of any outcome is between the first and the last beta, which are never tuned. A
chain at either end of the ladder estimates means under its posterior: the probability that its stored values are out of step, and that of an error of `ε` otherwise, are both bounded. -/
theorem tuned_ladder_three {d : Nat} [Source ℝ] [UnitDraws] (m : Model ℝ) (ndim : Int) (ks : Fin d → Draw) (lo hi : Fin d → ℝ) (T : Target d) (cfg : Cfg ℝ) (file : DataFile ℝ) (hv : Valid 3 cfg file)
    (hu : cfg.user = m.user (List.ofFn fun i => (lo i, hi i)) ndim) (hd : m.draws = List.ofFn ks) (hN : cfg.nParm = d) (hlo : ∀ i, lo i < hi i)
    (hfit : ∀ i, (ks i).Fits (lo i, hi i)) (data : List ℝ) (hdata : file.cells = .ok data)
    (hT : ∀ b (x : Fin d → ℝ), Spec.target cfg.user file.nlines data b (List.ofFn x) = T.lp b x) (k0 k B : Nat) (hk0 : k0 ≤ k)
    (hstop : cfg.nStopTuneLadder ≤ (k0 + 1) * cfg.nStack) (hl : cfg.nStopTuneLadder ≤ k * cfg.nStack)
    (hkB : k * cfg.nStack ≤ B) (hBN : B < cfg.nIter.toNat) (hw : ∀ j, k * cfg.nStack < j → inTuneWindow cfg j = false) (hB : cfg.saveBegin ≤ B + 1)
    (hh : 1 ≤ cfg.halfRatio) (hj : 1 ≤ cfg.jumpin) (a b : Fin d → ℝ) (ha : ∀ i, cfg.sigmaMin[i.val]? = some (a i)) (hb : ∀ i, cfg.sigmaMax[i.val]? = some (b i))
    (ha0 : ∀ i, 0 < a i) (hab : ∀ i, a i * cfg.jumpin ≤ b i) (hb5 : ∀ i, b i ≤ (hi i - lo i) / 5)
    (hinit : ∀ i, a i ≤ (hi i - lo i) * cfg.initGpRatio ∧ (hi i - lo i) * cfg.initGpRatio ≤ b i)
    (hs0 : 0 ≤ cfg.scaleLadder) (hz0 : 0 ≤ cfg.zeroStretch) (hz1 : cfg.zeroStretch ≤ 1)
    (b0 b1 b2 : ℝ) (rest : List ℝ) (hbetas : cfg.betas = b0 :: b1 :: b2 :: rest) (hb0 : 0 < b0) (hb1 : b0 ≤ b1) (hb2 : b1 ≤ b2) (hgap : b0 * (1 + 2 / 100) ≤ b2)
    (V : ℝ) (hV : ∀ s ∈ Icc b0 b2, ∀ t ∈ Icc b0 b2, ∀ x y, InBox lo hi x → InBox lo hi y → T.lp s x - T.lp t y ≤ V) (clock : Nat) (root r : Fin 3) (hr : r ≠ 1) (g : List ℝ → ℝ)
    (hg : Measurable fun x : Fin d → ℝ => g (List.ofFn x)) (g0 : ∀ x, 0 ≤ g x) (g1 : ∀ x, g x ≤ 1) :
    ∃ beta : Fin 3 → ℝ, copyBetas 3 cfg.betas = .ok beta ∧
      (∀ (w₁ : List (Label 3)) (t : Sys 3 (Msg ℝ) (Line ℝ) (RSt 3 ℝ)), (initSys cfg file clock root).exec w₁ = some t → t.AllDone →
        (jobOf T lo hi ks beta cfg root).InStep k (fun q => streamOf (srand48 ℝ (seedOf root (startSeed cfg clock) q))) →
        rowAverage B g (fileRows r.val (t.log r)) = (jobOf T lo hi ks beta cfg root).estimate k B r (fun x => g (List.ofFn x)) fun q =>
          streamOf (srand48 ℝ (seedOf root (startSeed cfg clock) q))) ∧
      (unifStreams 3).real {ω | ¬ (jobOf T lo hi ks beta cfg root).InStep k ω} ≤ 3 * (1 - Real.exp (-V)) ^ ((k - k0) * cfg.nStack.toNat) ∧
      0 < (gain lo hi (fun (_ : Fin 3) i => (a i).toNNReal) fun _ => V).toReal ∧
      ∀ ε : ℝ, 0 < ε → (unifStreams 3).real {ω | ε ≤ |(jobOf T lo hi ks beta cfg root).estimate k B r (fun x => g (List.ofFn x)) ω -
            (∫ x : Fin d → ℝ, g (List.ofFn x) ∂(posterior (volume.restrict (openBox lo hi)) (T.lp (beta r)))) /
              (posterior (volume.restrict (openBox lo hi)) (T.lp (beta r))).real univ|} ≤
        errorBound (gain lo hi (fun (_ : Fin 3) i => (a i).toNNReal) fun _ => V).toReal (3 * d * (76 / 10 ^ 7)) (cfg.nIter.toNat - B) / ε ^ 2 := by
  have hmid : InBox lo hi lo := fun i => ⟨le_rfl, (hlo i).le⟩
  have hV0 : 0 ≤ V := by
    have := hV b0 ⟨le_rfl, hb1.trans hb2⟩ b0 ⟨le_rfl, hb1.trans hb2⟩ lo lo hmid hmid
    linarith
  obtain ⟨beta, hbeta, h1, h2, h3, h4⟩ := tuned_ladder_average m ndim ks lo hi T cfg file hv hu hd hN hlo hfit data hdata hT k0 k B hk0 hstop hl hkB hBN hw hB hh hj a b ha hb ha0 hab hb5 hinit
    V hV0 clock root r g hg g0 g1
  obtain ⟨hnear, hend⟩ := three_ranks T lo hi ks cfg hs0 hz0 hz1 b0 b1 b2 rest hbetas hb0 hb1 hb2 hgap V hV root r hr beta hbeta
  refine ⟨beta, hbeta, h1, ?_, h3, fun ε hε => ?_⟩
  · simp only [hnear, true_and] at h2
    exact_mod_cast h2
  · have := h4 ε hε
    simp only [hnear, true_and, hend] at this
    exact_mod_cast this

/-- The run of C83 with its ladder tuned as well, at the ends of its first two stacks. -/
noncomputable def eggboxLadder : Cfg ℝ :=
  { eggboxTuned with
    tuneLadder := 1
    nStopTuneLadder := 3000
    scaleLadder := 9 / 10
    zeroStretch := 3 / 10 }

theorem eggboxLadder_valid : Valid 3 eggboxLadder eggboxFile where
  ranks := by norm_num
  ranksInt := by norm_num
  betas := by simp [eggboxLadder, eggboxTuned, eggboxRun]
  parm := by simp [eggboxLadder, eggboxTuned, eggboxRun]
  user := eggbox_valid.user
  stack := by simp [eggboxLadder, eggboxTuned, eggboxRun]
  rand := by simp [eggboxLadder, eggboxTuned, eggboxRun]
  base := by simp [eggboxLadder, eggboxTuned, eggboxRun]
  randInt := by simp [eggboxLadder, eggboxTuned, eggboxRun]
  stackInt := by simp [eggboxLadder, eggboxTuned, eggboxRun]
  iterInt := .of_sum (by simp [eggboxLadder, eggboxTuned, eggboxRun])
  mode := by simp [eggboxLadder, eggboxTuned, eggboxRun]
  inTune := by simp [eggboxLadder, eggboxTuned, eggboxRun]
  sigmaMin := by simp [eggboxLadder, eggboxTuned, eggboxRun]
  sigmaMax := by simp [eggboxLadder, eggboxTuned, eggboxRun]
  cells := ⟨[0], rfl, by simp [eggboxFile], by simp⟩

/-- **C84 for that run**: the fraction of rows of the coldest chain, after the tuning, with both parameters below 25. After nine stacks, seven after the last tuning of the ladder, a stored
value is out of step with a probability below 10⁻¹⁰⁰. -/
theorem eggbox_tuned_ladder (clock : Nat) : ∃ beta : Fin 3 → ℝ, copyBetas 3 eggboxLadder.betas = .ok beta ∧
    (∀ (w₁ : List (Label 3)) (t : Sys 3 (Msg ℝ) (Line ℝ) (RSt 3 ℝ)), (initSys eggboxLadder eggboxFile clock 0).exec w₁ = some t → t.AllDone →
      (jobOf eggboxTarget (fun _ => 0) (fun _ => 50) (fun _ => .unif) beta eggboxLadder 0).InStep 9 (fun q => streamOf (srand48 ℝ (seedOf 0 (startSeed eggboxLadder clock) q))) →
      rowAverage 9000 (fun x => if ∀ y ∈ x, y < 25 then 1 else 0) (fileRows 2 (t.log 2)) =
        (jobOf eggboxTarget (fun _ => 0) (fun _ => 50) (fun _ => .unif) beta eggboxLadder 0).estimate 9 9000 2 (fun x => if ∀ y ∈ List.ofFn x, y < 25 then 1 else 0) fun q =>
          streamOf (srand48 ℝ (seedOf 0 (startSeed eggboxLadder clock) q))) ∧
    (unifStreams 3).real {ω | ¬ (jobOf eggboxTarget (fun _ => 0) (fun _ => 50) (fun _ => .unif) beta eggboxLadder 0).InStep 9 ω} ≤ 1 / 10 ^ 100 ∧
    0 < (gain (fun _ => 0) (fun _ => 50) (fun (_ : Fin 3) (_ : Fin 2) => (1 : ℝ).toNNReal) fun _ => 29 / 10).toReal ∧
    ∀ ε : ℝ, 0 < ε → (unifStreams 3).real {ω | ε ≤ |(jobOf eggboxTarget (fun _ => 0) (fun _ => 50) (fun _ => .unif) beta eggboxLadder 0).estimate 9 9000 2 (fun x => if ∀ y ∈ List.ofFn x, y < 25 then 1 else 0) ω -
        (∫ x : Fin 2 → ℝ, (if ∀ y ∈ List.ofFn x, y < 25 then 1 else 0) ∂(posterior (volume.restrict (openBox (fun _ => 0) fun _ => 50)) (eggboxTarget.lp (beta 2)))) /
          (posterior (volume.restrict (openBox (fun _ => 0) fun _ => 50)) (eggboxTarget.lp (beta 2))).real univ|} ≤
      errorBound (gain (fun _ => 0) (fun _ => 50) (fun (_ : Fin 3) (_ : Fin 2) => (1 : ℝ).toNNReal) fun _ => 29 / 10).toReal (3 * (2 : Nat) * (76 / 10 ^ 7)) 11000 / ε ^ 2 := by
  obtain ⟨beta, h1, h2, h3, h4⟩ := tuned_ladder_three eggbox 1 (fun _ : Fin 2 => .unif) (fun _ => 0) (fun _ => 50) eggboxTarget eggboxLadder eggboxFile eggboxLadder_valid
    (by show eggbox.user _ 1 = _; simp [List.ofFn_succ]) (by simp [eggbox, model2, List.ofFn_succ]) rfl (fun _ => by norm_num) (fun _ => by show (0 : ℝ) ≤ 50; norm_num) [0] rfl
    (fun b x => eggbox_target _ _ _ _ b x) 2 9 9000 (by norm_num) (by simp [eggboxLadder, eggboxTuned, eggboxRun]) (by simp [eggboxLadder, eggboxTuned, eggboxRun])
    (by simp [eggboxLadder, eggboxTuned, eggboxRun]) (by simp [eggboxLadder, eggboxTuned, eggboxRun])
    (fun j hj => by
      have hj : 9 * 1000 < j := hj
      show (decide ((3000 : Int) < j) && decide ((j : Int) < 9000) && decide ((j : Int) < 20000)) = false
      rw [Bool.eq_false_iff]; simp only [ne_eq, Bool.and_eq_true, decide_eq_true_eq]; omega)
    (by simp [eggboxLadder, eggboxTuned, eggboxRun, demoCfg]) (by simp [eggboxLadder, eggboxTuned]) (by simp [eggboxLadder, eggboxTuned]) (fun _ => 1) (fun _ => 10)
    (fun i => by fin_cases i <;> rfl) (fun i => by fin_cases i <;> rfl) (fun _ => one_pos) (fun _ => by simp only [eggboxLadder, eggboxTuned]; norm_num) (fun _ => by norm_num)
    (fun _ => by simp only [eggboxLadder, eggboxTuned, eggboxRun]; norm_num)
    (by simp only [eggboxLadder]; norm_num) (by simp only [eggboxLadder]; norm_num) (by simp only [eggboxLadder]; norm_num)
    (1 / 10) (1 / 2) 1 [] (by simp [eggboxLadder, eggboxTuned, eggboxRun]) (by norm_num) (by norm_num) (by norm_num) (by norm_num)
    (29 / 10) (fun s hs t ht x y _ _ => by
      obtain ⟨x1, x2⟩ := eggbox_values x
      obtain ⟨y1, y2⟩ := eggbox_values y
      have e : ∀ b z, eggboxTarget.lp b z = b * eggboxTarget.L z + 1 := fun _ _ => rfl
      rw [e, e]
      nlinarith [hs.1, hs.2, ht.1, ht.2])
    clock 0 2 (by decide) (fun x => if ∀ y ∈ x, y < 25 then 1 else 0)
    (by
      refine Measurable.ite ?_ measurable_const measurable_const
      have : {x : Fin 2 → ℝ | ∀ y ∈ List.ofFn x, y < 25} = ⋂ i, {x | x i < 25} := by
        ext x
        simp [List.mem_ofFn]
      rw [this]
      exact MeasurableSet.iInter fun i => measurableSet_lt (measurable_pi_apply i) measurable_const)
    (fun x => by split <;> norm_num) (fun x => by split <;> norm_num)
  refine ⟨beta, h1, h2, h3.trans ?_, h4⟩
  have he : (1 : ℝ) / 21 ≤ Real.exp (-(29 / 10)) := by
    rw [Real.exp_neg, one_div, inv_le_inv₀ (by norm_num) (Real.exp_pos _)]
    have h1 : Real.exp (29 / 10 : ℝ) ≤ Real.exp 1 ^ 3 := by
      rw [← Real.exp_nat_mul]
      exact Real.exp_le_exp.2 (by norm_num)
    have h2 : Real.exp 1 ^ 3 ≤ (2.7182818286 : ℝ) ^ 3 := pow_le_pow_left₀ (Real.exp_pos _).le Real.exp_one_lt_d9.le 3
    refine (h1.trans h2).trans ?_
    norm_num
  have h21 : 1 - Real.exp (-(29 / 10 : ℝ)) ≤ 20 / 21 := by linarith
  have hp0 : 0 ≤ 1 - Real.exp (-(29 / 10 : ℝ)) := by linarith [Real.exp_le_one_iff.2 (show -(29 / 10 : ℝ) ≤ 0 by norm_num)]
  have h200 : (1 - Real.exp (-(29 / 10 : ℝ))) ^ 200 ≤ 1 / 10 ^ 4 := (pow_le_pow_left₀ hp0 h21 200).trans (by norm_num)
  show 3 * (1 - Real.exp (-(29 / 10 : ℝ))) ^ (200 * 35) ≤ _
  rw [pow_mul]
  calc 3 * ((1 - Real.exp (-(29 / 10 : ℝ))) ^ 200) ^ 35 ≤ 3 * (1 / 10 ^ 4) ^ 35 := by gcongr
    _ ≤ 1 / 10 ^ 100 := by norm_num

end NiiC
