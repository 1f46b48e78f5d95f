import Verif.Props.Mixing
import Verif.Props.TunedLadder

/-!
# How long a run has to be after its tuning: C87

The rates of C85 and C86 for the widths and the ladder that a tuning leaves behind, uniformly over its outcomes.
-/

set_option linter.unusedSectionVars false
set_option linter.unusedSimpArgs false

namespace NiiC

open MeasureTheory ProbabilityTheory Set
open scoped ENNReal NNReal

theorem mixError_mono {e e' g a C : ℝ} (h : e ≤ e') (N M j : Nat) : mixError e g a C N M j ≤ mixError e' g a C N M j := by
  unfold mixError
  gcongr

theorem mixError_nonneg {e g a C : ℝ} (he : 0 ≤ e) (ha : 0 < a) (ha1 : a ≤ 1) (hC : 0 ≤ C) (N M j : Nat) : 0 ≤ mixError e g a C N M j := by
  unfold mixError
  have : 0 ≤ (1 - a) ^ j := pow_nonneg (by linarith) j
  have : 0 ≤ Real.sqrt (1 - g) ^ (M - j) := pow_nonneg (Real.sqrt_nonneg _) _
  positivity

/-- The share of the variance that a round takes away, for all widths from `a` to the range. -/
noncomputable def gapFloor (lo hi a : ℝ) : ℝ := Real.exp (-5 / 4) / (4 * Real.pi) * ((hi - lo) / a) / ((hi - lo) / (2 * a) + 1) ^ 3

theorem gap_floor {lo hi a s : ℝ} (h : lo < hi) (ha : 0 < a) (has : a ≤ s) (hs : s ≤ hi - lo) : gapFloor lo hi a ≤ gap lo hi s := by
  have hs0 : 0 < s := lt_of_lt_of_le ha has
  have hL : 0 < hi - lo := by linarith
  obtain ⟨u, hu⟩ : ∃ u, u = (hi - lo) / s := ⟨_, rfl⟩
  obtain ⟨w, hw⟩ : ∃ w, w = (hi - lo) / a := ⟨_, rfl⟩
  have hu1 : 1 ≤ u := by rw [hu, le_div_iff₀ hs0]; linarith
  have huw : u ≤ w := by rw [hu, hw]; exact div_le_div_of_nonneg_left hL.le ha has
  have e1 : (hi - lo) / (2 * s) = u / 2 := by rw [hu]; field_simp
  have e2 : (hi - lo) / (2 * a) = w / 2 := by rw [hw]; field_simp
  rw [gapFloor, gap, e1, e2, ← hu, ← hw, mul_div_assoc, mul_div_assoc]
  refine mul_le_mul_of_nonneg_left ?_ (by positivity)
  have hc : (⌈u / 2⌉₊ : ℝ) ≤ u / 2 + 1 := (Nat.ceil_lt_add_one (by linarith)).le
  have hc0 : (0 : ℝ) < ⌈u / 2⌉₊ := by exact_mod_cast Nat.ceil_pos.2 (by linarith)
  have h1 : w / (w / 2 + 1) ^ 3 ≤ u / (u / 2 + 1) ^ 3 := by
    have hw1 : 1 ≤ w := hu1.trans huw
    rw [div_le_div_iff₀ (by positivity) (by positivity)]
    have huw1 : 1 ≤ u * w := one_le_mul_of_one_le_of_one_le hu1 hw1
    have hk : 0 ≤ u * w * (w + u) / 8 + 3 / 4 * (u * w) - 1 := by nlinarith
    nlinarith [mul_nonneg (sub_nonneg.2 huw) hk]
  refine h1.trans ?_
  gcongr

namespace Job

variable {n d : Nat} (J : Job n d)

/-- **C87, law.** The streams of the ranks consist of independent uniform numbers. Let `good` be a set of outcomes of the tuning in the first `k` stacks after which the rates of
C85 are at least `g` and `a` and at most `C`, and the deviation of one round at most `e`. The probability that the outcome of the tuning is good and the average over the iterations
of chain `r` after the first `B` differs by `ε` or more from the mean under the tempered posterior, for the beta that the chain has then, is at most the bound of C86 for the
iterations after the tuning. -/
theorem tuned_mixing_error (hn : 2 ≤ n) (hk : ∀ i, (J.ks i).Fits (J.lo i, J.hi i)) (hr : 0 ≤ J.cfg.rand) (hb : J.cfg.rand < J.cfg.base)
    (hst : 1 ≤ J.cfg.nStack) (k B j : Nat) (hkB : k * J.cfg.nStack.toNat + j ≤ B) (hB : B < J.cfg.nIter.toNat) (r : Fin n) (f : (Fin d → ℝ) → ℝ) (hf : Measurable f)
    (h0 : ∀ x, 0 ≤ f x) (h1 : ∀ x, f x ≤ 1) (good : Set (Hist n)) (v : Hist n → Fin n → ℝ) (g a C e : ℝ) (hg : 0 < g) (ha : 0 < a) (ha1 : a ≤ 1) (hC : 0 ≤ C) (he : 0 ≤ e)
    (hgood : ∀ h ∈ good, (J.setting h).Proper (v h) ∧ (J.setting h).Mixes (v h) g a C ∧
      ∑ r, ∑ i, ((tail (J.lo i) (J.hi i) ((J.setting h).s r i)).toReal + 1 / 10 ^ 16) ≤ e) (ε : ℝ) (hε : 0 < ε) :
    (unifStreams n).real {ω | J.history k ω ∈ good ∧ ε ≤ |J.estimate k B r f ω - J.mean (J.ladder (J.history k ω) r) f|} ≤
      1 / (g * (J.cfg.nIter.toNat - B : Nat) * ε ^ 2) + mixError e g a C (J.cfg.nIter.toNat - k * J.cfg.nStack.toNat) (B - k * J.cfg.nStack.toNat) j := by
  have hi0 : (0 : Int) ≤ k * J.cfg.nStack := by positivity
  have ht : (k * J.cfg.nStack : Int).toNat = k * J.cfg.nStack.toNat := by
    obtain ⟨m, hm⟩ := Int.eq_ofNat_of_zero_le (show 0 ≤ J.cfg.nStack by omega)
    rw [hm]
    exact_mod_cast rfl
  have hK : (0 : ℝ) < (J.cfg.nIter.toNat - B : Nat) := by
    have : 0 < J.cfg.nIter.toNat - B := by omega
    exact_mod_cast this
  have hδ : 0 ≤ 1 / (g * (J.cfg.nIter.toNat - B : Nat) * ε ^ 2) + mixError e g a C (J.cfg.nIter.toNat - k * J.cfg.nStack.toNat) (B - k * J.cfg.nStack.toNat) j :=
    add_nonneg (by positivity) (mixError_nonneg he ha ha1 hC _ _ _)
  refine J.after_bound hk k B r f good ε _ hδ fun h hh => ?_
  obtain ⟨hS, hM, hleak⟩ := hgood h hh
  obtain ⟨hD, hF⟩ := flow_mixing hS hn hM J.cfg hr hb J.root r f hf h0 h1 J.cfg.nStack (k * J.cfg.nStack) hst hi0 (by omega) B hB.le
  have hmean : J.mean (J.ladder h r) f = targetMean (J.setting h) r f := (targetMean_eq hS r f hf).symm
  have hadd := average_add hS J.cfg hr hb J.root r f hf h0 h1 J.cfg.nStack (k * J.cfg.nStack) hst hi0 B (by omega) hB
  refine ⟨fun p => (coldOf hS hM r f hf h0 h1 J.cfg.nIter.toNat B).add (flowH (J.setting h) J.cfg J.root J.cfg.nIter.toNat J.cfg.nStack (k * J.cfg.nStack) p) /
    (J.cfg.nIter.toNat - B : Nat), (measurable_fst.comp hD).div_const _, fun p hp => ?_, fun x hx => ?_⟩
  · rw [hmean, hadd p hp]
    rfl
  · have hx := (hF x hx j (by rw [ht]; exact hkB)).2 (ε * (J.cfg.nIter.toNat - B : Nat)) (by positivity)
    have e1 : ((J.cfg.nIter.toNat - B : Nat) : ℝ) / (g * (ε * (J.cfg.nIter.toNat - B : Nat)) ^ 2) = 1 / (g * (J.cfg.nIter.toNat - B : Nat) * ε ^ 2) := by
      field_simp
    rw [e1, ht] at hx
    have hset : {ω : Fin n → Draws | ε ≤ |(coldOf hS hM r f hf h0 h1 J.cfg.nIter.toNat B).add (flowH (J.setting h) J.cfg J.root J.cfg.nIter.toNat J.cfg.nStack (k * J.cfg.nStack) (x, ω)) /
        (J.cfg.nIter.toNat - B : Nat)|} = {ω | ε * (J.cfg.nIter.toNat - B : Nat) ≤
          |(coldOf hS hM r f hf h0 h1 J.cfg.nIter.toNat B).add (flowH (J.setting h) J.cfg J.root J.cfg.nIter.toNat J.cfg.nStack (k * J.cfg.nStack) (x, ω))|} := by
      ext ω
      show ε ≤ |_ / _| ↔ ε * _ ≤ |_|
      rw [abs_div, abs_of_pos hK, le_div_iff₀ hK]
    rw [← ofReal_measureReal, hset]
    refine ENNReal.ofReal_le_ofReal (hx.trans ?_)
    have := mixError_mono (g := g) (a := a) (C := C) ((leakAll_real J.lo J.hi (J.setting h).s).2.le.trans hleak) (J.cfg.nIter.toNat - k * J.cfg.nStack.toNat) (B - k * J.cfg.nStack.toNat) j
    have e2 : leakAll (J.setting h).lo (J.setting h).hi (J.setting h).s = leakAll J.lo J.hi (J.setting h).s := rfl
    rw [e2]
    linarith

/-- Rates for all widths in their ranges, which end at a tenth of the range of the parameter or before, and all log-posteriors that vary by at most `V`. -/
structure Rates (J : Job n d) (a b : Fin d → ℝ) (V g α C : ℝ) : Prop where
  small : ∀ i, b i ≤ (J.hi i - J.lo i) / 10
  g_pos : 0 < g
  g_one : g ≤ 1
  rate : ∀ i, g ≤ Real.exp (-V) * gapFloor (J.lo i) (J.hi i) (a i)
  α_pos : 0 < α
  α_one : α ≤ 1
  move : α ≤ (Real.exp (-V) * (1 - 2 / 10 ^ 20) ^ d) ^ n
  crowd : (∏ i, crowd1 (J.lo i) (J.hi i) (a i).toNNReal) ^ n ≤ C

theorem mixes (hn : 2 ≤ n) (hlo : ∀ i, J.lo i < J.hi i) {a b : Fin d → ℝ} (hR : J.Ranges a b) {V g α C : ℝ} (hM : J.Rates a b V g α C) (h : Hist n)
    (hv : ∀ r, Varies J.lo J.hi (J.T.lp (J.ladder h r)) V) :
    (J.setting h).Proper (fun _ => V) ∧ (J.setting h).Mixes (fun _ => V) g α C ∧ ∑ r, ∑ i, ((tail (J.lo i) (J.hi i) ((J.setting h).s r i)).toReal + 1 / 10 ^ 16) ≤ (n : ℝ) * d * (2 / 10 ^ 16) := by
  have hs := J.setting_s hn hR
  have hw := J.widths_range hn hR h
  have hsne : ∀ r i, (J.setting h).s r i ≠ 0 := fun r i h0 => by
    have := hs h r i
    rw [h0, NNReal.coe_zero] at this
    linarith [hR.pos i, (hw r i).1]
  have ht : ∀ r i, (tail (J.lo i) (J.hi i) ((J.setting h).s r i)).toReal ≤ 2 / 10 ^ 20 := fun r i =>
    tail_tenth _ _ (hlo i) _ (hsne r i) (by rw [hs]; exact (hw r i).2.trans (hM.small i))
  have hwide : ∀ r i, ((J.setting h).s r i : ℝ) ≤ J.hi i - J.lo i := fun r i => by
    rw [hs]
    linarith [(hw r i).2, hM.small i, hlo i]
  refine ⟨⟨hlo, hsne, hv⟩, ⟨hwide, hM.g_pos, hM.g_one, fun r i => ?_, hM.α_pos, hM.α_one, ?_, ?_⟩, ?_⟩
  · refine (hM.rate i).trans (mul_le_mul_of_nonneg_left ?_ (Real.exp_pos _).le)
    exact gap_floor (hlo i) (hR.pos i) (by rw [hs]; exact (hw r i).1) (hwide r i)
  · refine hM.move.trans ?_
    have en : (Real.exp (-V) * (1 - 2 / 10 ^ 20) ^ d) ^ n = ∏ _r : Fin n, Real.exp (-V) * (1 - 2 / 10 ^ 20) ^ d := by rw [Finset.prod_const, Finset.card_univ, Fintype.card_fin]
    rw [en]
    refine Finset.prod_le_prod (fun r _ => ?_) fun r _ => ?_
    · have : (0 : ℝ) ≤ 1 - 2 / 10 ^ 20 := by norm_num
      positivity
    · rw [moveRate]
      refine mul_le_mul_of_nonneg_left ?_ (Real.exp_pos _).le
      have e : (1 - 2 / 10 ^ 20 : ℝ) ^ d = ∏ _i : Fin d, (1 - 2 / 10 ^ 20 : ℝ) := by rw [Finset.prod_const, Finset.card_univ, Fintype.card_fin]
      rw [e]
      exact Finset.prod_le_prod (fun i _ => by norm_num) fun i _ => sub_le_sub_left (ht r i) 1
  · refine le_trans ?_ hM.crowd
    have e : (∏ i, crowd1 (J.lo i) (J.hi i) (a i).toNNReal) ^ n = ∏ _r : Fin n, ∏ i, crowd1 (J.lo i) (J.hi i) (a i).toNNReal := by
      rw [Finset.prod_const, Finset.card_univ, Fintype.card_fin]
    rw [e]
    have hq : 0 < Real.sqrt (2 * Real.pi) := Real.sqrt_pos.2 (by positivity)
    have hL : ∀ i, 0 < J.hi i - J.lo i := fun i => sub_pos.2 (hlo i)
    refine Finset.prod_le_prod (fun r _ => Finset.prod_nonneg fun i _ => ?_) fun r _ => Finset.prod_le_prod (fun i _ => ?_) fun i _ => ?_
    · exact div_nonneg (by have := hL i; show 0 ≤ 3 * (J.hi i - J.lo i); linarith) (by positivity)
    · exact div_nonneg (by have := hL i; show 0 ≤ 3 * (J.hi i - J.lo i); linarith) (by positivity)
    · show 3 * (J.hi i - J.lo i) / ((J.setting h).s r i * _) ≤ 3 * (J.hi i - J.lo i) / ((a i).toNNReal * _)
      rw [Real.coe_toNNReal _ (hR.pos i).le, hs]
      have := hR.pos i
      have := hL i
      have := (hw r i).1
      gcongr
  · calc _ ≤ ∑ _r : Fin n, ∑ _i : Fin d, ((2 : ℝ) / 10 ^ 16) := Finset.sum_le_sum fun r _ => Finset.sum_le_sum fun i _ => by
          have := ht r i
          norm_num at this ⊢
          linarith
      _ = _ := by simp only [Finset.sum_const, Finset.card_univ, Fintype.card_fin, nsmul_eq_mul]; ring

theorem Rates.C_nn {J : Job n d} (hlo : ∀ i, J.lo i < J.hi i) {a b : Fin d → ℝ} {V g α C : ℝ} (hM : J.Rates a b V g α C) : 0 ≤ C := by
  refine le_trans (pow_nonneg (Finset.prod_nonneg fun i _ => ?_) n) hM.crowd
  have := hlo i
  exact div_nonneg (by linarith) (by positivity)

/-- The error for a run whose ladder is not tuned after `k0 ≤ k` stacks, if the ladders passed through were near each other. -/
theorem ladder_mixing_error (hn : 2 ≤ n) (hk : ∀ i, (J.ks i).Fits (J.lo i, J.hi i)) (hlo : ∀ i, J.lo i < J.hi i) (hr : 0 ≤ J.cfg.rand)
    (hb : J.cfg.rand < J.cfg.base) (hst : 1 ≤ J.cfg.nStack) {k0 k : Nat} (hk0 : k0 ≤ k) (hstop : 0 < J.cfg.tuneLadder → J.cfg.nStopTuneLadder ≤ (k0 + 1) * J.cfg.nStack)
    (B j : Nat) (hkB : k * J.cfg.nStack.toNat + j ≤ B) (hB : B < J.cfg.nIter.toNat) (r : Fin n)
    (f : (Fin d → ℝ) → ℝ) (hf : Measurable f) (h0 : ∀ x, 0 ≤ f x) (h1 : ∀ x, f x ≤ 1) {a b : Fin d → ℝ} (hR : J.Ranges a b) {V g α C : ℝ} (hM : J.Rates a b V g α C)
    (ε : ℝ) (hε : 0 < ε) :
    (unifStreams n).real {ω | J.Near V (J.history k0 ω) ∧ ε ≤ |J.estimate k B r f ω - J.mean (J.ladder (J.history k ω) r) f|} ≤
      1 / (g * (J.cfg.nIter.toNat - B : Nat) * ε ^ 2) +
        mixError (n * d * (2 / 10 ^ 16)) g α C (J.cfg.nIter.toNat - k * J.cfg.nStack.toNat) (B - k * J.cfg.nStack.toNat) j := by
  have main := J.tuned_mixing_error hn hk hr hb hst k B j hkB hB r f hf h0 h1 {h | Flat J.T J.lo J.hi V (J.ladder h)} (fun _ _ => V) g α C (n * d * (2 / 10 ^ 16)) hM.g_pos hM.α_pos hM.α_one
    (hM.C_nn hlo) (by positivity) (fun h hh => J.mixes hn hlo hR hM h fun r x hx y hy => hh r y x (fun i => hy i trivial) (fun i => hx i trivial)) ε hε
  refine le_trans (measureReal_mono ?_) main
  intro ω hω
  refine ⟨?_, hω.2⟩
  show Flat J.T J.lo J.hi V (J.ladder (J.history k ω))
  rw [J.ladder_frozen hst hk0 hstop]
  exact fun r x y hx hy => hω.1 _ (List.suffix_refl _) r x y hx hy

end Job

/-! ## The program -/

section
variable {n d : Nat}

/-- The ranges of the widths of a run of a bundled model. -/
theorem jobOf_ranges [Source ℝ] (m : Model ℝ) (ndim : Int) (ks : Fin d → Draw) (lo hi : Fin d → ℝ) (T : Target d) (cfg : Cfg ℝ)
    (hu : cfg.user = m.user (List.ofFn fun i => (lo i, hi i)) ndim) (hN : cfg.nParm = d)
    (hh : 1 ≤ cfg.halfRatio) (hj : 1 ≤ cfg.jumpin) (a b : Fin d → ℝ) (ha : ∀ i, cfg.sigmaMin[i.val]? = some (a i)) (hb : ∀ i, cfg.sigmaMax[i.val]? = some (b i))
    (ha0 : ∀ i, 0 < a i) (hab : ∀ i, a i * cfg.jumpin ≤ b i) (hinit : ∀ i, a i ≤ (hi i - lo i) * cfg.initGpRatio ∧ (hi i - lo i) * cfg.initGpRatio ≤ b i)
    (root : Fin n) (beta : Fin n → ℝ) : (jobOf T lo hi ks beta cfg root).Ranges a b := by
  have e : cfg.user.initGp cfg.initGpRatio = List.ofFn fun i : Fin d => (hi i - lo i) * cfg.initGpRatio := by
    rw [hu]
    show (List.ofFn fun i => (lo i, hi i)).map _ = _
    rw [List.map_ofFn]
    rfl
  refine ⟨hh, hj, hN, ha, hb, ha0, hab, fun i => ?_, ?_, fun _ => rfl⟩
  · show a i ≤ vec d (cfg.user.initGp cfg.initGpRatio) i ∧ vec d (cfg.user.initGp cfg.initGpRatio) i ≤ b i
    rw [e, vec, List.getElem?_ofFn]
    simp only [i.isLt, dif_pos]
    exact hinit i
  · show (cfg.user.initGp cfg.initGpRatio).length = d
    rw [e, List.length_ofFn]

/-- **C87, tuned widths.** The run of C83: the widths are tuned during the first `k` stacks, the ladder is not. The ranges of the widths end at a tenth of those of the parameters or
before. The average over the rows after iteration `B` of the chain file of rank `r`, after any finished execution, is `estimate` on the streams of the generators, and for independent
uniform streams it misses the mean under the tempered posterior by `ε` or more with at most the stated probability. -/
theorem tuned_widths_mixing [Source ℝ] [UnitDraws] (m : Model ℝ) (ndim : Int) (ks : Fin d → Draw) (lo hi : Fin d → ℝ) (T : Target d) (cfg : Cfg ℝ) (file : DataFile ℝ) (hv : Valid n cfg file)
    (hu : cfg.user = m.user (List.ofFn fun i => (lo i, hi i)) ndim) (hd : m.draws = List.ofFn ks) (hN : cfg.nParm = d) (hlo : ∀ i, lo i < hi i)
    (hfit : ∀ i, (ks i).Fits (lo i, hi i)) (data : List ℝ) (hdata : file.cells = .ok data)
    (hT : ∀ b (x : Fin d → ℝ), Spec.target cfg.user file.nlines data b (List.ofFn x) = T.lp b x) (hl : cfg.tuneLadder ≤ 0)
    (k B j : Nat) (hkB : k * cfg.nStack.toNat + j ≤ B) (hBN : B < cfg.nIter.toNat) (hw : ∀ j, k * cfg.nStack < j → inTuneWindow cfg j = false) (hB : cfg.saveBegin ≤ B + 1)
    (hh : 1 ≤ cfg.halfRatio) (hj : 1 ≤ cfg.jumpin) (a b : Fin d → ℝ) (ha : ∀ i, cfg.sigmaMin[i.val]? = some (a i)) (hb : ∀ i, cfg.sigmaMax[i.val]? = some (b i))
    (ha0 : ∀ i, 0 < a i) (hab : ∀ i, a i * cfg.jumpin ≤ b i)
    (hinit : ∀ i, a i ≤ (hi i - lo i) * cfg.initGpRatio ∧ (hi i - lo i) * cfg.initGpRatio ≤ b i)
    (V γ α C : ℝ) (hM : ∀ beta root, (jobOf (n := n) T lo hi ks beta cfg root).Rates a b V γ α C) (hvar : ∀ t ∈ cfg.betas, Varies lo hi (T.lp t) V) (clock : Nat) (root r : Fin n)
    (g : List ℝ → ℝ) (hg : Measurable fun x : Fin d → ℝ => g (List.ofFn x)) (g0 : ∀ x, 0 ≤ g x) (g1 : ∀ x, g x ≤ 1) :
    ∃ beta : Fin n → ℝ, copyBetas n cfg.betas = .ok beta ∧
      (∀ (w₁ : List (Label n)) (t : Sys n (Msg ℝ) (Line ℝ) (RSt n ℝ)), (initSys cfg file clock root).exec w₁ = some t → t.AllDone →
        rowAverage B g (fileRows r.val (t.log r)) = (jobOf T lo hi ks beta cfg root).estimate k B r (fun x => g (List.ofFn x)) fun q =>
          streamOf (srand48 ℝ (seedOf root (startSeed cfg clock) q))) ∧
      ∀ ε : ℝ, 0 < ε → (unifStreams n).real {ω | ε ≤ |(jobOf T lo hi ks beta cfg root).estimate k B r (fun x => g (List.ofFn x)) ω -
          (∫ x : Fin d → ℝ, g (List.ofFn x) ∂(posterior (volume.restrict (openBox lo hi)) (T.lp (beta r)))) /
            (posterior (volume.restrict (openBox lo hi)) (T.lp (beta r))).real univ|} ≤
        1 / (γ * (cfg.nIter.toNat - B : Nat) * ε ^ 2) +
          mixError (n * d * (2 / 10 ^ 16)) γ α C (cfg.nIter.toNat - k * cfg.nStack.toNat) (B - k * cfg.nStack.toNat) j := by
  have hstack : (cfg.nStack.toNat : Int) = cfg.nStack := Int.toNat_of_nonneg (by have := hv.stack; omega)
  have hkB' : k * cfg.nStack ≤ B := by
    rw [← hstack]
    exact_mod_cast (by omega : k * cfg.nStack.toNat ≤ B)
  have hsmall : ∀ i, b i ≤ (hi i - lo i) / 5 := fun i => by
    have := (hM (fun _ => 0) root).small i
    have := hlo i
    have e : b i ≤ (hi i - lo i) / 10 := (hM (fun _ => 0) root).small i
    linarith
  obtain ⟨beta, hbeta, hex, -⟩ := tuned_widths_average m ndim ks lo hi T cfg file hv hu hd hN hlo hfit data hdata hT hl k B hkB' hBN hw hB hh hj a b ha hb ha0 hab hsmall hinit (fun _ => V)
    hvar clock root r g hg g0 g1
  have hR := jobOf_ranges m ndim ks lo hi T cfg hu hN hh hj a b ha hb ha0 hab hinit root beta
  refine ⟨beta, hbeta, hex, fun ε hε => ?_⟩
  obtain ⟨J, hJ⟩ : ∃ J, J = jobOf T lo hi ks beta cfg root := ⟨_, rfl⟩
  have hcfg : J.cfg = cfg := by rw [hJ]; rfl
  have hM := hM beta root
  have main := (jobOf T lo hi ks beta cfg root).tuned_mixing_error hv.ranks hfit hv.rand hv.base hv.stack k B j hkB hBN r (fun x => g (List.ofFn x)) hg (fun _ => g0 _) (fun _ => g1 _)
    {h | (jobOf T lo hi ks beta cfg root).ladder h = beta} (fun _ _ => V) γ α C (n * d * (2 / 10 ^ 16)) hM.g_pos hM.α_pos hM.α_one (hM.C_nn hlo) (by positivity)
    (fun h hh => (jobOf T lo hi ks beta cfg root).mixes hv.ranks hlo hR hM h fun r => by
      have e : (jobOf T lo hi ks beta cfg root).ladder h = beta := hh
      rw [e]
      exact hvar _ (copyBetas_mem hbeta r)) ε hε
  have hlad : ∀ ω, InUnit ω → (jobOf T lo hi ks beta cfg root).ladder ((jobOf T lo hi ks beta cfg root).history k ω) = beta := fun ω hω =>
    (((jobOf T lo hi ks beta cfg root).tuned_sound hfit k hω).hist hl).beta
  refine le_trans (le_of_eq ?_) main
  refine measureReal_congr ?_
  filter_upwards [inUnit_ae n] with ω hω
  refine propext ⟨fun h => ⟨hlad ω hω, ?_⟩, fun h => ?_⟩
  · rw [hlad ω hω]; exact h
  · have := h.2
    rw [hlad ω hω] at this
    exact this

/-- **C87, tuned widths and ladder.** The run of C84: the ladder is tuned for the last time before the end of stack `k0 + 1`, the widths not after `k` stacks. In every finished execution
in which the stored values are in step after `k` stacks, the average over the rows after iteration `B` is `estimate` on the streams of the generators. For independent uniform streams, and
up to outcomes where the ladders passed through are not near each other by `V`, the stored values are out of step, and `estimate` misses the mean under the tempered posterior with the beta
in use by `ε` or more, with at most the stated probabilities. -/
theorem tuned_ladder_mixing [Source ℝ] [UnitDraws] (m : Model ℝ) (ndim : Int) (ks : Fin d → Draw) (lo hi : Fin d → ℝ) (T : Target d) (cfg : Cfg ℝ) (file : DataFile ℝ) (hv : Valid n cfg file)
    (hu : cfg.user = m.user (List.ofFn fun i => (lo i, hi i)) ndim) (hd : m.draws = List.ofFn ks) (hN : cfg.nParm = d) (hlo : ∀ i, lo i < hi i)
    (hfit : ∀ i, (ks i).Fits (lo i, hi i)) (data : List ℝ) (hdata : file.cells = .ok data)
    (hT : ∀ b (x : Fin d → ℝ), Spec.target cfg.user file.nlines data b (List.ofFn x) = T.lp b x) (k0 k B j : Nat) (hk0 : k0 ≤ k)
    (hstop : cfg.nStopTuneLadder ≤ (k0 + 1) * cfg.nStack) (hl : cfg.nStopTuneLadder ≤ k * cfg.nStack)
    (hkB : k * cfg.nStack.toNat + j ≤ B) (hBN : B < cfg.nIter.toNat) (hw : ∀ j, k * cfg.nStack < j → inTuneWindow cfg j = false) (hB : cfg.saveBegin ≤ B + 1)
    (hh : 1 ≤ cfg.halfRatio) (hj : 1 ≤ cfg.jumpin) (a b : Fin d → ℝ) (ha : ∀ i, cfg.sigmaMin[i.val]? = some (a i)) (hb : ∀ i, cfg.sigmaMax[i.val]? = some (b i))
    (ha0 : ∀ i, 0 < a i) (hab : ∀ i, a i * cfg.jumpin ≤ b i)
    (hinit : ∀ i, a i ≤ (hi i - lo i) * cfg.initGpRatio ∧ (hi i - lo i) * cfg.initGpRatio ≤ b i)
    (V γ α C : ℝ) (hV : 0 ≤ V) (hM : ∀ beta root, (jobOf (n := n) T lo hi ks beta cfg root).Rates a b V γ α C) (clock : Nat) (root r : Fin n) (g : List ℝ → ℝ)
    (hg : Measurable fun x : Fin d → ℝ => g (List.ofFn x)) (g0 : ∀ x, 0 ≤ g x) (g1 : ∀ x, g x ≤ 1) :
    ∃ beta : Fin n → ℝ, copyBetas n cfg.betas = .ok beta ∧
      (∀ (w₁ : List (Label n)) (t : Sys n (Msg ℝ) (Line ℝ) (RSt n ℝ)), (initSys cfg file clock root).exec w₁ = some t → t.AllDone →
        (jobOf T lo hi ks beta cfg root).InStep k (fun q => streamOf (srand48 ℝ (seedOf root (startSeed cfg clock) q))) →
        rowAverage B g (fileRows r.val (t.log r)) = (jobOf T lo hi ks beta cfg root).estimate k B r (fun x => g (List.ofFn x)) fun q =>
          streamOf (srand48 ℝ (seedOf root (startSeed cfg clock) q))) ∧
      (unifStreams n).real {ω | (jobOf T lo hi ks beta cfg root).Near V ((jobOf T lo hi ks beta cfg root).history k0 ω) ∧ ¬ (jobOf T lo hi ks beta cfg root).InStep k ω} ≤
        n * (1 - Real.exp (-V)) ^ ((k - k0) * cfg.nStack.toNat) ∧
      ∀ ε : ℝ, 0 < ε → (unifStreams n).real {ω | (jobOf T lo hi ks beta cfg root).Near V ((jobOf T lo hi ks beta cfg root).history k0 ω) ∧
          ε ≤ |(jobOf T lo hi ks beta cfg root).estimate k B r (fun x => g (List.ofFn x)) ω -
            (jobOf T lo hi ks beta cfg root).mean ((jobOf T lo hi ks beta cfg root).ladder ((jobOf T lo hi ks beta cfg root).history k ω) r) fun x => g (List.ofFn x)|} ≤
        1 / (γ * (cfg.nIter.toNat - B : Nat) * ε ^ 2) +
          mixError (n * d * (2 / 10 ^ 16)) γ α C (cfg.nIter.toNat - k * cfg.nStack.toNat) (B - k * cfg.nStack.toNat) j := by
  have hstack : (cfg.nStack.toNat : Int) = cfg.nStack := Int.toNat_of_nonneg (by have := hv.stack; omega)
  have hkB' : k * cfg.nStack ≤ B := by
    rw [← hstack]
    exact_mod_cast (by omega : k * cfg.nStack.toNat ≤ B)
  have hsmall : ∀ i, b i ≤ (hi i - lo i) / 5 := fun i => by
    have := hlo i
    have e : b i ≤ (hi i - lo i) / 10 := (hM (fun _ => 0) root).small i
    linarith
  obtain ⟨beta, hbeta, hex, hrare, -, -⟩ := tuned_ladder_average m ndim ks lo hi T cfg file hv hu hd hN hlo hfit data hdata hT k0 k B hk0 hstop hl hkB' hBN hw hB hh hj a b ha hb ha0 hab hsmall
    hinit V hV clock root r g hg g0 g1
  have hR := jobOf_ranges m ndim ks lo hi T cfg hu hN hh hj a b ha hb ha0 hab hinit root beta
  exact ⟨beta, hbeta, hex, hrare, fun ε hε => (jobOf T lo hi ks beta cfg root).ladder_mixing_error hv.ranks hfit hlo hv.rand hv.base hv.stack hk0 (fun _ => hstop) B j hkB hBN r
    (fun x => g (List.ofFn x)) hg (fun _ => g0 _) (fun _ => g1 _) hR (hM beta root) ε hε⟩

end

/-- **C87, three ranks.** The run of `tuned_ladder_three` in C84: the ladders it passes through are near each other whatever happens, and the coldest and the hottest beta stay as given. -/
theorem tuned_ladder_three_mixing {d : Nat} [Source ℝ] [UnitDraws] (m : Model ℝ) (ndim : Int) (ks : Fin d → Draw) (lo hi : Fin d → ℝ) (T : Target d) (cfg : Cfg ℝ) (file : DataFile ℝ) (hv : Valid 3 cfg file)
    (hu : cfg.user = m.user (List.ofFn fun i => (lo i, hi i)) ndim) (hd : m.draws = List.ofFn ks) (hN : cfg.nParm = d) (hlo : ∀ i, lo i < hi i)
    (hfit : ∀ i, (ks i).Fits (lo i, hi i)) (data : List ℝ) (hdata : file.cells = .ok data)
    (hT : ∀ b (x : Fin d → ℝ), Spec.target cfg.user file.nlines data b (List.ofFn x) = T.lp b x) (k0 k B j : Nat) (hk0 : k0 ≤ k)
    (hstop : cfg.nStopTuneLadder ≤ (k0 + 1) * cfg.nStack) (hl : cfg.nStopTuneLadder ≤ k * cfg.nStack)
    (hkB : k * cfg.nStack.toNat + j ≤ B) (hBN : B < cfg.nIter.toNat) (hw : ∀ j, k * cfg.nStack < j → inTuneWindow cfg j = false) (hB : cfg.saveBegin ≤ B + 1)
    (hh : 1 ≤ cfg.halfRatio) (hj : 1 ≤ cfg.jumpin) (a b : Fin d → ℝ) (ha : ∀ i, cfg.sigmaMin[i.val]? = some (a i)) (hb : ∀ i, cfg.sigmaMax[i.val]? = some (b i))
    (ha0 : ∀ i, 0 < a i) (hab : ∀ i, a i * cfg.jumpin ≤ b i)
    (hinit : ∀ i, a i ≤ (hi i - lo i) * cfg.initGpRatio ∧ (hi i - lo i) * cfg.initGpRatio ≤ b i)
    (hs0 : 0 ≤ cfg.scaleLadder) (hz0 : 0 ≤ cfg.zeroStretch) (hz1 : cfg.zeroStretch ≤ 1)
    (b0 b1 b2 : ℝ) (rest : List ℝ) (hbetas : cfg.betas = b0 :: b1 :: b2 :: rest) (hb0 : 0 < b0) (hb1 : b0 ≤ b1) (hb2 : b1 ≤ b2) (hgap : b0 * (1 + 2 / 100) ≤ b2)
    (V γ α C : ℝ) (hM : ∀ beta root, (jobOf (n := 3) T lo hi ks beta cfg root).Rates a b V γ α C)
    (hV : ∀ s ∈ Icc b0 b2, ∀ t ∈ Icc b0 b2, ∀ x y, InBox lo hi x → InBox lo hi y → T.lp s x - T.lp t y ≤ V) (clock : Nat) (root r : Fin 3) (hr : r ≠ 1) (g : List ℝ → ℝ)
    (hg : Measurable fun x : Fin d → ℝ => g (List.ofFn x)) (g0 : ∀ x, 0 ≤ g x) (g1 : ∀ x, g x ≤ 1) :
    ∃ beta : Fin 3 → ℝ, copyBetas 3 cfg.betas = .ok beta ∧
      (∀ (w₁ : List (Label 3)) (t : Sys 3 (Msg ℝ) (Line ℝ) (RSt 3 ℝ)), (initSys cfg file clock root).exec w₁ = some t → t.AllDone →
        (jobOf T lo hi ks beta cfg root).InStep k (fun q => streamOf (srand48 ℝ (seedOf root (startSeed cfg clock) q))) →
        rowAverage B g (fileRows r.val (t.log r)) = (jobOf T lo hi ks beta cfg root).estimate k B r (fun x => g (List.ofFn x)) fun q =>
          streamOf (srand48 ℝ (seedOf root (startSeed cfg clock) q))) ∧
      (unifStreams 3).real {ω | ¬ (jobOf T lo hi ks beta cfg root).InStep k ω} ≤ 3 * (1 - Real.exp (-V)) ^ ((k - k0) * cfg.nStack.toNat) ∧
      ∀ ε : ℝ, 0 < ε → (unifStreams 3).real {ω | ε ≤ |(jobOf T lo hi ks beta cfg root).estimate k B r (fun x => g (List.ofFn x)) ω -
            (∫ x : Fin d → ℝ, g (List.ofFn x) ∂(posterior (volume.restrict (openBox lo hi)) (T.lp (beta r)))) /
              (posterior (volume.restrict (openBox lo hi)) (T.lp (beta r))).real univ|} ≤
        1 / (γ * (cfg.nIter.toNat - B : Nat) * ε ^ 2) +
          mixError ((3 : Nat) * d * (2 / 10 ^ 16)) γ α C (cfg.nIter.toNat - k * cfg.nStack.toNat) (B - k * cfg.nStack.toNat) j := by
  have hmid : InBox lo hi lo := fun i => ⟨le_rfl, (hlo i).le⟩
  have hV0 : 0 ≤ V := by
    have := hV b0 ⟨le_rfl, hb1.trans hb2⟩ b0 ⟨le_rfl, hb1.trans hb2⟩ lo lo hmid hmid
    linarith
  obtain ⟨beta, hbeta, h1, h2, h4⟩ := tuned_ladder_mixing m ndim ks lo hi T cfg file hv hu hd hN hlo hfit data hdata hT k0 k B j hk0 hstop hl hkB hBN hw hB hh hj a b ha hb ha0 hab hinit
    V γ α C hV0 hM clock root r g hg g0 g1
  obtain ⟨hnear, hend⟩ := three_ranks T lo hi ks cfg hs0 hz0 hz1 b0 b1 b2 rest hbetas hb0 hb1 hb2 hgap V hV root r hr beta hbeta
  refine ⟨beta, hbeta, h1, ?_, fun ε hε => ?_⟩
  · simp only [hnear, true_and] at h2
    exact_mod_cast h2
  · have := h4 ε hε
    simp only [hnear, true_and, hend] at this
    exact this

/-! ## The egg box model with tuned widths and a tuned ladder -/

/-- A long run of the egg box model that tunes its widths, between 1/20 and 1/10 of the ranges, at the ends of its stacks 4 to 8 and its ladder at the ends of its first two stacks. -/
noncomputable def eggboxTunedLong : Cfg ℝ :=
  { eggboxLadder with
    nIter := 108000000
    jumpin := 2
    sigmaMin := [5 / 2, 5 / 2]
    sigmaMax := [5, 5] }

theorem eggboxTunedLong_valid : Valid 3 eggboxTunedLong eggboxFile where
  ranks := by norm_num
  ranksInt := by norm_num
  betas := by simp [eggboxTunedLong, eggboxLadder, eggboxTuned, eggboxRun]
  parm := by simp [eggboxTunedLong, eggboxLadder, eggboxTuned, eggboxRun]
  user := eggbox_valid.user
  stack := by simp [eggboxTunedLong, eggboxLadder, eggboxTuned, eggboxRun]
  rand := by simp [eggboxTunedLong, eggboxLadder, eggboxTuned, eggboxRun]
  base := by simp [eggboxTunedLong, eggboxLadder, eggboxTuned, eggboxRun]
  randInt := by simp [eggboxTunedLong, eggboxLadder, eggboxTuned, eggboxRun]
  stackInt := by simp [eggboxTunedLong, eggboxLadder, eggboxTuned, eggboxRun]
  iterInt := .of_sum (by simp [eggboxTunedLong, eggboxLadder, eggboxTuned, eggboxRun])
  mode := by simp [eggboxTunedLong, eggboxLadder, eggboxTuned, eggboxRun]
  inTune := by simp [eggboxTunedLong, eggboxLadder, eggboxTuned, eggboxRun]
  sigmaMin := by simp [eggboxTunedLong, eggboxLadder, eggboxTuned, eggboxRun]
  sigmaMax := by simp [eggboxTunedLong, eggboxLadder, eggboxTuned, eggboxRun]
  cells := ⟨[0], rfl, by simp [eggboxFile], by simp⟩

theorem exp_29 : (1 : ℝ) / 21 ≤ Real.exp (-(29 / 10)) := by
  rw [Real.exp_neg, one_div, inv_le_inv₀ (by norm_num) (Real.exp_pos _)]
  have h1 : Real.exp (29 / 10 : ℝ) ≤ Real.exp 1 ^ 3 := by
    rw [← Real.exp_nat_mul]
    exact Real.exp_le_exp.2 (by norm_num)
  have h2 : Real.exp 1 ^ 3 ≤ (2.7182818286 : ℝ) ^ 3 := pow_le_pow_left₀ (Real.exp_pos _).le Real.exp_one_lt_d9.le 3
  refine (h1.trans h2).trans ?_
  norm_num

theorem eggbox_rates (cfg : Cfg ℝ) (beta : Fin 3 → ℝ) (root : Fin 3) :
    (jobOf (n := 3) eggboxTarget (fun _ : Fin 2 => 0) (fun _ => 50) (fun _ => .unif) beta cfg root).Rates (fun _ => 5 / 2) (fun _ => 5) (29 / 10) (1 / 70000) (1 / 10000) (2 * 10 ^ 8) := by
  have h29 := exp_29
  obtain ⟨-, b2, -⟩ := exp_bounds
  refine ⟨fun i => ?_, by norm_num, by norm_num, fun i => ?_, by norm_num, by norm_num, ?_, ?_⟩
  · show (5 : ℝ) ≤ (50 - 0) / 10
    norm_num
  · show _ ≤ Real.exp (-(29 / 10)) * gapFloor 0 50 (5 / 2)
    have hpi := Real.pi_lt_d2
    have hpp := Real.pi_pos
    have g1 : (2 / 7) / (4 * 3.15) ≤ Real.exp (-5 / 4) / (4 * Real.pi) := by
      refine div_le_div₀ (Real.exp_pos _).le b2 (by positivity) (by linarith)
    have g2 : 1 / 21 * ((2 / 7) / (4 * 3.15)) ≤ Real.exp (-(29 / 10)) * (Real.exp (-5 / 4) / (4 * Real.pi)) :=
      mul_le_mul h29 g1 (by norm_num) (Real.exp_pos _).le
    have e : Real.exp (-(29 / 10)) * gapFloor 0 50 (5 / 2) = Real.exp (-(29 / 10)) * (Real.exp (-5 / 4) / (4 * Real.pi)) * (20 / 1331) := by
      rw [gapFloor]
      norm_num
      ring
    rw [e]
    refine le_trans ?_ (mul_le_mul_of_nonneg_right g2 (by norm_num))
    norm_num
  · have h1 : (1 / 21 * (999 / 1000) : ℝ) ≤ Real.exp (-(29 / 10)) * (1 - 2 / 10 ^ 20) ^ 2 := mul_le_mul h29 (by norm_num) (by norm_num) (Real.exp_pos _).le
    exact le_trans (by norm_num) (pow_le_pow_left₀ (by norm_num) h1 3)
  · have hq : (5 / 2 : ℝ) ≤ Real.sqrt (2 * Real.pi) := Real.le_sqrt_of_sq_le (by linarith [Real.pi_gt_d2])
    have hc : crowd1 0 50 (5 / 2 : ℝ).toNNReal ≤ 24 := by
      rw [crowd1, Real.coe_toNNReal _ (by norm_num), div_le_iff₀ (by positivity)]
      linarith
    have hc0 : 0 ≤ crowd1 0 50 (5 / 2 : ℝ).toNNReal := by
      rw [crowd1]; positivity
    show (∏ _i : Fin 2, crowd1 0 50 (5 / 2 : ℝ).toNNReal) ^ 3 ≤ _
    rw [Finset.prod_const, Finset.card_univ, Fintype.card_fin, ← pow_mul]
    exact (pow_le_pow_left₀ hc0 hc 6).trans (by norm_num)

theorem tunedLong_error (N M j : Nat) (hN : N = 107991000) (hM : M = 7991000) (hj : j = 100000) :
    mixError ((3 : Nat) * (2 : Nat) * (2 / 10 ^ 16)) (1 / 70000) (1 / 10000) (2 * 10 ^ 8) N M j < 99 / 10000 := by
  obtain ⟨-, -, -, b4, b5⟩ := exp_bounds
  have h2 : (1 - 1 / 10000 : ℝ) ^ j ≤ 5 / 10 ^ 5 := by
    refine (pow_sub_le (by norm_num) j).trans (le_trans (Real.exp_le_exp.2 ?_) b4)
    have : (j : ℝ) = 100000 := by rw [hj]; norm_num
    rw [this]
    norm_num
  have h3 : Real.sqrt (1 - 1 / 70000) ^ (M - j) ≤ 1 / 10 ^ 20 := by
    have hs : Real.sqrt (1 - 1 / 70000) ≤ 1 - 1 / 140000 := by
      rw [Real.sqrt_le_iff]
      constructor <;> norm_num
    refine (pow_le_pow_left₀ (Real.sqrt_nonneg _) hs _).trans ((pow_sub_le (by norm_num) _).trans (le_trans (Real.exp_le_exp.2 ?_) b5))
    have : ((7000000 : Nat) : ℝ) ≤ (M - j : Nat) := by exact_mod_cast (by omega : 7000000 ≤ M - j)
    push_cast at this ⊢
    linarith
  have h1 : (N : ℝ) = 107991000 := by rw [hN]; norm_num
  rw [mixError, h1]
  generalize (1 - 1 / 10000 : ℝ) ^ j = y at h2
  generalize Real.sqrt (1 - 1 / 70000) ^ (M - j) = z at h3
  push_cast
  linarith

/-- **C87 for that run**: the fraction of rows of the coldest chain with both parameters below 25, after the first eight million of 108 million iterations. A stored value is out of
step after the tuning with a probability of at most 10⁻¹⁰⁰, and the fraction is off by a tenth or more with a probability below eight percent. -/
theorem eggbox_tuned_long (clock : Nat) : ∃ beta : Fin 3 → ℝ, copyBetas 3 eggboxTunedLong.betas = .ok beta ∧
    (∀ (w₁ : List (Label 3)) (t : Sys 3 (Msg ℝ) (Line ℝ) (RSt 3 ℝ)), (initSys eggboxTunedLong eggboxFile clock 0).exec w₁ = some t → t.AllDone →
      (jobOf eggboxTarget (fun _ => 0) (fun _ => 50) (fun _ => .unif) beta eggboxTunedLong 0).InStep 9 (fun q => streamOf (srand48 ℝ (seedOf 0 (startSeed eggboxTunedLong clock) q))) →
      rowAverage 8000000 (fun x => if ∀ y ∈ x, y < 25 then 1 else 0) (fileRows 2 (t.log 2)) =
        (jobOf eggboxTarget (fun _ => 0) (fun _ => 50) (fun _ => .unif) beta eggboxTunedLong 0).estimate 9 8000000 2 (fun x => if ∀ y ∈ List.ofFn x, y < 25 then 1 else 0) fun q =>
          streamOf (srand48 ℝ (seedOf 0 (startSeed eggboxTunedLong clock) q))) ∧
    (unifStreams 3).real {ω | ¬ (jobOf eggboxTarget (fun _ => 0) (fun _ => 50) (fun _ => .unif) beta eggboxTunedLong 0).InStep 9 ω} ≤ 1 / 10 ^ 100 ∧
    (unifStreams 3).real {ω | 1 / 10 ≤
        |(jobOf eggboxTarget (fun _ => 0) (fun _ => 50) (fun _ => .unif) beta eggboxTunedLong 0).estimate 9 8000000 2 (fun x => if ∀ y ∈ List.ofFn x, y < 25 then 1 else 0) ω -
        (∫ x : Fin 2 → ℝ, (if ∀ y ∈ List.ofFn x, y < 25 then 1 else 0) ∂(posterior (volume.restrict (openBox (fun _ => 0) fun _ => 50)) (eggboxTarget.lp (beta 2)))) /
          (posterior (volume.restrict (openBox (fun _ => 0) fun _ => 50)) (eggboxTarget.lp (beta 2))).real univ|} < 8 / 100 := by
  obtain ⟨beta, h1, h2, h3, h4⟩ := tuned_ladder_three_mixing eggbox 1 (fun _ : Fin 2 => .unif) (fun _ => 0) (fun _ => 50) eggboxTarget eggboxTunedLong eggboxFile eggboxTunedLong_valid
    (by show eggbox.user _ 1 = _; simp [List.ofFn_succ]) (by simp [eggbox, model2, List.ofFn_succ]) rfl (fun _ => by norm_num) (fun _ => by show (0 : ℝ) ≤ 50; norm_num) [0] rfl
    (fun b x => eggbox_target _ _ _ _ b x) 2 9 8000000 100000 (by norm_num) (by simp [eggboxTunedLong, eggboxLadder, eggboxTuned, eggboxRun])
    (by simp [eggboxTunedLong, eggboxLadder, eggboxTuned, eggboxRun])
    (by simp [eggboxTunedLong, eggboxLadder, eggboxTuned, eggboxRun]) (by simp [eggboxTunedLong])
    (fun j hj => by
      have hj : 9 * 1000 < j := hj
      show (decide ((3000 : Int) < j) && decide ((j : Int) < 9000) && decide ((j : Int) < 108000000)) = false
      rw [Bool.eq_false_iff]; simp only [ne_eq, Bool.and_eq_true, decide_eq_true_eq]; omega)
    (by simp [eggboxTunedLong, eggboxLadder, eggboxTuned, eggboxRun, demoCfg]) (by simp [eggboxTunedLong, eggboxLadder, eggboxTuned]) (by simp [eggboxTunedLong])
    (fun _ => 5 / 2) (fun _ => 5)
    (fun i => by fin_cases i <;> rfl) (fun i => by fin_cases i <;> rfl) (fun _ => by norm_num) (fun _ => by simp only [eggboxTunedLong]; norm_num)
    (fun _ => by simp only [eggboxTunedLong, eggboxLadder, eggboxTuned, eggboxRun]; norm_num)
    (by simp only [eggboxTunedLong, eggboxLadder]; norm_num) (by simp only [eggboxTunedLong, eggboxLadder]; norm_num) (by simp only [eggboxTunedLong, eggboxLadder]; norm_num)
    (1 / 10) (1 / 2) 1 [] (by simp [eggboxTunedLong, eggboxLadder, eggboxTuned, eggboxRun]) (by norm_num) (by norm_num) (by norm_num) (by norm_num)
    (29 / 10) (1 / 70000) (1 / 10000) (2 * 10 ^ 8) (eggbox_rates _) (fun s hs t ht x y _ _ => by
      obtain ⟨x1, x2⟩ := eggbox_values x
      obtain ⟨y1, y2⟩ := eggbox_values y
      have e : ∀ b z, eggboxTarget.lp b z = b * eggboxTarget.L z + 1 := fun _ _ => rfl
      rw [e, e]
      nlinarith [hs.1, hs.2, ht.1, ht.2])
    clock 0 2 (by decide) (fun x => if ∀ y ∈ x, y < 25 then 1 else 0)
    (by
      refine Measurable.ite ?_ measurable_const measurable_const
      have : {x : Fin 2 → ℝ | ∀ y ∈ List.ofFn x, y < 25} = ⋂ i, {x | x i < 25} := by
        ext x
        simp [List.mem_ofFn]
      rw [this]
      exact MeasurableSet.iInter fun i => measurableSet_lt (measurable_pi_apply i) measurable_const)
    (fun x => by split <;> norm_num) (fun x => by split <;> norm_num)
  refine ⟨beta, h1, h2, h3.trans ?_, (h4 (1 / 10) (by norm_num)).trans_lt ?_⟩
  · have he := exp_29
    have h21 : 1 - Real.exp (-(29 / 10 : ℝ)) ≤ 20 / 21 := by linarith
    have hp0 : 0 ≤ 1 - Real.exp (-(29 / 10 : ℝ)) := by linarith [Real.exp_le_one_iff.2 (show -(29 / 10 : ℝ) ≤ 0 by norm_num)]
    have h200 : (1 - Real.exp (-(29 / 10 : ℝ))) ^ 200 ≤ 1 / 10 ^ 4 := (pow_le_pow_left₀ hp0 h21 200).trans (by norm_num)
    show 3 * (1 - Real.exp (-(29 / 10 : ℝ))) ^ (200 * 35) ≤ _
    rw [pow_mul]
    calc 3 * ((1 - Real.exp (-(29 / 10 : ℝ))) ^ 200) ^ 35 ≤ 3 * (1 / 10 ^ 4) ^ 35 := by gcongr
      _ ≤ 1 / 10 ^ 100 := by norm_num
  · obtain ⟨N, hN⟩ : ∃ N, N = 107991000 := ⟨_, rfl⟩
    obtain ⟨M, hM⟩ : ∃ M, M = 7991000 := ⟨_, rfl⟩
    obtain ⟨j, hj⟩ : ∃ j, j = 100000 := ⟨_, rfl⟩
    have e1 : eggboxTunedLong.nIter.toNat - 8000000 = 100000000 := rfl
    have e2 : eggboxTunedLong.nIter.toNat - 9 * eggboxTunedLong.nStack.toNat = N := hN ▸ rfl
    have e3 : 8000000 - 9 * eggboxTunedLong.nStack.toNat = M := hM ▸ rfl
    rw [e1, e2, e3, ← hj]
    have key := tunedLong_error N M j hN hM hj
    have : (1 : ℝ) / (1 / 70000 * (100000000 : Nat) * (1 / 10) ^ 2) = 7 / 100 := by norm_num
    rw [this]
    linarith

/-- The hypotheses of `tuned_widths_mixing` hold for the same run with its ladder left alone. -/
example (clock : Nat) : ∃ beta : Fin 3 → ℝ, copyBetas 3 eggboxTunedLong.betas = .ok beta ∧
    (unifStreams 3).real {ω | 1 / 10 ≤
        |(jobOf eggboxTarget (fun _ => 0) (fun _ => 50) (fun _ => .unif) beta { eggboxTunedLong with tuneLadder := 0 } 0).estimate 9 8000000 2
            (fun x => if ∀ y ∈ List.ofFn x, y < 25 then 1 else 0) ω -
        (∫ x : Fin 2 → ℝ, (if ∀ y ∈ List.ofFn x, y < 25 then 1 else 0) ∂(posterior (volume.restrict (openBox (fun _ => 0) fun _ => 50)) (eggboxTarget.lp (beta 2)))) /
          (posterior (volume.restrict (openBox (fun _ => 0) fun _ => 50)) (eggboxTarget.lp (beta 2))).real univ|} < 8 / 100 := by
  have hv : Valid 3 { eggboxTunedLong with tuneLadder := 0 } eggboxFile := { eggboxTunedLong_valid with user := eggboxTunedLong_valid.user }
  obtain ⟨beta, h1, -, h4⟩ := tuned_widths_mixing eggbox 1 (fun _ : Fin 2 => .unif) (fun _ => 0) (fun _ => 50) eggboxTarget { eggboxTunedLong with tuneLadder := 0 } eggboxFile hv
    (by show eggbox.user _ 1 = _; simp [List.ofFn_succ]) (by simp [eggbox, model2, List.ofFn_succ]) rfl (fun _ => by norm_num) (fun _ => by show (0 : ℝ) ≤ 50; norm_num) [0] rfl
    (fun b x => eggbox_target _ _ _ _ b x) le_rfl 9 8000000 100000
    (by simp [eggboxTunedLong, eggboxLadder, eggboxTuned, eggboxRun]) (by simp [eggboxTunedLong])
    (fun j hj => by
      have hj : 9 * 1000 < j := hj
      show (decide ((3000 : Int) < j) && decide ((j : Int) < 9000) && decide ((j : Int) < 108000000)) = false
      rw [Bool.eq_false_iff]; simp only [ne_eq, Bool.and_eq_true, decide_eq_true_eq]; omega)
    (by simp [eggboxTunedLong, eggboxLadder, eggboxTuned, eggboxRun, demoCfg]) (by simp [eggboxTunedLong, eggboxLadder, eggboxTuned]) (by simp [eggboxTunedLong])
    (fun _ => 5 / 2) (fun _ => 5)
    (fun i => by fin_cases i <;> rfl) (fun i => by fin_cases i <;> rfl) (fun _ => by norm_num) (fun _ => by simp only [eggboxTunedLong]; norm_num)
    (fun _ => by simp only [eggboxTunedLong, eggboxLadder, eggboxTuned, eggboxRun]; norm_num)
    (29 / 10) (1 / 70000) (1 / 10000) (2 * 10 ^ 8) (eggbox_rates _)
    (fun t ht => by
      have ht : t ∈ [(1 / 10 : ℝ), 1 / 2, 1] := by simpa [eggboxTunedLong, eggboxLadder, eggboxTuned, eggboxRun] using ht
      have h01 : 0 ≤ t ∧ t ≤ 1 := by
        simp only [List.mem_cons, List.not_mem_nil, or_false] at ht
        rcases ht with rfl | rfl | rfl <;> norm_num
      intro x _ y _
      obtain ⟨x1, x2⟩ := eggbox_values x
      obtain ⟨y1, y2⟩ := eggbox_values y
      have e : ∀ b z, eggboxTarget.lp b z = b * eggboxTarget.L z + 1 := fun _ _ => rfl
      rw [e, e]
      nlinarith [h01.1, h01.2])
    clock 0 2 (fun x => if ∀ y ∈ x, y < 25 then 1 else 0)
    (by
      refine Measurable.ite ?_ measurable_const measurable_const
      have : {x : Fin 2 → ℝ | ∀ y ∈ List.ofFn x, y < 25} = ⋂ i, {x | x i < 25} := by
        ext x
        simp [List.mem_ofFn]
      rw [this]
      exact MeasurableSet.iInter fun i => measurableSet_lt (measurable_pi_apply i) measurable_const)
    (fun x => by split <;> norm_num) (fun x => by split <;> norm_num)
  refine ⟨beta, h1, (h4 (1 / 10) (by norm_num)).trans_lt ?_⟩
  obtain ⟨N, hN⟩ : ∃ N, N = 107991000 := ⟨_, rfl⟩
  obtain ⟨M, hM⟩ : ∃ M, M = 7991000 := ⟨_, rfl⟩
  obtain ⟨j, hj⟩ : ∃ j, j = 100000 := ⟨_, rfl⟩
  have e1 : eggboxTunedLong.nIter.toNat - 8000000 = 100000000 := rfl
  have e2 : eggboxTunedLong.nIter.toNat - 9 * eggboxTunedLong.nStack.toNat = N := hN ▸ rfl
  have e3 : 8000000 - 9 * eggboxTunedLong.nStack.toNat = M := hM ▸ rfl
  show 1 / (1 / 70000 * ((eggboxTunedLong.nIter.toNat - 8000000 : Nat) : ℝ) * (1 / 10) ^ 2) + mixError ((3 : Nat) * (2 : Nat) * (2 / 10 ^ 16)) (1 / 70000) (1 / 10000) (2 * 10 ^ 8)
    (eggboxTunedLong.nIter.toNat - 9 * eggboxTunedLong.nStack.toNat) (8000000 - 9 * eggboxTunedLong.nStack.toNat) 100000 < _
  rw [e1, e2, e3, ← hj]
  have key := tunedLong_error N M j hN hM hj
  have : (1 : ℝ) / (1 / 70000 * (100000000 : Nat) * (1 / 10) ^ 2) = 7 / 100 := by norm_num
  rw [this]
  linarith

end NiiC
