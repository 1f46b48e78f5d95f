import Verif.Refine.TunedInv
import Verif.Prob.Shrink

/-!
# Stored log-posteriors that belong to an earlier ladder

When the ladder is tuned, the stored log-posteriors still belong to the old betas. A chain gets rid of such a value with the first proposal it accepts, or with its first swap.
With uniform numbers the probability that a chain has still not done so falls geometrically. Helpers for C84.
-/

set_option linter.unusedSectionVars false
set_option linter.unusedSimpArgs false

namespace NiiC

open MeasureTheory ProbabilityTheory Set ENNReal

section
variable {n d : Nat} {T : Target d} {lo hi : Fin d → ℝ}

/-- The point is in the box. -/
def InBox (lo hi x : Fin d → ℝ) : Prop := ∀ i, lo i ≤ x i ∧ x i ≤ hi i

/-- All points are in the box, and `Q` holds for each chain. -/
def TabQ (lo hi : Fin d → ℝ) (Q : Fin n → Pt d → Prop) (t : Fin n → Pt d × Nat) : Prop := ∀ r, InBox lo hi (t r).1.1 ∧ Q r (t r).1

variable {Q : Fin n → Pt d → Prop}

theorem TabQ.round (hlo : ∀ i, lo i ≤ hi i) (s : Fin n → Fin d → ℝ) (b : Fin n → ℝ) (hQ : ∀ r x, InBox lo hi x → Q r (x, T.lp (b r) x))
    (p : ((Fin n → Pt d × Nat) × Tries n) × (Fin n → Draws)) (h : TabQ lo hi Q p.1.1) : TabQ lo hi Q (roundC T lo hi s b p).1.1 := fun r => by
  show InBox lo hi (chainT T lo hi (s r) (b r) (p.1.1 r, p.2 r)).1.1.1 ∧ Q r (chainT T lo hi (s r) (b r) (p.1.1 r, p.2 r)).1.1
  unfold chainT
  dsimp only
  split
  · have hb : InBox lo hi (proposalT lo hi (s r) (p.1.1 r).1.1 (pairsS d (p.2 r)).1) := fun i => (bounce_exact _ _ (hlo i) _).1
    exact ⟨hb, hQ r _ hb⟩
  · exact h r

theorem TabQ.swapped (b : Fin n → ℝ) (hQ : ∀ r x, InBox lo hi x → Q r (x, T.lp (b r) x)) (i j : Fin n) {t : Fin n → Pt d × Nat} (h : TabQ lo hi Q t) :
    TabQ lo hi Q (swapped T b i j t) := fun r => by
  unfold NiiC.swapped
  dsimp only
  split
  · rename_i e; subst e; exact ⟨(h i).1, hQ _ _ (h i).1⟩
  · split
    · rename_i e; subst e; exact ⟨(h j).1, hQ _ _ (h j).1⟩
    · exact h r

theorem TabQ.swap (b : Fin n → ℝ) (hQ : ∀ r x, InBox lo hi x → Q r (x, T.lp (b r) x)) (count : Bool) (mode : Int) {p : ((Fin n → Pt d × Nat) × Tries n) × Draws}
    (h : TabQ lo hi Q p.1.1) : TabQ lo hi Q (swapT T b count mode p).1.1 := by
  have hd : ∀ (i j : Fin n) (did : Bool), TabQ lo hi Q (decided T b count i j did p.1).1 := fun i j did => by
    unfold decided
    dsimp only
    split
    · exact h.swapped b hQ i j
    · exact h
  unfold swapT judgeIT
  split
  · unfold judgeT
    dsimp only
    split
    · exact hd _ _ true
    · exact hd _ _ _
  · exact h

theorem TabQ.rounds (hlo : ∀ i, lo i ≤ hi i) (s : Fin n → Fin d → ℝ) (b : Fin n → ℝ) (hQ : ∀ r x, InBox lo hi x → Q r (x, T.lp (b r) x)) :
    ∀ k (p : ((Fin n → Pt d × Nat) × Tries n) × (Fin n → Draws)), TabQ lo hi Q p.1.1 → TabQ lo hi Q ((roundC T lo hi s b)^[k] p).1.1 := by
  intro k
  induction k with
  | zero => exact fun p h => h
  | succ k ih => intro p h; rw [Function.iterate_succ_apply]; exact ih _ (h.round hlo s b hQ p)

theorem TabQ.swaps (root : Fin n) (b : Fin n → ℝ) (hQ : ∀ r x, InBox lo hi x → Q r (x, T.lp (b r) x)) (count : Bool) (mode : Int) :
    ∀ k (p : ((Fin n → Pt d × Nat) × Tries n) × (Fin n → Draws)), TabQ lo hi Q p.1.1 → TabQ lo hi Q ((onRoot root (swapT T b count mode))^[k] p).1.1 := by
  intro k
  induction k with
  | zero => exact fun p h => h
  | succ k ih => intro p h; rw [Function.iterate_succ_apply]; exact ih _ (TabQ.swap b hQ _ _ (p := (p.1, p.2 root)) h)

theorem TabQ.leg (hlo : ∀ i, lo i ≤ hi i) (cfg : Cfg ℝ) (root : Fin n) (s : Fin n → Fin d → ℝ) (b : Fin n → ℝ) (hQ : ∀ r x, InBox lo hi x → Q r (x, T.lp (b r) x)) (k : Int)
    {p : ((Fin n → Pt d × Nat) × Tries n) × (Fin n → Draws)} (h : TabQ lo hi Q p.1.1) : TabQ lo hi Q (legT T lo hi cfg root s b k p).1.1 :=
  TabQ.swaps root b hQ _ _ _ _ (TabQ.rounds hlo s b hQ _ _ h)

theorem TabQ.stack (hlo : ∀ i, lo i ≤ hi i) (cfg : Cfg ℝ) (root : Fin n) (s : Fin n → Fin d → ℝ) (b : Fin n → ℝ) (hQ : ∀ r x, InBox lo hi x → Q r (x, T.lp (b r) x))
    (nStack : Int) : ∀ (fuel : Nat) (i : Int) (p : ((Fin n → Pt d × Nat) × Tries n) × (Fin n → Draws)), TabQ lo hi Q p.1.1 →
    TabQ lo hi Q (stackT T lo hi cfg root s b nStack fuel i p).1.1 := by
  intro fuel
  induction fuel with
  | zero => exact fun i p h => h
  | succ fuel ih =>
    intro i p h
    unfold stackT
    split
    · exact ih _ _ (TabQ.leg hlo cfg root s b hQ _ (p := (p.1, Function.update p.2 root (pop (p.2 root)).2)) h)
    · exact h

/-! ## Out of step -/

/-- The stored log-posterior of chain `r` is not the one of its point. -/
def Stale (T : Target d) (b : Fin n → ℝ) (r : Fin n) : Set ((Fin n → Pt d × Nat) × Tries n) := {p | (p.1 r).1.2 ≠ T.lp (b r) (p.1 r).1.1}

/-- Points in the box; no stored log-posterior exceeds one of the values for the beta in use by more than `V`. -/
def Close (T : Target d) (lo hi : Fin d → ℝ) (V : ℝ) (b : Fin n → ℝ) (p : (Fin n → Pt d × Nat) × Tries n) : Prop :=
  TabQ lo hi (fun r x => ∀ y, InBox lo hi y → x.2 - T.lp (b r) y ≤ V) p.1

/-- The log-posteriors for the ladder `b` vary by at most `V`. -/
def Flat (T : Target d) (lo hi : Fin d → ℝ) (V : ℝ) (b : Fin n → ℝ) : Prop := ∀ r x y, InBox lo hi x → InBox lo hi y → T.lp (b r) x - T.lp (b r) y ≤ V

theorem measurableSet_stale (b : Fin n → ℝ) (r : Fin n) : MeasurableSet (Stale T b r) := by
  have h1 : Measurable (fun p : (Fin n → Pt d × Nat) × Tries n => (p.1 r).1) := measurable_fst.comp ((measurable_pi_apply r).comp measurable_fst)
  exact (measurableSet_eq_fun (measurable_snd.comp h1) ((T.measurable (b r)).comp (measurable_fst.comp h1))).compl

/-- The probability of a rejection, at most. -/
noncomputable def reject (V : ℝ) : ℝ≥0∞ := ENNReal.ofReal (1 - Real.exp (-V))

theorem unif_above (c : ℝ) (h0 : 0 ≤ c) (h1 : c ≤ 1) : unifStream {ω | c ≤ (pop ω).1} = ENNReal.ofReal (1 - c) := by
  have h := pop_law unif
  have e : unifStream {ω | c ≤ (pop ω).1} = ((streamLaw unif).map pop) (Ici c ×ˢ univ) := by
    rw [Measure.map_apply measurable_pop (measurableSet_Ici.prod MeasurableSet.univ)]
    rw [unifStream]
    congr 1
    ext ω
    simp
  rw [e, h, Measure.prod_prod, measure_univ, mul_one, unif, Measure.restrict_apply measurableSet_Ici]
  have : Ici c ∩ Ico 0 1 = Ico c 1 := by
    ext x
    simp only [mem_inter_iff, mem_Ici, mem_Ico]
    constructor
    · exact fun h => ⟨h.1, h.2.2⟩
    · exact fun h => ⟨h.1, by linarith [h.1], h.2⟩
  rw [this, Real.volume_Ico]

theorem chain_stale (hlo : ∀ i, lo i ≤ hi i) (s : Fin d → ℝ) (b V : ℝ) (hV : 0 ≤ V) (a : Pt d × Nat) (ha : ∀ y, InBox lo hi y → a.1.2 - T.lp b y ≤ V) :
    unifStream {ω | (chainT T lo hi s b (a, ω)).1.1.2 ≠ T.lp b (chainT T lo hi s b (a, ω)).1.1.1} ≤ reject V := by
  have hm : MeasurableSet {q : (Fin d → ℝ × ℝ) × Draws | Real.exp (-V) ≤ (pop q.2).1} :=
    measurableSet_le measurable_const (measurable_fst.comp (measurable_pop.comp measurable_snd))
  have h := (pairs_fresh (α := Unit) d).clean.bound () hm (c := reject V) fun w => by
    rw [reject, ← unif_above (Real.exp (-V)) (Real.exp_pos _).le (Real.exp_le_one_iff.2 (by linarith))]
    exact le_rfl
  refine (measure_mono fun ω hω => ?_).trans h
  have hω : (chainT T lo hi s b (a, ω)).1.1.2 ≠ T.lp b (chainT T lo hi s b (a, ω)).1.1.1 := hω
  show Real.exp (-V) ≤ (pop (pairsS d ω).2).1
  by_contra hlt
  apply hω
  have hb : InBox lo hi (proposalT lo hi s a.1.1 (pairsS d ω).1) := fun i => (bounce_exact _ _ (hlo i) _).1
  have hacc : (acceptS (T.lp b (proposalT lo hi s a.1.1 (pairsS d ω).1)) a.1.2 (pairsS d ω).2).1 = true := by
    unfold acceptS
    split
    · rfl
    · show ((pop (pairsS d ω).2).1 <. _) = true
      rw [RealArith.lt_iff]
      simp only [RealArith.mul_eq, RealArith.exp_eq, RealArith.sub_eq, RealArith.ofI_eq, Int.cast_one, mul_one]
      refine lt_of_lt_of_le (not_le.1 hlt) (Real.exp_le_exp.2 ?_)
      linarith [ha _ hb]
  simp only [chainT, hacc, if_true]

theorem round_shrinks (hlo : ∀ i, lo i ≤ hi i) (s : Fin n → Fin d → ℝ) (b : Fin n → ℝ) {V : ℝ} (hV : 0 ≤ V) (hf : Flat T lo hi V b) (r : Fin n) :
    Shrinks (unifStreams n) (reject V) (Close T lo hi V b) (Stale T b r) (roundC T lo hi s b) (Close T lo hi V b) (Stale T b r) := by
  refine ⟨fun a ω h => TabQ.round hlo s b (fun r x hx y hy => hf r x y hx hy) (a, ω) h, fun a ω h hst => ?_, fun a h => ?_⟩
  · by_contra hc
    have hc : (a.1 r).1.2 = T.lp (b r) (a.1 r).1.1 := not_not.1 hc
    exact hst (((TabQ.round (T := T) (Q := fun q x => q = r → x.2 = T.lp (b q) x.1) hlo s b (fun _ _ _ _ => rfl) (a, ω) fun q => ⟨(h q).1, fun e => by rw [e]; exact hc⟩) r).2 rfl)
  · have h1 := chain_stale (T := T) hlo (s r) (b r) V hV (a.1 r) (h r).2
    refine le_trans (le_of_eq ?_) h1
    have hmp := measurePreserving_eval (fun _ : Fin n => unifStream) r
    have hms : MeasurableSet {ω | (chainT T lo hi (s r) (b r) (a.1 r, ω)).1.1.2 ≠ T.lp (b r) (chainT T lo hi (s r) (b r) (a.1 r, ω)).1.1.1} := by
      have hc : Measurable (fun ω => (chainT T lo hi (s r) (b r) (a.1 r, ω)).1.1) :=
        measurable_fst.comp (measurable_fst.comp ((chain_clean T lo hi (s r) (b r)).meas.comp measurable_prodMk_left))
      exact (measurableSet_eq_fun (measurable_snd.comp hc) ((T.measurable (b r)).comp (measurable_fst.comp hc))).compl
    exact hmp.measure_preimage hms.nullMeasurableSet

theorem swap_shrinks (root : Fin n) (b : Fin n → ℝ) {V : ℝ} (hf : Flat T lo hi V b) (count : Bool) (mode : Int) (r : Fin n) :
    Shrinks (unifStreams n) 1 (Close T lo hi V b) (Stale T b r) (onRoot root (swapT T b count mode)) (Close T lo hi V b) (Stale T b r) := by
  refine Shrinks.one (fun a ω h => TabQ.swap b (fun r x hx y hy => hf r x y hx hy) count mode (p := (a, ω root)) h) fun a ω h hst => ?_
  by_contra hc
  have hc : (a.1 r).1.2 = T.lp (b r) (a.1 r).1.1 := not_not.1 hc
  exact hst (((TabQ.swap (T := T) (Q := fun q x => q = r → x.2 = T.lp (b q) x.1) b (fun _ _ _ _ => rfl) count mode (p := (a, ω root)) fun q => ⟨(h q).1, fun e => by rw [e]; exact hc⟩) r).2 rfl)

theorem leg_shrinks (hlo : ∀ i, lo i ≤ hi i) (cfg : Cfg ℝ) (root : Fin n) (s : Fin n → Fin d → ℝ) (b : Fin n → ℝ) {V : ℝ} (hV : 0 ≤ V) (hf : Flat T lo hi V b) (k : Int) (r : Fin n) :
    Shrinks (unifStreams n) (reject V ^ k.toNat) (Close T lo hi V b) (Stale T b r) (legT T lo hi cfg root s b k) (Close T lo hi V b) (Stale T b r) := by
  have hsw : Clean (unifStreams n) (onRoot root (swapT (d := d) T b (decide (0 < cfg.tuneLadder)) cfg.swapmode)) := (swap_clean T b _ cfg.swapmode).root root
  have h1 := (round_shrinks hlo s b hV hf r).iterate (round_clean T lo hi s b) (measurableSet_stale b r) k.toNat
  have h2 := (swap_shrinks root b hf (decide (0 < cfg.tuneLadder)) cfg.swapmode r).iterate hsw (measurableSet_stale b r) cfg.nSwap.toNat
  have h3 := h1.comp ((round_clean T lo hi s b).iterate k.toNat) (hsw.iterate _).meas (measurableSet_stale b r) (measurableSet_stale b r) h2
  rw [one_pow, mul_one] at h3
  exact h3

theorem stack_shrinks (hlo : ∀ i, lo i ≤ hi i) (cfg : Cfg ℝ) (hr : 0 ≤ cfg.rand) (hb : cfg.rand < cfg.base) (root : Fin n) (s : Fin n → Fin d → ℝ) (b : Fin n → ℝ)
    {V : ℝ} (hV : 0 ≤ V) (hf : Flat T lo hi V b) (nStack : Int) (r : Fin n) : ∀ (fuel : Nat) (i : Int), i ≤ nStack → nStack - i ≤ fuel →
    Shrinks (unifStreams n) (reject V ^ (nStack - i).toNat) (Close T lo hi V b) (Stale T b r) (stackT T lo hi cfg root s b nStack fuel i) (Close T lo hi V b) (Stale T b r) := by
  have hQ : ∀ (r : Fin n) x, InBox lo hi x → ∀ y, InBox lo hi y → ((x, T.lp (b r) x) : Pt d).2 - T.lp (b r) y ≤ V := fun r x hx y hy => hf r x y hx hy
  intro fuel
  induction fuel with
  | zero =>
    intro i h1 h2
    rw [show (nStack - i).toNat = 0 by omega, pow_zero]
    exact Shrinks.one (fun _ _ h => h) fun _ _ _ h => h
  | succ fuel ih =>
    intro i h1 h2
    by_cases hi' : i < nStack
    · have h0 : Clean (unifStreams n) (onRoot root fun p : ((Fin n → Pt d × Nat) × Tries n) × Draws => (i4UnifAbVal (-cfg.rand) cfg.rand (pop p.2).1, (pop p.2).2)) :=
        (size_fresh cfg.rand).clean.root root
      have e : stackT T lo hi cfg root s b nStack (fuel + 1) i = fun p => stackT T lo hi cfg root s b nStack fuel
          (i + sizeOf' cfg nStack i (i4UnifAbVal (-cfg.rand) cfg.rand (pop (p.2 root)).1))
          (legT T lo hi cfg root s b (sizeOf' cfg nStack i (i4UnifAbVal (-cfg.rand) cfg.rand (pop (p.2 root)).1)) (p.1, Function.update p.2 root (pop (p.2 root)).2)) := by
        funext p
        rw [stackT, if_pos hi']
      have hcl := fun k : Int => (leg_clean T lo hi cfg root s b (sizeOf' cfg nStack i k)).comp (stack_clean T lo hi cfg root s b nStack fuel (i + sizeOf' cfg nStack i k))
      rw [e]
      refine Shrinks.choose h0 (fun k => (hcl k).meas) (measurableSet_stale b r) (fun k a ω h => ?_) (fun k a ω h hst => ?_) {k | -cfg.rand ≤ k ∧ k ≤ cfg.rand} (fun a => ?_)
        fun k hk => ?_
      · exact TabQ.stack hlo cfg root s b hQ _ _ _ _ (TabQ.leg hlo cfg root s b hQ _ (p := (a, ω)) h)
      · by_contra hc
        have hc : (a.1 r).1.2 = T.lp (b r) (a.1 r).1.1 := not_not.1 hc
        exact hst (((TabQ.stack (T := T) (Q := fun q x => q = r → x.2 = T.lp (b q) x.1) hlo cfg root s b (fun _ _ _ _ => rfl) nStack fuel _ _
          (TabQ.leg (T := T) (Q := fun q x => q = r → x.2 = T.lp (b q) x.1) hlo cfg root s b (fun _ _ _ _ => rfl) _ (p := (a, ω))
            fun q => ⟨(h q).1, fun e => by rw [e]; exact hc⟩)) r).2 rfl)
      · filter_upwards [inUnit_ae n] with ω hω
        exact i4UnifAbVal_real (-cfg.rand) cfg.rand (by omega) _ (hω root 0).1 (hω root 0).2
      · have hpos : 1 ≤ sizeOf' cfg nStack i k ∧ i + sizeOf' cfg nStack i k ≤ nStack := by
          have := hk.1
          unfold sizeOf'
          split <;> constructor <;> omega
        have h3 := (leg_shrinks hlo cfg root s b hV hf (sizeOf' cfg nStack i k) r).comp (leg_clean T lo hi cfg root s b _)
          (stack_clean T lo hi cfg root s b nStack fuel (i + sizeOf' cfg nStack i k)).meas (measurableSet_stale b r) (measurableSet_stale b r)
          (ih (i + sizeOf' cfg nStack i k) hpos.2 (by omega))
        rw [← pow_add, show (sizeOf' cfg nStack i k).toNat + (nStack - (i + sizeOf' cfg nStack i k)).toNat = (nStack - i).toNat by omega] at h3
        exact h3.rate
    · rw [show (nStack - i).toNat = 0 by omega, pow_zero]
      have e : stackT T lo hi cfg root s b nStack (fuel + 1) i = fun p => p := by
        funext p
        rw [stackT, if_neg hi']
      rw [e]
      exact Shrinks.one (fun _ _ h => h) fun _ _ _ h => h

/-! ## The stacks after the last tuning of the ladder -/

variable {sig0 : Fin n → List ℝ} {beta0 : Fin n → ℝ}

/-- The stored log-posterior of chain `r` is not the one of its point for the ladder in use. -/
def StaleZ (T : Target d) (sig0 : Fin n → List ℝ) (beta0 : Fin n → ℝ) (cfg : Cfg ℝ) (r : Fin n) : Set ((Fin n → Pt d) × Hist n) :=
  {q | (q.1 r).2 ≠ T.lp ((paramsOf cfg sig0 beta0 q.2).2 r) (q.1 r).1}

/-- The ladder is `b`, and `Close`. -/
def CloseZ (T : Target d) (lo hi : Fin d → ℝ) (sig0 : Fin n → List ℝ) (beta0 : Fin n → ℝ) (cfg : Cfg ℝ) (V : ℝ) (b : Fin n → ℝ) (q : (Fin n → Pt d) × Hist n) : Prop :=
  (paramsOf cfg sig0 beta0 q.2).2 = b ∧ ∀ r, InBox lo hi (q.1 r).1 ∧ ∀ y, InBox lo hi y → (q.1 r).2 - T.lp (b r) y ≤ V

theorem measurableSet_staleZ (cfg : Cfg ℝ) (r : Fin n) : MeasurableSet (StaleZ T sig0 beta0 cfg r) := by
  have h1 : Measurable (fun q : (Fin n → Pt d) × Hist n => (q.1 r).2) := measurable_snd.comp ((measurable_pi_apply r).comp measurable_fst)
  have h2 : Measurable (fun q : (Fin n → Pt d) × Hist n => T.lp ((paramsOf cfg sig0 beta0 q.2).2 r) (q.1 r).1) :=
    measurable_from_prod_countable_left fun h => by
      have hx : Measurable fun x : Fin n → Pt d => (x r).1 := measurable_fst.comp (measurable_pi_apply r)
      exact (T.measurable ((paramsOf cfg sig0 beta0 h).2 r)).comp hx
  exact (measurableSet_eq_fun h1 h2).compl

theorem tuneRanks_same (cfg : Cfg ℝ) (root : Fin n) (fl : Fin n → Int) : ∀ (l : List (Fin n)) (p : ((Fin n → Pt d) × Hist n) × (Fin n → Draws)),
    (tuneRanksT T lo hi sig0 beta0 cfg root fl l p).1.1 = p.1.1 ∧
    (paramsOf cfg sig0 beta0 (tuneRanksT T lo hi sig0 beta0 cfg root fl l p).1.2).2 = (paramsOf cfg sig0 beta0 p.1.2).2 ∧
    p.1.2 <:+ (tuneRanksT T lo hi sig0 beta0 cfg root fl l p).1.2
  | [], _ => ⟨rfl, rfl, List.suffix_refl _⟩
  | rk :: l, p => by
    unfold tuneRanksT
    obtain ⟨h1, h2, h3⟩ := tuneRanks_same cfg root fl l (if fl rk = 1 then tuneRankT T lo hi sig0 beta0 cfg root rk p else p)
    rw [h1, h2]
    split
    · rename_i hfl
      rw [if_pos hfl] at h3
      exact ⟨rfl, rfl, (List.suffix_cons _ _).trans h3⟩
    · rename_i hfl
      rw [if_neg hfl] at h3
      exact ⟨rfl, rfl, h3⟩

theorem roundZ_same (cfg : Cfg ℝ) (root : Fin n) (i : Int) (p : ((Fin n → Pt d) × Hist n) × (Fin n → Draws)) :
    (roundZ T lo hi sig0 beta0 cfg root i p).1.1 = (stackZ T lo hi sig0 beta0 cfg root cfg.nStack (i + cfg.nStack) p).1.1.1 ∧
    (paramsOf cfg sig0 beta0 (roundZ T lo hi sig0 beta0 cfg root i p).1.2).2 =
      (paramsOf cfg sig0 beta0 (stackZ T lo hi sig0 beta0 cfg root cfg.nStack (i + cfg.nStack) p).1.1.2).2 ∧
    (stackZ T lo hi sig0 beta0 cfg root cfg.nStack (i + cfg.nStack) p).1.1.2 <:+ (roundZ T lo hi sig0 beta0 cfg root i p).1.2 := by
  unfold roundZ
  dsimp only
  split
  · exact tuneRanks_same cfg root _ _ ((stackZ T lo hi sig0 beta0 cfg root cfg.nStack (i + cfg.nStack) p).1.1, (stackZ T lo hi sig0 beta0 cfg root cfg.nStack (i + cfg.nStack) p).2)
  · exact ⟨rfl, rfl, List.suffix_refl _⟩

theorem roundZ_shrinks (hlo : ∀ i, lo i ≤ hi i) (cfg : Cfg ℝ) (hr : 0 ≤ cfg.rand) (hb : cfg.rand < cfg.base) (hst : 1 ≤ cfg.nStack) (root : Fin n) (b : Fin n → ℝ)
    {V : ℝ} (hV : 0 ≤ V) (hf : Flat T lo hi V b) (r : Fin n) (i : Int) (hstop : ¬(i + cfg.nStack < cfg.nStopTuneLadder ∧ 0 < cfg.tuneLadder)) :
    Shrinks (unifStreams n) (reject V ^ cfg.nStack.toNat) (CloseZ T lo hi sig0 beta0 cfg V b) (StaleZ T sig0 beta0 cfg r) (roundZ T lo hi sig0 beta0 cfg root i)
      (CloseZ T lo hi sig0 beta0 cfg V b) (StaleZ T sig0 beta0 cfg r) := by
  -- what one stack does to the table
  have tab : ∀ (a : (Fin n → Pt d) × Hist n) ω, (roundZ T lo hi sig0 beta0 cfg root i (a, ω)).1.1 = fun q =>
      ((stackT T lo hi cfg root (fun r => vec d ((paramsOf cfg sig0 beta0 a.2).1 r)) (paramsOf cfg sig0 beta0 a.2).2 cfg.nStack cfg.nStack.toNat 0
        ((fun r => (a.1 r, 0), []), ω)).1.1 q).1 := fun a ω => (roundZ_same cfg root i (a, ω)).1
  have lad : ∀ (a : (Fin n → Pt d) × Hist n) ω, (paramsOf cfg sig0 beta0 (roundZ T lo hi sig0 beta0 cfg root i (a, ω)).1.2).2 = (paramsOf cfg sig0 beta0 a.2).2 := fun a ω => by
    rw [(roundZ_same cfg root i (a, ω)).2.1]
    simp only [stackZ, if_neg hstop]
  have key := fun (s : Fin n → Fin d → ℝ) => stack_shrinks (T := T) hlo cfg hr hb root s b hV hf cfg.nStack r cfg.nStack.toNat 0 (by omega) (by omega)
  have iff : ∀ (a : (Fin n → Pt d) × Hist n) ω, (paramsOf cfg sig0 beta0 a.2).2 = b → ((roundZ T lo hi sig0 beta0 cfg root i (a, ω)).1 ∈ StaleZ T sig0 beta0 cfg r ↔
      (stackT T lo hi cfg root (fun r => vec d ((paramsOf cfg sig0 beta0 a.2).1 r)) b cfg.nStack cfg.nStack.toNat 0 ((fun r => (a.1 r, 0), []), ω)).1 ∈ Stale T b r) :=
    fun a ω ha => by
      show _ ≠ T.lp _ _ ↔ _ ≠ T.lp _ _
      rw [lad, tab, ha]
  have start : ∀ a : (Fin n → Pt d) × Hist n, CloseZ T lo hi sig0 beta0 cfg V b a → Close T lo hi V b ((fun r => (a.1 r, 0), []) : (Fin n → Pt d × Nat) × Tries n) := fun a ha => ha.2
  refine ⟨fun a ω ha => ⟨(lad a ω).trans ha.1, fun q => ?_⟩, fun a ω ha hs => ?_, fun a ha => ?_⟩
  · have := (key fun r => vec d ((paramsOf cfg sig0 beta0 a.2).1 r)).keep _ ω (start a ha) q
    rw [tab, ha.1]
    exact this
  · have := (key fun r => vec d ((paramsOf cfg sig0 beta0 a.2).1 r)).old _ ω (start a ha) ((iff a ω ha.1).1 hs)
    show _ ≠ _
    rw [ha.1]
    exact this
  · have := (key fun r => vec d ((paramsOf cfg sig0 beta0 a.2).1 r)).rate _ (start a ha)
    rw [sub_zero] at this
    refine le_trans (le_of_eq ?_) this
    congr 1
    ext ω
    exact iff a ω ha.1

theorem pre_shrinks (hlo : ∀ i, lo i ≤ hi i) (cfg : Cfg ℝ) (hr : 0 ≤ cfg.rand) (hb : cfg.rand < cfg.base) (hst : 1 ≤ cfg.nStack) (root : Fin n) (b : Fin n → ℝ)
    {V : ℝ} (hV : 0 ≤ V) (hf : Flat T lo hi V b) (r : Fin n) : ∀ (k : Nat) (i : Int), (0 < cfg.tuneLadder → cfg.nStopTuneLadder ≤ i + cfg.nStack) →
    Shrinks (unifStreams n) (reject V ^ (k * cfg.nStack.toNat)) (CloseZ T lo hi sig0 beta0 cfg V b) (StaleZ T sig0 beta0 cfg r) (preT T lo hi sig0 beta0 cfg root k i)
      (CloseZ T lo hi sig0 beta0 cfg V b) (StaleZ T sig0 beta0 cfg r)
  | 0, i, _ => by rw [Nat.zero_mul, pow_zero]; exact Shrinks.one (fun _ _ h => h) fun _ _ _ h => h
  | k + 1, i, hstop => by
    rw [Nat.add_mul, Nat.one_mul, Nat.add_comm, pow_add]
    have h1 := roundZ_shrinks (T := T) (sig0 := sig0) (beta0 := beta0) hlo cfg hr hb hst root b hV hf r i fun h => by have := hstop h.2; omega
    have h2 := pre_shrinks hlo cfg hr hb hst root b hV hf r k (i + cfg.nStack) fun h => by have := hstop h; omega
    exact h1.comp (m' := preT T lo hi sig0 beta0 cfg root k (i + cfg.nStack)) (roundZ_clean T lo hi sig0 beta0 cfg root i)
      (pre_clean T lo hi sig0 beta0 cfg root k (i + cfg.nStack)).meas (measurableSet_staleZ cfg r) (measurableSet_staleZ cfg r) h2

/-! ## The stacks before -/

/-- Every stored log-posterior is the one of its point for some ladder that was in use. -/
def Kept (T : Target d) (lo hi : Fin d → ℝ) (sig0 : Fin n → List ℝ) (beta0 : Fin n → ℝ) (cfg : Cfg ℝ) (q : (Fin n → Pt d) × Hist n) : Prop :=
  ∀ r, InBox lo hi (q.1 r).1 ∧ ∃ h, h <:+ q.2 ∧ (q.1 r).2 = T.lp ((paramsOf cfg sig0 beta0 h).2 r) (q.1 r).1

theorem Kept.roundZ (hlo : ∀ i, lo i ≤ hi i) (cfg : Cfg ℝ) (root : Fin n) (i : Int) (p : ((Fin n → Pt d) × Hist n) × (Fin n → Draws))
    (h : Kept T lo hi sig0 beta0 cfg p.1) : Kept T lo hi sig0 beta0 cfg (roundZ T lo hi sig0 beta0 cfg root i p).1 := fun r => by
  obtain ⟨e1, -, e3⟩ := roundZ_same (T := T) (lo := lo) (hi := hi) (sig0 := sig0) (beta0 := beta0) cfg root i p
  rw [e1]
  obtain ⟨h1, h', h2, h3⟩ := TabQ.stack (T := T) (Q := fun r x => ∃ h, h <:+ p.1.2 ∧ x.2 = T.lp ((paramsOf cfg sig0 beta0 h).2 r) x.1) hlo cfg root
    (fun r => vec d ((paramsOf cfg sig0 beta0 p.1.2).1 r)) (paramsOf cfg sig0 beta0 p.1.2).2 (fun r x _ => ⟨p.1.2, List.suffix_refl _, rfl⟩) cfg.nStack cfg.nStack.toNat 0
    ((fun r => (p.1.1 r, 0), []), p.2) h r
  refine ⟨h1, h', h2.trans (List.IsSuffix.trans ?_ e3), h3⟩
  show p.1.2 <:+ if _ then _ else p.1.2
  split
  · exact List.suffix_cons _ _
  · exact List.suffix_refl _

theorem Kept.pre (hlo : ∀ i, lo i ≤ hi i) (cfg : Cfg ℝ) (root : Fin n) : ∀ (k : Nat) (i : Int) (p : ((Fin n → Pt d) × Hist n) × (Fin n → Draws)),
    Kept T lo hi sig0 beta0 cfg p.1 → Kept T lo hi sig0 beta0 cfg (preT T lo hi sig0 beta0 cfg root k i p).1
  | 0, _, _, h => h
  | k + 1, i, p, h => Kept.pre hlo cfg root k _ _ (h.roundZ hlo cfg root i p)

theorem preT_add (T : Target d) (lo hi : Fin d → ℝ) (cfg : Cfg ℝ) (root : Fin n) : ∀ (k k' : Nat) (i : Int) (p : ((Fin n → Pt d) × Hist n) × (Fin n → Draws)),
    preT T lo hi sig0 beta0 cfg root (k + k') i p = preT T lo hi sig0 beta0 cfg root k' (i + k * cfg.nStack) (preT T lo hi sig0 beta0 cfg root k i p)
  | 0, k', i, p => by simp [preT]
  | k + 1, k', i, p => by
    rw [show k + 1 + k' = (k + k') + 1 by omega, preT, preT, preT_add T lo hi cfg root k k']
    congr 1
    push_cast
    ring

end

end NiiC
