import Mathlib.Probability.Independence.InfinitePi
import Verif.Props.MixingTuned
import Verif.Props.Streams

/-!
# The program with an ideal generator: C88

The laws of C77, C80 and C83 to C87 are about functions of streams of numbers. Here the generator of the program is replaced: every seed starts a stream of its own, and the streams are
drawn at random. What the executions of the program leave in their files then has a probability, and the theorems below say so about executions, files and posteriors only.
-/

set_option linter.unusedSectionVars false
set_option linter.unusedSimpArgs false

namespace NiiC

open MeasureTheory ProbabilityTheory Set
open scoped ENNReal NNReal

/-! ## The generator -/

/-- A generator in which seed `s` starts the stream `Ω s`: its state is the seed and how many numbers were taken. -/
@[instance_reducible] noncomputable def ideal (Ω : ℕ → Draws) : Source ℝ where
  seed s := Nat.pair s 0
  next g := Nat.pair g.unpair.1 (g.unpair.2 + 1)
  val g := Ω g.unpair.1 (g.unpair.2 - 1)

/-- Independent streams of independent uniform numbers, one for every seed. -/
noncomputable def unifSeeds : Measure (ℕ → Draws) := Measure.infinitePi fun _ => unifStream

instance : IsProbabilityMeasure unifSeeds := by unfold unifSeeds; infer_instance

/-- All numbers are in [0, 1). -/
def UnitSeeds (Ω : ℕ → Draws) : Prop := ∀ s k, 0 ≤ Ω s k ∧ Ω s k < 1

theorem unitSeeds_ae : ∀ᵐ Ω ∂unifSeeds, UnitSeeds Ω := by
  have hu : ∀ᵐ u ∂unif, u ∈ Ico (0 : ℝ) 1 := ae_restrict_mem measurableSet_Ico
  have hs : ∀ᵐ ω ∂unifStream, ∀ k, ω k ∈ Ico (0 : ℝ) 1 := by
    rw [ae_all_iff]
    exact fun k => (measurePreserving_eval_infinitePi (fun _ : ℕ => unif) k).quasiMeasurePreserving.ae hu
  have : ∀ᵐ Ω ∂unifSeeds, ∀ s, ∀ k, Ω s k ∈ Ico (0 : ℝ) 1 := by
    rw [ae_all_iff]
    exact fun s => (measurePreserving_eval_infinitePi (fun _ : ℕ => unifStream) s).quasiMeasurePreserving.ae hs
  exact this.mono fun ω h r k => h r k

theorem ideal_unit {Ω : ℕ → Draws} (h : UnitSeeds Ω) : @UnitDraws (ideal Ω) := by
  let := ideal Ω
  exact ⟨fun g => h _ _⟩

theorem ideal_iterate (Ω : ℕ → Draws) (s k : Nat) : (@Source.next ℝ (ideal Ω))^[k] (Nat.pair s 0) = Nat.pair s k := by
  induction k with
  | zero => rfl
  | succ k ih =>
    rw [Function.iterate_succ_apply', ih]
    show Nat.pair (Nat.pair s k).unpair.1 ((Nat.pair s k).unpair.2 + 1) = _
    rw [Nat.unpair_pair]

/-- The stream that a seed starts. -/
theorem ideal_stream (Ω : ℕ → Draws) (s : Nat) : @streamOf (ideal Ω) (@srand48 ℝ (ideal Ω) s) = Ω s := by
  funext k
  let := ideal Ω
  show Source.val (Source.next ℝ ((Source.next ℝ)^[k] (Nat.pair s 0))) = _
  rw [ideal_iterate]
  show Ω (Nat.pair (Nat.pair s k).unpair.1 ((Nat.pair s k).unpair.2 + 1)).unpair.1 ((Nat.pair (Nat.pair s k).unpair.1 ((Nat.pair s k).unpair.2 + 1)).unpair.2 - 1) = _
  simp only [Nat.unpair_pair]
  rfl

theorem ideal_streams {n : Nat} (Ω : ℕ → Draws) (f : Fin n → Nat) : (fun q => @streamOf (ideal Ω) (@srand48 ℝ (ideal Ω) (f q))) = fun q => Ω (f q) :=
  funext fun q => ideal_stream Ω _

/-- The streams of the ranks, which have different seeds, are independent. -/
theorem seeds_law {n : Nat} (root : Fin n) (hn : n ≤ 4294967296) (seed : Nat) : unifSeeds.map (fun Ω q => Ω (seedOf root seed q)) = unifStreams n := by
  have hinj : Function.Injective fun q : Fin n => seedOf root seed q := fun r s h => by
    by_contra hne
    exact seeds_distinct root hn seed r s hne h
  have h := Measure.map_infinitePi_infinitePi_of_inj (P := fun _ : ℕ => unifStream) hinj
  rw [unifSeeds, h, Measure.infinitePi_eq_pi]
  rfl

/-- An event of the streams of the ranks bounds what implies it. -/
theorem ideal_le {n : Nat} (root : Fin n) (hn : n ≤ 4294967296) (seed : Nat) {P : (ℕ → Draws) → Prop} {A : Set (Fin n → Draws)}
    (h : ∀ Ω, UnitSeeds Ω → P Ω → (fun q => Ω (seedOf root seed q)) ∈ A) : unifSeeds.real {Ω | P Ω} ≤ (unifStreams n).real A := by
  have hm : Measurable fun (Ω : ℕ → Draws) (q : Fin n) => Ω (seedOf root seed q) := measurable_pi_lambda _ fun q => measurable_pi_apply _
  rw [measureReal_def, measureReal_def]
  refine ENNReal.toReal_mono (measure_ne_top _ _) ?_
  rw [← seeds_law root hn seed]
  refine le_trans (measure_mono_ae ?_) (Measure.le_map_apply hm.aemeasurable A)
  filter_upwards [unitSeeds_ae] with Ω hΩ hP
  exact h Ω hΩ hP

/-! ## The program -/

/-- The program with the model `m` on the given ranges, and the generator `ideal Ω`. The user functions in `cfg` are replaced, because the ones of the model draw their start. -/
noncomputable def drivenBy {n : Nat} (Ω : ℕ → Draws) (m : Model ℝ) (bounds : List (ℝ × ℝ)) (ndim : Int) (cfg : Cfg ℝ) (file : DataFile ℝ) (clock : Nat) (root : Fin n) :
    Sys n (Msg ℝ) (Line ℝ) (RSt n ℝ) :=
  letI := ideal Ω
  initSys { cfg with user := m.user bounds ndim } file clock root

section
variable {n d : Nat} {m : Model ℝ} {bounds : List (ℝ × ℝ)} {ndim : Int} {cfg : Cfg ℝ} {file : DataFile ℝ}

theorem ideal_valid (Ω : ℕ → Draws) (hv : Valid n cfg file) (hu : cfg.user = m.user bounds ndim) :
    Valid n { cfg with user := @Model.user ℝ _ (ideal Ω) m bounds ndim } file where
  ranks := hv.ranks
  ranksInt := hv.ranksInt
  betas := hv.betas
  parm := hv.parm
  user := by
    have h := hv.user
    rw [hu] at h
    refine ⟨h.boundary, fun s => ?_, h.initGp⟩
    have h1 := h.initParm s
    show (@initDraws ℝ _ (ideal Ω) _ _).1.length = _
    rw [@initDraws_length ℝ _ (ideal Ω)]
    have h2 : (initDraws (m.draws.zip bounds) (srand48 ℝ s)).1.length = cfg.nParm := h1
    rw [initDraws_length] at h2
    exact h2
  stack := hv.stack
  rand := hv.rand
  base := hv.base
  randInt := hv.randInt
  stackInt := hv.stackInt
  iterInt := hv.iterInt
  mode := hv.mode
  inTune := hv.inTune
  sigmaMin := hv.sigmaMin
  sigmaMax := hv.sigmaMax
  cells := hv.cells

/-- **C88, executions.** With an ideal generator, for almost all of its outcomes, the program has an end: every execution can be continued to it, and every finished execution is there. -/
theorem driven_ends (hv : Valid n cfg file) (hu : cfg.user = m.user bounds ndim) (clock : Nat) (root : Fin n) :
    ∀ᵐ Ω ∂unifSeeds, ∃ t : Sys n (Msg ℝ) (Line ℝ) (RSt n ℝ), t.AllDone ∧
      ∀ (w : List (Label n)) (s : Sys n (Msg ℝ) (Line ℝ) (RSt n ℝ)), (drivenBy Ω m bounds ndim cfg file clock root).exec w = some s →
        (∃ w', s.exec w' = some t) ∧ (s.AllDone → s = t) := by
  filter_upwards [unitSeeds_ae] with Ω hΩ
  let := ideal Ω
  have := ideal_unit hΩ
  obtain ⟨w, len, -, hex⟩ := distributed_eq_sequential _ file (ideal_valid Ω hv hu) clock root
  refine ⟨finalSys root w, finalSys_done root w, fun w₁ s hs => ?_⟩
  obtain ⟨⟨w₂, h2, -⟩, -⟩ := hex w₁ s hs
  refine ⟨⟨w₂, h2⟩, fun hd => ?_⟩
  obtain ⟨⟨w₀, h0, -⟩, -⟩ := hex [] _ rfl
  exact schedule_independent _ file clock root w₁ w₀ s _ hs hd h0 (finalSys_done root w)

set_option smartUnfolding false in
theorem mainH_user (S : Setting n d) (ks : Fin d → Draw) (u : User ℝ) (root : Fin n) : mainH S ks { cfg with user := u } root = mainH S ks cfg root := rfl

set_option smartUnfolding false in
theorem mainS_user (S : Setting n d) (ks : Fin d → Draw) (u : User ℝ) (root : Fin n) : mainS S ks { cfg with user := u } root = mainS S ks cfg root := rfl

/-- **C88, averages without tuning.** The run of C86 with an ideal generator. The probability that a finished execution leaves a chain file whose average, over the rows after iteration
`B`, misses the mean under the tempered posterior of the chain by `ε` or more is at most the bound of C86. -/
theorem driven_average (ndim : Int) (ks : Fin d → Draw) (lo hi : Fin d → ℝ) (T : Target d) (hv : Valid n cfg file)
    (hu : cfg.user = m.user (List.ofFn fun i => (lo i, hi i)) ndim) (hd : m.draws = List.ofFn ks) (hN : cfg.nParm = d) (hlo : ∀ i, lo i ≤ hi i)
    (hfit : ∀ i, (ks i).Fits (lo i, hi i)) (hratio : 0 ≤ cfg.initGpRatio) (data : List ℝ) (hdata : file.cells = .ok data)
    (hT : ∀ b (x : Fin d → ℝ), Spec.target cfg.user file.nlines data b (List.ofFn x) = T.lp b x)
    (hw : ∀ k, 0 < k → inTuneWindow cfg k = false) (hl : cfg.tuneLadder ≤ 0) (B : Nat) (hB : cfg.saveBegin ≤ B + 1) (hBN : B < cfg.nIter.toNat) (clock : Nat) (root r : Fin n)
    (g : List ℝ → ℝ) (hg : Measurable fun x : Fin d → ℝ => g (List.ofFn x)) (g0 : ∀ x, 0 ≤ g x) (g1 : ∀ x, g x ≤ 1) :
    ∃ beta : Fin n → ℝ, copyBetas n cfg.betas = .ok beta ∧
      ∀ (v : Fin n → ℝ) (γ α C : ℝ), (settingOf T lo hi cfg.initGpRatio beta).Proper v → (settingOf T lo hi cfg.initGpRatio beta).Mixes v γ α C →
        ∀ (j : Nat), j ≤ B → ∀ ε : ℝ, 0 < ε →
          unifSeeds.real {Ω | ∃ (w : List (Label n)) (t : Sys n (Msg ℝ) (Line ℝ) (RSt n ℝ)),
              (drivenBy Ω m (List.ofFn fun i => (lo i, hi i)) ndim cfg file clock root).exec w = some t ∧ t.AllDone ∧
              ε ≤ |rowAverage B g (fileRows r.val (t.log r)) -
                (∫ x : Fin d → ℝ, g (List.ofFn x) ∂(posterior (volume.restrict (openBox lo hi)) (T.lp (beta r)))) /
                  (posterior (volume.restrict (openBox lo hi)) (T.lp (beta r))).real univ|} ≤
            1 / (γ * (cfg.nIter.toNat - B : Nat) * ε ^ 2) +
              mixError (∑ r, ∑ i, ((tail (lo i) (hi i) ((settingOf T lo hi cfg.initGpRatio beta).s r i)).toReal + 1 / 10 ^ 16)) γ α C cfg.nIter.toNat B j := by
  have hbeta : copyBetas n cfg.betas = .ok fun r => cfg.betas[r.val]'(lt_of_lt_of_le r.isLt hv.betas) := by
    unfold copyBetas
    rw [dif_pos hv.betas]
  refine ⟨_, hbeta, fun v γ α C hS hM j hj ε hε => ?_⟩
  refine le_trans (ideal_le root (by have := hv.ranksInt; omega) (startSeed cfg clock) ?_)
    (mixing_average _ v hS hv.ranks γ α C hM ks hfit cfg hv.rand hv.base hv.stack root r (fun x => g (List.ofFn x)) hg (fun _ => g0 _) (fun _ => g1 _) B hBN j hj ε hε)
  rintro Ω hΩ ⟨w, t, ht, hdone, hε'⟩
  let := ideal Ω
  have := ideal_unit hΩ
  obtain ⟨beta, hb, hex⟩ := average_stream m ndim ks lo hi T _ file (ideal_valid Ω hv hu) rfl hd hN hlo hratio data hdata (fun b x => by rw [← hT, hu]; rfl) hw hl (show 0 ≤ cfg.nIter by omega) B hB clock root
  have hb : copyBetas n cfg.betas = .ok beta := hb
  rw [hbeta] at hb
  cases hb
  have e := (hex w t ht hdone r).2 g
  rw [e] at hε'
  rw [mainH_user] at hε'
  rw [← ideal_streams]
  exact hε'

/-- **C88, law without tuning.** The run of C85 with an ideal generator. The probability that its executions end with the parameters of the chains in a set differs from that under the
product of the tempered posteriors by at most the bound of C85. -/
theorem driven_law (ndim : Int) (ks : Fin d → Draw) (lo hi : Fin d → ℝ) (T : Target d) (hv : Valid n cfg file)
    (hu : cfg.user = m.user (List.ofFn fun i => (lo i, hi i)) ndim) (hd : m.draws = List.ofFn ks) (hN : cfg.nParm = d) (hlo : ∀ i, lo i ≤ hi i)
    (hfit : ∀ i, (ks i).Fits (lo i, hi i)) (hratio : 0 ≤ cfg.initGpRatio) (data : List ℝ) (hdata : file.cells = .ok data)
    (hT : ∀ b (x : Fin d → ℝ), Spec.target cfg.user file.nlines data b (List.ofFn x) = T.lp b x)
    (hw : ∀ k, 0 < k → inTuneWindow cfg k = false) (hl : cfg.tuneLadder ≤ 0) (hit : 0 ≤ cfg.nIter) (clock : Nat) (root : Fin n) :
    ∃ beta : Fin n → ℝ, copyBetas n cfg.betas = .ok beta ∧
      ∀ (v : Fin n → ℝ) (γ α C : ℝ), (settingOf T lo hi cfg.initGpRatio beta).Proper v → (settingOf T lo hi cfg.initGpRatio beta).Mixes v γ α C →
        ∀ (j : Nat), j ≤ cfg.nIter.toNat → ∀ (A : Set (Fin n → Fin d → ℝ)), MeasurableSet A →
          |unifSeeds.real {Ω | ∃ (w : List (Label n)) (t : Sys n (Msg ℝ) (Line ℝ) (RSt n ℝ)) (st : RSt n ℝ) (tab : Tab n ℝ),
              (drivenBy Ω m (List.ofFn fun i => (lo i, hi i)) ndim cfg file clock root).exec w = some t ∧ t.AllDone ∧ t.procs root = .ret st ∧ st.tab = some tab ∧
              ∃ x ∈ A, ∀ q, tab.x q = List.ofFn (x q)} -
            (joint T lo hi beta).real A / (joint T lo hi beta).real univ| ≤
            mixError (∑ r, ∑ i, ((tail (lo i) (hi i) ((settingOf T lo hi cfg.initGpRatio beta).s r i)).toReal + 1 / 10 ^ 16)) γ α C cfg.nIter.toNat cfg.nIter.toNat j := by
  have hbeta : copyBetas n cfg.betas = .ok fun r => cfg.betas[r.val]'(lt_of_lt_of_le r.isLt hv.betas) := by
    unfold copyBetas
    rw [dif_pos hv.betas]
  refine ⟨_, hbeta, fun v γ α C hS hM j hj A hA => ?_⟩
  refine le_trans (le_of_eq ?_) (mixing_law _ v hS hv.ranks γ α C hM ks hfit cfg hv.rand hv.base hv.stack hit root j hj A hA)
  congr 2
  have hm : Measurable fun (Ω : ℕ → Draws) (q : Fin n) => Ω (seedOf root (startSeed cfg clock) q) := measurable_pi_lambda _ fun q => measurable_pi_apply _
  have hA' : NullMeasurableSet {ω | (mainS (settingOf T lo hi cfg.initGpRatio fun r => cfg.betas[r.val]'(lt_of_lt_of_le r.isLt hv.betas)) ks cfg root ω).1 ∈ A} (unifStreams n) :=
    (mainS_measurable _ v hS hv.ranks γ α C hM ks cfg hv.rand hv.base hv.stack hit root hA).nullMeasurableSet
  rw [measureReal_def, measureReal_def, ← seeds_law root (by have := hv.ranksInt; omega) (startSeed cfg clock), Measure.map_apply₀ hm.aemeasurable (by rwa [seeds_law root (by have := hv.ranksInt; omega)])]
  congr 1
  refine measure_congr ?_
  filter_upwards [unitSeeds_ae] with Ω hΩ
  let := ideal Ω
  have := ideal_unit hΩ
  have hv' := ideal_valid Ω hv hu
  obtain ⟨beta, hb, hex⟩ := whole_run_stream m ndim ks lo hi T _ file hv' rfl hd hN hlo hratio data hdata (fun b x => by rw [← hT, hu]; rfl) hw hl clock root
  have hb : copyBetas n cfg.betas = .ok beta := hb
  rw [hbeta] at hb
  cases hb
  rw [mainS_user] at hex
  have es := ideal_streams Ω fun q => seedOf root (startSeed cfg clock) q
  have hex' : ∀ (w₁ : List (Label n)) (t : Sys n (Msg ℝ) (Line ℝ) (RSt n ℝ)), (drivenBy Ω m (List.ofFn fun i => (lo i, hi i)) ndim cfg file clock root).exec w₁ = some t → t.AllDone →
      ∀ r, ∃ st : RSt n ℝ, t.procs r = .ret st ∧
        (r = root → ∃ tab, st.tab = some tab ∧ ∀ q, tab.x q = List.ofFn ((mainS (settingOf T lo hi cfg.initGpRatio fun r => cfg.betas[r.val]'(lt_of_lt_of_le r.isLt hv.betas)) ks cfg root
          fun q => Ω (seedOf root (startSeed cfg clock) q)).1 q)) := by
    intro w₁ t ht hdone
    rw [← es]
    exact hex w₁ t ht hdone
  refine propext ⟨?_, fun h => ?_⟩
  · rintro ⟨w, t, st, tab, ht, hdone, hst, htab, x, hx, hxt⟩
    obtain ⟨st', hst', h2⟩ := hex' w t ht hdone root
    obtain ⟨tab', htab', h3⟩ := h2 rfl
    rw [hst] at hst'
    cases hst'
    rw [htab] at htab'
    cases htab'
    have : x = (mainS (settingOf T lo hi cfg.initGpRatio fun r => cfg.betas[r.val]'(lt_of_lt_of_le r.isLt hv.betas)) ks cfg root
          fun q => Ω (seedOf root (startSeed cfg clock) q)).1 := by
      funext q
      have e := (hxt q).symm.trans (h3 q)
      exact List.ofFn_injective e
    show _ ∈ A
    rwa [← this]
  · obtain ⟨w, len, -, hall⟩ := distributed_eq_sequential _ file hv' clock root
    obtain ⟨⟨w₀, h0, -⟩, -⟩ := hall [] _ rfl
    obtain ⟨st, hst, h2⟩ := hex' w₀ _ h0 (finalSys_done root w) root
    obtain ⟨tab, htab, h3⟩ := h2 rfl
    exact ⟨w₀, _, st, tab, h0, finalSys_done root w, hst, htab, _, h, h3⟩

set_option smartUnfolding false in
theorem estimate_user (Ω : ℕ → Draws) (T : Target d) (lo hi : Fin d → ℝ) (ks : Fin d → Draw) (beta : Fin n → ℝ) (root : Fin n) (k B : Nat) (r : Fin n) (f : (Fin d → ℝ) → ℝ) :
    (jobOf T lo hi ks beta { cfg with user := @Model.user ℝ _ (ideal Ω) m bounds ndim } root).estimate k B r f =
      (jobOf T lo hi ks beta { cfg with user := m.user bounds ndim } root).estimate k B r f := rfl

set_option smartUnfolding false in
theorem inStep_user (Ω : ℕ → Draws) (T : Target d) (lo hi : Fin d → ℝ) (ks : Fin d → Draw) (beta : Fin n → ℝ) (root : Fin n) (k : Nat) :
    (jobOf T lo hi ks beta { cfg with user := @Model.user ℝ _ (ideal Ω) m bounds ndim } root).InStep k =
      (jobOf T lo hi ks beta { cfg with user := m.user bounds ndim } root).InStep k := rfl

/-- **C88, averages after a tuning of the widths.** The run of C87 with an ideal generator. -/
theorem driven_tuned_average (ndim : Int) (ks : Fin d → Draw) (lo hi : Fin d → ℝ) (T : Target d) (hv : Valid n cfg file)
    (hu : cfg.user = m.user (List.ofFn fun i => (lo i, hi i)) ndim) (hd : m.draws = List.ofFn ks) (hN : cfg.nParm = d) (hlo : ∀ i, lo i < hi i)
    (hfit : ∀ i, (ks i).Fits (lo i, hi i)) (data : List ℝ) (hdata : file.cells = .ok data)
    (hT : ∀ b (x : Fin d → ℝ), Spec.target cfg.user file.nlines data b (List.ofFn x) = T.lp b x) (hl : cfg.tuneLadder ≤ 0)
    (k B j : Nat) (hkB : k * cfg.nStack.toNat + j ≤ B) (hBN : B < cfg.nIter.toNat) (hw : ∀ j, k * cfg.nStack < j → inTuneWindow cfg j = false) (hB : cfg.saveBegin ≤ B + 1)
    (hh : 1 ≤ cfg.halfRatio) (hj : 1 ≤ cfg.jumpin) (a b : Fin d → ℝ) (ha : ∀ i, cfg.sigmaMin[i.val]? = some (a i)) (hb : ∀ i, cfg.sigmaMax[i.val]? = some (b i))
    (ha0 : ∀ i, 0 < a i) (hab : ∀ i, a i * cfg.jumpin ≤ b i)
    (hinit : ∀ i, a i ≤ (hi i - lo i) * cfg.initGpRatio ∧ (hi i - lo i) * cfg.initGpRatio ≤ b i)
    (V γ α C : ℝ) (hM : ∀ beta root cfg, (jobOf (n := n) T lo hi ks beta cfg root).Rates a b V γ α C) (hvar : ∀ t ∈ cfg.betas, Varies lo hi (T.lp t) V) (clock : Nat) (root r : Fin n)
    (g : List ℝ → ℝ) (hg : Measurable fun x : Fin d → ℝ => g (List.ofFn x)) (g0 : ∀ x, 0 ≤ g x) (g1 : ∀ x, g x ≤ 1) :
    ∃ beta : Fin n → ℝ, copyBetas n cfg.betas = .ok beta ∧ ∀ ε : ℝ, 0 < ε →
      unifSeeds.real {Ω | ∃ (w : List (Label n)) (t : Sys n (Msg ℝ) (Line ℝ) (RSt n ℝ)),
          (drivenBy Ω m (List.ofFn fun i => (lo i, hi i)) ndim cfg file clock root).exec w = some t ∧ t.AllDone ∧
          ε ≤ |rowAverage B g (fileRows r.val (t.log r)) -
            (∫ x : Fin d → ℝ, g (List.ofFn x) ∂(posterior (volume.restrict (openBox lo hi)) (T.lp (beta r)))) /
              (posterior (volume.restrict (openBox lo hi)) (T.lp (beta r))).real univ|} ≤
        1 / (γ * (cfg.nIter.toNat - B : Nat) * ε ^ 2) +
          mixError (n * d * (2 / 10 ^ 16)) γ α C (cfg.nIter.toNat - k * cfg.nStack.toNat) (B - k * cfg.nStack.toNat) j := by
  obtain ⟨beta, hbeta, -, hP⟩ := tuned_widths_mixing m ndim ks lo hi T cfg file hv hu hd hN hlo hfit data hdata hT hl k B j hkB hBN hw hB hh hj a b ha hb ha0 hab hinit V γ α C
    (fun _ _ => hM _ _ _) hvar clock root r g hg g0 g1
  refine ⟨beta, hbeta, fun ε hε => le_trans (ideal_le root (by have := hv.ranksInt; omega) (startSeed cfg clock) ?_) (hP ε hε)⟩
  rintro Ω hΩ ⟨w, t, ht, hdone, hε'⟩
  let := ideal Ω
  have := ideal_unit hΩ
  obtain ⟨beta', hb', hex, -⟩ := tuned_widths_mixing m ndim ks lo hi T _ file (ideal_valid Ω hv hu) rfl hd hN hlo hfit data hdata (fun b x => by rw [← hT, hu]; rfl) hl k B j hkB hBN hw hB hh hj
    a b ha hb ha0 hab hinit V γ α C (fun _ _ => hM _ _ _) hvar clock root r g hg g0 g1
  have hb' : copyBetas n cfg.betas = .ok beta' := hb'
  rw [hbeta] at hb'
  cases hb'
  rw [hex w t ht hdone, estimate_user, ← hu] at hε'
  rw [← ideal_streams]
  exact hε'

/-- **C88, averages after a tuning of the widths and a ladder of three ranks.** The run of C87 with an ideal generator; the executions in which a value left over from an earlier ladder has
survived the tuning are accounted for. -/
theorem driven_ladder_three {cfg : Cfg ℝ} (ndim : Int) (ks : Fin d → Draw) (lo hi : Fin d → ℝ) (T : Target d) (hv : Valid 3 cfg file)
    (hu : cfg.user = m.user (List.ofFn fun i => (lo i, hi i)) ndim) (hd : m.draws = List.ofFn ks) (hN : cfg.nParm = d) (hlo : ∀ i, lo i < hi i)
    (hfit : ∀ i, (ks i).Fits (lo i, hi i)) (data : List ℝ) (hdata : file.cells = .ok data)
    (hT : ∀ b (x : Fin d → ℝ), Spec.target cfg.user file.nlines data b (List.ofFn x) = T.lp b x) (k0 k B j : Nat) (hk0 : k0 ≤ k)
    (hstop : cfg.nStopTuneLadder ≤ (k0 + 1) * cfg.nStack) (hl : cfg.nStopTuneLadder ≤ k * cfg.nStack)
    (hkB : k * cfg.nStack.toNat + j ≤ B) (hBN : B < cfg.nIter.toNat) (hw : ∀ j, k * cfg.nStack < j → inTuneWindow cfg j = false) (hB : cfg.saveBegin ≤ B + 1)
    (hh : 1 ≤ cfg.halfRatio) (hj : 1 ≤ cfg.jumpin) (a b : Fin d → ℝ) (ha : ∀ i, cfg.sigmaMin[i.val]? = some (a i)) (hb : ∀ i, cfg.sigmaMax[i.val]? = some (b i))
    (ha0 : ∀ i, 0 < a i) (hab : ∀ i, a i * cfg.jumpin ≤ b i)
    (hinit : ∀ i, a i ≤ (hi i - lo i) * cfg.initGpRatio ∧ (hi i - lo i) * cfg.initGpRatio ≤ b i)
    (hs0 : 0 ≤ cfg.scaleLadder) (hz0 : 0 ≤ cfg.zeroStretch) (hz1 : cfg.zeroStretch ≤ 1)
    (b0 b1 b2 : ℝ) (rest : List ℝ) (hbetas : cfg.betas = b0 :: b1 :: b2 :: rest) (hb0 : 0 < b0) (hb1 : b0 ≤ b1) (hb2 : b1 ≤ b2) (hgap : b0 * (1 + 2 / 100) ≤ b2)
    (V γ α C : ℝ) (hM : ∀ beta root cfg, (jobOf (n := 3) T lo hi ks beta cfg root).Rates a b V γ α C)
    (hV : ∀ s ∈ Icc b0 b2, ∀ t ∈ Icc b0 b2, ∀ x y, InBox lo hi x → InBox lo hi y → T.lp s x - T.lp t y ≤ V) (clock : Nat) (root r : Fin 3) (hr : r ≠ 1) (g : List ℝ → ℝ)
    (hg : Measurable fun x : Fin d → ℝ => g (List.ofFn x)) (g0 : ∀ x, 0 ≤ g x) (g1 : ∀ x, g x ≤ 1) :
    ∃ beta : Fin 3 → ℝ, copyBetas 3 cfg.betas = .ok beta ∧ ∀ ε : ℝ, 0 < ε →
      unifSeeds.real {Ω | ∃ (w : List (Label 3)) (t : Sys 3 (Msg ℝ) (Line ℝ) (RSt 3 ℝ)),
          (drivenBy Ω m (List.ofFn fun i => (lo i, hi i)) ndim cfg file clock root).exec w = some t ∧ t.AllDone ∧
          ε ≤ |rowAverage B g (fileRows r.val (t.log r)) -
            (∫ x : Fin d → ℝ, g (List.ofFn x) ∂(posterior (volume.restrict (openBox lo hi)) (T.lp (beta r)))) /
              (posterior (volume.restrict (openBox lo hi)) (T.lp (beta r))).real univ|} ≤
        1 / (γ * (cfg.nIter.toNat - B : Nat) * ε ^ 2) +
          mixError ((3 : Nat) * d * (2 / 10 ^ 16)) γ α C (cfg.nIter.toNat - k * cfg.nStack.toNat) (B - k * cfg.nStack.toNat) j +
          3 * (1 - Real.exp (-V)) ^ ((k - k0) * cfg.nStack.toNat) := by
  obtain ⟨beta, hbeta, -, hst, hP⟩ := tuned_ladder_three_mixing m ndim ks lo hi T cfg file hv hu hd hN hlo hfit data hdata hT k0 k B j hk0 hstop hl hkB hBN hw hB hh hj a b ha hb ha0 hab
    hinit hs0 hz0 hz1 b0 b1 b2 rest hbetas hb0 hb1 hb2 hgap V γ α C (fun _ _ => hM _ _ _) hV clock root r hr g hg g0 g1
  refine ⟨beta, hbeta, fun ε hε => le_trans (ideal_le root (by norm_num) (startSeed cfg clock) ?_) ((measureReal_union_le _ _).trans (add_le_add (hP ε hε) hst))⟩
  rintro Ω hΩ ⟨w, t, ht, hdone, hε'⟩
  let := ideal Ω
  have := ideal_unit hΩ
  obtain ⟨beta', hb', hex, -, -⟩ := tuned_ladder_three_mixing m ndim ks lo hi T _ file (ideal_valid Ω hv hu) rfl hd hN hlo hfit data hdata (fun b x => by rw [← hT, hu]; rfl) k0 k B j hk0 hstop
    hl hkB hBN hw hB hh hj a b ha hb ha0 hab hinit hs0 hz0 hz1 b0 b1 b2 rest hbetas hb0 hb1 hb2 hgap V γ α C (fun _ _ => hM _ _ _) hV clock root r hr g hg g0 g1
  have hb' : copyBetas 3 cfg.betas = .ok beta' := hb'
  rw [hbeta] at hb'
  cases hb'
  have hex := hex w t ht hdone
  rw [inStep_user, estimate_user, ← hu] at hex
  rw [← ideal_streams]
  by_cases hs : (jobOf T lo hi ks beta cfg root).InStep k fun q => @streamOf (ideal Ω) (@srand48 ℝ (ideal Ω) (seedOf root (startSeed cfg clock) q))
  · refine Or.inl ?_
    rw [hex hs] at hε'
    exact hε'
  · exact Or.inr hs

end

/-! ## The egg box model -/

theorem eggbox_ranges : (List.ofFn fun _ : Fin 2 => ((0 : ℝ), (50 : ℝ))) = [(0, 50), (0, 50)] := by simp [List.ofFn_succ]

/-- **C88 for the egg box model**: three ranks, the ranges of its sample input, widths of a tenth of the ranges, nothing tuned, an ideal generator. The probability that a finished execution
leaves a chain file whose average, over its `K` rows after the first half million or more, misses the mean under the tempered posterior by `ε` or more. -/
theorem eggbox_driven_average (cfg : Cfg ℝ) (file : DataFile ℝ) (hv : Valid 3 cfg file) (ndim : Int) (hu : cfg.user = eggbox.user [(0, 50), (0, 50)] ndim)
    (hN : cfg.nParm = 2) (hr : cfg.initGpRatio = 1 / 10) (hb : ∀ b ∈ cfg.betas, 0 ≤ b ∧ b ≤ 1) (hlim : cfg.nIter ≤ 10 ^ 9)
    (hw : ∀ k, 0 < k → inTuneWindow cfg k = false) (hl : cfg.tuneLadder ≤ 0) (B : Nat) (hs : cfg.saveBegin ≤ B + 1) (hlong : 500000 ≤ B) (hB : B < cfg.nIter.toNat)
    (clock : Nat) (root r : Fin 3) (g : List ℝ → ℝ) (hg : Measurable fun x : Fin 2 → ℝ => g (List.ofFn x)) (g0 : ∀ x, 0 ≤ g x) (g1 : ∀ x, g x ≤ 1) :
    ∃ beta : Fin 3 → ℝ, copyBetas 3 cfg.betas = .ok beta ∧ ∀ ε : ℝ, 0 < ε →
      unifSeeds.real {Ω | ∃ (w : List (Label 3)) (t : Sys 3 (Msg ℝ) (Line ℝ) (RSt 3 ℝ)),
          (drivenBy Ω eggbox [(0, 50), (0, 50)] ndim cfg file clock root).exec w = some t ∧ t.AllDone ∧
          ε ≤ |rowAverage B g (fileRows r.val (t.log r)) -
            (∫ x : Fin 2 → ℝ, g (List.ofFn x) ∂(posterior (volume.restrict (openBox (fun _ => 0) fun _ => 50)) (eggboxTarget.lp (beta r)))) /
              (posterior (volume.restrict (openBox (fun _ => 0) fun _ => 50)) (eggboxTarget.lp (beta r))).real univ|} ≤
        5000 / ((cfg.nIter.toNat - B : Nat) * ε ^ 2) + 1 / 10 ^ 4 := by
  obtain ⟨data, hdata, -⟩ := hv.cells
  obtain ⟨beta, hbeta, h⟩ := driven_average (m := eggbox) ndim (fun _ : Fin 2 => .unif) (fun _ => 0) (fun _ => 50) eggboxTarget hv (by rw [hu, eggbox_ranges])
    (by simp [eggbox, model2, List.ofFn_succ]) hN (fun _ => by norm_num) (fun _ => by show (0 : ℝ) ≤ 50; norm_num) (by rw [hr]; norm_num) data hdata
    (fun b x => by rw [hu]; exact eggbox_target _ _ _ _ b x) hw hl B hs hB clock root r g hg g0 g1
  rw [hr] at h
  obtain ⟨hS, hM, he⟩ := eggbox_mixes beta (fun r => (hb _ (copyBetas_mem hbeta r)).1) fun r => (hb _ (copyBetas_mem hbeta r)).2
  refine ⟨beta, hbeta, fun ε hε => ?_⟩
  have h := h _ _ _ _ hS hM 6000 (by omega) ε hε
  rw [eggbox_ranges] at h
  have h2 := eggbox_mixError cfg.nIter.toNat B hlong (by omega) _ he
  have hK : (0 : ℝ) < (cfg.nIter.toNat - B : Nat) := by
    have : 0 < cfg.nIter.toNat - B := by omega
    exact_mod_cast this
  have e : 1 / (1 / 5000 * ((cfg.nIter.toNat - B : Nat) : ℝ) * ε ^ 2) = 5000 / ((cfg.nIter.toNat - B : Nat) * ε ^ 2) := by
    field_simp
  rw [e] at h
  exact h.trans (add_le_add le_rfl h2)

/-- **C88, law for the egg box model** in the same setting. -/
theorem eggbox_driven_law (cfg : Cfg ℝ) (file : DataFile ℝ) (hv : Valid 3 cfg file) (ndim : Int) (hu : cfg.user = eggbox.user [(0, 50), (0, 50)] ndim)
    (hN : cfg.nParm = 2) (hr : cfg.initGpRatio = 1 / 10) (hb : ∀ b ∈ cfg.betas, 0 ≤ b ∧ b ≤ 1) (hlong : 500000 ≤ cfg.nIter) (hlim : cfg.nIter ≤ 10 ^ 9)
    (hw : ∀ k, 0 < k → inTuneWindow cfg k = false) (hl : cfg.tuneLadder ≤ 0) (clock : Nat) (root : Fin 3) :
    ∃ beta : Fin 3 → ℝ, copyBetas 3 cfg.betas = .ok beta ∧ ∀ (A : Set (Fin 3 → Fin 2 → ℝ)), MeasurableSet A →
      |unifSeeds.real {Ω | ∃ (w : List (Label 3)) (t : Sys 3 (Msg ℝ) (Line ℝ) (RSt 3 ℝ)) (st : RSt 3 ℝ) (tab : Tab 3 ℝ),
          (drivenBy Ω eggbox [(0, 50), (0, 50)] ndim cfg file clock root).exec w = some t ∧ t.AllDone ∧ t.procs root = .ret st ∧ st.tab = some tab ∧
          ∃ x ∈ A, ∀ q, tab.x q = List.ofFn (x q)} -
        (joint eggboxTarget (fun _ => 0) (fun _ => 50) beta).real A / (joint eggboxTarget (fun _ => 0) (fun _ => 50) beta).real univ| ≤ 1 / 10 ^ 4 := by
  obtain ⟨data, hdata, -⟩ := hv.cells
  obtain ⟨beta, hbeta, h⟩ := driven_law (m := eggbox) ndim (fun _ : Fin 2 => .unif) (fun _ => 0) (fun _ => 50) eggboxTarget hv (by rw [hu, eggbox_ranges])
    (by simp [eggbox, model2, List.ofFn_succ]) hN (fun _ => by norm_num) (fun _ => by show (0 : ℝ) ≤ 50; norm_num) (by rw [hr]; norm_num) data hdata
    (fun b x => by rw [hu]; exact eggbox_target _ _ _ _ b x) hw hl (by omega) clock root
  rw [hr] at h
  obtain ⟨hS, hM, he⟩ := eggbox_mixes beta (fun r => (hb _ (copyBetas_mem hbeta r)).1) fun r => (hb _ (copyBetas_mem hbeta r)).2
  refine ⟨beta, hbeta, fun A hA => ?_⟩
  have h := h _ _ _ _ hS hM 6000 (by omega) A hA
  rw [eggbox_ranges] at h
  exact h.trans (eggbox_mixError _ _ (by omega) (by omega) _ he)

/-- The hypotheses hold for a run of ten and a half million iterations. -/
example (clock : Nat) : ∃ beta : Fin 3 → ℝ, copyBetas 3 eggboxLong.betas = .ok beta ∧ ∀ (A : Set (Fin 3 → Fin 2 → ℝ)), MeasurableSet A →
      |unifSeeds.real {Ω | ∃ (w : List (Label 3)) (t : Sys 3 (Msg ℝ) (Line ℝ) (RSt 3 ℝ)) (st : RSt 3 ℝ) (tab : Tab 3 ℝ),
          (drivenBy Ω eggbox [(0, 50), (0, 50)] 1 eggboxLong eggboxFile clock 0).exec w = some t ∧ t.AllDone ∧ t.procs 0 = .ret st ∧ st.tab = some tab ∧
          ∃ x ∈ A, ∀ q, tab.x q = List.ofFn (x q)} -
        (joint eggboxTarget (fun _ => 0) (fun _ => 50) beta).real A / (joint eggboxTarget (fun _ => 0) (fun _ => 50) beta).real univ| ≤ 1 / 10 ^ 4 :=
  eggbox_driven_law eggboxLong eggboxFile eggboxLong_valid 1 rfl rfl rfl
    (by simp only [eggboxLong, eggboxRun]; intro b hb; simp at hb; rcases hb with rfl | rfl | rfl <;> norm_num) (by simp [eggboxLong]) (by simp [eggboxLong]) eggboxLong_still
    (by simp [eggboxLong, eggboxRun]) clock 0

theorem below_measurable : Measurable fun x : Fin 2 → ℝ => if ∀ y ∈ List.ofFn x, y < 25 then (1 : ℝ) else 0 := by
  refine Measurable.ite ?_ measurable_const measurable_const
  have : {x : Fin 2 → ℝ | ∀ y ∈ List.ofFn x, y < 25} = ⋂ i, {x | x i < 25} := by
    ext x
    simp [List.mem_ofFn]
  rw [this]
  exact MeasurableSet.iInter fun i => measurableSet_lt (measurable_pi_apply i) measurable_const

/-- The fraction of rows of the coldest chain with both parameters below 25, after the first half million iterations of that run, is off by a tenth or more with a probability below six
percent. -/
example (clock : Nat) : ∃ beta : Fin 3 → ℝ, copyBetas 3 eggboxLong.betas = .ok beta ∧
    unifSeeds.real {Ω | ∃ (w : List (Label 3)) (t : Sys 3 (Msg ℝ) (Line ℝ) (RSt 3 ℝ)),
        (drivenBy Ω eggbox [(0, 50), (0, 50)] 1 eggboxLong eggboxFile clock 0).exec w = some t ∧ t.AllDone ∧
        1 / 10 ≤ |rowAverage 500000 (fun x => if ∀ y ∈ x, y < 25 then 1 else 0) (fileRows 2 (t.log 2)) -
          (∫ x : Fin 2 → ℝ, (if ∀ y ∈ List.ofFn x, y < 25 then 1 else 0) ∂(posterior (volume.restrict (openBox (fun _ => 0) fun _ => 50)) (eggboxTarget.lp (beta 2)))) /
            (posterior (volume.restrict (openBox (fun _ => 0) fun _ => 50)) (eggboxTarget.lp (beta 2))).real univ|} < 6 / 100 := by
  obtain ⟨beta, h1, h3⟩ := eggbox_driven_average eggboxLong eggboxFile eggboxLong_valid 1 rfl rfl rfl
    (by simp only [eggboxLong, eggboxRun]; intro b hb; simp at hb; rcases hb with rfl | rfl | rfl <;> norm_num) (by simp [eggboxLong]) eggboxLong_still (by simp [eggboxLong, eggboxRun])
    500000 (by simp [eggboxLong, eggboxRun, demoCfg]) le_rfl (by simp [eggboxLong]) clock 0 2 (fun x => if ∀ y ∈ x, y < 25 then 1 else 0) below_measurable
    (fun x => by split <;> norm_num) (fun x => by split <;> norm_num)
  refine ⟨beta, h1, lt_of_le_of_lt (h3 (1 / 10) (by norm_num)) ?_⟩
  have e : eggboxLong.nIter.toNat - 500000 = 10000000 := rfl
  rw [e]
  norm_num

/-- **C88 for the egg box model with tuned widths and ladder**: after the first eight million of 108 million iterations, the fraction of rows of the coldest chain with both parameters below 25
is off by a tenth or more with a probability below eight percent. -/
theorem eggbox_driven_tuned (clock : Nat) : ∃ beta : Fin 3 → ℝ, copyBetas 3 eggboxTunedLong.betas = .ok beta ∧
    unifSeeds.real {Ω | ∃ (w : List (Label 3)) (t : Sys 3 (Msg ℝ) (Line ℝ) (RSt 3 ℝ)),
        (drivenBy Ω eggbox [(0, 50), (0, 50)] 1 eggboxTunedLong eggboxFile clock 0).exec w = some t ∧ t.AllDone ∧
        1 / 10 ≤ |rowAverage 8000000 (fun x => if ∀ y ∈ x, y < 25 then 1 else 0) (fileRows 2 (t.log 2)) -
          (∫ x : Fin 2 → ℝ, (if ∀ y ∈ List.ofFn x, y < 25 then 1 else 0) ∂(posterior (volume.restrict (openBox (fun _ => 0) fun _ => 50)) (eggboxTarget.lp (beta 2)))) /
            (posterior (volume.restrict (openBox (fun _ => 0) fun _ => 50)) (eggboxTarget.lp (beta 2))).real univ|} < 8 / 100 := by
  obtain ⟨beta, h1, h4⟩ := driven_ladder_three (m := eggbox) (cfg := eggboxTunedLong) 1 (fun _ : Fin 2 => .unif) (fun _ => 0) (fun _ => 50) eggboxTarget eggboxTunedLong_valid
    (by show eggbox.user _ 1 = _; simp [List.ofFn_succ]) (by simp [eggbox, model2, List.ofFn_succ]) rfl (fun _ => by norm_num) (fun _ => by show (0 : ℝ) ≤ 50; norm_num) [0] rfl
    (fun b x => eggbox_target _ _ _ _ b x) 2 9 8000000 100000 (by norm_num) (by simp [eggboxTunedLong, eggboxLadder, eggboxTuned, eggboxRun])
    (by simp [eggboxTunedLong, eggboxLadder, eggboxTuned, eggboxRun])
    (by simp [eggboxTunedLong, eggboxLadder, eggboxTuned, eggboxRun]) (by simp [eggboxTunedLong])
    (fun j hj => by
      have hj : 9 * 1000 < j := hj
      show (decide ((3000 : Int) < j) && decide ((j : Int) < 9000) && decide ((j : Int) < 108000000)) = false
      rw [Bool.eq_false_iff]; simp only [ne_eq, Bool.and_eq_true, decide_eq_true_eq]; omega)
    (by simp [eggboxTunedLong, eggboxLadder, eggboxTuned, eggboxRun, demoCfg]) (by simp [eggboxTunedLong, eggboxLadder, eggboxTuned]) (by simp [eggboxTunedLong])
    (fun _ => 5 / 2) (fun _ => 5)
    (fun i => by fin_cases i <;> rfl) (fun i => by fin_cases i <;> rfl) (fun _ => by norm_num) (fun _ => by simp only [eggboxTunedLong]; norm_num)
    (fun _ => by simp only [eggboxTunedLong, eggboxLadder, eggboxTuned, eggboxRun]; norm_num)
    (by simp only [eggboxTunedLong, eggboxLadder]; norm_num) (by simp only [eggboxTunedLong, eggboxLadder]; norm_num) (by simp only [eggboxTunedLong, eggboxLadder]; norm_num)
    (1 / 10) (1 / 2) 1 [] (by simp [eggboxTunedLong, eggboxLadder, eggboxTuned, eggboxRun]) (by norm_num) (by norm_num) (by norm_num) (by norm_num)
    (29 / 10) (1 / 70000) (1 / 10000) (2 * 10 ^ 8) (fun _ _ _ => eggbox_rates _ _ _) (fun s hs t ht x y _ _ => by
      obtain ⟨x1, x2⟩ := eggbox_values x
      obtain ⟨y1, y2⟩ := eggbox_values y
      have e : ∀ b z, eggboxTarget.lp b z = b * eggboxTarget.L z + 1 := fun _ _ => rfl
      rw [e, e]
      nlinarith [hs.1, hs.2, ht.1, ht.2])
    clock 0 2 (by decide) (fun x => if ∀ y ∈ x, y < 25 then 1 else 0) below_measurable
    (fun x => by split <;> norm_num) (fun x => by split <;> norm_num)
  rw [eggbox_ranges] at h4
  refine ⟨beta, h1, (h4 (1 / 10) (by norm_num)).trans_lt ?_⟩
  have hstale : 3 * (1 - Real.exp (-(29 / 10 : ℝ))) ^ ((9 - 2) * eggboxTunedLong.nStack.toNat) ≤ 1 / 10 ^ 100 := by
    have he := exp_29
    have h21 : 1 - Real.exp (-(29 / 10 : ℝ)) ≤ 20 / 21 := by linarith
    have hp0 : 0 ≤ 1 - Real.exp (-(29 / 10 : ℝ)) := by linarith [Real.exp_le_one_iff.2 (show -(29 / 10 : ℝ) ≤ 0 by norm_num)]
    have h200 : (1 - Real.exp (-(29 / 10 : ℝ))) ^ 200 ≤ 1 / 10 ^ 4 := (pow_le_pow_left₀ hp0 h21 200).trans (by norm_num)
    show 3 * (1 - Real.exp (-(29 / 10 : ℝ))) ^ (200 * 35) ≤ _
    rw [pow_mul]
    calc 3 * ((1 - Real.exp (-(29 / 10 : ℝ))) ^ 200) ^ 35 ≤ 3 * (1 / 10 ^ 4) ^ 35 := by gcongr
      _ ≤ 1 / 10 ^ 100 := by norm_num
  obtain ⟨N, hN⟩ : ∃ N, N = 107991000 := ⟨_, rfl⟩
  obtain ⟨M, hM⟩ : ∃ M, M = 7991000 := ⟨_, rfl⟩
  obtain ⟨j, hj⟩ : ∃ j, j = 100000 := ⟨_, rfl⟩
  have e1 : eggboxTunedLong.nIter.toNat - 8000000 = 100000000 := rfl
  have e2 : eggboxTunedLong.nIter.toNat - 9 * eggboxTunedLong.nStack.toNat = N := hN ▸ rfl
  have e3 : 8000000 - 9 * eggboxTunedLong.nStack.toNat = M := hM ▸ rfl
  refine lt_of_le_of_lt (add_le_add le_rfl hstale) ?_
  rw [e1, e2, e3, ← hj]
  have : (1 : ℝ) / (1 / 70000 * (100000000 : Nat) * (1 / 10) ^ 2) = 7 / 100 := by norm_num
  rw [this]
  have small : (1 : ℝ) / 10 ^ 100 ≤ 1 / 10 ^ 4 := by norm_num
  have : mixError ((3 : Nat) * (2 : Nat) * (2 / 10 ^ 16)) (1 / 70000) (1 / 10000) (2 * 10 ^ 8) N M j < 99 / 10000 := tunedLong_error N M j hN hM hj
  linarith

/-- The hypotheses of `driven_tuned_average` hold for the same run with its ladder left alone. -/
example (clock : Nat) : ∃ beta : Fin 3 → ℝ, copyBetas 3 eggboxTunedLong.betas = .ok beta ∧
    unifSeeds.real {Ω | ∃ (w : List (Label 3)) (t : Sys 3 (Msg ℝ) (Line ℝ) (RSt 3 ℝ)),
        (drivenBy Ω eggbox [(0, 50), (0, 50)] 1 { eggboxTunedLong with tuneLadder := 0 } eggboxFile clock 0).exec w = some t ∧ t.AllDone ∧
        1 / 10 ≤ |rowAverage 8000000 (fun x => if ∀ y ∈ x, y < 25 then 1 else 0) (fileRows 2 (t.log 2)) -
          (∫ x : Fin 2 → ℝ, (if ∀ y ∈ List.ofFn x, y < 25 then 1 else 0) ∂(posterior (volume.restrict (openBox (fun _ => 0) fun _ => 50)) (eggboxTarget.lp (beta 2)))) /
            (posterior (volume.restrict (openBox (fun _ => 0) fun _ => 50)) (eggboxTarget.lp (beta 2))).real univ|} < 8 / 100 := by
  have hv : Valid 3 { eggboxTunedLong with tuneLadder := 0 } eggboxFile := { eggboxTunedLong_valid with user := eggboxTunedLong_valid.user }
  obtain ⟨beta, h1, h4⟩ := driven_tuned_average (m := eggbox) 1 (fun _ : Fin 2 => .unif) (fun _ => 0) (fun _ => 50) eggboxTarget hv
    (by show eggbox.user _ 1 = _; simp [List.ofFn_succ]) (by simp [eggbox, model2, List.ofFn_succ]) rfl (fun _ => by norm_num) (fun _ => by show (0 : ℝ) ≤ 50; norm_num) [0] rfl
    (fun b x => eggbox_target _ _ _ _ b x) le_rfl 9 8000000 100000
    (by simp [eggboxTunedLong, eggboxLadder, eggboxTuned, eggboxRun]) (by simp [eggboxTunedLong])
    (fun j hj => by
      have hj : 9 * 1000 < j := hj
      show (decide ((3000 : Int) < j) && decide ((j : Int) < 9000) && decide ((j : Int) < 108000000)) = false
      rw [Bool.eq_false_iff]; simp only [ne_eq, Bool.and_eq_true, decide_eq_true_eq]; omega)
    (by simp [eggboxTunedLong, eggboxLadder, eggboxTuned, eggboxRun, demoCfg]) (by simp [eggboxTunedLong, eggboxLadder, eggboxTuned]) (by simp [eggboxTunedLong])
    (fun _ => 5 / 2) (fun _ => 5)
    (fun i => by fin_cases i <;> rfl) (fun i => by fin_cases i <;> rfl) (fun _ => by norm_num) (fun _ => by simp only [eggboxTunedLong]; norm_num)
    (fun _ => by simp only [eggboxTunedLong, eggboxLadder, eggboxTuned, eggboxRun]; norm_num)
    (29 / 10) (1 / 70000) (1 / 10000) (2 * 10 ^ 8) (fun _ _ _ => eggbox_rates _ _ _)
    (fun t ht => by
      have ht : t ∈ [(1 / 10 : ℝ), 1 / 2, 1] := by simpa [eggboxTunedLong, eggboxLadder, eggboxTuned, eggboxRun] using ht
      have h01 : 0 ≤ t ∧ t ≤ 1 := by
        simp only [List.mem_cons, List.not_mem_nil, or_false] at ht
        rcases ht with rfl | rfl | rfl <;> norm_num
      intro x _ y _
      obtain ⟨x1, x2⟩ := eggbox_values x
      obtain ⟨y1, y2⟩ := eggbox_values y
      have e : ∀ b z, eggboxTarget.lp b z = b * eggboxTarget.L z + 1 := fun _ _ => rfl
      rw [e, e]
      nlinarith [h01.1, h01.2])
    clock 0 2 (fun x => if ∀ y ∈ x, y < 25 then 1 else 0) below_measurable
    (fun x => by split <;> norm_num) (fun x => by split <;> norm_num)
  rw [eggbox_ranges] at h4
  refine ⟨beta, h1, (h4 (1 / 10) (by norm_num)).trans_lt ?_⟩
  obtain ⟨N, hN⟩ : ∃ N, N = 107991000 := ⟨_, rfl⟩
  obtain ⟨M, hM⟩ : ∃ M, M = 7991000 := ⟨_, rfl⟩
  obtain ⟨j, hj⟩ : ∃ j, j = 100000 := ⟨_, rfl⟩
  have e1 : eggboxTunedLong.nIter.toNat - 8000000 = 100000000 := rfl
  have e2 : eggboxTunedLong.nIter.toNat - 9 * eggboxTunedLong.nStack.toNat = N := hN ▸ rfl
  have e3 : 8000000 - 9 * eggboxTunedLong.nStack.toNat = M := hM ▸ rfl
  show 1 / (1 / 70000 * ((eggboxTunedLong.nIter.toNat - 8000000 : Nat) : ℝ) * (1 / 10) ^ 2) + mixError ((3 : Nat) * (2 : Nat) * (2 / 10 ^ 16)) (1 / 70000) (1 / 10000) (2 * 10 ^ 8)
    (eggboxTunedLong.nIter.toNat - 9 * eggboxTunedLong.nStack.toNat) (8000000 - 9 * eggboxTunedLong.nStack.toNat) 100000 < _
  rw [e1, e2, e3, ← hj]
  have key := tunedLong_error N M j hN hM hj
  have : (1 : ℝ) / (1 / 70000 * (100000000 : Nat) * (1 / 10) ^ 2) = 7 / 100 := by norm_num
  rw [this]
  linarith

/-- `driven_ends` for that run. -/
example (clock : Nat) : ∀ᵐ Ω ∂unifSeeds, ∃ t : Sys 3 (Msg ℝ) (Line ℝ) (RSt 3 ℝ), t.AllDone ∧
    ∀ (w : List (Label 3)) (s : Sys 3 (Msg ℝ) (Line ℝ) (RSt 3 ℝ)), (drivenBy Ω eggbox [(0, 50), (0, 50)] 1 eggboxTunedLong eggboxFile clock 0).exec w = some s →
      (∃ w', s.exec w' = some t) ∧ (s.AllDone → s = t) :=
  driven_ends eggboxTunedLong_valid rfl clock 0

end NiiC
