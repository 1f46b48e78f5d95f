import Verif.Model.Samples
import Verif.Props.Texts

/-!
# The sample configuration files: C82
-/

set_option linter.unusedSectionVars false

namespace NiiC
open Spec Samples

/-! ## Checking a sample -/

instance (t : DecText) : Decidable t.Wf :=
  decidable_of_iff ((t.digits ≠ [] ∨ t.decimals.getD [] ≠ []) ∧ ∀ e ∈ t.exponent.toList, e.digits ≠ [])
    ⟨fun h => ⟨h.1, fun e he => h.2 e (by simpa using he)⟩, fun h => ⟨h.1, fun e he => h.2 e (by simpa using he)⟩⟩

instance (s : Str) : Decidable (Blank s) := inferInstanceAs (Decidable (∀ c ∈ s, c = ' ' ∨ c = '\t'))

instance (s : Str) : Decidable (Word s) :=
  decidable_of_iff (s ≠ [] ∧ ∀ c ∈ s, isSpace c = false) ⟨fun h => ⟨h.1, h.2⟩, fun h => ⟨h.1, h.2⟩⟩

/-- The white space around the value of a name. -/
def spaceOf (l : List (Str × Str × Str)) (k : Str) : Str × Str := (l.lookup k).getD ([], [])

theorem spaceOf_blank (l : List (Str × Str × Str)) (h : ∀ p ∈ l, Blank p.2.1 ∧ Blank p.2.2) (k : Str) : Blank (spaceOf l k).1 ∧ Blank (spaceOf l k).2 := by
  induction l with
  | nil => exact ⟨fun c hc => by simp [spaceOf] at hc, fun c hc => by simp [spaceOf] at hc⟩
  | cons p l ih =>
    unfold spaceOf at ih ⊢
    obtain ⟨a, b⟩ := p
    rw [List.lookup_cons]
    cases hk : k == a with
    | true => exact h (a, b) (by simp)
    | false => exact ih (fun q hq => h q (by simp [hq]))

/-- The text of a sample. -/
def Samples.Sample.text (s : Sample) : Str := textOf s.lines

/-- What has to be checked of a sample: its lines are its entries and its comments, the values are values and fit the variables. -/
def Samples.Sample.Good (s : Sample) (pairs : List (Str × Str)) : Prop :=
  s.ranges.length = pairs.length ∧ (∀ p ∈ s.space, Blank p.2.1 ∧ Blank p.2.2) ∧
  (∀ l ∈ s.comments, '\n' ∉ l ∧ '\x00' ∉ l ∧ ∀ k ∈ coreNames ++ (rangeEntries pairs s.ranges).map Prod.fst, ¬ k <:+: l) ∧
  (∀ e ∈ s.settings.entries ++ (rangeEntries pairs s.ranges).map (fun e => (e.1, e.2.text)),
    (entryLine (fun k => (spaceOf s.space k).1) (fun k => (spaceOf s.space k).2) e).length + 1 < 100) ∧
  s.lines.Perm ((s.settings.entries ++ (rangeEntries pairs s.ranges).map (fun e => (e.1, e.2.text))).map
    (entryLine (fun k => (spaceOf s.space k).1) (fun k => (spaceOf s.space k).2)) ++ s.comments) ∧
  (∀ e ∈ rangeEntries pairs s.ranges, e.2.Wf) ∧
  (∀ t ∈ [s.settings.foutPre, s.settings.foutSuf, s.settings.resultsDir, s.settings.dataFile, s.settings.delimiter],
    (∀ e ∈ rangeEntries pairs s.ranges, ¬ e.1 <:+: t) ∧ (∀ k ∈ coreNames, ¬ k <:+: t) ∧ Word t ∧ '\x00' ∉ t)

instance (s : Sample) (pairs : List (Str × Str)) : Decidable (s.Good pairs) := by unfold Samples.Sample.Good; infer_instance

theorem good_express {s : Sample} {pairs : List (Str × Str)} (h : s.Good pairs) : ExpressesWith s.settings (rangeEntries pairs s.ranges) s.text :=
  ⟨⟨_, _, s.comments, s.lines, spaceOf_blank _ h.2.1, h.2.2.1, h.2.2.2.1, h.2.2.2.2.1, rfl⟩, h.2.2.2.2.2.1, fun t ht => (h.2.2.2.2.2.2 t ht).1⟩

/-- The numbers of a sample are numbers. -/
def Samples.Sample.Written (s : Sample) : Prop :=
  let w := s.settings
  (∀ t ∈ [w.nParm, w.nIter, w.nStoptune, w.nBegintune, w.tuneLadder, w.nStopTuneLadder, w.nBeta, w.foutLen, w.ndim, w.initSeed,
    w.saveBegin, w.nStack, w.base, w.rand, w.nIterInTune, w.nSwap, w.swapmode], t.digits ≠ []) ∧
  (∀ t ∈ [w.scaleLadder, w.zeroStretch, w.beta0, w.initGpRatio, w.arLower, w.arUpper, w.arBest, w.arAcceptDiff, w.halfRatio,
    w.scaleMin, w.scaleMax, w.jumpin], t.Wf) ∧ ∀ p ∈ w.betas, Blank p.1 ∧ p.2.Wf

instance (s : Sample) : Decidable s.Written := by unfold Samples.Sample.Written; infer_instance

theorem good_wf {s : Sample} {pairs : List (Str × Str)} (h : s.Good pairs) (hw : s.Written) : s.settings.Wf :=
  ⟨hw.1, hw.2.1, hw.2.2, fun t ht => (h.2.2.2.2.2.2 t ht).2.2, fun t ht => (h.2.2.2.2.2.2 t ht).2.1⟩

instance (w : Settings) : Decidable w.Fits :=
  decidable_of_iff ((∀ t ∈ [w.nParm, w.nIter, w.nStoptune, w.nBegintune, w.tuneLadder, w.nStopTuneLadder, w.nBeta, w.foutLen, w.ndim,
    w.nStack, w.base, w.rand, w.nIterInTune, w.nSwap, w.swapmode], -2147483648 ≤ t.value ∧ t.value ≤ 2147483647) ∧
    (∀ t ∈ [w.initSeed, w.saveBegin], 0 ≤ t.value ∧ t.value < 4294967296) ∧ w.nBeta.value = (w.betas.length : Int) + 1)
    ⟨fun h => ⟨h.1, h.2.1, h.2.2⟩, fun h => ⟨h.ints, h.uns, h.count⟩⟩

/-- The sample file of the eggbox model with another beginning of tuning: 1000000000 for 100000000000. -/
def eggboxRepaired : Sample :=
  { eggboxSample with
    lines := eggboxSample.lines.map fun l => if l = (c!"N_begintune:            100000000000") then c!"N_begintune:            1000000000" else l
    settings :=
      { eggboxSample.settings with
        nBegintune := ⟨.none, [1, 0, 0, 0, 0, 0, 0, 0, 0, 0]⟩ } }

/-- The samples that the present program can read. -/
def readable : List (Sample × List (Str × Str)) :=
  [(regressionSample, regressionPairs), (gaussianSample, gaussianPairs), (curvedSample, gaussianPairs), (rastriginSampleA, rastriginPairs),
   (rastriginSampleB, rastriginPairs), (rastriginSampleC, rastriginPairs), (rastriginSampleD, rastriginPairs), (eggboxRepaired, gaussianPairs)]

theorem samples_good : ∀ s ∈ readable, s.1.Good s.2 ∧ s.1.Written ∧ s.1.settings.Fits := by decide +kernel

/-! ## The samples that run -/

section
variable {F : Type} [Arith F] [Source F] {n : Nat}

/-- Each readable sample with its model. -/
def sampleRuns (F : Type) [Arith F] : List (Sample × (Model F × List (Str × Str) × Nat)) :=
  [(regressionSample, (regression, regressionPairs, 2)), (gaussianSample, (multiGaussian, gaussianPairs, 0)), (curvedSample, (curved, gaussianPairs, 0)),
   (rastriginSampleA, (rastrigin, rastriginPairs, 0)), (rastriginSampleB, (rastrigin, rastriginPairs, 0)), (rastriginSampleC, (rastrigin, rastriginPairs, 0)),
   (rastriginSampleD, (rastrigin, rastriginPairs, 0)), (eggboxRepaired, (eggbox, gaussianPairs, 0))]

theorem sampleRuns_readable : ∀ e ∈ sampleRuns F, (e.1, e.2.2.1) ∈ readable ∧ e.2 ∈ modelTable F ∧ e.2.2.2 ≤ 2 := by
  intro e he
  simp only [sampleRuns, List.mem_cons, List.not_mem_nil, or_false] at he
  rcases he with rfl | rfl | rfl | rfl | rfl | rfl | rfl | rfl <;> refine ⟨?_, ?_, by norm_num⟩ <;> simp [readable, modelTable]

theorem samples_numbers : ∀ s ∈ readable, s.1.settings.nParm.value = s.2.length ∧ 1 ≤ s.2.length ∧ s.1.settings.ndim.value = 2 ∧
    s.1.settings.separators = [' '] ∧ 1 ≤ s.1.settings.nStack.value ∧
    (0 ≤ s.1.settings.rand.value ∧ s.1.settings.rand.value < s.1.settings.base.value) ∧
    (s.1.settings.swapmode.value = 0 ∨ s.1.settings.swapmode.value = 1) ∧ 1 ≤ s.1.settings.nIterInTune.value ∧
    (2 * s.1.settings.rand.value ≤ 2147483647 ∧ s.1.settings.nStack.value + s.1.settings.base.value + s.1.settings.rand.value ≤ 2147483647 ∧
      s.1.settings.nIter.value + s.1.settings.nStack.value ≤ 2147483647) := by decide +kernel

/-- **C82, the samples that run.** Each of these sample files of the repository (the eggbox one repaired), with its model, any number of ranks from two to the number of inverse temperatures written,
and any data file with two numbers separated by spaces on each line: the configuration is usable, every execution under every schedule can be completed, and no rank faults. -/
theorem sample_runs [LawfulDraws F] (other : Str → Option F) (e : Sample × (Model F × List (Str × Str) × Nat)) (he : e ∈ sampleRuns F) (rows : List RowText)
    (hrow : ∀ r ∈ rows, r.Wf [' '] ∧ r.nums.length = 2) (hlines : 2 * rows.length ≤ 2147483647) (files : Str → Str)
    (hfile : files e.1.settings.dataFile = tableText rows) (hn : 2 ≤ n ∧ n ≤ e.1.settings.betas.length + 1) (clock : Nat) (root : Fin n) :
    ∃ file : DataFile F, Valid n (cfgOf e.2.1 e.1.settings e.1.ranges) file ∧
      initText other (e.2.1.code other) e.1.text files clock root = initSys (cfgOf e.2.1 e.1.settings e.1.ranges) file clock root ∧
      ∃ (W : NiiC.W n F) (len : Nat), seqMain (cfgOf e.2.1 e.1.settings e.1.ranges) file clock root = .ok W ∧
        ∀ (w₁ : List (Label n)) (t : Sys n (Msg F) (Line F) (RSt n F)), (initText other (e.2.1.code other) e.1.text files clock root).exec w₁ = some t →
          ¬ t.Faulty ∧ (∃ w₂, t.exec w₂ = some (finalSys root W) ∧ w₁.length + w₂.length = len) ∧
          (t.AllDone → (∀ r, t.procs r = .ret (view root W.st r)) ∧ t.log = W.log ∧ ∀ c, t.chan c = []) := by
  obtain ⟨h1, h2, h3⟩ := sampleRuns_readable e he
  obtain ⟨g1, g2, g3⟩ := samples_good _ h1
  obtain ⟨k1, k2, k3, k4, k5, k6, k7, k8, k9⟩ := samples_numbers _ h1
  simp only at g1 g2 g3 k1 k2 k3 k4 k5 k6 k7 k8 k9
  have hb : e.1.settings.betas.length + 1 ≤ 2147483647 := by
    have := g3.count
    have h := (g3.ints e.1.settings.nBeta (by simp)).2
    omega
  obtain ⟨file, _, _, _, hv, hi, W, len, hs, hall⟩ := texts_run (n := n) other e.2 h2 e.1.ranges g1.1 (good_wf g1 g2) g3 (good_express g1) rows
    (fun r hr => ⟨by rw [k4]; exact (hrow r hr).1, by rw [(hrow r hr).2, k3]; rfl⟩) files hfile (by omega)
    ⟨hn, ⟨k1, k2⟩, k5, k6, k7, k8, ⟨k9.1, k9.2.1, .of_sum k9.2.2⟩, ⟨by rw [k3]; norm_num, by rw [k3]; push_cast; omega⟩⟩ (by rw [k3]; exact_mod_cast h3) clock root
  exact ⟨file, hv, hi, W, len, hs, hall⟩

/-! ## The samples that do not -/

/-- Reading an integer, as a table that can be compared. -/
def intOr (e : Except Fault Int) : Int ⊕ Fault := match e with
  | .ok v => .inl v
  | .error f => .inr f

theorem of_intOr {e : Except Fault Int} : (∀ v, intOr e = .inl v → e = .ok v) ∧ (∀ f, intOr e = .inr f → e = .error f) := by
  cases e <;> simp [intOr]

/-- A fault in the fourth entry that is read, `N_begintune`, ends every rank. -/
theorem begintune_fault (other : Str → Option F) (code : UserCode F) (text : Str) (files : Str → Str) (clock : Nat) (root : Fin n) (a b c : Int) (f : Fault)
    (h1 : readInt text (c!"N_parm") = .ok a) (h2 : readInt text (c!"N_iter") = .ok b) (h3 : readInt text (c!"N_stoptune") = .ok c)
    (h4 : readInt text (c!"N_begintune") = .error f) : ∀ r, (initText other code text files clock root).procs r = .fault f := by
  intro r
  have h : readInput other text = .error f := by simp only [readInput, h1, h2, h3, h4, bind, Except.bind]
  simp only [initText, mainText, h, Proc.lift_error]
  rfl

/-- **C82, the eggbox sample.** The sample file of the eggbox model has an `N_begintune` that is not an `int`: whatever the user's code, the data file, the clock and the
number of ranks, every rank faults while reading it. -/
theorem eggbox_sample_faults (other : Str → Option F) (code : UserCode F) (files : Str → Str) (clock : Nat) (root : Fin n) :
    ∀ r, (initText other code eggboxSample.text files clock root).procs r = .fault .overflow := by
  have h : intOr (readInt eggboxSample.text (c!"N_parm")) = .inl 2 ∧ intOr (readInt eggboxSample.text (c!"N_iter")) = .inl 405000 ∧
      intOr (readInt eggboxSample.text (c!"N_stoptune")) = .inl 0 ∧ intOr (readInt eggboxSample.text (c!"N_begintune")) = .inr .overflow := by decide +kernel
  exact begintune_fault other code _ files clock root _ _ _ _ (of_intOr.1 _ h.1) (of_intOr.1 _ h.2.1) (of_intOr.1 _ h.2.2.1) (of_intOr.2 _ h.2.2.2)

/-- **C82, the samples of the older models.** The sample files of models/fit_orbit and models/hier_R have no `N_begintune`: every rank uses a null pointer. -/
theorem older_samples_fault (other : Str → Option F) (code : UserCode F) (files : Str → Str) (clock : Nat) (root : Fin n) :
    ∀ lines ∈ [orbitSample, hierSample], ∀ r, (initText other code (textOf lines) files clock root).procs r = .fault .null := by
  intro lines hl
  have h : ∀ lines ∈ [orbitSample, hierSample], (intOr (readInt (textOf lines) (c!"N_parm"))).isLeft = true ∧
      (intOr (readInt (textOf lines) (c!"N_iter"))).isLeft = true ∧ (intOr (readInt (textOf lines) (c!"N_stoptune"))).isLeft = true ∧
      intOr (readInt (textOf lines) (c!"N_begintune")) = .inr .null := by decide +kernel
  obtain ⟨h1, h2, h3, h4⟩ := h lines hl
  rw [Sum.isLeft_iff] at h1 h2 h3
  obtain ⟨a, h1⟩ := h1
  obtain ⟨b, h2⟩ := h2
  obtain ⟨c, h3⟩ := h3
  exact begintune_fault other code _ files clock root a b c _ (of_intOr.1 _ h1) (of_intOr.1 _ h2) (of_intOr.1 _ h3) (of_intOr.2 _ h4)

end

/-! ## What the regression sample gives -/

/-- **C82, the regression sample.** Run from its sample file with two, three or four ranks on any table of two columns, in exact arithmetic, under every schedule: whatever the
executions so far, every saved slope is in [-20, 20], every intercept in [-50, 50], every scatter in [0.01, 30]; and when the run is over each chain file has every
iteration from 100000 to 400000 exactly once. -/
theorem regression_sample_rows {n : Nat} (other : Str → Option ℝ) (rows : List RowText) (hrow : ∀ r ∈ rows, r.Wf [' '] ∧ r.nums.length = 2)
    (hlines : 2 * rows.length ≤ 2147483647) (files : Str → Str) (hfile : files (c!"xy.dat") = tableText rows) (hn : 2 ≤ n ∧ n ≤ 4) (clock : Nat)
    (root : Fin n) (w : List (Label n)) (t : Sys n (Msg ℝ) (Line ℝ) (RSt n ℝ))
    (h : (initText other (regression.code other) regressionSample.text files clock root).exec w = some t) (r : Fin n) :
    (∀ a ∈ fileRows r.val (t.log r), ∃ s i d : ℝ, a.x = [s, i, d] ∧ (-20 ≤ s ∧ s ≤ 20) ∧ (-50 ≤ i ∧ i ≤ 50) ∧ 0.01 ≤ d ∧ d ≤ 30) ∧
    (t.AllDone → ∀ k : Nat, 100000 ≤ k → k ≤ 400000 → ((fileRows r.val (t.log r)).map Row.iter).count k = 1) := by
  obtain ⟨file, hv, hi, _⟩ := sample_runs (n := n) other (regressionSample, (regression, regressionPairs, 2)) (by simp [sampleRuns]) rows hrow hlines files hfile
    hn clock root
  simp only at hi hv
  rw [hi] at h
  have hbounds : boundsOf ℝ regressionSample.ranges = [(-20, 20), (-50, 50), (0.01, 30)] := by
    simp only [boundsOf, regressionSample, List.map_cons, List.map_nil, dec_value, DecText.mantissa, DecText.power, Sign.apply, digitsValue, Option.getD_none,
      List.append_nil, List.length_nil, Option.getD_some, List.cons_append, List.nil_append]
    norm_num
  constructor
  · intro a ha
    have hb : List.Forall₂ Draw.Fits (regression (F := ℝ)).draws (boundsOf ℝ regressionSample.ranges) := by
      rw [hbounds]
      exact .cons (by simp [Draw.Fits]) (.cons (by simp [Draw.Fits]) (.cons ⟨by norm_num, by norm_num⟩ .nil))
    have hbox := (model_saved_in_box regression _ _ hb (cfgOf regression regressionSample.settings regressionSample.ranges) rfl (by decide +kernel) file hv clock
      root w t h).1 r r.val a ha
    rw [hbounds] at hbox
    generalize a.x = y at hbox
    cases hbox with | cons h1 hbox => cases hbox with | cons h2 hbox => cases hbox with | cons h3 hbox => cases hbox with | nil => exact ⟨_, _, _, rfl, h1, h2, h3⟩
  · intro hd k hk1 hk2
    obtain ⟨data, beta, tail, m, _, _, ⟨h1, _⟩, h3, _, hall⟩ := chain_file (cfgOf regression regressionSample.settings regressionSample.ranges) file hv clock root
      (by decide +kernel) r
    rw [(hall w t h).1 hd, List.map_cons, List.count_cons, h3 k (by omega) ?_ ?_, if_neg]
    · simp [firstRow]
      omega
    · have : (cfgOf (F := ℝ) regression regressionSample.settings regressionSample.ranges).saveBegin = 100000 := by decide +kernel
      omega
    · have : (cfgOf (F := ℝ) regression regressionSample.settings regressionSample.ranges).nIter = 400000 := by decide +kernel
      omega

/-! ## Examples -/

/-- With four ranks and a small table there is a finished execution of the regression sample, and its chain files have iteration 250000 once. -/
example (root : Fin 4) (clock : Nat) : ∃ w t,
    (initText (n := 4) (F := ℝ) (fun _ => none) (regression.code (fun _ => none)) regressionSample.text (fun _ => tableText demoRows) clock root).exec w = some t ∧
      t.AllDone ∧ ∀ r : Fin 4, ((fileRows r.val (t.log r)).map Row.iter).count 250000 = 1 := by
  obtain ⟨_, _, _, W, len, _, h⟩ := sample_runs (n := 4) (F := ℝ) (fun _ => none) (regressionSample, (regression, regressionPairs, 2)) (by simp [sampleRuns])
    demoRows demoRows_ok (by decide) (fun _ => tableText demoRows) rfl (by decide) clock root
  obtain ⟨_, ⟨w₂, h2, _⟩, _⟩ := h [] _ rfl
  refine ⟨w₂, _, h2, fun r => trivial, fun r => ?_⟩
  exact (regression_sample_rows (fun _ => none) demoRows demoRows_ok (by decide) _ rfl (by decide) clock root w₂ _ h2 r).2 (fun r => trivial) 250000 (by norm_num)
    (by norm_num)

end NiiC
