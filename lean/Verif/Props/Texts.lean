import Verif.Spec.Texts
import Verif.Props.IniFile
import Verif.Props.Data
import Verif.Props.Prior
import Verif.Props.Protocol
import Verif.Props.Likelihood
import Verif.Model.Older

/-!
# From the two input texts to the run: C81
-/

set_option linter.unusedSectionVars false
set_option linter.unusedSimpArgs false

namespace NiiC
open Spec

/-! ## Names -/

theorem numeric_not_name {k s : Str} (hk : ∃ c ∈ k, isNumeric c = false) (hs : ∀ c ∈ s, isNumeric c = true) : ¬ k <:+: s := by
  intro hi
  obtain ⟨c, hc, hn⟩ := hk
  have := hs c (hi.subset hc)
  rw [hn] at this
  cases this

/-- Names that can stand beside those of the core. -/
structure GoodNames (names : List Str) : Prop where
  nodup : (coreNames ++ names).Nodup
  plain : ∀ k ∈ names, k ≠ [] ∧ ':' ∉ k ∧ ' ' ∉ k ∧ '\t' ∉ k ∧ '\n' ∉ k ∧ '\x00' ∉ k
  letters : ∀ k ∈ names, ∃ c ∈ k, isNumeric c = false
  apart : ∀ k ∈ coreNames ++ names, ∀ k' ∈ coreNames ++ names, k <:+: k' → k = k'

/-- The names of each bundled model can. -/
theorem good_names : ∀ names ∈ [gaussianNames, regressionNames, rastriginNames, Spec.orbitNames, hierNames], GoodNames names := by
  intro names hn
  have h : ∀ names ∈ [gaussianNames, regressionNames, rastriginNames, Spec.orbitNames, hierNames], (coreNames ++ names).Nodup ∧
      (∀ k ∈ names, k ≠ [] ∧ ':' ∉ k ∧ ' ' ∉ k ∧ '\t' ∉ k ∧ '\n' ∉ k ∧ '\x00' ∉ k) ∧ ∀ k ∈ names, ∃ c ∈ k, isNumeric c = false := by
    decide +kernel
  obtain ⟨h1, h2, h3⟩ := h names hn
  exact ⟨h1, h2, h3, names_apart names (by simp only [List.mem_cons, List.not_mem_nil, or_false] at hn ⊢; tauto)⟩

theorem GoodNames.perm {a b : List Str} (h : GoodNames a) (hp : a.Perm b) : GoodNames b where
  nodup := (hp.append_left coreNames).nodup_iff.1 h.nodup
  plain k hk := h.plain k (hp.mem_iff.2 hk)
  letters k hk := h.letters k (hp.mem_iff.2 hk)
  apart k hk k' hk' := h.apart k ((hp.append_left coreNames).mem_iff.2 hk) k' ((hp.append_left coreNames).mem_iff.2 hk')

section
variable {w : Settings} {extra : List (Str × DecText)} {text : Str}

/-- All entries. -/
def allEntries (w : Settings) (extra : List (Str × DecText)) : List (Str × Str) := w.entries ++ extra.map (fun e => (e.1, e.2.text))

theorem all_names (w : Settings) (extra : List (Str × DecText)) :
    (allEntries w extra).map Prod.fst = coreNames ++ extra.map Prod.fst := by
  rw [allEntries, List.map_append, List.map_map]
  rfl

theorem all_name {e : Str × Str} (he : e ∈ allEntries w extra) : e.1 ∈ coreNames ++ extra.map Prod.fst := by
  rw [← all_names]
  exact List.mem_map_of_mem he

/-- The only line that mentions a name is its entry's, also with further numbers. -/
theorem paraLine_with (hw : w.Wf) (hg : GoodNames (extra.map Prod.fst)) (hx : ExpressesWith w extra text) :
    ∃ gap trail : Str → Str, (∀ k, Blank (gap k) ∧ Blank (trail k)) ∧
      ∀ e ∈ allEntries w extra, paraLine text e.1 = .ok (e.1 ++ ':' :: (gap e.1 ++ e.2 ++ (trail e.1 ++ ['\n']))) := by
  obtain ⟨gap, trail, comments, ls, hgt, hcom, hlen, hperm, rfl⟩ := hx.lines
  refine ⟨gap, trail, hgt, ?_⟩
  refine paraLine_lines (allEntries w extra) (by rw [all_names]; exact hg.nodup) (fun e he => ?_)
    (fun e he e' he' => hg.apart _ (all_name he) _ (all_name he')) (fun e he => ?_) gap trail comments ls hgt
    (fun l hl => ⟨(hcom l hl).1, (hcom l hl).2.1, fun e he => (hcom l hl).2.2 _ (all_name he)⟩) hlen hperm
  · rcases List.mem_append.1 (all_name he) with h | h
    · exact core_names_plain _ h
    · exact hg.plain _ h
  · rcases List.mem_append.1 he with h | h
    · obtain ⟨h1, h2, h3⟩ := entry_value hw e h
      refine ⟨fun e' he' => ?_, h3⟩
      rcases List.mem_append.1 (all_name he') with hk | hk
      · exact h2 _ hk
      · -- numbers contain no name, words by assumption
        obtain ⟨e0, he0, hek⟩ := List.mem_map.1 hk
        have hl := hg.letters _ hk
        have hi := fun t : IntText => numeric_not_name hl (numeric_int t)
        have hd := fun t : DecText => numeric_not_name hl (numeric_dec t)
        have hls := numeric_not_name hl (numeric_list w.beta0 w.betas (fun p hp => (hw.betas p hp).1))
        have hs : ∀ t ∈ [w.foutPre, w.foutSuf, w.resultsDir, w.dataFile, w.delimiter], ¬ e'.1 <:+: t := by
          intro t ht
          rw [← hek]
          exact hx.words t ht e0 he0
        simp only [List.forall_mem_cons, List.not_mem_nil, false_imp_iff, implies_true, and_true] at hs
        obtain ⟨s1, s2, s3, s4, s5⟩ := hs
        clear h1 h2 h3 he
        revert e
        simp only [Settings.entries, List.forall_mem_cons, List.not_mem_nil, false_imp_iff, implies_true, and_true]
        exact ⟨hi _, hi _, hi _, hi _, hi _, hi _, hd _, hd _, hi _, hi _, s1, s2, s3, hls, s4, hi _, s5, hd _, hi _, hi _, hi _, hi _, hi _, hi _, hd _,
          hd _, hd _, hd _, hd _, hd _, hd _, hd _, hi _, hi _⟩
    · obtain ⟨d, hd, rfl⟩ := List.mem_map.1 h
      refine ⟨fun e' he' => ?_, fun hc => absurd (numeric_dec _ _ hc) (by decide), fun hc => absurd (numeric_dec _ _ hc) (by decide)⟩
      rcases List.mem_append.1 (all_name he') with hk | hk
      · exact numeric_harmless (numeric_dec _) _ hk
      · exact numeric_not_name (hg.letters _ hk) (numeric_dec _)

/-- For the core, the lines of the further numbers are comments. -/
theorem expresses_core (hg : GoodNames (extra.map Prod.fst)) (hx : ExpressesWith w extra text) : Expresses w text := by
  obtain ⟨gap, trail, comments, ls, hgt, hcom, hlen, hperm, rfl⟩ := hx.lines
  refine ⟨gap, trail, (extra.map (fun e => (e.1, e.2.text))).map (entryLine gap trail) ++ comments, ls, hgt, ?_,
    fun e he => hlen e (List.mem_append_left _ he), ?_, rfl⟩
  · intro l hl
    rcases List.mem_append.1 hl with h | h
    · obtain ⟨e, he, rfl⟩ := List.mem_map.1 h
      obtain ⟨d, hd, rfl⟩ := List.mem_map.1 he
      have hk : d.1 ∈ extra.map Prod.fst := List.mem_map_of_mem hd
      obtain ⟨_, _, _, _, k5, k6⟩ := hg.plain _ hk
      have hblank : ∀ (s : Str), Blank s → '\n' ∉ s ∧ '\x00' ∉ s := by
        intro s hs
        constructor <;> intro hc <;> rcases hs _ hc with h | h <;> exact absurd h (by decide)
      have h1 := hblank _ (hgt d.1).1
      have h2 := hblank _ (hgt d.1).2
      have h3 : '\n' ∉ d.2.text := fun hc => absurd (numeric_dec _ _ hc) (by decide)
      have h4 : '\x00' ∉ d.2.text := fun hc => absurd (numeric_dec _ _ hc) (by decide)
      simp only [entryLine, List.mem_append, List.mem_cons, not_or]
      refine ⟨⟨k5, by decide, ⟨h1.1, h3⟩, h2.1⟩, ⟨k6, by decide, ⟨h1.2, h4⟩, h2.2⟩, fun k hkc hi => ?_⟩
      obtain ⟨kne, kcol, ksp, ktab, knl, _⟩ := core_names_plain _ hkc
      have bl : ∀ s, Blank s → ∀ c ∈ s, c ∉ k := by
        intro s hs c hc
        rcases hs c hc with rfl | rfl
        · exact ksp
        · exact ktab
      rcases infix_colon kcol hi with h | h
      · have := hg.apart k (List.mem_append_left _ hkc) d.1 (List.mem_append_right _ hk) h
        exact (List.nodup_append.1 hg.nodup).2.2 k hkc d.1 hk this
      · have h1 := infix_skip_right kne (bl _ (hgt d.1).2) h
        have h2 := infix_skip_left kne (bl _ (hgt d.1).1) h1
        exact numeric_harmless (numeric_dec _) _ hkc h2
    · exact ⟨(hcom l h).1, (hcom l h).2.1, fun k hk => (hcom l h).2.2 k (List.mem_append_left _ hk)⟩
  · rw [List.map_append, List.append_assoc] at hperm
    exact hperm

variable {F : Type} [Arith F] [Source F]

/-- Each of the further numbers is read. -/
theorem readDbl_with (other : Str → Option F) (hw : w.Wf) (hg : GoodNames (extra.map Prod.fst)) (hx : ExpressesWith w extra text) (k : Str) (d : DecText)
    (hk : (k, d) ∈ extra) : readDbl other text k = .ok d.dec.val := by
  obtain ⟨gap, trail, hgt, hpl⟩ := paraLine_with hw hg hx
  have h1 := hpl (k, d.text) (List.mem_append_right _ (List.mem_map.2 ⟨_, hk, rfl⟩))
  obtain ⟨k1, k2, _⟩ := hg.plain k (List.mem_map.2 ⟨_, hk, rfl⟩)
  have h2 := scanKey_text k (gap k ++ d.text ++ (trail k ++ ['\n'])) k1 k2
  simp only at h1
  simp only [readDbl, h1, bind, Except.bind, h2, Option.bind]
  rw [scanLf_text other _ d _ (hgt k).1 (hx.numbers _ hk) (stops_trail _ (hgt k).2 (by decide) (by decide) (by decide))]

/-! ## Ranges -/

theorem rangeEntries_names (pairs : List (Str × Str)) (rs : List (DecText × DecText)) (h : rs.length = pairs.length) :
    (rangeEntries pairs rs).map Prod.fst = pairs.flatMap fun p => [p.1, p.2] := by
  induction pairs generalizing rs with
  | nil => rfl
  | cons p ps ih =>
    cases rs with
    | nil => simp at h
    | cons r rs =>
      have := ih rs (by simpa using h)
      simp only [rangeEntries, List.zip_cons_cons, List.flatMap_cons, List.map_append] at this ⊢
      rw [this]
      rfl

/-- The ranges meant. -/
def boundsOf (F : Type) [Arith F] (rs : List (DecText × DecText)) : List (F × F) := rs.map fun r => (r.1.dec.val, r.2.dec.val)

theorem readRanges_zip (other : Str → Option F) (text : Str) : ∀ (pairs : List (Str × Str)) (rs : List (DecText × DecText)), rs.length = pairs.length →
    (∀ e ∈ rangeEntries pairs rs, readDbl other text e.1 = .ok e.2.dec.val) → readRanges other text pairs = .ok (boundsOf F rs)
  | [], [], _, _ => rfl
  | p :: ps, r :: rs, hl, h => by
    have h1 := h (p.1, r.1) (by simp [rangeEntries])
    have h2 := h (p.2, r.2) (by simp [rangeEntries])
    have h3 := readRanges_zip other text ps rs (by simpa using hl) (fun e he => h e (by
      simp only [rangeEntries, List.zip_cons_cons, List.flatMap_cons, List.mem_append] at he ⊢
      exact .inr he))
    simp only at h1 h2
    simp only [readRanges, h1, h2, h3, bind, Except.bind]
    rfl
  | [], _ :: _, hl, _ => by simp at hl
  | _ :: _, [], hl, _ => by simp at hl

/-- **C81, ranges.** For every model whose names are good, the ranges of all parameters are read, each from its own pair of names and in the order of the parameters. -/
theorem ranges_read (other : Str → Option F) (pairs : List (Str × Str)) (rs : List (DecText × DecText)) (hl : rs.length = pairs.length) (hw : w.Wf)
    (hg : GoodNames (pairs.flatMap fun p => [p.1, p.2])) (hx : ExpressesWith w (rangeEntries pairs rs) text) :
    readRanges other text pairs = .ok (boundsOf F rs) := by
  refine readRanges_zip other text pairs rs hl (fun e he => ?_)
  exact readDbl_with other hw (by rw [rangeEntries_names pairs rs hl]; exact hg) hx e.1 e.2 he

/-- The present models, with the names of their ranges and the number of columns their likelihoods read (models/regression/user_logll.c:37-42). -/
def modelTable (F : Type) [Arith F] : List (Model F × List (Str × Str) × Nat) :=
  [(regression, regressionPairs, 2), (multiGaussian, gaussianPairs, 0), (eggbox, gaussianPairs, 0), (curved, gaussianPairs, 0), (rastrigin, rastriginPairs, 0)]

theorem table_names : ∀ e ∈ modelTable F, e.1.names = e.2.1 ∧ e.1.columns = e.2.2 ∧ e.1.draws.length = e.2.1.length ∧
    GoodNames (e.2.1.flatMap fun p => [p.1, p.2]) := by
  have hg := good_names gaussianNames (by simp)
  have hr := good_names regressionNames (by simp)
  have ht := good_names rastriginNames (by simp)
  intro e he
  simp only [modelTable, List.mem_cons, List.not_mem_nil, or_false] at he
  rcases he with rfl | rfl | rfl | rfl | rfl
  · exact ⟨rfl, rfl, rfl, hr⟩
  · exact ⟨rfl, rfl, rfl, hg⟩
  · exact ⟨rfl, rfl, rfl, hg⟩
  · exact ⟨rfl, rfl, rfl, hg⟩
  · exact ⟨rfl, rfl, rfl, ht⟩

/-- **C81, ranges of models/fit_orbit.** -/
theorem orbit_ranges_read (other : Str → Option F) (ll : Int → List F → Int → List F → F → F) (rs : List (DecText × DecText)) (hl : rs.length = 15)
    (hw : w.Wf) (hx : ExpressesWith w (rangeEntries orbitPairs rs) text) :
    readRanges other text (fitOrbit ll).names = .ok (boundsOf F rs) := by
  have h1 : NiiC.orbitNames = orbitPairs := by decide +kernel
  rw [show (fitOrbit ll).names = NiiC.orbitNames from rfl, h1]
  refine ranges_read other orbitPairs rs (hl.trans rfl) hw ((good_names Spec.orbitNames (by simp)).perm ?_) hx
  decide +kernel

/-- **C81, numbers of models/hier_R.** Each of the fourteen numbers is read into its own variable. -/
theorem hier_numbers_read (other : Str → Option F) (h : HierText) (hw : w.Wf) (hx : ExpressesWith w h.entries text) :
    readHier (F := F) other text = .ok
      { gammaMean := h.mean.dec.val
        gammaSd := h.sd.dec.val
        gamma := (h.gamma.1.dec.val, h.gamma.2.dec.val)
        logC := (h.logC.1.dec.val, h.logC.2.dec.val)
        logLambdaY := (h.logLambdaY.1.dec.val, h.logLambdaY.2.dec.val)
        logLambdaYobs := (h.logLambdaYobs.1.dec.val, h.logLambdaYobs.2.dec.val)
        logLambdaXobs := (h.logLambdaXobs.1.dec.val, h.logLambdaXobs.2.dec.val)
        gammaLambdaY := (h.gammaLambdaY.1.dec.val, h.gammaLambdaY.2.dec.val) } := by
  have hg : GoodNames (h.entries.map Prod.fst) := by
    refine (good_names hierNames (by simp)).perm ?_
    rw [show h.entries.map Prod.fst = [c!"gamma_mean", c!"gamma_sd", c!"gamma_min", c!"gamma_max", c!"logC_min", c!"logC_max", c!"gamma_lambda_Y_min",
      c!"gamma_lambda_Y_max", c!"log_lambda_Y_min", c!"log_lambda_Y_max", c!"log_lambda_Yobs_min", c!"log_lambda_Yobs_max", c!"log_lambda_Xobs_min",
      c!"log_lambda_Xobs_max"] from rfl]
    decide +kernel
  have hr : ∀ e ∈ h.entries, readDbl other text e.1 = .ok e.2.dec.val := fun e he => readDbl_with other hw hg hx e.1 e.2 he
  simp only [HierText.entries, rangeEntries, List.zip_cons_cons, List.zip_nil_right, List.flatMap_cons, List.flatMap_nil, List.cons_append, List.nil_append,
    List.append_nil, List.forall_mem_cons, List.not_mem_nil, false_imp_iff, implies_true, and_true] at hr
  obtain ⟨h1, h2, h3, h4, h5, h6, h7, h8, h9, h10, h11, h12, h13, h14⟩ := hr
  simp only [readHier, h1, h2, h3, h4, h5, h6, h7, h8, h9, h10, h11, h12, h13, h14, bind, Except.bind]

/-! ## The run -/

/-- The configuration meant by the written values and ranges, for a model. -/
def cfgOf (m : Model F) (w : Settings) (rs : List (DecText × DecText)) : Cfg F :=
  (w.raw F).cfg (m.user (boundsOf F rs) w.ndim.value) (widthTable w.scaleMin.dec.val (boundsOf F rs)) (widthTable w.scaleMax.dec.val (boundsOf F rs))

variable {n : Nat}

/-- What each rank runs, given what it reads. -/
theorem mainText_eq (other : Str → Option F) (e : Model F × List (Str × Str) × Nat) (he : e ∈ modelTable F) (rs : List (DecText × DecText))
    (hl : rs.length = e.2.1.length) (hw : w.Wf) (hf : w.Fits) (hx : ExpressesWith w (rangeEntries e.2.1 rs) text) (files : Str → Str) (clock : Nat)
    (root me : Fin n) :
    mainText other (e.1.code other) text files clock root me =
      if w.nParm.value < e.2.1.length then .fault .oob
      else if w.nParm.value ≠ e.2.1.length then .fault .uninit
      else if w.ndim.value < e.2.2 then .fault .oob
      else mainProg (cfgOf e.1 w rs) (dataFile other w.separators w.ndim.value (files w.dataFile)) clock root me := by
  obtain ⟨h1, h2, h3, h4⟩ := table_names e he
  have hr := ranges_read other e.2.1 rs hl hw h4 hx
  have hc := expresses_core (by rw [rangeEntries_names _ rs hl]; exact h4) hx
  have hraw := (config_round_trip other w text hw hf hc).1
  have hn : (w.raw F).nParm = w.nParm.value := rfl
  have hd : (w.raw F).ndim = w.ndim.value := rfl
  simp only [mainText, hraw, Proc.lift_ok, Model.code, h1, hr, bind, Except.bind, Proc.bind, hn, hd, h2]
  split_ifs <;> rfl

/-- The configuration meant and the table read are usable together, and the program is their run. -/
theorem texts_valid (other : Str → Option F) (e : Model F × List (Str × Str) × Nat) (he : e ∈ modelTable F) (rs : List (DecText × DecText))
    (hl : rs.length = e.2.1.length) (hw : w.Wf) (hf : w.Fits) (hx : ExpressesWith w (rangeEntries e.2.1 rs) text) (rows : List RowText)
    (hrow : ∀ r ∈ rows, r.Wf w.separators ∧ (r.nums.length : Int) = w.ndim.value) (files : Str → Str) (hfile : files w.dataFile = tableText rows)
    (hn : n ≤ 2147483647) (hu : w.Usable n e.2.1.length rows.length) (hcol : (e.2.2 : Int) ≤ w.ndim.value) (clock : Nat) (root : Fin n) :
    (dataFile other w.separators w.ndim.value (files w.dataFile) : DataFile F).nlines = rows.length ∧
      (∃ cells, (dataFile other w.separators w.ndim.value (files w.dataFile)).cells = .ok cells ∧
        ∀ (i j : Nat) (r : RowText) (d : DecText), rows[i]? = some r → r.nums[j]? = some d → cells[i * w.ndim.value.toNat + j]? = some d.dec.val) ∧
      Valid n (cfgOf e.1 w rs) (dataFile other w.separators w.ndim.value (files w.dataFile)) ∧
      initText other (e.1.code other) text files clock root =
        initSys (cfgOf e.1 w rs) (dataFile other w.separators w.ndim.value (files w.dataFile)) clock root := by
  obtain ⟨t1, t2, t3, t4⟩ := table_names e he
  obtain ⟨c, hc⟩ := Int.eq_ofNat_of_zero_le (by have := hu.table.1; omega : 0 ≤ w.ndim.value)
  have hfit := hf.ints w.ndim (by simp)
  obtain ⟨cells, h1, h2, h3, h4⟩ := table_round_trip (F := F) other w.separators c rows (fun r hr => ⟨(hrow r hr).1, by
    have := (hrow r hr).2
    rw [hc] at this
    exact_mod_cast this⟩)
  have hb : (boundsOf F rs).length = e.2.1.length := by rw [boundsOf, List.length_map, hl]
  have hp : (cfgOf e.1 w rs).nParm = e.2.1.length := by
    show w.nParm.value.toNat = _
    rw [hu.parms.1, Int.toNat_natCast]
  have hv : Valid n (cfgOf e.1 w rs) (dataFile other w.separators w.ndim.value (files w.dataFile)) :=
    { ranks := hu.ranks.1
      ranksInt := hn
      betas := by
        show n ≤ (((w.raw F).betas).getD []).length
        have := hu.ranks.2
        simpa [Settings.raw] using this
      parm := by rw [hp]; exact hu.parms.2
      user := by
        have := user_wf e.1 (boundsOf F rs) w.ndim.value (by rw [hb, t3])
        rw [hp, ← hb]
        exact this
      stack := hu.stack
      rand := hu.batch.1
      base := hu.batch.2
      randInt := hu.noOverflow.1
      stackInt := hu.noOverflow.2.1
      iterInt := hu.noOverflow.2.2
      mode := hu.swaps
      inTune := hu.tune
      sigmaMin := by rw [hp]; simp [cfgOf, Raw.cfg, widthTable, hb]
      sigmaMax := by rw [hp]; simp [cfgOf, Raw.cfg, widthTable, hb]
      cells := by
        rw [hfile, hc]
        refine ⟨cells, h1, ?_, ?_⟩
        · rw [tableText, h2, h3]
          push_cast
          rfl
        · rw [h3]
          have := hu.table.2
          rw [hc] at this
          exact_mod_cast this }
  have hi : initText other (e.1.code other) text files clock root =
      initSys (cfgOf e.1 w rs) (dataFile other w.separators w.ndim.value (files w.dataFile)) clock root := by
    have : mainText (n := n) other (e.1.code other) text files clock root =
        mainProg (cfgOf e.1 w rs) (dataFile other w.separators w.ndim.value (files w.dataFile)) clock root := by
      funext me
      rw [mainText_eq other e he rs hl hw hf hx files clock root me, hu.parms.1, if_neg (lt_irrefl _), if_neg (by simp), if_neg (not_lt.2 hcol)]
    simp only [initText, initSys, this]
  refine ⟨?_, ⟨cells, ?_, ?_⟩, hv, hi⟩
  · rw [hfile, hc, tableText, h2]
  · rw [hfile, hc, tableText, h1]
  · rw [hc, Int.toNat_natCast]
    exact h4

/-- **C81.** For every present model, every configuration file that expresses usable values together with the ranges of the model's parameters, and every table of
data named there: the program is the run of the configuration meant, which is a usable one; so every execution can be completed, no rank ever faults, and what
all ranks hold and have written at the end is what the sequential program computes. -/
theorem texts_run [LawfulDraws F] (other : Str → Option F) (e : Model F × List (Str × Str) × Nat) (he : e ∈ modelTable F) (rs : List (DecText × DecText))
    (hl : rs.length = e.2.1.length) (hw : w.Wf) (hf : w.Fits) (hx : ExpressesWith w (rangeEntries e.2.1 rs) text) (rows : List RowText)
    (hrow : ∀ r ∈ rows, r.Wf w.separators ∧ (r.nums.length : Int) = w.ndim.value) (files : Str → Str) (hfile : files w.dataFile = tableText rows)
    (hn : n ≤ 2147483647) (hu : w.Usable n e.2.1.length rows.length) (hcol : (e.2.2 : Int) ≤ w.ndim.value) (clock : Nat) (root : Fin n) :
    ∃ file : DataFile F, file.nlines = rows.length ∧ file.ndim = w.ndim.value ∧
      (∃ cells, file.cells = .ok cells ∧ ∀ (i j : Nat) (r : RowText) (d : DecText), rows[i]? = some r → r.nums[j]? = some d →
        cells[i * w.ndim.value.toNat + j]? = some d.dec.val) ∧ Valid n (cfgOf e.1 w rs) file ∧
      initText other (e.1.code other) text files clock root = initSys (cfgOf e.1 w rs) file clock root ∧
      ∃ (W : NiiC.W n F) (len : Nat), seqMain (cfgOf e.1 w rs) file clock root = .ok W ∧
        ∀ (w₁ : List (Label n)) (t : Sys n (Msg F) (Line F) (RSt n F)), (initText other (e.1.code other) text files clock root).exec w₁ = some t →
          ¬ t.Faulty ∧ (∃ w₂, t.exec w₂ = some (finalSys root W) ∧ w₁.length + w₂.length = len) ∧
          (t.AllDone → (∀ r, t.procs r = .ret (view root W.st r)) ∧ t.log = W.log ∧ ∀ c, t.chan c = []) := by
  obtain ⟨h1, h2, hv, hi⟩ := texts_valid other e he rs hl hw hf hx rows hrow files hfile hn hu hcol clock root
  obtain ⟨W, len, hs, hall⟩ := distributed_eq_sequential (cfgOf e.1 w rs) _ hv clock root
  refine ⟨_, h1, rfl, h2, hv, hi, W, len, hs, ?_⟩
  rw [hi]
  exact fun w₁ t ht => ⟨(no_fault _ _ hv clock root w₁ t ht).1, hall w₁ t ht⟩

/-- **C81, refutation.** With an `N_parm` that is not the number of parameters of the model, or with too few columns for its likelihood, every rank faults when it
starts. -/
theorem texts_fault (other : Str → Option F) (e : Model F × List (Str × Str) × Nat) (he : e ∈ modelTable F) (rs : List (DecText × DecText))
    (hl : rs.length = e.2.1.length) (hw : w.Wf) (hf : w.Fits) (hx : ExpressesWith w (rangeEntries e.2.1 rs) text) (files : Str → Str)
    (hbad : w.nParm.value ≠ e.2.1.length ∨ w.ndim.value < e.2.2) (clock : Nat) (root : Fin n) :
    ∃ f, ∀ r, (initText other (e.1.code other) text files clock root).procs r = .fault f := by
  simp only [initText, mainText_eq other e he rs hl hw hf hx files clock root]
  by_cases h1 : w.nParm.value < e.2.1.length
  · exact ⟨_, fun r => if_pos h1⟩
  · by_cases h2 : w.nParm.value ≠ e.2.1.length
    · exact ⟨.uninit, fun r => by rw [if_neg h1, if_pos h2]⟩
    · exact ⟨.oob, fun r => by rw [if_neg h1, if_neg h2, if_pos (hbad.resolve_left h2)]⟩

/-! ## Numbers that are not decimal -/

/-- Texts for infinities, NaNs and hexadecimal numbers, in capital or small letters, behind a sign if there is one: the library decides about them, not the digits. -/
theorem special_values (other : Str → Option F) (pad : Str) (sign : Sign) (a b : Char) (r : Str) (hp : Blank pad)
    (ha : a ∈ ['i', 'I', 'n', 'N'] ∨ a = '0' ∧ b ∈ ['x', 'X']) :
    scanLf other (pad ++ (sign.text ++ a :: b :: r)) = other (sign.text ++ a :: b :: r) ∧
    atof other (pad ++ (sign.text ++ a :: b :: r)) = (other (sign.text ++ a :: b :: r)).getD (Arith.lit 0 1) := by
  have hs : special (a :: b :: r) = true := by
    simp only [List.mem_cons, List.not_mem_nil, or_false] at ha
    rcases ha with (rfl | rfl | rfl | rfl) | ⟨rfl, rfl | rfl⟩ <;> rfl
  have hd : (pad ++ (sign.text ++ a :: b :: r)).dropWhile isSpace = sign.text ++ a :: b :: r := by
    have h1 : (sign.text ++ a :: b :: r).dropWhile isSpace = sign.text ++ a :: b :: r := by
      simp only [List.mem_cons, List.not_mem_nil, or_false] at ha
      rcases sign with _ | _ | _ <;> rcases ha with (rfl | rfl | rfl | rfl) | ⟨rfl, _⟩ <;> rfl
    induction pad with
    | nil => exact h1
    | cons c pad ih =>
      have hc : isSpace c = true := by
        rcases hp c (by simp) with rfl | rfl <;> rfl
      rw [List.cons_append, List.dropWhile_cons_of_pos hc]
      exact ih (fun x hx => hp x (by simp [hx]))
  have hsg : (scanSign (sign.text ++ a :: b :: r)).2 = a :: b :: r := by
    simp only [List.mem_cons, List.not_mem_nil, or_false] at ha
    rcases sign with _ | _ | _ <;> rcases ha with (rfl | rfl | rfl | rfl) | ⟨rfl, _⟩ <;> rfl
  simp only [scanLf, atof, hd, hsg, hs, if_true, and_self]

end

/-! ## Examples -/

/-- `-Infinity`, `NAN` and `0X1p3` are left to the library. -/
example (other : Str → Option ℝ) : scanLf other (c!" -Infinity") = other (c!"-Infinity") ∧ scanLf other (c!"NAN") = other (c!"NAN") ∧
    scanLf other (c!"\t+0X1p3") = other (c!"+0X1p3") :=
  ⟨(special_values other [' '] .minus 'I' 'n' (c!"finity") (by intro c hc; simp at hc; exact .inl hc) (by simp)).1,
   (special_values other [] .none 'N' 'A' (c!"N") (by simp [Blank]) (by simp)).1,
   (special_values other ['\t'] .plus '0' 'X' (c!"1p3") (by intro c hc; simp at hc; exact .inr hc) (by simp)).1⟩

/-- A configuration of two ranks for the regression example, with the ranges of models/regression/input.ini in another order, and three data points. -/
def regressionRanges : List (DecText × DecText) :=
  [(⟨.minus, [2, 0], none, none⟩, dec3 2 0 0), (⟨.minus, [5, 0], none, none⟩, dec3 5 0 0), (⟨.none, [0], some [0, 1], none⟩, dec3 3 0 0)]

/-- Numbers for models/hier_R. -/
def hierDemo : HierText :=
  ⟨dec3 1 0 0, dec3 0 3 0, (dec3 0 5 0, dec3 2 0 0), (dec3 0 1 0, dec3 4 0 0), (dec3 0 2 0, dec3 5 0 0), (dec3 0 3 0, dec3 6 0 0), (dec3 0 4 0, dec3 7 0 0),
   (dec3 0 5 0, dec3 8 0 0)⟩

/-- The configuration file: ranges first, then the rest from the end, then a comment. -/
def demoExtraText (w : Settings) (extra : List (Str × DecText)) : Str :=
  (((allEntries w extra).reverse.map (entryLine (fun _ => ['\t']) (fun _ => [' '])) ++ [c!"# the end: no names here"]).map (· ++ ['\n'])).flatten

/-- Further numbers for four models. -/
def demoExtras : List (List (Str × DecText)) :=
  [rangeEntries gaussianPairs (regressionRanges.take 2), rangeEntries regressionPairs regressionRanges,
   rangeEntries orbitPairs (List.replicate 15 (dec3 1 0 0, dec3 2 0 0)), hierDemo.entries]

theorem demoExtra_express : ∀ extra ∈ demoExtras, ExpressesWith (demoSettings (int2 2 0) (int2 0 2)) extra
    (demoExtraText (demoSettings (int2 2 0) (int2 0 2)) extra) := by
  intro extra hp
  refine ⟨⟨fun _ => ['\t'], fun _ => [' '], [c!"# the end: no names here"], _, ?_, ?_, ?_, ?_, rfl⟩, fun e he => ?_, ?_⟩
  · exact fun k => ⟨fun c hc => .inr (List.mem_singleton.1 hc), fun c hc => .inl (List.mem_singleton.1 hc)⟩
  · revert extra
    decide +kernel
  · revert extra
    decide +kernel
  · refine List.Perm.append_right _ ?_
    exact (List.reverse_perm _).map _
  · have h : ∀ extra ∈ demoExtras, ∀ e ∈ extra, e.2.digits ≠ [] ∧ e.2.exponent.isNone = true := by decide +kernel
    obtain ⟨h1, h2⟩ := h extra hp e he
    refine ⟨.inl h1, fun x hx => ?_⟩
    rw [Option.mem_def] at hx
    rw [hx] at h2
    simp at h2
  · revert extra
    decide +kernel

/-- The fifteen ranges of an orbit, and the numbers of the hierarchical model. -/
example (ll : Int → List ℝ → Int → List ℝ → ℝ → ℝ) :
    readRanges (fun _ => none) (demoExtraText (demoSettings (int2 2 0) (int2 0 2)) (rangeEntries orbitPairs (List.replicate 15 (dec3 1 0 0, dec3 2 0 0))))
      (fitOrbit ll).names = .ok (boundsOf ℝ (List.replicate 15 (dec3 1 0 0, dec3 2 0 0))) :=
  orbit_ranges_read _ ll _ rfl (demoSettings_wf _ _ (by decide) (by decide)) (demoExtra_express _ (by simp [demoExtras]))
example : ∃ h, readHier (F := ℝ) (fun _ => none) (demoExtraText (demoSettings (int2 2 0) (int2 0 2)) hierDemo.entries) = .ok h ∧
    h.logC.2 = (dec3 4 0 0).dec.val :=
  ⟨_, hier_numbers_read _ hierDemo (demoSettings_wf _ _ (by decide) (by decide)) (demoExtra_express _ (by simp [demoExtras])), rfl⟩

/-- The two texts run: with two ranks, for every clock, every execution can be completed. -/
example (root : Fin 2) (clock : Nat) : ∃ len, ∀ w₁ t,
    (initText (n := 2) (F := ℝ) (fun _ => none) (regression.code (fun _ => none)) (demoExtraText (demoSettings (int2 2 0) (int2 0 2)) (rangeEntries regressionPairs regressionRanges))
      (fun _ => tableText demoRows) clock root).exec w₁ = some t → ¬ t.Faulty ∧ ∃ w₂ t', t.exec w₂ = some t' ∧ t'.AllDone ∧ w₁.length + w₂.length = len := by
  have hw := demoSettings_wf (int2 2 0) (int2 0 2) (by decide) (by decide)
  obtain ⟨file, _, _, _, _, _, W, len, _, h⟩ := texts_run (n := 2) (F := ℝ) (fun _ => none) (regression, regressionPairs, 2) (by simp [modelTable])
    regressionRanges rfl hw ⟨by decide +kernel, by decide +kernel, by decide⟩ (demoExtra_express _ (by simp [demoExtras])) demoRows
    (fun r hr => ⟨(demoRows_ok r hr).1, by rw [(demoRows_ok r hr).2]; decide⟩) (fun _ => tableText demoRows) rfl (by norm_num)
    ⟨by decide, by decide, by decide, by decide, by decide, by decide, ⟨by decide +kernel, by decide +kernel, .of_sum (by decide +kernel)⟩, by decide +kernel⟩ (by decide) clock root
  refine ⟨len, fun w₁ t ht => ?_⟩
  obtain ⟨h1, ⟨w₂, h2, h3⟩, _⟩ := h w₁ t ht
  exact ⟨h1, w₂, _, h2, fun r => trivial, h3⟩

/-- The same for a model with two parameters, without the range of the third: every rank faults, because `N_parm` is 3. -/
example (root : Fin 2) (clock : Nat) : ∃ f, ∀ r,
    (initText (n := 2) (F := ℝ) (fun _ => none) (multiGaussian.code (fun _ => none))
      (demoExtraText (demoSettings (int2 2 0) (int2 0 2)) (rangeEntries gaussianPairs (regressionRanges.take 2))) (fun _ => tableText demoRows) clock root).procs r = .fault f :=
  texts_fault (n := 2) (F := ℝ) (fun _ => none) (multiGaussian, gaussianPairs, 0) (by simp [modelTable]) (regressionRanges.take 2) rfl
    (demoSettings_wf (int2 2 0) (int2 0 2) (by decide) (by decide)) ⟨by decide +kernel, by decide +kernel, by decide⟩ (demoExtra_express _ (by simp [demoExtras])) _
    (.inl (by decide)) clock root

end NiiC
