import Verif.Spec.Estimate
import Verif.Props.Ideal
import Verif.Props.Texts
import Verif.Props.Print

/-!
# From the input texts to estimates from the output texts: C98

C81 leads from the two input texts to a run, C88 from a run with an ideal generator to averages over the rows of a chain file, C72 from rows to the text of the file. Here they are
joined: nothing between the texts that the program reads and the texts that it writes remains in the statements.
-/

set_option linter.unusedSectionVars false
set_option linter.unusedSimpArgs false

namespace NiiC

open MeasureTheory ProbabilityTheory Set Spec Print
open scoped ENNReal NNReal

/-! ## Rows and their text -/

/-- A row with exact numbers. -/
def Row.fin {R : Rounding} (a : Row ℝ) : Row (Dbl R) := ⟨a.x.map .fin, .fin a.lp, a.iter, a.accepted⟩

theorem fileRows_fin {R : Rounding} (r : Nat) (log : List (Line ℝ)) : fileRows (F := Dbl R) r (log.map Line.fin) = (fileRows r log).map Row.fin := by
  induction log with
  | nil => rfl
  | cons l log ih =>
    unfold fileRows at ih ⊢
    cases l with
    | row k x lp a c =>
      by_cases h : k = r
      · simp only [List.map_cons, Line.fin, List.filterMap_cons, h, if_true, ih]
        rfl
      · simp only [List.map_cons, Line.fin, List.filterMap_cons, h, if_false, ih]
    | _ => exact ih

theorem ownLine_fin {R : Rounding} {n : Nat} (root r : Fin n) (l : Line ℝ) (h : ownLine root r l) : ownLine (F := Dbl R) root r (Line.fin l) := by
  cases l <;> exact h

/-- A line of numbers shows a row: the parameters up to a relative error of `5e-13`, the iteration exactly. -/
structure LineShows (k : Nat) (a : Row ℝ) (c : List ℝ) : Prop where
  parms : ∀ (j : Nat) (v : ℝ), a.x[j]? = some v → ∃ u, (c.take k)[j]? = some u ∧ |u - v| ≤ 5 / 10 ^ 13 * |v|
  len : (c.take k).length = k
  iter : c[k + 1]? = some (a.iter : ℝ)

/-- The value of a number read into a variable of exact arithmetic. -/
theorem dec_real (d : Dec) : (d.val : ℝ) = (d.m : ℝ) * (10 : ℝ) ^ d.e := by
  unfold Dec.val
  split
  · rename_i h
    show ((d.m * 10 ^ d.e.toNat : Int) : ℝ) / ((1 : Nat) : ℝ) = _
    obtain ⟨k, hk⟩ := Int.eq_ofNat_of_zero_le h
    rw [hk]
    simp
  · rename_i h
    obtain ⟨k, hk⟩ := Int.eq_ofNat_of_zero_le (show 0 ≤ -d.e by omega)
    rw [show d.e = -(k : Int) by omega]
    simp [div_eq_mul_inv]

theorem rows_shown (nan : Str) (k : Nat) (rows : List (Row ℝ)) (hr : ∀ a ∈ rows, a.x.length = k) :
    List.Forall₂ (LineShows k) rows (textRows (k + 3) (((rows.map (Row.fin (R := Rounding.exact))).map (Row.text nan)).flatten)) := by
  obtain ⟨cells, h1, h2, h3, h4⟩ := chain_text_readable (F := ℝ) (R := Rounding.exact) (fun _ => none) nan k (rows.map Row.fin) (by
    intro a ha
    obtain ⟨b, hb, rfl⟩ := List.mem_map.1 ha
    exact ⟨by simp [Row.fin, hr b hb], b.x, b.lp, rfl, rfl⟩)
  have h2' : countLines (((rows.map (Row.fin (R := Rounding.exact))).map (Row.text nan)).flatten) = rows.length := by
    have : (countLines _ : Int) = _ := h2
    rw [this, List.length_map]
  rw [List.length_map] at h3
  have e : textRows (k + 3) (((rows.map (Row.fin (R := Rounding.exact))).map (Row.text nan)).flatten) =
      (List.range rows.length).map fun i => (cells.drop (i * (k + 3))).take (k + 3) := by
    unfold textRows
    rw [h1, h2']
    rfl
  rw [e, List.forall₂_iff_get]
  refine ⟨by simp, fun i hi hi' => ?_⟩
  simp only [List.get_eq_getElem, List.getElem_map, List.getElem_range]
  have hx := hr _ (List.getElem_mem hi)
  obtain ⟨g1, -, g3, -⟩ := h4 i (rows[i].fin) rows[i].x rows[i].lp (by simp [hi]) ⟨rfl, rfl⟩
  have hcell : ∀ j, j < k + 3 → ((cells.drop (i * (k + 3))).take (k + 3))[j]? = cells[i * (k + 3) + j]? := fun j hj => by
    rw [List.getElem?_take_of_lt hj, List.getElem?_drop]
  refine ⟨fun j v hj => ?_, ?_, ?_⟩
  · have hjk : j < k := by rw [← hx]; exact (List.getElem?_eq_some_iff.1 hj).1
    obtain ⟨d, hd, hle⟩ := g1 j v hj
    refine ⟨d.val, ?_, by rw [dec_real]; exact hle⟩
    rw [List.getElem?_take_of_lt hjk, hcell j (by omega), hd]
  · have : (i + 1) * (k + 3) ≤ rows.length * (k + 3) := Nat.mul_le_mul_right _ hi
    simp only [List.length_take, List.length_drop, h3]
    rw [Nat.add_mul] at this
    omega
  · rw [hcell (k + 1) (by omega), g3, dec_real]
    simp [Row.fin]

/-- The average computed from the text is that over the rows, up to what the function makes of the error of the digits. -/
theorem textAverage_near (k B : Nat) (g : List ℝ → ℝ) (P : List ℝ → Prop) (δ : ℝ) (hδ : 0 ≤ δ)
    (hg : ∀ x y : List ℝ, P x → y.length = x.length → (∀ (j : Nat) (u v : ℝ), y[j]? = some u → x[j]? = some v → |u - v| ≤ 5 / 10 ^ 13 * |v|) → |g y - g x| ≤ δ)
    (nan : Str) (rows : List (Row ℝ)) (hr : ∀ a ∈ rows, a.x.length = k ∧ P a.x) :
    |textAverage k B g (((rows.map (Row.fin (R := Rounding.exact))).map (Row.text nan)).flatten) - rowAverage B g rows| ≤ δ := by
  have h := rows_shown nan k rows fun a ha => (hr a ha).1
  unfold textAverage rowAverage linesAbove
  generalize textRows (k + 3) _ = cs at h
  have hab : ∀ a c, LineShows k a c → (isAbove k B c = true ↔ B < a.iter) := fun a c h => by
    simp [isAbove, h.iter]
  have hf : List.Forall₂ (fun a c => LineShows k a c ∧ a.x.length = k ∧ P a.x) (rows.filter fun a => decide (B < a.iter)) (cs.filter (isAbove k B)) := by
    induction h with
    | nil => exact .nil
    | @cons a c rows cs hac _ ih =>
      have ih := ih fun a ha => hr a (by simp [ha])
      by_cases hB : B < a.iter
      · rw [List.filter_cons_of_pos (by simpa using hB), List.filter_cons_of_pos ((hab a c hac).2 hB)]
        exact .cons ⟨hac, hr a (by simp)⟩ ih
      · rw [List.filter_cons_of_neg (by simpa using hB), List.filter_cons_of_neg (fun h => hB ((hab a c hac).1 h))]
        exact ih
  have hlen := hf.length_eq
  generalize (rows.filter fun a => decide (B < a.iter)) = as at hf hlen ⊢
  generalize cs.filter (isAbove k B) = bs at hf hlen ⊢
  have hsum : |(bs.map fun c => g (c.take k)).sum - (as.map fun a => g a.x).sum| ≤ as.length * δ := by
    clear hlen
    induction hf with
    | nil => simp
    | @cons a c as bs hac _ ih =>
      have h1 : |g (c.take k) - g a.x| ≤ δ := hg _ _ hac.2.2 (by rw [hac.1.len, hac.2.1]) fun j u v hu hv => by
        obtain ⟨u', hu', hle⟩ := hac.1.parms j v hv
        rw [hu] at hu'
        cases hu'
        exact hle
      simp only [List.map_cons, List.sum_cons, List.length_cons]
      rw [abs_le] at h1 ih ⊢
      push_cast
      constructor <;> nlinarith [h1.1, h1.2, ih.1, ih.2]
  rw [← hlen, ← sub_div, abs_div, Nat.abs_cast]
  rcases Nat.eq_zero_or_pos as.length with h0 | h0
  · rw [h0]; simpa using hδ
  · have : (0 : ℝ) < as.length := by exact_mod_cast h0
    rw [div_le_iff₀ this]
    linarith

/-! ## The program with its texts and an ideal generator -/

/-- The program on its two input texts with the model `m`, and the generator `ideal Ω`. -/
noncomputable def drivenText {n : Nat} (Ω : ℕ → Draws) (other : Str → Option ℝ) (m : Model ℝ) (text : Str) (files : Str → Str) (clock : Nat) (root : Fin n) :
    Sys n (Msg ℝ) (Line ℝ) (RSt n ℝ) :=
  letI := ideal Ω
  initText other (m.code other) text files clock root

section
variable {n : Nat} {w : Settings} {text : Str}

theorem drivenText_eq (Ω : ℕ → Draws) (other : Str → Option ℝ) (e : Model ℝ × List (Str × Str) × Nat) (he : e ∈ modelTable ℝ) (rs : List (DecText × DecText))
    (hl : rs.length = e.2.1.length) (hw : w.Wf) (hf : w.Fits) (hx : ExpressesWith w (rangeEntries e.2.1 rs) text) (files : Str → Str)
    (hp : w.nParm.value = e.2.1.length) (hcol : (e.2.2 : Int) ≤ w.ndim.value) (clock : Nat) (root : Fin n) :
    drivenText Ω other e.1 text files clock root =
      drivenBy Ω e.1 (boundsOf ℝ rs) w.ndim.value (cfgOf e.1 w rs) (dataFile other w.separators w.ndim.value (files w.dataFile)) clock root := by
  have : @mainText ℝ _ (ideal Ω) n other (@Model.code ℝ _ (ideal Ω) e.1 other) text files clock root =
      @mainProg n ℝ _ (ideal Ω) (@cfgOf ℝ _ (ideal Ω) e.1 w rs) (dataFile other w.separators w.ndim.value (files w.dataFile)) clock root := by
    funext me
    rw [@mainText_eq _ _ ℝ _ (ideal Ω) n other e he rs hl hw hf hx files clock root me, hp, if_neg (lt_irrefl _), if_neg (by simp), if_neg (not_lt.2 hcol)]
  simp only [drivenText, initText, drivenBy, initSys, this]
  rfl

/-- **C98.** A user writes a configuration for one of the present models, with the ranges of its parameters and nothing tuned, and a table of data. The program is run on the two texts, with any schedule
and an ideal generator. The user averages a function of the parameters with values in `[0, 1]` over the lines of the text of a chain file with an iteration above `B`. The probability that some
finished execution gives them an average that misses the mean under the tempered posterior of the chain by `ε` and what the digits of the file make of the function, or more, is at most the bound
of C86. -/
theorem texts_estimate {d : Nat} (other : Str → Option ℝ) (e : Model ℝ × List (Str × Str) × Nat) (he : e ∈ modelTable ℝ) (rs : List (DecText × DecText))
    (hl : rs.length = e.2.1.length) (hw : w.Wf) (hf : w.Fits) (hx : ExpressesWith w (rangeEntries e.2.1 rs) text) (rows : List RowText)
    (hrow : ∀ r ∈ rows, r.Wf w.separators ∧ (r.nums.length : Int) = w.ndim.value) (files : Str → Str) (hfile : files w.dataFile = tableText rows)
    (hn : n ≤ 2147483647) (hu : w.Usable n e.2.1.length rows.length) (hcol : (e.2.2 : Int) ≤ w.ndim.value) (hnm : w.naming.Good n)
    (ks : Fin d → Draw) (lo hi : Fin d → ℝ) (T : Target d) (hb : boundsOf ℝ rs = List.ofFn fun i => (lo i, hi i)) (hd : e.1.draws = List.ofFn ks) (hlo : ∀ i, lo i ≤ hi i)
    (hfit : ∀ i, (ks i).Fits (lo i, hi i)) (hratio : (0 : ℝ) ≤ w.initGpRatio.dec.val)
    (hT : ∀ data, (∀ (i j : Nat) (r : RowText) (t : DecText), rows[i]? = some r → r.nums[j]? = some t → data[i * w.ndim.value.toNat + j]? = some t.dec.val) →
      ∀ b (x : Fin d → ℝ), Spec.target (e.1.user (boundsOf ℝ rs) w.ndim.value) rows.length data b (List.ofFn x) = T.lp b x)
    (hstop : w.nStoptune.value ≤ w.nBegintune.value + 1 ∨ w.nStoptune.value ≤ 1) (hlad : w.tuneLadder.value ≤ 0) (B : Nat) (hB : w.saveBegin.value ≤ B + 1)
    (hBN : (B : Int) < w.nIter.value) (clock : Nat) (root r : Fin n) (g : List ℝ → ℝ) (hg : Measurable fun x : Fin d → ℝ => g (List.ofFn x)) (g0 : ∀ x, 0 ≤ g x) (g1 : ∀ x, g x ≤ 1)
    (δ : ℝ) (hδ : 0 ≤ δ) (hgd : ∀ x y : List ℝ, Spec.InBox (boundsOf ℝ rs) x → y.length = x.length →
      (∀ (j : Nat) (u v : ℝ), y[j]? = some u → x[j]? = some v → |u - v| ≤ 5 / 10 ^ 13 * |v|) → |g y - g x| ≤ δ) :
    ∃ beta : Fin n → ℝ, (∀ q, (w.beta0.dec.val :: w.betas.map fun p => p.2.dec.val)[q.val]? = some (beta q)) ∧
      ∀ (v : Fin n → ℝ) (γ α C : ℝ), (settingOf T lo hi w.initGpRatio.dec.val beta).Proper v → (settingOf T lo hi w.initGpRatio.dec.val beta).Mixes v γ α C →
        ∀ (j : Nat), j ≤ B → ∀ ε : ℝ, 0 < ε →
          unifSeeds.real {Ω | ∃ (sched : List (Label n)) (t : Sys n (Msg ℝ) (Line ℝ) (RSt n ℝ)),
              (drivenText Ω other e.1 text files clock root).exec sched = some t ∧ t.AllDone ∧
              ε + δ ≤ |textAverage d B g (chainText w.naming r.val (t.log r)) -
                (∫ x : Fin d → ℝ, g (List.ofFn x) ∂(posterior (volume.restrict (openBox lo hi)) (T.lp (beta r)))) /
                  (posterior (volume.restrict (openBox lo hi)) (T.lp (beta r))).real univ|} ≤
            1 / (γ * (w.nIter.value.toNat - B : Nat) * ε ^ 2) +
              mixError (∑ q, ∑ i, ((tail (lo i) (hi i) ((settingOf T lo hi w.initGpRatio.dec.val beta).s q i)).toReal + 1 / 10 ^ 16)) γ α C w.nIter.value.toNat B j := by
  obtain ⟨hlines, ⟨data, hdata, hcells⟩, hv, -⟩ := texts_valid (n := n) other e he rs hl hw hf hx rows hrow files hfile hn hu hcol clock root
  have hdl : d = e.2.1.length := by
    have := congrArg List.length hb
    rw [boundsOf, List.length_map, hl, List.length_ofFn] at this
    exact this.symm
  have hN : (cfgOf e.1 w rs : Cfg ℝ).nParm = d := by
    show w.nParm.value.toNat = _
    rw [hu.parms.1, Int.toNat_natCast, hdl]
  have hs := hf.uns w.saveBegin (by simp)
  obtain ⟨beta, hbeta, h⟩ := driven_average (n := n) (m := e.1) (cfg := cfgOf e.1 w rs) w.ndim.value ks lo hi T hv (by rw [← hb]; rfl) hd hN hlo hfit hratio data hdata
    (fun b x => by rw [hlines]; exact hT data hcells b x)
    (fun k hk => by
      show (decide (w.nBegintune.value < k) && decide (k < w.nStoptune.value) && decide (k < w.nIter.value)) = false
      rw [Bool.eq_false_iff]; simp only [ne_eq, Bool.and_eq_true, decide_eq_true_eq]; omega)
    hlad B (by show (w.saveBegin.value % 4294967296).toNat ≤ B + 1; omega) (by show B < w.nIter.value.toNat; omega) clock root r g hg g0 g1
  refine ⟨beta, fun q => ?_, fun v γ α C hS hM j hj ε hε => le_trans ?_ (h v γ α C hS hM j hj ε hε)⟩
  · unfold copyBetas at hbeta
    split at hbeta
    · rename_i hle
      cases hbeta
      exact List.getElem?_eq_getElem (lt_of_lt_of_le q.isLt hle)
    · cases hbeta
  · rw [measureReal_def, measureReal_def]
    refine ENNReal.toReal_mono (measure_ne_top _ _) (measure_mono_ae ?_)
    filter_upwards [unitSeeds_ae] with Ω hΩ
    rintro ⟨sched, t, ht, hdone, hε'⟩
    rw [drivenText_eq Ω other e he rs hl hw hf hx files hu.parms.1 hcol] at ht
    refine ⟨sched, t, by rw [← hb]; exact ht, hdone, ?_⟩
    let := ideal Ω
    have := ideal_unit hΩ
    have hv' := ideal_valid (m := e.1) (bounds := boundsOf ℝ rs) (ndim := w.ndim.value) Ω hv rfl
    have hown := fun l hl => ownLine_fin (R := Rounding.exact) root r l (one_writer _ _ hv' clock root sched t ht r l hl)
    have hbox := (model_saved_in_box e.1 (boundsOf ℝ rs) w.ndim.value (by
      rw [hd, hb, List.forall₂_iff_get]
      exact ⟨by simp, fun i h1 h2 => by simpa using hfit _⟩) _ rfl (by exact hN.trans (by rw [hb, List.length_ofFn])) _ hv' clock root sched t ht).1 r r.val
    have hnear := textAverage_near d B g (Spec.InBox (boundsOf ℝ rs)) δ hδ hgd (c!"nan") (fileRows r.val (t.log r))
      (fun a ha => ⟨by rw [← (hbox a ha).length_eq, hb, List.length_ofFn], hbox a ha⟩)
    have htext : chainText w.naming r.val (t.log r) = (((fileRows r.val (t.log r)).map (Row.fin (R := Rounding.exact))).map (Row.text (c!"nan"))).flatten := by
      unfold chainText
      rw [file_text (c!"nan") w.naming hnm root r r _ (fun l hl => by obtain ⟨l', h1, rfl⟩ := List.mem_map.1 hl; exact hown l' h1), if_pos rfl, fileRows_fin]
    rw [htext] at hε'
    refine le_of_add_le_add_right (a := δ) (hε'.trans ?_)
    rw [add_comm _ δ]
    exact (abs_sub_le _ (rowAverage B g (fileRows r.val (t.log r))) _).trans (add_le_add hnear le_rfl)

/-- **C98, executions.** For almost all outcomes of the generator the program on the two texts has an end: every execution can be continued to it, and every finished execution is there. -/
theorem texts_end (other : Str → Option ℝ) (e : Model ℝ × List (Str × Str) × Nat) (he : e ∈ modelTable ℝ) (rs : List (DecText × DecText))
    (hl : rs.length = e.2.1.length) (hw : w.Wf) (hf : w.Fits) (hx : ExpressesWith w (rangeEntries e.2.1 rs) text) (rows : List RowText)
    (hrow : ∀ r ∈ rows, r.Wf w.separators ∧ (r.nums.length : Int) = w.ndim.value) (files : Str → Str) (hfile : files w.dataFile = tableText rows)
    (hn : n ≤ 2147483647) (hu : w.Usable n e.2.1.length rows.length) (hcol : (e.2.2 : Int) ≤ w.ndim.value) (clock : Nat) (root : Fin n) :
    ∀ᵐ Ω ∂unifSeeds, ∃ t : Sys n (Msg ℝ) (Line ℝ) (RSt n ℝ), t.AllDone ∧
      ∀ (sched : List (Label n)) (s : Sys n (Msg ℝ) (Line ℝ) (RSt n ℝ)), (drivenText Ω other e.1 text files clock root).exec sched = some s →
        (∃ sched', s.exec sched' = some t) ∧ (s.AllDone → s = t) := by
  obtain ⟨-, -, hv, -⟩ := texts_valid (n := n) other e he rs hl hw hf hx rows hrow files hfile hn hu hcol clock root
  filter_upwards [driven_ends (m := e.1) hv rfl clock root] with Ω h
  rw [drivenText_eq Ω other e he rs hl hw hf hx files hu.parms.1 hcol]
  exact h

/-! ## The egg box model -/

/-- **C98 for the egg box model**: three ranks, the ranges and the width of its sample input, betas in `[0, 1]`, nothing tuned, an average over the lines after the first half million iterations or
more. -/
theorem eggbox_texts_estimate (other : Str → Option ℝ) (rs : List (DecText × DecText)) (hw : w.Wf) (hf : w.Fits) (hx : ExpressesWith w (rangeEntries gaussianPairs rs) text)
    (hb : boundsOf ℝ rs = [(0, 50), (0, 50)]) (hratio : w.initGpRatio.dec.val = (1 / 10 : ℝ))
    (hbeta : ∀ b ∈ (w.beta0.dec.val :: w.betas.map fun p => p.2.dec.val : List ℝ), 0 ≤ b ∧ b ≤ 1) (rows : List RowText)
    (hrow : ∀ r ∈ rows, r.Wf w.separators ∧ (r.nums.length : Int) = w.ndim.value) (files : Str → Str) (hfile : files w.dataFile = tableText rows)
    (hu : w.Usable 3 2 rows.length) (hnm : w.naming.Good 3) (hstop : w.nStoptune.value ≤ w.nBegintune.value + 1 ∨ w.nStoptune.value ≤ 1) (hlad : w.tuneLadder.value ≤ 0)
    (B : Nat) (hB : w.saveBegin.value ≤ B + 1) (hlong : 500000 ≤ B) (hBN : (B : Int) < w.nIter.value) (hlim : w.nIter.value ≤ 10 ^ 9) (clock : Nat) (root r : Fin 3)
    (g : List ℝ → ℝ) (hg : Measurable fun x : Fin 2 → ℝ => g (List.ofFn x)) (g0 : ∀ x, 0 ≤ g x) (g1 : ∀ x, g x ≤ 1)
    (δ : ℝ) (hδ : 0 ≤ δ) (hgd : ∀ x y : List ℝ, Spec.InBox [(0, 50), (0, 50)] x → y.length = x.length →
      (∀ (j : Nat) (u v : ℝ), y[j]? = some u → x[j]? = some v → |u - v| ≤ 5 / 10 ^ 13 * |v|) → |g y - g x| ≤ δ) :
    ∃ beta : Fin 3 → ℝ, (∀ q, (w.beta0.dec.val :: w.betas.map fun p => p.2.dec.val)[q.val]? = some (beta q)) ∧ ∀ ε : ℝ, 0 < ε →
      unifSeeds.real {Ω | ∃ (sched : List (Label 3)) (t : Sys 3 (Msg ℝ) (Line ℝ) (RSt 3 ℝ)),
          (drivenText Ω other eggbox text files clock root).exec sched = some t ∧ t.AllDone ∧
          ε + δ ≤ |textAverage 2 B g (chainText w.naming r.val (t.log r)) -
            (∫ x : Fin 2 → ℝ, g (List.ofFn x) ∂(posterior (volume.restrict (openBox (fun _ => 0) fun _ => 50)) (eggboxTarget.lp (beta r)))) /
              (posterior (volume.restrict (openBox (fun _ => 0) fun _ => 50)) (eggboxTarget.lp (beta r))).real univ|} ≤
        5000 / ((w.nIter.value.toNat - B : Nat) * ε ^ 2) + 1 / 10 ^ 4 := by
  have hl : rs.length = 2 := by
    have := congrArg List.length hb
    rw [boundsOf, List.length_map] at this
    exact this
  obtain ⟨beta, hbt, h⟩ := texts_estimate (n := 3) (d := 2) other (eggbox, gaussianPairs, 0) (by simp [modelTable]) rs hl hw hf hx rows hrow files hfile (by norm_num) hu
    (by have := hu.table.1; simp only [Nat.cast_zero]; omega) hnm (fun _ => .unif) (fun _ => 0) (fun _ => 50) eggboxTarget (by rw [hb, eggbox_ranges]) (by simp [eggbox, model2, List.ofFn_succ])
    (fun _ => by norm_num) (fun _ => by show (0 : ℝ) ≤ 50; norm_num) (by rw [hratio]; norm_num) (fun data _ b x => eggbox_target _ _ _ _ b x) hstop hlad B hB hBN clock root r g hg g0 g1
    δ hδ (by rw [hb]; exact hgd)
  refine ⟨beta, hbt, fun ε hε => ?_⟩
  rw [hratio] at h
  have hmem : ∀ q, 0 ≤ beta q ∧ beta q ≤ 1 := fun q => hbeta _ (List.mem_of_getElem? (hbt q))
  obtain ⟨hS, hM, he⟩ := eggbox_mixes beta (fun q => (hmem q).1) fun q => (hmem q).2
  have h := h _ _ _ _ hS hM 6000 (by omega) ε hε
  have h2 := eggbox_mixError w.nIter.value.toNat B hlong (by omega) _ he
  have hK : (0 : ℝ) < (w.nIter.value.toNat - B : Nat) := by
    have : 0 < w.nIter.value.toNat - B := by omega
    exact_mod_cast this
  have e : 1 / (1 / 5000 * ((w.nIter.value.toNat - B : Nat) : ℝ) * ε ^ 2) = 5000 / ((w.nIter.value.toNat - B : Nat) * ε ^ 2) := by
    field_simp
  rw [e] at h
  exact h.trans (add_le_add le_rfl h2)

end

/-! ## Example -/

/-- A configuration of the egg box model with three betas, widths of a tenth of the ranges and ten and a half million iterations, otherwise as `demoSettings`. -/
def eggSettings : Settings :=
  { demoSettings (int2 2 0) (int2 0 3) with
    nParm := int2 0 2
    nIter := ⟨.none, [1, 0, 5, 0, 0, 0, 0, 0]⟩
    tuneLadder := int2 0 0
    betas := [(c!" ", dec3 0 5 0), (c!"\t", ⟨.none, [1], some [], none⟩)] }

/-- Its ranges: from 0 to 50, from 0.0 to 5e1. -/
def eggRanges : List (DecText × DecText) :=
  [(⟨.none, [0], none, none⟩, ⟨.none, [5, 0], none, none⟩), (⟨.none, [0], some [0], none⟩, ⟨.none, [5], none, some ⟨.none, [1]⟩⟩)]

theorem eggSettings_wf : eggSettings.Wf where
  ints := by decide
  decs := by
    have h := (demoSettings_wf (int2 2 0) (int2 0 3) (by decide) (by decide)).decs
    exact h
  betas := by
    intro p hp
    simp only [eggSettings, List.mem_cons, List.not_mem_nil, or_false] at hp
    rcases hp with rfl | rfl
    · exact ⟨fun c hc => .inl (List.mem_singleton.1 hc), .inl (by simp [dec3]), by simp [dec3]⟩
    · exact ⟨fun c hc => .inr (List.mem_singleton.1 hc), .inl (by simp), by simp⟩
  words := (demoSettings_wf (int2 2 0) (int2 0 3) (by decide) (by decide)).words
  harmless := (demoSettings_wf (int2 2 0) (int2 0 3) (by decide) (by decide)).harmless

theorem eggText_expresses : ExpressesWith eggSettings (rangeEntries gaussianPairs eggRanges) (demoExtraText eggSettings (rangeEntries gaussianPairs eggRanges)) := by
  refine ⟨⟨fun _ => ['\t'], fun _ => [' '], [c!"# the end: no names here"], _, ?_, ?_, ?_, ?_, rfl⟩, fun e he => ?_, ?_⟩
  · exact fun k => ⟨fun c hc => .inr (List.mem_singleton.1 hc), fun c hc => .inl (List.mem_singleton.1 hc)⟩
  · decide +kernel
  · decide +kernel
  · refine List.Perm.append_right _ ?_
    exact (List.reverse_perm _).map _
  · have h : ∀ e ∈ rangeEntries gaussianPairs eggRanges, e.2.digits ≠ [] ∧ ∀ x ∈ e.2.exponent.toList, x.digits ≠ [] := by decide +kernel
    obtain ⟨h1, h2⟩ := h e he
    exact ⟨.inl h1, fun x hx => h2 x (Option.mem_toList.2 hx)⟩
  · decide +kernel

/-- The first parameter as a fraction of its range. -/
noncomputable def firstPart (x : List ℝ) : ℝ := max 0 (min 1 (x.headD 0 / 50))

theorem clamp_near (a b : ℝ) : |max 0 (min 1 a) - max 0 (min 1 b)| ≤ |a - b| := by
  rw [max_comm 0 (min 1 a), max_comm 0 (min 1 b)]
  refine (abs_max_sub_max_le_abs _ _ _).trans ((abs_min_sub_min_le_max _ _ _ _).trans ?_)
  simp

theorem firstPart_near (x y : List ℝ) (hx : Spec.InBox [(0, 50), (0, 50)] x) (hl : y.length = x.length)
    (h : ∀ (j : Nat) (u v : ℝ), y[j]? = some u → x[j]? = some v → |u - v| ≤ 5 / 10 ^ 13 * |v|) : |firstPart y - firstPart x| ≤ 1 / 10 ^ 12 := by
  cases hx with
  | cons h0 _ =>
    cases y with
    | nil => simp at hl
    | cons u y =>
      have h1 := h 0 u _ rfl rfl
      rw [abs_of_nonneg h0.1] at h1
      have h0 : _ ≤ (50 : ℝ) := h0.2
      rw [abs_le] at h1
      refine (clamp_near _ _).trans ?_
      simp only [List.headD_cons]
      rw [abs_le]
      constructor <;> linarith [h1.1, h1.2]

theorem egg_values : boundsOf ℝ eggRanges = [(0, 50), (0, 50)] ∧ eggSettings.initGpRatio.dec.val = (1 / 10 : ℝ) ∧
    (eggSettings.beta0.dec.val :: eggSettings.betas.map fun p => p.2.dec.val : List ℝ) = [1 / 1000, 1 / 2, 1] := by
  have d1 : digitsValue [0, 0] = 0 := by decide
  have d2 : digitsValue [0, 1, 0] = 10 := by decide
  have d3 : digitsValue [0, 5, 0] = 50 := by decide
  refine ⟨?_, ?_, ?_⟩
  · simp only [boundsOf, eggRanges, List.map_cons, List.map_nil, dec_value, DecText.mantissa, DecText.power, Sign.apply, IntText.value, digitsValue, Option.getD_none, List.append_nil,
      List.length_nil, Option.getD_some]
    norm_num [d1, d2, d3]
  · show ((dec3 0 1 0).dec.val : ℝ) = _
    rw [dec_value]
    simp only [dec3, DecText.mantissa, DecText.power, Sign.apply, IntText.value, digitsValue, Option.getD_none, List.append_nil, List.length_nil, Option.getD_some]
    norm_num [d1, d2, d3]
  · show [((⟨.none, [1], none, some ⟨.minus, [0, 3]⟩⟩ : DecText).dec.val : ℝ), (dec3 0 5 0).dec.val, (⟨.none, [1], some [], none⟩ : DecText).dec.val] = _
    simp only [dec_value, dec3, DecText.mantissa, DecText.power, Sign.apply, IntText.value, digitsValue, Option.getD_none, List.append_nil, List.length_nil, Option.getD_some]
    norm_num [d1, d2, d3]

theorem eggNaming : eggSettings.naming.Good 3 where
  chain := fun r hr => by
    unfold Naming.Fits
    revert r
    decide +kernel
  fixed := by decide
  width := by decide +kernel
  ladder := by decide
  pre := by decide

theorem firstPart_measurable : Measurable fun x : Fin 2 → ℝ => firstPart (List.ofFn x) := by
  have : (fun x : Fin 2 → ℝ => firstPart (List.ofFn x)) = fun x => max 0 (min 1 (x 0 / 50)) := by
    funext x
    simp [firstPart, List.ofFn_succ]
  rw [this]
  fun_prop

/-- The two texts of the egg box example: with a probability above 94 percent, the average of the first parameter over the lines of the text of the coldest chain after iteration 500000 is within
5.0000001 of the posterior mean. -/
example (clock : Nat) : ∃ beta : Fin 3 → ℝ, beta 2 = 1 ∧
    unifSeeds.real {Ω | ∃ (sched : List (Label 3)) (t : Sys 3 (Msg ℝ) (Line ℝ) (RSt 3 ℝ)),
        (drivenText Ω (fun _ => none) eggbox (demoExtraText eggSettings (rangeEntries gaussianPairs eggRanges)) (fun _ => tableText demoRows) clock 0).exec sched = some t ∧ t.AllDone ∧
        1 / 10 + 1 / 10 ^ 12 ≤ |textAverage 2 500000 firstPart (chainText eggSettings.naming 2 (t.log 2)) -
          (∫ x : Fin 2 → ℝ, firstPart (List.ofFn x) ∂(posterior (volume.restrict (openBox (fun _ => 0) fun _ => 50)) (eggboxTarget.lp (beta 2)))) /
            (posterior (volume.restrict (openBox (fun _ => 0) fun _ => 50)) (eggboxTarget.lp (beta 2))).real univ|} < 6 / 100 := by
  obtain ⟨beta, hb, h⟩ := eggbox_texts_estimate (fun _ => none) eggRanges eggSettings_wf ⟨by decide +kernel, by decide +kernel, by decide⟩ eggText_expresses
    egg_values.1 egg_values.2.1 (by rw [egg_values.2.2]; intro b hb; simp at hb; rcases hb with rfl | rfl | rfl <;> norm_num) demoRows (fun r hr => ⟨(demoRows_ok r hr).1, by rw [(demoRows_ok r hr).2]; decide⟩) (fun _ => tableText demoRows) rfl
    ⟨by decide, by decide, by decide, by decide, by decide, by decide, ⟨by decide +kernel, by decide +kernel, .of_sum (by decide +kernel)⟩, by decide +kernel⟩ eggNaming (.inr (by decide)) (by decide)
    500000 (by decide +kernel) le_rfl (by decide +kernel) (by decide +kernel) clock 0 2 firstPart firstPart_measurable (fun x => le_max_left _ _) (fun x => max_le zero_le_one (min_le_left _ _))
    (1 / 10 ^ 12) (by norm_num) firstPart_near
  refine ⟨beta, ?_, lt_of_le_of_lt (h (1 / 10) (by norm_num)) ?_⟩
  · have h2 := hb 2
    rw [egg_values.2.2] at h2
    exact (Option.some.inj h2).symm
  · have e : eggSettings.nIter.value.toNat - 500000 = 10000000 := by decide +kernel
    rw [e]
    norm_num

/-- With the same files almost every assignment of streams has an end. -/
example (clock : Nat) : ∀ᵐ Ω ∂unifSeeds, ∃ t : Sys 3 (Msg ℝ) (Line ℝ) (RSt 3 ℝ), t.AllDone ∧
    ∀ (sched : List (Label 3)) (s : Sys 3 (Msg ℝ) (Line ℝ) (RSt 3 ℝ)),
      (drivenText Ω (fun _ => none) eggbox (demoExtraText eggSettings (rangeEntries gaussianPairs eggRanges)) (fun _ => tableText demoRows) clock 0).exec sched = some s →
        (∃ sched', s.exec sched' = some t) ∧ (s.AllDone → s = t) :=
  texts_end (fun _ => none) (eggbox, gaussianPairs, 0) (by simp [modelTable]) eggRanges rfl eggSettings_wf ⟨by decide +kernel, by decide +kernel, by decide⟩ eggText_expresses
    demoRows (fun r hr => ⟨(demoRows_ok r hr).1, by rw [(demoRows_ok r hr).2]; decide⟩) (fun _ => tableText demoRows) rfl (by decide)
    ⟨by decide, by decide, by decide, by decide, by decide, by decide, ⟨by decide +kernel, by decide +kernel, .of_sum (by decide +kernel)⟩, by decide +kernel⟩ (by decide)
    clock 0

end NiiC
