import Verif.Model.Corner
import Verif.Props.Samples
import Verif.Spec.Estimate
import Verif.Props.Scripts

/-!
# C102: what the corner plots show

For a finished run the array drawn is, in the order of the file, the parameters of the rows behind the first `skipnum` lines, each number within `5e-13` of its size
before it is rounded to a double. The lines skipped come on top of the iterations that the program has not saved. The scripts of the regression and of the mixture open
the chain file of the last rank, whose inverse temperature is 1 for the whole run; the one of the mixture also draws the starting point. The scripts of the curved
likelihood and of hier_R open files that no run of their sample file writes.
-/

set_option linter.unusedSectionVars false

namespace NiiC
open Spec Samples
namespace Scripts

/-! ## Lines of words -/

/-- A text that `split` leaves whole. -/
def Whole (s : Str) : Prop := s ≠ [] ∧ ∀ c ∈ s, c ∉ blanks

/-- Words, each with two blanks behind it. -/
def wordsLine (r : List Str) : Str := (r.map fun u => u ++ c!"  ").flatten ++ ['\n']

theorem split_words (r : List Str) (h : ∀ u ∈ r, Whole u) : split (wordsLine r) = r := by
  unfold split wordsLine
  induction r with
  | nil => decide
  | cons t r ih =>
    rw [List.map_cons, List.flatten_cons, List.append_assoc, List.append_assoc]
    show tokens blanks (t ++ ' ' :: (' ' :: _)) = _
    rw [tokens_run_cons _ _ _ _ (h t (by simp)).1 (h t (by simp)).2 (by decide), tokens_delim _ _ _ (by decide)]
    exact congrArg _ (ih fun u hu => h u (by simp [hu]))

theorem words_no_newline (r : List Str) (h : ∀ u ∈ r, Whole u) : '\n' ∉ (r.map fun u => u ++ c!"  ").flatten := by
  intro hm
  obtain ⟨l, hl, hc⟩ := List.mem_flatten.1 hm
  obtain ⟨u, hu, rfl⟩ := List.mem_map.1 hl
  rcases List.mem_append.1 hc with hc | hc
  · exact (h u hu).2 _ hc (by decide)
  · simp at hc

theorem lines_words (rows : List (List Str)) (h : ∀ r ∈ rows, ∀ u ∈ r, Whole u) : getlines ((rows.map wordsLine).flatten) = rows.map wordsLine := by
  induction rows with
  | nil => rfl
  | cons r rows ih =>
    rw [List.map_cons, List.flatten_cons]
    show getlines (((r.map fun u => u ++ c!"  ").flatten ++ ['\n']) ++ _) = _
    rw [List.append_assoc, List.singleton_append, getlines_line _ _ (words_no_newline r (h r (by simp))), ih fun q hq => h q (by simp [hq])]
    rfl

/-! ## Numbers, infinities and NaN -/

/-- A reading of numbers that also knows the texts of infinities and of NaN. -/
structure ReadsAll (flt : Str → Option Double) (nan : Str) : Prop where
  dec : Reads flt
  pinf : flt (c!"inf") = some .pinf
  ninf : flt (c!"-inf") = some .ninf
  whole : Whole nan
  nan : flt nan = some .nan

/-- A parameter after it has been printed and read. -/
noncomputable def back (v : Double) : Double :=
  match (v : XV) with
  | .fin x => reread x
  | .pinf => .pinf
  | .ninf => .ninf
  | .nan => .nan

theorem whole_dec (t : DecText) (h : t.Wf) : Whole t.text := ⟨dec_text_ne t h, dec_no_blank t⟩

theorem whole_special {f : ℝ → Str} {nan : Str} (hn : Whole nan) (hf : ∀ x, Whole (f x)) (v : Double) : Whole (Print.special nan f v) := by
  have key : ∀ v : XV, Whole (Print.special (R := Rounding.binary64) nan f v) := by
    intro v
    cases v with
    | fin x => exact hf x
    | nan => exact hn
    | pinf =>
      have : Whole (c!"inf") := ⟨by decide, by decide⟩
      exact this
    | ninf =>
      have : Whole (c!"-inf") := ⟨by decide, by decide⟩
      exact this
  exact key v

theorem whole_sci (x : ℝ) : Whole (Print.sci x) := by
  obtain ⟨h1, h2, -⟩ := parmDec_spec x
  rw [h1]
  exact whole_dec _ h2

theorem whole_fixed (x : ℝ) : Whole (Print.fixed x) := by
  obtain ⟨t, h1, h2, -⟩ := Print.fixed_text x
  rw [h1]
  exact whole_dec _ h2

theorem whole_int (k : Int) : Whole (Print.int k) := by
  obtain ⟨t, h1, -, -, h2⟩ := Print.int_dec k
  rw [h1]
  exact whole_dec _ h2

theorem flt_special {flt : Str → Option Double} {nan : Str} (hf : ReadsAll flt nan) (v : Double) : flt (Print.special nan Print.sci v) = some (back v) := by
  have key : ∀ v : XV, flt (Print.special (R := Rounding.binary64) nan Print.sci v) = some (back v) := by
    intro v
    cases v with
    | fin x =>
      show flt (Print.sci x) = some (reread x)
      obtain ⟨h1, h2, -⟩ := parmDec_spec x
      rw [h1, hf.dec _ h2]
      rfl
    | nan => exact hf.nan
    | pinf => exact hf.pinf
    | ninf => exact hf.ninf
  exact key v

/-- **C102, the numbers.** A finite parameter is drawn as the double nearest to a number that differs from it by at most `5e-13` of its size. -/
theorem back_close (x : ℝ) : ∃ y : ℝ, back (.fin x) = Binary64.rnd y ∧ |y - x| ≤ 5 / 10 ^ 13 * |x| := by
  obtain ⟨-, -, h⟩ := parmDec_spec x
  exact ⟨Print.val (parmDec x), dec_val _, h⟩

/-! ## Rows -/

/-- The words of a row. -/
noncomputable def rowWords (nan : Str) (a : Row Double) : List Str :=
  a.x.map (Print.special nan Print.sci) ++ [Print.special nan Print.fixed a.lp, Print.int a.iter, Print.int a.accepted]

theorem rowWords_whole {nan : Str} (hn : Whole nan) (a : Row Double) : ∀ u ∈ rowWords nan a, Whole u := by
  intro u hu
  simp only [rowWords, List.mem_append, List.mem_map, List.mem_cons, List.not_mem_nil, or_false] at hu
  rcases hu with ⟨v, -, rfl⟩ | rfl | rfl | rfl
  exacts [whole_special hn whole_sci v, whole_special hn whole_fixed _, whole_int _, whole_int _]

theorem row_words (nan : Str) (a : Row Double) : a.text nan = wordsLine (rowWords nan a) := by
  simp [Row.text, Print.line, wordsLine, rowWords, Function.comp_def]

theorem cells_map {flt : Str → Option Double} {nan : Str} (hf : ReadsAll flt nan) (x : List Double) (rest : List Str) :
    cells flt x.length (x.map (Print.special nan Print.sci) ++ rest) = some (x.map back) := by
  induction x with
  | nil => cases rest <;> rfl
  | cons v x ih => simp only [List.length_cons, List.map_cons, List.cons_append, cells, flt_special hf, ih]

theorem mapM_some {α β : Type} (f : α → Option β) (g : α → β) (l : List α) (h : ∀ a ∈ l, f a = some (g a)) : l.mapM f = some (l.map g) := by
  induction l with
  | nil => rfl
  | cons a l ih =>
    rw [List.mapM_cons, h a (by simp), ih fun b hb => h b (by simp [hb])]
    rfl

/-- **C102, the array.** For a file made of rows with as many parameters as the script reads columns: it draws nothing and fails when at most one row is left behind the
lines skipped; else it draws the parameters of the rows left. -/
theorem shown_rows {flt : Str → Option Double} {nan : Str} (hf : ReadsAll flt nan) (p : Plot) (rows : List (Row Double)) (hr : ∀ a ∈ rows, a.x.length = p.cols) :
    p.shown flt ((rows.map (Row.text nan)).flatten) = if rows.length ≤ p.skip + 1 then none else some ((rows.drop p.skip).map fun a => a.x.map back) := by
  have e1 : rows.map (Row.text nan) = (rows.map (rowWords nan)).map wordsLine := by
    rw [List.map_map]
    exact List.map_congr_left fun a _ => row_words nan a
  have e2 : getlines ((rows.map (Row.text nan)).flatten) = rows.map fun a => wordsLine (rowWords nan a) := by
    rw [e1, lines_words _ (by
      intro r hr u hu
      obtain ⟨a, -, rfl⟩ := List.mem_map.1 hr
      exact rowWords_whole hf.whole a u hu), List.map_map]
    rfl
  have e3 : (((rows.map fun a => wordsLine (rowWords nan a)).drop p.skip).mapM fun l => cells flt p.cols (split l)) =
      some ((rows.drop p.skip).map fun a => a.x.map back) := by
    rw [← List.map_drop, List.mapM_map]
    refine mapM_some _ _ _ fun a ha => ?_
    show cells flt p.cols (split (wordsLine (rowWords nan a))) = _
    rw [split_words _ (rowWords_whole hf.whole a), ← hr a (List.mem_of_mem_drop ha)]
    exact cells_map hf a.x _
  unfold Plot.shown
  rw [e2, e3]
  simp only [Option.bind_eq_bind, Option.bind_some, List.length_map, List.length_drop, Option.pure_def]
  by_cases h : rows.length ≤ p.skip + 1
  · rw [if_pos h, if_pos (by omega)]
  · rw [if_neg h, if_neg (by omega)]

/-- The content of a file after a run when there was no such file before: what the ranks have added to it. Only one of them adds to a chain file, so their order does not
matter. -/
noncomputable def content {n : Nat} (nan : Str) (nm : Naming) (name : Str) (t : Sys n (Msg Double) (Line Double) (RSt n Double)) : Str :=
  ((List.finRange n).map fun r => Print.file nan nm name (t.log r)).flatten

theorem flatten_single {n : Nat} {α : Type} (r : Fin n) (x : List α) : ((List.finRange n).map fun q => if q = r then x else []).flatten = x := by
  have key : ∀ l : List (Fin n), l.Nodup → r ∈ l → (l.map fun q => if q = r then x else []).flatten = x := by
    intro l
    induction l with
    | nil => simp
    | cons q l ih =>
      intro hd hm
      obtain ⟨h1, h2⟩ := List.nodup_cons.1 hd
      rw [List.map_cons, List.flatten_cons]
      by_cases hq : q = r
      · have : (l.map fun q => if q = r then x else []).flatten = [] := by
          rw [List.flatten_eq_nil_iff]
          intro y hy
          obtain ⟨q', hq', rfl⟩ := List.mem_map.1 hy
          exact if_neg fun e : q' = r => h1 (by rw [hq, ← e]; exact hq')
        rw [this, if_pos hq, List.append_nil]
      · rw [if_neg hq, List.nil_append]
        exact ih h2 ((List.mem_cons.1 hm).resolve_left fun e => hq e.symm)
  exact key _ (List.nodup_finRange n) (List.mem_finRange r)

theorem content_chain {n : Nat} (cfg : Cfg Double) (file : DataFile Double) (hv : Valid n cfg file) (clock : Nat) (root : Fin n) (nm : Naming) (hgn : nm.Good n)
    (nan : Str) (w : List (Label n)) (t : Sys n (Msg Double) (Line Double) (RSt n Double)) (h : (initSys cfg file clock root).exec w = some t) (r : Fin n) :
    content nan nm (nm.chainFull r.val) t = ((fileRows r.val (t.log r)).map (Row.text nan)).flatten := by
  have e : (fun q => Print.file nan nm (nm.chainFull r.val) (t.log q)) =
      fun q => if q = r then ((fileRows r.val (t.log r)).map (Row.text nan)).flatten else [] := by
    funext q
    rw [file_text nan nm hgn root r q (t.log q) (fun l hl => one_writer cfg file hv clock root w t h q l hl)]
    by_cases hq : q = r
    · rw [if_pos hq, if_pos hq, hq]
    · rw [if_neg hq, if_neg hq]
  rw [content, e, flatten_single]

/-- **C102, for the program.** For every finished execution with doubles, a script that reads as many columns as there are parameters, applied to the chain file of a
rank: the file has row 0, the starting point, and the iterations behind some `m`, which is less than a batch before `i_save_begin`. If `i_save_begin` and the lines skipped
leave something, the array drawn consists of the parameters in the rows behind the lines skipped, in order, as printed and read. Of iterations `0, m + 1, m + 2, .. N_iter`
the first `skipnum` are missing. -/
theorem shown_of_run {n : Nat} {flt : Str → Option Double} {nan : Str} (hf : ReadsAll flt nan) (cfg : Cfg Double) (file : DataFile Double) (hv : Valid n cfg file)
    (clock : Nat) (root : Fin n) (nm : Naming) (hgn : nm.Good n) (p : Plot) (hc : p.cols = cfg.nParm) (h0 : 0 ≤ cfg.nIter)
    (hb : (cfg.saveBegin : Int) + p.skip < cfg.nIter) (w : List (Label n))
    (t : Sys n (Msg Double) (Line Double) (RSt n Double)) (h : (initSys cfg file clock root).exec w = some t) (hd : t.AllDone) (r : Fin n) :
    ∃ m : Nat, (m = 0 ∨ m < cfg.saveBegin) ∧ (cfg.saveBegin : Int) ≤ m + (cfg.base + cfg.rand) ∧
      (((fileRows r.val (t.log r)).drop p.skip).map Row.iter = (0 :: List.range' (m + 1) (cfg.nIter.toNat - m)).drop p.skip) ∧
      p.shown flt (content nan nm (nm.chainFull r.val) t) = some (((fileRows r.val (t.log r)).drop p.skip).map fun a => a.x.map back) := by
  obtain ⟨data, beta, tail, m, -, -, ⟨h1, h1'⟩, h2, h3, hall⟩ := chain_file cfg file hv clock root h0 r
  have hrows := (hall w t h).1 hd
  have hm : m = 0 ∨ m < cfg.saveBegin := by
    by_contra hc'
    have := h2 m (by omega) (by omega) h1'
    rw [h1] at this
    have hin := List.count_pos_iff.1 (by rw [this]; exact Nat.one_pos)
    rw [List.mem_range'_1] at hin
    omega
  have hlen : tail.length = cfg.nIter.toNat - m := by
    have := congrArg List.length h1
    simpa using this
  have hne : tail ≠ [] := by
    intro e
    rw [e] at hlen
    simp at hlen
    omega
  obtain ⟨-, h4⟩ := h3 hne
  refine ⟨m, hm, h4, ?_, ?_⟩
  · rw [hrows, List.map_drop, List.map_cons, h1]
    rfl
  · rw [content_chain cfg file hv clock root nm hgn nan w t h r, shown_rows hf p _ (fun a ha => ?_), if_neg]
    · rw [hrows, List.length_cons, hlen]
      omega
    · rw [hc]
      exact (saved_in_box cfg file hv clock root (fun x => x.length = cfg.nParm) (fun y hy => hv.user.boundary y hy) (fun s => hv.user.initParm s) w t h).1 r r.val a ha

/-! ## The samples -/

/-- The names of the samples whose scripts open chain files are good for all ranks. -/
theorem regressionNaming : regressionSample.settings.naming.Good 4 where
  chain := fun r hr => by
    unfold Naming.Fits
    revert r
    decide +kernel
  fixed := by decide
  width := by decide +kernel
  ladder := by decide
  pre := by decide

theorem gaussianNaming : gaussianSample.settings.naming.Good 5 where
  chain := fun r hr => by
    unfold Naming.Fits
    revert r
    decide +kernel
  fixed := by decide
  width := by decide +kernel
  ladder := by decide
  pre := by decide

/-- **C102, the files opened.** The scripts of the regression and of the mixture open the chain file of the last of as many ranks as their sample file has inverse
temperatures. -/
theorem plots_open_last : regressionPlot.file = c!"./" ++ regressionSample.settings.naming.chainFull 3 ∧ regressionSample.settings.nBeta.value = 4 ∧
    gaussianPlot.file = c!"./" ++ gaussianSample.settings.naming.chainFull 4 ∧ gaussianSample.settings.nBeta.value = 5 := by decide +kernel

theorem one_val : ((⟨.none, [1], none, none⟩ : DecText).dec.val : Double) = .fin 1 := by
  have h : Print.val ⟨.none, [1], none, none⟩ = 1 := by
    show ((1 : Int) : ℝ) * (10 : ℝ) ^ (0 : Int) = 1
    norm_num
  exact (dec_val _).trans (by rw [h]; exact Binary64.rnd_one)

theorem drop_iters (m k s : Nat) (hs : 1 ≤ s) : (0 :: List.range' (m + 1) k).drop s = List.range' (m + s) (k + 1 - s) := by
  obtain ⟨s, rfl⟩ : ∃ j, s = j + 1 := ⟨s - 1, by omega⟩
  rw [List.drop_succ_cons, List.drop_range', Nat.mul_one, show m + 1 + s = m + (s + 1) by omega, show k + 1 - (s + 1) = k - s by omega]

/-- **C102, the regression.** The sample file of the regression with its four ranks, any table of two columns, doubles: after every finished execution the script draws
the parameters of all iterations from some `k` on, `199975 ≤ k < 200000`, to 400000, of the chain of rank 3, each once and in order. That rank has inverse temperature 1 in
every batch and every swap. The tuning of widths goes on until the end, so that the second half of what is drawn comes from the adaptive phase. -/
theorem regression_plot {flt : Str → Option Double} {nan : Str} (hf : ReadsAll flt nan) (other : Str → Option Double) (rows : List RowText)
    (hrow : ∀ r ∈ rows, r.Wf [' '] ∧ r.nums.length = 2) (hlines : 2 * rows.length ≤ 2147483647) (files : Str → Str) (hfile : files (c!"xy.dat") = tableText rows)
    (clock : Nat) (root : Fin 4) (w : List (Label 4)) (t : Sys 4 (Msg Double) (Line Double) (RSt 4 Double))
    (h : (initText other (regression.code other) regressionSample.text files clock root).exec w = some t) (hd : t.AllDone) :
    ∃ (k : Nat) (shown : List (Row Double)), (199975 ≤ k ∧ k < 200000) ∧ shown <:+ fileRows 3 (t.log 3) ∧ shown.map Row.iter = List.range' k (400001 - k) ∧
      regressionPlot.shown flt (content nan regressionSample.settings.naming (regressionSample.settings.naming.chainFull 3) t) = some (shown.map fun a => a.x.map back) ∧
      ∀ q, ∀ a ∈ notes (t.log q), a.betas[3]? = some (.fin 1) := by
  obtain ⟨file, hv, hi, -⟩ := sample_runs (n := 4) other (regressionSample, (regression, regressionPairs, 2)) (by simp [sampleRuns]) rows hrow hlines files hfile
    (by decide) clock root
  simp only at hi hv
  rw [hi] at h
  have e1 : (cfgOf (F := Double) regression regressionSample.settings regressionSample.ranges).nIter = 400000 := by decide +kernel
  have e2 : (cfgOf (F := Double) regression regressionSample.settings regressionSample.ranges).saveBegin = 100000 := by decide +kernel
  have e3 : (cfgOf (F := Double) regression regressionSample.settings regressionSample.ranges).base = 20 := by decide +kernel
  have e4 : (cfgOf (F := Double) regression regressionSample.settings regressionSample.ranges).rand = 5 := by decide +kernel
  obtain ⟨m, g1, g2, g3, g4⟩ := shown_of_run hf _ file hv clock root _ regressionNaming regressionPlot (by decide +kernel) (by rw [e1]; decide)
    (by rw [e1, e2]; decide) w t h hd 3
  rw [e2] at g1 g2
  rw [e3, e4] at g2
  rw [e1] at g3
  refine ⟨m + 100000, _, by omega, List.drop_suffix _ _, ?_, g4, fun q a ha => ?_⟩
  · refine g3.trans ?_
    rw [drop_iters _ _ _ (by decide), show regressionPlot.skip = 100000 from rfl,
      show (400000 : Int).toNat - m + 1 - 100000 = 400001 - (m + 100000) by omega]
  · obtain ⟨-, -, h3⟩ := ladder_ends_fixed _ file hv clock root w t h q a ha
    have e5 : (cfgOf (F := Double) regression regressionSample.settings regressionSample.ranges).betas[3]? = some (.fin 1) := by
      show some _ = _
      rw [← one_val]
    rw [← e5]
    exact h3

/-- **C102, the mixture.** The sample file of multi_gaussian with its five ranks: after every finished execution the script draws the starting point and then the
parameters of all iterations from some `k` on, `499975 < k ≤ 500000`, to 5000000, of the chain of rank 4, each once and in order. That rank has inverse temperature 1. -/
theorem mixture_plot {flt : Str → Option Double} {nan : Str} (hf : ReadsAll flt nan) (other : Str → Option Double) (rows : List RowText)
    (hrow : ∀ r ∈ rows, r.Wf [' '] ∧ r.nums.length = 2) (hlines : 2 * rows.length ≤ 2147483647) (files : Str → Str) (hfile : files (c!"xy.dat") = tableText rows)
    (clock : Nat) (root : Fin 5) (w : List (Label 5)) (t : Sys 5 (Msg Double) (Line Double) (RSt 5 Double))
    (h : (initText other (multiGaussian.code other) gaussianSample.text files clock root).exec w = some t) (hd : t.AllDone) :
    ∃ k : Nat, (499975 < k ∧ k ≤ 500000) ∧ (fileRows 4 (t.log 4)).map Row.iter = 0 :: List.range' k (5000001 - k) ∧
      gaussianPlot.shown flt (content nan gaussianSample.settings.naming (gaussianSample.settings.naming.chainFull 4) t) =
        some ((fileRows 4 (t.log 4)).map fun a => a.x.map back) ∧
      ∀ q, ∀ a ∈ notes (t.log q), a.betas[4]? = some (.fin 1) := by
  obtain ⟨file, hv, hi, -⟩ := sample_runs (n := 5) other (gaussianSample, (multiGaussian, gaussianPairs, 0)) (by simp [sampleRuns]) rows hrow hlines files hfile
    (by decide) clock root
  simp only at hi hv
  rw [hi] at h
  have e1 : (cfgOf (F := Double) multiGaussian gaussianSample.settings gaussianSample.ranges).nIter = 5000000 := by decide +kernel
  have e2 : (cfgOf (F := Double) multiGaussian gaussianSample.settings gaussianSample.ranges).saveBegin = 500000 := by decide +kernel
  have e3 : (cfgOf (F := Double) multiGaussian gaussianSample.settings gaussianSample.ranges).base = 20 := by decide +kernel
  have e4 : (cfgOf (F := Double) multiGaussian gaussianSample.settings gaussianSample.ranges).rand = 5 := by decide +kernel
  obtain ⟨m, g1, g2, g3, g4⟩ := shown_of_run hf _ file hv clock root _ gaussianNaming gaussianPlot (by decide +kernel) (by rw [e1]; decide)
    (by rw [e1, e2]; decide) w t h hd 4
  rw [e2] at g1 g2
  rw [e3, e4] at g2
  rw [e1] at g3
  refine ⟨m + 1, by omega, ?_, g4, fun q a ha => ?_⟩
  · refine Eq.trans g3 ?_
    rw [show gaussianPlot.skip = 0 from rfl, List.drop_zero, show (5000000 : Int).toNat - m = 5000001 - (m + 1) by omega]
  · obtain ⟨-, -, h3⟩ := ladder_ends_fixed _ file hv clock root w t h q a ha
    have e5 : (cfgOf (F := Double) multiGaussian gaussianSample.settings gaussianSample.ranges).betas[4]? = some (.fin 1) := by
      show some _ = _
      rw [← one_val]
    rw [← e5]
    exact h3

/-- All files of a run are in the directory `results_dir`. -/
theorem file_in_dir {F : Type} (nm : Naming) (hl : nm.dir.length + 1 < nm.len) (hl' : nm.dir.length + 1 < 100) (l : Line F) (f : Str) (h : nm.file l = some f) :
    (nm.dir ++ c!"/") <+: f := by
  have key : ∀ (k : Nat) (s : Str), nm.dir.length + 1 < k → (nm.dir ++ c!"/") <+: snprintf k (nm.dir ++ (c!"/") ++ s) := by
    intro k s hk
    unfold snprintf
    rw [List.take_append]
    refine ⟨s.take (k - 1 - (nm.dir ++ c!"/").length), ?_⟩
    have h1 : (nm.dir ++ c!"/").length ≤ k - 1 := by
      rw [List.length_append, List.length_singleton]
      omega
    rw [List.take_of_length_le h1]
  cases l with
  | mkdir => simp [Naming.file] at h
  | note => simp [Naming.file] at h
  | seed => simp only [Naming.file, Option.some.injEq] at h; rw [← h]; exact key _ _ hl
  | initParm => simp only [Naming.file, Option.some.injEq] at h; rw [← h]; exact key _ _ hl
  | row =>
    simp only [Naming.file, Option.some.injEq, Naming.chainFull] at h
    rw [← h, List.append_assoc (nm.dir ++ c!"/"), List.append_assoc (nm.dir ++ c!"/")]
    exact key _ _ hl
  | sigma =>
    simp only [Naming.file, Option.some.injEq] at h
    rw [← h, List.append_assoc (nm.dir ++ c!"/")]
    exact key _ _ hl'
  | betas => simp only [Naming.file, Option.some.injEq] at h; rw [← h]; exact key _ _ hl'

/-- The naming of the sample file of hier_R, as the program reads it. -/
def hierNaming : Naming := ⟨100, c!"chain", c!".dat", c!"results082900"⟩

/-- **C102, files that do not exist.** No line of any run with the sample file of the curved likelihood, or with the names in the one of hier_R, goes to the file that
the script opens. -/
theorem plots_open_nothing {F : Type} (l : Line F) (f : Str) :
    (curvedSample.settings.naming.file l = some f → curvedPlot.file ≠ c!"./" ++ f) ∧
    (readStr (textOf hierSample) (c!"results_dir") = .ok (some hierNaming.dir) ∧ readStr (textOf hierSample) (c!"FoutPre") = .ok (some hierNaming.pre) ∧
      readStr (textOf hierSample) (c!"FoutSuf") = .ok (some hierNaming.suf) ∧ readInt (textOf hierSample) (c!"Fout_Len") = .ok hierNaming.len) ∧
    (hierNaming.file l = some f → hierPlot.file ≠ c!"./" ++ f) := by
  refine ⟨fun h e => ?_, by decide +kernel, fun h e => ?_⟩
  · obtain ⟨g, rfl⟩ := file_in_dir _ (by decide) (by decide) l f h
    have := congrArg (List.take 5) e
    revert this
    simp [curvedPlot, Settings.naming, curvedSample]
  · obtain ⟨g, rfl⟩ := file_in_dir _ (by decide) (by decide) l f h
    have := congrArg (List.take 16) e
    revert this
    simp [hierPlot, hierNaming]

/-! ## Examples -/

/-- A reading that knows the numbers, the infinities and NaN. -/
noncomputable def demoFlt (s : Str) : Option Double :=
  if s = c!"inf" then some .pinf else if s = c!"-inf" then some .ninf else if s = c!"nan" then some .nan else some (atof (fun _ => none) s)

theorem demoFlt_reads : ReadsAll demoFlt (c!"nan") where
  dec := fun t ht => by
    have key : ∀ s : Str, 'n' ∈ s → t.text ≠ s := fun s hs e => by
      rcases Print.dec_chars t 'n' (e ▸ hs) with h | h | h | h | h <;> revert h <;> decide
    unfold demoFlt
    rw [if_neg (key _ (by decide)), if_neg (key _ (by decide)), if_neg (key _ (by decide))]
    exact atof_reads _ t ht
  pinf := rfl
  ninf := by
    unfold demoFlt
    rw [if_neg (by decide), if_pos rfl]
  whole := ⟨by decide, by decide⟩
  nan := by
    unfold demoFlt
    rw [if_neg (by decide), if_neg (by decide), if_pos rfl]

example : ∃ y : ℝ, back (.fin (1 / 3)) = Binary64.rnd y ∧ |y - 1 / 3| ≤ 5 / 10 ^ 13 * |1 / 3| := back_close _

/-- Three rows, of which one is skipped; with two skipped the script fails. -/
example : (⟨c!"f", 1, 1⟩ : Plot).shown demoFlt ((([⟨[.fin 1], .fin 0, 0, 0⟩, ⟨[.fin 2], .ninf, 1, 1⟩, ⟨[.pinf], .fin 0, 2, 1⟩] : List (Row Double)).map
      (Row.text (c!"nan"))).flatten) = some [[back (.fin 2)], [.pinf]] ∧
    (⟨c!"f", 1, 2⟩ : Plot).shown demoFlt ((([⟨[.fin 1], .fin 0, 0, 0⟩, ⟨[.fin 2], .ninf, 1, 1⟩, ⟨[.pinf], .fin 0, 2, 1⟩] : List (Row Double)).map
      (Row.text (c!"nan"))).flatten) = none := by
  refine ⟨?_, ?_⟩
  · rw [shown_rows demoFlt_reads _ _ (by simp), if_neg (by decide)]
    rfl
  · rw [shown_rows demoFlt_reads _ _ (by simp), if_pos (by decide)]

/-- A run of the egg box with three ranks of which 100 lines are skipped: about 400 points are drawn, the first of iteration 540 to 600. -/
example (w : List (Label 3)) (t : Sys 3 (Msg Double) (Line Double) (RSt 3 Double)) (h : (initSys eggCfgD eggFileD 7 0).exec w = some t) (hd : t.AllDone) :
    ∃ (k : Nat) (shown : List (Row Double)), (540 ≤ k ∧ k < 600) ∧ shown.map Row.iter = List.range' k (1001 - k) ∧
      (⟨c!"./results/chain2.dat", 2, 100⟩ : Plot).shown demoFlt (content (c!"nan") ⟨100, c!"chain", c!".dat", c!"results"⟩
        ((⟨100, c!"chain", c!".dat", c!"results"⟩ : Naming).chainFull 2) t) = some (shown.map fun a => a.x.map back) := by
  obtain ⟨m, h1, h2, h3, h4⟩ := shown_of_run demoFlt_reads eggCfgD eggFileD eggD_valid 7 0 _ demoNaming_good ⟨c!"./results/chain2.dat", 2, 100⟩ rfl (by simp [eggCfgD])
    (by simp [eggCfgD]) w t h hd 2
  simp only [eggCfgD] at h1 h2 h3
  refine ⟨m + 100, _, by omega, h3.trans ?_, h4⟩
  rw [drop_iters _ _ _ (by norm_num), show (1000 : Int).toNat - m + 1 - 100 = 1001 - (m + 100) by omega]

/-- The samples on a table of numbers. -/
example (w : List (Label 4)) (t : Sys 4 (Msg Double) (Line Double) (RSt 4 Double))
    (h : (initText (fun _ => none) (regression.code fun _ => none) regressionSample.text (fun _ => tableText demoRows) 7 0).exec w = some t) (hd : t.AllDone) :
    ∃ shown : List (List Double), 200002 ≤ shown.length ∧
      regressionPlot.shown demoFlt (content (c!"nan") regressionSample.settings.naming (regressionSample.settings.naming.chainFull 3) t) = some shown := by
  obtain ⟨k, rows, h1, -, h2, h3, -⟩ := regression_plot demoFlt_reads _ demoRows demoRows_ok (by decide) _ rfl 7 0 w t h hd
  refine ⟨_, ?_, h3⟩
  have := congrArg List.length h2
  rw [List.length_map, List.length_range'] at this
  rw [List.length_map, this]
  omega

example (w : List (Label 5)) (t : Sys 5 (Msg Double) (Line Double) (RSt 5 Double))
    (h : (initText (fun _ => none) (multiGaussian.code fun _ => none) gaussianSample.text (fun _ => tableText demoRows) 7 0).exec w = some t) (hd : t.AllDone) :
    ∃ shown : List (List Double), 4500002 ≤ shown.length ∧
      gaussianPlot.shown demoFlt (content (c!"nan") gaussianSample.settings.naming (gaussianSample.settings.naming.chainFull 4) t) = some shown := by
  obtain ⟨k, h1, h2, h3, -⟩ := mixture_plot demoFlt_reads _ demoRows demoRows_ok (by decide) _ rfl 7 0 w t h hd
  refine ⟨_, ?_, h3⟩
  have := congrArg List.length h2
  rw [List.length_map, List.length_cons, List.length_range'] at this
  rw [List.length_map, this]
  omega

/-- Rank 3's chain of the sample file of the curved likelihood, and the one of hier_R, are other files than those opened. -/
example : curvedPlot.file ≠ c!"./results082900/chain3.dat" ∧ hierPlot.file ≠ c!"./results082900/chain3.dat" :=
  ⟨(plots_open_nothing (F := ℝ) (.row 3 [1, 2] 0 0 0) (c!"results082900/chain3.dat")).1 (by decide +kernel),
    (plots_open_nothing (F := ℝ) (.row 3 [1, 2] 0 0 0) (c!"results082900/chain3.dat")).2.2 (by decide +kernel)⟩

end Scripts
end NiiC
