import Verif.Props.Abreast
import Verif.Props.Run
import Verif.Props.Extend
import Verif.Props.Print

/-!
# A killed run holds a complete shorter run: C117
-/

set_option linter.unusedSectionVars false

namespace NiiC

open Sys Spec

variable {n : Nat} {F : Type} [Arith F] [Source F]

/-- In the sequential run the chain files of all ranks have the same number of rows. -/
theorem Step.level {cfg : Cfg F} (hu : cfg.user.Wf cfg.nParm) {root : Fin n} {w w' : W n F} (h : Step cfg root w w')
    (hok : w.st.Ok cfg) (hl : Level w.log) : Level w'.log := by
  have key : (∃ k, ∀ r, rowCount w'.log r = rowCount w.log r + k) → Level w'.log := by
    rintro ⟨k, hk⟩ r s
    rw [hk r, hk s, hl r s]
  refine key ?_
  cases h with
  | widths => exact ⟨0, fun r => by simp [rowCount, seqWidths, W.push, fileRows]⟩
  | betas => exact ⟨0, fun r => by by_cases hr : r = root <;> simp [rowCount, fileRows, hr]⟩
  | draw nStack i b h => exact ⟨0, fun r => rfl⟩
  | batch _ nb h => exact ⟨_, seqBatch_rows hu h hok root⟩
  | swap _ ty ty' h =>
    exact ⟨0, fun r => by rw [rowCount, seqSwap_log cfg root w w' ty ty' h]; simp [rowCount, fileRows, Loc.note]⟩
  | ladder ty h h' hr => exact ⟨0, fun r => by simp [rowCount, seqLadder, W.push]⟩
  | tune _ rk h =>
    simp only [seqTuneRank, exc_bind, Except.ok.injEq] at h
    obtain ⟨grid, hgrid, ⟨st1, ars⟩, h1, d, hd, sg, hsg, rfl⟩ := h
    exact ⟨0, fun r => by simp [rowCount, W.push]⟩

theorem seqMain_level {cfg : Cfg F} (hu : cfg.user.Wf cfg.nParm) {file : DataFile F} {clock : Nat} {root : Fin n} {w : W n F}
    (h : seqMain cfg file clock root = .ok w) : Level w.log := by
  obtain ⟨w0, h0, hs⟩ := seqMain_steps cfg file clock root w h
  refine (hs.inv (P := fun w => w.st.Ok cfg ∧ Level w.log) (fun w w' hp h => ⟨h.ok hu hp.1, h.level hu hp.1 hp.2⟩)
    ⟨seqInit_ok hu h0, ?_⟩).2
  simp only [seqInit, exc_bind, Except.ok.injEq] at h0
  obtain ⟨_, _, data, hd, _, _, _, _, _, _, beta, hb, rfl⟩ := h0
  intro r s
  by_cases hr : r = root <;> by_cases hs : s = root <;> simp [rowCount, fileRows, hr, hs]

theorem fileRows_written (k : Nat) (log : List (Line F)) : fileRows k (written log) = fileRows k log := by
  induction log with
  | nil => rfl
  | cons l log ih =>
    simp only [written, fileRows] at ih ⊢
    cases l <;> simp [Line.real, List.filter_cons, List.filterMap_cons, ih]

/-- A row with number `i ≥ 1` in the beginning of a file with rows `0, m+1, m+2, …` has all rows from `m + 1` on before it. -/
theorem prefix_length {c0 : Row F} {tail l : List (Row F)} {m k : Nat} (h0 : c0.iter = 0) (ht : tail.map Row.iter = List.range' (m + 1) k)
    (hl : l <+: c0 :: tail) {row : Row F} (hr : row ∈ l) (h1 : 1 ≤ row.iter) : row.iter + 1 ≤ l.length + m := by
  obtain ⟨j, hj, he⟩ := List.getElem_of_mem hr
  have hfull : (c0 :: tail)[j]? = some row := by
    obtain ⟨x, hx⟩ := hl
    rw [← hx, List.getElem?_append_left hj, List.getElem?_eq_getElem hj, he]
  cases j with
  | zero =>
    simp only [List.getElem?_cons_zero, Option.some.injEq] at hfull
    rw [← hfull, h0] at h1
    omega
  | succ p =>
    simp only [List.getElem?_cons_succ] at hfull
    have e : (tail.map Row.iter)[p]? = some row.iter := by rw [List.getElem?_map, hfull]; rfl
    have hp : p < k := by
      have := (List.getElem?_eq_some_iff.1 e).1
      rwa [ht, List.length_range'] at this
    rw [ht, List.getElem?_range' hp] at e
    simp only [Option.some.injEq] at e
    omega

/-- A row of iteration at least `1` is not after the last iteration. -/
theorem killed_le [LawfulDraws F] (cfg : Cfg F) (file : DataFile F) (hv : Valid n cfg file) (clock : Nat) (root : Fin n)
    (w : List (Label n)) (t : Sys n (Msg F) (Line F) (RSt n F)) (ht : (initSys cfg file clock root).exec w = some t)
    (s : Fin n) (row : Row F) (hrow : row ∈ fileRows s.val (t.log s)) (N : Nat) (h1 : 1 ≤ N)
    (hN : (N : Int) + (cfg.base + cfg.rand) ≤ row.iter) : (N : Int) ≤ cfg.nIter := by
  have hb := hv.base
  have hr0 := hv.rand
  obtain ⟨wf, hwf, hall⟩ := log_prefix cfg file hv clock root
  obtain ⟨data, beta, _, _, _, _, _, tail, m, f1, f4, f5, _⟩ := seqMain_file hv.user hwf s
  have hacc := (seqMain_sizes hv hwf).2.2 s
  have e1 : fileRows s.val (t.log s) <+: firstRow cfg file data clock root s beta :: tail := by
    rw [← f1]; exact fileRows_prefix ((hall w t ht).1 s)
  have := prefix_length rfl f5 e1 hrow (by omega)
  have e2 := e1.length_le
  have e3 := congrArg List.length f5
  simp only [List.length_map, List.length_range'] at e3
  simp only [List.length_cons] at e2
  omega

/-- The two files are those of C117, and the one of the killed run is so much longer. -/
theorem killed_run_length [LawfulDraws F] (cfg : Cfg F) (file : DataFile F) (hv : Valid n cfg file) (clock : Nat) (root : Fin n)
    (w w' : List (Label n)) (t t' : Sys n (Msg F) (Line F) (RSt n F)) (ht : (initSys cfg file clock root).exec w = some t)
    (s : Fin n) (row : Row F) (hrow : row ∈ fileRows s.val (t.log s)) (N : Nat) (h1 : 1 ≤ N) (hs : cfg.saveBegin ≤ N)
    (hN : (N : Int) + (cfg.base + cfg.rand) ≤ row.iter)
    (ht' : (initSys { cfg with nIter := N } file clock root).exec w' = some t') (hd : t'.AllDone) (r : Fin n) :
    fileRows r.val (t'.log r) <+: fileRows r.val (t.log r) ∧
    ((fileRows r.val (t'.log r)).length : Int) + (row.iter - (cfg.base + cfg.rand) - N) ≤ (fileRows r.val (t.log r)).length := by
  have hb := hv.base
  have hr0 := hv.rand
  obtain ⟨wf, hwf, hall⟩ := log_prefix cfg file hv clock root
  obtain ⟨w1, hw1⟩ := (initSys_star cfg hv.user file clock root wf hwf).exec
  have hfd := finalSys_done root wf
  -- the full files of `s` and `r`
  have hNle : (N : Int) ≤ cfg.nIter := killed_le cfg file hv clock root w t ht s row hrow N h1 hN
  have hI : 0 ≤ cfg.nIter := by omega
  obtain ⟨data, beta, tail, m, _, _, ⟨hm1, hm2⟩, _, _, hfs⟩ := chain_file cfg file hv clock root hI s
  obtain ⟨data2, beta2, tail2, m2, _, _, ⟨hn1, hn2⟩, _, _, hfr⟩ := chain_file cfg file hv clock root hI r
  -- they are equally long
  have hlev := seqMain_level hv.user hwf r s
  have es := (hfs w1 _ hw1).1 hfd
  have er := (hfr w1 _ hw1).1 hfd
  have ls := congrArg List.length hm1
  have lr := congrArg List.length hn1
  simp only [List.length_map, List.length_range'] at ls lr
  have hlen : tail2.length = tail.length := by
    have e1 : rowCount wf.log r = tail2.length + 1 := by
      rw [rowCount]; exact congrArg List.length er
    have e2 : rowCount wf.log s = tail.length + 1 := by
      rw [rowCount]; exact congrArg List.length es
    omega
  have hmm : m2 = m := by omega
  -- how far the files are at the moment `t`
  have pl := prefix_length rfl hm1 (hfs w t ht).2 hrow (by omega)
  have ab := files_abreast cfg file hv clock root w t ht s r
  -- the file of the shorter run
  obtain ⟨data3, beta3, tail3, m3, _, _, ⟨hk1, hk2⟩, hcount, _, hfk⟩ :=
    chain_file (cfg.withIter N) file (hv.withIter hNle) clock root (show (0 : Int) ≤ (N : Int) by omega) r
  have ek := (hfk w' t' ht').1 hd
  have hpre : fileRows r.val (t'.log r) <+: firstRow cfg file data2 clock root r beta2 :: tail2 := by
    rw [← er, ← fileRows_written r.val (t'.log r), ← fileRows_written r.val ((finalSys root wf).log r)]
    exact fileRows_prefix (longer_run_extends cfg file hv N hNle clock root w' w1 t' _ ht' hw1 hfd r)
  have lk := congrArg List.length hk1
  simp only [List.length_map, List.length_range'] at lk
  have hN' : ((cfg.withIter N).nIter).toNat = N := by simp [Cfg.withIter]
  rw [hN'] at hk1 lk
  have hm3 : m3 = m2 := by
    have hpos : 0 < tail3.length := by
      have := hcount N h1 hs (le_refl _)
      have : N ∈ tail3.map Row.iter := List.count_pos_iff.1 (by omega)
      have := List.length_pos_of_mem this
      simpa using this
    have hp2 : tail3 <+: tail2 := by
      rw [ek] at hpre
      exact (List.cons_prefix_cons.1 hpre).2
    have hle := hp2.length_le
    have hp3 := hp2.map Row.iter
    rw [hk1, hn1] at hp3
    obtain ⟨x, hx⟩ := hp3
    have e := congrArg (fun l => l[0]?) hx
    rw [List.getElem?_append_left (by simp; omega), List.getElem?_range' (by omega), List.getElem?_range' (by omega)] at e
    simp only [Option.some.injEq] at e
    omega
  have hlast : ((fileRows r.val (t'.log r)).length : Int) + (row.iter - (cfg.base + cfg.rand) - N) ≤ (fileRows r.val (t.log r)).length := by
    rw [ek, List.length_cons]
    omega
  exact ⟨List.prefix_of_prefix_length_le hpre (hfr w t ht).2 (by omega), hlast⟩

/-- **C117.** Whenever a run is stopped: if the chain file of some rank has got as far as iteration `row.iter`, then the chain file of
every rank begins with the complete chain file of the run that differs only in being shorter by as much as a batch can have
iterations: `N_iter = row.iter - (base + rand)`, or less. -/
theorem killed_run [LawfulDraws F] (cfg : Cfg F) (file : DataFile F) (hv : Valid n cfg file) (clock : Nat) (root : Fin n)
    (w w' : List (Label n)) (t t' : Sys n (Msg F) (Line F) (RSt n F)) (ht : (initSys cfg file clock root).exec w = some t)
    (s : Fin n) (row : Row F) (hrow : row ∈ fileRows s.val (t.log s)) (N : Nat) (h1 : 1 ≤ N) (hs : cfg.saveBegin ≤ N)
    (hN : (N : Int) + (cfg.base + cfg.rand) ≤ row.iter)
    (ht' : (initSys { cfg with nIter := N } file clock root).exec w' = some t') (hd : t'.AllDone) (r : Fin n) :
    fileRows r.val (t'.log r) <+: fileRows r.val (t.log r) :=
  (killed_run_length cfg file hv clock root w w' t t' ht s row hrow N h1 hs hN ht' hd r).1

/-- **C117** (text). In doubles, and in terms of characters: the text of the chain file of every rank begins with the complete text of
the chain file of the shorter run. -/
theorem killed_text {R : Rounding} [Source (Dbl R)] [LawfulDraws (Dbl R)] (cfg : Cfg (Dbl R)) (file : DataFile (Dbl R)) (hv : Valid n cfg file)
    (clock : Nat) (root : Fin n) (nm : Naming) (hg : nm.Good n) (nan : Str) (w w' : List (Label n))
    (t t' : Sys n (Msg (Dbl R)) (Line (Dbl R)) (RSt n (Dbl R))) (ht : (initSys cfg file clock root).exec w = some t)
    (s : Fin n) (row : Row (Dbl R)) (hrow : row ∈ fileRows s.val (t.log s)) (N : Nat) (h1 : 1 ≤ N) (hs : cfg.saveBegin ≤ N)
    (hN : (N : Int) + (cfg.base + cfg.rand) ≤ row.iter)
    (ht' : (initSys { cfg with nIter := N } file clock root).exec w' = some t') (hd : t'.AllDone) (r : Fin n) :
    Print.file nan nm (nm.chainFull r.val) (t'.log r) <+: Print.file nan nm (nm.chainFull r.val) (t.log r) := by
  have hI : (N : Int) ≤ cfg.nIter := killed_le cfg file hv clock root w t ht s row hrow N h1 hN
  have hown := one_writer cfg file hv clock root w t ht r
  have hown' := one_writer (cfg.withIter N) file (hv.withIter hI) clock root w' t' ht' r
  rw [file_text nan nm hg root r r _ hown, file_text nan nm hg root r r _ hown', if_pos rfl, if_pos rfl]
  exact ((killed_run cfg file hv clock root w w' t t' ht s row hrow N h1 hs hN ht' hd r).map _).flatten

/-- **C117** (buffers). `fprintf` may keep text back until the file is closed at the end of a save, and a save has at most the rows of one
batch. So let `seen r` be what is in chain file `r` when the job is killed: it begins with the rows but for the last `base + rand`, and may end in
the middle of a number. Then it begins with the complete text of the run shorter by twice that. -/
theorem killed_buffered {R : Rounding} [Source (Dbl R)] [LawfulDraws (Dbl R)] (cfg : Cfg (Dbl R)) (file : DataFile (Dbl R)) (hv : Valid n cfg file)
    (clock : Nat) (root : Fin n) (nm : Naming) (hg : nm.Good n) (nan : Str) (w w' : List (Label n))
    (t t' : Sys n (Msg (Dbl R)) (Line (Dbl R)) (RSt n (Dbl R))) (ht : (initSys cfg file clock root).exec w = some t)
    (seen : Fin n → Str)
    (h3 : ∀ r, (((fileRows r.val (t.log r)).take ((fileRows r.val (t.log r)).length - (cfg.base + cfg.rand).toNat)).map (Row.text nan)).flatten <+: seen r)
    (s : Fin n) (row : Row (Dbl R)) (hrow : row ∈ fileRows s.val (t.log s)) (N : Nat) (h1 : 1 ≤ N) (hs : cfg.saveBegin ≤ N)
    (hN : (N : Int) + 2 * (cfg.base + cfg.rand) ≤ row.iter)
    (ht' : (initSys { cfg with nIter := N } file clock root).exec w' = some t') (hd : t'.AllDone) (r : Fin n) :
    Print.file nan nm (nm.chainFull r.val) (t'.log r) <+: seen r := by
  have hb := hv.base
  have hr0 := hv.rand
  have hN1 : (N : Int) + (cfg.base + cfg.rand) ≤ row.iter := by omega
  have hI : (N : Int) ≤ cfg.nIter := killed_le cfg file hv clock root w t ht s row hrow N h1 hN1
  have hown' := one_writer (cfg.withIter N) file (hv.withIter hI) clock root w' t' ht' r
  obtain ⟨k1, k2⟩ := killed_run_length cfg file hv clock root w w' t t' ht s row hrow N h1 hs hN1 ht' hd r
  rw [file_text nan nm hg root r r _ hown', if_pos rfl]
  refine List.IsPrefix.trans ?_ (h3 r)
  refine (List.IsPrefix.map _ ?_).flatten
  exact List.prefix_of_prefix_length_le k1 (List.take_prefix _ _) (by rw [List.length_take]; omega)

/-! ## Examples -/

/-- A run of 1000 iterations that is killed when rank 0 has written its row 780: rank 2 has all of a run of 700 iterations. -/
example (clock : Nat) (w w' : List (Label 3)) (t t' : Sys 3 (Msg ℝ) (Line ℝ) (RSt 3 ℝ))
    (ht : (initSys demoCfg demoFile clock 1).exec w = some t) (row : Row ℝ) (hrow : row ∈ fileRows 0 (t.log 0)) (hi : row.iter = 780)
    (ht' : (initSys { demoCfg with nIter := 700 } demoFile clock 1).exec w' = some t') (hd : t'.AllDone) :
    fileRows 2 (t'.log 2) <+: fileRows 2 (t.log 2) :=
  killed_run demoCfg demoFile demo_valid clock 1 w w' t t' ht 0 row hrow 700 (by omega) (by simp [demoCfg])
    (by rw [hi]; simp [demoCfg]) ht' hd 2

/-- Such runs exist. -/
example (clock : Nat) : ∃ (w w' : List (Label 3)) (t t' : Sys 3 (Msg ℝ) (Line ℝ) (RSt 3 ℝ)),
    (initSys demoCfg demoFile clock 1).exec w = some t ∧ (∃ row ∈ fileRows 0 (t.log 0), row.iter = 780) ∧
    (initSys { demoCfg with nIter := 700 } demoFile clock 1).exec w' = some t' ∧ t'.AllDone := by
  obtain ⟨v, l, _, hall⟩ := distributed_eq_sequential (demoCfg.withIter 700) demoFile
    (demo_valid.withIter (by simp [demoCfg])) clock 1
  obtain ⟨v', l', _, hall'⟩ := distributed_eq_sequential demoCfg demoFile demo_valid clock 1
  obtain ⟨⟨w', h', _⟩, _⟩ := hall [] _ rfl
  obtain ⟨⟨w, h, _⟩, _⟩ := hall' [] _ rfl
  obtain ⟨data, beta, tail, m, _, _, _, hc, _, hf⟩ := chain_file demoCfg demoFile demo_valid clock 1 (by simp [demoCfg]) 0
  have hmem : 780 ∈ tail.map Row.iter :=
    List.count_pos_iff.1 (by rw [hc 780 (by omega) (by simp [demoCfg]) (by simp [demoCfg])]; omega)
  obtain ⟨row, hr, hi⟩ := List.mem_map.1 hmem
  refine ⟨w, w', _, _, h, ⟨row, ?_, hi⟩, h', fun _ => trivial⟩
  have e := (hf w _ h).1 (fun _ => trivial)
  exact e ▸ List.mem_cons_of_mem _ hr

/-- The text of a chain file of an Eggbox run in doubles that is killed. -/
example (clock : Nat) (w w' : List (Label 3)) (t t' : Sys 3 (Msg Double) (Line Double) (RSt 3 Double))
    (ht : (initSys Scripts.eggCfgD Scripts.eggFileD clock 1).exec w = some t) (row : Row Double) (hrow : row ∈ fileRows 0 (t.log 0))
    (hi : row.iter = 620) (ht' : (initSys { Scripts.eggCfgD with nIter := 550 } Scripts.eggFileD clock 1).exec w' = some t') (hd : t'.AllDone) :
    Print.file (c!"nan") ⟨100, c!"chain", c!".dat", c!"results"⟩ ((⟨100, c!"chain", c!".dat", c!"results"⟩ : Naming).chainFull 2) (t'.log 2) <+:
      Print.file (c!"nan") ⟨100, c!"chain", c!".dat", c!"results"⟩ ((⟨100, c!"chain", c!".dat", c!"results"⟩ : Naming).chainFull 2) (t.log 2) :=
  killed_text Scripts.eggCfgD Scripts.eggFileD Scripts.eggD_valid clock 1 _ demoNaming_good (c!"nan") w w' t t' ht 0 row hrow 550
    (by omega) (by simp [Scripts.eggCfgD]) (by rw [hi]; simp [Scripts.eggCfgD]) ht' hd 2

/-- The same run when the last rows of rank 2, and a part of a row, have not got into the file. -/
example (clock : Nat) (w w' : List (Label 3)) (t t' : Sys 3 (Msg Double) (Line Double) (RSt 3 Double))
    (ht : (initSys Scripts.eggCfgD Scripts.eggFileD clock 1).exec w = some t) (row : Row Double) (hrow : row ∈ fileRows 0 (t.log 0))
    (hi : row.iter = 680) (ht' : (initSys { Scripts.eggCfgD with nIter := 550 } Scripts.eggFileD clock 1).exec w' = some t') (hd : t'.AllDone)
    (seen : Fin 3 → Str)
    (h3 : ∀ r : Fin 3, (((fileRows r.val (t.log r)).take ((fileRows r.val (t.log r)).length - 60)).map (Row.text (c!"nan"))).flatten <+: seen r) :
    Print.file (c!"nan") ⟨100, c!"chain", c!".dat", c!"results"⟩ ((⟨100, c!"chain", c!".dat", c!"results"⟩ : Naming).chainFull 2) (t'.log 2) <+: seen 2 :=
  killed_buffered Scripts.eggCfgD Scripts.eggFileD Scripts.eggD_valid clock 1 _ demoNaming_good (c!"nan") w w' t t' ht seen
    (by simpa [Scripts.eggCfgD] using h3) 0 row hrow 550 (by omega) (by simp [Scripts.eggCfgD]) (by rw [hi]; simp [Scripts.eggCfgD]) ht' hd 2

end NiiC
