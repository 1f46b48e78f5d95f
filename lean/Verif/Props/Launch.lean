import Verif.Props.Demo
import Verif.Props.Samples
import Verif.Refine.Launch

/-!
# The number of processes: C101

mjob.sh and the program read the number of chains from the same line, each in its own way.
-/

set_option linter.unusedSectionVars false

namespace NiiC
open Spec Samples Launch

/-! ## Script and program -/

/-- When the program finds its line, the script takes the second field of it. -/
theorem words_line {text l : Str} (h0 : '\x00' ∉ text) (h : paraLine text (c!"N_beta") = .ok l) : words text = tokens gaps (second l) := by
  obtain ⟨line, hon, -, rfl⟩ := (para_line_iff text (c!"N_beta") _ (isLines_getlines text) l).1 h
  have hf := filter_singleton hon
  have hid : ∀ l ∈ getlines text, cstr l = l := fun l hl => cstr_id l fun hc => h0 (by
    rw [← getlines_flatten text]; exact List.mem_flatten.2 ⟨l, hl, hc⟩)
  rw [List.map_congr_left hid, List.map_id'] at hf
  rw [words, counts, hf]
  simp

theorem second_tokens (l : Str) : tokens gaps (second l) = [] ∨ tokens gaps (second l) = [second l] := by
  by_cases h : second l = []
  · left; rw [h]; rfl
  · right
    refine tokens_run _ _ h ?_
    rcases tokens_first gaps l with ⟨h1, -⟩ | ⟨lead, t, rest, -, -, -, -, -, h1⟩
    · exact absurd (by rw [second, h1]; rfl) h
    · rcases tokens_first gaps rest with ⟨h2, -⟩ | ⟨lead', t', rest', -, -, -, h3, -, h2⟩
      · exact absurd (by rw [second, h1, h2]; rfl) h
      · have : second l = t' := by rw [second, h1, h2]; rfl
        rw [this]
        exact h3

/-- The number started is the one written in the second field. -/
theorem launched_line {text l : Str} (h0 : '\x00' ∉ text) (h : paraLine text (c!"N_beta") = .ok l) (k : Nat) :
    launched text = some k ↔ second l ≠ [] ∧ (∀ c ∈ second l, isDigit c = true) ∧ natOf (second l) = k := by
  rw [launched, words_line h0 h]
  rcases second_tokens l with h1 | h1
  · rw [h1]
    constructor
    · intro hc; cases hc
    · rintro ⟨hne, hd, -⟩
      have hg : ∀ c ∈ second l, c ∉ gaps := fun c hc hg => by
        have := hd c hc
        simp only [gaps, List.mem_cons, List.not_mem_nil, or_false] at hg
        rcases hg with rfl | rfl | rfl <;> exact absurd this (by decide)
      rw [tokens_run _ _ hne hg] at h1
      cases h1
  · rw [h1]
    simp only
    by_cases hw : second l ≠ [] ∧ (second l).all isDigit = true
    · rw [if_pos hw]
      simp only [Option.some.injEq]
      exact ⟨fun h => ⟨hw.1, List.all_eq_true.1 hw.2, h⟩, fun h => h.2.2⟩
    · rw [if_neg hw]
      constructor
      · intro hc; cases hc
      · rintro ⟨a, b, -⟩; exact absurd ⟨a, List.all_eq_true.2 b⟩ hw

/-- **C101.** The only line that mentions `N_beta` has at most 99 bytes and starts with a word that ends with its colon, and white space follows. Then whatever number of
processes the script starts, the program reads the same number (or a number outside `int`, which is undefined behaviour). -/
theorem launch_agrees (text : Str) (ls : List Str) (hl : IsLines text ls) (h0 : '\x00' ∉ text) (key rest : Str) (c : Char)
    (hk : key ≠ [] ∧ ':' ∉ key ∧ ' ' ∉ key ∧ '\t' ∉ key ∧ '\n' ∉ key) (hc : c = ' ' ∨ c = '\t' ∨ c = '\n')
    (hon : OnlyMention (c!"N_beta") ls (key ++ ':' :: c :: rest)) (hlen : (key ++ ':' :: c :: rest).length < 100) (k : Nat) (hs : launched text = some k) :
    readInt text (c!"N_beta") = if (k : Int) ≤ 2147483647 then .ok (k : Int) else .error .overflow := by
  have hg := getlines_of_isLines hl
  have hid : cstr (key ++ ':' :: c :: rest) = key ++ ':' :: c :: rest := cstr_id _ fun hc => h0 (by
    obtain ⟨a, b, hab, -⟩ := hon
    rw [← getlines_flatten text, hg, hab]
    exact List.mem_flatten.2 ⟨_, by simp, hc⟩)
  have hp : paraLine text (c!"N_beta") = .ok (key ++ ':' :: c :: rest) :=
    (para_line_iff text _ ls hl _).2 ⟨_, hon, by rw [hid]; exact hlen, hid.symm⟩
  have hcg : c ∈ gaps := by rcases hc with rfl | rfl | rfl <;> decide
  have hkey : ∀ x ∈ key ++ [':'], x ∉ gaps := by
    intro x hx hg
    simp only [gaps, List.mem_cons, List.not_mem_nil, or_false] at hg
    rcases List.mem_append.1 hx with hx | hx
    · rcases hg with rfl | rfl | rfl
      · exact hk.2.2.1 hx
      · exact hk.2.2.2.1 hx
      · exact hk.2.2.2.2 hx
    · rw [List.mem_singleton.1 hx] at hg
      revert hg; decide
  have htok : tokens gaps (key ++ ':' :: c :: rest) = (key ++ [':']) :: tokens gaps rest := by
    rw [show key ++ ':' :: c :: rest = (key ++ [':']) ++ c :: rest by simp]
    exact tokens_run_cons _ _ c rest (by simp) hkey hcg
  obtain ⟨hne, hd, hv⟩ := (launched_line h0 hp k).1 hs
  rcases tokens_first gaps rest with ⟨h1, -⟩ | ⟨lead, t, tl, rfl, h2, h3, h4, h5, h1⟩
  · exact absurd (by rw [second, htok, h1]; rfl) hne
  · have hsec : second (key ++ ':' :: c :: (lead ++ t ++ tl)) = t := by rw [second, htok, h1]; rfl
    rw [hsec] at hne hd hv
    have hsp : ∀ x ∈ gaps, isSpace x = true := by decide
    have hscan := scanInt_digits (c :: lead) t tl (fun x hx => by
      rcases List.mem_cons.1 hx with rfl | hx
      · exact hsp _ hcg
      · exact hsp _ (h2 _ hx)) hne hd (by
      cases tl with
      | nil => trivial
      | cons y tl =>
        simp only [Stops, decide_eq_false_iff_not, not_not] at h5
        have : ∀ x ∈ gaps, isDigit x = false := by decide
        exact this _ h5)
    have hr : (scanKey (key ++ ':' :: c :: (lead ++ t ++ tl))).bind scanInt = some (k : Int) := by
      rw [scanKey_text _ _ hk.1 hk.2.1, ← hv]
      simpa using hscan
    rw [readInt, hp]
    simp only [bind, Except.bind, hr, i32]
    by_cases hb : (k : Int) ≤ 2147483647
    · rw [if_pos hb, if_pos ⟨by omega, hb⟩]
    · rw [if_neg hb, if_neg (fun h => hb h.2)]

theorem second_entry (key gap w tail : Str) (hk : key ≠ [] ∧ ':' ∉ key ∧ ' ' ∉ key ∧ '\t' ∉ key ∧ '\n' ∉ key) (hgap : gap ≠ [] ∧ Blank gap)
    (hw : w ≠ [] ∧ ∀ x ∈ w, x ∉ gaps) (htail : tail = [] ∨ ∃ x t, tail = x :: t ∧ (x = ' ' ∨ x = '\t' ∨ x = '\n')) :
    second (key ++ ':' :: (gap ++ w ++ tail)) = w := by
  have hkey : ∀ x ∈ key ++ [':'], x ∉ gaps := by
    intro x hx hg
    simp only [gaps, List.mem_cons, List.not_mem_nil, or_false] at hg
    rcases List.mem_append.1 hx with hx | hx
    · rcases hg with rfl | rfl | rfl
      · exact hk.2.2.1 hx
      · exact hk.2.2.2.1 hx
      · exact hk.2.2.2.2 hx
    · rw [List.mem_singleton.1 hx] at hg
      revert hg; decide
  have hblank : ∀ x ∈ gap, x ∈ gaps := fun x hx => by rcases hgap.2 x hx with rfl | rfl <;> decide
  obtain ⟨c, g, rfl⟩ := List.exists_cons_of_ne_nil hgap.1
  have h1 : tokens gaps (key ++ ':' :: (c :: g ++ w ++ tail)) = (key ++ [':']) :: tokens gaps (w ++ tail) := by
    rw [show key ++ ':' :: (c :: g ++ w ++ tail) = (key ++ [':']) ++ c :: (g ++ (w ++ tail)) by simp,
      tokens_run_cons _ _ c _ (by simp) hkey (hblank c (by simp)), tokens_lead _ _ _ fun x hx => hblank x (by simp [hx])]
  have h2 : ∃ more, tokens gaps (w ++ tail) = w :: more := by
    rcases htail with rfl | ⟨x, t, rfl, hx⟩
    · exact ⟨[], by rw [List.append_nil]; exact tokens_run _ _ hw.1 hw.2⟩
    · exact ⟨_, tokens_run_cons _ _ x t hw.1 hw.2 (by rcases hx with rfl | rfl | rfl <;> decide)⟩
  obtain ⟨more, h2⟩ := h2
  rw [second, h1, h2]
  rfl

theorem second_single (w tail : Str) (hne : w ≠ []) (hw : ∀ x ∈ w, x ∉ gaps) (htail : ∀ x ∈ tail, x ∈ gaps) : second (w ++ tail) = [] := by
  have hnil : tokens gaps tail = [] := by
    have := tokens_lead gaps tail [] htail
    rw [List.append_nil] at this
    rw [this]; rfl
  cases tail with
  | nil => rw [List.append_nil, second, tokens_run _ _ hne hw]; rfl
  | cons x t =>
    rw [tokens_delim _ _ _ (htail x (by simp))] at hnil
    rw [second, tokens_run_cons _ _ x t hne hw (htail x (by simp)), hnil]; rfl

/-- A file with two further lines. -/
def chainsText : Str := c!"# chains\nN_beta:\t 4  \nN_iter: 9\n"

theorem chainsText_line : OnlyMention (c!"N_beta") (getlines chainsText) (c!"N_beta:\t 4  \n") :=
  ⟨[c!"# chains\n"], [c!"N_iter: 9\n"], by decide, by unfold Mentions; decide, by unfold Mentions; decide, by unfold Mentions; decide⟩

example : readInt chainsText (c!"N_beta") = .ok 4 :=
  launch_agrees chainsText _ (isLines_getlines _) (by decide) (c!"N_beta") (c!" 4  \n") '\t' (by decide) (by decide) chainsText_line (by decide) 4 (by decide)

/-- **C101, a number is started.** The line is written as in the sample files: a word with its colon, white space, digits, and white space or nothing behind them. -/
theorem launch_starts (text : Str) (ls : List Str) (hl : IsLines text ls) (h0 : '\x00' ∉ text) (key gap w tail : Str)
    (hk : key ≠ [] ∧ ':' ∉ key ∧ ' ' ∉ key ∧ '\t' ∉ key ∧ '\n' ∉ key) (hgap : gap ≠ [] ∧ Blank gap) (hw : w ≠ [] ∧ ∀ x ∈ w, isDigit x = true)
    (htail : tail = [] ∨ ∃ x t, tail = x :: t ∧ (x = ' ' ∨ x = '\t' ∨ x = '\n'))
    (hon : OnlyMention (c!"N_beta") ls (key ++ ':' :: (gap ++ w ++ tail))) (hlen : (key ++ ':' :: (gap ++ w ++ tail)).length < 100) :
    launched text = some (natOf w) := by
  have hid : cstr (key ++ ':' :: (gap ++ w ++ tail)) = key ++ ':' :: (gap ++ w ++ tail) := cstr_id _ fun hc => h0 (by
    obtain ⟨a, b, hab, -⟩ := hon
    rw [← getlines_flatten text, getlines_of_isLines hl, hab]
    exact List.mem_flatten.2 ⟨_, by simp, hc⟩)
  have hp : paraLine text (c!"N_beta") = .ok (key ++ ':' :: (gap ++ w ++ tail)) :=
    (para_line_iff text _ ls hl _).2 ⟨_, hon, by rw [hid]; exact hlen, hid.symm⟩
  rw [launched_line h0 hp, second_entry key gap w tail hk hgap ⟨hw.1, fun x hx hg => ?_⟩ htail]
  · exact ⟨hw.1, hw.2, rfl⟩
  · have : ∀ x ∈ gaps, isDigit x = false := by decide
    exact absurd ((hw.2 x hx).symm.trans (this x hg)) (by decide)

example : launched chainsText = some 4 :=
  launch_starts chainsText _ (isLines_getlines _) (by decide) (c!"N_beta") (c!"\t ") (c!"4") (c!"  \n") (by decide) ⟨by decide, by decide⟩ (by decide)
    (.inr ⟨' ', c!" \n", rfl, .inl rfl⟩) chainsText_line (by decide)

/-! ## Configurations as users write them -/

theorem expresses_noNul {w : Settings} {extra : List (Str × DecText)} {text : Str} (hw : w.Wf) (hg : GoodNames (extra.map Prod.fst))
    (hx : ExpressesWith w extra text) : '\x00' ∉ text := by
  obtain ⟨gap, trail, comments, ls, hgt, hcom, hlen, hperm, rfl⟩ := hx.lines
  have hb : ∀ s : Str, Blank s → '\x00' ∉ s := fun s h hc => by rcases h _ hc with h | h <;> exact absurd h (by decide)
  intro hc
  obtain ⟨l, hl, hc⟩ := List.mem_flatten.1 hc
  obtain ⟨l, hl', rfl⟩ := List.mem_map.1 hl
  rcases List.mem_append.1 hc with hc | hc
  swap
  · exact absurd (List.mem_singleton.1 hc) (by decide)
  rcases List.mem_append.1 (hperm.mem_iff.1 hl') with hl | hl
  · obtain ⟨e, he, rfl⟩ := List.mem_map.1 hl
    have hname : '\x00' ∉ e.1 := by
      rcases List.mem_append.1 (all_name (w := w) (extra := extra) he) with h | h
      · exact (core_names_plain _ h).2.2.2.2.2
      · exact (hg.plain _ h).2.2.2.2.2
    have hval : '\x00' ∉ e.2 := by
      rcases List.mem_append.1 he with h | h
      · exact (entry_value hw e h).2.2.2
      · obtain ⟨d, hd, rfl⟩ := List.mem_map.1 h
        exact fun hc => absurd (numeric_dec _ _ hc) (by decide)
    simp only [entryLine, List.mem_append, List.mem_cons] at hc
    rcases hc with hc | hc | (hc | hc) | hc
    · exact hname hc
    · exact absurd hc (by decide)
    · exact hb _ (hgt _).1 hc
    · exact hval hc
    · exact hb _ (hgt _).2 hc
  · exact (hcom l hl).2.1 hc

/-- **C101, configurations.** In a configuration file the number of processes that the script starts, if it starts any, is the value of `N_beta`, the number of inverse temperatures. -/
theorem launch_expressed {w : Settings} {extra : List (Str × DecText)} {text : Str} (hw : w.Wf) (hf : w.Fits) (hg : GoodNames (extra.map Prod.fst))
    (hx : ExpressesWith w extra text) (k : Nat) (hs : launched text = some k) : (k : Int) = w.nBeta.value ∧ k = w.betas.length + 1 := by
  have h0 := expresses_noNul hw hg hx
  obtain ⟨gap, trail, hgt, hall⟩ := paraLine_with hw hg hx
  have hp := hall (c!"N_beta", w.nBeta.text) (List.mem_append_left _ (by simp [Settings.entries]))
  simp only at hp
  obtain ⟨hne, hd, hv⟩ := (launched_line h0 hp k).1 hs
  have hword : w.nBeta.text ≠ [] ∧ ∀ x ∈ w.nBeta.text, x ∉ gaps := by
    have h1 := hw.ints w.nBeta (by simp)
    constructor
    · intro hc
      rw [IntText.text, List.append_eq_nil_iff] at hc
      exact h1 (List.map_eq_nil_iff.1 hc.2)
    · intro x hx hgx
      rw [IntText.text] at hx
      rcases List.mem_append.1 hx with hx | hx
      · cases hsg : w.nBeta.sign <;> rw [hsg] at hx <;> simp only [Sign.text, List.mem_cons, List.not_mem_nil, or_false] at hx <;>
          subst hx <;> exact absurd hgx (by decide)
      · obtain ⟨d, -, rfl⟩ := List.mem_map.1 hx
        have : ∀ d : Fin 10, digitChar d ∉ gaps := by decide
        exact this d hgx
  have hplain : (c!"N_beta") ≠ [] ∧ ':' ∉ (c!"N_beta") ∧ ' ' ∉ (c!"N_beta") ∧ '\t' ∉ (c!"N_beta") ∧ '\n' ∉ (c!"N_beta") := by decide
  have htail : trail (c!"N_beta") ++ ['\n'] = [] ∨ ∃ x t, trail (c!"N_beta") ++ ['\n'] = x :: t ∧ (x = ' ' ∨ x = '\t' ∨ x = '\n') := by
    cases ht : trail (c!"N_beta") with
    | nil => exact .inr ⟨'\n', [], rfl, .inr (.inr rfl)⟩
    | cons x t =>
      refine .inr ⟨x, t ++ ['\n'], rfl, ?_⟩
      rcases (hgt (c!"N_beta")).2 x (by rw [ht]; simp) with h | h
      · exact .inl h
      · exact .inr (.inl h)
  have hsec : second ((c!"N_beta") ++ ':' :: (gap (c!"N_beta") ++ w.nBeta.text ++ (trail (c!"N_beta") ++ ['\n']))) = w.nBeta.text := by
    by_cases hgap : gap (c!"N_beta") = []
    · exfalso
      apply hne
      rw [hgap, List.nil_append, ← List.cons_append, ← List.append_assoc, List.append_cons]
      have htl : ∀ x ∈ trail (c!"N_beta") ++ ['\n'], x ∈ gaps := by
        intro x hx
        rcases List.mem_append.1 hx with hx | hx
        · rcases (hgt _).2 x hx with rfl | rfl <;> decide
        · rw [List.mem_singleton.1 hx]; decide
      exact second_single _ _ (by simp) (fun x hx => by
        rcases List.mem_append.1 hx with hx | hx
        · have : ∀ x ∈ (c!"N_beta") ++ [':'], x ∉ gaps := by decide
          exact this x hx
        · exact hword.2 x hx) htl
    · exact second_entry _ _ _ _ hplain ⟨hgap, (hgt _).1⟩ hword htail
  rw [hsec] at hne hd hv
  have hval : (k : Int) = w.nBeta.value := by
    rw [← hv]
    cases hsg : w.nBeta.sign with
    | none => simp only [IntText.text, IntText.value, hsg, Sign.text, Sign.apply, List.nil_append, natOf_digits]
    | plus => exact absurd (hd '+' (by simp [IntText.text, hsg, Sign.text])) (by decide)
    | minus => exact absurd (hd '-' (by simp [IntText.text, hsg, Sign.text])) (by decide)
  exact ⟨hval, by have := hf.count; omega⟩

example (e : Sample × (Model ℝ × List (Str × Str) × Nat)) (he : e ∈ sampleRuns ℝ) (k : Nat) (hk : launched e.1.text = some k) : (k : Int) = e.1.settings.nBeta.value := by
  obtain ⟨h1, h2, -⟩ := sampleRuns_readable e he
  obtain ⟨g1, g2, g3⟩ := samples_good _ h1
  exact (launch_expressed (good_wf g1 g2) g3 (by rw [rangeEntries_names _ _ g1.1]; exact (table_names _ h2).2.2.2) (good_express g1) k hk).1

/-! ## The sample files -/

theorem sample_counts : ∀ s ∈ readable, launched s.1.text = some (s.1.settings.betas.length + 1) ∧ 2 ≤ s.1.settings.betas.length + 1 := by decide +kernel

/-- **C101, the samples.** With each sample file that the program can read (the eggbox one repaired), the script starts as many processes as there are inverse temperatures, and with this number of
processes the configuration is usable, every execution under every schedule can be completed, and no rank faults. -/
theorem launch_samples {F : Type} [Arith F] [Source F] [LawfulDraws F] (other : Str → Option F) (e : Sample × (Model F × List (Str × Str) × Nat)) (he : e ∈ sampleRuns F)
    (rows : List RowText) (hrow : ∀ r ∈ rows, r.Wf [' '] ∧ r.nums.length = 2) (hlines : 2 * rows.length ≤ 2147483647) (files : Str → Str)
    (hfile : files e.1.settings.dataFile = tableText rows) (clock : Nat) :
    ∃ n, launched e.1.text = some n ∧ n = e.1.settings.betas.length + 1 ∧ ∀ root : Fin n,
      ∃ file : DataFile F, Valid n (cfgOf e.2.1 e.1.settings e.1.ranges) file ∧
      initText other (e.2.1.code other) e.1.text files clock root = initSys (cfgOf e.2.1 e.1.settings e.1.ranges) file clock root ∧
      ∃ (W : NiiC.W n F) (len : Nat), seqMain (cfgOf e.2.1 e.1.settings e.1.ranges) file clock root = .ok W ∧
        ∀ (w₁ : List (Label n)) (t : Sys n (Msg F) (Line F) (RSt n F)), (initText other (e.2.1.code other) e.1.text files clock root).exec w₁ = some t →
          ¬ t.Faulty ∧ (∃ w₂, t.exec w₂ = some (finalSys root W) ∧ w₁.length + w₂.length = len) ∧
          (t.AllDone → (∀ r, t.procs r = .ret (view root W.st r)) ∧ t.log = W.log ∧ ∀ c, t.chan c = []) := by
  obtain ⟨h1, -, -⟩ := sampleRuns_readable e he
  obtain ⟨h2, h3⟩ := sample_counts _ h1
  exact ⟨_, h2, rfl, fun root => sample_runs other e he rows hrow hlines files hfile ⟨h3, le_rfl⟩ clock root⟩

example : ∃ n, launched regressionSample.text = some n ∧ n = 4 := by
  obtain ⟨n, h1, h2, -⟩ := launch_samples (F := ℝ) (fun _ => none) _ (List.mem_cons_self (a := (regressionSample, (regression, regressionPairs, 2)))) []
    (by simp) (by simp) (fun _ => []) rfl 0
  exact ⟨n, h1, h2⟩

/-- The script also starts a number for the samples that the program cannot read: 15 processes for the eggbox, 8 for fit_orbit, 4 for hier_R. -/
theorem launch_unreadable : launched eggboxSample.text = some 15 ∧ launched (textOf orbitSample) = some 8 ∧ launched (textOf hierSample) = some 4 := by decide +kernel

/-! ## Files with which script and program disagree -/

/-- **C101, the colon.** Without white space behind the colon the program reads the number and the script starts nothing; with a number before the colon the script starts that number of
processes and the program reads the other; with a carriage return at the end of the line (a file written on Windows) the script starts nothing. -/
theorem launch_differs :
    (launched (c!"N_beta:4\n") = none ∧ readInt (c!"N_beta:4\n") (c!"N_beta") = .ok 4) ∧
    (launched (c!"N_beta 7 : 4\n") = some 7 ∧ readInt (c!"N_beta 7 : 4\n") (c!"N_beta") = .ok 4) ∧
    (launched (c!"N_beta:7 5 chains\n") = some 5 ∧ readInt (c!"N_beta:7 5 chains\n") (c!"N_beta") = .ok 7) ∧
    (launched (c!"N_beta: 4\r\n") = none ∧ readInt (c!"N_beta: 4\r\n") (c!"N_beta") = .ok 4) := by
  refine ⟨⟨by decide +kernel, ?_⟩, ⟨by decide +kernel, ?_⟩, ⟨by decide +kernel, ?_⟩, by decide +kernel, ?_⟩ <;> rfl

theorem second_words (l : Str) (h : second l ≠ []) : tokens gaps (second l) = [second l] := by
  rcases second_tokens l with h1 | h1
  · rcases tokens_first gaps (second l) with ⟨-, h2⟩ | ⟨_, _, _, -, -, -, -, -, h2⟩
    · rcases tokens_first gaps l with ⟨h3, -⟩ | ⟨_, _, rest, -, -, -, -, -, h3⟩
      · exact absurd (by rw [second, h3]; rfl) h
      · rcases tokens_first gaps rest with ⟨h4, -⟩ | ⟨_, t', _, -, -, hne, h5, -, h4⟩
        · exact absurd (by rw [second, h3, h4]; rfl) h
        · have : second l = t' := by rw [second, h3, h4]; rfl
          rw [this] at h2
          obtain ⟨x, r, rfl⟩ := List.exists_cons_of_ne_nil hne
          exact absurd (h2 x (by simp)) (h5 x (by simp))
    · rw [h1] at h2; cases h2
  · exact h1

/-- **C101, a second line.** When two lines mention `N_beta`, a comment for instance, and both have a second field, the script starts no known number of processes; and the program, if it is
started, passes a null pointer to `sscanf` (lines of at most 99 bytes). -/
theorem launch_twice (text : Str) (ls a b c : List Str) (l₁ l₂ : Str) (hl : IsLines text ls) (h0 : '\x00' ∉ text) (hls : ls = a ++ l₁ :: (b ++ l₂ :: c))
    (h₁ : Mentions (c!"N_beta") l₁ ∧ 2 ≤ (tokens gaps l₁).length) (h₂ : Mentions (c!"N_beta") l₂ ∧ 2 ≤ (tokens gaps l₂).length)
    (hfit : ∀ l ∈ ls, Mentions (c!"N_beta") l → l.length < 100) :
    launched text = none ∧ readInt text (c!"N_beta") = .error .null := by
  have hg := getlines_of_isLines hl
  have hid : ∀ l ∈ ls, cstr l = l := fun l hl => cstr_id l fun hc => h0 (by
    rw [← getlines_flatten text, hg]; exact List.mem_flatten.2 ⟨l, hl, hc⟩)
  have hm : ∀ l ∈ ls, Mentions (c!"N_beta") l → strstr (c!"N_beta") l = true := by
    intro l hl hm
    rw [strstr_iff]
    have := hid l hl
    unfold cstr at this
    unfold Mentions at hm
    rwa [this] at hm
  have hsec : ∀ l : Str, 2 ≤ (tokens gaps l).length → second l ≠ [] := by
    intro l hl hc
    rcases tokens_first gaps l with ⟨h3, -⟩ | ⟨_, _, rest, -, -, -, -, -, h3⟩
    · rw [h3] at hl; simp at hl
    · rcases tokens_first gaps rest with ⟨h4, -⟩ | ⟨_, t', _, -, -, hne, -, -, h4⟩
      · rw [h3, h4] at hl; simp at hl
      · exact hne (by rw [← hc, second, h3, h4]; rfl)
  constructor
  · have hwords : ∃ p q r, words text = p ++ second l₁ :: (q ++ second l₂ :: r) := by
      refine ⟨((a.filter (strstr (c!"N_beta"))).map second).flatMap (tokens gaps), ((b.filter (strstr (c!"N_beta"))).map second).flatMap (tokens gaps),
        ((c.filter (strstr (c!"N_beta"))).map second).flatMap (tokens gaps), ?_⟩
      rw [words, counts, hg, hls, List.filter_append, List.filter_cons_of_pos (hm _ (by simp [hls]) h₁.1), List.filter_append,
        List.filter_cons_of_pos (hm _ (by simp [hls]) h₂.1)]
      simp only [List.map_append, List.map_cons, List.flatMap_append, List.flatMap_cons, second_words _ (hsec _ h₁.2), second_words _ (hsec _ h₂.2),
        List.cons_append, List.nil_append]
    obtain ⟨p, q, r, h⟩ := hwords
    rw [launched, h]
    split
    · rename_i x hx
      have := congrArg List.length hx
      simp at this
      omega
    · rfl
  · have hnull := para_line_null text (c!"N_beta") ls hl (fun l hl hm => by rw [hid l hl]; exact hfit l hl hm) (by
      rintro ⟨line, hon⟩
      have h1 := filter_singleton hon
      rw [List.map_congr_left hid, List.map_id', hls, List.filter_append, List.filter_cons_of_pos (hm _ (by simp [hls]) h₁.1), List.filter_append,
        List.filter_cons_of_pos (hm _ (by simp [hls]) h₂.1)] at h1
      have := congrArg List.length h1
      simp at this
      omega)
    rw [readInt, hnull.2]
    rfl

example : launched (c!"# N_beta is at least 2\nN_beta: 4\n") = none ∧ readInt (c!"# N_beta is at least 2\nN_beta: 4\n") (c!"N_beta") = .error .null :=
  launch_twice _ _ [] [] [] (c!"# N_beta is at least 2\n") (c!"N_beta: 4\n") (isLines_getlines _) (by decide) (by decide) (by unfold Mentions; decide) (by unfold Mentions; decide)
    (by unfold Mentions; decide)

/-! ## Another number of processes -/

section
variable {F : Type} [Arith F] [Source F] {n : Nat}

/-- **C101, too many processes.** With more processes than inverse temperatures no rank of any execution ever comes to its end (the loop that copies the table, main.c:196-199, goes beyond it on every
rank that gets there). -/
theorem too_many_ranks (cfg : Cfg F) (file : DataFile F) (clock : Nat) (root : Fin n) (h : cfg.betas.length < n) (w : List (Label n))
    (t : Sys n (Msg F) (Line F) (RSt n F)) (ht : (initSys cfg file clock root).exec w = some t) (r : Fin n) : ¬ (t.procs r).done := by
  refine Proc.NoRet.not_done (Sys.noRet_exec (fun r => ?_) ht r)
  show (mainProg cfg file clock root r).NoRet
  have hc : copyBetas n cfg.betas = .error .oob := dif_neg (by omega)
  unfold mainProg
  simp only [Proc.bind_eq, hc]
  iterate 11 refine Proc.noRet_bind _ _ fun _ => ?_
  trivial

example (w : List (Label 4)) (t) (ht : (initSys demoCfg demoFile 0 (0 : Fin 4)).exec w = some t) : ¬ t.AllDone :=
  fun h => too_many_ranks demoCfg demoFile 0 (0 : Fin 4) (by simp [demoCfg]) w t ht 0 (h 0)

/-- **C101, too few processes.** With fewer processes than inverse temperatures every execution is one of the configuration with the first `n` only. The others, among them the coldest in the sample
files, have no chain. -/
theorem too_few_ranks (cfg : Cfg F) (file : DataFile F) (clock : Nat) (root : Fin n) :
    initSys cfg file clock root = initSys { cfg with betas := cfg.betas.take n } file clock root := by
  unfold initSys
  congr 1
  funext me
  exact (mainProg_betas cfg _ file clock root me fun r => by rw [List.getElem?_take_of_lt r.isLt]).symm

example : ∃ b : ℝ, b ∉ (demoCfg.betas.take 2) ∧ b ∈ demoCfg.betas ∧
    initSys demoCfg demoFile 5 (0 : Fin 2) = initSys { demoCfg with betas := demoCfg.betas.take 2 } demoFile 5 0 :=
  ⟨demoCfg.betas[2]'(by simp [demoCfg]), by simp [demoCfg], List.getElem_mem _, too_few_ranks _ _ _ _⟩

end

end NiiC
