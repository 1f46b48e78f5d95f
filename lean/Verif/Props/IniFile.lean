import Verif.Props.Readin
import Verif.Num.Real
import Verif.Seq.Total

/-!
# A written configuration is read back: C43, C48, C49
-/

set_option linter.unusedSectionVars false
set_option linter.unusedSimpArgs false

namespace NiiC
open Spec

/-! ## Where names can occur -/

theorem infix_skip_left {k ws s : Str} (hne : k ≠ []) (hk : ∀ c ∈ ws, c ∉ k) (h : k <:+: ws ++ s) : k <:+: s := by
  induction ws with
  | nil => exact h
  | cons c ws ih =>
    rw [List.cons_append, List.infix_cons_iff] at h
    rcases h with h | h
    · cases k with
      | nil => exact absurd rfl hne
      | cons d k =>
        obtain ⟨t, ht⟩ := h
        simp only [List.cons_append, List.cons.injEq] at ht
        exact absurd (show c ∈ d :: k by rw [← ht.1]; simp) (hk c (by simp))
    · exact ih (fun c hc => hk c (by simp [hc])) h

theorem infix_skip_right {k ws s : Str} (hne : k ≠ []) (hk : ∀ c ∈ ws, c ∉ k) (h : k <:+: s ++ ws) : k <:+: s := by
  rw [← List.reverse_infix]
  rw [← List.reverse_infix, List.reverse_append] at h
  refine infix_skip_left (by simpa using hne) ?_ h
  intro c hc
  simpa using hk c (by simpa using hc)

/-- Characters of numbers and of lists of numbers. -/
def isNumeric (c : Char) : Bool :=
  isDigit c || c == '+' || c == '-' || c == '.' || c == 'e' || c == ',' || c == ' ' || c == '\t'

theorem names_not_numeric : ∀ k ∈ coreNames, ∃ c ∈ k, isNumeric c = false := by decide +kernel

theorem numeric_harmless {s : Str} (h : ∀ c ∈ s, isNumeric c = true) : ∀ k ∈ coreNames, ¬ k <:+: s := by
  intro k hk hi
  obtain ⟨c, hc, hn⟩ := names_not_numeric k hk
  have := h c (hi.subset hc)
  rw [hn] at this
  cases this

theorem numeric_digits (ds : List (Fin 10)) : ∀ c ∈ digitsText ds, isNumeric c = true := by
  intro c hc
  obtain ⟨d, _, rfl⟩ := List.mem_map.1 hc
  simp [isNumeric, isDigit_digitChar]

theorem numeric_sign (s : Sign) : ∀ c ∈ s.text, isNumeric c = true := by
  cases s <;> decide

theorem numeric_int (t : IntText) : ∀ c ∈ t.text, isNumeric c = true := by
  intro c hc
  rcases List.mem_append.1 hc with h | h
  · exact numeric_sign _ c h
  · exact numeric_digits _ c h

theorem numeric_dec (t : DecText) : ∀ c ∈ t.text, isNumeric c = true := by
  intro c hc
  rw [Spec.DecText.text_eq] at hc
  rcases List.mem_append.1 hc with h | h
  · exact numeric_sign _ c h
  rcases List.mem_append.1 h with h | h
  · exact numeric_digits _ c h
  rcases List.mem_append.1 h with h | h
  · revert h
    cases t.decimals with
    | none => intro h; simp [fracText] at h
    | some ds =>
      intro h
      rcases List.mem_cons.1 h with rfl | h
      · rfl
      · exact numeric_digits _ c h
  · revert h
    cases t.exponent with
    | none => intro h; simp [expText] at h
    | some e =>
      intro h
      rcases List.mem_cons.1 h with rfl | h
      · rfl
      · exact numeric_int _ c h

theorem numeric_list (d : DecText) (ds : List (Str × DecText)) (h : ∀ p ∈ ds, Blank p.1) : ∀ c ∈ listText d ds, isNumeric c = true := by
  intro c hc
  rcases List.mem_append.1 hc with h1 | h1
  · exact numeric_dec d c h1
  · obtain ⟨l, h2, h3⟩ := List.mem_flatten.1 h1
    obtain ⟨p, hp, rfl⟩ := List.mem_map.1 h2
    rcases List.mem_cons.1 h3 with rfl | h3
    · rfl
    rcases List.mem_append.1 h3 with h3 | h3
    · rcases h p hp c h3 with rfl | rfl <;> rfl
    · exact numeric_dec _ c h3

/-- The value of an entry contains no name, no newline and no null byte. -/
theorem entry_value {w : Settings} (hw : w.Wf) : ∀ e ∈ w.entries, e.1 ∈ coreNames ∧ (∀ k ∈ coreNames, ¬ k <:+: e.2) ∧ '\n' ∉ e.2 ∧ '\x00' ∉ e.2 := by
  have hnum : ∀ s : Str, (∀ c ∈ s, isNumeric c = true) → (∀ k ∈ coreNames, ¬ k <:+: s) ∧ '\n' ∉ s ∧ '\x00' ∉ s :=
    fun s h => ⟨numeric_harmless h, fun hc => absurd (h _ hc) (by decide), fun hc => absurd (h _ hc) (by decide)⟩
  have hi := fun t : IntText => hnum _ (numeric_int t)
  have hd := fun t : DecText => hnum _ (numeric_dec t)
  have hl := hnum _ (numeric_list w.beta0 w.betas (fun p hp => (hw.betas p hp).1))
  have hs : ∀ t ∈ [w.foutPre, w.foutSuf, w.resultsDir, w.dataFile, w.delimiter], (∀ k ∈ coreNames, ¬ k <:+: t) ∧ '\n' ∉ t ∧ '\x00' ∉ t :=
    fun t ht => ⟨hw.harmless t ht, fun hc => absurd ((hw.words t ht).1.noSpace _ hc) (by decide), (hw.words t ht).2⟩
  simp only [List.forall_mem_cons, List.not_mem_nil, false_imp_iff, implies_true, and_true] at hs
  obtain ⟨s1, s2, s3, s4, s5⟩ := hs
  have hk : ∀ e ∈ w.entries, e.1 ∈ coreNames := by
    intro e he
    have : e.1 ∈ w.entries.map Prod.fst := List.mem_map_of_mem he
    exact this
  intro e he
  refine ⟨hk e he, ?_⟩
  revert e
  simp only [Settings.entries, List.forall_mem_cons, List.not_mem_nil, false_imp_iff, implies_true, and_true]
  exact ⟨hi _, hi _, hi _, hi _, hi _, hi _, hd _, hd _, hi _, hi _, s1, s2, s3, hl, s4, hi _, s5, hd _, hi _, hi _, hi _, hi _, hi _, hi _, hd _, hd _,
    hd _, hd _, hd _, hd _, hd _, hd _, hi _, hi _⟩

theorem entries_nodup (w : Settings) : (w.entries.map Prod.fst).Nodup := by
  show coreNames.Nodup
  decide +kernel

/-- Among lines `name: value` and comments, the only line that mentions a name is its entry's, if the names are different, none is part of another, and neither
values nor comments contain a name. -/
theorem paraLine_lines (E : List (Str × Str)) (nodup : (E.map Prod.fst).Nodup)
    (plain : ∀ e ∈ E, e.1 ≠ [] ∧ ':' ∉ e.1 ∧ ' ' ∉ e.1 ∧ '\t' ∉ e.1 ∧ '\n' ∉ e.1 ∧ '\x00' ∉ e.1)
    (apart : ∀ e ∈ E, ∀ e' ∈ E, e.1 <:+: e'.1 → e.1 = e'.1)
    (vals : ∀ e ∈ E, (∀ e' ∈ E, ¬ e'.1 <:+: e.2) ∧ '\n' ∉ e.2 ∧ '\x00' ∉ e.2)
    (gap trail : Str → Str) (comments ls : List Str) (hgt : ∀ k, Blank (gap k) ∧ Blank (trail k))
    (hcom : ∀ l ∈ comments, '\n' ∉ l ∧ '\x00' ∉ l ∧ ∀ e ∈ E, ¬ e.1 <:+: l)
    (hlen : ∀ e ∈ E, (entryLine gap trail e).length + 1 < 100) (hperm : ls.Perm (E.map (entryLine gap trail) ++ comments)) :
    ∀ e ∈ E, paraLine ((ls.map (· ++ ['\n'])).flatten) e.1 = .ok (e.1 ++ ':' :: (gap e.1 ++ e.2 ++ (trail e.1 ++ ['\n']))) := by
  intro e he
  have hmem : ∀ l, l ∈ ls ↔ (∃ e ∈ E, l = entryLine gap trail e) ∨ l ∈ comments := by
    intro l
    rw [hperm.mem_iff, List.mem_append, List.mem_map]
    constructor
    · rintro (⟨e, h, rfl⟩ | h)
      · exact .inl ⟨e, h, rfl⟩
      · exact .inr h
    · rintro (⟨e, h, rfl⟩ | h)
      · exact .inl ⟨e, h, rfl⟩
      · exact .inr h
  have hblank : ∀ (s : Str), Blank s → '\n' ∉ s ∧ '\x00' ∉ s := by
    intro s hs
    constructor <;> intro hc <;> rcases hs _ hc with h | h <;> exact absurd h (by decide)
  have hentry : ∀ e ∈ E, '\n' ∉ entryLine gap trail e ∧ '\x00' ∉ entryLine gap trail e := by
    intro e he
    obtain ⟨_, h3, h4⟩ := vals e he
    obtain ⟨_, _, _, _, k5, k6⟩ := plain e he
    have h1 := hblank _ (hgt e.1).1
    have h2 := hblank _ (hgt e.1).2
    simp only [entryLine, List.mem_append, List.mem_cons, not_or]
    exact ⟨⟨k5, by decide, ⟨h1.1, h3⟩, h2.1⟩, ⟨k6, by decide, ⟨h1.2, h4⟩, h2.2⟩⟩
  have hno : ∀ l ∈ ls, '\n' ∉ l ∧ '\x00' ∉ l := by
    intro l hl
    rcases (hmem l).1 hl with ⟨e, he, rfl⟩ | hc
    · exact hentry e he
    · exact ⟨(hcom l hc).1, (hcom l hc).2.1⟩
  have hcs : ∀ l ∈ ls, cstr (l ++ ['\n']) = l ++ ['\n'] := by
    intro l hl
    refine cstr_id _ ?_
    simp only [List.mem_append, List.mem_singleton, not_or]
    exact ⟨(hno l hl).2, by decide⟩
  obtain ⟨kne, kcol, ksp, ktab, knl, _⟩ := plain e he
  -- a line mentions the name exactly when it is the entry's line
  have hcut : ∀ l ∈ ls, strstr e.1 (l ++ ['\n']) = true → l = entryLine gap trail e := by
    intro l hl hm
    rw [strstr_iff] at hm
    have hm1 : e.1 <:+: l := infix_skip_right kne (fun c hc => by rw [List.mem_singleton.1 hc]; exact knl) hm
    rcases (hmem l).1 hl with ⟨e', he', rfl⟩ | hc
    · obtain ⟨hval, _⟩ := vals e' he'
      rcases infix_colon kcol hm1 with h | h
      · have hee := apart e he e' he' h
        have : e = e' := by
          exact List.inj_on_of_nodup_map nodup he he' hee
        rw [this]
      · have bl : ∀ s, Blank s → ∀ c ∈ s, c ∉ e.1 := by
          intro s hs c hc
          rcases hs c hc with rfl | rfl
          · exact ksp
          · exact ktab
        have h1 := infix_skip_right kne (bl _ (hgt e'.1).2) h
        have h2 := infix_skip_left kne (bl _ (hgt e'.1).1) h1
        exact absurd h2 (hval _ he)
    · exact absurd hm1 ((hcom l hc).2.2 _ he)
  have hself : strstr e.1 (entryLine gap trail e ++ ['\n']) = true := by
    rw [strstr_iff]
    exact ⟨[], ':' :: (gap e.1 ++ e.2 ++ trail e.1) ++ ['\n'], by simp [entryLine]⟩
  have hnd : (ls.filter (fun l => strstr e.1 (l ++ ['\n']))) = [entryLine gap trail e] := by
    have h1 : (ls.filter (fun l => strstr e.1 (l ++ ['\n']))).Perm
        ((E.map (entryLine gap trail) ++ comments).filter (fun l => strstr e.1 (l ++ ['\n']))) := hperm.filter _
    have h2 : ((E.map (entryLine gap trail) ++ comments).filter (fun l => strstr e.1 (l ++ ['\n']))) = [entryLine gap trail e] := by
      rw [List.filter_append]
      have h3 : comments.filter (fun l => strstr e.1 (l ++ ['\n'])) = [] := by
        rw [List.filter_eq_nil_iff]
        intro l hl hm
        rw [strstr_iff] at hm
        exact (hcom l hl).2.2 _ he (infix_skip_right kne (fun c hc => by rw [List.mem_singleton.1 hc]; exact knl) hm)
      rw [h3, List.append_nil, List.filter_map]
      have h4 : E.filter ((fun l => strstr e.1 (l ++ ['\n'])) ∘ entryLine gap trail) = [e] := by
        have hnd := nodup.of_map
        obtain ⟨a, b, hab⟩ := List.append_of_mem he
        have hin : ∀ e' ∈ E, strstr e.1 (entryLine gap trail e' ++ ['\n']) = true → e' = e := by
          intro e' he' hm
          have := hcut _ ((hmem _).2 (.inl ⟨e', he', rfl⟩)) hm
          have h5 : e'.1 = e.1 := by
            rw [strstr_iff] at hm
            obtain ⟨_, kcol', _⟩ := plain e' he'
            have t1 := congrArg (fun l : Str => l.takeWhile (fun x => decide (x ≠ ':'))) this
            have tk : ∀ (k r : Str), ':' ∉ k → (k ++ ':' :: r).takeWhile (fun x => decide (x ≠ ':')) = k := by
              intro k r hk
              refine (takeWhile_stop k ':' r ?_ (by simp)).1
              intro x hx
              simp only [ne_eq, decide_not, Bool.not_eq_eq_eq_not, Bool.not_true, decide_eq_false_iff_not]
              rintro rfl
              exact hk hx
            simp only [entryLine] at t1
            rw [tk _ _ kcol', tk _ _ kcol] at t1
            exact t1
          exact List.inj_on_of_nodup_map nodup he' he h5
        rw [hab] at hnd hin ⊢
        rw [List.filter_append, List.filter_cons_of_pos (by exact hself)]
        have hz : ∀ xs : List (Str × Str), (∀ x ∈ xs, x ∈ a ++ e :: b ∧ x ≠ e) →
            xs.filter ((fun l => strstr e.1 (l ++ ['\n'])) ∘ entryLine gap trail) = [] := by
          intro xs hxs
          rw [List.filter_eq_nil_iff]
          intro x hx hm
          exact (hxs x hx).2 (hin x (hxs x hx).1 hm)
        rw [List.nodup_append] at hnd
        obtain ⟨_, hn2, hn3⟩ := hnd
        rw [List.nodup_cons] at hn2
        rw [hz a (fun x hx => ⟨by simp [hx], fun hc => hn3 x hx e (by simp) hc⟩),
          hz b (fun x hx => ⟨by simp [hx], fun hc => hn2.1 (hc ▸ hx)⟩)]
        rfl
      rw [h4]
      rfl
    rw [h2] at h1
    exact List.perm_singleton.1 h1
  have hgl := getlines_lines ls (fun l hl => (hno l hl).1)
  have hmap : (getlines (ls.map (· ++ ['\n'])).flatten).map cstr = ls.map (· ++ ['\n']) := by
    rw [hgl, List.map_map]
    exact List.map_congr_left (fun l hl => hcs l hl)
  have hfil : ((getlines (ls.map (· ++ ['\n'])).flatten).map cstr).filter (strstr e.1) = [entryLine gap trail e ++ ['\n']] := by
    rw [hmap, List.filter_map]
    rw [show (strstr e.1 ∘ fun x => x ++ ['\n']) = (fun l => strstr e.1 (l ++ ['\n'])) from rfl, hnd]
    rfl
  have hfit : ∀ l ∈ ((getlines (ls.map (· ++ ['\n'])).flatten).map cstr).filter (strstr e.1), l.length < 100 := by
    rw [hfil]
    intro l hl
    rw [List.mem_singleton.1 hl]
    have := hlen e he
    simp only [List.length_append, List.length_singleton]
    omega
  have h1 := findLines_fit e.1 (getlines (ls.map (· ++ ['\n'])).flatten) 0 none hfit
  rw [hfil] at h1
  simp only [paraLine, readOnepara, h1, bind, Except.bind]
  simp [entryLine]

/-- The only line of an expressing file that mentions a name is its entry's. -/
theorem paraLine_entry {w : Settings} {text : Str} (hw : w.Wf) (hx : Expresses w text) :
    ∃ gap trail : Str → Str, (∀ k, Blank (gap k) ∧ Blank (trail k)) ∧
      ∀ e ∈ w.entries, paraLine text e.1 = .ok (e.1 ++ ':' :: (gap e.1 ++ e.2 ++ (trail e.1 ++ ['\n']))) := by
  obtain ⟨gap, trail, comments, ls, hgt, hcom, hlen, hperm, rfl⟩ := hx.lines
  refine ⟨gap, trail, hgt, ?_⟩
  have hk := fun e he => (entry_value hw e he).1
  refine paraLine_lines w.entries (entries_nodup w) (fun e he => core_names_plain _ (hk e he))
    (fun e he e' he' => names_apart [] (by simp) e.1 (by simpa using hk e he) e'.1 (by simpa using hk e' he'))
    (fun e he => ⟨fun e' he' => (entry_value hw e he).2.1 _ (hk e' he'), (entry_value hw e he).2.2⟩) gap trail comments ls hgt
    (fun l hl => ⟨(hcom l hl).1, (hcom l hl).2.1, fun e he => (hcom l hl).2.2 _ (hk e he)⟩) hlen hperm

/-! ## C48 -/

section
variable {F : Type} [Arith F]

/-- What the variables should be for written values: the numbers meant, the words, and a space for the delimiter `blank`. The two unsigned variables hold the
written integer modulo 2^32. -/
def Spec.Settings.raw (F : Type) [Arith F] (w : Settings) : Raw F where
  nParm := w.nParm.value
  nIter := w.nIter.value
  nStoptune := w.nStoptune.value
  nBegintune := w.nBegintune.value
  tuneLadder := w.tuneLadder.value
  nStopTuneLadder := w.nStopTuneLadder.value
  scaleLadder := w.scaleLadder.dec.val
  zeroStretch := w.zeroStretch.dec.val
  nBeta := w.nBeta.value
  foutLen := w.foutLen.value
  foutPre := some w.foutPre
  foutSuf := some w.foutSuf
  resultsDir := some w.resultsDir
  betas := some (w.beta0.dec.val :: w.betas.map (fun p => p.2.dec.val))
  dataFile := some w.dataFile
  ndim := w.ndim.value
  delimiter := if w.delimiter = (c!"blank") then [' '] else w.delimiter
  initGpRatio := w.initGpRatio.dec.val
  initSeed := (w.initSeed.value % 4294967296).toNat
  saveBegin := (w.saveBegin.value % 4294967296).toNat
  nStack := w.nStack.value
  base := w.base.value
  rand := w.rand.value
  nIterInTune := w.nIterInTune.value
  arLower := w.arLower.dec.val
  arUpper := w.arUpper.dec.val
  arBest := w.arBest.dec.val
  arAcceptDiff := w.arAcceptDiff.dec.val
  halfRatio := w.halfRatio.dec.val
  scaleMin := w.scaleMin.dec.val
  scaleMax := w.scaleMax.dec.val
  jumpin := w.jumpin.dec.val
  nSwap := w.nSwap.value
  swapmode := w.swapmode.value

theorem stops_trail {p : Char → Bool} (trail : Str) (h : Blank trail) (h1 : p ' ' = false) (h2 : p '\t' = false) (h3 : p '\n' = false) :
    Stops p (trail ++ ['\n']) := by
  cases trail with
  | nil => exact h3
  | cons c t =>
    rcases h c (by simp) with rfl | rfl
    · exact h1
    · exact h2

theorem list_tokens (g : Str) (d : DecText) (ds : List (Str × DecText)) (tl : Str) (hg : Blank g) (hd : d.Wf) (hds : ∀ p ∈ ds, Blank p.1 ∧ p.2.Wf)
    (htl : ',' ∉ tl) :
    tokens (c!",") (g ++ listText d ds ++ tl) =
      match ds with
      | [] => [g ++ d.text ++ tl]
      | _ => (g ++ d.text) :: (ds.dropLast.map (fun p => p.1 ++ p.2.text)) ++
          (match ds.getLast? with | none => [] | some p => [p.1 ++ p.2.text ++ tl]) := by
  have hcomma : ∀ t : DecText, ∀ c ∈ t.text, c ∉ (c!",") := by
    intro t c hc hm
    rw [List.mem_singleton.1 hm] at hc
    rw [Spec.DecText.text_eq] at hc
    have hdig : ∀ ds : List (Fin 10), ',' ∉ digitsText ds := by
      intro ds h
      obtain ⟨x, _, hx⟩ := List.mem_map.1 h
      exact (digitChar_ne x).2.2.2.2.2.2.2.2.2.2.2.1 hx
    have hsig : ∀ s : Sign, ',' ∉ s.text := by intro s; cases s <;> decide
    rcases List.mem_append.1 hc with h | h
    · exact hsig _ h
    rcases List.mem_append.1 h with h | h
    · exact hdig _ h
    rcases List.mem_append.1 h with h | h
    · revert h
      cases t.decimals with
      | none => simp [fracText]
      | some fs =>
        intro h
        rcases List.mem_cons.1 h with h | h
        · exact absurd h (by decide)
        · exact hdig _ h
    · revert h
      cases t.exponent with
      | none => simp [expText]
      | some e =>
        intro h
        rcases List.mem_cons.1 h with h | h
        · exact absurd h (by decide)
        · rcases List.mem_append.1 h with h | h
          · exact hsig _ h
          · exact hdig _ h
  have hne : ∀ t : DecText, t.Wf → t.text ≠ [] := by
    intro t ht he
    have := stops_dec t ht [' ']
    rw [he] at this
    exact absurd (show isSpace ' ' = false from this) (by decide)
  have hblank : ∀ s : Str, Blank s → ∀ c ∈ s, c ∉ (c!",") := by
    intro s hs c hc hm
    rw [List.mem_singleton.1 hm] at hc
    rcases hs _ hc with h | h <;> exact absurd h (by decide)
  have happ : ∀ (a b : Str), (∀ c ∈ a, c ∉ (c!",")) → (∀ c ∈ b, c ∉ (c!",")) → ∀ c ∈ a ++ b, c ∉ (c!",") := by
    intro a b ha hb c hc
    rcases List.mem_append.1 hc with h | h
    · exact ha c h
    · exact hb c h
  have htl' : ∀ c ∈ tl, c ∉ (c!",") := by
    intro c hc hm
    rw [List.mem_singleton.1 hm] at hc
    exact htl hc
  induction ds generalizing g d with
  | nil =>
    simp only [listText, List.map_nil, List.flatten_nil, List.append_nil]
    refine tokens_run _ _ ?_ (happ _ _ (happ _ _ (hblank g hg) (hcomma d)) htl')
    intro he
    simp only [List.append_eq_nil_iff] at he
    exact hne d hd he.1.2
  | cons p ds ih =>
    have e1 : g ++ listText d (p :: ds) ++ tl = (g ++ d.text) ++ ',' :: (p.1 ++ listText p.2 ds ++ tl) := by
      simp [listText]
    rw [e1, tokens_run_cons _ _ _ _ ?_ (happ _ _ (hblank g hg) (hcomma d)) (by simp),
      ih p.1 p.2 (hds p (by simp)).1 (hds p (by simp)).2 (fun q hq => hds q (by simp [hq]))]
    · cases ds with
      | nil => rfl
      | cons q ds => simp
    · intro he
      simp only [List.append_eq_nil_iff] at he
      exact hne d hd he.2

theorem list_values (other : Str → Option F) (g : Str) (d : DecText) (ds : List (Str × DecText)) (tl : Str) (hg : Blank g) (hd : d.Wf)
    (hds : ∀ p ∈ ds, Blank p.1 ∧ p.2.Wf) (htl : ',' ∉ tl) (hst : Stops isNumChar tl) :
    (tokens (c!",") (g ++ listText d ds ++ tl)).map (atof other) = d.dec.val :: ds.map (fun p => p.2.dec.val) := by
  rw [list_tokens g d ds tl hg hd hds htl]
  have h0 : ∀ (g : Str) (d : DecText), Blank g → d.Wf → atof other (g ++ d.text) = d.dec.val := by
    intro g d hg hd
    have := atof_text other g d [] hg hd trivial
    rwa [List.append_nil] at this
  cases ds with
  | nil =>
    show [atof other (g ++ d.text ++ tl)] = [d.dec.val]
    rw [atof_text other g d tl hg hd hst]
  | cons p ds =>
    simp only
    have hlast := List.dropLast_append_getLast (l := p :: ds) (by simp)
    have hl? : (p :: ds).getLast? = some ((p :: ds).getLast (by simp)) := List.getLast?_eq_some_getLast (by simp)
    rw [hl?]
    simp only [List.map_append, List.map_cons, List.map_map, List.map_nil, List.cons_append]
    rw [h0 g d hg hd, ← List.map_cons (f := fun p : Str × DecText => (p.2.dec.val : F))]
    refine congrArg _ ?_
    conv_rhs => rw [← hlast]
    rw [List.map_append]
    have hmem := List.getLast_mem (l := p :: ds) (by simp)
    have h1 := hds _ hmem
    rw [List.map_cons, List.map_nil, atof_text other _ _ tl h1.1 h1.2 hst]
    refine congrArg (· ++ _) ?_
    refine List.map_congr_left (fun q hq => ?_)
    have h2 := hds q (List.dropLast_subset _ hq)
    exact h0 _ _ h2.1 h2.2

/-- **C49.** The list of betas of an expressing file, read for any `N_beta`: complete and in order when the number of values is `N_beta`, written behind the
table when there are more, a null table when there are fewer. -/
theorem betas_read (other : Str → Option F) (w : Settings) (text : Str) (hw : w.Wf) (hx : Expresses w text) (nBeta : Int) :
    readBetas other text nBeta =
      if (w.betas.length : Int) + 1 > nBeta then .error .oob
      else if (w.betas.length : Int) + 1 = nBeta then .ok (some (w.beta0.dec.val :: w.betas.map (fun p => p.2.dec.val)))
      else .ok none := by
  obtain ⟨gap, trail, hgt, hpl⟩ := paraLine_entry hw hx
  have he : ((c!"Beta_Values"), listText w.beta0 w.betas) ∈ w.entries := by simp [Settings.entries]
  have h1 := hpl _ he
  simp only at h1
  simp only [readBetas, h1, bind, Except.bind]
  rw [afterColon_text _ _ (by decide) (by decide)]
  have hb := hw.decs w.beta0 (by simp)
  have htl : ',' ∉ trail (c!"Beta_Values") ++ ['\n'] := by
    simp only [List.mem_append, List.mem_singleton, not_or]
    refine ⟨fun h => ?_, by decide⟩
    rcases (hgt (c!"Beta_Values")).2 _ h with h | h <;> exact absurd h (by decide)
  have hv := list_values other (gap (c!"Beta_Values")) w.beta0 w.betas _ (hgt _).1 hb hw.betas htl
    (stops_trail _ (hgt _).2 (by decide) (by decide) (by decide))
  have hl := congrArg List.length hv
  simp only [List.length_map, List.length_cons] at hl
  rw [hl, hv]
  push_cast
  rfl

/-- Reading a file that expresses some values, whatever comes of the list of betas. -/
theorem config_read (other : Str → Option F) (w : Settings) (text : Str) (hw : w.Wf) (hx : Expresses w text)
    (hint : ∀ t ∈ [w.nParm, w.nIter, w.nStoptune, w.nBegintune, w.tuneLadder, w.nStopTuneLadder, w.nBeta, w.foutLen, w.ndim,
      w.nStack, w.base, w.rand, w.nIterInTune, w.nSwap, w.swapmode], -2147483648 ≤ t.value ∧ t.value ≤ 2147483647)
    (huns : ∀ t ∈ [w.initSeed, w.saveBegin], -4294967296 < t.value ∧ t.value < 4294967296) :
    readInput other text = (readBetas other text w.nBeta.value).map (fun b => { w.raw F with betas := b }) := by
  obtain ⟨gap, trail, hgt, hpl⟩ := paraLine_entry hw hx
  have hkey : ∀ e ∈ w.entries, scanKey (e.1 ++ ':' :: (gap e.1 ++ e.2 ++ (trail e.1 ++ ['\n']))) = some (gap e.1 ++ e.2 ++ (trail e.1 ++ ['\n'])) := by
    intro e he
    obtain ⟨hk, _⟩ := entry_value hw e he
    obtain ⟨k1, k2, _⟩ := core_names_plain _ hk
    exact scanKey_text _ _ k1 k2
  have ri : ∀ (k : Str) (t : IntText), (k, t.text) ∈ w.entries → t.digits ≠ [] → -2147483648 ≤ t.value ∧ t.value ≤ 2147483647 →
      readInt text k = .ok t.value := by
    intro k t he hd hv
    have h1 := hpl _ he
    have h2 := hkey _ he
    simp only at h1 h2
    simp only [readInt, h1, bind, Except.bind, h2, Option.bind]
    rw [scanInt_text _ t _ (hgt k).1 hd (stops_trail _ (hgt k).2 (by decide) (by decide) (by decide))]
    simp only [i32, if_pos hv]
  have ru : ∀ (k : Str) (t : IntText), (k, t.text) ∈ w.entries → t.digits ≠ [] → -4294967296 < t.value ∧ t.value < 4294967296 →
      readUns text k = .ok (t.value % 4294967296).toNat := by
    intro k t he hd hv
    have h1 := hpl _ he
    have h2 := hkey _ he
    simp only at h1 h2
    simp only [readUns, h1, bind, Except.bind, h2, Option.bind]
    rw [scanInt_text _ t _ (hgt k).1 hd (stops_trail _ (hgt k).2 (by decide) (by decide) (by decide))]
    simp only [storeU, if_pos hv]
  have rdb : ∀ (k : Str) (t : DecText), (k, t.text) ∈ w.entries → t.Wf → readDbl other text k = .ok t.dec.val := by
    intro k t he hd
    have h1 := hpl _ he
    have h2 := hkey _ he
    simp only at h1 h2
    simp only [readDbl, h1, bind, Except.bind, h2, Option.bind]
    rw [scanLf_text other _ t _ (hgt k).1 hd (stops_trail _ (hgt k).2 (by decide) (by decide) (by decide))]
  have rs : ∀ (k t : Str), (k, t) ∈ w.entries → Word t → readStr text k = .ok (some t) := by
    intro k t he hd
    have h1 := hpl _ he
    have h2 := hkey _ he
    simp only at h1 h2
    simp only [readStr, h1, bind, Except.bind, h2, Option.bind]
    rw [scanStr_text _ t _ (hgt k).1 hd (stops_trail _ (hgt k).2 (by decide) (by decide) (by decide))]
  have hwd := fun t ht => (hw.words t ht).1
  simp only [List.forall_mem_cons, List.not_mem_nil, false_imp_iff, implies_true, and_true] at hint huns hwd
  obtain ⟨i1, i2, i3, i4, i5, i6, i7, i8, i9, i10, i11, i12, i13, i14, i15⟩ := hint
  obtain ⟨u1, u2⟩ := huns
  obtain ⟨w1, w2, w3, w4, w5⟩ := hwd
  have hi := hw.ints
  have hd := hw.decs
  simp only [List.forall_mem_cons, List.not_mem_nil, false_imp_iff, implies_true, and_true] at hi hd
  obtain ⟨j1, j2, j3, j4, j5, j6, j7, j8, j9, j10, j11, j12, j13, j14, j15, j16, j17⟩ := hi
  obtain ⟨d1, d2, d3, d4, d5, d6, d7, d8, d9, d10, d11, d12⟩ := hd
  have rdel : readDelimiter text = .ok (if w.delimiter = (c!"blank") then [' '] else w.delimiter) := by
    have := rs (c!"Delimiter") w.delimiter (by simp [Settings.entries]) w5
    simp only [readDelimiter, this, bind, Except.bind]
  simp only [readInput,
    ri (c!"N_parm") w.nParm (by simp [Settings.entries]) j1 i1,
    ri (c!"N_iter") w.nIter (by simp [Settings.entries]) j2 i2,
    ri (c!"N_stoptune") w.nStoptune (by simp [Settings.entries]) j3 i3,
    ri (c!"N_begintune") w.nBegintune (by simp [Settings.entries]) j4 i4,
    ri (c!"Tune_Ladder") w.tuneLadder (by simp [Settings.entries]) j5 i5,
    ri (c!"N_stopTuneLadder") w.nStopTuneLadder (by simp [Settings.entries]) j6 i6,
    rdb (c!"scale_tune_ladder") w.scaleLadder (by simp [Settings.entries]) d1,
    rdb (c!"zero_stretch") w.zeroStretch (by simp [Settings.entries]) d2,
    ri (c!"N_beta") w.nBeta (by simp [Settings.entries]) j7 i7,
    ri (c!"Fout_Len") w.foutLen (by simp [Settings.entries]) j8 i8,
    rs (c!"FoutPre") w.foutPre (by simp [Settings.entries]) w1,
    rs (c!"FoutSuf") w.foutSuf (by simp [Settings.entries]) w2,
    rs (c!"results_dir") w.resultsDir (by simp [Settings.entries]) w3,
    rs (c!"Data_file") w.dataFile (by simp [Settings.entries]) w4,
    ri (c!"ndim_data") w.ndim (by simp [Settings.entries]) j9 i9,
    rdel,
    rdb (c!"init_gp_ratio") w.initGpRatio (by simp [Settings.entries]) d4,
    ru (c!"init_rand_seed") w.initSeed (by simp [Settings.entries]) j10 u1,
    ru (c!"i_save_begin") w.saveBegin (by simp [Settings.entries]) j11 u2,
    ri (c!"n_iter_a_stack") w.nStack (by simp [Settings.entries]) j12 i10,
    ri (c!"n_iter_a_batch_base") w.base (by simp [Settings.entries]) j13 i11,
    ri (c!"n_iter_a_batch_rand") w.rand (by simp [Settings.entries]) j14 i12,
    ri (c!"n_iter_in_tune") w.nIterInTune (by simp [Settings.entries]) j15 i13,
    rdb (c!"ar_ok_lower") w.arLower (by simp [Settings.entries]) d5,
    rdb (c!"ar_ok_upper") w.arUpper (by simp [Settings.entries]) d6,
    rdb (c!"ar_best") w.arBest (by simp [Settings.entries]) d7,
    rdb (c!"ar_accept_diff") w.arAcceptDiff (by simp [Settings.entries]) d8,
    rdb (c!"sigma_scale_half_ratio") w.halfRatio (by simp [Settings.entries]) d9,
    rdb (c!"sigma_scale_min") w.scaleMin (by simp [Settings.entries]) d10,
    rdb (c!"sigma_scale_max") w.scaleMax (by simp [Settings.entries]) d11,
    rdb (c!"sigma_jumpin_ratio") w.jumpin (by simp [Settings.entries]) d12,
    ri (c!"N_swap") w.nSwap (by simp [Settings.entries]) j16 i14,
    ri (c!"Swapmode") w.swapmode (by simp [Settings.entries]) j17 i15,
    bind, Except.bind]
  cases readBetas other text w.nBeta.value <;> rfl

/-- **C48.** A configuration file that expresses values (one line per name, any order, harmless comments) is read as those values. -/
theorem config_round_trip (other : Str → Option F) (w : Settings) (text : Str) (hw : w.Wf) (hf : w.Fits) (hx : Expresses w text) :
    readInput other text = .ok (w.raw F) ∧ ((w.raw F).initSeed : Int) = w.initSeed.value ∧ ((w.raw F).saveBegin : Int) = w.saveBegin.value := by
  have huns : ∀ t ∈ [w.initSeed, w.saveBegin], ((t.value % 4294967296).toNat : Int) = t.value := by
    intro t ht
    have := hf.uns t ht
    omega
  refine ⟨?_, huns _ (by simp), huns _ (by simp)⟩
  rw [config_read other w text hw hx hf.ints (fun t ht => ⟨by have := hf.uns t ht; omega, (hf.uns t ht).2⟩), betas_read other w text hw hx,
    if_neg (by rw [hf.count]; omega), if_pos hf.count.symm]
  rfl

/-- The value of a decimal number over the reals: digits times a power of ten. -/
theorem dec_value (t : DecText) : (t.dec.val : ℝ) = (t.mantissa : ℝ) * (10 : ℝ) ^ t.power := by
  suffices h : ∀ m e : Int, ((⟨m, e⟩ : Dec).val : ℝ) = (m : ℝ) * (10 : ℝ) ^ e from h _ _
  intro m e
  by_cases h : 0 ≤ e
  · obtain ⟨k, rfl⟩ := Int.eq_ofNat_of_zero_le h
    have h1 : ((⟨m, (k : Int)⟩ : Dec).val : ℝ) = Arith.lit (m * 10 ^ (k : Int).toNat) 1 := if_pos h
    rw [h1, RealArith.lit_eq]
    simp
  · obtain ⟨k, hk⟩ := Int.eq_ofNat_of_zero_le (show 0 ≤ -e by omega)
    obtain rfl : e = -(k : Int) := by omega
    have h1 : ((⟨m, -(k : Int)⟩ : Dec).val : ℝ) = Arith.lit m (10 ^ (- -(k : Int)).toNat) := if_neg h
    rw [h1, RealArith.lit_eq]
    simp [zpow_neg, div_eq_mul_inv]

/-- The start seed of a configuration read from a file. -/
theorem startSeed_cfg (raw : Raw F) (user : User F) (lo hi : List F) (clock : Nat) :
    startSeed (raw.cfg user lo hi) clock = if raw.initSeed = 0 then clock % 4294967296 else raw.initSeed := rfl

/-- **C49.** More values than `N_beta`: the reader writes behind the table. -/
theorem betas_too_many (other : Str → Option F) (w : Settings) (text : Str) (hw : w.Wf) (hx : Expresses w text)
    (hint : ∀ t ∈ [w.nParm, w.nIter, w.nStoptune, w.nBegintune, w.tuneLadder, w.nStopTuneLadder, w.nBeta, w.foutLen, w.ndim,
      w.nStack, w.base, w.rand, w.nIterInTune, w.nSwap, w.swapmode], -2147483648 ≤ t.value ∧ t.value ≤ 2147483647)
    (huns : ∀ t ∈ [w.initSeed, w.saveBegin], -4294967296 < t.value ∧ t.value < 4294967296)
    (h : w.nBeta.value < (w.betas.length : Int) + 1) : readInput other text = .error .oob := by
  rw [config_read other w text hw hx hint huns, betas_read other w text hw hx, if_pos h]
  rfl

/-- **C49.** Fewer values than `N_beta`: reading succeeds with a null table, and a run with any number of ranks dereferences it. -/
theorem betas_too_few (other : Str → Option F) (w : Settings) (text : Str) (hw : w.Wf) (hx : Expresses w text)
    (hint : ∀ t ∈ [w.nParm, w.nIter, w.nStoptune, w.nBegintune, w.tuneLadder, w.nStopTuneLadder, w.nBeta, w.foutLen, w.ndim,
      w.nStack, w.base, w.rand, w.nIterInTune, w.nSwap, w.swapmode], -2147483648 ≤ t.value ∧ t.value ≤ 2147483647)
    (huns : ∀ t ∈ [w.initSeed, w.saveBegin], -4294967296 < t.value ∧ t.value < 4294967296)
    (h : (w.betas.length : Int) + 1 < w.nBeta.value) (n : Nat) (hn : 1 ≤ n) (user : User F) (lo hi : List F) (file : DataFile F) (clock : Nat)
    (root : Fin n) :
    ∃ raw, readInput other text = .ok raw ∧ raw.betas = none ∧ ∀ w', seqInit (raw.cfg user lo hi) file clock root ≠ .ok w' := by
  refine ⟨{ w.raw F with betas := none }, ?_, rfl, fun w' he => ?_⟩
  · rw [config_read other w text hw hx hint huns, betas_read other w text hw hx, if_neg (by omega), if_neg (by omega)]
    rfl
  · simp only [seqInit, exc_bind, Except.ok.injEq] at he
    obtain ⟨_, _, data, hd, _, _, _, _, _, _, beta, hb, rfl⟩ := he
    have h0 : copyBetas n ([] : List F) = .error .oob := by
      rw [copyBetas, dif_neg (show ¬ n ≤ ([] : List F).length by simp; omega)]
    have hb' : copyBetas n ([] : List F) = .ok beta := hb
    rw [h0] at hb'
    cases hb'

/-! ## C43 -/

/-- **C43, partial.** The clock is used when 0 is written, and a positive number is the seed. Missing: negative numbers, see `negative_seed_fixed`. -/
theorem seed_clock_partial (other : Str → Option F) (w : Settings) (text : Str) (hw : w.Wf) (hf : w.Fits) (hx : Expresses w text)
    (user : User F) (lo hi : List F) (clock : Nat) (hc : clock < 4294967296) :
    ∃ raw, readInput other text = .ok raw ∧ (w.initSeed.value = 0 → startSeed (raw.cfg user lo hi) clock = clock) ∧
      (0 < w.initSeed.value → (startSeed (raw.cfg user lo hi) clock : Int) = w.initSeed.value) := by
  obtain ⟨h1, h2, _⟩ := config_round_trip other w text hw hf hx
  refine ⟨_, h1, fun h => ?_, fun h => ?_⟩
  · have h3 : (w.raw F).initSeed = 0 := by omega
    rw [startSeed_cfg, if_pos h3]
    exact Nat.mod_eq_of_lt hc
  · have h3 : (w.raw F).initSeed ≠ 0 := by omega
    rw [startSeed_cfg, if_neg h3]
    exact h2

/-- **C43, the negation.** A negative seed does not request the clock: the run is seeded with 2^32 plus the number written, at any time. -/
theorem negative_seed_fixed (other : Str → Option F) (w : Settings) (text : Str) (hw : w.Wf) (hx : Expresses w text)
    (hint : ∀ t ∈ [w.nParm, w.nIter, w.nStoptune, w.nBegintune, w.tuneLadder, w.nStopTuneLadder, w.nBeta, w.foutLen, w.ndim,
      w.nStack, w.base, w.rand, w.nIterInTune, w.nSwap, w.swapmode], -2147483648 ≤ t.value ∧ t.value ≤ 2147483647)
    (hsave : -4294967296 < w.saveBegin.value ∧ w.saveBegin.value < 4294967296) (hcount : w.nBeta.value = (w.betas.length : Int) + 1)
    (hneg : w.initSeed.value < 0) (hmin : -4294967296 < w.initSeed.value)
    (user : User F) (lo hi : List F) :
    ∃ raw, readInput other text = .ok raw ∧ ∀ clock, (startSeed (raw.cfg user lo hi) clock : Int) = 4294967296 + w.initSeed.value := by
  refine ⟨w.raw F, ?_, fun clock => ?_⟩
  · rw [config_read other w text hw hx hint ?_, betas_read other w text hw hx, if_neg (by omega), if_pos hcount.symm]
    · rfl
    · simp only [List.forall_mem_cons, List.not_mem_nil, false_imp_iff, implies_true, and_true]
      exact ⟨⟨hmin, by omega⟩, hsave⟩
  · have h3 : (w.raw F).initSeed = (w.initSeed.value % 4294967296).toNat := rfl
    have h4 : (w.raw F).initSeed ≠ 0 := by omega
    rw [startSeed_cfg, if_neg h4]
    omega

end

/-! ## Examples -/

/-- A written natural number with two digits. -/
def int2 (a b : Fin 10) : IntText := ⟨.none, [a, b]⟩
/-- A written decimal number `a.bc`. -/
def dec3 (a b c : Fin 10) : DecText := ⟨.none, [a], some [b, c], none⟩

/-- A configuration with two betas and a given seed. -/
def demoSettings (seed : IntText) (nBeta : IntText) : Settings where
  nParm := int2 0 3
  nIter := ⟨.plus, [4, 0, 0, 0, 0, 0]⟩
  nStoptune := int2 0 0
  nBegintune := int2 0 0
  tuneLadder := int2 0 1
  nStopTuneLadder := int2 3 0
  scaleLadder := dec3 0 2 0
  zeroStretch := dec3 0 1 0
  nBeta := nBeta
  foutLen := int2 9 9
  foutPre := c!"chain"
  foutSuf := c!".dat"
  resultsDir := c!"results"
  beta0 := ⟨.none, [1], none, some ⟨.minus, [0, 3]⟩⟩
  betas := [(c!" ", ⟨.none, [1], some [], none⟩)]
  dataFile := c!"xy.dat"
  ndim := int2 0 2
  delimiter := c!"blank"
  initGpRatio := dec3 0 1 0
  initSeed := seed
  saveBegin := int2 1 0
  nStack := int2 5 0
  base := int2 2 0
  rand := int2 0 5
  nIterInTune := int2 1 0
  arLower := dec3 0 1 0
  arUpper := dec3 0 4 5
  arBest := dec3 0 2 3
  arAcceptDiff := dec3 0 1 0
  halfRatio := dec3 2 0 0
  scaleMin := ⟨.none, [5], none, some ⟨.minus, [1, 0]⟩⟩
  scaleMax := dec3 0 2 0
  jumpin := dec3 3 0 0
  nSwap := int2 0 1
  swapmode := int2 0 0

theorem demoSettings_wf (seed nBeta : IntText) (h : seed.digits ≠ []) (h' : nBeta.digits ≠ []) : (demoSettings seed nBeta).Wf where
  ints := by
    simp only [demoSettings, List.forall_mem_cons, List.not_mem_nil, false_imp_iff, implies_true, and_true]
    exact ⟨by decide, by decide, by decide, by decide, by decide, by decide, h', by decide, by decide, h, by decide, by decide, by decide, by decide,
      by decide, by decide, by decide⟩
  decs := by
    have h1 : ∀ a b c, (dec3 a b c).Wf := fun a b c => ⟨.inl (by simp [dec3]), by simp [dec3]⟩
    have h2 : ∀ (s : Sign) (d : Fin 10) (e : IntText), e.digits ≠ [] → (⟨s, [d], none, some e⟩ : DecText).Wf :=
      fun s d e he => ⟨.inl (by simp), fun t ht => by rw [← Option.some.inj ht]; exact he⟩
    simp only [demoSettings, List.forall_mem_cons, List.not_mem_nil, false_imp_iff, implies_true, and_true]
    exact ⟨h1 _ _ _, h1 _ _ _, h2 _ _ _ (by decide), h1 _ _ _, h1 _ _ _, h1 _ _ _, h1 _ _ _, h1 _ _ _, h1 _ _ _, h2 _ _ _ (by decide), h1 _ _ _, h1 _ _ _⟩
  betas := by
    intro p hp
    rw [List.mem_singleton.1 hp]
    refine ⟨fun c hc => .inl (List.mem_singleton.1 hc), ⟨.inl (by simp), by simp⟩⟩
  words := by
    have : ∀ t ∈ [(c!"chain"), c!".dat", c!"results", c!"xy.dat", c!"blank"], (t ≠ [] ∧ ∀ c ∈ t, isSpace c = false) ∧ '\x00' ∉ t := by decide
    exact fun t ht => ⟨⟨(this t ht).1.1, (this t ht).1.2⟩, (this t ht).2⟩
  harmless := by
    have h : ∀ t ∈ [(c!"chain"), c!".dat", c!"results", c!"xy.dat", c!"blank"], ∀ k ∈ coreNames, strstr k t = false := by decide +kernel
    intro t ht k hk hi
    have h1 := h t ht k hk
    rw [(strstr_iff k t).2 hi] at h1
    cases h1

/-- A file for it: the entries in reverse order, tabs after the colons, and a comment between. -/
def demoText (w : Settings) : Str :=
  (((w.entries.reverse.map (entryLine (fun _ => ['\t']) (fun _ => [' ']))) ++ [c!"# the end: no names here"]).map (· ++ ['\n'])).flatten

theorem demoText_expresses (seed nBeta : IntText) (h : seed.text.length ≤ 50) (h' : nBeta.text.length ≤ 50) :
    Expresses (demoSettings seed nBeta) (demoText (demoSettings seed nBeta)) := by
  refine ⟨fun _ => ['\t'], fun _ => [' '], [c!"# the end: no names here"], _, ?_, ?_, ?_, ?_, rfl⟩
  · exact fun k => ⟨fun c hc => .inr (List.mem_singleton.1 hc), fun c hc => .inl (List.mem_singleton.1 hc)⟩
  · intro l hl
    rw [List.mem_singleton.1 hl]
    refine ⟨by decide, by decide, fun k hk hi => ?_⟩
    have h : ∀ k ∈ coreNames, strstr k (c!"# the end: no names here") = false := by decide +kernel
    have h1 := h k hk
    rw [(strstr_iff k _).2 hi] at h1
    cases h1
  · simp only [demoSettings, Settings.entries, List.forall_mem_cons, List.not_mem_nil, false_imp_iff, implies_true, and_true, entryLine,
      List.length_append, List.length_cons, List.length_nil]
    refine ⟨by decide, by decide, by decide, by decide, by decide, by decide, by decide, by decide, by omega, by decide, by decide, by decide, by decide,
      by decide, by decide, by decide, by decide, by decide, by omega, by decide, by decide, by decide, by decide, by decide, by decide, by decide,
      by decide, by decide, by decide, by decide, by decide, by decide, by decide, by decide⟩
  · refine List.Perm.append_right _ ?_
    exact (List.reverse_perm _).map _

/-- The round trip applies, also with the values over the reals: the first beta is 0.001. -/
example : readInput (fun _ => none) (demoText (demoSettings (int2 2 0) (int2 0 2))) = .ok ((demoSettings (int2 2 0) (int2 0 2)).raw ℝ) ∧
    ((demoSettings (int2 2 0) (int2 0 2)).raw ℝ).betas = some [0.001, 1] ∧ ((demoSettings (int2 2 0) (int2 0 2)).raw ℝ).nIter = 400000 := by
  refine ⟨(config_round_trip _ _ _ (demoSettings_wf _ _ (by decide) (by decide)) ⟨?_, ?_, by decide⟩ (demoText_expresses _ _ (by decide) (by decide))).1, ?_, by decide⟩
  · decide +kernel
  · decide +kernel
  · have h1 : ((demoSettings (int2 2 0) (int2 0 2)).raw ℝ).betas =
        some [(⟨.none, [1], none, some ⟨.minus, [0, 3]⟩⟩ : DecText).dec.val, (⟨.none, [1], some [], none⟩ : DecText).dec.val] := rfl
    rw [h1, dec_value, dec_value]
    simp only [DecText.mantissa, DecText.power, Sign.apply, IntText.value, digitsValue, Option.getD_none, List.append_nil, List.length_nil,
      Option.getD_some]
    norm_num

/-- The seed -1 is the fixed seed 4294967295. -/
example (user : User ℝ) : ∃ raw, readInput (fun _ => none) (demoText (demoSettings ⟨.minus, [1]⟩ (int2 0 2))) = .ok raw ∧
    ∀ clock, startSeed (raw.cfg user [] []) clock = 4294967295 := by
  obtain ⟨raw, h1, h2⟩ := negative_seed_fixed (F := ℝ) (fun _ => none) _ _ (demoSettings_wf ⟨.minus, [1]⟩ (int2 0 2) (by decide) (by decide))
    (demoText_expresses _ _ (by decide) (by decide)) (by decide +kernel) (by decide +kernel) (by decide) (by decide) (by decide) user [] []
  refine ⟨raw, h1, fun clock => ?_⟩
  have := h2 clock
  have h3 : (demoSettings ⟨.minus, [1]⟩ (int2 0 2)).initSeed.value = -1 := by decide
  rw [h3] at this
  omega

/-- One beta too many, one too few. -/
example : readInput (F := ℝ) (fun _ => none) (demoText (demoSettings (int2 2 0) (int2 0 1))) = .error .oob :=
  betas_too_many _ _ _ (demoSettings_wf _ _ (by decide) (by decide)) (demoText_expresses _ _ (by decide) (by decide)) (by decide +kernel)
    (by decide +kernel) (by decide)
example (user : User ℝ) (file : DataFile ℝ) : ∃ raw, readInput (fun _ => none) (demoText (demoSettings (int2 2 0) (int2 0 3))) = .ok raw ∧ raw.betas = none ∧
    ∀ w', seqInit (n := 2) (raw.cfg user [] []) file 0 0 ≠ .ok w' :=
  betas_too_few _ _ _ (demoSettings_wf _ _ (by decide) (by decide)) (demoText_expresses _ _ (by decide) (by decide)) (by decide +kernel)
    (by decide +kernel) (by decide) 2 (by decide) user [] [] file 0 0

/-- A comment that mentions a name is a second mention. -/
example : paraLine (c!"# N_iter is large\nN_iter: 5\n") (c!"N_iter") = .error .null ∧ paraLine (c!"# large\nN_iter: 5") (c!"N_iter") = .ok (c!"N_iter: 5") := by
  constructor <;> decide +kernel

/-- The seed 0 stands for the clock, the seed 20 for itself. -/
example (user : User ℝ) : (∃ raw, readInput (fun _ => none) (demoText (demoSettings (int2 0 0) (int2 0 2))) = .ok raw ∧
      startSeed (raw.cfg user [] []) 1234567 = 1234567) ∧
    ∃ raw, readInput (fun _ => none) (demoText (demoSettings (int2 2 0) (int2 0 2))) = .ok raw ∧ startSeed (raw.cfg user [] []) 1234567 = 20 := by
  obtain ⟨raw, h1, h2, -⟩ := seed_clock_partial (F := ℝ) (fun _ => none) _ _ (demoSettings_wf (int2 0 0) (int2 0 2) (by decide) (by decide))
    ⟨by decide +kernel, by decide +kernel, by decide⟩ (demoText_expresses _ _ (by decide) (by decide)) user [] [] 1234567 (by decide)
  obtain ⟨raw', h1', -, h2'⟩ := seed_clock_partial (F := ℝ) (fun _ => none) _ _ (demoSettings_wf (int2 2 0) (int2 0 2) (by decide) (by decide))
    ⟨by decide +kernel, by decide +kernel, by decide⟩ (demoText_expresses _ _ (by decide) (by decide)) user [] [] 1234567 (by decide)
  refine ⟨⟨raw, h1, h2 (by decide)⟩, raw', h1', ?_⟩
  have h3 : (demoSettings (int2 2 0) (int2 0 2)).initSeed.value = 20 := by decide
  have h4 := h2' (by decide)
  rw [h3] at h4
  exact_mod_cast h4

/-- Every name of that file is on one line only. -/
example : ∀ k ∈ coreNames, ∃ line, OnlyMention k (getlines (demoText (demoSettings (int2 2 0) (int2 0 2)))) line ∧ (cstr line).length < 100 :=
  read_needs_all (fun _ => none) _ _ (config_round_trip (F := ℝ) _ _ _ (demoSettings_wf (int2 2 0) (int2 0 2) (by decide) (by decide))
    ⟨by decide +kernel, by decide +kernel, by decide⟩ (demoText_expresses _ _ (by decide) (by decide))).1 _ (isLines_getlines _)

end NiiC
