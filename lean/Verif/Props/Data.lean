import Verif.Model.DataLoader
import Verif.Spec.Table
import Verif.Props.IniFile
import Verif.Props.Run

/-!
# The data file: C51, C52, and the program with its input files
-/

set_option linter.unusedSectionVars false
set_option linter.unusedSimpArgs false

namespace NiiC
open Spec

/-! ## C51 -/

/-- Newlines in a text. -/
def newlines (s : Str) : Nat := (s.filter (· = '\n')).length

theorem newlines_append (a b : Str) : newlines (a ++ b) = newlines a + newlines b := by simp [newlines]
theorem newlines_none (l : Str) (h : '\n' ∉ l) : newlines l = 0 := by
  simp only [newlines, List.length_eq_zero_iff, List.filter_eq_nil_iff, decide_eq_true_eq]
  intro c hc e
  exact h (e ▸ hc)

/-- The text is empty or its last byte is a newline. -/
def Terminated (s : Str) : Prop := s = [] ∨ ∃ t, s = t ++ ['\n']

theorem lines_length {s : Str} {ls : List Str} (h : IsLines s ls) :
    (Terminated s → ls.length = newlines s) ∧ (¬ Terminated s → ls.length = newlines s + 1) := by
  induction h with
  | nil => exact ⟨fun _ => rfl, fun h => absurd (.inl rfl) h⟩
  | last l hne h =>
    refine ⟨fun ht => ?_, fun _ => by rw [newlines_none l h]; rfl⟩
    rcases ht with rfl | ⟨t, rfl⟩
    · exact absurd rfl hne
    · exact absurd (by simp) h
  | cons l rest ls h hr ih =>
    have hn : newlines (l ++ '\n' :: rest) = newlines rest + 1 := by
      rw [newlines_append, newlines_none l h]
      simp [newlines]
    have ht : Terminated (l ++ '\n' :: rest) ↔ Terminated rest := by
      constructor
      · rintro (h0 | ⟨t, h0⟩)
        · simp at h0
        · rcases List.eq_nil_or_concat rest with h1 | ⟨r', c, rfl⟩
          · exact .inl h1
          · right
            rw [List.concat_eq_append] at h0 ⊢
            rw [← List.cons_append, ← List.append_assoc] at h0
            have := List.append_inj_right' h0 rfl
            exact ⟨r', by rw [this]⟩
      · rintro (rfl | ⟨t, rfl⟩)
        · exact .inr ⟨l, rfl⟩
        · exact .inr ⟨l ++ '\n' :: t, by simp⟩
    rw [ht, hn]
    exact ⟨fun h => by simp [ih.1 h], fun h => by simp [ih.2 h]⟩

theorem countLines_eq (s : Str) (h : byteFF ∉ s) : countLines s = newlines s := by
  have : s.takeWhile (fun c => decide (c ≠ byteFF)) = s := by
    rw [← List.append_nil s, List.takeWhile_append_of_pos]
    · simp
    · intro c hc
      simp only [ne_eq, decide_not, Bool.not_eq_eq_eq_not, Bool.not_true, decide_eq_false_iff_not]
      rintro rfl
      exact h hc
  rw [countLines, this, newlines]

theorem countLines_FF (a b : Str) (h : byteFF ∉ a) : countLines (a ++ byteFF :: b) = newlines a := by
  rw [countLines, (takeWhile_stop (p := fun c => decide (c ≠ byteFF)) a byteFF b ?_ (by simp)).1, newlines]
  intro c hc
  simp only [ne_eq, decide_not, Bool.not_eq_eq_eq_not, Bool.not_true, decide_eq_false_iff_not]
  rintro rfl
  exact h hc

/-- **C51.** The number of rows counted (and allocated) is the number of lines that the loader stores exactly when the file is empty or ends with a newline, and
has no byte 0xFF. Otherwise it is smaller. -/
theorem rows_counted_iff (s : Str) (ls : List Str) (hl : IsLines s ls) :
    (countLines s = ls.length ↔ byteFF ∉ s ∧ Terminated s) ∧ countLines s ≤ ls.length := by
  obtain ⟨h1, h2⟩ := lines_length hl
  by_cases hf : byteFF ∈ s
  · have hlt : countLines s < ls.length := by
      obtain ⟨a, b, rfl, ha⟩ : ∃ a b, s = a ++ byteFF :: b ∧ byteFF ∉ a := by
        obtain ⟨a, b, h, ha⟩ := List.eq_append_cons_of_mem hf
        exact ⟨a, b, h, ha⟩
      rw [countLines_FF a b ha]
      have hn : newlines (a ++ byteFF :: b) = newlines a + newlines b := by
        rw [newlines_append]
        congr 1
      by_cases ht : Terminated (a ++ byteFF :: b)
      · rw [h1 ht, hn]
        rcases ht with h0 | ⟨t, h0⟩
        · simp at h0
        · rcases List.eq_nil_or_concat b with rfl | ⟨b', c, rfl⟩
          · have := List.append_inj_right' h0 rfl
            exact absurd this (by decide)
          · rw [List.concat_eq_append] at h0 ⊢
            rw [← List.cons_append, ← List.append_assoc] at h0
            have := List.append_inj_right' h0 rfl
            simp only [List.cons.injEq, and_true] at this
            rw [this, newlines_append]
            have : newlines ['\n'] = 1 := rfl
            rw [this]
            omega
      · rw [h2 ht, hn]
        omega
    exact ⟨⟨fun h => by omega, fun h => absurd hf h.1⟩, hlt.le⟩
  · rw [countLines_eq s hf]
    by_cases ht : Terminated s
    · have := h1 ht
      exact ⟨⟨fun _ => ⟨hf, ht⟩, fun _ => by omega⟩, by omega⟩
    · have := h2 ht
      exact ⟨⟨fun h => by omega, fun h => absurd h.2 ht⟩, by omega⟩

section
variable {F : Type} [Arith F] [Source F]

theorem readRows_bound (other : Str → Option F) (dl : Str) (nline ndim : Int) : ∀ (ls : List Str) (i : Nat) (cells : List F),
    readRows other dl nline ndim ls i = .ok cells → ls = [] ∨ ((i : Int) + ls.length ≤ nline ∧ 1 ≤ ndim) := by
  intro ls
  induction ls with
  | nil => intro i cells _; exact .inl rfl
  | cons l ls ih =>
    intro i cells h
    simp only [readRows, exc_bind] at h
    obtain ⟨row, h1, u, h2, rest, h3, h4⟩ := h
    by_cases hb : 1 ≤ ndim ∧ (i : Int) < nline
    · right
      rcases ih (i + 1) rest h3 with rfl | h5
      · simp; omega
      · simp only [List.length_cons]
        push_cast at h5 ⊢
        omega
    · rw [if_neg hb] at h2; cases h2

theorem readCells_length (other : Str → Option F) : ∀ (k : Nat) (ts : List Str) (row : List F), readCells other k ts = .ok row → row.length = k := by
  intro k
  induction k with
  | zero => intro ts row h; cases h; rfl
  | succ k ih =>
    intro ts row h
    cases ts with
    | nil => cases h
    | cons t ts =>
      simp only [readCells, exc_bind, Except.ok.injEq] at h
      obtain ⟨rest, h1, rfl⟩ := h
      simp [ih ts rest h1]

theorem readRows_length (other : Str → Option F) (dl : Str) (nline ndim : Int) : ∀ (ls : List Str) (i : Nat) (cells : List F),
    readRows other dl nline ndim ls i = .ok cells → (cells.length : Int) = ls.length * ndim := by
  intro ls
  induction ls with
  | nil => intro i cells h; cases h; simp
  | cons l ls ih =>
    intro i cells h
    simp only [readRows, exc_bind, Except.ok.injEq] at h
    obtain ⟨row, h1, u, h2, rest, h3, rfl⟩ := h
    by_cases hb : 1 ≤ ndim ∧ (i : Int) < nline
    · have h4 := readCells_length other _ _ _ h1
      have h5 := ih _ _ h3
      rw [List.length_append, List.length_cons]
      push_cast
      rw [h5, h4]
      have h6 : ((max 1 ndim.toNat : Nat) : Int) = ndim := by omega
      rw [h6]
      ring
    · rw [if_neg hb] at h2; cases h2

/-- **C51.** If loading succeeds, the file is terminated and has no byte 0xFF (or is empty), and the table is filled exactly; so an unterminated last line, or a byte
0xFF, makes the loader write behind the table (or stop before at a missing number). -/
theorem loaded_terminated (other : Str → Option F) (dl : Str) (ndim : Int) (s : Str) (cells : List F)
    (h : (dataFile other dl ndim s).cells = .ok cells) :
    byteFF ∉ s ∧ Terminated s ∧ (cells.length : Int) = (dataFile other dl ndim s).nlines * ndim := by
  have hl := isLines_getlines s
  obtain ⟨h1, h2⟩ := rows_counted_iff s _ hl
  have h3 : countLines s = (getlines s).length := by
    rcases readRows_bound other dl _ _ _ _ _ h with h4 | ⟨h4, _⟩
    · rw [h4] at h2 ⊢
      have : 0 ≤ countLines s := by simp [countLines]
      simp at h2 ⊢
      omega
    · simp at h4
      omega
  obtain ⟨h4, h5⟩ := h1.1 h3
  refine ⟨h4, h5, ?_⟩
  rw [readRows_length other dl _ _ _ _ _ h]
  simp [dataFile, h3]

/-! ## C52 -/

theorem tokens_lead (dl lead s : Str) (h : ∀ x ∈ lead, x ∈ dl) : tokens dl (lead ++ s) = tokens dl s := by
  induction lead with
  | nil => rfl
  | cons c lead ih =>
    rw [List.cons_append, tokens_delim dl c _ (h c (by simp)), ih (fun x hx => h x (by simp [hx]))]

/-- The last token of a row: the cell and what follows up to a delimiter. -/
theorem tokens_last (dl t r : Str) (hne : t ≠ []) (ht : ∀ c ∈ t, c ∉ dl) :
    ∃ x more, tokens dl (t ++ r) = (t ++ x) :: more ∧ x <+: r := by
  induction r generalizing t with
  | nil => exact ⟨[], [], by simpa using tokens_run dl t hne ht, List.prefix_rfl⟩
  | cons c r ih =>
    by_cases hc : c ∈ dl
    · exact ⟨[], tokens dl r, by simpa using tokens_run_cons dl t c r hne ht hc, List.nil_prefix⟩
    · obtain ⟨x, more, h1, h2⟩ := ih (t ++ [c]) (by simp) (by
        intro y hy
        rcases List.mem_append.1 hy with h | h
        · exact ht y h
        · rw [List.mem_singleton.1 h]; exact hc)
      refine ⟨c :: x, more, ?_, ?_⟩
      · simpa using h1
      · obtain ⟨z, rfl⟩ := h2
        exact ⟨z, rfl⟩

theorem goesOn_iff (c : Char) : isNumChar c = true ↔ goesOn c := by
  simp only [isNumChar, isDigit, goesOn, Bool.or_eq_true, beq_iff_eq, List.mem_cons, List.not_mem_nil, or_false]
  tauto

theorem cell_ne {dl : Str} {c : Cell} (h : c.Wf dl) : c.text ≠ [] := by
  intro he
  have := stops_dec c.num h.num [' ']
  have he' : c.num.text = [] := by
    simp only [Cell.text, List.append_eq_nil_iff] at he
    exact he.2
  rw [he'] at this
  exact absurd (show isSpace ' ' = false from this) (by decide)

theorem atof_cell (other : Str → Option F) {dl : Str} {c : Cell} (h : c.Wf dl) (x : Str) (hx : Stops isNumChar x) :
    atof other (c.text ++ x) = c.num.dec.val := atof_text other c.pad c.num x h.pad h.num hx

/-- The tokens of a row begin with tokens of its numbers. -/
theorem row_cells (other : Str → Option F) (dl : Str) (c : Cell) (more : List (Str × Cell)) (tail : Str) (hc : c.Wf dl)
    (hm : ∀ p ∈ more, p.1 ≠ [] ∧ (∀ x ∈ p.1, x ∈ dl) ∧ p.2.Wf dl) (ht : Stops isNumChar tail) :
    readCells other (more.length + 1) (tokens dl (c.text ++ ((more.map fun p => p.1 ++ p.2.text).flatten ++ tail))) =
      .ok (c.num.dec.val :: more.map fun p => p.2.num.dec.val) := by
  induction more generalizing c with
  | nil =>
    obtain ⟨x, rest, h1, h2⟩ := tokens_last dl c.text tail (cell_ne hc) hc.nodelim
    have hx : Stops isNumChar x := by
      obtain ⟨z, rfl⟩ := h2
      cases x with
      | nil => trivial
      | cons y x => exact ht
    simp only [List.map_nil, List.flatten_nil, List.nil_append, h1]
    simp only [readCells, bind, Except.bind, List.length_nil, atof_cell other hc x hx]
  | cons p more ih =>
    obtain ⟨h1, h2, h3⟩ := hm p (by simp)
    have e1 : c.text ++ (((p :: more).map fun p => p.1 ++ p.2.text).flatten ++ tail) =
        c.text ++ (p.1 ++ (p.2.text ++ ((more.map fun p => p.1 ++ p.2.text).flatten ++ tail))) := by simp
    have e2 : tokens dl (c.text ++ (p.1 ++ (p.2.text ++ ((more.map fun p => p.1 ++ p.2.text).flatten ++ tail)))) =
        c.text :: tokens dl (p.2.text ++ ((more.map fun p => p.1 ++ p.2.text).flatten ++ tail)) := by
      obtain ⟨sep, cell⟩ := p
      cases sep with
      | nil => exact absurd rfl h1
      | cons d sep =>
        simp only [List.cons_append]
        rw [tokens_run_cons dl _ d _ (cell_ne hc) hc.nodelim (h2 d (by simp)), tokens_lead dl sep _ (fun x hx => h2 x (by simp [hx]))]
    rw [e1, e2]
    have h4 := ih p.2 h3 (fun q hq => hm q (by simp [hq]))
    have h5 : atof other c.text = c.num.dec.val := by
      have := atof_cell other hc [] trivial
      rwa [List.append_nil] at this
    simp only [List.length_cons, readCells, h4, h5, bind, Except.bind, List.map_cons]

theorem readRows_table (other : Str → Option F) (dl : Str) (ndim : Nat) (nline : Int) : ∀ (rows : List RowText) (i : Nat),
    (∀ r ∈ rows, r.Wf dl ∧ r.nums.length = ndim) → (i : Int) + rows.length ≤ nline →
    readRows other dl nline ndim (rows.map fun r => r.text ++ ['\n']) i = .ok (rows.flatMap fun r => r.nums.map fun d => d.dec.val) := by
  intro rows
  induction rows with
  | nil => intro i _ _; rfl
  | cons r rows ih =>
    intro i hr hi
    obtain ⟨hw, hlen⟩ := hr r (by simp)
    simp only [List.length_cons] at hi
    push_cast at hi
    have h1 := ih (i + 1) (fun r hr' => hr r (by simp [hr'])) (by push_cast; omega)
    have hcs : cstr (r.text ++ ['\n']) = r.text ++ ['\n'] := by
      refine cstr_id _ ?_
      simp only [List.mem_append, List.mem_singleton, not_or]
      exact ⟨hw.clean.2.1, by decide⟩
    have hn : r.more.length + 1 = ndim := by rw [← hlen]; simp [RowText.nums]
    have hst : Stops isNumChar (r.tail ++ ['\n']) := by
      have := hw.tail
      cases ht : r.tail with
      | nil => rfl
      | cons c t =>
        rw [ht] at this
        have h2 := this c (by simp)
        show isNumChar c = false
        cases hb : isNumChar c with
        | false => rfl
        | true => exact absurd ((goesOn_iff c).1 hb) h2
    have hrow : readCells other (max 1 ndim) (tokens dl (r.text ++ ['\n'])) = .ok (r.nums.map fun d => d.dec.val) := by
      have e1 : r.text ++ ['\n'] = r.lead ++ (r.first.text ++ ((r.more.map fun p => p.1 ++ p.2.text).flatten ++ (r.tail ++ ['\n']))) := by
        simp [RowText.text]
      rw [e1, tokens_lead dl _ _ hw.lead, show max 1 ndim = r.more.length + 1 by omega, row_cells other dl r.first r.more _ hw.first hw.more hst]
      simp [RowText.nums]
    have hpos : (1 : Int) ≤ (ndim : Int) ∧ (i : Int) < nline := by omega
    simp only [List.map_cons, readRows, hcs, Int.toNat_natCast, hrow, if_pos hpos, h1, bind, Except.bind, List.flatMap_cons]

/-- **C52.** A file with one line per row and `ndim` numbers on each line is loaded completely: as many lines as rows, and cell (i, j), stored at position
`i*ndim + j`, is number j of line i. -/
theorem table_round_trip (other : Str → Option F) (dl : Str) (ndim : Nat) (rows : List RowText)
    (hr : ∀ r ∈ rows, r.Wf dl ∧ r.nums.length = ndim) :
    ∃ cells : List F, (dataFile other dl ndim ((rows.map fun r => r.text ++ ['\n']).flatten)).cells = .ok cells ∧
      (dataFile (F := F) other dl ndim ((rows.map fun r => r.text ++ ['\n']).flatten)).nlines = rows.length ∧
      cells.length = rows.length * ndim ∧
      ∀ (i j : Nat) (r : RowText) (d : DecText), rows[i]? = some r → r.nums[j]? = some d → cells[i * ndim + j]? = some d.dec.val := by
  have hls : IsLines ((rows.map fun r => r.text ++ ['\n']).flatten) (rows.map fun r => r.text ++ ['\n']) := by
    induction rows with
    | nil => exact .nil
    | cons r rows ih =>
      have := IsLines.cons r.text _ _ (hr r (by simp)).1.clean.1 (ih (fun r' h => hr r' (by simp [h])))
      simpa using this
  have hg := getlines_of_isLines hls
  have hcount : countLines ((rows.map fun r => r.text ++ ['\n']).flatten) = rows.length := by
    have h := ((rows_counted_iff _ _ hls).1.2 ⟨?_, ?_⟩)
    · simpa using h
    · intro hm
      obtain ⟨l, h1, h2⟩ := List.mem_flatten.1 hm
      obtain ⟨r, h3, rfl⟩ := List.mem_map.1 h1
      rcases List.mem_append.1 h2 with h | h
      · exact (hr r h3).1.clean.2.2 h
      · exact absurd (List.mem_singleton.1 h) (by decide)
    · rcases List.eq_nil_or_concat rows with rfl | ⟨rs, r, rfl⟩
      · exact .inl rfl
      · exact .inr ⟨(rs.map fun r => r.text ++ ['\n']).flatten ++ r.text, by simp⟩
  have hcells : (dataFile other dl ndim ((rows.map fun r => r.text ++ ['\n']).flatten)).cells = .ok (rows.flatMap fun r => r.nums.map fun d => (d.dec.val : F)) := by
    simp only [dataFile, hg]
    exact readRows_table other dl ndim _ rows 0 hr (by rw [hcount]; simp)
  refine ⟨_, hcells, hcount, ?_, ?_⟩
  · have := readRows_length other dl _ _ _ _ _ hcells
    rw [hg, List.length_map] at this
    exact_mod_cast this
  · clear hls hg hcount hcells
    induction rows with
    | nil => intro i j r d h; simp at h
    | cons r0 rows ih =>
      intro i j r d hi hj
      have h0 : (r0.nums.map fun d => (d.dec.val : F)).length = ndim := by rw [List.length_map]; exact (hr r0 (by simp)).2
      rw [List.flatMap_cons]
      cases i with
      | zero =>
        simp only [List.getElem?_cons_zero, Option.some.injEq] at hi
        subst hi
        have hj' : j < r0.nums.length := (List.getElem?_eq_some_iff.1 hj).1
        rw [List.getElem?_append_left (by simp; omega), Nat.zero_mul, Nat.zero_add, List.getElem?_map, hj]
        rfl
      | succ i =>
        simp only [List.getElem?_cons_succ] at hi
        rw [List.getElem?_append_right (by rw [h0, Nat.succ_mul]; omega), h0,
          show (i + 1) * ndim + j - ndim = i * ndim + j by rw [Nat.succ_mul]; omega]
        exact ih (fun r' h => hr r' (by simp [h])) i j r d hi hj

/-- **C52.** A line with fewer numbers than `ndim` is undefined behaviour: a null pointer is passed to `atof`. -/
theorem short_row_fault (other : Str → Option F) (dl : Str) (ndim : Int) (s : Str) (l : Str) (hl : l ∈ getlines s)
    (h : (tokens dl (cstr l)).length < max 1 ndim.toNat) (cells : List F) : (dataFile other dl ndim s).cells ≠ .ok cells := by
  have hc : ∀ (k : Nat) (ts : List Str), ts.length < k → readCells other k ts = .error .null := by
    intro k
    induction k with
    | zero => intro ts h; omega
    | succ k ih =>
      intro ts h
      cases ts with
      | nil => rfl
      | cons t ts =>
        simp only [List.length_cons] at h
        simp only [readCells, ih ts (by omega), bind, Except.bind]
  have hrow : ∀ (nline : Int) (ls : List Str) (i : Nat) (cells : List F), l ∈ ls → readRows other dl nline ndim ls i ≠ .ok cells := by
    intro nline ls
    induction ls with
    | nil => intro i cells h; simp at h
    | cons l' ls ih =>
      intro i cells hm he
      simp only [readRows, exc_bind, Except.ok.injEq] at he
      obtain ⟨row, h1, _, _, rest, h3, _⟩ := he
      rcases List.mem_cons.1 hm with rfl | hm
      · rw [hc _ _ h] at h1; cases h1
      · exact ih (i + 1) rest hm h3
  exact hrow _ _ _ _ hl

variable {n : Nat}

/-- **C52, every rank.** In every finished execution of a usable configuration whose data file is such a table, every rank holds the whole table. -/
theorem table_on_every_rank [LawfulDraws F] (cfg : Cfg F) (other : Str → Option F) (dl : Str) (ndim : Nat) (rows : List RowText)
    (hr : ∀ r ∈ rows, r.Wf dl ∧ r.nums.length = ndim)
    (hv : Valid n cfg (dataFile other dl ndim ((rows.map fun r => r.text ++ ['\n']).flatten))) (clock : Nat) (root : Fin n)
    (w : List (Label n)) (t : Sys n (Msg F) (Line F) (RSt n F))
    (h : (initSys cfg (dataFile other dl ndim ((rows.map fun r => r.text ++ ['\n']).flatten)) clock root).exec w = some t) (hd : t.AllDone)
    (r : Fin n) :
    ∃ st, t.procs r = .ret st ∧ st.loc.nline = rows.length ∧ st.loc.data.length = rows.length * ndim ∧
      ∀ (i j : Nat) (row : RowText) (d : DecText), rows[i]? = some row → row.nums[j]? = some d → st.loc.data[i * ndim + j]? = some d.dec.val := by
  obtain ⟨cells, h1, h2, h3, h4⟩ := table_round_trip other dl ndim rows hr
  generalize hfile : dataFile other dl ndim ((rows.map fun r => r.text ++ ['\n']).flatten) = file at *
  obtain ⟨wf, len, hseq, hall⟩ := distributed_eq_sequential cfg file hv clock root
  obtain ⟨_, hdone⟩ := hall w t h
  obtain ⟨hp, _, _⟩ := hdone hd
  refine ⟨view root wf.st r, hp r, ?_⟩
  obtain ⟨w0, h0, hs⟩ := seqMain_steps cfg file clock root wf hseq
  have hinv := hs.inv (P := fun w => w.st.Ok cfg ∧ w.st.nline = w0.st.nline ∧ w.st.data = w0.st.data)
    (fun a b hp hst => ⟨hst.ok hv.user hp.1, by
      have := hst.data hv.user hp.1
      exact ⟨this.1.trans hp.2.1, this.2.trans hp.2.2⟩⟩) ⟨seqInit_ok hv.user h0, rfl, rfl⟩
  simp only [seqInit, exc_bind, Except.ok.injEq] at h0
  obtain ⟨_, _, data, hdat, _, _, _, _, _, _, beta, hb, rfl⟩ := h0
  rw [h1, Except.ok.injEq] at hdat
  subst hdat
  have e1 : (view root wf.st r).loc.nline = file.nlines := hinv.2.1
  have e2 : (view root wf.st r).loc.data = cells := hinv.2.2
  rw [e1, e2, h2]
  exact ⟨rfl, h3, h4⟩

end

/-! ## Examples -/

/-- An unterminated last line, and a byte 0xFF: two lines, fewer counted. -/
example : countLines (c!"1 2\n3 4") = 1 ∧ (getlines (c!"1 2\n3 4")).length = 2 := by decide +kernel
example : countLines (c!"1 2\n3 4\n") = 2 ∧ (getlines (c!"1 2\n3 4\n")).length = 2 := by decide +kernel
example : countLines ((c!"1 2\n") ++ '\xff' :: c!"3\n4\n") = 1 := by decide +kernel
example : (dataFile (F := ℝ) (fun _ => none) (c!" ") 2 (c!"1 2\n3 4")).cells = .error .oob := rfl
/-- A short line. -/
example : (dataFile (F := ℝ) (fun _ => none) (c!" ") 2 (c!"1 2\n3\n")).cells = .error .null := rfl

/-- The number `ab.c`. -/
def num3 (a b c : Fin 10) : DecText := ⟨.none, [a, b], some [c], none⟩
/-- The number `-ae-02`. -/
def numE (a : Fin 10) : DecText := ⟨.minus, [a], none, some ⟨.minus, [0, 2]⟩⟩
theorem num3_wf (a b c : Fin 10) : (num3 a b c).Wf := ⟨.inl (by simp [num3]), by simp [num3]⟩
theorem numE_wf (a : Fin 10) : (numE a).Wf := ⟨.inl (by simp [numE]), fun e he => by rw [← Option.some.inj he]; decide⟩

/-- Two rows of two numbers, one with a comment behind. -/
def demoRows : List RowText :=
  [⟨[], ⟨[], num3 1 2 5⟩, [(c!" ", ⟨['\t'], numE 3⟩)], []⟩, ⟨c!"  ", ⟨[], numE 7⟩, [(c!"   ", ⟨[], num3 0 4 1⟩)], c!" # measured"⟩]

theorem demoRows_ok : ∀ r ∈ demoRows, r.Wf (c!" ") ∧ r.nums.length = 2 := by
  have hb : Blank (['\t'] : Str) := fun c hc => .inr (List.mem_singleton.1 hc)
  have h0 : Blank ([] : Str) := fun c hc => by simp at hc
  simp only [demoRows, List.forall_mem_cons, List.not_mem_nil, false_imp_iff, implies_true, and_true]
  refine ⟨⟨⟨by simp, ⟨h0, num3_wf _ _ _, by decide⟩, ?_, by simp, by decide⟩, rfl⟩,
    ⟨⟨by decide, ⟨h0, numE_wf _, by decide⟩, ?_, ?_, by decide⟩, rfl⟩⟩
  · intro p hp
    rw [List.mem_singleton.1 hp]
    exact ⟨by decide, by decide, ⟨hb, numE_wf _, by decide⟩⟩
  · intro p hp
    rw [List.mem_singleton.1 hp]
    exact ⟨by decide, by decide, ⟨h0, num3_wf _ _ _, by decide⟩⟩
  · intro x hx
    have : x = ' ' := by simpa using hx.symm
    rw [this]
    simp [goesOn]

/-- The table is read: number 1 of line 0 is -0.03. -/
example : ((demoRows.map fun r => r.text ++ ['\n']).flatten = c!"12.5 \t-3e-02\n  -7e-02   04.1 # measured\n") ∧
    ∃ cells : List ℝ, (dataFile (fun _ => none) (c!" ") 2 ((demoRows.map fun r => r.text ++ ['\n']).flatten)).cells = .ok cells ∧ cells.length = 4 ∧
      cells[1]? = some ((-3 : ℝ) / 100) := by
  refine ⟨by decide +kernel, ?_⟩
  obtain ⟨cells, h1, _, h3, h4⟩ := table_round_trip (F := ℝ) (fun _ => none) (c!" ") 2 demoRows demoRows_ok
  refine ⟨cells, h1, h3, ?_⟩
  have := h4 0 1 _ _ rfl rfl
  rw [show 0 * 2 + 1 = 1 by rfl] at this
  rw [this, dec_value]
  simp only [numE, DecText.mantissa, DecText.power, Sign.apply, IntText.value, digitsValue, Option.getD_none, List.append_nil, List.length_nil,
    Option.getD_some]
  norm_num

/-- A file that is read ends with a newline. -/
example : Terminated ((demoRows.map fun r => r.text ++ ['\n']).flatten) := by
  obtain ⟨cells, h, -⟩ := table_round_trip (F := ℝ) (fun _ => none) (c!" ") 2 demoRows demoRows_ok
  exact (loaded_terminated _ _ _ _ cells h).2.1

/-- The second line has one number of two. -/
example (cells : List ℝ) : (dataFile (fun _ => none) (c!" ") 2 (c!"1 2\n3\n4 5\n")).cells ≠ .ok cells :=
  short_row_fault _ _ _ _ (c!"3\n") (by decide +kernel) (by decide +kernel) cells

/-- The demo with that table as its data file. -/
example (w : List (Label 3)) (t : Sys 3 (Msg ℝ) (Line ℝ) (RSt 3 ℝ))
    (h : (initSys demoCfg (dataFile (fun _ => none) (c!" ") (2 : Nat) ((demoRows.map fun r => r.text ++ ['\n']).flatten)) 0 0).exec w = some t)
    (hd : t.AllDone) : ∃ st, t.procs 2 = .ret st ∧ st.loc.nline = 2 ∧ st.loc.data.length = 4 := by
  obtain ⟨cells, h1, h2, h3, -⟩ := table_round_trip (F := ℝ) (fun _ => none) (c!" ") 2 demoRows demoRows_ok
  have v : Valid 3 demoCfg (dataFile (fun _ => none) (c!" ") (2 : Nat) ((demoRows.map fun r => r.text ++ ['\n']).flatten)) :=
    { demo_valid with cells := ⟨cells, h1, by rw [h3, h2]; rfl, by rw [h3]; decide⟩ }
  obtain ⟨st, k1, k2, k3, -⟩ := table_on_every_rank demoCfg _ _ 2 demoRows demoRows_ok v 0 0 w t h hd 2
  exact ⟨st, k1, k2, k3⟩

end NiiC
