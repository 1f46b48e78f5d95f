import Verif.Refine.Print
import Verif.Props.State
import Verif.Props.Demo

/-!
# Properties of the text of the output files (C72, C73)

C72: a chain file is a table that the program's own data reader reads back, with a relative error of at most 5e-13 in the parameters, an absolute error of at most 5e-7
in the log-posterior and exact counters. C73: the seed log shows every seed as a number that, put into `input.ini`, gives that seed again, although seeds from 2^31 on are
shown as negative numbers.
-/

set_option linter.unusedSectionVars false

namespace NiiC
open Spec

namespace Print

/-! ## Lines of numbers -/

theorem dec_chars (t : DecText) : ∀ c ∈ t.text, isDigit c = true ∨ c = '+' ∨ c = '-' ∨ c = '.' ∨ c = 'e' := by
  have hs : ∀ (s : Sign), ∀ c ∈ s.text, c = '+' ∨ c = '-' := by
    intro s
    cases s <;> simp [Sign.text]
  have hd : ∀ (ds : List (Fin 10)), ∀ c ∈ digitsText ds, isDigit c = true := by
    intro ds c hc
    obtain ⟨d, _, rfl⟩ := List.mem_map.1 hc
    exact isDigit_digitChar d
  intro c hc
  simp only [DecText.text, List.mem_append] at hc
  rcases hc with ((h | h) | h) | h
  · rcases hs _ c h with h | h <;> simp [h]
  · exact .inl (hd _ c h)
  · cases ht : t.decimals with
    | none => simp [ht] at h
    | some ds =>
      simp only [ht, List.mem_cons] at h
      rcases h with h | h
      · simp [h]
      · exact .inl (hd _ c h)
  · cases ht : t.exponent with
    | none => simp [ht] at h
    | some e =>
      simp only [ht, List.mem_cons, IntText.text, List.mem_append] at h
      rcases h with h | h | h
      · simp [h]
      · rcases hs _ c h with h | h <;> simp [h]
      · exact .inl (hd _ c h)

theorem dec_clean (t : DecText) (x : Char) (hx : x = ' ' ∨ x = '\n' ∨ x = '\x00' ∨ x = '\xff') : x ∉ t.text := by
  intro h
  have := dec_chars t x h
  rcases hx with rfl | rfl | rfl | rfl <;> exact absurd this (by decide)

/-- Numbers with blanks behind each of them are a row of a table. -/
theorem numbers_row (sep : Str) (hne : sep ≠ []) (hsep : ∀ c ∈ sep, c = ' ') (t : DecText) (ts : List DecText) (h : ∀ u ∈ t :: ts, u.Wf) :
    ∃ r : RowText, r.Wf (c!" ") ∧ r.nums = t :: ts ∧ r.text = ((t :: ts).map fun u => u.text ++ sep).flatten := by
  have hcell : ∀ u : DecText, u.Wf → (Cell.mk [] u).Wf (c!" ") := fun u hu =>
    ⟨by simp [Blank], hu, fun x hx hd => dec_clean u ' ' (.inl rfl) (by simpa [Cell.text, List.mem_singleton.1 hd] using hx)⟩
  have htext : (RowText.mk [] ⟨[], t⟩ (ts.map fun u => (sep, ⟨[], u⟩)) sep).text = ((t :: ts).map fun u => u.text ++ sep).flatten := by
    clear h
    induction ts generalizing t with
    | nil => simp [RowText.text, Cell.text]
    | cons u ts ih =>
      have := ih u
      simp only [RowText.text, Cell.text, List.nil_append, List.map_cons, List.flatten_cons, List.append_assoc] at this ⊢
      rw [this]
  refine ⟨⟨[], ⟨[], t⟩, ts.map fun u => (sep, ⟨[], u⟩), sep⟩, ⟨by simp, hcell t (h t (by simp)), ?_, ?_, ?_⟩, ?_, htext⟩
  · intro p hp
    obtain ⟨u, hu, rfl⟩ := List.mem_map.1 hp
    exact ⟨hne, fun x hx => by simp [hsep x hx], hcell u (h u (by simp [hu]))⟩
  · intro x hx
    cases sep with
    | nil => cases hx
    | cons c cs =>
      rw [← Option.some.inj hx, hsep c (by simp)]
      simp [goesOn]
  · rw [htext]
    have key : ∀ x : Char, (x = '\n' ∨ x = '\x00' ∨ x = '\xff') → x ∉ ((t :: ts).map fun u => u.text ++ sep).flatten := by
      intro x hx hm
      obtain ⟨l, h1, h2⟩ := List.mem_flatten.1 hm
      obtain ⟨u, _, rfl⟩ := List.mem_map.1 h1
      rcases List.mem_append.1 h2 with h3 | h3
      · exact dec_clean u x (.inr hx) h3
      · have := hsep x h3
        subst this
        rcases hx with hx | hx | hx <;> exact absurd hx (by decide)
    exact ⟨key _ (.inl rfl), key _ (.inr (.inl rfl)), key _ (.inr (.inr rfl))⟩
  · simp [RowText.nums, Function.comp_def]

/-- A file of lines of the same number of numbers is read back number by number. -/
theorem numbers_file {F : Type} [Arith F] (other : Str → Option F) (sep : Str) (hne : sep ≠ []) (hsep : ∀ c ∈ sep, c = ' ') (ndim : Nat) (hn : 0 < ndim)
    (rows : List (List DecText)) (h : ∀ r ∈ rows, r.length = ndim ∧ ∀ u ∈ r, u.Wf) :
    ∃ cells : List F, (dataFile other (c!" ") ndim ((rows.map fun r => (r.map fun u => u.text ++ sep).flatten ++ ['\n']).flatten)).cells = .ok cells ∧
      (dataFile (F := F) other (c!" ") ndim ((rows.map fun r => (r.map fun u => u.text ++ sep).flatten ++ ['\n']).flatten)).nlines = rows.length ∧
      cells.length = rows.length * ndim ∧
      ∀ (i j : Nat) (r : List DecText) (d : DecText), rows[i]? = some r → r[j]? = some d → cells[i * ndim + j]? = some d.dec.val := by
  have hrow : ∀ r ∈ rows, ∃ q : RowText, q.Wf (c!" ") ∧ q.nums = r ∧ q.text = (r.map fun u => u.text ++ sep).flatten := by
    intro r hr
    obtain ⟨h1, h2⟩ := h r hr
    cases r with
    | nil => simp at h1; omega
    | cons t ts => exact numbers_row sep hne hsep t ts h2
  have hall : ∃ qs : List RowText, qs.length = rows.length ∧ (∀ q ∈ qs, q.Wf (c!" ") ∧ q.nums.length = ndim) ∧
      (qs.map fun q => q.text ++ ['\n']) = (rows.map fun r => (r.map fun u => u.text ++ sep).flatten ++ ['\n']) ∧ qs.map RowText.nums = rows := by
    induction rows with
    | nil => exact ⟨[], rfl, by simp, rfl, rfl⟩
    | cons r rows ih =>
      obtain ⟨qs, h1, h2, h3, h4⟩ := ih (fun r hr => h r (by simp [hr])) (fun r hr => hrow r (by simp [hr]))
      obtain ⟨q, g1, g2, g3⟩ := hrow r (by simp)
      refine ⟨q :: qs, by simp [h1], ?_, by simp [h3, g3], by simp [h4, g2]⟩
      intro q' hq
      rcases List.mem_cons.1 hq with rfl | hq
      · exact ⟨g1, by rw [g2]; exact (h r (by simp)).1⟩
      · exact h2 q' hq
  obtain ⟨qs, h1, h2, h3, h4⟩ := hall
  obtain ⟨cells, k1, k2, k3, k4⟩ := table_round_trip other (c!" ") ndim qs h2
  rw [h3] at k1 k2
  refine ⟨cells, k1, by rw [k2, h1], by rw [k3, h1], fun i j r d hi hj => ?_⟩
  rw [← h4, List.getElem?_map, Option.map_eq_some_iff] at hi
  obtain ⟨q, hq, rfl⟩ := hi
  exact k4 i j q d hq hj

end Print

open Print

/-! ## C72 -/

section
variable {R : Rounding} {F : Type} [Arith F]

/-- A cell read from a file is the value of a decimal number close to `x`. -/
def ReadsAs (c : Option F) (x err : ℝ) : Prop := ∃ d : Dec, c = some d.val ∧ |(d.m : ℝ) * (10 : ℝ) ^ d.e - x| ≤ err

/-- A row of finite numbers. -/
def Row.Finite (a : Row (Dbl R)) (x : List ℝ) (lp : ℝ) : Prop := a.x = x.map .fin ∧ a.lp = .fin lp

/-- The text of a row. -/
noncomputable def Row.text (nan : Str) (a : Row (Dbl R)) : Str := Print.line nan (.row 0 a.x a.lp a.iter a.accepted)

theorem row_decs (nan : Str) (a : Row (Dbl R)) (x : List ℝ) (lp : ℝ) (h : a.Finite x lp) :
    ∃ ts : List DecText, (∀ u ∈ ts, u.Wf) ∧ ts.length = x.length + 3 ∧ a.text nan = (ts.map fun u => u.text ++ c!"  ").flatten ++ ['\n'] ∧
      (∀ (j : Nat) (v : ℝ), x[j]? = some v → ∃ t, ts[j]? = some t ∧ |val t - v| ≤ 5 / 10 ^ 13 * |v|) ∧
      (∃ t, ts[x.length]? = some t ∧ |val t - lp| ≤ 5 / 10 ^ 7) ∧
      (∃ t, ts[x.length + 1]? = some t ∧ t.dec = ⟨a.iter, 0⟩) ∧ (∃ t, ts[x.length + 2]? = some t ∧ t.dec = ⟨a.accepted, 0⟩) := by
  obtain ⟨h1, h2⟩ := h
  have hx : ∃ us : List DecText, (∀ u ∈ us, u.Wf) ∧ us.length = x.length ∧
      (a.x.map fun v => Print.special nan sci v ++ c!"  ").flatten = (us.map fun u => u.text ++ c!"  ").flatten ∧
      (∀ (j : Nat) (v : ℝ), x[j]? = some v → ∃ t, us[j]? = some t ∧ |val t - v| ≤ 5 / 10 ^ 13 * |v|) := by
    rw [h1]
    clear h1 h2
    induction x with
    | nil => exact ⟨[], by simp, rfl, rfl, by simp⟩
    | cons v x ih =>
      obtain ⟨us, g1, g2, g3, g4⟩ := ih
      obtain ⟨t, k1, k2, _, k3⟩ := sci_text v
      refine ⟨t :: us, ?_, by simp [g2], ?_, ?_⟩
      · intro u hu
        rcases List.mem_cons.1 hu with rfl | hu
        · exact k2
        · exact g1 u hu
      · rw [List.map_cons, List.map_cons, List.flatten_cons, g3, List.map_cons, List.flatten_cons, special_fin, k1]
      · intro j w hj
        cases j with
        | zero =>
          simp only [List.getElem?_cons_zero, Option.some.injEq] at hj
          subst hj
          exact ⟨t, rfl, k3⟩
        | succ j => exact g4 j w (by simpa using hj)
  obtain ⟨us, g1, g2, g3, g4⟩ := hx
  obtain ⟨tl, k1, k2, _, _, k3⟩ := fixed_text lp
  obtain ⟨ti, i1, i2, i3, i4⟩ := int_dec a.iter
  obtain ⟨tc, c1, c2, c3, c4⟩ := int_dec a.accepted
  refine ⟨us ++ [tl, ti, tc], ?_, by simp [g2], ?_, ?_, ⟨tl, by simp [← g2], k3⟩, ⟨ti, by simp [← g2], ?_⟩, ⟨tc, by simp [← g2], ?_⟩⟩
  · intro u hu
    simp only [List.mem_append, List.mem_cons, List.not_mem_nil, or_false] at hu
    rcases hu with h | rfl | rfl | rfl
    exacts [g1 u h, k2, i4, c4]
  · rw [Row.text, Print.line, g3, h2, special_fin, k1, i1, c1]
    simp
  · intro j v hj
    obtain ⟨t, ht, he⟩ := g4 j v hj
    refine ⟨t, ?_, he⟩
    rw [List.getElem?_append_left (by rw [g2]; exact (List.getElem?_eq_some_iff.1 hj).1)]
    exact ht
  · rw [DecText.dec, i2, i3]
  · rw [DecText.dec, c2, c3]

/-- **C72, tables.** The text of any rows of finite numbers, all with `nParm` parameters, is a table of `nParm + 3` columns for the program's own data reader (in the
arithmetic of the reading program, which may be another one): as many lines as rows, parameters with a relative error of at most `5e-13`, the log-posterior with an
error of at most `5e-7`, exact counters. -/
theorem chain_text_readable (other : Str → Option F) (nan : Str) (nParm : Nat) (rows : List (Row (Dbl R)))
    (hr : ∀ a ∈ rows, a.x.length = nParm ∧ ∃ x lp, a.Finite x lp) :
    ∃ cells : List F, (dataFile other (c!" ") (nParm + 3 : Nat) ((rows.map (Row.text nan)).flatten)).cells = .ok cells ∧
      (dataFile (F := F) other (c!" ") (nParm + 3 : Nat) ((rows.map (Row.text nan)).flatten)).nlines = rows.length ∧
      cells.length = rows.length * (nParm + 3) ∧
      ∀ (i : Nat) (a : Row (Dbl R)) (x : List ℝ) (lp : ℝ), rows[i]? = some a → a.Finite x lp →
        (∀ (j : Nat) (v : ℝ), x[j]? = some v → ReadsAs cells[i * (nParm + 3) + j]? v (5 / 10 ^ 13 * |v|)) ∧
        ReadsAs cells[i * (nParm + 3) + nParm]? lp (5 / 10 ^ 7) ∧
        cells[i * (nParm + 3) + (nParm + 1)]? = some (Dec.val ⟨a.iter, 0⟩) ∧ cells[i * (nParm + 3) + (nParm + 2)]? = some (Dec.val ⟨a.accepted, 0⟩) := by
  have hall : ∃ tss : List (List DecText), tss.length = rows.length ∧ (∀ r ∈ tss, r.length = nParm + 3 ∧ ∀ u ∈ r, u.Wf) ∧
      (rows.map (Row.text nan)) = (tss.map fun r => (r.map fun u => u.text ++ c!"  ").flatten ++ ['\n']) ∧
      ∀ (i : Nat) (a : Row (Dbl R)) (x : List ℝ) (lp : ℝ), rows[i]? = some a → a.Finite x lp → ∃ ts, tss[i]? = some ts ∧
        (∀ (j : Nat) (v : ℝ), x[j]? = some v → ∃ t, ts[j]? = some t ∧ |val t - v| ≤ 5 / 10 ^ 13 * |v|) ∧
        (∃ t, ts[nParm]? = some t ∧ |val t - lp| ≤ 5 / 10 ^ 7) ∧
        (∃ t, ts[nParm + 1]? = some t ∧ t.dec = ⟨a.iter, 0⟩) ∧ (∃ t, ts[nParm + 2]? = some t ∧ t.dec = ⟨a.accepted, 0⟩) := by
    induction rows with
    | nil => exact ⟨[], rfl, by simp, rfl, by simp⟩
    | cons a rows ih =>
      obtain ⟨tss, h1, h2, h3, h4⟩ := ih (fun a ha => hr a (by simp [ha]))
      obtain ⟨hl, x, lp, hf⟩ := hr a (by simp)
      have hxl : x.length = nParm := by rw [← hl, hf.1, List.length_map]
      obtain ⟨ts, g1, g2, g3, g4⟩ := row_decs nan a x lp hf
      rw [hxl] at g2 g4
      refine ⟨ts :: tss, by simp [h1], ?_, by simp [h3, g3], ?_⟩
      · intro r hr
        rcases List.mem_cons.1 hr with rfl | hr
        · exact ⟨g2, g1⟩
        · exact h2 r hr
      · intro i b x' lp' hi hb
        cases i with
        | zero =>
          simp only [List.getElem?_cons_zero, Option.some.injEq] at hi
          subst hi
          have e1 : x = x' := by
            have := hf.1.symm.trans hb.1
            exact (List.map_injective_iff.2 (fun u v h => XV.fin.inj h)) this
          have e2 : lp = lp' := XV.fin.inj (hf.2.symm.trans hb.2)
          subst e1 e2
          exact ⟨ts, rfl, g4⟩
        | succ i => exact h4 i b x' lp' (by simpa using hi) hb
  obtain ⟨tss, h1, h2, h3, h4⟩ := hall
  obtain ⟨cells, k1, k2, k3, k4⟩ := numbers_file (F := F) other (c!"  ") (by simp) (by simp) (nParm + 3) (by omega) tss h2
  rw [h3]
  refine ⟨cells, k1, by rw [k2, h1], by rw [k3, h1], fun i a x lp hi hf => ?_⟩
  obtain ⟨ts, t1, t2, ⟨tl, t3, t3'⟩, ⟨ti, t4, t4'⟩, tc, t5, t5'⟩ := h4 i a x lp hi hf
  refine ⟨fun j v hj => ?_, ⟨tl.dec, k4 i _ ts tl t1 t3, t3'⟩, ?_, ?_⟩
  · obtain ⟨t, ht, he⟩ := t2 j v hj
    exact ⟨t.dec, k4 i j ts t t1 ht, he⟩
  · rw [k4 i _ ts ti t1 t4, t4']
  · rw [k4 i _ ts tc t1 t5, t5']

/-- Lines of numbers printed by `f` with an error of at most `err`, blanks `sep` behind each number. -/
theorem lines_readable {F : Type} [Arith F] (other : Str → Option F) (f : ℝ → Str) (err : ℝ → ℝ) (hf : ∀ x, ∃ t : DecText, f x = t.text ∧ t.Wf ∧ |val t - x| ≤ err x)
    (sep : Str) (hne : sep ≠ []) (hsep : ∀ c ∈ sep, c = ' ') (k : Nat) (hk : 0 < k) (rows : List (List ℝ)) (hr : ∀ r ∈ rows, r.length = k) :
    ∃ cells : List F, (dataFile other (c!" ") k ((rows.map fun r => (r.map fun v => f v ++ sep).flatten ++ ['\n']).flatten)).cells = .ok cells ∧
      (dataFile (F := F) other (c!" ") k ((rows.map fun r => (r.map fun v => f v ++ sep).flatten ++ ['\n']).flatten)).nlines = rows.length ∧
      cells.length = rows.length * k ∧ ∀ (i j : Nat) (r : List ℝ) (v : ℝ), rows[i]? = some r → r[j]? = some v → ReadsAs cells[i * k + j]? v (err v) := by
  choose g g1 g2 g3 using hf
  have e : (rows.map fun r => (r.map fun v => f v ++ sep).flatten ++ ['\n']) =
      ((rows.map fun r => r.map g).map fun r => (r.map fun u => u.text ++ sep).flatten ++ ['\n']) := by
    simp [Function.comp_def, g1]
  obtain ⟨cells, k1, k2, k3, k4⟩ := numbers_file (F := F) other sep hne hsep k hk (rows.map fun r => r.map g) (by
    intro r hm
    obtain ⟨q, hq, rfl⟩ := List.mem_map.1 hm
    refine ⟨by rw [List.length_map]; exact hr q hq, fun u hu => ?_⟩
    obtain ⟨v, _, rfl⟩ := List.mem_map.1 hu
    exact g2 v)
  rw [e]
  refine ⟨cells, k1, by rw [k2, List.length_map], by rw [k3, List.length_map], fun i j r v hi hj => ?_⟩
  exact ⟨(g v).dec, k4 i j (r.map g) (g v) (by rw [List.getElem?_map, hi]; rfl) (by rw [List.getElem?_map, hj]; rfl), g3 v⟩

/-- **C72, widths and ladders.** Lines of a width file with finite widths read back as a table with a relative error of at most `5e-13`, lines of the ladder file as a table
with an error of at most `5e-7`. -/
theorem widths_ladders_readable {F : Type} [Arith F] (other : Str → Option F) (nan : Str) (k : Nat) (hk : 0 < k) (rows : List (List ℝ)) (hr : ∀ r ∈ rows, r.length = k) (rank : Nat) :
    (∃ cells : List F, (dataFile other (c!" ") k ((rows.map fun r => Print.line (R := R) nan (.sigma rank (r.map .fin))).flatten)).cells = .ok cells ∧
      cells.length = rows.length * k ∧ ∀ (i j : Nat) (r : List ℝ) (v : ℝ), rows[i]? = some r → r[j]? = some v → ReadsAs cells[i * k + j]? v (5 / 10 ^ 13 * |v|)) ∧
    (∃ cells : List F, (dataFile other (c!" ") k ((rows.map fun r => Print.line (R := R) nan (.betas (r.map .fin))).flatten)).cells = .ok cells ∧
      cells.length = rows.length * k ∧ ∀ (i j : Nat) (r : List ℝ) (v : ℝ), rows[i]? = some r → r[j]? = some v → ReadsAs cells[i * k + j]? v (5 / 10 ^ 7)) := by
  have e1 : (rows.map fun r => Print.line (R := R) nan (.sigma rank (r.map .fin))) = rows.map fun r => (r.map fun v => sci v ++ c!"   ").flatten ++ ['\n'] := by
    refine List.map_congr_left fun r _ => ?_
    rw [Print.line, List.map_map]
    rfl
  have e2 : (rows.map fun r => Print.line (R := R) nan (.betas (r.map .fin))) = rows.map fun r => (r.map fun v => fixed v ++ [' ']).flatten ++ ['\n'] := by
    refine List.map_congr_left fun r _ => ?_
    rw [Print.line, List.map_map]
    rfl
  rw [e1, e2]
  constructor
  · obtain ⟨cells, h1, _, h3, h4⟩ := lines_readable other sci (fun v => 5 / 10 ^ 13 * |v|) (fun x => by
      obtain ⟨t, a, b, _, c⟩ := sci_text x
      exact ⟨t, a, b, c⟩) (c!"   ") (by simp) (by simp) k hk rows hr
    exact ⟨cells, h1, h3, h4⟩
  · obtain ⟨cells, h1, _, h3, h4⟩ := lines_readable other fixed (fun _ => 5 / 10 ^ 7) (fun x => by
      obtain ⟨t, a, b, _, _, c⟩ := fixed_text x
      exact ⟨t, a, b, c⟩) [' '] (by simp) (by simp) k hk rows hr
    exact ⟨cells, h1, h3, h4⟩

end

/-! ## Files of a run -/

section
variable {R : Rounding} {n : Nat}

/-- With good names, what a rank writes into the file with the name of its chain file is its rows. -/
theorem chain_name_row (nm : Naming) (hg : nm.Good n) (root r r' : Fin n) (l : Line (Dbl R)) (hl : ownLine root r' l)
    (hf : nm.file l = some (nm.chainFull r.val)) : r' = r ∧ ∃ x lp a c, l = .row r.val x lp a c := by
  have key : ∃ k x lp a c, l = .row k x lp a c := by
    have hs : nm.file (F := Dbl R) (.row r.val [] .nan 0 0) = some (nm.chainFull r.val) := by
      simp only [Naming.file, snprintf_fit (hg.chain r.val r.2)]
    cases l with
    | mkdir => cases hf
    | note => cases hf
    | row k x lp a c => exact ⟨k, x, lp, a, c, rfl⟩
    | seed k v =>
      have h13 : snprintf nm.len (nm.dir ++ (c!"/") ++ c!"init.randseed") = fixedName nm (c!"init.randseed") := by
        refine snprintf_fit ?_
        have := hg.fixed
        simp only [List.length_append, List.length_cons, List.length_nil]
        omega
      simp only [Naming.file, h13, Option.some.injEq] at hf
      exact absurd hf.symm (chain_ne_fixed nm _ _ (by decide))
    | initParm x =>
      have h13 : snprintf nm.len (nm.dir ++ (c!"/") ++ c!"init.parm") = fixedName nm (c!"init.parm") := by
        refine snprintf_fit ?_
        have := hg.fixed
        simp only [List.length_append, List.length_cons, List.length_nil]
        omega
      simp only [Naming.file, h13, Option.some.injEq] at hf
      exact absurd hf.symm (chain_ne_fixed nm _ _ (by decide))
    | betas b =>
      have h13 : snprintf 100 (nm.dir ++ (c!"/") ++ c!"Beta_Values_in_stack.dat") = fixedName nm (c!"Beta_Values_in_stack.dat") := by
        refine snprintf_fit ?_
        have := hg.ladder
        simp only [List.length_append, List.length_cons, List.length_nil]
        omega
      simp only [Naming.file, h13, Option.some.injEq] at hf
      exact absurd hf.symm (chain_ne_fixed nm _ _ (by decide))
    | sigma k s =>
      have hk : k = r'.val := hl
      subst hk
      have hw : snprintf 100 (nm.dir ++ (c!"/") ++ (c!"gaussian_prop.chain") ++ printNat r'.val) = nm.dir ++ ((c!"/") ++ ((c!"gaussian_prop.chain") ++ printNat r'.val)) := by
        rw [snprintf_fit]
        · simp
        · have := hg.width r'.val r'.2
          simp only [List.length_append, List.length_cons, List.length_nil]
          omega
      simp only [Naming.file, hw, Option.some.injEq] at hf
      simp only [Naming.chainFull, List.append_assoc, List.append_cancel_left_eq] at hf
      obtain ⟨c, cs, e, hc⟩ := printNat_ne r.val
      exact absurd (append_cancel_digit (X := printNat r.val ++ nm.suf) ⟨c, cs ++ nm.suf, by rw [e]; rfl, hc⟩ (by decide) hf.symm) hg.pre
  obtain ⟨k, x, lp, a, c, rfl⟩ := key
  have hk : k = r'.val := hl
  subst hk
  have hrr : r' = r := by
    by_contra hne
    simp only [Naming.file, Option.some.injEq] at hf
    have := chain_names_apart nm (hg.chain r'.val r'.2) (hg.chain r.val r.2) (fun h => hne (Fin.ext h))
    rw [hf, snprintf_fit (hg.chain r.val r.2)] at this
    exact this rfl
  subst hrr
  exact ⟨rfl, x, lp, a, c, rfl⟩

theorem file_text (nan : Str) (nm : Naming) (hg : nm.Good n) (root r r' : Fin n) (log : List (Line (Dbl R))) (hl : ∀ l ∈ log, ownLine root r' l) :
    Print.file nan nm (nm.chainFull r.val) log = if r' = r then ((fileRows r.val log).map (Row.text nan)).flatten else [] := by
  induction log with
  | nil => simp [Print.file, fileRows]
  | cons l log ih =>
    have ih := ih (fun l h => hl l (by simp [h]))
    have hl0 := hl l (by simp)
    by_cases hf : nm.file l = some (nm.chainFull r.val)
    · obtain ⟨rfl, x, lp, a, c, rfl⟩ := chain_name_row nm hg root r r' l hl0 hf
      rw [if_pos rfl] at ih ⊢
      simp only [Print.file, List.filter_cons, hf, decide_true, if_true, List.map_cons, List.flatten_cons]
      simp only [Print.file] at ih
      rw [ih]
      simp only [fileRows, List.filterMap_cons, if_true, List.map_cons, List.flatten_cons]
      rfl
    · have e1 : Print.file nan nm (nm.chainFull r.val) (l :: log) = Print.file nan nm (nm.chainFull r.val) log := by
        simp [Print.file, hf]
      have e2 : r' = r → fileRows r.val (l :: log) = fileRows r.val log := by
        rintro rfl
        cases l with
        | row k x lp a c =>
          have hk : k = r'.val := hl0
          subst hk
          exact absurd (by simp only [Naming.file, snprintf_fit (hg.chain r'.val r'.2)]) hf
        | _ => rfl
      rw [e1, ih]
      split
      · rename_i h
        rw [e2 h]
      · rfl

/-- **C72.** For every valid configuration with names that fit, in every execution: only rank `r` writes into its chain file, the text there is that of its rows, and if these are finite the program's own data
reader reads the file back as a table of `nParm + 3` columns, with a relative error of at most `5e-13` in the parameters, an error of at most `5e-7` in the log-posterior and
exact counters. -/
theorem chain_file_readable {F : Type} [Arith F] [LawfulDraws (Dbl R)] (cfg : Cfg (Dbl R)) (file : DataFile (Dbl R)) (hv : Valid n cfg file) (clock : Nat) (root : Fin n)
    (nm : Naming) (hg : nm.Good n) (nan : Str) (w : List (Label n)) (t : Sys n (Msg (Dbl R)) (Line (Dbl R)) (RSt n (Dbl R)))
    (h : (initSys cfg file clock root).exec w = some t) (r : Fin n)
    (hfin : ∀ a ∈ fileRows r.val (t.log r), ∃ x lp, a.Finite x lp) (other : Str → Option F) :
    (∀ r', r' ≠ r → Print.file nan nm (nm.chainFull r.val) (t.log r') = []) ∧
    ∃ cells : List F, (dataFile other (c!" ") (cfg.nParm + 3 : Nat) (Print.file nan nm (nm.chainFull r.val) (t.log r))).cells = .ok cells ∧
      (dataFile (F := F) other (c!" ") (cfg.nParm + 3 : Nat) (Print.file nan nm (nm.chainFull r.val) (t.log r))).nlines = (fileRows r.val (t.log r)).length ∧
      cells.length = (fileRows r.val (t.log r)).length * (cfg.nParm + 3) ∧
      ∀ (i : Nat) (a : Row (Dbl R)) (x : List ℝ) (lp : ℝ), (fileRows r.val (t.log r))[i]? = some a → a.Finite x lp →
        (∀ (j : Nat) (v : ℝ), x[j]? = some v → ReadsAs cells[i * (cfg.nParm + 3) + j]? v (5 / 10 ^ 13 * |v|)) ∧
        ReadsAs cells[i * (cfg.nParm + 3) + cfg.nParm]? lp (5 / 10 ^ 7) ∧
        cells[i * (cfg.nParm + 3) + (cfg.nParm + 1)]? = some (Dec.val ⟨a.iter, 0⟩) ∧
        cells[i * (cfg.nParm + 3) + (cfg.nParm + 2)]? = some (Dec.val ⟨a.accepted, 0⟩) := by
  have hlen := (saved_in_box cfg file hv clock root (fun x => x.length = cfg.nParm) (fun y hy => hv.user.boundary y hy) (fun s => hv.user.initParm s) w t h).1
  have hft := fun r' => file_text nan nm hg root r r' (t.log r') (fun l hl => one_writer cfg file hv clock root w t h r' l hl)
  refine ⟨fun r' hr => by rw [hft r', if_neg hr], ?_⟩
  rw [hft r, if_pos rfl]
  exact chain_text_readable other nan cfg.nParm _ (fun a ha => ⟨hlen r r.val a ha, hfin a ha⟩)

end

/-! ## What the text shows and what it loses -/

namespace Print

theorem rne_nat (m : Nat) : (Binary64.rne (m : ℝ)).toNat = m := by
  have := Binary64.rne_int m
  rw [Int.cast_natCast] at this
  rw [this]
  rfl

/-- A number with six decimals is shown exactly. -/
theorem millionths_exact (s : ℝ) (hs : s = 1 ∨ s = -1) (m : Nat) : millionths (s * ((m : ℝ) / 10 ^ 6)) = m := by
  have h : |s * ((m : ℝ) / 10 ^ 6)| * 10 ^ 6 = (m : ℝ) := by
    rw [abs_mul, abs_of_nonneg (show (0 : ℝ) ≤ (m : ℝ) / 10 ^ 6 by positivity)]
    rcases hs with rfl | rfl <;> norm_num
  rw [millionths, h, rne_nat]

/-- The position of the leading digit of `m * 10^e`, for a number `m` of thirteen digits. -/
theorem lead_exact (x : ℝ) (e : Int) (h1 : (10 : ℝ) ^ e ≤ |x|) (h2 : |x| < (10 : ℝ) ^ (e + 1)) : lead x = e := by
  have hp : 0 < |x| := lt_of_lt_of_le (by positivity) h1
  have hx : x ≠ 0 := abs_pos.1 hp
  obtain ⟨g1, g2⟩ := lead_bounds hx
  have k1 := (zpow_lt_zpow_iff_right₀ (by norm_num : (1 : ℝ) < 10)).1 (h1.trans_lt g2)
  have k2 := (zpow_lt_zpow_iff_right₀ (by norm_num : (1 : ℝ) < 10)).1 (g1.trans_lt h2)
  omega

/-- **C72.** A number of at most thirteen significant digits is shown exactly. -/
theorem sci_exact (m : Nat) (e : Int) (s : ℝ) (hs : s = 1 ∨ s = -1) (h1 : 10 ^ 12 ≤ m) (h2 : m < 10 ^ 13) :
    mant (s * ((m : ℝ) * (10 : ℝ) ^ (e - 12))) = m ∧ expo (s * ((m : ℝ) * (10 : ℝ) ^ (e - 12))) = e := by
  have hq : (0 : ℝ) < (10 : ℝ) ^ (e - 12) := by positivity
  have ha : |s * ((m : ℝ) * (10 : ℝ) ^ (e - 12))| = (m : ℝ) * (10 : ℝ) ^ (e - 12) := by
    rw [abs_mul, abs_of_nonneg (show (0 : ℝ) ≤ (m : ℝ) * (10 : ℝ) ^ (e - 12) by positivity)]
    rcases hs with rfl | rfl <;> norm_num
  have c1 : ((10 ^ 12 : Nat) : ℝ) ≤ m := by exact_mod_cast h1
  have c2 : (m : ℝ) < ((10 ^ 13 : Nat) : ℝ) := by exact_mod_cast h2
  have e1 : (10 : ℝ) ^ e = ((10 ^ 12 : Nat) : ℝ) * (10 : ℝ) ^ (e - 12) := by
    rw [show ((10 ^ 12 : Nat) : ℝ) = (10 : ℝ) ^ (12 : Int) by norm_num, ← zpow_add₀ (by norm_num)]
    congr 1
    ring
  have e2 : (10 : ℝ) ^ (e + 1) = ((10 ^ 13 : Nat) : ℝ) * (10 : ℝ) ^ (e - 12) := by
    rw [show ((10 ^ 13 : Nat) : ℝ) = (10 : ℝ) ^ (13 : Int) by norm_num, ← zpow_add₀ (by norm_num)]
    congr 1
    ring
  have hl : lead (s * ((m : ℝ) * (10 : ℝ) ^ (e - 12))) = e := by
    refine lead_exact _ e ?_ ?_
    · rw [ha, e1]
      exact mul_le_mul_of_nonneg_right c1 hq.le
    · rw [ha, e2]
      exact mul_lt_mul_of_pos_right c2 hq
  have ht : thirteen (s * ((m : ℝ) * (10 : ℝ) ^ (e - 12))) = m := by
    rw [thirteen, hl, ha, mul_div_cancel_right₀ _ hq.ne', rne_nat]
  have hx : s * ((m : ℝ) * (10 : ℝ) ^ (e - 12)) ≠ 0 := by
    have hm : (m : ℝ) ≠ 0 := by
      have : (0 : ℝ) < ((10 ^ 12 : Nat) : ℝ) := by positivity
      linarith
    rcases hs with rfl | rfl <;> simp [hm, hq.ne']
  have hn : ¬ thirteen (s * ((m : ℝ) * (10 : ℝ) ^ (e - 12))) = 10 ^ 13 := by omega
  exact ⟨by rw [mant, if_neg hx, if_neg hn, ht], by rw [expo, if_neg hx, if_neg hn, hl]⟩

/-- **C72, loss.** Everything up to half a millionth is shown as `0.000000`: such an inverse temperature is zero in the ladder file, such a start value is zero in
`init.parm`. -/
theorem fixed_vanishes (x : ℝ) (h0 : 0 ≤ x) (h : x ≤ 5 / 10 ^ 7) : fixed x = c!"0.000000" := by
  have hm : millionths x = 0 := by
    have h1 : |x| * 10 ^ 6 ≤ 1 / 2 := by
      rw [abs_of_nonneg h0]
      calc x * 10 ^ 6 ≤ (5 / 10 ^ 7) * 10 ^ 6 := mul_le_mul_of_nonneg_right h (by positivity)
        _ = 1 / 2 := by norm_num
    have h2 := Binary64.rne_mono h1
    have h3 : Binary64.rne (1 / 2 : ℝ) = 0 := by
      have : ⌊(1 / 2 : ℝ)⌋ = 0 := by norm_num
      rw [Binary64.rne, this]
      norm_num
    unfold millionths
    omega
  rw [fixed, hm, sign, if_neg (not_lt.2 h0)]
  decide +kernel

/-- **C72, loss.** Two different doubles can have the same text: the text does not determine the chain. -/
theorem sci_lossy : ∃ x y : Double, x ≠ y ∧ (∃ a b : ℝ, x = .fin a ∧ y = .fin b ∧ Binary64.rnd a = .fin a ∧ Binary64.rnd b = .fin b) ∧
    ∀ nan, special nan sci x = special nan sci y := by
  have r1 : Binary64.rnd 1 = .fin 1 := Binary64.rnd_one
  have r2 : Binary64.rnd (1 + 2 ^ (-52 : Int)) = .fin (1 + 2 ^ (-52 : Int)) := by
    have := Binary64.rnd_repr (2 ^ 52 + 1) (-52) (by norm_num) (by norm_num) (by norm_num)
    have e : (((2 ^ 52 + 1 : Int) : ℝ)) * 2 ^ (-52 : Int) = 1 + 2 ^ (-52 : Int) := by
      norm_num
    rwa [e] at this
  have hpos : (0 : ℝ) < 2 ^ (-52 : Int) := by positivity
  refine ⟨.fin 1, .fin (1 + 2 ^ (-52 : Int)), ?_, ⟨_, _, rfl, rfl, r1, r2⟩, fun nan => ?_⟩
  · intro h
    have := XV.fin.inj h
    linarith
  rw [special_fin, special_fin]
  have hsmall : (2 : ℝ) ^ (-52 : Int) ≤ 1 / 10 ^ 15 := by norm_num
  have hne : ¬ (1 : ℝ) + 2 ^ (-52 : Int) = 0 := by linarith
  have l1 : lead 1 = 0 := lead_exact 1 0 (by norm_num) (by norm_num)
  have hab : |(1 : ℝ) + 2 ^ (-52 : Int)| = 1 + 2 ^ (-52 : Int) := abs_of_pos (by positivity)
  have l2 : lead (1 + 2 ^ (-52 : Int)) = 0 := by
    refine lead_exact _ 0 ?_ ?_
    · rw [hab, zpow_zero]
      linarith
    · rw [hab, zero_add, zpow_one]
      norm_num
  have t1 : thirteen 1 = 10 ^ 12 := by
    rw [thirteen, l1]
    have : |(1 : ℝ)| / 10 ^ ((0 : Int) - 12) = ((10 ^ 12 : Nat) : ℝ) := by norm_num
    rw [this, rne_nat]
  have t2 : thirteen (1 + 2 ^ (-52 : Int)) = 10 ^ 12 := by
    rw [thirteen, l2, hab]
    have e : ((1 : ℝ) + 2 ^ (-52 : Int)) / 10 ^ ((0 : Int) - 12) = 10 ^ 12 + 2 ^ (-52 : Int) * 10 ^ 12 := by norm_num
    have hf : ⌊(10 : ℝ) ^ 12 + 2 ^ (-52 : Int) * 10 ^ 12⌋ = 10 ^ 12 := by
      rw [Int.floor_eq_iff]
      push_cast
      constructor
      · have : (0 : ℝ) ≤ 2 ^ (-52 : Int) * 10 ^ 12 := by positivity
        linarith
      · norm_num
    have : Binary64.rne ((10 : ℝ) ^ 12 + 2 ^ (-52 : Int) * 10 ^ 12) = 10 ^ 12 := by
      rw [Binary64.rne, hf, if_pos]
      norm_num
    rw [e, this]
    rfl
  have m1 : mant 1 = mant (1 + 2 ^ (-52 : Int)) := by
    rw [mant, mant, t1, t2, if_neg one_ne_zero, if_neg hne]
  have e1 : expo 1 = expo (1 + 2 ^ (-52 : Int)) := by
    rw [expo, expo, t1, t2, l1, l2, if_neg one_ne_zero, if_neg hne]
  rw [sci, sci, m1, e1, sign, sign, if_neg (by norm_num), if_neg (by linarith)]

/-! ## Examples -/

/-- A row of the chain file of a model with two parameters: 0.5, -120, log-posterior -1.25, iteration 30, of which 7 accepted. -/
example : Row.text (R := Rounding.binary64) (c!"nan") ⟨[.fin (1 / 2), .fin (-120)], .fin (-(5 / 4)), 30, 7⟩ =
    c!"5.000000000000e-01  -1.200000000000e+02  -1.250000  30  7  \n" := by
  obtain ⟨a1, a2⟩ := sci_exact 5000000000000 (-1) 1 (.inl rfl) (by norm_num) (by norm_num)
  obtain ⟨b1, b2⟩ := sci_exact 1200000000000 2 (-1) (.inr rfl) (by norm_num) (by norm_num)
  have c1 := millionths_exact (-1) (.inr rfl) 1250000
  rw [show (1 : ℝ) * (((5000000000000 : Nat) : ℝ) * (10 : ℝ) ^ ((-1 : Int) - 12)) = 1 / 2 by norm_num] at a1 a2
  rw [show (-1 : ℝ) * (((1200000000000 : Nat) : ℝ) * (10 : ℝ) ^ ((2 : Int) - 12)) = -120 by norm_num] at b1 b2
  rw [show (-1 : ℝ) * (((1250000 : Nat) : ℝ) / 10 ^ 6) = -(5 / 4) by norm_num] at c1
  have s1 : sign (1 / 2) = [] := by rw [sign, if_neg (by norm_num)]
  have s2 : sign (-120) = ['-'] := by rw [sign, if_pos (by norm_num)]
  have s3 : sign (-(5 / 4)) = ['-'] := by rw [sign, if_pos (by norm_num)]
  simp only [Row.text, line, List.map_cons, List.map_nil, special_fin, sci, fixed, a1, a2, b1, b2, c1, s1, s2, s3]
  decide +kernel

end Print

/-- Three rows of finite numbers read back. -/
example : ∃ cells : List ℝ, (dataFile (fun _ => none) (c!" ") (1 + 3 : Nat)
    (([⟨[.fin (1 / 3)], .fin (-2), 1, 1⟩, ⟨[.fin (2 / 3)], .fin (-1 / 7), 2, 2⟩] : List (Row Double)).map (Row.text (c!"nan"))).flatten).cells = .ok cells ∧
    cells[2]? = some 1 ∧ ReadsAs cells[4]? (2 / 3) (5 / 10 ^ 13 * (2 / 3)) := by
  obtain ⟨cells, h1, _, _, h4⟩ := chain_text_readable (F := ℝ) (fun _ => none) (c!"nan") 1
    ([⟨[.fin (1 / 3)], .fin (-2), 1, 1⟩, ⟨[.fin (2 / 3)], .fin (-1 / 7), 2, 2⟩] : List (Row Double)) (by
      intro a ha
      simp only [List.mem_cons, List.not_mem_nil, or_false] at ha
      rcases ha with rfl | rfl
      · exact ⟨rfl, [1 / 3], -2, rfl, rfl⟩
      · exact ⟨rfl, [2 / 3], -1 / 7, rfl, rfl⟩)
  refine ⟨cells, h1, ?_, ?_⟩
  · have := (h4 0 _ [1 / 3] (-2) rfl ⟨rfl, rfl⟩).2.2.1
    simpa [Dec.val, Arith.lit] using this
  · have := (h4 1 _ [2 / 3] (-1 / 7) rfl ⟨rfl, rfl⟩).1 0 (2 / 3) rfl
    rwa [abs_of_pos (show (0 : ℝ) < 2 / 3 by norm_num)] at this

/-- Names as in the sample files. -/
theorem demoNaming_good : Naming.Good ⟨100, c!"chain", c!".dat", c!"results"⟩ 3 where
  chain := fun r hr => by
    unfold Naming.Fits
    revert r
    decide +kernel
  fixed := by decide
  width := by decide +kernel
  ladder := by decide
  pre := by decide

/-- The chain file of rank 2 of the demo, when all its values are finite. -/
example (w : List (Label 3)) (t : Sys 3 (Msg XReal) (Line XReal) (RSt 3 XReal)) (h : (initSys demoCfgX demoFileX 7 0).exec w = some t)
    (hfin : ∀ a ∈ fileRows 2 (t.log 2), ∃ x lp, a.Finite x lp) :
    ∃ cells : List ℝ, (dataFile (fun _ => none) (c!" ") (1 + 3 : Nat)
      (Print.file (c!"nan") ⟨100, c!"chain", c!".dat", c!"results"⟩ ((⟨100, c!"chain", c!".dat", c!"results"⟩ : Naming).chainFull 2) (t.log 2))).cells = .ok cells ∧
      cells.length = (fileRows 2 (t.log 2)).length * (1 + 3) := by
  obtain ⟨-, cells, h1, -, h2, -⟩ := chain_file_readable (F := ℝ) demoCfgX demoFileX demoX_valid 7 0 _ demoNaming_good (c!"nan") w t h 2 hfin (fun _ => none)
  exact ⟨cells, h1, h2⟩

/-- Two ladders of three. -/
example : ∃ cells : List ℝ, (dataFile (fun _ => none) (c!" ") (3 : Nat) (([[1 / 10, 1 / 2, 1], [1 / 10, 1 / 3, 1]].map fun r =>
    Print.line (R := Rounding.exact) (c!"nan") (.betas (r.map .fin))).flatten)).cells = .ok cells ∧ cells.length = 6 ∧ ReadsAs cells[4]? (1 / 3) (5 / 10 ^ 7) := by
  obtain ⟨cells, h1, h2, h3⟩ := (widths_ladders_readable (F := ℝ) (R := Rounding.exact) (fun _ => none) (c!"nan") 3 (by decide) [[1 / 10, 1 / 2, 1], [1 / 10, 1 / 3, 1]]
    (by simp) 0).2
  exact ⟨cells, h1, h2, h3 1 1 _ _ rfl rfl⟩

/-- The inverse temperature 1/4000000 is written as zero. -/
example : fixed (1 / 4000000) = c!"0.000000" := fixed_vanishes _ (by norm_num) (by norm_num)

end NiiC
