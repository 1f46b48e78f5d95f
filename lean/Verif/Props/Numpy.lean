import Verif.Refine.PrintAt
import Verif.Props.Scripts
import Verif.Props.Compare

/-!
# C109: the simulated data reach both samplers without loss

`np.savetxt` prints nineteen digits. Seventeen are enough for a double to be read back exactly, sixteen are not. So the table that the program's data reader makes of the
file `xy.dat`, and the points that the comparison script makes of it, are the doubles that were simulated, and both samplers work on the same density.
-/

set_option linter.unusedSectionVars false

namespace NiiC
open Spec
namespace Numpy

/-! ## Texts -/

/-- A text of a number, as `np.genfromtxt` sees it: not empty, and without blanks, ends of lines or comments. -/
def Solid (w : Str) : Prop := w ≠ [] ∧ ∀ c ∈ w, stripped c = false ∧ c ≠ '#'

theorem solid_dec (t : DecText) (h : t.Wf) : Solid t.text := by
  refine ⟨Scripts.dec_text_ne t h, fun c hc => ?_⟩
  have := Print.dec_chars t c hc
  rcases this with h | rfl | rfl | rfl | rfl
  · obtain ⟨d, rfl⟩ := Print.digit_char c h
    clear hc h
    revert d
    decide
  all_goals decide

theorem split_run (w : Str) (h : ∀ c ∈ w, c ≠ ' ') : splitAt1 ' ' w = [w] ∧ ∀ r, splitAt1 ' ' (w ++ ' ' :: r) = w :: splitAt1 ' ' r := by
  induction w with
  | nil => exact ⟨rfl, fun r => rfl⟩
  | cons c w ih =>
    obtain ⟨h1, h2⟩ := ih (fun x hx => h x (by simp [hx]))
    have hc := h c (by simp)
    refine ⟨by simp [splitAt1, hc, h1], fun r => ?_⟩
    simp [splitAt1, hc, h2]

theorem stripped_blank {c : Char} (h : stripped c = false) : c ≠ ' ' ∧ c ≠ '\r' ∧ c ≠ '\n' := by
  refine ⟨?_, ?_, ?_⟩ <;> rintro rfl <;> exact absurd h (by decide)

theorem split_between (w : Str) (ws : List Str) (h : ∀ u ∈ w :: ws, Solid u) : splitAt1 ' ' (between (w :: ws)) = w :: ws := by
  induction ws generalizing w with
  | nil => exact (split_run w fun c hc => (stripped_blank ((h w (by simp)).2 c hc).1).1).1
  | cons u ws ih =>
    show splitAt1 ' ' (w ++ ' ' :: between (u :: ws)) = _
    rw [(split_run w fun c hc => (stripped_blank ((h w (by simp)).2 c hc).1).1).2, ih u fun q hq => h q (by simp [hq])]

theorem between_chars (ws : List Str) (h : ∀ u ∈ ws, Solid u) : ∀ c ∈ between ws, c ≠ '#' ∧ c ≠ '\n' := by
  induction ws with
  | nil => intro c hc; cases hc
  | cons w ws ih =>
    have hw : ∀ c ∈ w, c ≠ '#' ∧ c ≠ '\n' := fun c hc => ⟨((h w (by simp)).2 c hc).2, (stripped_blank ((h w (by simp)).2 c hc).1).2.2⟩
    cases ws with
    | nil => exact hw
    | cons u ws =>
      intro c hc
      have hc' : c ∈ w ++ ' ' :: between (u :: ws) := hc
      rcases List.mem_append.1 hc' with hc | hc
      · exact hw c hc
      · rcases List.mem_cons.1 hc with rfl | hc
        · decide
        · exact ih (fun q hq => h q (by simp [hq])) c hc

theorem between_ends (w : Str) (ws : List Str) (h : ∀ u ∈ w :: ws, Solid u) :
    (∃ c r, between (w :: ws) = c :: r ∧ stripped c = false) ∧ ∃ r c, between (w :: ws) = r ++ [c] ∧ stripped c = false := by
  constructor
  · obtain ⟨h1, h2⟩ := h w (by simp)
    cases w with
    | nil => exact absurd rfl h1
    | cons c w =>
      cases ws with
      | nil => exact ⟨c, w, rfl, (h2 c (by simp)).1⟩
      | cons u ws => exact ⟨c, w ++ ' ' :: between (u :: ws), rfl, (h2 c (by simp)).1⟩
  · induction ws generalizing w with
    | nil =>
      obtain ⟨h1, h2⟩ := h w (by simp)
      exact ⟨w.dropLast, w.getLast h1, (List.dropLast_append_getLast h1).symm, (h2 _ (List.getLast_mem h1)).1⟩
    | cons u ws ih =>
      obtain ⟨r, c, e, hc⟩ := ih u fun q hq => h q (by simp [hq])
      refine ⟨w ++ ' ' :: r, c, ?_, hc⟩
      show w ++ ' ' :: between (u :: ws) = _
      rw [e]
      simp

theorem take_all (p : Char → Bool) (l : Str) (h : ∀ c ∈ l, p c = true) : l.takeWhile p = l := by
  induction l with
  | nil => rfl
  | cons c l ih => rw [List.takeWhile_cons_of_pos (h c (by simp)), ih fun x hx => h x (by simp [hx])]

theorem cells_between (w : Str) (ws : List Str) (h : ∀ u ∈ w :: ws, Solid u) : cellsOf (between (w :: ws) ++ ['\n']) = w :: ws := by
  have h1 : (between (w :: ws) ++ ['\n']).takeWhile (· ≠ '#') = between (w :: ws) ++ ['\n'] := by
    refine take_all _ _ fun c hc => ?_
    rcases List.mem_append.1 hc with hc | hc
    · simpa using (between_chars _ h c hc).1
    · rw [List.mem_singleton.1 hc]
      decide
  have h2 : strip (between (w :: ws) ++ ['\n']) = between (w :: ws) := by
    obtain ⟨⟨c, r, e, hc⟩, ⟨r', c', e', hc'⟩⟩ := between_ends w ws h
    have k1 : (between (w :: ws) ++ ['\n']).dropWhile stripped = between (w :: ws) ++ ['\n'] := by
      rw [e, List.cons_append, List.dropWhile_cons_of_neg (by simp [hc])]
    have k2 : ((between (w :: ws) ++ ['\n']).reverse).dropWhile stripped = (between (w :: ws)).reverse := by
      rw [List.reverse_append, List.reverse_singleton, List.singleton_append, List.dropWhile_cons_of_pos (by decide), e', List.reverse_append,
        List.reverse_singleton, List.singleton_append, List.dropWhile_cons_of_neg (by simp [hc'])]
    rw [strip, k1, k2, List.reverse_reverse]
  rw [cellsOf, h1, h2]
  obtain ⟨c, r, e, -⟩ := (between_ends w ws h).1
  have := split_between w ws h
  rw [e] at this ⊢
  exact this

theorem lines_between (rows : List (List Str)) (h : ∀ r ∈ rows, ∀ u ∈ r, Solid u) :
    getlines ((rows.map fun r => between r ++ ['\n']).flatten) = rows.map fun r => between r ++ ['\n'] := by
  induction rows with
  | nil => rfl
  | cons r rows ih =>
    rw [List.map_cons, List.flatten_cons, List.append_assoc, List.singleton_append,
      getlines_line _ _ (fun hm => (between_chars r (h r (by simp)) _ hm).2 rfl), ih fun q hq => h q (by simp [hq])]

/-- Numbers with a blank between them are a row of a table. -/
theorem between_row (t : DecText) (ts : List DecText) (h : ∀ u ∈ t :: ts, u.Wf) :
    ∃ r : RowText, r.Wf (c!" ") ∧ r.nums = t :: ts ∧ r.text = between ((t :: ts).map DecText.text) := by
  have hcell : ∀ u : DecText, u.Wf → (Cell.mk [] u).Wf (c!" ") := fun u hu =>
    ⟨by simp [Blank], hu, fun x hx hd => Print.dec_clean u ' ' (.inl rfl) (by simpa [Cell.text, List.mem_singleton.1 hd] using hx)⟩
  have htext : (RowText.mk [] ⟨[], t⟩ (ts.map fun u => ([' '], ⟨[], u⟩)) []).text = between ((t :: ts).map DecText.text) := by
    clear h
    induction ts generalizing t with
    | nil => simp [RowText.text, Cell.text, between]
    | cons u ts ih =>
      have := ih u
      simp only [RowText.text, Cell.text, List.nil_append, List.map_cons, List.flatten_cons, List.append_assoc, List.append_nil] at this ⊢
      show _ = t.text ++ ' ' :: between (u.text :: ts.map DecText.text)
      rw [← this]
      simp
  refine ⟨⟨[], ⟨[], t⟩, ts.map fun u => ([' '], ⟨[], u⟩), []⟩, ⟨by simp, hcell t (h t (by simp)), ?_, by simp, ?_⟩, ?_, htext⟩
  · intro p hp
    obtain ⟨u, hu, rfl⟩ := List.mem_map.1 hp
    exact ⟨by simp, fun x hx => by simpa using hx, hcell u (h u (by simp [hu]))⟩
  · have key : ∀ x : Char, (x = '\n' ∨ x = '\x00' ∨ x = '\xff') → x ∉ between ((t :: ts).map DecText.text) := by
      intro x hx
      clear htext h
      induction ts generalizing t with
      | nil => exact Print.dec_clean t x (.inr hx)
      | cons u ts ih =>
        intro hm
        have hm' : x ∈ t.text ++ ' ' :: between ((u :: ts).map DecText.text) := hm
        rcases List.mem_append.1 hm' with h3 | h3
        · exact Print.dec_clean t x (.inr hx) h3
        · rcases List.mem_cons.1 h3 with rfl | h3
          · rcases hx with hx | hx | hx <;> exact absurd hx (by decide)
          · exact ih u h3
    rw [htext]
    exact ⟨key _ (.inl rfl), key _ (.inr (.inl rfl)), key _ (.inr (.inr rfl))⟩
  · simp [RowText.nums, Function.comp_def]

/-! ## Numbers -/

/-- A double that is a number. -/
def Finite (v : Double) : Prop := ∃ x, v = .fin x ∧ Binary64.Number x

/-- The text of a number with `p` decimals. -/
theorem text_exact (nan : Str) (p : Nat) (hp : 16 ≤ p) (v : Double) (hv : Finite v) :
    ∃ t : DecText, Print.special nan (Print.sciAt p) v = t.text ∧ t.Wf ∧ (t.dec.val : Double) = v := by
  obtain ⟨x, rfl, hx⟩ := hv
  obtain ⟨t, h1, h2, -, -, h3⟩ := Print.sciAt_text p x
  refine ⟨t, h1, h2, ?_⟩
  rw [Scripts.dec_val, Print.sciAt_exact p hp hx h3]
  rfl

/-- **C109.** A number printed with at least seventeen digits is read back as the same double, by whatever rounds decimal numbers correctly. -/
theorem seventeen_digits (flt : Str → Option Double) (hf : Scripts.Reads flt) (p : Nat) (hp : 16 ≤ p) (x : ℝ) (hx : Binary64.Number x) :
    flt (Print.sciAt p x) = some (.fin x) := by
  obtain ⟨t, h1, h2, h3⟩ := text_exact [] p hp (.fin x) ⟨x, rfl, hx⟩
  have h1' : Print.sciAt p x = t.text := h1
  rw [h1', hf t h2, h3]

theorem number_int (k : Int) (h : |k| ≤ 2 ^ 53) : Binary64.Number (k : ℝ) := (Binary64.number_iff _).2 (Rounding.binary64.rnd_int k h)

/-- A third, as a double. -/
theorem number_third : Binary64.Number (((6004799503160661 : Int) : ℝ) * 2 ^ (-54 : Int)) :=
  (Binary64.number_iff _).2 (Binary64.rnd_repr 6004799503160661 (-54) (by norm_num) (by norm_num) (by norm_num))

example : atof (F := Double) (fun _ => none) (Print.sciAt 18 (((6004799503160661 : Int) : ℝ) * 2 ^ (-54 : Int))) =
    .fin (((6004799503160661 : Int) : ℝ) * 2 ^ (-54 : Int)) :=
  Option.some.inj (seventeen_digits _ (Scripts.atof_reads _) 18 (by norm_num) _ number_third)

/-- **C109.** Sixteen digits are not enough: two doubles have the same text. -/
theorem sixteen_digits : ∃ x y : ℝ, Binary64.Number x ∧ Binary64.Number y ∧ x ≠ y ∧ Print.sciAt 15 x = Print.sciAt 15 y := by
  have r2 : Binary64.rnd (1 + 2 ^ (-52 : Int)) = .fin (1 + 2 ^ (-52 : Int)) := by
    have := Binary64.rnd_repr (2 ^ 52 + 1) (-52) (by norm_num) (by norm_num) (by norm_num)
    have e : (((2 ^ 52 + 1 : Int) : ℝ)) * 2 ^ (-52 : Int) = 1 + 2 ^ (-52 : Int) := by
      norm_num
    rwa [e] at this
  have hpos : (0 : ℝ) < 2 ^ (-52 : Int) := by positivity
  refine ⟨1, 1 + 2 ^ (-52 : Int), (Binary64.number_iff _).2 Binary64.rnd_one, (Binary64.number_iff _).2 r2, by linarith, ?_⟩
  have hsmall : (2 : ℝ) ^ (-52 : Int) ≤ 1 / 10 ^ 15 := by norm_num
  have hne : ¬ (1 : ℝ) + 2 ^ (-52 : Int) = 0 := by linarith
  have l1 : Print.lead 1 = 0 := Print.lead_exact 1 0 (by norm_num) (by norm_num)
  have hab : |(1 : ℝ) + 2 ^ (-52 : Int)| = 1 + 2 ^ (-52 : Int) := abs_of_pos (by positivity)
  have l2 : Print.lead (1 + 2 ^ (-52 : Int)) = 0 := by
    refine Print.lead_exact _ 0 ?_ ?_
    · rw [hab, zpow_zero]
      linarith
    · rw [hab, zero_add, zpow_one]
      norm_num
  have t1 : Print.digitsAt 15 1 = 10 ^ 15 := by
    rw [Print.digitsAt, l1]
    have : |(1 : ℝ)| / 10 ^ ((0 : Int) - (15 : Nat)) = ((10 ^ 15 : Nat) : ℝ) := by norm_num
    rw [this, Print.rne_nat]
  have t2 : Print.digitsAt 15 (1 + 2 ^ (-52 : Int)) = 10 ^ 15 := by
    rw [Print.digitsAt, l2, hab]
    have e : ((1 : ℝ) + 2 ^ (-52 : Int)) / 10 ^ ((0 : Int) - (15 : Nat)) = 10 ^ 15 + 2 ^ (-52 : Int) * 10 ^ 15 := by norm_num
    have hf : ⌊(10 : ℝ) ^ 15 + 2 ^ (-52 : Int) * 10 ^ 15⌋ = 10 ^ 15 := by
      rw [Int.floor_eq_iff]
      push_cast
      constructor
      · have : (0 : ℝ) ≤ 2 ^ (-52 : Int) * 10 ^ 15 := by positivity
        linarith
      · norm_num
    have : Binary64.rne ((10 : ℝ) ^ 15 + 2 ^ (-52 : Int) * 10 ^ 15) = 10 ^ 15 := by
      rw [Binary64.rne, hf, if_pos]
      norm_num
    rw [e, this]
    rfl
  have m1 : Print.mantAt 15 1 = Print.mantAt 15 (1 + 2 ^ (-52 : Int)) := by
    rw [Print.mantAt, Print.mantAt, t1, t2, if_neg one_ne_zero, if_neg hne]
  have e1 : Print.expoAt 15 1 = Print.expoAt 15 (1 + 2 ^ (-52 : Int)) := by
    rw [Print.expoAt, Print.expoAt, t1, t2, l1, l2, if_neg one_ne_zero, if_neg hne]
  rw [Print.sciAt, Print.sciAt, m1, e1, Print.sign, Print.sign, if_neg (by norm_num), if_neg (by linarith)]

/-- So no reader gets both of them back. -/
example (flt : Str → Option Double) : ∃ x : ℝ, Binary64.Number x ∧ flt (Print.sciAt 15 x) ≠ some (.fin x) := by
  obtain ⟨x, y, h1, h2, h3, h4⟩ := sixteen_digits
  by_cases h : flt (Print.sciAt 15 x) = some (.fin x)
  · exact ⟨y, h2, fun h' => h3 (XV.fin.inj (Option.some.inj (h.symm.trans (h4 ▸ h'))))⟩
  · exact ⟨x, h1, h⟩

/-! ## Tables -/

/-- The texts of the numbers of a table. -/
theorem texts_exact (nan : Str) (rows : List (List Double)) (h : ∀ r ∈ rows, ∀ v ∈ r, Finite v) :
    ∃ tss : List (List DecText), savetxt nan rows = (tss.map fun ts => between (ts.map DecText.text) ++ ['\n']).flatten ∧
      (∀ ts ∈ tss, ∀ t ∈ ts, t.Wf) ∧ (tss.map fun ts => ts.map fun t => (t.dec.val : Double)) = rows := by
  induction rows with
  | nil => exact ⟨[], rfl, by simp, rfl⟩
  | cons r rows ih =>
    obtain ⟨tss, h1, h2, h3⟩ := ih fun q hq => h q (by simp [hq])
    have hr : ∃ ts : List DecText, r.map (Print.special nan (Print.sciAt 18)) = ts.map DecText.text ∧ (∀ t ∈ ts, t.Wf) ∧ (ts.map fun t => (t.dec.val : Double)) = r := by
      have hr := h r (by simp)
      clear h ih h1 h2 h3
      induction r with
      | nil => exact ⟨[], rfl, by simp, rfl⟩
      | cons v r ih =>
        obtain ⟨ts, g1, g2, g3⟩ := ih fun q hq => hr q (by simp [hq])
        obtain ⟨t, k1, k2, k3⟩ := text_exact nan 18 (by norm_num) v (hr v (by simp))
        refine ⟨t :: ts, by simp [g1, k1], ?_, by simp [g3, k3]⟩
        intro u hu
        rcases List.mem_cons.1 hu with rfl | hu
        · exact k2
        · exact g2 u hu
    obtain ⟨ts, g1, g2, g3⟩ := hr
    refine ⟨ts :: tss, ?_, ?_, by simp [g3, h3]⟩
    · have e : savetxt nan (r :: rows) = (between (r.map (Print.special nan (Print.sciAt 18))) ++ ['\n']) ++ savetxt nan rows := rfl
      rw [e, h1, g1]
      rfl
    · intro us hu
      rcases List.mem_cons.1 hu with rfl | hu
      · exact g2
      · exact h2 us hu

/-- Two rows of a table: a third and -5, 0 and 7. -/
noncomputable def demoRows : List (Double × Double) := [(.fin (((6004799503160661 : Int) : ℝ) * 2 ^ (-54 : Int)), .fin ((-5 : Int) : ℝ)), (.fin ((0 : Int) : ℝ), .fin ((7 : Int) : ℝ))]

theorem demo_finite : ∀ p ∈ demoRows, Finite p.1 ∧ Finite p.2 := by
  intro p hp
  rcases List.mem_cons.1 hp with rfl | hp
  · exact ⟨⟨_, rfl, number_third⟩, ⟨_, rfl, number_int _ (by norm_num)⟩⟩
  · rw [List.mem_singleton.1 hp]
    exact ⟨⟨_, rfl, number_int _ (by norm_num)⟩, ⟨_, rfl, number_int _ (by norm_num)⟩⟩

theorem demo_rows : ∀ r ∈ demoRows.map fun p => [p.1, p.2], r.length = 2 ∧ ∀ v ∈ r, Finite v := by
  intro r hr
  obtain ⟨p, hp, rfl⟩ := List.mem_map.1 hr
  refine ⟨rfl, fun v hv => ?_⟩
  rcases List.mem_cons.1 hv with rfl | hv
  · exact (demo_finite p hp).1
  · rw [List.mem_singleton.1 hv]
    exact (demo_finite p hp).2

/-- **C109.** A table of doubles saved with `np.savetxt` is read by the program's data reader as the same table: as many lines as rows, and the same doubles. -/
theorem savetxt_program (other : Str → Option Double) (nan : Str) (ndim : Nat) (hn : 0 < ndim) (rows : List (List Double))
    (h : ∀ r ∈ rows, r.length = ndim ∧ ∀ v ∈ r, Finite v) :
    (dataFile other (c!" ") ndim (savetxt nan rows)).cells = .ok rows.flatten ∧ (dataFile other (c!" ") ndim (savetxt nan rows)).nlines = rows.length := by
  obtain ⟨tss, h1, h2, h3⟩ := texts_exact nan rows fun r hr => (h r hr).2
  rw [h1]
  have hlen : ∀ ts ∈ tss, ts.length = ndim := by
    intro ts hts
    have := (h (ts.map fun t => (t.dec.val : Double)) (by rw [← h3]; exact List.mem_map_of_mem hts)).1
    simpa using this
  have hall : ∃ qs : List RowText, (∀ q ∈ qs, q.Wf (c!" ") ∧ q.nums.length = ndim) ∧
      (qs.map fun q => q.text ++ ['\n']) = (tss.map fun ts => between (ts.map DecText.text) ++ ['\n']) ∧ qs.map RowText.nums = tss := by
    clear h1 h3 h
    induction tss with
    | nil => exact ⟨[], by simp, rfl, rfl⟩
    | cons ts tss ih =>
      obtain ⟨qs, g1, g2, g3⟩ := ih (fun r hr => h2 r (by simp [hr])) (fun r hr => hlen r (by simp [hr]))
      have hl := hlen ts (by simp)
      cases ts with
      | nil => simp at hl; omega
      | cons t ts =>
        obtain ⟨q, k1, k2, k3⟩ := between_row t ts (h2 _ (by simp))
        refine ⟨q :: qs, ?_, by simp only [List.map_cons, g2, k3], by simp [g3, k2]⟩
        intro q' hq
        rcases List.mem_cons.1 hq with rfl | hq
        · exact ⟨k1, by rw [k2]; exact hl⟩
        · exact g1 q' hq
  obtain ⟨qs, g1, g2, g3⟩ := hall
  obtain ⟨cells, k1, k2, k3, k4⟩ := table_round_trip (F := Double) other (c!" ") ndim qs g1
  rw [g2] at k1 k2
  have hq : qs.length = rows.length := by rw [← h3, ← g3]; simp
  refine ⟨?_, by rw [k2, hq]⟩
  have e : (qs.flatMap fun r => r.nums.map fun d => (d.dec.val : Double)) = rows.flatten := by
    rw [← h3, ← g3, List.map_map, List.flatMap_def]
    rfl
  have hl : getlines ((tss.map fun ts => between (ts.map DecText.text) ++ ['\n']).flatten) = qs.map fun q => q.text ++ ['\n'] := by
    rw [g2]
    have := lines_between (tss.map fun ts => ts.map DecText.text) (by
      intro r hr u hu
      obtain ⟨ts, hts, rfl⟩ := List.mem_map.1 hr
      obtain ⟨t, ht, rfl⟩ := List.mem_map.1 hu
      exact solid_dec t (h2 ts hts t ht))
    rw [List.map_map] at this
    exact this
  rw [← e]
  have hn' : (dataFile other (c!" ") ndim ((tss.map fun ts => between (ts.map DecText.text) ++ ['\n']).flatten)).nlines = qs.length := k2
  simp only [dataFile] at hn' ⊢
  rw [hl]
  exact readRows_table other _ ndim _ qs 0 g1 (by rw [hn']; simp)

example : (dataFile (fun _ => none) (c!" ") 2 (savetxt (c!"nan") (demoRows.map fun p => [p.1, p.2]))).cells =
    .ok [(.fin (((6004799503160661 : Int) : ℝ) * 2 ^ (-54 : Int)) : Double), .fin ((-5 : Int) : ℝ), .fin ((0 : Int) : ℝ), .fin ((7 : Int) : ℝ)] :=
  (savetxt_program _ _ 2 (by norm_num) _ demo_rows).1

/-- **C109.** `np.genfromtxt` makes the same table of it. -/
theorem savetxt_genfromtxt (flt : Str → Option Double) (hf : Scripts.Reads flt) (nan : Str) (ndim : Nat) (hn : 0 < ndim) (rows : List (List Double))
    (h : ∀ r ∈ rows, r.length = ndim ∧ ∀ v ∈ r, Finite v) : genfromtxt flt (savetxt nan rows) = some rows := by
  obtain ⟨tss, h1, h2, h3⟩ := texts_exact nan rows fun r hr => (h r hr).2
  have hlen : ∀ ts ∈ tss, ts.length = ndim := by
    intro ts hts
    have := (h (ts.map fun t => (t.dec.val : Double)) (by rw [← h3]; exact List.mem_map_of_mem hts)).1
    simpa using this
  have hl : (getlines (savetxt nan rows)).map cellsOf = tss.map fun ts => ts.map DecText.text := by
    have := lines_between (tss.map fun ts => ts.map DecText.text) (by
      intro r hr u hu
      obtain ⟨ts, hts, rfl⟩ := List.mem_map.1 hr
      obtain ⟨t, ht, rfl⟩ := List.mem_map.1 hu
      exact solid_dec t (h2 ts hts t ht))
    rw [List.map_map] at this
    rw [h1]
    have this' : getlines ((tss.map fun ts => between (ts.map DecText.text) ++ ['\n']).flatten) = tss.map fun ts => between (ts.map DecText.text) ++ ['\n'] := this
    rw [this', List.map_map]
    refine List.map_congr_left fun ts hts => ?_
    have hl := hlen ts hts
    cases ts with
    | nil => simp at hl; omega
    | cons t ts =>
      exact cells_between _ _ (by
        intro u hu
        have hu' : u ∈ (t :: ts).map DecText.text := hu
        obtain ⟨w, hw, rfl⟩ := List.mem_map.1 hu'
        exact solid_dec w (h2 _ hts w hw))
  have hfil : ((getlines (savetxt nan rows)).map cellsOf).filter (fun r => !r.isEmpty) = tss.map fun ts => ts.map DecText.text := by
    rw [hl, List.filter_eq_self]
    intro r hr
    obtain ⟨ts, hts, rfl⟩ := List.mem_map.1 hr
    have hl := hlen ts hts
    cases ts with
    | nil => simp at hl; omega
    | cons t ts => rfl
  have hall : (tss.map fun ts => ts.map DecText.text).all (fun r => r.length == ((tss.map fun ts => ts.map DecText.text).headD []).length) = true := by
    rw [List.all_eq_true]
    intro r hr
    obtain ⟨ts, hts, rfl⟩ := List.mem_map.1 hr
    cases htss : tss with
    | nil => rw [htss] at hts; cases hts
    | cons u us => simp [hlen ts hts, hlen u (by simp [htss])]
  have hread : ∀ ts : List DecText, (∀ t ∈ ts, t.Wf) → (ts.map DecText.text).mapM flt = some (ts.map fun t => (t.dec.val : Double)) := by
    intro ts hts
    induction ts with
    | nil => rfl
    | cons t ts ih =>
      rw [List.map_cons, List.mapM_cons, hf t (hts t (by simp)), ih fun u hu => hts u (by simp [hu])]
      rfl
  have hrows : (tss.map fun ts => ts.map DecText.text).mapM (fun r => r.mapM flt) = some (tss.map fun ts => ts.map fun t => (t.dec.val : Double)) := by
    clear h1 h3 h hl hfil hall hlen
    induction tss with
    | nil => rfl
    | cons ts tss ih =>
      rw [List.map_cons, List.mapM_cons, hread ts (h2 ts (by simp)), ih fun u hu => h2 u (by simp [hu])]
      rfl
  unfold genfromtxt
  simp only [hfil, hall, if_true, hrows, h3]

example : genfromtxt (fun s => some (atof (fun _ => none) s)) (savetxt (c!"nan") (demoRows.map fun p => [p.1, p.2])) = some (demoRows.map fun p => [p.1, p.2]) :=
  savetxt_genfromtxt _ (Scripts.atof_reads _) _ 2 (by norm_num) _ demo_rows

/-- **C109.** With two columns and at least two rows, the comparison script has the points that were saved. -/
theorem savetxt_points (flt : Str → Option Double) (hf : Scripts.Reads flt) (nan : Str) (pts : List (Double × Double)) (h : ∀ p ∈ pts, Finite p.1 ∧ Finite p.2)
    (h2 : 2 ≤ pts.length) : points flt (savetxt nan (pts.map fun p => [p.1, p.2])) = some pts := by
  have hg := savetxt_genfromtxt flt hf nan 2 (by norm_num) (pts.map fun p => [p.1, p.2]) (by
    intro r hr
    obtain ⟨p, hp, rfl⟩ := List.mem_map.1 hr
    refine ⟨rfl, fun v hv => ?_⟩
    rcases List.mem_cons.1 hv with rfl | hv
    · exact (h p hp).1
    · rw [List.mem_singleton.1 hv]
      exact (h p hp).2)
  have hm : ∀ l : List (Double × Double), (l.map fun p => [p.1, p.2]).mapM firstTwo = some l := by
    intro l
    induction l with
    | nil => rfl
    | cons p l ih =>
      rw [List.map_cons, List.mapM_cons, ih]
      rfl
  unfold points
  rw [hg]
  show (if (pts.map fun p => [p.1, p.2]).length ≤ 1 then none else _) = _
  rw [if_neg (by rw [List.length_map]; omega)]
  exact hm pts

example : points (fun s => some (atof (fun _ => none) s)) (savetxt (c!"nan") (demoRows.map fun p => [p.1, p.2])) = some demoRows :=
  savetxt_points _ (Scripts.atof_reads _) _ _ demo_finite (by decide)

/-! ## The simulated data -/

theorem rnd_number {z y : ℝ} (h : Binary64.rnd z = .fin y) : Binary64.Number y := by
  obtain ⟨h1, h2⟩ := Binary64.rnd_eq_fin h
  refine (Binary64.number_iff y).2 ?_
  have h3 := Binary64.round53_idem z
  rw [h1] at h2 h3
  rw [Binary64.rnd_fin (by rwa [h3]), h3]

theorem finite_mul {v w : Double} {a b c d e f : Int} (hv : Within v a b) (hw : Within w c d) (h : Within (v *. w) e f) : Finite (v *. w) := by
  obtain ⟨x, rfl, -⟩ := hv
  obtain ⟨y, rfl, -⟩ := hw
  obtain ⟨z, hz, -⟩ := h
  exact ⟨z, hz, rnd_number (z := x * y) hz⟩

theorem finite_add {v w : Double} {a b c d e f : Int} (hv : Within v a b) (hw : Within w c d) (h : Within (v +. w) e f) : Finite (v +. w) := by
  obtain ⟨x, rfl, -⟩ := hv
  obtain ⟨y, rfl, -⟩ := hw
  obtain ⟨z, hz, -⟩ := h
  exact ⟨z, hz, rnd_number (z := x + y) hz⟩

/-- The numbers of a simulated row. -/
theorem simulated_finite (u g : Double) (hu : Within u 0 1) (hg : Within g (-1024) 1024) :
    Finite (u *. ofI 10) ∧ Finite ((u *. ofI 10) *. Arith.lit 7 2 +. ofI 4 +. g *. ofI 2) := by
  have h10 := Within.int 10 (by norm_num)
  have h4 := Within.int 4 (by norm_num)
  have h2 := Within.int 2 (by norm_num)
  have h35 : Within (Arith.lit 7 2 : Double) 3 4 := Within.of_rnd (y := ((7 : Int) : ℝ) / ((2 : Nat) : ℝ)) (by norm_num) (by norm_num) (by norm_num) (by norm_num)
  have x1 := (hu.wider (c := -1) (d := 1) (by norm_num) (by norm_num)).mul (h10.wider (c := -10) (d := 10) (by norm_num) (by norm_num)) (by norm_num)
  have y1 := x1.mul (h35.wider (c := -4) (d := 4) (by norm_num) (by norm_num)) (by norm_num)
  have y2 := y1.add h4 (by norm_num) (by norm_num)
  have n1 := hg.mul (h2.wider (c := -2) (d := 2) (by norm_num) (by norm_num)) (by norm_num)
  have z := y2.add n1 (by norm_num) (by norm_num)
  exact ⟨finite_mul hu h10 x1, finite_add y2 n1 z⟩

/-- **C109.** The simulated data reach both samplers without loss: for uniform numbers from 0 to 1 and normal ones of at most 1024, as many rows as numbers, the program's
reader has a table of the doubles computed by simulate_data.py, the script emcee_lin_reg.py has the same points, and with the ranges of the sample the log-probability
of the script at a point within them is the log-posterior that the program computes at inverse temperature 1. -/
theorem simulated_data (other flt : Str → Option Double) (hf : Scripts.Reads flt) (nan : Str) (us gs : List Double) (hlen : gs.length = us.length) (h2 : 2 ≤ us.length)
    (hu : ∀ u ∈ us, Within u 0 1) (hg : ∀ g ∈ gs, Within g (-1024) 1024) :
    ∃ (pts : List (Double × Double)) (cells : List Double),
      points flt (xyDat nan us gs) = some pts ∧
      (dataFile other (c!" ") 2 (xyDat nan us gs)).cells = .ok cells ∧ (dataFile other (c!" ") 2 (xyDat nan us gs)).nlines = us.length ∧
      pts.length = us.length ∧ cells.length = us.length * 2 ∧
      (∀ (i : Nat) (u g : Double), us[i]? = some u → gs[i]? = some g →
        pts[i]? = some (u *. ofI 10, u *. ofI 10 *. Arith.lit 7 2 +. ofI 4 +. g *. ofI 2) ∧
        cells[i * 2]? = some (u *. ofI 10) ∧ cells[i * 2 + 1]? = some (u *. ofI 10 *. Arith.lit 7 2 +. ofI 4 +. g *. ofI 2)) ∧
      ∀ (cfg : Cfg Double), cfg.user = regression.user (boundsOf Double Samples.regressionSample.ranges) 2 → ∀ a b d : Double,
        ((ofI (-20) : Double) <. a) = true ∧ (a <. ofI 20) = true → ((ofI (-50) : Double) <. b) = true ∧ (b <. ofI 50) = true →
        ((Arith.lit 1 100 : Double) <. d) = true ∧ (d <. ofI 30) = true →
        Compare.linReg (ofI (-20), ofI 20) (ofI (-50), ofI 50) (Arith.lit 1 100, ofI 30) pts a b d = logPost cfg [a, b, d] us.length cells (ofI 1) := by
  let f : Double → Double → Double × Double := fun u g => (u *. ofI 10, u *. ofI 10 *. Arith.lit 7 2 +. ofI 4 +. g *. ofI 2)
  have hpl : (List.zipWith f us gs).length = us.length := by rw [List.length_zipWith]; omega
  have hrows : xyDat nan us gs = savetxt nan ((List.zipWith f us gs).map fun p => [p.1, p.2]) := by
    rw [xyDat, List.map_zipWith]
    rfl
  have hfin : ∀ p ∈ List.zipWith f us gs, Finite p.1 ∧ Finite p.2 := by
    intro p hp
    obtain ⟨i, hi, rfl⟩ := List.mem_iff_getElem.1 hp
    rw [List.getElem_zipWith]
    exact simulated_finite _ _ (hu _ (List.getElem_mem _)) (hg _ (List.getElem_mem _))
  have hprog := savetxt_program other nan 2 (by norm_num) ((List.zipWith f us gs).map fun p => [p.1, p.2]) (by
    intro r hr
    obtain ⟨p, hp, rfl⟩ := List.mem_map.1 hr
    refine ⟨rfl, fun v hv => ?_⟩
    rcases List.mem_cons.1 hv with rfl | hv
    · exact (hfin p hp).1
    · rw [List.mem_singleton.1 hv]
      exact (hfin p hp).2)
  rw [← hrows, ← List.flatMap_def, List.length_map, hpl] at hprog
  have hcell : ∀ (l : List (Double × Double)), (l.flatMap fun p => [p.1, p.2]).length = l.length * 2 ∧
      ∀ i p, l[i]? = some p → (l.flatMap fun p => [p.1, p.2])[i * 2]? = some p.1 ∧ (l.flatMap fun p => [p.1, p.2])[i * 2 + 1]? = some p.2 := by
    intro l
    induction l with
    | nil => exact ⟨rfl, by simp⟩
    | cons q l ih =>
      refine ⟨by simp [ih.1]; omega, fun i p hp => ?_⟩
      cases i with
      | zero =>
        have : q = p := by simpa using hp
        subst this
        exact ⟨rfl, rfl⟩
      | succ i =>
        rw [Nat.succ_mul]
        exact ih.2 i p (by simpa using hp)
  refine ⟨List.zipWith f us gs, _, ?_, hprog.1, hprog.2, hpl, by rw [(hcell _).1, hpl], ?_, ?_⟩
  · rw [hrows]
    exact savetxt_points flt hf nan _ hfin (by omega)
  · intro i u g h1 h3
    have hp : (List.zipWith f us gs)[i]? = some (f u g) := by
      rw [List.getElem?_zipWith, h1, h3]
    exact ⟨hp, (hcell _).2 i _ hp⟩
  · intro cfg hc a b d ha hb hd
    have := Compare.linReg_sample cfg hc (List.zipWith f us gs) a b d ha hb hd
    rw [hpl] at this
    exact this

example : ∃ pts : List (Double × Double), points (fun s => some (atof (fun _ => none) s)) (xyDat (R := Rounding.binary64) (c!"nan") [.fin (1 / 2), .fin (1 / 4)]
    [.fin (-1), .fin 2]) = some pts ∧ pts.length = 2 := by
  obtain ⟨pts, cells, h1, -, -, h2, -⟩ := simulated_data (fun _ => none) (fun s => some (atof (fun _ => none) s)) (Scripts.atof_reads _) (c!"nan")
    [.fin (1 / 2), .fin (1 / 4)] [.fin (-1), .fin 2] rfl (by decide)
    (by
      intro u hu
      rcases List.mem_cons.1 hu with rfl | hu
      · exact ⟨_, rfl, by norm_num, by norm_num⟩
      · rw [List.mem_singleton.1 hu]
        exact ⟨_, rfl, by norm_num, by norm_num⟩)
    (by
      intro u hu
      rcases List.mem_cons.1 hu with rfl | hu
      · exact ⟨_, rfl, by norm_num, by norm_num⟩
      · rw [List.mem_singleton.1 hu]
        exact ⟨_, rfl, by norm_num, by norm_num⟩)
  exact ⟨pts, h1, h2⟩

end Numpy
end NiiC
