import Verif.Model.Scripts
import Verif.Props.Print
import Verif.Props.IniFile
import Verif.Props.Prior

/-!
# Properties of the scripts that work on chain files (C89, C90)

C89: `merge_lines.py` writes the rows that differ from the row before, so its output depends on the sequence of points visited but not on how long the chain stayed at
each: frequencies in the merged file are not frequencies in the chain. C90: `sampling_static.py` counts the rows of each cell of its grid as long as all rows are below
the upper ends of the box; rows at the upper end of the second parameter are counted in a cell at the other side, one at the upper end of the first stops the script.
-/

set_option linter.unusedSectionVars false

namespace NiiC
open Spec
namespace Scripts

/-! ## Lines of numbers -/

/-- Reading of decimal numbers: the nearest double, as for a constant of the program. -/
def Reads {F : Type} [Arith F] (flt : Str → Option F) : Prop := ∀ t : DecText, t.Wf → flt t.text = some t.dec.val

/-- A line as the program prints them: two blanks behind each number. -/
def lineText (r : List DecText) : Str := (r.map fun u => u.text ++ c!"  ").flatten ++ ['\n']

theorem dec_text_ne (t : DecText) (h : t.Wf) : t.text ≠ [] := by
  intro he
  simp only [DecText.text, List.append_eq_nil_iff] at he
  obtain ⟨⟨⟨-, h1⟩, h2⟩, -⟩ := he
  rcases h.some_digit with hd | hd
  · exact hd (List.map_eq_nil_iff.1 h1)
  · cases ht : t.decimals with
    | none => simp [ht] at hd
    | some ds => simp [ht] at h2

theorem dec_no_blank (t : DecText) : ∀ c ∈ t.text, c ∉ blanks := by
  intro c hc hb
  have := Print.dec_chars t c hc
  simp only [blanks, List.mem_cons, List.not_mem_nil, or_false] at hb
  rcases hb with rfl | rfl | rfl | rfl | rfl | rfl <;> exact absurd this (by decide)

theorem split_line (r : List DecText) (h : ∀ u ∈ r, u.Wf) : split (lineText r) = r.map DecText.text := by
  unfold split lineText
  induction r with
  | nil => decide
  | cons t r ih =>
    rw [List.map_cons, List.flatten_cons, List.map_cons, List.append_assoc, List.append_assoc]
    show tokens blanks (t.text ++ ' ' :: (' ' :: _)) = _
    rw [tokens_run_cons _ _ _ _ (dec_text_ne t (h t (by simp))) (dec_no_blank t) (by decide), tokens_delim _ _ _ (by decide)]
    exact congrArg _ (ih fun u hu => h u (by simp [hu]))

theorem cells_line {F : Type} [Arith F] {flt : Str → Option F} (hf : Reads flt) (a b : DecText) (r : List DecText) (h : ∀ u ∈ a :: b :: r, u.Wf) :
    cells flt 2 (split (lineText (a :: b :: r))) = some [a.dec.val, b.dec.val] := by
  rw [split_line _ h]
  simp [cells, hf a (h a (by simp)), hf b (h b (by simp))]

theorem line_no_newline (r : List DecText) : '\n' ∉ (r.map fun u => u.text ++ c!"  ").flatten := by
  intro h
  obtain ⟨l, hl, hc⟩ := List.mem_flatten.1 h
  obtain ⟨u, _, rfl⟩ := List.mem_map.1 hl
  rcases List.mem_append.1 hc with h | h
  · exact Print.dec_clean u '\n' (.inr (.inl rfl)) h
  · simp at h

theorem lines_text (rows : List (List DecText)) : getlines ((rows.map lineText).flatten) = rows.map lineText := by
  induction rows with
  | nil => rfl
  | cons r rows ih =>
    rw [List.map_cons, List.flatten_cons]
    show getlines (((r.map fun u => u.text ++ c!"  ").flatten ++ ['\n']) ++ _) = _
    rw [List.append_assoc, List.singleton_append, getlines_line _ _ (line_no_newline r), ih]
    rfl

/-! ## Differences of doubles -/

/-- Two different doubles have a difference that is not rounded to zero. -/
theorem sub_ne_zero {a b : ℝ} (ha : Binary64.Number a) (hb : Binary64.Number b) (h : a ≠ b) : Binary64.rnd (a - b) ≠ .fin 0 := by
  obtain ⟨⟨m, e, h1, -, h2⟩, -⟩ := ha
  obtain ⟨⟨m', e', h1', -, h2'⟩, -⟩ := hb
  have key : ∀ (m e : Int), -1074 ≤ e → ∃ k : Int, (m : ℝ) * 2 ^ e = k * 2 ^ (-1074 : Int) := by
    intro m e he
    refine ⟨m * 2 ^ (e + 1074).toNat, ?_⟩
    rw [Int.cast_mul, Binary64.zpow_int (by omega), mul_assoc, ← zpow_add₀ (by norm_num)]
    congr 2
    ring
  obtain ⟨k, hk⟩ := key m e h2
  obtain ⟨k', hk'⟩ := key m' e' h2'
  have hd : a - b = ((k - k' : Int) : ℝ) * 2 ^ (-1074 : Int) := by
    rw [h1, hk, h1', hk']
    push_cast
    ring
  have hp : (0 : ℝ) < 2 ^ (-1074 : Int) := Binary64.two_zpow_pos _
  have hlt : (2 : ℝ) ^ (-1075 : Int) < 2 ^ (-1074 : Int) := zpow_lt_zpow_right₀ (by norm_num) (by norm_num)
  have hkk : k - k' ≠ 0 := by
    intro h0
    rw [h0] at hd
    simp only [Int.cast_zero, zero_mul] at hd
    exact h (by linarith)
  intro hz
  have hr := (Binary64.rnd_eq_fin hz).1
  rcases lt_or_gt_of_ne hkk with hneg | hpos
  · have : (1 : ℝ) ≤ ((-(k - k') : Int) : ℝ) := by exact_mod_cast (by omega)
    have hx : (2 : ℝ) ^ (-1075 : Int) < -(a - b) := by
      rw [hd]
      push_cast at this ⊢
      nlinarith
    have := Binary64.round53_pos hx
    rw [Binary64.round53_neg, hr] at this
    linarith
  · have : (1 : ℝ) ≤ ((k - k' : Int) : ℝ) := by exact_mod_cast (by omega)
    have hx : (2 : ℝ) ^ (-1075 : Int) < a - b := by
      rw [hd]
      nlinarith
    have := Binary64.round53_pos hx
    rw [hr] at this
    linarith

/-- Zero, a positive double or plus infinity. -/
def NonNeg (v : Double) : Prop := v = .pinf ∨ ∃ x : ℝ, 0 ≤ x ∧ Binary64.Number x ∧ v = .fin x

theorem rnd_nonNeg {x : ℝ} (h : 0 ≤ x) : NonNeg (Binary64.rnd x) := by
  have h1 := Binary64.rnd_nonneg h
  cases hr : Binary64.rnd x with
  | nan => exact absurd hr (Binary64.rnd_ne_nan x)
  | ninf => rw [hr] at h1; exact absurd h1 (fun h => h)
  | pinf => exact .inl rfl
  | fin y =>
    rw [hr] at h1
    exact .inr ⟨y, h1, (Binary64.number_iff y).2 (Rounding.binary64.rnd_idem x y hr), rfl⟩

/-- The absolute difference of two doubles is positive exactly when they differ. -/
theorem abs_sub (a b : ℝ) (ha : Binary64.Number a) (hb : Binary64.Number b) :
    NonNeg (Arith.fabs ((.fin a : Double) -. .fin b)) ∧ (XV.Lt (.fin 0) (Arith.fabs (F := Double) ((.fin a : Double) -. .fin b)) ↔ a ≠ b) := by
  have e : ((.fin a : Double) -. .fin b) = Binary64.rnd (a - b) := by
    show Binary64.rnd (a + -b) = _
    rw [sub_eq_add_neg]
  rw [e]
  by_cases hab : a = b
  · subst hab
    rw [sub_self, Binary64.rnd_zero]
    have : (Arith.fabs (F := Double) (XV.fin 0)) = XV.fin 0 := congrArg XV.fin abs_zero
    rw [this]
    refine ⟨.inr ⟨0, le_rfl, (Binary64.number_iff 0).2 Binary64.rnd_zero, rfl⟩, ?_⟩
    show (0 : ℝ) < 0 ↔ _
    simp
  · have hz := sub_ne_zero ha hb hab
    cases hr : Binary64.rnd (a - b) with
    | nan => exact absurd hr (Binary64.rnd_ne_nan _)
    | ninf => exact ⟨.inl rfl, fun _ => hab, fun _ => trivial⟩
    | pinf => exact ⟨.inl rfl, fun _ => hab, fun _ => trivial⟩
    | fin y =>
      have hn : Binary64.rnd y = .fin y := Rounding.binary64.rnd_idem _ y hr
      have hy : y ≠ 0 := fun h => hz (by rw [hr, h])
      refine ⟨.inr ⟨|y|, abs_nonneg y, (Binary64.number_iff _).2 ?_, rfl⟩, fun _ => hab, fun _ => (abs_pos.2 hy : (0 : ℝ) < |y|)⟩
      rcases abs_cases y with ⟨h, -⟩ | ⟨h, -⟩ <;> rw [h]
      · exact hn
      · exact Rounding.binary64.rnd_neg y hn

theorem add_nonNeg {u v : Double} (hu : NonNeg u) (hv : NonNeg v) :
    NonNeg (u +. v) ∧ (XV.Lt (.fin 0) (Arith.add (F := Double) u v) ↔ XV.Lt (.fin 0) u ∨ XV.Lt (.fin 0) v) := by
  rcases hu with rfl | ⟨x, hx, nx, rfl⟩ <;> rcases hv with rfl | ⟨y, hy, ny, rfl⟩
  · exact ⟨.inl rfl, fun _ => .inl trivial, fun _ => trivial⟩
  · exact ⟨.inl rfl, fun _ => .inl trivial, fun _ => trivial⟩
  · exact ⟨.inl rfl, fun _ => .inr trivial, fun _ => trivial⟩
  · show NonNeg (Binary64.rnd (x + y)) ∧ (XV.Lt (.fin 0) (Binary64.rnd (x + y)) ↔ (0 : ℝ) < x ∨ (0 : ℝ) < y)
    refine ⟨rnd_nonNeg (by linarith), fun h => ?_, fun h => ?_⟩
    · by_contra hc
      simp only [not_or, not_lt] at hc
      have : x + y = 0 := by linarith [hc.1, hc.2]
      rw [this, Binary64.rnd_zero] at h
      exact absurd (show (0 : ℝ) < 0 from h) (lt_irrefl _)
    · have key : ∀ z, 0 < z → z ≤ x + y → Binary64.Number z → XV.Lt (.fin 0) (Binary64.rnd (x + y)) := by
        intro z hz hle hn
        have h1 := Binary64.rnd_mono hle
        rw [(Binary64.number_iff z).1 hn] at h1
        cases hr : Binary64.rnd (x + y) with
        | nan => exact absurd hr (Binary64.rnd_ne_nan _)
        | ninf => rw [hr] at h1; exact absurd h1 (fun h => h)
        | pinf => trivial
        | fin w =>
          rw [hr] at h1
          exact lt_of_lt_of_le hz (show z ≤ w from h1)
      rcases h with h | h
      · exact key x h (by linarith) nx
      · exact key y h (by linarith) ny

/-- What the script takes for a difference is a difference in one of the two numbers. -/
theorem differs_iff (a b c d : ℝ) (ha : Binary64.Number a) (hb : Binary64.Number b) (hc : Binary64.Number c) (hd : Binary64.Number d) :
    differs [(.fin a : Double), .fin b] [.fin c, .fin d] = true ↔ a ≠ c ∨ b ≠ d := by
  obtain ⟨h1, g1⟩ := abs_sub a c ha hc
  obtain ⟨h2, g2⟩ := abs_sub b d hb hd
  have h0 : (Arith.lit 0 1 : Double) = .fin 0 := by
    show Binary64.rnd _ = _
    simp [Binary64.rnd_zero]
    rfl
  have n0 : NonNeg (XV.fin 0) := .inr ⟨0, le_rfl, (Binary64.number_iff 0).2 Binary64.rnd_zero, rfl⟩
  obtain ⟨h3, g3⟩ := add_nonNeg n0 h1
  obtain ⟨-, g4⟩ := add_nonNeg h3 h2
  have e : differs [(.fin a : Double), .fin b] [.fin c, .fin d] =
      ((.fin 0 : Double) <. (((.fin 0 : Double) +. Arith.fabs ((.fin a : Double) -. .fin c)) +. Arith.fabs ((.fin b : Double) -. .fin d))) := by
    rw [differs, h0]
    rfl
  rw [e, Dbl.lt_iff]
  have z0 : ¬ XV.Lt (.fin 0) (.fin 0) := fun h => lt_irrefl (0 : ℝ) h
  exact g4.trans (by rw [g2, g3, g1]; simp [z0])

/-! ## merge_lines.py -/

/-- The two parameters on a line, as read. -/
noncomputable def point : List DecText → Double × Double
  | a :: b :: _ => (a.dec.val, b.dec.val)
  | _ => (.nan, .nan)

/-- A line of numbers, the first two of which are not too large for a double. -/
structure Good (r : List DecText) : Prop where
  wf : ∀ u ∈ r, u.Wf
  finite : ∃ x y : ℝ, point r = (.fin x, .fin y)

open Classical in
/-- The elements of a list that are not related to the one before: the spec of "rows that differ from the row before". -/
noncomputable def moves {α : Type} (same : α → α → Prop) (l : List α) : List α := ((l.zip l.tail).filter fun p => ¬ same p.1 p.2).map Prod.snd

/-- Every element of a list, repeated. -/
def stay {α : Type} (l : List (α × Nat)) : List α := l.flatMap fun p => List.replicate (p.2 + 1) p.1

open Classical in
theorem moves_cons {α : Type} (same : α → α → Prop) (a b : α) (l : List α) :
    moves same (a :: b :: l) = if same a b then moves same (b :: l) else b :: moves same (b :: l) := by
  simp only [moves, List.tail_cons, List.zip_cons_cons, List.filter_cons]
  by_cases h : same a b <;> simp [h]

theorem moves_stay {α : Type} (same : α → α → Prop) (hs : ∀ a, same a a) (l : List (α × Nat)) : moves same (stay l) = moves same (l.map Prod.fst) := by
  have rep : ∀ (a : α) (k : Nat) (t : List α), moves same (List.replicate (k + 1) a ++ t) = moves same (a :: t) := by
    intro a k t
    induction k with
    | zero => rfl
    | succ k ih =>
      rw [List.replicate_succ, List.cons_append]
      rw [List.replicate_succ, List.cons_append] at ih ⊢
      rw [moves_cons, if_pos (hs a), ih]
  have hd : ∀ (a b : α) (l l' : List α), moves same (b :: l) = moves same (b :: l') → moves same (a :: b :: l) = moves same (a :: b :: l') := by
    intro a b l l' h
    rw [moves_cons, moves_cons, h]
  induction l with
  | nil => rfl
  | cons p l ih =>
    have e : stay (p :: l) = List.replicate (p.2 + 1) p.1 ++ stay l := by simp [stay]
    rw [e, rep, List.map_cons]
    cases l with
    | nil => rfl
    | cons q l =>
      have e' : stay (q :: l) = q.1 :: (List.replicate q.2 q.1 ++ stay l) := by simp [stay, List.replicate_succ]
      rw [e'] at ih ⊢
      rw [List.map_cons] at ih ⊢
      exact hd _ _ _ _ ih

theorem val_number (d : Dec) (x : ℝ) (h : (d.val : Double) = .fin x) : Binary64.Number x := by
  have key : ∃ y : ℝ, (d.val : Double) = Binary64.rnd y := by
    unfold Dec.val
    split
    · exact ⟨_, rfl⟩
    · exact ⟨_, rfl⟩
  obtain ⟨y, hy⟩ := key
  exact (Binary64.number_iff x).2 (Rounding.binary64.rnd_idem y x (hy.symm.trans h))

theorem differs_point {flt : Str → Option Double} (hf : Reads flt) (r r' : List DecText) (h : Good r) (h' : Good r') :
    ∃ a b, cells flt 2 (split (lineText r)) = some a ∧ cells flt 2 (split (lineText r')) = some b ∧ (differs a b = true ↔ point r' ≠ point r) := by
  obtain ⟨x, y, e⟩ := h.finite
  obtain ⟨x', y', e'⟩ := h'.finite
  match r, r', h, h', e, e' with
  | a :: b :: t, a' :: b' :: t', h, h', e, e' =>
    refine ⟨_, _, cells_line hf a b t h.wf, cells_line hf a' b' t' h'.wf, ?_⟩
    simp only [point, Prod.mk.injEq] at e e' ⊢
    rw [e.1, e.2, e'.1, e'.2, differs_iff x y x' y' (val_number _ _ e.1) (val_number _ _ e.2) (val_number _ _ e'.1) (val_number _ _ e'.2)]
    have inj : ∀ u v : ℝ, ((.fin u : Double) = .fin v) ↔ u = v := fun u v => ⟨XV.fin.inj, congrArg _⟩
    show _ ↔ ¬ ((Dbl.fin x', Dbl.fin y') = (Dbl.fin x, Dbl.fin y))
    rw [Prod.mk.injEq, inj, inj, not_and_or]
    exact or_congr ⟨fun h => h ∘ Eq.symm, fun h => h ∘ Eq.symm⟩ ⟨fun h => h ∘ Eq.symm, fun h => h ∘ Eq.symm⟩
  | [], _, _, _, e, _ => exact absurd (congrArg Prod.fst e) (fun h => nomatch (h : (XV.nan : XV) = XV.fin x))
  | [_], _, _, _, e, _ => exact absurd (congrArg Prod.fst e) (fun h => nomatch (h : (XV.nan : XV) = XV.fin x))
  | _ :: _ :: _, [], _, _, _, e => exact absurd (congrArg Prod.fst e) (fun h => nomatch (h : (XV.nan : XV) = XV.fin x'))
  | _ :: _ :: _, [_], _, _, _, e => exact absurd (congrArg Prod.fst e) (fun h => nomatch (h : (XV.nan : XV) = XV.fin x'))

theorem mergeLoop_moves {flt : Str → Option Double} (hf : Reads flt) (r : List DecText) (rows : List (List DecText)) (hr : ∀ q ∈ r :: rows, Good q) :
    mergeLoop flt 2 (lineText r) (rows.map lineText) = ((moves (fun a b => point a = point b) (r :: rows)).map lineText, true) := by
  induction rows generalizing r with
  | nil => rfl
  | cons q rows ih =>
    obtain ⟨a, b, h1, h2, h3⟩ := differs_point hf q r (hr q (by simp)) (hr r (by simp))
    rw [List.map_cons, mergeLoop, h1, h2, ih q (fun u hu => hr u (by simp [List.mem_cons.1 hu])), moves_cons]
    by_cases h : point r = point q
    · have : ¬ differs a b = true := fun hd => h3.1 hd h
      simp [h, this]
    · simp [h, h3.2 h]

/-- **C89.** On any file of lines of numbers the script comes to its end and appends exactly the lines whose first two numbers differ, as doubles, from those of the line
before, in order and unchanged. The first line is never among them. -/
theorem merge_moves {flt : Str → Option Double} (hf : Reads flt) (rows : List (List DecText)) (hr : ∀ r ∈ rows, Good r) (before : Str) :
    merge flt ((rows.map lineText).flatten) before = (before ++ ((moves (fun a b => point a = point b) rows).map lineText).flatten, true) := by
  rw [merge, lines_text]
  cases rows with
  | nil => rfl
  | cons r rows =>
    show (let p := mergeLoop flt 2 (lineText r) ((r :: rows).map lineText); (before ++ p.1.flatten, p.2)) = _
    rw [mergeLoop_moves hf r (r :: rows) (by simpa using hr), moves_cons, if_pos rfl]

theorem getlines_after (rows : List (List DecText)) (t : Str) : getlines ((rows.map lineText).flatten ++ t) = rows.map lineText ++ getlines t := by
  induction rows with
  | nil => rfl
  | cons r rows ih =>
    rw [List.map_cons, List.flatten_cons]
    show getlines ((((r.map fun u => u.text ++ c!"  ").flatten ++ ['\n']) ++ _) ++ t) = _
    rw [List.append_assoc, List.append_assoc, List.singleton_append, getlines_line _ _ (line_no_newline r), ih]
    rfl

theorem mergeLoop_stops {flt : Str → Option Double} (hf : Reads flt) (r : List DecText) (rows : List (List DecText)) (hr : ∀ q ∈ r :: rows, Good q) (l : Str)
    (ls : List Str) (hl : cells flt 2 (split l) = none) :
    mergeLoop flt 2 (lineText r) (rows.map lineText ++ l :: ls) = ((moves (fun a b => point a = point b) (r :: rows)).map lineText, false) := by
  induction rows generalizing r with
  | nil => rw [List.map_nil, List.nil_append, mergeLoop, hl]; rfl
  | cons q rows ih =>
    obtain ⟨a, b, h1, h2, h3⟩ := differs_point hf q r (hr q (by simp)) (hr r (by simp))
    rw [List.map_cons, List.cons_append, mergeLoop, h1, h2, ih q (fun u hu => hr u (by simp [List.mem_cons.1 hu])), moves_cons]
    by_cases h : point r = point q
    · have : ¬ differs a b = true := fun hd => h3.1 hd h
      simp [h, this]
    · simp [h, h3.2 h]

/-- **C89.** At a line without two numbers, as a run that is killed while it writes may leave behind, the script stops with an exception. The lines of the rows before
have been written as if the file ended there; nothing of what follows is. -/
theorem merge_stops {flt : Str → Option Double} (hf : Reads flt) (rows : List (List DecText)) (hr : ∀ r ∈ rows, Good r) (l : Str) (ls : List Str) (t : Str)
    (ht : getlines t = l :: ls) (hl : cells flt 2 (split l) = none) (before : Str) :
    merge flt ((rows.map lineText).flatten ++ t) before = ((merge flt ((rows.map lineText).flatten) before).1, false) := by
  rw [merge_moves hf rows hr, merge, getlines_after, ht]
  cases rows with
  | nil =>
    show (let p := mergeLoop flt 2 l (l :: ls); (before ++ p.1.flatten, p.2)) = _
    rw [mergeLoop, hl]
    rfl
  | cons r rows =>
    show (let p := mergeLoop flt 2 (lineText r) ((r :: rows).map lineText ++ l :: ls); (before ++ p.1.flatten, p.2)) = _
    rw [mergeLoop_stops hf r (r :: rows) (by simpa using hr) l ls hl, moves_cons, if_pos rfl]

/-- **C89.** A line that is cut off before its second number stops the script. -/
theorem merge_cut {flt : Str → Option Double} (hf : Reads flt) (rows : List (List DecText)) (hr : ∀ r ∈ rows, Good r) (t : Str) (hne : t ≠ []) (hn : '\n' ∉ t)
    (ht : (split t).length < 2) (before : Str) :
    merge flt ((rows.map lineText).flatten ++ t) before = ((merge flt ((rows.map lineText).flatten) before).1, false) := by
  refine merge_stops hf rows hr t [] t (getlines_nonl t hne hn) ?_ before
  match split t, ht with
  | [], _ => rfl
  | [s], _ =>
    rw [cells, cells]
    cases flt s <;> rfl

/-- **C89.** The merged file does not depend on how long the chain stays: repeating every line any number of times gives the same. -/
theorem merge_forgets_weights {flt : Str → Option Double} (hf : Reads flt) (rows : List (List DecText × Nat)) (hr : ∀ p ∈ rows, Good p.1) (before : Str) :
    merge flt (((stay rows).map lineText).flatten) before = merge flt (((rows.map Prod.fst).map lineText).flatten) before := by
  rw [merge_moves hf _ (fun r hr' => ?_), merge_moves hf _ (fun r hr' => ?_), moves_stay (fun a b => point a = point b) (fun _ => rfl)]
  · obtain ⟨p, hp, rfl⟩ := List.mem_map.1 hr'
    exact hr p hp
  · obtain ⟨p, hp, hm⟩ := List.mem_flatMap.1 hr'
    rw [(List.mem_replicate.1 hm).2]
    exact hr p hp

/-! ## The rows of the program -/

theorem dec_val (t : DecText) : (t.dec.val : Double) = Binary64.rnd (Print.val t) := by
  unfold Dec.val Print.val
  show _ = Binary64.rnd ((t.mantissa : ℝ) * (10 : ℝ) ^ t.power)
  have h1 : t.dec.m = t.mantissa := rfl
  have h2 : t.dec.e = t.power := rfl
  rw [h1, h2]
  split
  · rename_i h
    show Binary64.rnd _ = _
    congr 1
    obtain ⟨k, hk⟩ := Int.eq_ofNat_of_zero_le h
    rw [hk]
    simp
  · rename_i h
    show Binary64.rnd _ = _
    congr 1
    obtain ⟨k, hk⟩ := Int.eq_ofNat_of_zero_le (show 0 ≤ -t.power by omega)
    have : t.power = -(k : Int) := by omega
    rw [this]
    simp [div_eq_mul_inv]

theorem sci_value (x : ℝ) : ∃ t : DecText, Print.sci x = t.text ∧ t.Wf ∧ |Print.val t - x| ≤ 5 / 10 ^ 13 * |x| ∧
    |Print.val t| = (Print.mant x : ℝ) * (10 : ℝ) ^ (Print.expo x - 12) := by
  obtain ⟨ds, h1, h2, h3⟩ := Print.printNat_text (Print.mant x / 10 ^ 12)
  obtain ⟨fs, g1, g2, g3⟩ := Print.pad_text 12 (Print.mant x)
  obtain ⟨e, k1, k2, k3⟩ := Print.expo_text (Print.expo x)
  have hm : digitsValue (ds ++ fs) = Print.mant x := by
    rw [Print.digitsValue_append, h2, g2, g3]
    exact Nat.div_add_mod' _ _
  have hp : (DecText.power ⟨Print.signOf x, ds, some fs, some e⟩) = Print.expo x - 12 := by
    simp [DecText.power, g3, k2]
  refine ⟨⟨Print.signOf x, ds, some fs, some e⟩, ?_, ⟨.inl h3, ?_⟩, ?_, ?_⟩
  · rw [Print.sci, Print.sign_text, h1, g1, k1]
    simp [DecText.text]
  · intro e' he
    rw [← Option.some.inj he]
    exact k3
  · rw [Print.val, hp]
    simp only [DecText.mantissa, Option.getD_some, hm]
    exact Print.sign_err x _ _ _ (Print.mant_err x)
  · rw [Print.val, hp]
    simp only [DecText.mantissa, Option.getD_some, hm]
    rw [abs_mul, abs_of_pos (show (0 : ℝ) < (10 : ℝ) ^ (Print.expo x - 12) by positivity)]
    congr 1
    cases Print.signOf x <;> simp [Sign.apply]

/-- The text of a number in the parameter columns. -/
noncomputable def parmDec (x : ℝ) : DecText := (sci_value x).choose

theorem parmDec_spec (x : ℝ) : Print.sci x = (parmDec x).text ∧ (parmDec x).Wf ∧ |Print.val (parmDec x) - x| ≤ 5 / 10 ^ 13 * |x| := by
  obtain ⟨h1, h2, h3, -⟩ := (sci_value x).choose_spec
  exact ⟨h1, h2, h3⟩

/-- The double that is read from the text of `x`. -/
noncomputable def reread (x : ℝ) : Double := (parmDec x).dec.val

theorem reread_fin {x : ℝ} (h : |x| ≤ 2 ^ 1000) : ∃ y, reread x = .fin y := by
  have h1 := (parmDec_spec x).2.2
  have n1 : Binary64.rnd (2 ^ 1001) = .fin (2 ^ 1001) := by
    have k := Binary64.rnd_repr (2 ^ 31) 970 (by norm_num) (by norm_num) (by norm_num)
    have e : (((2 ^ 31 : Int) : ℝ)) * 2 ^ (970 : Int) = 2 ^ 1001 := by
      rw [show (2 : ℝ) ^ (970 : Int) = 2 ^ 970 from zpow_natCast 2 970]
      rw [Int.cast_pow, Int.cast_ofNat, ← pow_add]
    rwa [e] at k
  have n2 := Rounding.binary64.rnd_neg _ n1
  have h2 : |Print.val (parmDec x)| ≤ 2 ^ 1001 := by
    have : |Print.val (parmDec x)| ≤ |Print.val (parmDec x) - x| + |x| := by
      have := abs_add_le (Print.val (parmDec x) - x) x
      simpa using this
    have h0 := abs_nonneg x
    have e : (2 : ℝ) ^ 1001 = 2 * 2 ^ 1000 := by rw [pow_succ, mul_comm]
    have : 5 / 10 ^ 13 * |x| ≤ |x| := by nlinarith
    rw [e]
    clear n1 n2 e
    generalize (2 : ℝ) ^ 1000 = M at *
    linarith
  obtain ⟨v, hv, -⟩ := Dbl.rnd_between (R := Rounding.binary64) (neg_le_of_abs_le h2) (le_of_abs_le h2) n2 n1
  exact ⟨v, (dec_val _).trans hv⟩

/-- Numbers that are clearly apart are still apart when read from their texts. -/
theorem reread_ne {x y : ℝ} (hx : |x| ≤ 2 ^ 1000) (h : (|x| + |y|) / 10 ^ 12 + 2 ^ (-1000 : Int) < |x - y|) : reread x ≠ reread y := by
  intro he
  obtain ⟨u, hu⟩ := reread_fin hx
  have hv := he ▸ hu
  have e1 := (Binary64.rnd_eq_fin ((dec_val _).symm.trans hu)).1
  have e2 := (Binary64.rnd_eq_fin ((dec_val _).symm.trans hv)).1
  have a1 := Binary64.round53_abs_err (Print.val (parmDec x))
  have a2 := Binary64.round53_abs_err (Print.val (parmDec y))
  rw [e1] at a1
  rw [e2] at a2
  have b1 := (parmDec_spec x).2.2
  have b2 := (parmDec_spec y).2.2
  generalize Print.val (parmDec x) = p at *
  generalize Print.val (parmDec y) = q at *
  have t1 : (2 : ℝ) ^ (-1075 : Int) ≤ 2 ^ (-1000 : Int) / 4 := by
    rw [show (-1075 : Int) = -1000 + -75 by norm_num, zpow_add₀ (by norm_num)]
    have : (2 : ℝ) ^ (-75 : Int) ≤ 1 / 4 := by norm_num
    have h0 : (0 : ℝ) < 2 ^ (-1000 : Int) := by positivity
    nlinarith
  have h0 : (0 : ℝ) < 2 ^ (-1000 : Int) := by positivity
  have c1 : |p| ≤ 2 * |x| := by
    have := abs_add_le (p - x) x
    have e : p - x + x = p := by ring
    rw [e] at this
    nlinarith [abs_nonneg x]
  have c2 : |q| ≤ 2 * |y| := by
    have := abs_add_le (q - y) y
    have e : q - y + y = q := by ring
    rw [e] at this
    nlinarith [abs_nonneg y]
  have tri : |x - y| ≤ |p - x| + |u - p| + |u - q| + |q - y| := by
    have e : x - y = -(p - x) + -(u - p) + (u - q) + (q - y) := by ring
    rw [e]
    refine (abs_add_le _ _).trans (add_le_add ((abs_add_le _ _).trans (add_le_add ((abs_add_le _ _).trans (add_le_add ?_ ?_)) le_rfl)) le_rfl)
    · rw [abs_neg]
    · rw [abs_neg]
  have n1 := abs_nonneg x
  have n2 := abs_nonneg y
  have d1 : |p| / 2 ^ 53 ≤ |x| / 10 ^ 13 := by
    rw [div_le_div_iff₀ (by positivity) (by positivity)]
    nlinarith
  have d2 : |q| / 2 ^ 53 ≤ |y| / 10 ^ 13 := by
    rw [div_le_div_iff₀ (by positivity) (by positivity)]
    nlinarith
  have f : (|x| + |y|) / 10 ^ 12 = 10 * (|x| / 10 ^ 13) + 10 * (|y| / 10 ^ 13) := by ring
  have f1 : 5 / 10 ^ 13 * |x| = 5 * (|x| / 10 ^ 13) := by ring
  have f2 : 5 / 10 ^ 13 * |y| = 5 * (|y| / 10 ^ 13) := by ring
  have g1 : 0 ≤ |x| / 10 ^ 13 := by positivity
  have g2 : 0 ≤ |y| / 10 ^ 13 := by positivity
  rw [f] at h
  rw [f1] at b1
  rw [f2] at b2
  linarith

/-- The numbers of the line of a row with two parameters. -/
noncomputable def rowDecs (x y lp : ℝ) (i c : Int) : List DecText :=
  [parmDec x, parmDec y, (Print.fixed_text lp).choose, (Print.int_dec i).choose, (Print.int_dec c).choose]

theorem rowDecs_spec (nan : Str) (a : Row Double) (x y lp : ℝ) (h : a.Finite [x, y] lp) :
    a.text nan = lineText (rowDecs x y lp a.iter a.accepted) ∧ (∀ u ∈ rowDecs x y lp a.iter a.accepted, u.Wf) ∧
      point (rowDecs x y lp a.iter a.accepted) = (reread x, reread y) := by
  obtain ⟨k1, k2, -⟩ := (Print.fixed_text lp).choose_spec
  obtain ⟨i1, -, -, i4⟩ := (Print.int_dec a.iter).choose_spec
  obtain ⟨c1, -, -, c4⟩ := (Print.int_dec a.accepted).choose_spec
  obtain ⟨p1, p2, -⟩ := parmDec_spec x
  obtain ⟨q1, q2, -⟩ := parmDec_spec y
  refine ⟨?_, ?_, rfl⟩
  · rw [Row.text, Print.line, h.1, h.2]
    simp only [List.map_cons, List.map_nil, Print.special_fin]
    rw [k1, i1, c1, p1, q1]
    simp [lineText, rowDecs]
  · intro u hu
    simp only [rowDecs, List.mem_cons, List.not_mem_nil, or_false] at hu
    rcases hu with rfl | rfl | rfl | rfl | rfl
    exacts [p2, q2, k2, i4, c4]

open Classical in
theorem moves_map {α β : Type} (g : α → β) (same : β → β → Prop) (l : List α) : moves same (l.map g) = (moves (fun a b => same (g a) (g b)) l).map g := by
  cases l with
  | nil => rfl
  | cons a l =>
    induction l generalizing a with
    | nil => rfl
    | cons b l ih =>
      have := ih b
      rw [List.map_cons] at this
      rw [List.map_cons, List.map_cons, moves_cons, moves_cons, this]
      split <;> rfl

/-- Rows with the same texts in the two columns of parameters. -/
def SameText (a b : Row Double) : Prop := ∃ x y x' y' lp lp', a.Finite [x, y] lp ∧ b.Finite [x', y'] lp' ∧ reread x = reread x' ∧ reread y = reread y'

theorem finite_inj {a : Row Double} {x y lp x' y' lp' : ℝ} (h : a.Finite [x, y] lp) (h' : a.Finite [x', y'] lp') : x = x' ∧ y = y' := by
  have e := h.1.symm.trans h'.1
  simp only [List.map_cons, List.map_nil, List.cons.injEq, and_true] at e
  exact ⟨XV.fin.inj e.1, XV.fin.inj e.2⟩

theorem merge_rows {flt : Str → Option Double} (hf : Reads flt) (nan before : Str) (rows : List (Row Double))
    (hr : ∀ a ∈ rows, ∃ x y lp, a.Finite [x, y] lp ∧ |x| ≤ 2 ^ 1000 ∧ |y| ≤ 2 ^ 1000) :
    merge flt ((rows.map (Row.text nan)).flatten) before = (before ++ ((moves SameText rows).map (Row.text nan)).flatten, true) := by
  classical
  have hg : ∀ a : Row Double, ∃ ds : List DecText, a ∈ rows → a.text nan = lineText ds ∧ Good ds ∧ ∀ x y lp, a.Finite [x, y] lp → point ds = (reread x, reread y) := by
    intro a
    by_cases ha : a ∈ rows
    · obtain ⟨x, y, lp, h, hx, hy⟩ := hr a ha
      obtain ⟨h1, h2, h3⟩ := rowDecs_spec nan a x y lp h
      obtain ⟨u, hu⟩ := reread_fin hx
      obtain ⟨v, hv⟩ := reread_fin hy
      refine ⟨_, fun _ => ⟨h1, ⟨h2, u, v, by rw [h3, hu, hv]⟩, fun x' y' lp' h' => ?_⟩⟩
      obtain ⟨e1, e2⟩ := finite_inj h h'
      rw [← e1, ← e2]
      exact h3
    · exact ⟨[], fun h => absurd h ha⟩
  choose g hg using hg
  have e1 : rows.map (Row.text nan) = (rows.map g).map lineText := by
    rw [List.map_map]
    exact List.map_congr_left fun a ha => (hg a ha).1
  rw [e1, merge_moves hf _ (by
    intro r hr'
    obtain ⟨a, ha, rfl⟩ := List.mem_map.1 hr'
    exact (hg a ha).2.1), moves_map, List.map_map]
  have sub : ∀ (same : Row Double → Row Double → Prop), ∀ a ∈ moves same rows, a ∈ rows := by
    intro same a ha
    obtain ⟨p, hp, rfl⟩ := List.mem_map.1 ha
    exact List.mem_of_mem_tail (List.of_mem_zip (List.mem_filter.1 hp).1).2
  have e2 : moves (fun a b => point (g a) = point (g b)) rows = moves SameText rows := by
    unfold moves
    congr 1
    refine List.filter_congr fun p hp => ?_
    have m1 := (List.of_mem_zip hp).1
    have m2 := List.mem_of_mem_tail (List.of_mem_zip hp).2
    obtain ⟨x, y, lp, h, -⟩ := hr p.1 m1
    obtain ⟨x', y', lp', h', -⟩ := hr p.2 m2
    refine decide_eq_decide.2 (not_congr ?_)
    show point (g p.1) = point (g p.2) ↔ _
    rw [(hg p.1 m1).2.2 x y lp h, (hg p.2 m2).2.2 x' y' lp' h', Prod.mk.injEq]
    constructor
    · intro e
      exact ⟨x, y, x', y', lp, lp', h, h', e⟩
    · rintro ⟨u, v, u', v', l, l', k, k', e⟩
      obtain ⟨a1, a2⟩ := finite_inj h k
      obtain ⟨b1, b2⟩ := finite_inj h' k'
      rw [a1, a2, b1, b2]
      exact e
  rw [e2]
  congr 2
  congr 1
  exact List.map_congr_left fun a ha => ((hg a (sub _ a ha)).1).symm

/-- **C89, for the program.** In every execution with doubles and two parameters, applied to the chain file of a rank with finite rows: the script comes to its end and
appends the texts of exactly those rows whose parameters have other texts than those of the row before. Rows that repeat the parameters of the row before (a proposal was
rejected) are left out; rows in which a parameter has changed by more than `1e-12` of its size are kept. -/
theorem merge_of_run {n : Nat} {flt : Str → Option Double} (hf : Reads flt) [LawfulDraws Double] (cfg : Cfg Double) (file : DataFile Double) (hv : Valid n cfg file)
    (clock : Nat) (root : Fin n) (nm : Naming) (hgn : nm.Good n) (nan before : Str) (w : List (Label n)) (t : Sys n (Msg Double) (Line Double) (RSt n Double))
    (h : (initSys cfg file clock root).exec w = some t) (r : Fin n)
    (hfin : ∀ a ∈ fileRows r.val (t.log r), ∃ x y lp, a.Finite [x, y] lp ∧ |x| ≤ 2 ^ 1000 ∧ |y| ≤ 2 ^ 1000) :
    merge flt (Print.file nan nm (nm.chainFull r.val) (t.log r)) before =
      (before ++ ((moves SameText (fileRows r.val (t.log r))).map (Row.text nan)).flatten, true) ∧
    (∀ a ∈ fileRows r.val (t.log r), ∀ b ∈ fileRows r.val (t.log r), a.x = b.x → SameText a b) ∧
    (∀ a ∈ fileRows r.val (t.log r), ∀ b ∈ fileRows r.val (t.log r), ∀ x y lp x' y' lp', a.Finite [x, y] lp → b.Finite [x', y'] lp' →
      ((|x| + |x'|) / 10 ^ 12 + 2 ^ (-1000 : Int) < |x - x'| ∨ (|y| + |y'|) / 10 ^ 12 + 2 ^ (-1000 : Int) < |y - y'|) → ¬ SameText a b) := by
  refine ⟨?_, fun a ha b hb he => ?_, fun a ha b hb x y lp x' y' lp' h1 h2 hfar => ?_⟩
  · rw [file_text nan nm hgn root r r (t.log r) (fun l hl => one_writer cfg file hv clock root w t h r l hl), if_pos rfl]
    exact merge_rows hf nan before _ hfin
  · obtain ⟨x, y, lp, h1, -⟩ := hfin a ha
    obtain ⟨x', y', lp', h2, -⟩ := hfin b hb
    have e := (h1.1.symm.trans (he.trans h2.1))
    simp only [List.map_cons, List.map_nil, List.cons.injEq, and_true] at e
    refine ⟨x, y, x', y', lp, lp', h1, h2, ?_, ?_⟩
    · rw [show x = x' from XV.fin.inj e.1]
    · rw [show y = y' from XV.fin.inj e.2]
  · rintro ⟨u, v, u', v', l, l', k1, k2, e1, e2⟩
    obtain ⟨a1, a2⟩ := finite_inj h1 k1
    obtain ⟨b1, b2⟩ := finite_inj h2 k2
    obtain ⟨z, z', _, k, hz, hz'⟩ := hfin a ha
    obtain ⟨c1, c2⟩ := finite_inj h1 k
    rw [← a1, ← b1] at e1
    rw [← a2, ← b2] at e2
    rcases hfar with hh | hh
    · exact reread_ne (c1 ▸ hz) hh e1
    · exact reread_ne (c2 ▸ hz') hh e2

/-! ## sampling_static.py -/

theorem number_repr (m e : Int) (hm : |m| ≤ 2 ^ 53) (he : -1074 ≤ e) (he' : e ≤ 970) : Binary64.Number ((m : ℝ) * 2 ^ e) :=
  (Binary64.number_iff _).2 (Binary64.rnd_repr m e hm he he')

theorem ofI_small (k : Int) (h : |k| ≤ 2 ^ 53) : (ofI k : Double) = .fin k := by
  show Binary64.rnd ((k : ℝ) / ((1 : Nat) : ℝ)) = _
  rw [Nat.cast_one, div_one]
  exact Rounding.binary64.rnd_int k h

theorem rnd_quarter (k : Int) (h : |k| ≤ 2 ^ 53) : Binary64.rnd ((k : ℝ) / 4) = .fin ((k : ℝ) / 4) := by
  have := Binary64.rnd_repr k (-2) h (by norm_num) (by norm_num)
  have e : (k : ℝ) * 2 ^ (-2 : Int) = (k : ℝ) / 4 := by
    rw [div_eq_mul_inv]
    norm_num
  rwa [e] at this

theorem step_eq : (step : Double) = .fin (1 / 2) := by
  unfold step
  rw [ofI_small 50 (by norm_num), ofI_small 0 (by norm_num), ofI_small 100 (by norm_num)]
  have e1 : ((.fin ((50 : Int) : ℝ) : Double) -. .fin ((0 : Int) : ℝ)) = .fin 50 := by
    show Binary64.rnd (((50 : Int) : ℝ) + -((0 : Int) : ℝ)) = _
    rw [show ((50 : Int) : ℝ) + -((0 : Int) : ℝ) = ((50 : Int) : ℝ) by norm_num]
    refine (Rounding.binary64.rnd_int 50 (by norm_num)).trans (congrArg XV.fin (by norm_num))
  rw [e1]
  show Dbl.div Rounding.binary64 (.fin 50) (.fin ((100 : Int) : ℝ)) = _
  have h : ¬ (((100 : Int) : ℝ) = 0) := by norm_num
  simp only [Dbl.div, if_neg h]
  have := rnd_quarter 2 (by norm_num)
  have e : ((50 : ℝ) / ((100 : Int) : ℝ)) = ((2 : Int) : ℝ) / 4 := by norm_num
  have e' : (((2 : Int) : ℝ) / 4) = 1 / 2 := by norm_num
  rw [e]
  rw [e'] at this ⊢
  exact this

/-- The middles of the cells are computed exactly. -/
theorem middle_eq (i : Nat) (h : i < 100) : (middle i : Double) = .fin (i / 2 + 1 / 4) := by
  unfold middle
  rw [step_eq, ofI_small i (by rw [abs_of_nonneg] <;> omega), ofI_small 0 (by norm_num), ofI_small 2 (by norm_num)]
  have hi : |(2 * i : Int)| ≤ 2 ^ 53 := by rw [abs_of_nonneg] <;> omega
  have hj : |(2 * i + 1 : Int)| ≤ 2 ^ 53 := by rw [abs_of_nonneg] <;> omega
  have e1 : ((.fin (((i : Nat) : Int) : ℝ) : Double) *. .fin (1 / 2)) = .fin ((i : ℝ) / 2) := by
    show Binary64.rnd ((((i : Nat) : Int) : ℝ) * (1 / 2)) = _
    have := rnd_quarter _ hi
    push_cast at this ⊢
    rw [show (i : ℝ) * (1 / 2) = 2 * (i : ℝ) / 4 by ring, this]
    exact congrArg XV.fin (by ring)
  have e2 : ((.fin ((i : ℝ) / 2) : Double) +. .fin ((0 : Int) : ℝ)) = .fin ((i : ℝ) / 2) := by
    show Binary64.rnd ((i : ℝ) / 2 + ((0 : Int) : ℝ)) = _
    have := rnd_quarter _ hi
    push_cast at this ⊢
    rw [show (i : ℝ) / 2 + 0 = 2 * (i : ℝ) / 4 by ring, this]
    exact congrArg XV.fin (by ring)
  have e3 : ((.fin (1 / 2) : Double) /. .fin ((2 : Int) : ℝ)) = .fin (1 / 4) := by
    show Dbl.div Rounding.binary64 (.fin (1 / 2)) (.fin ((2 : Int) : ℝ)) = _
    have h : ¬ (((2 : Int) : ℝ) = 0) := by norm_num
    simp only [Dbl.div, if_neg h]
    have := rnd_quarter 1 (by norm_num)
    rw [show (1 / 2 : ℝ) / ((2 : Int) : ℝ) = ((1 : Int) : ℝ) / 4 by norm_num]
    rw [show ((1 : Int) : ℝ) / 4 = 1 / 4 by norm_num] at this ⊢
    exact this
  rw [e1, e2, e3]
  show Binary64.rnd ((i : ℝ) / 2 + 1 / 4) = _
  have := rnd_quarter _ hj
  push_cast at this
  rw [show (i : ℝ) / 2 + 1 / 4 = (2 * (i : ℝ) + 1) / 4 by ring, this]
  rfl

/-- Dividing by the step is exact. -/
theorem div_step {x : ℝ} (hx : Binary64.Number x) (h : |x| ≤ 2 ^ 53) : ((.fin x : Double) /. step) = .fin (2 * x) := by
  rw [step_eq]
  show Dbl.div Rounding.binary64 (.fin x) (.fin (1 / 2)) = _
  have h0 : ¬ ((1 / 2 : ℝ) = 0) := by norm_num
  simp only [Dbl.div, if_neg h0]
  rw [show x / (1 / 2) = 2 * x by ring]
  refine (Binary64.number_iff _).1 ⟨?_, ?_⟩
  · obtain ⟨⟨m, e, h1, h2, h3⟩, -⟩ := hx
    refine ⟨m, e + 1, ?_, h2, by omega⟩
    rw [h1, zpow_add₀ (by norm_num), zpow_one]
    ring
  · rw [abs_mul, abs_of_pos (by norm_num : (0 : ℝ) < 2)]
    calc 2 * |x| ≤ 2 * 2 ^ 53 := by linarith
      _ = 2 ^ 54 := by norm_num
      _ < 2 ^ 1024 := pow_lt_pow_right₀ (by norm_num) (by norm_num)

theorem cell_of {x y : ℝ} (hx : Binary64.Number x) (hy : Binary64.Number y) (x0 : 0 ≤ x) (y0 : 0 ≤ y) (x1 : x ≤ 50) (y1 : y ≤ 50) :
    cellOf (.fin x : Double) (.fin y) = some (⌊2 * x⌋ * 100 + ⌊2 * y⌋) := by
  have ax : |x| ≤ 2 ^ 53 := by rw [abs_of_nonneg x0]; norm_num; linarith
  have ay : |y| ≤ 2 ^ 53 := by rw [abs_of_nonneg y0]; norm_num; linarith
  unfold cellOf
  rw [div_step hx ax, div_step hy ay]
  have hp : ∀ z : ℝ, 0 ≤ z → pyInt (.fin (2 * z) : Double) = some ⌊2 * z⌋ := by
    intro z hz
    show some (if 0 ≤ 2 * z then ⌊2 * z⌋ else ⌈2 * z⌉) = _
    rw [if_pos (by linarith)]
  rw [hp x x0, hp y y0]
  rfl

theorem bump_spec (c : List Nat) (k : Int) (h0 : 0 ≤ k) :
    (k < c.length → ∃ c', bump c k = some c' ∧ c'.length = c.length ∧ ∀ i : Nat, c'[i]? = c[i]?.map (fun v => if (i : Int) = k then v + 1 else v)) ∧
    ((c.length : Int) ≤ k → bump c k = none) := by
  refine ⟨fun h => ⟨c.modify k.toNat (· + 1), by rw [bump, if_pos ⟨h0, h⟩], by simp, fun i => ?_⟩, fun h => ?_⟩
  · rw [List.getElem?_modify]
    have e : (k.toNat = i) ↔ ((i : Int) = k) := by omega
    cases c[i]? <;> simp [e]
  · rw [bump, if_neg (by omega), if_neg (by omega)]

/-- The place at which a row of the box is counted. -/
noncomputable def place (p : ℝ × ℝ) : Int := ⌊2 * p.1⌋ * 100 + ⌊2 * p.2⌋

/-- A row of the box of models/eggbox/input.ini. -/
structure InBox (p : ℝ × ℝ) : Prop where
  x : Binary64.Number p.1 ∧ 0 ≤ p.1 ∧ p.1 ≤ 50
  y : Binary64.Number p.2 ∧ 0 ≤ p.2 ∧ p.2 ≤ 50

theorem place_nonneg {p : ℝ × ℝ} (h : InBox p) : 0 ≤ place p := by
  have h1 : 0 ≤ ⌊2 * p.1⌋ := Int.floor_nonneg.2 (by linarith [h.x.2.1])
  have h2 : 0 ≤ ⌊2 * p.2⌋ := Int.floor_nonneg.2 (by linarith [h.y.2.1])
  unfold place
  omega

theorem countLoop_spec (rows : List (ℝ × ℝ)) (hr : ∀ p ∈ rows, InBox p) (c : List Nat) :
    ((∀ p ∈ rows, place p < c.length) → ∃ c', countLoop (rows.map fun p => ((.fin p.1 : Double), (.fin p.2 : Double))) c = some c' ∧ c'.length = c.length ∧
      ∀ i : Nat, c'[i]? = c[i]?.map (· + rows.countP fun p => place p = i)) ∧
    ((∃ p ∈ rows, (c.length : Int) ≤ place p) → countLoop (rows.map fun p => ((.fin p.1 : Double), (.fin p.2 : Double))) c = none) := by
  induction rows generalizing c with
  | nil => exact ⟨fun _ => ⟨c, rfl, rfl, by simp⟩, by simp⟩
  | cons p rows ih =>
    have hp := hr p (by simp)
    have ih := fun c => ih (fun q hq => hr q (by simp [hq])) c
    have hc : cellOf (.fin p.1 : Double) (.fin p.2) = some (place p) := cell_of hp.x.1 hp.y.1 hp.x.2.1 hp.y.2.1 hp.x.2.2 hp.y.2.2
    obtain ⟨b1, b2⟩ := bump_spec c (place p) (place_nonneg hp)
    rw [List.map_cons, countLoop, hc, Option.bind_eq_bind, Option.bind_some]
    constructor
    · intro h
      obtain ⟨c', g1, g2, g3⟩ := b1 (h p (by simp))
      obtain ⟨c'', k1, k2, k3⟩ := (ih c').1 (fun q hq => by rw [g2]; exact h q (by simp [hq]))
      refine ⟨c'', by rw [g1, Option.bind_eq_bind, Option.bind_some, k1], k2.trans g2, fun i => ?_⟩
      rw [k3 i, g3 i, List.countP_cons, Option.map_map]
      congr 1
      funext v
      by_cases hi : (i : Int) = place p
      · simp [hi]
        omega
      · have : ¬ place p = i := fun h => hi h.symm
        simp [hi, this]
    · rintro ⟨q, hq, hl⟩
      by_cases h0 : (c.length : Int) ≤ place p
      · rw [b2 h0]
        rfl
      · obtain ⟨c', g1, g2, -⟩ := b1 (by omega)
        rw [g1, Option.bind_eq_bind, Option.bind_some]
        rcases List.mem_cons.1 hq with rfl | hq
        · exact absurd hl h0
        · exact (ih c').2 ⟨q, hq, by rw [g2]; exact hl⟩

/-- Cell number `i` of an axis. -/
def InCell (i : Nat) (x : ℝ) : Prop := (i : ℝ) / 2 ≤ x ∧ x < (i + 1 : ℝ) / 2

theorem inCell_iff (i : Nat) (x : ℝ) : InCell i x ↔ ⌊2 * x⌋ = i := by
  rw [Int.floor_eq_iff, InCell, Int.cast_natCast]
  constructor
  · rintro ⟨h1, h2⟩
    constructor <;> linarith
  · rintro ⟨h1, h2⟩
    constructor <;> linarith

theorem floor_le_hundred {x : ℝ} (h1 : x ≤ 50) : ⌊2 * x⌋ ≤ 100 ∧ (⌊2 * x⌋ = 100 ↔ x = 50) := by
  have : ⌊2 * x⌋ ≤ 100 := by
    have : ⌊2 * x⌋ ≤ ⌊(100 : ℝ)⌋ := Int.floor_le_floor (by linarith)
    have e : ⌊(100 : ℝ)⌋ = 100 := by simp
    omega
  refine ⟨this, fun h => ?_, fun h => ?_⟩
  · have := (Int.floor_eq_iff.1 h).1
    push_cast at this
    linarith
  · rw [h, Int.floor_eq_iff]
    push_cast
    constructor <;> norm_num

open Classical in
/-- The place of a row: its own cell, or for a row at the upper end of the second parameter the first cell of the next column. -/
theorem place_iff {p : ℝ × ℝ} (h : InBox p) (i j : Nat) (hj : j < 100) :
    place p = (i * 100 + j : Nat) ↔ (InCell i p.1 ∧ InCell j p.2) ∨ (j = 0 ∧ p.2 = 50 ∧ 1 ≤ i ∧ InCell (i - 1) p.1) := by
  have h1 : 0 ≤ ⌊2 * p.1⌋ := Int.floor_nonneg.2 (by linarith [h.x.2.1])
  have h2 : 0 ≤ ⌊2 * p.2⌋ := Int.floor_nonneg.2 (by linarith [h.y.2.1])
  obtain ⟨-, -⟩ := floor_le_hundred h.x.2.2
  obtain ⟨h4, h5⟩ := floor_le_hundred h.y.2.2
  rw [← h5, inCell_iff, inCell_iff, inCell_iff]
  unfold place
  push_cast
  constructor
  · intro he
    by_cases hy : ⌊2 * p.2⌋ = 100
    · right
      refine ⟨by omega, hy, by omega, by omega⟩
    · left
      omega
  · rintro (⟨e1, e2⟩ | ⟨e1, e2, e3, e4⟩)
    · omega
    · omega

/-- The numbers read from the lines of a file. -/
theorem readXY_lines {flt : Str → Option Double} (hf : Reads flt) (rows : List (List DecText)) (pts : List (ℝ × ℝ)) (hw : ∀ r ∈ rows, ∀ u ∈ r, u.Wf)
    (hp : rows.map point = pts.map fun p => ((.fin p.1 : Double), (.fin p.2 : Double))) :
    readXY flt ((rows.map lineText).flatten) = some (pts.map fun p => ((.fin p.1 : Double), (.fin p.2 : Double))) := by
  rw [readXY, lines_text, ← hp]
  have key : ∀ (rows : List (List DecText)) (pts : List (ℝ × ℝ)), (∀ r ∈ rows, ∀ u ∈ r, u.Wf) →
      rows.map point = pts.map (fun p => ((.fin p.1 : Double), (.fin p.2 : Double))) →
      (rows.map lineText).mapM (pair flt) = some (rows.map point) := by
    intro rows
    induction rows with
    | nil => intros; rfl
    | cons r rows ih =>
      intro pts hw hp
      cases pts with
      | nil => simp at hp
      | cons p pts =>
        simp only [List.map_cons, List.cons.injEq] at hp
        have ih := ih pts (fun q hq => hw q (by simp [hq])) hp.2
        rw [List.map_cons, List.mapM_cons, ih]
        match r, hp.1, hw r (by simp) with
        | a :: b :: r, _, hw =>
          rw [pair, cells_line hf a b r hw]
          rfl
        | [], e, _ => exact absurd (congrArg Prod.fst e) (fun h => nomatch (h : (XV.nan : XV) = XV.fin p.1))
        | [_], e, _ => exact absurd (congrArg Prod.fst e) (fun h => nomatch (h : (XV.nan : XV) = XV.fin p.1))
  exact key rows pts hw hp

theorem place_bound {p : ℝ × ℝ} (h : InBox p) : place p < 10000 ↔ p.1 < 50 ∧ ¬ (InCell 99 p.1 ∧ p.2 = 50) := by
  have h1 : 0 ≤ ⌊2 * p.1⌋ := Int.floor_nonneg.2 (by linarith [h.x.2.1])
  have h2 : 0 ≤ ⌊2 * p.2⌋ := Int.floor_nonneg.2 (by linarith [h.y.2.1])
  obtain ⟨h3, h3'⟩ := floor_le_hundred h.x.2.2
  obtain ⟨h4, h5⟩ := floor_le_hundred h.y.2.2
  have e : p.1 < 50 ↔ ¬ ⌊2 * p.1⌋ = 100 := by
    rw [h3']
    exact ⟨fun h => h.ne, fun hn => lt_of_le_of_ne h.x.2.2 hn⟩
  rw [e, ← h5, inCell_iff]
  unfold place
  push_cast
  omega

open Classical in
theorem count_places (rows : List (ℝ × ℝ)) (hr : ∀ p ∈ rows, InBox p) (i j : Nat) (hj : j < 100) :
    (rows.countP fun p => place p = (i * 100 + j : Nat)) = (rows.countP fun p => InCell i p.1 ∧ InCell j p.2) +
      if j = 0 ∧ 1 ≤ i then rows.countP fun p => InCell (i - 1) p.1 ∧ p.2 = 50 else 0 := by
  induction rows with
  | nil => simp
  | cons p rows ih =>
    have hp := hr p (by simp)
    have ih := ih (fun q hq => hr q (by simp [hq]))
    have hk := place_iff hp i j hj
    have hex : p.2 = 50 → ¬ InCell j p.2 := by
      intro h50 hc
      have := (inCell_iff j p.2).1 hc
      rw [(floor_le_hundred hp.y.2.2).2.2 h50] at this
      omega
    rw [List.countP_cons, List.countP_cons, ih]
    by_cases hA : InCell i p.1 ∧ InCell j p.2
    · have hC : ¬ (InCell (i - 1) p.1 ∧ p.2 = 50) := fun h => hex h.2 hA.2
      have hpl : place p = (i * 100 + j : Nat) := hk.2 (.inl hA)
      rw [decide_eq_true hpl, decide_eq_true hA, List.countP_cons, decide_eq_false hC]
      simp only [if_true, Bool.false_eq_true, if_false, Nat.add_zero]
      omega
    · by_cases hB : j = 0 ∧ 1 ≤ i
      · rw [if_pos hB, if_pos hB, List.countP_cons, decide_eq_false hA]
        by_cases hC : InCell (i - 1) p.1 ∧ p.2 = 50
        · have hpl : place p = (i * 100 + j : Nat) := hk.2 (.inr ⟨hB.1, hC.2, hB.2, hC.1⟩)
          rw [decide_eq_true hpl, decide_eq_true hC]
          simp only [if_true, Bool.false_eq_true, if_false, Nat.add_zero]
          omega
        · have hpl : ¬ place p = (i * 100 + j : Nat) := fun h => (hk.1 h).elim hA fun h => hC ⟨h.2.2.2, h.2.1⟩
          rw [decide_eq_false hpl, decide_eq_false hC]
          simp only [Bool.false_eq_true, if_false, Nat.add_zero]
      · have hpl : ¬ place p = (i * 100 + j : Nat) := fun h => (hk.1 h).elim hA fun h => hB ⟨h.1, h.2.2.1⟩
        rw [if_neg hB, if_neg hB, decide_eq_false hpl, decide_eq_false hA]
        simp only [Bool.false_eq_true, if_false, Nat.add_zero]

open Classical in
/-- **C90, exactly what happens.** A file of at least two lines whose first two numbers are in the box. If no row is at the upper end of the first parameter, or at the upper
end of the second and in the last column, a table of the 100 x 100 cells is saved, each with its exact middle and the height of the surface there. The number shown for cell
(i, j) is that of the rows in the cell; but for the first cell of a column the rows of the column before that are at the upper end of the second parameter are added.
Otherwise the script ends with an exception, and nothing is saved. -/
theorem histogram_exact {flt : Str → Option Double} (hf : Reads flt) (rows : List (List DecText)) (pts : List (ℝ × ℝ)) (hw : ∀ r ∈ rows, ∀ u ∈ r, u.Wf)
    (hp : rows.map point = pts.map fun p => ((.fin p.1 : Double), (.fin p.2 : Double))) (hb : ∀ p ∈ pts, InBox p) (hl : 2 ≤ pts.length) :
    ((∀ p ∈ pts, p.1 < 50 ∧ ¬ (InCell 99 p.1 ∧ p.2 = 50)) → ∃ T, histogram flt ((rows.map lineText).flatten) = some T ∧ T.length = 10000 ∧
      ∀ i j : Nat, i < 100 → j < 100 → ∃ e, T[i * 100 + j]? = some e ∧ e.x = .fin (i / 2 + 1 / 4) ∧ e.y = .fin (j / 2 + 1 / 4) ∧ e.height = surface e.x e.y ∧
        e.count = (pts.countP fun p => InCell i p.1 ∧ InCell j p.2) + if j = 0 ∧ 1 ≤ i then pts.countP fun p => InCell (i - 1) p.1 ∧ p.2 = 50 else 0) ∧
    ((∃ p ∈ pts, p.1 = 50 ∨ (InCell 99 p.1 ∧ p.2 = 50)) → histogram flt ((rows.map lineText).flatten) = none) := by
  have hread := readXY_lines hf rows pts hw hp
  obtain ⟨c1, c2⟩ := countLoop_spec pts hb (List.replicate 10000 0)
  have hlen : ¬ (pts.map fun p => ((.fin p.1 : Double), (.fin p.2 : Double))).length ≤ 1 := by
    rw [List.length_map]
    omega
  rw [histogram, hread, Option.bind_eq_bind, Option.bind_some, if_neg hlen]
  constructor
  · intro h
    obtain ⟨c, g1, g2, g3⟩ := c1 (fun p hp => by rw [List.length_replicate]; exact (place_bound (hb p hp)).2 (h p hp))
    rw [g1, Option.bind_eq_bind, Option.bind_some]
    refine ⟨_, rfl, by rw [List.length_mapIdx, g2, List.length_replicate], fun i j hi hj => ?_⟩
    have hk : i * 100 + j < 10000 := by omega
    have e := g3 (i * 100 + j)
    rw [List.getElem?_replicate, if_pos hk, Option.map_some, Nat.zero_add, count_places pts hb i j hj] at e
    rw [List.getElem?_mapIdx, e, Option.map_some]
    refine ⟨_, rfl, ?_, ?_, rfl, rfl⟩
    · rw [show (i * 100 + j) / 100 = i by omega]
      exact middle_eq i hi
    · rw [show (i * 100 + j) % 100 = j by omega]
      exact middle_eq j hj
  · rintro ⟨p, hp, h⟩
    have : ¬ place p < 10000 := by
      rw [place_bound (hb p hp)]
      rintro ⟨k1, k2⟩
      rcases h with h | h
      · exact k1.ne h
      · exact k2 h
    rw [c2 ⟨p, hp, by rw [List.length_replicate]; push_cast; omega⟩]
    rfl

open Classical in
/-- **C90, partial.** If all rows are below the upper ends of the box, the number shown for each cell is the number of rows in it. Missing: rows at the upper ends, which
belong to the box. -/
theorem histogram_partial {flt : Str → Option Double} (hf : Reads flt) (rows : List (List DecText)) (pts : List (ℝ × ℝ)) (hw : ∀ r ∈ rows, ∀ u ∈ r, u.Wf)
    (hp : rows.map point = pts.map fun p => ((.fin p.1 : Double), (.fin p.2 : Double))) (hb : ∀ p ∈ pts, InBox p) (hl : 2 ≤ pts.length)
    (hin : ∀ p ∈ pts, p.1 < 50 ∧ p.2 < 50) :
    ∃ T, histogram flt ((rows.map lineText).flatten) = some T ∧ T.length = 10000 ∧
      ∀ i j : Nat, i < 100 → j < 100 → ∃ e, T[i * 100 + j]? = some e ∧ e.x = .fin (i / 2 + 1 / 4) ∧ e.y = .fin (j / 2 + 1 / 4) ∧ e.height = surface e.x e.y ∧
        e.count = pts.countP fun p => InCell i p.1 ∧ InCell j p.2 := by
  obtain ⟨T, h1, h2, h3⟩ := (histogram_exact hf rows pts hw hp hb hl).1 (fun p hp => ⟨(hin p hp).1, fun h => (hin p hp).2.ne h.2⟩)
  refine ⟨T, h1, h2, fun i j hi hj => ?_⟩
  obtain ⟨e, k1, k2, k3, k4, k5⟩ := h3 i j hi hj
  refine ⟨e, k1, k2, k3, k4, k5.trans ?_⟩
  have : (pts.countP fun p => InCell (i - 1) p.1 ∧ p.2 = 50) = 0 := by
    rw [List.countP_eq_zero]
    intro p hp h
    exact (hin p hp).2.ne (of_decide_eq_true h).2
  rw [this, ite_self, Nat.add_zero]

/-! ## The rows of the program in the box -/

/-- `atof` reads decimal numbers. -/
theorem atof_reads (other : Str → Option Double) : Reads (fun s => some (atof other s)) := by
  intro t ht
  have := atof_text other [] t [] (by simp [Blank]) ht (by simp [Stops])
  simpa using this

/-- A parameter of the box is read from its text as a number of the box. -/
theorem reread_box {x : ℝ} (h0 : 0 ≤ x) (h1 : x ≤ 50) : ∃ y, reread x = .fin y ∧ Binary64.Number y ∧ 0 ≤ y ∧ y ≤ 50 := by
  obtain ⟨-, -, herr, habs⟩ := (sci_value x).choose_spec
  change |Print.val (parmDec x) - x| ≤ _ at herr
  change |Print.val (parmDec x)| = _ at habs
  rw [abs_of_nonneg h0] at herr
  obtain ⟨e1, e2⟩ := abs_le.1 herr
  have p0 : 0 ≤ Print.val (parmDec x) := by nlinarith
  have p1 : Print.val (parmDec x) ≤ 50 := by
    by_cases hx : x < 10
    · nlinarith
    · rw [not_lt] at hx
      have hl : Print.lead x = 1 := Print.lead_exact x 1 (by rw [abs_of_nonneg h0]; norm_num; exact hx) (by rw [abs_of_nonneg h0]; norm_num; linarith)
      have ht : Print.thirteen x ≤ 5 * 10 ^ 12 := by
        rw [Print.thirteen, hl, abs_of_nonneg h0]
        have e : x / (10 : ℝ) ^ ((1 : Int) - 12) ≤ ((5 * 10 ^ 12 : Int) : ℝ) := by
          norm_num
          linarith
        have := Binary64.rne_mono e
        rw [Binary64.rne_int] at this
        omega
      have hne : ¬ x = 0 := by linarith
      have hn : ¬ Print.thirteen x = 10 ^ 13 := by omega
      rw [← abs_of_nonneg p0, habs, Print.mant, Print.expo, if_neg hne, if_neg hne, if_neg hn, if_neg hn, hl]
      have : (Print.thirteen x : ℝ) ≤ ((5 * 10 ^ 12 : Nat) : ℝ) := by exact_mod_cast ht
      push_cast at this
      have e : (10 : ℝ) ^ ((1 : Int) - 12) = 1 / 10 ^ 11 := by norm_num
      rw [e]
      linarith
  have n50 : Rounding.binary64.rnd 50 = .fin 50 := by
    have := Rounding.binary64.rnd_int 50 (by norm_num)
    push_cast at this
    exact this
  have n0 : Rounding.binary64.rnd 0 = .fin 0 := Binary64.rnd_zero
  obtain ⟨v, hv, k1, k2⟩ := Dbl.rnd_between (R := Rounding.binary64) p0 p1 n0 n50
  have hr : reread x = .fin v := (dec_val _).trans hv
  exact ⟨v, hr, val_number _ v hr, k1, k2⟩

/-- Numbers just below the upper end of the box have the text of the upper end. -/
theorem reread_fifty {x : ℝ} (h0 : 50 - 5 / 10 ^ 12 ≤ x) (h1 : x ≤ 50) : reread x = .fin 50 := by
  have hpos : 0 ≤ x := by
    have : (5 : ℝ) / 10 ^ 12 ≤ 1 := by norm_num
    linarith
  have hten : 10 ≤ x := by
    have : (5 : ℝ) / 10 ^ 12 ≤ 1 := by norm_num
    linarith
  obtain ⟨-, -, herr, habs⟩ := (sci_value x).choose_spec
  change |Print.val (parmDec x) - x| ≤ _ at herr
  change |Print.val (parmDec x)| = _ at habs
  rw [abs_of_nonneg hpos] at herr
  obtain ⟨e1, e2⟩ := abs_le.1 herr
  have p0 : 0 ≤ Print.val (parmDec x) := by nlinarith
  have hl : Print.lead x = 1 := Print.lead_exact x 1 (by rw [abs_of_nonneg hpos]; norm_num; exact hten) (by rw [abs_of_nonneg hpos]; norm_num; linarith)
  have ht : Print.thirteen x = 5 * 10 ^ 12 := by
    rw [Print.thirteen, hl, abs_of_nonneg hpos]
    have e : x / (10 : ℝ) ^ ((1 : Int) - 12) = x * 10 ^ 11 := by
      norm_num
      ring
    have hi : x * 10 ^ 11 ≤ ((5 * 10 ^ 12 : Int) : ℝ) := by
      push_cast
      linarith
    have k1 := Binary64.rne_mono hi
    rw [Binary64.rne_int] at k1
    have hh : (5 * 10 ^ 12 : ℝ) - 1 / 2 ≤ x * 10 ^ 11 := by
      norm_num at h0 ⊢
      linarith
    have k2 : (5 * 10 ^ 12 : Int) ≤ Binary64.rne ((5 * 10 ^ 12 : ℝ) - 1 / 2) := by
      have hf : ⌊(5 * 10 ^ 12 : ℝ) - 1 / 2⌋ = 5 * 10 ^ 12 - 1 := by
        rw [Int.floor_eq_iff]
        push_cast
        constructor <;> norm_num
      rw [Binary64.rne, hf]
      norm_num
      rw [if_neg (by decide)]
    have k3 := Binary64.rne_mono hh
    rw [e]
    omega
  have hne : ¬ x = 0 := by linarith
  have hn : ¬ Print.thirteen x = 10 ^ 13 := by omega
  have hv : Print.val (parmDec x) = 50 := by
    rw [← abs_of_nonneg p0, habs, Print.mant, Print.expo, if_neg hne, if_neg hne, if_neg hn, if_neg hn, hl, ht]
    norm_num
  have n50 : Rounding.binary64.rnd 50 = .fin 50 := by
    have := Rounding.binary64.rnd_int 50 (by norm_num)
    push_cast at this
    exact this
  refine (dec_val _).trans ?_
  rw [hv]
  exact n50

/-- The point that is read from a row. -/
structure ReadAs (a : Row Double) (p : ℝ × ℝ) : Prop where
  finite : ∃ x y lp, a.Finite [x, y] lp ∧ reread x = .fin p.1 ∧ reread y = .fin p.2

open Classical in
/-- **C90, for the program.** In every execution with doubles and two parameters in which the rows of a rank are in the box of the sample file: the points read from its chain
file are in the box. If there are at least two, the script saves a table or ends with an exception, exactly as said in `histogram_exact`: rows whose first parameter is
within `5e-12` of its upper end always stop it. -/
theorem histogram_of_run {n : Nat} {flt : Str → Option Double} (hf : Reads flt) [LawfulDraws Double] (cfg : Cfg Double) (file : DataFile Double) (hv : Valid n cfg file)
    (clock : Nat) (root : Fin n) (nm : Naming) (hgn : nm.Good n) (nan : Str) (w : List (Label n)) (t : Sys n (Msg Double) (Line Double) (RSt n Double))
    (h : (initSys cfg file clock root).exec w = some t) (r : Fin n)
    (hfin : ∀ a ∈ fileRows r.val (t.log r), ∃ x y lp, a.Finite [x, y] lp ∧ (0 ≤ x ∧ x ≤ 50) ∧ (0 ≤ y ∧ y ≤ 50)) (hl : 2 ≤ (fileRows r.val (t.log r)).length) :
    ∃ pts : List (ℝ × ℝ), List.Forall₂ ReadAs (fileRows r.val (t.log r)) pts ∧ (∀ p ∈ pts, InBox p) ∧
      ((∀ p ∈ pts, p.1 < 50 ∧ ¬ (InCell 99 p.1 ∧ p.2 = 50)) → ∃ T, histogram flt (Print.file nan nm (nm.chainFull r.val) (t.log r)) = some T ∧ T.length = 10000 ∧
        ∀ i j : Nat, i < 100 → j < 100 → ∃ e, T[i * 100 + j]? = some e ∧ e.x = .fin (i / 2 + 1 / 4) ∧ e.y = .fin (j / 2 + 1 / 4) ∧ e.height = surface e.x e.y ∧
          e.count = (pts.countP fun p => InCell i p.1 ∧ InCell j p.2) + if j = 0 ∧ 1 ≤ i then pts.countP fun p => InCell (i - 1) p.1 ∧ p.2 = 50 else 0) ∧
      ((∃ p ∈ pts, p.1 = 50 ∨ (InCell 99 p.1 ∧ p.2 = 50)) → histogram flt (Print.file nan nm (nm.chainFull r.val) (t.log r)) = none) ∧
      ((∃ a ∈ fileRows r.val (t.log r), ∃ x y lp, a.Finite [x, y] lp ∧ 50 - 5 / 10 ^ 12 ≤ x) →
        histogram flt (Print.file nan nm (nm.chainFull r.val) (t.log r)) = none) := by
  rw [file_text nan nm hgn root r r (t.log r) (fun l hl => one_writer cfg file hv clock root w t h r l hl), if_pos rfl]
  generalize fileRows r.val (t.log r) = rows at *
  have key : ∃ (dss : List (List DecText)) (pts : List (ℝ × ℝ)), rows.map (Row.text nan) = dss.map lineText ∧ (∀ ds ∈ dss, ∀ u ∈ ds, u.Wf) ∧
      dss.map point = (pts.map fun p => ((.fin p.1 : Double), (.fin p.2 : Double))) ∧ List.Forall₂ ReadAs rows pts ∧ ∀ p ∈ pts, InBox p := by
    clear hl
    induction rows with
    | nil => exact ⟨[], [], rfl, by simp, rfl, .nil, by simp⟩
    | cons a rows ih =>
      obtain ⟨dss, pts, g1, g2, g3, g4, g5⟩ := ih (fun b hb => hfin b (by simp [hb]))
      obtain ⟨x, y, lp, ha, hx, hy⟩ := hfin a (by simp)
      obtain ⟨u, u1, u2, u3, u4⟩ := reread_box hx.1 hx.2
      obtain ⟨v, v1, v2, v3, v4⟩ := reread_box hy.1 hy.2
      obtain ⟨k1, k2, k3⟩ := rowDecs_spec nan a x y lp ha
      refine ⟨rowDecs x y lp a.iter a.accepted :: dss, (u, v) :: pts, by rw [List.map_cons, List.map_cons, g1, k1], ?_, ?_, .cons ⟨x, y, lp, ha, u1, v1⟩ g4, ?_⟩
      · intro ds hds
        rcases List.mem_cons.1 hds with rfl | hds
        · exact k2
        · exact g2 ds hds
      · rw [List.map_cons, List.map_cons, g3, k3, u1, v1]
      · intro p hp
        rcases List.mem_cons.1 hp with rfl | hp
        · exact ⟨⟨u2, u3, u4⟩, v2, v3, v4⟩
        · exact g5 p hp
  obtain ⟨dss, pts, g1, g2, g3, g4, g5⟩ := key
  rw [g1]
  obtain ⟨m1, m2⟩ := histogram_exact hf dss pts g2 g3 g5 (by rw [← g4.length_eq]; exact hl)
  refine ⟨pts, g4, g5, m1, m2, ?_⟩
  rintro ⟨a, ha, x, y, lp, hfa, hx⟩
  obtain ⟨i, hi, rfl⟩ := List.mem_iff_getElem.1 ha
  have hi' : i < pts.length := by rw [← g4.length_eq]; exact hi
  obtain ⟨x', y', lp', k, kx, -⟩ := (g4.get hi hi').finite
  obtain ⟨e1, -⟩ := finite_inj hfa k
  obtain ⟨x'', y'', lp'', k', kx', -⟩ := hfin _ ha
  obtain ⟨e2, -⟩ := finite_inj hfa k'
  have := reread_fifty hx (e2 ▸ kx'.2)
  rw [e1, kx] at this
  exact m2 ⟨_, List.getElem_mem hi', .inl (XV.fin.inj this)⟩

/-! ## The wanted properties fail -/

/-- A line of whole numbers. -/
def whole (k : List (Fin 10)) : DecText := ⟨.none, k, none, none⟩

theorem whole_val (k : List (Fin 10)) (m : Int) (h : (digitsValue k : Int) = m) (hm : |m| ≤ 2 ^ 53) : ((whole k).dec.val : Double) = .fin m := by
  rw [dec_val]
  have : Print.val (whole k) = m := by
    simp [Print.val, whole, DecText.mantissa, DecText.power, Sign.apply, h]
  rw [this]
  exact Rounding.binary64.rnd_int m hm

/-- The lines `0  50` and `50  0`. -/
def zeroFifty : List DecText := [whole [0], whole [5, 0]]
/-- See `zeroFifty`. -/
def fiftyZero : List DecText := [whole [5, 0], whole [0]]
/-- The line `1  1`. -/
def oneOne : List DecText := [whole [1], whole [1]]

theorem whole_wf (k : List (Fin 10)) (h : k ≠ []) : (whole k).Wf := ⟨.inl h, by simp [whole]⟩

theorem zeroFifty_point : point zeroFifty = (.fin 0, .fin 50) := by
  have h1 := whole_val [0] 0 (by decide) (by norm_num)
  have h2 := whole_val [5, 0] 50 (by decide) (by norm_num)
  push_cast at h1 h2
  rw [zeroFifty, point, h1, h2]
theorem fiftyZero_point : point fiftyZero = (.fin 50, .fin 0) := by
  have h1 := whole_val [0] 0 (by decide) (by norm_num)
  have h2 := whole_val [5, 0] 50 (by decide) (by norm_num)
  push_cast at h1 h2
  rw [fiftyZero, point, h1, h2]
theorem oneOne_point : point oneOne = (.fin 1, .fin 1) := by
  have h1 := whole_val [1] 1 (by decide) (by norm_num)
  push_cast at h1
  rw [oneOne, point, h1]

theorem number_int (k : Int) (h : |k| ≤ 2 ^ 53) : Binary64.Number (k : ℝ) := (Binary64.number_iff _).2 (Rounding.binary64.rnd_int k h)

theorem inBox_int (a b : Int) (ha : 0 ≤ a ∧ a ≤ 50) (hb : 0 ≤ b ∧ b ≤ 50) : InBox ((a : ℝ), (b : ℝ)) :=
  ⟨⟨number_int a (by rw [abs_of_nonneg ha.1]; omega), Int.cast_nonneg ha.1, show (a : ℝ) ≤ 50 by exact_mod_cast ha.2⟩,
    ⟨number_int b (by rw [abs_of_nonneg hb.1]; omega), Int.cast_nonneg hb.1, show (b : ℝ) ≤ 50 by exact_mod_cast hb.2⟩⟩

open Classical in
/-- **C90 fails.** For the file with the line `0  50` twice the script shows two rows in a cell that contains none of them. -/
theorem histogram_wrong_cell {flt : Str → Option Double} (hf : Reads flt) :
    ∃ T e, histogram flt (([zeroFifty, zeroFifty].map lineText).flatten) = some T ∧ T[100]? = some e ∧ e.x = .fin (3 / 4) ∧ e.y = .fin (1 / 4) ∧ e.count = 2 ∧
      ¬ (InCell 1 (0 : ℝ) ∧ InCell 0 (50 : ℝ)) := by
  have hb : InBox ((0 : ℝ), (50 : ℝ)) := by simpa using inBox_int 0 50 (by omega) (by omega)
  obtain ⟨m1, -⟩ := histogram_exact hf [zeroFifty, zeroFifty] [(0, 50), (0, 50)]
    (by simp [zeroFifty, whole_wf]) (by simp [zeroFifty_point]) (by simp [hb]) (by simp)
  have h99 : ¬ InCell 99 (0 : ℝ) := by
    rintro ⟨h, -⟩
    norm_num at h
  obtain ⟨T, h1, -, h3⟩ := m1 (by simp [h99])
  obtain ⟨e, k1, k2, k3, -, k5⟩ := h3 1 0 (by omega) (by omega)
  have n1 : ¬ InCell 1 (0 : ℝ) := by
    rintro ⟨h, -⟩
    norm_num at h
  have p0 : InCell 0 (0 : ℝ) := by constructor <;> norm_num
  refine ⟨T, e, h1, k1, k2.trans ?_, k3.trans ?_, k5.trans ?_, fun h => n1 h.1⟩
  · exact congrArg XV.fin (by norm_num)
  · exact congrArg XV.fin (by norm_num)
  · simp [n1, p0]

/-- **C90 fails.** A row at the upper end of the first parameter, which belongs to the box, stops the script. -/
theorem histogram_stops {flt : Str → Option Double} (hf : Reads flt) : histogram flt (([oneOne, fiftyZero].map lineText).flatten) = none := by
  have hb : InBox ((50 : ℝ), (0 : ℝ)) := by simpa using inBox_int 50 0 (by omega) (by omega)
  have hb' : InBox ((1 : ℝ), (1 : ℝ)) := by simpa using inBox_int 1 1 (by omega) (by omega)
  refine (histogram_exact hf [oneOne, fiftyZero] [(1, 1), (50, 0)] (by simp [oneOne, fiftyZero, whole_wf]) (by simp [oneOne_point, fiftyZero_point])
    (by simp [hb, hb']) (by simp)).2 ⟨(50, 0), by simp, .inl rfl⟩

/-- **C89, consequence.** The share of a point among the rows is not kept: three quarters of the lines of the file are `1  1`, none of the merged file. -/
theorem merge_frequency {flt : Str → Option Double} (hf : Reads flt) :
    merge flt (([oneOne, oneOne, oneOne, fiftyZero].map lineText).flatten) [] = (lineText fiftyZero, true) := by
  have g1 : Good oneOne := ⟨by simp [oneOne, whole_wf], 1, 1, oneOne_point⟩
  have g2 : Good fiftyZero := ⟨by simp [fiftyZero, whole_wf], 50, 0, fiftyZero_point⟩
  have hne : ¬ point oneOne = point fiftyZero := by
    rw [oneOne_point, fiftyZero_point]
    intro h
    have := XV.fin.inj (congrArg Prod.fst h)
    norm_num at this
  rw [merge_moves hf _ (by simp [g1, g2]), moves_cons, if_pos rfl, moves_cons, if_pos rfl, moves_cons, if_neg hne]
  simp [moves]

/-- **C90, the fourth column.** In exact arithmetic it is the logarithm of the likelihood less one: the surface is that of the logarithm of the posterior, not of the
posterior. -/
theorem surface_is_log (x y : ℝ) : (surface x y : ℝ) = eggboxValue x y - 1 := by
  simp only [surface, eggboxValue, Arith.add, Arith.mul, ofI, Arith.lit]
  push_cast
  ring

/-- **C90 fails.** It is not proportional to the posterior, for which the graph gives it out (pm3d_mod.gnu). -/
theorem surface_not_posterior : ¬ ∃ c : ℝ, ∀ x y : ℝ, 0 ≤ x → x ≤ 50 → 0 ≤ y → y ≤ 50 → (surface x y : ℝ) = c * Real.exp (eggboxValue x y) := by
  rintro ⟨c, h⟩
  have hpi := Real.pi_pos
  have hpi4 := Real.pi_le_four
  have v1 : (surface 0 0 : ℝ) = 1 := by simp [surface_is_log, eggboxValue, Arith.add, Arith.mul, ofI, Arith.lit, Arith.sin, Arith.div]; norm_num
  have h1 := h 0 0 le_rfl (by norm_num) le_rfl (by norm_num)
  have h2 := h (2 * Real.pi) Real.pi (by positivity) (by linarith) hpi.le (by linarith)
  have v2 : (surface (2 * Real.pi) Real.pi : ℝ) = 0 := by
    have e : 2 * Real.pi / 2 = Real.pi := by ring
    simp [surface, Arith.add, Arith.mul, Arith.cos, Arith.sin, Arith.div, ofI, Arith.lit, e]
  rw [v2] at h2
  rw [v1] at h1
  have : c = 0 := by
    rcases mul_eq_zero.1 h2.symm with h | h
    · exact h
    · exact absurd h (Real.exp_pos _).ne'
  rw [this, zero_mul] at h1
  norm_num at h1

/-! ## Examples -/

/-- A reader of decimal numbers exists. -/
example : Reads (F := Double) (fun s => some (atof (fun _ => none) s)) := atof_reads _

example : merge (fun s => some (atof (fun _ => none) s : Double)) (([oneOne, oneOne, oneOne, fiftyZero].map lineText).flatten) [] = (lineText fiftyZero, true) :=
  merge_frequency (atof_reads _)
example : ∃ T e, histogram (fun s => some (atof (fun _ => none) s : Double)) (([zeroFifty, zeroFifty].map lineText).flatten) = some T ∧ T[100]? = some e ∧ e.count = 2 := by
  obtain ⟨T, e, h1, h2, -, -, h3, -⟩ := histogram_wrong_cell (atof_reads fun _ => none)
  exact ⟨T, e, h1, h2, h3⟩
example : histogram (fun s => some (atof (fun _ => none) s : Double)) (([oneOne, fiftyZero].map lineText).flatten) = none := histogram_stops (atof_reads _)

/-- A configuration of three ranks for the egg box model in doubles. -/
noncomputable def eggCfgD : Cfg Double where
  nParm := 2
  nIter := 1000
  nStack := 300
  base := 50
  rand := 10
  nSwap := 2
  swapmode := 0
  nBegintune := 200
  nStoptune := 950
  tuneLadder := 1
  nStopTuneLadder := 700
  nIterInTune := 100
  saveBegin := 500
  initSeed := 20
  arLower := Arith.lit 1 10
  arUpper := Arith.lit 6 10
  arBest := Arith.lit 23 100
  arAcceptDiff := Arith.lit 1 10
  halfRatio := .fin 10
  jumpin := .fin 10
  initGpRatio := Arith.lit 1 10
  scaleLadder := .fin (7 / 8)
  zeroStretch := .fin (1 / 4)
  betas := [.fin (1 / 8), .fin (1 / 2), .fin 1]
  sigmaMin := [.fin (1 / 1024), .fin (1 / 1024)]
  sigmaMax := [.fin 5, .fin 5]
  user := eggbox.user [(.fin 0, .fin 50), (.fin 0, .fin 50)] 2

/-- An empty data file. -/
def eggFileD : DataFile Double where
  nlines := 0
  ndim := 1
  cells := .ok []

theorem eggD_valid : Valid 3 eggCfgD eggFileD where
  ranks := by decide
  ranksInt := by decide
  betas := Nat.le_refl 3
  parm := by simp [eggCfgD]
  user := user_wf _ _ _ rfl
  stack := by simp [eggCfgD]
  rand := by simp [eggCfgD]
  base := by simp [eggCfgD]
  randInt := by simp [eggCfgD]
  stackInt := by simp [eggCfgD]
  iterInt := .of_sum (by simp [eggCfgD])
  mode := by simp [eggCfgD]
  inTune := by simp [eggCfgD]
  sigmaMin := Nat.le_refl 2
  sigmaMax := Nat.le_refl 2
  cells := ⟨[], rfl, by simp [eggFileD], by simp⟩

/-- The chain file of rank 2 of that run. -/
example (w : List (Label 3)) (t : Sys 3 (Msg Double) (Line Double) (RSt 3 Double)) (h : (initSys eggCfgD eggFileD 7 0).exec w = some t)
    (hfin : ∀ a ∈ fileRows 2 (t.log 2), ∃ x y lp, a.Finite [x, y] lp ∧ |x| ≤ 2 ^ 1000 ∧ |y| ≤ 2 ^ 1000) :
    merge (fun s => some (atof (fun _ => none) s : Double)) (Print.file (c!"nan") ⟨100, c!"chain", c!".dat", c!"results"⟩
      ((⟨100, c!"chain", c!".dat", c!"results"⟩ : Naming).chainFull 2) (t.log 2)) [] =
      (((moves SameText (fileRows 2 (t.log 2))).map (Row.text (c!"nan"))).flatten, true) :=
  (merge_of_run (atof_reads _) eggCfgD eggFileD eggD_valid 7 0 _ demoNaming_good (c!"nan") [] w t h 2 hfin).1

/-- Its histogram, when no value is at the upper end. -/
example (w : List (Label 3)) (t : Sys 3 (Msg Double) (Line Double) (RSt 3 Double)) (h : (initSys eggCfgD eggFileD 7 0).exec w = some t)
    (hfin : ∀ a ∈ fileRows 2 (t.log 2), ∃ x y lp, a.Finite [x, y] lp ∧ (0 ≤ x ∧ x ≤ 50) ∧ (0 ≤ y ∧ y ≤ 50)) (hl : 2 ≤ (fileRows 2 (t.log 2)).length) :
    ∃ pts : List (ℝ × ℝ), List.Forall₂ ReadAs (fileRows 2 (t.log 2)) pts ∧ ((∀ p ∈ pts, p.1 < 50 ∧ ¬ (InCell 99 p.1 ∧ p.2 = 50)) →
      ∃ T, histogram (fun s => some (atof (fun _ => none) s : Double)) (Print.file (c!"nan") ⟨100, c!"chain", c!".dat", c!"results"⟩
        ((⟨100, c!"chain", c!".dat", c!"results"⟩ : Naming).chainFull 2) (t.log 2)) = some T ∧ T.length = 10000) := by
  obtain ⟨pts, h1, -, h2, -⟩ := histogram_of_run (atof_reads fun _ => none) eggCfgD eggFileD eggD_valid 7 0 _ demoNaming_good (c!"nan") w t h 2 hfin hl
  refine ⟨pts, h1, fun hp => ?_⟩
  obtain ⟨T, k1, k2, -⟩ := h2 hp
  exact ⟨T, k1, k2⟩

/-- A chain that stays at `1  1` for seven rows and at `50  0` for three, and one that stays for one row each, give the same merged file. -/
example {flt : Str → Option Double} (hf : Reads flt) (before : Str) :
    merge flt (((stay [(oneOne, 6), (fiftyZero, 2)]).map lineText).flatten) before = merge flt (([oneOne, fiftyZero].map lineText).flatten) before := by
  have g1 : Good oneOne := ⟨by simp [oneOne, whole_wf], 1, 1, oneOne_point⟩
  have g2 : Good fiftyZero := ⟨by simp [fiftyZero, whole_wf], 50, 0, fiftyZero_point⟩
  exact merge_forgets_weights hf [(oneOne, 6), (fiftyZero, 2)] (by simp [g1, g2]) before

/-- A file whose last line is cut off after `4.`. -/
example {flt : Str → Option Double} (hf : Reads flt) : merge flt (([oneOne, oneOne, fiftyZero].map lineText).flatten ++ c!"4.") [] = (lineText fiftyZero, false) := by
  have g1 : Good oneOne := ⟨by simp [oneOne, whole_wf], 1, 1, oneOne_point⟩
  have g2 : Good fiftyZero := ⟨by simp [fiftyZero, whole_wf], 50, 0, fiftyZero_point⟩
  have hg : ∀ r ∈ [oneOne, oneOne, fiftyZero], Good r := by simp [g1, g2]
  have hne : point oneOne ≠ point fiftyZero := by
    rw [oneOne_point, fiftyZero_point]
    intro h
    have := XV.fin.inj (congrArg Prod.fst h)
    norm_num at this
  rw [merge_cut hf _ hg _ (by decide) (by decide) (by decide), merge_moves hf _ hg, moves_cons, if_pos rfl, moves_cons, if_neg hne]
  simp [moves]

/-- Rows of the program: the second repeats the point of the first, the third is elsewhere. -/
example {flt : Str → Option Double} (hf : Reads flt) : merge flt
    ((([⟨[.fin 1, .fin 2], .fin 0, 1, 0⟩, ⟨[.fin 1, .fin 2], .fin 0, 2, 0⟩, ⟨[.fin 3, .fin 2], .fin 0, 3, 1⟩] : List (Row Double)).map (Row.text [])).flatten) [] =
    (Row.text [] (⟨[.fin 3, .fin 2], .fin 0, 3, 1⟩ : Row Double), true) := by
  have hb : ∀ z : ℝ, |z| ≤ 3 → |z| ≤ 2 ^ 1000 := fun z hz => hz.trans (le_trans (by norm_num : (3 : ℝ) ≤ 2 ^ 2) (pow_le_pow_right₀ (by norm_num) (by norm_num)))
  have f1 : ∀ k c, (⟨[.fin 1, .fin 2], .fin 0, k, c⟩ : Row Double).Finite [1, 2] 0 := fun _ _ => ⟨rfl, rfl⟩
  have f3 : (⟨[.fin 3, .fin 2], .fin 0, 3, 1⟩ : Row Double).Finite [3, 2] 0 := ⟨rfl, rfl⟩
  have b1 := hb 1 (by norm_num)
  have b2 := hb 2 (by norm_num)
  have b3 := hb 3 (by norm_num)
  have same : SameText (⟨[.fin 1, .fin 2], .fin 0, 1, 0⟩ : Row Double) ⟨[.fin 1, .fin 2], .fin 0, 2, 0⟩ := ⟨1, 2, 1, 2, 0, 0, f1 _ _, f1 _ _, rfl, rfl⟩
  have diff : ¬ SameText (⟨[.fin 1, .fin 2], .fin 0, 2, 0⟩ : Row Double) ⟨[.fin 3, .fin 2], .fin 0, 3, 1⟩ := by
    rintro ⟨x, y, x', y', lp, lp', h, h', e, -⟩
    rw [← (finite_inj (f1 _ _) h).1, ← (finite_inj f3 h').1] at e
    refine reread_ne b1 ?_ e
    have : (2 : ℝ) ^ (-1000 : Int) ≤ 2 ^ (0 : Int) := zpow_le_zpow_right₀ (by norm_num) (by norm_num)
    norm_num at this ⊢
    linarith
  rw [merge_rows hf [] [] _ (by
    intro a ha
    simp only [List.mem_cons, List.not_mem_nil, or_false] at ha
    rcases ha with rfl | rfl | rfl
    · exact ⟨1, 2, 0, f1 _ _, b1, b2⟩
    · exact ⟨1, 2, 0, f1 _ _, b1, b2⟩
    · exact ⟨3, 2, 0, f3, b3, b2⟩), moves_cons, if_pos same, moves_cons, if_neg diff]
  simp [moves]

open Classical in
/-- The file with the line `1  1` twice: the cell around (1.25, 1.25) shows two rows. -/
example {flt : Str → Option Double} (hf : Reads flt) :
    ∃ T e, histogram flt (([oneOne, oneOne].map lineText).flatten) = some T ∧ T[202]? = some e ∧ e.x = .fin (5 / 4) ∧ e.y = .fin (5 / 4) ∧ e.count = 2 := by
  have hb : InBox ((1 : ℝ), (1 : ℝ)) := by simpa using inBox_int 1 1 (by omega) (by omega)
  obtain ⟨T, h1, -, h3⟩ := histogram_partial hf [oneOne, oneOne] [(1, 1), (1, 1)] (by simp [oneOne, whole_wf]) (by simp [oneOne_point]) (by simp [hb]) (by simp)
    (by simp)
  obtain ⟨e, k1, k2, k3, -, k5⟩ := h3 2 2 (by omega) (by omega)
  have p0 : InCell 2 (1 : ℝ) := by constructor <;> norm_num
  refine ⟨T, e, h1, k1, k2.trans (congrArg XV.fin (by norm_num)), k3.trans (congrArg XV.fin (by norm_num)), k5.trans (by simp [p0])⟩

/-- A number that is not at the upper end of the box but is printed as if it were. -/
example : reread (50 - 1 / 10 ^ 12) = .fin 50 := reread_fifty (by norm_num) (by norm_num)

end Scripts
end NiiC
