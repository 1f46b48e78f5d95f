import Mathlib.Tactic.Ring
import Mathlib.Data.List.Infix
import Verif.Spec.Notation

/-!
# Lemmas about the text functions
-/

namespace NiiC
open Spec

/-! ## strstr -/

theorem strstr_iff (needle hay : Str) : strstr needle hay = true ↔ needle <:+: hay := by
  induction hay with
  | nil => simp [strstr, List.isEmpty_iff]
  | cons c t ih =>
    rw [strstr, Bool.or_eq_true, ih, List.isPrefixOf_iff_prefix, List.infix_cons_iff]

/-- A text without colon inside a text with a colon is on one side of it. -/
theorem infix_colon {k a b : Str} {c : Char} (hc : c ∉ k) (h : k <:+: a ++ c :: b) : k <:+: a ∨ k <:+: b := by
  obtain ⟨s, t, h⟩ := h
  rw [List.append_assoc, List.append_eq_append_iff] at h
  rcases h with ⟨a', h1, h2⟩ | ⟨a', h1, h2⟩
  · -- a = s ++ a', k ++ t = a' ++ c :: b
    rw [List.append_eq_append_iff] at h2
    rcases h2 with ⟨b', h3, h4⟩ | ⟨b', h3, h4⟩
    · left
      exact ⟨s, b', by rw [h1, h3, List.append_assoc]⟩
    · cases b' with
      | nil =>
        left
        exact ⟨s, [], by rw [h1, h3]; simp⟩
      | cons d b' =>
        simp only [List.cons_append, List.cons.injEq] at h4
        exact absurd (by rw [h3, ← h4.1]; simp) hc
  · -- s = a ++ a', c :: b = a' ++ (k ++ t)
    cases a' with
    | nil =>
      simp only [List.nil_append] at h2
      cases k with
      | nil => left; exact List.nil_infix
      | cons d k =>
        simp only [List.cons_append, List.cons.injEq] at h2
        exact absurd (by rw [h2.1]; simp) hc
    | cons d a' =>
      simp only [List.cons_append, List.cons.injEq] at h2
      right
      exact ⟨a', t, by rw [h2.2, List.append_assoc]⟩

/-! ## getline -/

theorem getlines_flatten (s : Str) : (getlines s).flatten = s := by
  induction s with
  | nil => rfl
  | cons c cs ih =>
    rw [getlines]
    split
    · rename_i h; simp [ih, h]
    · split
      · rename_i h; rw [h] at ih; simp at ih; simp [← ih]
      · rename_i l ls h; rw [h] at ih; simp at ih; simp [← ih]

theorem getlines_line (l rest : Str) (h : '\n' ∉ l) : getlines (l ++ '\n' :: rest) = (l ++ ['\n']) :: getlines rest := by
  induction l with
  | nil => simp [getlines]
  | cons c l ih =>
    simp only [List.mem_cons, not_or] at h
    rw [List.cons_append, getlines, if_neg (Ne.symm h.1), ih h.2]
    rfl

theorem getlines_lines (ls : List Str) (h : ∀ l ∈ ls, '\n' ∉ l) :
    getlines ((ls.map (· ++ ['\n'])).flatten) = ls.map (· ++ ['\n']) := by
  induction ls with
  | nil => rfl
  | cons l ls ih =>
    simp only [List.map_cons, List.flatten_cons, List.append_assoc, List.singleton_append]
    rw [getlines_line l _ (h l (by simp)), ih (fun l' h' => h l' (by simp [h']))]

theorem cstr_id (s : Str) (h : '\x00' ∉ s) : cstr s = s := by
  induction s with
  | nil => rfl
  | cons c s ih =>
    simp only [List.mem_cons, not_or] at h
    rw [cstr, List.takeWhile_cons_of_pos (by simpa using Ne.symm h.1)]
    exact congrArg (c :: ·) (ih h.2)

/-! ## Lines that mention a name -/

/-- The lines of a text that mention a name. -/
def mentioning (text name : Str) : List Str := ((getlines text).map cstr).filter (strstr name)

theorem findLines_fit (name : Str) (ls : List Str) (k : Nat) (b : Option Str)
    (h : ∀ l ∈ (ls.map cstr).filter (strstr name), l.length < 100) :
    findLines name ls k b = .ok (k + ((ls.map cstr).filter (strstr name)).length,
      ((ls.map cstr).filter (strstr name)).getLast?.or b) := by
  induction ls generalizing k b with
  | nil => simp [findLines]
  | cons l ls ih =>
    rw [findLines]
    by_cases hm : strstr name (cstr l) = true
    · rw [if_pos hm]
      simp only [List.map_cons, List.filter_cons_of_pos hm, List.mem_cons, forall_eq_or_imp] at h
      rw [if_pos (show (cstr l).length + 1 ≤ destSize from h.1), ih _ _ h.2, List.map_cons, List.filter_cons_of_pos hm]
      simp only [List.length_cons, List.getLast?_cons]
      refine congrArg Except.ok (Prod.ext (by simp; omega) ?_)
      cases (List.filter (strstr name) (List.map cstr ls)).getLast? <;> simp
    · rw [if_neg hm]
      simp only [List.map_cons, List.filter_cons_of_neg hm] at h ⊢
      exact ih _ _ h

theorem findLines_long (name : Str) (ls : List Str) (k : Nat) (b : Option Str)
    (h : ∃ l ∈ (ls.map cstr).filter (strstr name), 100 ≤ l.length) : findLines name ls k b = .error .oob := by
  induction ls generalizing k b with
  | nil => simp at h
  | cons l ls ih =>
    rw [findLines]
    by_cases hm : strstr name (cstr l) = true
    · rw [if_pos hm]
      by_cases hl : (cstr l).length + 1 ≤ destSize
      · rw [if_pos hl]
        simp only [List.map_cons, List.filter_cons_of_pos hm, List.mem_cons, exists_eq_or_imp] at h
        rcases h with h | h
        · simp only [destSize] at hl; omega
        · exact ih _ _ h
      · rw [if_neg hl]
    · rw [if_neg hm]
      simp only [List.map_cons, List.filter_cons_of_neg hm] at h
      exact ih _ _ h

/-! ## Numbers -/

theorem isDigit_digitChar (d : Fin 10) : isDigit (digitChar d) = true := by revert d; decide
theorem digitVal_digitChar (d : Fin 10) : digitVal (digitChar d) = d.val := by revert d; decide
theorem digitChar_ne (d : Fin 10) : digitChar d ≠ '-' ∧ digitChar d ≠ '+' ∧ digitChar d ≠ '.' ∧ digitChar d ≠ 'e' ∧
    digitChar d ≠ 'E' ∧ digitChar d ≠ 'i' ∧ digitChar d ≠ 'I' ∧ digitChar d ≠ 'n' ∧ digitChar d ≠ 'N' ∧ digitChar d ≠ 'x' ∧
    digitChar d ≠ 'X' ∧ digitChar d ≠ ',' ∧ digitChar d ≠ ':' ∧ digitChar d ≠ '\n' ∧ digitChar d ≠ '\x00' ∧
    isSpace (digitChar d) = false := by revert d; decide

theorem natOf_digits (ds : List (Fin 10)) : natOf (digitsText ds) = digitsValue ds := by
  suffices h : ∀ a, (digitsText ds).foldl (fun a c => 10 * a + digitVal c) a = a * 10 ^ ds.length + digitsValue ds by
    have := h 0
    simpa [natOf] using this
  induction ds with
  | nil => intro a; simp [digitsText, digitsValue]
  | cons d ds ih =>
    intro a
    have h1 : digitsText (d :: ds) = digitChar d :: digitsText ds := rfl
    rw [h1, List.foldl_cons, ih, digitVal_digitChar, digitsValue, List.length_cons]
    ring

/-- The rest of a text does not go on with a character satisfying `p`. -/
def Stops (p : Char → Bool) : Str → Prop
  | [] => True
  | c :: _ => p c = false

theorem spanDigits_text (ds : List (Fin 10)) (rest : Str) (h : Stops isDigit rest) :
    spanDigits (digitsText ds ++ rest) = (digitsText ds, rest) := by
  have h1 : ∀ c ∈ digitsText ds, isDigit c = true := by
    intro c hc
    obtain ⟨d, _, rfl⟩ := List.mem_map.1 hc
    exact isDigit_digitChar d
  rw [spanDigits, List.takeWhile_append_of_pos h1, List.dropWhile_append_of_pos h1]
  cases rest with
  | nil => simp
  | cons c r =>
    have hc : ¬ isDigit c = true := by
      intro e
      rw [show isDigit c = false from h] at e
      cases e
    rw [List.takeWhile_cons_of_neg hc, List.dropWhile_cons_of_neg hc]
    simp

/-- A number does not begin with a sign when none is written. -/
def NoSign : Str → Prop
  | [] => True
  | c :: _ => c ≠ '-' ∧ c ≠ '+'

theorem scanSign_text (s : Sign) (rest : Str) (h : NoSign rest) :
    scanSign (s.text ++ rest) = (decide (s = .minus), rest) := by
  cases s with
  | none =>
    cases rest with
    | nil => rfl
    | cons c r =>
      obtain ⟨h1, h2⟩ := h
      simp only [Sign.text, List.nil_append]
      rw [scanSign.eq_3]
      · rfl
      · intro _ e; simp only [List.cons.injEq] at e; exact h1 e.1
      · intro _ e; simp only [List.cons.injEq] at e; exact h2 e.1
  | plus => rfl
  | minus => rfl

theorem signed_apply (s : Sign) (m : Nat) : signed (decide (s = .minus)) m = s.apply m := by
  cases s <;> rfl

theorem noSign_digits (ds : List (Fin 10)) (rest : Str) (h : ds ≠ []) : NoSign (digitsText ds ++ rest) := by
  cases ds with
  | nil => exact absurd rfl h
  | cons d ds => exact ⟨(digitChar_ne d).1, (digitChar_ne d).2.1⟩

theorem dropWhile_blank (ws s : Str) (h : Blank ws) (hs : Stops isSpace s) : (ws ++ s).dropWhile isSpace = s := by
  have h1 : ∀ c ∈ ws, isSpace c = true := by
    intro c hc
    rcases h c hc with rfl | rfl <;> decide
  rw [List.dropWhile_append_of_pos h1]
  cases s with
  | nil => rfl
  | cons c s =>
    have hc : isSpace c = false := hs
    exact List.dropWhile_cons_of_neg (by rw [hc]; simp)

theorem stops_int (t : IntText) (rest : Str) (h : t.digits ≠ []) : Stops isSpace (t.text ++ rest) := by
  obtain ⟨s, ds⟩ := t
  cases ds with
  | nil => exact absurd rfl h
  | cons d ds =>
    cases s with
    | none => exact (digitChar_ne d).2.2.2.2.2.2.2.2.2.2.2.2.2.2.2
    | plus => rfl
    | minus => rfl

theorem scanInt_text (ws : Str) (t : IntText) (rest : Str) (hw : Blank ws) (hd : t.digits ≠ []) (hr : Stops isDigit rest) :
    scanInt (ws ++ t.text ++ rest) = some t.value := by
  have h1 : (ws ++ t.text ++ rest).dropWhile isSpace = t.text ++ rest := by
    rw [List.append_assoc]
    exact dropWhile_blank ws _ hw (stops_int t rest hd)
  rw [scanInt, h1]
  have h2 : scanSign (t.text ++ rest) = (decide (t.sign = .minus), digitsText t.digits ++ rest) := by
    rw [IntText.text, List.append_assoc]
    exact scanSign_text _ _ (noSign_digits _ _ hd)
  simp only [h2, spanDigits_text _ _ hr]
  obtain ⟨s, ds⟩ := t
  cases ds with
  | nil => exact absurd rfl hd
  | cons d ds =>
    have h3 : digitsText (d :: ds) = digitChar d :: digitsText ds := rfl
    simp only [h3]
    rw [← h3, natOf_digits, signed_apply]
    rfl

/-- Characters that would go on with a decimal number. -/
def isNumChar (c : Char) : Bool := isDigit c || c == '.' || c == 'e' || c == 'E' || c == 'x' || c == 'X'

theorem Stops.mono {p q : Char → Bool} (h : ∀ c, q c = true → p c = true) {s : Str} (hs : Stops p s) : Stops q s := by
  cases s with
  | nil => trivial
  | cons c s =>
    show q c = false
    cases hq : q c with
    | false => rfl
    | true => exact absurd (h c hq) (by simp [show p c = false from hs])

theorem Stops.num_digit {s : Str} (h : Stops isNumChar s) : Stops isDigit s :=
  h.mono (fun c hc => by simp [isNumChar, hc])

/-- The text of the exponent. -/
def expText (e : Option IntText) : Str := match e with | none => [] | some e => 'e' :: e.text
/-- The value of the exponent. -/
def expValue (e : Option IntText) : Int := match e with | none => 0 | some e => e.value
/-- The text of the decimals. -/
def fracText (f : Option (List (Fin 10))) : Str := match f with | none => [] | some ds => '.' :: digitsText ds

theorem Spec.DecText.text_eq (t : DecText) : t.text = t.sign.text ++ (digitsText t.digits ++ (fracText t.decimals ++ expText t.exponent)) := by
  obtain ⟨s, ds, f, e⟩ := t
  cases f <;> cases e <;> simp [DecText.text, fracText, expText]

theorem stops_exp (e : Option IntText) (rest : Str) (hr : Stops isNumChar rest) : Stops isDigit (expText e ++ rest) := by
  cases e with
  | none => exact hr.num_digit
  | some e => rfl

theorem scanMant_text (ds : List (Fin 10)) (f : Option (List (Fin 10))) (e : Option IntText) (rest : Str)
    (hd : ds ≠ [] ∨ f.getD [] ≠ []) (hr : Stops isNumChar rest) :
    scanMant (digitsText ds ++ (fracText f ++ expText e) ++ rest) =
      some (digitsValue (ds ++ f.getD []), (f.getD []).length, expText e ++ rest) := by
  rw [List.append_assoc, List.append_assoc]
  have hemp : ∀ l : List (Fin 10), (digitsText l).isEmpty = l.isEmpty := fun l => by cases l <;> rfl
  cases f with
  | none =>
    have hd' : ds ≠ [] := by simpa using hd
    have hs := stops_exp e rest hr
    have hdot : ∀ s', expText e ++ rest ≠ '.' :: s' := by
      intro s' he
      cases e with
      | none =>
        have he' : rest = '.' :: s' := he
        rw [he'] at hr
        exact absurd (show isNumChar '.' = false from hr) (by decide)
      | some e => simp [expText] at he
    simp only [fracText, List.nil_append]
    rw [scanMant, spanDigits_text _ _ hs]
    simp only
    split
    · rename_i h; exact absurd h (by rw [hemp]; simpa using hd')
    · simp [natOf_digits]
  | some fs =>
    have hs := stops_exp e rest hr
    simp only [fracText, List.cons_append]
    rw [scanMant, spanDigits_text ds ('.' :: (digitsText fs ++ (expText e ++ rest))) rfl]
    simp only [spanDigits_text fs _ hs]
    have hne : ((digitsText ds).isEmpty && (digitsText fs).isEmpty) = false := by
      rw [hemp, hemp]
      cases ds with
      | nil => cases fs with
        | nil => simp at hd
        | cons _ _ => rfl
      | cons _ _ => rfl
    rw [hne]
    have h3 : digitsText ds ++ digitsText fs = digitsText (ds ++ fs) := by simp [digitsText]
    simp only [Bool.false_eq_true, if_false, h3, natOf_digits]
    simp [digitsText]

theorem scanExp_text (e : Option IntText) (rest : Str) (he : ∀ t ∈ e, t.digits ≠ []) (hr : Stops isNumChar rest) :
    scanExp (expText e ++ rest) = some (expValue e) := by
  cases e with
  | none =>
    simp only [expText, List.nil_append, expValue]
    cases rest with
    | nil => rfl
    | cons c r =>
      rw [scanExp.eq_3]
      · intro s h
        simp only [List.cons.injEq] at h
        rw [h.1] at hr
        exact absurd (show isNumChar 'e' = false from hr) (by decide)
      · intro s h
        simp only [List.cons.injEq] at h
        rw [h.1] at hr
        exact absurd (show isNumChar 'E' = false from hr) (by decide)
  | some t =>
    have hd := he t rfl
    show scanExp.exponent (t.text ++ rest) = some t.value
    have h2 : scanSign (t.text ++ rest) = (decide (t.sign = .minus), digitsText t.digits ++ rest) := by
      rw [IntText.text, List.append_assoc]
      exact scanSign_text _ _ (noSign_digits _ _ hd)
    rw [scanExp.exponent]
    simp only [h2, spanDigits_text _ _ hr.num_digit]
    obtain ⟨s, ds⟩ := t
    cases ds with
    | nil => exact absurd rfl hd
    | cons d ds =>
      have h3 : digitsText (d :: ds) = digitChar d :: digitsText ds := rfl
      simp only [h3]
      rw [← h3, natOf_digits, signed_apply]
      rfl

/-- A decimal number is not taken for an infinity, a NaN or a hexadecimal number. -/
theorem special_text (ds : List (Fin 10)) (f : Option (List (Fin 10))) (e : Option IntText) (rest : Str)
    (hd : ds ≠ [] ∨ f.getD [] ≠ []) (hr : Stops isNumChar rest) :
    special (digitsText ds ++ (fracText f ++ expText e) ++ rest) = false := by
  have h0 : ∀ (c : Char) (s : Str), (c ≠ 'i' ∧ c ≠ 'I' ∧ c ≠ 'n' ∧ c ≠ 'N') → (∀ s', s ≠ 'x' :: s' ∧ s ≠ 'X' :: s') → special (c :: s) = false := by
    intro c s h1 h2
    rw [special.eq_7]
    all_goals (intro _ h; simp only [List.cons.injEq] at h)
    · exact h1.1 h.1
    · exact h1.2.1 h.1
    · exact h1.2.2.1 h.1
    · exact h1.2.2.2 h.1
    · exact (h2 _).1 h.2
    · exact (h2 _).2 h.2
  cases ds with
  | nil =>
    cases f with
    | none => simp at hd
    | some fs =>
      show special ('.' :: _) = false
      refine h0 _ _ (by decide) ?_
      cases fs with
      | nil => simp at hd
      | cons d fs =>
        intro s'
        have := digitChar_ne d
        constructor <;> intro h
        · exact this.2.2.2.2.2.2.2.2.2.1 (List.cons.inj h).1
        · exact this.2.2.2.2.2.2.2.2.2.2.1 (List.cons.inj h).1
  | cons d ds =>
    have hdc := digitChar_ne d
    show special (digitChar d :: _) = false
    refine h0 _ _ ⟨hdc.2.2.2.2.2.1, hdc.2.2.2.2.2.2.1, hdc.2.2.2.2.2.2.2.1, hdc.2.2.2.2.2.2.2.2.1⟩ ?_
    intro s'
    cases ds with
    | cons d' ds =>
      have := digitChar_ne d'
      constructor <;> intro h
      · exact this.2.2.2.2.2.2.2.2.2.1 (List.cons.inj h).1
      · exact this.2.2.2.2.2.2.2.2.2.2.1 (List.cons.inj h).1
    | nil =>
      cases f with
      | some fs =>
        constructor <;> intro h
        · exact absurd (List.cons.inj h).1 (by decide)
        · exact absurd (List.cons.inj h).1 (by decide)
      | none =>
        cases e with
        | some t =>
          constructor <;> intro h
          · exact absurd (List.cons.inj h).1 (by decide)
          · exact absurd (List.cons.inj h).1 (by decide)
        | none =>
          constructor <;> intro h
          · have h' : rest = 'x' :: s' := h
            rw [h'] at hr
            exact absurd (show isNumChar 'x' = false from hr) (by decide)
          · have h' : rest = 'X' :: s' := h
            rw [h'] at hr
            exact absurd (show isNumChar 'X' = false from hr) (by decide)

theorem noSign_dec (ds : List (Fin 10)) (f : Option (List (Fin 10))) (r : Str) (hd : ds ≠ [] ∨ f.getD [] ≠ []) :
    NoSign (digitsText ds ++ (fracText f ++ r)) := by
  cases ds with
  | cons d ds => exact ⟨(digitChar_ne d).1, (digitChar_ne d).2.1⟩
  | nil =>
    cases f with
    | none => simp at hd
    | some fs => exact ⟨by decide, by decide⟩

theorem stops_dec (t : DecText) (ht : t.Wf) (rest : Str) : Stops isSpace (t.text ++ rest) := by
  rw [DecText.text_eq]
  obtain ⟨s, ds, f, e⟩ := t
  have hd := ht.some_digit
  cases s with
  | plus => rfl
  | minus => rfl
  | none =>
    cases ds with
    | cons d ds => exact (digitChar_ne d).2.2.2.2.2.2.2.2.2.2.2.2.2.2.2
    | nil =>
      cases f with
      | none => simp at hd
      | some fs => rfl

/-- The number that a written decimal number denotes. -/
def Spec.DecText.dec (t : DecText) : Dec := ⟨t.mantissa, t.power⟩

section
variable {F : Type} [Arith F] [Source F]

theorem scanLf_text (other : Str → Option F) (ws : Str) (t : DecText) (rest : Str) (hw : Blank ws) (ht : t.Wf) (hr : Stops isNumChar rest) :
    scanLf other (ws ++ t.text ++ rest) = some t.dec.val := by
  have h1 : (ws ++ t.text ++ rest).dropWhile isSpace = t.text ++ rest := by
    rw [List.append_assoc]
    exact dropWhile_blank ws _ hw (stops_dec t ht rest)
  have h2 : scanSign (t.text ++ rest) = (decide (t.sign = .minus), digitsText t.digits ++ (fracText t.decimals ++ expText t.exponent) ++ rest) := by
    rw [DecText.text_eq, List.append_assoc]
    refine scanSign_text _ _ ?_
    rw [List.append_assoc, List.append_assoc]
    exact noSign_dec _ _ _ ht.some_digit
  rw [scanLf]
  simp only [h1, h2]
  rw [special_text _ _ _ _ ht.some_digit hr, scanMant_text _ _ _ _ ht.some_digit hr]
  simp only [Bool.false_eq_true, if_false]
  rw [scanExp_text _ _ ht.exp_digit hr]
  simp only [decOf, signed_apply]
  rfl

theorem atof_text (other : Str → Option F) (ws : Str) (t : DecText) (rest : Str) (hw : Blank ws) (ht : t.Wf) (hr : Stops isNumChar rest) :
    atof other (ws ++ t.text ++ rest) = t.dec.val := by
  have h1 : (ws ++ t.text ++ rest).dropWhile isSpace = t.text ++ rest := by
    rw [List.append_assoc]
    exact dropWhile_blank ws _ hw (stops_dec t ht rest)
  have h2 : scanSign (t.text ++ rest) = (decide (t.sign = .minus), digitsText t.digits ++ (fracText t.decimals ++ expText t.exponent) ++ rest) := by
    rw [DecText.text_eq, List.append_assoc]
    refine scanSign_text _ _ ?_
    rw [List.append_assoc, List.append_assoc]
    exact noSign_dec _ _ _ ht.some_digit
  rw [atof]
  simp only [h1, h2]
  rw [special_text _ _ _ _ ht.some_digit hr, scanMant_text _ _ _ _ ht.some_digit hr]
  simp only [Bool.false_eq_true, if_false]
  rw [scanExp_text _ _ ht.exp_digit hr]
  simp only [decOf, signed_apply, Option.getD_some]
  rfl

end

/-! ## Words, keys, tokens -/

theorem scanStr_text (ws w rest : Str) (hw : Blank ws) (h : Word w) (hr : Stops (fun c => !isSpace c) rest) :
    scanStr (ws ++ w ++ rest) = some w := by
  obtain ⟨hne, hns⟩ := h
  have hst : Stops isSpace (w ++ rest) := by
    cases w with
    | nil => exact absurd rfl hne
    | cons c w => exact hns c (by simp)
  have h2 : ∀ c ∈ w, (!isSpace c) = true := fun c hc => by rw [hns c hc]; rfl
  rw [scanStr, List.append_assoc, dropWhile_blank ws _ hw hst, List.takeWhile_append_of_pos h2]
  have h3 : rest.takeWhile (fun c => !isSpace c) = [] := by
    cases rest with
    | nil => rfl
    | cons c r =>
      have hc : (!isSpace c) = false := hr
      exact List.takeWhile_cons_of_neg (by rw [hc]; simp)
  rw [h3, List.append_nil]
  cases w with
  | nil => exact absurd rfl hne
  | cons c w => rfl

theorem takeWhile_stop {p : Char → Bool} (a : Str) (c : Char) (b : Str) (ha : ∀ x ∈ a, p x = true) (hc : p c = false) :
    (a ++ c :: b).takeWhile p = a ∧ (a ++ c :: b).dropWhile p = c :: b := by
  rw [List.takeWhile_append_of_pos ha, List.dropWhile_append_of_pos ha, List.takeWhile_cons_of_neg (by rw [hc]; simp),
    List.dropWhile_cons_of_neg (by rw [hc]; simp)]
  simp

theorem scanKey_text (k rest : Str) (hne : k ≠ []) (hk : ':' ∉ k) : scanKey (k ++ ':' :: rest) = some rest := by
  have ha : ∀ x ∈ k, (fun x => decide (x ≠ ':')) x = true := by
    intro x hx
    simp only [ne_eq, decide_not, Bool.not_eq_eq_eq_not, Bool.not_true, decide_eq_false_iff_not]
    rintro rfl
    exact hk hx
  obtain ⟨h1, h2⟩ := takeWhile_stop (p := fun x => decide (x ≠ ':')) k ':' rest ha (by simp)
  rw [scanKey, h1, h2]
  cases k with
  | nil => exact absurd rfl hne
  | cons c k => rfl

theorem afterColon_text (k rest : Str) (hne : k ≠ []) (hk : ':' ∉ k) : afterColon (k ++ ':' :: rest) = rest := by
  have ha : ∀ x ∈ k, (fun x => decide (x ≠ ':')) x = true := by
    intro x hx
    simp only [ne_eq, decide_not, Bool.not_eq_eq_eq_not, Bool.not_true, decide_eq_false_iff_not]
    rintro rfl
    exact hk hx
  have h0 : (k ++ ':' :: rest).dropWhile (fun x => decide (x = ':')) = k ++ ':' :: rest := by
    cases k with
    | nil => exact absurd rfl hne
    | cons c k =>
      refine List.dropWhile_cons_of_neg ?_
      simp only [List.mem_cons, not_or] at hk
      simpa using Ne.symm hk.1
  rw [afterColon, h0, (takeWhile_stop (p := fun x => decide (x ≠ ':')) k ':' rest ha (by simp)).2]
  rfl

theorem tokens_run (dl : Str) (t : Str) (hne : t ≠ []) (ht : ∀ c ∈ t, c ∉ dl) : tokens dl t = [t] := by
  induction t with
  | nil => exact absurd rfl hne
  | cons c t ih =>
    have hc := ht c (by simp)
    cases t with
    | nil => rw [tokens.eq_def]; simp [hc]
    | cons d t =>
      have hd := ht d (by simp)
      rw [tokens.eq_def]
      simp only [if_neg hc, if_neg hd]
      rw [ih (by simp) (fun x hx => ht x (by simp [hx]))]

theorem tokens_run_cons (dl : Str) (t : Str) (d : Char) (rest : Str) (hne : t ≠ []) (ht : ∀ c ∈ t, c ∉ dl) (hd : d ∈ dl) :
    tokens dl (t ++ d :: rest) = t :: tokens dl rest := by
  induction t with
  | nil => exact absurd rfl hne
  | cons c t ih =>
    have hc := ht c (by simp)
    cases t with
    | nil =>
      rw [List.singleton_append, tokens.eq_def]
      simp only [if_neg hc, if_pos hd]
      rw [tokens.eq_def]
      simp [hd]
    | cons e t =>
      have he := ht e (by simp)
      rw [List.cons_append, List.cons_append, tokens.eq_def]
      simp only [if_neg hc, if_neg he]
      have := ih (by simp) (fun x hx => ht x (by simp [hx]))
      rw [List.cons_append] at this
      rw [this]

theorem tokens_delim (dl : Str) (d : Char) (rest : Str) (hd : d ∈ dl) : tokens dl (d :: rest) = tokens dl rest := by
  rw [tokens.eq_def]; simp [hd]

end NiiC
