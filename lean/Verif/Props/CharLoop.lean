import Verif.Model.CharLoop

/-!
# Counting the lines needs a signed char: C123
-/

namespace NiiC

theorem toChar_byte (b : Fin 256) : (toChar true b.val = -1 ↔ b.val = 255) ∧ (toChar true b.val = 10 ↔ b.val = 10) := by
  have := b.isLt
  constructor <;> (simp only [toChar, true_and]; split <;> omega)

/-- **C123.** Where `char` is not signed the loop never ends, whatever is in the file. -/
theorem nlines_unsigned (bytes : List (Fin 256)) (fuel : Nat) : nlinesLoop false bytes fuel 0 0 = none := by
  have h : ∀ fuel k line, nlinesLoop false bytes fuel k line = none := by
    intro fuel
    induction fuel with
    | zero => intro k line; rfl
    | succ fuel ih =>
      intro k line
      have : toChar false (getc bytes k) ≠ -1 := by
        simp only [toChar, Bool.false_eq_true, false_and, if_false]
        omega
      rw [nlinesLoop, if_neg this]
      exact ih _ _
  exact h fuel 0 0

/-- **C123.** Where it is signed the loop ends at the end of the file or at the first byte 255, whichever comes first, with the number of newlines before
that. -/
theorem nlines_signed (bytes : List (Fin 256)) (fuel : Nat) (hf : bytes.length < fuel) :
    nlinesLoop true bytes fuel 0 0 = some ((bytes.takeWhile fun b => b.val ≠ 255).filter fun b => b.val = 10).length := by
  have h : ∀ (rest pre : List (Fin 256)) (fuel line : Nat), bytes = pre ++ rest → rest.length < fuel →
      nlinesLoop true bytes fuel pre.length line = some (line + ((rest.takeWhile fun b => b.val ≠ 255).filter fun b => b.val = 10).length) := by
    intro rest
    induction rest with
    | nil =>
      intro pre fuel line hb hf
      obtain ⟨fuel, rfl⟩ : ∃ m, fuel = m + 1 := ⟨fuel - 1, by simp at hf; omega⟩
      have hg : getc bytes pre.length = -1 := by rw [getc, List.getElem?_eq_none (by rw [hb]; simp)]
      rw [nlinesLoop, hg, if_pos (show toChar true (-1) = -1 from rfl)]
      simp
    | cons b rest ih =>
      intro pre fuel line hb hf
      obtain ⟨fuel, rfl⟩ : ∃ m, fuel = m + 1 := ⟨fuel - 1, by simp at hf; omega⟩
      have hg : getc bytes pre.length = b.val := by
        have : bytes[pre.length]? = some b := by rw [hb]; simp
        rw [getc, this]
      rw [nlinesLoop, hg]
      by_cases h255 : b.val = 255
      · rw [if_pos ((toChar_byte b).1.2 h255), List.takeWhile_cons_of_neg (by simp [h255])]
        simp
      · rw [if_neg fun h => h255 ((toChar_byte b).1.1 h), List.takeWhile_cons_of_pos (by simp [h255])]
        have := ih (pre ++ [b]) fuel (if toChar true b.val = 10 then line + 1 else line) (by rw [hb]; simp) (by simp at hf; omega)
        rw [List.length_append, List.length_singleton] at this
        rw [this]
        by_cases h10 : b.val = 10
        · rw [if_pos ((toChar_byte b).2.2 h10), List.filter_cons_of_pos (by simp [h10]), List.length_cons]
          congr 1
          omega
        · rw [if_neg fun h => h10 ((toChar_byte b).2.1 h), List.filter_cons_of_neg (by simp [h10])]
  have := h bytes [] fuel 0 rfl hf
  rw [Nat.zero_add] at this
  exact this

/-- The text of a file with these bytes, as it is elsewhere in the model. -/
def charsOf (bytes : List (Fin 256)) : Str := bytes.map fun b => Char.ofNat b.val

theorem byte_char (b : Fin 256) : (Char.ofNat b.val ≠ byteFF ↔ b.val ≠ 255) ∧ (Char.ofNat b.val = '\n' ↔ b.val = 10) := by
  revert b
  decide +kernel

/-- **C123.** So the number of lines that the rest of the model takes is what the loop finds where `char` is signed. -/
theorem nlines_model (bytes : List (Fin 256)) (fuel : Nat) (hf : bytes.length < fuel) :
    (nlinesLoop true bytes fuel 0 0).map Int.ofNat = some (countLines (charsOf bytes)) := by
  rw [nlines_signed bytes fuel hf, countLines, charsOf, List.takeWhile_map, List.filter_map, List.length_map]
  have e1 : ((fun c : Char => decide (c ≠ byteFF)) ∘ fun b : Fin 256 => Char.ofNat b.val) = fun b => decide (b.val ≠ 255) := by
    funext b
    simp only [Function.comp, (byte_char b).1]
  have e2 : ((fun c : Char => decide (c = '\n')) ∘ fun b : Fin 256 => Char.ofNat b.val) = fun b => decide (b.val = 10) := by
    funext b
    simp only [Function.comp, (byte_char b).2]
  rw [e1, e2]
  rfl

/-- Two lines `1 2` and `3 4`, on both kinds of platform. -/
example : nlinesLoop true [49, 32, 50, 10, 51, 32, 52, 10] 9 0 0 = some 2 ∧ (∀ fuel, nlinesLoop false [49, 32, 50, 10, 51, 32, 52, 10] fuel 0 0 = none) ∧
    countLines (charsOf [49, 32, 50, 10, 51, 32, 52, 10]) = 2 :=
  ⟨nlines_signed _ 9 (by decide), nlines_unsigned _, Option.some.inj (nlines_model [49, 32, 50, 10, 51, 32, 52, 10] 9 (by decide)).symm⟩

/-- A byte 255 in the first line hides the second. -/
example : nlinesLoop true [49, 10, 255, 50, 10] 6 0 0 = some 1 := nlines_signed _ 6 (by decide)

end NiiC
