import Verif.Spec.Notation

/-!
# Tables of numbers in a text file

One line per row; numbers separated by delimiter characters.
-/

namespace NiiC
namespace Spec

/-- A number in a table with blanks in front. -/
structure Cell where
  pad : Str
  num : DecText

/-- The text of a cell. -/
def Cell.text (c : Cell) : Str := c.pad ++ c.num.text

/-- A line of a table: delimiters, the first cell, further cells with delimiters in front, anything that does not go on with the last number. -/
structure RowText where
  lead : Str
  first : Cell
  more : List (Str × Cell)
  tail : Str

/-- The text of a row. -/
def RowText.text (r : RowText) : Str := r.lead ++ r.first.text ++ (r.more.map fun p => p.1 ++ p.2.text).flatten ++ r.tail

/-- The numbers of a row. -/
def RowText.nums (r : RowText) : List DecText := r.first.num :: r.more.map fun p => p.2.num

/-- Characters that can go on with a decimal number. -/
def goesOn (c : Char) : Prop :=
  c ∈ ['0', '1', '2', '3', '4', '5', '6', '7', '8', '9', '.', 'e', 'E', 'x', 'X']

/-- A cell can be read with delimiters `dl`: the number is a number, and neither it nor the blanks contain a delimiter. -/
structure Cell.Wf (dl : Str) (c : Cell) : Prop where
  pad : Blank c.pad
  num : c.num.Wf
  nodelim : ∀ x ∈ c.text, x ∉ dl

/-- A row can be read. -/
structure RowText.Wf (dl : Str) (r : RowText) : Prop where
  lead : ∀ x ∈ r.lead, x ∈ dl
  first : r.first.Wf dl
  more : ∀ p ∈ r.more, p.1 ≠ [] ∧ (∀ x ∈ p.1, x ∈ dl) ∧ p.2.Wf dl
  tail : ∀ x ∈ r.tail.head?, ¬ goesOn x
  clean : '\n' ∉ r.text ∧ '\x00' ∉ r.text ∧ '\xff' ∉ r.text

end Spec
end NiiC
