import Verif.Model.DataLoader
import Verif.Model.Print
import Verif.Spec.IniFile
import Verif.Num.Real

/-!
# Specification: what a user computes from the text of a chain file
-/

namespace NiiC

open Spec

/-- A line of output with exact numbers, as the printing functions take it. -/
def Line.fin {R : Rounding} : Line ℝ → Line (Dbl R)
  | .mkdir => .mkdir
  | .seed r s => .seed r s
  | .initParm rows => .initParm (rows.map fun x => x.map .fin)
  | .row k x lp a c => .row k (x.map .fin) (.fin lp) a c
  | .sigma k s => .sigma k (s.map .fin)
  | .betas b => .betas (b.map .fin)
  | .note a c b s => .note a c (b.map .fin) (s.map .fin)

/-- The names of the output files that a user has written. -/
def Spec.Settings.naming (w : Settings) : Naming := ⟨w.foutLen.value.toNat, w.foutPre, w.foutSuf, w.resultsDir⟩

/-- The text that a rank with the output `log` has in the chain file of rank `r`. -/
noncomputable def chainText (nm : Naming) (r : Nat) (log : List (Line ℝ)) : Str :=
  Print.file (R := Rounding.exact) (c!"nan") nm (nm.chainFull r) (log.map Line.fin)

/-- The lines of a text as lists of `c` numbers separated by blanks; none if it is not such a table. -/
noncomputable def textRows (c : Nat) (text : Str) : List (List ℝ) :=
  match (dataFile (F := ℝ) (fun _ => none) (c!" ") c text).cells with
  | .ok cells => (List.range (countLines text).toNat).map fun i => (cells.drop (i * c)).take c
  | .error _ => []

open Classical in
/-- A line of `k` parameters, the log-posterior, the iteration and the number of acceptances has an iteration above `B`. -/
noncomputable def isAbove (k B : Nat) (c : List ℝ) : Bool := decide (∃ t, c[k + 1]? = some t ∧ (B : ℝ) < t)

/-- The lines of a text with an iteration above `B`. -/
noncomputable def linesAbove (k B : Nat) (text : Str) : List (List ℝ) := (textRows (k + 3) text).filter (isAbove k B)

/-- The average of a function of the `k` parameters over these lines. -/
noncomputable def textAverage (k B : Nat) (g : List ℝ → ℝ) (text : Str) : ℝ :=
  ((linesAbove k B text).map fun c => g (c.take k)).sum / (linesAbove k B text).length

end NiiC
