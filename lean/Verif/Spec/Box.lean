import Mathlib.Data.Real.Basic

/-!
# Boxes of parameters
-/

namespace NiiC.Spec

/-- Every coordinate lies between its bounds. -/
def InBox (bounds : List (ℝ × ℝ)) (x : List ℝ) : Prop := List.Forall₂ (fun b v => b.1 ≤ v ∧ v ≤ b.2) bounds x

end NiiC.Spec
