import Verif.Mpi.Proc

/-!
# What a table is for its user: a store indexed by tuples
-/

namespace NiiC
namespace Spec

/-- The value last written under an index, by a sequence of writes in order of time. -/
def lastWritten {κ V : Type} [DecidableEq κ] : List (κ × V) → κ → Option V
  | [], _ => none
  | (k', v) :: ws, k =>
    match lastWritten ws k with
    | some v' => some v'
    | none => if k = k' then some v else none

end Spec
end NiiC
