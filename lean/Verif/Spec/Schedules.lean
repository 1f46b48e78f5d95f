import Verif.Mpi.Proc

/-!
# Schedules and buffering decisions

`MPI_Send` may return at once (the library buffers the message) or may wait until the receiver has posted the matching
receive; the library decides, differently each time if it likes. A `Policy` is such a decision procedure.
-/

namespace NiiC.Sys

variable {n : Nat} {V L α : Type}

/-- May the send that rank `r` is about to do in this state be buffered? -/
abbrev Policy (n : Nat) (V L α : Type) := Sys n V L α → Fin n → Bool

/-- The move `l` may happen: a send only if it is buffered or its receiver is waiting for it. -/
def Allowed (pol : Policy n V L α) (s : Sys n V L α) : Label n → Prop
  | .barrier => True
  | .rank r =>
    match s.procs r with
    | .send d t _ _ => pol s r = true ∨ ∃ k, s.procs d = .recv r t k
    | _ => True

/-- `Run pol s w t`: under the policy, the moves `w` lead from `s` to `t`. -/
inductive Run (pol : Policy n V L α) : Sys n V L α → List (Label n) → Sys n V L α → Prop where
  | nil (s : Sys n V L α) : Run pol s [] s
  | cons {s s' t : Sys n V L α} {l : Label n} {w : List (Label n)} (ha : Allowed pol s l) (hs : s.step l = some s')
      (h : Run pol s' w t) : Run pol s (l :: w) t

/-- Somebody can move. -/
def CanMove (pol : Policy n V L α) (s : Sys n V L α) : Prop := ∃ l s', Allowed pol s l ∧ s.step l = some s'

/-- A rank has gone wrong. -/
def Faulty (s : Sys n V L α) : Prop := ∃ r f, s.procs r = .fault f

theorem Run.exec {pol : Policy n V L α} {s t : Sys n V L α} {w : List (Label n)} (h : Run pol s w t) :
    s.exec w = some t := by
  induction h with
  | nil s => rfl
  | cons _ hs _ ih => simp [hs, ih]

end NiiC.Sys
