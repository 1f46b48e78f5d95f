import Verif.Refine.Paced
import Verif.Props.Protocol

/-!
# Messages in flight: C113

At no moment of any execution does a queue between two ranks have more than one point-to-point message per tag, or more than two
broadcasts, however long the run is.
-/

set_option linter.unusedSectionVars false

namespace NiiC

open Proc Sys

variable {n : Nat} {F : Type} [Arith F] [Source F]

/-- **C113.** At every moment of every execution of a usable configuration, whatever its length, the queue from one rank to
another has at most one message of each point-to-point tag and at most two broadcasts. -/
theorem few_in_flight [LawfulDraws F] (cfg : Cfg F) (file : DataFile F) (hv : Valid n cfg file) (clock : Nat) (root : Fin n)
    (w : List (Label n)) (t : Sys n (Msg F) (Line F) (RSt n F)) (hw : (initSys cfg file clock root).exec w = some t)
    (a b : Fin n) : (∀ tag, (t.chan (a, b, .user tag)).length ≤ 1) ∧ (t.chan (a, b, .bcast)).length ≤ 2 := by
  obtain ⟨wf, hwf⟩ := seqMain_total cfg file hv clock root
  have hs := initSys_star cfg hv.user file clock root wf hwf
  have hk : ∀ r, Keeps oneEach ((initSys cfg file clock root).procs r) := fun r =>
    ⟨fun _ => oneEach, fun _ _ => Nat.le_refl _, Flight.mainProg_paced⟩
  exact ⟨fun tag => in_flight hs (finalSys_done root wf) rfl hk hw a b (.user tag),
    in_flight hs (finalSys_done root wf) rfl hk hw a b .bcast⟩

/-- Wherever the demo is stopped, root has at most one reply of each other rank waiting. -/
example (w : List (Label 3)) (t : Sys 3 (Msg ℝ) (Line ℝ) (RSt 3 ℝ)) (hw : (initSys demoCfg demoFile 0 0).exec w = some t) (r : Fin 3) :
    (t.chan (r, 0, slavereturn 0)).length ≤ 1 :=
  (few_in_flight demoCfg demoFile demo_valid 0 0 w t hw r 0).1 _

/-- Both bounds are reached: root may have sent the number of lines and the data before anybody takes them, and then the seed. -/
theorem two_broadcasts : ∃ (w : List (Label 3)) (t : Sys 3 (Msg ℝ) (Line ℝ) (RSt 3 ℝ)),
    (initSys demoCfg demoFile 0 0).exec w = some t ∧ (t.chan (0, 1, .bcast)).length = 2 ∧ (t.chan (0, 1, rootsent 1)).length = 1 :=
  ⟨List.replicate 7 (.rank 0), _, rfl, rfl, rfl⟩

end NiiC
