import Verif.Refine.Abreast

/-!
# The chain files are never more than one batch apart: C116

At every moment of every execution, so also when the job is killed.
-/

set_option linter.unusedSectionVars false

namespace NiiC

open Proc Sys

variable {n : Nat} {F : Type} [Arith F] [Source F]

theorem i32_val {i k : Int} (h : i32 i = .ok k) : k = i := by
  unfold i32 at h
  split at h
  · exact (Except.ok.inj h).symm
  · cases h

/-- A batch is never longer than its base and its random part together. -/
theorem nextBatch_bound [LawfulDraws F] {cfg : Cfg F} (h0 : 0 ≤ cfg.rand) (hi : 2 * cfg.rand ≤ 2147483647) (m i : Int) (g : Rng)
    (b : Int × Int × Rng) (h : nextBatch cfg m i g = .ok b) : b.1.toNat ≤ (cfg.base + cfg.rand).toNat := by
  have hr := (LawfulDraws.unifAb (F := F) (-cfg.rand) cfg.rand g (by omega) (by omega)).2
  simp only [nextBatch, exc_bind] at h
  obtain ⟨_, _, _, _, nb, h3, nx, h4, h5⟩ := h
  have e3 := i32_val h3
  have e4 := i32_val h4
  split at h5
  · cases h5
    show (m - i).toNat ≤ _
    omega
  · cases h5
    show nb.toNat ≤ _
    omega

/-- **C116.** At every moment of every execution, the chain files of any two ranks differ by no more rows than a batch can have
iterations. -/
theorem files_abreast [LawfulDraws F] (cfg : Cfg F) (file : DataFile F) (hv : Valid n cfg file) (clock : Nat) (root : Fin n)
    (w : List (Label n)) (t : Sys n (Msg F) (Line F) (RSt n F)) (ht : (initSys cfg file clock root).exec w = some t) (r s : Fin n) :
    ((fileRows r.val (t.log r)).length : Int) ≤ (fileRows s.val (t.log s)).length + (cfg.base + cfg.rand) := by
  obtain ⟨wf, hwf⟩ := seqMain_total cfg file hv clock root
  have hb := hv.base
  have hr := hv.rand
  have h := mainProg_held cfg hv.user file clock root (B := (cfg.base + cfg.rand).toNat) (by omega)
    (fun m i g b hb => nextBatch_bound hv.rand hv.randInt m i g b hb) wf hwf _ (.refl _) rfl w t ht r s
  simp only [rowCount] at h
  omega

/-- In the demo: whenever it is stopped, no file of its three is more than 60 rows ahead of another. -/
example (w : List (Label 3)) (t : Sys 3 (Msg ℝ) (Line ℝ) (RSt 3 ℝ)) (ht : (initSys demoCfg demoFile 0 0).exec w = some t) :
    ((fileRows 0 (t.log 0)).length : Int) ≤ (fileRows 2 (t.log 2)).length + 60 :=
  files_abreast demoCfg demoFile demo_valid 0 0 w t ht 0 2

end NiiC
