import Verif.Props.Alone
import Verif.Props.Extend

/-!
# Runs with neighbouring seeds start from the same points: C122
-/

set_option linter.unusedSectionVars false

namespace NiiC

open Sys Spec

variable {n : Nat} {F : Type} [Arith F] [Source F]

/-- The first row of the chain file of a rank in a finished run is the point drawn from the seed of the rank. -/
theorem first_row [LawfulDraws F] (cfg : Cfg F) (file : DataFile F) (hv : Valid n cfg file) (clock : Nat) (root : Fin n) (w : List (Label n))
    (t : Sys n (Msg F) (Line F) (RSt n F)) (h : (initSys cfg file clock root).exec w = some t) (hd : t.AllDone) (r : Fin n) :
    (fileRows r.val (t.log r)).head?.map Row.x = some (cfg.user.initParm (seedOf root (startSeed cfg clock) r)).1 := by
  obtain ⟨v, hw, hall⟩ := log_prefix cfg file hv clock root
  rw [(hall w t h).2 hd]
  show (fileRows r.val (v.log r)).head?.map Row.x = _
  obtain ⟨w0, h0, hs⟩ := seqMain_steps cfg file clock root v hw
  obtain ⟨rest, hrest⟩ := hs.grow r
  rw [← hrest]
  simp only [seqInit, exc_bind, Except.ok.injEq] at h0
  obtain ⟨_, _, data, hd, _, _, _, _, _, _, beta, hb, rfl⟩ := h0
  by_cases hr : r = root
  · simp [hr, fileRows]
  · simp [hr, fileRows]

/-- **C122** (in terms of what the runs start from). If the start seed of the second run is that of the first plus `d`, up to the range of `unsigned`, the
chain of rank `r + d` of the first and that of rank `r` of the second (`r` not root) start from the same point; so does the chain of root of the first, if it
has `r + d` ranks. -/
theorem shared_starts [LawfulDraws F] {n' : Nat} (cfg cfg' : Cfg F) (file file' : DataFile F) (hv : Valid n cfg file) (hv' : Valid n' cfg' file')
    (hu : cfg'.user = cfg.user) (d clock clock' : Nat) (hs : startSeed cfg' clock' % 4294967296 = (startSeed cfg clock + d) % 4294967296)
    (root r : Fin n) (root' r' : Fin n') (h0 : root.val = 0) (h0' : root'.val = 0) (hr' : 0 < r'.val)
    (he : r.val = r'.val + d ∨ r = root ∧ n = r'.val + d)
    (w : List (Label n)) (t : Sys n (Msg F) (Line F) (RSt n F)) (h : (initSys cfg file clock root).exec w = some t) (hd : t.AllDone)
    (w' : List (Label n')) (t' : Sys n' (Msg F) (Line F) (RSt n' F)) (h' : (initSys cfg' file' clock' root').exec w' = some t') (hd' : t'.AllDone) :
    (fileRows r.val (t.log r)).head?.map Row.x = (fileRows r'.val (t'.log r')).head?.map Row.x ∧ (fileRows r.val (t.log r)).head? ≠ none := by
  have e2 : r' ≠ root' := by rintro rfl; omega
  have e4 : ¬ r'.val < root'.val := by omega
  have es : seedOf root (startSeed cfg clock) r = seedOf root' (startSeed cfg' clock') r' := by
    rcases he with he | ⟨rfl, he⟩
    · have e1 : r ≠ root := by rintro rfl; omega
      have e3 : ¬ r'.val + d < root.val := by omega
      simp only [seedOf, if_neg e1, if_neg e2, he, if_neg e3, if_neg e4]
      omega
    · simp only [seedOf, if_true, if_neg e2, if_neg e4]
      omega
  have h1 := first_row cfg file hv clock root w t h hd r
  refine ⟨by rw [h1, first_row cfg' file' hv' clock' root' w' t' h' hd' r', hu, es], fun hn => ?_⟩
  rw [hn] at h1
  cases h1

/-- **C122.** Two runs of the same model with seeds `s` and `s + d` in their inputs, with any other settings, numbers of ranks and times: the chain of
rank `r + d` of the first and that of rank `r` of the second (`r` not root) start from the same point; so does the chain of root of the first, if it has
`r + d` ranks. -/
theorem neighbour_starts [LawfulDraws F] {n' : Nat} (cfg cfg' : Cfg F) (file file' : DataFile F) (hv : Valid n cfg file) (hv' : Valid n' cfg' file')
    (hu : cfg'.user = cfg.user) (d : Nat) (hseed : cfg.initSeed ≠ 0) (hseed' : cfg'.initSeed = cfg.initSeed + d) (clock clock' : Nat)
    (root r : Fin n) (root' r' : Fin n') (h0 : root.val = 0) (h0' : root'.val = 0) (hr' : 0 < r'.val)
    (he : r.val = r'.val + d ∨ r = root ∧ n = r'.val + d)
    (w : List (Label n)) (t : Sys n (Msg F) (Line F) (RSt n F)) (h : (initSys cfg file clock root).exec w = some t) (hd : t.AllDone)
    (w' : List (Label n')) (t' : Sys n' (Msg F) (Line F) (RSt n' F)) (h' : (initSys cfg' file' clock' root').exec w' = some t') (hd' : t'.AllDone) :
    (fileRows r.val (t.log r)).head?.map Row.x = (fileRows r'.val (t'.log r')).head?.map Row.x ∧ (fileRows r.val (t.log r)).head? ≠ none :=
  shared_starts cfg cfg' file file' hv hv' hu d clock clock'
    (by rw [startSeed, startSeed, if_neg hseed, if_neg (by omega), hseed']) root r root' r' h0 h0' hr' he w t h hd w' t' h' hd'

/-- **C122** (the clock). Two runs of the same model without a seed in the input, the second started `d` seconds after the first: again rank `r + d` of the first
and rank `r` of the second start from the same point, and root of the first as well if it has `r + d` ranks. -/
theorem started_together [LawfulDraws F] {n' : Nat} (cfg cfg' : Cfg F) (file file' : DataFile F) (hv : Valid n cfg file) (hv' : Valid n' cfg' file')
    (hu : cfg'.user = cfg.user) (hseed : cfg.initSeed = 0) (hseed' : cfg'.initSeed = 0) (clock d : Nat)
    (root r : Fin n) (root' r' : Fin n') (h0 : root.val = 0) (h0' : root'.val = 0) (hr' : 0 < r'.val)
    (he : r.val = r'.val + d ∨ r = root ∧ n = r'.val + d)
    (w : List (Label n)) (t : Sys n (Msg F) (Line F) (RSt n F)) (h : (initSys cfg file clock root).exec w = some t) (hd : t.AllDone)
    (w' : List (Label n')) (t' : Sys n' (Msg F) (Line F) (RSt n' F)) (h' : (initSys cfg' file' (clock + d) root').exec w' = some t') (hd' : t'.AllDone) :
    (fileRows r.val (t.log r)).head?.map Row.x = (fileRows r'.val (t'.log r')).head?.map Row.x ∧ (fileRows r.val (t.log r)).head? ≠ none :=
  shared_starts cfg cfg' file file' hv hv' hu d clock (clock + d)
    (by rw [startSeed, startSeed, if_pos hseed, if_pos hseed']; omega) root r root' r' h0 h0' hr' he w t h hd w' t' h' hd'

/-- The demo without a seed, started again one second later. -/
example (clock : Nat) (w : List (Label 3)) (t : Sys 3 (Msg ℝ) (Line ℝ) (RSt 3 ℝ)) (h : (initSys { demoCfg with initSeed := 0 } demoFile clock 0).exec w = some t)
    (hd : t.AllDone) (w' : List (Label 3)) (t' : Sys 3 (Msg ℝ) (Line ℝ) (RSt 3 ℝ))
    (h' : (initSys { demoCfg with initSeed := 0 } demoFile (clock + 1) 0).exec w' = some t') (hd' : t'.AllDone) :
    (fileRows 2 (t.log 2)).head?.map Row.x = (fileRows 1 (t'.log 1)).head?.map Row.x ∧ (fileRows 2 (t.log 2)).head? ≠ none :=
  started_together { demoCfg with initSeed := 0 } { demoCfg with initSeed := 0 } demoFile demoFile { demo_valid with } { demo_valid with } rfl rfl rfl clock 1 0 2 0 1
    rfl rfl (by decide) (.inl rfl) w t h hd w' t' h' hd'

/-- The demo and a run of it, with swaps and tuning, whose seed is one higher: rank 2 of the first starts where rank 1 of the second does. -/
example (clock clock' : Nat) (w : List (Label 3)) (t : Sys 3 (Msg ℝ) (Line ℝ) (RSt 3 ℝ)) (h : (initSys demoCfg demoFile clock 0).exec w = some t) (hd : t.AllDone)
    (w' : List (Label 3)) (t' : Sys 3 (Msg ℝ) (Line ℝ) (RSt 3 ℝ)) (h' : (initSys { demoCfg with initSeed := 21 } demoFile clock' 0).exec w' = some t')
    (hd' : t'.AllDone) :
    (fileRows 2 (t.log 2)).head?.map Row.x = (fileRows 1 (t'.log 1)).head?.map Row.x ∧ (fileRows 2 (t.log 2)).head? ≠ none :=
  neighbour_starts demoCfg { demoCfg with initSeed := 21 } demoFile demoFile demo_valid { demo_valid with } rfl 1 (by simp [demoCfg]) rfl clock clock' 0 2 0 1 rfl rfl
    (by decide) (.inl rfl) w t h hd w' t' h' hd'

/-- Root of three ranks starts where rank 3 of four does. -/
example (clock clock' : Nat) (w : List (Label 3)) (t : Sys 3 (Msg ℝ) (Line ℝ) (RSt 3 ℝ)) (h : (initSys demoCfg demoFile clock 0).exec w = some t) (hd : t.AllDone)
    (w' : List (Label 4)) (t' : Sys 4 (Msg ℝ) (Line ℝ) (RSt 4 ℝ))
    (h' : (initSys { soloCfg with betas := [1 / 10, 1 / 2, 3 / 4, 1] } demoFile clock' 0).exec w' = some t') (hd' : t'.AllDone) :
    (fileRows 0 (t.log 0)).head?.map Row.x = (fileRows 3 (t'.log 3)).head?.map Row.x ∧ (fileRows 0 (t.log 0)).head? ≠ none :=
  neighbour_starts demoCfg _ demoFile demoFile demo_valid solo4_valid rfl 0 (by simp [demoCfg]) rfl clock clock' 0 0 0 3 rfl rfl
    (by decide) (.inr ⟨rfl, rfl⟩) w t h hd w' t' h' hd'

end NiiC
