import Verif.Props.Salvage
import Verif.Props.Together

/-!
# A rank that stops holds up the others within a batch: C118
-/

set_option linter.unusedSectionVars false

namespace NiiC

open Sys Spec

section generic
variable {n : Nat} {V L α : Type}

/-- Only a rank itself writes its lines. -/
theorem Sys.step_log {s t : Sys n V L α} {l : Label n} {r : Fin n} (hl : l ≠ .rank r) (hs : s.step l = some t) : t.log r = s.log r := by
  cases l with
  | rank p =>
    have hp : r ≠ p := fun h => hl (by rw [h])
    simp only [Sys.step, Sys.stepRank] at hs
    split at hs
    · cases hs; rfl
    · split at hs <;> cases hs; rfl
    · cases hs; exact Function.update_of_ne hp _ _
    · cases hs
  | barrier =>
    simp only [Sys.step, Sys.stepBarrier] at hs
    split at hs <;> cases hs
    rfl

theorem Sys.exec_log_quiet {s t : Sys n V L α} {w : List (Label n)} {r : Fin n} (hw : .rank r ∉ w) (hs : s.exec w = some t) : t.log r = s.log r := by
  induction w generalizing s with
  | nil => cases hs; rfl
  | cons l w ih =>
    simp only [List.mem_cons, not_or] at hw
    rw [Sys.exec_cons, Option.bind_eq_some_iff] at hs
    obtain ⟨u, h1, h2⟩ := hs
    rw [ih hw.2 h2, Sys.step_log (fun h => hw.1 h.symm) h1]

/-- A rank that has stopped does nothing more. -/
theorem Sys.exec_stopped {s t : Sys n V L α} {w : List (Label n)} {r : Fin n} {f : Fault} (hf : s.procs r = .fault f) (hs : s.exec w = some t) :
    .rank r ∉ w := by
  induction w generalizing s with
  | nil => simp
  | cons l w ih =>
    rw [Sys.exec_cons, Option.bind_eq_some_iff] at hs
    obtain ⟨u, h1, h2⟩ := hs
    have hl : Label.rank r ≠ l := by
      rintro rfl
      simp [Sys.step, Sys.stepRank, hf] at h1
    have hu : u.procs r = .fault f := by
      cases l with
      | rank p =>
        have hp : r ≠ p := fun h => hl (by rw [h])
        simp only [Sys.step, Sys.stepRank] at h1
        split at h1
        · cases h1; exact (Function.update_of_ne hp _ _).trans hf
        · split at h1 <;> cases h1; exact (Function.update_of_ne hp _ _).trans hf
        · cases h1; exact (Function.update_of_ne hp _ _).trans hf
        · cases h1
      | barrier =>
        simp only [Sys.step, Sys.stepBarrier] at h1
        split at h1 <;> cases h1
        simp [hf, Proc.barrier?]
    simp only [List.mem_cons, not_or]
    exact ⟨hl, ih hu h2⟩

end generic

variable {n : Nat} {F : Type} [Arith F] [Source F]

/-- **C118.** Ranks may stop anywhere, for any reason. At every moment the numbers of rows of any two chain files differ by at most the
greatest length of a batch; and from the moment on when a rank stops or only hangs, no other rank gets further than that beyond it. -/
theorem stopped_abreast [LawfulDraws F] (cfg : Cfg F) (file : DataFile F) (hv : Valid n cfg file) (clock : Nat) (root : Fin n)
    (progs : Fin n → Proc n (Msg F) (Line F) (RSt n F)) (hc : ∀ r, Cut (progs r) (mainProg cfg file clock root r))
    (w w' : List (Label n)) (t t' : Sys n (Msg F) (Line F) (RSt n F)) (ht : (startSys progs).exec w = some t) (ht' : t.exec w' = some t')
    (r : Fin n) (hr : (∃ f, t.procs r = .fault f) ∨ .rank r ∉ w') :
    t'.log r = t.log r ∧
    ∀ s : Fin n, ((fileRows s.val (t'.log s)).length : Int) ≤ (fileRows r.val (t.log r)).length + (cfg.base + cfg.rand) := by
  have hq : .rank r ∉ w' := by
    rcases hr with ⟨f, hf⟩ | hq
    · exact Sys.exec_stopped hf ht'
    · exact hq
  have hlog := Sys.exec_log_quiet hq ht'
  refine ⟨hlog, fun s => ?_⟩
  have he : (startSys progs).exec (w ++ w') = some t' := by rw [Sys.exec_append, ht]; exact ht'
  obtain ⟨u, h1, h2⟩ := CutSys.exec (s' := startSys progs) (s := initSys cfg file clock root) ⟨hc, rfl, rfl⟩ he
  have := files_abreast cfg file hv clock root (w ++ w') u h1 s r
  rw [← h2.log, hlog] at this
  exact this

/-- **C118.** Where ranks stop anywhere, for any reason, and one chain file has got as far as iteration `row.iter`, the chain file of every
rank, stopped or not, begins with the complete chain file of the run that is shorter by the greatest length of a batch. -/
theorem stopped_salvage [LawfulDraws F] (cfg : Cfg F) (file : DataFile F) (hv : Valid n cfg file) (clock : Nat) (root : Fin n)
    (progs : Fin n → Proc n (Msg F) (Line F) (RSt n F)) (hc : ∀ r, Cut (progs r) (mainProg cfg file clock root r))
    (w w' : List (Label n)) (t t' : Sys n (Msg F) (Line F) (RSt n F)) (ht : (startSys progs).exec w = some t)
    (s : Fin n) (row : Row F) (hrow : row ∈ fileRows s.val (t.log s)) (N : Nat) (h1 : 1 ≤ N) (hs : cfg.saveBegin ≤ N)
    (hN : (N : Int) + (cfg.base + cfg.rand) ≤ row.iter)
    (ht' : (initSys { cfg with nIter := N } file clock root).exec w' = some t') (hd : t'.AllDone) (r : Fin n) :
    fileRows r.val (t'.log r) <+: fileRows r.val (t.log r) := by
  obtain ⟨u, h2, h3⟩ := CutSys.exec (s' := startSys progs) (s := initSys cfg file clock root) ⟨hc, rfl, rfl⟩ ht
  rw [h3.log] at hrow ⊢
  exact killed_run cfg file hv clock root w w' u t' h2 s row hrow N h1 hs hN ht' hd r

/-! ## Examples -/

/-- Rank 1 is killed after 99 actions. -/
example (w w' : List (Label 3)) (t t' : Sys 3 (Msg ℝ) (Line ℝ) (RSt 3 ℝ)) (f : Fault)
    (ht : (startSys fun r => (mainProg demoCfg demoFile 0 0 r).killed (if r = 1 then 99 else 1000000)).exec w = some t)
    (hf : t.procs 1 = .fault f) (ht' : t.exec w' = some t') :
    ((fileRows 2 (t'.log 2)).length : Int) ≤ (fileRows 1 (t.log 1)).length + 60 :=
  (stopped_abreast demoCfg demoFile demo_valid 0 0 _ (fun _ => cut_killed _ _) w w' t t' ht ht' 1 (.inl ⟨f, hf⟩)).2 2

/-- Rank 1 hangs. -/
example (w w' : List (Label 3)) (t t' : Sys 3 (Msg ℝ) (Line ℝ) (RSt 3 ℝ))
    (ht : (startSys fun r => (mainProg demoCfg demoFile 0 0 r).killed 1000000).exec w = some t) (hq : .rank 1 ∉ w') (ht' : t.exec w' = some t') :
    ((fileRows 2 (t'.log 2)).length : Int) ≤ (fileRows 1 (t.log 1)).length + 60 :=
  (stopped_abreast demoCfg demoFile demo_valid 0 0 _ (fun _ => cut_killed _ _) w w' t t' ht ht' 1 (.inr hq)).2 2

/-- Rank 1 is killed after 5000 actions, when rank 0 has written its row 780. -/
example (w w' : List (Label 3)) (t t' : Sys 3 (Msg ℝ) (Line ℝ) (RSt 3 ℝ))
    (ht : (startSys fun r => (mainProg demoCfg demoFile 0 0 r).killed (if r = 1 then 5000 else 1000000)).exec w = some t)
    (row : Row ℝ) (hrow : row ∈ fileRows 0 (t.log 0)) (hi : row.iter = 780)
    (ht' : (initSys { demoCfg with nIter := 700 } demoFile 0 0).exec w' = some t') (hd : t'.AllDone) :
    fileRows 1 (t'.log 1) <+: fileRows 1 (t.log 1) :=
  stopped_salvage demoCfg demoFile demo_valid 0 0 _ (fun _ => cut_killed _ _) w w' t t' ht 0 row hrow 700 (by omega) (by simp [demoCfg])
    (by rw [hi]; simp [demoCfg]) ht' hd 1

end NiiC
