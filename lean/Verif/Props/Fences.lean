import Verif.Props.Protocol

/-!
# The barriers decide nothing: C114

The program without its calls of `MPI_Barrier` ends under every schedule and every buffering policy, with the same variables on
every rank and the same lines written by every rank.
-/

set_option linter.unusedSectionVars false

namespace NiiC

open Proc Sys

variable {n : Nat} {V L α : Type}

/-- The rank program with every `MPI_Barrier` taken out (main.c:163,207; mpi_flow.c:73,98,106,127; mpi_stack.c:141,150,193;
mpi_tune.c:172,201,207,256). -/
def Proc.unfenced : Proc n V L α → Proc n V L α
  | .ret a => .ret a
  | .send d t v k => .send d t v k.unfenced
  | .recv s t k => .recv s t fun v => (k v).unfenced
  | .barrier k => k.unfenced
  | .out l k => .out l k.unfenced
  | .fault e => .fault e

/-- The world in which nobody calls `MPI_Barrier`. -/
def Sys.unfenced (s : Sys n V L α) : Sys n V L α := { s with procs := fun r => (s.procs r).unfenced }

theorem unfenced_update (f : Fin n → Proc n V L α) (r : Fin n) (p : Proc n V L α) :
    (fun r' => (Function.update f r p r').unfenced) = Function.update (fun r' => (f r').unfenced) r p.unfenced := by
  funext r'
  by_cases h : r' = r
  · subst h; simp
  · simp [Function.update_of_ne h]

/-- An action of a rank is the same action without barriers. -/
theorem unfenced_stepRank {s s' : Sys n V L α} {r : Fin n} (h : s.stepRank r = some s') :
    s.unfenced.stepRank r = some s'.unfenced := by
  unfold Sys.stepRank at h
  split at h
  · rename_i d t v k hk
    cases h
    simp [Sys.stepRank, Sys.unfenced, hk, Proc.unfenced, unfenced_update]
  · rename_i src t k hk
    split at h
    · cases h
    · rename_i v q hq
      cases h
      simp [Sys.stepRank, Sys.unfenced, hk, hq, Proc.unfenced, unfenced_update]
  · rename_i l k hk
    cases h
    simp [Sys.stepRank, Sys.unfenced, hk, Proc.unfenced, unfenced_update]
  · cases h

/-- Leaving a barrier is no action at all. -/
theorem unfenced_stepBarrier {s s' : Sys n V L α} (h : s.stepBarrier = some s') : s'.unfenced = s.unfenced := by
  unfold Sys.stepBarrier at h
  split at h
  · rename_i hall
    cases h
    unfold Sys.unfenced
    congr 1
    funext r
    have hb := hall.2 r
    show ((s.procs r).barrier?.getD (s.procs r)).unfenced = (s.procs r).unfenced
    revert hb
    cases s.procs r <;> intro hb <;> first | rfl | cases hb
  · cases h

/-- An execution that never relies on buffering is one without barriers. -/
theorem unfenced_star {s f : Sys n V L α} (h : SyncStar s f) : SyncStar s.unfenced f.unfenced := by
  induction h with
  | refl s => exact .refl _
  | head h _ ih =>
    cases h with
    | rendezvous a b t v k k' hne ha hb hq h1 h2 =>
      exact .head (.rendezvous a b t v k.unfenced (fun v => (k' v).unfenced) hne (by simp [Sys.unfenced, ha, Proc.unfenced])
        (by simp [Sys.unfenced, hb, Proc.unfenced]) hq (unfenced_stepRank h1) (unfenced_stepRank h2)) ih
    | out r l k hr h =>
      exact .head (.out r l k.unfenced (by simp [Sys.unfenced, hr, Proc.unfenced]) (unfenced_stepRank h)) ih
    | barrier h =>
      rw [unfenced_stepBarrier h] at ih
      exact ih

/-- One complete unbuffered execution is enough for every policy. -/
theorem star_runs {s f : Sys n V L α} (hs : SyncStar s f) (hf : f.AllDone) :
    ∃ bound : Nat, ∀ (pol : Policy n V L α) (w : List (Label n)) (t : Sys n V L α),
      Run pol s w t → (t.AllDone ∨ t.CanMove pol) ∧ w.length ≤ bound := by
  obtain ⟨w1, h1⟩ := hs.exec
  refine ⟨w1.length, fun pol w t hrun => ⟨?_, ?_⟩⟩
  · rcases progress hs hf hrun.exec with h | h
    · exact .inl h
    · refine .inr ?_
      cases h with
      | rendezvous a b tg v k k' ha hb hq =>
        exact ⟨.rank a, _, by simp only [Allowed, ha]; exact .inr ⟨k', hb⟩, by simp only [step, stepRank, ha]; rfl⟩
      | recv b src tg v q k' hb hq =>
        exact ⟨.rank b, _, by simp only [Allowed, hb], by simp only [step, stepRank, hb, hq]; rfl⟩
      | out r l k hr => exact ⟨.rank r, _, by simp only [Allowed, hr], by simp only [step, stepRank, hr]; rfl⟩
      | barrier h => exact ⟨.barrier, _, trivial, by simp only [step, stepBarrier, if_pos h]; rfl⟩
  · obtain ⟨w3, _, hl⟩ := exec_complete h1 (terminal_of_allDone hf) hrun.exec
    omega

/-- A finished state is the only one. -/
theorem done_unique {s f t : Sys n V L α} (hs : SyncStar s f) (hf : f.AllDone) {w : List (Label n)} (hw : s.exec w = some t)
    (ht : t.AllDone) : t = f := by
  obtain ⟨w1, h1⟩ := hs.exec
  obtain ⟨w3, h3, _⟩ := exec_complete h1 (terminal_of_allDone hf) hw
  cases w3 with
  | nil => simpa using h3
  | cons l w =>
    simp only [exec_cons, terminal_of_allDone ht l, Option.bind_none] at h3
    cases h3

variable {F : Type} [Arith F] [Source F]

/-- **C114.** Without its barriers the program does not deadlock either, under any schedule and buffering policy, and it ends in
the very state in which the program with barriers ends: the same variables and the same lines on every rank. -/
theorem barriers_decide_nothing [LawfulDraws F] (cfg : Cfg F) (file : DataFile F) (hv : Valid n cfg file) (clock : Nat)
    (root : Fin n) :
    (∃ bound : Nat, ∀ (pol : Policy n (Msg F) (Line F) (RSt n F)) (w : List (Label n)) (t : Sys n (Msg F) (Line F) (RSt n F)),
      Run pol (initSys cfg file clock root).unfenced w t → (t.AllDone ∨ t.CanMove pol) ∧ w.length ≤ bound) ∧
    ∀ (w w' : List (Label n)) (t t' : Sys n (Msg F) (Line F) (RSt n F)),
      (initSys cfg file clock root).unfenced.exec w = some t → t.AllDone →
      (initSys cfg file clock root).exec w' = some t' → t'.AllDone → t = t' := by
  obtain ⟨wf, hwf⟩ := seqMain_total cfg file hv clock root
  have hs := initSys_star cfg hv.user file clock root wf hwf
  have hu : SyncStar (initSys cfg file clock root).unfenced (finalSys root wf) := unfenced_star hs
  refine ⟨star_runs hu (finalSys_done root wf), fun w w' t t' hw ht hw' ht' => ?_⟩
  rw [done_unique hu (finalSys_done root wf) hw ht, done_unique hs (finalSys_done root wf) hw' ht']

/-- The chain files of the demo are the same with and without barriers. -/
example (w w' : List (Label 3)) (t t' : Sys 3 (Msg ℝ) (Line ℝ) (RSt 3 ℝ)) (hw : (initSys demoCfg demoFile 0 0).unfenced.exec w = some t)
    (ht : t.AllDone) (hw' : (initSys demoCfg demoFile 0 0).exec w' = some t') (ht' : t'.AllDone) (r : Fin 3) :
    fileRows r.val (t.log r) = fileRows r.val (t'.log r) := by
  rw [(barriers_decide_nothing demoCfg demoFile demo_valid 0 0).2 w w' t t' hw ht hw' ht']

end NiiC
