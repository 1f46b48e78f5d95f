import Verif.Refine.Main

/-!
# The start of a run apart from the main loop

`main` is `startProg`, then the main loop, then a barrier. With this the main loop can be looked at for any number of its rounds.
-/

set_option linter.unusedSectionVars false
set_option linter.unusedSimpArgs false

namespace NiiC

open Proc Sys Spec

variable {n : Nat} {F : Type} [Arith F] [Source F]

/-- `main` up to the call of `mpi_entire_flow`, main.c:64-203. -/
def startProg (cfg : Cfg F) (file : DataFile F) (clock : Nat) (root me : Fin n) : P n F (RSt n F) := do
  outs (if me = root then [.mkdir] else [])
  let nline ← bcastInt me root (if me = root then file.nlines else 0)
  let cells ← lift (i32 (nline * file.ndim))
  let _ ← lift (if cells < 0 then .error .badAlloc else .ok ())
  let own ← lift (if me = root then file.cells else .ok [])
  let data ← bcastDbls me root cells.toNat own
  let x ← genInitParm cfg me root (startSeed cfg clock)
  let lp ← initCalc cfg me root nline data x.1
  barrier
  let sigma := cfg.user.initGp cfg.initGpRatio
  outs [.sigma me.val sigma]
  let sig ← gatherSigma cfg me root sigma
  let beta ← lift (copyBetas n cfg.betas)
  let tab : Option (Tab n F) :=
    match x.1, lp, sig with
    | some x, some lp, some sig => some { x := x, lp := lp, sig := sig }
    | _, _, _ => none
  .ret { loc := { g := x.2, sigma := sigma, beta := beta, acc := 0, accA := 0, nline := nline, data := data }, tab := tab }

/-- The program of a rank in which at most `rounds` rounds of the main loop are run. A rank whose main loop has more to do after that is at
`fault fuel`: this is not an outcome of the C program, it only marks where the looking ends. -/
def mainFor (rounds : Nat) (cfg : Cfg F) (file : DataFile F) (clock : Nat) (root me : Fin n) : P n F (RSt n F) :=
  (startProg cfg file clock root me).bind fun s => (flowLoop cfg me root rounds cfg.nStack 0 0 s).bind fun s => NiiC.barrier.bind fun _ => .ret s

/-- The program with at most `rounds` rounds, on all ranks. -/
def sysFor (rounds : Nat) (cfg : Cfg F) (file : DataFile F) (clock : Nat) (root : Fin n) : Sys n (Msg F) (Line F) (RSt n F) :=
  { procs := mainFor rounds cfg file clock root, chan := fun _ => [], log := fun _ => [] }

/-- The program of a rank as it is modelled elsewhere. -/
theorem mainProg_for (cfg : Cfg F) (file : DataFile F) (clock : Nat) (root me : Fin n) :
    mainProg cfg file clock root me = mainFor cfg.nIter.toNat cfg file clock root me := by
  have e {α β : Type} (x : P n F α) (f : α → P n F β) : (x >>= f) = x.bind f := rfl
  simp only [mainFor, startProg, mainProg, entireFlow, e, Proc.bind_assoc]
  rfl

theorem initSys_for (cfg : Cfg F) (file : DataFile F) (clock : Nat) (root : Fin n) :
    initSys cfg file clock root = sysFor cfg.nIter.toNat cfg file clock root := by
  unfold initSys sysFor
  congr 1
  exact funext fun r => mainProg_for cfg file clock root r

/-- `main` up to the main loop. -/
theorem startProg_runs (cfg : Cfg F) (hu : cfg.user.Wf cfg.nParm) (file : DataFile F) (clock : Nat) (root : Fin n) (w : W n F)
    (h0 : seqInit cfg file clock root = .ok w) :
    RunsTo (fun r => startProg cfg file clock root r) (fun _ => []) w.log (view root w.st) := by
  have hn : 0 < n := Nat.lt_of_le_of_lt (Nat.zero_le _) root.isLt
  simp only [seqInit, exc_bind, Except.ok.injEq] at h0
  obtain ⟨cells, hcells, data, hdata, _, hneg, _, hlen, _, hpar, beta, hbeta, rfl⟩ := h0
  have hneg' : ¬ cells < 0 := by
    intro h; rw [if_pos h] at hneg; cases hneg
  have hlen' : data.length = cells.toNat := by
    by_contra h; rw [if_pos h] at hlen; cases hlen
  have hpar' : cfg.nParm ≠ 0 := by
    intro h; rw [if_pos h] at hpar; cases hpar
  refine RunsVia.runs (q := fun r => .ret (view root _ r)) ?_ (RunsTo.ret _ _)
  refine RunsTo.via (RunsTo.outs _ _) ?_
  refine RunsTo.via (RunsTo.congr_res (bcastInt_runs root _ _) (res' := fun _ => file.nlines) (fun r => by simp)
    (fun _ => rfl)) ?_
  refine RunsTo.via (RunsTo.lift (fun _ => hcells) _) ?_
  refine RunsTo.via (RunsTo.lift (a := fun _ => ()) (fun _ => if_neg hneg') _) ?_
  refine RunsTo.via (RunsTo.lift (a := fun r => if r = root then data else []) (fun r => ?_) _) ?_
  · by_cases hr : r = root
    · simp [hr, hdata]
    · simp [hr]
  refine RunsTo.via (RunsTo.congr_res (bcastDbls_runs root _ _ (by simp [hlen']) _) (res' := fun _ => data)
    (fun r => by simp) (fun _ => rfl)) ?_
  refine RunsTo.via (genInitParm_runs cfg hu hpar' root (startSeed cfg clock) _) ?_
  refine RunsTo.via (initCalc_runs cfg root file.nlines data _ beta hbeta (fun r => hu.initParm _) _) ?_
  refine RunsTo.via (RunsTo.barrier hn _) ?_
  refine RunsTo.via (RunsTo.outs _ _) ?_
  refine RunsTo.via (gatherSigma_runs cfg root (fun _ => cfg.user.initGp cfg.initGpRatio) (fun r => hu.initGp _) _) ?_
  refine RunsTo.via (RunsTo.lift (fun _ => hbeta) _) ?_
  refine RunsVia.congr_end (RunsVia.refl _ _) (fun r => ?_) (fun r => by simp)
  by_cases hr : r = root
  · subst hr; simp [view, G.loc, G.tab]
  · simp [view, G.loc, hr]

end NiiC
