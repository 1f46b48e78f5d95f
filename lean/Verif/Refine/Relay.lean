import Verif.Refine.Main

/-!
# The program over any implementation of its collectives

`Colls` is an implementation of `MPI_Bcast` and `MPI_Barrier` by whatever messages it likes. `Relay.mainProg` is `mainProg` of
Model/Spmd.lean with the calls of the two collectives handed to such an implementation; `Relay.mainProg_plain` says so. The
refinement proofs of Stack.lean, Tune.lean and Main.lean are replayed with the law `Colls.Works` in place of the two facts about
the collectives.
-/

set_option linter.unusedSectionVars false
set_option linter.unusedSimpArgs false
set_option linter.unusedVariables false

namespace NiiC

open Proc Sys Spec

variable {n : Nat} {F : Type} [Arith F]

/-- An implementation of the two collectives the code calls: `MPI_Bcast` (data_loader.c:23,89; mpi_flow.c:198; mpi_tune.c:170,171) and
`MPI_Barrier`. -/
structure Colls (n : Nat) (F : Type) where
  bcast : (me root : Fin n) → Msg F → P n F (Msg F)
  barrier : (me : Fin n) → P n F Unit

/-- What the MPI standard asks of them: if every rank calls, every rank returns, a broadcast with the value of the root, and no
message is left over. One execution that needs no buffering is enough. -/
structure Colls.Works (A : Colls n F) : Prop where
  bcast : ∀ (root : Fin n) (v : Fin n → Msg F) (log : Fin n → List (Line F)),
    RunsTo (fun r => A.bcast r root (v r)) log log (fun _ => v root)
  barrier : ∀ log : Fin n → List (Line F), RunsTo (fun r => A.barrier r) log log (fun _ => ())

/-- The collectives of Model/Spmd.lean. -/
def Colls.plain : Colls n F := { bcast := NiiC.bcast, barrier := fun _ => NiiC.barrier }

namespace Relay

/-- `MPI_Bcast` of `len` doubles, checked. With the collectives of `A`. -/
def bcastDbls (A : Colls n F) (me root : Fin n) (len : Nat) (xs : List F) : P n F (List F) :=
  (A.bcast me root (.dbl xs)).bind fun m =>
    match m with | .dbl xs => if xs.length = len then .ret xs else .fault .msg | _ => .fault .msg

/-- `MPI_Bcast` of one double, checked. With the collectives of `A`. -/
def bcastDbl (A : Colls n F) (me root : Fin n) (x : F) : P n F F :=
  (A.bcast me root (.dbl [x])).bind fun m => match m with | .dbl [x] => .ret x | _ => .fault .msg

/-- `MPI_Bcast` of one int, checked. With the collectives of `A`. -/
def bcastInt (A : Colls n F) (me root : Fin n) (x : Int) : P n F Int :=
  (A.bcast me root (.int x)).bind fun m => match m with | .int x => .ret x | _ => .fault .msg

/-- `MPI_Bcast` of one int per rank, checked. With the collectives of `A`. -/
def bcastInts (A : Colls n F) (me root : Fin n) (f : Fin n → Int) : P n F (Fin n → Int) :=
  (A.bcast me root (.ints (List.ofFn f))).bind fun m =>
    match m with
    | .ints xs => if h : xs.length = n then .ret (fun r => xs[r.val]'(by rw [h]; exact r.isLt)) else .fault .msg
    | _ => .fault .msg

variable [Source F]

/-- The `while` loop of `mpi_static_sigma_stack`, mpi_stack.c:100-198. With the collectives of `A`. -/
def stackLoop (A : Colls n F) (cfg : Cfg F) (me root slave : Fin n) (nStack : Int) :
    (fuel : Nat) → (iTmp iNext : Int) → RSt n F → Tally n F → P n F (RSt n F × Tally n F)
  | 0, _, iNext, s, ty => if iNext < nStack then .fault .fuel else .ret (s, ty)
  | fuel + 1, iTmp, iNext, s, ty =>
    if iNext < nStack then do
      let a ← announce cfg me root nStack iTmp s
      A.barrier me
      let s ← runBatch cfg me root a.1.1 a.2
      A.barrier me
      let r ← swapLoop cfg me root slave cfg.nSwap.toNat s ty
      A.barrier me
      stackLoop A cfg me root slave nStack fuel a.1.2 a.1.2 r.1 r.2
    else .ret (s, ty)

/-- `mpi_static_sigma_stack`, mpi_stack.c:53-216. With the collectives of `A`. -/
def runStack (A : Colls n F) (cfg : Cfg F) (me root : Fin n) (nStack : Int) (s : RSt n F) : P n F (RSt n F) := do
  let slave ← lift (slaveRank root)
  outs (if me = root then [.betas (List.ofFn s.loc.beta)] else [])
  let r ← stackLoop A cfg me root slave nStack nStack.toNat 0 0 s Tally.zero
  if (r.1.loc.acc : Int) < cfg.nStopTuneLadder ∧ 0 < cfg.tuneLadder then adjustLadder cfg me root r.1 r.2
  else .ret r.1

/-- Loop B, mpi_tune.c:176-215, from parameter `j` with `k` to go. With the collectives of `A`. -/
def tuneParms (A : Colls n F) (cfg : Cfg F) (me root rk : Fin n) (x : List F) (lp : F) :
    (k j : Nat) → Loc n F → Option (TuneSt n F) → P n F (Loc n F × Option (TuneSt n F))
  | 0, _, s, ts => .ret (s, ts)
  | k + 1, j, s, ts => do
    let rows ← lift (trialTable rk j ts)
    let sg ← distributeSigma cfg me root rows
    A.barrier me
    let a ← tuneParm cfg me root rk x lp { s with sigma := sg }
    A.barrier me
    let ts' : Option (TuneSt n F) :=
      match ts, a.1 with
      | some t, some row => some { t with ars := t.ars ++ [row] }
      | _, _ => ts
    tuneParms A cfg me root rk x lp k (j + 1) { s with sigma := sg, g := a.2 } ts'

/-- `mpi_tune_sigma_irank`, mpi_tune.c:112-260, for the rank `rk` in tune. With the collectives of `A`. -/
def tuneRank (A : Colls n F) (cfg : Cfg F) (me root rk : Fin n) (s : RSt n F) : P n F (RSt n F) := do
  let st ← tuneStart cfg root rk me s
  let x ← bcastDbls A me root cfg.nParm st.2.1
  let lp ← bcastDbl A me root st.2.2
  A.barrier me
  let r ← tuneParms A cfg me root rk x lp cfg.nParm 0 s.loc st.1
  let s' ← lift (tuneFinish cfg rk r.1 r.2)
  A.barrier me
  .ret s'

/-- `mpi_find_ranks2tune`, mpi_flow.c:145-201: the flags of all ranks. With the collectives of `A`. -/
def findRanks (A : Colls n F) (cfg : Cfg F) (me root : Fin n) (rate : F) : P n F (Fin n → Int) := do
  let fl ←
    (if me = root then
      forSlaves root (fun i fl => do
        let v ← recvInt i (slavereturn 0)
        .ret (Function.update fl i v)) (List.finRange n)
        (Function.update (fun _ => tuneFlag cfg rate) root (tuneFlag cfg rate))
    else do
      sendM root (slavereturn 0) (.int (tuneFlag cfg rate))
      .ret (fun _ => tuneFlag cfg rate))
  bcastInts A me root fl

/-- Loop A, mpi_flow.c:113-129. With the collectives of `A`. -/
def tuneRanks (A : Colls n F) (cfg : Cfg F) (me root : Fin n) (fl : Fin n → Int) : List (Fin n) → RSt n F → P n F (RSt n F)
  | [], s => .ret s
  | rk :: l, s => do
    let s ← (if fl rk = 1 then tuneRank A cfg me root rk s else .ret s)
    A.barrier me
    tuneRanks A cfg me root fl l s

/-- The `while` loop of `mpi_entire_flow`, mpi_flow.c:58-135. With the collectives of `A`. -/
def flowLoop (A : Colls n F) (cfg : Cfg F) (me root : Fin n) :
    (fuel : Nat) → (nStack iTmp iNext : Int) → RSt n F → P n F (RSt n F)
  | 0, _, _, iNext, s => if iNext < cfg.nIter then .fault .fuel else .ret s
  | fuel + 1, nStack, iTmp, iNext, s =>
    if iNext < cfg.nIter then do
      let nx ← lift (i32 (iTmp + nStack))
      let nStack' := if cfg.nIter < nx then cfg.nIter - iTmp else nStack
      let nx' := if cfg.nIter < nx then cfg.nIter else nx
      let sg ← distributeSigma cfg me root (s.tab.map Tab.sig)
      A.barrier me
      outs [.sigma me.val sg]
      let s1 ← runStack A cfg me root nStack' { s with loc := { s.loc with sigma := sg } }
      A.barrier me
      let s2 ← (if inTuneWindow cfg nx' then do
          let fl ← findRanks A cfg me root (stackRate F s.loc.accA s1.loc.accA nStack')
          A.barrier me
          tuneRanks A cfg me root fl (List.finRange n) s1
        else .ret s1)
      flowLoop A cfg me root fuel nStack' nx' nx' s2
    else .ret s

/-- `mpi_entire_flow`, mpi_flow.c:40-141. With the collectives of `A`. -/
def entireFlow (A : Colls n F) (cfg : Cfg F) (me root : Fin n) (s : RSt n F) : P n F (RSt n F) :=
  flowLoop A cfg me root cfg.nIter.toNat cfg.nStack 0 0 s

/-- `main`, main.c:64-249, for a rank that has read `input.ini` into `cfg`. The results are the variables at the end
(before they are freed). With the collectives of `A`. -/
def mainProg (A : Colls n F) (cfg : Cfg F) (file : DataFile F) (clock : Nat) (root me : Fin n) : P n F (RSt n F) := do
  outs (if me = root then [.mkdir] else [])
  let nline ← bcastInt A me root (if me = root then file.nlines else 0)
  let cells ← lift (i32 (nline * file.ndim))
  let _ ← lift (if cells < 0 then .error .badAlloc else .ok ())
  let own ← lift (if me = root then file.cells else .ok [])
  let data ← bcastDbls A me root cells.toNat own
  let x ← genInitParm cfg me root (startSeed cfg clock)
  let lp ← initCalc cfg me root nline data x.1
  A.barrier me
  let sigma := cfg.user.initGp cfg.initGpRatio
  outs [.sigma me.val sigma]
  let sig ← gatherSigma cfg me root sigma
  let beta ← lift (copyBetas n cfg.betas)
  let tab : Option (Tab n F) :=
    match x.1, lp, sig with
    | some x, some lp, some sig => some { x := x, lp := lp, sig := sig }
    | _, _, _ => none
  let s ← entireFlow A cfg me root
    { loc := { g := x.2, sigma := sigma, beta := beta, acc := 0, accA := 0, nline := nline, data := data }, tab := tab }
  A.barrier me
  .ret s

/-! ## Every rank together -/

theorem bcastInt_runs {A : Colls n F} (hA : A.Works) (root : Fin n) (v : Fin n → Int) (log : Fin n → List (Line F)) :
    RunsTo (fun r => bcastInt A r root (v r)) log log (fun _ => v root) :=
  RunsTo.bind (hA.bcast root (fun r => .int (v r)) log) (RunsTo.ret _ _)

theorem bcastDbl_runs {A : Colls n F} (hA : A.Works) (root : Fin n) (v : Fin n → F) (log : Fin n → List (Line F)) :
    RunsTo (fun r => bcastDbl A r root (v r)) log log (fun _ => v root) :=
  RunsTo.bind (hA.bcast root (fun r => .dbl [v r]) log) (RunsTo.ret _ _)

theorem bcastDbls_runs {A : Colls n F} (hA : A.Works) (root : Fin n) (len : Nat) (v : Fin n → List F) (h : (v root).length = len)
    (log : Fin n → List (Line F)) : RunsTo (fun r => bcastDbls A r root len (v r)) log log (fun _ => v root) :=
  RunsTo.bind (hA.bcast root (fun r => .dbl (v r)) log)
    (RunsTo.congr (RunsTo.ret _ _) (fun r => by simp [h]))

theorem bcastInts_runs {A : Colls n F} (hA : A.Works) (root : Fin n) (v : Fin n → Fin n → Int) (log : Fin n → List (Line F)) :
    RunsTo (fun r => (bcastInts A r root (v r) : P n F _)) log log (fun _ => v root) :=
  RunsTo.bind (hA.bcast root (fun r => .ints (List.ofFn (v r))) log)
    (RunsTo.congr (RunsTo.ret _ _) (fun r => by simp))

theorem stackLoop_runs {A : Colls n F} (hA : A.Works) (cfg : Cfg F) (hu : cfg.user.Wf cfg.nParm) (root slave : Fin n) (hs : slave ≠ root) (nStack : Int) :
    ∀ (fuel : Nat) (i : Int) (w w' : W n F) (ty ty' : Tally n F),
    seqStackLoop cfg root nStack fuel i w ty = .ok (w', ty') → w.st.Ok cfg →
    w'.st.Ok cfg ∧ RunsTo (fun r => stackLoop A cfg r root slave nStack fuel i i (view root w.st r) (tyView root ty r))
      w.log w'.log (fun r => (view root w'.st r, tyView root ty' r)) := by
  have hn : 0 < n := Nat.lt_of_le_of_lt (Nat.zero_le _) root.isLt
  intro fuel
  induction fuel with
  | zero =>
    intro i w w' ty ty' h hok
    simp only [seqStackLoop] at h
    split at h
    · cases h
    · rename_i hi
      cases h
      exact ⟨hok, RunsTo.congr (RunsTo.ret _ _) (fun r => by simp only [stackLoop, if_neg hi])⟩
  | succ fuel ih =>
    intro i w w' ty ty' h hok
    simp only [seqStackLoop] at h
    split at h
    · rename_i hi
      simp only [exc_bind] at h
      obtain ⟨b, hb, w1, h1, ⟨w2, ty2⟩, h2, h3⟩ := h
      have k1 := seqBatch_ok cfg hu b.1 { w with st := w.st.setG root b.2.2 } w1 h1 (hok.setG root b.2.2)
      have k2 := swapLoop_runs cfg root slave hs _ w1 w2 ty ty2 h2 k1.1
      have k3 := ih b.2.1 w2 w' ty2 ty' h3 k2.1
      refine ⟨k3.1, ?_⟩
      refine RunsTo.congr (p' := fun r => (announce cfg r root nStack i (view root w.st r)).bind fun a =>
        (A.barrier r).bind fun _ => (runBatch cfg r root a.1.1 a.2).bind fun s => (A.barrier r).bind fun _ =>
        (swapLoop cfg r root slave cfg.nSwap.toNat s (tyView root ty r)).bind fun t => (A.barrier r).bind fun _ =>
        stackLoop A cfg r root slave nStack fuel a.1.2 a.1.2 t.1 t.2) ?_ (fun r => by simp only [stackLoop, if_pos hi]; rfl)
      refine RunsTo.bind (announce_runs cfg root nStack i w.st b hb w.log) ?_
      refine RunsTo.bind (hA.barrier _) ?_
      refine RunsTo.bind (k1.2 root) ?_
      refine RunsTo.bind (hA.barrier _) ?_
      refine RunsTo.bind k2.2 ?_
      refine RunsTo.bind (hA.barrier _) ?_
      exact k3.2
    · rename_i hi
      cases h
      exact ⟨hok, RunsTo.congr (RunsTo.ret _ _) (fun r => by simp only [stackLoop, if_neg hi])⟩

theorem runStack_runs {A : Colls n F} (hA : A.Works) (cfg : Cfg F) (hu : cfg.user.Wf cfg.nParm) (root : Fin n) (nStack : Int) (w w' : W n F)
    (h : seqStack cfg root nStack w = .ok w') (hok : w.st.Ok cfg) :
    w'.st.Ok cfg ∧ RunsTo (fun r => runStack A cfg r root nStack (view root w.st r)) w.log w'.log (view root w'.st) := by
  simp only [seqStack, exc_bind] at h
  obtain ⟨slave, hsl, ⟨w1, ty1⟩, h1, h2⟩ := h
  have k1 := stackLoop_runs hA cfg hu root slave (slaveRank_ne hsl) nStack _ 0 _ w1 Tally.zero ty1 h1 ⟨hok.acc, hok.x, hok.sig, hok.cur⟩
  have hb : RunsTo (fun r => (NiiC.outs (if r = root then [.betas (List.ofFn (view root w.st r).loc.beta)] else []) : P n F Unit))
      w.log (fun r => w.log r ++ (if r = root then [.betas (List.ofFn w.st.beta)] else [])) (fun _ => ()) :=
    RunsTo.outs _ _
  have hz : ∀ r : Fin n, tyView root (Tally.zero : Tally n F) r = Tally.zero := fun r => by simp [tyView]
  have k1' := k1.2
  simp only [hz] at k1'
  have hacc : ∀ r, (w1.st.acc r : Int) < cfg.nStopTuneLadder ∧ 0 < cfg.tuneLadder
      ↔ (w1.st.acc root : Int) < cfg.nStopTuneLadder ∧ 0 < cfg.tuneLadder := fun r => by rw [k1.1.acc r root]
  split at h2
  · rename_i hc
    cases h2
    refine ⟨⟨k1.1.acc, k1.1.x, k1.1.sig, k1.1.cur⟩, ?_⟩
    refine RunsTo.bind (RunsTo.lift (fun _ => hsl) _) (RunsTo.bind hb (RunsTo.bind k1' ?_))
    refine RunsTo.congr (adjustLadder_runs cfg root w1 ty1) (fun r => ?_)
    exact if_pos ((hacc r).2 hc)
  · rename_i hc
    cases h2
    refine ⟨k1.1, ?_⟩
    refine RunsTo.bind (RunsTo.lift (fun _ => hsl) _) (RunsTo.bind hb (RunsTo.bind k1' ?_))
    refine RunsTo.congr (RunsTo.ret (view root w1.st) _) (fun r => ?_)
    exact if_neg (fun h => hc ((hacc r).1 h))

theorem tuneParms_runs {A : Colls n F} (hA : A.Works) (cfg : Cfg F) (root rk : Fin n) (grid : List (Fin n → F)) :
    ∀ (k j : Nat) (st st' : G n F) (ars ars' : List (Fin n → F)), seqTuneParms cfg rk grid k j st ars = .ok (st', ars') →
    st.Ok cfg → st'.Ok cfg ∧ st'.tab = st.tab ∧ ∀ log : Fin n → List (Line F),
      RunsTo (fun r => tuneParms A cfg r root rk (st.x rk) (st.lp rk) k j (st.loc r) (tsView root st grid ars r)) log log
        (fun r => (st'.loc r, tsView root st' grid ars' r)) := by
  have hn : 0 < n := Nat.lt_of_le_of_lt (Nat.zero_le _) root.isLt
  intro k
  induction k with
  | zero =>
    intro j st st' ars ars' h hok
    cases h
    exact ⟨hok, rfl, fun log => RunsTo.ret _ _⟩
  | succ k ih =>
    intro j st st' ars ars' h hok
    simp only [seqTuneParms, exc_bind, allOk_ok] at h
    obtain ⟨rows, hrows, a, ha, h3⟩ := h
    have hl : ∀ r, (rows r).length = cfg.nParm := fun r => by rw [trialRows_length hrows r, hok.sig rk]
    have k3 := ih (j + 1) _ st' _ ars' h3 ⟨hok.acc, hok.x, hok.sig, hl⟩
    refine ⟨k3.1, k3.2.1, fun log => ?_⟩
    refine RunsTo.bind (RunsTo.lift (a := fun r => if r = root then some rows else none) (fun r => ?_) log) ?_
    · by_cases hr : r = root
      · subst hr; simp [trialTable, tsView, G.tab, hrows]; rfl
      · simp [trialTable, tsView, hr]
    refine RunsTo.bind (distributeSigma_runs cfg root rows hl log) ?_
    refine RunsTo.bind (hA.barrier _) ?_
    refine RunsTo.bind (tuneParm_runs cfg root rk (st.x rk) (st.lp rk) (fun r => { st.loc r with sigma := rows r }) a ha log) ?_
    refine RunsTo.bind (hA.barrier _) ?_
    refine RunsTo.congr (k3.2.2 log) (fun r => ?_)
    by_cases hr : r = root
    · subst hr; simp [tsView, G.tab, G.loc]
    · simp [tsView, hr, G.loc]

theorem tuneRank_runs {A : Colls n F} (hA : A.Works) (cfg : Cfg F) (hu : cfg.user.Wf cfg.nParm) (root rk : Fin n) (w w' : W n F)
    (h : seqTuneRank cfg root rk w = .ok w') (hok : w.st.Ok cfg) :
    w'.st.Ok cfg ∧ RunsTo (fun r => tuneRank A cfg r root rk (view root w.st r)) w.log w'.log (view root w'.st) := by
  have hn : 0 < n := Nat.lt_of_le_of_lt (Nat.zero_le _) root.isLt
  simp only [seqTuneRank, exc_bind, Except.ok.injEq] at h
  obtain ⟨grid, hgrid, ⟨st1, ars⟩, h1, d, hd, sg, hsg, rfl⟩ := h
  have k1 := tuneParms_runs hA cfg root rk grid cfg.nParm 0 w.st st1 [] ars h1 hok
  have hsl := modifySigma_length cfg hu _ grid ars d.1 sg (k1.1.sig rk) (genAllTune_length cfg _ _ _ _ hgrid) hsg
  refine ⟨⟨k1.1.acc, k1.1.x, fun r => ?_, k1.1.cur⟩, ?_⟩
  · simp only [W.push, Function.update_apply]
    split
    · exact hsl
    · exact k1.1.sig r
  · refine RunsTo.congr_res (log' := w.log) (res := view root (W.st (w.push (.tune rk)
      { st1 with g := Function.update st1.g root d.2, sig := Function.update st1.sig rk sg } (fun _ => [])))) ?_ (fun _ => rfl)
      (fun r => by simp [W.push])
    refine RunsTo.bind (a := fun r => if r = root then (tsView root w.st grid [] r, w.st.x rk, w.st.lp rk)
      else (tsView root w.st grid [] r, [], ofI 0)) (RunsTo.congr (RunsTo.ret _ w.log) (fun r => ?_)) ?_
    · by_cases hr : r = root
      · subst hr; simp [tuneStart, view, needTab, hgrid, tsView, G.tab]
      · simp [tuneStart, hr, tsView]
    refine RunsTo.bind (RunsTo.congr_res (bcastDbls_runs hA root cfg.nParm _ (by simp [hok.x rk]) w.log)
      (res' := fun _ => w.st.x rk) (fun r => by simp) (fun _ => rfl)) ?_
    refine RunsTo.bind (RunsTo.congr_res (bcastDbl_runs hA root _ w.log)
      (res' := fun _ => w.st.lp rk) (fun r => by simp) (fun _ => rfl)) ?_
    refine RunsTo.bind (hA.barrier _) ?_
    refine RunsTo.bind (RunsTo.congr (k1.2.2 w.log) (fun r => ?_)) ?_
    · by_cases hr : r = root
      · simp [hr, view]
      · simp [hr, view]
    refine RunsTo.bind (RunsTo.lift (a := view root (W.st (w.push (.tune rk)
      { st1 with g := Function.update st1.g root d.2, sig := Function.update st1.sig rk sg } (fun _ => [])))) (fun r => ?_) w.log) ?_
    · by_cases hr : r = root
      · subst hr
        have e1 : decideSigma cfg ars (st1.g r) = .ok d := hd
        have e2 : modifySigma cfg (st1.sig rk) grid ars d.1 = .ok sg := hsg
        simp only [tuneFinish, tsView, if_true, G.loc, e1, G.tab, exc_bind, e2, view, W.push, Function.update_self]
        exact ⟨d, rfl, sg, e2, rfl⟩
      · simp [tuneFinish, tsView, hr, view, W.push, G.loc]
    refine RunsTo.bind (hA.barrier _) ?_
    exact RunsTo.ret _ _

theorem findRanks_runs {A : Colls n F} (hA : A.Works) (cfg : Cfg F) (root : Fin n) (rate : Fin n → F) (log : Fin n → List (Line F)) :
    RunsTo (fun r => findRanks A cfg r root (rate r)) log log (fun _ s => tuneFlag cfg (rate s)) := by
  have hg := gather_runs (F := F) root
    (fun i fl => (recvInt i (slavereturn 0)).bind fun v => .ret (Function.update fl i v))
    (fun r => (sendM root (slavereturn 0) (.int (tuneFlag cfg (rate r)))).bind fun _ => .ret (fun _ => tuneFlag cfg (rate r)))
    (fun s => tuneFlag cfg (rate s))
    (Function.update (fun _ => tuneFlag cfg (rate root)) root (tuneFlag cfg (rate root))) id
    (fun r _ => tuneFlag cfg (rate r))
    (fun i hi s => by
      simp only [sendM, recvInt, send_bind, ret_bind, recv_bind]
      refine Pair.recv hi.symm ?_
      simp only [ret_bind]
      exact Pair.ret _ _) log
  refine RunsTo.congr (RunsTo.bind hg (f := fun r fl => bcastInts A r root fl) (RunsTo.congr_res
    (bcastInts_runs hA root _ log) (fun r => ?_) (fun _ => rfl))) (fun r => ?_)
  · funext s
    simp only [if_true, id]
    by_cases hs : s = root
    · subst hs; simp
    · simp [hs]
  · by_cases hr : r = root
    · subst hr
      simp [findRanks, Proc.bind_assoc]
    · simp [findRanks, hr, Proc.bind_assoc]

theorem tuneRanks_runs {A : Colls n F} (hA : A.Works) (cfg : Cfg F) (hu : cfg.user.Wf cfg.nParm) (root : Fin n) (fl : Fin n → Int) :
    ∀ (l : List (Fin n)) (w w' : W n F), seqTuneRanks cfg root fl l w = .ok w' → w.st.Ok cfg →
    w'.st.Ok cfg ∧ RunsTo (fun r => tuneRanks A cfg r root fl l (view root w.st r)) w.log w'.log (view root w'.st) := by
  have hn : 0 < n := Nat.lt_of_le_of_lt (Nat.zero_le _) root.isLt
  intro l
  induction l with
  | nil => intro w w' h hok; cases h; exact ⟨hok, RunsTo.ret _ _⟩
  | cons rk l ih =>
    intro w w' h hok
    simp only [seqTuneRanks, exc_bind] at h
    obtain ⟨w1, h1, h2⟩ := h
    by_cases hf : fl rk = 1
    · rw [if_pos hf] at h1
      have k1 := tuneRank_runs hA cfg hu root rk w w1 h1 hok
      have k2 := ih w1 w' h2 k1.1
      refine ⟨k2.1, ?_⟩
      refine RunsTo.bind (RunsTo.congr k1.2 (fun r => by rw [if_pos hf])) (RunsTo.bind (hA.barrier _) k2.2)
    · rw [if_neg hf] at h1
      cases h1
      have k2 := ih w w' h2 hok
      refine ⟨k2.1, ?_⟩
      refine RunsTo.bind (RunsTo.congr (RunsTo.ret (view root w.st) w.log) (fun r => by rw [if_neg hf]))
        (RunsTo.bind (hA.barrier _) k2.2)

/-- One round of the main loop. -/
theorem flowRound_via {A : Colls n F} (hA : A.Works) (cfg : Cfg F) (hu : cfg.user.Wf cfg.nParm) (root : Fin n) (fuel : Nat) (nStack i nx : Int) (w w1 w2 : W n F)
    (hi : i < cfg.nIter) (hnx : i32 (i + nStack) = .ok nx)
    (h1 : seqStack cfg root (if cfg.nIter < nx then cfg.nIter - i else nStack) (seqWidths w) = .ok w1)
    (h2 : (if inTuneWindow cfg (if cfg.nIter < nx then cfg.nIter else nx) then
        seqTuneRanks cfg root (fun r => tuneFlag cfg (stackRate F (w.st.accA r) (w1.st.accA r)
          (if cfg.nIter < nx then cfg.nIter - i else nStack))) (List.finRange n) w1 else .ok w1) = .ok w2) (hok : w.st.Ok cfg) :
    w2.st.Ok cfg ∧ RunsVia (fun r => flowLoop A cfg r root (fuel + 1) nStack i i (view root w.st r)) w.log
      (fun r => flowLoop A cfg r root fuel (if cfg.nIter < nx then cfg.nIter - i else nStack)
          (if cfg.nIter < nx then cfg.nIter else nx) (if cfg.nIter < nx then cfg.nIter else nx) (view root w2.st r)) w2.log := by
  have hn : 0 < n := Nat.lt_of_le_of_lt (Nat.zero_le _) root.isLt
  have k1 := runStack_runs hA cfg hu root _ (seqWidths w) w1 h1 ⟨hok.acc, hok.x, hok.sig, hok.sig⟩
  have k2 : w2.st.Ok cfg ∧ RunsTo (fun r => if inTuneWindow cfg (if cfg.nIter < nx then cfg.nIter else nx) then
      (findRanks A cfg r root (stackRate F ((view root w.st r).loc.accA) ((view root w1.st r).loc.accA)
        (if cfg.nIter < nx then cfg.nIter - i else nStack))).bind fun fl => (A.barrier r).bind fun _ =>
        tuneRanks A cfg r root fl (List.finRange n) (view root w1.st r)
      else .ret (view root w1.st r)) w1.log w2.log (view root w2.st) := by
    by_cases hw : inTuneWindow cfg (if cfg.nIter < nx then cfg.nIter else nx) = true
    · rw [if_pos hw] at h2
      have k := tuneRanks_runs hA cfg hu root _ _ w1 w2 h2 k1.1
      refine ⟨k.1, RunsTo.congr (RunsTo.bind (f := fun r fl => (A.barrier r).bind fun _ =>
        tuneRanks A cfg r root fl (List.finRange n) (view root w1.st r))
        (findRanks_runs hA cfg root _ _) (RunsTo.bind (hA.barrier _) k.2)) (fun r => by rw [if_pos hw]; rfl)⟩
    · rw [if_neg hw] at h2
      cases h2
      exact ⟨k1.1, RunsTo.congr (RunsTo.ret _ _) (fun r => by rw [if_neg hw])⟩
  refine ⟨k2.1, ?_⟩
  refine RunsVia.congr (p' := fun r => (Proc.lift (i32 (i + nStack))).bind fun nx =>
    (distributeSigma cfg r root ((view root w.st r).tab.map Tab.sig)).bind fun sg => (A.barrier r).bind fun _ =>
    (outs [.sigma r.val sg]).bind fun _ =>
    (runStack A cfg r root (if cfg.nIter < nx then cfg.nIter - i else nStack)
      { view root w.st r with loc := { (view root w.st r).loc with sigma := sg } }).bind fun s1 =>
    (A.barrier r).bind fun _ =>
    (if inTuneWindow cfg (if cfg.nIter < nx then cfg.nIter else nx) then
      (findRanks A cfg r root (stackRate F ((view root w.st r).loc.accA) (s1.loc.accA)
        (if cfg.nIter < nx then cfg.nIter - i else nStack))).bind fun fl => (A.barrier r).bind fun _ =>
        tuneRanks A cfg r root fl (List.finRange n) s1
      else .ret s1).bind fun s2 =>
    flowLoop A cfg r root fuel (if cfg.nIter < nx then cfg.nIter - i else nStack)
      (if cfg.nIter < nx then cfg.nIter else nx) (if cfg.nIter < nx then cfg.nIter else nx) s2) ?_
    (fun r => by simp only [flowLoop, if_pos hi]; rfl)
  refine RunsTo.via (RunsTo.lift (fun _ => hnx) _) ?_
  refine RunsTo.via (RunsTo.congr (distributeSigma_runs cfg root w.st.sig hok.sig w.log) (fun r => ?_)) ?_
  · by_cases hr : r = root
    · subst hr; simp [view, G.tab]
    · simp [view, hr]
  refine RunsTo.via (hA.barrier _) ?_
  refine RunsTo.via (RunsTo.outs _ _) ?_
  refine RunsTo.via (f := fun r s1 => (A.barrier r).bind fun _ =>
    (if inTuneWindow cfg (if cfg.nIter < nx then cfg.nIter else nx) then
      (findRanks A cfg r root (stackRate F ((view root w.st r).loc.accA) (s1.loc.accA)
        (if cfg.nIter < nx then cfg.nIter - i else nStack))).bind fun fl => (A.barrier r).bind fun _ =>
        tuneRanks A cfg r root fl (List.finRange n) s1
      else .ret s1).bind fun s2 =>
    flowLoop A cfg r root fuel (if cfg.nIter < nx then cfg.nIter - i else nStack)
      (if cfg.nIter < nx then cfg.nIter else nx) (if cfg.nIter < nx then cfg.nIter else nx) s2) k1.2 ?_
  refine RunsTo.via (hA.barrier _) ?_
  exact RunsTo.via k2.2 (RunsVia.refl _ _)

theorem flowLoop_runs {A : Colls n F} (hA : A.Works) (cfg : Cfg F) (hu : cfg.user.Wf cfg.nParm) (root : Fin n) :
    ∀ (fuel : Nat) (nStack i : Int) (w w' : W n F), seqFlowLoop cfg root fuel nStack i w = .ok w' → w.st.Ok cfg →
    w'.st.Ok cfg ∧ RunsTo (fun r => flowLoop A cfg r root fuel nStack i i (view root w.st r)) w.log w'.log (view root w'.st) := by
  intro fuel
  induction fuel with
  | zero =>
    intro nStack i w w' h hok
    simp only [seqFlowLoop] at h
    split at h
    · cases h
    · rename_i hi
      cases h
      exact ⟨hok, RunsTo.congr (RunsTo.ret _ _) (fun r => by simp only [flowLoop, if_neg hi])⟩
  | succ fuel ih =>
    intro nStack i w w' h hok
    simp only [seqFlowLoop] at h
    split at h
    · rename_i hi
      simp only [exc_bind] at h
      obtain ⟨nx, hnx, w1, h1, w2, h2, h3⟩ := h
      obtain ⟨hok2, k2⟩ := flowRound_via hA cfg hu root fuel nStack i nx w w1 w2 hi hnx h1 h2 hok
      have k3 := ih _ _ w2 w' h3 hok2
      exact ⟨k3.1, k2.runs k3.2⟩
    · rename_i hi
      cases h
      exact ⟨hok, RunsTo.congr (RunsTo.ret _ _) (fun r => by simp only [flowLoop, if_neg hi])⟩

/-- `main` up to the main loop. -/
theorem mainProg_via {A : Colls n F} (hA : A.Works) (cfg : Cfg F) (hu : cfg.user.Wf cfg.nParm) (file : DataFile F) (clock : Nat) (root : Fin n) (w : W n F)
    (h0 : seqInit cfg file clock root = .ok w) : w.st.Ok cfg ∧
    RunsVia (fun r => mainProg A cfg file clock root r) (fun _ => [])
      (fun r => (entireFlow A cfg r root (view root w.st r)).bind fun s => (A.barrier r).bind fun _ => .ret s) w.log := by
  have hn : 0 < n := Nat.lt_of_le_of_lt (Nat.zero_le _) root.isLt
  simp only [seqInit, exc_bind, Except.ok.injEq] at h0
  obtain ⟨cells, hcells, data, hdata, _, hneg, _, hlen, _, hpar, beta, hbeta, rfl⟩ := h0
  have hneg' : ¬ cells < 0 := by
    intro h; rw [if_pos h] at hneg; cases hneg
  have hlen' : data.length = cells.toNat := by
    by_contra h; rw [if_pos h] at hlen; cases hlen
  have hpar' : cfg.nParm ≠ 0 := by
    intro h; rw [if_pos h] at hpar; cases hpar
  refine ⟨⟨fun _ _ => rfl, fun r => hu.initParm _, fun r => hu.initGp _, fun r => hu.initGp _⟩, ?_⟩
  refine RunsTo.via (RunsTo.outs _ _) ?_
  refine RunsTo.via (RunsTo.congr_res (bcastInt_runs hA root _ _) (res' := fun _ => file.nlines) (fun r => by simp)
    (fun _ => rfl)) ?_
  refine RunsTo.via (RunsTo.lift (fun _ => hcells) _) ?_
  refine RunsTo.via (RunsTo.lift (a := fun _ => ()) (fun _ => if_neg hneg') _) ?_
  refine RunsTo.via (RunsTo.lift (a := fun r => if r = root then data else []) (fun r => ?_) _) ?_
  · by_cases hr : r = root
    · simp [hr, hdata]
    · simp [hr]
  refine RunsTo.via (RunsTo.congr_res (bcastDbls_runs hA root _ _ (by simp [hlen']) _) (res' := fun _ => data)
    (fun r => by simp) (fun _ => rfl)) ?_
  refine RunsTo.via (genInitParm_runs cfg hu hpar' root (startSeed cfg clock) _) ?_
  refine RunsTo.via (initCalc_runs cfg root file.nlines data _ beta hbeta (fun r => hu.initParm _) _) ?_
  refine RunsTo.via (hA.barrier _) ?_
  refine RunsTo.via (RunsTo.outs _ _) ?_
  refine RunsTo.via (gatherSigma_runs cfg root (fun _ => cfg.user.initGp cfg.initGpRatio) (fun r => hu.initGp _) _) ?_
  refine RunsTo.via (RunsTo.lift (fun _ => hbeta) _) ?_
  refine RunsVia.congr_end (RunsVia.refl _ _) (fun r => ?_) (fun r => by simp)
  by_cases hr : r = root
  · subst hr; simp [entireFlow, view, G.loc, G.tab]
  · simp [entireFlow, view, G.loc, hr]

/-- The program of every rank, run to its end, yields the sequential result. -/
theorem mainProg_runs {A : Colls n F} (hA : A.Works) (cfg : Cfg F) (hu : cfg.user.Wf cfg.nParm) (file : DataFile F) (clock : Nat) (root : Fin n) (w : W n F)
    (h : seqMain cfg file clock root = .ok w) :
    RunsTo (fun r => mainProg A cfg file clock root r) (fun _ => []) w.log (view root w.st) := by
  have hn : 0 < n := Nat.lt_of_le_of_lt (Nat.zero_le _) root.isLt
  simp only [seqMain, exc_bind] at h
  obtain ⟨w0, h0, h1⟩ := h
  obtain ⟨hok, k0⟩ := mainProg_via hA cfg hu file clock root w0 h0
  exact k0.runs (RunsTo.bind (flowLoop_runs hA cfg hu root _ _ _ _ w h1 hok).2
    (RunsTo.bind (hA.barrier _) (RunsTo.ret _ _)))

/-! ## With the collectives of the model it is the program of the model -/

theorem stackLoop_plain (cfg : Cfg F) (me root slave : Fin n) (nStack : Int) : ∀ (fuel : Nat) (i j : Int) (s : RSt n F) (ty : Tally n F),
    stackLoop Colls.plain cfg me root slave nStack fuel i j s ty = NiiC.stackLoop cfg me root slave nStack fuel i j s ty := by
  intro fuel
  induction fuel with
  | zero => intro i j s ty; rfl
  | succ fuel ih => intro i j s ty; simp only [stackLoop, NiiC.stackLoop, ih]; rfl

theorem runStack_plain (cfg : Cfg F) (me root : Fin n) (nStack : Int) (s : RSt n F) :
    runStack Colls.plain cfg me root nStack s = NiiC.runStack cfg me root nStack s := by
  simp only [runStack, NiiC.runStack, stackLoop_plain]

theorem tuneParms_plain (cfg : Cfg F) (me root rk : Fin n) (x : List F) (lp : F) :
    ∀ (k j : Nat) (s : Loc n F) (ts : Option (TuneSt n F)),
    tuneParms Colls.plain cfg me root rk x lp k j s ts = NiiC.tuneParms cfg me root rk x lp k j s ts := by
  intro k
  induction k with
  | zero => intro j s ts; rfl
  | succ k ih => intro j s ts; simp only [tuneParms, NiiC.tuneParms, ih]; rfl

theorem tuneRank_plain (cfg : Cfg F) (me root rk : Fin n) (s : RSt n F) :
    tuneRank Colls.plain cfg me root rk s = NiiC.tuneRank cfg me root rk s := by
  simp only [tuneRank, NiiC.tuneRank, tuneParms_plain]; rfl

theorem tuneRanks_plain (cfg : Cfg F) (me root : Fin n) (fl : Fin n → Int) : ∀ (l : List (Fin n)) (s : RSt n F),
    tuneRanks Colls.plain cfg me root fl l s = NiiC.tuneRanks cfg me root fl l s := by
  intro l
  induction l with
  | nil => intro s; rfl
  | cons rk l ih => intro s; simp only [tuneRanks, NiiC.tuneRanks, ih, tuneRank_plain]; rfl

theorem flowLoop_plain (cfg : Cfg F) (me root : Fin n) : ∀ (fuel : Nat) (nStack i j : Int) (s : RSt n F),
    flowLoop Colls.plain cfg me root fuel nStack i j s = NiiC.flowLoop cfg me root fuel nStack i j s := by
  intro fuel
  induction fuel with
  | zero => intro nStack i j s; rfl
  | succ fuel ih =>
    intro nStack i j s
    simp only [flowLoop, NiiC.flowLoop, ih, tuneRanks_plain, runStack_plain]; rfl

/-- With the collectives of the model, `Relay.mainProg` is `mainProg`. -/
theorem mainProg_plain (cfg : Cfg F) (file : DataFile F) (clock : Nat) (root me : Fin n) :
    mainProg Colls.plain cfg file clock root me = NiiC.mainProg cfg file clock root me := by
  simp only [mainProg, NiiC.mainProg, entireFlow, NiiC.entireFlow, flowLoop_plain]; rfl

end Relay

end NiiC
