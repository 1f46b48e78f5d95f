import Verif.Refine.Runs
import Verif.Refine.Batch
import Verif.Seq.Model

/-!
# Each `mpi_*` function against its sequential counterpart
-/

set_option linter.unusedSectionVars false
set_option linter.unusedSimpArgs false

namespace NiiC

open Proc Sys Spec

variable {n : Nat} {F : Type} [Arith F] [Source F]

omit [Source F] in
/-- What rank `r` holds when the sequential state is `st`. -/
def view (root : Fin n) (st : G n F) (r : Fin n) : RSt n F :=
  { loc := st.loc r, tab := if r = root then some st.tab else none }

omit [Source F] in
/-- Shape of a state: counters in step, rows of the right length. -/
structure G.Ok (cfg : Cfg F) (st : G n F) : Prop where
  acc : ∀ r s, st.acc r = st.acc s
  x : ∀ r, (st.x r).length = cfg.nParm
  sig : ∀ r, (st.sig r).length = cfg.nParm
  cur : ∀ r, (st.cur r).length = cfg.nParm

/-! ## Broadcast -/

theorem bcast_runs (root : Fin n) (v : Fin n → Msg F) (log : Fin n → List (Line F)) :
    RunsTo (fun r => bcast r root (v r)) log log (fun _ => v root) := by
  have h := RunsTo.slaves (F := F) (root := root) (body := fun i (_ : Unit) => sendM i .bcast (v root))
    (sp := fun _ => (.recv root .bcast .ret : P n F (Msg F))) (upd := fun _ s => s) (d := fun _ _ => v root)
    (fun _ => v root) ()
    (fun i hi s => by
      simp only [sendM]
      exact Pair.send hi.symm (Pair.ret _ _)) log
  refine RunsTo.congr (RunsTo.congr_res h (fun r => ?_) (fun _ => rfl)) (fun r => ?_)
  · split <;> rfl
  · by_cases hr : r = root
    · subst hr; simp [bcast, forSlaves_]
    · simp [bcast, hr]

theorem bcastInt_runs (root : Fin n) (v : Fin n → Int) (log : Fin n → List (Line F)) :
    RunsTo (fun r => bcastInt r root (v r)) log log (fun _ => v root) :=
  RunsTo.bind (bcast_runs root (fun r => .int (v r)) log) (RunsTo.ret _ _)

theorem bcastDbl_runs (root : Fin n) (v : Fin n → F) (log : Fin n → List (Line F)) :
    RunsTo (fun r => bcastDbl r root (v r)) log log (fun _ => v root) :=
  RunsTo.bind (bcast_runs root (fun r => .dbl [v r]) log) (RunsTo.ret _ _)

theorem bcastDbls_runs (root : Fin n) (len : Nat) (v : Fin n → List F) (h : (v root).length = len)
    (log : Fin n → List (Line F)) : RunsTo (fun r => bcastDbls r root len (v r)) log log (fun _ => v root) :=
  RunsTo.bind (bcast_runs root (fun r => .dbl (v r)) log)
    (RunsTo.congr (RunsTo.ret _ _) (fun r => by simp [h]))

theorem bcastInts_runs (root : Fin n) (v : Fin n → Fin n → Int) (log : Fin n → List (Line F)) :
    RunsTo (fun r => (bcastInts r root (v r) : P n F _)) log log (fun _ => v root) :=
  RunsTo.bind (bcast_runs root (fun r => .ints (List.ofFn (v r))) log)
    (RunsTo.congr (RunsTo.ret _ _) (fun r => by simp))

/-! ## Root tells every other rank something -/

/-- A loop of root in which round `i` brings rank `i` the value `d i`. -/
theorem scatter_runs {β : Type} (root : Fin n) (body : Fin n → P n F Unit) (sp : Fin n → P n F β) (d : Fin n → β)
    (hpair : ∀ i, i ≠ root → Pair root i (body i) (sp i) () (d i)) (log : Fin n → List (Line F)) :
    RunsTo (fun r => if r = root then (forSlaves_ root body).bind (fun _ => .ret (d root)) else sp r) log log d := by
  have h := RunsTo.slaves (F := F) (root := root) (body := fun i (_ : Unit) => body i) (sp := sp)
    (upd := fun _ s => s) (d := fun i _ => d i) (fun _ => d root) () (fun i hi s => hpair i hi) log
  have e : (fun r => if r = root then d root else d r) = d := by
    funext r; split
    · rename_i h; rw [h]
    · rfl
  rw [e] at h
  exact h

/-- A loop of root that collects the value `v i` from each other rank `i`. -/
theorem gather_runs {β γ : Type} (root : Fin n) (body : Fin n → (Fin n → β) → P n F (Fin n → β)) (sp : Fin n → P n F γ)
    (v : Fin n → β) (x0 : Fin n → β) (fR : (Fin n → β) → γ) (d : Fin n → γ)
    (hpair : ∀ i, i ≠ root → ∀ s, Pair root i (body i s) (sp i) (Function.update s i (v i)) (d i))
    (log : Fin n → List (Line F)) :
    RunsTo (fun r => if r = root then (forSlaves root body (List.finRange n) x0).bind (fun s => .ret (fR s)) else sp r)
      log log (fun r => if r = root then fR (fun r => if r = root then x0 r else v r) else d r) := by
  have h := RunsTo.slaves (F := F) (root := root) (body := body) (sp := sp)
    (upd := fun i s => Function.update s i (v i)) (d := fun i _ => d i) fR x0 hpair log
  rw [foldS_update] at h
  exact h

/-! ## mpi_batch.c -/

theorem foldS_tab (root : Fin n) (xs : Fin n → List F) (ls : Fin n → F) : ∀ (l : List (Fin n)) (t : Tab n F),
    foldS root (fun i (t : Tab n F) =>
      { t with x := Function.update t.x i (xs i), lp := Function.update t.lp i (ls i) }) l t
    = { t with x := foldS root (fun i x => Function.update x i (xs i)) l t.x,
               lp := foldS root (fun i x => Function.update x i (ls i)) l t.lp } := by
  intro l
  induction l with
  | nil => intro t; rfl
  | cons i l ih =>
    intro t
    simp only [foldS]
    split
    · exact ih t
    · rw [ih]

theorem tabGather_runs (cfg : Cfg F) (root : Fin n) (st : G n F) (bs : Fin n → BatchOut F)
    (hbx : ∀ r, (bs r).x.length = cfg.nParm) (log : Fin n → List (Line F)) :
    RunsTo (fun r => if r = root then
      (forSlaves root (fun i (t : Tab n F) => (recvDbls i (slavereturn 0) cfg.nParm).bind fun row =>
        (recvDbl i (slavereturn 1)).bind fun v =>
        .ret { t with x := Function.update t.x i row, lp := Function.update t.lp i v }) (List.finRange n)
        { st.tab with x := Function.update st.x root (bs r).x, lp := Function.update st.lp root (bs r).lp }).bind
          (fun t => .ret (some t))
      else (sendM root (slavereturn 0) (.dbl (bs r).x)).bind fun _ =>
        (sendM root (slavereturn 1) (.dbl [(bs r).lp])).bind fun _ => .ret none) log log
    (fun r => (view root (st.afterBatch bs) r).tab) := by
  have h := RunsTo.slaves (F := F) (root := root) (S := Tab n F)
    (body := fun i (t : Tab n F) => (recvDbls i (slavereturn 0) cfg.nParm).bind fun row =>
      (recvDbl i (slavereturn 1)).bind fun v =>
      .ret { t with x := Function.update t.x i row, lp := Function.update t.lp i v })
    (sp := fun r => (sendM root (slavereturn 0) (.dbl (bs r).x)).bind fun _ =>
      (sendM root (slavereturn 1) (.dbl [(bs r).lp])).bind fun _ => .ret none)
    (upd := fun i t => { t with x := Function.update t.x i (bs i).x, lp := Function.update t.lp i (bs i).lp })
    (d := fun _ _ => none) (fun t => some t)
    { st.tab with x := Function.update st.x root (bs root).x, lp := Function.update st.lp root (bs root).lp }
    (fun i hi t => by
      simp only [sendM, recvDbls, recvDbl, send_bind, ret_bind, recv_bind]
      refine Pair.recv hi.symm ?_
      simp only [hbx i, if_true, ret_bind, recv_bind]
      exact Pair.recv hi.symm (Pair.ret _ _)) log
  rw [foldS_tab, foldS_update, foldS_update] at h
  refine RunsTo.congr (RunsTo.congr_res h (fun r => ?_) (fun _ => rfl)) (fun r => ?_)
  · by_cases hr : r = root
    · subst hr
      simp only [view, if_true, G.tab, G.afterBatch, Option.some.injEq, Tab.mk.injEq, and_true]
      constructor
      · funext s
        by_cases hs : s = r
        · subst hs; simp
        · simp [hs]
      · funext s
        by_cases hs : s = r
        · subst hs; simp
        · simp [hs]
    · simp [view, hr]
  · by_cases hr : r = root
    · subst hr; simp
    · simp [hr]

theorem runBatch_runs (cfg : Cfg F) (root : Fin n) (nb : Int) (st : G n F) (bs : Fin n → BatchOut F)
    (hx : ∀ r, (st.x r).length = cfg.nParm) (hbx : ∀ r, (bs r).x.length = cfg.nParm)
    (hb : ∀ r, localBatch cfg r (st.loc r) nb (st.x r) (st.lp r) = .ok (bs r)) (log : Fin n → List (Line F)) :
    RunsTo (fun r => runBatch cfg r root nb (view root st r)) log
      (fun r => log r ++ (st.loc r).note :: (bs r).lines) (view root (st.afterBatch bs)) := by
  refine RunsTo.congr (p' := fun r => (outs [(st.loc r).note]).bind fun _ =>
    (if r = root then (forSlaves_ root (fun i => (sendM i (rootsent 2) (.dbl (st.x i))).bind
        (fun _ => sendM i (rootsent 3) (.dbl [st.lp i])))).bind (fun _ => .ret (st.x root, st.lp root))
      else (recvDbls root (rootsent 2) cfg.nParm).bind (fun x =>
        (recvDbl root (rootsent 3)).bind (fun v => .ret (x, v)))).bind fun xv =>
    (Proc.lift (localBatch cfg r (st.loc r) nb xv.1 xv.2)).bind fun b =>
    (outs b.lines).bind fun _ =>
    (if r = root then
      (forSlaves root (fun i (t : Tab n F) => (recvDbls i (slavereturn 0) cfg.nParm).bind fun row =>
        (recvDbl i (slavereturn 1)).bind fun v =>
        .ret { t with x := Function.update t.x i row, lp := Function.update t.lp i v }) (List.finRange n)
        { st.tab with x := Function.update st.x root b.x, lp := Function.update st.lp root b.lp }).bind
          (fun t => .ret (some t))
      else (sendM root (slavereturn 0) (.dbl b.x)).bind fun _ =>
        (sendM root (slavereturn 1) (.dbl [b.lp])).bind fun _ => .ret none).bind fun t =>
    .ret { loc := (st.loc r).after b, tab := t }) ?_ (fun r => ?_)
  · refine RunsTo.bind (RunsTo.outs _ log) ?_
    refine RunsTo.bind (scatter_runs root _ _ (fun r => (st.x r, st.lp r)) (fun i hi => ?_) _) ?_
    · simp only [sendM, recvDbls, recvDbl, send_bind, ret_bind, recv_bind]
      refine Pair.send hi.symm ?_
      simp only [hx i, if_true, ret_bind, recv_bind]
      exact Pair.send hi.symm (Pair.ret _ _)
    · refine RunsTo.bind (RunsTo.lift hb _) ?_
      refine RunsTo.bind (RunsTo.outs _ _) ?_
      refine RunsTo.bind (tabGather_runs cfg root st bs hbx _) ?_
      exact RunsTo.congr_res (RunsTo.ret _ _) (fun _ => rfl) (fun r => by simp)
  · by_cases hr : r = root
    · subst hr
      simp [runBatch, view, needTab, Proc.bind_assoc, G.tab]
    · simp [runBatch, view, hr, Proc.bind_assoc]

end NiiC
