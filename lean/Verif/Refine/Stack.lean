import Verif.Refine.Phases

/-!
# One stack: batches, swaps, the ladder
-/

set_option linter.unusedSectionVars false
set_option linter.unusedSimpArgs false

namespace NiiC

open Proc Sys Spec

variable {n : Nat} {F : Type} [Arith F] [Source F]

theorem exc_bind {α β : Type} {e : Except Fault α} {f : α → Except Fault β} {b : β} :
    (e >>= f) = .ok b ↔ ∃ a, e = .ok a ∧ f a = .ok b := by
  cases e with
  | error e => constructor
               · intro h; cases h
               · rintro ⟨a, h, _⟩; cases h
  | ok a => constructor
            · intro h; exact ⟨a, rfl, h⟩
            · rintro ⟨a', h, h'⟩; cases h; exact h'

theorem localBatch_eq (cfg : Cfg F) (hu : cfg.user.Wf cfg.nParm) (me : Fin n) (s : Loc n F) (nb : Int) (x : List F) (lp : F)
    (b : BatchOut F) (hx : x.length = cfg.nParm) (hs : s.sigma.length = cfg.nParm)
    (h : localBatch cfg me s nb x lp = .ok b) : 0 < nb ∧ b.x.length = cfg.nParm ∧ b.acc = s.acc + nb.toNat := by
  by_cases hb : 0 < nb
  · rw [localBatch, iterBatch_eq cfg.nParm cfg.user s.sigma s.nline s.data (s.beta me) hu hs me.val cfg.saveBegin nb hb
      ⟨x, lp, s.acc, s.accA, s.g⟩ hx] at h
    cases h
    refine ⟨hb, ?_, ?_⟩
    · exact mhIter_length cfg.nParm cfg.user s.sigma s.nline s.data (s.beta me) hu hs _ _ hx
    · exact mhIter_acc cfg.user s.sigma s.nline s.data (s.beta me) _ _
  · have : nb ≤ 0 := by omega
    simp [localBatch, iterBatch, this] at h

theorem seqBatch_ok (cfg : Cfg F) (hu : cfg.user.Wf cfg.nParm) (nb : Int) (w w' : W n F) (h : seqBatch cfg nb w = .ok w')
    (hok : w.st.Ok cfg) : w'.st.Ok cfg ∧ ∀ root : Fin n,
      RunsTo (fun r => runBatch cfg r root nb (view root w.st r)) w.log w'.log (view root w'.st) := by
  simp only [seqBatch, exc_bind, allOk_ok, Except.ok.injEq] at h
  obtain ⟨bs, hb, rfl⟩ := h
  have hl := fun r => localBatch_eq cfg hu r (w.st.loc r) nb _ _ _ (hok.x r) (hok.cur r) (hb r)
  refine ⟨⟨fun r s => ?_, fun r => (hl r).2.1, hok.sig, hok.cur⟩, fun root => ?_⟩
  · show (bs r).acc = (bs s).acc
    rw [(hl r).2.2, (hl s).2.2]
    simp only [G.loc, hok.acc r s]
  · exact runBatch_runs cfg root nb w.st bs hok.x (fun r => (hl r).2.1) hb w.log

/-! ## Swaps -/

theorem slaveRank_ne {root slave : Fin n} (h : slaveRank root = .ok slave) : slave ≠ root := by
  unfold slaveRank toIdx at h
  split at h
  · rename_i h'
    cases h
    intro he
    have := congrArg Fin.val he
    simp only at this
    omega
  · cases h

omit [Source F] in
/-- The tallies: root's, and those (never changed) of the other ranks. -/
def tyView (root : Fin n) (ty : Tally n F) (r : Fin n) : Tally n F := if r = root then ty else Tally.zero

theorem toIdx_val {i : Int} {k : Fin n} (h : toIdx n i = .ok k) : (k.val : Int) = i := by
  unfold toIdx at h
  split at h
  · rename_i h'
    cases h
    simp only
    omega
  · cases h

/-- A round of the swap loop after the record. -/
def swapCore (cfg : Cfg F) (me root slave : Fin n) (s : RSt n F) (ty : Tally n F) : P n F (RSt n F × Tally n F) :=
  if me = root then do
    let pi := i4Unif0a F ((n : Int) - 1) s.loc.g
    let r ← judgeSwap cfg me root slave pi.1 { s with loc := { s.loc with g := pi.2 } }
    if 0 < cfg.tuneLadder then do
      let i ← lift (toIdx n pi.1)
      .ret (r.2, ty.add i r.1)
    else .ret (r.2, ty)
  else do
    let r ← judgeSwap cfg me root slave 0 s
    .ret (r.2, ty)

theorem swapRound_core (cfg : Cfg F) (me root slave : Fin n) (s : RSt n F) (ty : Tally n F) :
    swapRound cfg me root slave s ty = (outs [s.loc.note]).bind fun _ => swapCore cfg me root slave s ty := rfl

theorem swapPair (cfg : Cfg F) (root slave : Fin n) (hs : slave ≠ root) (w w' : W n F) (ty ty' : Tally n F)
    (h : seqSwap cfg root w ty = .ok (w', ty')) (hx : ∀ r, (w.st.x r).length = cfg.nParm) :
    Pair root slave (swapCore cfg root root slave (view root w.st root) (tyView root ty root))
      (swapCore cfg slave root slave (view root w.st slave) (tyView root ty slave))
      (view root w'.st root, tyView root ty' root) (view root w.st slave, tyView root ty slave) := by
  simp only [seqSwap, exc_bind, Except.ok.injEq, Prod.mk.injEq] at h
  obtain ⟨i, hi, j, hj, hw, hty⟩ := h
  simp only [swapCore, if_true, judgeSwap, view, needTab, hi, hj, hs, if_false, Proc.lift_ok, sendM, recvDbls, recvDbl,
    recvInt, send_bind, ret_bind, recv_bind, Proc.bind_eq, G.loc, Function.update_self, Proc.bind_assoc, G.tab]
  refine Pair.send hs.symm ?_
  simp only [hx j, if_true, ret_bind, recv_bind]
  refine Pair.send hs.symm ?_
  simp only [ret_bind, hi, Proc.lift_ok, send_bind]
  refine Pair.recv hs.symm ?_
  subst hw hty
  simp only [ret_bind, W.push, Function.update_self, tyView, if_true]
  generalize swapAccept (logPost cfg (w.st.x i) w.st.nline w.st.data (w.st.beta j)) _ _ _ _ = a
  obtain ⟨d, g⟩ := a
  by_cases hT : 0 < cfg.tuneLadder
  · simp only [hT, if_true]
    cases d <;> exact Pair.ret _ _
  · simp only [hT, if_false]
    cases d <;> exact Pair.ret _ _

theorem seqSwap_ok (cfg : Cfg F) (root : Fin n) (w w' : W n F) (ty ty' : Tally n F)
    (h : seqSwap cfg root w ty = .ok (w', ty')) (hok : w.st.Ok cfg) : w'.st.Ok cfg := by
  simp only [seqSwap, exc_bind, Except.ok.injEq, Prod.mk.injEq] at h
  obtain ⟨i, hi, j, hj, rfl, rfl⟩ := h
  refine ⟨hok.acc, fun r => ?_, hok.sig, hok.cur⟩
  simp only [W.push]
  split
  · simp only [swapTab, G.tab, Function.update_apply]
    split
    · exact hok.x _
    · split
      · exact hok.x _
      · exact hok.x _
  · exact hok.x r

/-- A swap touches only root's variables. -/
theorem seqSwap_view (cfg : Cfg F) (root : Fin n) (w w' : W n F) (ty ty' : Tally n F)
    (h : seqSwap cfg root w ty = .ok (w', ty')) (r : Fin n) (hr : r ≠ root) : view root w'.st r = view root w.st r := by
  simp only [seqSwap, exc_bind, Except.ok.injEq, Prod.mk.injEq] at h
  obtain ⟨i, hi, j, hj, rfl, rfl⟩ := h
  simp [view, W.push, G.loc, hr]

theorem seqSwap_log (cfg : Cfg F) (root : Fin n) (w w' : W n F) (ty ty' : Tally n F)
    (h : seqSwap cfg root w ty = .ok (w', ty')) : w'.log = fun r => w.log r ++ [(w.st.loc r).note] := by
  simp only [seqSwap, exc_bind, Except.ok.injEq, Prod.mk.injEq] at h
  obtain ⟨i, hi, j, hj, rfl, rfl⟩ := h
  simp [W.push]

theorem swapRound_runs (cfg : Cfg F) (root slave : Fin n) (hs : slave ≠ root) (w w' : W n F) (ty ty' : Tally n F)
    (h : seqSwap cfg root w ty = .ok (w', ty')) (hok : w.st.Ok cfg) :
    RunsTo (fun r => swapRound cfg r root slave (view root w.st r) (tyView root ty r)) w.log w'.log
      (fun r => (view root w'.st r, tyView root ty' r)) := by
  have hp := RunsTo.pair (F := F) (Ne.symm hs) (fun r => (view root w.st r, tyView root ty r))
    (swapPair cfg root slave hs w w' ty ty' h hok.x) (fun r => w.log r ++ [(w.st.loc r).note])
  refine RunsTo.bind (RunsTo.outs _ _) ?_
  refine RunsTo.congr (RunsTo.congr_res hp (fun r => ?_) (fun r => by rw [seqSwap_log cfg root w w' ty ty' h])) (fun r => ?_)
  · by_cases h1 : r = root
    · subst h1; simp
    · rw [seqSwap_view cfg root w w' ty ty' h r h1]
      by_cases h2 : r = slave
      · subst h2; simp [h1, tyView]
      · simp [h1, h2, tyView]
  · by_cases h1 : r = root
    · subst h1; simp [swapCore]
    · by_cases h2 : r = slave
      · subst h2; simp [h1, swapCore]
      · simp [h1, h2, swapCore, judgeSwap]

theorem swapLoop_runs (cfg : Cfg F) (root slave : Fin n) (hs : slave ≠ root) : ∀ (k : Nat) (w w' : W n F) (ty ty' : Tally n F),
    seqSwaps cfg root k w ty = .ok (w', ty') → w.st.Ok cfg →
    w'.st.Ok cfg ∧ RunsTo (fun r => swapLoop cfg r root slave k (view root w.st r) (tyView root ty r)) w.log w'.log
      (fun r => (view root w'.st r, tyView root ty' r)) := by
  intro k
  induction k with
  | zero =>
    intro w w' ty ty' h hok
    cases h
    exact ⟨hok, RunsTo.ret _ _⟩
  | succ k ih =>
    intro w w' ty ty' h hok
    simp only [seqSwaps, exc_bind] at h
    obtain ⟨⟨w1, ty1⟩, h1, h2⟩ := h
    obtain ⟨hok', hr⟩ := ih w1 w' ty1 ty' h2 (seqSwap_ok cfg root w w1 ty ty1 h1 hok)
    exact ⟨hok', RunsTo.bind (swapRound_runs cfg root slave hs w w1 ty ty1 h1 hok) hr⟩

/-! ## Size of the next batch -/

omit [Source F] in
/-- The state after root has drawn the size of a batch. -/
def G.setG (st : G n F) (root : Fin n) (g : Rng) : G n F := { st with g := Function.update st.g root g }

theorem announce_runs (cfg : Cfg F) (root : Fin n) (nStack i : Int) (st : G n F) (b : Int × Int × Rng)
    (h : nextBatch cfg nStack i (st.g root) = .ok b) (log : Fin n → List (Line F)) :
    RunsTo (fun r => announce cfg r root nStack i (view root st r)) log log
      (fun r => ((b.1, b.2.1), view root (st.setG root b.2.2) r)) := by
  refine RunsTo.congr (p' := fun r => (if r = root then (forSlaves_ root (fun i =>
      (sendM i (rootsent 0) (.int b.2.1)).bind (fun _ => sendM i (rootsent 1) (.int b.1)))).bind (fun _ => .ret (b.1, b.2.1))
    else (recvInt root (rootsent 0)).bind (fun nx => (recvInt root (rootsent 1)).bind (fun nb => .ret (nb, nx)))).bind
      (fun a => .ret (a, view root (st.setG root b.2.2) r))) ?_ (fun r => ?_)
  · refine RunsTo.bind (scatter_runs root _ _ (fun _ => (b.1, b.2.1)) (fun i hi => ?_) log) (RunsTo.ret _ _)
    simp only [sendM, recvInt, send_bind, ret_bind, recv_bind]
    exact Pair.send hi.symm (Pair.send hi.symm (Pair.ret _ _))
  · by_cases hr : r = root
    · subst hr
      simp [announce, view, G.loc, G.setG, h, Proc.bind_assoc]
      rfl
    · simp [announce, view, hr, Proc.bind_assoc, G.loc, G.setG]

theorem G.Ok.setG {cfg : Cfg F} {st : G n F} (h : st.Ok cfg) (root : Fin n) (g : Rng) : (st.setG root g).Ok cfg :=
  ⟨h.acc, h.x, h.sig, h.cur⟩

theorem stackLoop_runs (cfg : Cfg F) (hu : cfg.user.Wf cfg.nParm) (root slave : Fin n) (hs : slave ≠ root) (nStack : Int) :
    ∀ (fuel : Nat) (i : Int) (w w' : W n F) (ty ty' : Tally n F),
    seqStackLoop cfg root nStack fuel i w ty = .ok (w', ty') → w.st.Ok cfg →
    w'.st.Ok cfg ∧ RunsTo (fun r => stackLoop cfg r root slave nStack fuel i i (view root w.st r) (tyView root ty r))
      w.log w'.log (fun r => (view root w'.st r, tyView root ty' r)) := by
  have hn : 0 < n := Nat.lt_of_le_of_lt (Nat.zero_le _) root.isLt
  intro fuel
  induction fuel with
  | zero =>
    intro i w w' ty ty' h hok
    simp only [seqStackLoop] at h
    split at h
    · cases h
    · rename_i hi
      cases h
      exact ⟨hok, RunsTo.congr (RunsTo.ret _ _) (fun r => by simp only [stackLoop, if_neg hi])⟩
  | succ fuel ih =>
    intro i w w' ty ty' h hok
    simp only [seqStackLoop] at h
    split at h
    · rename_i hi
      simp only [exc_bind] at h
      obtain ⟨b, hb, w1, h1, ⟨w2, ty2⟩, h2, h3⟩ := h
      have k1 := seqBatch_ok cfg hu b.1 { w with st := w.st.setG root b.2.2 } w1 h1 (hok.setG root b.2.2)
      have k2 := swapLoop_runs cfg root slave hs _ w1 w2 ty ty2 h2 k1.1
      have k3 := ih b.2.1 w2 w' ty2 ty' h3 k2.1
      refine ⟨k3.1, ?_⟩
      refine RunsTo.congr (p' := fun r => (announce cfg r root nStack i (view root w.st r)).bind fun a =>
        NiiC.barrier.bind fun _ => (runBatch cfg r root a.1.1 a.2).bind fun s => NiiC.barrier.bind fun _ =>
        (swapLoop cfg r root slave cfg.nSwap.toNat s (tyView root ty r)).bind fun t => NiiC.barrier.bind fun _ =>
        stackLoop cfg r root slave nStack fuel a.1.2 a.1.2 t.1 t.2) ?_ (fun r => by simp only [stackLoop, if_pos hi]; rfl)
      refine RunsTo.bind (announce_runs cfg root nStack i w.st b hb w.log) ?_
      refine RunsTo.bind (RunsTo.barrier hn _) ?_
      refine RunsTo.bind (k1.2 root) ?_
      refine RunsTo.bind (RunsTo.barrier hn _) ?_
      refine RunsTo.bind k2.2 ?_
      refine RunsTo.bind (RunsTo.barrier hn _) ?_
      exact k3.2
    · rename_i hi
      cases h
      exact ⟨hok, RunsTo.congr (RunsTo.ret _ _) (fun r => by simp only [stackLoop, if_neg hi])⟩

/-! ## The ladder -/

theorem adjustLadder_runs (cfg : Cfg F) (root : Fin n) (w : W n F) (ty : Tally n F) :
    RunsTo (fun r => adjustLadder cfg r root (view root w.st r) (tyView root ty r)) w.log (seqLadder cfg w ty).log
      (view root (seqLadder cfg w ty).st) := by
  refine RunsTo.congr (RunsTo.congr_res (log' := w.log) (res := view root (seqLadder cfg w ty).st)
    (p := fun r => (if r = root then (forSlaves_ root (fun i => sendM i (rootsent 0)
        (.dbl (List.ofFn (seqLadder cfg w ty).st.beta)))).bind (fun _ => .ret (seqLadder cfg w ty).st.beta)
      else recvVec root (rootsent 0)).bind
      (fun b => .ret { view root w.st r with loc := { w.st.loc r with beta := b } })) ?_ (fun _ => rfl)
      (fun r => by simp [seqLadder, W.push])) (fun r => ?_)
  · refine RunsTo.bind (scatter_runs root _ _ (fun _ => (seqLadder cfg w ty).st.beta) (fun i hi => ?_) _) (RunsTo.ret _ _)
    simp only [sendM, recvVec]
    refine Pair.send hi.symm ?_
    simp only [List.length_ofFn, dif_pos, List.getElem_ofFn]
    exact Pair.ret _ _
  · by_cases hr : r = root
    · subst hr
      simp [adjustLadder, view, tyView, seqLadder, W.push, Proc.bind_assoc, G.loc]
    · simp [adjustLadder, hr, view, G.loc]

theorem runStack_runs (cfg : Cfg F) (hu : cfg.user.Wf cfg.nParm) (root : Fin n) (nStack : Int) (w w' : W n F)
    (h : seqStack cfg root nStack w = .ok w') (hok : w.st.Ok cfg) :
    w'.st.Ok cfg ∧ RunsTo (fun r => runStack cfg r root nStack (view root w.st r)) w.log w'.log (view root w'.st) := by
  simp only [seqStack, exc_bind] at h
  obtain ⟨slave, hsl, ⟨w1, ty1⟩, h1, h2⟩ := h
  have k1 := stackLoop_runs cfg hu root slave (slaveRank_ne hsl) nStack _ 0 _ w1 Tally.zero ty1 h1 ⟨hok.acc, hok.x, hok.sig, hok.cur⟩
  have hb : RunsTo (fun r => (NiiC.outs (if r = root then [.betas (List.ofFn (view root w.st r).loc.beta)] else []) : P n F Unit))
      w.log (fun r => w.log r ++ (if r = root then [.betas (List.ofFn w.st.beta)] else [])) (fun _ => ()) :=
    RunsTo.outs _ _
  have hz : ∀ r : Fin n, tyView root (Tally.zero : Tally n F) r = Tally.zero := fun r => by simp [tyView]
  have k1' := k1.2
  simp only [hz] at k1'
  have hacc : ∀ r, (w1.st.acc r : Int) < cfg.nStopTuneLadder ∧ 0 < cfg.tuneLadder
      ↔ (w1.st.acc root : Int) < cfg.nStopTuneLadder ∧ 0 < cfg.tuneLadder := fun r => by rw [k1.1.acc r root]
  split at h2
  · rename_i hc
    cases h2
    refine ⟨⟨k1.1.acc, k1.1.x, k1.1.sig, k1.1.cur⟩, ?_⟩
    refine RunsTo.bind (RunsTo.lift (fun _ => hsl) _) (RunsTo.bind hb (RunsTo.bind k1' ?_))
    refine RunsTo.congr (adjustLadder_runs cfg root w1 ty1) (fun r => ?_)
    exact if_pos ((hacc r).2 hc)
  · rename_i hc
    cases h2
    refine ⟨k1.1, ?_⟩
    refine RunsTo.bind (RunsTo.lift (fun _ => hsl) _) (RunsTo.bind hb (RunsTo.bind k1' ?_))
    refine RunsTo.congr (RunsTo.ret (view root w1.st) _) (fun r => ?_)
    exact if_neg (fun h => hc ((hacc r).1 h))

end NiiC
