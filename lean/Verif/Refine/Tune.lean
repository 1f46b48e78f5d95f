import Verif.Refine.Stack

/-!
# Width tuning
-/

set_option linter.unusedSectionVars false
set_option linter.unusedSimpArgs false

namespace NiiC

open Proc Sys Spec

variable {n : Nat} {F : Type} [Arith F] [Source F]

/-! ## Shapes -/

theorem rd_eq_ok {α : Type} {xs : List α} {i : Nat} {v : α} (h : rd xs i = .ok v) : xs[i]? = some v := by
  unfold rd at h
  split at h
  · rename_i h'; cases h; exact h'
  · cases h

theorem rd_lt {α : Type} {xs : List α} {i : Nat} {v : α} (h : rd xs i = .ok v) : i < xs.length := by
  have := rd_eq_ok h
  exact (List.getElem?_eq_some_iff.1 this).1

theorem trialRows_length {sig : List F} {grid : List (Fin n → F)} {j : Nat} {rows : Fin n → List F}
    (h : trialRows sig grid j = .ok rows) (r : Fin n) : (rows r).length = sig.length := by
  simp only [trialRows, exc_bind, Except.ok.injEq] at h
  obtain ⟨row, _, _, _, rfl⟩ := h
  simp

theorem genAllTune_length (cfg : Cfg F) (sig : List F) : ∀ (k i : Nat) (grid : List (Fin n → F)),
    genAllTune n cfg sig k i = .ok grid → grid.length = k := by
  intro k
  induction k with
  | zero => intro i grid h; cases h; rfl
  | succ k ih =>
    intro i grid h
    simp only [genAllTune, exc_bind, Except.ok.injEq] at h
    obtain ⟨_, _, _, _, _, _, rest, hr, rfl⟩ := h
    simp [ih _ _ hr]

theorem raceAll_length (best : F) : ∀ (grid ars : List (Fin n → F)) (sg : List F),
    raceAll best grid ars = .ok sg → sg.length = grid.length := by
  intro grid
  induction grid with
  | nil =>
    intro ars sg h
    cases ars with
    | nil => cases h; rfl
    | cons a l => cases h
  | cons g grid ih =>
    intro ars sg h
    cases ars with
    | nil => cases h
    | cons a l =>
      simp only [raceAll, exc_bind, Except.ok.injEq] at h
      obtain ⟨_, _, _, _, rest, hr, rfl⟩ := h
      simp [ih _ _ hr]

theorem modifySigma_length (cfg : Cfg F) (hu : cfg.user.Wf cfg.nParm) (sig : List F) (grid ars : List (Fin n → F))
    (ch : Int × Int) (sg : List F) (hs : sig.length = cfg.nParm) (hg : grid.length = cfg.nParm)
    (h : modifySigma cfg sig grid ars ch = .ok sg) : sg.length = cfg.nParm := by
  unfold modifySigma at h
  split at h
  · simp only [exc_bind, Except.ok.injEq] at h
    obtain ⟨_, _, _, _, _, _, rfl⟩ := h
    simp [hs]
  · split at h
    · cases h; exact hu.initGp _
    · rw [raceAll_length _ _ _ _ h, hg]

/-! ## Distribution and gathering of widths -/

theorem distributeSigma_runs (cfg : Cfg F) (root : Fin n) (rows : Fin n → List F) (hr : ∀ r, (rows r).length = cfg.nParm)
    (log : Fin n → List (Line F)) :
    RunsTo (fun r => distributeSigma cfg r root (if r = root then some rows else none)) log log rows := by
  refine RunsTo.congr (scatter_runs root (fun i => sendM i (rootsent 0) (.dbl (rows i)))
    (fun _ => recvDbls root (rootsent 0) cfg.nParm) rows (fun i hi => ?_) log) (fun r => ?_)
  · simp only [sendM, recvDbls]
    refine Pair.send hi.symm ?_
    simp only [hr i, if_true]
    exact Pair.ret _ _
  · by_cases h : r = root
    · subst h; simp [distributeSigma]
    · simp [distributeSigma, h]

theorem gatherSigma_runs (cfg : Cfg F) (root : Fin n) (sg : Fin n → List F) (hr : ∀ r, (sg r).length = cfg.nParm)
    (log : Fin n → List (Line F)) :
    RunsTo (fun r => gatherSigma cfg r root (sg r)) log log (fun r => if r = root then some sg else none) := by
  have h := gather_runs (F := F) root
    (fun i sig => (recvDbls i (slavereturn 0) cfg.nParm).bind fun row => .ret (Function.update sig i row))
    (fun r => (sendM root (slavereturn 0) (.dbl (sg r))).bind fun _ => .ret none) sg
    (Function.update (fun _ => []) root (sg root)) some (fun _ => none) (fun i hi s => by
      simp only [sendM, recvDbls, send_bind, ret_bind, recv_bind]
      refine Pair.recv hi.symm ?_
      simp only [hr i, if_true, ret_bind]
      exact Pair.ret _ _) log
  refine RunsTo.congr (RunsTo.congr_res h (fun r => ?_) (fun _ => rfl)) (fun r => ?_)
  · by_cases h : r = root
    · subst h
      simp only [if_true, Option.some.injEq]
      funext s
      by_cases hs : s = r
      · subst hs; simp
      · simp [hs]
    · simp [h]
  · by_cases h : r = root
    · subst h; simp [gatherSigma]
    · simp [gatherSigma, h]

/-! ## One tuning run -/

theorem tuneParm_runs (cfg : Cfg F) (root rk : Fin n) (x : List F) (lp : F) (l : Fin n → Loc n F) (a : Fin n → F × Rng)
    (h : ∀ r, iterBatchTune cfg.nParm cfg.user (l r).sigma (l r).nline (l r).data ((l r).beta rk) cfg.nIterInTune x lp
      (l r).g = .ok (a r)) (log : Fin n → List (Line F)) :
    RunsTo (fun r => tuneParm cfg r root rk x lp (l r)) log log
      (fun r => (if r = root then some (fun s => (a s).1) else none, (a r).2)) := by
  have hg := gather_runs (F := F) root
    (fun i row => (recvDbl i (slavereturn 0)).bind fun v => .ret (Function.update row i v))
    (fun r => (sendM root (slavereturn 0) (.dbl [(a r).1])).bind fun _ => .ret (none, (a r).2)) (fun s => (a s).1)
    (Function.update (fun _ => (a root).1) root (a root).1) (fun row => (some row, (a root).2)) (fun r => (none, (a r).2))
    (fun i hi s => by
      simp only [sendM, recvDbl, send_bind, ret_bind, recv_bind]
      refine Pair.recv hi.symm ?_
      simp only [ret_bind]
      exact Pair.ret _ _) log
  refine RunsTo.congr (RunsTo.congr_res hg (fun r => ?_) (fun _ => rfl)) (fun r => ?_)
  · by_cases h : r = root
    · subst h
      simp only [if_true, Prod.mk.injEq, Option.some.injEq, and_true]
      funext s
      by_cases hs : s = r
      · subst hs; simp
      · simp [hs]
    · simp [h]
  · by_cases hr : r = root
    · subst hr; simp [tuneParm, h r]
    · simp [tuneParm, hr, h r]

omit [Source F] in
/-- What rank `r` keeps while tuning. -/
def tsView (root : Fin n) (st : G n F) (grid ars : List (Fin n → F)) (r : Fin n) : Option (TuneSt n F) :=
  if r = root then some { tab := st.tab, grid := grid, ars := ars } else none

theorem tuneParms_runs (cfg : Cfg F) (root rk : Fin n) (grid : List (Fin n → F)) :
    ∀ (k j : Nat) (st st' : G n F) (ars ars' : List (Fin n → F)), seqTuneParms cfg rk grid k j st ars = .ok (st', ars') →
    st.Ok cfg → st'.Ok cfg ∧ st'.tab = st.tab ∧ ∀ log : Fin n → List (Line F),
      RunsTo (fun r => tuneParms cfg r root rk (st.x rk) (st.lp rk) k j (st.loc r) (tsView root st grid ars r)) log log
        (fun r => (st'.loc r, tsView root st' grid ars' r)) := by
  have hn : 0 < n := Nat.lt_of_le_of_lt (Nat.zero_le _) root.isLt
  intro k
  induction k with
  | zero =>
    intro j st st' ars ars' h hok
    cases h
    exact ⟨hok, rfl, fun log => RunsTo.ret _ _⟩
  | succ k ih =>
    intro j st st' ars ars' h hok
    simp only [seqTuneParms, exc_bind, allOk_ok] at h
    obtain ⟨rows, hrows, a, ha, h3⟩ := h
    have hl : ∀ r, (rows r).length = cfg.nParm := fun r => by rw [trialRows_length hrows r, hok.sig rk]
    have k3 := ih (j + 1) _ st' _ ars' h3 ⟨hok.acc, hok.x, hok.sig, hl⟩
    refine ⟨k3.1, k3.2.1, fun log => ?_⟩
    refine RunsTo.bind (RunsTo.lift (a := fun r => if r = root then some rows else none) (fun r => ?_) log) ?_
    · by_cases hr : r = root
      · subst hr; simp [trialTable, tsView, G.tab, hrows]; rfl
      · simp [trialTable, tsView, hr]
    refine RunsTo.bind (distributeSigma_runs cfg root rows hl log) ?_
    refine RunsTo.bind (RunsTo.barrier hn _) ?_
    refine RunsTo.bind (tuneParm_runs cfg root rk (st.x rk) (st.lp rk) (fun r => { st.loc r with sigma := rows r }) a ha log) ?_
    refine RunsTo.bind (RunsTo.barrier hn _) ?_
    refine RunsTo.congr (k3.2.2 log) (fun r => ?_)
    by_cases hr : r = root
    · subst hr; simp [tsView, G.tab, G.loc]
    · simp [tsView, hr, G.loc]

theorem tuneRank_runs (cfg : Cfg F) (hu : cfg.user.Wf cfg.nParm) (root rk : Fin n) (w w' : W n F)
    (h : seqTuneRank cfg root rk w = .ok w') (hok : w.st.Ok cfg) :
    w'.st.Ok cfg ∧ RunsTo (fun r => tuneRank cfg r root rk (view root w.st r)) w.log w'.log (view root w'.st) := by
  have hn : 0 < n := Nat.lt_of_le_of_lt (Nat.zero_le _) root.isLt
  simp only [seqTuneRank, exc_bind, Except.ok.injEq] at h
  obtain ⟨grid, hgrid, ⟨st1, ars⟩, h1, d, hd, sg, hsg, rfl⟩ := h
  have k1 := tuneParms_runs cfg root rk grid cfg.nParm 0 w.st st1 [] ars h1 hok
  have hsl := modifySigma_length cfg hu _ grid ars d.1 sg (k1.1.sig rk) (genAllTune_length cfg _ _ _ _ hgrid) hsg
  refine ⟨⟨k1.1.acc, k1.1.x, fun r => ?_, k1.1.cur⟩, ?_⟩
  · simp only [W.push, Function.update_apply]
    split
    · exact hsl
    · exact k1.1.sig r
  · refine RunsTo.congr_res (log' := w.log) (res := view root (W.st (w.push (.tune rk)
      { st1 with g := Function.update st1.g root d.2, sig := Function.update st1.sig rk sg } (fun _ => [])))) ?_ (fun _ => rfl)
      (fun r => by simp [W.push])
    refine RunsTo.bind (a := fun r => if r = root then (tsView root w.st grid [] r, w.st.x rk, w.st.lp rk)
      else (tsView root w.st grid [] r, [], ofI 0)) (RunsTo.congr (RunsTo.ret _ w.log) (fun r => ?_)) ?_
    · by_cases hr : r = root
      · subst hr; simp [tuneStart, view, needTab, hgrid, tsView, G.tab]
      · simp [tuneStart, hr, tsView]
    refine RunsTo.bind (RunsTo.congr_res (bcastDbls_runs root cfg.nParm _ (by simp [hok.x rk]) w.log)
      (res' := fun _ => w.st.x rk) (fun r => by simp) (fun _ => rfl)) ?_
    refine RunsTo.bind (RunsTo.congr_res (bcastDbl_runs root _ w.log)
      (res' := fun _ => w.st.lp rk) (fun r => by simp) (fun _ => rfl)) ?_
    refine RunsTo.bind (RunsTo.barrier hn _) ?_
    refine RunsTo.bind (RunsTo.congr (k1.2.2 w.log) (fun r => ?_)) ?_
    · by_cases hr : r = root
      · simp [hr, view]
      · simp [hr, view]
    refine RunsTo.bind (RunsTo.lift (a := view root (W.st (w.push (.tune rk)
      { st1 with g := Function.update st1.g root d.2, sig := Function.update st1.sig rk sg } (fun _ => [])))) (fun r => ?_) w.log) ?_
    · by_cases hr : r = root
      · subst hr
        have e1 : decideSigma cfg ars (st1.g r) = .ok d := hd
        have e2 : modifySigma cfg (st1.sig rk) grid ars d.1 = .ok sg := hsg
        simp only [tuneFinish, tsView, if_true, G.loc, e1, G.tab, exc_bind, e2, view, W.push, Function.update_self]
        exact ⟨d, rfl, sg, e2, rfl⟩
      · simp [tuneFinish, tsView, hr, view, W.push, G.loc]
    refine RunsTo.bind (RunsTo.barrier hn _) ?_
    exact RunsTo.ret _ _

/-! ## Which ranks to tune -/

theorem findRanks_runs (cfg : Cfg F) (root : Fin n) (rate : Fin n → F) (log : Fin n → List (Line F)) :
    RunsTo (fun r => findRanks cfg r root (rate r)) log log (fun _ s => tuneFlag cfg (rate s)) := by
  have hg := gather_runs (F := F) root
    (fun i fl => (recvInt i (slavereturn 0)).bind fun v => .ret (Function.update fl i v))
    (fun r => (sendM root (slavereturn 0) (.int (tuneFlag cfg (rate r)))).bind fun _ => .ret (fun _ => tuneFlag cfg (rate r)))
    (fun s => tuneFlag cfg (rate s))
    (Function.update (fun _ => tuneFlag cfg (rate root)) root (tuneFlag cfg (rate root))) id
    (fun r _ => tuneFlag cfg (rate r))
    (fun i hi s => by
      simp only [sendM, recvInt, send_bind, ret_bind, recv_bind]
      refine Pair.recv hi.symm ?_
      simp only [ret_bind]
      exact Pair.ret _ _) log
  refine RunsTo.congr (RunsTo.bind hg (f := fun r fl => bcastInts r root fl) (RunsTo.congr_res
    (bcastInts_runs root _ log) (fun r => ?_) (fun _ => rfl))) (fun r => ?_)
  · funext s
    simp only [if_true, id]
    by_cases hs : s = root
    · subst hs; simp
    · simp [hs]
  · by_cases hr : r = root
    · subst hr
      simp [findRanks, Proc.bind_assoc]
    · simp [findRanks, hr, Proc.bind_assoc]

theorem tuneRanks_runs (cfg : Cfg F) (hu : cfg.user.Wf cfg.nParm) (root : Fin n) (fl : Fin n → Int) :
    ∀ (l : List (Fin n)) (w w' : W n F), seqTuneRanks cfg root fl l w = .ok w' → w.st.Ok cfg →
    w'.st.Ok cfg ∧ RunsTo (fun r => tuneRanks cfg r root fl l (view root w.st r)) w.log w'.log (view root w'.st) := by
  have hn : 0 < n := Nat.lt_of_le_of_lt (Nat.zero_le _) root.isLt
  intro l
  induction l with
  | nil => intro w w' h hok; cases h; exact ⟨hok, RunsTo.ret _ _⟩
  | cons rk l ih =>
    intro w w' h hok
    simp only [seqTuneRanks, exc_bind] at h
    obtain ⟨w1, h1, h2⟩ := h
    by_cases hf : fl rk = 1
    · rw [if_pos hf] at h1
      have k1 := tuneRank_runs cfg hu root rk w w1 h1 hok
      have k2 := ih w1 w' h2 k1.1
      refine ⟨k2.1, ?_⟩
      refine RunsTo.bind (RunsTo.congr k1.2 (fun r => by rw [if_pos hf])) (RunsTo.bind (RunsTo.barrier hn _) k2.2)
    · rw [if_neg hf] at h1
      cases h1
      have k2 := ih w w' h2 hok
      refine ⟨k2.1, ?_⟩
      refine RunsTo.bind (RunsTo.congr (RunsTo.ret (view root w.st) w.log) (fun r => by rw [if_neg hf]))
        (RunsTo.bind (RunsTo.barrier hn _) k2.2)

end NiiC
