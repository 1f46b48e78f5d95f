import Verif.Refine.Tune

/-!
# The whole run
-/

set_option linter.unusedSectionVars false
set_option linter.unusedSimpArgs false

namespace NiiC

open Proc Sys Spec

variable {n : Nat} {F : Type} [Arith F] [Source F]

/-! ## mpi_flow.c -/

/-- Wherever every rank is about to run `p r`, there is an unbuffered execution that takes it to `q r`. -/
def RunsVia (p : Fin n → P n F β) (log : Fin n → List (Line F)) (q : Fin n → P n F β) (log' : Fin n → List (Line F)) : Prop :=
  ∀ ⦃γ : Type⦄ (K : Fin n → β → P n F γ),
    SyncStar (mkS (fun r => (p r).bind (K r)) log) (mkS (fun r => (q r).bind (K r)) log')

theorem RunsVia.refl (p : Fin n → P n F β) (log : Fin n → List (Line F)) : RunsVia p log p log := fun _ _ => .refl _

theorem RunsVia.trans {p q o : Fin n → P n F β} {log log' log'' : Fin n → List (Line F)} (h : RunsVia p log q log')
    (h' : RunsVia q log' o log'') : RunsVia p log o log'' := fun _ K => (h K).trans (h' K)

theorem RunsVia.runs {p q : Fin n → P n F β} {log log' log'' : Fin n → List (Line F)} {res : Fin n → β}
    (h : RunsVia p log q log') (h' : RunsTo q log' log'' res) : RunsTo p log log'' res := fun _ K => (h K).trans (h' K)

theorem RunsVia.congr {p p' q : Fin n → P n F β} {log log' : Fin n → List (Line F)} (h : RunsVia p' log q log')
    (hp : ∀ r, p r = p' r) : RunsVia p log q log' := by
  rw [funext hp]; exact h

theorem RunsVia.congr_end {p q q' : Fin n → P n F β} {log log' log'' : Fin n → List (Line F)} (h : RunsVia p log q log')
    (hq : ∀ r, q r = q' r) (hl : ∀ r, log' r = log'' r) : RunsVia p log q' log'' := by
  rw [← funext hq, ← funext hl]; exact h

theorem RunsTo.via {p : Fin n → P n F α} {f : Fin n → α → P n F β} {q : Fin n → P n F β} {log log' log'' : Fin n → List (Line F)}
    {a : Fin n → α} (h : RunsTo p log log' a) (h' : RunsVia (fun r => f r (a r)) log' q log'') :
    RunsVia (fun r => (p r).bind (f r)) log q log'' := by
  intro γ K
  have h1 := h (fun r x => (f r x).bind (K r))
  simp only [Proc.bind_assoc]
  exact h1.trans (h' K)

/-- One round of the main loop. -/
theorem flowRound_via (cfg : Cfg F) (hu : cfg.user.Wf cfg.nParm) (root : Fin n) (fuel : Nat) (nStack i nx : Int) (w w1 w2 : W n F)
    (hi : i < cfg.nIter) (hnx : i32 (i + nStack) = .ok nx)
    (h1 : seqStack cfg root (if cfg.nIter < nx then cfg.nIter - i else nStack) (seqWidths w) = .ok w1)
    (h2 : (if inTuneWindow cfg (if cfg.nIter < nx then cfg.nIter else nx) then
        seqTuneRanks cfg root (fun r => tuneFlag cfg (stackRate F (w.st.accA r) (w1.st.accA r)
          (if cfg.nIter < nx then cfg.nIter - i else nStack))) (List.finRange n) w1 else .ok w1) = .ok w2) (hok : w.st.Ok cfg) :
    w2.st.Ok cfg ∧ RunsVia (fun r => flowLoop cfg r root (fuel + 1) nStack i i (view root w.st r)) w.log
      (fun r => flowLoop cfg r root fuel (if cfg.nIter < nx then cfg.nIter - i else nStack)
          (if cfg.nIter < nx then cfg.nIter else nx) (if cfg.nIter < nx then cfg.nIter else nx) (view root w2.st r)) w2.log := by
  have hn : 0 < n := Nat.lt_of_le_of_lt (Nat.zero_le _) root.isLt
  have k1 := runStack_runs cfg hu root _ (seqWidths w) w1 h1 ⟨hok.acc, hok.x, hok.sig, hok.sig⟩
  have k2 : w2.st.Ok cfg ∧ RunsTo (fun r => if inTuneWindow cfg (if cfg.nIter < nx then cfg.nIter else nx) then
      (findRanks cfg r root (stackRate F ((view root w.st r).loc.accA) ((view root w1.st r).loc.accA)
        (if cfg.nIter < nx then cfg.nIter - i else nStack))).bind fun fl => NiiC.barrier.bind fun _ =>
        tuneRanks cfg r root fl (List.finRange n) (view root w1.st r)
      else .ret (view root w1.st r)) w1.log w2.log (view root w2.st) := by
    by_cases hw : inTuneWindow cfg (if cfg.nIter < nx then cfg.nIter else nx) = true
    · rw [if_pos hw] at h2
      have k := tuneRanks_runs cfg hu root _ _ w1 w2 h2 k1.1
      refine ⟨k.1, RunsTo.congr (RunsTo.bind (f := fun r fl => NiiC.barrier.bind fun _ =>
        tuneRanks cfg r root fl (List.finRange n) (view root w1.st r))
        (findRanks_runs cfg root _ _) (RunsTo.bind (RunsTo.barrier hn _) k.2)) (fun r => by rw [if_pos hw]; rfl)⟩
    · rw [if_neg hw] at h2
      cases h2
      exact ⟨k1.1, RunsTo.congr (RunsTo.ret _ _) (fun r => by rw [if_neg hw])⟩
  refine ⟨k2.1, ?_⟩
  refine RunsVia.congr (p' := fun r => (Proc.lift (i32 (i + nStack))).bind fun nx =>
    (distributeSigma cfg r root ((view root w.st r).tab.map Tab.sig)).bind fun sg => NiiC.barrier.bind fun _ =>
    (outs [.sigma r.val sg]).bind fun _ =>
    (runStack cfg r root (if cfg.nIter < nx then cfg.nIter - i else nStack)
      { view root w.st r with loc := { (view root w.st r).loc with sigma := sg } }).bind fun s1 =>
    NiiC.barrier.bind fun _ =>
    (if inTuneWindow cfg (if cfg.nIter < nx then cfg.nIter else nx) then
      (findRanks cfg r root (stackRate F ((view root w.st r).loc.accA) (s1.loc.accA)
        (if cfg.nIter < nx then cfg.nIter - i else nStack))).bind fun fl => NiiC.barrier.bind fun _ =>
        tuneRanks cfg r root fl (List.finRange n) s1
      else .ret s1).bind fun s2 =>
    flowLoop cfg r root fuel (if cfg.nIter < nx then cfg.nIter - i else nStack)
      (if cfg.nIter < nx then cfg.nIter else nx) (if cfg.nIter < nx then cfg.nIter else nx) s2) ?_
    (fun r => by simp only [flowLoop, if_pos hi]; rfl)
  refine RunsTo.via (RunsTo.lift (fun _ => hnx) _) ?_
  refine RunsTo.via (RunsTo.congr (distributeSigma_runs cfg root w.st.sig hok.sig w.log) (fun r => ?_)) ?_
  · by_cases hr : r = root
    · subst hr; simp [view, G.tab]
    · simp [view, hr]
  refine RunsTo.via (RunsTo.barrier hn _) ?_
  refine RunsTo.via (RunsTo.outs _ _) ?_
  refine RunsTo.via (f := fun r s1 => NiiC.barrier.bind fun _ =>
    (if inTuneWindow cfg (if cfg.nIter < nx then cfg.nIter else nx) then
      (findRanks cfg r root (stackRate F ((view root w.st r).loc.accA) (s1.loc.accA)
        (if cfg.nIter < nx then cfg.nIter - i else nStack))).bind fun fl => NiiC.barrier.bind fun _ =>
        tuneRanks cfg r root fl (List.finRange n) s1
      else .ret s1).bind fun s2 =>
    flowLoop cfg r root fuel (if cfg.nIter < nx then cfg.nIter - i else nStack)
      (if cfg.nIter < nx then cfg.nIter else nx) (if cfg.nIter < nx then cfg.nIter else nx) s2) k1.2 ?_
  refine RunsTo.via (RunsTo.barrier hn _) ?_
  exact RunsTo.via k2.2 (RunsVia.refl _ _)

theorem flowLoop_runs (cfg : Cfg F) (hu : cfg.user.Wf cfg.nParm) (root : Fin n) :
    ∀ (fuel : Nat) (nStack i : Int) (w w' : W n F), seqFlowLoop cfg root fuel nStack i w = .ok w' → w.st.Ok cfg →
    w'.st.Ok cfg ∧ RunsTo (fun r => flowLoop cfg r root fuel nStack i i (view root w.st r)) w.log w'.log (view root w'.st) := by
  intro fuel
  induction fuel with
  | zero =>
    intro nStack i w w' h hok
    simp only [seqFlowLoop] at h
    split at h
    · cases h
    · rename_i hi
      cases h
      exact ⟨hok, RunsTo.congr (RunsTo.ret _ _) (fun r => by simp only [flowLoop, if_neg hi])⟩
  | succ fuel ih =>
    intro nStack i w w' h hok
    simp only [seqFlowLoop] at h
    split at h
    · rename_i hi
      simp only [exc_bind] at h
      obtain ⟨nx, hnx, w1, h1, w2, h2, h3⟩ := h
      obtain ⟨hok2, k2⟩ := flowRound_via cfg hu root fuel nStack i nx w w1 w2 hi hnx h1 h2 hok
      have k3 := ih _ _ w2 w' h3 hok2
      exact ⟨k3.1, k2.runs k3.2⟩
    · rename_i hi
      cases h
      exact ⟨hok, RunsTo.congr (RunsTo.ret _ _) (fun r => by simp only [flowLoop, if_neg hi])⟩

/-! ## mpi_init.c -/

theorem beforeS_count {S : Type} (root : Fin n) (f : S → S) (r : Fin n) (hr : r ≠ root) : ∀ (m k : Nat) (s : S),
    k + m = r.val → beforeS root (fun _ => f) r ((List.finRange n).drop k) s
      = f^[m - (if k ≤ root.val ∧ root.val < r.val then 1 else 0)] s := by
  intro m
  induction m with
  | zero =>
    intro k s hk
    have hkn : k < (List.finRange n).length := by simp; omega
    rw [List.drop_eq_getElem_cons hkn]
    have : (List.finRange n)[k] = r := by ext; simp; omega
    simp [beforeS, this]
  | succ m ih =>
    intro k s hk
    have hkn : k < (List.finRange n).length := by simp; omega
    rw [List.drop_eq_getElem_cons hkn]
    have h1 : (List.finRange n)[k] ≠ r := by
      intro h
      have := congrArg Fin.val h
      simp at this
      omega
    simp only [beforeS, h1, if_false]
    by_cases h2 : (List.finRange n)[k] = root
    · have hv : k = root.val := by have := congrArg Fin.val h2; simpa using this
      rw [if_pos h2, ih (k + 1) s (by omega)]
      congr 1
      rw [if_neg (by omega), if_pos (by omega)]
      rfl
    · have hv : k ≠ root.val := by
        intro h
        exact h2 (by ext; simpa using h)
      rw [if_neg h2, ih (k + 1) (f s) (by omega), ← Function.iterate_succ_apply]
      congr 1
      have hrv : r.val ≠ root.val := fun h => hr (Fin.ext h)
      by_cases h3 : k ≤ root.val ∧ root.val < r.val
      · rw [if_pos h3, if_pos (by omega)]; omega
      · rw [if_neg h3, if_neg (by omega)]; omega

theorem foldS_count {S : Type} (root : Fin n) (f : S → S) : ∀ (m k : Nat) (s : S),
    k + m = n → foldS root (fun _ => f) ((List.finRange n).drop k) s = f^[m - (if k ≤ root.val then 1 else 0)] s := by
  intro m
  induction m with
  | zero =>
    intro k s hk
    rw [List.drop_eq_nil_of_le (by simp; omega)]
    simp [foldS]
  | succ m ih =>
    intro k s hk
    have hkn : k < (List.finRange n).length := by simp; omega
    rw [List.drop_eq_getElem_cons hkn]
    simp only [foldS]
    by_cases h2 : (List.finRange n)[k] = root
    · have hv : k = root.val := by have := congrArg Fin.val h2; simpa using this
      rw [if_pos h2, ih (k + 1) s (by omega)]
      congr 1
      rw [if_neg (by omega), if_pos (by omega)]
      rfl
    · have hv : k ≠ root.val := by
        intro h
        exact h2 (by ext; simpa using h)
      rw [if_neg h2, ih (k + 1) (f s) (by omega), ← Function.iterate_succ_apply]
      congr 1
      have := root.isLt
      by_cases h3 : k ≤ root.val
      · rw [if_pos h3, if_pos (by omega)]; omega
      · rw [if_neg h3, if_neg (by omega)]; omega

theorem seedSucc_iterate (k s : Nat) (h : 0 < k) : seedSucc^[k] s = (s + k) % 4294967296 := by
  induction k with
  | zero => omega
  | succ k ih =>
    rw [Function.iterate_succ_apply']
    by_cases hk : k = 0
    · subst hk; rfl
    · rw [ih (by omega)]
      simp only [seedSucc]
      omega

/-- The seeds as root hands them out. -/
theorem seed_slave (root r : Fin n) (hr : r ≠ root) (s : Nat) :
    seedSucc (beforeS root (fun _ => seedSucc) r (List.finRange n) s) = seedOf root s r := by
  have h := beforeS_count root seedSucc r hr r.val 0 s (by omega)
  rw [List.drop_zero] at h
  rw [h, ← Function.iterate_succ_apply' seedSucc, seedSucc_iterate _ _ (by omega)]
  have hrv : r.val ≠ root.val := fun h => hr (Fin.ext h)
  simp only [seedOf, if_neg hr]
  by_cases h1 : r.val < root.val
  · rw [if_pos h1, if_neg (by omega)]; rfl
  · rw [if_neg h1, if_pos (by omega)]
    congr 2
    omega

theorem seed_root (root : Fin n) (s : Nat) :
    seedSucc (foldS root (fun _ => seedSucc) (List.finRange n) s) = seedOf root s root := by
  have h := foldS_count root seedSucc n 0 s (by omega)
  rw [List.drop_zero] at h
  rw [h, ← Function.iterate_succ_apply' seedSucc, seedSucc_iterate _ _ (by omega)]
  simp only [seedOf, if_true, Nat.zero_le]
  congr 2
  have := root.isLt
  omega

theorem genInitParm_runs (cfg : Cfg F) (hu : cfg.user.Wf cfg.nParm) (hp : cfg.nParm ≠ 0) (root : Fin n) (seed : Nat)
    (log : Fin n → List (Line F)) :
    RunsTo (fun r => genInitParm cfg r root seed) log
      (fun r => log r ++ [.seed r.val (seedOf root seed r)]
        ++ (if r = root then [.initParm (List.ofFn fun s => (cfg.user.initParm (seedOf root seed s)).1)] else []))
      (fun r => (if r = root then some (fun s => (cfg.user.initParm (seedOf root seed s)).1) else none,
        (cfg.user.initParm (seedOf root seed r)).2)) := by
  have h1 := RunsTo.slaves (F := F) (root := root) (S := Nat)
    (body := fun i s => (sendM i (rootsent 0) (.int cfg.nParm)).bind fun _ =>
      (sendM i (rootsent 1) (.uns (seedSucc s))).bind fun _ => .ret (seedSucc s))
    (sp := fun r => (recvInt root (rootsent 0)).bind fun np => (recvUns root (rootsent 1)).bind fun s => .ret (np, s))
    (upd := fun _ => seedSucc) (d := fun _ s => ((cfg.nParm : Int), seedSucc s)) (fun s => ((cfg.nParm : Int), seedSucc s)) seed
    (fun i hi s => by
      simp only [sendM, recvInt, recvUns, send_bind, ret_bind, recv_bind]
      exact Pair.send hi.symm (Pair.send hi.symm (Pair.ret _ _))) log
  have h1' := RunsTo.congr_res h1 (res' := fun r => ((cfg.nParm : Int), seedOf root seed r)) (fun r => by
    by_cases hr : r = root
    · subst hr; simp [seed_root]
    · simp [hr, seed_slave]) (fun _ => rfl)
  have h2 := RunsTo.outs (F := F) (fun r => [.seed r.val (seedOf root seed r)]) log
  have h3 := gather_runs (F := F) root
    (fun i x => (recvDbls i (slavereturn 0) cfg.nParm).bind fun row => .ret (Function.update x i row))
    (fun r => (sendM root (slavereturn 0) (.dbl (cfg.user.initParm (seedOf root seed r)).1)).bind fun _ => .ret none)
    (fun s => (cfg.user.initParm (seedOf root seed s)).1)
    (Function.update (fun _ => []) root (cfg.user.initParm (seedOf root seed root)).1) some (fun _ => none)
    (fun i hi s => by
      simp only [sendM, recvDbls, send_bind, ret_bind, recv_bind]
      refine Pair.recv hi.symm ?_
      simp only [hu.initParm, if_true, ret_bind]
      exact Pair.ret _ _) (fun r => log r ++ [.seed r.val (seedOf root seed r)])
  have h3' := RunsTo.congr_res h3
    (res' := fun r => if r = root then some (fun s => (cfg.user.initParm (seedOf root seed s)).1) else none) (fun r => by
      by_cases hr : r = root
      · subst hr
        simp only [if_true, Option.some.injEq]
        funext s
        by_cases hs : s = r
        · subst hs; simp
        · simp [hs]
      · simp [hr]) (fun _ => rfl)
  refine RunsTo.congr (p' := fun r => (if r = root then (forSlaves root (fun i s =>
      (sendM i (rootsent 0) (.int cfg.nParm)).bind fun _ =>
      (sendM i (rootsent 1) (.uns (seedSucc s))).bind fun _ => .ret (seedSucc s)) (List.finRange n) seed).bind
        (fun s => .ret ((cfg.nParm : Int), seedSucc s))
      else (recvInt root (rootsent 0)).bind fun np => (recvUns root (rootsent 1)).bind fun s => .ret (np, s)).bind fun a =>
    (outs [.seed r.val a.2]).bind fun _ =>
    (Proc.lift (if a.1 ≤ 0 then .error .badAlloc else .ok ())).bind fun _ =>
    (if r = root then (forSlaves root (fun i x => (recvDbls i (slavereturn 0) cfg.nParm).bind fun row =>
        .ret (Function.update x i row)) (List.finRange n)
        (Function.update (fun _ => []) root (cfg.user.initParm a.2).1)).bind fun x => .ret (some x)
      else (sendM root (slavereturn 0) (.dbl (cfg.user.initParm a.2).1)).bind fun _ => .ret none).bind fun x =>
    (outs (match x with | some x => [.initParm (List.ofFn x)] | none => [])).bind fun _ =>
    .ret (x, (cfg.user.initParm a.2).2)) ?_ (fun r => ?_)
  · refine RunsTo.bind h1' ?_
    refine RunsTo.bind h2 ?_
    refine RunsTo.bind (RunsTo.lift (a := fun _ => ()) (fun r => if_neg (by show ¬ ((cfg.nParm : Int) ≤ 0); omega)) _) ?_
    refine RunsTo.bind (RunsTo.congr h3' (fun r => by
      by_cases hr : r = root
      · subst hr; simp
      · simp [hr])) ?_
    refine RunsTo.bind (RunsTo.congr_res (RunsTo.outs _ _) (fun _ => rfl) (fun r => ?_)) (RunsTo.ret _ _)
    by_cases hr : r = root
    · subst hr; simp
    · simp [hr]
  · by_cases hr : r = root
    · subst hr
      have : ¬ cfg.nParm = 0 := hp
      simp [genInitParm, Proc.bind_assoc, outs, this]
    · simp [genInitParm, hr, Proc.bind_assoc, outs]

theorem initCalc_runs (cfg : Cfg F) (root : Fin n) (nline : Int) (data : List F) (x : Fin n → List F) (beta : Fin n → F)
    (hb : copyBetas n cfg.betas = .ok beta) (hx : ∀ r, (x r).length = cfg.nParm) (log : Fin n → List (Line F)) :
    RunsTo (fun r => initCalc cfg r root nline data (if r = root then some x else none)) log
      (fun r => log r ++ [.row r.val (x r) (logPost cfg (x r) nline data (beta r)) 0 0])
      (fun r => if r = root then some (fun s => logPost cfg (x s) nline data (beta s)) else none) := by
  have hrd : ∀ r : Fin n, rd cfg.betas r.val = .ok (beta r) := by
    intro r
    unfold copyBetas at hb
    split at hb
    · rename_i h
      cases hb
      exact rd_ok (Nat.lt_of_lt_of_le r.isLt h)
    · cases hb
  have h1 := scatter_runs (F := F) root (fun i => sendM i (rootsent 0) (.dbl (x i)))
    (fun _ => recvDbls root (rootsent 0) cfg.nParm) x (fun i hi => by
      simp only [sendM, recvDbls]
      refine Pair.send hi.symm ?_
      simp only [hx i, if_true]
      exact Pair.ret _ _) log
  have h3 := gather_runs (F := F) root
    (fun i lp => (recvDbl i (slavereturn 0)).bind fun v => .ret (Function.update lp i v))
    (fun r => (sendM root (slavereturn 0) (.dbl [logPost cfg (x r) nline data (beta r)])).bind fun _ => .ret none)
    (fun s => logPost cfg (x s) nline data (beta s))
    (Function.update (fun _ => logPost cfg (x root) nline data (beta root)) root (logPost cfg (x root) nline data (beta root)))
    some (fun _ => none)
    (fun i hi s => by
      simp only [sendM, recvDbl, send_bind, ret_bind, recv_bind]
      refine Pair.recv hi.symm ?_
      simp only [ret_bind]
      exact Pair.ret _ _) (fun r => log r ++ [.row r.val (x r) (logPost cfg (x r) nline data (beta r)) 0 0])
  have h3' := RunsTo.congr_res h3
    (res' := fun r => if r = root then some (fun s => logPost cfg (x s) nline data (beta s)) else none) (fun r => by
      by_cases hr : r = root
      · subst hr
        simp only [if_true, Option.some.injEq]
        funext s
        by_cases hs : s = r
        · subst hs; simp
        · simp [hs]
      · simp [hr]) (fun _ => rfl)
  refine RunsTo.congr (p' := fun r => (if r = root then
      (forSlaves_ root (fun i => sendM i (rootsent 0) (.dbl (x i)))).bind (fun _ => .ret (x root))
      else recvDbls root (rootsent 0) cfg.nParm).bind fun row =>
    (Proc.lift (rd cfg.betas r.val)).bind fun b =>
    (outs [.row r.val row (logPost cfg row nline data b) 0 0]).bind fun _ =>
    if r = root then (forSlaves root (fun i lp => (recvDbl i (slavereturn 0)).bind fun v =>
        .ret (Function.update lp i v)) (List.finRange n) (Function.update (fun _ => logPost cfg row nline data b) root
          (logPost cfg row nline data b))).bind fun lp => .ret (some lp)
      else (sendM root (slavereturn 0) (.dbl [logPost cfg row nline data b])).bind fun _ => .ret none) ?_ (fun r => ?_)
  · refine RunsTo.bind h1 ?_
    refine RunsTo.bind (RunsTo.lift hrd _) ?_
    refine RunsTo.bind (RunsTo.outs _ _) ?_
    refine RunsTo.congr h3' (fun r => ?_)
    by_cases hr : r = root
    · subst hr; simp
    · simp [hr]
  · by_cases hr : r = root
    · subst hr
      simp [initCalc, Proc.bind_assoc]
    · simp [initCalc, hr, Proc.bind_assoc]

/-- `main` up to the main loop. -/
theorem mainProg_via (cfg : Cfg F) (hu : cfg.user.Wf cfg.nParm) (file : DataFile F) (clock : Nat) (root : Fin n) (w : W n F)
    (h0 : seqInit cfg file clock root = .ok w) : w.st.Ok cfg ∧
    RunsVia (fun r => mainProg cfg file clock root r) (fun _ => [])
      (fun r => (entireFlow cfg r root (view root w.st r)).bind fun s => NiiC.barrier.bind fun _ => .ret s) w.log := by
  have hn : 0 < n := Nat.lt_of_le_of_lt (Nat.zero_le _) root.isLt
  simp only [seqInit, exc_bind, Except.ok.injEq] at h0
  obtain ⟨cells, hcells, data, hdata, _, hneg, _, hlen, _, hpar, beta, hbeta, rfl⟩ := h0
  have hneg' : ¬ cells < 0 := by
    intro h; rw [if_pos h] at hneg; cases hneg
  have hlen' : data.length = cells.toNat := by
    by_contra h; rw [if_pos h] at hlen; cases hlen
  have hpar' : cfg.nParm ≠ 0 := by
    intro h; rw [if_pos h] at hpar; cases hpar
  refine ⟨⟨fun _ _ => rfl, fun r => hu.initParm _, fun r => hu.initGp _, fun r => hu.initGp _⟩, ?_⟩
  refine RunsTo.via (RunsTo.outs _ _) ?_
  refine RunsTo.via (RunsTo.congr_res (bcastInt_runs root _ _) (res' := fun _ => file.nlines) (fun r => by simp)
    (fun _ => rfl)) ?_
  refine RunsTo.via (RunsTo.lift (fun _ => hcells) _) ?_
  refine RunsTo.via (RunsTo.lift (a := fun _ => ()) (fun _ => if_neg hneg') _) ?_
  refine RunsTo.via (RunsTo.lift (a := fun r => if r = root then data else []) (fun r => ?_) _) ?_
  · by_cases hr : r = root
    · simp [hr, hdata]
    · simp [hr]
  refine RunsTo.via (RunsTo.congr_res (bcastDbls_runs root _ _ (by simp [hlen']) _) (res' := fun _ => data)
    (fun r => by simp) (fun _ => rfl)) ?_
  refine RunsTo.via (genInitParm_runs cfg hu hpar' root (startSeed cfg clock) _) ?_
  refine RunsTo.via (initCalc_runs cfg root file.nlines data _ beta hbeta (fun r => hu.initParm _) _) ?_
  refine RunsTo.via (RunsTo.barrier hn _) ?_
  refine RunsTo.via (RunsTo.outs _ _) ?_
  refine RunsTo.via (gatherSigma_runs cfg root (fun _ => cfg.user.initGp cfg.initGpRatio) (fun r => hu.initGp _) _) ?_
  refine RunsTo.via (RunsTo.lift (fun _ => hbeta) _) ?_
  refine RunsVia.congr_end (RunsVia.refl _ _) (fun r => ?_) (fun r => by simp)
  by_cases hr : r = root
  · subst hr; simp [entireFlow, view, G.loc, G.tab]
  · simp [entireFlow, view, G.loc, hr]

/-- The program of every rank, run to its end, yields the sequential result. -/
theorem mainProg_runs (cfg : Cfg F) (hu : cfg.user.Wf cfg.nParm) (file : DataFile F) (clock : Nat) (root : Fin n) (w : W n F)
    (h : seqMain cfg file clock root = .ok w) :
    RunsTo (fun r => mainProg cfg file clock root r) (fun _ => []) w.log (view root w.st) := by
  have hn : 0 < n := Nat.lt_of_le_of_lt (Nat.zero_le _) root.isLt
  simp only [seqMain, exc_bind] at h
  obtain ⟨w0, h0, h1⟩ := h
  obtain ⟨hok, k0⟩ := mainProg_via cfg hu file clock root w0 h0
  exact k0.runs (RunsTo.bind (flowLoop_runs cfg hu root _ _ _ _ w h1 hok).2
    (RunsTo.bind (RunsTo.barrier hn _) (RunsTo.ret _ _)))

end NiiC
