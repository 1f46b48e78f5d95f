import Verif.Mpi.Cut
import Verif.Props.Protocol

/-!
# Counting the rows of the chain files at every moment

`Held B L0 m`: in every execution that began with the logs `L0` and may pass through the state `m`, the numbers of rows of any two
chain files differ by at most `B` at every moment. The barrier after a batch cuts the executions (`Sys.cut`): before it no rank is
beyond the batch, after it no rank is in it.
-/

set_option linter.unusedSectionVars false
set_option linter.unusedSimpArgs false
set_option linter.unusedVariables false

namespace NiiC

open Proc Sys Spec

variable {n : Nat} {F : Type} [Arith F] [Source F]

/-- Number of rows in the chain file of rank `r`. -/
def rowCount (log : Fin n → List (Line F)) (r : Fin n) : Nat := (fileRows r.val (log r)).length

/-- The chain files of all ranks have the same number of rows. -/
def Level (log : Fin n → List (Line F)) : Prop := ∀ r s, rowCount log r = rowCount log s

/-- The numbers of rows of any two chain files differ by at most `B`. -/
def Abreast (B : Nat) (log : Fin n → List (Line F)) : Prop := ∀ r s, rowCount log r ≤ rowCount log s + B

/-- See the header of this file. -/
def Held (B : Nat) (L0 : Fin n → List (Line F)) (m : Sys n (Msg F) (Line F) (RSt n F)) : Prop :=
  ∀ s, SyncStar s m → s.log = L0 → ∀ w t, s.exec w = some t → Abreast B t.log

theorem rowCount_mono {a b : Fin n → List (Line F)} {r : Fin n} (h : a r <+: b r) : rowCount a r ≤ rowCount b r := by
  obtain ⟨c, hc⟩ := h
  simp [rowCount, ← hc]

/-- Between two logs with at most `B` rows more in each file. -/
theorem abreast_between {B : Nat} {a b log : Fin n → List (Line F)} (ha : Level a) (h : ∀ r, rowCount b r ≤ rowCount a r + B)
    (h1 : ∀ r, a r <+: log r) (h2 : ∀ r, log r <+: b r) : Abreast B log := by
  intro r s
  have e1 := rowCount_mono (h2 r)
  have e2 := rowCount_mono (h1 s)
  have e3 := ha r s
  have e4 := h r
  omega

theorem Held.back {B : Nat} {L0 : Fin n → List (Line F)} {m m' : Sys n (Msg F) (Line F) (RSt n F)} (hs : SyncStar m m')
    (h : Held B L0 m') : Held B L0 m := fun s h1 h2 => h s (h1.trans hs) h2

theorem stepBarrier_log {m p : Sys n (Msg F) (Line F) (RSt n F)} (h : m.stepBarrier = some p) : p.log = m.log := by
  unfold stepBarrier at h
  split at h
  · cases h; rfl
  · cases h

/-- A barrier begins a new count. -/
theorem Held.barrier {B : Nat} {L0 : Fin n → List (Line F)} {m p : Sys n (Msg F) (Line F) (RSt n F)} (hb : m.stepBarrier = some p)
    (hl : Level L0) (hk : ∀ r, rowCount m.log r ≤ rowCount L0 r + B) (h : Held B m.log p) : Held B L0 m := by
  intro s h1 h2 w t hw
  obtain ⟨w1, hw1⟩ := h1.exec
  rcases cut hw1 hb hw with ⟨w', h'⟩ | ⟨w', h'⟩
  · exact abreast_between hl hk (fun r => h2 ▸ exec_log hw r) (fun r => exec_log h' r)
  · exact h p (.refl _) (stepBarrier_log hb) w' t h'

/-- The end of the run. -/
theorem Held.done {B : Nat} {L0 : Fin n → List (Line F)} {m : Sys n (Msg F) (Line F) (RSt n F)} (hm : m.AllDone) (hl : Level L0)
    (hk : ∀ r, rowCount m.log r ≤ rowCount L0 r + B) : Held B L0 m := by
  intro s h1 h2 w t hw
  obtain ⟨w1, hw1⟩ := h1.exec
  obtain ⟨w3, h3, _⟩ := exec_complete hw1 (terminal_of_allDone hm) hw
  exact abreast_between hl hk (fun r => h2 ▸ exec_log hw r) (fun r => exec_log h3 r)

/-- Nothing has been saved since the logs `L0`, in which the files were level. -/
def Rest (B : Nat) (m : Sys n (Msg F) (Line F) (RSt n F)) : Prop :=
  ∀ L0, Level L0 → (∀ r, rowCount m.log r = rowCount L0 r) → Held B L0 m

/-- A part of the program through which the files stay abreast, if they do so afterwards. -/
def Thru (B : Nat) (p : Fin n → P n F β) (log log' : Fin n → List (Line F)) (res : Fin n → β) : Prop :=
  ∀ K : Fin n → β → P n F (RSt n F), Rest B (mkS (fun r => K r (res r)) log') → Rest B (mkS (fun r => (p r).bind (K r)) log)

theorem Thru.congr {B : Nat} {p p' : Fin n → P n F β} {log log' : Fin n → List (Line F)} {res : Fin n → β}
    (h : Thru B p' log log' res) (hp : ∀ r, p r = p' r) : Thru B p log log' res := by
  rw [funext hp]; exact h

/-- A part that saves nothing. -/
theorem RunsTo.thru {B : Nat} {p : Fin n → P n F β} {log log' : Fin n → List (Line F)} {res : Fin n → β}
    (h : RunsTo p log log' res) (hq : ∀ r, rowCount log' r = rowCount log r) : Thru B p log log' res := by
  intro K hK L0 hl hr
  exact (hK L0 hl (fun r => (hq r).trans (hr r))).back (h K)

theorem Thru.bind {B : Nat} {p : Fin n → P n F α} {f : Fin n → α → P n F β} {log log' log'' : Fin n → List (Line F)}
    {a : Fin n → α} {b : Fin n → β} (h : Thru B p log log' a) (h' : Thru B (fun r => f r (a r)) log' log'' b) :
    Thru B (fun r => (p r).bind (f r)) log log'' b := by
  intro K hK
  simp only [Proc.bind_assoc]
  exact h (fun r x => (f r x).bind (K r)) (h' K hK)

theorem RunsTo.quiet {B : Nat} {p : Fin n → P n F α} {f : Fin n → α → P n F β} {log log' log'' : Fin n → List (Line F)}
    {a : Fin n → α} {b : Fin n → β} (h : RunsTo p log log' a) (hq : ∀ r, rowCount log' r = rowCount log r)
    (h' : Thru B (fun r => f r (a r)) log' log'' b) : Thru B (fun r => (p r).bind (f r)) log log'' b :=
  Thru.bind (h.thru hq) h'

theorem mkS_stepBarrier (hn : 0 < n) (Q : Fin n → P n F (RSt n F)) (log : Fin n → List (Line F)) :
    (mkS (fun r => .barrier (Q r)) log).stepBarrier = some (mkS Q log) := by
  have h1 : (mkS (fun r => .barrier (Q r)) log).AllAtBarrier := ⟨hn, fun r => rfl⟩
  rw [stepBarrier, if_pos h1]
  rfl

/-- A part in which every rank saves the same number of rows, and then a barrier. -/
theorem RunsTo.saves {B k : Nat} (hn : 0 < n) {p : Fin n → P n F α} {f : Fin n → α → P n F β}
    {log log' log'' : Fin n → List (Line F)} {a : Fin n → α} {b : Fin n → β} (h : RunsTo p log log' a)
    (hq : ∀ r, rowCount log' r = rowCount log r + k) (hk : k ≤ B) (h' : Thru B (fun r => f r (a r)) log' log'' b) :
    Thru B (fun r => (p r).bind fun x => NiiC.barrier.bind fun _ => f r x) log log'' b := by
  intro K hK L0 hl hr
  have h1 := h (fun r x => (NiiC.barrier.bind fun _ => f r x).bind (K r))
  simp only [Proc.bind_assoc] at h1 ⊢
  refine Held.back h1 ?_
  have h2 := h' K hK
  refine Held.barrier (mkS_stepBarrier hn (fun r => (f r (a r)).bind (K r)) log') hl (fun r => ?_) ?_
  · have e1 := hq r
    have e2 : rowCount log r = rowCount L0 r := hr r
    show rowCount log' r ≤ _
    omega
  · refine h2 log' (fun r s => ?_) (fun r => rfl)
    have e1 := hq r
    have e2 := hq s
    have e3 : rowCount log r = rowCount L0 r := hr r
    have e4 : rowCount log s = rowCount L0 s := hr s
    have e5 := hl r s
    omega

/-! ## What the parts save -/

theorem seqSwaps_rows (cfg : Cfg F) (root : Fin n) : ∀ (k : Nat) (w w' : W n F) (ty ty' : Tally n F),
    seqSwaps cfg root k w ty = .ok (w', ty') → ∀ r, rowCount w'.log r = rowCount w.log r := by
  intro k
  induction k with
  | zero => intro w w' ty ty' h r; cases h; rfl
  | succ k ih =>
    intro w w' ty ty' h r
    simp only [seqSwaps, exc_bind] at h
    obtain ⟨⟨w1, ty1⟩, h1, h2⟩ := h
    rw [ih w1 w' ty1 ty' h2 r, rowCount, seqSwap_log cfg root w w1 ty ty1 h1]
    simp [rowCount, fileRows, Loc.note]

theorem seqTuneRanks_rows (cfg : Cfg F) (root : Fin n) (fl : Fin n → Int) : ∀ (l : List (Fin n)) (w w' : W n F),
    seqTuneRanks cfg root fl l w = .ok w' → ∀ r, rowCount w'.log r = rowCount w.log r := by
  intro l
  induction l with
  | nil => intro w w' h r; cases h; rfl
  | cons rk l ih =>
    intro w w' h r
    simp only [seqTuneRanks, exc_bind] at h
    obtain ⟨w1, h1, h2⟩ := h
    rw [ih w1 w' h2 r]
    split at h1
    · simp only [seqTuneRank, exc_bind, Except.ok.injEq] at h1
      obtain ⟨grid, hgrid, ⟨st1, ars⟩, h1, d, hd, sg, hsg, rfl⟩ := h1
      simp [rowCount, W.push]
    · cases h1; rfl

/-- Every rank saves the same number of rows in a batch, at most one per iteration. -/
theorem seqBatch_rows {cfg : Cfg F} (hu : cfg.user.Wf cfg.nParm) {nb : Int} {w w' : W n F} (h : seqBatch cfg nb w = .ok w')
    (hok : w.st.Ok cfg) (root : Fin n) : ∀ r, rowCount w'.log r =
      rowCount w.log r + if cfg.saveBegin ≤ w.st.acc root + nb.toNat then nb.toNat else 0 := by
  intro r
  have h1 := ((seqBatch_chain hu h hok).1 r).2.2
  rw [rowCount, h1, hok.acc r root, fileRows_append, List.length_append]
  congr 1
  split
  · show (fileRows r.val ((w.st.mh cfg r nb.toNat).map (line r.val))).length = _
    have e : ∀ l : List (Ch F), (fileRows r.val (l.map (line r.val))).length = l.length := by
      intro l
      induction l with
      | nil => rfl
      | cons c l ih =>
        simp only [List.map_cons, fileRows, line, List.filterMap_cons, if_true, List.length_cons] at ih ⊢
        rw [ih]
    rw [e]
    exact mhRun_length _ _ _ _ _ _ _
  · rfl

/-! ## The program -/

theorem stackLoop_thru (cfg : Cfg F) (hu : cfg.user.Wf cfg.nParm) (root slave : Fin n) (hs : slave ≠ root) {B : Nat}
    (hB : ∀ (m i : Int) (g : Rng) (b : Int × Int × Rng), nextBatch cfg m i g = .ok b → b.1.toNat ≤ B) (nStack : Int) :
    ∀ (fuel : Nat) (i : Int) (w w' : W n F) (ty ty' : Tally n F),
    seqStackLoop cfg root nStack fuel i w ty = .ok (w', ty') → w.st.Ok cfg →
    Thru B (fun r => stackLoop cfg r root slave nStack fuel i i (view root w.st r) (tyView root ty r))
      w.log w'.log (fun r => (view root w'.st r, tyView root ty' r)) := by
  have hn : 0 < n := Nat.lt_of_le_of_lt (Nat.zero_le _) root.isLt
  intro fuel
  induction fuel with
  | zero =>
    intro i w w' ty ty' h hok
    simp only [seqStackLoop] at h
    split at h
    · cases h
    · rename_i hi
      cases h
      exact Thru.congr ((RunsTo.ret _ _).thru (fun _ => rfl)) (fun r => by simp only [stackLoop, if_neg hi])
  | succ fuel ih =>
    intro i w w' ty ty' h hok
    simp only [seqStackLoop] at h
    split at h
    · rename_i hi
      simp only [exc_bind] at h
      obtain ⟨b, hb, w1, h1, ⟨w2, ty2⟩, h2, h3⟩ := h
      have k1 := seqBatch_ok cfg hu b.1 { w with st := w.st.setG root b.2.2 } w1 h1 (hok.setG root b.2.2)
      have k1r := seqBatch_rows hu h1 (hok.setG root b.2.2) root
      have k2 := swapLoop_runs cfg root slave hs _ w1 w2 ty ty2 h2 k1.1
      have k3 := ih b.2.1 w2 w' ty2 ty' h3 k2.1
      refine Thru.congr (p' := fun r => (announce cfg r root nStack i (view root w.st r)).bind fun a =>
        NiiC.barrier.bind fun _ => (runBatch cfg r root a.1.1 a.2).bind fun s => NiiC.barrier.bind fun _ =>
        (swapLoop cfg r root slave cfg.nSwap.toNat s (tyView root ty r)).bind fun t => NiiC.barrier.bind fun _ =>
        stackLoop cfg r root slave nStack fuel a.1.2 a.1.2 t.1 t.2) ?_ (fun r => by simp only [stackLoop, if_pos hi]; rfl)
      refine RunsTo.quiet (announce_runs cfg root nStack i w.st b hb w.log) (fun _ => rfl) ?_
      refine RunsTo.quiet (RunsTo.barrier hn _) (fun _ => rfl) ?_
      refine RunsTo.saves hn (f := fun r s => (swapLoop cfg r root slave cfg.nSwap.toNat s (tyView root ty r)).bind fun t =>
        NiiC.barrier.bind fun _ => stackLoop cfg r root slave nStack fuel b.2.1 b.2.1 t.1 t.2) (k1.2 root) k1r
        (by have := hB _ _ _ _ hb; split <;> omega) ?_
      refine RunsTo.quiet k2.2 (seqSwaps_rows cfg root _ w1 w2 ty ty2 h2) ?_
      refine RunsTo.quiet (RunsTo.barrier hn _) (fun _ => rfl) ?_
      exact k3
    · rename_i hi
      cases h
      exact Thru.congr ((RunsTo.ret _ _).thru (fun _ => rfl)) (fun r => by simp only [stackLoop, if_neg hi])

theorem runStack_thru (cfg : Cfg F) (hu : cfg.user.Wf cfg.nParm) (root : Fin n) {B : Nat}
    (hB : ∀ (m i : Int) (g : Rng) (b : Int × Int × Rng), nextBatch cfg m i g = .ok b → b.1.toNat ≤ B) (nStack : Int) (w w' : W n F)
    (h : seqStack cfg root nStack w = .ok w') (hok : w.st.Ok cfg) :
    Thru B (fun r => runStack cfg r root nStack (view root w.st r)) w.log w'.log (view root w'.st) := by
  simp only [seqStack, exc_bind] at h
  obtain ⟨slave, hsl, ⟨w1, ty1⟩, h1, h2⟩ := h
  have k0 := stackLoop_runs cfg hu root slave (slaveRank_ne hsl) nStack _ 0 _ w1 Tally.zero ty1 h1 ⟨hok.acc, hok.x, hok.sig, hok.cur⟩
  have k1' := stackLoop_thru cfg hu root slave (slaveRank_ne hsl) hB nStack _ 0 _ w1 Tally.zero ty1 h1 ⟨hok.acc, hok.x, hok.sig, hok.cur⟩
  have hb : RunsTo (fun r => (NiiC.outs (if r = root then [.betas (List.ofFn (view root w.st r).loc.beta)] else []) : P n F Unit))
      w.log (fun r => w.log r ++ (if r = root then [.betas (List.ofFn w.st.beta)] else [])) (fun _ => ()) :=
    RunsTo.outs _ _
  have hbq : ∀ r, rowCount (fun r => w.log r ++ (if r = root then [Line.betas (List.ofFn w.st.beta)] else [])) r = rowCount w.log r := by
    intro r
    by_cases hr : r = root <;> simp [rowCount, hr, fileRows]
  have hz : ∀ r : Fin n, tyView root (Tally.zero : Tally n F) r = Tally.zero := fun r => by simp [tyView]
  simp only [hz] at k1'
  have hacc : ∀ r, (w1.st.acc r : Int) < cfg.nStopTuneLadder ∧ 0 < cfg.tuneLadder
      ↔ (w1.st.acc root : Int) < cfg.nStopTuneLadder ∧ 0 < cfg.tuneLadder := fun r => by rw [k0.1.acc r root]
  split at h2
  · rename_i hc
    cases h2
    refine RunsTo.quiet (RunsTo.lift (fun _ => hsl) _) (fun _ => rfl) (RunsTo.quiet hb hbq (Thru.bind k1' ?_))
    refine Thru.congr ((adjustLadder_runs cfg root w1 ty1).thru (fun r => by simp [rowCount, seqLadder, W.push])) (fun r => ?_)
    exact if_pos ((hacc r).2 hc)
  · rename_i hc
    cases h2
    refine RunsTo.quiet (RunsTo.lift (fun _ => hsl) _) (fun _ => rfl) (RunsTo.quiet hb hbq (Thru.bind k1' ?_))
    refine Thru.congr ((RunsTo.ret (view root w1.st) _).thru (fun _ => rfl)) (fun r => ?_)
    exact if_neg (fun h => hc ((hacc r).1 h))

/-- One round of the main loop. -/
theorem flowRound_thru (cfg : Cfg F) (hu : cfg.user.Wf cfg.nParm) (root : Fin n) {B : Nat}
    (hB : ∀ (m i : Int) (g : Rng) (b : Int × Int × Rng), nextBatch cfg m i g = .ok b → b.1.toNat ≤ B)
    (fuel : Nat) (nStack i nx : Int) (w w1 w2 w3 : W n F)
    (hi : i < cfg.nIter) (hnx : i32 (i + nStack) = .ok nx)
    (h1 : seqStack cfg root (if cfg.nIter < nx then cfg.nIter - i else nStack) (seqWidths w) = .ok w1)
    (h2 : (if inTuneWindow cfg (if cfg.nIter < nx then cfg.nIter else nx) then
        seqTuneRanks cfg root (fun r => tuneFlag cfg (stackRate F (w.st.accA r) (w1.st.accA r)
          (if cfg.nIter < nx then cfg.nIter - i else nStack))) (List.finRange n) w1 else .ok w1) = .ok w2) (hok : w.st.Ok cfg)
    (h3 : Thru B (fun r => flowLoop cfg r root fuel (if cfg.nIter < nx then cfg.nIter - i else nStack)
          (if cfg.nIter < nx then cfg.nIter else nx) (if cfg.nIter < nx then cfg.nIter else nx) (view root w2.st r))
        w2.log w3.log (view root w3.st)) :
    Thru B (fun r => flowLoop cfg r root (fuel + 1) nStack i i (view root w.st r)) w.log w3.log (view root w3.st) := by
  have hn : 0 < n := Nat.lt_of_le_of_lt (Nat.zero_le _) root.isLt
  have k0 := runStack_runs cfg hu root _ (seqWidths w) w1 h1 ⟨hok.acc, hok.x, hok.sig, hok.sig⟩
  have k1 := runStack_thru cfg hu root hB _ (seqWidths w) w1 h1 ⟨hok.acc, hok.x, hok.sig, hok.sig⟩
  have k2 : Thru B (fun r => if inTuneWindow cfg (if cfg.nIter < nx then cfg.nIter else nx) then
      (findRanks cfg r root (stackRate F ((view root w.st r).loc.accA) ((view root w1.st r).loc.accA)
        (if cfg.nIter < nx then cfg.nIter - i else nStack))).bind fun fl => NiiC.barrier.bind fun _ =>
        tuneRanks cfg r root fl (List.finRange n) (view root w1.st r)
      else .ret (view root w1.st r)) w1.log w2.log (view root w2.st) := by
    by_cases hw : inTuneWindow cfg (if cfg.nIter < nx then cfg.nIter else nx) = true
    · rw [if_pos hw] at h2
      have k := tuneRanks_runs cfg hu root _ _ w1 w2 h2 k0.1
      refine Thru.congr (RunsTo.quiet (f := fun r fl => NiiC.barrier.bind fun _ =>
        tuneRanks cfg r root fl (List.finRange n) (view root w1.st r))
        (findRanks_runs cfg root _ _) (fun _ => rfl) (RunsTo.quiet (RunsTo.barrier hn _) (fun _ => rfl)
          (k.2.thru (seqTuneRanks_rows cfg root _ _ w1 w2 h2)))) (fun r => by rw [if_pos hw]; rfl)
    · rw [if_neg hw] at h2
      cases h2
      exact Thru.congr ((RunsTo.ret _ _).thru (fun _ => rfl)) (fun r => by rw [if_neg hw])
  refine Thru.congr (p' := fun r => (Proc.lift (i32 (i + nStack))).bind fun nx =>
    (distributeSigma cfg r root ((view root w.st r).tab.map Tab.sig)).bind fun sg => NiiC.barrier.bind fun _ =>
    (outs [.sigma r.val sg]).bind fun _ =>
    (runStack cfg r root (if cfg.nIter < nx then cfg.nIter - i else nStack)
      { view root w.st r with loc := { (view root w.st r).loc with sigma := sg } }).bind fun s1 =>
    NiiC.barrier.bind fun _ =>
    (if inTuneWindow cfg (if cfg.nIter < nx then cfg.nIter else nx) then
      (findRanks cfg r root (stackRate F ((view root w.st r).loc.accA) (s1.loc.accA)
        (if cfg.nIter < nx then cfg.nIter - i else nStack))).bind fun fl => NiiC.barrier.bind fun _ =>
        tuneRanks cfg r root fl (List.finRange n) s1
      else .ret s1).bind fun s2 =>
    flowLoop cfg r root fuel (if cfg.nIter < nx then cfg.nIter - i else nStack)
      (if cfg.nIter < nx then cfg.nIter else nx) (if cfg.nIter < nx then cfg.nIter else nx) s2) ?_
    (fun r => by simp only [flowLoop, if_pos hi]; rfl)
  refine RunsTo.quiet (RunsTo.lift (fun _ => hnx) _) (fun _ => rfl) ?_
  refine RunsTo.quiet (RunsTo.congr (distributeSigma_runs cfg root w.st.sig hok.sig w.log) (fun r => ?_)) (fun _ => rfl) ?_
  · by_cases hr : r = root
    · subst hr; simp [view, G.tab]
    · simp [view, hr]
  refine RunsTo.quiet (RunsTo.barrier hn _) (fun _ => rfl) ?_
  refine RunsTo.quiet (RunsTo.outs _ _) (fun r => by simp [rowCount, fileRows]) ?_
  refine Thru.bind (f := fun r s1 => NiiC.barrier.bind fun _ =>
    (if inTuneWindow cfg (if cfg.nIter < nx then cfg.nIter else nx) then
      (findRanks cfg r root (stackRate F ((view root w.st r).loc.accA) (s1.loc.accA)
        (if cfg.nIter < nx then cfg.nIter - i else nStack))).bind fun fl => NiiC.barrier.bind fun _ =>
        tuneRanks cfg r root fl (List.finRange n) s1
      else .ret s1).bind fun s2 =>
    flowLoop cfg r root fuel (if cfg.nIter < nx then cfg.nIter - i else nStack)
      (if cfg.nIter < nx then cfg.nIter else nx) (if cfg.nIter < nx then cfg.nIter else nx) s2) k1 ?_
  refine RunsTo.quiet (RunsTo.barrier hn _) (fun _ => rfl) ?_
  exact Thru.bind k2 h3

theorem flowLoop_thru (cfg : Cfg F) (hu : cfg.user.Wf cfg.nParm) (root : Fin n) {B : Nat}
    (hB : ∀ (m i : Int) (g : Rng) (b : Int × Int × Rng), nextBatch cfg m i g = .ok b → b.1.toNat ≤ B) :
    ∀ (fuel : Nat) (nStack i : Int) (w w' : W n F), seqFlowLoop cfg root fuel nStack i w = .ok w' → w.st.Ok cfg →
    Thru B (fun r => flowLoop cfg r root fuel nStack i i (view root w.st r)) w.log w'.log (view root w'.st) := by
  intro fuel
  induction fuel with
  | zero =>
    intro nStack i w w' h hok
    simp only [seqFlowLoop] at h
    split at h
    · cases h
    · rename_i hi
      cases h
      exact Thru.congr ((RunsTo.ret _ _).thru (fun _ => rfl)) (fun r => by simp only [flowLoop, if_neg hi])
  | succ fuel ih =>
    intro nStack i w w' h hok
    simp only [seqFlowLoop] at h
    split at h
    · rename_i hi
      simp only [exc_bind] at h
      obtain ⟨nx, hnx, w1, h1, w2, h2, h3⟩ := h
      obtain ⟨hok2, k2⟩ := flowRound_via cfg hu root fuel nStack i nx w w1 w2 hi hnx h1 h2 hok
      exact flowRound_thru cfg hu root hB fuel nStack i nx w w1 w2 w' hi hnx h1 h2 hok (ih _ _ w2 w' h3 hok2)
    · rename_i hi
      cases h
      exact Thru.congr ((RunsTo.ret _ _).thru (fun _ => rfl)) (fun r => by simp only [flowLoop, if_neg hi])

/-- One more part before the state. -/
theorem RunsTo.held {B : Nat} {L0 : Fin n → List (Line F)} {p : Fin n → P n F α} {f : Fin n → α → P n F (RSt n F)}
    {log log' : Fin n → List (Line F)} {a : Fin n → α} (h : RunsTo p log log' a)
    (h' : Held B L0 (mkS (fun r => f r (a r)) log')) : Held B L0 (mkS (fun r => (p r).bind (f r)) log) := h'.back (h f)

theorem Held.congr {B : Nat} {L0 : Fin n → List (Line F)} {Q Q' : Fin n → P n F (RSt n F)} {log log' : Fin n → List (Line F)}
    (h : Held B L0 (mkS Q' log')) (hQ : ∀ r, Q r = Q' r) (hl : ∀ r, log r = log' r) : Held B L0 (mkS Q log) := by
  rw [mkS_congr hQ hl]; exact h

/-- The whole program. -/
theorem mainProg_held (cfg : Cfg F) (hu : cfg.user.Wf cfg.nParm) (file : DataFile F) (clock : Nat) (root : Fin n) {B : Nat} (hB1 : 1 ≤ B)
    (hB : ∀ (m i : Int) (g : Rng) (b : Int × Int × Rng), nextBatch cfg m i g = .ok b → b.1.toNat ≤ B) (w : W n F)
    (h : seqMain cfg file clock root = .ok w) :
    Held B (fun _ => []) (mkS (fun r => mainProg cfg file clock root r) (fun _ => [])) := by
  have hn : 0 < n := Nat.lt_of_le_of_lt (Nat.zero_le _) root.isLt
  simp only [seqMain, exc_bind] at h
  obtain ⟨w0, h0, h1⟩ := h
  obtain ⟨hok, _⟩ := mainProg_via cfg hu file clock root w0 h0
  simp only [seqInit, exc_bind, Except.ok.injEq] at h0
  obtain ⟨cells, hcells, data, hdata, _, hneg, _, hlen, _, hpar, beta, hbeta, hw0⟩ := h0
  have hneg' : ¬ cells < 0 := by
    intro h; rw [if_pos h] at hneg; cases hneg
  have hlen' : data.length = cells.toNat := by
    by_contra h; rw [if_pos h] at hlen; cases hlen
  have hpar' : cfg.nParm ≠ 0 := by
    intro h; rw [if_pos h] at hpar; cases hpar
  have hend : Rest B (mkS (fun r => (entireFlow cfg r root (view root w0.st r)).bind fun s => NiiC.barrier.bind fun _ => .ret s) w0.log) := by
    refine flowLoop_thru cfg hu root hB _ _ _ _ w h1 hok (fun _ s => NiiC.barrier.bind fun _ => .ret s) ?_
    refine (RunsTo.barrier hn _).thru (fun _ => rfl) (fun r _ => .ret (view root w.st r)) ?_
    intro L0 hl hr
    exact Held.done (fun _ => trivial) hl (fun r => by have := hr r; omega)
  subst hw0
  refine RunsTo.held (RunsTo.outs _ _) ?_
  refine RunsTo.held (RunsTo.congr_res (bcastInt_runs root _ _) (res' := fun _ => file.nlines) (fun r => by simp)
    (fun _ => rfl)) ?_
  refine RunsTo.held (RunsTo.lift (fun _ => hcells) _) ?_
  refine RunsTo.held (RunsTo.lift (a := fun _ => ()) (fun _ => if_neg hneg') _) ?_
  refine RunsTo.held (RunsTo.lift (a := fun r => if r = root then data else []) (fun r => ?_) _) ?_
  · by_cases hr : r = root
    · simp [hr, hdata]
    · simp [hr]
  refine RunsTo.held (RunsTo.congr_res (bcastDbls_runs root _ _ (by simp [hlen']) _) (res' := fun _ => data)
    (fun r => by simp) (fun _ => rfl)) ?_
  refine RunsTo.held (genInitParm_runs cfg hu hpar' root (startSeed cfg clock) _) ?_
  refine RunsTo.held (initCalc_runs cfg root file.nlines data _ beta hbeta (fun r => hu.initParm _) _) ?_
  refine Held.barrier (mkS_stepBarrier hn _ _) (fun _ _ => rfl) (fun r => ?_) ?_
  · have : (1 : Nat) ≤ B := hB1
    by_cases hr : r = root <;> simp [mkS, rowCount, fileRows, hr] <;> omega
  refine RunsTo.held (RunsTo.ret (fun _ => ()) _) ?_
  refine RunsTo.held (RunsTo.outs _ _) ?_
  refine RunsTo.held (gatherSigma_runs cfg root (fun _ => cfg.user.initGp cfg.initGpRatio) (fun r => hu.initGp _) _) ?_
  refine RunsTo.held (RunsTo.lift (fun _ => hbeta) _) ?_
  refine Held.congr (hend _ ?_ ?_) (fun r => ?_) (fun r => by simp)
  · intro r s
    by_cases hr : r = root <;> by_cases hs : s = root <;> simp [mkS, rowCount, fileRows, hr, hs]
  · intro r
    by_cases hr : r = root <;> simp [mkS, rowCount, fileRows, hr]
  · by_cases hr : r = root
    · subst hr; simp [entireFlow, view, G.loc, G.tab]
    · simp [entireFlow, view, G.loc, hr]

end NiiC
