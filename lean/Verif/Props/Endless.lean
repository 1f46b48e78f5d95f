import Verif.Refine.Start
import Verif.Props.Counter
import Verif.Props.Demo

/-!
# C74: a stack length that is not positive never ends the run

`n_iter_a_stack` is read from `input.ini` and is not checked. The main loop (mpi_flow.c:58-135) adds it to the iteration counter after each
stack. With 0 the counter stays where it is, below `N_iter`: no number of rounds ends the loop. With a negative number the counter runs
downwards until the addition overflows, which is undefined behaviour. Both are stated for the sequential loop and for every execution of the
distributed program, in which the number of rounds looked at (`sysFor`) is arbitrary.
-/

namespace NiiC

set_option linter.unusedSectionVars false

variable {F : Type} [Arith F] [Source F] {n : Nat}

/-- A stack of no iterations runs no batch and proposes no swap. -/
theorem empty_stack (cfg : Cfg F) (hn : 2 ≤ n) (root : Fin n) (nStack : Int) (h : nStack ≤ 0) (w : W n F) :
    ∃ w', seqStack cfg root nStack w = .ok w' ∧ w'.st.x = w.st.x ∧ w'.st.acc = w.st.acc := by
  obtain ⟨s, hsl⟩ := slaveRank_total hn root
  have ht : nStack.toNat = 0 := by omega
  have hno : ¬ (0 : Int) < nStack := by omega
  have hr : seqStackLoop cfg root nStack nStack.toNat 0
      { w with log := fun r => w.log r ++ (if r = root then [.betas (List.ofFn w.st.beta)] else []) } Tally.zero =
      .ok ({ w with log := fun r => w.log r ++ (if r = root then [.betas (List.ofFn w.st.beta)] else []) }, Tally.zero) := by
    rw [ht]
    simp only [seqStackLoop]
    rw [if_neg hno]
  by_cases hc : (w.st.acc root : Int) < cfg.nStopTuneLadder ∧ 0 < cfg.tuneLadder
  · exact ⟨_, exc_ok_bind hsl (exc_ok_bind hr (if_pos hc)), rfl, rfl⟩
  · exact ⟨_, exc_ok_bind hsl (exc_ok_bind hr (if_neg hc)), rfl, rfl⟩

/-- One round with a stack length that is not positive, before tuning begins: the counter moves by the stack length. -/
theorem round_back (cfg : Cfg F) (hn : 2 ≤ n) (root : Fin n) (hb : 0 ≤ cfg.nBegintune) (nStack i : Int) (hs : nStack ≤ 0) (hi : i ≤ 0)
    (hN : 0 < cfg.nIter) (hx : -2147483648 ≤ i + nStack) (fuel : Nat) (w : W n F) :
    ∃ w', seqFlowLoop cfg root (fuel + 1) nStack i w = seqFlowLoop cfg root fuel nStack (i + nStack) w' := by
  obtain ⟨w', hw, -, -⟩ := empty_stack cfg hn root nStack hs (seqWidths w)
  have h1 : ¬ cfg.nIter < i + nStack := by omega
  have h2 : inTuneWindow cfg (i + nStack) = false := by
    simp only [inTuneWindow, Bool.and_eq_false_iff, decide_eq_false_iff_not]
    exact Or.inl (Or.inl (by omega))
  refine ⟨w', ?_⟩
  have hlt : i < cfg.nIter := by omega
  simp only [seqFlowLoop]
  rw [if_pos hlt, i32_ok hx (by omega)]
  simp only [bind, Except.bind, if_neg h1, hw, h2, Bool.false_eq_true, if_false]

/-- **C74.** With `n_iter_a_stack = 0` no number of rounds of the main loop is enough. -/
theorem zero_stack_diverges (cfg : Cfg F) (hn : 2 ≤ n) (root : Fin n) (hb : 0 ≤ cfg.nBegintune) (hN : 0 < cfg.nIter) :
    ∀ (fuel : Nat) (w : W n F), seqFlowLoop cfg root fuel 0 0 w = .error .fuel := by
  intro fuel
  induction fuel with
  | zero => intro w; simp only [seqFlowLoop]; rw [if_pos hN]
  | succ fuel ih =>
    intro w
    obtain ⟨w', hw⟩ := round_back cfg hn root hb 0 0 (le_refl _) (le_refl _) hN (by omega) fuel w
    rw [hw]
    exact ih w'

/-- **C74.** With a negative `n_iter_a_stack` the counter overflows, after `2^31 / |n_iter_a_stack|` rounds. -/
theorem negative_stack_overflows (cfg : Cfg F) (hn : 2 ≤ n) (root : Fin n) (hb : 0 ≤ cfg.nBegintune) (hN : 0 < cfg.nIter)
    (nStack : Int) (hs : nStack < 0) : ∀ (fuel : Nat) (i : Int) (w : W n F), i ≤ 0 → -2147483648 ≤ i → 2147483648 + i < fuel * -nStack →
    seqFlowLoop cfg root fuel nStack i w = .error .overflow := by
  intro fuel
  induction fuel with
  | zero => intro i w h0 h1 h2; simp at h2; omega
  | succ fuel ih =>
    intro i w h0 h1 h2
    by_cases hx : -2147483648 ≤ i + nStack
    · obtain ⟨w', hw⟩ := round_back cfg hn root hb nStack i hs.le h0 hN hx fuel w
      rw [hw]
      refine ih _ _ (by omega) hx ?_
      have : ((fuel + 1 : ℕ) : Int) * -nStack = fuel * -nStack + -nStack := by push_cast; ring
      omega
    · have hi : i < cfg.nIter := by omega
      have he : i32 (i + nStack) = .error .overflow := if_neg (fun h => hx h.1)
      simp only [seqFlowLoop]
      rw [if_pos hi, he]
      rfl

/-! ## Executions of the distributed program -/

open Proc Sys

/-- Every rank is at the fault `f` and nothing is in flight. -/
def allAt (f : Fault) (log : Fin n → List (Line F)) : Sys n (Msg F) (Line F) (RSt n F) :=
  { procs := fun _ => .fault f, chan := fun _ => [], log := log }

omit [Arith F] [Source F] in
theorem allAt_terminal (hn : 0 < n) (f : Fault) (log : Fin n → List (Line F)) : (allAt f log).Terminal := by
  intro l
  cases l with
  | rank r => rfl
  | barrier =>
    simp only [step, stepBarrier]
    rw [if_neg]
    intro h
    have := h.2 ⟨0, hn⟩
    simp [allAt, Proc.barrier?] at this

/-- An execution that can be taken to a state in which all ranks are at a fault can only go on to it. -/
theorem only_allAt {s : Sys n (Msg F) (Line F) (RSt n F)} (hn : 0 < n) {f : Fault} {log : Fin n → List (Line F)}
    (hs : SyncStar s (allAt f log)) : ∃ len : Nat, ∀ (w₁ : List (Label n)) (t : Sys n (Msg F) (Line F) (RSt n F)), s.exec w₁ = some t →
      (∃ w₂, t.exec w₂ = some (allAt f log) ∧ w₁.length + w₂.length = len) ∧ ¬ t.AllDone := by
  obtain ⟨v, hv'⟩ := hs.exec
  have hterm := allAt_terminal hn f log
  refine ⟨v.length, fun w₁ t ht => ⟨exec_complete hv' hterm ht, fun hd => ?_⟩⟩
  obtain ⟨w₂, hw₂, -⟩ := exec_complete hv' hterm ht
  have : t = allAt f log := by
    cases w₂ with
    | nil => simpa using hw₂
    | cons l w' =>
      simp only [exec_cons, terminal_of_allDone hd l, Option.bind_none] at hw₂
      cases hw₂
  rw [this] at hd
  exact hd ⟨0, hn⟩

/-- What empty rounds write, one entry of `bs` for each: each rank its widths, root also the inverse temperatures of the round. -/
def emptyRounds (root : Fin n) (bs : List ((Fin n → List F) × List F)) (r : Fin n) : List (Line F) :=
  bs.flatMap fun b => .sigma r.val (b.1 r) :: (if r = root then [.betas b.2] else [])

/-! Tuning does not read the stack length. -/

theorem genAllTune_stack (cfg : Cfg F) (N : Int) (sig : List F) : ∀ k i : Nat,
    genAllTune n { cfg with nStack := N } sig k i = genAllTune n cfg sig k i := by
  intro k
  induction k with
  | zero => intro i; rfl
  | succ k ih => intro i; simp only [genAllTune, ih]

theorem seqTuneParms_stack (cfg : Cfg F) (N : Int) (rk : Fin n) (grid : List (Fin n → F)) : ∀ (k j : Nat) (s : G n F) (ars : List (Fin n → F)),
    seqTuneParms { cfg with nStack := N } rk grid k j s ars = seqTuneParms cfg rk grid k j s ars := by
  intro k
  induction k with
  | zero => intro j s ars; rfl
  | succ k ih => intro j s ars; simp only [seqTuneParms, ih]

theorem seqTuneRanks_stack (cfg : Cfg F) (N : Int) (root : Fin n) (fl : Fin n → Int) : ∀ (l : List (Fin n)) (w : W n F),
    seqTuneRanks { cfg with nStack := N } root fl l w = seqTuneRanks cfg root fl l w := by
  intro l
  induction l with
  | nil => intro w; rfl
  | cons rk l ih =>
    intro w
    have h : seqTuneRank { cfg with nStack := N } root rk w = seqTuneRank cfg root rk w := by
      simp only [seqTuneRank, genAllTune_stack, seqTuneParms_stack]
      rfl
    simp only [seqTuneRanks, ih, h]

/-- A stack of no iterations, with all that it leaves as it was and all that it writes. -/
theorem empty_stack_frame (cfg : Cfg F) (hn : 2 ≤ n) (root : Fin n) (nStack : Int) (h : nStack ≤ 0) (w : W n F) :
    ∃ w', seqStack cfg root nStack w = .ok w' ∧ w'.st.x = w.st.x ∧ w'.st.sig = w.st.sig ∧
      w'.log = fun r => w.log r ++ (if r = root then [.betas (List.ofFn w.st.beta)] else []) := by
  obtain ⟨s, hsl⟩ := slaveRank_total hn root
  have ht : nStack.toNat = 0 := by omega
  have hno : ¬ (0 : Int) < nStack := by omega
  have hr : seqStackLoop cfg root nStack nStack.toNat 0
      { w with log := fun r => w.log r ++ (if r = root then [.betas (List.ofFn w.st.beta)] else []) } Tally.zero =
      .ok ({ w with log := fun r => w.log r ++ (if r = root then [.betas (List.ofFn w.st.beta)] else []) }, Tally.zero) := by
    rw [ht]
    simp only [seqStackLoop]
    rw [if_neg hno]
  by_cases hc : (w.st.acc root : Int) < cfg.nStopTuneLadder ∧ 0 < cfg.tuneLadder
  · exact ⟨_, exc_ok_bind hsl (exc_ok_bind hr (if_pos hc)), rfl, rfl, funext fun r => by simp [seqLadder, W.push]⟩
  · exact ⟨_, exc_ok_bind hsl (exc_ok_bind hr (if_neg hc)), rfl, rfl, rfl⟩

/-- `m` rounds of the distributed main loop with a stack length that is not positive. -/
theorem back_via (cfg : Cfg F) (file : DataFile F) (hv : Runnable n { cfg with nStack := 1 } file) (root : Fin n) (hN : 0 < cfg.nIter)
    (nStack : Int) (hs : nStack ≤ 0) : ∀ (m fuel : Nat) (i : Int) (w : W n F), i ≤ 0 → -2147483648 ≤ i + m * nStack → w.st.Ok cfg →
    ∃ (w' : W n F) (bs : List ((Fin n → List F) × List F)), bs.length = m ∧ w'.st.Ok cfg ∧ w'.st.x = w.st.x ∧
      (0 ≤ cfg.nBegintune → w'.st.sig = w.st.sig ∧ ∀ b ∈ bs, b.1 = w.st.sig) ∧ (w'.log = fun r => w.log r ++ emptyRounds root bs r) ∧
      RunsVia (fun r => flowLoop cfg r root (m + fuel) nStack i i (view root w.st r)) w.log
        (fun r => flowLoop cfg r root fuel nStack (i + m * nStack) (i + m * nStack) (view root w'.st r)) w'.log := by
  have hu : cfg.user.Wf cfg.nParm := hv.user
  intro m
  induction m with
  | zero =>
    intro fuel i w hi hx hok
    refine ⟨w, [], rfl, hok, rfl, fun _ => ⟨rfl, by simp⟩, funext fun r => by simp [emptyRounds], ?_⟩
    simp only [Nat.zero_add, Nat.cast_zero, zero_mul, add_zero]
    exact RunsVia.refl _ _
  | succ m ih =>
    intro fuel i w hi hx hok
    have hsum : i + ((m + 1 : Nat) : Int) * nStack = (i + nStack) + m * nStack := by push_cast; ring
    rw [hsum] at hx
    have hneg : (m : Int) * nStack ≤ 0 := mul_nonpos_of_nonneg_of_nonpos (by omega) hs
    obtain ⟨w1, h1, hx1, hs1, hl1⟩ := empty_stack_frame cfg hv.ranks root nStack hs (seqWidths w)
    have hok1 := (runStack_runs cfg hu root _ (seqWidths w) w1 h1 ⟨hok.acc, hok.x, hok.sig, hok.sig⟩).1
    have hno : ¬ cfg.nIter < i + nStack := by omega
    obtain ⟨w2, h2, hx2, hl2, hs2⟩ : ∃ w2, (if inTuneWindow cfg (i + nStack) then seqTuneRanks cfg root (fun r => tuneFlag cfg
        (stackRate F (w.st.accA r) (w1.st.accA r) nStack)) (List.finRange n) w1 else .ok w1) = .ok w2 ∧ w2.st.x = w1.st.x ∧ w2.log = w1.log ∧
        (0 ≤ cfg.nBegintune → w2.st.sig = w1.st.sig) := by
      by_cases hw : inTuneWindow cfg (i + nStack) = true
      · rw [if_pos hw]
        obtain ⟨w2, h2⟩ := seqTuneRanks_total { cfg with nStack := 1 } file hv root
          (fun r => tuneFlag cfg (stackRate F (w.st.accA r) (w1.st.accA r) nStack)) (List.finRange n) w1 ⟨hok1.acc, hok1.x, hok1.sig, hok1.cur⟩
        rw [seqTuneRanks_stack] at h2
        obtain ⟨-, -, hl, hx', -⟩ := seqTuneRanks_frame h2
        refine ⟨w2, h2, hx', hl, fun hb => ?_⟩
        simp only [inTuneWindow, Bool.and_eq_true, decide_eq_true_eq] at hw
        omega
      · rw [if_neg hw]
        exact ⟨w1, rfl, rfl, rfl, fun _ => rfl⟩
    obtain ⟨hok2, k1⟩ := flowRound_via cfg hu root (m + fuel) nStack i (i + nStack) w w1 w2 (by omega) (i32_ok (by omega) (by omega))
      (by rw [if_neg hno]; exact h1) (by simp only [if_neg hno]; exact h2) hok
    simp only [if_neg hno] at k1
    obtain ⟨w', bs, hl, hok', hx', hs', hlog, k2⟩ := ih fuel (i + nStack) w2 (by omega) hx hok2
    have e1 : (seqWidths w).st.sig = w.st.sig := rfl
    refine ⟨w', (w.st.sig, List.ofFn w.st.beta) :: bs, by simp [hl], hok', hx'.trans (hx2.trans hx1), fun hb => ?_, ?_, ?_⟩
    · obtain ⟨ha, hc⟩ := hs' hb
      have e2 : w2.st.sig = w.st.sig := (hs2 hb).trans (hs1.trans e1)
      refine ⟨ha.trans e2, fun b hm => ?_⟩
      rcases List.mem_cons.1 hm with rfl | hm
      · rfl
      · exact (hc b hm).trans e2
    · rw [hlog]
      funext r
      rw [hl2, hl1]
      simp [seqWidths, W.push, emptyRounds]
    · rw [hsum, show m + 1 + fuel = (m + fuel) + 1 by omega]
      exact k1.trans k2

/-- The distributed program up to the end of `m` rounds. -/
theorem back_sys (cfg : Cfg F) (file : DataFile F) (hv : Runnable n { cfg with nStack := 1 } file) (clock : Nat) (root : Fin n)
    (hN : 0 < cfg.nIter) (hs : cfg.nStack ≤ 0) (m fuel : Nat) (hx : -2147483648 ≤ m * cfg.nStack) (f : Fault)
    (hf : ∀ (me : Fin n) (s : RSt n F), flowLoop cfg me root fuel cfg.nStack (m * cfg.nStack) (m * cfg.nStack) s = .fault f) :
    ∃ (w0 : W n F) (bs : List ((Fin n → List F) × List F)), seqInit cfg file clock root = .ok w0 ∧ bs.length = m ∧
      (0 ≤ cfg.nBegintune → ∀ b ∈ bs, b.1 = w0.st.sig) ∧
      SyncStar (sysFor (m + fuel) cfg file clock root) (allAt f fun r => w0.log r ++ emptyRounds root bs r) := by
  obtain ⟨w0, h0, hok⟩ := seqInit_total { cfg with nStack := 1 } file hv clock root
  replace h0 : seqInit cfg file clock root = .ok w0 := h0
  have hu : cfg.user.Wf cfg.nParm := hv.user
  have k0 := startProg_runs cfg hu file clock root w0 h0
  obtain ⟨w', bs, hl, -, -, hsg, hlog, k1⟩ := back_via cfg file hv root hN cfg.nStack hs m fuel 0 w0 le_rfl (by omega)
    ⟨hok.acc, hok.x, hok.sig, hok.cur⟩
  refine ⟨w0, bs, h0, hl, fun hb => (hsg hb).2, ?_⟩
  rw [← hlog]
  have e1 := k0 (fun r s => (flowLoop cfg r root (m + fuel) cfg.nStack 0 0 s).bind fun s => NiiC.barrier.bind fun _ => .ret s)
  have e2 := k1 (fun _ s => NiiC.barrier.bind fun _ => .ret s)
  refine SyncStar.trans e1 (SyncStar.trans e2 ?_)
  have e3 : ∀ r, flowLoop cfg r root fuel cfg.nStack (0 + m * cfg.nStack) (0 + m * cfg.nStack) (view root w'.st r) = .fault f := by
    intro r
    rw [Int.zero_add]
    exact hf r _
  simp only [e3]
  exact .refl _

/-- **C74, executions.** With `n_iter_a_stack = 0` and otherwise usable settings, let the ranks run the program for any number of rounds of the
main loop. Every execution, wherever it has got to, goes on to a state in which every rank has done all these rounds and is about to begin
another one. By then each rank has written its widths once in every round, root also the inverse temperatures, and no rank has written
anything else since the start: there is no row of a chain after the first one. If tuning begins at 0 or later, the widths are the ones of the
start. In no execution all ranks finish. -/
theorem zero_stack_runs_on (cfg : Cfg F) (file : DataFile F) (hv : Runnable n { cfg with nStack := 1 } file) (clock : Nat) (root : Fin n)
    (hN : 0 < cfg.nIter) (hs : cfg.nStack = 0) (rounds : Nat) :
    ∃ (w0 : W n F) (bs : List ((Fin n → List F) × List F)) (len : Nat), seqInit cfg file clock root = .ok w0 ∧ bs.length = rounds ∧
      (0 ≤ cfg.nBegintune → ∀ b ∈ bs, b.1 = w0.st.sig) ∧
      ∀ (w₁ : List (Label n)) (t : Sys n (Msg F) (Line F) (RSt n F)), (sysFor rounds cfg file clock root).exec w₁ = some t →
        (∃ w₂, t.exec w₂ = some (allAt .fuel fun r => w0.log r ++ emptyRounds root bs r) ∧ w₁.length + w₂.length = len) ∧ ¬ t.AllDone := by
  obtain ⟨w0, bs, h0, hl, hsg, k⟩ := back_sys cfg file hv clock root hN (by omega) rounds 0 (by rw [hs]; omega) .fuel (fun me s => by
    simp only [flowLoop]
    rw [if_pos (by rw [hs]; omega)])
  obtain ⟨len, h⟩ := only_allAt (by have := hv.ranks; omega) k
  exact ⟨w0, bs, len, h0, hl, hsg, h⟩

/-- **C74, executions.** With a negative `n_iter_a_stack` every execution goes on to the state in which all ranks have done the same number of
rounds, without an iteration, and are at the addition that overflows. -/
theorem negative_stack_runs_over (cfg : Cfg F) (file : DataFile F) (hv : Runnable n { cfg with nStack := 1 } file) (clock : Nat) (root : Fin n)
    (hN : 0 < cfg.nIter) (K : Nat) (hK : -2147483648 ≤ K * cfg.nStack) (hx : (K + 1) * cfg.nStack < -2147483648)
    (rounds : Nat) (hr : K < rounds) :
    ∃ (w0 : W n F) (bs : List ((Fin n → List F) × List F)) (len : Nat), seqInit cfg file clock root = .ok w0 ∧ bs.length = K ∧
      (0 ≤ cfg.nBegintune → ∀ b ∈ bs, b.1 = w0.st.sig) ∧
      ∀ (w₁ : List (Label n)) (t : Sys n (Msg F) (Line F) (RSt n F)), (sysFor rounds cfg file clock root).exec w₁ = some t →
        (∃ w₂, t.exec w₂ = some (allAt .overflow fun r => w0.log r ++ emptyRounds root bs r) ∧ w₁.length + w₂.length = len) ∧ ¬ t.AllDone := by
  rw [Int.add_mul, Int.one_mul] at hx
  obtain ⟨fuel, rfl⟩ : ∃ fuel, rounds = K + (fuel + 1) := ⟨rounds - K - 1, by omega⟩
  have hle : (K : Int) * cfg.nStack ≤ 0 := mul_nonpos_of_nonneg_of_nonpos (by omega) (by omega)
  obtain ⟨w0, bs, h0, hl, hsg, k⟩ := back_sys cfg file hv clock root hN (by omega) K (fuel + 1) hK .overflow (fun me s => by
    have he : i32 (K * cfg.nStack + cfg.nStack) = .error .overflow := if_neg (fun h => by omega)
    simp only [flowLoop]
    rw [if_pos (by omega), he]
    rfl)
  obtain ⟨len, h⟩ := only_allAt (by have := hv.ranks; omega) k
  exact ⟨w0, bs, len, h0, hl, hsg, h⟩

/-- The sample settings with a stack length of zero, for a million rounds. -/
example (clock : Nat) (root : Fin 3) : ∃ (w0 : W 3 ℝ) (bs : List ((Fin 3 → List ℝ) × List ℝ)) (len : Nat),
    seqInit { demoCfg with nStack := 0 } demoFile clock root = .ok w0 ∧ bs.length = 1000000 ∧
      ((0 : Int) ≤ demoCfg.nBegintune → ∀ b ∈ bs, b.1 = w0.st.sig) ∧
      ∀ (w₁ : List (Label 3)) (t : Sys 3 (Msg ℝ) (Line ℝ) (RSt 3 ℝ)), (sysFor 1000000 { demoCfg with nStack := 0 } demoFile clock root).exec w₁ = some t →
        (∃ w₂, t.exec w₂ = some (allAt .fuel fun r => w0.log r ++ emptyRounds root bs r) ∧ w₁.length + w₂.length = len) ∧ ¬ t.AllDone :=
  zero_stack_runs_on { demoCfg with nStack := 0 } demoFile
    { demo_valid.toRunnable with stack := by decide, stackInt := by simp [demoCfg] } clock root (by decide) rfl 1000000

/-- The sample settings with a stack length of -100: 21474836 rounds are done, the next addition overflows. -/
example (clock : Nat) (root : Fin 3) : ∃ (w0 : W 3 ℝ) (bs : List ((Fin 3 → List ℝ) × List ℝ)) (len : Nat),
    seqInit { demoCfg with nStack := -100 } demoFile clock root = .ok w0 ∧ bs.length = 21474836 ∧
      ((0 : Int) ≤ demoCfg.nBegintune → ∀ b ∈ bs, b.1 = w0.st.sig) ∧
      ∀ (w₁ : List (Label 3)) (t : Sys 3 (Msg ℝ) (Line ℝ) (RSt 3 ℝ)),
        (sysFor 2147483647 { demoCfg with nStack := -100 } demoFile clock root).exec w₁ = some t →
        (∃ w₂, t.exec w₂ = some (allAt .overflow fun r => w0.log r ++ emptyRounds root bs r) ∧ w₁.length + w₂.length = len) ∧ ¬ t.AllDone :=
  negative_stack_runs_over { demoCfg with nStack := -100 } demoFile
    { demo_valid.toRunnable with stack := by decide, stackInt := by simp [demoCfg] } clock root (by decide) 21474836
    (by simp) (by simp) _ (by decide)

/-- The sample run with a stack length of zero. -/
example (root : Fin 3) (fuel : Nat) (w : W 3 ℝ) : seqFlowLoop { demoCfg with nStack := 0 } root fuel 0 0 w = .error .fuel :=
  zero_stack_diverges _ (by decide) root (by decide) (by decide) fuel w

/-- The sample run with a stack length of -100: the counter overflows within 21474837 rounds. -/
example (root : Fin 3) (w : W 3 ℝ) : seqFlowLoop { demoCfg with nStack := -100 } root 21474837 (-100) 0 w = .error .overflow :=
  negative_stack_overflows _ (by decide) root (by decide) (by decide) (-100) (by decide) _ 0 w (by decide) (by decide) (by decide)

end NiiC
