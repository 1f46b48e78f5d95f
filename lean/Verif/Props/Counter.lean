import Verif.Props.Protocol
import Verif.Seq.Counts

/-!
# C95: which numbers of iterations overflow the counter of the main loop

Before every stack the main loop (mpi_flow.c:62-67) adds `n_iter_a_stack` to the number of iterations done, as `int`, and only then compares the
sum with `N_iter`. With all other settings usable, a run finishes if and only if no such sum is beyond `INT_MAX`. If one is, every rank does the
stacks before it and then adds beyond `INT_MAX`, which is undefined behaviour.
-/

namespace NiiC

set_option linter.unusedSectionVars false

open Proc Sys

variable {F : Type} [Arith F] [Source F] {n : Nat}

/-- All ranks are at a signed overflow and nothing is in flight. -/
def overflowSys (log : Fin n → List (Line F)) : Sys n (Msg F) (Line F) (RSt n F) :=
  { procs := fun _ => .fault .overflow, chan := fun _ => [], log := log }

omit [Arith F] [Source F] in
theorem overflowSys_terminal (hn : 0 < n) (log : Fin n → List (Line F)) : (overflowSys log).Terminal := by
  intro l
  cases l with
  | rank r => rfl
  | barrier =>
    simp only [step, stepBarrier]
    rw [if_neg]
    intro h
    have := h.2 ⟨0, hn⟩
    simp [overflowSys, Proc.barrier?] at this

/-- The main loop from a stack whose predecessors fit to the first one that does not. -/
theorem reach_overflow [LawfulDraws F] (cfg : Cfg F) (file : DataFile F) (hv : Runnable n cfg file) (root : Fin n) (K : Nat)
    (hK : K * cfg.nStack < cfg.nIter) (hx : 2147483647 < (K + 1) * cfg.nStack) (hfit : ∀ j : Nat, j < K → (j + 1) * cfg.nStack ≤ 2147483647) :
    ∀ (m fuel k : Nat) (w : W n F), k + m = K → m < fuel → w.st.Ok cfg → (∀ r, (w.st.acc r : Int) = k * cfg.nStack) →
    ∃ w' : W n F, (∀ r, (w'.st.acc r : Int) = K * cfg.nStack) ∧
      RunsVia (fun r => flowLoop cfg r root fuel cfg.nStack (k * cfg.nStack) (k * cfg.nStack) (view root w.st r)) w.log
        (fun _ => .fault .overflow) w'.log := by
  have hst := hv.stack
  intro m
  induction m with
  | zero =>
    intro fuel k w hk hf hok hacc
    obtain rfl : k = K := by omega
    obtain ⟨fuel, rfl⟩ : ∃ f, fuel = f + 1 := ⟨fuel - 1, by omega⟩
    refine ⟨w, hacc, RunsVia.congr (RunsVia.refl _ _) (fun r => ?_)⟩
    have he : i32 (k * cfg.nStack + cfg.nStack) = .error .overflow := by
      rw [Int.add_mul, Int.one_mul] at hx
      exact if_neg (fun h => by omega)
    simp only [flowLoop]
    rw [if_pos hK, he]
    rfl
  | succ m ih =>
    intro fuel k w hk hf hok hacc
    obtain ⟨fuel, rfl⟩ : ∃ f, fuel = f + 1 := ⟨fuel - 1, by omega⟩
    have hsum : ((k + 1 : Nat) : Int) * cfg.nStack = k * cfg.nStack + cfg.nStack := by push_cast; ring
    have hle : ((k + 1 : Nat) : Int) * cfg.nStack ≤ K * cfg.nStack := by
      have h1 : ((k + 1 : Nat) : Int) ≤ K := by omega
      exact mul_le_mul_of_nonneg_right h1 (by omega)
    have h0 : 0 ≤ (k : Int) * cfg.nStack := mul_nonneg (by omega) (by omega)
    have hmax : (k : Int) * cfg.nStack + cfg.nStack ≤ 2147483647 := by
      have := hfit k (by omega)
      rw [Int.add_mul, Int.one_mul] at this
      exact this
    have hnot : ¬ cfg.nIter < k * cfg.nStack + cfg.nStack := by omega
    obtain ⟨w1, w2, h1, h2, hok2, -⟩ := seqFlowLoop_round cfg file hv root cfg.nStack (k * cfg.nStack) w h0 (by omega) ⟨hst, Int.le_refl _⟩
      hmax hok
    have k2 := (flowRound_via cfg hv.user root fuel cfg.nStack (k * cfg.nStack) _ w w1 w2 (by omega) (i32_ok (by omega) hmax) h1 h2 hok).2
    simp only [if_neg hnot] at h1 h2 k2
    have hacc2 : ∀ r, (w2.st.acc r : Int) = ((k + 1 : Nat) : Int) * cfg.nStack := by
      intro r
      obtain ⟨_, _, _, _, _, ha, _, _⟩ := seqStack_hist hv.user (by omega) (w := seqWidths w) ⟨hok.acc, hok.x, hok.sig, hok.sig⟩ h1
      have h3 : w2.st.acc = w1.st.acc := by
        split at h2
        · exact (seqTuneRanks_frame h2).1
        · cases h2; rfl
      rw [h3, ha r, hsum, ← hacc r]
      rfl
    rw [← hsum] at k2
    obtain ⟨w', ha, hr⟩ := ih fuel (k + 1) w2 (by omega) (by omega) hok2 hacc2
    exact ⟨w', ha, k2.trans hr⟩

/-- **C95, overflow.** With settings that are usable but for the number of iterations: if the sum before some stack is beyond `INT_MAX`, let `K`
be the number of stacks before the first such one. Every execution, wherever it has got to, can only go on to the state in which every rank has
done `K` stacks and is at the addition that overflows. No execution finishes. -/
theorem counter_overflows [LawfulDraws F] (cfg : Cfg F) (file : DataFile F) (hv : Runnable n cfg file) (clock : Nat) (root : Fin n) (K : Nat)
    (hK : K * cfg.nStack < cfg.nIter) (hx : 2147483647 < (K + 1) * cfg.nStack) (hfit : ∀ j : Nat, j < K → (j + 1) * cfg.nStack ≤ 2147483647) :
    ∃ (w : W n F) (len : Nat), (∀ r, (w.st.acc r : Int) = K * cfg.nStack) ∧
      ∀ (w₁ : List (Label n)) (t : Sys n (Msg F) (Line F) (RSt n F)), (initSys cfg file clock root).exec w₁ = some t →
        (∃ w₂, t.exec w₂ = some (overflowSys w.log) ∧ w₁.length + w₂.length = len) ∧ ¬ t.AllDone := by
  have hst := hv.stack
  have hn : 0 < n := Nat.lt_of_le_of_lt (Nat.zero_le _) root.isLt
  obtain ⟨w0, h0, -⟩ := seqInit_total cfg file hv clock root
  obtain ⟨hok, k0⟩ := mainProg_via cfg hv.user file clock root w0 h0
  have hfuel : K < cfg.nIter.toNat := by
    have : (K : Int) * 1 ≤ K * cfg.nStack := mul_le_mul_of_nonneg_left hst (by omega)
    omega
  have hacc0 : ∀ r, w0.st.acc r = 0 := by
    simp only [seqInit, exc_bind, Except.ok.injEq] at h0
    obtain ⟨_, _, _, _, _, _, _, _, _, _, _, _, rfl⟩ := h0
    exact fun _ => rfl
  obtain ⟨w, ha, hr⟩ := reach_overflow cfg file hv root K hK hx hfit K cfg.nIter.toNat 0 w0 (by omega) hfuel hok
    (fun r => by rw [hacc0 r]; simp)
  have hs : SyncStar (initSys cfg file clock root) (overflowSys w.log) := by
    have e1 := k0 (fun _ => .ret)
    have e2 := hr (fun _ s => (NiiC.barrier.bind fun _ => .ret s).bind .ret)
    simp only [Proc.bind_ret, Proc.bind_assoc] at e1 e2
    have e3 : ((0 : Nat) : Int) * cfg.nStack = 0 := by simp
    rw [e3] at e2
    exact e1.trans e2
  obtain ⟨v, hv'⟩ := hs.exec
  have hterm := overflowSys_terminal hn w.log
  refine ⟨w, v.length, ha, fun w₁ t ht => ⟨exec_complete hv' hterm ht, fun hd => ?_⟩⟩
  obtain ⟨w₂, hw₂, -⟩ := exec_complete hv' hterm ht
  have : t = overflowSys w.log := by
    cases w₂ with
    | nil => simpa using hw₂
    | cons l w' =>
      simp only [exec_cons, terminal_of_allDone hd l, Option.bind_none] at hw₂
      cases hw₂
  rw [this] at hd
  exact hd ⟨0, hn⟩

/-- **C95.** With settings that are usable but for the number of iterations, a run finishes if and only if no stack that begins before `N_iter`
has its end beyond `INT_MAX`. -/
theorem finishes_iff [LawfulDraws F] (cfg : Cfg F) (file : DataFile F) (hv : Runnable n cfg file) (clock : Nat) (root : Fin n) :
    (∃ w t, (initSys cfg file clock root).exec w = some t ∧ t.AllDone) ↔
      ∀ k : Nat, k * cfg.nStack < cfg.nIter → (k + 1) * cfg.nStack ≤ 2147483647 := by
  constructor
  · rintro ⟨v, t, hv', hd⟩
    by_contra hc
    push Not at hc
    classical
    obtain ⟨hK, hx⟩ := Nat.find_spec hc
    have hmin : ∀ j : Nat, j < Nat.find hc → (j + 1) * cfg.nStack ≤ 2147483647 := by
      intro j hj
      by_contra hlt
      refine Nat.find_min hc hj ⟨lt_of_le_of_lt ?_ hK, by omega⟩
      exact mul_le_mul_of_nonneg_right (by exact_mod_cast hj.le) (by have := hv.stack; omega)
    obtain ⟨w, len, -, h⟩ := counter_overflows cfg file hv clock root (Nat.find hc) hK hx hmin
    exact (h v t hv').2 hd
  · intro h
    obtain ⟨w, len, -, hall⟩ := distributed_eq_sequential cfg file { hv with iterInt := h } clock root
    obtain ⟨⟨w₂, h₂, -⟩, -⟩ := hall [] _ rfl
    exact ⟨w₂, _, h₂, finalSys_done root w⟩

/-- The last multiple of the stack length decides: rounding `N_iter` up to whole stacks must give an `int`. -/
theorem noWrap_iff {nIter nStack : Int} (hs : 1 ≤ nStack) (h0 : 1 ≤ nIter) :
    NoWrap nIter nStack ↔ ((nIter - 1) / nStack + 1) * nStack ≤ 2147483647 := by
  have hq : 0 ≤ (nIter - 1) / nStack := Int.ediv_nonneg (by omega) (by omega)
  have hm := Int.emod_add_mul_ediv (nIter - 1) nStack
  have hlt := Int.emod_lt_of_pos (nIter - 1) (show 0 < nStack by omega)
  have hge := Int.emod_nonneg (nIter - 1) (show nStack ≠ 0 by omega)
  constructor
  · intro h
    have := h ((nIter - 1) / nStack).toNat
    rw [Int.toNat_of_nonneg hq] at this
    exact this (by rw [mul_comm]; omega)
  · intro h k hk
    have : (k : Int) ≤ (nIter - 1) / nStack := by
      rw [Int.le_ediv_iff_mul_le (by omega)]
      omega
    refine le_trans (mul_le_mul_of_nonneg_right ?_ (by omega)) h
    omega

/-- The demo with all the iterations an `int` can count, in stacks of 300: 7158278 stacks are done, the next sum is 2147483700. -/
noncomputable def longCfg : Cfg ℝ := { demoCfg with nIter := 2147483647 }

theorem longCfg_runnable : Runnable 3 longCfg demoFile := { demo_valid.toRunnable with }

example (clock : Nat) (root : Fin 3) : ∃ (w : W 3 ℝ) (len : Nat), (∀ r, (w.st.acc r : Int) = (7158278 : ℕ) * longCfg.nStack) ∧
    ∀ (w₁ : List (Label 3)) (t : Sys 3 (Msg ℝ) (Line ℝ) (RSt 3 ℝ)), (initSys longCfg demoFile clock root).exec w₁ = some t →
      (∃ w₂, t.exec w₂ = some (overflowSys w.log) ∧ w₁.length + w₂.length = len) ∧ ¬ t.AllDone :=
  counter_overflows longCfg demoFile longCfg_runnable clock root 7158278 (by simp [longCfg, demoCfg]) (by simp [longCfg, demoCfg])
    (fun j hj => by
      have : (j : Int) + 1 ≤ 7158278 := by exact_mod_cast hj
      have h300 : longCfg.nStack = 300 := rfl
      rw [h300]
      omega)

/-- With `N_iter` 2147483400 the last stack ends there, and the run finishes, though `N_iter + n_iter_a_stack` is beyond `INT_MAX`. -/
noncomputable def fullCfg : Cfg ℝ := { demoCfg with nIter := 2147483400 }

theorem fullCfg_noWrap : NoWrap fullCfg.nIter fullCfg.nStack := by
  rw [noWrap_iff (by simp [fullCfg, demoCfg]) (by simp [fullCfg])]
  simp [fullCfg, demoCfg]

example (clock : Nat) (root : Fin 3) : ∃ w t, (initSys fullCfg demoFile clock root).exec w = some t ∧ t.AllDone :=
  (finishes_iff fullCfg demoFile { demo_valid.toRunnable with } clock root).2 fullCfg_noWrap

end NiiC
