import Verif.Refine.Batch
import Verif.Spec.Files
import Verif.Props.Demo

/-!
# One batch: C09, C12, C14 (within a batch), C18 (tuning runs)
-/

set_option linter.unusedSectionVars false
set_option linter.unusedSimpArgs false

namespace NiiC

open Spec

variable {F : Type} [Arith F] [Source F]

section
variable (u : User F) (sigma : List F) (nline : Int) (data : List F) (beta : F)

theorem mhIter_inv {P : Ch F → Prop} (hP : ∀ c, P c → P (mhStep u sigma nline data beta c)) (k : Nat) (c : Ch F) (h : P c) :
    P (mhIter u sigma nline data beta k c) := by
  induction k generalizing c with
  | zero => exact h
  | succ k ih => exact ih _ (hP c h)

theorem mhRun_inv {P : Ch F → Prop} (hP : ∀ c, P c → P (mhStep u sigma nline data beta c)) (k : Nat) (c : Ch F) (h : P c) :
    ∀ d ∈ mhRun u sigma nline data beta k c, P d := by
  induction k generalizing c with
  | zero => simp [mhRun]
  | succ k ih =>
    intro d hd
    simp only [mhRun, List.mem_cons] at hd
    rcases hd with rfl | hd
    · exact hP c h
    · exact ih _ (hP c h) d hd

/-- Each recorded state is one iteration after the one before it. -/
theorem mhRun_getElem (k i : Nat) (c : Ch F) (h : i < k) :
    (mhRun u sigma nline data beta k c)[i]? = some (mhIter u sigma nline data beta (i + 1) c) := by
  induction k generalizing i c with
  | zero => omega
  | succ k ih =>
    cases i with
    | zero => rfl
    | succ i =>
      simp only [mhRun, List.getElem?_cons_succ]
      exact ih i _ (by omega)

omit [Source F] in
/-- The stored log-posterior is that of the stored point. -/
def Ch.InStep (c : Ch F) : Prop := c.lp = target u nline data beta c.x

theorem inStep_step (c : Ch F) (h : Ch.InStep u nline data beta c) :
    Ch.InStep u nline data beta (mhStep u sigma nline data beta c) := by
  simp only [mhStep]
  split
  · rfl
  · exact h

theorem accA_step (c : Ch F) :
    (mhStep u sigma nline data beta c).accA = c.accA ∨ (mhStep u sigma nline data beta c).accA = c.accA + 1 := by
  simp only [mhStep]
  split
  · exact .inr rfl
  · exact .inl rfl

theorem mhIter_accA (k : Nat) (c : Ch F) : c.accA ≤ (mhIter u sigma nline data beta k c).accA ∧
    (mhIter u sigma nline data beta k c).accA ≤ c.accA + k := by
  induction k generalizing c with
  | zero => exact ⟨Nat.le_refl _, Nat.le_refl _⟩
  | succ k ih =>
    rw [mhIter]
    have := ih (mhStep u sigma nline data beta c)
    rcases accA_step u sigma nline data beta c with h | h <;> omega

end

/-- **C09.** A batch of `nBatch ≥ 1` iterations on a chain `c` with `nParm` parameters never goes wrong and leaves the state after
`nBatch` iterations of the Metropolis–Hastings recursion; if the counter at its end has reached `saveBegin` it writes one
line per iteration, the `i`-th being the state after `i + 1` iterations, and otherwise nothing. -/
theorem batch_is_mh (nParm : Nat) (u : User F) (hu : u.Wf nParm) (sigma : List F) (hs : sigma.length = nParm) (nline : Int)
    (data : List F) (beta : F) (rank saveBegin : Nat) (nBatch : Int) (hb : 1 ≤ nBatch) (c : Ch F) (hc : c.x.length = nParm) :
    ∃ b, iterBatch nParm u rank sigma nline data beta saveBegin nBatch c.x c.lp c.acc c.accA c.g = .ok b ∧
      (⟨b.x, b.lp, b.acc, b.accA, b.g⟩ : Ch F) = mhIter u sigma nline data beta nBatch.toNat c ∧
      b.acc = c.acc + nBatch.toNat ∧
      (saveBegin ≤ c.acc + nBatch.toNat → b.lines.length = nBatch.toNat ∧ ∀ i < nBatch.toNat,
        b.lines[i]? = some (line rank (mhIter u sigma nline data beta (i + 1) c))) ∧
      (c.acc + nBatch.toNat < saveBegin → b.lines = []) := by
  refine ⟨_, iterBatch_eq nParm u sigma nline data beta hu hs rank saveBegin nBatch (by omega) c hc, rfl, ?_, fun h => ?_,
    fun h => ?_⟩
  · exact mhIter_acc u sigma nline data beta _ _
  · simp only [if_pos h, List.length_map, mhRun_length, List.getElem?_map, true_and]
    intro i hi
    rw [mhRun_getElem u sigma nline data beta _ i c hi]
    rfl
  · simp only
    rw [if_neg (by omega)]

/-- A batch of length zero or less is undefined behaviour. -/
theorem batch_nonpositive (nParm : Nat) (u : User F) (rank : Nat) (sigma : List F) (nline : Int) (data : List F) (beta : F)
    (saveBegin : Nat) (nBatch : Int) (h : nBatch ≤ 0) (x0 : List F) (lp0 : F) (acc accA : Nat) (g : Rng) :
    iterBatch nParm u rank sigma nline data beta saveBegin nBatch x0 lp0 acc accA g = .error .badAlloc := by
  simp [iterBatch, h]

example : ∃ b, iterBatch 2 demoUser 1 [1, 1] 0 [] 1 5 3 [1, 2] (-7) 4 2 99 = .ok b ∧ b.acc = 7 ∧ b.lines.length = 3 := by
  obtain ⟨b, h, _, ha, hl, _⟩ := batch_is_mh 2 demoUser demoUser_wf [1, 1] rfl 0 [] 1 1 5 3 (by decide)
    ⟨[1, 2], -7, 4, 2, 99⟩ rfl
  exact ⟨b, h, ha, (hl (by decide)).1⟩

/-- **C12.** If the log-posterior handed to a batch is that of its starting point, every line it writes carries the
log-posterior of its own parameters under the batch's inverse temperature, and so does the state it leaves. -/
theorem batch_logpost (nParm : Nat) (u : User F) (hu : u.Wf nParm) (sigma : List F) (hs : sigma.length = nParm) (nline : Int)
    (data : List F) (beta : F) (rank saveBegin : Nat) (nBatch : Int) (x0 : List F) (lp0 : F) (acc accA : Nat) (g : Rng)
    (hx : x0.length = nParm) (h0 : lp0 = u.logll x0 nline data beta +. u.logPrior x0) (b : BatchOut F)
    (h : iterBatch nParm u rank sigma nline data beta saveBegin nBatch x0 lp0 acc accA g = .ok b) :
    b.lp = (u.logll b.x nline data beta +. u.logPrior b.x) ∧
    ∀ l ∈ b.lines, ∃ x lp a c, l = .row rank x lp a c ∧ lp = (u.logll x nline data beta +. u.logPrior x) := by
  by_cases hb : 0 < nBatch
  · have he := iterBatch_eq nParm u sigma nline data beta hu hs rank saveBegin nBatch hb ⟨x0, lp0, acc, accA, g⟩ hx
    rw [he] at h
    cases h
    have hi : Ch.InStep u nline data beta ⟨x0, lp0, acc, accA, g⟩ := h0
    refine ⟨mhIter_inv u sigma nline data beta (inStep_step u sigma nline data beta) _ _ hi, fun l hl => ?_⟩
    simp only at hl
    split at hl
    · obtain ⟨d, hd, rfl⟩ := List.mem_map.1 hl
      exact ⟨d.x, d.lp, d.acc, d.accA, rfl,
        mhRun_inv u sigma nline data beta (inStep_step u sigma nline data beta) _ _ hi d hd⟩
    · simp at hl
  · rw [batch_nonpositive nParm u rank sigma nline data beta saveBegin nBatch (by omega)] at h
    cases h

example : ∃ b, iterBatch 2 demoUser 1 [1, 1] 0 [] 1 0 3 [1, 2] (-5 - Real.log 100) 4 2 99 = .ok b ∧
    b.lines.length = 3 ∧ ∀ l ∈ b.lines, ∃ x lp a c, l = .row 1 x lp a c ∧ lp = (demoUser.logll x 0 [] 1 +. demoUser.logPrior x) := by
  obtain ⟨b, h, _, _, hl, _⟩ := batch_is_mh 2 demoUser demoUser_wf [1, 1] rfl 0 [] 1 1 0 3 (by decide)
    ⟨[1, 2], -5 - Real.log 100, 4, 2, 99⟩ rfl
  exact ⟨b, h, (hl (by decide)).1, (batch_logpost 2 demoUser demoUser_wf [1, 1] rfl 0 [] 1 1 0 3 _ _ _ _ _ rfl
    (by simp [demoUser]; norm_num; ring) b h).2⟩

/-- What one iteration does to the columns (part of C14): the iteration counter rises by one; the acceptance counter rises by
one if the proposal was accepted, and then the point is the proposal brought into the box; otherwise it stays, with the point. -/
theorem step_columns (u : User F) (sigma : List F) (nline : Int) (data : List F) (beta : F) (c : Ch F) :
    let y := u.boundary (propose c.x sigma c.g).1
    let ly := target u nline data beta y
    let c' := mhStep u sigma nline data beta c
    c'.acc = c.acc + 1 ∧
    ((accept ly c.lp (propose c.x sigma c.g).2).1 = true → c'.accA = c.accA + 1 ∧ c'.x = y ∧ c'.lp = ly) ∧
    ((accept ly c.lp (propose c.x sigma c.g).2).1 = false → c'.accA = c.accA ∧ c'.x = c.x ∧ c'.lp = c.lp) := by
  refine ⟨mhStep_acc u sigma nline data beta c, fun h => ?_, fun h => ?_⟩
  · simp [mhStep, h]
  · simp [mhStep, h]

end NiiC
