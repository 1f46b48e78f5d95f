import Verif.Props.Run

/-!
# Rounds of a run: acceptance rates and the tuning window: C18, C30
-/

set_option linter.unusedSectionVars false
set_option linter.unusedSimpArgs false

namespace NiiC

open Spec

variable {n : Nat} {F : Type} [Arith F] [Source F]

/-- Acceptance counters over the batches of a stack. -/
theorem seqStackLoop_accA {cfg : Cfg F} (hu : cfg.user.Wf cfg.nParm) {root : Fin n} {nStack : Int} :
    ∀ {fuel : Nat} {i : Int} {w w' : W n F} {ty ty' : Tally n F}, i ≤ nStack → w.st.Ok cfg →
    seqStackLoop cfg root nStack fuel i w ty = .ok (w', ty') →
    ∀ r, w.st.accA r ≤ w'.st.accA r ∧ (w'.st.accA r : Int) ≤ w.st.accA r + (nStack - i) := by
  intro fuel
  induction fuel with
  | zero =>
    intro i w w' ty ty' hi hok h r
    simp only [seqStackLoop] at h
    split at h
    · cases h
    · cases h; omega
  | succ fuel ih =>
    intro i w w' ty ty' hi hok h r
    simp only [seqStackLoop] at h
    split at h
    · simp only [exc_bind] at h
      obtain ⟨b, hb, w1, h1, ⟨w2, ty2⟩, h2, h3⟩ := h
      have hs1 : Step cfg root w { w with st := w.st.setG root b.2.2 } := .draw w nStack i b hb
      have hok1 := hs1.ok hu hok
      have hs2 : Step cfg root _ w1 := .batch _ w1 b.1 h1
      have hok2 := hs2.ok hu hok1
      obtain ⟨hc, _, _⟩ := seqBatch_chain hu h1 hok1
      obtain ⟨hnx, hle⟩ := nextBatch_next hb
      have hok3 : w2.st.Ok cfg := (seqSwaps_steps cfg root _ w1 w2 ty ty2 h2).inv (P := fun w => w.st.Ok cfg)
        (fun _ _ hp h => h.ok hu hp) hok2
      obtain ⟨_, _, _, _, _, hA⟩ := seqSwaps_hist h2
      have h4 := ih hle hok3 h3 r
      rw [hA] at h4
      have h5 : w.st.accA r ≤ w1.st.accA r ∧ w1.st.accA r ≤ w.st.accA r + b.1.toNat := by
        have h6 := congrArg Ch.accA (hc r).2.1
        have h7 := mhIter_accA cfg.user (w.st.cur r) w.st.nline w.st.data (w.st.beta r) b.1.toNat
          ((w.st.setG root b.2.2).ch r)
        have h8 : w1.st.accA r = _ := h6
        rw [h8]
        exact h7
      have := (hc r).1
      omega
    · cases h; omega

theorem seqStack_accA {cfg : Cfg F} (hu : cfg.user.Wf cfg.nParm) {root : Fin n} {nStack : Int} (h0 : 0 ≤ nStack) {w w' : W n F}
    (hok : w.st.Ok cfg) (h : seqStack cfg root nStack w = .ok w') (r : Fin n) :
    w.st.accA r ≤ w'.st.accA r ∧ (w'.st.accA r : Int) ≤ w.st.accA r + nStack := by
  simp only [seqStack, exc_bind] at h
  obtain ⟨_, _, ⟨w1, ty1⟩, h1, h2⟩ := h
  have h3 := seqStackLoop_accA hu h0 (by exact hok) h1 r
  split at h2
  · cases h2
    simp only [seqLadder, W.push]
    simp only [Int.sub_zero] at h3
    exact h3
  · cases h2
    simp only [Int.sub_zero] at h3
    exact h3

omit [Source F] in
/-- The acceptance rate of chain `r` over a stack that takes the run from `w` to `w1` and from iteration `i` to `e`. -/
def roundRate (i e : Int) (w w1 : W n F) (r : Fin n) : F := ofI ((w1.st.accA r : Int) - w.st.accA r) /. ofI (e - i)

/-- A round of the run from iteration `i` to `e`: a stack, from `w` to `w1`, then tuning, from `w1` to `w2`. -/
structure Round (cfg : Cfg F) (i e : Int) (w w1 w2 : W n F) : Prop where
  /-- a full stack, or what is left of the run -/
  length : e = min cfg.nIter (i + cfg.nStack)
  before : ∀ r, (w.st.acc r : Int) = i
  after : ∀ r, (w1.st.acc r : Int) = e
  accepted : ∀ r, w.st.accA r ≤ w1.st.accA r ∧ (w1.st.accA r : Int) ≤ w.st.accA r + (e - i)
  /-- no tuning inside the stack -/
  stack : ∃ evs, w1.hist.map Prod.fst = w.hist.map Prod.fst ++ evs ∧ ∀ rk, Ev.tune rk ∉ evs
  /-- after it, in the window, exactly the chains whose rate is not inside the accepted interval, each once, in order -/
  tuned : w2.hist.map Prod.fst = w1.hist.map Prod.fst ++
    if cfg.nBegintune < e ∧ e < cfg.nStoptune ∧ e < cfg.nIter then
      ((List.finRange n).filter (fun r => !((cfg.arLower <. roundRate i e w w1 r) && (roundRate i e w w1 r <. cfg.arUpper)))).map
        Ev.tune
    else []

/-- Rounds from iteration `i` until the run is complete. -/
inductive Rounds (cfg : Cfg F) : Int → W n F → W n F → Prop where
  | done (i : Int) (w : W n F) (h : cfg.nIter ≤ i) : Rounds cfg i w w
  | more (i e : Int) (w w1 w2 w3 : W n F) (h : i < cfg.nIter) (hr : Round cfg i e w w1 w2) (hrest : Rounds cfg e w2 w3) :
      Rounds cfg i w w3

theorem StackShape.no_tune {k : Nat} {evs : List (Ev n)} {bs : List Int} (h : StackShape k evs bs) (rk : Fin n) : Ev.tune rk ∉ evs := by
  induction h with
  | nil => simp
  | cons b sw rest bs hk hsw _ ih =>
    simp only [List.mem_cons, List.mem_append, List.cons_append]
    rintro (h | h | h)
    · cases h
    · obtain ⟨_, _, _, h⟩ := hsw _ h
      cases h
    · exact ih h

theorem seqFlowLoop_rounds {cfg : Cfg F} (hu : cfg.user.Wf cfg.nParm) (hs : 0 ≤ cfg.nStack) {root : Fin n} :
    ∀ {fuel : Nat} {nStack i : Int} {w w' : W n F}, (nStack = cfg.nStack ∨ cfg.nIter ≤ i) → (∀ r, (w.st.acc r : Int) = i) →
    w.st.Ok cfg → seqFlowLoop cfg root fuel nStack i w = .ok w' → Rounds cfg i w w' := by
  intro fuel
  induction fuel with
  | zero =>
    intro nStack i w w' hn hi hok h
    simp only [seqFlowLoop] at h
    split at h
    · cases h
    · cases h
      exact .done i w (by omega)
  | succ fuel ih =>
    intro nStack i w w' hn hi hok h
    simp only [seqFlowLoop] at h
    by_cases hlt : i < cfg.nIter
    · rw [if_pos hlt] at h
      obtain rfl : nStack = cfg.nStack := by omega
      simp only [exc_bind] at h
      obtain ⟨nx, hnx, w1, h1, w2, h2, h3⟩ := h
      have hnx' : nx = i + cfg.nStack := by
        unfold i32 at hnx
        split at hnx
        · cases hnx; rfl
        · cases hnx
      obtain ⟨e, he⟩ : ∃ e, e = min cfg.nIter (i + cfg.nStack) := ⟨_, rfl⟩
      have e1 : (if cfg.nIter < nx then cfg.nIter else nx) = e := by subst he; split <;> omega
      have e2 : (if cfg.nIter < nx then cfg.nIter - i else cfg.nStack) = e - i := by subst he; split <;> omega
      rw [e1, e2] at h2 h3
      rw [e2] at h1
      have hok0 : (seqWidths w).st.Ok cfg := ⟨hok.acc, hok.x, hok.sig, hok.sig⟩
      obtain ⟨hsn, bs, hsh, hsum, hpos, hacc, hok1, hh⟩ := seqStack_hist hu (by omega) (w := seqWidths w) hok0 h1
      have hA := seqStack_accA hu (by omega) hok0 h1
      have hafter : ∀ r, (w1.st.acc r : Int) = e := by
        intro r
        rw [hacc r]
        have := hi r
        simp only [seqWidths, W.push]
        omega
      have hrate : ∀ r, stackRate F (w.st.accA r) (w1.st.accA r) (e - i) = roundRate i e w w1 r := by
        intro r
        have h4 : w.st.accA r ≤ w1.st.accA r := (hA r).1
        simp only [stackRate, roundRate]
        rw [Int.ofNat_sub h4]
      have h2' : w2.hist.map Prod.fst = w1.hist.map Prod.fst ++ (if cfg.nBegintune < e ∧ e < cfg.nStoptune ∧ e < cfg.nIter then
          ((List.finRange n).filter (fun r => !((cfg.arLower <. roundRate i e w w1 r) && (roundRate i e w w1 r <. cfg.arUpper)))).map
          Ev.tune else []) ∧ w2.st.acc = w1.st.acc ∧ w2.st.Ok cfg := by
        by_cases hw : inTuneWindow cfg e = true
        · rw [if_pos hw] at h2
          obtain ⟨a1, _, _, _, _, _, ht, hht, hm, _⟩ := seqTuneRanks_frame h2
          refine ⟨?_, a1, seqTuneRanks_ok hu h2 hok1⟩
          have hw' : cfg.nBegintune < e ∧ e < cfg.nStoptune ∧ e < cfg.nIter := by
            simpa [inTuneWindow, and_assoc] using hw
          rw [if_pos hw', hht, List.map_append, hm]
          congr 2
          refine List.filter_congr (fun r _ => ?_)
          rw [hrate]
          simp only [tuneFlag]
          by_cases ha : (roundRate i e w w1 r <. cfg.arUpper) = true <;>
            by_cases hb : (cfg.arLower <. roundRate i e w w1 r) = true <;> simp [ha, hb]
        · rw [if_neg hw] at h2
          cases h2
          have hw' : ¬ (cfg.nBegintune < e ∧ e < cfg.nStoptune ∧ e < cfg.nIter) := by
            simpa [inTuneWindow, and_assoc] using hw
          rw [if_neg hw']
          exact ⟨by simp, rfl, hok1⟩
      obtain ⟨ht, ha2, hok2⟩ := h2'
      refine .more i e w w1 w2 w' hlt ⟨he, hi, hafter, hA, ?_, ht⟩ (ih ?_ (by rw [ha2]; exact hafter) hok2 h3)
      · refine ⟨.widths :: (hsn.map Prod.fst ++ (if (w1.st.acc root : Int) < cfg.nStopTuneLadder ∧ 0 < cfg.tuneLadder then
          [Ev.ladder] else [])), ?_, fun rk => ?_⟩
        · rw [hh]
          simp only [seqWidths, W.push, List.map_append, List.map_cons, List.map_nil, List.append_assoc, List.cons_append,
            List.nil_append]
          split <;> rfl
        · simp only [List.mem_cons, List.mem_append]
          rintro (h | h | h)
          · cases h
          · exact hsh.no_tune rk h
          · split at h
            · simp at h
            · cases h
      · omega
    · rw [if_neg hlt] at h
      cases h
      exact .done i w (by omega)

/-- **C30.** A run is a sequence of rounds (see `Round`): each is a stack, followed by tuning exactly when the stack's last
iteration lies in the window, and then exactly of the chains whose acceptance rate over the stack is not strictly inside
`(ar_ok_lower, ar_ok_upper)`. For doubles: comparisons with NaN are false, so a NaN rate is tuned. -/
theorem run_rounds (cfg : Cfg F) (file : DataFile F) (hv : Valid n cfg file) (clock : Nat) (root : Fin n) (w : W n F)
    (h : seqMain cfg file clock root = .ok w) : ∃ w0, seqInit cfg file clock root = .ok w0 ∧ Rounds cfg 0 w0 w := by
  simp only [seqMain, exc_bind] at h
  obtain ⟨w0, h0, h1⟩ := h
  refine ⟨w0, h0, seqFlowLoop_rounds hv.user (by have := hv.stack; omega) (.inl rfl) ?_ (seqInit_ok hv.user h0) h1⟩
  simp only [seqInit, exc_bind, Except.ok.injEq] at h0
  obtain ⟨_, _, data, hd, _, _, _, _, _, _, beta, hb, rfl⟩ := h0
  exact fun r => rfl

/-- The demo run is such a sequence, and it is not empty. -/
example : ∃ (w0 w : W 3 ℝ) (e : Int) (w1 w2 : W 3 ℝ), seqMain demoCfg demoFile 0 (0 : Fin 3) = .ok w ∧ Round demoCfg 0 e w0 w1 w2 ∧ e = 300 := by
  obtain ⟨w, hw⟩ := seqMain_total demoCfg demoFile demo_valid 0 (0 : Fin 3)
  obtain ⟨w0, h0, hr⟩ := run_rounds demoCfg demoFile demo_valid 0 0 w hw
  cases hr with
  | done i w h => simp [demoCfg] at h
  | more i e w w1 w2 w3 h hr hrest => exact ⟨_, _, e, w1, w2, hw, hr, by rw [hr.length]; simp [demoCfg]⟩

/-- A chain is tuned when its rate is a NaN: a value with which every comparison is false. -/
theorem nan_rate_is_tuned (cfg : Cfg F) (rate : F) (h : (rate <. cfg.arUpper) = false) : tuneFlag cfg rate = 1 := by
  simp [tuneFlag, h]

example : tuneFlag demoCfgX (Dbl.nan : XReal) = 1 := nan_rate_is_tuned demoCfgX _ (Dbl.nan_lt _)

/-- **C18, stacks.** In every round the rate used for the decision is the number of proposals accepted in that stack divided by the
number of iterations done in it, and it lies in [0, 1]. -/
theorem stack_rate_fraction (cfg : Cfg ℝ) (i e : Int) (w w1 w2 : W n ℝ) (h : Round cfg i e w w1 w2) (hi : i < e) (r : Fin n) :
    roundRate i e w w1 r = (((w1.st.accA r : Int) - w.st.accA r : Int) : ℝ) / (((w1.st.acc r : Int) - w.st.acc r : Int) : ℝ) ∧
    0 ≤ roundRate i e w w1 r ∧ roundRate i e w w1 r ≤ 1 := by
  have h1 := h.accepted r
  have h2 := h.before r
  have h3 := h.after r
  have he : (0 : ℝ) < ((e - i : Int) : ℝ) := by exact_mod_cast (by omega : 0 < e - i)
  have ha : (0 : ℝ) ≤ (((w1.st.accA r : Int) - w.st.accA r : Int) : ℝ) := by
    exact_mod_cast (by omega : 0 ≤ (w1.st.accA r : Int) - w.st.accA r)
  have hb : (((w1.st.accA r : Int) - w.st.accA r : Int) : ℝ) ≤ ((e - i : Int) : ℝ) := by
    exact_mod_cast (by omega : (w1.st.accA r : Int) - w.st.accA r ≤ e - i)
  simp only [roundRate, RealArith.div_eq, RealArith.ofI_eq, h2, h3]
  exact ⟨trivial, div_nonneg ha he.le, (div_le_one he).2 hb⟩

/-- The first round of the demo. -/
example : ∃ (w0 w : W 3 ℝ) (w1 w2 : W 3 ℝ), seqMain demoCfg demoFile 0 (0 : Fin 3) = .ok w ∧ Round demoCfg 0 300 w0 w1 w2 ∧
    ∀ r, 0 ≤ roundRate 0 300 w0 w1 r ∧ roundRate 0 300 w0 w1 r ≤ 1 := by
  obtain ⟨w, hw⟩ := seqMain_total demoCfg demoFile demo_valid 0 (0 : Fin 3)
  obtain ⟨w0, h0, hr⟩ := run_rounds demoCfg demoFile demo_valid 0 0 w hw
  cases hr with
  | done i w h => simp [demoCfg] at h
  | more i e w w1 w2 w3 h hr hrest =>
    obtain rfl : e = 300 := by rw [hr.length]; simp [demoCfg]
    exact ⟨_, _, w1, w2, hw, hr, fun r => (stack_rate_fraction demoCfg 0 300 _ w1 w2 hr (by decide) r).2⟩

/-- The number of accepted proposals among the next `k` iterations. -/
def acceptedIn (u : User F) (sigma : List F) (nline : Int) (data : List F) (beta : F) : Nat → Ch F → Nat
  | 0, _ => 0
  | k + 1, c =>
    let p := propose c.x sigma c.g
    (if (accept (target u nline data beta (u.boundary p.1)) c.lp p.2).1 then 1 else 0) +
      acceptedIn u sigma nline data beta k (mhStep u sigma nline data beta c)

theorem mhIter_accepted (u : User F) (sigma : List F) (nline : Int) (data : List F) (beta : F) (k : Nat) (c : Ch F) :
    (mhIter u sigma nline data beta k c).accA = c.accA + acceptedIn u sigma nline data beta k c := by
  induction k generalizing c with
  | zero => rfl
  | succ k ih =>
    rw [mhIter, ih, acceptedIn]
    have : (mhStep u sigma nline data beta c).accA = c.accA +
        (if (accept (target u nline data beta (u.boundary (propose c.x sigma c.g).1)) c.lp (propose c.x sigma c.g).2).1 then 1 else 0) := by
      simp only [mhStep]
      split <;> rfl
    rw [this]
    omega

theorem acceptedIn_le (u : User F) (sigma : List F) (nline : Int) (data : List F) (beta : F) (k : Nat) (c : Ch F) :
    acceptedIn u sigma nline data beta k c ≤ k := by
  induction k generalizing c with
  | zero => exact Nat.le_refl _
  | succ k ih =>
    rw [acceptedIn]
    have := ih (mhStep u sigma nline data beta c)
    split <;> omega

/-- **C18, tuning runs.** The rate returned by a tuning run of `k >= 1` iterations is the number of its proposals that were accepted
divided by `k`; for exact reals it lies in [0, 1]. -/
theorem tune_rate_fraction (nParm : Nat) (u : User ℝ) (hu : u.Wf nParm) (sigma : List ℝ) (hs : sigma.length = nParm) (nline : Int)
    (data : List ℝ) (beta : ℝ) (nIter : Int) (h0 : 1 ≤ nIter) (x : List ℝ) (hx : x.length = nParm) (lp : ℝ) (g : Rng) :
    ∃ rate g', iterBatchTune nParm u sigma nline data beta nIter x lp g = .ok (rate, g') ∧
      rate = (acceptedIn u sigma nline data beta nIter.toNat ⟨x, lp, 0, 0, g⟩ : ℝ) / (nIter : ℝ) ∧ 0 ≤ rate ∧ rate ≤ 1 := by
  have h := iterBatchTune_eq nParm u sigma nline data beta hu hs nIter (by omega) x lp g hx
  rw [h]
  refine ⟨_, _, rfl, ?_, ?_⟩
  · rw [mhIter_accepted]
    simp
  · rw [mhIter_accepted]
    have hle := acceptedIn_le u sigma nline data beta nIter.toNat ⟨x, lp, 0, 0, g⟩
    have hn : (0 : ℝ) < (nIter : ℝ) := by exact_mod_cast (by omega : 0 < nIter)
    have hk : ((acceptedIn u sigma nline data beta nIter.toNat ⟨x, lp, 0, 0, g⟩ : Int) : ℝ) ≤ (nIter : ℝ) := by
      exact_mod_cast (by omega : (acceptedIn u sigma nline data beta nIter.toNat ⟨x, lp, 0, 0, g⟩ : Int) ≤ nIter)
    simp only [RealArith.div_eq, RealArith.ofI_eq, Nat.zero_add]
    exact ⟨div_nonneg (by positivity) hn.le, (div_le_one hn).2 hk⟩

example : ∃ rate g', iterBatchTune 2 demoUser [1, 1] 0 [] 1 100 [1, 2] (-7) 99 = .ok (rate, g') ∧ 0 ≤ rate ∧ rate ≤ 1 := by
  obtain ⟨rate, g', h, _, h1, h2⟩ := tune_rate_fraction 2 demoUser demoUser_wf [1, 1] rfl 0 [] 1 100 (by decide) [1, 2] rfl (-7) 99
  exact ⟨rate, g', h, h1, h2⟩

end NiiC
