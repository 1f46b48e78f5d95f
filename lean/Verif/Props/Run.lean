import Verif.Seq.Counts
import Verif.Props.Batch
import Verif.Props.Protocol

/-!
# Whole runs: C06, C07, C14, C15, C17, C55

Statements about files are statements about the lines written in any execution of the MPI program, finished or not.
-/

set_option linter.unusedSectionVars false
set_option linter.unusedSimpArgs false

namespace NiiC

open Spec

variable {n : Nat} {F : Type} [Arith F] [Source F]

/-! ## C06: batches partition a stack -/

/-- `Cuts cfg nStack gs k i bs`: with `i` iterations of the stack done, and the generator in state `gs k` when the size of the
`k`-th batch is drawn, the program cuts the rest of the stack into batches of sizes `bs`. -/
inductive Cuts (cfg : Cfg F) (nStack : Int) (gs : Nat → Rng) : Nat → Int → List Int → Prop where
  | done (k : Nat) (i : Int) (h : ¬ i < nStack) : Cuts cfg nStack gs k i []
  | more (k : Nat) (i b i' : Int) (g' : Rng) (bs : List Int) (h : i < nStack)
      (hb : nextBatch cfg nStack i (gs k) = .ok (b, i', g')) (hr : Cuts cfg nStack gs (k + 1) i' bs) :
      Cuts cfg nStack gs k i (b :: bs)

theorem cuts_exists [LawfulDraws F] (cfg : Cfg F) (hr : 0 ≤ cfg.rand) (hb : cfg.rand < cfg.base)
    (hr' : 2 * cfg.rand ≤ 2147483647) (nStack : Int) (hs : nStack + cfg.base + cfg.rand ≤ 2147483647) (gs : Nat → Rng) :
    ∀ (m k : Nat) (i : Int), 0 ≤ i → i ≤ nStack → (nStack - i).toNat ≤ m →
    ∃ bs, Cuts cfg nStack gs k i bs ∧ bs.sum = nStack - i ∧ ∀ b ∈ bs, 1 ≤ b ∧ b ≤ cfg.base + cfg.rand := by
  intro m
  induction m with
  | zero => intro k i h0 hi hm; exact ⟨[], .done k i (by omega), by simp; omega, by simp⟩
  | succ m ih =>
    intro k i h0 hi hm
    by_cases hlt : i < nStack
    · obtain ⟨⟨b, i', g'⟩, hb1, hb2, hb3, hb4⟩ := nextBatch_total cfg hr hb hr' nStack i hs h0 hlt (gs k)
      simp only at hb2 hb3 hb4
      obtain ⟨bs, h1, h2, h3⟩ := ih (k + 1) i' (by omega) hb4 (by omega)
      refine ⟨b :: bs, .more k i b i' g' bs hlt hb1 h1, by simp [h2]; omega, fun c hc => ?_⟩
      rcases List.mem_cons.1 hc with rfl | hc
      · exact ⟨by omega, nextBatch_le hr hr' hb1⟩
      · exact h3 c hc
    · exact ⟨[], .done k i hlt, by simp; omega, by simp⟩

/-- **C06.** When the random part of a batch is smaller than its base (and nothing overflows), a stack of `nStack ≥ 1`
iterations is cut, whatever the states `gs` of the generator when the sizes are drawn, into finitely many batches of
lengths between 1 and base + rand that sum to exactly `nStack`; and there is only one way in which the program cuts it. -/
theorem batches_partition [LawfulDraws F] (cfg : Cfg F) (hr : 0 ≤ cfg.rand) (hb : cfg.rand < cfg.base)
    (hr' : 2 * cfg.rand ≤ 2147483647) (nStack : Int) (h1 : 1 ≤ nStack) (hs : nStack + cfg.base + cfg.rand ≤ 2147483647)
    (gs : Nat → Rng) : ∃ bs, (Cuts cfg nStack gs 0 0 bs ∧ ∀ bs', Cuts cfg nStack gs 0 0 bs' → bs' = bs) ∧ bs ≠ [] ∧
      bs.sum = nStack ∧ ∀ b ∈ bs, 1 ≤ b ∧ b ≤ cfg.base + cfg.rand := by
  obtain ⟨bs, h2, h3, h4⟩ := cuts_exists cfg hr hb hr' nStack hs gs _ 0 0 (Int.le_refl _) (by omega) (Nat.le_refl _)
  refine ⟨bs, ⟨h2, ?_⟩, ?_, by omega, h4⟩
  · have : ∀ (k : Nat) (i : Int) (l l' : List Int), Cuts cfg nStack gs k i l → Cuts cfg nStack gs k i l' → l' = l := by
      intro k i l l' h
      induction h generalizing l' with
      | done k i h =>
        intro h'
        cases h' with
        | done => rfl
        | more _ _ _ _ _ _ h'' => exact absurd h'' h
      | more k i b i' g' bs h hb hr ih =>
        intro h'
        cases h' with
        | done _ _ h'' => exact absurd h h''
        | more _ _ b2 i2 g2 bs2 _ hb2 hr2 =>
          rw [hb] at hb2
          cases hb2
          rw [ih _ hr2]
    exact fun bs' h' => this 0 0 bs bs' h2 h'
  · rintro rfl
    simp at h3
    omega

example (gs : Nat → Rng) : ∃ bs, (Cuts demoCfg 300 gs 0 0 bs ∧ ∀ bs', Cuts demoCfg 300 gs 0 0 bs' → bs' = bs) ∧ bs ≠ [] ∧
      bs.sum = 300 ∧ ∀ b ∈ bs, 1 ≤ b ∧ b ≤ 60 :=
  batches_partition demoCfg (by simp [demoCfg]) (by simp [demoCfg]) (by simp [demoCfg]) 300 (by decide) (by simp [demoCfg]) gs

/-- In a run the batches of a stack are cut in this way: the events of a stack are batches whose sizes sum to the length of
the stack, each followed by `N_swap` swaps, and a ladder update if one is due. -/
theorem stack_events [LawfulDraws F] (cfg : Cfg F) (hu : cfg.user.Wf cfg.nParm) (hr : 0 ≤ cfg.rand)
    (hr' : 2 * cfg.rand ≤ 2147483647) (root : Fin n) (nStack : Int) (h0 : 0 ≤ nStack) (w w' : W n F) (hok : w.st.Ok cfg)
    (h : seqStack cfg root nStack w = .ok w') : ∃ h' bs, StackShape cfg.nSwap.toNat (h'.map Prod.fst) bs ∧ bs.sum = nStack ∧
      (∀ b ∈ bs, 1 ≤ b ∧ b ≤ cfg.base + cfg.rand) ∧ (∀ r, (w'.st.acc r : Int) = w.st.acc r + nStack) ∧
      w'.hist = w.hist ++ h' ++ (if (w'.st.acc root : Int) < cfg.nStopTuneLadder ∧ 0 < cfg.tuneLadder
        then [(.ladder, w'.st)] else []) := by
  obtain ⟨h', bs, h1, h2, h3, h4, _, h5⟩ := seqStack_hist hu h0 hok h
  refine ⟨h', bs, h1, h2, fun b hb => ?_, h4, h5⟩
  obtain ⟨hp, i, g, i', g', hn⟩ := h3 b hb
  exact ⟨by omega, nextBatch_le hr hr' hn⟩

/-- A stack of 300 iterations of the demo, from any state that a run can be in. -/
example (w w' : W 3 ℝ) (hok : w.st.Ok demoCfg) (h : seqStack demoCfg 0 300 w = .ok w') :
    ∃ (h' : List (Ev 3 × G 3 ℝ)) (bs : List Int), StackShape 2 (h'.map Prod.fst) bs ∧ bs.sum = 300 ∧ (∀ b ∈ bs, 1 ≤ b ∧ b ≤ 60) := by
  obtain ⟨h', bs, h1, h2, h3, -⟩ := stack_events demoCfg demo_valid.user (by simp [demoCfg]) (by simp [demoCfg]) 0 300 (by decide) w w' hok h
  exact ⟨h', bs, h1, h2, by simpa [demoCfg] using h3⟩

/-- A generator state from which the next draw is 0. -/
def zeroDraw : Rng := 107048004364969

/-- When the random part of a batch is not smaller than its base, this can go wrong: there is a state of the generator in which
the next batch of the stack gets a length of zero or less, and a batch of that length is undefined behaviour. -/
theorem batch_can_be_empty (cfg : Cfg ℝ) (hb : 0 ≤ cfg.base) (h : cfg.base ≤ cfg.rand) (hr : 2 * cfg.rand ≤ 2147483647)
    (nStack i : Int) (h0 : 0 ≤ i) (hi : i < nStack) (hs : nStack ≤ 2147483647) :
    ∃ (g g' : Rng) (nb i' : Int), nextBatch cfg nStack i g = .ok (nb, i', g') ∧ nb ≤ 0 ∧
      ∀ (rank : Nat) (sigma x0 : List ℝ) (nline : Int) (data : List ℝ) (beta lp0 : ℝ) (acc accA : Nat) (g : Rng),
        iterBatch cfg.nParm cfg.user rank sigma nline data beta cfg.saveBegin nb x0 lp0 acc accA g = .error .badAlloc := by
  have hz : lcgNext zeroDraw = 0 := by decide
  have hd : i4UnifAb ℝ (-cfg.rand) cfg.rand zeroDraw = (-cfg.rand, 0) := by
    simp only [i4UnifAb, drand48_posix, hz, i4UnifAbVal, Prod.mk.injEq, and_true]
    simp [RealArith.roundI_eq]
    norm_num
  refine ⟨zeroDraw, 0, cfg.base - cfg.rand, i + (cfg.base - cfg.rand), ?_, by omega, fun rank sigma x0 nline data beta lp0 acc accA g =>
    batch_nonpositive _ _ _ _ _ _ _ _ _ (by omega) _ _ _ _ _⟩
  simp only [nextBatch, hd]
  refine exc_ok_bind (i32_ok (by omega) (by omega)) (exc_ok_bind (i32_ok (by omega) (by omega))
    (exc_ok_bind (a := cfg.base - cfg.rand) ?_ (exc_ok_bind (i32_ok (by omega) (by omega)) ?_)))
  · exact i32_ok (by omega) (by omega)
  · rw [if_neg (by omega)]

/-- The demo with a random part as large as the base, at the start of its first stack. -/
example : ∃ (g g' : Rng) (nb i' : Int), nextBatch { demoCfg with rand := 50 } 300 0 g = .ok (nb, i', g') ∧ nb ≤ 0 := by
  obtain ⟨g, g', nb, i', h, h0, -⟩ := batch_can_be_empty { demoCfg with rand := 50 } (by simp [demoCfg]) (by simp [demoCfg]) (by simp) 300 0 (by decide)
    (by decide) (by decide)
  exact ⟨g, g', nb, i', h, h0⟩

example : ∃ cfg : Cfg ℝ, 0 ≤ cfg.base ∧ cfg.base ≤ cfg.rand ∧ 2 * cfg.rand ≤ 2147483647 ∧ 1 ≤ cfg.base :=
  ⟨{ demoCfg with rand := 50 }, by simp [demoCfg]⟩

/-! ## C07: exactly `N_iter` iterations -/

/-- The batches of a sequential run sum to `N_iter`, and so do the counters. -/
theorem seqMain_sizes {cfg : Cfg F} {file : DataFile F} (hv : Valid n cfg file) {clock : Nat} {root : Fin n} {w : W n F}
    (h : seqMain cfg file clock root = .ok w) :
    (sizes (w.hist.map Prod.fst)).sum = max cfg.nIter 0 ∧ (∀ b ∈ sizes (w.hist.map Prod.fst), 0 < b ∧ ∃ m i g i' g', nextBatch cfg m i g = .ok (b, i', g')) ∧
    ∀ r, w.st.acc r = cfg.nIter.toNat := by
  simp only [seqMain, exc_bind] at h
  obtain ⟨w0, h0, h1⟩ := h
  have hinit : sizes (w0.hist.map Prod.fst) = [] ∧ ∀ r, w0.st.acc r = 0 := by
    simp only [seqInit, exc_bind, Except.ok.injEq] at h0
    obtain ⟨_, _, _, _, _, _, _, _, _, _, _, _, rfl⟩ := h0
    exact ⟨rfl, fun _ => rfl⟩
  by_cases hn : 0 ≤ cfg.nIter
  · obtain ⟨h', hh, hs, hp, ha, _⟩ := seqFlowLoop_sizes hv.user (by have := hv.stack; omega) hn (seqInit_ok hv.user h0) h1
    rw [hh, List.map_append, sizes_append, hinit.1, List.nil_append]
    refine ⟨by omega, hp, fun r => ?_⟩
    have := ha r
    rw [hinit.2] at this
    omega
  · have ht : cfg.nIter.toNat = 0 := by omega
    rw [ht] at h1
    simp only [seqFlowLoop] at h1
    rw [if_neg (by omega)] at h1
    cases h1
    refine ⟨by rw [hinit.1]; simp; omega, by rw [hinit.1]; simp, fun r => ?_⟩
    rw [hinit.2]; omega

/-- **C07.** With a usable configuration there is a bound on the length of executions, every execution can be continued until
all ranks have finished, and when they have, the iteration counter of every rank is exactly `N_iter`. -/
theorem iterations_exact [LawfulDraws F] (cfg : Cfg F) (file : DataFile F) (hv : Valid n cfg file) (clock : Nat) (root : Fin n)
    (h0 : 0 ≤ cfg.nIter) : (∃ bound : Nat, ∀ w t, (initSys cfg file clock root).exec w = some t → w.length ≤ bound) ∧
    ∀ w t, (initSys cfg file clock root).exec w = some t →
      (∃ w' t', t.exec w' = some t' ∧ t'.AllDone) ∧
      (t.AllDone → ∀ r, ∃ s, t.procs r = .ret s ∧ (s.loc.acc : Int) = cfg.nIter) := by
  obtain ⟨w, len, hw, hall⟩ := distributed_eq_sequential cfg file hv clock root
  refine ⟨⟨len, fun w₁ t ht => ?_⟩, fun w₁ t ht => ⟨?_, fun hd r => ?_⟩⟩
  · obtain ⟨⟨w₂, _, hl⟩, _⟩ := hall w₁ t ht
    omega
  · obtain ⟨⟨w₂, h₂, _⟩, _⟩ := hall w₁ t ht
    exact ⟨w₂, _, h₂, finalSys_done root w⟩
  · refine ⟨_, ((hall w₁ t ht).2 hd).1 r, ?_⟩
    show (w.st.acc r : Int) = _
    rw [(seqMain_sizes hv hw).2.2 r]
    omega

example (w : List (Label 3)) (t : Sys 3 (Msg ℝ) (Line ℝ) (RSt 3 ℝ)) (h : (initSys demoCfg demoFile 0 0).exec w = some t)
    (hd : t.AllDone) (r : Fin 3) : ∃ s, t.procs r = .ret s ∧ (s.loc.acc : Int) = 1000 :=
  ((iterations_exact demoCfg demoFile demo_valid 0 0 (by simp [demoCfg])).2 w t h).2 hd r

/-- And the iterations counted are Metropolis–Hastings iterations: in a sequential run (to which every execution is equal by
C04) the counters count the iterations of the batches, each of which applies the recursion as many times as its size. -/
theorem iterations_are_mh (cfg : Cfg F) (file : DataFile F) (hv : Valid n cfg file) (clock : Nat) (root : Fin n) (w : W n F)
    (h : seqMain cfg file clock root = .ok w) (h0 : 0 ≤ cfg.nIter) :
    (sizes (w.hist.map Prod.fst)).sum = cfg.nIter ∧
    ∀ (w1 w2 : W n F) (nb : Int), w1.st.Ok cfg → seqBatch cfg nb w1 = .ok w2 → w2.hist = w1.hist ++ [(.batch nb, w2.st)] ∧
      ∀ r, w2.st.ch r = mhIter cfg.user (w1.st.cur r) w1.st.nline w1.st.data (w1.st.beta r) nb.toNat (w1.st.ch r) := by
  refine ⟨by rw [(seqMain_sizes hv h).1]; omega, fun w1 w2 nb hok hb => ?_⟩
  obtain ⟨h1, _, h2⟩ := seqBatch_chain hv.user hb hok
  exact ⟨h2, fun r => (h1 r).2.1⟩

example : ∃ w : W 3 ℝ, seqMain demoCfg demoFile 0 0 = .ok w ∧ (sizes (w.hist.map Prod.fst)).sum = 1000 := by
  obtain ⟨w, hw⟩ := seqMain_total demoCfg demoFile demo_valid 0 (0 : Fin 3)
  exact ⟨w, hw, (iterations_are_mh demoCfg demoFile demo_valid 0 0 w hw (by simp [demoCfg])).1⟩

/-! ## C14 and C17: the chain file -/

/-- Row `b` of a chain file is one Metropolis–Hastings iteration after a state with the counters of row `a`. -/
def NextRow (cfg : Cfg F) (nline : Int) (data : List F) (a b : Row F) : Prop :=
  ∃ (c : Ch F) (sigma : List F) (beta : F), c.acc = a.iter ∧ c.accA = a.accepted ∧
    let c' := mhStep cfg.user sigma nline data beta c
    b = ⟨c'.x, c'.lp, c'.acc, c'.accA⟩

/-- What is true of the chain file of rank `r` at every point of a run. -/
structure FileInv (cfg : Cfg F) (c0 : Row F) (w : W n F) (r : Fin n) : Prop where
  acc : w.st.accA r ≤ w.st.acc r
  file : ∃ tail m, fileRows r.val (w.log r) = c0 :: tail ∧ m ≤ w.st.acc r ∧
    tail.map Row.iter = List.range' (m + 1) (w.st.acc r - m) ∧ (m = 0 ∨ m < cfg.saveBegin) ∧
    (tail ≠ [] → cfg.saveBegin ≤ w.st.acc r ∧ ∃ b ∈ sizes (w.hist.map Prod.fst), (cfg.saveBegin : Int) ≤ m + b) ∧
    tail.IsChain (NextRow cfg w.st.nline w.st.data) ∧
    (∀ l, tail.getLast? = some l → l.iter = w.st.acc r ∧ l.accepted = w.st.accA r) ∧
    ∀ l ∈ tail, l.accepted ≤ l.iter

theorem fileRows_lines (rank : Nat) (l : List (Ch F)) :
    fileRows rank (l.map (line rank)) = l.map (fun c => ⟨c.x, c.lp, c.acc, c.accA⟩) := by
  induction l with
  | nil => rfl
  | cons c l ih =>
    simp only [List.map_cons, fileRows, line, List.filterMap_cons, if_true, List.cons.injEq, true_and]
    exact ih

theorem fileRows_note (rank : Nat) (s : Loc n F) (l : List (Line F)) : fileRows rank (s.note :: l) = fileRows rank l := rfl

theorem mhRun_iters (u : User F) (sigma : List F) (nline : Int) (data : List F) (beta : F) (k : Nat) (c : Ch F) :
    (mhRun u sigma nline data beta k c).map Ch.acc = List.range' (c.acc + 1) k := by
  induction k generalizing c with
  | zero => rfl
  | succ k ih =>
    simp only [mhRun, List.map_cons, List.range'_succ, ih, mhStep_acc]

theorem mhRun_chain (cfg : Cfg F) (sigma : List F) (nline : Int) (data : List F) (beta : F) (k : Nat) (c : Ch F) :
    (⟨c.x, c.lp, c.acc, c.accA⟩ :: (mhRun cfg.user sigma nline data beta k c).map
      (fun c => (⟨c.x, c.lp, c.acc, c.accA⟩ : Row F))).IsChain (NextRow cfg nline data) := by
  induction k generalizing c with
  | zero => exact List.isChain_singleton _
  | succ k ih =>
    simp only [mhRun, List.map_cons]
    rw [List.isChain_cons_cons]
    exact ⟨⟨c, sigma, beta, rfl, rfl, rfl⟩, ih _⟩

theorem NextRow.swapLeft {cfg : Cfg F} {nline : Int} {data : List F} {a a' b : Row F} (h : NextRow cfg nline data a b)
    (h1 : a'.iter = a.iter) (h2 : a'.accepted = a.accepted) : NextRow cfg nline data a' b := by
  obtain ⟨c, s, be, h3, h4, h5⟩ := h
  exact ⟨c, s, be, by rw [h3, h1], by rw [h4, h2], h5⟩


theorem FileInv.of_eq {cfg : Cfg F} {c0 : Row F} {w w' : W n F} {r : Fin n} (h : FileInv cfg c0 w r) (h1 : w'.st.acc r = w.st.acc r)
    (h2 : w'.st.accA r = w.st.accA r) (h3 : w'.st.nline = w.st.nline) (h4 : w'.st.data = w.st.data)
    (h5 : fileRows r.val (w'.log r) = fileRows r.val (w.log r))
    (h6 : ∀ b ∈ sizes (w.hist.map Prod.fst), b ∈ sizes (w'.hist.map Prod.fst)) : FileInv cfg c0 w' r := by
  obtain ⟨ha, tail, m, f1, f4, f5, f6, f7, f8, f9, f10⟩ := h
  refine ⟨by rw [h1, h2]; exact ha, tail, m, by rw [h5, f1], by rw [h1]; exact f4, by rw [h1]; exact f5, f6,
    fun ht => ?_, by rw [h3, h4]; exact f8, fun l hl => by rw [h1, h2]; exact f9 l hl, f10⟩
  obtain ⟨k1, b, hb, k2⟩ := f7 ht
  exact ⟨by rw [h1]; exact k1, b, h6 b hb, k2⟩

/-- Data never change during a run. -/
theorem Step.data {cfg : Cfg F} (hu : cfg.user.Wf cfg.nParm) {root : Fin n} {w w' : W n F} (h : Step cfg root w w')
    (hok : w.st.Ok cfg) : w'.st.nline = w.st.nline ∧ w'.st.data = w.st.data := by
  cases h with
  | widths => exact ⟨rfl, rfl⟩
  | betas => exact ⟨rfl, rfl⟩
  | draw nStack i b h => exact ⟨rfl, rfl⟩
  | batch _ nb h =>
    obtain ⟨_, h2, _⟩ := seqBatch_chain hu h hok
    rw [h2]; exact ⟨rfl, rfl⟩
  | swap _ ty ty' h =>
    simp only [seqSwap, exc_bind, Except.ok.injEq, Prod.mk.injEq] at h
    obtain ⟨i, hi, j, hj, rfl, rfl⟩ := h
    exact ⟨rfl, rfl⟩
  | ladder ty h h' => exact ⟨rfl, rfl⟩
  | tune _ rk h =>
    obtain ⟨⟨sg, hst⟩, _, _⟩ := seqTuneRank_frame h
    rw [hst]; exact ⟨rfl, rfl⟩

theorem mhRun_row_le (cfg : Cfg F) (sigma : List F) (nline : Int) (data : List F) (beta : F) (k : Nat) (c : Ch F)
    (h : c.accA ≤ c.acc) : ∀ d ∈ mhRun cfg.user sigma nline data beta k c, d.accA ≤ d.acc := by
  refine mhRun_inv (P := fun d => d.accA ≤ d.acc) _ _ _ _ _ (fun d hd => ?_) k c h
  have := accA_step cfg.user sigma nline data beta d
  rw [mhStep_acc]
  omega

theorem mhRun_getLast (cfg : Cfg F) (sigma : List F) (nline : Int) (data : List F) (beta : F) (k : Nat) (c d : Ch F)
    (h : (mhRun cfg.user sigma nline data beta k c).getLast? = some d) : d = mhIter cfg.user sigma nline data beta k c := by
  cases k with
  | zero => simp [mhRun] at h
  | succ k =>
    rw [List.getLast?_eq_getElem?, mhRun_length, mhRun_getElem _ _ _ _ _ _ _ _ (by omega)] at h
    simpa using h.symm

theorem FileInv.step {cfg : Cfg F} (hu : cfg.user.Wf cfg.nParm) {root : Fin n} {w w' : W n F} (h : Step cfg root w w')
    (hok : w.st.Ok cfg) (r : Fin n) {c0 : Row F} (hf : FileInv cfg c0 w r) : FileInv cfg c0 w' r := by
  have hdata := h.data hu hok
  cases h with
  | widths =>
    refine hf.of_eq rfl rfl rfl rfl ?_ (fun b hb => ?_)
    · simp [seqWidths, W.push, fileRows]
    · simp [seqWidths, W.push, hb]
  | betas =>
    refine hf.of_eq rfl rfl rfl rfl ?_ (fun b hb => hb)
    simp only [fileRows_append]
    split <;> simp [fileRows]
  | draw nStack i b h => exact hf.of_eq rfl rfl rfl rfl rfl (fun b hb => hb)
  | batch _ nb h =>
    obtain ⟨hb, hst, hhist⟩ := seqBatch_chain hu h hok
    obtain ⟨hpos, hch, hlog⟩ := hb r
    have hacc' : w'.st.acc r = w.st.acc r + nb.toNat := by
      have := congrArg Ch.acc hch
      rw [mhIter_acc] at this
      exact this
    have hsz : sizes (w'.hist.map Prod.fst) = sizes (w.hist.map Prod.fst) ++ [nb] := by
      rw [hhist, List.map_append, sizes_append]; rfl
    have haccA := mhIter_accA cfg.user (w.st.cur r) w.st.nline w.st.data (w.st.beta r) nb.toNat (w.st.ch r)
    have hA' : w'.st.accA r = (mhIter cfg.user (w.st.cur r) w.st.nline w.st.data (w.st.beta r) nb.toNat (w.st.ch r)).accA :=
      congrArg Ch.accA hch
    obtain ⟨ha, tail, m, f1, f4, f5, f6, f7, f8, f9, f10⟩ := hf
    have haA : w'.st.accA r ≤ w'.st.acc r := by
      rw [hA', hacc']
      have : (w.st.ch r).accA = w.st.accA r := rfl
      omega
    refine ⟨haA, ?_⟩
    have hlen : tail.length = w.st.acc r - m := by
      have := congrArg List.length f5
      simpa using this
    rw [hlog, fileRows_append, fileRows_note, f1]
    by_cases hsv : cfg.saveBegin ≤ w.st.acc r + nb.toNat
    · rw [if_pos hsv, G.mh, fileRows_lines]
      let new := (mhRun cfg.user (w.st.cur r) w.st.nline w.st.data (w.st.beta r) nb.toNat (w.st.ch r)).map
        (fun c => (⟨c.x, c.lp, c.acc, c.accA⟩ : Row F))
      refine ⟨tail ++ new, m, rfl, by omega, ?_, f6, fun _ => ⟨by omega, ?_⟩, ?_, ?_, ?_⟩
      · have hit := mhRun_iters cfg.user (w.st.cur r) w.st.nline w.st.data (w.st.beta r) nb.toNat (w.st.ch r)
        have hnew : new.map Row.iter = List.range' (w.st.acc r + 1) nb.toNat := by
          simp only [new, List.map_map]
          exact hit
        rw [List.map_append, f5, hnew, hacc']
        have h1 : w.st.acc r + nb.toNat - m = (w.st.acc r - m) + nb.toNat := by omega
        have h2 : w.st.acc r + 1 = m + 1 + (w.st.acc r - m) := by omega
        rw [h1, h2, List.range'_append_1]
      · rw [hsz]
        by_cases ht : tail = []
        · refine ⟨nb, by simp, ?_⟩
          have : w.st.acc r - m = 0 := by rw [← hlen, ht]; rfl
          omega
        · obtain ⟨_, b, hb, k2⟩ := f7 ht
          exact ⟨b, by simp [hb], k2⟩
      · rw [hdata.1, hdata.2]
        have hc := mhRun_chain cfg (w.st.cur r) w.st.nline w.st.data (w.st.beta r) nb.toNat (w.st.ch r)
        rw [List.isChain_cons] at hc
        rw [List.isChain_append]
        refine ⟨f8, hc.2, fun a ha b hb => ?_⟩
        have hl := f9 a ha
        exact (hc.1 b hb).swapLeft hl.1 hl.2
      · intro l hl
        have hne : new ≠ [] := by
          intro h0
          have := congrArg List.length h0
          simp [new, mhRun_length] at this
          omega
        rw [List.getLast?_append_of_ne_nil _ hne] at hl
        simp only [new, List.getLast?_map, Option.map_eq_some_iff] at hl
        obtain ⟨d, hd, rfl⟩ := hl
        have := mhRun_getLast cfg _ _ _ _ _ _ _ hd
        rw [this, ← hch]
        exact ⟨rfl, rfl⟩
      · intro l hl
        rcases List.mem_append.1 hl with hl | hl
        · exact f10 l hl
        · obtain ⟨d, hd, rfl⟩ := List.mem_map.1 hl
          exact mhRun_row_le cfg _ _ _ _ _ _ ha d hd
    · rw [if_neg hsv]
      have ht : tail = [] := by
        by_contra ht
        have := (f7 ht).1
        omega
      subst ht
      refine ⟨[], w.st.acc r + nb.toNat, rfl, by omega, by rw [hacc']; simp, .inr (by omega), by simp, by simp, by simp, by simp⟩
  | swap _ ty ty' h =>
    obtain ⟨i, j, d, h1, h2, h3⟩ := seqSwap_hist h
    refine hf.of_eq (by rw [h2]) (by rw [h3]) hdata.1 hdata.2 ?_ (fun b hb => ?_)
    · rw [seqSwap_log cfg root w w' ty ty' h]
      simp only [fileRows_append, fileRows_note]
      simp [fileRows]
    · rw [h1]; simp [hb]
  | ladder ty h h' =>
    refine hf.of_eq rfl rfl rfl rfl ?_ (fun b hb => ?_)
    · simp [seqLadder, W.push, fileRows]
    · simp [seqLadder, W.push, hb]
  | tune _ rk h =>
    obtain ⟨⟨sg, hst⟩, hlog, hhist⟩ := seqTuneRank_frame h
    refine hf.of_eq (by rw [hst]) (by rw [hst]) hdata.1 hdata.2 (by rw [hlog]) (fun b hb => ?_)
    rw [hhist]; simp [hb]

omit [Source F] in
/-- The line that opens the chain file of rank `r`: the start point drawn from its seed, with its log-posterior. -/
def firstRow (cfg : Cfg F) (file : DataFile F) (data : List F) (clock : Nat) (root r : Fin n) (beta : F) : Row F :=
  let x := (cfg.user.initParm (seedOf root (startSeed cfg clock) r)).1
  ⟨x, target cfg.user file.nlines data beta x, 0, 0⟩

theorem seqInit_file {cfg : Cfg F} {file : DataFile F} {clock : Nat} {root : Fin n} {w : W n F}
    (h : seqInit cfg file clock root = .ok w) (r : Fin n) : ∃ data beta, file.cells = .ok data ∧
      cfg.betas[r.val]? = some beta ∧ w.st.nline = file.nlines ∧ w.st.data = data ∧
      FileInv cfg (firstRow cfg file data clock root r beta) w r := by
  simp only [seqInit, exc_bind, Except.ok.injEq] at h
  obtain ⟨_, _, data, hd, _, _, _, _, _, _, beta, hb, rfl⟩ := h
  refine ⟨data, beta r, hd, ?_, rfl, rfl, Nat.le_refl _, [], 0, ?_, Nat.le_refl _, rfl, .inl rfl, by simp, by simp, by simp, by simp⟩
  · unfold copyBetas at hb
    split at hb
    · cases hb
      exact List.getElem?_eq_getElem _
    · cases hb
  · have : ∀ (p : Prop) [Decidable p] (l : Line F), fileRows r.val [l] = [] → fileRows r.val (if p then [l] else []) = [] := by
      intro p _ l hl; split
      · exact hl
      · rfl
    simp only [fileRows_append]
    rw [this _ _ rfl, this _ _ rfl]
    simp [fileRows]
    rfl

theorem seqMain_file {cfg : Cfg F} (hu : cfg.user.Wf cfg.nParm) {file : DataFile F} {clock : Nat} {root : Fin n} {w : W n F}
    (h : seqMain cfg file clock root = .ok w) (r : Fin n) : ∃ data beta, file.cells = .ok data ∧
      cfg.betas[r.val]? = some beta ∧ w.st.nline = file.nlines ∧ w.st.data = data ∧
      FileInv cfg (firstRow cfg file data clock root r beta) w r := by
  obtain ⟨w0, h0, hs⟩ := seqMain_steps cfg file clock root w h
  obtain ⟨data, beta, h1, h2, h3, h4, h5⟩ := seqInit_file h0 r
  refine ⟨data, beta, h1, h2, ?_⟩
  have := hs.inv (P := fun w => w.st.Ok cfg ∧ w.st.nline = file.nlines ∧ w.st.data = data ∧
      FileInv cfg (firstRow cfg file data clock root r beta) w r)
    (fun w w' hp h => ⟨h.ok hu hp.1, (h.data hu hp.1).1.trans hp.2.1, (h.data hu hp.1).2.trans hp.2.2.1,
      FileInv.step hu h hp.1 r hp.2.2.2⟩) ⟨seqInit_ok hu h0, h3, h4, h5⟩
  exact this.2

theorem fileRows_prefix {k : Nat} {l l' : List (Line F)} (h : l <+: l') : fileRows k l <+: fileRows k l' := by
  obtain ⟨t, rfl⟩ := h
  rw [fileRows_append]
  exact List.prefix_append _ _

/-- **C17.** For every rank `r` of a usable configuration: in a finished execution its chain file is the initial state (row 0)
followed by the rows of the consecutive iterations `m+1 .. N_iter`, where every iteration from `i_save_begin` on is present
exactly once and fewer earlier iterations than a batch has are included; in an unfinished execution it is the beginning of
that file. -/
theorem chain_file [LawfulDraws F] (cfg : Cfg F) (file : DataFile F) (hv : Valid n cfg file) (clock : Nat) (root : Fin n)
    (h0 : 0 ≤ cfg.nIter) (r : Fin n) : ∃ (data : List F) (beta : F) (tail : List (Row F)) (m : Nat),
      file.cells = .ok data ∧ cfg.betas[r.val]? = some beta ∧
      (tail.map Row.iter = List.range' (m + 1) (cfg.nIter.toNat - m) ∧ (m : Int) ≤ cfg.nIter) ∧
      (∀ k : Nat, 1 ≤ k → cfg.saveBegin ≤ k → (k : Int) ≤ cfg.nIter → (tail.map Row.iter).count k = 1) ∧
      (tail ≠ [] → (cfg.saveBegin : Int) ≤ cfg.nIter ∧ cfg.saveBegin ≤ m + (cfg.base + cfg.rand)) ∧
      ∀ w t, (initSys cfg file clock root).exec w = some t →
        (t.AllDone → fileRows r.val (t.log r) = firstRow cfg file data clock root r beta :: tail) ∧
        fileRows r.val (t.log r) <+: firstRow cfg file data clock root r beta :: tail := by
  obtain ⟨wf, hw, hall⟩ := log_prefix cfg file hv clock root
  obtain ⟨data, beta, h1, h2, h3, h4, _, tail, m, f1, f4, f5, f6, f7, f8, f9, f10⟩ := seqMain_file hv.user hw r
  have hacc := (seqMain_sizes hv hw).2.2 r
  rw [hacc] at f4 f5 f7
  have hsz : ∀ b ∈ sizes (wf.hist.map Prod.fst), b ≤ cfg.base + cfg.rand := by
    intro b hb
    obtain ⟨_, _, _, _, _, _, hn⟩ := (seqMain_sizes hv hw).2.1 b hb
    exact nextBatch_le hv.rand hv.randInt hn
  refine ⟨data, beta, tail, m, h1, h2, ⟨f5, by omega⟩, fun k k1 k2 k3 => ?_, fun ht => ?_, fun w t ht => ⟨fun hd => ?_, ?_⟩⟩
  · rw [f5]
    refine List.count_eq_one_of_mem (List.nodup_range') ?_
    rw [List.mem_range'_1]
    omega
  · obtain ⟨g1, b, hb, g2⟩ := f7 ht
    have := hsz b hb
    exact ⟨by omega, by omega⟩
  · rw [(hall w t ht).2 hd]
    exact f1
  · rw [← f1]
    exact fileRows_prefix ((hall w t ht).1 r)

/-- The chain file of the demo has rows 0, and then at least all of 500..1000. -/
example (w : List (Label 3)) (t : Sys 3 (Msg ℝ) (Line ℝ) (RSt 3 ℝ)) (h : (initSys demoCfg demoFile 0 0).exec w = some t)
    (hd : t.AllDone) (r : Fin 3) (k : Nat) (h1 : 500 ≤ k) (h2 : k ≤ 1000) :
    ((fileRows r.val (t.log r)).map Row.iter).count k = 1 := by
  obtain ⟨data, beta, tail, m, _, _, _, hc, _, hall⟩ := chain_file demoCfg demoFile demo_valid 0 0 (by simp [demoCfg]) r
  rw [(hall w t h).1 hd, List.map_cons, List.count_cons_of_ne (by show 0 ≠ k; omega)]
  exact hc k (by omega) (by simpa [demoCfg] using h1) (by simp [demoCfg]; omega)

/-- **C14.** At every moment of every execution, in the chain file of every rank: the first row has iteration 0 and 0 accepted;
from the second row on, each next row is one Metropolis–Hastings iteration after a state with the counters of the row before it
(`NextRow`), so that the iteration column rises by one, the acceptance column by one or zero; and in every row acceptance
does not exceed iteration. That the acceptance counter rises exactly when the proposal is accepted is `step_columns`. -/
theorem chain_columns [LawfulDraws F] (cfg : Cfg F) (file : DataFile F) (hv : Valid n cfg file) (clock : Nat) (root : Fin n)
    (w : List (Label n)) (t : Sys n (Msg F) (Line F) (RSt n F)) (h : (initSys cfg file clock root).exec w = some t) (r : Fin n) :
    let rows := fileRows r.val (t.log r)
    (∀ a, rows[0]? = some a → a.iter = 0 ∧ a.accepted = 0) ∧ (∀ a ∈ rows, a.accepted ≤ a.iter) ∧
    ∀ (k : Nat) (a b : Row F), 1 ≤ k → rows[k]? = some a → rows[k + 1]? = some b →
      (∃ data, file.cells = .ok data ∧ NextRow cfg file.nlines data a b) ∧ b.iter = a.iter + 1 ∧
      (b.accepted = a.accepted ∨ b.accepted = a.accepted + 1) := by
  obtain ⟨wf, hw, hall⟩ := log_prefix cfg file hv clock root
  obtain ⟨data, beta, h1, h2, h3, h4, _, tail, m, f1, f4, f5, f6, f7, f8, f9, f10⟩ := seqMain_file hv.user hw r
  have hp : fileRows r.val (t.log r) <+: firstRow cfg file data clock root r beta :: tail := by
    rw [← f1]; exact fileRows_prefix ((hall w t h).1 r)
  refine ⟨fun a ha => ?_, fun a ha => ?_, fun k a b hk ha hb => ?_⟩
  · have := prefix_getElem? hp ha
    simp only [List.getElem?_cons_zero, Option.some.injEq] at this
    subst this
    exact ⟨rfl, rfl⟩
  · rcases List.mem_cons.1 (hp.subset ha) with rfl | ha'
    · exact Nat.le_refl _
    · exact f10 a ha'
  · have ha' := prefix_getElem? hp ha
    have hb' := prefix_getElem? hp hb
    obtain ⟨j, rfl⟩ : ∃ j, k = j + 1 := ⟨k - 1, by omega⟩
    simp only [List.getElem?_cons_succ] at ha' hb'
    have hn : NextRow cfg file.nlines data a b := by
      rw [h3, h4] at f8
      obtain ⟨i1, e1⟩ := List.getElem?_eq_some_iff.1 ha'
      obtain ⟨i2, e2⟩ := List.getElem?_eq_some_iff.1 hb'
      have := List.isChain_iff_getElem.1 f8 j i2
      rw [e1, e2] at this
      exact this
    refine ⟨⟨data, h1, hn⟩, ?_⟩
    obtain ⟨c, s, be, e1, e2, rfl⟩ := hn
    refine ⟨by simp only [mhStep_acc, e1], ?_⟩
    simp only [← e2]
    exact accA_step _ _ _ _ _ _

/-- In the demo, the rows of rank 2. -/
example (w : List (Label 3)) (t : Sys 3 (Msg ℝ) (Line ℝ) (RSt 3 ℝ)) (h : (initSys demoCfg demoFile 0 0).exec w = some t) (a b : Row ℝ)
    (ha : (fileRows 2 (t.log 2))[5]? = some a) (hb : (fileRows 2 (t.log 2))[6]? = some b) : b.iter = a.iter + 1 ∧ a.accepted ≤ a.iter := by
  have k := chain_columns demoCfg demoFile demo_valid 0 0 w t h 2
  exact ⟨(k.2.2 5 a b (by decide) ha hb).2.1, k.2.1 a (List.mem_of_getElem? ha)⟩

end NiiC
