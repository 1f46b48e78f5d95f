import Verif.Props.Files
import Verif.Props.Ladder
import Verif.Props.Random

/-!
# Log-posteriors when the ladder is retuned: C13
-/

set_option linter.unusedSectionVars false
set_option linter.unusedSimpArgs false

namespace NiiC

open Spec

section
variable {n : Nat} {F : Type} [Arith F] [Source F]

omit [Source F] in
/-- Inverse temperatures that rank `r` has had: the first one, `b0`, and those in the records it has made of its variables. -/
def Had (b0 : F) (r : Nat) (log : List (Line F)) (b : F) : Prop := b = b0 ∨ ∃ a ∈ notes log, a.betas[r]? = some b

theorem Had.append {b0 b : F} {r : Nat} {l : List (Line F)} (h : Had b0 r l b) (l' : List (Line F)) : Had b0 r (l ++ l') b := by
  rcases h with h | ⟨a, h, e⟩
  · exact .inl h
  · exact .inr ⟨a, by rw [notes_append]; exact List.mem_append_left _ h, e⟩

omit [Source F] in
/-- A log-posterior that belongs to the point under an inverse temperature the rank has had. -/
def Once (cfg : Cfg F) (nline : Int) (data : List F) (b0 : F) (r : Nat) (log : List (Line F)) (x : List F) (lp : F) : Prop :=
  ∃ b, Had b0 r log b ∧ lp = target cfg.user nline data b x

omit [Source F] in
/-- Every row of the chain file carries such a log-posterior, with a record made before the row. -/
def RowsOnce (cfg : Cfg F) (nline : Int) (data : List F) (b0 : F) (r : Nat) (log : List (Line F)) : Prop :=
  ∀ l1 l2 x lp a c, log = l1 ++ .row r x lp a c :: l2 → Once cfg nline data b0 r l1 x lp

theorem RowsOnce.append {cfg : Cfg F} {nline : Int} {data : List F} {b0 : F} {r : Nat} {l l' : List (Line F)}
    (h : RowsOnce cfg nline data b0 r l)
    (h' : ∀ l1 l2 x lp a c, l' = l1 ++ .row r x lp a c :: l2 → Once cfg nline data b0 r (l ++ l1) x lp) :
    RowsOnce cfg nline data b0 r (l ++ l') := by
  intro l1 l2 x lp a c e
  rcases List.append_eq_append_iff.1 e with ⟨m, rfl, h2⟩ | ⟨m, rfl, h2⟩
  · exact h' m l2 x lp a c h2
  · cases m with
    | nil => simpa using h' [] l2 x lp a c (by simpa using h2.symm)
    | cons q m =>
      rw [List.cons_append, List.cons.injEq] at h2
      rw [← h2.1] at h
      exact h l1 m x lp a c rfl

theorem RowsOnce.append_none {cfg : Cfg F} {nline : Int} {data : List F} {b0 : F} {r : Nat} {l l' : List (Line F)}
    (h : RowsOnce cfg nline data b0 r l) (h' : fileRows r l' = []) : RowsOnce cfg nline data b0 r (l ++ l') := by
  refine h.append fun l1 l2 x lp a c e => ?_
  rw [e, fileRows_append] at h'
  simp [fileRows] at h'

omit [Source F] in
/-- The invariant. -/
structure OnceInv (cfg : Cfg F) (nline : Int) (data : List F) (b0 : Fin n → F) (w : W n F) : Prop where
  same : w.st.nline = nline ∧ w.st.data = data
  lp : ∀ r, Once cfg nline data (b0 r) r.val (w.log r) (w.st.x r) (w.st.lp r)
  rows : ∀ r : Fin n, RowsOnce cfg nline data (b0 r) r.val (w.log r)

theorem Once.append {cfg : Cfg F} {nline : Int} {data : List F} {b0 : F} {r : Nat} {l : List (Line F)} {x : List F} {lp : F}
    (h : Once cfg nline data b0 r l x lp) (l' : List (Line F)) : Once cfg nline data b0 r (l ++ l') x lp := by
  obtain ⟨b, hb, e⟩ := h
  exact ⟨b, hb.append l', e⟩

theorem had_note {b0 : F} (w : W n F) (r : Fin n) (l l' : List (Line F)) : Had b0 r.val (l ++ (w.st.loc r).note :: l') (w.st.beta r) := by
  refine .inr ⟨⟨(w.st.loc r).acc, (w.st.loc r).accA, List.ofFn (w.st.loc r).beta, (w.st.loc r).sigma⟩, ?_, ?_⟩
  · rw [notes_append]
    refine List.mem_append_right _ ?_
    simp [notes, Loc.note]
  · simp [G.loc]

theorem OnceInv.step {cfg : Cfg F} (hu : cfg.user.Wf cfg.nParm)
    {nline : Int} {data : List F} {b0 : Fin n → F} {root : Fin n} {w w' : W n F} (h : Step cfg root w w')
    (hok : w.st.Ok cfg) (hl : OnceInv cfg nline data b0 w) : OnceInv cfg nline data b0 w' := by
  obtain ⟨⟨rfl, rfl⟩, hlp, hrows⟩ := hl
  cases h with
  | widths => exact ⟨⟨rfl, rfl⟩, fun r => (hlp r).append _, fun r => (hrows r).append_none rfl⟩
  | betas =>
    refine ⟨⟨rfl, rfl⟩, fun r => (hlp r).append _, fun r => (hrows r).append_none ?_⟩
    split <;> rfl
  | draw nStack i b h => exact ⟨⟨rfl, rfl⟩, hlp, hrows⟩
  | batch _ nb h =>
    obtain ⟨hc, hst, _⟩ := seqBatch_chain hu h hok
    have hstart : ∀ r, Once cfg w.st.nline w.st.data (b0 r) r.val (w.log r ++ [(w.st.loc r).note]) (w.st.ch r).x (w.st.ch r).lp :=
      fun r => (hlp r).append _
    have hstep : ∀ r (c : Ch F), Once cfg w.st.nline w.st.data (b0 r) r.val (w.log r ++ [(w.st.loc r).note]) c.x c.lp →
        Once cfg w.st.nline w.st.data (b0 r) r.val (w.log r ++ [(w.st.loc r).note])
          (mhStep cfg.user (w.st.cur r) w.st.nline w.st.data (w.st.beta r) c).x (mhStep cfg.user (w.st.cur r) w.st.nline w.st.data (w.st.beta r) c).lp := by
      intro r c hc
      simp only [mhStep]
      split
      · exact ⟨w.st.beta r, had_note w r _ _, rfl⟩
      · exact hc
    refine ⟨by rw [hst]; exact ⟨rfl, rfl⟩, fun r => ?_, fun r => ?_⟩
    · have := mhIter_inv (P := fun c => Once cfg w.st.nline w.st.data (b0 r) r.val (w.log r ++ [(w.st.loc r).note]) c.x c.lp)
        _ _ _ _ _ (hstep r) nb.toNat _ (hstart r)
      rw [← (hc r).2.1] at this
      rw [(hc r).2.2, List.append_cons]
      exact this.append _
    · rw [(hc r).2.2, List.append_cons]
      refine ((hrows r).append_none rfl).append fun l1 l2 x lp a c e => ?_
      have hmem : Line.row r.val x lp a c ∈ (w.st.mh cfg r nb.toNat).map (line r.val) := by
        split at e
        · rw [e]; simp
        · simp at e
      obtain ⟨d, hd, hde⟩ := List.mem_map.1 hmem
      have := mhRun_inv (P := fun c => Once cfg w.st.nline w.st.data (b0 r) r.val (w.log r ++ [(w.st.loc r).note]) c.x c.lp)
        _ _ _ _ _ (hstep r) nb.toNat _ (hstart r) d hd
      simp only [line, Line.row.injEq] at hde
      rw [← hde.2.1, ← hde.2.2.1]
      exact this.append _
  | swap _ ty ty' h =>
    obtain ⟨i, j, d, _, hst, _, hx, hl⟩ := seqSwap_spec h
    have hlog := seqSwap_log cfg root w w' ty ty' h
    refine ⟨by rw [hst]; exact ⟨rfl, rfl⟩, fun r => ?_, fun r => ?_⟩
    · rw [hx, hl, hlog]
      split
      · simp only [Function.update_apply, Function.comp_apply, Equiv.swap_apply_def]
        by_cases h1 : r = j
        · subst h1
          refine ⟨w.st.beta r, had_note w r _ _, ?_⟩
          by_cases h2 : r = i
          · subst h2; simp
          · simp [h2]
        · by_cases h2 : r = i
          · subst h2
            refine ⟨w.st.beta r, had_note w r _ _, by simp [h1]⟩
          · simp only [h1, h2, if_false]
            exact (hlp r).append _
      · exact (hlp r).append _
    · rw [hlog]
      exact (hrows r).append_none rfl
  | ladder ty h h' => exact ⟨⟨rfl, rfl⟩, fun r => (hlp r).append _, fun r => (hrows r).append_none rfl⟩
  | tune _ rk h =>
    obtain ⟨⟨sg, hst⟩, hlog, _⟩ := seqTuneRank_frame h
    exact ⟨by rw [hst]; exact ⟨rfl, rfl⟩, by rw [hst, hlog]; exact hlp, by rw [hlog]; exact hrows⟩

theorem seqInit_once {cfg : Cfg F} {file : DataFile F} {clock : Nat} {root : Fin n} {w : W n F}
    (h : seqInit cfg file clock root = .ok w) : ∃ data, file.cells = .ok data ∧ ∃ b0 : Fin n → F,
      (∀ r : Fin n, cfg.betas[r.val]? = some (b0 r)) ∧ OnceInv cfg file.nlines data b0 w := by
  have hrows := seqInit_rows h
  simp only [seqInit, exc_bind, Except.ok.injEq] at h
  obtain ⟨_, _, data, hd, _, _, _, _, _, _, beta, hb, e⟩ := h
  have hlp : ∀ r, w.st.lp r = target cfg.user file.nlines data (beta r) (w.st.x r) := fun r => by rw [← e]; rfl
  refine ⟨data, hd, beta, copyBetas_get hb, by rw [← e]; exact ⟨rfl, rfl⟩, fun r => ⟨beta r, .inl rfl, hlp r⟩, fun r l1 l2 x lp a c el => ?_⟩
  have hm : (⟨x, lp, a, c⟩ : Row F) ∈ fileRows r.val (w.log r) := by
    rw [el, fileRows_append]
    refine List.mem_append_right _ ?_
    simp [fileRows]
  have := (hrows r r _ hm).2
  simp only [Row.mk.injEq] at this
  refine ⟨beta r, .inl rfl, ?_⟩
  rw [this.2.1, this.1]
  exact hlp r

/-- **C13, partial, with ladder tuning.** In every execution, every line of a chain file carries the log-posterior of its own parameters under an
inverse temperature that the chain has had up to then: the first one of the input, or one recorded at the start of a batch or swap before that
line. Missing: that it is the present one, which is false (`lp_out_of_step`). -/
theorem lp_once_in_step_partial [LawfulDraws F] (cfg : Cfg F) (file : DataFile F) (hv : Valid n cfg file) (clock : Nat) (root : Fin n) :
    ∃ data, file.cells = .ok data ∧ ∃ b0 : Fin n → F, (∀ r : Fin n, cfg.betas[r.val]? = some (b0 r)) ∧
      ∀ (w : List (Label n)) (t : Sys n (Msg F) (Line F) (RSt n F)), (initSys cfg file clock root).exec w = some t →
        ∀ (r : Fin n) l1 l2 x lp a c, t.log r = l1 ++ .row r.val x lp a c :: l2 →
          ∃ b, (b = b0 r ∨ ∃ m ∈ notes l1, m.betas[r.val]? = some b) ∧ lp = target cfg.user file.nlines data b x := by
  obtain ⟨wf, hw, hall⟩ := log_prefix cfg file hv clock root
  obtain ⟨w0, h0, hs⟩ := seqMain_steps cfg file clock root wf hw
  obtain ⟨data, hd, b0, hb, hinv⟩ := seqInit_once h0
  have hfin := (hs.inv (P := fun w => w.st.Ok cfg ∧ OnceInv cfg file.nlines data b0 w)
    (fun _ _ hp h => ⟨h.ok hv.user hp.1, hp.2.step hv.user h hp.1⟩) ⟨seqInit_ok hv.user h0, hinv⟩).2
  refine ⟨data, hd, b0, hb, fun w t ht r l1 l2 x lp a c e => ?_⟩
  obtain ⟨l3, hl3⟩ := (hall w t ht).1 r
  rw [e, List.append_assoc, List.cons_append] at hl3
  exact hfin.rows r l1 _ x lp a c hl3.symm


/-- The demo, whose ladder is tuned: a line of rank 1. -/
example (w : List (Label 3)) (t : Sys 3 (Msg ℝ) (Line ℝ) (RSt 3 ℝ)) (h : (initSys demoCfg demoFile 0 0).exec w = some t) (l1 l2 : List (Line ℝ)) (x : List ℝ)
    (lp : ℝ) (a c : Nat) (e : t.log 1 = l1 ++ .row 1 x lp a c :: l2) : ∃ b, lp = target demoUser 2 [1, 2, 3, 4] b x := by
  obtain ⟨data, h1, b0, -, h3⟩ := lp_once_in_step_partial demoCfg demoFile demo_valid 0 0
  cases h1
  obtain ⟨b, -, hb⟩ := h3 w t h 1 l1 l2 x lp a c e
  exact ⟨b, hb⟩

end

/-! ## The log-posterior is out of step after a ladder update -/

open Dbl

/-- A flat likelihood: the log-likelihood is 1000 everywhere. Under any inverse temperature every proposal has to be accepted. -/
noncomputable def flatUser : User XReal where
  logll _ _ _ b := fin 1000 *. b
  logPrior _ := fin 0
  boundary x := x
  initParm s := ([fin 0], lcgSeed s)
  initGp _ := [fin 1]

/-- Two iterations in two stacks, no swaps, the ladder tuned after each stack. -/
noncomputable def flatCfg : Cfg XReal :=
  { demoCfgX with
    nIter := 2
    nStack := 1
    base := 1
    rand := 0
    nSwap := 0
    saveBegin := 0
    nBegintune := 10
    nStoptune := 10
    betas := [fin (1 / 16), fin (1 / 2), fin 1]
    user := flatUser }

theorem flat_valid : Valid 3 flatCfg demoFileX where
  ranks := by decide
  ranksInt := by decide
  betas := Nat.le_refl 3
  parm := by simp [flatCfg, demoCfgX]
  user := { boundary := fun x h => h
            initParm := fun s => rfl
            initGp := fun r => rfl }
  stack := by simp [flatCfg]
  rand := by simp [flatCfg]
  base := by simp [flatCfg]
  randInt := by simp [flatCfg]
  stackInt := by simp [flatCfg]
  iterInt := .of_sum (by simp [flatCfg])
  mode := by simp [flatCfg, demoCfgX]
  inTune := by simp [flatCfg, demoCfgX]
  sigmaMin := Nat.le_refl 1
  sigmaMax := Nat.le_refl 1
  cells := ⟨[], rfl, by simp [demoFileX], by simp⟩

theorem flat_target (nline : Int) (data : List XReal) (b : ℝ) (x : List XReal) : target flatUser nline data (fin b) x = fin (1000 * b) := by
  simp [target, flatUser]

/-- The flat ladder after an update without any proposed swap: the middle cell is the geometric mean of the ends. -/
theorem flat_ladder (b : Fin 3 → XReal) (x1 : ℝ) (h0 : b 0 = fin (1 / 16)) (h1 : b 1 = fin x1) (hx : x1 ≠ 0) (h2 : b 2 = fin 1)
    (scale zs : XReal) : tuneLadder scale zs (Tally.zero (n := 3)).nsw (Tally.zero (n := 3)).npr b 1 = fin (1 / 4) := by
  have e0 : invB (ext b) 0 = fin 16 := by
    rw [invB_eq (beta := b) (j := 0) (x := 1 / 16) (by omega) h0 (by norm_num)]; norm_num
  have e2 : invB (ext b) 2 = fin 1 := by
    rw [invB_eq (beta := b) (j := 2) (x := 1) (by omega) h2 (by norm_num)]; norm_num
  have hr : ∀ j, swapRate (ext (Tally.zero (n := 3) (F := XReal)).nsw) (ext (Tally.zero (n := 3) (F := XReal)).npr) j = nan := by
    intro j
    have : ∀ j, ext (fun _ : Fin 3 => (ofI 0 : XReal)) j = fin 0 := by
      intro j
      simp only [ext]
      split <;> simp
    simp only [swapRate, Tally.zero, this]
    exact zero_div_zero
  have h4 : (16 : ℝ) ^ ((1 : ℝ) / 2) = 4 := by
    rw [← Real.sqrt_eq_rpow, show (16 : ℝ) = 4 ^ 2 by norm_num, Real.sqrt_sq (by norm_num)]
  simp only [tuneLadder, tuneLadderT, ladderLoop, ladderStep, ladderHigh, ladderLow, ladderMain, hr, nan_add, lt_nan, nan_lt, Bool.false_eq_true, if_false]
  simp only [ladderReset, e0, e2, Fin.val_one, Function.update_self]
  norm_num [XReal.div_eq, XReal.pow_eq, e0, e2]

/-- One stack of the flat run, for chain 1. -/
theorem flat_stack {w w' : W 3 XReal} (hok : w.st.Ok flatCfg) (h : seqStack flatCfg (0 : Fin 3) 1 w = .ok w') (h0 : w.st.beta 0 = fin (1 / 16))
    (x1 : ℝ) (h1 : w.st.beta 1 = fin x1) (hx : x1 ≠ 0) (h2 : w.st.beta 2 = fin 1) (hacc : w.st.acc 0 ≤ 1) :
    w'.st.beta 0 = fin (1 / 16) ∧ w'.st.beta 1 = fin (1 / 4) ∧ w'.st.beta 2 = fin 1 ∧ w'.st.acc 0 = w.st.acc 0 + 1 ∧
    w'.st.ch 1 = mhStep flatUser (w.st.cur 1) w.st.nline w.st.data (fin x1) (w.st.ch 1) ∧
    (∃ nt, w'.log 1 = w.log 1 ++ [nt, line 1 (w'.st.ch 1)] ∧ ∀ k x lp a c, nt ≠ .row k x lp a c) ∧
    ladderRows (w'.log 0) = ladderRows (w.log 0) ++ [[fin (1 / 16), fin x1, fin 1]] := by
  simp only [seqStack, exc_bind] at h
  obtain ⟨_, _, ⟨w1, ty1⟩, g1, g2⟩ := h
  simp only [show (1 : Int).toNat = 1 from rfl, seqStackLoop, if_pos (show (0 : Int) < 1 by decide), exc_bind] at g1
  obtain ⟨b, hb, w2, hb2, ⟨w3, ty3⟩, h3, h4⟩ := g1
  have hb1 : b.1 = 1 ∧ b.2.1 = 1 := by
    have hd : (i4UnifAb XReal (-flatCfg.rand) flatCfg.rand (w.st.g 0)).1 = 0 := by
      have := unifAb_range (R := Rounding.exact) 0 0 (w.st.g 0) (le_refl _) (by norm_num)
      exact le_antisymm this.2 this.1
    simp only [nextBatch, exc_bind, hd] at hb
    obtain ⟨_, _, _, _, nb, hnb, nx, hnx, hif⟩ := hb
    cases hnb
    cases hnx
    cases hif
    exact ⟨rfl, rfl⟩
  have e3 : w3 = w2 ∧ ty3 = Tally.zero := by
    have : flatCfg.nSwap.toNat = 0 := rfl
    rw [this] at h3
    cases h3
    exact ⟨rfl, rfl⟩
  obtain ⟨rfl, rfl⟩ := e3
  have e4 : w1 = w3 ∧ ty1 = Tally.zero := by
    rw [hb1.2] at h4
    cases h4
    exact ⟨rfl, rfl⟩
  obtain ⟨rfl, rfl⟩ := e4
  rw [hb1.1] at hb2
  obtain ⟨hc, hst, _⟩ := seqBatch_chain flat_valid.user hb2 ⟨hok.acc, hok.x, hok.sig, hok.cur⟩
  have hl1 : ∀ r, w1.st.acc r = w.st.acc r + 1 := by
    intro r
    have := congrArg Ch.acc (hc r).2.1
    simp only [show (1 : Int).toNat = 1 from rfl, mhIter, mhStep] at this
    split at this <;> exact this
  have hcond : ((w1.st.acc 0 : Nat) : Int) < flatCfg.nStopTuneLadder ∧ 0 < flatCfg.tuneLadder := by
    rw [hl1]
    refine ⟨?_, by decide⟩
    show ((w.st.acc 0 + 1 : Nat) : Int) < 700
    omega
  rw [if_pos hcond] at g2
  cases g2
  have hbeta : w1.st.beta = w.st.beta := by rw [hst]
  have hch := (hc 1).2.1
  have hlog1 := (hc 1).2.2
  have hlog0 := (hc 0).2.2
  simp only [seqLadder, W.push]
  refine ⟨?_, ?_, ?_, hl1 0, ?_, ?_, ?_⟩
  · simp [tuneLadder, hbeta, h0]
  · exact flat_ladder w1.st.beta x1 (by rw [hbeta, h0]) (by rw [hbeta, h1]) hx (by rw [hbeta, h2]) _ _
  · simp [tuneLadder, hbeta, h2]
  · show w1.st.ch 1 = _
    rw [hch]
    simp only [show (1 : Int).toNat = 1 from rfl, mhIter, G.ch, Function.update_of_ne (show (1 : Fin 3) ≠ 0 by decide), h1]
    rfl
  · refine ⟨(w.st.loc 1).note, ?_, fun k x lp a c e => by cases e⟩
    show w1.log 1 ++ [] = _ ++ [_, line 1 (w1.st.ch 1)]
    rw [hlog1, hch, if_pos (by simp [flatCfg])]
    simp only [show (1 : Int).toNat = 1 from rfl, mhIter, G.mh, mhRun, List.append_nil, List.map_cons, List.map_nil, G.loc, Loc.note,
      if_neg (show ¬ (1 : Fin 3) = 0 by decide)]
    rfl
  · show ladderRows (w1.log 0 ++ []) = _
    rw [hlog0, if_pos (by simp [flatCfg])]
    simp only [List.append_nil, ladderRows_append, List.append_assoc, List.append_cancel_left_eq]
    simp only [show (1 : Int).toNat = 1 from rfl, G.mh, mhRun, List.map_cons, List.map_nil]
    simp [ladderRows, Loc.note, line, h0, h1, h2, List.ofFn_succ]

/-- The draw of the acceptance test. -/
theorem flat_draw (g : Rng) : drand48 (F := XReal) g = (fin ((lcgNext g : ℝ) / 2 ^ 48), lcgNext g) :=
  Prod.ext (drand48_dbl (R := Rounding.exact) g) rfl

/-- The last step of the flat run: the proposal, as likely as the point it comes from, is rejected. -/
theorem flat_reject (sigma : List XReal) (nline : Int) (data : List XReal) (c : Ch XReal) (hlp : c.lp = fin 500)
    (hg : lcgNext (propose c.x sigma c.g).2 ≠ 0) : mhStep flatUser sigma nline data (fin (1 / 4)) c =
      { c with acc := c.acc + 1, g := lcgNext (propose c.x sigma c.g).2 } := by
  have h1 : Arith.log (ofI 1 /. ofI 1 : XReal) = fin 0 := by
    rw [XReal.ofI_eq, XReal.div_eq _ _ (by norm_num), XReal.log_eq _ (by norm_num)]
    norm_num
  have hexp : Real.exp (-250) ≤ 1 / 2 ^ 48 := by
    rw [Real.exp_neg, ← one_div]
    refine one_div_le_one_div_of_le (by norm_num) ?_
    have : (2 : ℝ) ≤ Real.exp 1 := by
      have := Real.add_one_le_exp (1 : ℝ)
      linarith
    calc (2 : ℝ) ^ 48 ≤ 2 ^ 250 := pow_le_pow_right₀ (by norm_num) (by norm_num)
      _ ≤ Real.exp 1 ^ 250 := pow_le_pow_left₀ (by norm_num) this _
      _ = Real.exp 250 := by rw [← Real.exp_nat_mul]; norm_num
  have hacc : accept (F := XReal) (fin 250) (fin 500) (propose c.x sigma c.g).2 = (false, lcgNext (propose c.x sigma c.g).2) := by
    simp only [accept, h1, XReal.sub_eq, XReal.exp_eq, flat_draw]
    rw [if_neg (by rw [Bool.not_eq_true, lt_fin_false]; norm_num)]
    refine Prod.ext ?_ rfl
    simp only [XReal.ofI_eq, XReal.mul_eq]
    rw [lt_fin_false]
    have h1 : (1 : ℝ) ≤ (lcgNext (propose c.x sigma c.g).2 : ℝ) := by exact_mod_cast Nat.one_le_iff_ne_zero.2 hg
    have h2 : (1 : ℝ) / 2 ^ 48 ≤ (lcgNext (propose c.x sigma c.g).2 : ℝ) / 2 ^ 48 := by gcongr
    norm_num at hexp h2 ⊢
    linarith
  have ht : ∀ y, target flatUser nline data (fin (1 / 4)) y = fin 250 := fun y => by rw [flat_target]; norm_num
  simp only [mhStep, ht, hlp, hacc, Bool.false_eq_true, if_false]

/-- The first step of the flat run is accepted. -/
theorem flat_accept (sigma : List XReal) (nline : Int) (data : List XReal) (c : Ch XReal) (hlp : c.lp = fin 500) :
    mhStep flatUser sigma nline data (fin (1 / 2)) c =
      { x := (propose c.x sigma c.g).1, lp := fin 500, acc := c.acc + 1, accA := c.accA + 1, g := lcgNext (propose c.x sigma c.g).2 } := by
  have h1 : Arith.log (ofI 1 /. ofI 1 : XReal) = fin 0 := by
    rw [XReal.ofI_eq, XReal.div_eq _ _ (by norm_num), XReal.log_eq _ (by norm_num)]
    norm_num
  have hacc : accept (F := XReal) (fin 500) (fin 500) (propose c.x sigma c.g).2 = (true, lcgNext (propose c.x sigma c.g).2) := by
    simp only [accept, h1, XReal.sub_eq, XReal.exp_eq, flat_draw]
    rw [if_neg (by rw [Bool.not_eq_true, lt_fin_false]; norm_num)]
    refine Prod.ext ?_ rfl
    simp only [XReal.ofI_eq, XReal.mul_eq]
    rw [lt_fin]
    have h3 : ((lcgNext (propose c.x sigma c.g).2 : Nat) : ℝ) < 2 ^ 48 := by
      have := lcgNext_lt (propose c.x sigma c.g).2
      unfold lcgM at this
      exact_mod_cast this
    rw [div_lt_iff₀ (by norm_num)]
    norm_num at h3 ⊢
    linarith
  have ht : ∀ y, target flatUser nline data (fin (1 / 2)) y = fin 500 := fun y => by rw [flat_target]; norm_num
  simp only [mhStep, ht, hlp, hacc, if_true]
  rfl

theorem propose_one {x s : List XReal} (hx : x.length = 1) (hs : s.length = 1) (g : Rng) : (propose x s g).2 = lcgNext (lcgNext g) := by
  obtain ⟨a, rfl⟩ := List.length_eq_one_iff.1 hx
  obtain ⟨b, rfl⟩ := List.length_eq_one_iff.1 hs
  rfl

/-- One round of the flow of the flat run. -/
theorem flat_flow {fuel : Nat} {i : Int} (hi : i = 0 ∨ i = 1) {w w' : W 3 XReal} (h : seqFlowLoop flatCfg (0 : Fin 3) (fuel + 1) 1 i w = .ok w') :
    ∃ w1, seqStack flatCfg (0 : Fin 3) 1 (seqWidths w) = .ok w1 ∧ seqFlowLoop flatCfg (0 : Fin 3) fuel 1 (i + 1) w1 = .ok w' := by
  simp only [seqFlowLoop, show flatCfg.nIter = 2 from rfl, exc_bind] at h
  rw [if_pos (by omega)] at h
  simp only [exc_bind] at h
  obtain ⟨nx, hnx, w1, h1, w2, h2, h3⟩ := h
  have e : nx = i + 1 := by
    simp only [i32] at hnx
    rw [if_pos (by omega)] at hnx
    cases hnx
    rfl
  subst e
  have hn : ¬ (2 : Int) < i + 1 := by omega
  simp only [if_neg hn] at h1 h2 h3
  have ew : inTuneWindow flatCfg (i + 1) = false := by
    rcases hi with rfl | rfl <;> decide
  rw [if_neg (by rw [ew]; decide)] at h2
  cases h2
  exact ⟨w1, h1, h3⟩

/-- **C13 is false when the ladder is tuned.** A flat likelihood, three ranks, two stacks of one iteration: after the first stack the inverse
temperature of rank 1 changes from 1/2 to 1/4, so that its log-posterior is 250 at every point, but the stored 500 stays. In every complete
execution the second line of its chain file still says 500, because a proposal of exactly the same density has been rejected. -/
theorem lp_out_of_step : Valid 3 flatCfg demoFileX ∧
    ∀ (w : List (Label 3)) (t : Sys 3 (Msg XReal) (Line XReal) (RSt 3 XReal)), (initSys flatCfg demoFileX 0 (0 : Fin 3)).exec w = some t → t.AllDone →
      ladderRows (t.log 0) = [[fin (1 / 16), fin (1 / 2), fin 1], [fin (1 / 16), fin (1 / 4), fin 1]] ∧
      (fileRows 1 (t.log 1)).map (fun a => (a.iter, a.accepted, a.lp)) = [(0, 0, fin 500), (1, 1, fin 500), (2, 1, fin 500)] ∧
      ∀ x, target flatCfg.user demoFileX.nlines [] (fin (1 / 4)) x = fin 250 := by
  refine ⟨flat_valid, fun w t ht hd => ?_⟩
  obtain ⟨wf, hw, hall⟩ := log_prefix flatCfg demoFileX flat_valid 0 (0 : Fin 3)
  have hlog : ∀ r, t.log r = wf.log r := fun r => by rw [(hall w t ht).2 hd]; rfl
  rw [hlog, hlog]
  refine and_assoc.1 ⟨?_, fun x => by rw [show flatCfg.user = flatUser from rfl, flat_target]; norm_num⟩
  simp only [seqMain, exc_bind, show flatCfg.nIter.toNat = 2 from rfl, show flatCfg.nStack = 1 from rfl] at hw
  obtain ⟨w0, h0, hw⟩ := hw
  have hok0 := seqInit_ok flat_valid.user h0
  obtain ⟨w1, h1, hw⟩ := flat_flow (.inl rfl) hw
  obtain ⟨w2, h2, hw⟩ := flat_flow (.inr rfl) hw
  cases hw
  have hs0 : Step flatCfg (0 : Fin 3) w0 (seqWidths w0) := .widths w0
  have hok1 := hs0.ok flat_valid.user hok0
  have hinit : w0.st.beta 0 = fin (1 / 16) ∧ w0.st.beta 1 = fin (1 / 2) ∧ w0.st.beta 2 = fin 1 ∧ w0.st.acc 0 = 0 ∧
      w0.st.ch 1 = ⟨[fin 0], fin 500, 0, 0, lcgSeed 21⟩ ∧ w0.st.sig 1 = [fin 1] ∧ ladderRows (w0.log 0) = [] ∧
      fileRows 1 (w0.log 1) = [⟨[fin 0], fin 500, 0, 0⟩] := by
    simp only [seqInit, exc_bind, Except.ok.injEq] at h0
    obtain ⟨_, _, data, hd, _, _, _, _, _, _, beta, hb, rfl⟩ := h0
    have hg := copyBetas_get hb
    have b0 : beta 0 = fin (1 / 16) := (Option.some.inj (hg 0)).symm
    have b1 : beta 1 = fin (1 / 2) := (Option.some.inj (hg 1)).symm
    have b2 : beta 2 = fin 1 := (Option.some.inj (hg 2)).symm
    have hlp : logPost flatCfg [fin 0] demoFileX.nlines data (beta 1) = fin 500 := by
      rw [b1]
      show target flatUser _ _ (fin (1 / 2)) _ = _
      rw [flat_target]
      norm_num
    have hx : ∀ s, (flatCfg.user.initParm s).1 = [fin 0] := fun s => rfl
    refine ⟨b0, b1, b2, rfl, ?_, rfl, rfl, ?_⟩
    · simp only [G.ch, hx, hlp]
      rfl
    · simp only [hx, hlp]
      rfl
  obtain ⟨a0, a1, a2, a3, a4, a5, a6, a7⟩ := hinit
  obtain ⟨c0, c1, c2, c3, c4, ⟨nt1, c5, c6⟩, c7⟩ := flat_stack hok1 h1 a0 (1 / 2) a1 (by norm_num) a2 (by show w0.st.acc 0 ≤ 1; omega)
  have hst : Steps flatCfg (0 : Fin 3) (seqWidths w0) w1 := seqStack_steps _ _ _ _ _ h1
  have hok2 := hst.inv (P := fun w => w.st.Ok flatCfg) (fun _ _ hp h => h.ok flat_valid.user hp) hok1
  have hs2 : Step flatCfg (0 : Fin 3) w1 (seqWidths w1) := .widths w1
  have hok3 := hs2.ok flat_valid.user hok2
  have c4' : w1.st.ch 1 = ⟨(propose [fin 0] [fin 1] (lcgSeed 21)).1, fin 500, 1, 1, lcgNext (lcgNext (lcgNext (lcgSeed 21)))⟩ := by
    rw [c4]
    show mhStep flatUser (w0.st.sig 1) w0.st.nline w0.st.data _ (w0.st.ch 1) = _
    rw [a4, a5, flat_accept _ _ _ _ rfl]
    rfl
  obtain ⟨d0, d1, d2, d3, d4, ⟨nt2, d5, d6⟩, d7⟩ := flat_stack hok3 h2 c0 (1 / 4) c1 (by norm_num) c2
    (by show w1.st.acc 0 ≤ 1; rw [c3]; show w0.st.acc 0 + 1 ≤ 1; omega)
  have hp : (propose (w1.st.ch 1).x (w1.st.sig 1) (w1.st.ch 1).g).2 = lcgNext (lcgNext (w1.st.ch 1).g) :=
    propose_one (hok2.x 1) (hok2.sig 1) _
  have d4' : wf.st.ch 1 = { w1.st.ch 1 with acc := 2, g := lcgNext (lcgNext (lcgNext (lcgNext (lcgNext (lcgNext (lcgSeed 21)))))) } := by
    rw [d4]
    show mhStep flatUser (w1.st.sig 1) w1.st.nline w1.st.data _ (w1.st.ch 1) = _
    rw [flat_reject _ _ _ _ (by rw [c4']) (by rw [hp, c4']; decide), hp, c4']
  refine ⟨?_, ?_⟩
  · rw [d7]
    show ladderRows (w1.log 0 ++ _) ++ _ = _
    rw [ladderRows_append, c7]
    show (ladderRows (w0.log 0 ++ _) ++ _) ++ _ ++ _ = _
    rw [ladderRows_append, a6]
    rfl
  · have hn : ∀ (nt : Line XReal), (∀ k x lp a c, nt ≠ .row k x lp a c) → fileRows 1 [nt] = [] := by
      intro nt h
      cases nt <;> first | rfl | exact absurd rfl (h _ _ _ _ _)
    have hn2 : ∀ (nt l : Line XReal), (∀ k x lp a c, nt ≠ .row k x lp a c) → fileRows 1 [nt, l] = fileRows 1 [l] := by
      intro nt l h
      have := fileRows_append 1 [nt] [l]
      rw [hn nt h, List.nil_append] at this
      exact this
    rw [d5, fileRows_append, hn2 _ _ d6]
    show List.map _ (fileRows 1 (w1.log 1 ++ _) ++ _) = _
    rw [fileRows_append, c5, fileRows_append, hn2 _ _ c6]
    show List.map _ (fileRows 1 (w0.log 1 ++ _) ++ _ ++ _ ++ _) = _
    rw [fileRows_append, a7, d4', c4']
    rfl

end NiiC
