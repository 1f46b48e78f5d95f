import Verif.Props.State

/-!
# Log-posteriors, widths and files over a run: C13, C31, C55, C62
-/

set_option linter.unusedSectionVars false
set_option linter.unusedSimpArgs false

namespace NiiC

open Spec

variable {n : Nat} {F : Type} [Arith F] [Source F]

/-! ## C13: the stored log-posteriors -/

omit [Source F] in
/-- Stored log-posteriors belong to the chains under the ladder `b` (a function, so that `b` can be the present ladder or an
older one), and so do those in the chain files. -/
structure LpInv (cfg : Cfg F) (nline : Int) (data : List F) (b0 : Fin n → F) (w : W n F) : Prop where
  same : w.st.nline = nline ∧ w.st.data = data
  beta : w.st.beta = b0
  lp : ∀ r, w.st.lp r = target cfg.user nline data (b0 r) (w.st.x r)
  rows : ∀ r : Fin n, ∀ a ∈ fileRows r.val (w.log r), a.lp = target cfg.user nline data (b0 r) a.x

theorem LpInv.step {cfg : Cfg F} (hu : cfg.user.Wf cfg.nParm) (hc : cfg.tuneLadder ≤ 0 ∨ cfg.nStopTuneLadder ≤ 0)
    {nline : Int} {data : List F} {b0 : Fin n → F} {root : Fin n} {w w' : W n F} (h : Step cfg root w w')
    (hok : w.st.Ok cfg) (hl : LpInv cfg nline data b0 w) : LpInv cfg nline data b0 w' := by
  obtain ⟨⟨rfl, rfl⟩, hbeta, hlp, hrows⟩ := hl
  cases h with
  | widths => exact ⟨⟨rfl, rfl⟩, hbeta, hlp, fun r a ha => hrows r a (fileRows_sub ha rfl)⟩
  | betas =>
    refine ⟨⟨rfl, rfl⟩, hbeta, hlp, fun r a ha => hrows r a (fileRows_sub ha ?_)⟩
    split <;> rfl
  | draw nStack i b h => exact ⟨⟨rfl, rfl⟩, hbeta, hlp, hrows⟩
  | batch _ nb h =>
    obtain ⟨hc, hst, _⟩ := seqBatch_chain hu h hok
    have hstart : ∀ r, Ch.InStep cfg.user w.st.nline w.st.data (w.st.beta r) (w.st.ch r) := by
      intro r
      show w.st.lp r = _
      rw [hbeta]
      exact hlp r
    have hstep := fun r => inStep_step cfg.user (w.st.cur r) w.st.nline w.st.data (w.st.beta r)
    refine ⟨by rw [hst]; exact ⟨rfl, rfl⟩, by rw [hst]; exact hbeta, fun r => ?_, fun r a ha => ?_⟩
    · have := mhIter_inv _ _ _ _ _ (hstep r) nb.toNat _ (hstart r)
      rw [← (hc r).2.1, hbeta] at this
      exact this
    · rw [(hc r).2.2, fileRows_append, fileRows_note] at ha
      rcases List.mem_append.1 ha with ha | ha
      · exact hrows r a ha
      · split at ha
        · obtain ⟨c, hcm, rfl⟩ := fileRows_lines_mem ha
          have := mhRun_inv _ _ _ _ _ (hstep r) nb.toNat _ (hstart r) c hcm
          rw [hbeta] at this
          exact this
        · simp [fileRows] at ha
  | swap _ ty ty' h =>
    obtain ⟨i, j, d, _, hst, _, hx, hl⟩ := seqSwap_spec h
    refine ⟨by rw [hst]; exact ⟨rfl, rfl⟩, by rw [hst]; exact hbeta, fun r => ?_, fun r a ha => ?_⟩
    · rw [hx, hl]
      split
      · simp only [Function.update_apply, Function.comp_apply, Equiv.swap_apply_def, hbeta]
        by_cases h1 : r = j
        · subst h1
          by_cases h2 : r = i
          · subst h2; simp
          · simp [h2]
        · by_cases h2 : r = i
          · subst h2; simp [h1]
          · simp [h1, h2, hlp]
      · exact hlp r
    · rw [seqSwap_log cfg root w w' ty ty' h] at ha
      exact hrows r a (fileRows_sub ha rfl)
  | ladder ty h h' => omega
  | tune _ rk h =>
    obtain ⟨⟨sg, hst⟩, hlog, _⟩ := seqTuneRank_frame h
    exact ⟨by rw [hst]; exact ⟨rfl, rfl⟩, by rw [hst]; exact hbeta, by rw [hst]; exact hlp, by rw [hlog]; exact hrows⟩

theorem copyBetas_get {betas : List F} {b : Fin n → F} (h : copyBetas n betas = .ok b) (r : Fin n) :
    betas[r.val]? = some (b r) := by
  unfold copyBetas at h
  split at h
  · cases h
    exact List.getElem?_eq_getElem _
  · cases h

theorem seqInit_rows {cfg : Cfg F} {file : DataFile F} {clock : Nat} {root : Fin n} {w : W n F}
    (h : seqInit cfg file clock root = .ok w) (r q : Fin n) (a : Row F) (ha : a ∈ fileRows q.val (w.log r)) :
    q = r ∧ a = ⟨w.st.x r, w.st.lp r, 0, 0⟩ := by
  simp only [seqInit, exc_bind, Except.ok.injEq] at h
  obtain ⟨_, _, data, hd, _, _, _, _, _, _, beta, hb, rfl⟩ := h
  have : ∀ (p : Prop) [Decidable p] (l : Line F), fileRows q.val [l] = [] → fileRows q.val (if p then [l] else []) = [] := by
    intro p _ l hl; split
    · exact hl
    · rfl
  simp only [fileRows_append] at ha
  rw [this _ _ rfl, this _ _ rfl] at ha
  simp only [fileRows, List.filterMap_cons, List.filterMap_nil, List.nil_append, List.append_nil] at ha
  split at ha
  · simp at ha
  · rename_i b hb'
    split at hb'
    · rename_i hq
      simp only [List.mem_singleton] at ha
      cases hb'
      exact ⟨Fin.ext hq.symm, ha⟩
    · cases hb'

theorem seqInit_lp {cfg : Cfg F} {file : DataFile F} {clock : Nat} {root : Fin n} {w0 : W n F} (h0 : seqInit cfg file clock root = .ok w0) :
    ∃ data, file.cells = .ok data ∧ ∃ b0 : Fin n → F, (∀ r : Fin n, cfg.betas[r.val]? = some (b0 r)) ∧ LpInv cfg file.nlines data b0 w0 := by
  have hrows := seqInit_rows h0
  simp only [seqInit, exc_bind, Except.ok.injEq] at h0
  obtain ⟨_, _, data, hd, _, _, _, _, _, _, beta, hb, e⟩ := h0
  refine ⟨data, hd, beta, copyBetas_get hb, by rw [← e]; exact ⟨rfl, rfl⟩, by rw [← e], fun r => by rw [← e]; rfl, fun r a ha => ?_⟩
  rw [(hrows r r a ha).2, ← e]
  rfl

theorem seqMain_lp {cfg : Cfg F} (hu : cfg.user.Wf cfg.nParm) (hc : cfg.tuneLadder ≤ 0 ∨ cfg.nStopTuneLadder ≤ 0)
    {file : DataFile F} {clock : Nat} {root : Fin n} {w : W n F} (h : seqMain cfg file clock root = .ok w) :
    ∃ data, file.cells = .ok data ∧ ∃ b0 : Fin n → F, (∀ r : Fin n, cfg.betas[r.val]? = some (b0 r)) ∧
      LpInv cfg file.nlines data b0 w := by
  obtain ⟨w0, h0, hs⟩ := seqMain_steps cfg file clock root w h
  obtain ⟨data, hd, b0, hb, hinv⟩ := seqInit_lp h0
  exact ⟨data, hd, b0, hb, (hs.inv (P := fun w => w.st.Ok cfg ∧ LpInv cfg file.nlines data b0 w)
    (fun _ _ hp h => ⟨h.ok hu hp.1, hp.2.step hu hc h hp.1⟩) ⟨seqInit_ok hu h0, hinv⟩).2⟩

/-- **C13, partial.** When the ladder is not retuned (`Tune_Ladder <= 0` or `N_stopTuneLadder <= 0`): in every execution, every
line of every chain file carries the log-posterior of its own parameters under the chain's inverse temperature, and when all
ranks have finished the stored log-posteriors are those of the chains. Missing: runs with ladder tuning, where it is false
(`lp_out_of_step`). -/
theorem lp_in_step_partial [LawfulDraws F] (cfg : Cfg F) (file : DataFile F) (hv : Valid n cfg file) (clock : Nat) (root : Fin n)
    (hc : cfg.tuneLadder ≤ 0 ∨ cfg.nStopTuneLadder ≤ 0) :
    ∃ data, file.cells = .ok data ∧ ∃ b : Fin n → F, (∀ r : Fin n, cfg.betas[r.val]? = some (b r)) ∧
      ∀ (w : List (Label n)) (t : Sys n (Msg F) (Line F) (RSt n F)), (initSys cfg file clock root).exec w = some t →
        (∀ r : Fin n, ∀ a ∈ fileRows r.val (t.log r), a.lp = target cfg.user file.nlines data (b r) a.x) ∧
        (t.AllDone → ∃ s tab, t.procs root = .ret s ∧ s.tab = some tab ∧ s.loc.beta = b ∧
          ∀ r, tab.lp r = target cfg.user file.nlines data (b r) (tab.x r)) := by
  obtain ⟨wf, hw, hall⟩ := log_prefix cfg file hv clock root
  obtain ⟨data, hd, b, hb, hl⟩ := seqMain_lp hv.user hc hw
  refine ⟨data, hd, b, hb, fun w t ht => ⟨fun r a ha => ?_, fun hdone => ?_⟩⟩
  · exact hl.rows r a ((fileRows_prefix ((hall w t ht).1 r)).subset ha)
  · rw [(hall w t ht).2 hdone]
    exact ⟨_, wf.st.tab, rfl, by simp [view], hl.beta, hl.lp⟩

/-- The demo without ladder tuning. -/
example (w : List (Label 3)) (t : Sys 3 (Msg ℝ) (Line ℝ) (RSt 3 ℝ)) (h : (initSys { demoCfg with tuneLadder := 0 } demoFile 0 0).exec w = some t) (a : Row ℝ)
    (ha : a ∈ fileRows 2 (t.log 2)) : a.lp = target demoUser 2 [1, 2, 3, 4] 1 a.x := by
  have v : Valid 3 { demoCfg with tuneLadder := 0 } demoFile := { demo_valid with }
  obtain ⟨data, h1, b, h2, h3⟩ := lp_in_step_partial _ demoFile v 0 0 (.inl (by simp))
  cases h1
  have hb : b 2 = 1 := (Option.some.inj (h2 2)).symm
  rw [(h3 w t h).1 2 a ha, hb]
  rfl

/-! ## C31: tuning does not disturb the sampling -/

/-- **C31, one pass.** A tuning pass leaves chains, log-posteriors, ladder, counters, data and output alone, and changes no row
of the width table but that of the rank being tuned. -/
theorem tuning_frame (cfg : Cfg F) (root rk : Fin n) (w w' : W n F) (h : seqTuneRank cfg root rk w = .ok w') :
    w'.st.x = w.st.x ∧ w'.st.lp = w.st.lp ∧ w'.st.beta = w.st.beta ∧ w'.st.acc = w.st.acc ∧ w'.st.accA = w.st.accA ∧
    w'.st.nline = w.st.nline ∧ w'.st.data = w.st.data ∧ w'.log = w.log ∧ ∀ r, r ≠ rk → w'.st.sig r = w.st.sig r := by
  obtain ⟨⟨sg, hst⟩, hlog, _⟩ := seqTuneRank_frame h
  refine ⟨by rw [hst], by rw [hst], by rw [hst], by rw [hst], by rw [hst], by rw [hst], by rw [hst], hlog, fun r hr => ?_⟩
  rw [hst]
  exact Function.update_of_ne hr _ _

/-- A tuning pass of the demo for rank 1, from any state that a run can be in. -/
example (w : W 3 ℝ) (hok : w.st.Ok demoCfg) : ∃ w', seqTuneRank demoCfg 0 1 w = .ok w' ∧ w'.st.x = w.st.x ∧ w'.st.sig 2 = w.st.sig 2 := by
  obtain ⟨w', h⟩ := seqTuneRank_total demoCfg demoFile demo_valid.toRunnable 0 1 w hok
  have k := tuning_frame demoCfg 0 1 w w' h
  exact ⟨w', h, k.1, k.2.2.2.2.2.2.2.2 2 (by decide)⟩

omit [Source F] in
/-- Walk through a log: each record of variables shows the widths of the last width line before it. -/
def widthsFollow : Option (List F) → List (Line F) → Prop
  | _, [] => True
  | _, .sigma _ s :: l => widthsFollow (some s) l
  | o, .note _ _ _ s :: l => o = some s ∧ widthsFollow o l
  | o, _ :: l => widthsFollow o l

omit [Source F] in
/-- The last width line. -/
def lastWidths : Option (List F) → List (Line F) → Option (List F)
  | o, [] => o
  | _, .sigma _ s :: l => lastWidths (some s) l
  | o, _ :: l => lastWidths o l

theorem widthsFollow_append (o : Option (List F)) (l l' : List (Line F)) :
    widthsFollow o (l ++ l') ↔ widthsFollow o l ∧ widthsFollow (lastWidths o l) l' := by
  induction l generalizing o with
  | nil => simp [widthsFollow, lastWidths]
  | cons a l ih => cases a <;> simp [widthsFollow, lastWidths, ih, and_assoc]

theorem lastWidths_append (o : Option (List F)) (l l' : List (Line F)) :
    lastWidths o (l ++ l') = lastWidths (lastWidths o l) l' := by
  induction l generalizing o with
  | nil => rfl
  | cons a l ih => cases a <;> simp [lastWidths, ih]

theorem widthsFollow_rows (o : Option (List F)) (rank : Nat) (l : List (Ch F)) :
    widthsFollow o (l.map (line rank)) ∧ lastWidths o (l.map (line rank)) = o := by
  induction l with
  | nil => exact ⟨trivial, rfl⟩
  | cons c l ih => exact ih

omit [Source F] in
/-- Widths are in order, and those in use are the last ones noted. -/
def WidthInv (w : W n F) : Prop := ∀ r, widthsFollow none (w.log r) ∧ lastWidths none (w.log r) = some (w.st.cur r)

theorem WidthInv.step {cfg : Cfg F} (hu : cfg.user.Wf cfg.nParm) {root : Fin n} {w w' : W n F} (h : Step cfg root w w')
    (hok : w.st.Ok cfg) (hw : WidthInv w) (hne : w'.st.cur = w.st.cur) : WidthInv w' := by
  intro r
  obtain ⟨h1, h2⟩ := hw r
  rw [hne]
  cases h with
  | widths =>
    have : w.st.sig = w.st.cur := hne
    simp only [seqWidths, W.push, widthsFollow_append, lastWidths_append]
    exact ⟨⟨h1, trivial⟩, by rw [this]; rfl⟩
  | betas =>
    simp only [widthsFollow_append, lastWidths_append, h1, h2, true_and]
    split <;> exact ⟨trivial, rfl⟩
  | draw nStack i b h => exact ⟨h1, h2⟩
  | batch _ nb h =>
    obtain ⟨hc, _, _⟩ := seqBatch_chain hu h hok
    rw [(hc r).2.2]
    simp only [widthsFollow_append, lastWidths_append, h1, h2, true_and]
    split
    · exact ⟨⟨rfl, (widthsFollow_rows _ _ _).1⟩, (widthsFollow_rows _ _ _).2⟩
    · exact ⟨⟨rfl, trivial⟩, rfl⟩
  | swap _ ty ty' h =>
    rw [seqSwap_log cfg root w w' ty ty' h]
    simp only [widthsFollow_append, lastWidths_append, h1, h2, true_and]
    exact ⟨⟨rfl, trivial⟩, rfl⟩
  | ladder ty h h' =>
    simp only [seqLadder, W.push, widthsFollow_append, lastWidths_append, h1, h2, true_and]
    exact ⟨trivial, rfl⟩
  | tune _ rk h => rw [(seqTuneRank_frame h).2.1]; exact ⟨h1, h2⟩

theorem seqWidths_widths {w : W n F} (h : ∀ r, widthsFollow none (w.log r)) : WidthInv (seqWidths w) := by
  intro r
  simp only [seqWidths, W.push, widthsFollow_append, lastWidths_append]
  exact ⟨⟨h r, trivial⟩, rfl⟩

/-- A stack keeps the widths in use. -/
theorem seqSwaps_widths {cfg : Cfg F} (hu : cfg.user.Wf cfg.nParm) {root : Fin n} : ∀ {k : Nat} {w w' : W n F} {ty ty' : Tally n F},
    seqSwaps cfg root k w ty = .ok (w', ty') → w.st.Ok cfg → WidthInv w → WidthInv w' ∧ w'.st.Ok cfg := by
  intro k
  induction k with
  | zero => intro w w' ty ty' h hok hw; cases h; exact ⟨hw, hok⟩
  | succ k ih =>
    intro w w' ty ty' h hok hw
    simp only [seqSwaps, exc_bind] at h
    obtain ⟨⟨w1, ty1⟩, h1, h2⟩ := h
    have hs : Step cfg root w w1 := .swap w w1 ty ty1 h1
    obtain ⟨_, _, _, _, hst, _⟩ := seqSwap_spec h1
    exact ih h2 (hs.ok hu hok) (hw.step hu hs hok (by rw [hst]))

theorem seqStackLoop_widths {cfg : Cfg F} (hu : cfg.user.Wf cfg.nParm) {root : Fin n} {nStack : Int} :
    ∀ {fuel : Nat} {i : Int} {w w' : W n F} {ty ty' : Tally n F}, seqStackLoop cfg root nStack fuel i w ty = .ok (w', ty') →
    w.st.Ok cfg → WidthInv w → WidthInv w' ∧ w'.st.Ok cfg := by
  intro fuel
  induction fuel with
  | zero =>
    intro i w w' ty ty' h hok hw
    simp only [seqStackLoop] at h
    split at h
    · cases h
    · cases h; exact ⟨hw, hok⟩
  | succ fuel ih =>
    intro i w w' ty ty' h hok hw
    simp only [seqStackLoop] at h
    split at h
    · simp only [exc_bind] at h
      obtain ⟨b, hb, w1, h1, ⟨w2, ty2⟩, h2, h3⟩ := h
      have hs1 : Step cfg root w { w with st := w.st.setG root b.2.2 } := .draw w nStack i b hb
      have hok1 := hs1.ok hu hok
      have hw1 := hw.step hu hs1 hok rfl
      have hs2 : Step cfg root _ w1 := .batch _ w1 b.1 h1
      have hok2 := hs2.ok hu hok1
      have hw2 := hw1.step hu hs2 hok1 (by obtain ⟨_, e, _⟩ := seqBatch_chain hu h1 hok1; rw [e])
      obtain ⟨hw3, hok3⟩ := seqSwaps_widths hu h2 hok2 hw2
      exact ih h3 hok3 hw3
    · cases h; exact ⟨hw, hok⟩

theorem seqStack_widths {cfg : Cfg F} (hu : cfg.user.Wf cfg.nParm) {root : Fin n} {nStack : Int} {w w' : W n F}
    (h : seqStack cfg root nStack w = .ok w') (hok : w.st.Ok cfg) (hw : WidthInv w) : WidthInv w' ∧ w'.st.Ok cfg := by
  simp only [seqStack, exc_bind] at h
  obtain ⟨_, _, ⟨w1, ty1⟩, h1, h2⟩ := h
  have hs0 : Step cfg root w _ := .betas w
  obtain ⟨hw1, hok1⟩ := seqStackLoop_widths hu h1 (hs0.ok hu hok) (hw.step hu hs0 hok rfl)
  split at h2
  · rename_i hc
    cases h2
    have hs : Step cfg root w1 (seqLadder cfg w1 ty1) :=
      .ladder w1 ty1 hc.1 hc.2 (seqStackLoop_reach cfg root nStack _ 0 _ w1 _ ty1 h1 .zero)
    exact ⟨hw1.step hu hs hok1 rfl, hs.ok hu hok1⟩
  · cases h2; exact ⟨hw1, hok1⟩

theorem seqFlowLoop_widths {cfg : Cfg F} (hu : cfg.user.Wf cfg.nParm) {root : Fin n} : ∀ {fuel : Nat} {nStack i : Int}
    {w w' : W n F}, seqFlowLoop cfg root fuel nStack i w = .ok w' → w.st.Ok cfg → (∀ r, widthsFollow none (w.log r)) →
    ∀ r, widthsFollow none (w'.log r) := by
  intro fuel
  induction fuel with
  | zero =>
    intro nStack i w w' h hok hw
    simp only [seqFlowLoop] at h
    split at h
    · cases h
    · cases h; exact hw
  | succ fuel ih =>
    intro nStack i w w' h hok hw
    simp only [seqFlowLoop] at h
    split at h
    · simp only [exc_bind] at h
      obtain ⟨nx, hnx, w1, h1, w2, h2, h3⟩ := h
      have hs0 : Step cfg root w (seqWidths w) := .widths w
      obtain ⟨hw1, hok1⟩ := seqStack_widths hu h1 (hs0.ok hu hok) (seqWidths_widths hw)
      have h4 : w2.st.Ok cfg ∧ w2.log = w1.log := by
        clear h3 h1
        generalize inTuneWindow cfg _ = b at h2
        cases b with
        | true => exact ⟨seqTuneRanks_ok hu h2 hok1, (seqTuneRanks_frame h2).2.2.1⟩
        | false => cases h2; exact ⟨hok1, rfl⟩
      exact ih h3 h4.1 (by rw [h4.2]; exact fun r => (hw1 r).1)
    · cases h; exact hw

theorem widthsFollow_prefix {o : Option (List F)} {l l' : List (Line F)} (h : l <+: l') (hw : widthsFollow o l') :
    widthsFollow o l := by
  obtain ⟨t, rfl⟩ := h
  exact ((widthsFollow_append o l t).1 hw).1

/-- What `widthsFollow` says: a record at any place of the log shows the widths of the last width line before it. -/
theorem widthsFollow_spec {l l' : List (Line F)} {a c : Nat} {b s : List F} (h : widthsFollow none (l ++ .note a c b s :: l')) :
    ∃ l1 l2 k, l = l1 ++ .sigma k s :: l2 ∧ ∀ k' s', Line.sigma k' s' ∉ l2 := by
  have h2 := ((widthsFollow_append none l _).1 h).2.1
  clear h
  have : ∀ (l : List (Line F)) (o : Option (List F)), lastWidths o l = some s →
      (∃ l1 l2 k, l = l1 ++ .sigma k s :: l2 ∧ ∀ k' s', Line.sigma k' s' ∉ l2) ∨ (o = some s ∧ ∀ k' s', Line.sigma k' s' ∉ l) := by
    intro l
    induction l with
    | nil => intro o h; exact .inr ⟨h, by simp⟩
    | cons x l ih =>
      intro o h
      cases x with
      | sigma k s' =>
        rcases ih (some s') h with ⟨l1, l2, k', e, hl⟩ | ⟨e, hl⟩
        · exact .inl ⟨.sigma k s' :: l1, l2, k', by rw [e]; rfl, hl⟩
        · cases e
          exact .inl ⟨[], l, k, rfl, hl⟩
      | _ =>
        rcases ih o h with ⟨l1, l2, k', e, hl⟩ | ⟨e, hl⟩
        · exact .inl ⟨_ :: l1, l2, k', by rw [e]; rfl, hl⟩
        · exact .inr ⟨e, by simpa using hl⟩
  rcases this l none h2 with h | ⟨h, _⟩
  · exact h
  · cases h

/-- **C31, whole run.** In every execution, whenever a rank starts a batch or a swap, the widths it holds are those of the last
line it wrote to its width file, that is, its row of the width table at the start of the stack: the trial widths that
tuning puts there in between are never used for sampling. -/
theorem widths_in_use [LawfulDraws F] (cfg : Cfg F) (file : DataFile F) (hv : Valid n cfg file) (clock : Nat) (root : Fin n)
    (w : List (Label n)) (t : Sys n (Msg F) (Line F) (RSt n F)) (h : (initSys cfg file clock root).exec w = some t) (r : Fin n)
    (l l' : List (Line F)) (a c : Nat) (b s : List F) (hl : t.log r = l ++ .note a c b s :: l') :
    ∃ l1 l2 k, l = l1 ++ .sigma k s :: l2 ∧ ∀ k' s', Line.sigma k' s' ∉ l2 := by
  obtain ⟨wf, hw, hall⟩ := log_prefix cfg file hv clock root
  have hw' := hw
  simp only [seqMain, exc_bind] at hw
  obtain ⟨w0, h0, h1⟩ := hw
  have hinit : ∀ r, widthsFollow none (w0.log r) := by
    intro r
    simp only [seqInit, exc_bind, Except.ok.injEq] at h0
    obtain ⟨_, _, data, hd, _, _, _, _, _, _, beta, hb, rfl⟩ := h0
    simp only [widthsFollow_append]
    refine ⟨⟨⟨⟨?_, trivial⟩, ?_⟩, trivial⟩, trivial⟩
    · split <;> trivial
    · split <;> trivial
  have := widthsFollow_prefix ((hall w t h).1 r) (seqFlowLoop_widths hv.user h1 (seqInit_ok hv.user h0) hinit r)
  rw [hl] at this
  exact widthsFollow_spec this

/-! ## C55: who writes what -/

omit [Source F] in
/-- The lines that rank `r` may write: its own chain file, width file and seed line; on root also the directory, the start
points and the ladder file. -/
def ownLine (root r : Fin n) : Line F → Prop
  | .mkdir => r = root
  | .seed k _ => k = r.val
  | .initParm _ => r = root
  | .row k _ _ _ _ => k = r.val
  | .sigma k _ => k = r.val
  | .betas _ => r = root
  | .note _ _ _ _ => True

theorem OwnInv.step {cfg : Cfg F} (hu : cfg.user.Wf cfg.nParm) {root : Fin n} {w w' : W n F} (h : Step cfg root w w')
    (hok : w.st.Ok cfg) (hw : ∀ r, ∀ l ∈ w.log r, ownLine root r l) : ∀ r, ∀ l ∈ w'.log r, ownLine root r l := by
  intro r l hl
  have key : ∀ new : List (Line F), l ∈ w.log r ++ new → (∀ l ∈ new, ownLine root r l) → ownLine root r l := by
    intro new h1 h2
    rcases List.mem_append.1 h1 with h | h
    · exact hw r l h
    · exact h2 l h
  cases h with
  | widths =>
    refine key _ hl (fun a ha => ?_)
    simp only [List.mem_singleton] at ha
    subst ha; rfl
  | betas =>
    refine key _ hl (fun a ha => ?_)
    split at ha
    · rename_i hr
      simp only [List.mem_singleton] at ha
      subst ha; exact hr
    · cases ha
  | draw nStack i b h => exact hw r l hl
  | batch _ nb h =>
    obtain ⟨hc, _, _⟩ := seqBatch_chain hu h hok
    rw [(hc r).2.2] at hl
    refine key _ hl (fun a ha => ?_)
    rcases List.mem_cons.1 ha with rfl | ha
    · trivial
    · split at ha
      · obtain ⟨c, _, rfl⟩ := List.mem_map.1 ha
        rfl
      · cases ha
  | swap _ ty ty' h =>
    rw [seqSwap_log cfg root w w' ty ty' h] at hl
    refine key _ hl (fun a ha => ?_)
    simp only [List.mem_singleton] at ha
    subst ha; trivial
  | ladder ty h h' => exact key _ hl (by simp)
  | tune _ rk h => rw [(seqTuneRank_frame h).2.1] at hl; exact hw r l hl

/-- **C55.** In every execution each rank writes only to its own chain file and width file and its own line of the seed log; the
directory, `init.parm` and `Beta_Values_in_stack.dat` are written by root only. So every file but the seed log has a
single writer. -/
theorem one_writer [LawfulDraws F] (cfg : Cfg F) (file : DataFile F) (hv : Valid n cfg file) (clock : Nat) (root : Fin n)
    (w : List (Label n)) (t : Sys n (Msg F) (Line F) (RSt n F)) (h : (initSys cfg file clock root).exec w = some t)
    (r : Fin n) (l : Line F) (hl : l ∈ t.log r) : ownLine root r l := by
  obtain ⟨wf, hw, hall⟩ := log_prefix cfg file hv clock root
  obtain ⟨w0, h0, hs⟩ := seqMain_steps cfg file clock root wf hw
  refine (hs.inv (P := fun w => w.st.Ok cfg ∧ ∀ r, ∀ l ∈ w.log r, ownLine root r l)
    (fun _ _ hp h => ⟨h.ok hv.user hp.1, OwnInv.step hv.user h hp.1 hp.2⟩) ⟨seqInit_ok hv.user h0, ?_⟩).2 r l
    (((hall w t h).1 r).subset hl)
  intro r l hl
  simp only [seqInit, exc_bind, Except.ok.injEq] at h0
  obtain ⟨_, _, data, hd, _, _, _, _, _, _, beta, hb, rfl⟩ := h0
  simp only [List.mem_append, List.mem_singleton] at hl
  rcases hl with (((hl | rfl) | hl) | rfl) | rfl
  · split at hl
    · rename_i hr
      simp only [List.mem_singleton] at hl
      subst hl; exact hr
    · cases hl
  · rfl
  · split at hl
    · rename_i hr
      simp only [List.mem_singleton] at hl
      subst hl; exact hr
    · cases hl
  · rfl
  · rfl

/-- When all ranks of the demo have finished, every rank has written all its kinds of lines. -/
example (w : List (Label 3)) (t : Sys 3 (Msg ℝ) (Line ℝ) (RSt 3 ℝ)) (h : (initSys demoCfg demoFile 0 0).exec w = some t)
    (hd : t.AllDone) (r : Fin 3) : fileRows r.val (t.log r) ≠ [] := by
  obtain ⟨wf, hw, hall⟩ := log_prefix demoCfg demoFile demo_valid 0 0
  rw [(hall w t h).2 hd]
  obtain ⟨_, _, _, _, _, _, hf⟩ := seqMain_file demo_valid.user hw r
  obtain ⟨_, _, e, _⟩ := hf.file
  intro h0
  simp only [finalSys] at h0
  rw [e] at h0
  cases h0

/-! ## C62: the output directory exists before anything is written -/

open Proc Sys in
/-- **C62.** In every execution of every configuration, usable or not, as soon as any rank has written or recorded anything, the
first thing in root's log is the creation of the output directory. -/
theorem mkdir_first (cfg : Cfg F) (file : DataFile F) (clock : Nat) (root : Fin n)
    (w : List (Label n)) (t : Sys n (Msg F) (Line F) (RSt n F)) (h : (initSys cfg file clock root).exec w = some t)
    (r : Fin n) (hr : t.log r ≠ []) : ∃ l, t.log root = .mkdir :: l := by
  have hroot : ∃ k, mainProg cfg file clock root root = .out .mkdir k := by
    simp only [mainProg, if_true, outs, bind_eq, out_bind]
    exact ⟨_, rfl⟩
  have hslave : ∀ q, q ≠ root → ∃ k, mainProg cfg file clock root q = .recv root .bcast k := by
    intro q hq
    simp only [mainProg, if_neg hq, outs, bcastInt, bcast, bind_eq, ret_bind, recv_bind]
    exact ⟨_, rfl⟩
  have grow : ∀ (s : Sys n (Msg F) (Line F) (RSt n F)) (v : List (Label n)), s.exec v = some t →
      (∃ l, s.log root = .mkdir :: l) → ∃ l, t.log root = .mkdir :: l := by
    rintro s v hv ⟨l, hl⟩
    obtain ⟨m, hm⟩ := exec_log hv root
    exact ⟨l ++ m, by rw [← hm, hl]; rfl⟩
  cases w with
  | nil =>
    simp only [exec_nil, Option.some.injEq] at h
    subst h
    exact absurd rfl hr
  | cons l w =>
    simp only [exec_cons, Option.bind_eq_some_iff] at h
    obtain ⟨s, hs, hw⟩ := h
    refine grow s w hw ?_
    cases l with
    | barrier =>
      simp only [step, stepBarrier] at hs
      split at hs
      · rename_i hb
        obtain ⟨k, hk⟩ := hroot
        have := hb.2 root
        simp only [initSys, hk, barrier?] at this
        cases this
      · cases hs
    | rank q =>
      by_cases hq : q = root
      · subst hq
        obtain ⟨k, hk⟩ := hroot
        simp only [step, stepRank, initSys, hk, Option.some.injEq] at hs
        subst hs
        exact ⟨[], by simp⟩
      · obtain ⟨k, hk⟩ := hslave q hq
        simp only [step, stepRank, initSys, hk] at hs
        cases hs

example (w : List (Label 3)) (t : Sys 3 (Msg ℝ) (Line ℝ) (RSt 3 ℝ)) (h : (initSys demoCfg demoFile 0 0).exec w = some t)
    (hr : t.log 2 ≠ []) : ∃ l, t.log 0 = .mkdir :: l := mkdir_first demoCfg demoFile 0 0 w t h 2 hr

end NiiC
