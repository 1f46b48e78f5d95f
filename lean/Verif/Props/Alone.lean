import Verif.Props.Demo
import Verif.Props.Run

/-!
# Without swaps and tuning every chain is a Metropolis run of its own: C112
-/

set_option linter.unusedSectionVars false

namespace NiiC
open Sys Spec

variable {n : Nat} {F : Type} [Arith F] [Source F]

/-- The row of a state. -/
def Spec.Ch.row (c : Ch F) : Row F := ⟨c.x, c.lp, c.acc, c.accA⟩

/-- The state in which the chain of rank `r` starts: a point drawn from the seed of the rank, its log-posterior at `beta`, and what
is left of the generator. -/
def startCh (cfg : Cfg F) (file : DataFile F) (data : List F) (seed : Nat) (beta : F) : Ch F :=
  ⟨(cfg.user.initParm seed).1, target cfg.user file.nlines data beta (cfg.user.initParm seed).1, 0, 0, (cfg.user.initParm seed).2⟩

theorem mhIter_add (u : User F) (sigma : List F) (nline : Int) (data : List F) (beta : F) : ∀ (a b : Nat) (c : Ch F),
    mhIter u sigma nline data beta (a + b) c = mhIter u sigma nline data beta b (mhIter u sigma nline data beta a c) := by
  intro a
  induction a with
  | zero => intro b c; rw [Nat.zero_add]; rfl
  | succ a ih => intro b c; rw [Nat.succ_add]; exact ih b _

theorem mhRun_add (u : User F) (sigma : List F) (nline : Int) (data : List F) (beta : F) : ∀ (a b : Nat) (c : Ch F),
    mhRun u sigma nline data beta (a + b) c
      = mhRun u sigma nline data beta a c ++ mhRun u sigma nline data beta b (mhIter u sigma nline data beta a c) := by
  intro a
  induction a with
  | zero => intro b c; rw [Nat.zero_add]; rfl
  | succ a ih => intro b c; rw [Nat.succ_add]; exact congrArg _ (ih b _)

/-- The chain of rank `r` has been on its own: so many iterations of Metropolis–Hastings from `c0`, of which the first `p` are not
in the file. -/
structure Solo (cfg : Cfg F) (nline : Int) (data : List F) (beta : F) (sigma : List F) (c0 : Ch F) (r : Fin n) (w : W n F) : Prop where
  ok : w.st.Ok cfg
  hnl : w.st.nline = nline
  hda : w.st.data = data
  hbe : w.st.beta r = beta
  sig : w.st.sig r = sigma
  cur : w.st.cur r = sigma
  ch : w.st.ch r = mhIter cfg.user sigma nline data beta (w.st.acc r) c0
  rows : ∃ p, p ≤ w.st.acc r ∧ (p = 0 ∨ p < cfg.saveBegin) ∧ (p < w.st.acc r → cfg.saveBegin ≤ w.st.acc r) ∧
    fileRows r.val (w.log r) = c0.row :: ((mhRun cfg.user sigma nline data beta (w.st.acc r) c0).drop p).map Ch.row

section
variable {cfg : Cfg F} {nline : Int} {data : List F} {beta : F} {sigma : List F} {c0 : Ch F} {r root : Fin n}

theorem Solo.batch (hu : cfg.user.Wf cfg.nParm) {nb : Int} {w v : W n F} (hw : Solo cfg nline data beta sigma c0 r w)
    (h : seqBatch cfg nb w = .ok v) : Solo cfg nline data beta sigma c0 r v := by
  obtain ⟨hb, hst, -⟩ := seqBatch_chain hu h hw.ok
  obtain ⟨hpos, hch, hlog⟩ := hb r
  rw [hw.cur, hw.hnl, hw.hda, hw.hbe, hw.ch, ← mhIter_add] at hch
  have hc : w.st.ch r = mhIter cfg.user sigma nline data beta (w.st.acc r) c0 := hw.ch
  have hacc : v.st.acc r = w.st.acc r + nb.toNat := by
    have e1 : v.st.acc r = (v.st.ch r).acc := rfl
    have e2 : w.st.acc r = (w.st.ch r).acc := rfl
    rw [e1, hch, mhIter_add, ← hc, mhIter_acc]
    rfl
  have hnl : v.st.nline = w.st.nline := by rw [hst]
  have hda : v.st.data = w.st.data := by rw [hst]
  have hbe : v.st.beta = w.st.beta := by rw [hst]
  have hsi : v.st.sig = w.st.sig := by rw [hst]
  have hcu : v.st.cur = w.st.cur := by rw [hst]
  refine ⟨(Step.batch (root := r) w v nb h).ok hu hw.ok, hnl.trans hw.hnl, hda.trans hw.hda, by rw [hbe, hw.hbe],
    by rw [hsi, hw.sig], by rw [hcu, hw.cur], by rw [hacc]; exact hch, ?_⟩
  obtain ⟨p, p1, p2, p3, p4⟩ := hw.rows
  rw [hlog, fileRows_append, fileRows_note, p4, hacc, mhRun_add]
  by_cases hsv : cfg.saveBegin ≤ w.st.acc r + nb.toNat
  · refine ⟨p, by omega, p2, fun _ => hsv, ?_⟩
    rw [if_pos hsv, G.mh, fileRows_lines, List.drop_append_of_le_length (by rw [mhRun_length]; exact p1), List.map_append,
      hw.cur, hw.hnl, hw.hda, hw.hbe, hc]
    rfl
  · have hp : p = w.st.acc r := by
      by_contra hne
      have := p3 (by omega)
      omega
    refine ⟨w.st.acc r + nb.toNat, le_rfl, .inr (by omega), fun hlt => absurd hlt (lt_irrefl _), ?_⟩
    rw [if_neg hsv, hp]
    have e1 : (mhRun cfg.user sigma nline data beta (w.st.acc r) c0).drop (w.st.acc r) = [] := by
      rw [List.drop_eq_nil_iff, mhRun_length]
    have e2 : ((mhRun cfg.user sigma nline data beta (w.st.acc r) c0) ++ mhRun cfg.user sigma nline data beta nb.toNat
        (mhIter cfg.user sigma nline data beta (w.st.acc r) c0)).drop (w.st.acc r + nb.toNat) = [] := by
      rw [List.drop_eq_nil_iff, List.length_append, mhRun_length, mhRun_length]
    rw [e1, e2]
    simp [fileRows]

theorem Solo.stackLoop (hu : cfg.user.Wf cfg.nParm) (hs : cfg.nSwap ≤ 0) (hr : r ≠ root) {m : Int} :
    ∀ (fuel : Nat) (i : Int) (w v : W n F) (ty tv : Tally n F), Solo cfg nline data beta sigma c0 r w →
      seqStackLoop cfg root m fuel i w ty = .ok (v, tv) → Solo cfg nline data beta sigma c0 r v := by
  intro fuel
  induction fuel with
  | zero =>
    intro i w v ty tv hw h
    simp only [seqStackLoop] at h
    split at h
    · cases h
    · cases h; exact hw
  | succ fuel ih =>
    intro i w v ty tv hw h
    simp only [seqStackLoop] at h
    split at h
    · simp only [exc_bind] at h
      obtain ⟨b, hb, w1, h1, ⟨w2, ty2⟩, h2, h3⟩ := h
      rw [show cfg.nSwap.toNat = 0 by omega] at h2
      cases h2
      have hg : (Function.update w.st.g root b.2.2) r = w.st.g r := Function.update_of_ne hr _ _
      have hd : Solo cfg nline data beta sigma c0 r
          { w with st := { w.st with g := Function.update w.st.g root b.2.2 } } := by
        refine ⟨⟨hw.ok.acc, hw.ok.x, hw.ok.sig, hw.ok.cur⟩, hw.hnl, hw.hda, hw.hbe, hw.sig, hw.cur, ?_, hw.rows⟩
        rw [← hw.ch]
        simp only [G.ch, hg]
      exact ih _ w1 v ty tv (hd.batch hu h1) h3
    · cases h; exact hw

theorem Solo.stack (hu : cfg.user.Wf cfg.nParm) (hs : cfg.nSwap ≤ 0) (hl : cfg.tuneLadder ≤ 0 ∨ cfg.nStopTuneLadder ≤ 0) (hr : r ≠ root)
    {m : Int} {w v : W n F} (hw : Solo cfg nline data beta sigma c0 r w) (h : seqStack cfg root m w = .ok v) :
    Solo cfg nline data beta sigma c0 r v := by
  simp only [seqStack, exc_bind] at h
  obtain ⟨_, -, ⟨w1, ty1⟩, h1, h2⟩ := h
  rw [if_neg (by omega)] at h2
  cases h2
  refine Solo.stackLoop hu hs hr _ _ _ _ _ _ ?_ h1
  refine ⟨⟨hw.ok.acc, hw.ok.x, hw.ok.sig, hw.ok.cur⟩, hw.hnl, hw.hda, hw.hbe, hw.sig, hw.cur, hw.ch, ?_⟩
  simp only [if_neg hr, List.append_nil]
  exact hw.rows

theorem Solo.flowLoop (hu : cfg.user.Wf cfg.nParm) (hs : cfg.nSwap ≤ 0) (hl : cfg.tuneLadder ≤ 0 ∨ cfg.nStopTuneLadder ≤ 0)
    (ht : cfg.nStoptune ≤ cfg.nBegintune + 1) (hr : r ≠ root) : ∀ (fuel : Nat) (nStack i : Int) (w v : W n F),
      Solo cfg nline data beta sigma c0 r w → seqFlowLoop cfg root fuel nStack i w = .ok v →
      Solo cfg nline data beta sigma c0 r v := by
  intro fuel
  induction fuel with
  | zero =>
    intro nStack i w v hw h
    simp only [seqFlowLoop] at h
    split at h
    · cases h
    · cases h; exact hw
  | succ fuel ih =>
    intro nStack i w v hw h
    simp only [seqFlowLoop] at h
    split at h
    · simp only [exc_bind] at h
      obtain ⟨nx, _, w1, h1, w2, h2, h3⟩ := h
      have hnw : ∀ j, ¬ inTuneWindow cfg j = true := by
        intro j hj
        simp only [inTuneWindow, Bool.and_eq_true, decide_eq_true_eq] at hj
        omega
      rw [if_neg (hnw _)] at h2
      cases h2
      have hwd : Solo cfg nline data beta sigma c0 r (seqWidths w) := by
        refine ⟨⟨hw.ok.acc, hw.ok.x, hw.ok.sig, hw.ok.sig⟩, hw.hnl, hw.hda, hw.hbe, hw.sig, hw.sig, hw.ch, ?_⟩
        obtain ⟨p, p1, p2, p3, p4⟩ := hw.rows
        refine ⟨p, p1, p2, p3, ?_⟩
        rw [← show (seqWidths w).st.acc = w.st.acc from rfl] at p4
        rw [← p4]
        simp [seqWidths, W.push, fileRows]
      exact ih _ _ w1 v (hwd.stack hu hs hl hr h1) h3
    · cases h; exact hw

end

/-- **C112.** Without swaps (`N_swap` at most 0), ladder tuning and a tuning window, the chain file of every rank `r` other than root is,
in every finished execution, the starting point drawn from the rank's seed followed by a Metropolis–Hastings run of `N_iter`
iterations with the initial widths and the rank's own generator and inverse temperature, of which at most rows before
`N_save_begin` are left out. No other chain, temperature or rank occurs in it. -/
theorem chains_alone [LawfulDraws F] (cfg : Cfg F) (file : DataFile F) (hv : Valid n cfg file) (hs : cfg.nSwap ≤ 0)
    (hl : cfg.tuneLadder ≤ 0 ∨ cfg.nStopTuneLadder ≤ 0) (ht : cfg.nStoptune ≤ cfg.nBegintune + 1) (clock : Nat) (root r : Fin n)
    (hr : r ≠ root) : ∃ (data : List F) (beta : F) (p : Nat), file.cells = .ok data ∧ cfg.betas[r.val]? = some beta ∧
      (p = 0 ∨ p < cfg.saveBegin) ∧
      ∀ (w : List (Label n)) (t : Sys n (Msg F) (Line F) (RSt n F)), (initSys cfg file clock root).exec w = some t → t.AllDone →
        let c0 := startCh cfg file data (seedOf root (startSeed cfg clock) r) beta
        fileRows r.val (t.log r) = c0.row ::
          ((mhRun cfg.user (cfg.user.initGp cfg.initGpRatio) file.nlines data beta cfg.nIter.toNat c0).drop p).map Ch.row := by
  obtain ⟨v, hw, hall⟩ := log_prefix cfg file hv clock root
  have hacc := (seqMain_sizes hv hw).2.2 r
  simp only [seqMain, exc_bind] at hw
  obtain ⟨w0, h0, h1⟩ := hw
  have hok := seqInit_ok hv.user h0
  obtain ⟨data, beta, hd, hb, hn, hda, -⟩ := seqInit_file h0 r
  have hS : Solo cfg file.nlines data beta (cfg.user.initGp cfg.initGpRatio)
      (startCh cfg file data (seedOf root (startSeed cfg clock) r) beta) r w0 := by
    have h0' := h0
    simp only [seqInit, exc_bind, Except.ok.injEq] at h0
    obtain ⟨_, _, data', hd', _, _, _, _, _, _, beta', hb', rfl⟩ := h0
    rw [hd] at hd'
    cases hd'
    have hbe : beta' r = beta := by
      unfold copyBetas at hb'
      split at hb'
      · cases hb'
        have := hb
        rw [List.getElem?_eq_getElem (by omega)] at this
        exact Option.some.inj this
      · cases hb'
    refine ⟨hok, rfl, rfl, hbe, rfl, rfl, ?_, 0, le_rfl, .inl rfl, fun h => absurd h (lt_irrefl _), ?_⟩
    · subst hbe; rfl
    · simp only [if_neg hr]
      subst hbe
      simp only [fileRows_append]
      simp [fileRows, mhRun]
      rfl
  have hf := Solo.flowLoop hv.user hs hl ht hr _ _ _ _ _ hS h1
  obtain ⟨p, p1, p2, p3, p4⟩ := hf.rows
  refine ⟨data, beta, p, hd, hb, p2, fun w t hex hdone => ?_⟩
  rw [(hall w t hex).2 hdone]
  rw [hacc] at p4
  exact p4

theorem mhRun_take_acc (u : User F) (sigma : List F) (nline : Int) (data : List F) (beta : F) (k p : Nat) (c : Ch F) :
    ∀ d ∈ (mhRun u sigma nline data beta k c).take p, d.acc ≤ c.acc + p := by
  induction k generalizing p c with
  | zero => intro d hd; simp [mhRun] at hd
  | succ k ih =>
    intro d hd
    cases p with
    | zero => simp at hd
    | succ p =>
      have ha := mhStep_acc u sigma nline data beta c
      rcases List.mem_cons.1 hd with rfl | hd
      · omega
      · have := ih p _ d hd
        omega

/-- Of a run without its first `p` rows, the rows from `B` on. -/
theorem filter_drop_rows {B p : Nat} (hp : p = 0 ∨ p < B) (u : User F) (sigma : List F) (nline : Int) (data : List F) (beta : F) (k : Nat)
    (c : Ch F) (hc : c.acc = 0) :
    (((mhRun u sigma nline data beta k c).drop p).map Ch.row).filter (fun a => decide (B ≤ a.iter))
      = ((mhRun u sigma nline data beta k c).map Ch.row).filter (fun a => decide (B ≤ a.iter)) := by
  rcases hp with rfl | hp
  · rfl
  · conv_rhs => rw [← List.take_append_drop p (mhRun u sigma nline data beta k c), List.map_append, List.filter_append]
    have : (((mhRun u sigma nline data beta k c).take p).map Ch.row).filter (fun a => decide (B ≤ a.iter)) = [] := by
      rw [List.filter_eq_nil_iff]
      intro a ha
      obtain ⟨d, hd, rfl⟩ := List.mem_map.1 ha
      have := mhRun_take_acc u sigma nline data beta k p c d hd
      intro hB
      have hB' : B ≤ d.acc := of_decide_eq_true hB
      omega
    rw [this, List.nil_append]

/-- **C112** (what decides a chain). Two runs of the same program without swaps and tuning, possibly with other numbers of ranks, other roots,
other ladders, other seeds and at other times: two ranks that are not roots and get the same seed and the same inverse temperature save the
same rows from `N_save_begin` on. -/
theorem chain_of_seed [LawfulDraws F] {n' : Nat} (cfg : Cfg F) (bs : List F) (seed' : Nat) (file : DataFile F) (hv : Valid n cfg file)
    (hv' : Valid n' { cfg with betas := bs, initSeed := seed' } file) (hs : cfg.nSwap ≤ 0) (hl : cfg.tuneLadder ≤ 0 ∨ cfg.nStopTuneLadder ≤ 0)
    (ht : cfg.nStoptune ≤ cfg.nBegintune + 1) (clock clock' : Nat) (root r : Fin n) (root' r' : Fin n') (hr : r ≠ root) (hr' : r' ≠ root')
    (es : seedOf root' (startSeed { cfg with betas := bs, initSeed := seed' } clock') r' = seedOf root (startSeed cfg clock) r)
    (hb : bs[r'.val]? = cfg.betas[r.val]?)
    (w : List (Label n)) (t : Sys n (Msg F) (Line F) (RSt n F)) (h : (initSys cfg file clock root).exec w = some t) (hd : t.AllDone)
    (w' : List (Label n')) (t' : Sys n' (Msg F) (Line F) (RSt n' F))
    (h' : (initSys { cfg with betas := bs, initSeed := seed' } file clock' root').exec w' = some t') (hd' : t'.AllDone) :
    (fileRows r.val (t.log r)).filter (fun a => decide (cfg.saveBegin ≤ a.iter))
      = (fileRows r'.val (t'.log r')).filter (fun a => decide (cfg.saveBegin ≤ a.iter)) := by
  obtain ⟨data, beta, p, h1, h2, h3, h4⟩ := chains_alone cfg file hv hs hl ht clock root r hr
  obtain ⟨data', beta', p', h1', h2', h3', h4'⟩ := chains_alone { cfg with betas := bs, initSeed := seed' } file hv' hs hl ht clock' root' r' hr'
  rw [h1] at h1'
  cases h1'
  have eb : beta' = beta := by
    simp only at h2'
    rw [hb, h2] at h2'
    exact (Option.some.inj h2').symm
  subst eb
  rw [h4 w t h hd, h4' w' t' h' hd', es]
  have key : ∀ q, (q = 0 ∨ q < cfg.saveBegin) →
      ((startCh cfg file data (seedOf root (startSeed cfg clock) r) beta').row ::
        ((mhRun cfg.user (cfg.user.initGp cfg.initGpRatio) file.nlines data beta' cfg.nIter.toNat
          (startCh cfg file data (seedOf root (startSeed cfg clock) r) beta')).drop q).map Ch.row).filter
            (fun a => decide (cfg.saveBegin ≤ a.iter))
      = ((startCh cfg file data (seedOf root (startSeed cfg clock) r) beta').row ::
        (mhRun cfg.user (cfg.user.initGp cfg.initGpRatio) file.nlines data beta' cfg.nIter.toNat
          (startCh cfg file data (seedOf root (startSeed cfg clock) r) beta')).map Ch.row).filter
            (fun a => decide (cfg.saveBegin ≤ a.iter)) := by
    intro q hq
    rw [List.filter_cons, List.filter_cons, filter_drop_rows hq _ _ _ _ _ _ _ rfl]
  exact (key p h3).trans (key p' h3').symm

/-- **C112** (other ranks). Two runs of the same program without swaps and tuning, possibly with other numbers of ranks, other roots and
other ladders: two ranks with the same number, both above their roots (as all are in the program, whose root is 0) or both below, and with the
same inverse temperature save the same rows from `N_save_begin` on. -/
theorem chain_ignores_others [LawfulDraws F] {n' : Nat} (cfg : Cfg F) (bs : List F) (file : DataFile F) (hv : Valid n cfg file)
    (hv' : Valid n' { cfg with betas := bs } file) (hs : cfg.nSwap ≤ 0) (hl : cfg.tuneLadder ≤ 0 ∨ cfg.nStopTuneLadder ≤ 0)
    (ht : cfg.nStoptune ≤ cfg.nBegintune + 1) (clock : Nat) (root r : Fin n) (root' r' : Fin n')
    (hr : root.val < r.val ∧ root'.val < r'.val ∨ r.val < root.val ∧ r'.val < root'.val) (he : r'.val = r.val) (hb : bs[r.val]? = cfg.betas[r.val]?)
    (w : List (Label n)) (t : Sys n (Msg F) (Line F) (RSt n F)) (h : (initSys cfg file clock root).exec w = some t) (hd : t.AllDone)
    (w' : List (Label n')) (t' : Sys n' (Msg F) (Line F) (RSt n' F))
    (h' : (initSys { cfg with betas := bs } file clock root').exec w' = some t') (hd' : t'.AllDone) :
    (fileRows r.val (t.log r)).filter (fun a => decide (cfg.saveBegin ≤ a.iter))
      = (fileRows r'.val (t'.log r')).filter (fun a => decide (cfg.saveBegin ≤ a.iter)) := by
  have e1 : r ≠ root := by rintro rfl; omega
  have e2 : r' ≠ root' := by rintro rfl; omega
  refine chain_of_seed cfg bs cfg.initSeed file hv hv' hs hl ht clock clock root r root' r' e1 e2 ?_ (by rw [he]; exact hb) w t h hd w' t' h' hd'
  have e3 : (r.val < root.val ↔ r'.val < root'.val) := by omega
  simp only [seedOf, if_neg e1, if_neg e2, he]
  rw [he] at e3
  simp only [e3]
  rfl

/-- **C122** (whole chains). Two runs without swaps and tuning, with seeds `s` and `s + d` in their inputs: the chain files of rank `r + d` of the first
and rank `r` of the second, if these have the same inverse temperature, hold the same rows from `N_save_begin` on. -/
theorem neighbour_runs [LawfulDraws F] {n' : Nat} (cfg : Cfg F) (bs : List F) (d : Nat) (file : DataFile F) (hv : Valid n cfg file)
    (hv' : Valid n' { cfg with betas := bs, initSeed := cfg.initSeed + d } file) (hs : cfg.nSwap ≤ 0)
    (hl : cfg.tuneLadder ≤ 0 ∨ cfg.nStopTuneLadder ≤ 0) (ht : cfg.nStoptune ≤ cfg.nBegintune + 1) (hseed : cfg.initSeed ≠ 0) (clock clock' : Nat)
    (root r : Fin n) (root' r' : Fin n') (h0 : root.val = 0) (h0' : root'.val = 0) (hr' : 0 < r'.val) (he : r.val = r'.val + d)
    (hb : bs[r'.val]? = cfg.betas[r.val]?)
    (w : List (Label n)) (t : Sys n (Msg F) (Line F) (RSt n F)) (h : (initSys cfg file clock root).exec w = some t) (hd : t.AllDone)
    (w' : List (Label n')) (t' : Sys n' (Msg F) (Line F) (RSt n' F))
    (h' : (initSys { cfg with betas := bs, initSeed := cfg.initSeed + d } file clock' root').exec w' = some t') (hd' : t'.AllDone) :
    (fileRows r.val (t.log r)).filter (fun a => decide (cfg.saveBegin ≤ a.iter))
      = (fileRows r'.val (t'.log r')).filter (fun a => decide (cfg.saveBegin ≤ a.iter)) := by
  have e1 : r ≠ root := by rintro rfl; omega
  have e2 : r' ≠ root' := by rintro rfl; omega
  refine chain_of_seed cfg bs (cfg.initSeed + d) file hv hv' hs hl ht clock clock' root r root' r' e1 e2 ?_ hb w t h hd w' t' h' hd'
  have e3 : ¬ r'.val + d < root.val := by omega
  have e4 : ¬ r'.val < root'.val := by omega
  have e5 : cfg.initSeed + d ≠ 0 := by omega
  simp only [seedOf, startSeed, if_neg e1, if_neg e2, he, if_neg e3, if_neg e4, if_neg hseed, if_neg e5]
  rw [Nat.add_assoc, Nat.add_comm d]

/-- The demo without swaps and tuning. -/
noncomputable def soloCfg : Cfg ℝ := { demoCfg with nSwap := 0, tuneLadder := 0, nStoptune := 0 }

theorem solo_valid : Valid 3 soloCfg demoFile := { demo_valid with }

/-- The same with a fourth rank. -/
theorem solo4_valid : Valid 4 { soloCfg with betas := [1 / 10, 1 / 2, 3 / 4, 1] } demoFile :=
  { demo_valid with ranks := by decide, ranksInt := by decide, betas := by simp }

example (clock : Nat) : ∃ (data : List ℝ) (beta : ℝ) (p : Nat), demoFile.cells = .ok data ∧ soloCfg.betas[0]? = some beta ∧
      (p = 0 ∨ p < 500) ∧
      ∀ (w : List (Label 3)) (t : Sys 3 (Msg ℝ) (Line ℝ) (RSt 3 ℝ)), (initSys soloCfg demoFile clock 2).exec w = some t → t.AllDone →
        fileRows 0 (t.log 0) = (startCh soloCfg demoFile data (seedOf (2 : Fin 3) (startSeed soloCfg clock) 0) beta).row ::
          ((mhRun soloCfg.user (soloCfg.user.initGp soloCfg.initGpRatio) demoFile.nlines data beta 1000
            (startCh soloCfg demoFile data (seedOf (2 : Fin 3) (startSeed soloCfg clock) 0) beta)).drop p).map Ch.row :=
  chains_alone soloCfg demoFile solo_valid (by simp [soloCfg]) (.inl (by simp [soloCfg])) (by simp [soloCfg, demoCfg]) clock 2 0 (by decide)

/-- Rank 1 of three and of four ranks; root is 0. -/
example (clock : Nat) (w : List (Label 3)) (t : Sys 3 (Msg ℝ) (Line ℝ) (RSt 3 ℝ)) (h : (initSys soloCfg demoFile clock 0).exec w = some t)
    (hd : t.AllDone) (w' : List (Label 4)) (t' : Sys 4 (Msg ℝ) (Line ℝ) (RSt 4 ℝ))
    (h' : (initSys { soloCfg with betas := [1 / 10, 1 / 2, 3 / 4, 1] } demoFile clock 0).exec w' = some t') (hd' : t'.AllDone) :
    (fileRows 1 (t.log 1)).filter (fun a => decide (500 ≤ a.iter)) = (fileRows 1 (t'.log 1)).filter (fun a => decide (500 ≤ a.iter)) :=
  chain_ignores_others soloCfg _ demoFile solo_valid solo4_valid (by simp [soloCfg]) (.inl (by simp [soloCfg])) (by simp [soloCfg, demoCfg])
    clock 0 1 0 1 (.inl (by decide)) rfl (by simp [soloCfg, demoCfg]) w t h hd w' t' h' hd'

/-- A second run with the seed one higher, where rank 1 has the inverse temperature that rank 2 has in the first. -/
theorem solo_next_valid : Valid 3 { soloCfg with betas := [1 / 10, 1, 1], initSeed := soloCfg.initSeed + 1 } demoFile :=
  { demo_valid with betas := by simp }

example (clock clock' : Nat) (w : List (Label 3)) (t : Sys 3 (Msg ℝ) (Line ℝ) (RSt 3 ℝ))
    (h : (initSys soloCfg demoFile clock 0).exec w = some t) (hd : t.AllDone) (w' : List (Label 3)) (t' : Sys 3 (Msg ℝ) (Line ℝ) (RSt 3 ℝ))
    (h' : (initSys { soloCfg with betas := [1 / 10, 1, 1], initSeed := soloCfg.initSeed + 1 } demoFile clock' 0).exec w' = some t') (hd' : t'.AllDone) :
    (fileRows 2 (t.log 2)).filter (fun a => decide (500 ≤ a.iter)) = (fileRows 1 (t'.log 1)).filter (fun a => decide (500 ≤ a.iter)) :=
  neighbour_runs soloCfg _ 1 demoFile solo_valid solo_next_valid (by simp [soloCfg]) (.inl (by simp [soloCfg])) (by simp [soloCfg, demoCfg]) (by simp [soloCfg, demoCfg])
    clock clock' 0 2 0 1 rfl rfl (by decide) rfl (by simp [soloCfg, demoCfg]) w t h hd w' t' h' hd'

end NiiC
