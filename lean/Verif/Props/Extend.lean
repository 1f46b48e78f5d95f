import Verif.Props.Demo
import Verif.Props.Protocol
import Verif.Props.FileNames
import Verif.Model.Print
import Verif.Props.Scripts

/-!
# A longer run begins with the shorter one: C110
-/

set_option linter.unusedSectionVars false

namespace NiiC
open Sys Spec

variable {n : Nat} {F : Type} [Arith F] [Source F]

/-- Does the program write the line? (`note` is a record of variables for the theorems only.) -/
def Line.real : Line F → Bool
  | .note .. => false
  | _ => true

/-- The lines that the program writes. -/
def written (log : List (Line F)) : List (Line F) := log.filter Line.real

theorem written_append (a b : List (Line F)) : written (a ++ b) = written a ++ written b := List.filter_append ..

/-! ## One batch -/

theorem mhRun_prefix (u : User F) (sigma : List F) (nline : Int) (data : List F) (beta : F) (j : Nat) : ∀ (k : Nat) (c : Ch F),
    mhRun u sigma nline data beta k c <+: mhRun u sigma nline data beta (k + j) c := by
  intro k
  induction k with
  | zero => intro c; exact List.nil_prefix
  | succ k ih =>
    intro c
    rw [Nat.succ_add]
    exact List.cons_prefix_cons.2 ⟨rfl, ih _⟩

theorem localBatch_prefix {cfg : Cfg F} (hu : cfg.user.Wf cfg.nParm) {me : Fin n} {s : Loc n F} {nb nb' : Int} (hn : nb ≤ nb')
    {x : List F} {lp : F} {b b' : BatchOut F} (hx : x.length = cfg.nParm) (hs : s.sigma.length = cfg.nParm)
    (h : localBatch cfg me s nb x lp = .ok b) (h' : localBatch cfg me s nb' x lp = .ok b') : b.lines <+: b'.lines := by
  have h0 := (localBatch_eq cfg hu me s nb x lp b hx hs h).1
  rw [localBatch, iterBatch_eq cfg.nParm cfg.user s.sigma s.nline s.data (s.beta me) hu hs me.val cfg.saveBegin nb h0
    ⟨x, lp, s.acc, s.accA, s.g⟩ hx] at h
  rw [localBatch, iterBatch_eq cfg.nParm cfg.user s.sigma s.nline s.data (s.beta me) hu hs me.val cfg.saveBegin nb' (by omega)
    ⟨x, lp, s.acc, s.accA, s.g⟩ hx] at h'
  cases h
  cases h'
  obtain ⟨j, hj⟩ : ∃ j, nb'.toNat = nb.toNat + j := ⟨nb'.toNat - nb.toNat, by omega⟩
  simp only [hj]
  by_cases hc : cfg.saveBegin ≤ s.acc + nb.toNat
  · rw [if_pos hc, if_pos (by omega)]
    exact (mhRun_prefix cfg.user s.sigma s.nline s.data (s.beta me) j nb.toNat _).map _
  · rw [if_neg hc]
    exact List.nil_prefix

theorem seqBatch_prefix {cfg : Cfg F} (hu : cfg.user.Wf cfg.nParm) {nb nb' : Int} (hn : nb ≤ nb') {w v v' : W n F} (hok : w.st.Ok cfg)
    (h : seqBatch cfg nb w = .ok v) (h' : seqBatch cfg nb' w = .ok v') (r : Fin n) : v.log r <+: v'.log r := by
  simp only [seqBatch, exc_bind, allOk_ok, Except.ok.injEq] at h h'
  obtain ⟨bs, hb, rfl⟩ := h
  obtain ⟨bs', hb', rfl⟩ := h'
  exact (List.prefix_append_right_inj _).2 (List.cons_prefix_cons.2 ⟨rfl, localBatch_prefix hu hn (hok.x r) (hok.cur r) (hb r) (hb' r)⟩)

/-! ## Logs grow; swaps and tuning write nothing -/

theorem Step.grow {cfg : Cfg F} {root : Fin n} {w w' : W n F} (h : Step cfg root w w') (r : Fin n) : w.log r <+: w'.log r := by
  cases h with
  | widths => exact List.prefix_append _ _
  | betas => exact List.prefix_append _ _
  | draw => exact List.prefix_refl _
  | batch _ nb h =>
    simp only [seqBatch, exc_bind, Except.ok.injEq] at h
    obtain ⟨bs, -, rfl⟩ := h
    exact List.prefix_append _ _
  | swap _ ty ty' h =>
    simp only [seqSwap, exc_bind, Except.ok.injEq, Prod.mk.injEq] at h
    obtain ⟨i, -, j, -, rfl, -⟩ := h
    exact List.prefix_append _ _
  | ladder => exact List.prefix_append _ _
  | tune _ rk h =>
    simp only [seqTuneRank, exc_bind, Except.ok.injEq] at h
    obtain ⟨_, -, _, -, _, -, _, -, rfl⟩ := h
    exact List.prefix_append _ _

theorem Steps.grow {cfg : Cfg F} {root : Fin n} {w w' : W n F} (h : Steps cfg root w w') (r : Fin n) : w.log r <+: w'.log r :=
  h.inv (P := fun v => w.log r <+: v.log r) (fun _ _ hp hs => hp.trans (hs.grow r)) (List.prefix_refl _)

theorem seqSwaps_written {cfg : Cfg F} {root : Fin n} (r : Fin n) : ∀ (k : Nat) (w w' : W n F) (ty ty' : Tally n F),
    seqSwaps cfg root k w ty = .ok (w', ty') → written (w'.log r) = written (w.log r) := by
  intro k
  induction k with
  | zero => intro w w' ty ty' h; cases h; rfl
  | succ k ih =>
    intro w w' ty ty' h
    simp only [seqSwaps, exc_bind] at h
    obtain ⟨⟨w1, ty1⟩, h1, h2⟩ := h
    rw [ih w1 w' ty1 ty' h2]
    simp only [seqSwap, exc_bind, Except.ok.injEq, Prod.mk.injEq] at h1
    obtain ⟨i, -, j, -, rfl, -⟩ := h1
    simp [W.push, written, Line.real, Loc.note]

/-! ## One stack, cut short -/

theorem nextBatch_cut {cfg : Cfg F} {m M i : Int} (hm : m ≤ M) {g : Rng} {b b' : Int × Int × Rng}
    (h : nextBatch cfg m i g = .ok b) (h' : nextBatch cfg M i g = .ok b') :
    b = b' ∨ (b.2.1 = m ∧ b.1 ≤ b'.1 ∧ b.2.2 = b'.2.2) := by
  simp only [nextBatch, exc_bind] at h h'
  obtain ⟨_, _, _, _, nb, h3, nx, h4, h5⟩ := h
  obtain ⟨_, _, _, _, nb', h3', nx', h4', h5'⟩ := h'
  rw [h3] at h3'
  cases h3'
  rw [h4] at h4'
  cases h4'
  have hx : nx = i + nb := by
    unfold i32 at h4
    split at h4
    · cases h4; rfl
    · cases h4
  split at h5 <;> split at h5' <;> cases h5 <;> cases h5'
  · right; exact ⟨rfl, by simp only; omega, rfl⟩
  · right; exact ⟨rfl, by simp only; omega, rfl⟩
  · omega
  · left; rfl

theorem seqStackLoop_cut {cfg : Cfg F} (hu : cfg.user.Wf cfg.nParm) {root : Fin n} {m M : Int} (hm : m ≤ M) (r : Fin n) :
    ∀ (fuel fuel' : Nat) (i : Int) (w v v' : W n F) (ty tv tv' : Tally n F), w.st.Ok cfg →
      seqStackLoop cfg root m fuel i w ty = .ok (v, tv) → seqStackLoop cfg root M fuel' i w ty = .ok (v', tv') →
      written (v.log r) <+: written (v'.log r) := by
  intro fuel
  induction fuel with
  | zero =>
    intro fuel' i w v v' ty tv tv' hok h h'
    simp only [seqStackLoop] at h
    split at h
    · cases h
    · cases h
      exact ((seqStackLoop_steps cfg root M _ _ _ _ _ _ h').grow r).filter _
  | succ fuel ih =>
    intro fuel' i w v v' ty tv tv' hok h h'
    simp only [seqStackLoop] at h
    split at h
    · rename_i hi
      cases fuel' with
      | zero =>
        simp only [seqStackLoop] at h'
        rw [if_pos (by omega)] at h'
        cases h'
      | succ fuel' =>
        simp only [seqStackLoop] at h'
        rw [if_pos (by omega)] at h'
        simp only [exc_bind] at h h'
        obtain ⟨b, hb, w1, h1, ⟨w2, ty2⟩, h2, h3⟩ := h
        obtain ⟨b', hb', w1', h1', ⟨w2', ty2'⟩, h2', h3'⟩ := h'
        have hok0 : (w.st.setG root b.2.2).Ok cfg := ⟨hok.acc, hok.x, hok.sig, hok.cur⟩
        rcases nextBatch_cut hm hb hb' with rfl | ⟨e1, e2, e3⟩
        · rw [h1] at h1'
          cases h1'
          rw [h2] at h2'
          cases h2'
          have hs := ((Steps.single (.draw w m i b hb)).trans (.single (.batch _ w1 b.1 h1))).trans
            (seqSwaps_steps cfg root _ w1 w2 ty ty2 h2)
          exact ih fuel' _ w2 v v' ty2 tv tv' (hs.inv (P := fun w => w.st.Ok cfg) (fun _ _ hp hs => hs.ok hu hp) hok) h3 h3'
        · rw [e3] at h1
          have hv : w2 = v := by
            cases fuel with
            | zero => simp only [seqStackLoop] at h3; rw [if_neg (by omega)] at h3; cases h3; rfl
            | succ fuel => simp only [seqStackLoop] at h3; rw [if_neg (by omega)] at h3; cases h3; rfl
          subst hv
          rw [seqSwaps_written r _ _ _ _ _ h2]
          refine ((seqBatch_prefix hu e2 (e3 ▸ hok0) h1 h1' r).filter _).trans ?_
          rw [show List.filter Line.real (w1'.log r) = written (w1'.log r) from rfl, ← seqSwaps_written r _ _ _ _ _ h2']
          exact ((seqStackLoop_steps cfg root M _ _ _ _ _ _ h3').grow r).filter _
    · cases h
      exact ((seqStackLoop_steps cfg root M _ _ _ _ _ _ h').grow r).filter _

theorem seqStack_cut {cfg : Cfg F} (hu : cfg.user.Wf cfg.nParm) {root : Fin n} {m M : Int} (hm : m ≤ M) (r : Fin n) {w v v' : W n F}
    (hok : w.st.Ok cfg) (h : seqStack cfg root m w = .ok v) (h' : seqStack cfg root M w = .ok v') :
    written (v.log r) <+: written (v'.log r) := by
  simp only [seqStack, exc_bind] at h h'
  obtain ⟨_, -, ⟨w1, ty1⟩, h1, h2⟩ := h
  obtain ⟨_, -, ⟨w1', ty1'⟩, h1', h2'⟩ := h'
  have k := seqStackLoop_cut hu hm r _ _ _ _ _ _ _ _ _ (by exact ⟨hok.acc, hok.x, hok.sig, hok.cur⟩) h1 h1'
  have e : v.log r = w1.log r := by
    split at h2 <;> cases h2
    · simp [seqLadder, W.push]
    · rfl
  have e' : v'.log r = w1'.log r := by
    split at h2' <;> cases h2'
    · simp [seqLadder, W.push]
    · rfl
  rw [e, e']
  exact k

/-! ## The whole run -/

/-- The same configuration with another `N_iter`. -/
def Cfg.withIter (cfg : Cfg F) (N : Int) : Cfg F := { cfg with nIter := N }

theorem seqSwaps_withIter (cfg : Cfg F) (N : Int) (root : Fin n) : ∀ (k : Nat) (w : W n F) (ty : Tally n F),
    seqSwaps (cfg.withIter N) root k w ty = seqSwaps cfg root k w ty := by
  intro k
  induction k with
  | zero => intro w ty; rfl
  | succ k ih =>
    intro w ty
    simp only [seqSwaps, ih]
    rfl

theorem seqStackLoop_withIter (cfg : Cfg F) (N : Int) (root : Fin n) (m : Int) : ∀ (fuel : Nat) (i : Int) (w : W n F) (ty : Tally n F),
    seqStackLoop (cfg.withIter N) root m fuel i w ty = seqStackLoop cfg root m fuel i w ty := by
  intro fuel
  induction fuel with
  | zero => intro i w ty; rfl
  | succ k ih =>
    intro i w ty
    simp only [seqStackLoop, ih, seqSwaps_withIter]
    rfl

theorem seqStack_withIter (cfg : Cfg F) (N : Int) (root : Fin n) (m : Int) (w : W n F) :
    seqStack (cfg.withIter N) root m w = seqStack cfg root m w := by
  simp only [seqStack, seqStackLoop_withIter]
  rfl

theorem genAllTune_withIter (cfg : Cfg F) (N : Int) (s : List F) : ∀ (k j : Nat),
    genAllTune n (cfg.withIter N) s k j = genAllTune n cfg s k j := by
  intro k
  induction k with
  | zero => intro j; rfl
  | succ k ih => intro j; simp only [genAllTune, ih]; rfl

theorem seqTuneParms_withIter (cfg : Cfg F) (N : Int) (rk : Fin n) (grid : List (Fin n → F)) : ∀ (k j : Nat) (s : G n F) (a : List (Fin n → F)),
    seqTuneParms (cfg.withIter N) rk grid k j s a = seqTuneParms cfg rk grid k j s a := by
  intro k
  induction k with
  | zero => intro j s a; rfl
  | succ k ih => intro j s a; simp only [seqTuneParms, ih]; rfl

theorem seqTuneRanks_withIter (cfg : Cfg F) (N : Int) (root : Fin n) (fl : Fin n → Int) : ∀ (l : List (Fin n)) (w : W n F),
    seqTuneRanks (cfg.withIter N) root fl l w = seqTuneRanks cfg root fl l w := by
  intro l
  induction l with
  | nil => intro w; rfl
  | cons rk l ih =>
    intro w
    simp only [seqTuneRanks, ih, seqTuneRank, genAllTune_withIter, seqTuneParms_withIter]
    rfl

theorem seqFlowLoop_longer {cfg : Cfg F} (hu : cfg.user.Wf cfg.nParm) {N : Int} (hN : N ≤ cfg.nIter) {root : Fin n} (r : Fin n) :
    ∀ (fuel fuel' : Nat) (nStack i : Int) (w v v' : W n F), w.st.Ok cfg →
      seqFlowLoop (cfg.withIter N) root fuel nStack i w = .ok v → seqFlowLoop cfg root fuel' nStack i w = .ok v' →
      written (v.log r) <+: written (v'.log r) := by
  intro fuel
  induction fuel with
  | zero =>
    intro fuel' nStack i w v v' hok h h'
    simp only [seqFlowLoop] at h
    split at h
    · cases h
    · cases h
      exact ((seqFlowLoop_steps cfg root _ _ _ _ _ h').grow r).filter _
  | succ fuel ih =>
    intro fuel' nStack i w v v' hok h h'
    simp only [seqFlowLoop, seqStack_withIter, seqTuneRanks_withIter] at h
    by_cases hi : i < N
    · rw [if_pos (show i < (cfg.withIter N).nIter from hi)] at h
      cases fuel' with
      | zero =>
        simp only [seqFlowLoop] at h'
        rw [if_pos (by omega)] at h'
        cases h'
      | succ fuel' =>
        simp only [seqFlowLoop] at h'
        rw [if_pos (by omega)] at h'
        simp only [exc_bind] at h h'
        obtain ⟨nx, hx, w1, h1, w2, h2, h3⟩ := h
        obtain ⟨nx', hx', w1', h1', w2', h2', h3'⟩ := h'
        rw [hx] at hx'
        cases hx'
        have hnx : nx = i + nStack := by
          unfold i32 at hx
          split at hx
          · cases hx; rfl
          · cases hx
        have e : (cfg.withIter N).nIter = N := rfl
        rw [e] at h1 h2 h3
        have hokw : (seqWidths w).st.Ok cfg := ⟨hok.acc, hok.x, hok.sig, hok.sig⟩
        by_cases hlt : nx < N
        · rw [if_neg (by omega)] at h1 h1'
          rw [if_neg (by omega), if_neg (by omega)] at h3 h3'
          rw [h1] at h1'
          cases h1'
          have hwin : inTuneWindow (cfg.withIter N) nx = inTuneWindow cfg nx := by
            simp only [inTuneWindow, e]
            rw [decide_eq_true hlt, decide_eq_true (show nx < cfg.nIter by omega)]
            rfl
          have h22 : w2 = w2' := by
            rw [if_neg (show ¬ N < nx by omega), if_neg (show ¬ N < nx by omega), hwin] at h2
            rw [if_neg (show ¬ cfg.nIter < nx by omega), if_neg (show ¬ cfg.nIter < nx by omega)] at h2'
            have := h2.symm.trans h2'
            cases this
            rfl
          subst h22
          have hs : Steps cfg root w w2 := by
            refine ((Steps.single (.widths w)).trans (seqStack_steps cfg root _ _ w1 h1)).trans ?_
            by_cases hw : inTuneWindow cfg (if cfg.nIter < nx then cfg.nIter else nx) = true
            · rw [if_pos hw] at h2'
              exact seqTuneRanks_steps cfg root _ _ w1 w2 h2'
            · rw [if_neg hw] at h2'
              cases h2'; exact .refl _
          exact ih fuel' _ _ w2 v v' (hs.inv (P := fun w => w.st.Ok cfg) (fun _ _ hp hs => hs.ok hu hp) hok) h3 h3'
        · have hend : (if N < nx then N else nx) = N := by split <;> omega
          rw [hend] at h2 h3
          have hwin : ¬ inTuneWindow (cfg.withIter N) N = true := by simp [inTuneWindow, e]
          rw [if_neg hwin] at h2
          cases h2
          have hv : w1 = v := by
            cases fuel with
            | zero => simp only [seqFlowLoop] at h3; rw [if_neg (by rw [e]; omega)] at h3; cases h3; rfl
            | succ fuel => simp only [seqFlowLoop] at h3; rw [if_neg (by rw [e]; omega)] at h3; cases h3; rfl
          subst hv
          refine (seqStack_cut hu (by split <;> split <;> omega) r hokw h1 h1').trans ?_
          have hs : Steps cfg root w1' w2' := by
            by_cases hw : inTuneWindow cfg (if cfg.nIter < nx then cfg.nIter else nx) = true
            · rw [if_pos hw] at h2'
              exact seqTuneRanks_steps cfg root _ _ w1' w2' h2'
            · rw [if_neg hw] at h2'
              cases h2'; exact .refl _
          exact ((hs.trans (seqFlowLoop_steps cfg root _ _ _ _ _ h3')).grow r).filter _
    · rw [if_neg (show ¬ i < (cfg.withIter N).nIter from hi)] at h
      cases h
      exact ((seqFlowLoop_steps cfg root _ _ _ _ _ h').grow r).filter _

theorem seqMain_longer {cfg : Cfg F} (hu : cfg.user.Wf cfg.nParm) {file : DataFile F} {N : Int} (hN : N ≤ cfg.nIter) {clock : Nat}
    {root : Fin n} {v v' : W n F} (h : seqMain (cfg.withIter N) file clock root = .ok v) (h' : seqMain cfg file clock root = .ok v')
    (r : Fin n) : written (v.log r) <+: written (v'.log r) := by
  simp only [seqMain, exc_bind] at h h'
  obtain ⟨w, h0, h1⟩ := h
  obtain ⟨w', h0', h1'⟩ := h'
  have e : w = w' := by
    have := h0.symm.trans h0'
    cases this
    rfl
  subst e
  exact seqFlowLoop_longer hu hN r _ _ _ _ _ _ _ (seqInit_ok hu h0') h1 h1'

theorem Valid.withIter {cfg : Cfg F} {file : DataFile F} (hv : Valid n cfg file) {N : Int} (hN : N ≤ cfg.nIter) :
    Valid n (cfg.withIter N) file :=
  { hv with iterInt := fun k hk => hv.iterInt k (lt_of_lt_of_le hk hN) }

/-- **C110.** Take a valid configuration and the same configuration with a smaller `N_iter`. Whatever a rank has written at any
moment of any execution of the shorter run is the beginning of what it has written when an execution of the longer run, with the
same clock, data and root, has finished. -/
theorem longer_run_extends [LawfulDraws F] (cfg : Cfg F) (file : DataFile F) (hv : Valid n cfg file) (N : Int) (hN : N ≤ cfg.nIter)
    (clock : Nat) (root : Fin n) (w₁ w₂ : List (Label n)) (t t' : Sys n (Msg F) (Line F) (RSt n F))
    (h : (initSys { cfg with nIter := N } file clock root).exec w₁ = some t)
    (h' : (initSys cfg file clock root).exec w₂ = some t') (hd : t'.AllDone) (r : Fin n) :
    written (t.log r) <+: written (t'.log r) := by
  obtain ⟨v, hw, hall⟩ := log_prefix (cfg.withIter N) file (hv.withIter hN) clock root
  obtain ⟨v', hw', hall'⟩ := log_prefix cfg file hv clock root
  have e := (hall' w₂ t' h').2 hd
  subst e
  exact (((hall w₁ t h).1 r).filter _).trans (seqMain_longer hv.user hN hw hw' r)

/-- **C110** (texts). In doubles, and in terms of characters: what a rank has put into a file in the shorter run is the beginning of
what it has put into the file of the same name in the longer run. -/
theorem longer_run_text {R : Rounding} [Source (Dbl R)] [LawfulDraws (Dbl R)] (cfg : Cfg (Dbl R)) (file : DataFile (Dbl R))
    (hv : Valid n cfg file) (N : Int) (hN : N ≤ cfg.nIter) (clock : Nat) (root : Fin n) (w₁ w₂ : List (Label n))
    (t t' : Sys n (Msg (Dbl R)) (Line (Dbl R)) (RSt n (Dbl R)))
    (h : (initSys { cfg with nIter := N } file clock root).exec w₁ = some t)
    (h' : (initSys cfg file clock root).exec w₂ = some t') (hd : t'.AllDone) (r : Fin n) (nan : Str) (nm : Naming) (name : Str) :
    Print.file nan nm name (t.log r) <+: Print.file nan nm name (t'.log r) := by
  have e : ∀ log : List (Line (Dbl R)), log.filter (fun l => nm.file l = some name)
      = (written log).filter (fun l => nm.file l = some name) := by
    intro log
    rw [written, List.filter_filter]
    refine List.filter_congr fun l _ => ?_
    cases l <;> simp [Line.real, Naming.file]
  unfold Print.file
  rw [e (t.log r), e (t'.log r)]
  exact (((longer_run_extends cfg file hv N hN clock root w₁ w₂ t t' h h' hd r).filter _).map _).flatten

/-- A run of 700 iterations (two stacks and a cut one) and a run of 1000. -/
example (clock : Nat) (w₁ w₂ : List (Label 3)) (t t' : Sys 3 (Msg ℝ) (Line ℝ) (RSt 3 ℝ))
    (h : (initSys { demoCfg with nIter := 700 } demoFile clock 1).exec w₁ = some t)
    (h' : (initSys demoCfg demoFile clock 1).exec w₂ = some t') (hd : t'.AllDone) : written (t.log 2) <+: written (t'.log 2) :=
  longer_run_extends demoCfg demoFile demo_valid 700 (by simp [demoCfg]) clock 1 w₁ w₂ t t' h h' hd 2

/-- Such executions exist. -/
example (clock : Nat) : ∃ (w₁ w₂ : List (Label 3)) (t t' : Sys 3 (Msg ℝ) (Line ℝ) (RSt 3 ℝ)),
    (initSys { demoCfg with nIter := 700 } demoFile clock 1).exec w₁ = some t ∧ t.AllDone ∧
    (initSys demoCfg demoFile clock 1).exec w₂ = some t' ∧ t'.AllDone := by
  obtain ⟨v, l, _, hall⟩ := distributed_eq_sequential (demoCfg.withIter 700) demoFile
    (demo_valid.withIter (by simp [demoCfg])) clock 1
  obtain ⟨v', l', _, hall'⟩ := distributed_eq_sequential demoCfg demoFile demo_valid clock 1
  obtain ⟨⟨w₁, h, _⟩, _⟩ := hall [] _ rfl
  obtain ⟨⟨w₂, h', _⟩, _⟩ := hall' [] _ rfl
  exact ⟨w₁, w₂, _, _, h, fun _ => trivial, h', fun _ => trivial⟩

/-- The text of a chain file of an Eggbox run in doubles. -/
example (clock : Nat) (w₁ w₂ : List (Label 3)) (t t' : Sys 3 (Msg Double) (Line Double) (RSt 3 Double))
    (h : (initSys { Scripts.eggCfgD with nIter := 350 } Scripts.eggFileD clock 1).exec w₁ = some t)
    (h' : (initSys Scripts.eggCfgD Scripts.eggFileD clock 1).exec w₂ = some t') (hd : t'.AllDone) :
    Print.file (c!"nan") demoNaming (demoNaming.chainFull 2) (t.log 2)
      <+: Print.file (c!"nan") demoNaming (demoNaming.chainFull 2) (t'.log 2) :=
  longer_run_text Scripts.eggCfgD Scripts.eggFileD Scripts.eggD_valid 350 (by simp [Scripts.eggCfgD]) clock 1 w₁ w₂ t t' h h' hd 2 _ _ _

end NiiC
