import Verif.Props.Run
import Mathlib.Logic.Equiv.Basic
import Mathlib.Data.List.FinRange
import Mathlib.Data.List.OfFn

/-!
# States along a run: C13, C15, C20, C24 (whole run), C28, C31, C55, C62
-/

set_option linter.unusedSectionVars false
set_option linter.unusedSimpArgs false

namespace NiiC

open Spec

variable {n : Nat} {F : Type} [Arith F] [Source F]

/-- What a swap does to the state. -/
theorem seqSwap_spec {cfg : Cfg F} {root : Fin n} {w w' : W n F} {ty ty' : Tally n F}
    (h : seqSwap cfg root w ty = .ok (w', ty')) : ∃ i j d,
      w'.hist = w.hist ++ [(Ev.swap i j d, w'.st)] ∧
      w'.st = { w.st with x := w'.st.x, lp := w'.st.lp, g := w'.st.g } ∧
      (∀ r, r ≠ root → w'.st.g r = w.st.g r) ∧
      (w'.st.x = if d then w.st.x ∘ Equiv.swap i j else w.st.x) ∧
      (w'.st.lp = if d then Function.update (Function.update w.st.lp i
        (target cfg.user w.st.nline w.st.data (w.st.beta i) (w.st.x j))) j
        (target cfg.user w.st.nline w.st.data (w.st.beta j) (w.st.x i)) else w.st.lp) := by
  simp only [seqSwap, exc_bind, Except.ok.injEq, Prod.mk.injEq] at h
  obtain ⟨i, hi, j, hj, rfl, rfl⟩ := h
  refine ⟨i, j, _, rfl, rfl, fun r hr => Function.update_of_ne hr _ _, ?_, ?_⟩
  · simp only [W.push]
    generalize (swapAccept (F := F) _ _ _ _ _).1 = d
    cases d
    · rfl
    · funext r
      simp only [if_true, swapTab, G.tab, Function.update_apply, Function.comp_apply, Equiv.swap_apply_def]
      by_cases h1 : r = j
      · subst h1
        by_cases h2 : r = i
        · simp [h2]
        · simp [h2]
      · by_cases h2 : r = i
        · subst h2
          simp [h1]
        · simp [h1, h2]
  · simp only [W.push]
    generalize (swapAccept (F := F) _ _ _ _ _).1 = d
    cases d <;> rfl

/-! ## C15: parameters stay in the box -/

omit [Source F] in
/-- Every row of the log is in the box, and so is every chain. -/
structure BoxInv (B : List F → Prop) (w : W n F) : Prop where
  x : ∀ r, B (w.st.x r)
  rows : ∀ r k a, a ∈ fileRows k (w.log r) → B a.x

theorem fileRows_sub {k : Nat} {l l' : List (Line F)} {a : Row F} (h : a ∈ fileRows k (l ++ l')) (h' : fileRows k l' = []) :
    a ∈ fileRows k l := by
  rw [fileRows_append, h', List.append_nil] at h
  exact h

theorem fileRows_lines_mem {k rank : Nat} {l : List (Ch F)} {a : Row F} (h : a ∈ fileRows k (l.map (line rank))) :
    ∃ c ∈ l, a = ⟨c.x, c.lp, c.acc, c.accA⟩ := by
  induction l with
  | nil => simp [fileRows] at h
  | cons c l ih =>
    simp only [fileRows, line, List.map_cons, List.filterMap_cons] at h
    by_cases hk : rank = k
    · simp only [hk, if_true, List.mem_cons] at h
      rcases h with rfl | h
      · exact ⟨c, by simp, rfl⟩
      · obtain ⟨d, hd, e⟩ := ih (by simpa [fileRows, line, hk] using h)
        exact ⟨d, by simp [hd], e⟩
    · simp [line, hk] at h

theorem BoxInv.step {cfg : Cfg F} (hu : cfg.user.Wf cfg.nParm) {B : List F → Prop}
    (hB : ∀ y : List F, y.length = cfg.nParm → B (cfg.user.boundary y)) {root : Fin n} {w w' : W n F} (h : Step cfg root w w')
    (hok : w.st.Ok cfg) (hb : BoxInv B w) : BoxInv B w' := by
  cases h with
  | widths => exact ⟨hb.x, fun r k a ha => hb.rows r k a (fileRows_sub ha rfl)⟩
  | betas =>
    refine ⟨hb.x, fun r k a ha => hb.rows r k a (fileRows_sub ha ?_)⟩
    split <;> rfl
  | draw nStack i b h => exact ⟨hb.x, hb.rows⟩
  | batch _ nb h =>
    obtain ⟨hc, _, _⟩ := seqBatch_chain hu h hok
    have hstep : ∀ r (c : Ch F), (c.x.length = cfg.nParm ∧ B c.x) →
        ((mhStep cfg.user (w.st.cur r) w.st.nline w.st.data (w.st.beta r) c).x.length = cfg.nParm ∧
        B (mhStep cfg.user (w.st.cur r) w.st.nline w.st.data (w.st.beta r) c).x) := by
      intro r c hc
      refine ⟨mhStep_length cfg.nParm _ _ _ _ _ hu (hok.cur r) c hc.1, ?_⟩
      simp only [mhStep]
      split
      · exact hB _ (by rw [propose_length _ _ _ (by rw [hc.1, hok.cur r]), hc.1])
      · exact hc.2
    have hstart : ∀ r, (w.st.ch r).x.length = cfg.nParm ∧ B (w.st.ch r).x := fun r => ⟨hok.x r, hb.x r⟩
    refine ⟨fun r => ?_, fun r k a ha => ?_⟩
    · have := congrArg Ch.x (hc r).2.1
      rw [show w'.st.x r = _ from this]
      exact (mhIter_inv (P := fun c => c.x.length = cfg.nParm ∧ B c.x) _ _ _ _ _ (hstep r) nb.toNat _ (hstart r)).2
    · rw [(hc r).2.2, fileRows_append, fileRows_note] at ha
      rcases List.mem_append.1 ha with ha | ha
      · exact hb.rows r k a ha
      · split at ha
        · obtain ⟨c, hcm, rfl⟩ := fileRows_lines_mem ha
          exact (mhRun_inv (P := fun c => c.x.length = cfg.nParm ∧ B c.x) _ _ _ _ _ (hstep r) nb.toNat _ (hstart r) c hcm).2
        · simp [fileRows] at ha
  | swap _ ty ty' h =>
    obtain ⟨i, j, d, _, _, _, hx, _⟩ := seqSwap_spec h
    refine ⟨fun r => ?_, fun r k a ha => ?_⟩
    · rw [hx]
      split
      · exact hb.x _
      · exact hb.x _
    · rw [seqSwap_log cfg root w w' ty ty' h] at ha
      exact hb.rows r k a (fileRows_sub ha rfl)
  | ladder ty h h' => exact ⟨hb.x, fun r k a ha => hb.rows r k a (fileRows_sub ha rfl)⟩
  | tune _ rk h =>
    obtain ⟨⟨sg, hst⟩, hlog, _⟩ := seqTuneRank_frame h
    exact ⟨by rw [hst]; exact hb.x, by rw [hlog]; exact hb.rows⟩

theorem seqInit_box {cfg : Cfg F} {B : List F → Prop} (hI : ∀ s, B (cfg.user.initParm s).1) {file : DataFile F} {clock : Nat}
    {root : Fin n} {w : W n F} (h : seqInit cfg file clock root = .ok w) : BoxInv B w := by
  simp only [seqInit, exc_bind, Except.ok.injEq] at h
  obtain ⟨_, _, data, hd, _, _, _, _, _, _, beta, hb, rfl⟩ := h
  refine ⟨fun r => hI _, fun r k a ha => ?_⟩
  have : ∀ (p : Prop) [Decidable p] (l : Line F), fileRows k [l] = [] → fileRows k (if p then [l] else []) = [] := by
    intro p _ l hl; split
    · exact hl
    · rfl
  simp only [fileRows_append] at ha
  rw [this _ _ rfl, this _ _ rfl] at ha
  simp only [fileRows, List.filterMap_cons, List.filterMap_nil, List.nil_append, List.append_nil] at ha
  split at ha
  · simp at ha
  · rename_i b hb'
    split at hb'
    · simp only [List.mem_singleton] at ha
      cases hb'
      subst ha
      exact hI _
    · cases hb'

/-- **C15.** If the user's boundary routine maps every proposal into a set `B` of parameter vectors and every start point is in
`B`, then at every moment of every execution every row of every chain file is in `B`, and when all ranks have finished so are
the points of all chains (with swaps in between). C44 shows the hypothesis for the bundled boundary routine and the box of
the prior, C46 for the start points. -/
theorem saved_in_box [LawfulDraws F] (cfg : Cfg F) (file : DataFile F) (hv : Valid n cfg file) (clock : Nat) (root : Fin n)
    (B : List F → Prop) (hB : ∀ y : List F, y.length = cfg.nParm → B (cfg.user.boundary y))
    (hI : ∀ s, B (cfg.user.initParm s).1)
    (w : List (Label n)) (t : Sys n (Msg F) (Line F) (RSt n F)) (h : (initSys cfg file clock root).exec w = some t) :
    (∀ (r : Fin n) (k : Nat) (a : Row F), a ∈ fileRows k (t.log r) → B a.x) ∧
    (t.AllDone → ∀ r, ∃ s tab, t.procs root = .ret s ∧ s.tab = some tab ∧ B (tab.x r)) := by
  obtain ⟨wf, hw, hall⟩ := log_prefix cfg file hv clock root
  obtain ⟨w0, h0, hs⟩ := seqMain_steps cfg file clock root wf hw
  have hb := (hs.inv (P := fun w => w.st.Ok cfg ∧ BoxInv B w) (fun _ _ hp h => ⟨h.ok hv.user hp.1, hp.2.step hv.user hB h hp.1⟩)
    ⟨seqInit_ok hv.user h0, seqInit_box hI h0⟩).2
  refine ⟨fun r k a ha => hb.rows r k a ((fileRows_prefix ((hall w t h).1 r)).subset ha), fun hd r => ?_⟩
  rw [(hall w t h).2 hd]
  exact ⟨_, wf.st.tab, rfl, by simp [view], hb.x r⟩

/-- In the demo every saved parameter is in [-5, 5]. -/
example (w : List (Label 3)) (t : Sys 3 (Msg ℝ) (Line ℝ) (RSt 3 ℝ)) (h : (initSys demoCfg demoFile 0 0).exec w = some t)
    (r : Fin 3) (a : Row ℝ) (ha : a ∈ fileRows r.val (t.log r)) : ∀ v ∈ a.x, -5 ≤ v ∧ v ≤ 5 := by
  refine (saved_in_box demoCfg demoFile demo_valid 0 0 (fun x => ∀ v ∈ x, -5 ≤ v ∧ v ≤ 5) ?_ ?_ w t h).1 r r.val a ha
  · intro y _ v hv
    simp only [demoCfg, demoUser, List.mem_map] at hv
    obtain ⟨a, _, rfl⟩ := hv
    exact ⟨le_max_left _ _, max_le (by norm_num) (min_le_left _ _)⟩
  · intro s v hv
    have hu : ∀ g, -5 ≤ (r8UnifAb (F := ℝ) (-5) 5 g).1 ∧ (r8UnifAb (F := ℝ) (-5) 5 g).1 ≤ 5 := by
      intro g
      have := drand48_real_mem g
      simp only [r8UnifAb, RealArith.add_eq, RealArith.mul_eq, RealArith.sub_eq]
      constructor <;> linarith [this.1, this.2]
    simp only [demoCfg, demoUser, List.mem_cons, List.not_mem_nil, or_false] at hv
    rcases hv with rfl | rfl
    · exact hu _
    · exact hu _

/-! ## C20: swaps permute -/

/-- **C20.** A swap attempt either changes no chain or exchanges exactly the two selected chains' parameter vectors; ladder,
widths, counters, data and every generator but root's are unchanged. -/
theorem swap_permutes (cfg : Cfg F) (root : Fin n) (w w' : W n F) (ty ty' : Tally n F)
    (h : seqSwap cfg root w ty = .ok (w', ty')) : ∃ i j d, w'.hist = w.hist ++ [(Ev.swap i j d, w'.st)] ∧
      (d = false → w'.st.x = w.st.x ∧ w'.st.lp = w.st.lp) ∧
      (d = true → w'.st.x i = w.st.x j ∧ w'.st.x j = w.st.x i ∧ ∀ r, r ≠ i → r ≠ j → w'.st.x r = w.st.x r ∧ w'.st.lp r = w.st.lp r) ∧
      w'.st.beta = w.st.beta ∧ w'.st.sig = w.st.sig ∧ w'.st.cur = w.st.cur ∧ w'.st.acc = w.st.acc ∧ w'.st.accA = w.st.accA ∧
      w'.st.nline = w.st.nline ∧ w'.st.data = w.st.data ∧ ∀ r, r ≠ root → w'.st.g r = w.st.g r := by
  obtain ⟨i, j, d, h1, h2, h3, h4, h5⟩ := seqSwap_spec h
  refine ⟨i, j, d, h1, ?_, ?_, by rw [h2], by rw [h2], by rw [h2], by rw [h2], by rw [h2], by rw [h2], by rw [h2], h3⟩
  · rintro rfl
    exact ⟨by simpa using h4, by simpa using h5⟩
  · rintro rfl
    simp only [if_true] at h4 h5
    rw [h4, h5]
    refine ⟨by simp, by simp, fun r hi hj => ⟨?_, ?_⟩⟩
    · simp [Equiv.swap_apply_of_ne_of_ne hi hj]
    · simp [hi, hj]

/-- A swap of the demo, from any state. -/
example (w : W 3 ℝ) (ty : Tally 3 ℝ) : ∃ w' ty', seqSwap demoCfg 0 w ty = .ok (w', ty') ∧ w'.st.beta = w.st.beta ∧ ∃ i j d,
    w'.hist = w.hist ++ [(Ev.swap i j d, w'.st)] ∧ (d = true → w'.st.x i = w.st.x j ∧ w'.st.x j = w.st.x i) := by
  obtain ⟨⟨w', ty'⟩, h⟩ := seqSwap_total demoCfg demo_valid.ranks demo_valid.ranksInt demo_valid.mode 0 w ty
  obtain ⟨i, j, d, h1, -, h3, h4, -⟩ := swap_permutes demoCfg 0 w w' ty ty' h
  exact ⟨w', ty', h, h4, i, j, d, h1, fun hd => ⟨(h3 hd).1, (h3 hd).2.1⟩⟩

theorem perm_comp_swap {α : Type} (x : Fin n → α) (i j : Fin n) : (List.ofFn (x ∘ Equiv.swap i j)).Perm (List.ofFn x) :=
  Equiv.Perm.ofFn_comp_perm (Equiv.swap i j) x

/-- The multiset of chain states is preserved over any number of swaps. -/
theorem swaps_preserve_multiset (cfg : Cfg F) (root : Fin n) (k : Nat) (w w' : W n F) (ty ty' : Tally n F)
    (h : seqSwaps cfg root k w ty = .ok (w', ty')) : (List.ofFn w'.st.x).Perm (List.ofFn w.st.x) := by
  induction k generalizing w ty with
  | zero => cases h; exact List.Perm.refl _
  | succ k ih =>
    simp only [seqSwaps, exc_bind] at h
    obtain ⟨⟨w1, ty1⟩, h1, h2⟩ := h
    refine (ih w1 ty1 h2).trans ?_
    obtain ⟨i, j, d, _, _, _, hx, _⟩ := seqSwap_spec h1
    rw [hx]
    split
    · exact perm_comp_swap _ _ _
    · exact List.Perm.refl _

/-- With usable ranks and swap mode a swap always goes through, so the two theorems are not empty. -/
example [LawfulDraws F] (cfg : Cfg F) (file : DataFile F) (hv : Valid n cfg file) (root : Fin n) (k : Nat) (w : W n F)
    (ty : Tally n F) : ∃ w' ty', seqSwaps cfg root k w ty = .ok (w', ty') ∧ (List.ofFn w'.st.x).Perm (List.ofFn w.st.x) := by
  obtain ⟨⟨w', ty'⟩, h⟩ := seqSwaps_total cfg hv.ranks hv.ranksInt hv.mode root k w ty
  exact ⟨w', ty', h, swaps_preserve_multiset cfg root k w w' ty ty' h⟩

/-! ## C24 and C28: the ladder over a run -/

omit [Source F] in
/-- The ladder and the records of it. -/
structure LadderInv (cfg : Cfg F) (b0 : Fin n → F) (w : W n F) : Prop where
  /-- the ends of the ladder keep their values -/
  ends : ∀ r : Fin n, (r.val = 0 ∨ r.val = n - 1) → w.st.beta r = b0 r
  noteEnds : ∀ q, ∀ a ∈ notes (w.log q), ∃ b : Fin n → F, a.betas = List.ofFn b ∧
    ∀ r : Fin n, (r.val = 0 ∨ r.val = n - 1) → b r = b0 r
  /-- records from the time when tuning has stopped show the present ladder -/
  frozen : ∀ q, ∀ a ∈ notes (w.log q), a.iter ≤ w.st.acc q ∧ (cfg.nStopTuneLadder ≤ a.iter → a.betas = List.ofFn w.st.beta)
  never : cfg.tuneLadder ≤ 0 → w.st.beta = b0 ∧ ∀ q, ∀ a ∈ notes (w.log q), a.betas = List.ofFn b0

theorem LadderInv.addNote {cfg : Cfg F} {b0 : Fin n → F} {w w' : W n F} (h : LadderInv cfg b0 w)
    (hb : w'.st.beta = w.st.beta) (ha : ∀ q, w.st.acc q ≤ w'.st.acc q)
    (hn : ∀ q, ∀ a ∈ notes (w'.log q), a ∈ notes (w.log q) ∨ (a.iter = w.st.acc q ∧ a.betas = List.ofFn w.st.beta)) :
    LadderInv cfg b0 w' := by
  refine ⟨fun r hr => by rw [hb]; exact h.ends r hr, fun q a haq => ?_, fun q a haq => ?_, fun hc => ⟨by rw [hb]; exact (h.never hc).1, fun q a haq => ?_⟩⟩
  · rcases hn q a haq with h1 | h1
    · exact h.noteEnds q a h1
    · exact ⟨w.st.beta, h1.2, h.ends⟩
  · rw [hb]
    rcases hn q a haq with h1 | h1
    · have := h.frozen q a h1
      exact ⟨this.1.trans (ha q), this.2⟩
    · exact ⟨by rw [h1.1]; exact ha q, fun _ => h1.2⟩
  · rcases hn q a haq with h1 | h1
    · exact (h.never hc).2 q a h1
    · rw [h1.2, (h.never hc).1]

theorem LadderInv.step {cfg : Cfg F} (hu : cfg.user.Wf cfg.nParm) {b0 : Fin n → F} {root : Fin n} {w w' : W n F}
    (h : Step cfg root w w') (hok : w.st.Ok cfg) (hl : LadderInv cfg b0 w) : LadderInv cfg b0 w' := by
  cases h with
  | widths =>
    refine hl.addNote rfl (fun _ => Nat.le_refl _) (fun q a ha => .inl ?_)
    simpa [seqWidths, W.push, notes] using ha
  | betas =>
    refine hl.addNote rfl (fun _ => Nat.le_refl _) (fun q a ha => .inl ?_)
    simp only [notes_append] at ha
    rcases List.mem_append.1 ha with ha | ha
    · exact ha
    · split at ha <;> simp [notes] at ha
  | draw nStack i b h => exact hl.addNote rfl (fun _ => Nat.le_refl _) (fun q a ha => .inl ha)
  | batch _ nb h =>
    obtain ⟨hc, hst, _⟩ := seqBatch_chain hu h hok
    refine hl.addNote (by rw [hst]) (fun q => ?_) (fun q a ha => ?_)
    · have := congrArg Ch.acc (hc q).2.1
      rw [mhIter_acc] at this
      have h1 : w'.st.acc q = w.st.acc q + nb.toNat := this
      omega
    · rw [(hc q).2.2, notes_append, notes_note] at ha
      rcases List.mem_append.1 ha with ha | ha
      · exact .inl ha
      · rcases List.mem_cons.1 ha with rfl | ha
        · exact .inr ⟨rfl, rfl⟩
        · split at ha
          · rw [G.mh, notes_rows] at ha; cases ha
          · cases ha
  | swap _ ty ty' h =>
    obtain ⟨i, j, d, _, hst, _, _, _⟩ := seqSwap_spec h
    refine hl.addNote (by rw [hst]) (fun q => by rw [hst]) (fun q a ha => ?_)
    rw [seqSwap_log cfg root w w' ty ty' h] at ha
    simp only [notes_append, notes_note] at ha
    rcases List.mem_append.1 ha with ha | ha
    · exact .inl ha
    · rcases List.mem_cons.1 ha with rfl | ha
      · exact .inr ⟨rfl, rfl⟩
      · cases ha
  | ladder ty h h' =>
    have hn : ∀ q, notes ((seqLadder cfg w ty).log q) = notes (w.log q) := by
      intro q; simp [seqLadder, W.push, notes]
    refine ⟨fun r hr => ?_, fun q a ha => ?_, fun q a ha => ?_, fun hc => absurd hc (by omega)⟩
    · have : ¬ (1 ≤ r.val ∧ r.val < n - 1) := by omega
      simp only [seqLadder, W.push, tuneLadder, this, if_false]
      exact hl.ends r hr
    · rw [hn] at ha
      exact hl.noteEnds q a ha
    · rw [hn] at ha
      have h1 := hl.frozen q a ha
      refine ⟨h1.1, fun hs => ?_⟩
      exfalso
      have h2 := hok.acc q root
      omega
  | tune _ rk h =>
    obtain ⟨⟨sg, hst⟩, hlog, _⟩ := seqTuneRank_frame h
    refine hl.addNote (by rw [hst]) (fun q => by rw [hst]) (fun q a ha => .inl ?_)
    rwa [hlog] at ha

theorem seqInit_ladder {cfg : Cfg F} {file : DataFile F} {clock : Nat} {root : Fin n} {w : W n F}
    (h : seqInit cfg file clock root = .ok w) : ∃ b0 : Fin n → F, (∀ r : Fin n, cfg.betas[r.val]? = some (b0 r)) ∧ LadderInv cfg b0 w := by
  simp only [seqInit, exc_bind, Except.ok.injEq] at h
  obtain ⟨_, _, data, hd, _, _, _, _, _, _, beta, hb, rfl⟩ := h
  have : ∀ (p : Prop) [Decidable p] (l : Line F), notes [l] = [] → notes (if p then [l] else []) = [] := by
    intro p _ l hl; split
    · exact hl
    · rfl
  refine ⟨beta, fun r => ?_, fun r _ => rfl, fun q a ha => ?_, fun q a ha => ?_, fun _ => ⟨rfl, fun q a ha => ?_⟩⟩
  · unfold copyBetas at hb
    split at hb
    · cases hb
      exact List.getElem?_eq_getElem _
    · cases hb
  all_goals
    exfalso
    simp only [notes_append] at ha
    rw [this _ _ rfl, this _ _ rfl] at ha
    cases ha

theorem seqMain_ladder {cfg : Cfg F} (hu : cfg.user.Wf cfg.nParm) {file : DataFile F} {clock : Nat} {root : Fin n} {w : W n F}
    (h : seqMain cfg file clock root = .ok w) :
    ∃ b0 : Fin n → F, (∀ r : Fin n, cfg.betas[r.val]? = some (b0 r)) ∧ LadderInv cfg b0 w := by
  obtain ⟨w0, h0, hs⟩ := seqMain_steps cfg file clock root w h
  obtain ⟨b0, hb, hl⟩ := seqInit_ladder h0
  exact ⟨b0, hb, (hs.inv (P := fun w => w.st.Ok cfg ∧ LadderInv cfg b0 w)
    (fun _ _ hp h => ⟨h.ok hu hp.1, hp.2.step hu h hp.1⟩) ⟨seqInit_ok hu h0, hl⟩).2⟩

/-- **C24** (whole run). In every execution, whenever a rank starts a batch or a swap, the first and the last inverse temperature
of its ladder are the configured ones. -/
theorem ladder_ends_fixed [LawfulDraws F] (cfg : Cfg F) (file : DataFile F) (hv : Valid n cfg file) (clock : Nat) (root : Fin n)
    (w : List (Label n)) (t : Sys n (Msg F) (Line F) (RSt n F)) (h : (initSys cfg file clock root).exec w = some t)
    (q : Fin n) (a : Note F) (ha : a ∈ notes (t.log q)) :
    a.betas.length = n ∧ a.betas[0]? = cfg.betas[0]? ∧ a.betas[n - 1]? = cfg.betas[n - 1]? := by
  obtain ⟨wf, hw, hall⟩ := log_prefix cfg file hv clock root
  obtain ⟨b0, hb, hl⟩ := seqMain_ladder hv.user hw
  obtain ⟨b, e, he⟩ := hl.noteEnds q a ((notes_prefix ((hall w t h).1 q)).subset ha)
  have hn := hv.ranks
  rw [e]
  refine ⟨by simp, ?_, ?_⟩
  · have h1 := hb ⟨0, by omega⟩
    simp only at h1
    rw [h1, List.getElem?_ofFn, dif_pos (by omega), he _ (.inl rfl)]
  · have h1 := hb ⟨n - 1, by omega⟩
    simp only at h1
    rw [h1, List.getElem?_ofFn, dif_pos (by omega), he _ (.inr rfl)]

example (w : List (Label 3)) (t : Sys 3 (Msg ℝ) (Line ℝ) (RSt 3 ℝ)) (h : (initSys demoCfg demoFile 0 0).exec w = some t) (a : Note ℝ)
    (ha : a ∈ notes (t.log 1)) : a.betas[0]? = some (1 / 10) ∧ a.betas[2]? = some 1 :=
  (ladder_ends_fixed demoCfg demoFile demo_valid 0 0 w t h 1 a ha).2

/-- **C28.** In every execution: with `Tune_Ladder <= 0` every ladder used is the configured one; and two ladders used by a rank
at iterations `>= N_stopTuneLadder` are equal. -/
theorem ladder_frozen [LawfulDraws F] (cfg : Cfg F) (file : DataFile F) (hv : Valid n cfg file) (clock : Nat) (root : Fin n)
    (w : List (Label n)) (t : Sys n (Msg F) (Line F) (RSt n F)) (h : (initSys cfg file clock root).exec w = some t) (q : Fin n) :
    (cfg.tuneLadder ≤ 0 → ∀ a ∈ notes (t.log q), a.betas = cfg.betas.take n) ∧
    ∀ a ∈ notes (t.log q), ∀ b ∈ notes (t.log q), cfg.nStopTuneLadder ≤ a.iter → cfg.nStopTuneLadder ≤ b.iter →
      a.betas = b.betas := by
  obtain ⟨wf, hw, hall⟩ := log_prefix cfg file hv clock root
  obtain ⟨b0, hb, hl⟩ := seqMain_ladder hv.user hw
  have hp := (notes_prefix ((hall w t h).1 q)).subset
  refine ⟨fun hc a ha => ?_, fun a ha b hbm h1 h2 => ?_⟩
  · rw [(hl.never hc).2 q a (hp ha)]
    refine List.ext_getElem? (fun i => ?_)
    rw [List.getElem?_ofFn]
    by_cases hi : i < n
    · rw [dif_pos hi, List.getElem?_take_of_lt hi, hb ⟨i, hi⟩]
    · rw [dif_neg hi, List.getElem?_eq_none (by simp; omega)]
  · rw [(hl.frozen q a (hp ha)).2 h1, (hl.frozen q b (hp hbm)).2 h2]

/-- The ladder of the demo is tuned until iteration 700. -/
example (w : List (Label 3)) (t : Sys 3 (Msg ℝ) (Line ℝ) (RSt 3 ℝ)) (h : (initSys demoCfg demoFile 0 0).exec w = some t) (a b : Note ℝ)
    (ha : a ∈ notes (t.log 1)) (hb : b ∈ notes (t.log 1)) (h1 : 700 ≤ a.iter) (h2 : 700 ≤ b.iter) : a.betas = b.betas :=
  (ladder_frozen demoCfg demoFile demo_valid 0 0 w t h 1).2 a ha b hb (by simp [demoCfg]; omega) (by simp [demoCfg]; omega)

end NiiC
