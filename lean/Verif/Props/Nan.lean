import Verif.Props.Files
import Verif.Props.Demo
import Verif.Num.Dbl

/-!
# NaN log-posteriors: C16

For doubles with any rounding (`Dbl R`).
-/

set_option linter.unusedSectionVars false
set_option linter.unusedSimpArgs false

namespace NiiC

open Spec Dbl

variable {n : Nat} {R : Rounding}

/-- **C16, one test.** A proposal whose log-posterior is NaN is rejected for every draw; a chain whose log-posterior is NaN rejects
every proposal. -/
theorem nan_rejected (new old q : Dbl R) (h : new = nan ∨ old = nan) (g : Rng) : (mhAccept new old q g).1 = false := by
  have : (new -. old : Dbl R) = nan := by rcases h with rfl | rfl <;> simp
  unfold mhAccept
  simp [this]

/-- **C16, one swap.** A swap with a NaN among the four log-posteriors is rejected for every draw. -/
theorem nan_swap_rejected (a b c d : Dbl R) (h : a = nan ∨ b = nan ∨ c = nan ∨ d = nan) (g : Rng) : (swapAccept a b c d g).1 = false := by
  have : (a +. b -. c -. d : Dbl R) = nan := by rcases h with rfl | rfl | rfl | rfl <;> simp
  unfold swapAccept
  simp [this]

theorem nan_step (u : User (Dbl R)) (sigma : List (Dbl R)) (nline : Int) (data : List (Dbl R)) (beta : Dbl R) (c : Ch (Dbl R)) :
    (c.lp = nan → (mhStep u sigma nline data beta c).x = c.x ∧ (mhStep u sigma nline data beta c).lp = nan) ∧
    (c.lp ≠ nan → (mhStep u sigma nline data beta c).lp ≠ nan) := by
  have e : ∀ new old g, (Spec.accept (F := Dbl R) new old g).1 = (mhAccept new old (ofI 1) g).1 := fun _ _ _ => rfl
  constructor
  · intro h
    unfold mhStep
    simp only
    rw [if_neg]
    · exact ⟨rfl, h⟩
    · rw [e, nan_rejected _ _ _ (.inr h)]; simp
  · intro h
    unfold mhStep
    simp only
    split
    · rename_i ha
      intro hn
      rw [e, nan_rejected _ _ _ (.inl hn)] at ha
      cases ha
    · exact h

/-- What a swap can do to a chain as far as NaN is concerned. -/
theorem nan_seqSwap {cfg : Cfg (Dbl R)} {root : Fin n} {w w' : W n (Dbl R)} {ty ty' : Tally n (Dbl R)}
    (h : seqSwap cfg root w ty = .ok (w', ty')) (r : Fin n) :
    (w.st.lp r = nan → w'.st.x r = w.st.x r ∧ w'.st.lp r = nan) ∧ (w.st.lp r ≠ nan → w'.st.lp r ≠ nan) := by
  simp only [seqSwap, exc_bind, Except.ok.injEq, Prod.mk.injEq] at h
  obtain ⟨i, hi, j, hj, rfl, rfl⟩ := h
  simp only [W.push]
  by_cases ha : (swapAccept (logPost cfg (w.st.x i) w.st.nline w.st.data (w.st.beta j)) (logPost cfg (w.st.x j) w.st.nline w.st.data (w.st.beta i))
      (w.st.lp i) (w.st.lp j) (pickJ (Dbl R) n cfg.swapmode (i4Unif0a (Dbl R) ((n : Int) - 1) (w.st.g root)).1
      (i4Unif0a (Dbl R) ((n : Int) - 1) (w.st.g root)).2).2).1 = true
  · have key : ¬ (logPost cfg (w.st.x i) w.st.nline w.st.data (w.st.beta j) = nan ∨ logPost cfg (w.st.x j) w.st.nline w.st.data (w.st.beta i) = nan ∨
        w.st.lp i = nan ∨ w.st.lp j = nan) := by
      intro hn
      rw [nan_swap_rejected _ _ _ _ hn] at ha
      cases ha
    simp only [not_or] at key
    simp only [ha, if_true, swapTab, G.tab, Function.update_apply]
    by_cases h1 : r = j
    · subst h1
      simp only [if_true]
      exact ⟨fun h => absurd h key.2.2.2, fun _ => key.1⟩
    · by_cases h2 : r = i
      · subst h2
        simp only [h1, if_true, if_false]
        exact ⟨fun h => absurd h key.2.2.1, fun _ => key.2.1⟩
      · simp only [h1, h2, if_false]
        exact ⟨fun h => ⟨trivial, h⟩, fun h => h⟩
  · simp only [Bool.not_eq_true] at ha
    simp only [ha, if_false, G.tab, Bool.false_eq_true]
    exact ⟨fun h => ⟨trivial, h⟩, fun h => h⟩

/-- Rows after a row with NaN repeat its point. -/
def Stuck : List (Row (Dbl R)) → Prop
  | [] => True
  | a :: l => (a.lp = nan → ∀ b ∈ l, b.x = a.x ∧ b.lp = nan) ∧ Stuck l

theorem Stuck.append {l l' : List (Row (Dbl R))} (h : Stuck l) (h' : Stuck l')
    (hh : ∀ a ∈ l, a.lp = nan → ∀ b ∈ l', b.x = a.x ∧ b.lp = nan) : Stuck (l ++ l') := by
  induction l with
  | nil => exact h'
  | cons a l ih =>
    refine ⟨fun ha b hb => ?_, ih h.2 (fun c hc => hh c (List.mem_cons_of_mem _ hc))⟩
    rcases List.mem_append.1 hb with hb | hb
    · exact h.1 ha b hb
    · exact hh a (List.mem_cons_self) ha b hb

theorem Stuck.take {l : List (Row (Dbl R))} (h : Stuck l) {i j : Nat} (hij : i < j) {a b : Row (Dbl R)} (ha : l[i]? = some a) (hb : l[j]? = some b)
    (hn : a.lp = nan) : b.x = a.x ∧ b.lp = nan := by
  induction l generalizing i j with
  | nil => simp at ha
  | cons c l ih =>
    cases j with
    | zero => omega
    | succ j =>
      rw [List.getElem?_cons_succ] at hb
      cases i with
      | zero =>
        rw [List.getElem?_cons_zero] at ha
        cases ha
        exact h.1 hn b (List.mem_of_getElem? hb)
      | succ i =>
        rw [List.getElem?_cons_succ] at ha
        exact ih h.2 (by omega) ha hb

/-- A chain in relation to the rows in its file: where a row has NaN the chain has not moved since, and if no row has NaN, the chain has not. -/
structure NanInv (r : Fin n) (w : W n (Dbl R)) : Prop where
  stuck : Stuck (fileRows r.val (w.log r))
  now : ∀ a ∈ fileRows r.val (w.log r), a.lp = nan → w.st.x r = a.x ∧ w.st.lp r = nan

theorem nan_run (u : User (Dbl R)) (sigma : List (Dbl R)) (nline : Int) (data : List (Dbl R)) (beta : Dbl R) (rank : Nat) : ∀ (k : Nat) (c : Ch (Dbl R)),
    Stuck (fileRows rank ((mhRun u sigma nline data beta k c).map (line rank))) ∧
    (c.lp = nan → ∀ b ∈ fileRows rank ((mhRun u sigma nline data beta k c).map (line rank)), b.x = c.x ∧ b.lp = nan) ∧
    (∀ b ∈ fileRows rank ((mhRun u sigma nline data beta k c).map (line rank)), b.lp = nan →
      (mhIter u sigma nline data beta k c).x = b.x ∧ (mhIter u sigma nline data beta k c).lp = nan) ∧
    (c.lp = nan → (mhIter u sigma nline data beta k c).x = c.x ∧ (mhIter u sigma nline data beta k c).lp = nan) := by
  intro k
  induction k with
  | zero => intro c; exact ⟨trivial, fun _ b hb => (by cases hb), fun b hb => (by cases hb), fun h => ⟨rfl, h⟩⟩
  | succ k ih =>
    intro c
    obtain ⟨h1, h2, h3, h4⟩ := ih (mhStep u sigma nline data beta c)
    have e : fileRows rank ((mhRun u sigma nline data beta (k + 1) c).map (line rank)) =
        ⟨(mhStep u sigma nline data beta c).x, (mhStep u sigma nline data beta c).lp, (mhStep u sigma nline data beta c).acc,
          (mhStep u sigma nline data beta c).accA⟩ :: fileRows rank ((mhRun u sigma nline data beta k (mhStep u sigma nline data beta c)).map (line rank)) := by
      simp [mhRun, fileRows, line]
    rw [e]
    have hn := nan_step u sigma nline data beta c
    have h4' : c.lp = nan → (mhIter u sigma nline data beta (k + 1) c).x = c.x ∧ (mhIter u sigma nline data beta (k + 1) c).lp = nan := by
      intro h
      obtain ⟨a, b⟩ := hn.1 h
      have := h4 b
      rw [a] at this
      exact this
    refine ⟨⟨fun ha b hb => h2 ha b hb, h1⟩, fun h b hb => ?_, fun b hb hbn => ?_, h4'⟩
    · obtain ⟨a, a'⟩ := hn.1 h
      rcases List.mem_cons.1 hb with rfl | hb
      · exact ⟨a, a'⟩
      · obtain ⟨b1, b2⟩ := h2 a' b hb
        exact ⟨b1.trans a, b2⟩
    · rcases List.mem_cons.1 hb with rfl | hb
      · exact h4 hbn
      · exact h3 b hb hbn

theorem NanInv.sub {r : Fin n} {w w' : W n (Dbl R)} (h : NanInv r w) (hr : fileRows r.val (w'.log r) = fileRows r.val (w.log r))
    (hx : w.st.lp r = nan → w'.st.x r = w.st.x r ∧ w'.st.lp r = nan) : NanInv r w' := by
  refine ⟨by rw [hr]; exact h.stuck, fun a ha hn => ?_⟩
  rw [hr] at ha
  obtain ⟨h1, h2⟩ := h.now a ha hn
  obtain ⟨h3, h4⟩ := hx h2
  exact ⟨h3.trans h1, h4⟩

theorem NanInv.step {cfg : Cfg (Dbl R)} (hu : cfg.user.Wf cfg.nParm) {r : Fin n} {root : Fin n} {w w' : W n (Dbl R)} (h : Step cfg root w w')
    (hok : w.st.Ok cfg) (hl : NanInv r w) : NanInv r w' := by
  have app : ∀ {l l' : List (Line (Dbl R))}, fileRows r.val l' = [] → fileRows r.val (l ++ l') = fileRows r.val l := by
    intro l l' h; rw [fileRows_append, h, List.append_nil]
  cases h with
  | widths => exact hl.sub (app rfl) (fun h => ⟨rfl, h⟩)
  | betas =>
    refine hl.sub (app ?_) (fun h => ⟨rfl, h⟩)
    split <;> rfl
  | draw nStack i b h => exact hl.sub rfl (fun h => ⟨rfl, h⟩)
  | batch _ nb h =>
    obtain ⟨hc, _, _⟩ := seqBatch_chain hu h hok
    have hx : w'.st.x r = (mhIter cfg.user (w.st.cur r) w.st.nline w.st.data (w.st.beta r) nb.toNat (w.st.ch r)).x := congrArg Ch.x (hc r).2.1
    have hlp : w'.st.lp r = (mhIter cfg.user (w.st.cur r) w.st.nline w.st.data (w.st.beta r) nb.toNat (w.st.ch r)).lp := congrArg Ch.lp (hc r).2.1
    obtain ⟨h1, h2, h3, h4⟩ := nan_run cfg.user (w.st.cur r) w.st.nline w.st.data (w.st.beta r) r.val nb.toNat (w.st.ch r)
    have hlog := (hc r).2.2
    split at hlog
    · have hrow : fileRows r.val (w'.log r) = fileRows r.val (w.log r) ++
          fileRows r.val ((mhRun cfg.user (w.st.cur r) w.st.nline w.st.data (w.st.beta r) nb.toNat (w.st.ch r)).map (line r.val)) := by
        rw [hlog, fileRows_append, fileRows_note]
        rfl
      refine ⟨?_, fun a ha hn => ?_⟩
      · rw [hrow]
        refine hl.stuck.append h1 (fun a ha hn b hb => ?_)
        obtain ⟨e1, e2⟩ := hl.now a ha hn
        obtain ⟨e3, e4⟩ := h2 e2 b hb
        exact ⟨e3.trans e1, e4⟩
      · rw [hrow] at ha
        rw [hx, hlp]
        rcases List.mem_append.1 ha with ha | ha
        · obtain ⟨e1, e2⟩ := hl.now a ha hn
          obtain ⟨e3, e4⟩ := h4 e2
          exact ⟨e3.trans e1, e4⟩
        · exact h3 a ha hn
    · refine hl.sub ?_ (fun hn => ?_)
      · rw [hlog, fileRows_append, fileRows_note]
        simp [fileRows]
      · rw [hx, hlp]
        exact h4 hn
  | swap _ ty ty' h =>
    refine hl.sub ?_ (nan_seqSwap h r).1
    rw [seqSwap_log cfg root w w' ty ty' h]
    exact app rfl
  | ladder ty h h' => exact hl.sub (app rfl) (fun h => ⟨rfl, h⟩)
  | tune _ rk h =>
    obtain ⟨⟨sg, hst⟩, hlog, _⟩ := seqTuneRank_frame h
    exact hl.sub (by rw [hlog]) (fun h => by rw [hst]; exact ⟨rfl, h⟩)

theorem seqInit_row {cfg : Cfg (Dbl R)} {file : DataFile (Dbl R)} {clock : Nat} {root : Fin n} {w : W n (Dbl R)}
    (h : seqInit cfg file clock root = .ok w) (r : Fin n) : fileRows r.val (w.log r) = [⟨w.st.x r, w.st.lp r, 0, 0⟩] := by
  simp only [seqInit, exc_bind, Except.ok.injEq] at h
  obtain ⟨_, _, data, hd, _, _, _, _, _, _, beta, hb, rfl⟩ := h
  have : ∀ (p : Prop) [Decidable p] (l : Line (Dbl R)), fileRows r.val [l] = [] → fileRows r.val (if p then [l] else []) = [] := by
    intro p _ l hl; split
    · exact hl
    · rfl
  simp only [fileRows_append]
  rw [this _ _ rfl, this _ _ rfl]
  simp [fileRows]

/-- **C16, whole runs.** In every execution, after a row of a chain file whose log-posterior is NaN every later row of that file has the
same parameters and NaN again. -/
theorem nan_stuck (cfg : Cfg (Dbl R)) (file : DataFile (Dbl R)) (hv : Valid n cfg file) (clock : Nat) (root : Fin n)
    (w : List (Label n)) (t : Sys n (Msg (Dbl R)) (Line (Dbl R)) (RSt n (Dbl R))) (h : (initSys cfg file clock root).exec w = some t)
    (r : Fin n) (i j : Nat) (hij : i < j) (a b : Row (Dbl R)) (ha : (fileRows r.val (t.log r))[i]? = some a)
    (hb : (fileRows r.val (t.log r))[j]? = some b) (hn : a.lp = nan) : b.x = a.x ∧ b.lp = nan := by
  obtain ⟨wf, hw, hall⟩ := log_prefix cfg file hv clock root
  obtain ⟨w0, h0, hs⟩ := seqMain_steps cfg file clock root wf hw
  have hI : NanInv r w0 := by
    refine ⟨by rw [seqInit_row h0]; exact ⟨fun _ b hb => (by cases hb), trivial⟩, fun a ha hn => ?_⟩
    rw [seqInit_row h0] at ha
    rw [List.mem_singleton.1 ha] at hn ⊢
    exact ⟨rfl, hn⟩
  have hf := (hs.inv (P := fun w => w.st.Ok cfg ∧ NanInv r w) (fun _ _ hp h => ⟨h.ok hv.user hp.1, hp.2.step hv.user h hp.1⟩)
    ⟨seqInit_ok hv.user h0, hI⟩).2
  obtain ⟨l, e⟩ := fileRows_prefix (k := r.val) ((hall w t h).1 r)
  have up : ∀ (i : Nat) (a : Row (Dbl R)), (fileRows r.val (t.log r))[i]? = some a → (fileRows r.val (wf.log r))[i]? = some a := by
    intro i a ha
    rw [← e, List.getElem?_append_left (List.getElem?_eq_some_iff.1 ha).1]
    exact ha
  exact hf.stuck.take hij (up i a ha) (up j b hb) hn

example (w : List (Label 3)) (t : Sys 3 (Msg XReal) (Line XReal) (RSt 3 XReal)) (h : (initSys demoCfgX demoFileX 7 0).exec w = some t)
    (a b : Row XReal) (ha : (fileRows 1 (t.log 1))[4]? = some a) (hb : (fileRows 1 (t.log 1))[9]? = some b) (hn : a.lp = nan) : b.x = a.x :=
  (nan_stuck demoCfgX demoFileX demoX_valid 7 0 w t h 1 4 9 (by decide) a b ha hb hn).1

/-- No chain has NaN. -/
structure NoNan (w : W n (Dbl R)) : Prop where
  now : ∀ r, w.st.lp r ≠ nan
  rows : ∀ r : Fin n, ∀ a ∈ fileRows r.val (w.log r), a.lp ≠ nan

theorem NoNan.step {cfg : Cfg (Dbl R)} (hu : cfg.user.Wf cfg.nParm) {root : Fin n} {w w' : W n (Dbl R)} (h : Step cfg root w w')
    (hok : w.st.Ok cfg) (hl : NoNan w) : NoNan w' := by
  cases h with
  | widths => exact ⟨hl.now, fun r a ha => hl.rows r a (fileRows_sub ha rfl)⟩
  | betas =>
    refine ⟨hl.now, fun r a ha => hl.rows r a (fileRows_sub ha ?_)⟩
    split <;> rfl
  | draw nStack i b h => exact ⟨hl.now, hl.rows⟩
  | batch _ nb h =>
    obtain ⟨hc, _, _⟩ := seqBatch_chain hu h hok
    have hstep := fun r (c : Ch (Dbl R)) => (nan_step cfg.user (w.st.cur r) w.st.nline w.st.data (w.st.beta r) c).2
    refine ⟨fun r => ?_, fun r a ha => ?_⟩
    · rw [show w'.st.lp r = _ from congrArg Ch.lp (hc r).2.1]
      exact mhIter_inv (P := fun c => c.lp ≠ nan) _ _ _ _ _ (hstep r) nb.toNat _ (hl.now r)
    · rw [(hc r).2.2, fileRows_append, fileRows_note] at ha
      rcases List.mem_append.1 ha with ha | ha
      · exact hl.rows r a ha
      · split at ha
        · obtain ⟨c, hcm, rfl⟩ := fileRows_lines_mem ha
          exact mhRun_inv (P := fun c => c.lp ≠ nan) _ _ _ _ _ (hstep r) nb.toNat _ (hl.now r) c hcm
        · simp [fileRows] at ha
  | swap _ ty ty' h =>
    refine ⟨fun r => (nan_seqSwap h r).2 (hl.now r), fun r a ha => ?_⟩
    rw [seqSwap_log cfg root w w' ty ty' h] at ha
    exact hl.rows r a (fileRows_sub ha rfl)
  | ladder ty h h' => exact ⟨hl.now, fun r a ha => hl.rows r a (fileRows_sub ha rfl)⟩
  | tune _ rk h =>
    obtain ⟨⟨sg, hst⟩, hlog, _⟩ := seqTuneRank_frame h
    exact ⟨by rw [hst]; exact hl.now, by rw [hlog]; exact hl.rows⟩

/-- **C16, whole runs.** If no chain starts with a NaN log-posterior, no row of any chain file of any execution has one. -/
theorem nan_never_enters (cfg : Cfg (Dbl R)) (file : DataFile (Dbl R)) (hv : Valid n cfg file) (clock : Nat) (root : Fin n)
    (h0 : ∀ (s : Nat) (data : List (Dbl R)) (b : Dbl R), file.cells = .ok data → b ∈ cfg.betas →
      target cfg.user file.nlines data b (cfg.user.initParm s).1 ≠ nan)
    (w : List (Label n)) (t : Sys n (Msg (Dbl R)) (Line (Dbl R)) (RSt n (Dbl R))) (h : (initSys cfg file clock root).exec w = some t)
    (r : Fin n) (a : Row (Dbl R)) (ha : a ∈ fileRows r.val (t.log r)) : a.lp ≠ nan := by
  obtain ⟨wf, hw, hall⟩ := log_prefix cfg file hv clock root
  obtain ⟨w0, hi, hs⟩ := seqMain_steps cfg file clock root wf hw
  have hI : NoNan w0 := by
    have hnow : ∀ r, w0.st.lp r ≠ nan := by
      intro r
      have hi' := hi
      simp only [seqInit, exc_bind, Except.ok.injEq] at hi'
      obtain ⟨_, _, data, hd, _, _, _, _, _, _, beta, hb, rfl⟩ := hi'
      exact h0 _ data _ hd (List.mem_of_getElem? (copyBetas_get hb r))
    refine ⟨hnow, fun r a ha => ?_⟩
    rw [seqInit_row hi] at ha
    rw [List.mem_singleton.1 ha]
    exact hnow r
  have hf := (hs.inv (P := fun w => w.st.Ok cfg ∧ NoNan w) (fun _ _ hp h => ⟨h.ok hv.user hp.1, hp.2.step hv.user h hp.1⟩)
    ⟨seqInit_ok hv.user hi, hI⟩).2
  exact hf.rows r a ((fileRows_prefix ((hall w t h).1 r)).subset ha)

/-- The demo over numbers with NaN starts without NaN: its start points are numbers in the box. -/
example (w : List (Label 3)) (t : Sys 3 (Msg XReal) (Line XReal) (RSt 3 XReal)) (h : (initSys demoCfgX demoFileX 7 0).exec w = some t)
    (r : Fin 3) (a : Row XReal) (ha : a ∈ fileRows r.val (t.log r)) : a.lp ≠ nan := by
  refine nan_never_enters demoCfgX demoFileX demoX_valid 7 0 (fun s data b hd hb => ?_) w t h r a ha
  obtain ⟨x, hx⟩ : ∃ x : ℝ, (demoCfgX.user.initParm s).1 = [fin x] := by
    refine ⟨(lcgNext (lcgSeed s) : ℝ) / 2 ^ 48 * (5 - -5) + -5, ?_⟩
    simp only [demoCfgX, demoUserX, r8UnifAb, drand48_dbl, srand48_posix, XReal.sub_eq, XReal.mul_eq, XReal.add_eq]
  obtain ⟨y, rfl⟩ : ∃ y : ℝ, b = fin y := by
    simp only [demoCfgX, List.mem_cons, List.not_mem_nil, or_false] at hb
    rcases hb with h | h | h <;> exact ⟨_, h⟩
  simp only [target, hx]
  simp only [demoCfgX, demoUserX, XReal.mul_eq, XReal.neg_eq, XReal.ofI_eq, XReal.add_eq]
  exact XReal.fin_ne_nan _

end NiiC
