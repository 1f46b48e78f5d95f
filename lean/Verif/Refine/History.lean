import Verif.Refine.Streamed
import Verif.Props.Run

/-!
# The tables after every iteration

The history of the streamed program (`Verif.Refine.Streamed`) and the proof that the chain files contain it. Helpers for C80.
-/

set_option linter.unusedSectionVars false
set_option linter.unusedSimpArgs false

namespace NiiC

open Set NNReal

section
variable {n d : Nat} (S : Setting n d)

/-- The tables after each of `k` iterations, with the numbers of the iterations; `t` are already done. -/
noncomputable def roundsH : (t k : Nat) → (Fin n → Fin d → ℝ) × (Fin n → Draws) → List (Nat × (Fin n → Fin d → ℝ))
  | _, 0, _ => []
  | t, k + 1, p => (t + 1, (roundS S p).1) :: roundsH (t + 1) k (roundS S p)

/-- The tables after each iteration of a stack, mpi_stack.c:100-198. -/
noncomputable def stackH (cfg : Cfg ℝ) (root : Fin n) (nStack : Int) :
    (fuel : Nat) → (t : Nat) → (i : Int) → (Fin n → Fin d → ℝ) × (Fin n → Draws) → List (Nat × (Fin n → Fin d → ℝ))
  | 0, _, _, _ => []
  | fuel + 1, t, i, p =>
    if i < nStack then
      let k := i4UnifAbVal (-cfg.rand) cfg.rand (pop (p.2 root)).1
      let b := sizeOf' cfg nStack i k
      let q := (p.1, Function.update p.2 root (pop (p.2 root)).2)
      roundsH S t b.toNat q ++ stackH cfg root nStack fuel (t + b.toNat) (i + b) (legS S cfg root b q)
    else []

/-- The tables after each iteration from iteration `i` on, mpi_flow.c:58-135 without tuning. -/
noncomputable def flowH (cfg : Cfg ℝ) (root : Fin n) :
    (fuel : Nat) → (nStack i : Int) → (Fin n → Fin d → ℝ) × (Fin n → Draws) → List (Nat × (Fin n → Fin d → ℝ))
  | 0, _, _, _ => []
  | fuel + 1, nStack, i, p =>
    if i < cfg.nIter then
      let nStack' := if cfg.nIter < i + nStack then cfg.nIter - i else nStack
      stackH S cfg root nStack' nStack'.toNat i.toNat 0 p ++ flowH cfg root fuel nStack' (i + nStack') (stackS S cfg root nStack' nStack'.toNat 0 p)
    else []

theorem roundsH_numbers : ∀ (k t : Nat) (p : (Fin n → Fin d → ℝ) × (Fin n → Draws)), (roundsH S t k p).map Prod.fst = List.range' (t + 1) k
  | 0, _, _ => rfl
  | k + 1, t, p => by rw [roundsH, List.map_cons, roundsH_numbers k, List.range'_succ]

/-! ## The numbers of a history -/

/-- All numbers of all streams are in `[0, 1)`. -/
def InUnit (ω : Fin n → Draws) : Prop := ∀ r k, 0 ≤ ω r k ∧ ω r k < 1

/-- What is left of a stream are numbers of the stream. -/
def Part (ω ω' : Draws) : Prop := ∀ k, ∃ j, ω' k = ω j

theorem Part.id (ω : Draws) : Part ω ω := fun k => ⟨k, rfl⟩

theorem Part.trans {ω ω' ω'' : Draws} (h : Part ω ω') (h' : Part ω' ω'') : Part ω ω'' := fun k => by
  obtain ⟨j, e⟩ := h' k
  obtain ⟨i, e'⟩ := h j
  exact ⟨i, e.trans e'⟩

theorem Part.pop (ω : Draws) : Part ω (pop ω).2 := fun k => ⟨k + 1, rfl⟩

theorem Part.pop2 (ω : Draws) : Part ω (pop2 ω).2 := (Part.pop ω).trans (Part.pop _)

theorem Part.pairs : ∀ (d : Nat) (ω : Draws), Part ω (pairsS d ω).2
  | 0, ω => Part.id ω
  | d + 1, ω => (Part.pop2 ω).trans (Part.pairs d _)

theorem Part.accept (a b : ℝ) (ω : Draws) : Part ω (acceptS a b ω).2 := by
  unfold acceptS
  split
  · exact Part.id ω
  · exact Part.pop ω

theorem Part.step (r : Fin n) (p : (Fin d → ℝ) × Draws) : Part p.2 (stepS S r p).2 := (Part.pairs d p.2).trans (Part.accept _ _ _)

theorem Part.pick (n : Nat) (mode : Int) (ω : Draws) : Part ω (pickS n mode ω).2 := by
  unfold pickS
  split
  · exact Part.pop ω
  · exact Part.pop2 ω

theorem Part.judge (ij : Int × Int) (p : (Fin n → Fin d → ℝ) × Draws) : Part p.2 (judgeI S ij p).2 := by
  unfold judgeI
  split
  · unfold judgeS
    dsimp only
    split
    · exact Part.id _
    · exact Part.pop _
  · exact Part.id _

theorem Part.swap (mode : Int) (p : (Fin n → Fin d → ℝ) × Draws) : Part p.2 (swapS S mode p).2 := (Part.pick n mode p.2).trans (Part.judge S _ _)

theorem InUnit.part {ω ω' : Fin n → Draws} (h : InUnit ω) (hp : ∀ r, Part (ω r) (ω' r)) : InUnit ω' := fun r k => by
  obtain ⟨j, e⟩ := hp r k
  rw [e]
  exact h r j

theorem InUnit.update {ω : Fin n → Draws} (h : InUnit ω) {root : Fin n} {ω' : Draws} (hp : Part (ω root) ω') : InUnit (Function.update ω root ω') :=
  h.part fun r => by
    by_cases e : r = root
    · subst e; simpa using hp
    · simpa [e] using Part.id _

theorem InUnit.leg (cfg : Cfg ℝ) (root : Fin n) (b : Int) {p : (Fin n → Fin d → ℝ) × (Fin n → Draws)} (h : InUnit p.2) : InUnit (legS S cfg root b p).2 := by
  have h1 : ∀ (k : Nat) p, InUnit p.2 → InUnit ((roundS S)^[k] p).2 := fun k => by
    induction k with
    | zero => exact fun p h => h
    | succ k ih => exact fun p h => ih _ (h.part fun r => Part.step S r (p.1 r, p.2 r))
  have h2 : ∀ (k : Nat) p, InUnit p.2 → InUnit ((onRoot root (swapS S cfg.swapmode))^[k] p).2 := fun k => by
    induction k with
    | zero => exact fun p h => h
    | succ k ih => exact fun p h => ih _ (h.update (Part.swap S cfg.swapmode (p.1, p.2 root)))
  exact h2 _ _ (h1 _ _ h)

theorem size_pos {cfg : Cfg ℝ} (hr : 0 ≤ cfg.rand) (hb : cfg.rand < cfg.base) {root : Fin n} {ω : Fin n → Draws} (h : InUnit ω) {nStack i : Int} (hi : i < nStack) :
    0 < sizeOf' cfg nStack i (i4UnifAbVal (-cfg.rand) cfg.rand (pop (ω root)).1) ∧ i + sizeOf' cfg nStack i (i4UnifAbVal (-cfg.rand) cfg.rand (pop (ω root)).1) ≤ nStack := by
  have := i4UnifAbVal_real (-cfg.rand) cfg.rand (by omega) (ω root 0) (h root 0).1 (h root 0).2
  have e : (pop (ω root)).1 = ω root 0 := rfl
  rw [e]
  unfold sizeOf'
  split <;> omega

theorem stackH_numbers {cfg : Cfg ℝ} (hr : 0 ≤ cfg.rand) (hb : cfg.rand < cfg.base) (root : Fin n) (nStack : Int) : ∀ (fuel t : Nat) (i : Int)
    (p : (Fin n → Fin d → ℝ) × (Fin n → Draws)), InUnit p.2 → i ≤ nStack → nStack - i ≤ fuel →
    (stackH S cfg root nStack fuel t i p).map Prod.fst = List.range' (t + 1) (nStack - i).toNat ∧ InUnit (stackS S cfg root nStack fuel i p).2 := by
  intro fuel
  induction fuel with
  | zero =>
    intro t i p hp h1 h2
    have : (nStack - i).toNat = 0 := by omega
    rw [this]
    exact ⟨rfl, hp⟩
  | succ fuel ih =>
    intro t i p hp h1 h2
    by_cases hi : i < nStack
    · obtain ⟨s1, s2⟩ := size_pos hr hb (root := root) hp hi
      rw [stackH, if_pos hi, stackS, if_pos hi]
      obtain ⟨a1, a2⟩ := ih (t + (sizeOf' cfg nStack i (i4UnifAbVal (-cfg.rand) cfg.rand (pop (p.2 root)).1)).toNat)
        (i + sizeOf' cfg nStack i (i4UnifAbVal (-cfg.rand) cfg.rand (pop (p.2 root)).1)) _ (InUnit.leg S cfg root (sizeOf' cfg nStack i (i4UnifAbVal (-cfg.rand) cfg.rand (pop (p.2 root)).1))
          (p := (p.1, Function.update p.2 root (pop (p.2 root)).2)) (hp.update (Part.pop _))) s2 (by omega)
      refine ⟨?_, a2⟩
      dsimp only
      generalize sizeOf' cfg nStack i (i4UnifAbVal (-cfg.rand) cfg.rand (pop (p.2 root)).1) = b at *
      rw [List.map_append, roundsH_numbers, a1, show t + b.toNat + 1 = t + 1 + 1 * b.toNat by omega, List.range'_append]
      congr 1
      omega
    · rw [stackH, if_neg hi, stackS, if_neg hi]
      have : (nStack - i).toNat = 0 := by omega
      rw [this]
      exact ⟨rfl, hp⟩

/-- With numbers from `[0, 1)` in the streams, a history has one table for each iteration. -/
theorem flowH_numbers {cfg : Cfg ℝ} (hr : 0 ≤ cfg.rand) (hb : cfg.rand < cfg.base) (root : Fin n) : ∀ (fuel : Nat) (nStack i : Int)
    (p : (Fin n → Fin d → ℝ) × (Fin n → Draws)), InUnit p.2 → 1 ≤ nStack → 0 ≤ i → i ≤ cfg.nIter → cfg.nIter - i ≤ fuel →
    (flowH S cfg root fuel nStack i p).map Prod.fst = List.range' (i.toNat + 1) (cfg.nIter.toNat - i.toNat) := by
  intro fuel
  induction fuel with
  | zero =>
    intro nStack i p hp h1 h0 h2 h3
    have : cfg.nIter.toNat - i.toNat = 0 := by omega
    rw [this]
    rfl
  | succ fuel ih =>
    intro nStack i p hp h1 h0 h2 h3
    rw [flowH]
    split
    · rename_i hi
      dsimp only
      have hpos : 1 ≤ (if cfg.nIter < i + nStack then cfg.nIter - i else nStack) ∧ i + (if cfg.nIter < i + nStack then cfg.nIter - i else nStack) ≤ cfg.nIter := by
        split <;> omega
      generalize (if cfg.nIter < i + nStack then cfg.nIter - i else nStack) = nS at hpos ⊢
      obtain ⟨a1, a2⟩ := stackH_numbers S hr hb root nS nS.toNat i.toNat 0 p hp (by omega) (by omega)
      rw [List.map_append, a1, ih nS (i + nS) _ a2 hpos.1 (by omega) hpos.2 (by omega), show (i + nS).toNat + 1 = i.toNat + 1 + 1 * (nS - 0).toNat by omega, List.range'_append]
      congr 1
      omega
    · have : cfg.nIter.toNat - i.toNat = 0 := by omega
      rw [this]
      rfl

/-! ## The rows of a chain file -/

/-- The rows `l`, written while the iterations after the first `t` gave the tables `H`, show the points of chain `r` after every iteration number above `B`. -/
structure Writes (B : Nat) (r : Fin n) (t t' : Nat) (l : List (Row ℝ)) (H : List (Nat × (Fin n → Fin d → ℝ))) : Prop where
  rows : (l.filter fun a => decide (B < a.iter)).map (fun a => (a.iter, a.x)) = (H.filter fun a => decide (B < a.1)).map fun a => (a.1, List.ofFn (a.2 r))
  numbers : H.map Prod.fst = List.range' (t + 1) (t' - t)
  le : t ≤ t'

theorem Writes.nil (B : Nat) (r : Fin n) (t : Nat) : Writes (d := d) B r t t [] [] := ⟨by simp, by simp, le_rfl⟩

theorem Writes.append {B : Nat} {r : Fin n} {t t' t'' : Nat} {l l' : List (Row ℝ)} {H H' : List (Nat × (Fin n → Fin d → ℝ))} (h : Writes B r t t' l H)
    (h' : Writes B r t' t'' l' H') : Writes B r t t'' (l ++ l') (H ++ H') := by
  have h1 := h.le
  have h2 := h'.le
  refine ⟨?_, ?_, by omega⟩
  · rw [List.filter_append, List.map_append, h.rows, h'.rows, List.filter_append, List.map_append]
  · rw [List.map_append, h.numbers, h'.numbers]
    have e : t' + 1 = t + 1 + 1 * (t' - t) := by omega
    rw [e, List.range'_append]
    congr 1
    omega

variable [Source ℝ] {S} {cfg : Cfg ℝ} {nline : Int} {data : List ℝ}

theorem run_stream (hf : Fits cfg S nline data) (r : Fin n) : ∀ (k : Nat) (c : Spec.Ch ℝ) (p : (Fin n → Fin d → ℝ) × (Fin n → Draws)), c.x = List.ofFn (p.1 r) →
    c.lp = S.T.lp (S.beta r) (p.1 r) → streamOf c.g = p.2 r →
    (Spec.mhRun cfg.user (List.ofFn fun i => (S.s r i : ℝ)) nline data (S.beta r) k c).map (fun c => (c.acc, c.x)) =
      (roundsH S c.acc k p).map fun a => (a.1, List.ofFn (a.2 r)) := by
  intro k
  induction k with
  | zero => intro c p _ _ _; rfl
  | succ k ih =>
    intro c p hx hl hg
    obtain ⟨h1, h2, h3⟩ := step_stream hf r c (p.1 r) hx hl
    rw [hg] at h1 h2 h3
    have hac : (Spec.mhStep cfg.user (List.ofFn fun i => (S.s r i : ℝ)) nline data (S.beta r) c).acc = c.acc + 1 := by
      unfold Spec.mhStep
      simp only
      split <;> rfl
    rw [Spec.mhRun, roundsH, List.map_cons, List.map_cons, ih _ (roundS S p) h1 h2 h3, hac, h1]
    rfl

theorem batch_writes (hf : Fits cfg S nline data) {B : Nat} (hB : cfg.saveBegin ≤ B + 1) (nb : Int) (hb : 0 < nb) (w w' : W n ℝ) (p : (Fin n → Fin d → ℝ) × (Fin n → Draws))
    (hp : Shows cfg S nline data w.st p) (h : seqBatch cfg nb w = .ok w') (r : Fin n) :
    ∃ l, fileRows r.val (w'.log r) = fileRows r.val (w.log r) ++ l ∧ Writes B r (w.st.acc r) (w.st.acc r + nb.toNat) l (roundsH S (w.st.acc r) nb.toNat p) := by
  unfold seqBatch at h
  obtain ⟨bs, hbs, h⟩ := exc_bind.1 h
  rw [allOk_ok] at hbs
  have hw := (Except.ok.inj h).symm
  subst hw
  have h1 := hbs r
  have h2 := iterBatch_eq cfg.nParm cfg.user (w.st.cur r) w.st.nline w.st.data (w.st.beta r) hf.wf (by rw [hp.cur r, List.length_ofFn, hf.parms]) r.val
    cfg.saveBegin nb hb ⟨w.st.x r, w.st.lp r, w.st.acc r, w.st.accA r, w.st.g r⟩ (by rw [hp.x r, List.length_ofFn, hf.parms])
  have h3 : localBatch cfg r (w.st.loc r) nb (w.st.x r) (w.st.lp r) = _ := h2
  rw [h1] at h3
  have hl : (bs r).lines = _ := congrArg BatchOut.lines (Except.ok.inj h3)
  have hx := run_stream hf r nb.toNat ⟨w.st.x r, w.st.lp r, w.st.acc r, w.st.accA r, w.st.g r⟩ p (hp.x r) (hp.lp r) (hp.g r)
  refine ⟨fileRows r.val (bs r).lines, ?_, ⟨?_, ?_, by omega⟩⟩
  · show fileRows r.val (w.log r ++ ((w.st.loc r).note :: (bs r).lines)) = _
    rw [fileRows_append, fileRows_note]
  · simp only [hl]
    split
    · rw [fileRows_lines]
      have e0 : ∀ L : List (Spec.Ch ℝ), ((L.map fun c => (⟨c.x, c.lp, c.acc, c.accA⟩ : Row ℝ)).filter fun a => decide (B < a.iter)).map (fun a => (a.iter, a.x)) =
          (L.map fun c => (c.acc, c.x)).filter fun a => decide (B < a.1) := fun L => by
        rw [List.filter_map, List.map_map, List.filter_map]
        rfl
      have e1 : ∀ L : List (Nat × (Fin n → Fin d → ℝ)), (L.filter fun a => decide (B < a.1)).map (fun a => (a.1, List.ofFn (a.2 r))) =
          (L.map fun a => (a.1, List.ofFn (a.2 r))).filter fun a => decide (B < a.1) := fun L => by
        rw [List.filter_map]
        rfl
      rw [e0, e1, hp.cur, hp.nline, hp.data, hp.beta, hx]
    · rename_i hlt
      have : (roundsH S (w.st.acc r) nb.toNat p).filter (fun a => decide (B < a.1)) = [] := by
        rw [List.filter_eq_nil_iff]
        intro a ha
        have hm : a.1 ∈ (roundsH S (w.st.acc r) nb.toNat p).map Prod.fst := List.mem_map_of_mem ha
        rw [roundsH_numbers, List.mem_range'_1] at hm
        have : ¬ cfg.saveBegin ≤ w.st.acc r + nb.toNat := hlt
        simp only [decide_eq_true_eq]
        omega
      rw [this]
      rfl
  · rw [roundsH_numbers]
    congr 1
    omega

theorem swaps_writes (root : Fin n) (r : Fin n) : ∀ (k : Nat) (w : W n ℝ) (ty : Tally n ℝ) (q : W n ℝ × Tally n ℝ), seqSwaps cfg root k w ty = .ok q →
    fileRows r.val (q.1.log r) = fileRows r.val (w.log r) := by
  intro k
  induction k with
  | zero =>
    intro w ty q h
    have := (Except.ok.inj h).symm
    subst this
    rfl
  | succ k ih =>
    intro w ty q h
    unfold seqSwaps at h
    obtain ⟨a, ha, h⟩ := exc_bind.1 h
    rw [ih _ _ _ h]
    unfold seqSwap at ha
    obtain ⟨i, hi, ha⟩ := exc_bind.1 ha
    obtain ⟨j, hj, ha⟩ := exc_bind.1 ha
    have := (Except.ok.inj ha).symm
    subst this
    show fileRows r.val (w.log r ++ [(w.st.loc r).note]) = _
    rw [fileRows_append, fileRows_note]
    simp [fileRows]

theorem stack_writes (hf : Fits cfg S nline data) (hm : cfg.swapmode = 0 ∨ cfg.swapmode = 1) {B : Nat} (hB : cfg.saveBegin ≤ B + 1) (root : Fin n) (nStack : Int)
    (r : Fin n) : ∀ (fuel : Nat) (i : Int) (w : W n ℝ) (ty : Tally n ℝ) (q : W n ℝ × Tally n ℝ) (p : (Fin n → Fin d → ℝ) × (Fin n → Draws)),
    Shows cfg S nline data w.st p → i ≤ nStack → seqStackLoop cfg root nStack fuel i w ty = .ok q →
    (∃ l, fileRows r.val (q.1.log r) = fileRows r.val (w.log r) ++ l ∧ Writes B r (w.st.acc r) (q.1.st.acc r) l (stackH S cfg root nStack fuel (w.st.acc r) i p)) ∧
      q.1.st.acc r = w.st.acc r + (nStack - i).toNat := by
  intro fuel
  induction fuel with
  | zero =>
    intro i w ty q p hp hle h
    unfold seqStackLoop at h
    split at h
    · cases h
    · have := (Except.ok.inj h).symm
      subst this
      exact ⟨⟨[], by simp, Writes.nil B r _⟩, by show w.st.acc r = _; omega⟩
  | succ fuel ih =>
    intro i w ty q p hp hle h
    unfold seqStackLoop at h
    unfold stackH
    split at h
    · rename_i hlt
      rw [if_pos hlt]
      obtain ⟨b, hb, h⟩ := exc_bind.1 h
      obtain ⟨w1, hw1, h⟩ := exc_bind.1 h
      obtain ⟨a, ha, h⟩ := exc_bind.1 h
      obtain ⟨e1, e2, e3⟩ := nextBatch_stream nStack i _ b hb
      rw [hp.g] at e1 e3
      have hp1 : Shows cfg S nline data { w.st with g := Function.update w.st.g root b.2.2 } (p.1, Function.update p.2 root (pop (p.2 root)).2) := by
        refine ⟨hp.x, hp.lp, hp.cur, hp.sig, hp.beta, fun r => ?_, hp.nline, hp.data⟩
        by_cases hr : r = root
        · subst hr; simpa using e3
        · simp only [Function.update_of_ne hr]; exact hp.g r
      have hpos := batch_pos b.1 _ w1 (Nat.pos_of_ne_zero fun h0 => by subst h0; exact root.elim0) hw1
      have hsz : i + b.1 ≤ nStack := by
        rw [e1]; unfold sizeOf'; split <;> omega
      obtain ⟨h1, h1a⟩ := batch_stream hf b.1 hpos _ w1 _ hp1 hw1
      obtain ⟨h2, h2a⟩ := swaps_stream hf hm root _ w1 ty a _ h1 ha
      obtain ⟨l1, hl1, hl1'⟩ := batch_writes hf hB b.1 hpos _ w1 _ hp1 hw1 r
      obtain ⟨⟨l2, hl2, hl2'⟩, hac⟩ := ih _ _ _ _ _ h2 (by rw [e2]; exact hsz) h
      rw [e2] at hl2' hac
      have hac1 : a.1.st.acc r = w.st.acc r + b.1.toNat := by rw [h2a, h1a r]
      simp only [legS, ← e1] at hl2' hac ⊢
      refine ⟨⟨l1 ++ l2, ?_, ?_⟩, ?_⟩
      · rw [hl2, swaps_writes root r _ _ _ _ ha, hl1, List.append_assoc]
      · refine Writes.append hl1' ?_
        rw [hac1] at hl2'
        exact hl2'
      · rw [hac, hac1]
        omega
    · rename_i hlt
      rw [if_neg hlt]
      have := (Except.ok.inj h).symm
      subst this
      exact ⟨⟨[], by simp, Writes.nil B r _⟩, by show w.st.acc r = _; omega⟩

/-- Without tuning from iteration `i` on, the main loop adds to the chain file of rank `r` the points of the history of `flowS`. -/
theorem flow_writes (hf : Fits cfg S nline data) (hm : cfg.swapmode = 0 ∨ cfg.swapmode = 1) {B : Nat} (hB : cfg.saveBegin ≤ B + 1) (root r : Fin n) : ∀ (fuel : Nat)
    (nStack i : Int) (w w' : W n ℝ) (p : (Fin n → Fin d → ℝ) × (Fin n → Draws)), Shows cfg S nline data { w.st with cur := w.st.sig } p →
    (∀ k, i < k → inTuneWindow cfg k = false) → (cfg.tuneLadder ≤ 0 ∨ cfg.nStopTuneLadder ≤ w.st.acc root) → 1 ≤ nStack → 0 ≤ i → w.st.acc r = i.toNat → i ≤ cfg.nIter →
    seqFlowLoop cfg root fuel nStack i w = .ok w' →
    ∃ l, fileRows r.val (w'.log r) = fileRows r.val (w.log r) ++ l ∧ Writes B r i.toNat cfg.nIter.toNat l (flowH S cfg root fuel nStack i p) := by
  intro fuel
  induction fuel with
  | zero =>
    intro nStack i w w' p hp hT hL hs h0 hacc hle h
    unfold seqFlowLoop at h
    split at h
    · cases h
    · have := (Except.ok.inj h).symm
      subst this
      have e : i = cfg.nIter := by omega
      rw [e]
      exact ⟨[], by simp, Writes.nil B r _⟩
  | succ fuel ih =>
    intro nStack i w w' p hp hT hL hs h0 hacc hle h
    unfold seqFlowLoop at h
    unfold flowH
    split at h
    · rename_i hlt
      rw [if_pos hlt]
      obtain ⟨nx, hnx, h⟩ := exc_bind.1 h
      have e : nx = i + nStack := by
        unfold i32 at hnx
        split at hnx
        · exact (Except.ok.inj hnx).symm
        · cases hnx
      subst e
      simp only at h
      set nS := (if cfg.nIter < i + nStack then cfg.nIter - i else nStack) with hnS
      have hnx' : (if cfg.nIter < i + nStack then cfg.nIter else i + nStack) = i + nS := by
        rw [hnS]; split <;> omega
      have hpos : 1 ≤ nS := by rw [hnS]; split <;> omega
      have hnS' : i + nS ≤ cfg.nIter := by rw [hnS]; split <;> omega
      rw [hnx'] at h
      obtain ⟨w1, hw1, h⟩ := exc_bind.1 h
      rw [hT (i + nS) (by omega)] at h
      simp only [Bool.false_eq_true, if_false] at h
      obtain ⟨w2, hw2, h⟩ := exc_bind.1 h
      have := (Except.ok.inj hw2).symm
      subst this
      unfold seqStack at hw1
      obtain ⟨_, _, hw1⟩ := exc_bind.1 hw1
      obtain ⟨a, ha, hw1⟩ := exc_bind.1 hw1
      obtain ⟨h1, h1a⟩ := stack_stream hf hm root nS nS.toNat 0 _ Tally.zero a p hp ha
      obtain ⟨⟨l1, hl1, hl1'⟩, hac⟩ := stack_writes hf hm hB root nS r nS.toNat 0 _ Tally.zero a p hp (by omega) ha
      have hno : ¬ ((a.1.st.acc root : Int) < cfg.nStopTuneLadder ∧ 0 < cfg.tuneLadder) := by
        have hac : w.st.acc root ≤ a.1.st.acc root := h1a root
        rintro ⟨c1, c2⟩
        rcases hL with hL | hL
        · omega
        · omega
      rw [if_neg hno] at hw1
      have hw := (Except.ok.inj hw1).symm
      subst hw
      have hac' : a.1.st.acc r = (i + nS).toNat := by
        have : a.1.st.acc r = w.st.acc r + (nS - 0).toNat := hac
        omega
      obtain ⟨l2, hl2, hl2'⟩ := ih nS (i + nS) a.1 w' _ ⟨h1.x, h1.lp, h1.sig, h1.sig, h1.beta, h1.g, h1.nline, h1.data⟩ (fun k hk => hT k (by omega)) (by
        rcases hL with hL | hL
        · exact .inl hL
        · have hac : w.st.acc root ≤ a.1.st.acc root := h1a root
          exact .inr (by omega)) hpos (by omega) hac' hnS' h
      refine ⟨l1 ++ l2, ?_, ?_⟩
      · rw [hl2, hl1, List.append_assoc]
        congr 1
        show fileRows r.val ((w.log r ++ _) ++ _) = _
        rw [fileRows_append, fileRows_append]
        split <;> simp [fileRows]
      · refine Writes.append (t' := (i + nS).toNat) ?_ hl2'
        rw [← hac', ← hacc]
        exact hl1'
    · rename_i hlt
      rw [if_neg hlt]
      have := (Except.ok.inj h).symm
      subst this
      have e : i = cfg.nIter := by omega
      rw [e]
      exact ⟨[], by simp, Writes.nil B r _⟩

end

end NiiC
