import Verif.Seq.Total

/-!
# The sequential run as a chain of elementary steps

Every property of all states of a run is proved by checking the elementary steps.
-/

set_option linter.unusedSectionVars false
set_option linter.unusedSimpArgs false

namespace NiiC

open Spec

variable {n : Nat} {F : Type} [Arith F] [Source F]

omit [Source F] in
/-- Tallies that a stack can produce: all zero, then one proposed swap after another. -/
inductive Tally.Reach : Tally n F → Prop where
  | zero : Tally.Reach Tally.zero
  | add (ty : Tally n F) (i : Fin n) (d : Bool) (h : Tally.Reach ty) : Tally.Reach (ty.add i d)

/-- The elementary steps of a run. -/
inductive Step (cfg : Cfg F) (root : Fin n) : W n F → W n F → Prop where
  | widths (w : W n F) : Step cfg root w (seqWidths w)
  | betas (w : W n F) :
      Step cfg root w { w with log := fun r => w.log r ++ (if r = root then [.betas (List.ofFn w.st.beta)] else []) }
  | draw (w : W n F) (nStack i : Int) (b : Int × Int × Rng) (h : nextBatch cfg nStack i (w.st.g root) = .ok b) :
      Step cfg root w { w with st := w.st.setG root b.2.2 }
  | batch (w w' : W n F) (nb : Int) (h : seqBatch cfg nb w = .ok w') : Step cfg root w w'
  | swap (w w' : W n F) (ty ty' : Tally n F) (h : seqSwap cfg root w ty = .ok (w', ty')) : Step cfg root w w'
  | ladder (w : W n F) (ty : Tally n F) (h : (w.st.acc root : Int) < cfg.nStopTuneLadder) (h' : 0 < cfg.tuneLadder)
      (hr : ty.Reach) :
      Step cfg root w (seqLadder cfg w ty)
  | tune (w w' : W n F) (rk : Fin n) (h : seqTuneRank cfg root rk w = .ok w') : Step cfg root w w'

/-- Any number of steps. -/
inductive Steps (cfg : Cfg F) (root : Fin n) : W n F → W n F → Prop where
  | refl (w : W n F) : Steps cfg root w w
  | tail {w w' w'' : W n F} (h : Steps cfg root w w') (h' : Step cfg root w' w'') : Steps cfg root w w''

theorem Steps.single {cfg : Cfg F} {root : Fin n} {w w' : W n F} (h : Step cfg root w w') : Steps cfg root w w' :=
  .tail (.refl _) h

theorem Steps.trans {cfg : Cfg F} {root : Fin n} {w w' w'' : W n F} (h : Steps cfg root w w') (h' : Steps cfg root w' w'') :
    Steps cfg root w w'' := by
  induction h' with
  | refl => exact h
  | tail _ h2 ih => exact .tail ih h2

/-- An invariant of the steps is an invariant of runs. -/
theorem Steps.inv {cfg : Cfg F} {root : Fin n} {P : W n F → Prop} (hP : ∀ w w', P w → Step cfg root w w' → P w')
    {w w' : W n F} (h : Steps cfg root w w') (h0 : P w) : P w' := by
  induction h with
  | refl => exact h0
  | tail _ h2 ih => exact hP _ _ ih h2

theorem seqSwaps_steps (cfg : Cfg F) (root : Fin n) : ∀ (k : Nat) (w w' : W n F) (ty ty' : Tally n F),
    seqSwaps cfg root k w ty = .ok (w', ty') → Steps cfg root w w' := by
  intro k
  induction k with
  | zero => intro w w' ty ty' h; cases h; exact .refl _
  | succ k ih =>
    intro w w' ty ty' h
    simp only [seqSwaps, exc_bind] at h
    obtain ⟨⟨w1, ty1⟩, h1, h2⟩ := h
    exact (Steps.single (.swap w w1 ty ty1 h1)).trans (ih w1 w' ty1 ty' h2)

theorem seqStackLoop_steps (cfg : Cfg F) (root : Fin n) (nStack : Int) : ∀ (fuel : Nat) (i : Int) (w w' : W n F)
    (ty ty' : Tally n F), seqStackLoop cfg root nStack fuel i w ty = .ok (w', ty') → Steps cfg root w w' := by
  intro fuel
  induction fuel with
  | zero =>
    intro i w w' ty ty' h
    simp only [seqStackLoop] at h
    split at h
    · cases h
    · cases h; exact .refl _
  | succ fuel ih =>
    intro i w w' ty ty' h
    simp only [seqStackLoop] at h
    split at h
    · simp only [exc_bind] at h
      obtain ⟨b, hb, w1, h1, ⟨w2, ty2⟩, h2, h3⟩ := h
      exact (((Steps.single (.draw w nStack i b hb)).trans (.single (.batch _ w1 b.1 h1))).trans
        (seqSwaps_steps cfg root _ w1 w2 ty ty2 h2)).trans (ih b.2.1 w2 w' ty2 ty' h3)
    · cases h; exact .refl _

theorem seqSwaps_reach (cfg : Cfg F) (root : Fin n) : ∀ (k : Nat) (w w' : W n F) (ty ty' : Tally n F),
    seqSwaps cfg root k w ty = .ok (w', ty') → ty.Reach → ty'.Reach := by
  intro k
  induction k with
  | zero => intro w w' ty ty' h hr; cases h; exact hr
  | succ k ih =>
    intro w w' ty ty' h hr
    simp only [seqSwaps, exc_bind] at h
    obtain ⟨⟨w1, ty1⟩, h1, h2⟩ := h
    refine ih w1 w' ty1 ty' h2 ?_
    simp only [seqSwap, exc_bind, Except.ok.injEq, Prod.mk.injEq] at h1
    obtain ⟨i, _, j, _, _, rfl⟩ := h1
    split
    · exact .add ty i _ hr
    · exact hr

theorem seqStackLoop_reach (cfg : Cfg F) (root : Fin n) (nStack : Int) : ∀ (fuel : Nat) (i : Int) (w w' : W n F)
    (ty ty' : Tally n F), seqStackLoop cfg root nStack fuel i w ty = .ok (w', ty') → ty.Reach → ty'.Reach := by
  intro fuel
  induction fuel with
  | zero =>
    intro i w w' ty ty' h hr
    simp only [seqStackLoop] at h
    split at h
    · cases h
    · cases h; exact hr
  | succ fuel ih =>
    intro i w w' ty ty' h hr
    simp only [seqStackLoop] at h
    split at h
    · simp only [exc_bind] at h
      obtain ⟨b, hb, w1, h1, ⟨w2, ty2⟩, h2, h3⟩ := h
      exact ih b.2.1 w2 w' ty2 ty' h3 (seqSwaps_reach cfg root _ w1 w2 ty ty2 h2 hr)
    · cases h; exact hr

theorem seqStack_steps (cfg : Cfg F) (root : Fin n) (nStack : Int) (w w' : W n F)
    (h : seqStack cfg root nStack w = .ok w') : Steps cfg root w w' := by
  simp only [seqStack, exc_bind] at h
  obtain ⟨_, _, ⟨w1, ty1⟩, h1, h2⟩ := h
  have k := (Steps.single (.betas w)).trans (seqStackLoop_steps cfg root nStack _ 0 _ w1 _ ty1 h1)
  split at h2
  · rename_i hc
    cases h2
    exact k.tail (.ladder w1 ty1 hc.1 hc.2 (seqStackLoop_reach cfg root nStack _ 0 _ w1 _ ty1 h1 .zero))
  · cases h2; exact k

theorem seqTuneRanks_steps (cfg : Cfg F) (root : Fin n) (fl : Fin n → Int) : ∀ (l : List (Fin n)) (w w' : W n F),
    seqTuneRanks cfg root fl l w = .ok w' → Steps cfg root w w' := by
  intro l
  induction l with
  | nil => intro w w' h; cases h; exact .refl _
  | cons rk l ih =>
    intro w w' h
    simp only [seqTuneRanks, exc_bind] at h
    obtain ⟨w1, h1, h2⟩ := h
    split at h1
    · exact (Steps.single (.tune w w1 rk h1)).trans (ih w1 w' h2)
    · cases h1; exact ih w w' h2

theorem seqFlowLoop_steps (cfg : Cfg F) (root : Fin n) : ∀ (fuel : Nat) (nStack i : Int) (w w' : W n F),
    seqFlowLoop cfg root fuel nStack i w = .ok w' → Steps cfg root w w' := by
  intro fuel
  induction fuel with
  | zero =>
    intro nStack i w w' h
    simp only [seqFlowLoop] at h
    split at h
    · cases h
    · cases h; exact .refl _
  | succ fuel ih =>
    intro nStack i w w' h
    simp only [seqFlowLoop] at h
    split at h
    · simp only [exc_bind] at h
      obtain ⟨nx, _, w1, h1, w2, h2, h3⟩ := h
      have k1 := (Steps.single (.widths w)).trans (seqStack_steps cfg root _ _ w1 h1)
      have k2 : Steps cfg root w1 w2 := by
        by_cases hw : inTuneWindow cfg (if cfg.nIter < nx then cfg.nIter else nx) = true
        · rw [if_pos hw] at h2
          exact seqTuneRanks_steps cfg root _ _ w1 w2 h2
        · rw [if_neg hw] at h2
          cases h2; exact .refl _
      exact (k1.trans k2).trans (ih _ _ w2 w' h3)
    · cases h; exact .refl _

theorem seqMain_steps (cfg : Cfg F) (file : DataFile F) (clock : Nat) (root : Fin n) (w : W n F)
    (h : seqMain cfg file clock root = .ok w) : ∃ w0, seqInit cfg file clock root = .ok w0 ∧ Steps cfg root w0 w := by
  simp only [seqMain, exc_bind] at h
  obtain ⟨w0, h0, h1⟩ := h
  exact ⟨w0, h0, seqFlowLoop_steps cfg root _ _ _ w0 w h1⟩

/-! ## What the steps do -/

theorem Step.ok {cfg : Cfg F} (hu : cfg.user.Wf cfg.nParm) {root : Fin n} {w w' : W n F} (h : Step cfg root w w')
    (hok : w.st.Ok cfg) : w'.st.Ok cfg := by
  cases h with
  | widths => exact ⟨hok.acc, hok.x, hok.sig, hok.sig⟩
  | betas => exact hok
  | draw nStack i b h => exact hok.setG root b.2.2
  | batch _ nb h => exact (seqBatch_ok cfg hu nb w w' h hok).1
  | swap _ ty ty' h => exact seqSwap_ok cfg root w w' ty ty' h hok
  | ladder ty h h' => exact ⟨hok.acc, hok.x, hok.sig, hok.cur⟩
  | tune _ rk h => exact (tuneRank_runs cfg hu root rk w w' h hok).1

theorem seqInit_ok {cfg : Cfg F} (hu : cfg.user.Wf cfg.nParm) {file : DataFile F} {clock : Nat} {root : Fin n} {w : W n F}
    (h : seqInit cfg file clock root = .ok w) : w.st.Ok cfg := by
  simp only [seqInit, exc_bind, Except.ok.injEq] at h
  obtain ⟨_, _, _, _, _, _, _, _, _, _, _, _, rfl⟩ := h
  exact ⟨fun _ _ => rfl, fun r => hu.initParm _, fun r => hu.initGp _, fun r => hu.initGp _⟩

/-- The tuning runs of one chain change only the widths in use and the generators. -/
theorem seqTuneParms_frame (cfg : Cfg F) (rk : Fin n) (grid : List (Fin n → F)) : ∀ (k j : Nat) (st st' : G n F)
    (ars ars' : List (Fin n → F)), seqTuneParms cfg rk grid k j st ars = .ok (st', ars') →
    st' = { st with cur := st'.cur, g := st'.g } := by
  intro k
  induction k with
  | zero => intro j st st' ars ars' h; cases h; rfl
  | succ k ih =>
    intro j st st' ars ars' h
    simp only [seqTuneParms, exc_bind] at h
    obtain ⟨rows, _, a, _, h3⟩ := h
    have := ih (j + 1) _ st' _ ars' h3
    exact this

/-- Tuning a chain changes only the widths in use, the generators and the width table of that chain. -/
theorem seqTuneRank_frame {cfg : Cfg F} {root rk : Fin n} {w w' : W n F} (h : seqTuneRank cfg root rk w = .ok w') :
    (∃ sg, w'.st = { w.st with cur := w'.st.cur, g := w'.st.g, sig := Function.update w.st.sig rk sg }) ∧
    w'.log = w.log ∧ w'.hist = w.hist ++ [(.tune rk, w'.st)] := by
  simp only [seqTuneRank, exc_bind, Except.ok.injEq] at h
  obtain ⟨grid, _, ⟨st1, ars⟩, h1, d, _, sg, _, rfl⟩ := h
  have hf := seqTuneParms_frame cfg rk grid _ _ _ _ _ _ h1
  refine ⟨⟨sg, ?_⟩, ?_, rfl⟩
  · simp only [W.push]
    rw [hf]
  · simp [W.push]

omit [Source F] in
/-- The chain of rank `r` in a state of the run. -/
def G.ch (st : G n F) (r : Fin n) : Ch F := ⟨st.x r, st.lp r, st.acc r, st.accA r, st.g r⟩

/-- The Metropolis–Hastings states of chain `r` over the next `k` iterations. -/
def G.mh (cfg : Cfg F) (st : G n F) (r : Fin n) (k : Nat) : List (Ch F) :=
  mhRun cfg.user (st.cur r) st.nline st.data (st.beta r) k (st.ch r)

/-- A batch: every chain does `nb` iterations of Metropolis–Hastings. -/
theorem seqBatch_chain {cfg : Cfg F} (hu : cfg.user.Wf cfg.nParm) {nb : Int} {w w' : W n F} (h : seqBatch cfg nb w = .ok w')
    (hok : w.st.Ok cfg) : (∀ r : Fin n, 0 < nb ∧
      w'.st.ch r = mhIter cfg.user (w.st.cur r) w.st.nline w.st.data (w.st.beta r) nb.toNat (w.st.ch r) ∧
      w'.log r = w.log r ++ (w.st.loc r).note :: (if cfg.saveBegin ≤ w.st.acc r + nb.toNat then
        (w.st.mh cfg r nb.toNat).map (line r.val) else [])) ∧
    w'.st = { w.st with x := w'.st.x, lp := w'.st.lp, acc := w'.st.acc, accA := w'.st.accA, g := w'.st.g } ∧
    w'.hist = w.hist ++ [(.batch nb, w'.st)] := by
  simp only [seqBatch, exc_bind, allOk_ok, Except.ok.injEq] at h
  obtain ⟨bs, hb, rfl⟩ := h
  refine ⟨fun r => ?_, rfl, rfl⟩
  have h0 := (localBatch_eq cfg hu r (w.st.loc r) nb _ _ _ (hok.x _) (hok.cur _) (hb _)).1
  have h1 := hb r
  have h2 := iterBatch_eq cfg.nParm cfg.user (w.st.cur r) w.st.nline w.st.data (w.st.beta r) hu (hok.cur r) r.val cfg.saveBegin
    nb h0 (w.st.ch r) (hok.x r)
  have h3 := Except.ok.inj (h1.symm.trans h2)
  refine ⟨h0, ?_, ?_⟩
  · simp only [W.push, G.afterBatch, G.ch, h3]
  · simp only [W.push, h3]
    rfl

end NiiC
