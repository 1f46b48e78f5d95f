import Verif.Seq.Steps
import Mathlib.Algebra.BigOperators.Group.List.Basic

/-!
# The events of a run and the counters
-/

set_option linter.unusedSectionVars false
set_option linter.unusedSimpArgs false

namespace NiiC

open Spec

variable {n : Nat} {F : Type} [Arith F] [Source F]

/-- The events of a stack: batches of the given sizes, each followed by `k` swaps. -/
inductive StackShape (k : Nat) : List (Ev n) → List Int → Prop where
  | nil : StackShape k [] []
  | cons (b : Int) (sw rest : List (Ev n)) (bs : List Int) (hk : sw.length = k)
      (hsw : ∀ e ∈ sw, ∃ i j d, e = Ev.swap i j d) (h : StackShape k rest bs) :
      StackShape k (Ev.batch b :: sw ++ rest) (b :: bs)

/-- Sizes of the batches among events. -/
def sizes (evs : List (Ev n)) : List Int :=
  evs.filterMap (fun e => match e with | .batch b => some b | _ => none)

@[simp] theorem sizes_append (a b : List (Ev n)) : sizes (a ++ b) = sizes a ++ sizes b := List.filterMap_append
@[simp] theorem sizes_nil : sizes ([] : List (Ev n)) = [] := rfl

@[simp] theorem sizes_widths (a : List (Ev n)) : sizes (Ev.widths :: a) = sizes a := rfl

theorem sizes_swaps (sw : List (Ev n)) (h : ∀ e ∈ sw, ∃ i j d, e = Ev.swap i j d) : sizes sw = [] := by
  induction sw with
  | nil => rfl
  | cons e sw ih =>
    obtain ⟨i, j, d, rfl⟩ := h e (by simp)
    exact ih (fun e he => h e (by simp [he]))

theorem StackShape.sizes_eq {k : Nat} {evs : List (Ev n)} {bs : List Int} (h : StackShape k evs bs) : sizes evs = bs := by
  induction h with
  | nil => rfl
  | cons b sw rest bs hk hsw _ ih =>
    simp only [sizes_append, ih, List.cons_append]
    show b :: sizes (sw ++ rest) = _
    rw [sizes_append, sizes_swaps sw hsw, ih]; rfl

theorem nextBatch_next {cfg : Cfg F} {nStack i : Int} {g : Rng} {b : Int × Int × Rng} (h : nextBatch cfg nStack i g = .ok b) :
    b.2.1 = i + b.1 ∧ b.2.1 ≤ nStack := by
  simp only [nextBatch, exc_bind] at h
  obtain ⟨_, _, _, _, nb, h3, nx, h4, h5⟩ := h
  have h4' : nx = i + nb := by
    unfold i32 at h4
    split at h4
    · cases h4; rfl
    · cases h4
  by_cases hx : nStack < nx
  · rw [if_pos hx] at h5
    cases h5
    exact ⟨by simp, Int.le_refl _⟩
  · rw [if_neg hx] at h5
    cases h5
    exact ⟨h4', by simpa using hx⟩

theorem nextBatch_le [LawfulDraws F] {cfg : Cfg F} (hr : 0 ≤ cfg.rand) (hr' : 2 * cfg.rand ≤ 2147483647) {nStack i : Int}
    {g : Rng} {b : Int × Int × Rng} (h : nextBatch cfg nStack i g = .ok b) : b.1 ≤ cfg.base + cfg.rand := by
  have hd := LawfulDraws.unifAb (F := F) (-cfg.rand) cfg.rand g (by omega) (by omega)
  simp only [nextBatch, exc_bind] at h
  obtain ⟨_, _, _, _, nb, h3, nx, h4, h5⟩ := h
  have h3' : nb = cfg.base + (i4UnifAb F (-cfg.rand) cfg.rand g).1 := by
    unfold i32 at h3
    split at h3
    · cases h3; rfl
    · cases h3
  have h4' : nx = i + nb := by
    unfold i32 at h4
    split at h4
    · cases h4; rfl
    · cases h4
  by_cases hx : nStack < nx
  · rw [if_pos hx] at h5
    cases h5
    simp only
    omega
  · rw [if_neg hx] at h5
    cases h5
    simp only
    omega

theorem seqSwap_hist {cfg : Cfg F} {root : Fin n} {w w' : W n F} {ty ty' : Tally n F}
    (h : seqSwap cfg root w ty = .ok (w', ty')) :
    ∃ i j d, w'.hist = w.hist ++ [(Ev.swap i j d, w'.st)] ∧ w'.st.acc = w.st.acc ∧ w'.st.accA = w.st.accA := by
  simp only [seqSwap, exc_bind, Except.ok.injEq, Prod.mk.injEq] at h
  obtain ⟨i, hi, j, hj, rfl, rfl⟩ := h
  exact ⟨i, j, _, rfl, rfl, rfl⟩

theorem seqSwaps_hist {cfg : Cfg F} {root : Fin n} : ∀ {k : Nat} {w w' : W n F} {ty ty' : Tally n F},
    seqSwaps cfg root k w ty = .ok (w', ty') → ∃ h', w'.hist = w.hist ++ h' ∧ h'.length = k ∧
      (∀ e ∈ h'.map Prod.fst, ∃ i j d, e = Ev.swap i j d) ∧ w'.st.acc = w.st.acc ∧ w'.st.accA = w.st.accA := by
  intro k
  induction k with
  | zero => intro w w' ty ty' h; cases h; exact ⟨[], by simp⟩
  | succ k ih =>
    intro w w' ty ty' h
    simp only [seqSwaps, exc_bind] at h
    obtain ⟨⟨w1, ty1⟩, h1, h2⟩ := h
    obtain ⟨i, j, d, h3, h4, h5⟩ := seqSwap_hist h1
    obtain ⟨h', h6, h7, h8, h9, h10⟩ := ih h2
    refine ⟨(.swap i j d, w1.st) :: h', by simp [h6, h3], by simp [h7], ?_, h9.trans h4, h10.trans h5⟩
    intro e he
    simp only [List.map_cons, List.mem_cons] at he
    rcases he with rfl | he
    · exact ⟨i, j, d, rfl⟩
    · exact h8 e he

/-- The events of a stack. -/
theorem seqStackLoop_hist {cfg : Cfg F} (hu : cfg.user.Wf cfg.nParm) {root : Fin n} {nStack : Int} :
    ∀ {fuel : Nat} {i : Int} {w w' : W n F} {ty ty' : Tally n F}, i ≤ nStack → w.st.Ok cfg →
    seqStackLoop cfg root nStack fuel i w ty = .ok (w', ty') → ∃ h' bs, w'.hist = w.hist ++ h' ∧
      StackShape cfg.nSwap.toNat (h'.map Prod.fst) bs ∧ bs.sum = nStack - i ∧
      (∀ b ∈ bs, 0 < b ∧ ∃ i g i' g', nextBatch cfg nStack i g = .ok (b, i', g')) ∧
      (∀ r, (w'.st.acc r : Int) = w.st.acc r + (nStack - i)) ∧ w'.st.Ok cfg := by
  intro fuel
  induction fuel with
  | zero =>
    intro i w w' ty ty' hi hok h
    simp only [seqStackLoop] at h
    split at h
    · cases h
    · cases h
      exact ⟨[], [], by simp, .nil, by simp; omega, by simp, fun r => by omega, hok⟩
  | succ fuel ih =>
    intro i w w' ty ty' hi hok h
    simp only [seqStackLoop] at h
    split at h
    · simp only [exc_bind] at h
      obtain ⟨b, hb, w1, h1, ⟨w2, ty2⟩, h2, h3⟩ := h
      obtain ⟨hb1, hb2⟩ := nextBatch_next hb
      have hok1 := (seqBatch_ok cfg hu b.1 _ w1 h1 (hok.setG root b.2.2)).1
      obtain ⟨hc, _, hh1⟩ := seqBatch_chain hu h1 (hok.setG root b.2.2)
      obtain ⟨hs, hh2, hl, hsw, ha, _⟩ := seqSwaps_hist h2
      have hok2 : w2.st.Ok cfg := (seqSwaps_steps cfg root _ w1 w2 ty ty2 h2).inv (P := fun w => w.st.Ok cfg)
        (fun _ _ hp h => h.ok hu hp) hok1
      obtain ⟨h', bs, hh, hsh, hsum, hpos, hacc, hok'⟩ := ih hb2 hok2 h3
      refine ⟨(.batch b.1, w1.st) :: hs ++ h', b.1 :: bs, ?_, ?_, ?_, ?_, fun r => ?_, hok'⟩
      · rw [hh, hh2, hh1]; simp
      · simpa using StackShape.cons b.1 (hs.map Prod.fst) _ bs (by simpa using hl) hsw hsh
      · simp only [List.sum_cons, hsum]; omega
      · intro c hc'
        rcases List.mem_cons.1 hc' with rfl | hc'
        · exact ⟨(hc root).1, i, _, _, _, hb⟩
        · exact hpos c hc'
      · rw [hacc, ha]
        have := congrArg Ch.acc (hc r).2.1
        rw [mhIter_acc] at this
        have hp := (hc r).1
        simp only [G.ch, G.setG] at this
        rw [this]
        omega
    · cases h
      exact ⟨[], [], by simp, .nil, by simp; omega, by simp, fun r => by omega, hok⟩

theorem seqTuneRanks_frame {cfg : Cfg F} {root : Fin n} {fl : Fin n → Int} : ∀ {l : List (Fin n)} {w w' : W n F},
    seqTuneRanks cfg root fl l w = .ok w' → w'.st.acc = w.st.acc ∧ w'.st.accA = w.st.accA ∧ w'.log = w.log ∧
      w'.st.x = w.st.x ∧ w'.st.lp = w.st.lp ∧ w'.st.beta = w.st.beta ∧
      ∃ h', w'.hist = w.hist ++ h' ∧ h'.map Prod.fst = (l.filter (fun r => fl r = 1)).map Ev.tune ∧ 
      ∀ s, (s ∉ l ∨ fl s ≠ 1) → w'.st.sig s = w.st.sig s := by
  intro l
  induction l with
  | nil => intro w w' h; cases h; exact ⟨rfl, rfl, rfl, rfl, rfl, rfl, [], by simp⟩
  | cons rk l ih =>
    intro w w' h
    simp only [seqTuneRanks, exc_bind] at h
    obtain ⟨w1, h1, h2⟩ := h
    obtain ⟨a1, a2, a3, a4, a5, a6, h', hh, hm, hsig⟩ := ih h2
    by_cases hf : fl rk = 1
    · rw [if_pos hf] at h1
      obtain ⟨⟨sg, hst⟩, hlog, hhist⟩ := seqTuneRank_frame h1
      refine ⟨by rw [a1, hst], by rw [a2, hst], by rw [a3, hlog], by rw [a4, hst], by rw [a5, hst], by rw [a6, hst],
        (.tune rk, w1.st) :: h', by rw [hh, hhist]; simp, by simp [hm, hf], fun s hs => ?_⟩
      have hne : s ≠ rk := by
        rintro rfl
        rcases hs with hs | hs
        · simp at hs
        · exact hs hf
      rw [hsig s (by
        rcases hs with hs | hs
        · exact .inl (fun h => hs (by simp [h]))
        · exact .inr hs), hst]
      simp [hne]
    · rw [if_neg hf] at h1
      cases h1
      refine ⟨a1, a2, a3, a4, a5, a6, h', hh, by simp [hm, hf], fun s hs => hsig s ?_⟩
      rcases hs with hs | hs
      · exact .inl (fun h => hs (by simp [h]))
      · exact .inr hs

theorem sizes_tunes (l : List (Fin n)) : sizes (l.map Ev.tune) = [] := by
  induction l with
  | nil => rfl
  | cons a l ih => exact ih

/-- The events of one stack with what surrounds it. -/
theorem seqStack_hist {cfg : Cfg F} (hu : cfg.user.Wf cfg.nParm) {root : Fin n} {nStack : Int} (h0 : 0 ≤ nStack)
    {w w' : W n F} (hok : w.st.Ok cfg) (h : seqStack cfg root nStack w = .ok w') : ∃ h' bs, 
      StackShape cfg.nSwap.toNat (h'.map Prod.fst) bs ∧ bs.sum = nStack ∧
      (∀ b ∈ bs, 0 < b ∧ ∃ i g i' g', nextBatch cfg nStack i g = .ok (b, i', g')) ∧
      (∀ r, (w'.st.acc r : Int) = w.st.acc r + nStack) ∧ w'.st.Ok cfg ∧
      w'.hist = w.hist ++ h' ++ (if (w'.st.acc root : Int) < cfg.nStopTuneLadder ∧ 0 < cfg.tuneLadder then [(.ladder, w'.st)] else []) := by
  simp only [seqStack, exc_bind] at h
  obtain ⟨_, _, ⟨w1, ty1⟩, h1, h2⟩ := h
  obtain ⟨h', bs, hh, hsh, hsum, hpos, hacc, hok1⟩ := seqStackLoop_hist hu h0 (by exact hok) h1
  simp only at hh hacc
  by_cases hc : (w1.st.acc root : Int) < cfg.nStopTuneLadder ∧ 0 < cfg.tuneLadder
  · rw [if_pos hc] at h2
    cases h2
    refine ⟨h', bs, hsh, by simpa using hsum, hpos, fun r => ?_, ⟨hok1.acc, hok1.x, hok1.sig, hok1.cur⟩, ?_⟩
    · show (w1.st.acc r : Int) = _
      rw [hacc]; omega
    · rw [if_pos (by exact hc)]
      simp [seqLadder, W.push, hh]
  · rw [if_neg hc] at h2
    cases h2
    refine ⟨h', bs, hsh, by simpa using hsum, hpos, fun r => ?_, hok1, ?_⟩
    · rw [hacc]; omega
    · rw [if_neg (by exact hc)]
      simp [hh]

theorem seqTuneRanks_ok {cfg : Cfg F} (hu : cfg.user.Wf cfg.nParm) {root : Fin n} {fl : Fin n → Int} {l : List (Fin n)}
    {w w' : W n F} (h : seqTuneRanks cfg root fl l w = .ok w') (hok : w.st.Ok cfg) : w'.st.Ok cfg :=
  (seqTuneRanks_steps cfg root fl l w w' h).inv (P := fun w => w.st.Ok cfg) (fun _ _ hp h => h.ok hu hp) hok

/-- Sizes of all batches of a run, and the counters at its end. -/
theorem seqFlowLoop_sizes {cfg : Cfg F} (hu : cfg.user.Wf cfg.nParm) {root : Fin n} : ∀ {fuel : Nat} {nStack i : Int}
    {w w' : W n F}, 0 ≤ nStack → i ≤ cfg.nIter → w.st.Ok cfg → seqFlowLoop cfg root fuel nStack i w = .ok w' →
    ∃ h', w'.hist = w.hist ++ h' ∧ (sizes (h'.map Prod.fst)).sum = cfg.nIter - i ∧
      (∀ b ∈ sizes (h'.map Prod.fst), 0 < b ∧ ∃ m i g i' g', nextBatch cfg m i g = .ok (b, i', g')) ∧
      (∀ r, (w'.st.acc r : Int) = w.st.acc r + (cfg.nIter - i)) ∧ w'.st.Ok cfg := by
  intro fuel
  induction fuel with
  | zero =>
    intro nStack i w w' hn hi hok h
    simp only [seqFlowLoop] at h
    split at h
    · cases h
    · cases h
      exact ⟨[], by simp, by simp; omega, by simp, fun r => by omega, hok⟩
  | succ fuel ih =>
    intro nStack i w w' hn hi hok h
    simp only [seqFlowLoop] at h
    split at h
    · rename_i hlt
      simp only [exc_bind] at h
      obtain ⟨nx, hnx, w1, h1, w2, h2, h3⟩ := h
      have hnx' : nx = i + nStack := by
        unfold i32 at hnx
        split at hnx
        · cases hnx; rfl
        · cases hnx
      obtain ⟨hs, bs, hsh, hsum, hpos, hacc, hok1, hh⟩ := seqStack_hist hu (by split <;> omega)
        (w := seqWidths w) ⟨hok.acc, hok.x, hok.sig, hok.sig⟩ h1
      have h2' : ∃ (ht : List (Ev n × G n F)) (l : List (Fin n)), w2.hist = w1.hist ++ ht ∧ ht.map Prod.fst = l.map Ev.tune ∧ w2.st.acc = w1.st.acc ∧ w2.st.Ok cfg := by
        by_cases hw : inTuneWindow cfg (if cfg.nIter < nx then cfg.nIter else nx) = true
        · rw [if_pos hw] at h2
          obtain ⟨a1, _, _, _, _, _, ht, hht, hm, _⟩ := seqTuneRanks_frame h2
          exact ⟨ht, _, hht, hm, a1, seqTuneRanks_ok hu h2 hok1⟩
        · rw [if_neg hw] at h2
          cases h2
          exact ⟨[], [], by simp, rfl, rfl, hok1⟩
      obtain ⟨ht, l, hht, hm, ha2, hok2⟩ := h2'
      obtain ⟨h', hh', hsum', hpos', hacc', hok'⟩ := ih (by split <;> omega) (by split <;> omega) hok2 h3
      have hlad : ∀ (p : Prop) [Decidable p] (st : G n F), sizes ((if p then [((Ev.ladder : Ev n), st)] else []).map Prod.fst) = [] := by
        intro p _ st; split <;> rfl
      refine ⟨(.widths, (seqWidths w).st) :: (hs ++ (if (w1.st.acc root : Int) < cfg.nStopTuneLadder ∧ 0 < cfg.tuneLadder
        then [(.ladder, w1.st)] else []) ++ ht ++ h'), ?_, ?_, ?_, fun r => ?_, hok'⟩
      · rw [hh', hht, hh]
        simp [seqWidths, W.push]
      · rw [List.map_cons]
        simp only [sizes_widths, List.map_append, sizes_append, hlad, hm, sizes_tunes, List.append_nil, List.sum_append, hsum', hsh.sizes_eq,
          hsum]
        split <;> omega
      · intro b hb
        rw [List.map_cons] at hb
        simp only [sizes_widths, List.map_append, sizes_append, hlad, hm, sizes_tunes, List.append_nil, hsh.sizes_eq, List.mem_append] at hb
        rcases hb with hb | hb
        · exact ⟨(hpos b hb).1, _, (hpos b hb).2⟩
        · exact hpos' b hb
      · rw [hacc', ha2, hacc]
        simp only [seqWidths, W.push]
        split <;> omega
    · cases h
      exact ⟨[], by simp, by simp; omega, by simp, fun r => by omega, hok⟩

end NiiC
