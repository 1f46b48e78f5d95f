import Verif.Refine.Main
import Verif.Spec.Valid

/-!
# With a usable configuration the sequential sampler finishes without a fault
-/

set_option linter.unusedSectionVars false
set_option linter.unusedSimpArgs false

namespace NiiC

open Spec

variable {n : Nat} {F : Type} [Arith F] [Source F]

theorem i32_ok {i : Int} (h1 : -2147483648 ≤ i) (h2 : i ≤ 2147483647) : i32 i = .ok i := if_pos ⟨h1, h2⟩

theorem toIdx_ok {i : Int} (h1 : 0 ≤ i) (h2 : i < n) : ∃ k, toIdx n i = .ok k :=
  ⟨⟨i.toNat, by omega⟩, dif_pos ⟨h1, by omega⟩⟩

theorem exists_allOk {α : Type} {f : Fin n → Except Fault α} (h : ∀ r, ∃ a, f r = .ok a) : ∃ a, allOk f = .ok a := by
  choose a ha using h
  exact ⟨a, allOk_ok.2 ha⟩

theorem exc_ok_bind {α β : Type} {e : Except Fault α} {a : α} {f : α → Except Fault β} {b : β} (h : e = .ok a)
    (h' : f a = .ok b) : (e >>= f) = .ok b := exc_bind.2 ⟨a, h, h'⟩

/-! ## Stack -/

theorem seqBatch_total (cfg : Cfg F) (hu : cfg.user.Wf cfg.nParm) (nb : Int) (hb : 0 < nb) (w : W n F) (hok : w.st.Ok cfg) :
    ∃ w', seqBatch cfg nb w = .ok w' := by
  obtain ⟨bs, hbs⟩ := exists_allOk (f := fun r => localBatch cfg r (w.st.loc r) nb (w.st.x r) (w.st.lp r)) (fun r =>
    ⟨_, iterBatch_eq cfg.nParm cfg.user (w.st.cur r) w.st.nline w.st.data (w.st.beta r) hu (hok.cur r) r.val cfg.saveBegin nb hb
      ⟨w.st.x r, w.st.lp r, w.st.acc r, w.st.accA r, w.st.g r⟩ (hok.x r)⟩)
  exact ⟨_, exc_ok_bind hbs rfl⟩

theorem seqSwap_total [LawfulDraws F] (cfg : Cfg F) (hn : 2 ≤ n) (hn' : n ≤ 2147483647)
    (hm : cfg.swapmode = 0 ∨ cfg.swapmode = 1) (root : Fin n) (w : W n F) (ty : Tally n F) :
    ∃ r, seqSwap cfg root w ty = .ok r := by
  have h1 := LawfulDraws.unif0a (F := F) ((n : Int) - 1) (w.st.g root) (by omega) (by omega)
  obtain ⟨i, hi⟩ := toIdx_ok (n := n) h1.1 (by omega)
  have hj : ∃ j, toIdx n (pickJ F n cfg.swapmode (i4Unif0a F ((n : Int) - 1) (w.st.g root)).1
      (i4Unif0a F ((n : Int) - 1) (w.st.g root)).2).1 = .ok j := by
    rcases hm with hm | hm
    · simp only [pickJ, hm, if_true]
      exact toIdx_ok (by omega) (by omega)
    · simp only [pickJ, hm, if_true]
      have h2 := LawfulDraws.unif0a (F := F) ((n : Int) - 1) (i4Unif0a F ((n : Int) - 1) (w.st.g root)).2 (by omega) (by omega)
      simp only [show ¬ ((1 : Int) = 0) by omega, if_false]
      split
      · exact toIdx_ok (by omega) (by omega)
      · exact toIdx_ok (by omega) (by omega)
  obtain ⟨j, hj⟩ := hj
  exact ⟨_, exc_ok_bind hi (exc_ok_bind hj rfl)⟩

theorem seqSwaps_total [LawfulDraws F] (cfg : Cfg F) (hn : 2 ≤ n) (hn' : n ≤ 2147483647)
    (hm : cfg.swapmode = 0 ∨ cfg.swapmode = 1) (root : Fin n) : ∀ (k : Nat) (w : W n F) (ty : Tally n F),
    ∃ r, seqSwaps cfg root k w ty = .ok r := by
  intro k
  induction k with
  | zero => intro w ty; exact ⟨_, rfl⟩
  | succ k ih =>
    intro w ty
    obtain ⟨r, hr⟩ := seqSwap_total cfg hn hn' hm root w ty
    obtain ⟨r', hr'⟩ := ih r.1 r.2
    exact ⟨r', exc_ok_bind hr hr'⟩

/-- The next batch is not empty and does not run past the end of the stack. -/
theorem nextBatch_total [LawfulDraws F] (cfg : Cfg F) (hr : 0 ≤ cfg.rand) (hb : cfg.rand < cfg.base)
    (hr' : 2 * cfg.rand ≤ 2147483647) (nStack i : Int) (hs : nStack + cfg.base + cfg.rand ≤ 2147483647) (h0 : 0 ≤ i)
    (hi : i < nStack) (g : Rng) :
    ∃ b, nextBatch cfg nStack i g = .ok b ∧ 0 < b.1 ∧ b.2.1 = i + b.1 ∧ b.2.1 ≤ nStack := by
  have hd := LawfulDraws.unifAb (F := F) (-cfg.rand) cfg.rand g (by omega) (by omega)
  simp only [nextBatch]
  by_cases hx : nStack < i + (cfg.base + (i4UnifAb F (-cfg.rand) cfg.rand g).1)
  · refine ⟨(nStack - i, nStack, (i4UnifAb F (-cfg.rand) cfg.rand g).2), ?_, ?_, ?_, ?_⟩
    · refine exc_ok_bind (i32_ok (by omega) (by omega)) (exc_ok_bind (i32_ok (by omega) (by omega))
        (exc_ok_bind (i32_ok (by omega) (by omega)) (exc_ok_bind (i32_ok (by omega) (by omega)) ?_)))
      rw [if_pos hx]
    · show 0 < nStack - i; omega
    · show nStack = i + (nStack - i); omega
    · exact Int.le_refl _
  · refine ⟨(cfg.base + (i4UnifAb F (-cfg.rand) cfg.rand g).1, i + (cfg.base + (i4UnifAb F (-cfg.rand) cfg.rand g).1),
      (i4UnifAb F (-cfg.rand) cfg.rand g).2), ?_, ?_, rfl, ?_⟩
    · refine exc_ok_bind (i32_ok (by omega) (by omega)) (exc_ok_bind (i32_ok (by omega) (by omega))
        (exc_ok_bind (i32_ok (by omega) (by omega)) (exc_ok_bind (i32_ok (by omega) (by omega)) ?_)))
      rw [if_neg hx]
    · show 0 < cfg.base + _; omega
    · show i + _ ≤ _; omega

theorem seqStackLoop_total [LawfulDraws F] (cfg : Cfg F) (file : DataFile F) (hv : Runnable n cfg file) (root : Fin n) (nStack : Int)
    (hs : nStack ≤ cfg.nStack) : ∀ (fuel : Nat) (i : Int) (w : W n F) (ty : Tally n F), 0 ≤ i → nStack - i ≤ fuel →
    w.st.Ok cfg → ∃ r, seqStackLoop cfg root nStack fuel i w ty = .ok r := by
  intro fuel
  induction fuel with
  | zero =>
    intro i w ty h0 hf hok
    exact ⟨(w, ty), by simp only [seqStackLoop]; rw [if_neg (by omega)]⟩
  | succ fuel ih =>
    intro i w ty h0 hf hok
    by_cases hi : i < nStack
    · obtain ⟨b, hb, hb1, hb2, hb3⟩ := nextBatch_total cfg hv.rand hv.base hv.randInt nStack i (by have := hv.stackInt; omega) h0 hi
        (w.st.g root)
      obtain ⟨w1, h1⟩ := seqBatch_total cfg hv.user b.1 hb1 { w with st := w.st.setG root b.2.2 } (hok.setG root b.2.2)
      have hok1 := (seqBatch_ok cfg hv.user b.1 _ w1 h1 (hok.setG root b.2.2)).1
      obtain ⟨⟨w2, ty2⟩, h2⟩ := seqSwaps_total cfg hv.ranks hv.ranksInt hv.mode root cfg.nSwap.toNat w1 ty
      have hsl : ∃ slave : Fin n, slave ≠ root := by
        have := hv.ranks
        by_cases h : root.val = 0
        · exact ⟨⟨1, by omega⟩, fun h' => by have := congrArg Fin.val h'; simp at this; omega⟩
        · exact ⟨⟨0, by omega⟩, fun h' => by have := congrArg Fin.val h'; simp at this; omega⟩
      obtain ⟨slave, hsl⟩ := hsl
      have hok2 := (swapLoop_runs cfg root slave hsl _ w1 w2 ty ty2 h2 hok1).1
      obtain ⟨r, h3⟩ := ih b.2.1 w2 ty2 (by omega) (by omega) hok2
      refine ⟨r, ?_⟩
      simp only [seqStackLoop]
      rw [if_pos hi]
      exact exc_ok_bind hb (exc_ok_bind h1 (exc_ok_bind h2 h3))
    · exact ⟨(w, ty), by simp only [seqStackLoop]; rw [if_neg hi]⟩

theorem slaveRank_total (hn : 2 ≤ n) (root : Fin n) : ∃ s, slaveRank root = .ok s :=
  toIdx_ok (by omega) (by omega)

theorem seqStack_total [LawfulDraws F] (cfg : Cfg F) (file : DataFile F) (hv : Runnable n cfg file) (root : Fin n) (nStack : Int)
    (hs : nStack ≤ cfg.nStack) (w : W n F) (hok : w.st.Ok cfg) : ∃ w', seqStack cfg root nStack w = .ok w' := by
  obtain ⟨s, hsl⟩ := slaveRank_total hv.ranks root
  obtain ⟨r, hr⟩ := seqStackLoop_total cfg file hv root nStack hs nStack.toNat 0
    { w with log := fun r => w.log r ++ (if r = root then [.betas (List.ofFn w.st.beta)] else []) } Tally.zero
    (by omega) (by omega) ⟨hok.acc, hok.x, hok.sig, hok.cur⟩
  by_cases hc : (r.1.st.acc root : Int) < cfg.nStopTuneLadder ∧ 0 < cfg.tuneLadder
  · exact ⟨_, exc_ok_bind hsl (exc_ok_bind hr (if_pos hc))⟩
  · exact ⟨_, exc_ok_bind hsl (exc_ok_bind hr (if_neg hc))⟩

/-! ## Tuning -/

theorem genAllTune_total (cfg : Cfg F) (sig : List F) : ∀ (k i : Nat), i + k ≤ sig.length → i + k ≤ cfg.sigmaMin.length →
    i + k ≤ cfg.sigmaMax.length → ∃ grid, genAllTune n cfg sig k i = .ok grid := by
  intro k
  induction k with
  | zero => intro i _ _ _; exact ⟨[], rfl⟩
  | succ k ih =>
    intro i h1 h2 h3
    obtain ⟨rest, hr⟩ := ih (i + 1) (by omega) (by omega) (by omega)
    exact ⟨_, exc_ok_bind (rd_ok (by omega)) (exc_ok_bind (rd_ok (by omega)) (exc_ok_bind (rd_ok (by omega))
      (exc_ok_bind hr rfl)))⟩

theorem scanMin_mem {ι : Type} : ∀ (l : List (ι × F)) (cur : F) (k : ι),
    (scanMin cur k l).2 = k ∨ (scanMin cur k l).2 ∈ l.map Prod.fst := by
  intro l
  induction l with
  | nil => intro cur k; exact .inl rfl
  | cons a l ih =>
    intro cur k
    obtain ⟨i, v⟩ := a
    simp only [scanMin]
    split
    · rcases ih v i with h | h
      · exact .inr (by simp [h])
      · exact .inr (by simp only [List.map_cons, List.mem_cons]; exact .inr h)
    · rcases ih cur k with h | h
      · exact .inl h
      · exact .inr (by simp only [List.map_cons, List.mem_cons]; exact .inr h)

theorem scanMax_mem {ι : Type} : ∀ (l : List (ι × F)) (cur : F) (k : ι),
    (scanMax cur k l).2 = k ∨ (scanMax cur k l).2 ∈ l.map Prod.fst := by
  intro l
  induction l with
  | nil => intro cur k; exact .inl rfl
  | cons a l ih =>
    intro cur k
    obtain ⟨i, v⟩ := a
    simp only [scanMax]
    split
    · rcases ih v i with h | h
      · exact .inr (by simp [h])
      · exact .inr (by simp only [List.map_cons, List.mem_cons]; exact .inr h)
    · rcases ih cur k with h | h
      · exact .inl h
      · exact .inr (by simp only [List.map_cons, List.mem_cons]; exact .inr h)

theorem indexed_mem : ∀ (l : List F) (i k : Nat), k ∈ (indexed i l).map Prod.fst → i ≤ k ∧ k < i + l.length := by
  intro l
  induction l with
  | nil => intro i k h; simp [indexed] at h
  | cons v l ih =>
    intro i k h
    simp only [indexed, List.map_cons, List.mem_cons] at h
    rcases h with h | h
    · simp; omega
    · have := ih (i + 1) k h
      simp; omega

theorem argmin_total (xs : List F) (h : xs ≠ []) : ∃ k, argmin xs = .ok k ∧ k < xs.length := by
  cases xs with
  | nil => exact absurd rfl h
  | cons v l =>
    refine ⟨_, rfl, ?_⟩
    rcases scanMin_mem (indexed 1 l) v 0 with h | h
    · rw [h]; simp
    · have := indexed_mem l 1 _ h
      simp; omega

theorem argmax_total (xs : List F) (h : xs ≠ []) : ∃ k, argmax xs = .ok k ∧ k < xs.length := by
  cases xs with
  | nil => exact absurd rfl h
  | cons v l =>
    refine ⟨_, rfl, ?_⟩
    rcases scanMax_mem (indexed 1 l) v 0 with h | h
    · rw [h]; simp
    · have := indexed_mem l 1 _ h
      simp; omega

theorem errRow_length (best : F) (row : Fin n → F) : (errRow best row).length = n := by simp [errRow]

theorem closestOne_total (hn : 0 < n) (best : F) (row : Fin n → F) : ∃ c, closestOne best row = .ok c ∧ c.2 < n := by
  have hl := errRow_length best row
  unfold closestOne
  cases he : errRow best row with
  | nil => rw [he] at hl; simp at hl; omega
  | cons v l =>
    refine ⟨_, rfl, ?_⟩
    rcases scanMin_mem (indexed 0 (v :: l)) v 0 with h | h
    · rw [h]; exact hn
    · have := indexed_mem (v :: l) 0 _ h
      have hl' : (v :: l).length = n := he ▸ hl
      omega

theorem errCells_mem (best : F) : ∀ (ars : List (Fin n → F)) (i : Nat) (k : Nat × Nat),
    k ∈ (errCells best i ars).map Prod.fst → i ≤ k.1 ∧ k.1 < i + ars.length ∧ k.2 < n := by
  intro ars
  induction ars with
  | nil => intro i k h; simp [errCells] at h
  | cons row l ih =>
    intro i k h
    simp only [errCells, List.map_append, List.map_map, List.mem_append] at h
    rcases h with h | h
    · simp only [List.mem_map, Function.comp] at h
      obtain ⟨c, hc, rfl⟩ := h
      have := indexed_mem (errRow best row) 0 c.1 (List.mem_map_of_mem hc)
      rw [errRow_length] at this
      refine ⟨Nat.le_refl _, by simp, by simp; omega⟩
    · have := ih (i + 1) k h
      simp; omega

theorem closestAll_total (hn : 0 < n) (best : F) (ars : List (Fin n → F)) (ha : ars ≠ []) :
    ∃ c, closestAll best ars = .ok c ∧ c.2.1 < ars.length ∧ c.2.2 < n := by
  unfold closestAll
  have hne : errCells best 0 ars ≠ [] := by
    cases ars with
    | nil => exact absurd rfl ha
    | cons row l =>
      intro h
      have hl := errRow_length best row
      simp only [errCells, List.append_eq_nil_iff, List.map_eq_nil_iff] at h
      cases he : errRow best row with
      | nil => rw [he] at hl; simp at hl; omega
      | cons v l => rw [he] at h; simp [indexed] at h
  cases he : errCells best 0 ars with
  | nil => exact absurd he hne
  | cons c l =>
    refine ⟨_, rfl, ?_⟩
    rcases scanMin_mem (c :: l) c.2 (0, 0) with h | h
    · rw [h]; exact ⟨by cases ars with | nil => exact absurd rfl ha | cons a l => simp, hn⟩
    · rw [← he] at h
      have := errCells_mem best ars 0 _ h
      rw [← he]; omega

/-- The decision is a cell of the grid or one of the two special codes. -/
theorem decideSigma_total (hn : 0 < n) (cfg : Cfg F) (ars : List (Fin n → F)) (ha : ars ≠ []) (g : Rng) :
    ∃ d, decideSigma cfg ars g = .ok d ∧
      ((∃ p j : Nat, d.1 = ((p : Int), (j : Int)) ∧ p < ars.length ∧ j < n) ∨ d.1 = (-1, 0) ∨ d.1 = (-1, -1)) := by
  obtain ⟨p, hp, hpl⟩ := argmax_total (ars.map sdRow) (by simpa using ha)
  rw [List.length_map] at hpl
  obtain ⟨c1, hc1, hl1⟩ := closestOne_total hn cfg.arBest ars[p]
  obtain ⟨c2, hc2, hl2, hl3⟩ := closestAll_total hn cfg.arBest ars ha
  have key : ∀ d, (if c1.1 <. cfg.arAcceptDiff then
      if c2.1 <. cfg.arAcceptDiff then
        if Arith.lit 1 2 <. (drand48 (F := F) g).1 then .ok (((p : Int), (c1.2 : Int)), (drand48 (F := F) g).2)
        else .ok (((c2.2.1 : Int), (c2.2.2 : Int)), (drand48 (F := F) g).2)
      else .ok ((p, c1.2), g)
    else if c2.1 <. cfg.arAcceptDiff then .ok ((c2.2.1, c2.2.2), g)
    else if Arith.lit 1 2 <. (drand48 (F := F) g).1 then .ok ((-1, 0), (drand48 (F := F) g).2)
      else .ok ((-1, -1), (drand48 (F := F) g).2) : Except Fault ((Int × Int) × Rng)) = .ok d →
    decideSigma cfg ars g = .ok d := fun d hd =>
      exc_ok_bind hp (exc_ok_bind (rd_ok hpl) (exc_ok_bind hc1 (exc_ok_bind hc2 hd)))
  by_cases h1 : (c1.1 <. cfg.arAcceptDiff) = true
  · by_cases h2 : (c2.1 <. cfg.arAcceptDiff) = true
    · by_cases h3 : (Arith.lit 1 2 <. (drand48 (F := F) g).1) = true
      · exact ⟨_, key _ (by rw [if_pos h1, if_pos h2, if_pos h3]), .inl ⟨p, c1.2, rfl, hpl, hl1⟩⟩
      · exact ⟨_, key _ (by rw [if_pos h1, if_pos h2, if_neg h3]), .inl ⟨_, _, rfl, hl2, hl3⟩⟩
    · exact ⟨_, key _ (by rw [if_pos h1, if_neg h2]), .inl ⟨p, c1.2, rfl, hpl, hl1⟩⟩
  · by_cases h2 : (c2.1 <. cfg.arAcceptDiff) = true
    · exact ⟨_, key _ (by rw [if_neg h1, if_pos h2]), .inl ⟨_, _, rfl, hl2, hl3⟩⟩
    · by_cases h3 : (Arith.lit 1 2 <. (drand48 (F := F) g).1) = true
      · exact ⟨_, key _ (by rw [if_neg h1, if_neg h2, if_pos h3]), .inr (.inl rfl)⟩
      · exact ⟨_, key _ (by rw [if_neg h1, if_neg h2, if_neg h3]), .inr (.inr rfl)⟩

theorem raceAll_total (hn : 0 < n) (best : F) : ∀ (grid ars : List (Fin n → F)), grid.length = ars.length →
    ∃ sg, raceAll best grid ars = .ok sg := by
  intro grid
  induction grid with
  | nil =>
    intro ars h
    cases ars with
    | nil => exact ⟨[], rfl⟩
    | cons a l => simp at h
  | cons g grid ih =>
    intro ars h
    cases ars with
    | nil => simp at h
    | cons a l =>
      obtain ⟨k, hk, hl⟩ := argmin_total (errRow best a) (by
        intro h'
        have := errRow_length best a
        rw [h'] at this; simp at this; omega)
      rw [errRow_length] at hl
      obtain ⟨j, hj⟩ := toIdx_ok (n := n) (i := (k : Int)) (by omega) (by omega)
      obtain ⟨rest, hr⟩ := ih l (by simpa using h)
      exact ⟨_, exc_ok_bind hk (exc_ok_bind hj (exc_ok_bind hr rfl))⟩

theorem modifySigma_total (hn : 0 < n) (cfg : Cfg F) (sig : List F) (grid ars : List (Fin n → F)) (ch : Int × Int)
    (hg : grid.length = ars.length) (hs : ars.length ≤ sig.length)
    (h : (∃ p j : Nat, ch = ((p : Int), (j : Int)) ∧ p < ars.length ∧ j < n) ∨ ch = (-1, 0) ∨ ch = (-1, -1)) :
    ∃ sg, modifySigma cfg sig grid ars ch = .ok sg := by
  rcases h with ⟨p, j, rfl, hp, hj⟩ | rfl | rfl
  · obtain ⟨j', hj'⟩ := toIdx_ok (n := n) (i := (j : Int)) (by omega) (by omega)
    simp only [modifySigma]
    rw [if_pos (by omega)]
    exact ⟨_, exc_ok_bind (rd_ok (by simp; omega)) (exc_ok_bind hj' (exc_ok_bind (rd_ok (by simp; omega)) rfl))⟩
  · exact ⟨_, rfl⟩
  · exact raceAll_total hn _ _ _ hg

theorem seqTuneParms_total (cfg : Cfg F) (hu : cfg.user.Wf cfg.nParm) (ht : 1 ≤ cfg.nIterInTune) (rk : Fin n)
    (grid : List (Fin n → F)) (hgrid : grid.length = cfg.nParm) : ∀ (k j : Nat) (st : G n F) (ars : List (Fin n → F)),
    j + k = cfg.nParm → st.Ok cfg → ∃ r, seqTuneParms cfg rk grid k j st ars = .ok r ∧ r.2.length = ars.length + k := by
  intro k
  induction k with
  | zero => intro j st ars _ _; exact ⟨_, rfl, rfl⟩
  | succ k ih =>
    intro j st ars hj hok
    have h1 : ∃ rows, trialRows (st.sig rk) grid j = .ok rows :=
      ⟨_, exc_ok_bind (rd_ok (by omega)) (exc_ok_bind (rd_ok (by rw [hok.sig rk]; omega)) rfl)⟩
    obtain ⟨rows, hrows⟩ := h1
    have hl : ∀ r, (rows r).length = cfg.nParm := fun r => by rw [trialRows_length hrows r, hok.sig rk]
    obtain ⟨a, ha⟩ := exists_allOk (f := fun r => iterBatchTune cfg.nParm cfg.user (rows r) st.nline st.data (st.beta rk)
      cfg.nIterInTune (st.x rk) (st.lp rk) (st.g r)) (fun r =>
      ⟨_, iterBatchTune_eq cfg.nParm cfg.user (rows r) st.nline st.data (st.beta rk) hu (hl r) cfg.nIterInTune (by omega)
        (st.x rk) (st.lp rk) (st.g r) (hok.x rk)⟩)
    obtain ⟨r, hr, hrl⟩ := ih (j + 1) { st with cur := rows, g := fun r => (a r).2 } (ars ++ [fun r => (a r).1]) (by omega)
      ⟨hok.acc, hok.x, hok.sig, hl⟩
    exact ⟨r, exc_ok_bind hrows (exc_ok_bind ha hr), by rw [hrl]; simp; omega⟩

theorem seqTuneRank_total (cfg : Cfg F) (file : DataFile F) (hv : Runnable n cfg file) (root rk : Fin n) (w : W n F)
    (hok : w.st.Ok cfg) : ∃ w', seqTuneRank cfg root rk w = .ok w' := by
  have hn : 0 < n := by have := hv.ranks; omega
  obtain ⟨grid, hgrid⟩ := genAllTune_total (n := n) cfg (w.st.sig rk) cfg.nParm 0 (by rw [hok.sig rk]; omega)
    (by have := hv.sigmaMin; omega) (by have := hv.sigmaMax; omega)
  have hgl := genAllTune_length cfg _ _ _ _ hgrid
  obtain ⟨⟨st1, ars⟩, h1, hl⟩ := seqTuneParms_total cfg hv.user hv.inTune rk grid hgl cfg.nParm 0 w.st [] (by omega) hok
  have hal : ars.length = cfg.nParm := by simpa using hl
  have hok1 := (tuneParms_runs cfg root rk grid cfg.nParm 0 w.st st1 [] ars h1 hok).1
  obtain ⟨d, hd, hd'⟩ := decideSigma_total hn cfg ars (by
    intro h; have := hv.parm; rw [h] at hal; simp at hal; omega) (st1.g root)
  obtain ⟨sg, hsg⟩ := modifySigma_total hn cfg (st1.sig rk) grid ars d.1 (by omega) (by rw [hok1.sig rk]; omega) hd'
  exact ⟨_, exc_ok_bind hgrid (exc_ok_bind h1 (exc_ok_bind hd (exc_ok_bind hsg rfl)))⟩

theorem seqTuneRanks_total (cfg : Cfg F) (file : DataFile F) (hv : Runnable n cfg file) (root : Fin n) (fl : Fin n → Int) :
    ∀ (l : List (Fin n)) (w : W n F), w.st.Ok cfg → ∃ w', seqTuneRanks cfg root fl l w = .ok w' := by
  intro l
  induction l with
  | nil => intro w _; exact ⟨w, rfl⟩
  | cons rk l ih =>
    intro w hok
    by_cases hf : fl rk = 1
    · obtain ⟨w1, h1⟩ := seqTuneRank_total cfg file hv root rk w hok
      obtain ⟨w', h2⟩ := ih w1 (tuneRank_runs cfg hv.user root rk w w1 h1 hok).1
      exact ⟨w', exc_ok_bind (by rw [if_pos hf]; exact h1) h2⟩
    · obtain ⟨w', h2⟩ := ih w hok
      exact ⟨w', exc_ok_bind (by rw [if_neg hf]) h2⟩

/-! ## The whole run -/

/-- A round of the main loop whose end is an `int` finishes. -/
theorem seqFlowLoop_round [LawfulDraws F] (cfg : Cfg F) (file : DataFile F) (hv : Runnable n cfg file) (root : Fin n) (nStack i : Int)
    (w : W n F) (h0 : 0 ≤ i) (hi : i < cfg.nIter) (hns : 1 ≤ nStack ∧ nStack ≤ cfg.nStack) (hx : i + nStack ≤ 2147483647)
    (hok : w.st.Ok cfg) : ∃ w1 w2, seqStack cfg root (if cfg.nIter < i + nStack then cfg.nIter - i else nStack) (seqWidths w) = .ok w1 ∧
      (if inTuneWindow cfg (if cfg.nIter < i + nStack then cfg.nIter else i + nStack) then
          seqTuneRanks cfg root (fun r => tuneFlag cfg (stackRate F (w.st.accA r) (w1.st.accA r)
            (if cfg.nIter < i + nStack then cfg.nIter - i else nStack))) (List.finRange n) w1 else .ok w1) = .ok w2 ∧
      w2.st.Ok cfg ∧ ∀ fuel, seqFlowLoop cfg root (fuel + 1) nStack i w = seqFlowLoop cfg root fuel
        (if cfg.nIter < i + nStack then cfg.nIter - i else nStack) (if cfg.nIter < i + nStack then cfg.nIter else i + nStack) w2 := by
  obtain ⟨w1, h1⟩ := seqStack_total cfg file hv root (if cfg.nIter < i + nStack then cfg.nIter - i else nStack)
    (by split <;> omega) (seqWidths w) ⟨hok.acc, hok.x, hok.sig, hok.sig⟩
  have hok1 := (runStack_runs cfg hv.user root _ (seqWidths w) w1 h1 ⟨hok.acc, hok.x, hok.sig, hok.sig⟩).1
  have h2 : ∃ w2, (if inTuneWindow cfg (if cfg.nIter < i + nStack then cfg.nIter else i + nStack) then
      seqTuneRanks cfg root (fun r => tuneFlag cfg (stackRate F (w.st.accA r) (w1.st.accA r)
        (if cfg.nIter < i + nStack then cfg.nIter - i else nStack))) (List.finRange n) w1 else .ok w1) = .ok w2
      ∧ w2.st.Ok cfg := by
    by_cases hw : inTuneWindow cfg (if cfg.nIter < i + nStack then cfg.nIter else i + nStack) = true
    · rw [if_pos hw]
      obtain ⟨w2, h2⟩ := seqTuneRanks_total cfg file hv root (fun r => tuneFlag cfg (stackRate F (w.st.accA r) (w1.st.accA r)
        (if cfg.nIter < i + nStack then cfg.nIter - i else nStack))) (List.finRange n) w1 hok1
      exact ⟨w2, h2, (tuneRanks_runs cfg hv.user root _ _ w1 w2 h2 hok1).1⟩
    · rw [if_neg hw]; exact ⟨w1, rfl, hok1⟩
  obtain ⟨w2, h2, hok2⟩ := h2
  refine ⟨w1, w2, h1, h2, hok2, fun fuel => ?_⟩
  simp only [seqFlowLoop]
  rw [if_pos hi, i32_ok (by omega) hx]
  simp only [bind, Except.bind, h1]
  rw [h2]

theorem seqFlowLoop_total [LawfulDraws F] (cfg : Cfg F) (file : DataFile F) (hv : Valid n cfg file) (root : Fin n) :
    ∀ (fuel : Nat) (nStack i : Int) (w : W n F), 0 ≤ i → cfg.nIter - i ≤ fuel →
    (i < cfg.nIter → nStack = cfg.nStack ∧ ∃ k : Nat, i = k * cfg.nStack) → w.st.Ok cfg →
    ∃ w', seqFlowLoop cfg root fuel nStack i w = .ok w' := by
  intro fuel
  induction fuel with
  | zero =>
    intro nStack i w h0 hf _ _
    exact ⟨w, by simp only [seqFlowLoop]; rw [if_neg (by omega)]⟩
  | succ fuel ih =>
    intro nStack i w h0 hf hns hok
    by_cases hi : i < cfg.nIter
    · obtain ⟨rfl, k, hk⟩ := hns hi
      have hst := hv.stack
      have hit := hv.iterInt k (hk ▸ hi)
      rw [Int.add_mul, Int.one_mul, ← hk] at hit
      obtain ⟨w1, w2, -, -, hok2, h3⟩ := seqFlowLoop_round cfg file hv.toRunnable root cfg.nStack i w h0 hi ⟨hst, Int.le_refl _⟩ hit hok
      rw [h3]
      refine ih _ _ w2 (by split <;> omega) (by split <;> omega) (fun h => ?_) hok2
      split at h
      · omega
      · rename_i h'
        rw [if_neg h', if_neg h']
        exact ⟨rfl, k + 1, by push_cast; rw [Int.add_mul, Int.one_mul, ← hk]⟩
    · exact ⟨w, by simp only [seqFlowLoop]; rw [if_neg hi]⟩

theorem seqInit_total (cfg : Cfg F) (file : DataFile F) (hv : Runnable n cfg file) (clock : Nat) (root : Fin n) :
    ∃ w, seqInit cfg file clock root = .ok w ∧ w.st.Ok cfg := by
  obtain ⟨data, hd, hdl, hdi⟩ := hv.cells
  have hp := hv.parm
  have h : ∃ w, seqInit cfg file clock root = .ok w :=
    ⟨_, exc_ok_bind (i32_ok (by omega) (by omega)) (exc_ok_bind hd (exc_ok_bind (a := ()) (if_neg (by omega))
      (exc_ok_bind (a := ()) (if_neg (by omega)) (exc_ok_bind (a := ()) (if_neg (by omega)) (exc_ok_bind (dif_pos hv.betas) rfl)))))⟩
  obtain ⟨w, h⟩ := h
  refine ⟨w, h, ?_⟩
  simp only [seqInit, exc_bind, Except.ok.injEq] at h
  obtain ⟨_, _, _, _, _, _, _, _, _, _, _, _, rfl⟩ := h
  exact ⟨fun _ _ => rfl, fun r => hv.user.initParm _, fun r => hv.user.initGp _, fun r => hv.user.initGp _⟩

/-- A usable configuration makes the sequential sampler finish. -/
theorem seqMain_total [LawfulDraws F] (cfg : Cfg F) (file : DataFile F) (hv : Valid n cfg file) (clock : Nat) (root : Fin n) :
    ∃ w, seqMain cfg file clock root = .ok w := by
  obtain ⟨w0, h0, hok⟩ := seqInit_total cfg file hv.toRunnable clock root
  obtain ⟨w, h⟩ := seqFlowLoop_total cfg file hv root cfg.nIter.toNat cfg.nStack 0 w0 (by omega) (by omega)
    (fun _ => ⟨rfl, 0, by simp⟩) hok
  exact ⟨w, exc_ok_bind h0 h⟩

end NiiC
