import Verif.Model.Batch
import Verif.Spec.Mh

/-!
# A batch on one rank is the textbook recursion
-/

set_option linter.unusedSectionVars false
set_option linter.unusedSimpArgs false

namespace NiiC

open Spec

variable {F : Type} [Arith F] [Source F]

omit [Source F] in
/-- The user's functions keep the number of parameters. -/
structure User.Wf (u : User F) (nParm : Nat) : Prop where
  boundary : ∀ x, x.length = nParm → (u.boundary x).length = nParm
  initParm : ∀ s, (u.initParm s).1.length = nParm
  initGp : ∀ r, (u.initGp r).length = nParm

theorem rd_ok {α : Type} {xs : List α} {i : Nat} (h : i < xs.length) : rd xs i = .ok xs[i] := by
  simp [rd, h]

theorem propose_length (x s : List F) (g : Rng) (h : x.length = s.length) : (propose x s g).1.length = x.length := by
  induction x generalizing s g with
  | nil => simp [propose]
  | cons a x ih =>
    cases s with
    | nil => simp at h
    | cons b s =>
      simp only [propose, List.length_cons]
      rw [ih]
      simpa using h

theorem proposeFrom_eq (x sigma : List F) (hl : x.length = sigma.length) : ∀ (k i : Nat) (g : Rng),
    i + k = x.length → proposeFrom x sigma k i g = .ok (propose (x.drop i) (sigma.drop i) g) := by
  intro k
  induction k with
  | zero =>
    intro i g h
    have : x.drop i = [] := by simp; omega
    rw [this]
    simp [proposeFrom, propose]
  | succ k ih =>
    intro i g h
    have h1 : i < x.length := by omega
    have h2 : i < sigma.length := by omega
    rw [List.drop_eq_getElem_cons h1, List.drop_eq_getElem_cons h2]
    simp only [proposeFrom, rd_ok h1, rd_ok h2, propose, bind, Except.bind]
    rw [ih (i + 1) _ (by omega)]

theorem gaussianPropose_eq {nParm : Nat} {x sigma : List F} (hx : x.length = nParm) (hs : sigma.length = nParm) (g : Rng) :
    gaussianPropose nParm x sigma g = .ok (propose x sigma g) := by
  have := proposeFrom_eq x sigma (by omega) nParm 0 g (by omega)
  simpa [gaussianPropose] using this

theorem mhAccept_eq (a b : F) (g : Rng) : mhAccept a b (ofI 1) g = accept a b g := rfl

section arrays
variable {α : Type}

theorem rdInit_append {l : List α} {i : Nat} (h : i < l.length) (tail : List (Option α)) :
    rdInit (l.map some ++ tail) i = .ok l[i] := by
  have : (l.map some ++ tail)[i]? = some (some l[i]) := by
    rw [List.getElem?_append_left (by simpa using h)]
    simp [h]
  simp [rdInit, this]

theorem wr_append {l : List α} {k : Nat} (v : α) :
    wr (l.map some ++ List.replicate (k + 1) none) l.length v = .ok ((l ++ [v]).map some ++ List.replicate k none) := by
  have h : l.length < (l.map some ++ List.replicate (k + 1) (none : Option α)).length := by simp
  rw [wr, if_pos h]
  congr 1
  rw [List.set_append_right _ _ (by simp)]
  simp [List.replicate_succ]

theorem wr_zero {k : Nat} (v : α) :
    wr (List.replicate (k + 1) none) 0 v = .ok ([some v] ++ List.replicate k none) := by
  simp [wr, List.replicate_succ]

theorem wr_zero' {k : Nat} (v w : α) :
    wr ([some w] ++ List.replicate k none) 0 v = .ok ([some v] ++ List.replicate k none) := by
  simp [wr]

end arrays

section
variable (nParm : Nat) (u : User F) (sigma : List F) (nline : Int) (data : List F) (beta : F)

theorem mhStep_length (hu : u.Wf nParm) (hs : sigma.length = nParm) (c : Ch F) (hc : c.x.length = nParm) :
    (mhStep u sigma nline data beta c).x.length = nParm := by
  simp only [mhStep]
  split
  · exact hu.boundary _ (by rw [propose_length _ _ _ (by omega)]; exact hc)
  · exact hc

theorem mhStep_acc (c : Ch F) : (mhStep u sigma nline data beta c).acc = c.acc + 1 := by
  simp only [mhStep]
  split <;> rfl

theorem mhIter_succ (k : Nat) (c : Ch F) :
    mhIter u sigma nline data beta (k + 1) c = mhStep u sigma nline data beta (mhIter u sigma nline data beta k c) := by
  induction k generalizing c with
  | zero => rfl
  | succ k ih => rw [mhIter, ih]; rfl

theorem mhIter_length (hu : u.Wf nParm) (hs : sigma.length = nParm) (k : Nat) (c : Ch F) (hc : c.x.length = nParm) :
    (mhIter u sigma nline data beta k c).x.length = nParm := by
  induction k generalizing c with
  | zero => exact hc
  | succ k ih => exact ih _ (mhStep_length nParm u sigma nline data beta hu hs c hc)

theorem mhIter_acc (k : Nat) (c : Ch F) : (mhIter u sigma nline data beta k c).acc = c.acc + k := by
  induction k generalizing c with
  | zero => rfl
  | succ k ih => rw [mhIter, ih, mhStep_acc]; omega

theorem mhRun_length (k : Nat) (c : Ch F) : (mhRun u sigma nline data beta k c).length = k := by
  induction k generalizing c with
  | zero => rfl
  | succ k ih => simp [mhRun, ih]

/-- First iteration: row 0 holds the start point already. -/
theorem mhBody_zero (hs : sigma.length = nParm) (c : Ch F) (hc : c.x.length = nParm) (k : Nat) :
    mhBody nParm u sigma nline data beta 0
      { chain := [some c.x] ++ List.replicate k none, logpost := [some c.lp] ++ List.replicate k none,
        old := 0, lpOld := c.lp, accA := c.accA, g := c.g }
    = .ok { chain := [some (mhStep u sigma nline data beta c).x] ++ List.replicate k none,
            logpost := [some (mhStep u sigma nline data beta c).lp] ++ List.replicate k none,
            old := 0, lpOld := c.lp,
            accA := (mhStep u sigma nline data beta c).accA, g := (mhStep u sigma nline data beta c).g } := by
  have h1 : rdInit ([some c.x] ++ List.replicate k none) 0 = .ok c.x := by simp [rdInit]
  simp only [mhBody, Nat.lt_irrefl, if_false, h1, bind, Except.bind, gaussianPropose_eq hc hs, mhAccept_eq]
  by_cases ha : (accept (target u nline data beta (u.boundary (propose c.x sigma c.g).1)) c.lp
      (propose c.x sigma c.g).2).1 = true
  · simp only [mhStep, target] at ha ⊢
    simp only [ha, if_true, wr_zero']
  · simp only [mhStep, target] at ha ⊢
    simp only [ha]
    rfl

/-- Later iterations. -/
theorem mhBody_succ (hs : sigma.length = nParm) (hist : List (Ch F)) (c : Ch F) (hc : c.x.length = nParm) (k old : Nat)
    (lpo : F) :
    mhBody nParm u sigma nline data beta (hist ++ [c]).length
      { chain := ((hist ++ [c]).map Ch.x).map some ++ List.replicate (k + 1) none,
        logpost := ((hist ++ [c]).map Ch.lp).map some ++ List.replicate (k + 1) none,
        old := old, lpOld := lpo, accA := c.accA, g := c.g }
    = .ok { chain := ((hist ++ [c] ++ [mhStep u sigma nline data beta c]).map Ch.x).map some ++ List.replicate k none,
            logpost := ((hist ++ [c] ++ [mhStep u sigma nline data beta c]).map Ch.lp).map some ++ List.replicate k none,
            old := hist.length, lpOld := c.lp,
            accA := (mhStep u sigma nline data beta c).accA, g := (mhStep u sigma nline data beta c).g } := by
  have hpos : 0 < (hist ++ [c]).length := by simp
  have hm1 : (hist ++ [c]).length - 1 = hist.length := by simp
  have hx : rdInit (((hist ++ [c]).map Ch.x).map some ++ List.replicate (k + 1) none) hist.length = .ok c.x := by
    rw [rdInit_append (i := hist.length) (by simp)]
    simp
  have hl : rdInit (((hist ++ [c]).map Ch.lp).map some ++ List.replicate (k + 1) none) hist.length = .ok c.lp := by
    rw [rdInit_append (i := hist.length) (by simp)]
    simp
  have hwx : ∀ v, wr (((hist ++ [c]).map Ch.x).map some ++ List.replicate (k + 1) none) (hist ++ [c]).length v
      = .ok (((hist ++ [c]).map Ch.x ++ [v]).map some ++ List.replicate k none) := by
    intro v
    have := wr_append (l := (hist ++ [c]).map Ch.x) (k := k) v
    rwa [List.length_map] at this
  have hwl : ∀ v, wr (((hist ++ [c]).map Ch.lp).map some ++ List.replicate (k + 1) none) (hist ++ [c]).length v
      = .ok (((hist ++ [c]).map Ch.lp ++ [v]).map some ++ List.replicate k none) := by
    intro v
    have := wr_append (l := (hist ++ [c]).map Ch.lp) (k := k) v
    rwa [List.length_map] at this
  simp only [mhBody, if_pos hpos, hm1, hx, hl, hwx, hwl, bind, Except.bind, gaussianPropose_eq hc hs, mhAccept_eq]
  have e1 : ∀ v : Ch F, (hist ++ [c] ++ [v]).map Ch.x = (hist ++ [c]).map Ch.x ++ [v.x] := by intro v; simp
  have e2 : ∀ v : Ch F, (hist ++ [c] ++ [v]).map Ch.lp = (hist ++ [c]).map Ch.lp ++ [v.lp] := by intro v; simp
  rw [e1, e2]
  by_cases ha : (accept (target u nline data beta (u.boundary (propose c.x sigma c.g).1)) c.lp
      (propose c.x sigma c.g).2).1 = true
  · simp only [mhStep, target] at ha ⊢
    simp only [ha, if_true]
  · simp only [mhStep, target] at ha ⊢
    simp only [ha]
    rfl

theorem iterLoop_succ (hu : u.Wf nParm) (hs : sigma.length = nParm) : ∀ (k : Nat) (hist : List (Ch F)) (c : Ch F)
    (old : Nat) (lpo : F), c.x.length = nParm →
    ∃ old' lpo', iterLoop nParm u sigma nline data beta k (hist ++ [c]).length
      { chain := ((hist ++ [c]).map Ch.x).map some ++ List.replicate k none,
        logpost := ((hist ++ [c]).map Ch.lp).map some ++ List.replicate k none,
        old := old, lpOld := lpo, accA := c.accA, g := c.g } c.acc
      (((hist ++ [c]).map Ch.acc).map some ++ List.replicate k none)
      (((hist ++ [c]).map Ch.accA).map some ++ List.replicate k none)
    = .ok ({ chain := ((hist ++ [c] ++ mhRun u sigma nline data beta k c).map Ch.x).map some,
             logpost := ((hist ++ [c] ++ mhRun u sigma nline data beta k c).map Ch.lp).map some,
             old := old', lpOld := lpo', accA := (mhIter u sigma nline data beta k c).accA,
             g := (mhIter u sigma nline data beta k c).g },
           (mhIter u sigma nline data beta k c).acc,
           ((hist ++ [c] ++ mhRun u sigma nline data beta k c).map Ch.acc).map some,
           ((hist ++ [c] ++ mhRun u sigma nline data beta k c).map Ch.accA).map some) := by
  intro k
  induction k with
  | zero =>
    intro hist c old lpo hc
    exact ⟨old, lpo, by simp [iterLoop, mhRun, mhIter]⟩
  | succ k ih =>
    intro hist c old lpo hc
    have hwa : ∀ v, wr (((hist ++ [c]).map Ch.acc).map some ++ List.replicate (k + 1) none) (hist ++ [c]).length v
        = .ok (((hist ++ [c]).map Ch.acc ++ [v]).map some ++ List.replicate k none) := by
      intro v
      have := wr_append (l := (hist ++ [c]).map Ch.acc) (k := k) v
      rwa [List.length_map] at this
    have hwb : ∀ v, wr (((hist ++ [c]).map Ch.accA).map some ++ List.replicate (k + 1) none) (hist ++ [c]).length v
        = .ok (((hist ++ [c]).map Ch.accA ++ [v]).map some ++ List.replicate k none) := by
      intro v
      have := wr_append (l := (hist ++ [c]).map Ch.accA) (k := k) v
      rwa [List.length_map] at this
    simp only [iterLoop, bind, Except.bind]
    rw [mhBody_succ nParm u sigma nline data beta hs hist c hc k old lpo]
    simp only [hwa, hwb]
    have hacc := mhStep_acc u sigma nline data beta c
    obtain ⟨o', l', h⟩ := ih (hist ++ [c]) (mhStep u sigma nline data beta c) hist.length c.lp
      (mhStep_length nParm u sigma nline data beta hu hs c hc)
    refine ⟨o', l', ?_⟩
    have e1 : (hist ++ [c]).length + 1 = (hist ++ [c] ++ [mhStep u sigma nline data beta c]).length := by simp
    have e2 : (hist ++ [c]).map Ch.acc ++ [c.acc + 1]
        = (hist ++ [c] ++ [mhStep u sigma nline data beta c]).map Ch.acc := by simp [hacc]
    have e3 : (hist ++ [c]).map Ch.accA ++ [(mhStep u sigma nline data beta c).accA]
        = (hist ++ [c] ++ [mhStep u sigma nline data beta c]).map Ch.accA := by simp
    rw [e1, e2, e3, ← hacc, h]
    simp [mhRun, mhIter]

theorem mhRun_last (k : Nat) (c : Ch F) :
    (mhRun u sigma nline data beta (k + 1) c)[k]'(by rw [mhRun_length]; omega)
      = mhIter u sigma nline data beta (k + 1) c := by
  induction k generalizing c with
  | zero => rfl
  | succ k ih =>
    have := ih (mhStep u sigma nline data beta c)
    simpa [mhRun, mhIter] using this

theorem batchLines_eq (rank : Nat) (cs : List (Ch F)) : ∀ (k i : Nat), i + k = cs.length →
    batchLines rank ((cs.map Ch.x).map some) ((cs.map Ch.lp).map some) ((cs.map Ch.acc).map some)
      ((cs.map Ch.accA).map some) k i = .ok ((cs.drop i).map (line rank)) := by
  intro k
  induction k with
  | zero =>
    intro i h
    have : cs.drop i = [] := by simp; omega
    simp [batchLines, this]
  | succ k ih =>
    intro i h
    have hi : i < cs.length := by omega
    have hr : ∀ {α : Type} (f : Ch F → α), rdInit ((cs.map f).map some) i = .ok (f cs[i]) := by
      intro α f
      simp [rdInit, hi]
    simp only [batchLines, hr, bind, Except.bind]
    rw [ih (i + 1) (by omega), List.drop_eq_getElem_cons hi]
    rfl

/-- The batch routine, when the arrays have the right sizes: no fault, and the textbook recursion. -/
theorem iterBatch_eq (hu : u.Wf nParm) (hs : sigma.length = nParm) (rank saveBegin : Nat) (nBatch : Int)
    (hb : 0 < nBatch) (c : Ch F) (hc : c.x.length = nParm) :
    iterBatch nParm u rank sigma nline data beta saveBegin nBatch c.x c.lp c.acc c.accA c.g
    = .ok { x := (mhIter u sigma nline data beta nBatch.toNat c).x,
            lp := (mhIter u sigma nline data beta nBatch.toNat c).lp,
            acc := (mhIter u sigma nline data beta nBatch.toNat c).acc,
            accA := (mhIter u sigma nline data beta nBatch.toNat c).accA,
            g := (mhIter u sigma nline data beta nBatch.toNat c).g,
            lines := if saveBegin ≤ c.acc + nBatch.toNat
              then (mhRun u sigma nline data beta nBatch.toNat c).map (line rank) else [] } := by
  have hb' : ¬ nBatch ≤ 0 := by omega
  obtain ⟨k, hk⟩ : ∃ k, nBatch.toNat = k + 1 := ⟨nBatch.toNat - 1, by omega⟩
  simp only [iterBatch, hb', if_false, hk, wr_zero, bind, Except.bind, iterLoop]
  rw [mhBody_zero nParm u sigma nline data beta hs c hc k]
  simp only [wr_zero]
  obtain ⟨o', l', h⟩ := iterLoop_succ nParm u sigma nline data beta hu hs k [] (mhStep u sigma nline data beta c) 0 c.lp
    (mhStep_length nParm u sigma nline data beta hu hs c hc)
  simp only [List.nil_append, List.length_singleton, List.map_singleton, mhStep_acc] at h
  have h' : iterLoop nParm u sigma nline data beta k 1
      { chain := [some (mhStep u sigma nline data beta c).x] ++ List.replicate k none,
        logpost := [some (mhStep u sigma nline data beta c).lp] ++ List.replicate k none,
        old := 0, lpOld := c.lp, accA := (mhStep u sigma nline data beta c).accA,
        g := (mhStep u sigma nline data beta c).g } (c.acc + 1)
      ([some (c.acc + 1)] ++ List.replicate k none)
      ([some (mhStep u sigma nline data beta c).accA] ++ List.replicate k none) = _ := h
  rw [h']
  have hrun : [mhStep u sigma nline data beta c] ++ mhRun u sigma nline data beta k (mhStep u sigma nline data beta c)
      = mhRun u sigma nline data beta (k + 1) c := rfl
  have hiter : mhIter u sigma nline data beta k (mhStep u sigma nline data beta c)
      = mhIter u sigma nline data beta (k + 1) c := rfl
  rw [hrun, hiter]
  have hlen : (mhRun u sigma nline data beta (k + 1) c).length = k + 1 := mhRun_length u sigma nline data beta _ _
  have hlast := mhRun_last u sigma nline data beta k c
  have hr : ∀ {α : Type} (f : Ch F → α), rdInit (((mhRun u sigma nline data beta (k + 1) c).map f).map some) (k + 1 - 1)
      = .ok (f (mhIter u sigma nline data beta (k + 1) c)) := by
    intro α f
    have hk1 : k < ((mhRun u sigma nline data beta (k + 1) c).map f).length := by simp [hlen]
    have := rdInit_append hk1 []
    simp only [List.append_nil] at this
    rw [Nat.add_sub_cancel, this, List.getElem_map, hlast]
  have hbl := batchLines_eq rank (mhRun u sigma nline data beta (k + 1) c) (k + 1) 0 (by omega)
  simp only [hr, hbl, List.drop_zero]
  have ha : (mhIter u sigma nline data beta (k + 1) c).acc = c.acc + (k + 1) := mhIter_acc u sigma nline data beta _ _
  rw [ha]
  by_cases hsv : saveBegin ≤ c.acc + (k + 1)
  · simp only [if_pos hsv]
  · simp only [if_neg hsv]

theorem tuneLoop_succ (hu : u.Wf nParm) (hs : sigma.length = nParm) : ∀ (k : Nat) (hist : List (Ch F)) (c : Ch F)
    (old : Nat) (lpo : F), c.x.length = nParm →
    ∃ m, tuneLoop nParm u sigma nline data beta k (hist ++ [c]).length
      { chain := ((hist ++ [c]).map Ch.x).map some ++ List.replicate k none,
        logpost := ((hist ++ [c]).map Ch.lp).map some ++ List.replicate k none,
        old := old, lpOld := lpo, accA := c.accA, g := c.g } = .ok m ∧
      m.accA = (mhIter u sigma nline data beta k c).accA ∧ m.g = (mhIter u sigma nline data beta k c).g := by
  intro k
  induction k with
  | zero =>
    intro hist c old lpo hc
    exact ⟨_, rfl, rfl, rfl⟩
  | succ k ih =>
    intro hist c old lpo hc
    simp only [tuneLoop, bind, Except.bind]
    rw [mhBody_succ nParm u sigma nline data beta hs hist c hc k old lpo]
    obtain ⟨m, h1, h2⟩ := ih (hist ++ [c]) (mhStep u sigma nline data beta c) hist.length c.lp
      (mhStep_length nParm u sigma nline data beta hu hs c hc)
    have e1 : (hist ++ [c]).length + 1 = (hist ++ [c] ++ [mhStep u sigma nline data beta c]).length := by simp
    refine ⟨m, ?_, h2⟩
    rw [← h1, e1]

/-- A tuning run is the same recursion, from zero accepted proposals; its result is the fraction accepted. -/
theorem iterBatchTune_eq (hu : u.Wf nParm) (hs : sigma.length = nParm) (nIter : Int) (hb : 0 < nIter) (x : List F)
    (lp : F) (g : Rng) (hc : x.length = nParm) :
    iterBatchTune nParm u sigma nline data beta nIter x lp g
    = .ok (ofI ((mhIter u sigma nline data beta nIter.toNat ⟨x, lp, 0, 0, g⟩).accA : Int) /. ofI nIter,
        (mhIter u sigma nline data beta nIter.toNat ⟨x, lp, 0, 0, g⟩).g) := by
  have hb' : ¬ nIter ≤ 0 := by omega
  obtain ⟨k, hk⟩ : ∃ k, nIter.toNat = k + 1 := ⟨nIter.toNat - 1, by omega⟩
  simp only [iterBatchTune, hb', if_false, hk, wr_zero, bind, Except.bind, tuneLoop]
  have h0 := mhBody_zero nParm u sigma nline data beta hs ⟨x, lp, 0, 0, g⟩ hc k
  simp only at h0
  rw [h0]
  obtain ⟨m, h1, h2, h3⟩ := tuneLoop_succ nParm u sigma nline data beta hu hs k []
    (mhStep u sigma nline data beta ⟨x, lp, 0, 0, g⟩) 0 lp
    (mhStep_length nParm u sigma nline data beta hu hs ⟨x, lp, 0, 0, g⟩ hc)
  simp only [List.nil_append, List.length_singleton, List.map_singleton] at h1
  simp only [Nat.zero_add]
  rw [h1]
  simp only [h2, h3]
  rfl

end
end NiiC
