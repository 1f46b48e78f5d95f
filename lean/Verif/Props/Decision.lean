import Verif.Props.Widths
import Verif.Props.Random
import Mathlib.Algebra.BigOperators.Fin

/-!
# Which width the tuning changes: C70
-/

set_option linter.unusedSectionVars false
set_option linter.unusedSimpArgs false

namespace NiiC

/-- The spread of `n` numbers: the root of the mean squared distance to their mean. -/
noncomputable def Spec.spread {n : Nat} (row : Fin n → ℝ) : ℝ :=
  Real.sqrt ((∑ r, (row r - (∑ s, row s) / n) ^ 2) / n)

open Spec

theorem foldl_add_real {α : Type} (f : α → ℝ) : ∀ (l : List α) (a : ℝ), l.foldl (fun s x => s + f x) a = a + (l.map f).sum := by
  intro l
  induction l with
  | nil => intro a; simp
  | cons x l ih => intro a; rw [List.foldl_cons, ih, List.map_cons, List.sum_cons]; ring

/-- **C70.** The number computed for a row of rates is its spread. -/
theorem sdRow_spread {n : Nat} (row : Fin n → ℝ) : sdRow row = spread row := by
  have h1 : (List.ofFn row).foldl (· +. ·) (ofI 0 : ℝ) = ∑ s, row s := by
    have := foldl_add_real (fun x : ℝ => x) (List.ofFn row) 0
    simp only [RealArith.add_eq, RealArith.ofI_eq, Int.cast_zero]
    rw [this, zero_add, List.map_id', List.sum_ofFn]
  simp only [sdRow, spread, h1]
  simp only [RealArith.add_eq, RealArith.sub_eq, RealArith.div_eq, RealArith.sqrt_eq, RealArith.ofI_eq, RealArith.pow_eq, Int.cast_zero, Int.cast_natCast]
  rw [foldl_add_real (fun x : ℝ => (x - (∑ s, row s) / n) ^ ((2 : Int) : ℝ)) (List.ofFn row) 0, zero_add, List.map_ofFn, List.sum_ofFn]
  congr 2
  refine Finset.sum_congr rfl fun r _ => ?_
  simp only [Function.comp]
  exact_mod_cast Real.rpow_natCast (row r - (∑ s, row s) / n) 2

section
variable {F : Type} [Arith F] [Source F] {n : Nat}

/-- The search in one row starts from the first cell and visits it again, so it is the search of `argmin`. -/
theorem closestOne_argmin {S : F → Prop} (ho : OrderOn S) (best : F) (row : Fin n → F) (hS : ∀ r, S (Arith.fabs (row r -. best)))
    (c : F × Nat) (h : closestOne best row = .ok c) : argmin (errRow best row) = .ok c.2 := by
  unfold closestOne at h
  unfold argmin
  have hm : ∀ v ∈ errRow best row, S v := by
    intro v hv
    simp only [errRow, List.mem_ofFn] at hv
    obtain ⟨r, rfl⟩ := hv
    exact hS r
  cases e : errRow best row with
  | nil => rw [e] at h; cases h
  | cons v l =>
    rw [e] at h hm
    simp only [indexed, scanMin, ho.irrefl v (hm v List.mem_cons_self), Bool.false_eq_true, if_false, Except.ok.injEq] at h
    rw [← h]

end

/-- **C70.** What the tuning decision does with a table of rates, one row of `n` rates for each parameter. Let `p` be the first parameter whose
rates spread most, `r₁` the first trial of that row whose rate is closest to `ar_best`, and `(q, r₂)` a trial closest to `ar_best` in the whole
table. If the trial `(p, r₁)` is closer than `ar_accept_diff`, one draw decides: above one half `(p, r₁)` is installed, otherwise `(q, r₂)`.
If only `(q, r₂)` is that close it is installed, with no draw. Otherwise one draw decides between initial widths (above one half) and the best
width of every parameter. -/
theorem decide_choice {n : Nat} (cfg : Cfg ℝ) (ars : List (Fin n → ℝ)) (hn : 0 < n) (hne : ars ≠ []) (g : Rng) :
    ∃ (p : Nat) (row₁ : Fin n → ℝ) (r₁ : Fin n) (q : Nat) (row₂ : Fin n → ℝ) (r₂ : Fin n),
      (ars[p]? = some row₁ ∧ (∀ row ∈ ars, spread row ≤ spread row₁) ∧ ∀ (j : Nat) row, j < p → ars[j]? = some row → spread row < spread row₁) ∧
      ((∀ r, |row₁ r₁ - cfg.arBest| ≤ |row₁ r - cfg.arBest|) ∧ ∀ r, r < r₁ → |row₁ r₁ - cfg.arBest| < |row₁ r - cfg.arBest|) ∧
      (ars[q]? = some row₂ ∧ ∀ row ∈ ars, ∀ r, |row₂ r₂ - cfg.arBest| ≤ |row r - cfg.arBest|) ∧
      (|row₁ r₁ - cfg.arBest| < cfg.arAcceptDiff →
        decideSigma cfg ars g = .ok (if 1 / 2 < (lcgNext g : ℝ) / 2 ^ 48 then ((p : Int), (r₁.val : Int)) else ((q : Int), (r₂.val : Int)), lcgNext g)) ∧
      (cfg.arAcceptDiff ≤ |row₁ r₁ - cfg.arBest| → |row₂ r₂ - cfg.arBest| < cfg.arAcceptDiff →
        decideSigma cfg ars g = .ok (((q : Int), (r₂.val : Int)), g)) ∧
      (cfg.arAcceptDiff ≤ |row₂ r₂ - cfg.arBest| →
        decideSigma cfg ars g = .ok (if 1 / 2 < (lcgNext g : ℝ) / 2 ^ 48 then (-1, 0) else (-1, -1), lcgNext g)) := by
  obtain ⟨p, sd, hp, hpv, hpm, hpf⟩ := argmax_first orderOn_real (ars.map sdRow) (by simpa using hne) (fun _ _ => trivial)
  rw [List.getElem?_map, Option.map_eq_some_iff] at hpv
  obtain ⟨row₁, hrow, rfl⟩ := hpv
  have hmem : row₁ ∈ ars := List.mem_of_getElem? hrow
  obtain ⟨r₁, hc1, hb1⟩ := closestOne_best orderOn_real cfg.arBest row₁ hn (fun _ => trivial)
  obtain ⟨q, row₂, r₂, h2, hc2, hmin⟩ := closestAll_best orderOn_real cfg.arBest ars hn hne (fun _ _ _ => trivial)
  have harg := closestOne_argmin orderOn_real cfg.arBest row₁ (fun _ => trivial) _ hc1
  obtain ⟨i, v, hi, hiv, _, hif⟩ := argmin_first orderOn_real (errRow cfg.arBest row₁)
    (by intro h; have := errRow_length cfg.arBest row₁; rw [h] at this; simp at this; omega) (fun _ _ => trivial)
  rw [harg] at hi
  simp only [Except.ok.injEq] at hi
  subst hi
  have herr : ∀ (k : Fin n), (errRow cfg.arBest row₁)[k.val]? = some |row₁ k - cfg.arBest| := by
    intro k
    simp only [errRow, List.getElem?_ofFn, k.isLt, dif_pos, RealArith.fabs_eq, RealArith.sub_eq]
  rw [herr r₁] at hiv
  cases hiv
  simp only [RealArith.lt_iff, RealArith.lt_false_iff, RealArith.fabs_eq, RealArith.sub_eq] at hb1 hmin hpm hpf hif
  have hdead : |row₁ r₁ - cfg.arBest| < cfg.arAcceptDiff → |row₂ r₂ - cfg.arBest| < cfg.arAcceptDiff := fun h => (hmin _ hmem r₁).trans_lt h
  have hu : (drand48 (F := ℝ) g) = ((lcgNext g : ℝ) / 2 ^ 48, lcgNext g) := by
    simp only [drand48_posix, RealArith.lit_eq, Int.cast_natCast, lcgM]
    norm_num
  have hrd : rd ars p = .ok row₁ := by simp only [rd, hrow]
  have heq : decideSigma cfg ars g =
      (if |row₁ r₁ - cfg.arBest| < cfg.arAcceptDiff then
        if |row₂ r₂ - cfg.arBest| < cfg.arAcceptDiff then
          if 1 / 2 < (lcgNext g : ℝ) / 2 ^ 48 then .ok (((p : Int), (r₁.val : Int)), lcgNext g)
          else .ok (((q : Int), (r₂.val : Int)), lcgNext g)
        else .ok (((p : Int), (r₁.val : Int)), g)
      else if |row₂ r₂ - cfg.arBest| < cfg.arAcceptDiff then .ok (((q : Int), (r₂.val : Int)), g)
      else if 1 / 2 < (lcgNext g : ℝ) / 2 ^ 48 then .ok ((-1, 0), lcgNext g)
      else .ok ((-1, -1), lcgNext g) : Except Fault ((Int × Int) × Rng)) := by
    simp only [decideSigma, hp, hrd, hc1, hc2, bind, Except.bind, hu, RealArith.lt_iff, RealArith.fabs_eq, RealArith.sub_eq, RealArith.lit_eq]
    norm_num
  refine ⟨p, row₁, r₁, q, row₂, r₂, ⟨hrow, fun row hr => ?_, fun j row hj hr => ?_⟩, ⟨hb1, fun r hr => hif r.val _ hr (herr r)⟩, ⟨h2, hmin⟩,
    fun h => ?_, fun h h' => ?_, fun h => ?_⟩
  · obtain ⟨j, hj⟩ := List.mem_iff_getElem?.1 hr
    rw [← sdRow_spread, ← sdRow_spread]
    exact hpm j _ (by rw [List.getElem?_map, hj]; rfl)
  · rw [← sdRow_spread, ← sdRow_spread]
    exact hpf j _ hj (by rw [List.getElem?_map, hr]; rfl)
  · rw [heq, if_pos h, if_pos (hdead h)]
    split <;> rfl
  · rw [heq, if_neg (not_lt.2 h), if_pos h']
  · rw [heq, if_neg (fun h' => absurd (hdead h') (not_lt.2 h)), if_neg (not_lt.2 h)]
    split <;> rfl

/-- **C70, in a run.** Tuning a chain: with the grid and the measured rates of `tuned_widths`, let `p`, `r₁`, `q`, `r₂` be as in `decide_choice` and let
`s` be the state of root's generator after the trials. The widths of the chain become as the decision says, and root's generator moves on by one
draw exactly when a draw is needed. -/
theorem tuned_choice {n : Nat} {cfg : Cfg ℝ} (hu : cfg.user.Wf cfg.nParm) (ht : 1 ≤ cfg.nIterInTune)
    (hp : 1 ≤ cfg.nParm) {root rk : Fin n} {w w' : W n ℝ} (h : seqTuneRank cfg root rk w = .ok w') (hok : w.st.Ok cfg) :
    ∃ (grid ars : List (Fin n → ℝ)) (s : Rng), ars.length = cfg.nParm ∧
      (∀ j, j < cfg.nParm → ∃ v lo hi, (w.st.sig rk)[j]? = some v ∧ cfg.sigmaMin[j]? = some lo ∧ cfg.sigmaMax[j]? = some hi ∧
        grid[j]? = some (fun r => gridRow cfg.halfRatio lo hi cfg.jumpin v n r.val)) ∧
      (∀ (j : Nat) row, ars[j]? = some row → ∀ r, TrialRate cfg w.st rk grid j r (row r)) ∧
      ∃ (p : Nat) (gr₁ row₁ : Fin n → ℝ) (r₁ : Fin n) (q : Nat) (gr₂ row₂ : Fin n → ℝ) (r₂ : Fin n),
        (ars[p]? = some row₁ ∧ grid[p]? = some gr₁ ∧ (∀ row ∈ ars, spread row ≤ spread row₁) ∧
          ∀ r, |row₁ r₁ - cfg.arBest| ≤ |row₁ r - cfg.arBest|) ∧
        (ars[q]? = some row₂ ∧ grid[q]? = some gr₂ ∧ ∀ row ∈ ars, ∀ r, |row₂ r₂ - cfg.arBest| ≤ |row r - cfg.arBest|) ∧
        (|row₁ r₁ - cfg.arBest| < cfg.arAcceptDiff →
          w'.st.sig rk = (if 1 / 2 < (lcgNext s : ℝ) / 2 ^ 48 then (w.st.sig rk).set p (gr₁ r₁) else (w.st.sig rk).set q (gr₂ r₂)) ∧
          w'.st.g root = lcgNext s) ∧
        (cfg.arAcceptDiff ≤ |row₁ r₁ - cfg.arBest| → |row₂ r₂ - cfg.arBest| < cfg.arAcceptDiff →
          w'.st.sig rk = (w.st.sig rk).set q (gr₂ r₂) ∧ w'.st.g root = s) ∧
        (cfg.arAcceptDiff ≤ |row₂ r₂ - cfg.arBest| →
          (1 / 2 < (lcgNext s : ℝ) / 2 ^ 48 → w'.st.sig rk = cfg.user.initGp cfg.initGpRatio) ∧
          (¬ 1 / 2 < (lcgNext s : ℝ) / 2 ^ 48 → (w'.st.sig rk).length = cfg.nParm ∧ ∀ (j : Nat) v, (w'.st.sig rk)[j]? = some v →
            ∃ (gr row : Fin n → ℝ) (r : Fin n), grid[j]? = some gr ∧ ars[j]? = some row ∧ v = gr r ∧
              (∀ r', |row r - cfg.arBest| ≤ |row r' - cfg.arBest|) ∧ ∀ r', r' < r → |row r - cfg.arBest| < |row r' - cfg.arBest|) ∧
          w'.st.g root = lcgNext s) := by
  have hn : 0 < n := Nat.lt_of_le_of_lt (Nat.zero_le _) rk.isLt
  simp only [seqTuneRank, exc_bind, Except.ok.injEq] at h
  obtain ⟨grid, hgrid, ⟨st1, ars⟩, h1, d, hdec, sg, hsg, rfl⟩ := h
  have hf := seqTuneParms_frame cfg rk grid _ _ _ _ _ _ h1
  have hgl := genAllTune_length cfg _ _ _ _ hgrid
  obtain ⟨hal, hrates⟩ := rates_measured hu ht rk grid cfg.nParm 0 w.st st1 [] ars h1 rfl hok (by simp)
  rw [Nat.zero_add] at hal
  have hsig : st1.sig rk = w.st.sig rk := by rw [hf]
  have hne : ars ≠ [] := by intro h; rw [h] at hal; simp at hal; omega
  have hget := genAllTune_get cfg (w.st.sig rk) cfg.nParm 0 grid hgrid
  simp only [Nat.zero_add] at hget
  obtain ⟨p, row₁, r₁, q, row₂, r₂, ⟨a1, a2, _⟩, ⟨b1, _⟩, ⟨c1, c2⟩, hA, hB, hC⟩ := decide_choice cfg ars hn hne (st1.g root)
  have hidx : ∀ (i : Nat) row, ars[i]? = some row → i < cfg.nParm := by
    intro i row hi
    rw [← hal]
    by_contra hc
    rw [List.getElem?_eq_none (by omega)] at hi
    cases hi
  obtain ⟨_, _, _, _, _, _, g1⟩ := hget p (hidx p _ a1)
  obtain ⟨_, _, _, _, _, _, g2⟩ := hget q (hidx q _ c1)
  simp only at hdec hsg
  have hset : ∀ (i : Nat) (gr : Fin n → ℝ) (r : Fin n) (sg : List ℝ), grid[i]? = some gr →
      modifySigma cfg (st1.sig rk) grid ars ((i : Int), (r.val : Int)) = .ok sg → sg = (w.st.sig rk).set i (gr r) := by
    intro i gr r sg hi hm
    simp only [modifySigma] at hm
    rw [if_pos (by omega)] at hm
    simp only [exc_bind, Except.ok.injEq] at hm
    obtain ⟨grow, hg, j, hj, _, _, rfl⟩ := hm
    have hjr : j = r := by
      have := toIdx_val hj
      exact Fin.ext (by omega)
    have := rd_eq_ok hg
    simp only [Int.toNat_natCast] at this ⊢
    rw [hi] at this
    cases this
    rw [hjr, hsig]
  refine ⟨grid, ars, st1.g root, hal, hget, hrates, p, _, row₁, r₁, q, _, row₂, r₂, ⟨a1, g1, a2, b1⟩, ⟨c1, g2, c2⟩, fun h => ?_, fun h h' => ?_, fun h => ?_⟩
  · rw [hA h] at hdec
    cases hdec
    simp only [W.push, Function.update_self, and_true]
    by_cases hc : 1 / 2 < (lcgNext (st1.g root) : ℝ) / 2 ^ 48
    · rw [if_pos hc] at hsg ⊢
      exact hset p _ r₁ sg g1 hsg
    · rw [if_neg hc] at hsg ⊢
      exact hset q _ r₂ sg g2 hsg
  · rw [hB h h'] at hdec
    cases hdec
    simp only [W.push, Function.update_self, and_true]
    exact hset q _ r₂ sg g2 hsg
  · rw [hC h] at hdec
    cases hdec
    simp only [W.push, Function.update_self, and_true]
    refine ⟨fun hc => ?_, fun hc => ?_⟩
    · rw [if_pos hc] at hsg
      cases hsg
      rfl
    · rw [if_neg hc] at hsg
      have hsg' : raceAll cfg.arBest grid ars = .ok sg := hsg
      obtain ⟨hl, hr⟩ := raceAll_get cfg.arBest grid ars sg hsg'
      refine ⟨by omega, fun j v hj => ?_⟩
      obtain ⟨gr, row, r, e1, e2, e3, e4⟩ := hr j v hj
      have herr : ∀ (k : Fin n), (errRow cfg.arBest row)[k.val]? = some |row k - cfg.arBest| := by
        intro k
        simp only [errRow, List.getElem?_ofFn, k.isLt, dif_pos, RealArith.fabs_eq, RealArith.sub_eq]
      obtain ⟨i, v', f1, f2, f3, f4⟩ := argmin_first orderOn_real (errRow cfg.arBest row) (by
        intro h; have := errRow_length cfg.arBest row; rw [h] at this; simp at this; omega) (fun _ _ => trivial)
      rw [e4] at f1
      cases f1
      rw [herr r] at f2
      cases f2
      simp only [RealArith.lt_iff, RealArith.lt_false_iff] at f3 f4
      exact ⟨gr, row, r, e1, e2, e3, fun r' => f3 r'.val _ (herr r'), fun r' hr' => f4 r'.val _ hr' (herr r')⟩

/-- **C70.** The draw that decides is fair up to one state: of the `2^48` states of the generator, `2^47 - 1` give a draw above one half and
`2^47 + 1` do not. -/
theorem decide_coin :
    ((Finset.range lcgM).filter (fun g => 1 / 2 < (lcgNext g : ℝ) / 2 ^ 48)).card = 2 ^ 47 - 1 ∧
    ((Finset.range lcgM).filter (fun g => ¬ 1 / 2 < (lcgNext g : ℝ) / 2 ^ 48)).card = 2 ^ 47 + 1 := by
  classical
  have key : ∀ x : Nat, (1 / 2 < (x : ℝ) / 2 ^ 48) ↔ 2 ^ 47 < x := by
    intro x
    rw [lt_div_iff₀ (by norm_num)]
    constructor
    · intro h
      have : ((2 ^ 47 : Nat) : ℝ) < (x : ℝ) := by push_cast; norm_num at h ⊢; linarith
      exact_mod_cast this
    · intro h
      have : ((2 ^ 47 : Nat) : ℝ) < (x : ℝ) := by exact_mod_cast h
      push_cast at this
      norm_num at this ⊢
      linarith
  have hlow : ((Finset.range lcgM).filter (fun g => ¬ 1 / 2 < (lcgNext g : ℝ) / 2 ^ 48)).card = 2 ^ 47 + 1 := by
    rw [card_draw (fun x : Nat => ¬ 1 / 2 < (x : ℝ) / 2 ^ 48)]
    have : (Finset.range lcgM).filter (fun x : Nat => ¬ 1 / 2 < (x : ℝ) / 2 ^ 48) = Finset.range (2 ^ 47 + 1) := by
      ext x
      rw [Finset.mem_filter, Finset.mem_range, Finset.mem_range, key]
      unfold lcgM
      omega
    rw [this, Finset.card_range]
  refine ⟨?_, hlow⟩
  rw [card_draw (fun x : Nat => 1 / 2 < (x : ℝ) / 2 ^ 48)]
  have : (Finset.range lcgM).filter (fun x : Nat => 1 / 2 < (x : ℝ) / 2 ^ 48) = Finset.Ico (2 ^ 47 + 1) (2 ^ 48) := by
    ext x
    rw [Finset.mem_filter, Finset.mem_range, Finset.mem_Ico, key]
    unfold lcgM
    omega
  rw [this, Nat.card_Ico]
  norm_num

/-- Two parameters, three trials: the rates of parameter 1 spread more, so the closest rate of parameter 1 is the first candidate although
parameter 0 has a closer one. -/
example (g : Rng) (h : 2 ^ 47 < lcgNext g) :
    decideSigma (n := 3) demoCfg [![23 / 100, 24 / 100, 25 / 100], ![9 / 10, 3 / 10, 0]] g = .ok ((1, 1), lcgNext g) := by
  obtain ⟨p, row₁, r₁, q, row₂, r₂, ⟨h1, h2, _⟩, ⟨h4, _⟩, _, hA, _⟩ :=
    decide_choice (n := 3) demoCfg [![23 / 100, 24 / 100, 25 / 100], ![9 / 10, 3 / 10, 0]] (by norm_num) (by simp) g
  have hs : spread ![(23 : ℝ) / 100, 24 / 100, 25 / 100] < spread ![(9 : ℝ) / 10, 3 / 10, 0] := by
    unfold spread
    refine Real.sqrt_lt_sqrt (by positivity) ?_
    simp only [Fin.sum_univ_three, Matrix.cons_val]
    norm_num
  have hhalf : 1 / 2 < (lcgNext g : ℝ) / 2 ^ 48 := by
    have : ((2 ^ 47 : Nat) : ℝ) < (lcgNext g : ℝ) := by exact_mod_cast h
    rw [lt_div_iff₀ (by norm_num)]
    push_cast at this
    norm_num at this ⊢
    linarith
  match p, h1 with
  | 0, h1 =>
    cases h1
    exact absurd (h2 ![9 / 10, 3 / 10, 0] (by simp)) (not_le.2 hs)
  | 1, h1 =>
    cases h1
    have e1 : r₁ = 1 := by
      have := h4 1
      fin_cases r₁ <;> norm_num [demoCfg, abs_le, abs_of_nonneg, abs_of_neg] at this <;> rfl
    subst e1
    rw [hA (by norm_num [demoCfg, abs_lt]), if_pos hhalf]
    rfl
  | p + 2, h1 => simp at h1

/-- The hypotheses of `tuned_choice` are met at the start of the demo. -/
example : ∃ (w w' : W 3 ℝ) (grid ars : List (Fin 3 → ℝ)), seqTuneRank demoCfg 0 1 w = .ok w' ∧ ars.length = 2 ∧
    ∀ (j : Nat) row, ars[j]? = some row → ∀ r, TrialRate demoCfg w.st 1 grid j r (row r) := by
  obtain ⟨w, _, hok⟩ := seqInit_total demoCfg demoFile demo_valid.toRunnable 7 (0 : Fin 3)
  obtain ⟨w', hw'⟩ := seqTuneRank_total demoCfg demoFile demo_valid.toRunnable 0 1 w hok
  obtain ⟨grid, ars, _, h1, -, h2, -⟩ := tuned_choice demo_valid.user demo_valid.inTune demo_valid.parm hw' hok
  exact ⟨w, w', grid, ars, hw', h1, h2⟩

end NiiC
