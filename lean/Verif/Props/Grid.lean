import Verif.Props.Widths
import Verif.Props.Swaps
import Verif.Props.Files

/-!
# The grid of trial widths: C33, C34, C35
-/

set_option linter.unusedSectionVars false
set_option linter.unusedSimpArgs false

namespace NiiC

open Spec

/-! ## C33 -/

theorem logspace_real (base h : ℝ) (hb : 0 < base) (hh : 0 < h) (npts i : Nat) :
    logspace base h npts i = base / h * Real.exp (2 * Real.log h / ((npts : ℝ) - 1) * i) := by
  have e1 : Real.log (base * h) - Real.log (base / h) = 2 * Real.log h := by
    rw [Real.log_mul hb.ne' hh.ne', Real.log_div hb.ne' hh.ne']; ring
  simp only [logspace, RealArith.exp_eq, RealArith.log_eq, RealArith.div_eq, RealArith.mul_eq, RealArith.sub_eq, RealArith.add_eq,
    RealArith.ofI_eq, e1]
  rw [Real.exp_add, Real.exp_log (div_pos hb hh)]
  push_cast
  rfl

/-- **C33.** For a positive base, a half ratio above 1 and at least two points, the grid starts at `base/h`, ends at `base*h`, has a constant
ratio above 1 between neighbours, and increases strictly. -/
theorem grid_geometric (base h : ℝ) (hb : 0 < base) (hh : 1 < h) (npts : Nat) (hn : 2 ≤ npts) :
    logspace base h npts 0 = base / h ∧ logspace base h npts (npts - 1) = base * h ∧
    (∃ q : ℝ, 1 < q ∧ ∀ i, logspace base h npts (i + 1) = q * logspace base h npts i) ∧
    StrictMono (logspace base h npts) := by
  have h0 : 0 < h := by linarith
  have hn1 : (0 : ℝ) < (npts : ℝ) - 1 := by
    have : (2 : ℝ) ≤ npts := by exact_mod_cast hn
    linarith
  have hl : 0 < Real.log h := Real.log_pos hh
  have hstep : ∀ i, logspace base h npts (i + 1) = Real.exp (2 * Real.log h / ((npts : ℝ) - 1)) * logspace base h npts i := by
    intro i
    rw [logspace_real base h hb h0, logspace_real base h hb h0]
    push_cast
    rw [mul_add, Real.exp_add, mul_one]
    ring
  have hq : 1 < Real.exp (2 * Real.log h / ((npts : ℝ) - 1)) := Real.one_lt_exp_iff.2 (by positivity)
  refine ⟨?_, ?_, ⟨_, hq, hstep⟩, strictMono_nat_of_lt_succ (fun i => ?_)⟩
  · rw [logspace_real base h hb h0]; simp
  · rw [logspace_real base h hb h0, Nat.cast_sub (by omega), Nat.cast_one, div_mul_cancel₀ _ hn1.ne', two_mul, Real.exp_add, Real.exp_log h0]
    field_simp
  · rw [hstep]
    have : 0 < logspace base h npts i := by rw [logspace_real base h hb h0]; positivity
    nlinarith

example : logspace (2 : ℝ) 4 5 0 = 1 / 2 ∧ logspace (2 : ℝ) 4 5 4 = 8 := by
  obtain ⟨h1, h2, _⟩ := grid_geometric 2 4 (by norm_num) (by norm_num) 5 (by norm_num)
  exact ⟨h1.trans (by norm_num), h2.trans (by norm_num)⟩

/-- For a half ratio of at least 1 the grid stays between its ends. -/
theorem grid_between (base h : ℝ) (hb : 0 < base) (hh : 1 ≤ h) (npts : Nat) (hn : 2 ≤ npts) (i : Nat) (hi : i < npts) :
    base / h ≤ logspace base h npts i ∧ logspace base h npts i ≤ base * h := by
  rcases hh.lt_or_eq with hh | rfl
  · obtain ⟨h1, h2, _, hm⟩ := grid_geometric base h hb hh npts hn
    rw [← h1, ← h2]
    exact ⟨hm.monotone (Nat.zero_le _), hm.monotone (by omega)⟩
  · rw [logspace_real base 1 hb one_pos]
    simp

/-- The ends for a half ratio of at least 1. -/
theorem grid_ends (base h : ℝ) (hb : 0 < base) (hh : 1 ≤ h) (npts : Nat) (hn : 2 ≤ npts) :
    logspace base h npts 0 = base / h ∧ logspace base h npts (npts - 1) = base * h := by
  rcases hh.lt_or_eq with hh | rfl
  · obtain ⟨h1, h2, _, _⟩ := grid_geometric base h hb hh npts hn
    exact ⟨h1, h2⟩
  · rw [logspace_real base 1 hb one_pos, logspace_real base 1 hb one_pos]
    simp

/-- A number divided by zero and then multiplied by zero is NaN. -/
theorem div_zero_mul_zero {R : Rounding} (a : Dbl R) : ((a /. Dbl.fin 0) *. Dbl.fin 0 : Dbl R) = Dbl.nan := by
  have hz : Dbl.infSign 0 = XV.nan := by simp [Dbl.infSign]
  have hz' : Dbl.infSign (-0) = XV.nan := by simp [Dbl.infSign]
  have key : ∀ v : XV, (v = .nan ∨ v = .pinf ∨ v = .ninf) → Dbl.mul R v (.fin 0) = .nan := by
    rintro v (rfl | rfl | rfl)
    · rfl
    · exact hz
    · exact hz'
  refine key _ ?_
  cases a with
  | nan => exact .inl rfl
  | pinf => right; left; exact if_pos rfl
  | ninf => right; right; exact if_pos rfl
  | fin x =>
    have e : (Dbl.div R (.fin x) (.fin 0)) = Dbl.infSign x := if_pos rfl
    show Dbl.div R (.fin x) (.fin 0) = _ ∨ Dbl.div R (.fin x) (.fin 0) = _ ∨ Dbl.div R (.fin x) (.fin 0) = _
    rw [e]
    unfold Dbl.infSign
    split
    · exact .inr (.inl rfl)
    · split
      · exact .inr (.inr rfl)
      · exact .inl rfl

/-- **C33, one rank.** With a single rank the grid has one point and it is NaN, whatever the base and the ratio. -/
theorem grid_one_rank {R : Rounding} (base h : Dbl R) : logspace base h 1 0 = Dbl.nan := by
  have e : (ofI (((1 : Nat) : Int) - 1) : Dbl R) = Dbl.fin 0 := by
    rw [show (((1 : Nat) : Int) - 1) = 0 by omega, Dbl.ofI_int 0 (by norm_num)]; simp
  have e' : (ofI ((0 : Nat) : Int) : Dbl R) = Dbl.fin 0 := by
    rw [show ((0 : Nat) : Int) = 0 by omega, Dbl.ofI_int 0 (by norm_num)]; simp
  simp only [logspace, e, e', div_zero_mul_zero, Dbl.add_nan, Dbl.exp_nan]

/-! ## C34 -/

/-- **C34.** If `0 < sigma_min`, `1 <= jump ratio` and `sigma_min * jump ratio <= sigma_max`, every trial width lies in
[`sigma_min`, `sigma_max`], for every positive width, every half ratio of at least 1 and two or more ranks. Exact arithmetic. -/
theorem grid_in_range (half smin smax jump width : ℝ) (npts : Nat) (hn : 2 ≤ npts) (hw : 0 < width) (hh : 1 ≤ half)
    (h0 : 0 < smin) (hj : 1 ≤ jump) (hr : smin * jump ≤ smax) (i : Nat) (hi : i < npts) :
    smin ≤ gridRow half smin smax jump width npts i ∧ gridRow half smin smax jump width npts i ≤ smax := by
  have hs1 : 1 ≤ Real.sqrt jump := Real.one_le_sqrt.2 hj
  have hs0 : 0 < Real.sqrt jump := by linarith
  have hss : Real.sqrt jump * Real.sqrt jump = jump := Real.mul_self_sqrt (by linarith)
  have hmax : 0 < smax := by nlinarith
  have hj0 : 0 < jump := by linarith
  simp only [gridRow, bounceInside, RealArith.sqrt_eq, RealArith.lt_iff, RealArith.mul_eq, RealArith.div_eq]
  -- the second re-centring is always inside
  have second : smin ≤ logspace (smax / Real.sqrt jump) (Real.sqrt jump) npts i ∧
      logspace (smax / Real.sqrt jump) (Real.sqrt jump) npts i ≤ smax := by
    obtain ⟨h1, h2⟩ := grid_between (smax / Real.sqrt jump) (Real.sqrt jump) (by positivity) hs1 npts hn i hi
    rw [div_div, hss] at h1
    rw [div_mul_cancel₀ _ hs0.ne'] at h2
    exact ⟨le_trans ((le_div_iff₀ hj0).2 hr) h1, h2⟩
  by_cases c1 : logspace width half npts 0 < smin
  · simp only [c1, if_true]
    by_cases c2 : smax < logspace (smin * Real.sqrt jump) (Real.sqrt jump) npts (npts - 1)
    · simp only [c2, if_true]; exact second
    · simp only [c2, if_false]
      obtain ⟨h1, h2⟩ := grid_between (smin * Real.sqrt jump) (Real.sqrt jump) (by positivity) hs1 npts hn i hi
      rw [mul_div_cancel_right₀ _ hs0.ne'] at h1
      rw [mul_assoc, hss] at h2
      exact ⟨h1, h2.trans hr⟩
  · simp only [c1, if_false]
    by_cases c2 : smax < logspace width half npts (npts - 1)
    · simp only [c2, if_true]; exact second
    · simp only [c2, if_false]
      obtain ⟨h1, h2⟩ := grid_between width half hw hh npts hn i hi
      obtain ⟨e1, e2⟩ := grid_ends width half hw hh npts hn
      rw [e1] at c1
      rw [e2] at c2
      exact ⟨by linarith, by linarith⟩

/-- The grid of the demo configuration stays in [0.001, 5]. -/
example (r : Fin 3) (w : ℝ) (hw : 0 < w) : 1 / 1000 ≤ gridRow (10 : ℝ) (1 / 1000) 5 10 w 3 r.val ∧ gridRow (10 : ℝ) (1 / 1000) 5 10 w 3 r.val ≤ 5 :=
  grid_in_range 10 (1 / 1000) 5 10 w 3 (by norm_num) hw (by norm_num) (by norm_num) (by norm_num) (by norm_num) r.val r.isLt

/-- **C34, the condition is needed.** Range [1, 2], jump ratio 4, width 1, two ranks: the grid around 1 is moved up to [1, 4] and
then down to [1/2, 2], so the first trial width is below the range. -/
theorem grid_out_of_range : gridRow (2 : ℝ) 1 2 4 1 2 0 = 1 / 2 := by
  have h4 : Real.sqrt 4 = 2 := by rw [show (4 : ℝ) = 2 ^ 2 by norm_num]; exact Real.sqrt_sq (by norm_num)
  have e := fun b (hb : (0 : ℝ) < b) => grid_ends b 2 hb (by norm_num) 2 (le_refl _)
  have a1 := (e 1 (by norm_num)).1
  have a2 : logspace (2 : ℝ) 2 2 1 = 2 * 2 := (e 2 (by norm_num)).2
  simp only [gridRow, bounceInside, RealArith.sqrt_eq, RealArith.lt_iff, RealArith.mul_eq, RealArith.div_eq, h4]
  rw [a1, one_mul, if_pos (by norm_num : (1 : ℝ) / 2 < 1), a2, if_pos (by norm_num : (2 : ℝ) < 2 * 2), show (2 : ℝ) / 2 = 1 by norm_num, a1]

/-! ## C35 -/

section
variable {F : Type} [Arith F] [Source F] {n : Nat}

omit [Source F] in
/-- Every width of the list has property `Q` for its parameter. -/
def Each (cfg : Cfg F) (Q : Nat → F → Prop) (s : List F) : Prop := ∀ j v, j < cfg.nParm → s[j]? = some v → Q j v

omit [Source F] in
/-- All widths in the table and in the width files have property `Q`. -/
structure WidthQInv (cfg : Cfg F) (Q : Nat → F → Prop) (w : W n F) : Prop where
  now : ∀ r, Each cfg Q (w.st.sig r)
  file : ∀ r k s, Line.sigma k s ∈ w.log r → Each cfg Q s

theorem WidthQInv.sub {cfg : Cfg F} {Q : Nat → F → Prop} {w w' : W n F} (h : WidthQInv cfg Q w) (hs : w'.st.sig = w.st.sig)
    (hl : ∀ r k s, Line.sigma k s ∈ w'.log r → Line.sigma k s ∈ w.log r ∨ s = w.st.sig r) : WidthQInv cfg Q w' := by
  refine ⟨by rw [hs]; exact h.now, fun r k s hm => ?_⟩
  rcases hl r k s hm with h1 | rfl
  · exact h.file r k s h1
  · exact h.now r

theorem WidthQInv.step {cfg : Cfg F} (hu : cfg.user.Wf cfg.nParm) {Q : Nat → F → Prop}
    (hi : Each cfg Q (cfg.user.initGp cfg.initGpRatio))
    (hg : ∀ j v lo hi (r : Fin n), cfg.sigmaMin[j]? = some lo → cfg.sigmaMax[j]? = some hi → Q j v →
      Q j (gridRow cfg.halfRatio lo hi cfg.jumpin v n r.val))
    {root : Fin n} {w w' : W n F} (h : Step cfg root w w') (hok : w.st.Ok cfg) (hl : WidthQInv cfg Q w) : WidthQInv cfg Q w' := by
  have hok' := h.ok hu hok
  cases h with
  | widths =>
    refine hl.sub rfl (fun r k s hm => ?_)
    simp only [seqWidths, W.push, List.mem_append, List.mem_singleton, Line.sigma.injEq] at hm
    rcases hm with hm | ⟨_, rfl⟩
    · exact .inl hm
    · exact .inr rfl
  | betas =>
    refine hl.sub rfl (fun r k s hm => .inl ?_)
    simp only [List.mem_append] at hm
    rcases hm with hm | hm
    · exact hm
    · split at hm <;> simp at hm
  | draw nStack i b h => exact hl.sub rfl (fun r k s hm => .inl hm)
  | batch _ nb h =>
    obtain ⟨hc, hst, _⟩ := seqBatch_chain hu h hok
    refine hl.sub (by rw [hst]) (fun r k s hm => .inl ?_)
    rw [(hc r).2.2] at hm
    simp only [List.mem_append, List.mem_cons] at hm
    rcases hm with hm | hm | hm
    · exact hm
    · cases hm
    · split at hm
      · obtain ⟨c, _, hc⟩ := List.mem_map.1 hm
        cases hc
      · cases hm
  | swap _ ty ty' h =>
    obtain ⟨i, j, d, _, hst, _, _, _⟩ := seqSwap_spec h
    refine hl.sub (by rw [hst]) (fun r k s hm => .inl ?_)
    rw [seqSwap_log cfg root w w' ty ty' h] at hm
    simp only [List.mem_append, List.mem_singleton] at hm
    rcases hm with hm | hm
    · exact hm
    · cases hm
  | ladder ty h h' hr =>
    refine hl.sub rfl (fun r k s hm => .inl ?_)
    simpa [seqLadder, W.push] using hm
  | tune _ rk h =>
    obtain ⟨⟨sg, hst⟩, hlog, _⟩ := seqTuneRank_frame h
    refine ⟨fun r => ?_, by rw [hlog]; exact hl.file⟩
    by_cases hr : r = rk
    · subst hr
      intro j v hj hv
      rcases tuned_width_origin h hok j hj v hv with h1 | ⟨q, v0, lo, hi', g1, g2, g3, rfl⟩ | h1
      · exact hl.now r j v hj h1
      · exact hg j v0 lo hi' q g2 g3 (hl.now r j v0 hj g1)
      · exact hi j v hj h1
    · rw [hst]
      simp only [Function.update_of_ne hr]
      exact hl.now r

/-- A property that the initial widths have and that trial widths inherit is had by every width ever used for sampling or written. -/
theorem run_widths_inv [LawfulDraws F] (cfg : Cfg F) (file : DataFile F) (hv : Valid n cfg file) (clock : Nat) (root : Fin n)
    {Q : Nat → F → Prop} (hi : Each cfg Q (cfg.user.initGp cfg.initGpRatio))
    (hg : ∀ j v lo hi (r : Fin n), cfg.sigmaMin[j]? = some lo → cfg.sigmaMax[j]? = some hi → Q j v →
      Q j (gridRow cfg.halfRatio lo hi cfg.jumpin v n r.val))
    (w : List (Label n)) (t : Sys n (Msg F) (Line F) (RSt n F)) (h : (initSys cfg file clock root).exec w = some t) (q : Fin n) :
    (∀ k s, Line.sigma k s ∈ t.log q → Each cfg Q s) ∧ ∀ a ∈ notes (t.log q), Each cfg Q a.widths := by
  obtain ⟨wf, hw, hall⟩ := log_prefix cfg file hv clock root
  obtain ⟨w0, h0, hs⟩ := seqMain_steps cfg file clock root wf hw
  have hI : WidthQInv cfg Q w0 := by
    simp only [seqInit, exc_bind, Except.ok.injEq] at h0
    obtain ⟨_, _, data, hd, _, _, _, _, _, _, beta, hb, rfl⟩ := h0
    refine ⟨fun r => hi, fun r k s hm => ?_⟩
    simp only [List.mem_append, List.mem_singleton, reduceCtorEq, or_false, Line.sigma.injEq] at hm
    rcases hm with (hm | hm) | hm
    · split at hm <;> simp at hm
    · split at hm <;> simp at hm
    · rw [hm.2]; exact hi
  have hf := (hs.inv (P := fun w => w.st.Ok cfg ∧ WidthQInv cfg Q w)
    (fun _ _ hp h => ⟨h.ok hv.user hp.1, hp.2.step hv.user hi hg h hp.1⟩) ⟨seqInit_ok hv.user h0, hI⟩).2
  have hsig : ∀ k s, Line.sigma k s ∈ t.log q → Each cfg Q s := fun k s hm => hf.file q k s (((hall w t h).1 q).subset hm)
  refine ⟨hsig, fun a ha => ?_⟩
  simp only [notes, List.mem_filterMap] at ha
  obtain ⟨l, hl, hla⟩ := ha
  cases l <;> simp only [reduceCtorEq, Option.some.injEq] at hla
  subst hla
  obtain ⟨l1, l2, e⟩ := List.append_of_mem hl
  obtain ⟨m1, m2, k, e', _⟩ := widths_in_use cfg file hv clock root w t h q l1 l2 _ _ _ _ e
  refine hsig k _ ?_
  rw [e, e']
  simp

end

/-- **C35.** If every parameter has `0 < sigma_min` and `sigma_min * jump ratio <= sigma_max`, both ratios are at least 1, and the initial
widths lie in their ranges, then in every execution every width that any rank uses for sampling, and every width in the width
files, lies in its range. Exact arithmetic. -/
theorem widths_in_range {n : Nat} (cfg : Cfg ℝ) (file : DataFile ℝ) (hv : Valid n cfg file) (clock : Nat) (root : Fin n)
    (hh : 1 ≤ cfg.halfRatio) (hj : 1 ≤ cfg.jumpin)
    (hr : ∀ (j : Nat) lo hi, cfg.sigmaMin[j]? = some lo → cfg.sigmaMax[j]? = some hi → 0 < lo ∧ lo * cfg.jumpin ≤ hi)
    (hinit : ∀ (j : Nat) v lo hi, j < cfg.nParm → (cfg.user.initGp cfg.initGpRatio)[j]? = some v → cfg.sigmaMin[j]? = some lo →
      cfg.sigmaMax[j]? = some hi → lo ≤ v ∧ v ≤ hi)
    (w : List (Label n)) (t : Sys n (Msg ℝ) (Line ℝ) (RSt n ℝ)) (h : (initSys cfg file clock root).exec w = some t) (q : Fin n)
    (s : List ℝ) (hs : (∃ k, Line.sigma k s ∈ t.log q) ∨ ∃ a ∈ notes (t.log q), a.widths = s)
    (j : Nat) (hjn : j < cfg.nParm) (v lo hi : ℝ) (h1 : s[j]? = some v) (h2 : cfg.sigmaMin[j]? = some lo) (h3 : cfg.sigmaMax[j]? = some hi) :
    lo ≤ v ∧ v ≤ hi := by
  have key := run_widths_inv cfg file hv clock root (Q := fun j v => ∀ lo hi, cfg.sigmaMin[j]? = some lo → cfg.sigmaMax[j]? = some hi → lo ≤ v ∧ v ≤ hi)
    (fun j v hj hv lo hi h2 h3 => hinit j v lo hi hj hv h2 h3)
    (fun j v lo hi r e2 e3 hq lo' hi' e2' e3' => by
      rw [e2] at e2'; rw [e3] at e3'; cases e2'; cases e3'
      obtain ⟨a, b⟩ := hr j lo hi e2 e3
      obtain ⟨c, d⟩ := hq lo hi e2 e3
      exact grid_in_range _ _ _ _ _ _ hv.ranks (by linarith) hh a hj b _ r.isLt) w t h q
  rcases hs with ⟨k, hk⟩ | ⟨a, ha, rfl⟩
  · exact key.1 k s hk j v hjn h1 lo hi h2 h3
  · exact key.2 a ha j v hjn h1 lo hi h2 h3

/-- The demo meets the conditions: initial widths 1 in [0.001, 5], jump ratio 10. -/
example (w : List (Label 3)) (t : Sys 3 (Msg ℝ) (Line ℝ) (RSt 3 ℝ)) (h : (initSys demoCfg demoFile 7 0).exec w = some t) (q : Fin 3)
    (k : Nat) (s : List ℝ) (hs : Line.sigma k s ∈ t.log q) (v : ℝ) (h1 : s[1]? = some v) : 1 / 1000 ≤ v ∧ v ≤ 5 := by
  refine widths_in_range demoCfg demoFile demo_valid 7 0 (by norm_num [demoCfg]) (by norm_num [demoCfg]) ?_ ?_ w t h q s (.inl ⟨k, hs⟩) 1
    (by norm_num [demoCfg]) v _ _ h1 rfl rfl
  · intro j lo hi e1 e2
    match j with
    | 0 => simp only [demoCfg, List.getElem?_cons_zero, Option.some.injEq] at *; subst e1; subst e2; norm_num
    | 1 => simp only [demoCfg, List.getElem?_cons_succ, List.getElem?_cons_zero, Option.some.injEq] at *; subst e1; subst e2; norm_num
    | j + 2 => simp [demoCfg] at e1
  · intro j v lo hi hj e0 e1 e2
    match j with
    | 0 => simp only [demoCfg, demoUser, List.getElem?_cons_zero, Option.some.injEq] at *; subst e0; subst e1; subst e2; norm_num
    | 1 => simp only [demoCfg, demoUser, List.getElem?_cons_succ, List.getElem?_cons_zero, Option.some.injEq] at *; subst e0; subst e1; subst e2; norm_num
    | j + 2 => simp [demoCfg] at e1

end NiiC
