import Verif.Props.Bounce
import Verif.Props.Random
import Verif.Spec.Box
import Mathlib.MeasureTheory.Integral.IntervalIntegral.FundThmCalculus
import Mathlib.Analysis.SpecialFunctions.Integrals.Basic
import Mathlib.Analysis.Complex.ExponentialBounds
import Mathlib.Analysis.Real.Pi.Bounds

/-!
# The prior code of the bundled models: C15 for them, C46, C59, C60
-/

set_option linter.unusedSectionVars false
set_option linter.unusedSimpArgs false

namespace NiiC

open Spec

/-! ## The boundary routine on vectors -/

theorem paraBoundary_length {F : Type} [Arith F] : ∀ (bs : List (F × F)) (x : List F), (paraBoundary bs x).length = x.length
  | [], _ => by simp [paraBoundary]
  | _ :: _, [] => by simp [paraBoundary]
  | _ :: bs, _ :: xs => by simp [paraBoundary, paraBoundary_length bs xs]

/-- **C44, vectors.** If no minimum exceeds its maximum, the boundary routine puts every vector with the right number of parameters
into the box. -/
theorem paraBoundary_inBox : ∀ (bs : List (ℝ × ℝ)) (x : List ℝ), (∀ b ∈ bs, b.1 ≤ b.2) → x.length = bs.length →
    InBox bs (paraBoundary bs x)
  | [], [], _, _ => .nil
  | [], _ :: _, _, h => by simp at h
  | _ :: _, [], _, h => by simp at h
  | b :: bs, x :: xs, hb, h =>
    .cons (bounce_exact b.1 b.2 (hb b (by simp)) x).1 (paraBoundary_inBox bs xs (fun c hc => hb c (by simp [hc])) (by simpa using h))

/-- The boundary routine does not change a vector in the box. -/
theorem paraBoundary_id : ∀ (bs : List (ℝ × ℝ)) (x : List ℝ), InBox bs x → paraBoundary bs x = x
  | _, _, .nil => rfl
  | b :: bs, x :: xs, .cons h hs => by
    simp only [paraBoundary]
    rw [(bounce_exact b.1 b.2 (h.1.trans h.2) x).2.1 h.1 h.2, paraBoundary_id bs xs hs]

/-! ## C46 -/

/-- The range of a parameter fits the way it is drawn. -/
def Draw.Fits : Draw → ℝ × ℝ → Prop
  | .unif, b => b.1 ≤ b.2
  | .logunif, b => 0 < b.1 ∧ b.1 ≤ b.2

theorem Draw.Fits.le {k : Draw} {b : ℝ × ℝ} (h : k.Fits b) : b.1 ≤ b.2 := by
  cases k
  · exact h
  · exact h.2

theorem draw_mem [Source ℝ] [UnitDraws] (k : Draw) (b : ℝ × ℝ) (h : k.Fits b) (g : Rng) : b.1 ≤ (k.draw b g).1 ∧ (k.draw b g).1 ≤ b.2 := by
  cases k with
  | unif =>
    rcases h.le.lt_or_eq with h1 | h1
    · exact ⟨(unif_range b.1 b.2 h1 g).1, (unif_range b.1 b.2 h1 g).2.le⟩
    · show b.1 ≤ (r8UnifAb b.1 b.2 g).1 ∧ (r8UnifAb b.1 b.2 g).1 ≤ b.2
      rw [← h1]
      simp only [r8UnifAb_val, unifVal, RealArith.mul_eq, RealArith.sub_eq, RealArith.add_eq]
      constructor <;> simp
  | logunif =>
    rcases h.2.lt_or_eq with h1 | h1
    · exact ⟨(logunif_range b.1 b.2 h.1 h1 g).1, (logunif_range b.1 b.2 h.1 h1 g).2.le⟩
    · show b.1 ≤ (r8LogunifAb b.1 b.2 g).1 ∧ (r8LogunifAb b.1 b.2 g).1 ≤ b.2
      rw [← h1]
      simp only [r8LogunifAb_val, logunifVal, RealArith.mul_eq, RealArith.exp_eq, RealArith.log_eq, RealArith.div_eq]
      rw [div_self h.1.ne', Real.log_one]
      constructor <;> simp

theorem initDraws_length {F : Type} [Arith F] [Source F] : ∀ (ps : List (Draw × (F × F))) (g : Rng), (initDraws ps g).1.length = ps.length
  | [], _ => rfl
  | (k, b) :: ps, g => by simp [initDraws, initDraws_length ps]

theorem initDraws_inBox [Source ℝ] [UnitDraws] : ∀ (ds : List Draw) (bs : List (ℝ × ℝ)) (g : Rng), List.Forall₂ Draw.Fits ds bs →
    InBox bs (initDraws (ds.zip bs) g).1
  | _, _, _, .nil => .nil
  | k :: ds, b :: bs, g, .cons h hs => .cons (draw_mem k b h g) (initDraws_inBox ds bs _ hs)

/-- **C46, start points.** For every model whose ranges fit its draws (minimum at most maximum, positive for log-uniform draws) and every seed,
the start point has one value per parameter and lies in the box of the prior. Exact arithmetic. -/
theorem init_in_box [Source ℝ] [UnitDraws] (m : Model ℝ) (bounds : List (ℝ × ℝ)) (ndim : Int) (h : List.Forall₂ Draw.Fits m.draws bounds) (seed : Nat) :
    InBox bounds ((m.user bounds ndim).initParm seed).1 := initDraws_inBox _ _ _ h

/-- **C46, widths.** The start widths are `(max - min) * init_gp_ratio`; for a positive ratio and a non-empty range they are positive; and they lie in
the range of widths allowed to the tuner exactly when the ratio lies between the two scales. -/
theorem init_widths (m : Model ℝ) (bounds : List (ℝ × ℝ)) (ndim : Int) (ratio smin smax : ℝ) (j : Nat) (b : ℝ × ℝ) (hb : bounds[j]? = some b)
    (h : b.1 < b.2) : ∃ w lo hi, ((m.user bounds ndim).initGp ratio)[j]? = some w ∧ (widthTable smin bounds)[j]? = some lo ∧
      (widthTable smax bounds)[j]? = some hi ∧ w = (b.2 - b.1) * ratio ∧ (0 < ratio → 0 < w) ∧
      (lo ≤ w ∧ w ≤ hi ↔ smin ≤ ratio ∧ ratio ≤ smax) := by
  have hd : 0 < b.2 - b.1 := by linarith
  refine ⟨(b.2 - b.1) * ratio, smin * (b.2 - b.1), smax * (b.2 - b.1), ?_, ?_, ?_, rfl, fun h => mul_pos hd h, ?_⟩
  · simp [Model.user, initWidths, List.getElem?_map, hb]
  · simp [widthTable, List.getElem?_map, hb]
  · simp [widthTable, List.getElem?_map, hb]
  · rw [mul_comm (b.2 - b.1) ratio, mul_le_mul_iff_of_pos_right hd, mul_le_mul_iff_of_pos_right hd]

theorem user_wf {F : Type} [Arith F] [Source F] (m : Model F) (bounds : List (F × F)) (ndim : Int) (h : m.draws.length = bounds.length) :
    (m.user bounds ndim).Wf bounds.length where
  boundary x hx := by rw [← hx]; exact paraBoundary_length _ _
  initParm s := by
    show (initDraws _ _).1.length = _
    rw [initDraws_length, List.length_zip, h, Nat.min_self]
  initGp r := by simp [Model.user, initWidths]

/-- **C15, bundled models.** For each bundled model (any likelihood and prior on the shared prior code) and exact arithmetic: at every moment of every
execution every row of every chain file is in the box of the prior, and so are the chains when all ranks have finished. -/
theorem model_saved_in_box [Source ℝ] [UnitDraws] {n : Nat} (m : Model ℝ) (bounds : List (ℝ × ℝ)) (ndim : Int) (hb : List.Forall₂ Draw.Fits m.draws bounds)
    (cfg : Cfg ℝ) (hc : cfg.user = m.user bounds ndim) (hp : cfg.nParm = bounds.length) (file : DataFile ℝ) (hv : Valid n cfg file) (clock : Nat)
    (root : Fin n) (w : List (Label n)) (t : Sys n (Msg ℝ) (Line ℝ) (RSt n ℝ)) (h : (initSys cfg file clock root).exec w = some t) :
    (∀ (r : Fin n) (k : Nat) (a : Row ℝ), a ∈ fileRows k (t.log r) → InBox bounds a.x) ∧
    (t.AllDone → ∀ r, ∃ s tab, t.procs root = .ret s ∧ s.tab = some tab ∧ InBox bounds (tab.x r)) := by
  refine saved_in_box cfg file hv clock root (InBox bounds) (fun y hy => ?_) (fun s => ?_) w t h
  · rw [hc]
    refine paraBoundary_inBox bounds y (fun b hbm => ?_) (hy.trans hp)
    obtain ⟨j, hj, rfl⟩ := List.getElem_of_mem hbm
    have := List.Forall₂.get hb (by rw [hb.length_eq]; exact hj) hj
    exact this.le
  · rw [hc]
    exact init_in_box m bounds ndim hb s

/-- The ranges of models/regression/input.ini fit the draws of the regression model. -/
theorem regression_fits : List.Forall₂ Draw.Fits (regression (F := ℝ)).draws [(-20, 20), (-50, 50), (1 / 100, 30)] :=
  .cons (by simp [Draw.Fits]) (.cons (by simp [Draw.Fits]) (.cons ⟨by norm_num, by norm_num⟩ .nil))

/-- Rank 0 of the regression example starts in the box (the sampler uses seed 21 with the seed of the sample configuration and one rank). -/
example : InBox [(-20, 20), (-50, 50), (1 / 100, 30)] (((regression (F := ℝ)).user [(-20, 20), (-50, 50), (1 / 100, 30)] 2).initParm 21).1 :=
  init_in_box regression _ 2 regression_fits 21

/-- The start width of the slope in models/regression/input.ini is 4, and inside the allowed range. -/
example : ∃ w lo hi, (((regression (F := ℝ)).user [(-20, 20), (-50, 50), (1 / 100, 30)] 2).initGp (1 / 10))[0]? = some w ∧
    (widthTable (5 / 10000000000 : ℝ) [(-20, 20), (-50, 50), (1 / 100, 30)])[0]? = some lo ∧
    (widthTable (2 / 10 : ℝ) [(-20, 20), (-50, 50), (1 / 100, 30)])[0]? = some hi ∧ w = 4 ∧ lo ≤ w ∧ w ≤ hi := by
  obtain ⟨w, lo, hi, h1, h2, h3, h4, _, h5⟩ := init_widths regression [(-20, 20), (-50, 50), (1 / 100, 30)] 2 (1 / 10) (5 / 10000000000) (2 / 10) 0
    (-20, 20) rfl (by norm_num)
  refine ⟨w, lo, hi, h1, h2, h3, by rw [h4]; norm_num, h5.2 (by norm_num)⟩

/-- A configuration of three ranks for the regression model. -/
noncomputable def demoRegression : Cfg ℝ :=
  { demoCfg with nParm := 3, sigmaMin := widthTable (1 / 1000) [(-20, 20), (-50, 50), (1 / 100, 30)],
                 sigmaMax := widthTable (2 / 10) [(-20, 20), (-50, 50), (1 / 100, 30)],
                 user := regression.user [(-20, 20), (-50, 50), (1 / 100, 30)] 2 }

theorem demoRegression_valid : Valid 3 demoRegression demoFile :=
  let v := demo_valid
  { ranks := v.ranks, ranksInt := v.ranksInt, betas := v.betas, parm := by simp [demoRegression], user := user_wf _ _ _ rfl, stack := v.stack, rand := v.rand,
    base := v.base, randInt := v.randInt, stackInt := v.stackInt, iterInt := v.iterInt, mode := v.mode, inTune := v.inTune,
    sigmaMin := Nat.le_refl 3, sigmaMax := Nat.le_refl 3, cells := v.cells }

/-- The hypotheses of `model_saved_in_box` hold for it. -/
example (clock : Nat) (root : Fin 3) (w : List (Label 3)) (t : Sys 3 (Msg ℝ) (Line ℝ) (RSt 3 ℝ))
    (h : (initSys demoRegression demoFile clock root).exec w = some t) (r : Fin 3) (k : Nat) (a : Row ℝ) (ha : a ∈ fileRows k (t.log r)) :
    InBox [(-20, 20), (-50, 50), (1 / 100, 30)] a.x :=
  (model_saved_in_box regression _ 2 regression_fits demoRegression rfl rfl demoFile demoRegression_valid clock root w t h).1 r k a ha

/-! ## C15 and C46 with rounding -/

open Dbl in
/-- A coordinate is NaN, or finite and between its bounds. -/
def NanOrIn {R : Rounding} (b : ℝ × ℝ) (v : Dbl R) : Prop := v = nan ∨ ∃ y, v = fin y ∧ b.1 ≤ y ∧ y ≤ b.2

open Dbl in
/-- Bounds as doubles. -/
def dblBounds (R : Rounding) (bs : List (ℝ × ℝ)) : List (Dbl R × Dbl R) := bs.map fun b => (fin b.1, fin b.2)

/-- Bounds that are doubles, in order. -/
def Repr (R : Rounding) (b : ℝ × ℝ) : Prop := b.1 ≤ b.2 ∧ R.rnd b.1 = .fin b.1 ∧ R.rnd b.2 = .fin b.2

theorem paraBoundary_rounded {R : Rounding} : ∀ (bs : List (ℝ × ℝ)) (x : List (Dbl R)), (∀ b ∈ bs, Repr R b) → x.length = bs.length →
    List.Forall₂ NanOrIn bs (paraBoundary (dblBounds R bs) x)
  | [], [], _, _ => .nil
  | [], _ :: _, _, h => by simp at h
  | _ :: _, [], _, h => by simp at h
  | b :: bs, x :: xs, hb, h => by
    obtain ⟨h1, h2, h3⟩ := hb b (by simp)
    obtain ⟨k1, _, k3⟩ := bounce_rounded b.1 b.2 h1 h2 h3 x
    refine .cons ?_ (paraBoundary_rounded bs xs (fun c hc => hb c (by simp [hc])) (by simpa using h))
    by_cases hx : x = Dbl.nan
    · exact .inl (by rw [hx]; exact k3)
    · exact .inr (k1 hx)

/-- A range for a uniform draw of doubles: representable, and a difference without overflow and underflow. -/
def DblFits (R : Rounding) (b : ℝ × ℝ) : Prop := Repr R b ∧ 2⁻¹ ^ 990 ≤ b.2 - b.1 ∧ b.2 - b.1 ≤ 2 ^ 990

theorem initDraws_rounded {R : Rounding} : ∀ (ds : List Draw) (bs : List (ℝ × ℝ)) (g : Rng), (∀ d ∈ ds, d = .unif) → (∀ b ∈ bs, DblFits R b) →
    ds.length = bs.length → List.Forall₂ NanOrIn bs (initDraws (ds.zip (dblBounds R bs)) g).1
  | [], [], _, _, _, _ => .nil
  | [], _ :: _, _, _, _, h => by simp at h
  | _ :: _, [], _, _, _, h => by simp at h
  | d :: ds, b :: bs, g, hd, hb, h => by
    have hd0 : d = .unif := hd d (by simp)
    subst hd0
    obtain ⟨⟨h1, h2, h3⟩, h4, h5⟩ := hb b (by simp)
    refine .cons (.inr ?_) (initDraws_rounded ds bs _ (fun c hc => hd c (by simp [hc])) (fun c hc => hb c (by simp [hc])) (by simpa using h))
    exact unif_range_dbl b.1 b.2 h2 h3 h4 h5 g

/-- **C15, bundled models with rounding.** For the models with uniform draws only, doubles with any rounding and any libm: in every execution each
saved parameter is NaN or finite and between its bounds. -/
theorem model_saved_rounded {R : Rounding} {n : Nat} (m : Model (Dbl R)) (hm : ∀ d ∈ m.draws, d = .unif) (bounds : List (ℝ × ℝ)) (ndim : Int)
    (hl : m.draws.length = bounds.length) (hb : ∀ b ∈ bounds, DblFits R b)
    (cfg : Cfg (Dbl R)) (hc : cfg.user = m.user (dblBounds R bounds) ndim) (hp : cfg.nParm = bounds.length) (file : DataFile (Dbl R))
    (hv : Valid n cfg file) (clock : Nat) (root : Fin n) (w : List (Label n)) (t : Sys n (Msg (Dbl R)) (Line (Dbl R)) (RSt n (Dbl R)))
    (h : (initSys cfg file clock root).exec w = some t) :
    (∀ (r : Fin n) (k : Nat) (a : Row (Dbl R)), a ∈ fileRows k (t.log r) → List.Forall₂ NanOrIn bounds a.x) ∧
    (t.AllDone → ∀ r, ∃ s tab, t.procs root = .ret s ∧ s.tab = some tab ∧ List.Forall₂ NanOrIn bounds (tab.x r)) := by
  refine saved_in_box cfg file hv clock root (fun x => List.Forall₂ NanOrIn bounds x) (fun y hy => ?_) (fun s => ?_) w t h
  · rw [hc]
    exact paraBoundary_rounded bounds y (fun b hbm => (hb b hbm).1) (hy.trans hp)
  · rw [hc]
    exact initDraws_rounded _ _ _ hm hb hl

/-- The ranges of models/eggbox fit doubles without rounding. -/
theorem eggbox_fits_exact : ∀ b ∈ [((0 : ℝ), (50 : ℝ)), (0, 50)], DblFits Rounding.exact b := by
  have h1 : (2⁻¹ : ℝ) ^ 990 ≤ 1 := pow_le_one₀ (by norm_num) (by norm_num)
  have h2 : (2 : ℝ) ^ 6 ≤ 2 ^ 990 := pow_le_pow_right₀ (by norm_num) (by norm_num)
  intro b hb
  simp only [List.mem_cons, List.not_mem_nil, or_false, or_self] at hb
  subst hb
  refine ⟨⟨by norm_num, rfl, rfl⟩, h1.trans (by norm_num), le_trans (by norm_num) h2⟩

open Dbl in
/-- A configuration of three ranks for the eggbox model, with NaN and infinities. -/
noncomputable def demoEggboxX : Cfg XReal :=
  { demoCfgX with nParm := 2, sigmaMin := [fin (1 / 1000), fin (1 / 1000)], sigmaMax := [fin 5, fin 5],
                  user := eggbox.user (dblBounds Rounding.exact [(0, 50), (0, 50)]) 2 }

open Dbl in
/-- All that is saved is NaN or in the box. -/
example (clock : Nat) (root : Fin 3) (w : List (Label 3)) (t : Sys 3 (Msg XReal) (Line XReal) (RSt 3 XReal))
    (h : (initSys demoEggboxX demoFileX clock root).exec w = some t) (r : Fin 3) (k : Nat) (a : Row XReal) (ha : a ∈ fileRows k (t.log r)) :
    List.Forall₂ NanOrIn [((0 : ℝ), (50 : ℝ)), (0, 50)] a.x := by
  have hv : Valid 3 demoEggboxX demoFileX :=
    { demoX_valid with parm := by simp [demoEggboxX], user := user_wf _ _ _ rfl, sigmaMin := Nat.le_refl 2, sigmaMax := Nat.le_refl 2 }
  exact (model_saved_rounded eggbox (by simp [eggbox, model2]) _ 2 rfl eggbox_fits_exact demoEggboxX rfl rfl demoFileX hv clock root w t h).1 r k a ha

/-! ## C60 -/

theorem badRanges_zero : ∀ (los his : List ℝ), badRanges los his = 0 ↔
    ∀ (j : Nat) (lo hi : ℝ), los[j]? = some lo → his[j]? = some hi → 0 ≤ lo ∧ 0 ≤ hi ∧ lo ≤ hi
  | [], _ => by simp [badRanges]
  | _ :: _, [] => by simp [badRanges]
  | lo :: los, hi :: his => by
    have h0 : badRanges (lo :: los) (hi :: his) = 0 ↔ (0 ≤ lo ∧ 0 ≤ hi ∧ lo ≤ hi) ∧ badRanges los his = 0 := by
      simp only [badRanges, RealArith.lt_iff, RealArith.ofI_eq, RealArith.sub_eq, Int.cast_zero]
      by_cases h1 : lo < 0
      · have : ¬ (0 ≤ lo) := not_le.2 h1
        simp [h1, this]
      by_cases h2 : hi < 0
      · have : ¬ (0 ≤ hi) := not_le.2 h2
        simp [h1, h2, this]
      by_cases h3 : hi - lo < 0
      · have : ¬ (lo ≤ hi) := by rw [not_le]; linarith
        simp [h1, h2, h3, this]
      · have e1 : 0 ≤ lo := not_lt.1 h1
        have e2 : 0 ≤ hi := not_lt.1 h2
        have e3 : lo ≤ hi := by linarith [not_lt.1 h3]
        simp [h1, h2, h3, e1, e2, e3]
    rw [h0, badRanges_zero los his]
    constructor
    · rintro ⟨h1, h2⟩ j a b ha hb
      cases j with
      | zero => simp at ha hb; subst ha hb; exact h1
      | succ j => exact h2 j a b (by simpa using ha) (by simpa using hb)
    · intro h
      exact ⟨h 0 lo hi rfl rfl, fun j a b ha hb => h (j + 1) a b (by simpa using ha) (by simpa using hb)⟩

/-- **C60.** The range check reports success (0) exactly when every parameter has `0 <= sigma_min`, `0 <= sigma_max` and `sigma_min <= sigma_max` in
the tables, and otherwise 1. -/
theorem range_check_iff (smin smax : ℝ) (bounds : List (ℝ × ℝ)) :
    (rangeCheck smin smax bounds = 0 ↔ ∀ (j : Nat) (lo hi : ℝ), (widthTable smin bounds)[j]? = some lo → (widthTable smax bounds)[j]? = some hi →
      0 ≤ lo ∧ 0 ≤ hi ∧ lo ≤ hi) ∧ (rangeCheck smin smax bounds = 0 ∨ rangeCheck smin smax bounds = 1) := by
  rw [← badRanges_zero]
  unfold rangeCheck
  by_cases h : badRanges (widthTable smin bounds) (widthTable smax bounds) = 0
  · simp [h]
  · have : badRanges (widthTable smin bounds) (widthTable smax bounds) > 0 := by omega
    simp [h, this]

/-- In terms of the configuration: for non-empty ranges of the parameters (and at least one parameter) the check succeeds exactly when
`0 <= sigma_scale_min <= sigma_scale_max`. -/
theorem range_check_scales (smin smax : ℝ) (bounds : List (ℝ × ℝ)) (hne : bounds ≠ []) (hb : ∀ b ∈ bounds, b.1 < b.2) :
    rangeCheck smin smax bounds = 0 ↔ 0 ≤ smin ∧ smin ≤ smax := by
  rw [(range_check_iff smin smax bounds).1]
  constructor
  · intro h
    obtain ⟨b, bs, rfl⟩ := List.exists_cons_of_ne_nil hne
    obtain ⟨h1, h2, h3⟩ := h 0 (smin * (b.2 - b.1)) (smax * (b.2 - b.1)) (by simp [widthTable]) (by simp [widthTable])
    have hd : 0 < b.2 - b.1 := by have := hb b (by simp); linarith
    exact ⟨nonneg_of_mul_nonneg_left h1 hd, le_of_mul_le_mul_right h3 hd⟩
  · rintro ⟨h1, h2⟩ j lo hi hlo hhi
    simp only [widthTable, List.getElem?_map, Option.map_eq_some_iff] at hlo hhi
    obtain ⟨b, hbj, rfl⟩ := hlo
    obtain ⟨b', hbj', rfl⟩ := hhi
    rw [hbj] at hbj'
    cases hbj'
    have hd : 0 < b.2 - b.1 := by have := hb b (List.mem_of_getElem? hbj); linarith
    simp only [RealArith.mul_eq, RealArith.sub_eq]
    exact ⟨mul_nonneg h1 hd.le, mul_nonneg (h1.trans h2) hd.le, mul_le_mul_of_nonneg_right h2 hd.le⟩

/-- The scales of models/regression/input.ini pass; exchanged they do not. -/
example : rangeCheck (5 / 10000000000 : ℝ) (2 / 10) [(-20, 20), (-50, 50), (1 / 100, 30)] = 0 ∧
    rangeCheck (2 / 10 : ℝ) (5 / 10000000000) [(-20, 20), (-50, 50), (1 / 100, 30)] ≠ 0 := by
  have hb : ∀ b ∈ [((-20 : ℝ), (20 : ℝ)), (-50, 50), (1 / 100, 30)], b.1 < b.2 := by
    intro b hb
    simp only [List.mem_cons, List.not_mem_nil, or_false] at hb
    rcases hb with rfl | rfl | rfl <;> norm_num
  rw [Ne, range_check_scales _ _ _ (by simp) hb, range_check_scales _ _ _ (by simp) hb]
  norm_num

open Dbl in
/-- **C60 does not see NaN.** A scale that is NaN makes every entry of the tables NaN, and the check reports success. -/
theorem range_check_nan {R : Rounding} : ∀ bounds : List (Dbl R × Dbl R), rangeCheck (nan : Dbl R) nan bounds = 0 := by
  intro bounds
  have : badRanges (widthTable (nan : Dbl R) bounds) (widthTable (nan : Dbl R) bounds) = 0 := by
    induction bounds with
    | nil => rfl
    | cons b bs ih =>
      simp only [widthTable, List.map_cons, nan_mul, badRanges, nan_lt, nan_sub, Bool.false_eq_true, if_false, Nat.zero_add]
      exact ih
  simp [rangeCheck, this]

/-! ## C59 -/

theorem priorUnif_pos (b : ℝ × ℝ) (h : b.1 < b.2) : 0 < priorUnif b := by
  simp only [priorUnif, RealArith.ofI_eq, RealArith.div_eq, RealArith.sub_eq, Int.cast_one]
  exact div_pos one_pos (by linarith)

theorem priorLogunif_pos (b : ℝ × ℝ) (h0 : 0 < b.1) (h : b.1 < b.2) (x : ℝ) (hx : 0 < x) : 0 < priorLogunif b x := by
  simp only [priorLogunif, RealArith.ofI_eq, RealArith.div_eq, RealArith.mul_eq, RealArith.log_eq, Int.cast_one]
  exact div_pos one_pos (mul_pos hx (Real.log_pos ((one_lt_div h0).2 h)))

theorem priorUnif_integral (b : ℝ × ℝ) (h : b.1 < b.2) : ∫ _ in b.1..b.2, priorUnif b = 1 := by
  have hd : b.2 - b.1 ≠ 0 := by linarith
  simp only [intervalIntegral.integral_const, priorUnif, RealArith.ofI_eq, RealArith.div_eq, RealArith.sub_eq, Int.cast_one, smul_eq_mul]
  field_simp

theorem priorLogunif_integral (b : ℝ × ℝ) (h0 : 0 < b.1) (h : b.1 < b.2) : ∫ x in b.1..b.2, priorLogunif b x = 1 := by
  have hl : Real.log (b.2 / b.1) ≠ 0 := (Real.log_pos ((one_lt_div h0).2 h)).ne'
  have e : ∀ x : ℝ, priorLogunif b x = (Real.log (b.2 / b.1))⁻¹ * (1 / x) := by
    intro x
    simp only [priorLogunif, RealArith.ofI_eq, RealArith.div_eq, RealArith.mul_eq, RealArith.log_eq, Int.cast_one, one_div, mul_inv]
    ring
  simp only [e]
  rw [intervalIntegral.integral_const_mul, integral_one_div_of_pos h0 (h0.trans h), inv_mul_cancel₀ hl]

/-- **C59, regression.** For ranges `min < max` (with `0 < min` for the noise), the prior of the regression model is a positive density that integrates to
one over the box, and its logarithm is what `log_prior` returns. -/
theorem regression_prior (ba bb bd : ℝ × ℝ) (ha : ba.1 < ba.2) (hb : bb.1 < bb.2) (hd0 : 0 < bd.1) (hd : bd.1 < bd.2) :
    ∫ a in ba.1..ba.2, ∫ b in bb.1..bb.2, ∫ d in bd.1..bd.2, Real.exp ((regression (F := ℝ)).logPrior [ba, bb, bd] [a, b, d]) = 1 := by
  have e : ∀ a b : ℝ, ∀ d ∈ Set.uIcc bd.1 bd.2, Real.exp ((regression (F := ℝ)).logPrior [ba, bb, bd] [a, b, d]) = priorUnif ba * (priorUnif bb * priorLogunif bd d) := by
    intro a b d hdm
    rw [Set.uIcc_of_le hd.le] at hdm
    simp only [regression, RealArith.add_eq, RealArith.log_eq]
    rw [Real.exp_add, Real.exp_add, Real.exp_log (priorUnif_pos ba ha), Real.exp_log (priorUnif_pos bb hb),
      Real.exp_log (priorLogunif_pos bd hd0 hd d (hd0.trans_le hdm.1)), mul_assoc]
  have e2 : ∀ a b : ℝ, ∫ d in bd.1..bd.2, Real.exp ((regression (F := ℝ)).logPrior [ba, bb, bd] [a, b, d]) =
      ∫ d in bd.1..bd.2, priorUnif ba * (priorUnif bb * priorLogunif bd d) := fun a b => intervalIntegral.integral_congr (e a b)
  simp only [e2, intervalIntegral.integral_const_mul, priorLogunif_integral bd hd0 hd, mul_one, priorUnif_integral bb hb, priorUnif_integral ba ha]

/-- **C59, Rastrigin.** -/
theorem rastrigin_prior (ba bb bc bd bf : ℝ × ℝ) (ha : ba.1 < ba.2) (hb : bb.1 < bb.2) (hc : bc.1 < bc.2) (hd : bd.1 < bd.2) (hf : bf.1 < bf.2) :
    ∫ a in ba.1..ba.2, ∫ b in bb.1..bb.2, ∫ c in bc.1..bc.2, ∫ d in bd.1..bd.2, ∫ e in bf.1..bf.2,
      Real.exp ((rastrigin (F := ℝ)).logPrior [ba, bb, bc, bd, bf] [a, b, c, d, e]) = 1 := by
  have e : ∀ a b c d e : ℝ, Real.exp ((rastrigin (F := ℝ)).logPrior [ba, bb, bc, bd, bf] [a, b, c, d, e]) =
      priorUnif ba * (priorUnif bb * (priorUnif bc * (priorUnif bd * priorUnif bf))) := by
    intro a b c d e
    simp only [rastrigin, RealArith.add_eq, RealArith.log_eq]
    rw [Real.exp_add, Real.exp_add, Real.exp_add, Real.exp_add, Real.exp_log (priorUnif_pos ba ha), Real.exp_log (priorUnif_pos bb hb),
      Real.exp_log (priorUnif_pos bc hc), Real.exp_log (priorUnif_pos bd hd), Real.exp_log (priorUnif_pos bf hf)]
    ring
  simp only [e, intervalIntegral.integral_const_mul, priorUnif_integral bf hf, mul_one, priorUnif_integral bd hd, priorUnif_integral bc hc,
    priorUnif_integral bb hb, priorUnif_integral ba ha]

example : ∫ a in (-20 : ℝ)..20, ∫ b in (-50 : ℝ)..50, ∫ d in (1 / 100 : ℝ)..30,
    Real.exp ((regression (F := ℝ)).logPrior [(-20, 20), (-50, 50), (1 / 100, 30)] [a, b, d]) = 1 :=
  regression_prior (-20, 20) (-50, 50) (1 / 100, 30) (by norm_num) (by norm_num) (by norm_num) (by norm_num)

example : ∫ a in (-5 : ℝ)..5, ∫ b in (-5 : ℝ)..5, ∫ c in (-5 : ℝ)..5, ∫ d in (-5 : ℝ)..5, ∫ e in (-5 : ℝ)..5,
    Real.exp ((rastrigin (F := ℝ)).logPrior [(-5, 5), (-5, 5), (-5, 5), (-5, 5), (-5, 5)] [a, b, c, d, e]) = 1 :=
  rastrigin_prior (-5, 5) (-5, 5) (-5, 5) (-5, 5) (-5, 5) (by norm_num) (by norm_num) (by norm_num) (by norm_num) (by norm_num)

open Dbl in
/-- **C59, finite logarithms.** With NaN and infinities in the arithmetic: inside the box the log priors of both models are finite numbers. -/
theorem log_priors_finite (ba bb bc bd bf : ℝ × ℝ) (ha : ba.1 < ba.2) (hb : bb.1 < bb.2) (hc : bc.1 < bc.2) (hd : bd.1 < bd.2) (hf : bf.1 < bf.2) :
    (0 < bd.1 → ∀ d, bd.1 ≤ d → ∀ a b : XReal, ∃ v, (regression (F := XReal)).logPrior
      [(fin ba.1, fin ba.2), (fin bb.1, fin bb.2), (fin bd.1, fin bd.2)] [a, b, fin d] = fin v) ∧
    (∀ x, ∃ v, (rastrigin (F := XReal)).logPrior
      [(fin ba.1, fin ba.2), (fin bb.1, fin bb.2), (fin bc.1, fin bc.2), (fin bd.1, fin bd.2), (fin bf.1, fin bf.2)] x = fin v) := by
  have hu : ∀ b : ℝ × ℝ, b.1 < b.2 → ∃ v, Arith.log (priorUnif (fin b.1, fin b.2) : XReal) = fin v := by
    intro b h
    have h1 : 0 < 1 / (b.2 - b.1) := div_pos one_pos (by linarith)
    refine ⟨Real.log (1 / (b.2 - b.1)), ?_⟩
    rw [← XReal.log_eq _ h1]
    congr 1
    simp only [priorUnif, XReal.ofI_eq, XReal.sub_eq, Int.cast_one]
    exact XReal.div_eq _ _ (by linarith)
  have hadd : ∀ x y : XReal, (∃ v, x = fin v) → (∃ v, y = fin v) → ∃ v, x +. y = fin v := by
    rintro x y ⟨v, rfl⟩ ⟨w, rfl⟩
    exact ⟨v + w, rfl⟩
  refine ⟨fun h0 d hdm a b => ?_, fun x => ?_⟩
  · have hlog : ∃ v, Arith.log (priorLogunif (fin bd.1, fin bd.2) (fin d) : XReal) = fin v := by
      have hl : 0 < Real.log (bd.2 / bd.1) := Real.log_pos ((one_lt_div h0).2 hd)
      have hp : 0 < d * Real.log (bd.2 / bd.1) := mul_pos (h0.trans_le hdm) hl
      have h1 : 0 < 1 / (d * Real.log (bd.2 / bd.1)) := div_pos one_pos hp
      refine ⟨Real.log (1 / (d * Real.log (bd.2 / bd.1))), ?_⟩
      rw [← XReal.log_eq _ h1]
      congr 1
      simp only [priorLogunif, XReal.ofI_eq, Int.cast_one]
      rw [XReal.div_eq _ _ h0.ne', XReal.log_eq _ (div_pos (h0.trans hd) h0), XReal.mul_eq, XReal.div_eq _ _ hp.ne']
    exact hadd _ _ (hadd _ _ (hu ba ha) (hu bb hb)) hlog
  · exact hadd _ _ (hadd _ _ (hadd _ _ (hadd _ _ (hu ba ha) (hu bb hb)) (hu bc hc)) (hu bd hd)) (hu bf hf)

open Dbl in
example (a b : XReal) : ∃ v, (regression (F := XReal)).logPrior [(fin (-20), fin 20), (fin (-50), fin 50), (fin (1 / 100), fin 30)] [a, b, fin 7] = fin v :=
  (log_priors_finite (-20, 20) (-50, 50) (0, 1) (1 / 100, 30) (0, 1) (by norm_num) (by norm_num) (by norm_num) (by norm_num) (by norm_num)).1 (by norm_num) 7
    (by norm_num) a b

/-! ## hier_R: a start point outside the box, and a prior that is not normalised -/

/-- **C46 fails for models/hier_R.** The start value of its first parameter is a normal draw that is not put into the box. With mean 3 and standard
deviation 3, as in its input.ini, the rank with seed 23 (rank 3, as the first seed is 20) starts above the maximum 7. -/
theorem hier_start_outside : 7 < (hierGammaInit (3 : ℝ) 3 (srand48 ℝ 23)).1 := by
  have hM : (lcgM : ℝ) = 281474976710656 := by norm_num [lcgM]
  have x1 : lcgNext (lcgSeed 23) = 56092652949761 := by decide +kernel
  have x2 : lcgNext 56092652949761 = 268944458933112 := by decide +kernel
  have e : (hierGammaInit (3 : ℝ) 3 (srand48 ℝ 23)).1 = 3 + 3 * (Real.sqrt (-2 * Real.log (56092652949761 / 281474976710656)) *
      Real.cos (2 * (3141592653589793 / 1000000000000000) * (268944458933112 / 281474976710656))) := by
    simp only [hierGammaInit, r8NormalAb, r8Normal01, drand48_posix, RealArith.lit_eq, RealArith.ofI_eq, RealArith.add_eq, RealArith.mul_eq, RealArith.sqrt_eq,
      RealArith.cos_eq, RealArith.log_eq, x1, x2, hM]
    push_cast
    rfl
  rw [e]
  have h1 : 3 ≤ -2 * Real.log (56092652949761 / 281474976710656) := by
    have : Real.log (56092652949761 / 281474976710656) ≤ -(3 / 2) := by
      rw [← Real.log_exp (-(3 / 2))]
      refine Real.log_le_log (by norm_num) ?_
      have e3 : Real.exp (3 / 2) ^ 2 ≤ 5 ^ 2 := by
        rw [← Real.exp_nat_mul]
        have : Real.exp ((2 : ℕ) * (3 / 2)) = Real.exp 1 ^ 3 := by rw [← Real.exp_nat_mul]; norm_num
        rw [this]
        calc Real.exp 1 ^ 3 ≤ 2.7182818286 ^ 3 := by gcongr; exact Real.exp_one_lt_d9.le
          _ ≤ 5 ^ 2 := by norm_num
      have e4 : Real.exp (3 / 2) ≤ 5 := le_of_pow_le_pow_left₀ (by norm_num) (by norm_num) e3
      rw [Real.exp_neg]
      calc (56092652949761 / 281474976710656 : ℝ) ≤ 5⁻¹ := by norm_num
        _ ≤ (Real.exp (3 / 2))⁻¹ := by gcongr
    linarith
  have h2 : (17 / 10 : ℝ) ≤ Real.sqrt (-2 * Real.log (56092652949761 / 281474976710656)) := by
    apply Real.le_sqrt_of_sq_le
    norm_num at h1 ⊢
    linarith
  have h3 : (9 / 10 : ℝ) ≤ Real.cos (2 * (3141592653589793 / 1000000000000000) * (268944458933112 / 281474976710656)) := by
    rw [← Real.cos_sub_two_pi]
    refine le_trans ?_ (Real.one_sub_sq_div_two_le_cos)
    have p1 := Real.pi_gt_d2
    have p2 := Real.pi_lt_d2
    have q1 : (2 * (3141592653589793 / 1000000000000000) * (268944458933112 / 281474976710656) - 2 * Real.pi) ≤ 0 := by norm_num at p1 p2 ⊢; linarith
    have q2 : -(3 / 10) ≤ (2 * (3141592653589793 / 1000000000000000) * (268944458933112 / 281474976710656) - 2 * Real.pi) := by norm_num at p1 p2 ⊢; linarith
    nlinarith
  nlinarith

/-- **C59 fails for models/hier_R.** The prior of the scale parameters, as a function of the scale, integrates to `2 / (sqrt max + sqrt min)` over its range
(not to one). -/
theorem hier_prior_integral (a b : ℝ) (h : a < b) :
    ∫ x in Real.exp a..Real.exp b, hierLambdaPrior a b x = 2 / (Real.sqrt (Real.exp b) + Real.sqrt (Real.exp a)) := by
  have ha := Real.exp_pos a
  have hb := Real.exp_pos b
  have hab := Real.exp_lt_exp.2 h
  have e : ∀ x ∈ Set.uIcc (Real.exp a) (Real.exp b), hierLambdaPrior a b x = (Real.exp b - Real.exp a)⁻¹ * x ^ (-(1 / 2) : ℝ) := by
    intro x hx
    rw [Set.uIcc_of_le hab.le] at hx
    have hx0 : 0 < x := ha.trans_le hx.1
    simp only [hierLambdaPrior, RealArith.exp_eq, RealArith.ofI_eq, RealArith.div_eq, RealArith.mul_eq, RealArith.sqrt_eq, RealArith.fabs_eq,
      RealArith.log_eq, Int.cast_one]
    rw [← Real.exp_sub, Real.log_exp, abs_of_pos hx0, Real.sqrt_eq_rpow, Real.rpow_neg hx0.le, one_div, mul_inv, mul_comm]
  rw [intervalIntegral.integral_congr e, intervalIntegral.integral_const_mul, integral_rpow (.inl (by norm_num))]
  have sa := Real.sqrt_pos.2 ha
  have sb := Real.sqrt_pos.2 hb
  have qa := Real.sq_sqrt ha.le
  have qb := Real.sq_sqrt hb.le
  have hs : Real.sqrt (Real.exp a) < Real.sqrt (Real.exp b) := Real.sqrt_lt_sqrt ha.le hab
  rw [show (-(1 / 2) : ℝ) + 1 = 1 / 2 by norm_num, ← Real.sqrt_eq_rpow, ← Real.sqrt_eq_rpow]
  have hd : Real.exp b - Real.exp a = (Real.sqrt (Real.exp b) - Real.sqrt (Real.exp a)) * (Real.sqrt (Real.exp b) + Real.sqrt (Real.exp a)) := by
    nlinarith
  rw [hd]
  have n1 : Real.sqrt (Real.exp b) - Real.sqrt (Real.exp a) ≠ 0 := by linarith
  have n2 : Real.sqrt (Real.exp b) + Real.sqrt (Real.exp a) ≠ 0 := by linarith
  field_simp

/-- With the ranges of models/hier_R/input.ini the integral is below 1/3. -/
example : ∫ x in Real.exp (-12)..Real.exp 4, hierLambdaPrior (-12) 4 x < 1 / 3 := by
  rw [hier_prior_integral _ _ (by norm_num), div_lt_div_iff₀ (by positivity) (by norm_num)]
  have h1 : (7 : ℝ) ≤ Real.sqrt (Real.exp 4) := by
    apply Real.le_sqrt_of_sq_le
    have : Real.exp 4 = Real.exp 1 ^ 4 := by rw [← Real.exp_nat_mul]; norm_num
    rw [this]
    calc (7 : ℝ) ^ 2 ≤ 2.7 ^ 4 := by norm_num
      _ ≤ Real.exp 1 ^ 4 := by gcongr; linarith [Real.exp_one_gt_d9]
  have h2 := Real.sqrt_nonneg (Real.exp (-12))
  linarith

end NiiC
