import Verif.Model.Compare
import Verif.Props.TameDbl
import Verif.Props.Samples

/-!
# The comparison scripts and the bundled models: C106
-/

set_option linter.unusedSectionVars false

namespace NiiC
namespace Compare
open Dbl Samples

variable {R : Rounding}

theorem add_comm' (a b : Dbl R) : a +. b = b +. a := by
  cases a <;> cases b <;> first | rfl | (show R.rnd _ = R.rnd _; rw [add_comm])

/-- A sum is an infinity, NaN or a number that rounding keeps. -/
def Stable (v : Dbl R) : Prop := ∀ x, (v : XV) = .fin x → R.rnd x = .fin x

theorem stable_add (a b : Dbl R) : Stable (a +. b) := by
  intro x hx
  cases a <;> cases b <;> first | exact R.rnd_idem _ _ hx | cases hx

theorem stable_zero : Stable (ofI 0 : Dbl R) := by
  intro x hx
  rw [Dbl.ofI_int 0 (by norm_num)] at hx
  cases hx
  simpa using Dbl.rnd_zero

theorem stable_mul_one {v : Dbl R} (h : Stable v) : v *. ofI 1 = v := by
  rw [Dbl.ofI_int 1 (by norm_num)]
  cases hv : (v : XV) with
  | nan => rfl
  | pinf => show infSign ((1 : Int) : ℝ) = _; simp [infSign]
  | ninf => show infSign (-((1 : Int) : ℝ)) = _; simp [infSign]
  | fin x =>
    have := h x hv
    show R.rnd (x * ((1 : Int) : ℝ)) = _
    rw [Int.cast_one, mul_one, this]

/-- The two loops over the data. -/
theorem loop_eq (a b d : Dbl R) : ∀ (pts before : List (Dbl R × Dbl R)) (s : Dbl R),
    regressionSum a b d 2 ((before ++ pts).flatMap fun p => [p.1, p.2]) pts.length before.length s = linRegLoop a b d pts s := by
  intro pts
  induction pts with
  | nil => intro before s; rfl
  | cons p pts ih =>
    intro before s
    obtain ⟨x, y⟩ := p
    have hlen : (before.flatMap fun p : Dbl R × Dbl R => [p.1, p.2]).length = before.length * 2 := by
      rw [List.length_flatMap]; simp
    have e0 : ((before ++ (x, y) :: pts).flatMap fun p => [p.1, p.2]).getD (before.length * 2) (ofI 0) = x := by
      rw [List.flatMap_append, List.getD_eq_getElem?_getD, List.getElem?_append_right (by rw [hlen]), hlen]
      simp
    have e1 : ((before ++ (x, y) :: pts).flatMap fun p => [p.1, p.2]).getD (before.length * 2 + 1) (ofI 0) = y := by
      rw [List.flatMap_append, List.getD_eq_getElem?_getD, List.getElem?_append_right (by rw [hlen]; omega), hlen]
      simp
    rw [List.length_cons, regressionSum, e0, e1]
    have := ih (before ++ [(x, y)]) (s +. regressionOne a b d x y)
    rw [List.append_assoc, List.singleton_append, List.length_append] at this
    exact this

theorem loop_stable (a b d : Dbl R) : ∀ (pts : List (Dbl R × Dbl R)) (s : Dbl R), Stable s → Stable (linRegLoop a b d pts s) := by
  intro pts
  induction pts with
  | nil => exact fun s h => h
  | cons p pts ih => exact fun s _ => ih _ (stable_add _ _)

theorem not_finite_left (a b : Dbl R) (h : isfinite a = false) : isfinite (a +. b) = false := by
  cases a <;> cases b <;> first | rfl | cases h

theorem not_finite_right (a b : Dbl R) (h : isfinite b = false) : isfinite (a +. b) = false := by
  rw [add_comm']; exact not_finite_left _ _ h

/-- The two functions, in the terms of the script. -/
theorem linReg_cases (ba bb bd : Dbl R × Dbl R) (pts : List (Dbl R × Dbl R)) (a b d : Dbl R) :
    linReg ba bb bd pts a b d =
      if inside ba a && inside bb b && inside bd d && isfinite (regression.logPrior [ba, bb, bd] [a, b, d]) then
        regression.logll 2 [a, b, d] pts.length (pts.flatMap fun p => [p.1, p.2]) (ofI 1) +. regression.logPrior [ba, bb, bd] [a, b, d]
      else minusInf := by
  have hl : regression.logll 2 [a, b, d] pts.length (pts.flatMap fun p => [p.1, p.2]) (ofI 1) = linRegLoop a b d pts (ofI 0) := by
    show regressionSum a b d 2 _ _ 0 (ofI 0) *. ofI 1 = _
    rw [Int.toNat_natCast]
    have := loop_eq a b d pts [] (ofI 0)
    rw [List.nil_append, List.length_nil] at this
    rw [this]
    exact stable_mul_one (loop_stable a b d pts _ stable_zero)
  rw [hl]
  have hmi : isfinite (minusInf : Dbl R) = false := rfl
  unfold linReg logProbability linRegPrior
  cases ha : inside ba a
  · simp only [logUnif, ha, Bool.false_and, Bool.false_eq_true, if_false]
    rw [if_neg]
    rw [not_finite_left _ _ (not_finite_left _ _ hmi)]; exact Bool.false_ne_true
  cases hb : inside bb b
  · simp only [logUnif, hb, Bool.and_false, Bool.false_and, Bool.false_eq_true, if_false]
    rw [if_neg]
    rw [not_finite_left _ _ (not_finite_right _ _ hmi)]; exact Bool.false_ne_true
  cases hd : inside bd d
  · simp only [logLogunif, hd, Bool.and_false, Bool.false_and, Bool.false_eq_true, if_false]
    rw [if_neg]
    rw [not_finite_right _ _ hmi]; exact Bool.false_ne_true
  simp only [logUnif, logLogunif, ha, hb, hd, if_true, Bool.true_and]
  rw [add_comm' (linRegLoop a b d pts (ofI 0))]
  rfl

/-- **C106.** For any rounding, any ranges and any data: the log-probability that emcee_lin_reg.py gives to emcee is, to the last bit, the log-posterior of the
regression at inverse temperature 1 at every point strictly within the ranges whose log-prior is finite, and minus infinity at every other point. -/
theorem linReg_eq (ba bb bd : Dbl R × Dbl R) (pts : List (Dbl R × Dbl R)) (a b d : Dbl R) :
    ((((ba.1 <. a) = true ∧ (a <. ba.2) = true) ∧ ((bb.1 <. b) = true ∧ (b <. bb.2) = true) ∧ ((bd.1 <. d) = true ∧ (d <. bd.2) = true) ∧
        ∃ v, regression.logPrior [ba, bb, bd] [a, b, d] = fin v) →
      linReg ba bb bd pts a b d =
        regression.logll 2 [a, b, d] pts.length (pts.flatMap fun p => [p.1, p.2]) (ofI 1) +. regression.logPrior [ba, bb, bd] [a, b, d]) ∧
    (¬ (((ba.1 <. a) = true ∧ (a <. ba.2) = true) ∧ ((bb.1 <. b) = true ∧ (b <. bb.2) = true) ∧ ((bd.1 <. d) = true ∧ (d <. bd.2) = true) ∧
        ∃ v, regression.logPrior [ba, bb, bd] [a, b, d] = fin v) →
      linReg ba bb bd pts a b d = (XV.ninf : XV)) := by
  have hf : ∀ v : Dbl R, isfinite v = true ↔ ∃ x, v = fin x := by
    intro v
    cases v with
    | fin x => exact ⟨fun _ => ⟨x, rfl⟩, fun _ => rfl⟩
    | _ => exact ⟨fun h => absurd h Bool.false_ne_true, fun ⟨x, h⟩ => by cases h⟩
  rw [linReg_cases]
  simp only [← hf]
  constructor
  · rintro ⟨h1, h2, h3, h4⟩
    rw [if_pos]
    simp only [inside, Bool.and_eq_true]
    exact ⟨⟨⟨h1, h2⟩, h3⟩, h4⟩
  · intro h
    rw [if_neg]
    · rfl
    · simp only [inside, Bool.and_eq_true]
      rintro ⟨⟨⟨h1, h2⟩, h3⟩, h4⟩
      exact h ⟨h1, h2, h3, h4⟩

example : linReg (R := Rounding.binary64) (ofI (-20), ofI 20) (ofI (-50), ofI 50) (Arith.lit 1 100, ofI 30) [(fin 1, fin 3)] (fin 20) (fin 0) (fin 1) = (XV.ninf : XV) := by
  refine (linReg_eq _ _ _ _ _ _ _).2 ?_
  rintro ⟨⟨-, h⟩, -⟩
  rw [ofI_int 20 (by norm_num)] at h
  exact absurd ((lt_fin _ _).1 h) (by norm_num)

/-- The ranges in emcee_lin_reg.py are those that the program reads from the input.ini of the regression. -/
theorem linReg_ranges : (boundsOf (Dbl R) regressionSample.ranges) = linRegRanges := by
  rfl

/-- **C106.** The ranges in the scripts, converted from the texts of the sample files with any rounding, are those that the program reads. -/
theorem compare_ranges : boundsOf (Dbl R) regressionSample.ranges = [(ofI (-20), ofI 20), (ofI (-50), ofI 50), (Arith.lit 1 100, ofI 30)] ∧
    boundsOf (Dbl R) eggboxSample.ranges = [(ofI 0, ofI 50), (ofI 0, ofI 50)] ∧
    boundsOf (Dbl R) curvedSample.ranges = [(ofI (-10), ofI 10), (ofI (-10), ofI 10)] := ⟨rfl, rfl, rfl⟩

example : (boundsOf XReal curvedSample.ranges).length = 2 := by rw [compare_ranges.2.2]; rfl

/-- **C106.** With doubles and the ranges of the sample, at every point strictly within them, the log-probability of emcee_lin_reg.py is the log-posterior that the
program computes for its chain of inverse temperature 1. -/
theorem linReg_sample (cfg : Cfg Double) (hu : cfg.user = regression.user (boundsOf Double regressionSample.ranges) 2) (pts : List (Double × Double))
    (a b d : Double) (ha : ((ofI (-20) : Double) <. a) = true ∧ (a <. ofI 20) = true) (hb : ((ofI (-50) : Double) <. b) = true ∧ (b <. ofI 50) = true)
    (hd : ((Arith.lit 1 100 : Double) <. d) = true ∧ (d <. ofI 30) = true) :
    linReg (ofI (-20), ofI 20) (ofI (-50), ofI 50) (Arith.lit 1 100, ofI 30) pts a b d =
      logPost cfg [a, b, d] pts.length (pts.flatMap fun p => [p.1, p.2]) (ofI 1) := by
  have hfin : ∃ v, regression.logPrior [(ofI (-20), ofI 20), (ofI (-50), ofI 50), (Arith.lit 1 100, ofI 30)] [a, b, d] = fin v := by
    obtain ⟨y, hy, y1, y2⟩ : FinIn (1 / 2 ^ 7, 1 / 2 ^ 6) (Arith.lit 1 100 : Double) :=
      FinIn.of_rnd (by norm_num) (by norm_num) (rnd_two_inv 7 (by norm_num)) (rnd_two_inv 6 (by norm_num))
    have hd' : FinIn (1 / 2 ^ 7, 2 ^ 7) d := by
      rw [hy, ofI_int 30 (by norm_num)] at hd
      have h1 := (Dbl.lt_iff _ _).1 hd.1
      have h2 := (Dbl.lt_iff _ _).1 hd.2
      clear hd
      cases d with
      | nan => exact h1.elim
      | pinf => exact h2.elim
      | ninf => exact h1.elim
      | fin x =>
        have h1' : y < x := h1
        have h2' : x < ((30 : Int) : ℝ) := h2
        refine ⟨x, rfl, y1.trans h1'.le, h2'.le.trans ?_⟩
        norm_num
    have pa := priorUnif_within (-20, 20) (by norm_num) (by norm_num)
    have pb := priorUnif_within (-50, 50) (by norm_num) (by norm_num)
    have pd := priorLogunif_within (y, 30) y1 (by norm_num at y2 ⊢; linarith) (by norm_num) hd'
    obtain ⟨v, hv, -⟩ := (pa.add pb (by norm_num) (by norm_num)).add pd (by norm_num) (by norm_num)
    have e : regression.logPrior [(ofI (-20), ofI 20), (ofI (-50), ofI 50), (Arith.lit 1 100, ofI 30)] [a, b, d] = fin v := by
      rw [← hv, hy, ofI_int (-20) (by norm_num), ofI_int 20 (by norm_num), ofI_int (-50) (by norm_num), ofI_int 50 (by norm_num), ofI_int 30 (by norm_num)]
      push_cast
      rfl
    exact ⟨v, e⟩
  rw [(linReg_eq _ _ _ _ _ _ _).1 ⟨ha, hb, hd, hfin⟩, logPost, hu, linReg_ranges]
  rfl

example (pts : List (Double × Double)) : linReg (ofI (-20), ofI 20) (ofI (-50), ofI 50) (Arith.lit 1 100, ofI 30) pts (fin 3.5) (fin 4) (fin 2) =
    logPost { regrCfgD with user := regression.user (boundsOf Double regressionSample.ranges) 2 } [fin 3.5, fin 4, fin 2] pts.length
      (pts.flatMap fun p => [p.1, p.2]) (ofI 1) := by
  refine linReg_sample _ rfl pts _ _ _ ?_ ?_ ?_
  · rw [ofI_int (-20) (by norm_num), ofI_int 20 (by norm_num)]
    exact ⟨(lt_fin _ _).2 (by norm_num), (lt_fin _ _).2 (by norm_num)⟩
  · rw [ofI_int (-50) (by norm_num), ofI_int 50 (by norm_num)]
    exact ⟨(lt_fin _ _).2 (by norm_num), (lt_fin _ _).2 (by norm_num)⟩
  · obtain ⟨y, hy, y1, y2⟩ : FinIn (1 / 2 ^ 7, 1 / 2 ^ 6) (Arith.lit 1 100 : Double) :=
      FinIn.of_rnd (by norm_num) (by norm_num) (rnd_two_inv 7 (by norm_num)) (rnd_two_inv 6 (by norm_num))
    rw [ofI_int 30 (by norm_num), hy]
    exact ⟨(lt_fin _ _).2 (lt_of_le_of_lt y2 (by norm_num)), (lt_fin _ _).2 (by norm_num)⟩

/-- **C106.** For the egg box the scripts leave out a constant: at every point strictly within the ranges the log-posterior of the program, in exact arithmetic, is that
of the script plus `2 - 2 log(1/50)`, so that both have the same ratios. -/
theorem egg_shift (a b : ℝ) (ha : 0 < a ∧ a < 50) (hb : 0 < b ∧ b < 50) (nline : Int) (data : List XReal) :
    ∃ p : ℝ, egg (R := Rounding.exact) (ofI 0, ofI 50) (ofI 0, ofI 50) (fin a) (fin b) = fin p ∧
      (eggbox.logll 2 [fin a, fin b] nline data (ofI 1) +. eggbox.logPrior [(ofI 0, ofI 50), (ofI 0, ofI 50)] [fin a, fin b] : XReal) = fin (p + (2 - 2 * Real.log (1 / 50))) := by
  have h0 : (ofI 0 : XReal) = fin 0 := (ofI_int (R := Rounding.exact) 0 (by norm_num)).trans (by push_cast; rfl)
  have h1 : (ofI 1 : XReal) = fin 1 := (ofI_int (R := Rounding.exact) 1 (by norm_num)).trans (by push_cast; rfl)
  have h2 : (ofI 2 : XReal) = fin 2 := (ofI_int (R := Rounding.exact) 2 (by norm_num)).trans (by push_cast; rfl)
  have h50 : (ofI 50 : XReal) = fin 50 := (ofI_int (R := Rounding.exact) 50 (by norm_num)).trans (by push_cast; rfl)
  have hlog : Arith.log ((ofI 1 : XReal) /. (ofI 50 -. ofI 0)) = fin (Real.log (1 / 50)) := by
    rw [h0, h1, h50, sub_fin]
    show Arith.log (fin 1 /. fin (50 - 0) : XReal) = _
    rw [sub_zero, div_fin _ _ (by norm_num)]
    show (if (1 / 50 : ℝ) < 0 then XV.nan else if (1 / 50 : ℝ) = 0 then XV.ninf else XV.fin (Real.log (1 / 50))) = _
    rw [if_neg (by norm_num), if_neg (by norm_num)]
    rfl
  have hin : ∀ x : ℝ, 0 < x ∧ x < 50 → inside (R := Rounding.exact) (ofI 0, ofI 50) (fin x) = true := by
    intro x hx
    rw [h0, h50, inside, Bool.and_eq_true]
    exact ⟨(lt_fin _ _).2 hx.1, (lt_fin _ _).2 hx.2⟩
  have hsc : Arith.sin ((fin b : XReal) /. ofI 2) *. Arith.cos ((fin a : XReal) /. ofI 2) = fin (Real.sin (b / 2) * Real.cos (a / 2)) := by
    rw [h2, div_fin _ _ (by norm_num), div_fin _ _ (by norm_num)]
    rfl
  refine ⟨(Real.log (1 / 50) + Real.log (1 / 50)) + (Real.sin (b / 2) * Real.cos (a / 2) + 1), ?_, ?_⟩
  · rw [egg, eggPriorA, logUnif, hin a ha, hin b hb, if_pos rfl]
    simp only
    rw [hlog, eggLikelihood, hsc, h1]
    rfl
  · show (Arith.sin ((fin b : XReal) /. ofI 2) *. Arith.cos ((fin a : XReal) /. ofI 2) +. ofI 2) *. ofI 1 +. ofI 1 = _
    rw [hsc, h1, h2, add_fin]
    show (fin (Real.sin (b / 2) * Real.cos (a / 2) + 2) *. fin 1 +. fin 1 : XReal) = _
    rw [mul_fin]
    show (fin ((Real.sin (b / 2) * Real.cos (a / 2) + 2) * 1) +. fin 1 : XReal) = _
    rw [add_fin]
    show (fin ((Real.sin (b / 2) * Real.cos (a / 2) + 2) * 1 + 1) : XReal) = _
    congr 1
    ring

example : ∃ p : ℝ, egg (R := Rounding.exact) (ofI 0, ofI 50) (ofI 0, ofI 50) (fin 10) (fin 40) = fin p ∧
      (eggbox.logll 2 [fin 10, fin 40] 0 [] (ofI 1) +. eggbox.logPrior [(ofI 0, ofI 50), (ofI 0, ofI 50)] [fin 10, fin 40] : XReal) = fin (p + (2 - 2 * Real.log (1 / 50))) :=
  egg_shift 10 40 (by norm_num) (by norm_num) 0 []

/-- **C106.** curved_purefit.py: for any rounding the tempered log-posterior of the program is that which PTMCMCSampler is given, strictly within the ranges. -/
theorem curved_same (bx by' : Dbl R × Dbl R) (x y : Dbl R) (hx : (bx.1 <. x) = true ∧ (x <. bx.2) = true)
    (hy : (by'.1 <. y) = true ∧ (y <. by'.2) = true) (nline : Int) (data : List (Dbl R)) (beta : Dbl R) :
    curved.logll 2 [x, y] nline data beta +. curved.logPrior [bx, by'] [x, y] = curvedLnlike x y *. beta +. curvedLnprior bx by' x y := by
  rw [curvedLnprior, hx.1, hx.2, hy.1, hy.2]
  rfl

example : curved.logll 2 [fin 1, fin 2] 0 [] (fin 0.3) +. curved.logPrior [(fin (-10), fin 10), (fin (-10), fin 10)] [fin 1, fin 2] =
    curvedLnlike (fin 1 : Double) (fin 2) *. fin 0.3 +. curvedLnprior (fin (-10), fin 10) (fin (-10), fin 10) (fin 1) (fin 2) := by
  refine curved_same _ _ _ _ ?_ ?_ _ _ _ <;>
  exact ⟨(lt_fin _ _).2 (by norm_num), (lt_fin _ _).2 (by norm_num)⟩

end Compare
end NiiC
