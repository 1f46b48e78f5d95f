import Verif.Model.Models
import Verif.Num.XReal
import Verif.Props.State
import Verif.Props.Demo

/-!
# The boundary routine of the bundled models: C44, and C15 for these models
-/

set_option linter.unusedSectionVars false
set_option linter.unusedSimpArgs false

namespace NiiC

open Spec

/-! ## C44, exact arithmetic -/

theorem bounce_real (lo hi x : ℝ) : bounce lo hi x =
    (let y := if hi < x then max (hi - (x - hi)) lo else x
     if y < lo then min (lo + (lo - y)) hi else y) := by
  simp only [bounce, RealArith.lt_iff, RealArith.fmax_eq, RealArith.fmin_eq, RealArith.sub_eq, RealArith.add_eq]

/-- **C44, exact arithmetic.** The boundary routine is the identity inside the box, mirror reflection as long as the excess is at most the
width of the box, and beyond that the opposite end of the box; in every case the result is in the box. -/
theorem bounce_exact (lo hi : ℝ) (h : lo ≤ hi) (x : ℝ) :
    (lo ≤ bounce lo hi x ∧ bounce lo hi x ≤ hi) ∧
    (lo ≤ x → x ≤ hi → bounce lo hi x = x) ∧
    (0 ≤ x - hi → x - hi ≤ hi - lo → bounce lo hi x - hi = -(x - hi)) ∧
    (0 ≤ lo - x → lo - x ≤ hi - lo → bounce lo hi x - lo = -(x - lo)) ∧
    (hi - lo ≤ x - hi → bounce lo hi x = lo) ∧
    (hi - lo ≤ lo - x → bounce lo hi x = hi) := by
  rw [bounce_real]
  by_cases h1 : hi < x
  · simp only [h1, if_true]
    have h2 : ¬ max (hi - (x - hi)) lo < lo := not_lt.2 (le_max_right _ _)
    simp only [h2, if_false]
    refine ⟨⟨le_max_right _ _, max_le (by linarith) h⟩, fun _ h3 => absurd h1 (not_lt.2 h3), fun _ h3 => ?_, fun h3 _ => ?_, fun h3 => ?_, fun h3 => ?_⟩
    · rw [max_eq_left (by linarith)]; ring
    · linarith
    · rw [max_eq_right (by linarith)]
    · linarith
  · simp only [h1, if_false]
    rw [not_lt] at h1
    by_cases h2 : x < lo
    · simp only [h2, if_true]
      refine ⟨⟨le_min (by linarith) h, min_le_right _ _⟩, fun h3 _ => absurd h2 (not_lt.2 h3), fun h3 _ => ?_, fun _ h3 => ?_, fun h3 => ?_, fun h3 => ?_⟩
      · linarith
      · rw [min_eq_left (by linarith)]; ring
      · linarith
      · rw [min_eq_right (by linarith)]
    · simp only [h2, if_false]
      rw [not_lt] at h2
      refine ⟨⟨h2, h1⟩, fun _ _ => trivial, fun h3 _ => ?_, fun h3 _ => ?_, fun h3 => ?_, fun h3 => ?_⟩ <;> linarith

example : bounce (0 : ℝ) 10 12 = 8 ∧ bounce (0 : ℝ) 10 (-3) = 3 ∧ bounce (0 : ℝ) 10 25 = 0 ∧ bounce (0 : ℝ) 10 7 = 7 := by
  refine ⟨?_, ?_, ?_, ?_⟩ <;> rw [bounce_real] <;> norm_num

/-! ## C44, rounding -/

open Dbl

section
variable {R : Rounding}

theorem fmax_of_lt {a b : Dbl R} (ha : a ≠ nan) (hb : b ≠ nan) (h : XV.Lt b a) : Arith.fmax a b = a := by
  cases a <;> cases b <;> first | exact absurd rfl ha | exact absurd rfl hb | exact if_pos h
theorem fmax_of_not_lt {a b : Dbl R} (ha : a ≠ nan) (hb : b ≠ nan) (h : ¬ XV.Lt b a) : Arith.fmax a b = b := by
  cases a <;> cases b <;> first | exact absurd rfl ha | exact absurd rfl hb | exact if_neg h
theorem fmin_of_lt {a b : Dbl R} (ha : a ≠ nan) (hb : b ≠ nan) (h : XV.Lt a b) : Arith.fmin a b = a := by
  cases a <;> cases b <;> first | exact absurd rfl ha | exact absurd rfl hb | exact if_pos h
theorem fmin_of_not_lt {a b : Dbl R} (ha : a ≠ nan) (hb : b ≠ nan) (h : ¬ XV.Lt a b) : Arith.fmin a b = b := by
  cases a <;> cases b <;> first | exact absurd rfl ha | exact absurd rfl hb | exact if_neg h

/-- The result of the upper reflection: between the bounds. -/
theorem reflect_hi (lo hi : ℝ) (h : lo ≤ hi) (hhi : R.rnd hi = .fin hi) (x : Dbl R)
    (hx : XV.Lt (.fin hi) x) : ∃ v, Arith.fmax ((fin hi : Dbl R) -. (x -. fin hi)) (fin lo) = fin v ∧ lo ≤ v ∧ v ≤ hi := by
  -- the excess is not negative
  have hd : ∃ d : Dbl R, (x -. fin hi : Dbl R) = d ∧ XV.Le (.fin 0) d := by
    refine ⟨_, rfl, ?_⟩
    cases x with
    | nan => exact absurd hx (fun h => h)
    | ninf => exact absurd hx (fun h => h)
    | pinf => exact True.intro
    | fin v =>
      have : (fin v -. fin hi : Dbl R) = R.rnd (v - hi) := sub_fin v hi
      show XV.Le _ (fin v -. fin hi : Dbl R)
      rw [this]
      have hv : hi < v := hx
      exact le_rnd (by linarith) rnd_zero
  obtain ⟨d, hd, h0⟩ := hd
  rw [hd]
  -- so the reflected value is at most `hi`
  have hr : ∃ e : Dbl R, (fin hi -. d : Dbl R) = e ∧ e ≠ nan ∧ XV.Le e (.fin hi) := by
    refine ⟨_, rfl, ?_⟩
    cases d with
    | nan => exact absurd h0 (fun h => h)
    | ninf => exact absurd h0 (fun h => h)
    | pinf => exact ⟨fun h => (by cases h), True.intro⟩
    | fin v =>
      have e1 : (fin hi -. fin v : Dbl R) = R.rnd (hi - v) := sub_fin hi v
      have h0' : (0 : ℝ) ≤ v := h0
      show (fin hi -. fin v : Dbl R) ≠ nan ∧ XV.Le (fin hi -. fin v : Dbl R) _
      rw [e1]
      exact ⟨R.rnd_ne_nan _, rnd_le (by linarith) hhi⟩
  obtain ⟨e, he, hne, hle⟩ := hr
  rw [he]
  have hlon : (fin lo : Dbl R) ≠ nan := fun h => by cases h
  by_cases hc : XV.Lt (fin lo : Dbl R) e
  · rw [fmax_of_lt hne hlon hc]
    cases e with
    | nan => exact absurd rfl hne
    | ninf => exact absurd hc (fun h => h)
    | pinf => exact absurd hle (fun h => h)
    | fin v => exact ⟨v, rfl, le_of_lt hc, hle⟩
  · rw [fmax_of_not_lt hne hlon hc]
    exact ⟨lo, rfl, le_rfl, h⟩

/-- The result of the lower reflection. -/
theorem reflect_lo (lo hi : ℝ) (h : lo ≤ hi) (hlo : R.rnd lo = .fin lo) (x : Dbl R)
    (hx : XV.Lt x (.fin lo)) : ∃ v, Arith.fmin ((fin lo : Dbl R) +. (fin lo -. x)) (fin hi) = fin v ∧ lo ≤ v ∧ v ≤ hi := by
  have hd : ∃ d : Dbl R, (fin lo -. x : Dbl R) = d ∧ XV.Le (.fin 0) d := by
    refine ⟨_, rfl, ?_⟩
    cases x with
    | nan => exact absurd hx (fun h => h)
    | pinf => exact absurd hx (fun h => h)
    | ninf => exact True.intro
    | fin v =>
      have : (fin lo -. fin v : Dbl R) = R.rnd (lo - v) := sub_fin lo v
      show XV.Le _ (fin lo -. fin v : Dbl R)
      rw [this]
      have hv : v < lo := hx
      exact le_rnd (by linarith) rnd_zero
  obtain ⟨d, hd, h0⟩ := hd
  rw [hd]
  have hr : ∃ e : Dbl R, (fin lo +. d : Dbl R) = e ∧ e ≠ nan ∧ XV.Le (.fin lo) e := by
    refine ⟨_, rfl, ?_⟩
    cases d with
    | nan => exact absurd h0 (fun h => h)
    | ninf => exact absurd h0 (fun h => h)
    | pinf => exact ⟨fun h => (by cases h), True.intro⟩
    | fin v =>
      have e1 : (fin lo +. fin v : Dbl R) = R.rnd (lo + v) := add_fin lo v
      have h0' : (0 : ℝ) ≤ v := h0
      show (fin lo +. fin v : Dbl R) ≠ nan ∧ XV.Le _ (fin lo +. fin v : Dbl R)
      rw [e1]
      exact ⟨R.rnd_ne_nan _, le_rnd (by linarith) hlo⟩
  obtain ⟨e, he, hne, hle⟩ := hr
  rw [he]
  have hhin : (fin hi : Dbl R) ≠ nan := fun h => by cases h
  by_cases hc : XV.Lt e (fin hi : Dbl R)
  · rw [fmin_of_lt hne hhin hc]
    cases e with
    | nan => exact absurd rfl hne
    | pinf => exact absurd hc (fun h => h)
    | ninf => exact absurd hle (fun h => h)
    | fin v => exact ⟨v, rfl, hle, le_of_lt hc⟩
  · rw [fmin_of_not_lt hne hhin hc]
    exact ⟨hi, rfl, h, le_rfl⟩

/-- **C44, doubles.** For finite representable bounds `lo <= hi` and any rounding, the boundary routine maps every value that is not a NaN,
infinities included, to a finite value in the box, leaves values in the box alone, and leaves NaN a NaN. -/
theorem bounce_rounded (lo hi : ℝ) (h : lo ≤ hi) (hlo : R.rnd lo = .fin lo) (hhi : R.rnd hi = .fin hi) (x : Dbl R) :
    (x ≠ nan → ∃ v, bounce (fin lo) (fin hi) x = fin v ∧ lo ≤ v ∧ v ≤ hi) ∧
    (∀ v, x = fin v → lo ≤ v → v ≤ hi → bounce (fin lo) (fin hi) x = x) ∧
    bounce (fin lo) (fin hi) (nan : Dbl R) = nan := by
  have hfix : ∀ v, lo ≤ v → v ≤ hi → bounce (fin lo) (fin hi) (fin v : Dbl R) = fin v := by
    intro v h1 h2
    have e1 : ((fin hi : Dbl R) <. fin v) = false := (lt_fin_false _ _).2 h2
    have e2 : ((fin v : Dbl R) <. fin lo) = false := (lt_fin_false _ _).2 h1
    simp only [bounce, e1, e2, Bool.false_eq_true, if_false]
  refine ⟨fun hx => ?_, fun v hv h1 h2 => by rw [hv]; exact hfix v h1 h2, ?_⟩
  · by_cases h1 : XV.Lt (.fin hi) x
    · obtain ⟨v, hv, h2, h3⟩ := reflect_hi lo hi h hhi x h1
      have e1 : ((fin hi : Dbl R) <. x) = true := (Dbl.lt_iff _ _).2 h1
      have e2 : ((fin v : Dbl R) <. fin lo) = false := (lt_fin_false _ _).2 h2
      refine ⟨v, ?_, h2, h3⟩
      simp only [bounce, e1, if_true, hv, e2, Bool.false_eq_true, if_false]
    · have e1 : ((fin hi : Dbl R) <. x) = false := by rw [← Bool.not_eq_true, Dbl.lt_iff]; exact h1
      by_cases h2 : XV.Lt x (.fin lo)
      · obtain ⟨v, hv, h3, h4⟩ := reflect_lo lo hi h hlo x h2
        have e2 : (x <. (fin lo : Dbl R)) = true := (Dbl.lt_iff _ _).2 h2
        exact ⟨v, by simp only [bounce, e1, e2, Bool.false_eq_true, if_false, if_true, hv], h3, h4⟩
      · cases x with
        | nan => exact absurd rfl hx
        | pinf => exact absurd True.intro h1
        | ninf => exact absurd True.intro h2
        | fin v =>
          have h1' : ¬ hi < v := h1
          have h2' : ¬ v < lo := h2
          exact ⟨v, hfix v (not_lt.1 h2') (not_lt.1 h1'), not_lt.1 h2', not_lt.1 h1'⟩
  · simp only [bounce, lt_nan, nan_lt, Bool.false_eq_true, if_false]

/-- An infinite proposal ends on the opposite bound. -/
example : bounce (fin 0) (fin 10) (pinf : XReal) = fin 0 ∧ bounce (fin 0) (fin 10) (fin 12 : XReal) = fin 8 := by
  constructor
  · have e1 : ((fin 10 : XReal) <. pinf) = true := (Dbl.lt_iff _ _).2 True.intro
    have e2 : (fin 10 -. (pinf -. fin 10) : XReal) = ninf := rfl
    have e3 : Arith.fmax (ninf : XReal) (fin 0) = fin 0 := fmax_of_not_lt (fun h => by cases h) (fun h => by cases h) (fun h => h)
    have e4 : ((fin 0 : XReal) <. fin 0) = false := (lt_fin_false _ _).2 le_rfl
    simp only [bounce, e1, e2, e3, e4, if_true, Bool.false_eq_true, if_false]
  · have e1 : ((fin 10 : XReal) <. fin 12) = true := (lt_fin _ _).2 (by norm_num)
    have e4 : ((fin 8 : XReal) <. fin 0) = false := (lt_fin_false _ _).2 (by norm_num)
    have e3 : Arith.fmax (fin 10 -. (fin 12 -. fin 10) : XReal) (fin 0) = fin 8 := by
      rw [XReal.sub_eq, XReal.sub_eq, XReal.fmax_eq]; norm_num
    simp only [bounce, e1, e3, e4, if_true, Bool.false_eq_true, if_false]

end

end NiiC
