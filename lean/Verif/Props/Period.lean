import Verif.Props.Streams

/-!
# The period of the generator and the overlap of the streams of the ranks: C91, C92
-/

set_option linter.unusedSectionVars false
set_option linter.unusedSimpArgs false

namespace NiiC

open Spec

/-! ## C91 -/

/-- `1 + A + ... + A^(k-1)`. -/
def geo (k : Nat) : Nat := (Finset.range k).sum (lcgA ^ ·)

theorem geo_succ (k : Nat) : geo (k + 1) = geo k + lcgA ^ k := Finset.sum_range_succ _ _

theorem pow_geo (k : Nat) : lcgA ^ k = 1 + (lcgA - 1) * geo k := by
  induction k with
  | zero => rfl
  | succ k ih =>
    rw [pow_succ, geo_succ, mul_add]
    obtain ⟨b, hb⟩ : ∃ b, lcgA = b + 1 := ⟨lcgA - 1, by decide⟩
    rw [show lcgA ^ k * lcgA = lcgA ^ k + (lcgA - 1) * lcgA ^ k by rw [hb]; simp only [Nat.add_sub_cancel]; ring]
    omega

theorem geo_add (j k : Nat) : geo (j + k) = geo j + lcgA ^ j * geo k := by
  induction k with
  | zero => simp [geo]
  | succ k ih => rw [← add_assoc, geo_succ, geo_succ, ih, pow_add]; ring

theorem pow_four (k : Nat) : lcgA ^ k % 4 = 1 := by
  rw [Nat.pow_mod, show lcgA % 4 = 1 by decide, one_pow]
  rfl

theorem geo_two (k : Nat) : geo k % 2 = k % 2 := by
  induction k with
  | zero => rfl
  | succ k ih =>
    have := pow_four k
    rw [geo_succ]
    omega

/-- A power of two divides `1 + A + ... + A^(k-1)` exactly when it divides `k`. -/
theorem dvd_geo (e k : Nat) : 2 ^ e ∣ geo k ↔ 2 ^ e ∣ k := by
  induction e generalizing k with
  | zero => simp
  | succ e ih =>
    rcases Nat.even_or_odd' k with ⟨j, rfl | rfl⟩
    · obtain ⟨o, ho⟩ : ∃ o, 1 + lcgA ^ j = 2 * (2 * o + 1) := ⟨lcgA ^ j / 4, by have := pow_four j; omega⟩
      have h : geo (2 * j) = 2 * (geo j * (2 * o + 1)) := by
        rw [two_mul, geo_add, show geo j + lcgA ^ j * geo j = geo j * (1 + lcgA ^ j) by ring, ho]; ring
      have hc : Nat.Coprime (2 ^ e) (2 * o + 1) := Nat.Coprime.pow_left _ (by simp)
      rw [h, pow_succ', Nat.mul_dvd_mul_iff_left (by decide), Nat.mul_dvd_mul_iff_left (by decide), hc.dvd_mul_right, ih]
    · have h2 := geo_two (2 * j + 1)
      have hd : 2 ∣ 2 ^ (e + 1) := ⟨2 ^ e, pow_succ' 2 e⟩
      constructor
      · intro h; have := hd.trans h; omega
      · intro h; have := hd.trans h; omega

/-- The odd number by which the state is advanced: `(A - 1) x + C`. -/
def stride (x : Nat) : Nat := (lcgA - 1) * x + lcgC

theorem stride_odd (x : Nat) : stride x % 2 = 1 := by
  have h : (lcgA - 1) % 2 = 0 := by decide
  have h2 : ((lcgA - 1) * x) % 2 = 0 := by rw [Nat.mul_mod, h, zero_mul]; rfl
  have h3 : lcgC % 2 = 1 := by decide
  unfold stride
  omega

/-- `k` draws in closed form. -/
theorem iterate_closed (k : Nat) (x : Rng) : lcgNext^[k] x ≡ x + geo k * stride x [MOD lcgM] := by
  induction k with
  | zero => simp [geo, Nat.ModEq]
  | succ k ih =>
    rw [Function.iterate_succ_apply']
    have h1 : lcgNext (lcgNext^[k] x) ≡ lcgA * (lcgNext^[k] x) + lcgC [MOD lcgM] := Nat.mod_modEq _ _
    refine h1.trans (((ih.mul_left lcgA).add_right lcgC).trans ?_)
    have h2 := pow_geo k
    obtain ⟨b, hb⟩ : ∃ b, lcgA = b + 1 := ⟨lcgA - 1, by decide⟩
    rw [geo_succ, h2]
    simp only [stride, hb, Nat.add_sub_cancel]
    refine congrArg (· % lcgM) ?_
    ring

/-- **C91, low bits.** After `k` draws the lowest `b` bits of the state are what they were exactly when `2^b` divides `k`: they have the period `2^b`. -/
theorem low_bits_period (b : Nat) (hb : b ≤ 48) (k : Nat) (x : Rng) : lcgNext^[k] x % 2 ^ b = x % 2 ^ b ↔ 2 ^ b ∣ k := by
  have hd : 2 ^ b ∣ lcgM := (show lcgM = 2 ^ 48 by decide) ▸ pow_dvd_pow 2 hb
  have h : lcgNext^[k] x ≡ x + geo k * stride x [MOD 2 ^ b] := (iterate_closed k x).of_dvd hd
  have hc : Nat.Coprime (2 ^ b) (stride x) := Nat.Coprime.pow_left _ ((Nat.coprime_two_left).2 (Nat.odd_iff.2 (stride_odd x)))
  have e1 : lcgNext^[k] x % 2 ^ b = x % 2 ^ b ↔ x + geo k * stride x ≡ x [MOD 2 ^ b] :=
    ⟨fun e => h.symm.trans e, fun e => h.trans e⟩
  rw [e1, ← dvd_geo b k, ← hc.dvd_mul_right, ← Nat.modEq_zero_iff_dvd]
  constructor
  · intro e; exact Nat.ModEq.add_left_cancel' x e
  · intro e; exact e.add_left x

/-- **C91, full period.** A state comes back after `k` draws exactly when `2^48` divides `k`, whatever the state. -/
theorem full_period (x : Rng) (hx : x < lcgM) (k : Nat) : lcgNext^[k] x = x ↔ lcgM ∣ k := by
  have h := low_bits_period 48 le_rfl k x
  have hM : (2 : Nat) ^ 48 = lcgM := by decide
  rw [hM, Nat.mod_eq_of_lt (iterate_lt k x hx), Nat.mod_eq_of_lt hx] at h
  exact h

theorem iterate_injOn (x : Rng) (hx : x < lcgM) : Set.InjOn (fun i => lcgNext^[i] x) (Finset.range lcgM : Set Nat) := by
  have key : ∀ i j : Nat, i ≤ j → j < lcgM → lcgNext^[i] x = lcgNext^[j] x → i = j := by
    intro i j hij hj he
    obtain ⟨d, rfl⟩ := Nat.exists_eq_add_of_le hij
    rw [add_comm i d, Function.iterate_add_apply, ← Function.iterate_add_apply, add_comm d i, Function.iterate_add_apply] at he
    have h1 := iterate_inj i x (lcgNext^[d] x) hx (iterate_lt d x hx) he
    have h2 := (full_period x hx d).1 h1.symm
    have := Nat.eq_zero_of_dvd_of_lt h2 (by omega)
    omega
  intro i hi j hj he
  have hi' := Finset.mem_range.1 (Finset.mem_coe.1 hi)
  have hj' := Finset.mem_range.1 (Finset.mem_coe.1 hj)
  rcases le_total i j with h | h
  · exact key i j h hj' he
  · exact (key j i h hi' he.symm).symm

theorem cycle_image (x : Rng) (hx : x < lcgM) : (Finset.range lcgM).image (fun i => lcgNext^[i] x) = Finset.range lcgM := by
  apply Finset.eq_of_subset_of_card_le
  · intro y hy
    obtain ⟨i, _, rfl⟩ := Finset.mem_image.1 hy
    exact Finset.mem_range.2 (iterate_lt i x hx)
  · exact (Finset.card_image_of_injOn (iterate_injOn x hx)).ge

/-- **C91, one cycle.** Every state is reached from every state, at exactly one of the next `2^48` draws. -/
theorem one_cycle (x y : Rng) (hx : x < lcgM) (hy : y < lcgM) : ∃! k, k < lcgM ∧ lcgNext^[k] x = y := by
  have h := cycle_image x hx
  have hy' : y ∈ (Finset.range lcgM).image (fun i => lcgNext^[i] x) := by
    rw [h]; exact Finset.mem_range.2 hy
  obtain ⟨k, hk, he⟩ := Finset.mem_image.1 hy'
  refine ⟨k, ⟨Finset.mem_range.1 hk, he⟩, fun j hj => ?_⟩
  exact iterate_injOn x hx (Finset.mem_coe.2 (Finset.mem_range.2 hj.1)) (Finset.mem_coe.2 hk) (hj.2.trans he.symm)

/-- Along a full period every event has its frequency over all states. -/
theorem cycle_count (p : Rng → Prop) [DecidablePred p] (x : Rng) (hx : x < lcgM) :
    ((Finset.range lcgM).filter (fun i => p (lcgNext^[i] x))).card = ((Finset.range lcgM).filter p).card := by
  conv_rhs => rw [← cycle_image x hx]
  rw [Finset.filter_image, Finset.card_image_of_injOn]
  exact (iterate_injOn x hx).mono (by intro i hi; exact Finset.mem_coe.2 (Finset.mem_filter.1 (Finset.mem_coe.1 hi)).1)

/-- **C91, acceptance.** Whatever the seed, if the same test is made with `2^48` successive numbers of the generator it accepts exactly
`ceil(2^48 * min(1, exp(delta)))` times. -/
theorem accept_frequency (seed : Nat) (new old : ℝ) :
    ((Finset.range lcgM).filter (fun i => (mhAccept new old (ofI 1) (lcgNext^[i] (lcgSeed seed))).1 = true)).card =
      ⌈min 1 (Real.exp (new - old)) * lcgM⌉₊ := by
  rw [cycle_count (fun g => (mhAccept new old (ofI 1) g).1 = true) _ (lcgSeed_lt seed)]
  exact mh_accept_count new old

/-- **C91, zero.** From every seed exactly one of the next `2^48` draws is the number 0, at which Box-Muller takes the logarithm of 0. -/
theorem zero_drawn_once (seed : Nat) : ∃! k, k < lcgM ∧ (drand48 (F := ℝ) (lcgNext^[k] (lcgSeed seed))).1 = 0 := by
  have h := one_cycle (lcgNext (lcgSeed seed)) 0 (lcgNext_lt _) (by decide)
  refine (existsUnique_congr (fun k => and_congr_right (fun _ => ?_))).1 h
  rw [drand48_posix]
  simp only [RealArith.lit_eq, Int.cast_natCast]
  have hM : (lcgM : ℝ) ≠ 0 := by norm_num [lcgM]
  rw [div_eq_zero_iff, or_iff_left hM, Nat.cast_eq_zero, ← Function.iterate_succ_apply' lcgNext, Function.iterate_succ_apply]

/-- The state after the seed 23 does not come back in the first million draws, and comes back after `2^48`. -/
example : lcgNext^[1000000] (lcgSeed 23) ≠ lcgSeed 23 ∧ lcgNext^[lcgM] (lcgSeed 23) = lcgSeed 23 :=
  ⟨fun h => absurd ((full_period _ (lcgSeed_lt 23) _).1 h) (by decide), (full_period _ (lcgSeed_lt 23) _).2 (dvd_refl _)⟩

/-- The lowest bit alternates. -/
example (x : Rng) : lcgNext x % 2 ≠ x % 2 := fun h => absurd ((low_bits_period 1 (by decide) 1 x).1 h) (by decide)

/-! ## C92 -/

/-- `A^k` and `1 + ... + A^(k-1)` modulo `m` by repeated squaring. -/
def fast (m : Nat) : (fuel k : Nat) → Nat × Nat
  | 0, _ => (1, 0)
  | fuel + 1, k =>
    let q := fast m fuel (k / 2)
    let e := (q.1 * q.1 % m, q.2 * (1 + q.1) % m)
    if k % 2 = 1 then (e.1 * lcgA % m, (e.2 + e.1) % m) else e

theorem fast_spec (m fuel : Nat) : ∀ k, k < 2 ^ fuel → (fast m fuel k).1 ≡ lcgA ^ k [MOD m] ∧ (fast m fuel k).2 ≡ geo k [MOD m] := by
  induction fuel with
  | zero => intro k hk; have : k = 0 := by omega
            subst this; exact ⟨rfl, rfl⟩
  | succ fuel ih =>
    intro k hk
    obtain ⟨j, hj⟩ : ∃ j, j = k / 2 := ⟨_, rfl⟩
    obtain ⟨q, hq⟩ : ∃ q, q = fast m fuel j := ⟨_, rfl⟩
    obtain ⟨h1, h2⟩ := ih j (by rw [pow_succ] at hk; omega)
    rw [← hq] at h1 h2
    have e1 : q.1 * q.1 % m ≡ lcgA ^ (2 * j) [MOD m] := by
      refine (Nat.mod_modEq _ _).trans ?_
      rw [two_mul, pow_add]
      exact h1.mul h1
    have e2 : q.2 * (1 + q.1) % m ≡ geo (2 * j) [MOD m] := by
      refine (Nat.mod_modEq _ _).trans ?_
      rw [two_mul, geo_add, show geo j + lcgA ^ j * geo j = geo j * (1 + lcgA ^ j) by ring]
      exact h2.mul (h1.add_left 1)
    simp only [fast, ← hj, ← hq]
    by_cases ho : k % 2 = 1
    · rw [if_pos ho]
      have hk2 : k = 2 * j + 1 := by omega
      refine ⟨(Nat.mod_modEq _ _).trans ?_, (Nat.mod_modEq _ _).trans ?_⟩
      · rw [hk2, pow_succ]
        exact e1.mul_right _
      · rw [hk2, geo_succ]
        exact e2.add e1
    · rw [if_neg ho]
      have hk2 : k = 2 * j := by omega
      rw [hk2]
      exact ⟨e1, e2⟩

/-- Many draws at once. -/
theorem iterate_fast (fuel k : Nat) (hk : k < 2 ^ fuel) (x : Rng) (hx : x < lcgM) :
    lcgNext^[k] x = (x + (fast lcgM fuel k).2 * stride x) % lcgM := by
  have h1 := iterate_closed k x
  have h2 : x + geo k * stride x ≡ x + (fast lcgM fuel k).2 * stride x [MOD lcgM] :=
    (((fast_spec lcgM fuel k hk).2.symm).mul_right _).add_left _
  have h := h1.trans h2
  rw [Nat.ModEq, Nat.mod_eq_of_lt (iterate_lt k x hx)] at h
  exact h

theorem mod34 {a b : Nat} (h : a ≡ b [MOD 262144]) : 65536 * a ≡ 65536 * b [MOD 17179869184] :=
  Nat.ModEq.mul_left' 65536 h

/-- `65536 m` draws add `65536 * 83889 * m` to a seeded state, modulo `2^34`. -/
theorem geo_seed (m s : Nat) : geo (65536 * m) * stride (lcgSeed s) ≡ 65536 * (83889 * m) [MOD 17179869184] := by
  have hA : lcgA ^ 65536 ≡ 1 [MOD 262144] := by
    have h := (fast_spec 262144 17 65536 (by decide)).1.symm
    exact h.trans (by decide +kernel)
  have hG : geo 65536 ≡ 65536 * 153803 [MOD 17179869184] := by
    have h := (fast_spec 17179869184 17 65536 (by decide)).2.symm
    exact h.trans (by decide +kernel)
  obtain ⟨g, hg⟩ : ∃ g, geo 65536 = 65536 * g := by
    have h := (dvd_geo 16 65536).2 (by decide)
    exact h
  have hm : geo (65536 * m) ≡ 65536 * (153803 * m) [MOD 17179869184] := by
    induction m with
    | zero => rfl
    | succ m ih =>
      have hP : lcgA ^ (65536 * m) ≡ 1 [MOD 262144] := by
        rw [pow_mul]
        have := hA.pow m
        rwa [one_pow] at this
      have h1 : lcgA ^ (65536 * m) * geo 65536 ≡ geo 65536 [MOD 17179869184] := by
        rw [hg]
        have := mod34 (hP.mul_right g)
        rw [one_mul] at this
        rwa [show lcgA ^ (65536 * m) * (65536 * g) = 65536 * (lcgA ^ (65536 * m) * g) by ring]
      rw [mul_add, mul_one, geo_add]
      refine (ih.add (h1.trans hG)).trans ?_
      refine congrArg (· % 17179869184) ?_
      ring
  have hs : stride (lcgSeed s) ≡ stride 13070 [MOD 262144] := by
    obtain ⟨t, ht⟩ : ∃ t, lcgA - 1 = 4 * t := ⟨(lcgA - 1) / 4, by decide⟩
    have e : stride (lcgSeed s) = stride 13070 + 262144 * (t * (s % 4294967296)) := by
      simp only [stride, lcgSeed, ht]
      ring
    rw [e]
    exact (Nat.add_mul_mod_self_left _ _ _ : _)
  obtain ⟨h, hh⟩ : ∃ h, geo (65536 * m) = 65536 * h := by
    have h := (dvd_geo 16 (65536 * m)).2 ⟨m, by norm_num⟩
    exact h
  have h1 : h ≡ 153803 * m [MOD 262144] := by
    rw [hh] at hm
    exact Nat.ModEq.mul_left_cancel' (c := 65536) (by decide) hm
  have h2 := mod34 (h1.mul hs)
  rw [hh, mul_assoc]
  refine h2.trans (mod34 ?_)
  have h3 : 153803 * stride 13070 ≡ 83889 [MOD 262144] := by decide +kernel
  have h4 := h3.mul_right m
  rwa [show 153803 * stride 13070 * m = 153803 * m * stride 13070 by ring] at h4

theorem lcgSeed_add (s d : Nat) : lcgSeed (s + d) ≡ lcgSeed s + 65536 * d [MOD lcgM] := by
  have h := streams_shifted s d 0
  simp only [Function.iterate_zero, id_eq, pow_zero, one_mul] at h
  rwa [mul_comm d 65536] at h

/-- **C92, the distance between two streams.** If the stream of the seed `s` arrives after `k` draws where the stream of the seed `t` starts, then `k` is a
multiple of 65536, and `t - s` is `83889 * k/65536` modulo `2^18`. -/
theorem overlap_only (s t k : Nat) (h : lcgNext^[k] (lcgSeed s) = lcgSeed t) :
    ∃ m, k = 65536 * m ∧ t ≡ s + 83889 * m [MOD 262144] := by
  have hl : ∀ s, lcgSeed s % 65536 = 13070 := by intro s; show (s % 4294967296 * 65536 + 13070) % 65536 = 13070; omega
  obtain ⟨m, rfl⟩ : 65536 ∣ k := by
    have := (low_bits_period 16 (by decide) k (lcgSeed s)).1 (by
      rw [h]
      exact (hl t).trans (hl s).symm)
    exact this
  refine ⟨m, rfl, ?_⟩
  have h1 := iterate_closed (65536 * m) (lcgSeed s)
  rw [h] at h1
  have h2 : lcgSeed t ≡ lcgSeed s + 65536 * (83889 * m) [MOD 17179869184] :=
    (h1.of_dvd (by decide)).trans ((geo_seed m s).add_left _)
  have h3 : 65536 * (t % 4294967296) ≡ 65536 * (s % 4294967296 + 83889 * m) [MOD 17179869184] := by
    refine Nat.ModEq.add_right_cancel' 13070 ?_
    simp only [lcgSeed] at h2
    rw [show 65536 * (t % 4294967296) = t % 4294967296 * 65536 by ring,
      show 65536 * (s % 4294967296 + 83889 * m) + 13070 = s % 4294967296 * 65536 + 13070 + 65536 * (83889 * m) by ring]
    exact h2
  have h4 : t % 4294967296 ≡ s % 4294967296 + 83889 * m [MOD 262144] :=
    Nat.ModEq.mul_left_cancel' (c := 65536) (by decide) h3
  have e : ∀ x, x % 4294967296 ≡ x [MOD 262144] := fun x => (Nat.mod_modEq x 4294967296).of_dvd (by decide)
  exact (e t).symm.trans (h4.trans ((e s).add_right _))

/-- Two seeds at a distance of at most 31, in either order: the one stream does not arrive at the start of the other within 470614016 draws. -/
theorem far_apart (s d k : Nat) (h1 : 1 ≤ d) (h2 : d ≤ 31) (hk : k < 470614016) :
    lcgNext^[k] (lcgSeed s) ≠ lcgSeed (s + d) ∧ lcgNext^[k] (lcgSeed (s + d)) ≠ lcgSeed s := by
  have inv : 172369 * 83889 ≡ 1 [MOD 262144] := by decide
  constructor
  · intro h
    obtain ⟨m, rfl, hm⟩ := overlap_only _ _ _ h
    have h3 : d ≡ 83889 * m [MOD 262144] := Nat.ModEq.add_left_cancel' s hm
    have h4 : 172369 * d ≡ m [MOD 262144] := by
      have h6 := inv.mul_right m
      rw [one_mul, mul_assoc] at h6
      exact (h3.mul_left 172369).trans h6
    have h5 : m < 7181 := by omega
    rw [Nat.ModEq, Nat.mod_eq_of_lt (show m < 262144 by omega)] at h4
    interval_cases d <;> omega
  · intro h
    obtain ⟨m, rfl, hm⟩ := overlap_only _ _ _ h
    have h3 : 0 ≡ d + 83889 * m [MOD 262144] := by
      rw [add_assoc] at hm
      exact Nat.ModEq.add_left_cancel' s hm
    have h4 : 0 ≡ 172369 * d + m [MOD 262144] := by
      have := h3.mul_left 172369
      rw [mul_zero, mul_add, ← mul_assoc] at this
      refine this.trans (Nat.ModEq.add_left _ ?_)
      have := inv.mul_right m
      rwa [one_mul] at this
    have h5 : m < 7181 := by omega
    simp only [Nat.ModEq, Nat.zero_mod] at h4
    interval_cases d <;> omega

/-- Streams of different seeds: if they meet, one passes through the start of the other. -/
theorem meet (x y : Rng) (hx : x < lcgM) (hy : y < lcgM) (i j : Nat) (h : lcgNext^[i] x = lcgNext^[j] y) :
    (i ≤ j ∧ lcgNext^[j - i] y = x) ∨ (j ≤ i ∧ lcgNext^[i - j] x = y) := by
  rcases le_total i j with hij | hij
  · left
    obtain ⟨d, rfl⟩ := Nat.exists_eq_add_of_le hij
    rw [Function.iterate_add_apply] at h
    exact ⟨hij, by rw [Nat.add_sub_cancel_left]; exact (iterate_inj i _ _ hx (iterate_lt d y hy) h).symm⟩
  · right
    obtain ⟨d, rfl⟩ := Nat.exists_eq_add_of_le hij
    rw [Function.iterate_add_apply] at h
    exact ⟨hij, by rw [Nat.add_sub_cancel_left]; exact iterate_inj j _ _ (iterate_lt d x hx) hy h⟩

variable {n : Nat}

/-- The number of a rank in the order in which seeds are given out: `seedOf root seed r` is `seed + turn root r` modulo `2^32`. -/
def turn (root r : Fin n) : Nat := if r = root then n else if r.val < root.val then r.val + 1 else r.val

theorem lcgSeed_mod (s : Nat) : lcgSeed (s % 4294967296) = lcgSeed s := by simp only [lcgSeed, Nat.mod_mod]

/-- **C92.** With at most 32 ranks, whatever the start seed, the first 470614016 states of the generators of two ranks have no state in common. -/
theorem streams_disjoint (root : Fin n) (hn : n ≤ 32) (seed : Nat) (r s : Fin n) (h : r ≠ s) (i j : Nat) (hi : i < 470614016) (hj : j < 470614016) :
    lcgNext^[i] (lcgSeed (seedOf root seed r)) ≠ lcgNext^[j] (lcgSeed (seedOf root seed s)) := by
  have hp : ∀ q : Fin n, lcgSeed (seedOf root seed q) = lcgSeed (seed + turn root q) := fun q => lcgSeed_mod _
  have hb : ∀ q : Fin n, 1 ≤ turn root q ∧ turn root q ≤ n := by
    intro q
    have h1 := q.isLt
    have h2 := root.isLt
    simp only [turn]
    split_ifs with e e'
    · omega
    · omega
    · have : q.val ≠ root.val := fun e' => e (Fin.ext e')
      omega
  have hne : turn root r ≠ turn root s := by
    intro e
    have := seeds_distinct root (by omega) seed r s h
    exact this (congrArg (fun a => (seed + a) % 4294967296) e)
  intro he
  rw [hp r, hp s] at he
  obtain ⟨a, ha⟩ : ∃ a, a = turn root r := ⟨_, rfl⟩
  obtain ⟨b, hb'⟩ : ∃ b, b = turn root s := ⟨_, rfl⟩
  have ha2 := hb r
  have hb2 := hb s
  rw [← ha] at he hne ha2
  rw [← hb'] at he hne hb2
  have key : ∀ a b k : Nat, 1 ≤ a → a ≤ 32 → 1 ≤ b → b ≤ 32 → a ≠ b → k < 470614016 → lcgNext^[k] (lcgSeed (seed + a)) ≠ lcgSeed (seed + b) := by
    intro a b k a1 a2 b1 b2 hab hk
    rcases lt_or_gt_of_ne hab with hl | hl
    · have := (far_apart (seed + a) (b - a) k (by omega) (by omega) hk).1
      rwa [show seed + a + (b - a) = seed + b by omega] at this
    · have := (far_apart (seed + b) (a - b) k (by omega) (by omega) hk).2
      rwa [show seed + b + (a - b) = seed + a by omega] at this
  rcases meet _ _ (lcgSeed_lt _) (lcgSeed_lt _) i j he with ⟨_, e⟩ | ⟨_, e⟩
  · exact key b a (j - i) hb2.1 (by omega) ha2.1 (by omega) hne.symm (by omega) e
  · exact key a b (i - j) ha2.1 (by omega) hb2.1 (by omega) hne (by omega) e

/-- The bound is sharp already for four seeds in a row. -/
theorem overlap_four : lcgNext^[470614016] (lcgSeed 12016) = lcgSeed 12013 := by
  rw [iterate_fast 29 470614016 (by decide) _ (lcgSeed_lt _)]
  decide +kernel

/-- **C92, negative.** With 74 ranks or more there are start seeds from which two ranks share all but the first 1638400 of their numbers: the rank with the seed
11988 arrives after 1638400 draws where the rank with the seed 12061 starts, and from then on both draw the same numbers. -/
theorem overlap_many (k : Nat) : lcgNext^[k + 1638400] (lcgSeed 11988) = lcgNext^[k] (lcgSeed 12061) := by
  rw [Function.iterate_add_apply, iterate_fast 21 1638400 (by decide) _ (lcgSeed_lt _)]
  congr 1

/-! ### The number of draws of a run -/

variable {F : Type} [Arith F]

/-- `g'` is reached from `g` by at least `lo` and at most `hi` draws. -/
def Btw (lo hi : Nat) (g g' : Rng) : Prop := ∃ k, lo ≤ k ∧ k ≤ hi ∧ g' = lcgNext^[k] g

theorem Btw.refl (g : Rng) : Btw 0 0 g g := ⟨0, le_rfl, le_rfl, rfl⟩
theorem Btw.trans {a b c d : Nat} {x y z : Rng} (h : Btw a b x y) (h' : Btw c d y z) : Btw (a + c) (b + d) x z := by
  obtain ⟨k, h1, h2, rfl⟩ := h
  obtain ⟨l, h3, h4, rfl⟩ := h'
  exact ⟨l + k, by omega, by omega, by rw [Function.iterate_add_apply]⟩
theorem Btw.one (g : Rng) : Btw 1 1 g (lcgNext g) := ⟨1, le_rfl, le_rfl, rfl⟩
theorem Btw.weak {a b c d : Nat} {x y : Rng} (h : Btw a b x y) (h1 : c ≤ a) (h2 : b ≤ d) : Btw c d x y := by
  obtain ⟨k, h3, h4, h⟩ := h
  exact ⟨k, by omega, by omega, h⟩

theorem btw_propose : ∀ (x s : List F) (g : Rng), x.length = s.length → Btw (2 * x.length) (2 * x.length) g (propose x s g).2 := by
  intro x
  induction x with
  | nil => intro s g _; exact .refl g
  | cons a x ih =>
    intro s g h
    cases s with
    | nil => simp at h
    | cons b s =>
      have h2 := ((Btw.one g).trans (.one _)).trans (ih s (lcgNext (lcgNext g)) (by simpa using h))
      exact h2.weak (by simp; omega) (by simp; omega)

theorem btw_accept (new old : F) (g : Rng) : Btw 0 1 g (accept new old g).2 := by
  unfold accept
  split
  · exact (Btw.refl g).weak le_rfl (by omega)
  · exact (Btw.one g).weak (by omega) le_rfl

theorem btw_step {u : User F} {sigma : List F} {N : Nat} (hs : sigma.length = N) (nline : Int) (data : List F) (beta : F) (c : Ch F)
    (hc : c.x.length = N) : Btw (2 * N) (2 * N + 1) c.g (mhStep u sigma nline data beta c).g := by
  have h1 := btw_propose c.x sigma c.g (hc.trans hs.symm)
  rw [hc] at h1
  unfold mhStep
  simp only
  split <;> exact h1.trans (btw_accept _ _ _)

theorem btw_iter {u : User F} {sigma : List F} {N : Nat} (hu : u.Wf N) (hs : sigma.length = N) (nline : Int) (data : List F) (beta : F) (k : Nat) (c : Ch F)
    (hc : c.x.length = N) : Btw (k * (2 * N)) (k * (2 * N + 1)) c.g (mhIter u sigma nline data beta k c).g := by
  induction k generalizing c with
  | zero => exact (Btw.refl _).weak (by omega) (by omega)
  | succ k ih =>
    have h := (btw_step (u := u) hs nline data beta c hc).trans (ih _ (mhStep_length _ _ _ _ _ _ hu hs c hc))
    exact h.weak (by have := Nat.add_one_mul k (2 * N); omega) (by have := Nat.add_one_mul k (2 * N + 1); omega)

theorem btw_tune {cfg : Cfg F} (hu : cfg.user.Wf cfg.nParm) (ht : 1 ≤ cfg.nIterInTune) (rk : Fin n) (grid : List (Fin n → F)) :
    ∀ (k j : Nat) (st st' : G n F) (ars ars' : List (Fin n → F)), seqTuneParms cfg rk grid k j st ars = .ok (st', ars') →
    st.Ok cfg → ∀ r, Btw 0 (k * (cfg.nIterInTune.toNat * (2 * cfg.nParm + 1))) (st.g r) (st'.g r) := by
  intro k
  induction k with
  | zero => intro j st st' ars ars' h _ r; cases h; exact (Btw.refl _).weak le_rfl (by omega)
  | succ k ih =>
    intro j st st' ars ars' h hok r
    simp only [seqTuneParms, exc_bind, allOk_ok] at h
    obtain ⟨rows, h1, a, h2, h3⟩ := h
    have hl : ∀ r, (rows r).length = cfg.nParm := fun r => by rw [trialRows_length h1 r, hok.sig rk]
    have h4 := ih (j + 1) _ st' _ ars' h3 ⟨hok.acc, hok.x, hok.sig, hl⟩ r
    have hit := iterBatchTune_eq cfg.nParm cfg.user (rows r) st.nline st.data (st.beta rk) hu (hl r)
      cfg.nIterInTune (by omega) (st.x rk) (st.lp rk) (st.g r) (hok.x rk)
    rw [h2 r, Except.ok.injEq] at hit
    have h5 : Btw 0 (cfg.nIterInTune.toNat * (2 * cfg.nParm + 1)) (st.g r) (a r).2 := by
      rw [show (a r).2 = _ from congrArg Prod.snd hit]
      exact (btw_iter hu (hl r) st.nline st.data (st.beta rk) _ ⟨st.x rk, st.lp rk, 0, 0, st.g r⟩ (hok.x rk)).weak (by omega) le_rfl
    exact (h5.trans h4).weak le_rfl (by have := Nat.add_one_mul k (cfg.nIterInTune.toNat * (2 * cfg.nParm + 1)); omega)

theorem btw_decide {cfg : Cfg F} {ars : List (Fin n → F)} {g : Rng} {d : (Int × Int) × Rng} (h : decideSigma cfg ars g = .ok d) :
    Btw 0 1 g d.2 := by
  simp only [decideSigma, exc_bind] at h
  obtain ⟨p, _, row, _, c1, _, c2, _, h⟩ := h
  have one : Btw 0 1 g (drand48 (F := F) g).2 := (Btw.one g).weak (by omega) le_rfl
  have zero : Btw 0 1 g g := (Btw.refl g).weak le_rfl (by omega)
  split at h
  · split at h
    · split at h <;> cases h <;> exact one
    · cases h; exact zero
  · split at h
    · cases h; exact zero
    · split at h <;> cases h <;> exact one

theorem btw_update {root r : Fin n} {g : Fin n → Rng} {v : Rng} {b : Nat} (hv : Btw 0 b (g root) v) : Btw 0 b (g r) (Function.update g root v r) := by
  by_cases hr : r = root
  · subst hr; rw [Function.update_self]; exact hv
  · rw [Function.update_of_ne hr]; exact (Btw.refl _).weak le_rfl (by omega)

theorem btw_swap {cfg : Cfg F} {root : Fin n} {w w' : W n F} {ty ty' : Tally n F} (h : seqSwap cfg root w ty = .ok (w', ty')) (r : Fin n) :
    Btw 0 3 (w.st.g r) (w'.st.g r) := by
  simp only [seqSwap, exc_bind, Except.ok.injEq, Prod.mk.injEq] at h
  obtain ⟨i, hi, j, hj, rfl, rfl⟩ := h
  refine btw_update ?_
  have p1 : Btw 0 1 (w.st.g root) (i4Unif0a F ((n : Int) - 1) (w.st.g root)).2 := (Btw.one _).weak (by omega) le_rfl
  have p2 : ∀ (m k : Int) (g : Rng), Btw 0 1 g (pickJ F n m k g).2 := by
    intro m k g
    unfold pickJ
    split
    · exact (Btw.refl g).weak le_rfl (by omega)
    · split
      · exact (Btw.one g).weak (by omega) le_rfl
      · exact (Btw.refl g).weak le_rfl (by omega)
  have p3 : ∀ (a b c d : F) (g : Rng), Btw 0 1 g (swapAccept a b c d g).2 := by
    intro a b c d g
    unfold swapAccept
    simp only
    split
    · exact (Btw.refl g).weak le_rfl (by omega)
    · exact (Btw.one g).weak (by omega) le_rfl
  exact (p1.trans (p2 _ _ _)).trans (p3 _ _ _ _ _)

theorem btw_swaps {cfg : Cfg F} {root : Fin n} (r : Fin n) : ∀ (k : Nat) (w w' : W n F) (ty ty' : Tally n F),
    seqSwaps cfg root k w ty = .ok (w', ty') → Btw 0 (k * 3) (w.st.g r) (w'.st.g r) := by
  intro k
  induction k with
  | zero => intro w w' ty ty' h; cases h; exact (Btw.refl _).weak le_rfl (by omega)
  | succ k ih =>
    intro w w' ty ty' h
    simp only [seqSwaps, exc_bind] at h
    obtain ⟨⟨w1, ty1⟩, h1, h2⟩ := h
    exact ((btw_swap h1 r).trans (ih w1 w' ty1 ty' h2)).weak le_rfl (by omega)

theorem btw_nextBatch {cfg : Cfg F} {nStack i : Int} {g : Rng} {b : Int × Int × Rng} (h : nextBatch cfg nStack i g = .ok b) : Btw 0 1 g b.2.2 := by
  simp only [nextBatch, exc_bind] at h
  obtain ⟨_, _, _, _, nb, _, nx, _, h⟩ := h
  split at h <;> cases h <;> exact (Btw.one _).weak (by omega) le_rfl

theorem btw_stackLoop {cfg : Cfg F} (hu : cfg.user.Wf cfg.nParm) {root : Fin n} {nStack : Int} (r : Fin n) :
    ∀ (fuel : Nat) (i : Int) (w w' : W n F) (ty ty' : Tally n F), i ≤ nStack → w.st.Ok cfg →
    seqStackLoop cfg root nStack fuel i w ty = .ok (w', ty') →
    Btw ((nStack - i).toNat * (2 * cfg.nParm)) ((nStack - i).toNat * (2 * cfg.nParm + 2 + 3 * cfg.nSwap.toNat)) (w.st.g r) (w'.st.g r) := by
  intro fuel
  induction fuel with
  | zero =>
    intro i w w' ty ty' hi hok h
    simp only [seqStackLoop] at h
    split at h
    · cases h
    · cases h
      have : (nStack - i).toNat = 0 := by omega
      rw [this]
      exact (Btw.refl _).weak (by omega) (by omega)
  | succ fuel ih =>
    intro i w w' ty ty' hi hok h
    simp only [seqStackLoop] at h
    split at h
    · simp only [exc_bind] at h
      obtain ⟨b, hb, w1, h1, ⟨w2, ty2⟩, h2, h3⟩ := h
      obtain ⟨hb1, hb2⟩ := nextBatch_next hb
      have hok0 := hok.setG root b.2.2
      have hok1 := (seqBatch_ok cfg hu b.1 _ w1 h1 hok0).1
      obtain ⟨hc, _, _⟩ := seqBatch_chain hu h1 hok0
      have hok2 : w2.st.Ok cfg := (seqSwaps_steps cfg root _ w1 w2 ty ty2 h2).inv (P := fun w => w.st.Ok cfg)
        (fun _ _ hp h => h.ok hu hp) hok1
      have a1 : Btw 0 1 (w.st.g r) (Function.update w.st.g root b.2.2 r) := btw_update (btw_nextBatch hb)
      have a2 : Btw (b.1.toNat * (2 * cfg.nParm)) (b.1.toNat * (2 * cfg.nParm + 1)) (Function.update w.st.g root b.2.2 r) (w1.st.g r) := by
        rw [show w1.st.g r = _ from congrArg Ch.g (hc r).2.1]
        exact btw_iter hu (hok0.cur r) _ _ _ _ _ (hok0.x r)
      have a3 := btw_swaps r _ w1 w2 ty ty2 h2
      have a4 := ih b.2.1 w2 w' ty2 ty' hb2 hok2 h3
      have hp := (hc root).1
      have e : (nStack - i).toNat = b.1.toNat + (nStack - b.2.1).toNat := by omega
      have e1 : 1 ≤ b.1.toNat := by omega
      refine (((a1.trans a2).trans a3).trans a4).weak ?_ ?_
      · rw [e, Nat.add_mul]; omega
      · rw [e, Nat.add_mul]
        have : 1 + cfg.nSwap.toNat * 3 ≤ b.1.toNat * (1 + 3 * cfg.nSwap.toNat) := by nlinarith
        have e2 : b.1.toNat * (2 * cfg.nParm + 2 + 3 * cfg.nSwap.toNat) = b.1.toNat * (2 * cfg.nParm + 1) + b.1.toNat * (1 + 3 * cfg.nSwap.toNat) := by ring
        omega
    · cases h
      have : (nStack - i).toNat = 0 := by omega
      rw [this]
      exact (Btw.refl _).weak (by omega) (by omega)

theorem btw_stack {cfg : Cfg F} (hu : cfg.user.Wf cfg.nParm) {root : Fin n} {nStack : Int} (h0 : 0 ≤ nStack) {w w' : W n F} (hok : w.st.Ok cfg)
    (h : seqStack cfg root nStack w = .ok w') (r : Fin n) :
    Btw (nStack.toNat * (2 * cfg.nParm)) (nStack.toNat * (2 * cfg.nParm + 2 + 3 * cfg.nSwap.toNat)) (w.st.g r) (w'.st.g r) := by
  simp only [seqStack, exc_bind] at h
  obtain ⟨_, _, ⟨w1, ty1⟩, h1, h2⟩ := h
  have k := btw_stackLoop hu r _ 0 _ w1 _ ty1 h0 (by exact hok) h1
  rw [sub_zero] at k
  split at h2
  · cases h2; exact k
  · cases h2; exact k

/-- Draws made in tuning the widths of a chain, at most. -/
def tuneDraws (cfg : Cfg F) : Nat := cfg.nParm * (cfg.nIterInTune.toNat * (2 * cfg.nParm + 1)) + 1

theorem btw_tuneRanks {cfg : Cfg F} (hu : cfg.user.Wf cfg.nParm) (ht : 1 ≤ cfg.nIterInTune) {root : Fin n} {fl : Fin n → Int} (r : Fin n) :
    ∀ (l : List (Fin n)) (w w' : W n F), w.st.Ok cfg → seqTuneRanks cfg root fl l w = .ok w' → Btw 0 (l.length * tuneDraws cfg) (w.st.g r) (w'.st.g r) := by
  intro l
  induction l with
  | nil => intro w w' _ h; cases h; exact (Btw.refl _).weak le_rfl (by omega)
  | cons rk l ih =>
    intro w w' hok h
    simp only [seqTuneRanks, exc_bind] at h
    obtain ⟨w1, h1, h2⟩ := h
    have key : Btw 0 (tuneDraws cfg) (w.st.g r) (w1.st.g r) ∧ w1.st.Ok cfg := by
      split at h1
      · refine ⟨?_, (tuneRank_runs cfg hu root rk w w1 h1 hok).1⟩
        simp only [seqTuneRank, exc_bind, Except.ok.injEq] at h1
        obtain ⟨grid, hgrid, ⟨st1, ars⟩, h3, d, hdec, sg, hsg, rfl⟩ := h1
        have h4 := btw_tune hu ht rk grid cfg.nParm 0 w.st st1 [] ars h3 hok r
        simp only [W.push]
        exact h4.trans (btw_update (g := st1.g) (btw_decide hdec))
      · cases h1; exact ⟨(Btw.refl _).weak le_rfl (by omega), hok⟩
    exact (key.1.trans (ih w1 w' key.2 h2)).weak le_rfl (by have := Nat.add_one_mul l.length (tuneDraws cfg); rw [List.length_cons]; omega)

/-- The number of stacks of `m` iterations needed for `k` iterations. -/
def stackCount (k m : Int) : Nat := ((k + m - 1) / m).toNat

theorem btw_flow {cfg : Cfg F} (hu : cfg.user.Wf cfg.nParm) (ht : 1 ≤ cfg.nIterInTune) {root : Fin n} (r : Fin n) :
    ∀ (fuel : Nat) (nStack i : Int) (w w' : W n F), 1 ≤ nStack → i ≤ cfg.nIter → w.st.Ok cfg → seqFlowLoop cfg root fuel nStack i w = .ok w' →
    Btw ((cfg.nIter - i).toNat * (2 * cfg.nParm))
      ((cfg.nIter - i).toNat * (2 * cfg.nParm + 2 + 3 * cfg.nSwap.toNat) + stackCount (cfg.nIter - i) nStack * (n * tuneDraws cfg)) (w.st.g r) (w'.st.g r) := by
  intro fuel
  induction fuel with
  | zero =>
    intro nStack i w w' hn hi hok h
    simp only [seqFlowLoop] at h
    split at h
    · cases h
    · cases h
      have : (cfg.nIter - i).toNat = 0 := by omega
      rw [this]
      exact (Btw.refl _).weak (by omega) (by omega)
  | succ fuel ih =>
    intro nStack i w w' hn hi hok h
    simp only [seqFlowLoop] at h
    split at h
    · rename_i hlt
      simp only [exc_bind] at h
      obtain ⟨nx, hnx, w1, h1, w2, h2, h3⟩ := h
      have hnx' : nx = i + nStack := by
        unfold i32 at hnx
        split at hnx
        · cases hnx; rfl
        · cases hnx
      obtain ⟨m, hm⟩ : ∃ m, m = (if cfg.nIter < nx then cfg.nIter - i else nStack) := ⟨_, rfl⟩
      obtain ⟨x, hx⟩ : ∃ x, x = (if cfg.nIter < nx then cfg.nIter else nx) := ⟨_, rfl⟩
      rw [← hm] at h1 h2 h3
      rw [← hx] at h2 h3
      have hxm : x = i + m := by rw [hx, hm]; split <;> omega
      have hm1 : 1 ≤ m := by rw [hm]; split <;> omega
      have hxi : x ≤ cfg.nIter := by rw [hx]; split <;> omega
      have hok0 : (seqWidths w).st.Ok cfg := ⟨hok.acc, hok.x, hok.sig, hok.sig⟩
      have hok1 := (seqStack_hist hu (by omega) hok0 h1)
      obtain ⟨_, _, _, _, _, _, hok1, _⟩ := hok1
      have a1 := btw_stack hu (by omega) hok0 h1 r
      have a2 : Btw 0 (n * tuneDraws cfg) (w1.st.g r) (w2.st.g r) ∧ w2.st.Ok cfg := by
        by_cases hw : inTuneWindow cfg x = true
        · rw [if_pos hw] at h2
          have := btw_tuneRanks hu ht r _ w1 w2 hok1 h2
          rw [List.length_finRange] at this
          exact ⟨this, seqTuneRanks_ok hu h2 hok1⟩
        · rw [if_neg hw] at h2
          cases h2
          exact ⟨(Btw.refl _).weak le_rfl (by omega), hok1⟩
      have a3 := ih m x w2 w' hm1 hxi a2.2 h3
      have e : (cfg.nIter - i).toNat = m.toNat + (cfg.nIter - x).toNat := by omega
      have e2 : stackCount (cfg.nIter - x) m + 1 ≤ stackCount (cfg.nIter - i) nStack := by
        unfold stackCount
        by_cases hc : cfg.nIter < nx
        · rw [if_pos hc] at hm hx
          have z : (cfg.nIter - x + m - 1) / m = 0 := Int.ediv_eq_zero_of_lt (by omega) (by omega)
          rw [z]
          have : 1 ≤ (cfg.nIter - i + nStack - 1) / nStack := by
            rw [Int.le_ediv_iff_mul_le (by omega)]; omega
          omega
        · rw [if_neg hc] at hm hx
          subst hm
          have z : (cfg.nIter - i + m - 1) / m = (cfg.nIter - x + m - 1) / m + 1 := by
            rw [show cfg.nIter - i + m - 1 = (cfg.nIter - x + m - 1) + 1 * m by omega, Int.add_mul_ediv_right _ _ (by omega)]
          have z2 : 0 ≤ (cfg.nIter - x + m - 1) / m := Int.ediv_nonneg (by omega) (by omega)
          omega
      have a0 : (seqWidths w).st.g r = w.st.g r := rfl
      rw [a0] at a1
      refine ((a1.trans a2.1).trans a3).weak ?_ ?_
      · rw [e, Nat.add_mul]; omega
      · rw [e, Nat.add_mul]
        have := Nat.mul_le_mul_right (n * tuneDraws cfg) e2
        rw [Nat.add_mul, one_mul] at this
        omega
    · cases h
      have : (cfg.nIter - i).toNat = 0 := by omega
      rw [this]
      exact (Btw.refl _).weak (by omega) (by omega)

/-- The most numbers that a rank draws after its start point: for every iteration two normal numbers' worth per parameter and one for the test, one for the batch, three for each swap;
and the tuning runs of every chain after every stack. -/
def maxDraws (n : Nat) (cfg : Cfg F) : Nat :=
  cfg.nIter.toNat * (2 * cfg.nParm + 2 + 3 * cfg.nSwap.toNat) + stackCount cfg.nIter cfg.nStack * (n * tuneDraws cfg)

/-- **C92, number of draws.** At the end of a run each rank has drawn at least `2 N_parm` numbers per iteration and at most `K0 + maxDraws`, where `K0` bounds the draws of the start points. -/
theorem run_draws (cfg : Cfg F) (file : DataFile F) (hv : Valid n cfg file) (clock : Nat) (root : Fin n) (h0 : 0 ≤ cfg.nIter) (K0 : Nat)
    (hinit : ∀ s, ∃ k ≤ K0, (cfg.user.initParm s).2 = lcgNext^[k] (lcgSeed s)) (w : W n F) (h : seqMain cfg file clock root = .ok w) (r : Fin n) :
    ∃ k, cfg.nIter.toNat * (2 * cfg.nParm) ≤ k ∧ k ≤ K0 + maxDraws n cfg ∧
      w.st.g r = lcgNext^[k] (lcgSeed (seedOf root (startSeed cfg clock) r)) := by
  simp only [seqMain, exc_bind] at h
  obtain ⟨w0, h1, h2⟩ := h
  have a1 := btw_flow hv.user hv.inTune r _ _ 0 w0 w hv.stack h0 (seqInit_ok hv.user h1) h2
  rw [sub_zero] at a1
  have a2 : Btw 0 K0 (lcgSeed (seedOf root (startSeed cfg clock) r)) (w0.st.g r) := by
    simp only [seqInit, exc_bind, Except.ok.injEq] at h1
    obtain ⟨_, _, data, hd, _, _, _, _, _, _, beta, hb, rfl⟩ := h1
    obtain ⟨k, hk, e⟩ := hinit (seedOf root (startSeed cfg clock) r)
    exact ⟨k, by omega, hk, e⟩
  obtain ⟨k, h3, h4, h5⟩ := a2.trans a1
  exact ⟨k, by omega, h4, h5⟩

/-- **C92, whole runs.** With at most 32 ranks and fewer than 470614016 draws by the bound above, in every complete execution, whatever the start seed and the clock, no two ranks
have ever been in the same state of the generator: `k r` numbers have been drawn by rank `r`, and the states passed by different ranks are all different. -/
theorem run_disjoint_partial [LawfulDraws F] (cfg : Cfg F) (file : DataFile F) (hv : Valid n cfg file) (clock : Nat) (root : Fin n) (h0 : 0 ≤ cfg.nIter) (K0 : Nat)
    (hinit : ∀ s, ∃ k ≤ K0, (cfg.user.initParm s).2 = lcgNext^[k] (lcgSeed s)) (hn : n ≤ 32) (hd : K0 + maxDraws n cfg < 470614016)
    (v : List (Label n)) (t : Sys n (Msg F) (Line F) (RSt n F)) (h : (initSys cfg file clock root).exec v = some t) (hdone : t.AllDone) :
    ∃ k : Fin n → Nat, (∀ r, ∃ s, t.procs r = .ret s ∧ s.loc.g = lcgNext^[k r] (lcgSeed (seedOf root (startSeed cfg clock) r))) ∧
      ∀ r s, r ≠ s → ∀ i ≤ k r, ∀ j ≤ k s,
        lcgNext^[i] (lcgSeed (seedOf root (startSeed cfg clock) r)) ≠ lcgNext^[j] (lcgSeed (seedOf root (startSeed cfg clock) s)) := by
  obtain ⟨w, len, hw, hall⟩ := distributed_eq_sequential cfg file hv clock root
  choose k hk using run_draws cfg file hv clock root h0 K0 hinit w hw
  refine ⟨k, fun r => ⟨_, ((hall v t h).2 hdone).1 r, (hk r).2.2⟩, fun r s hrs i hi j hj => ?_⟩
  have h1 := (hk r).2.1
  have h2 := (hk s).2.1
  exact streams_disjoint root hn _ r s hrs i j (by omega) (by omega)

/-- **C92, negative.** With 75 ranks or more and `init_rand_seed: 11987`, in every complete execution of a run of at least `1638400 / (2 N_parm)` iterations rank 1 has
come to the state with which rank 74 started, and from then on it has drawn the numbers of rank 74 again. -/
theorem run_overlap [LawfulDraws F] (cfg : Cfg F) (file : DataFile F) (hv : Valid n cfg file) (clock : Nat) (h75 : 75 ≤ n) (hseed : cfg.initSeed = 11987)
    (hlong : 1638400 ≤ cfg.nIter.toNat * (2 * cfg.nParm))
    (hinit : ∀ s, Drawn (lcgSeed s) (cfg.user.initParm s).2) 
    (v : List (Label n)) (t : Sys n (Msg F) (Line F) (RSt n F)) (h : (initSys cfg file clock ⟨0, by omega⟩).exec v = some t) (hdone : t.AllDone) :
    ∃ (k1 k74 : Nat) (s1 s74 : RSt n F), t.procs ⟨1, by omega⟩ = .ret s1 ∧ t.procs ⟨74, by omega⟩ = .ret s74 ∧
      s1.loc.g = lcgNext^[k1] (lcgSeed 11988) ∧ s74.loc.g = lcgNext^[k74] (lcgSeed 12061) ∧ 1638400 ≤ k1 ∧
      ∀ i, lcgNext^[i + 1638400] (lcgSeed 11988) = lcgNext^[i] (lcgSeed 12061) := by
  obtain ⟨w, len, hw, hall⟩ := distributed_eq_sequential cfg file hv clock ⟨0, by omega⟩
  have h0 : 0 ≤ cfg.nIter := by
    by_contra hc
    rw [Int.toNat_of_nonpos (by omega), zero_mul] at hlong
    omega
  have hss : startSeed cfg clock = 11987 := by simp [startSeed, hseed]
  have key : ∀ r : Fin n, ∃ k, cfg.nIter.toNat * (2 * cfg.nParm) ≤ k ∧ w.st.g r = lcgNext^[k] (lcgSeed (seedOf ⟨0, by omega⟩ 11987 r)) := by
    intro r
    have hw' := hw
    simp only [seqMain, exc_bind] at hw'
    obtain ⟨w0, h1, h2⟩ := hw'
    have a1 := btw_flow hv.user hv.inTune r _ _ 0 w0 w hv.stack h0 (seqInit_ok hv.user h1) h2
    rw [sub_zero] at a1
    obtain ⟨k, h3, _, h5⟩ := a1
    simp only [seqInit, exc_bind, Except.ok.injEq] at h1
    obtain ⟨_, _, data, hd, _, _, _, _, _, _, beta, hb, rfl⟩ := h1
    obtain ⟨j, hj⟩ := hinit (seedOf ⟨0, by omega⟩ (startSeed cfg clock) r)
    refine ⟨k + j, by omega, ?_⟩
    rw [Function.iterate_add_apply, ← hss, ← hj]
    exact h5
  obtain ⟨k1, a1, a2⟩ := key ⟨1, by omega⟩
  obtain ⟨k74, b1, b2⟩ := key ⟨74, by omega⟩
  have e1 : seedOf (⟨0, by omega⟩ : Fin n) 11987 ⟨1, by omega⟩ = 11988 := by simp [seedOf]
  have e74 : seedOf (⟨0, by omega⟩ : Fin n) 11987 ⟨74, by omega⟩ = 12061 := by simp [seedOf]
  rw [e1] at a2
  rw [e74] at b2
  exact ⟨k1, k74, _, _, ((hall v t h).2 hdone).1 _, ((hall v t h).2 hdone).1 _, a2, b2, by omega, overlap_many⟩

/-- The numbers of the sample `input.ini` are far below the limit for up to 32 ranks. -/
example (cfg : Cfg F) (h1 : cfg.nParm = 3) (h2 : cfg.nIter = 400000) (h3 : cfg.nStack = 5000) (h4 : cfg.nSwap = 1) (h5 : cfg.nIterInTune = 1000) :
    3 + maxDraws 32 cfg < 470614016 := by
  simp [maxDraws, stackCount, tuneDraws, h1, h2, h3, h4, h5]

/-- The demo run meets the hypotheses of `run_disjoint_partial`. -/
example (v : List (Label 3)) (t : Sys 3 (Msg ℝ) (Line ℝ) (RSt 3 ℝ)) (h : (initSys demoCfg demoFile 0 0).exec v = some t) (hd : t.AllDone) :
    ∃ k : Fin 3 → Nat, (∀ r, ∃ s, t.procs r = .ret s ∧ s.loc.g = lcgNext^[k r] (lcgSeed (seedOf 0 (startSeed demoCfg 0) r))) ∧
      ∀ r s, r ≠ s → ∀ i ≤ k r, ∀ j ≤ k s,
        lcgNext^[i] (lcgSeed (seedOf 0 (startSeed demoCfg 0) r)) ≠ lcgNext^[j] (lcgSeed (seedOf 0 (startSeed demoCfg 0) s)) :=
  run_disjoint_partial demoCfg demoFile demo_valid 0 0 (by simp [demoCfg]) 2 (fun s => by
    obtain ⟨k, _, h2, e⟩ : Btw 2 2 (lcgSeed s) (demoCfg.user.initParm s).2 := (Btw.one _).trans (.one _)
    exact ⟨k, h2, e⟩) (by decide)
    (by simp [maxDraws, stackCount, tuneDraws, demoCfg]) v t h hd

/-- The demo with 80 ranks, the seed 11987 and 500000 iterations: ranks 1 and 74 draw the same numbers. -/
example (v : List (Label 80)) (t : Sys 80 (Msg ℝ) (Line ℝ) (RSt 80 ℝ))
    (h : (initSys { demoCfg with initSeed := 11987, nIter := 500000, betas := List.replicate 80 1 } demoFile 0 0).exec v = some t) (hd : t.AllDone) :
    ∃ (k1 k74 : Nat) (s1 s74 : RSt 80 ℝ), t.procs 1 = .ret s1 ∧ t.procs 74 = .ret s74 ∧
      s1.loc.g = lcgNext^[k1] (lcgSeed 11988) ∧ s74.loc.g = lcgNext^[k74] (lcgSeed 12061) ∧ 1638400 ≤ k1 ∧
      ∀ i, lcgNext^[i + 1638400] (lcgSeed 11988) = lcgNext^[i] (lcgSeed 12061) := by
  have hv : Valid 80 { demoCfg with initSeed := 11987, nIter := 500000, betas := List.replicate 80 1 } demoFile :=
    { demo_valid with ranks := by decide, ranksInt := by decide, betas := by simp, iterInt := .of_sum (by simp [demoCfg]) }
  exact run_overlap _ demoFile hv 0 (by decide) rfl (by simp [demoCfg]) (fun s => (Drawn.one _).trans (.one _)) v t h hd

end NiiC
