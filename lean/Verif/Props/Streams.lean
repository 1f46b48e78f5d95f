import Verif.Props.Accept
import Verif.Props.Demo
import Verif.Props.State
import Verif.Seq.Counts

/-!
# Random streams of the ranks: C42, C43, C63
-/

set_option linter.unusedSectionVars false
set_option linter.unusedSimpArgs false

namespace NiiC

open Spec

variable {n : Nat} {F : Type} [Arith F]

/-! ## C42 -/

theorem lcgSeed_lt (s : Nat) : lcgSeed s < lcgM := by
  have := Nat.mod_lt s (by decide : 0 < 4294967296)
  have h : (s % 4294967296) * 65536 + 0x330E < 281474976710656 := by omega
  exact h

theorem iterate_lt (k : Nat) (x : Rng) (h : x < lcgM) : lcgNext^[k] x < lcgM := by
  cases k with
  | zero => exact h
  | succ k => rw [Function.iterate_succ_apply']; exact lcgNext_lt _

theorem iterate_inj (k : Nat) (x y : Rng) (hx : x < lcgM) (hy : y < lcgM) (h : lcgNext^[k] x = lcgNext^[k] y) : x = y := by
  induction k with
  | zero => exact h
  | succ k ih =>
    rw [Function.iterate_succ_apply', Function.iterate_succ_apply'] at h
    exact ih (lcgNext_inj (iterate_lt k x hx) (iterate_lt k y hy) h)

/-- **C42, seeds.** For at most 2^32 ranks, different ranks get different seeds, whatever the start seed. -/
theorem seeds_distinct (root : Fin n) (hn : n ≤ 4294967296) (seed : Nat) (r s : Fin n) (h : r ≠ s) :
    seedOf root seed r ≠ seedOf root seed s := by
  have hv : r.val ≠ s.val := fun e => h (Fin.ext e)
  have hr := r.isLt
  have hs := s.isLt
  have hrt := root.isLt
  intro he
  simp only [seedOf] at he
  have e1 : ∀ q : Fin n, q = root ↔ q.val = root.val := fun q => ⟨fun e => e ▸ rfl, Fin.ext⟩
  simp only [e1] at he
  have key : ∀ a b : Nat, 1 ≤ a → a ≤ n → 1 ≤ b → b ≤ n → (seed + a) % 4294967296 = (seed + b) % 4294967296 → a = b := by
    intro a b ha ha' hb hb' hab
    omega
  have := key _ _ (by split_ifs <;> omega) (by split_ifs <;> omega) (by split_ifs <;> omega) (by split_ifs <;> omega) he
  split_ifs at this <;> omega

/-- **C42, streams.** After any number of draws two ranks that have made the same number of draws are in different generator states. -/
theorem streams_distinct (root : Fin n) (hn : n ≤ 4294967296) (seed : Nat) (r s : Fin n) (h : r ≠ s) (k : Nat) :
    lcgNext^[k] (lcgSeed (seedOf root seed r)) ≠ lcgNext^[k] (lcgSeed (seedOf root seed s)) := by
  intro he
  have h1 := iterate_inj k _ _ (lcgSeed_lt _) (lcgSeed_lt _) he
  have h2 : seedOf root seed r = seedOf root seed s := by
    have a1 : seedOf root seed r < 4294967296 := Nat.mod_lt _ (by decide)
    have a2 : seedOf root seed s < 4294967296 := Nat.mod_lt _ (by decide)
    have h3 : (seedOf root seed r % 4294967296) * 65536 + 0x330E = (seedOf root seed s % 4294967296) * 65536 + 0x330E := h1
    omega
  exact seeds_distinct root hn seed r s h h2

/-- **C42, range.** Every value of the generator is in [0, 1). -/
theorem draws_in_unit (g : Rng) : 0 ≤ (drand48 (F := ℝ) g).1 ∧ (drand48 (F := ℝ) g).1 < 1 := drand48_real_mem g

/-! ### Whole runs -/

/-- `g'` is reached from `g` by drawing. -/
def Drawn (g g' : Rng) : Prop := ∃ k, g' = lcgNext^[k] g

theorem Drawn.refl (g : Rng) : Drawn g g := ⟨0, rfl⟩
theorem Drawn.trans {a b c : Rng} (h : Drawn a b) (h' : Drawn b c) : Drawn a c := by
  obtain ⟨k, rfl⟩ := h
  obtain ⟨l, rfl⟩ := h'
  exact ⟨l + k, by rw [Function.iterate_add_apply]⟩
theorem Drawn.one (g : Rng) : Drawn g (lcgNext g) := ⟨1, rfl⟩

theorem drawn_propose : ∀ (x s : List F) (g : Rng), Drawn g (propose x s g).2 := by
  intro x
  induction x with
  | nil => intro s g; exact .refl g
  | cons a x ih =>
    intro s g
    cases s with
    | nil => exact .refl g
    | cons b s => exact ((Drawn.one g).trans (.one _)).trans (ih s _)

theorem drawn_step (u : User F) (sigma : List F) (nline : Int) (data : List F) (beta : F) (c : Ch F) :
    Drawn c.g (mhStep u sigma nline data beta c).g := by
  have h1 := drawn_propose c.x sigma c.g
  have h2 : ∀ (new old : F) (g : Rng), Drawn g (accept new old g).2 := by
    intro new old g
    unfold accept
    split
    · exact .refl g
    · exact .one g
  unfold mhStep
  simp only
  split <;> exact h1.trans (h2 _ _ _)

theorem drawn_iter (u : User F) (sigma : List F) (nline : Int) (data : List F) (beta : F) (k : Nat) (c : Ch F) :
    Drawn c.g (mhIter u sigma nline data beta k c).g := by
  induction k generalizing c with
  | zero => exact .refl _
  | succ k ih => exact (drawn_step u sigma nline data beta c).trans (ih _)

theorem drawn_tune {cfg : Cfg F} (hu : cfg.user.Wf cfg.nParm) (ht : 1 ≤ cfg.nIterInTune) (rk : Fin n) (grid : List (Fin n → F)) :
    ∀ (k j : Nat) (st st' : G n F) (ars ars' : List (Fin n → F)), seqTuneParms cfg rk grid k j st ars = .ok (st', ars') →
    st.Ok cfg → ∀ r, Drawn (st.g r) (st'.g r) := by
  intro k
  induction k with
  | zero => intro j st st' ars ars' h _ r; cases h; exact .refl _
  | succ k ih =>
    intro j st st' ars ars' h hok r
    simp only [seqTuneParms, exc_bind, allOk_ok] at h
    obtain ⟨rows, h1, a, h2, h3⟩ := h
    have hl : ∀ r, (rows r).length = cfg.nParm := fun r => by rw [trialRows_length h1 r, hok.sig rk]
    have h4 := ih (j + 1) _ st' _ ars' h3 ⟨hok.acc, hok.x, hok.sig, hl⟩ r
    refine Drawn.trans ?_ h4
    have hit := iterBatchTune_eq cfg.nParm cfg.user (rows r) st.nline st.data (st.beta rk) hu (hl r)
      cfg.nIterInTune (by omega) (st.x rk) (st.lp rk) (st.g r) (hok.x rk)
    rw [h2 r, Except.ok.injEq] at hit
    show Drawn (st.g r) (a r).2
    rw [show (a r).2 = _ from congrArg Prod.snd hit]
    exact drawn_iter _ _ _ _ _ _ _

theorem drawn_decide {cfg : Cfg F} {ars : List (Fin n → F)} {g : Rng} {d : (Int × Int) × Rng} (h : decideSigma cfg ars g = .ok d) :
    Drawn g d.2 := by
  simp only [decideSigma, exc_bind] at h
  obtain ⟨p, _, row, _, c1, _, c2, _, h⟩ := h
  have one : Drawn g (drand48 (F := F) g).2 := .one g
  split at h
  · split at h
    · split at h <;> cases h <;> exact one
    · cases h; exact .refl g
  · split at h
    · cases h; exact .refl g
    · split at h <;> cases h <;> exact one

/-- Every step advances the generators by drawing. -/
theorem Step.drawn {cfg : Cfg F} (hu : cfg.user.Wf cfg.nParm) (ht : 1 ≤ cfg.nIterInTune) {root : Fin n} {w w' : W n F}
    (h : Step cfg root w w') (hok : w.st.Ok cfg) (r : Fin n) : Drawn (w.st.g r) (w'.st.g r) := by
  have upd : ∀ (g : Fin n → Rng) (v : Rng), Drawn (g root) v → Drawn (g r) (Function.update g root v r) := by
    intro g v hv
    by_cases hr : r = root
    · subst hr; rw [Function.update_self]; exact hv
    · rw [Function.update_of_ne hr]; exact .refl _
  cases h with
  | widths => exact .refl _
  | betas => exact .refl _
  | draw nStack i b h =>
    refine upd _ _ ?_
    simp only [nextBatch, exc_bind] at h
    obtain ⟨_, _, _, _, nb, _, nx, _, h⟩ := h
    split at h <;> cases h <;> exact .one _
  | batch _ nb h =>
    obtain ⟨hc, _, _⟩ := seqBatch_chain hu h hok
    rw [show w'.st.g r = _ from congrArg Ch.g (hc r).2.1]
    exact drawn_iter _ _ _ _ _ _ (w.st.ch r)
  | swap _ ty ty' h =>
    simp only [seqSwap, exc_bind, Except.ok.injEq, Prod.mk.injEq] at h
    obtain ⟨i, hi, j, hj, rfl, rfl⟩ := h
    refine upd _ _ ?_
    have p1 : Drawn (w.st.g root) (i4Unif0a F ((n : Int) - 1) (w.st.g root)).2 := .one _
    have p2 : ∀ (m k : Int) (g : Rng), Drawn g (pickJ F n m k g).2 := by
      intro m k g
      unfold pickJ
      split
      · exact .refl g
      · split
        · exact .one g
        · exact .refl g
    have p3 : ∀ (a b c d : F) (g : Rng), Drawn g (swapAccept a b c d g).2 := by
      intro a b c d g
      unfold swapAccept
      simp only
      split
      · exact .refl g
      · exact .one g
    exact (p1.trans (p2 _ _ _)).trans (p3 _ _ _ _ _)
  | ladder ty h h' hr => exact .refl _
  | tune _ rk h =>
    simp only [seqTuneRank, exc_bind, Except.ok.injEq] at h
    obtain ⟨grid, hgrid, ⟨st1, ars⟩, h1, d, hdec, sg, hsg, rfl⟩ := h
    have h2 := drawn_tune hu ht rk grid cfg.nParm 0 w.st st1 [] ars h1 hok
    simp only [W.push]
    exact (h2 r).trans (upd st1.g d.2 (drawn_decide hdec))

/-- **C42, whole runs.** If the start points are drawn with `srand48(seed)` followed by draws, then at every moment of a run the generator of each rank
is its own seed advanced by some number of draws, and two ranks with equal numbers of draws are in different states. -/
theorem run_streams (cfg : Cfg F) (file : DataFile F) (hv : Valid n cfg file) (hn : n ≤ 4294967296) (clock : Nat) (root : Fin n)
    (hinit : ∀ s, Drawn (lcgSeed s) (cfg.user.initParm s).2) (w0 w : W n F) (h0 : seqInit cfg file clock root = .ok w0)
    (hs : Steps cfg root w0 w) :
    ∃ k : Fin n → Nat, (∀ r, w.st.g r = lcgNext^[k r] (lcgSeed (seedOf root (startSeed cfg clock) r))) ∧
      ∀ r s, r ≠ s → k r = k s → w.st.g r ≠ w.st.g s := by
  have hI : ∀ r, Drawn (lcgSeed (seedOf root (startSeed cfg clock) r)) (w.st.g r) := by
    refine (hs.inv (P := fun w => w.st.Ok cfg ∧ ∀ r, Drawn (lcgSeed (seedOf root (startSeed cfg clock) r)) (w.st.g r))
      (fun _ _ hp h => ⟨h.ok hv.user hp.1, fun r => (hp.2 r).trans (h.drawn hv.user hv.inTune hp.1 r)⟩) ⟨seqInit_ok hv.user h0, ?_⟩).2
    simp only [seqInit, exc_bind, Except.ok.injEq] at h0
    obtain ⟨_, _, data, hd, _, _, _, _, _, _, beta, hb, rfl⟩ := h0
    exact fun r => hinit _
  choose k hk using hI
  refine ⟨k, hk, fun r s hrs he => ?_⟩
  rw [hk r, hk s, he]
  exact streams_distinct root hn _ r s hrs (k s)

/-- The demo draws its start points that way. -/
example (s : Nat) : Drawn (lcgSeed s) (demoCfg.user.initParm s).2 := (Drawn.one _).trans (.one _)

/-! ## C63: the streams are shifted copies -/

theorem lcg_shift (x y d : Nat) (h : x ≡ y + d [MOD lcgM]) : lcgNext x ≡ lcgNext y + lcgA * d [MOD lcgM] := by
  have h1 : lcgNext x ≡ lcgA * x + lcgC [MOD lcgM] := Nat.mod_modEq _ _
  have h2 : lcgNext y ≡ lcgA * y + lcgC [MOD lcgM] := Nat.mod_modEq _ _
  have h3 : lcgA * x + lcgC ≡ lcgA * (y + d) + lcgC [MOD lcgM] := Nat.ModEq.add_right _ (Nat.ModEq.mul_left _ h)
  refine h1.trans (h3.trans ?_)
  rw [show lcgA * (y + d) + lcgC = lcgA * y + lcgC + lcgA * d by ring]
  exact (h2.symm).add_right _

/-- **C63.** After the same number `k` of draws, the states of two generators seeded with `s + d` and `s` differ by `A^k * d * 2^16` modulo 2^48: a number that
does not depend on the start seed `s`. -/
theorem streams_shifted (s d k : Nat) :
    lcgNext^[k] (lcgSeed (s + d)) ≡ lcgNext^[k] (lcgSeed s) + lcgA ^ k * (d * 65536) [MOD lcgM] := by
  induction k with
  | zero =>
    simp only [Function.iterate_zero, id_eq, pow_zero, one_mul, lcgSeed]
    have hM : lcgM = 4294967296 * 65536 := by decide
    rw [hM]
    have h : (s + d) % 4294967296 ≡ s % 4294967296 + d [MOD 4294967296] := by
      refine (Nat.mod_modEq _ _).trans ?_
      exact (Nat.mod_modEq s _).symm.add_right d
    have h2 := Nat.ModEq.mul_right' 65536 h
    have h3 := h2.add_right 13070
    rw [show (s % 4294967296 + d) * 65536 + 13070 = s % 4294967296 * 65536 + 13070 + d * 65536 by ring] at h3
    exact h3
  | succ k ih =>
    rw [Function.iterate_succ_apply', Function.iterate_succ_apply', pow_succ', mul_assoc]
    exact lcg_shift _ _ _ ih

/-- **C63.** In lock-step the low 16 bits of all ranks are equal for ever. -/
theorem streams_low_bits (s d k : Nat) : lcgNext^[k] (lcgSeed (s + d)) % 65536 = lcgNext^[k] (lcgSeed s) % 65536 := by
  have h := streams_shifted s d k
  have hd : 65536 ∣ lcgM := by decide
  have h2 : lcgNext^[k] (lcgSeed (s + d)) ≡ lcgNext^[k] (lcgSeed s) + lcgA ^ k * (d * 65536) [MOD 65536] := h.of_dvd hd
  have h3 : lcgA ^ k * (d * 65536) ≡ 0 [MOD 65536] := (Nat.modEq_zero_iff_dvd.2 ⟨lcgA ^ k * d, by ring⟩)
  exact h2.trans (Nat.ModEq.add_left _ h3)

/-- The first draw of a rank is that of the rank with the preceding seed plus 0.8708... modulo 1, for every start seed. -/
example (s : Nat) : lcgNext (lcgSeed (s + 1)) ≡ lcgNext (lcgSeed s) + 245109059551232 [MOD lcgM] := by
  have h := streams_shifted s 1 1
  simp only [Function.iterate_one, pow_one] at h
  refine h.trans (Nat.ModEq.add_left _ ?_)
  decide

/-- Ranks 2 and 5 of eight, with the start seed 20 on rank 0. -/
example (k : Nat) : lcgNext^[k] (lcgSeed (seedOf (0 : Fin 8) 20 2)) ≠ lcgNext^[k] (lcgSeed (seedOf (0 : Fin 8) 20 5)) :=
  streams_distinct 0 (by decide) 20 2 5 (by decide) k

/-- In the demo, after any number of steps. -/
example (w0 w : W 3 ℝ) (h0 : seqInit demoCfg demoFile 7 0 = .ok w0) (hs : Steps demoCfg 0 w0 w) :
    ∃ k : Fin 3 → Nat, (∀ r, w.st.g r = lcgNext^[k r] (lcgSeed (seedOf 0 (startSeed demoCfg 7) r))) ∧ ∀ r s, r ≠ s → k r = k s → w.st.g r ≠ w.st.g s :=
  run_streams demoCfg demoFile demo_valid (by decide) 7 0 (fun _ => (Drawn.one _).trans (.one _)) w0 w h0 hs

end NiiC
