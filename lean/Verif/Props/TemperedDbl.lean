import Verif.Props.AcceptDbl
import Verif.Props.Likelihood
import Verif.Props.Files
import Verif.Props.Scripts
import Verif.Props.FiniteDbl

/-!
# C103: the tempered posterior in doubles

C93 compares the decisions with the log-posteriors that the program has computed. Here the log-posteriors themselves are compared with `beta * L + P`, where `L` is the
log-likelihood at inverse temperature 1 and `P` the log-prior that the code of the model returns: the product and the sum are rounded. A move and a swap are then made with
the probability of the tempered posterior, up to a part that grows with the size of `beta * L` and `P` and not with anything else.
-/

set_option linter.unusedSectionVars false

namespace NiiC

open Spec Dbl

section
variable {R : Rounding} (hL : Libm R)
include hL

/-- A tempered log-posterior as it is computed. -/
theorem post_rounded (L b P S : ℝ) (h : |L * b| + |P| ≤ S) (hS : S ≤ 2 ^ 990) :
    ∃ a : ℝ, (fin L *. fin b +. fin P : Dbl R) = fin a ∧ |a - (b * L + P)| ≤ 3 * S / 2 ^ 53 + 1 / 2 ^ 58 := by
  have h1 : |L * b| ≤ S := by linarith [abs_nonneg P]
  have h2 : |P| ≤ S := by linarith [abs_nonneg (L * b)]
  have hS0 : 0 ≤ S := (abs_nonneg _).trans h1
  have hbig : 2 * S + 1 ≤ 2 ^ 1010 := by
    have k1 : (1 : ℝ) ≤ 2 ^ 990 := one_le_pow₀ (by norm_num)
    have k2 : (2 : ℝ) ^ 1010 = 2 ^ 20 * 2 ^ 990 := by rw [← pow_add]
    rw [k2]
    obtain ⟨Q, hQ⟩ : ∃ Q : ℝ, Q = 2 ^ 990 := ⟨_, rfl⟩
    rw [← hQ] at k1 hS ⊢
    norm_num1
    linarith only [k1, hS]
  clear hS
  obtain ⟨y, e1, r1⟩ := rnd_step hL h1 (le_trans (by linarith) hbig)
  have hd : S / 2 ^ 53 ≤ S / 4 := div_le_div_of_nonneg_left hS0 (by norm_num) (by norm_num)
  have hsum : |y + P| ≤ 5 / 4 * S + 1 / 2 ^ 60 := by
    have := abs_sub_abs_le_abs_sub y (L * b)
    have := abs_add_le y P
    linarith
  obtain ⟨a, e2, r2⟩ := rnd_step hL hsum (le_trans (by norm_num; linarith) hbig)
  refine ⟨a, ?_, ?_⟩
  · have f1 : (fin L *. fin b : Dbl R) = fin y := e1
    rw [f1]
    exact e2
  · have k : (5 / 4 * S + 1 / 2 ^ 60) / 2 ^ 53 + 1 / 2 ^ 60 ≤ 2 * S / 2 ^ 53 + 1 / 2 ^ 59 := by
      have : 5 / 4 * S / 2 ^ 53 ≤ 2 * S / 2 ^ 53 := by gcongr; norm_num
      have h3 : (5 / 4 * S + 1 / 2 ^ 60) / 2 ^ 53 = 5 / 4 * S / 2 ^ 53 + 1 / 2 ^ 60 / 2 ^ 53 := by ring
      rw [h3]
      norm_num at this ⊢
      linarith
    have e : 3 * S / 2 ^ 53 + 1 / 2 ^ 58 = S / 2 ^ 53 + 2 * S / 2 ^ 53 + 1 / 2 ^ 58 := by ring
    rw [e, show b * L + P = L * b + P by ring]
    rw [abs_le] at r1 r2 ⊢
    have e' : (1 : ℝ) / 2 ^ 60 + 1 / 2 ^ 59 ≤ 1 / 2 ^ 58 := by norm_num
    constructor <;> linarith [r1.1, r1.2, r2.1, r2.2]

/-- **C103, moves.** A point with log-likelihood `L` and log-prior `P` at inverse temperature `b`, a proposal with `L'` and `P'`, all finite doubles: of the `2^48` states of
the generator the test accepts `2^48 * min(1, exp(b * (L' - L) + P' - P))` up to an error of less than `5/4 + S/4`, where `S` bounds the tempered values and priors. -/
theorem move_tempered_doubles (L P L' P' b S : ℝ) (h : |L * b| + |P| ≤ S) (h' : |L' * b| + |P'| ≤ S) (hS : S ≤ 2 ^ 990) :
    |(((Finset.range lcgM).filter (fun g => (mhAccept (fin L' *. fin b +. fin P' : Dbl R) (fin L *. fin b +. fin P) (ofI 1) g).1 = true)).card : ℝ) -
      2 ^ 48 * min 1 (Real.exp (b * (L' - L) + P' - P))| < 5 / 4 + S / 4 := by
  have hS0 : 0 ≤ S := le_trans (add_nonneg (abs_nonneg _) (abs_nonneg _)) h
  obtain ⟨a, e, r⟩ := post_rounded hL L b P S h hS
  obtain ⟨a', e', r'⟩ := post_rounded hL L' b P' S h' hS
  rw [e, e']
  have hm := mh_accept_doubles hL a' a
  have hl := min_exp_lip (a' - a) (b * (L' - L) + P' - P)
  have herr : |a' - a - (b * (L' - L) + P' - P)| ≤ 6 * S / 2 ^ 53 + 1 / 2 ^ 57 := by
    rw [abs_le] at r r' ⊢
    have q : 6 * S / 2 ^ 53 = 3 * S / 2 ^ 53 + 3 * S / 2 ^ 53 := by ring
    have q' : (1 : ℝ) / 2 ^ 57 = 1 / 2 ^ 58 + 1 / 2 ^ 58 := by norm_num
    rw [q, q']
    constructor <;> linarith [r.1, r.2, r'.1, r'.2]
  have hl' := hl.trans herr
  clear hS
  obtain ⟨w, hw⟩ : ∃ w, w = min 1 (Real.exp (a' - a)) := ⟨_, rfl⟩
  obtain ⟨v, hv⟩ : ∃ v, v = min 1 (Real.exp (b * (L' - L) + P' - P)) := ⟨_, rfl⟩
  rw [← hw] at hl' hm
  rw [← hv] at hl' ⊢
  rw [abs_le] at hl'
  rw [abs_lt] at hm ⊢
  norm_num at hl'
  constructor <;> linarith [hm.1, hm.2, hl'.1, hl'.2]

/-- **C103, swaps.** Two chains with log-likelihoods `Li` and `Lj`, log-priors `Pi` and `Pj`, inverse temperatures `bi` and `bj`, all finite doubles, whose stored
log-posteriors are in step: of the `2^48` states the test accepts `2^48 * min(1, exp((bi - bj) * (Lj - Li)))` up to an error of less than `2 + S`, where `S` bounds the
tempered values and priors. -/
theorem swap_tempered_doubles (Li Lj Pi Pj bi bj S : ℝ) (hii : |Li * bi| + |Pi| ≤ S) (hij : |Li * bj| + |Pi| ≤ S) (hji : |Lj * bi| + |Pj| ≤ S)
    (hjj : |Lj * bj| + |Pj| ≤ S) (hS : S ≤ 2 ^ 990) :
    |(((Finset.range lcgM).filter (fun g => (swapAccept (fin Li *. fin bj +. fin Pi : Dbl R) (fin Lj *. fin bi +. fin Pj) (fin Li *. fin bi +. fin Pi)
      (fin Lj *. fin bj +. fin Pj) g).1 = true)).card : ℝ) - 2 ^ 48 * min 1 (Real.exp ((bi - bj) * (Lj - Li)))| < 2 + S := by
  have hS0 : 0 ≤ S := le_trans (add_nonneg (abs_nonneg _) (abs_nonneg _)) hii
  obtain ⟨a, ea, ra⟩ := post_rounded hL Li bj Pi S hij hS
  obtain ⟨c, ec, rc⟩ := post_rounded hL Lj bi Pj S hji hS
  obtain ⟨d, ed, rd⟩ := post_rounded hL Li bi Pi S hii hS
  obtain ⟨e, ee, re⟩ := post_rounded hL Lj bj Pj S hjj hS
  rw [ea, ec, ed, ee]
  have hdiv : 3 * S / 2 ^ 53 ≤ S / 2 ^ 20 := by
    rw [div_le_div_iff₀ (by positivity) (by positivity)]
    norm_num
    linarith
  have hM : ∀ {L b P y : ℝ}, |L * b| + |P| ≤ S → |y - (b * L + P)| ≤ 3 * S / 2 ^ 53 + 1 / 2 ^ 58 → |y| ≤ S + S / 2 ^ 20 + 1 / 2 ^ 58 := by
    intro L b P y h1 h2
    have h3 := abs_sub_abs_le_abs_sub y (b * L + P)
    have h4 := abs_add_le (b * L) P
    rw [mul_comm b L] at h4 h3 h2
    linarith
  have hb : S + S / 2 ^ 20 + 1 / 2 ^ 58 ≤ 2 ^ 1000 := by
    have k1 : (1 : ℝ) ≤ 2 ^ 990 := one_le_pow₀ (by norm_num)
    have k2 : (2 : ℝ) ^ 1000 = 2 ^ 10 * 2 ^ 990 := by rw [← pow_add]
    have k3 : S / 2 ^ 20 ≤ S := div_le_self hS0 (by norm_num)
    have k4 : (1 : ℝ) / 2 ^ 58 ≤ 1 := by norm_num
    rw [k2]
    obtain ⟨Q, hQ⟩ : ∃ Q : ℝ, Q = 2 ^ 990 := ⟨_, rfl⟩
    rw [← hQ] at k1 hS ⊢
    norm_num1 at k3 k4 ⊢
    linarith only [k1, k3, k4, hS]
  have hs := swap_accept_doubles hL a c d e _ (hM hij ra) (hM hji rc) (hM hii rd) (hM hjj re) hb
  have hl := min_exp_lip (a + c - d - e) ((bi - bj) * (Lj - Li))
  have herr : |a + c - d - e - (bi - bj) * (Lj - Li)| ≤ 12 * S / 2 ^ 53 + 1 / 2 ^ 56 := by
    rw [abs_le] at ra rc rd re ⊢
    have q : 12 * S / 2 ^ 53 = 3 * S / 2 ^ 53 + 3 * S / 2 ^ 53 + 3 * S / 2 ^ 53 + 3 * S / 2 ^ 53 := by ring
    have q' : (1 : ℝ) / 2 ^ 56 = 1 / 2 ^ 58 + 1 / 2 ^ 58 + 1 / 2 ^ 58 + 1 / 2 ^ 58 := by norm_num
    have q'' : (bi - bj) * (Lj - Li) = (bj * Li + Pi) + (bi * Lj + Pj) - (bi * Li + Pi) - (bj * Lj + Pj) := by ring
    rw [q, q', q'']
    constructor <;> linarith [ra.1, ra.2, rc.1, rc.2, rd.1, rd.2, re.1, re.2]
  have hl' := hl.trans herr
  clear hS hb
  obtain ⟨w, hw⟩ : ∃ w, w = min 1 (Real.exp (a + c - d - e)) := ⟨_, rfl⟩
  obtain ⟨v, hv⟩ : ∃ v, v = min 1 (Real.exp ((bi - bj) * (Lj - Li))) := ⟨_, rfl⟩
  rw [← hw] at hl' hs
  rw [← hv] at hl' ⊢
  rw [abs_le] at hl'
  rw [abs_lt] at hs ⊢
  have hM' : S + S / 2 ^ 20 + 1 / 2 ^ 58 ≤ 5 / 4 * S + 1 / 8 := by
    norm_num
    linarith
  norm_num at hl'
  constructor <;> linarith [hs.1, hs.2, hl'.1, hl'.2]

/-- **C103, iterations of a chain.** In an iteration of a chain whose stored log-posterior is in step the proposal is taken exactly at the generator states at which a test
passes, and this test has the frequency of the tempered posterior. -/
theorem iteration_doubles (u : User (Dbl R)) (sigma : List (Dbl R)) (nline : Int) (data : List (Dbl R)) (b : ℝ) (c : Ch (Dbl R))
    (hstep : c.lp = target u nline data (fin b) c.x) :
    ∃ (y : List (Dbl R)) (test : Rng → Bool) (g : Rng), y = u.boundary (propose c.x sigma c.g).1 ∧
      (mhStep u sigma nline data (fin b) c).x = (if test g then y else c.x) ∧ (mhStep u sigma nline data (fin b) c).accA = c.accA + (if test g then 1 else 0) ∧
      ∀ L P L' P' S : ℝ, u.logll c.x nline data (fin b) = fin L *. fin b → u.logPrior c.x = fin P → u.logll y nline data (fin b) = fin L' *. fin b →
        u.logPrior y = fin P' → |L * b| + |P| ≤ S → |L' * b| + |P'| ≤ S → S ≤ 2 ^ 990 →
        |(((Finset.range lcgM).filter (fun g => test g = true)).card : ℝ) - 2 ^ 48 * min 1 (Real.exp (b * (L' - L) + P' - P))| < 5 / 4 + S / 4 := by
  refine ⟨_, fun g => (accept (target u nline data (fin b) (u.boundary (propose c.x sigma c.g).1)) c.lp g).1, (propose c.x sigma c.g).2, rfl, ?_, ?_, ?_⟩
  · unfold mhStep
    split <;> simp_all
  · unfold mhStep
    split <;> simp_all
  · intro L P L' P' S h1 h2 h3 h4 hb hb' hS
    have := move_tempered_doubles hL L P L' P' b S hb hb' hS
    rw [hstep]
    simp only [target, h1, h2, h3, h4]
    exact this

/-- **C103, a swap of the program.** When the stored log-posteriors are in step, a swap is decided by a test of the state of the generator, and the number of states that
pass is that of the parallel-tempering rule. -/
theorem swap_doubles {n : Nat} (cfg : Cfg (Dbl R)) (root : Fin n) (w w' : W n (Dbl R)) (ty ty' : Tally n (Dbl R)) (h : seqSwap cfg root w ty = .ok (w', ty'))
    (hstep : ∀ r, w.st.lp r = target cfg.user w.st.nline w.st.data (w.st.beta r) (w.st.x r)) :
    ∃ (i j : Fin n) (test : Rng → Bool) (g : Rng), w'.hist = w.hist ++ [(Ev.swap i j (test g), w'.st)] ∧
      ∀ Li Lj Pi Pj bi bj S : ℝ, w.st.beta i = fin bi → w.st.beta j = fin bj → (∀ b, cfg.user.logll (w.st.x i) w.st.nline w.st.data b = fin Li *. b) →
        (∀ b, cfg.user.logll (w.st.x j) w.st.nline w.st.data b = fin Lj *. b) → cfg.user.logPrior (w.st.x i) = fin Pi → cfg.user.logPrior (w.st.x j) = fin Pj →
        (∀ b, b = bi ∨ b = bj → |Li * b| + |Pi| ≤ S ∧ |Lj * b| + |Pj| ≤ S) → S ≤ 2 ^ 990 →
        |(((Finset.range lcgM).filter (fun g => test g = true)).card : ℝ) - 2 ^ 48 * min 1 (Real.exp ((bi - bj) * (Lj - Li)))| < 2 + S := by
  simp only [seqSwap, exc_bind, Except.ok.injEq, Prod.mk.injEq] at h
  obtain ⟨i, hi, j, hj, rfl, rfl⟩ := h
  refine ⟨i, j, fun g => (swapAccept (logPost cfg (w.st.x i) w.st.nline w.st.data (w.st.beta j)) (logPost cfg (w.st.x j) w.st.nline w.st.data (w.st.beta i))
    (w.st.lp i) (w.st.lp j) g).1, _, rfl, ?_⟩
  intro Li Lj Pi Pj bi bj S hbi hbj hLi hLj hPi hPj hb hS
  rw [hstep i, hstep j]
  simp only [logPost, target, hbi, hbj, hLi, hLj, hPi, hPj]
  exact swap_tempered_doubles hL Li Lj Pi Pj bi bj S (hb _ (.inl rfl)).1 (hb _ (.inr rfl)).1 (hb _ (.inl rfl)).2 (hb _ (.inr rfl)).2 hS

/-- **C103, the swaps of a run.** A run without tuning of the ladder of a bundled model in doubles: at every swap, in every state that the run can reach, the stored values are
in step and the two chains have log-likelihoods `Vi` and `Vj` at inverse temperature 1. If these, the priors and the inverse temperatures are finite, the swap is decided by a
test that passes at `2^48 * min(1, exp((bi - bj) * (Lj - Li)))` states, up to an error of less than `2 + S`. -/
theorem run_swaps_doubles {n : Nat} (m : Model (Dbl R)) (hm : m ∈ bundled (Dbl R)) (bounds : List (Dbl R × Dbl R)) (ndim : Int) (cfg : Cfg (Dbl R))
    (hu : cfg.user = m.user bounds ndim) (hp : cfg.nParm = m.names.length) (hwf : cfg.user.Wf cfg.nParm) (hc : cfg.tuneLadder ≤ 0 ∨ cfg.nStopTuneLadder ≤ 0)
    (file : DataFile (Dbl R)) (clock : Nat) (root : Fin n) (w0 : W n (Dbl R)) (h0 : seqInit cfg file clock root = .ok w0) :
    ∃ data, file.cells = .ok data ∧ ∃ b0 : Fin n → Dbl R, (∀ r : Fin n, cfg.betas[r.val]? = some (b0 r)) ∧
      ∀ w, Steps cfg root w0 w → ∀ w' ty ty', seqSwap cfg root w ty = .ok (w', ty') →
        ∃ (i j : Fin n) (test : Rng → Bool) (g : Rng) (Vi Vj : Dbl R), w'.hist = w.hist ++ [(Ev.swap i j (test g), w'.st)] ∧
          (∀ b, m.logll ndim (w.st.x i) file.nlines data b = Vi *. b) ∧ (∀ b, m.logll ndim (w.st.x j) file.nlines data b = Vj *. b) ∧
          ∀ Li Lj Pi Pj bi bj S : ℝ, Vi = fin Li → Vj = fin Lj → b0 i = fin bi → b0 j = fin bj → m.logPrior bounds (w.st.x i) = fin Pi →
            m.logPrior bounds (w.st.x j) = fin Pj → (∀ b, b = bi ∨ b = bj → |Li * b| + |Pi| ≤ S ∧ |Lj * b| + |Pj| ≤ S) → S ≤ 2 ^ 990 →
            |(((Finset.range lcgM).filter (fun g => test g = true)).card : ℝ) - 2 ^ 48 * min 1 (Real.exp ((bi - bj) * (Lj - Li)))| < 2 + S := by
  obtain ⟨data, hd, b0, hb, hinv⟩ := seqInit_lp h0
  refine ⟨data, hd, b0, hb, fun w hs w' ty ty' h => ?_⟩
  obtain ⟨hok, hlp⟩ := hs.inv (P := fun w => w.st.Ok cfg ∧ LpInv cfg file.nlines data b0 w)
    (fun _ _ hp h => ⟨h.ok hwf hp.1, hp.2.step hwf hc h hp.1⟩) ⟨seqInit_ok hwf h0, hinv⟩
  obtain ⟨h1, h2⟩ := hlp.same
  obtain ⟨i, j, test, g, e, hall⟩ := swap_doubles hL cfg root w w' ty ty' h (fun r => by rw [h1, h2, hlp.beta, hlp.lp r])
  obtain ⟨Vi, hVi⟩ := tempered_form m hm ndim (w.st.x i) file.nlines data (by rw [← hp]; exact hok.x _)
  obtain ⟨Vj, hVj⟩ := tempered_form m hm ndim (w.st.x j) file.nlines data (by rw [← hp]; exact hok.x _)
  refine ⟨i, j, test, g, Vi, Vj, e, hVi, hVj, fun Li Lj Pi Pj bi bj S q1 q2 q3 q4 q5 q6 q7 q8 => ?_⟩
  refine hall Li Lj Pi Pj bi bj S (by rw [hlp.beta]; exact q3) (by rw [hlp.beta]; exact q4) (fun b => ?_) (fun b => ?_) ?_ ?_ q7 q8
  · rw [hu, h1, h2, ← q1]
    exact hVi b
  · rw [hu, h1, h2, ← q2]
    exact hVj b
  · rw [hu]
    exact q5
  · rw [hu]
    exact q6

omit hL in
/-- The value of the egg box at a point between representable bounds. -/
theorem eggbox_value_in (bounds : List (ℝ × ℝ)) (hb : ∀ b ∈ bounds, Repr R b) (hlen : bounds.length = 2) (x : List (Dbl R)) (hx : List.Forall₂ FinIn bounds x) :
    ∃ (a b : Dbl R) (v : ℝ), x = [a, b] ∧ eggboxValue a b = fin v ∧ 1 ≤ v ∧ v ≤ 3 := by
  match bounds, hlen, x, hx with
  | [c, d], _, _, .cons h (.cons h' .nil) =>
    obtain ⟨a, rfl, a1, a2⟩ := h
    obtain ⟨b, rfl, b1, b2⟩ := h'
    obtain ⟨v, h1, h2⟩ := eggbox_bounds_in a b c.1 c.2 d.1 d.2 (hb c (by simp)).2.1 (hb c (by simp)).2.2 (hb d (by simp)).2.1 (hb d (by simp)).2.2 a1 a2 b1 b2
    exact ⟨_, _, v, rfl, h1, h2⟩

/-- The code of a model gives a finite value times beta and a finite prior at every point between the bounds, together at most `S` in size. -/
def TameOn (m : Model (Dbl R)) (bounds : List (ℝ × ℝ)) (ndim nline : Int) (data : List (Dbl R)) (S : ℝ) : Prop :=
  ∀ x, List.Forall₂ FinIn bounds x → ∃ v P : ℝ, (∀ b, m.logll ndim x nline data b = fin v *. b) ∧ m.logPrior (dblBounds R bounds) x = fin P ∧ |v| + |P| ≤ S

omit hL in
theorem tame_beta {v P b S : ℝ} (h : |v| + |P| ≤ S) (b0 : 0 ≤ b) (b1 : b ≤ 1) : |v * b| + |P| ≤ S := by
  have : |v * b| ≤ |v| := by
    rw [abs_mul, abs_of_nonneg b0]
    nlinarith [abs_nonneg v]
  linarith

/-- **C103, swaps of tame models.** In a run of a bundled model without tuning of the ladder, with inverse temperatures between 0 and 1, whose values between the bounds are at
most `S` in size, every swap is decided by a test that passes at `2^48 * min(1, exp((bi - bj) * (Lj - Li)))` states of the generator up to an error of less than `2 + S`. -/
theorem tame_swaps_doubles {n : Nat} (m : Model (Dbl R)) (hm : m ∈ bundled (Dbl R)) (bounds : List (ℝ × ℝ)) (hb : ∀ b ∈ bounds, Repr R b) (hpow : PowNan R) (ndim : Int)
    (hl : m.names.length = bounds.length) (cfg : Cfg (Dbl R)) (hu : cfg.user = m.user (dblBounds R bounds) ndim) (hp : cfg.nParm = bounds.length)
    (hwf : cfg.user.Wf cfg.nParm) (hc : cfg.tuneLadder ≤ 0 ∨ cfg.nStopTuneLadder ≤ 0) (file : DataFile (Dbl R)) (hn : 1 ≤ file.nlines ∨ m.columns = 0)
    (hI : ∀ s, List.Forall₂ FinIn bounds (cfg.user.initParm s).1) (clock : Nat) (root : Fin n) (w0 : W n (Dbl R))
    (h0 : seqInit cfg file clock root = .ok w0) (bs : Fin n → ℝ) (hbs : ∀ r : Fin n, cfg.betas[r.val]? = some (fin (bs r)) ∧ 0 ≤ bs r ∧ bs r ≤ 1) (S : ℝ) (hS : S ≤ 2 ^ 990)
    (ht : ∀ data, file.cells = .ok data → TameOn m bounds ndim file.nlines data S)
    (w : W n (Dbl R)) (hs : Steps cfg root w0 w) (w' : W n (Dbl R)) (ty ty' : Tally n (Dbl R)) (h : seqSwap cfg root w ty = .ok (w', ty')) :
    ∃ (i j : Fin n) (test : Rng → Bool) (g : Rng) (Li Lj : ℝ), w'.hist = w.hist ++ [(Ev.swap i j (test g), w'.st)] ∧
      (∀ b, m.logll ndim (w.st.x i) w.st.nline w.st.data b = fin Li *. b) ∧ (∀ b, m.logll ndim (w.st.x j) w.st.nline w.st.data b = fin Lj *. b) ∧
      |(((Finset.range lcgM).filter (fun g => test g = true)).card : ℝ) - 2 ^ 48 * min 1 (Real.exp ((bs i - bs j) * (Lj - Li)))| < 2 + S := by
  have hbox := run_taken hpow m hm bounds hb ndim hl cfg hu hp hwf file hn (List.Forall₂ FinIn bounds) (fun _ h => h) hI clock root w0 w h0 hs
  obtain ⟨data, hd, b0, hb0, hinv⟩ := seqInit_lp h0
  obtain ⟨hok, hlp⟩ := hs.inv (P := fun w => w.st.Ok cfg ∧ LpInv cfg file.nlines data b0 w)
    (fun _ _ hp h => ⟨h.ok hwf hp.1, hp.2.step hwf hc h hp.1⟩) ⟨seqInit_ok hwf h0, hinv⟩
  obtain ⟨h1, h2⟩ := hlp.same
  obtain ⟨i, j, test, g, e, hall⟩ := swap_doubles hL cfg root w w' ty ty' h (fun r => by rw [h1, h2, hlp.beta, hlp.lp r])
  obtain ⟨Li, Pi, vi, pi, si⟩ := ht data hd _ (hbox.x i)
  obtain ⟨Lj, Pj, vj, pj, sj⟩ := ht data hd _ (hbox.x j)
  rw [← h1, ← h2] at vi vj
  have hbeta : ∀ r, w.st.beta r = fin (bs r) := fun r => by
    rw [hlp.beta]
    exact Option.some.inj ((hb0 r).symm.trans (hbs r).1)
  have hr : ∀ b, b = bs i ∨ b = bs j → 0 ≤ b ∧ b ≤ 1 := by
    rintro b (rfl | rfl)
    · exact (hbs i).2
    · exact (hbs j).2
  refine ⟨i, j, test, g, Li, Lj, e, vi, vj, hall Li Lj Pi Pj (bs i) (bs j) S (hbeta i) (hbeta j) ?_ ?_ ?_ ?_ (fun b hb' => ⟨tame_beta si (hr b hb').1 (hr b hb').2,
    tame_beta sj (hr b hb').1 (hr b hb').2⟩) hS⟩
  · rw [hu]; exact vi
  · rw [hu]; exact vj
  · rw [hu]; exact pi
  · rw [hu]; exact pj

omit hL in
theorem mhStep_inStep {F : Type} [Arith F] [Source F] (u : User F) (sigma : List F) (nline : Int) (data : List F) (b : F) (c : Ch F) (h : c.lp = target u nline data b c.x) :
    (mhStep u sigma nline data b c).lp = target u nline data b (mhStep u sigma nline data b c).x := by
  simp only [mhStep]
  split
  · rfl
  · exact h

/-- **C103, moves of tame models.** In the same runs every batch of every chain consists of iterations that propose a point and take it at a state of the generator at which a
test passes; if the point has NaN no state passes, and otherwise `2^48 * min(1, exp(b * (L' - L) + P' - P))` states do, up to an error of less than `5/4 + S/4`. -/
theorem tame_moves_doubles {n : Nat} (m : Model (Dbl R)) (hm : m ∈ bundled (Dbl R)) (bounds : List (ℝ × ℝ)) (hb : ∀ b ∈ bounds, Repr R b) (hpow : PowNan R) (ndim : Int)
    (hl : m.names.length = bounds.length) (cfg : Cfg (Dbl R)) (hu : cfg.user = m.user (dblBounds R bounds) ndim) (hp : cfg.nParm = bounds.length)
    (hwf : cfg.user.Wf cfg.nParm) (hc : cfg.tuneLadder ≤ 0 ∨ cfg.nStopTuneLadder ≤ 0) (file : DataFile (Dbl R)) (hn : 1 ≤ file.nlines ∨ m.columns = 0)
    (hI : ∀ s, List.Forall₂ FinIn bounds (cfg.user.initParm s).1) (clock : Nat) (root : Fin n) (w0 : W n (Dbl R))
    (h0 : seqInit cfg file clock root = .ok w0) (bs : Fin n → ℝ) (hbs : ∀ r : Fin n, cfg.betas[r.val]? = some (fin (bs r)) ∧ 0 ≤ bs r ∧ bs r ≤ 1) (S : ℝ) (hS : S ≤ 2 ^ 990)
    (ht : ∀ data, file.cells = .ok data → TameOn m bounds ndim file.nlines data S)
    (w : W n (Dbl R)) (hs : Steps cfg root w0 w) (w' : W n (Dbl R)) (nb : Int) (h : seqBatch cfg nb w = .ok w') (r : Fin n) :
    ∃ c : Nat → Ch (Dbl R), c 0 = w.st.ch r ∧ c nb.toNat = w'.st.ch r ∧ ∀ k, ∃ (y : List (Dbl R)) (test : Rng → Bool) (g : Rng) (L P : ℝ),
      y = paraBoundary (dblBounds R bounds) (propose (c k).x (w.st.cur r) (c k).g).1 ∧ (c (k + 1)).x = (if test g then y else (c k).x) ∧
      (c (k + 1)).accA = (c k).accA + (if test g then 1 else 0) ∧
      (∀ b, m.logll ndim (c k).x w.st.nline w.st.data b = fin L *. b) ∧ m.logPrior (dblBounds R bounds) (c k).x = fin P ∧
      ((nan ∈ y ∧ ∀ g, test g = false) ∨ ∃ L' P' : ℝ, (∀ b, m.logll ndim y w.st.nline w.st.data b = fin L' *. b) ∧ m.logPrior (dblBounds R bounds) y = fin P' ∧
        |(((Finset.range lcgM).filter (fun g => test g = true)).card : ℝ) - 2 ^ 48 * min 1 (Real.exp (bs r * (L' - L) + P' - P))| < 5 / 4 + S / 4) := by
  have hbox := run_taken hpow m hm bounds hb ndim hl cfg hu hp hwf file hn (List.Forall₂ FinIn bounds) (fun _ h => h) hI clock root w0 w h0 hs
  obtain ⟨data, hd, b0, hb0, hinv⟩ := seqInit_lp h0
  obtain ⟨hok, hlp⟩ := hs.inv (P := fun w => w.st.Ok cfg ∧ LpInv cfg file.nlines data b0 w)
    (fun _ _ hp h => ⟨h.ok hwf hp.1, hp.2.step hwf hc h hp.1⟩) ⟨seqInit_ok hwf h0, hinv⟩
  obtain ⟨h1, h2⟩ := hlp.same
  obtain ⟨hch, -, -⟩ := seqBatch_chain hwf h hok
  have hbeta : w.st.beta r = fin (bs r) := by
    rw [hlp.beta]
    exact Option.some.inj ((hb0 r).symm.trans (hbs r).1)
  have hnan : ∀ y : List (Dbl R), y.length = cfg.nParm → nan ∈ cfg.user.boundary y → target cfg.user w.st.nline w.st.data (fin (bs r)) (cfg.user.boundary y) = nan := by
    intro y hy hy'
    rw [hu] at hy' ⊢
    have hlen : (paraBoundary (dblBounds R bounds) y).length = m.names.length := by rw [paraBoundary_length, hy, hp, hl]
    have := logll_nan hpow m hm ndim w.st.nline (by rw [h1]; exact hn) _ hlen hy' w.st.data (fin (bs r))
    simp only [target, Model.user]
    rw [this, nan_add]
  have hfin : ∀ y : List (Dbl R), y.length = cfg.nParm → nan ∉ cfg.user.boundary y → List.Forall₂ FinIn bounds (cfg.user.boundary y) := by
    intro y hy hy'
    rw [hu] at hy' ⊢
    exact finIn_of_nanOrIn (paraBoundary_rounded bounds y hb (hy.trans hp)) hy'
  have e : ∀ new old g, (Spec.accept (F := Dbl R) new old g).1 = (mhAccept new old (ofI 1) g).1 := fun _ _ _ => rfl
  have hstep : ∀ c : Ch (Dbl R), (c.x.length = cfg.nParm ∧ List.Forall₂ FinIn bounds c.x ∧ c.lp = target cfg.user w.st.nline w.st.data (fin (bs r)) c.x) →
      ((mhStep cfg.user (w.st.cur r) w.st.nline w.st.data (fin (bs r)) c).x.length = cfg.nParm ∧
        List.Forall₂ FinIn bounds (mhStep cfg.user (w.st.cur r) w.st.nline w.st.data (fin (bs r)) c).x ∧
        (mhStep cfg.user (w.st.cur r) w.st.nline w.st.data (fin (bs r)) c).lp =
          target cfg.user w.st.nline w.st.data (fin (bs r)) (mhStep cfg.user (w.st.cur r) w.st.nline w.st.data (fin (bs r)) c).x) := by
    rintro c ⟨k1, k2, k3⟩
    refine ⟨mhStep_length cfg.nParm _ _ _ _ _ hwf (hok.cur r) c k1, ?_, mhStep_inStep _ _ _ _ _ _ k3⟩
    have hlen : (propose c.x (w.st.cur r) c.g).1.length = cfg.nParm := by rw [propose_length _ _ _ (by rw [k1, hok.cur r]), k1]
    simp only [mhStep]
    split
    · rename_i ha
      refine hfin _ hlen (fun hy => ?_)
      rw [e, nan_rejected _ _ _ (.inl (hnan _ hlen hy))] at ha
      cases ha
    · exact k2
  have hall : ∀ k, _ := fun k => mhIter_inv _ _ _ _ _ hstep k (w.st.ch r) ⟨hok.x r, hbox.x r, by
    rw [h1, h2]
    show w.st.lp r = _
    rw [hlp.lp r, ← hlp.beta, hbeta]
    rfl⟩
  refine ⟨fun k => mhIter cfg.user (w.st.cur r) w.st.nline w.st.data (fin (bs r)) k (w.st.ch r), rfl, by rw [(hch r).2.1, hbeta], fun k => ?_⟩
  obtain ⟨k1, k2, k3⟩ := hall k
  have hsucc : mhIter cfg.user (w.st.cur r) w.st.nline w.st.data (fin (bs r)) (k + 1) (w.st.ch r) =
      mhStep cfg.user (w.st.cur r) w.st.nline w.st.data (fin (bs r)) (mhIter cfg.user (w.st.cur r) w.st.nline w.st.data (fin (bs r)) k (w.st.ch r)) :=
    mhIter_succ _ _ _ _ _ k _
  simp only [hsucc]
  generalize mhIter cfg.user (w.st.cur r) w.st.nline w.st.data (fin (bs r)) k (w.st.ch r) = c at *
  have hlen : (propose c.x (w.st.cur r) c.g).1.length = cfg.nParm := by rw [propose_length _ _ _ (by rw [k1, hok.cur r]), k1]
  obtain ⟨L, P, v, pr, sz⟩ := ht data hd _ k2
  rw [← h1, ← h2] at v
  refine ⟨cfg.user.boundary (propose c.x (w.st.cur r) c.g).1,
    fun g => (accept (target cfg.user w.st.nline w.st.data (fin (bs r)) (cfg.user.boundary (propose c.x (w.st.cur r) c.g).1)) c.lp g).1,
    (propose c.x (w.st.cur r) c.g).2, L, P, by rw [hu]; rfl, ?_, ?_, v, pr, ?_⟩
  · unfold mhStep
    split <;> simp_all
  · unfold mhStep
    split <;> simp_all
  · by_cases hy : nan ∈ cfg.user.boundary (propose c.x (w.st.cur r) c.g).1
    · exact .inl ⟨hy, fun g => nan_rejected _ _ (ofI 1) (.inl (hnan _ hlen hy)) g⟩
    · obtain ⟨L', P', v', pr', sz'⟩ := ht data hd _ (hfin _ hlen hy)
      rw [← h1, ← h2] at v'
      refine .inr ⟨L', P', v', pr', ?_⟩
      have q := move_tempered_doubles hL L P L' P' (bs r) S (tame_beta sz (hbs r).2.1 (hbs r).2.2) (tame_beta sz' (hbs r).2.1 (hbs r).2.2) hS
      have t1 : target cfg.user w.st.nline w.st.data (fin (bs r)) c.x = fin L *. fin (bs r) +. fin P := by
        rw [hu]
        simp only [target, Model.user]
        rw [v, pr]
      have t2 : target cfg.user w.st.nline w.st.data (fin (bs r)) (cfg.user.boundary (propose c.x (w.st.cur r) c.g).1) = fin L' *. fin (bs r) +. fin P' := by
        rw [hu] at v' pr' ⊢
        simp only [target, Model.user] at v' pr' ⊢
        rw [v', pr']
      rw [k3, t1, t2]
      exact q

omit hL in
/-- The egg box is tame: its values are between 1 and 3 and its log-prior is 1. -/
theorem eggbox_tame (bounds : List (ℝ × ℝ)) (hb : ∀ b ∈ bounds, Repr R b) (hlen : bounds.length = 2) (ndim nline : Int) (data : List (Dbl R)) :
    TameOn eggbox bounds ndim nline data 4 := by
  intro x hx
  obtain ⟨a, b, v, rfl, h1, h2, h3⟩ := eggbox_value_in bounds hb hlen x hx
  refine ⟨v, 1, fun b => by rw [← h1]; rfl, ?_, by rw [abs_of_nonneg (by linarith), abs_one]; linarith⟩
  have one : (ofI 1 : Dbl R) = fin 1 := by rw [ofI_int 1 (by norm_num)]; norm_num
  rw [← one]
  rfl

/-- **C103, the egg box.** In a run of the egg box without tuning of the ladder, with inverse temperatures between 0 and 1 and ranges that fit doubles, every swap is decided by
a test that passes at `2^48 * min(1, exp((bi - bj) * (Lj - Li)))` states of the generator up to an error of less than 6, where `Li` and `Lj` are the computed values of the two
chains. -/
theorem eggbox_swaps_doubles {n : Nat} (bounds : List (ℝ × ℝ)) (hlen : bounds.length = 2) (hfit : ∀ b ∈ bounds, DblFits R b) (hpow : PowNan R) (ndim : Int)
    (cfg : Cfg (Dbl R)) (hu : cfg.user = eggbox.user (dblBounds R bounds) ndim) (hp : cfg.nParm = 2)
    (hwf : cfg.user.Wf cfg.nParm) (hc : cfg.tuneLadder ≤ 0 ∨ cfg.nStopTuneLadder ≤ 0) (file : DataFile (Dbl R)) (clock : Nat) (root : Fin n) (w0 : W n (Dbl R))
    (h0 : seqInit cfg file clock root = .ok w0) (bs : Fin n → ℝ) (hb : ∀ r : Fin n, cfg.betas[r.val]? = some (fin (bs r)) ∧ 0 ≤ bs r ∧ bs r ≤ 1)
    (w : W n (Dbl R)) (hs : Steps cfg root w0 w) (w' : W n (Dbl R)) (ty ty' : Tally n (Dbl R)) (h : seqSwap cfg root w ty = .ok (w', ty')) :
    ∃ (i j : Fin n) (test : Rng → Bool) (g : Rng) (Li Lj : ℝ), w'.hist = w.hist ++ [(Ev.swap i j (test g), w'.st)] ∧
      (∀ b, eggbox.logll ndim (w.st.x i) w.st.nline w.st.data b = fin Li *. b) ∧ (∀ b, eggbox.logll ndim (w.st.x j) w.st.nline w.st.data b = fin Lj *. b) ∧
      |(((Finset.range lcgM).filter (fun g => test g = true)).card : ℝ) - 2 ^ 48 * min 1 (Real.exp ((bs i - bs j) * (Lj - Li)))| < 6 := by
  have hfit' : ∀ b ∈ bounds, Repr R b := fun b h => (hfit b h).1
  obtain ⟨i, j, test, g, Li, Lj, e, vi, vj, q⟩ := tame_swaps_doubles hL eggbox (by simp [bundled]) bounds hfit' hpow ndim hlen.symm cfg hu (hp.trans hlen.symm) hwf hc
    file (.inr rfl) (fun s => by rw [hu]; exact initDraws_finite _ _ _ (by simp [eggbox, model2]) hfit hlen.symm) clock root w0 h0 bs hb 4
    (le_trans (by norm_num : (4 : ℝ) ≤ 2 ^ 10) (pow_le_pow_right₀ (by norm_num) (by norm_num))) (fun data _ => eggbox_tame bounds hfit' hlen ndim _ data) w hs w' ty ty' h
  exact ⟨i, j, test, g, Li, Lj, e, vi, vj, q.trans_eq (by norm_num)⟩

end

/-! ## Examples -/

/-- A log-likelihood of -100 at inverse temperature one half with a log-prior of -4. -/
example : ∃ a : ℝ, (fin (-100) *. fin (1 / 2) +. fin (-4) : Double) = fin a ∧ |a - -54| ≤ 3 * 54 / 2 ^ 53 + 1 / 2 ^ 58 := by
  have h := post_rounded libm_binary64 (-100) (1 / 2) (-4) 54 (by norm_num)
    (le_trans (by norm_num : (54 : ℝ) ≤ 2 ^ 10) (pow_le_pow_right₀ (by norm_num) (by norm_num)))
  rwa [show (1 / 2 * -100 + -4 : ℝ) = -54 by norm_num] at h

/-- A swap of the egg box in a state whose values are in step. -/
example (root : Fin 3) (w w' : W 3 Double) (ty ty' : Tally 3 Double) (h : seqSwap Scripts.eggCfgD root w ty = .ok (w', ty'))
    (hstep : ∀ r, w.st.lp r = target Scripts.eggCfgD.user w.st.nline w.st.data (w.st.beta r) (w.st.x r)) :
    ∃ (i j : Fin 3) (test : Rng → Bool) (g : Rng), w'.hist = w.hist ++ [(Ev.swap i j (test g), w'.st)] := by
  obtain ⟨i, j, test, g, e, -⟩ := swap_doubles libm_binary64 Scripts.eggCfgD root w w' ty ty' h hstep
  exact ⟨i, j, test, g, e⟩

/-- A log-likelihood that falls from -100 to -103 at inverse temperature one half: the proposal is taken at about `2^48 * exp(-3/2)` states. -/
example : |(((Finset.range lcgM).filter (fun g => (mhAccept (fin (-103) *. fin (1 / 2) +. fin (-4) : Double) (fin (-100) *. fin (1 / 2) +. fin (-4)) (ofI 1) g).1
    = true)).card : ℝ) - 2 ^ 48 * Real.exp (-(3 / 2))| < 16 := by
  have h := move_tempered_doubles libm_binary64 (-100) (-4) (-103) (-4) (1 / 2) 56 (by norm_num) (by norm_num)
    (le_trans (by norm_num : (56 : ℝ) ≤ 2 ^ 10) (pow_le_pow_right₀ (by norm_num) (by norm_num)))
  rw [show (1 / 2 * (-103 - -100) + -4 - -4 : ℝ) = -(3 / 2) by norm_num, min_eq_right (Real.exp_le_one_iff.2 (by norm_num))] at h
  exact h.trans (by norm_num)

/-- Two chains with log-likelihoods -100 and -104 at inverse temperatures 1 and 1/2. -/
example : |(((Finset.range lcgM).filter (fun g => (swapAccept (fin (-100) *. fin (1 / 2) +. fin (-4) : Double) (fin (-104) *. fin 1 +. fin (-4))
    (fin (-100) *. fin 1 +. fin (-4)) (fin (-104) *. fin (1 / 2) +. fin (-4)) g).1 = true)).card : ℝ) - 2 ^ 48 * Real.exp (-2)| < 110 := by
  have h := swap_tempered_doubles libm_binary64 (-100) (-104) (-4) (-4) 1 (1 / 2) 108 (by norm_num) (by norm_num) (by norm_num) (by norm_num)
    (le_trans (by norm_num : (108 : ℝ) ≤ 2 ^ 10) (pow_le_pow_right₀ (by norm_num) (by norm_num)))
  rw [show ((1 - 1 / 2) * (-104 - -100) : ℝ) = -2 by norm_num, min_eq_right (Real.exp_le_one_iff.2 (by norm_num))] at h
  exact h.trans_le (by norm_num)

/-- An iteration of the egg box at inverse temperature one half, from the middle of the box. -/
example (sigma : List Double) (g : Rng) : ∃ (y : List Double) (test : Rng → Bool) (g' : Rng),
    (mhStep (eggbox.user [(fin 0, fin 50), (fin 0, fin 50)] 2) sigma 0 [] (fin (1 / 2))
      ⟨[fin 25, fin 25], target (eggbox.user [(fin 0, fin 50), (fin 0, fin 50)] 2) 0 [] (fin (1 / 2)) [fin 25, fin 25], 0, 0, g⟩).x =
        if test g' then y else [fin 25, fin 25] := by
  obtain ⟨y, test, g', -, h, -⟩ := iteration_doubles libm_binary64 (eggbox.user [(fin 0, fin 50), (fin 0, fin 50)] 2) sigma 0 [] (1 / 2)
    ⟨[fin 25, fin 25], target (eggbox.user [(fin 0, fin 50), (fin 0, fin 50)] 2) 0 [] (fin (1 / 2)) [fin 25, fin 25], 0, 0, g⟩ rfl
  exact ⟨y, test, g', h⟩

/-- The first swap of a run of the egg box without tuning of the ladder. -/
example (w0 : W 3 Double) (h0 : seqInit { Scripts.eggCfgD with tuneLadder := 0 } Scripts.eggFileD 7 0 = .ok w0) (w' : W 3 Double) (ty ty' : Tally 3 Double)
    (h : seqSwap { Scripts.eggCfgD with tuneLadder := 0 } 0 w0 ty = .ok (w', ty')) :
    ∃ (i j : Fin 3) (test : Rng → Bool) (g : Rng) (Vi Vj : Double), w'.hist = w0.hist ++ [(Ev.swap i j (test g), w'.st)] ∧
      ∀ Li Lj Pi Pj bi bj S : ℝ, Vi = fin Li → Vj = fin Lj → (Scripts.eggCfgD.betas[i.val]? = some (fin bi)) → (Scripts.eggCfgD.betas[j.val]? = some (fin bj)) →
        eggbox.logPrior [(fin 0, fin 50), (fin 0, fin 50)] (w0.st.x i) = fin Pi → eggbox.logPrior [(fin 0, fin 50), (fin 0, fin 50)] (w0.st.x j) = fin Pj →
        (∀ b, b = bi ∨ b = bj → |Li * b| + |Pi| ≤ S ∧ |Lj * b| + |Pj| ≤ S) → S ≤ 2 ^ 990 →
        |(((Finset.range lcgM).filter (fun g => test g = true)).card : ℝ) - 2 ^ 48 * min 1 (Real.exp ((bi - bj) * (Lj - Li)))| < 2 + S := by
  obtain ⟨data, -, b0, hb, hall⟩ := run_swaps_doubles libm_binary64 eggbox (by simp [bundled]) [(fin 0, fin 50), (fin 0, fin 50)] 2
    { Scripts.eggCfgD with tuneLadder := 0 } rfl rfl Scripts.eggD_valid.user (.inl (by decide)) Scripts.eggFileD 7 0 w0 h0
  obtain ⟨i, j, test, g, Vi, Vj, e, -, -, k⟩ := hall w0 (.refl _) w' ty ty' h
  refine ⟨i, j, test, g, Vi, Vj, e, fun Li Lj Pi Pj bi bj S q1 q2 q3 q4 q5 q6 q7 q8 => k Li Lj Pi Pj bi bj S q1 q2 ?_ ?_ q5 q6 q7 q8⟩
  · exact Option.some.inj ((hb i).symm.trans q3)
  · exact Option.some.inj ((hb j).symm.trans q4)

/-- The first swap of this run, with the bound of the egg box. -/
example (w0 : W 3 Double) (h0 : seqInit { Scripts.eggCfgD with tuneLadder := 0 } Scripts.eggFileD 7 0 = .ok w0) (w' : W 3 Double) (ty ty' : Tally 3 Double)
    (h : seqSwap { Scripts.eggCfgD with tuneLadder := 0 } 0 w0 ty = .ok (w', ty')) :
    ∃ (i j : Fin 3) (test : Rng → Bool) (g : Rng) (Li Lj : ℝ), w'.hist = w0.hist ++ [(Ev.swap i j (test g), w'.st)] ∧
      |(((Finset.range lcgM).filter (fun g => test g = true)).card : ℝ) - 2 ^ 48 * min 1 (Real.exp ((![1 / 8, 1 / 2, 1] i - ![1 / 8, 1 / 2, 1] j) * (Lj - Li)))| < 6 := by
  obtain ⟨i, j, test, g, Li, Lj, e, -, -, k⟩ := eggbox_swaps_doubles libm_binary64 [((0 : ℝ), (50 : ℝ)), (0, 50)] rfl
    (by
      have := eggbox_fits_b64
      cases this with | cons h _ => exact fun b hb => by simp only [List.mem_cons, List.not_mem_nil, or_false, or_self] at hb; subst hb; exact h)
    powNan_binary64 2 { Scripts.eggCfgD with tuneLadder := 0 } rfl rfl Scripts.eggD_valid.user (.inl (by decide)) Scripts.eggFileD 7 0 w0 h0 ![1 / 8, 1 / 2, 1]
    (fun r => by fin_cases r <;> exact ⟨rfl, by norm_num, by norm_num⟩) w0 (.refl _) w' ty ty' h
  exact ⟨i, j, test, g, Li, Lj, e, k⟩

/-- The egg box between 0 and 50, at the corner. -/
example : ∃ v P : ℝ, (∀ b : Double, eggbox.logll 2 [fin 0, fin 50] 0 [] b = fin v *. b) ∧
    eggbox.logPrior (dblBounds Rounding.binary64 [(0, 50), (0, 50)]) [fin 0, fin 50] = fin P ∧ |v| + |P| ≤ 4 :=
  eggbox_tame [((0 : ℝ), (50 : ℝ)), (0, 50)]
    (by
      have := eggbox_fits_b64
      cases this with | cons h _ => exact fun b hb => by simp only [List.mem_cons, List.not_mem_nil, or_false, or_self] at hb; subst hb; exact h.1)
    rfl 2 0 [] _ (.cons ⟨0, rfl, by norm_num, by norm_num⟩ (.cons ⟨50, rfl, by norm_num, by norm_num⟩ .nil))

end NiiC
