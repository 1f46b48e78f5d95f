import Verif.Props.Prior
import Verif.Props.Nan
import Verif.Props.Run
import Verif.Props.Likelihood
import Verif.Props.Scripts

/-!
# C104: in doubles no parameter becomes NaN

C15 says of doubles that a saved parameter is NaN or between its bounds. A proposal can have NaN as a coordinate: a width of zero times an infinite normal draw. The
likelihood of the bundled models at such a point is NaN, and a proposal with NaN is never taken. So the parameters stay finite, also when the ladder and the widths are tuned.
-/

set_option linter.unusedSectionVars false

namespace NiiC

open Spec Dbl

section
variable {R : Rounding} {n : Nat}

/-- A coordinate is a finite number between its bounds. -/
def FinIn (b : ℝ × ℝ) (v : Dbl R) : Prop := ∃ y : ℝ, v = fin y ∧ b.1 ≤ y ∧ y ≤ b.2

/-- The square of NaN is NaN. -/
def PowNan (R : Rounding) : Prop := R.pow .nan (.fin 2) = .nan

theorem powNan_binary64 : PowNan Rounding.binary64 := rfl
theorem powNan_exact : PowNan Rounding.exact := rfl

theorem sq_nan (h : PowNan R) : Arith.pow (nan : Dbl R) (ofI 2) = nan := by
  have : (ofI 2 : Dbl R) = fin 2 := by rw [ofI_int 2 (by norm_num)]; norm_num
  rw [this]
  exact h

@[simp] theorem neg_nan' : Arith.neg (nan : Dbl R) = nan := rfl
@[simp] theorem cos_nan' : Arith.cos (nan : Dbl R) = nan := R.cos_nan
@[simp] theorem sin_nan' : Arith.sin (nan : Dbl R) = nan := R.sin_nan

theorem regressionSum_nan (a b d : Dbl R) (ndim : Nat) (data : List (Dbl R)) : ∀ (k i : Nat), regressionSum a b d ndim data k i nan = nan
  | 0, _ => rfl
  | k + 1, i => by rw [regressionSum, nan_add, regressionSum_nan a b d ndim data k]

theorem regressionOne_nan (hp : PowNan R) (a b d x y : Dbl R) (h : a = nan ∨ b = nan ∨ d = nan) : regressionOne a b d x y = nan := by
  rcases h with rfl | rfl | rfl <;> simp [regressionOne, sq_nan hp]

/-- At a point with a NaN coordinate the log-likelihood of a bundled model is NaN; the regression needs a line of data for this. -/
theorem logll_nan (hp : PowNan R) (m : Model (Dbl R)) (hm : m ∈ bundled (Dbl R)) (ndim nline : Int) (hn : 1 ≤ nline ∨ m.columns = 0) (x : List (Dbl R))
    (hx : x.length = m.names.length) (hnan : nan ∈ x) (data : List (Dbl R)) (b : Dbl R) : m.logll ndim x nline data b = nan := by
  simp only [bundled, List.mem_cons, List.not_mem_nil, or_false] at hm
  rcases hm with rfl | rfl | rfl | rfl | rfl
  · obtain ⟨a, b', d, rfl⟩ : ∃ a b d, x = [a, b, d] := by
      match x, hx with
      | [a, b, d], _ => exact ⟨a, b, d, rfl⟩
    have h1 : 1 ≤ nline := hn.resolve_right (by simp [regression])
    obtain ⟨k, hk⟩ : ∃ k, nline.toNat = k + 1 := ⟨nline.toNat - 1, by omega⟩
    simp only [List.mem_cons, List.not_mem_nil, or_false, eq_comm (a := (nan : Dbl R))] at hnan
    simp only [regression, hk, regressionSum]
    rw [regressionOne_nan hp _ _ _ _ _ hnan, add_nan, regressionSum_nan, nan_mul]
  all_goals first
    | (obtain ⟨a, b, rfl⟩ : ∃ a b, x = [a, b] := by
        match x, hx with
        | [a, b], _ => exact ⟨a, b, rfl⟩
       simp only [List.mem_cons, List.not_mem_nil, or_false, eq_comm (a := (nan : Dbl R))] at hnan
       rcases hnan with rfl | rfl <;>
         simp [eggbox, multiGaussian, curved, model2, logll2, eggboxValue, multiGaussianValue, gauss2, curvedValue, curvedArg, sq_nan hp])
    | (obtain ⟨a, b, c, d, e, rfl⟩ : ∃ a b c d e, x = [a, b, c, d, e] := by
        match x, hx with
        | [a, b, c, d, e], _ => exact ⟨a, b, c, d, e, rfl⟩
       simp only [List.mem_cons, List.not_mem_nil, or_false, eq_comm (a := (nan : Dbl R))] at hnan
       rcases hnan with rfl | rfl | rfl | rfl | rfl <;> simp [rastrigin, rastriginValue, rastriginSum, sq_nan hp])

/-- A property of the points that can be taken is kept by every step of a run. -/
theorem BoxInv.taken {cfg : Cfg (Dbl R)} (hu : cfg.user.Wf cfg.nParm) {B : List (Dbl R) → Prop} {root : Fin n} {w w' : W n (Dbl R)}
    (hB : ∀ (y : List (Dbl R)) (b : Dbl R), y.length = cfg.nParm → target cfg.user w.st.nline w.st.data b (cfg.user.boundary y) ≠ nan → B (cfg.user.boundary y))
    (h : Step cfg root w w') (hok : w.st.Ok cfg) (hb : BoxInv B w) : BoxInv B w' := by
  cases h with
  | widths => exact ⟨hb.x, fun r k a ha => hb.rows r k a (fileRows_sub ha rfl)⟩
  | betas =>
    refine ⟨hb.x, fun r k a ha => hb.rows r k a (fileRows_sub ha ?_)⟩
    split <;> rfl
  | draw nStack i b h => exact ⟨hb.x, hb.rows⟩
  | batch _ nb h =>
    obtain ⟨hc, _, _⟩ := seqBatch_chain hu h hok
    have e : ∀ new old g, (Spec.accept (F := Dbl R) new old g).1 = (mhAccept new old (ofI 1) g).1 := fun _ _ _ => rfl
    have hstep : ∀ r (c : Ch (Dbl R)), (c.x.length = cfg.nParm ∧ B c.x) →
        ((mhStep cfg.user (w.st.cur r) w.st.nline w.st.data (w.st.beta r) c).x.length = cfg.nParm ∧
        B (mhStep cfg.user (w.st.cur r) w.st.nline w.st.data (w.st.beta r) c).x) := by
      intro r c hc
      refine ⟨mhStep_length cfg.nParm _ _ _ _ _ hu (hok.cur r) c hc.1, ?_⟩
      simp only [mhStep]
      split
      · rename_i ha
        refine hB _ (w.st.beta r) (by rw [propose_length _ _ _ (by rw [hc.1, hok.cur r]), hc.1]) (fun hn => ?_)
        rw [e, nan_rejected _ _ _ (.inl hn)] at ha
        cases ha
      · exact hc.2
    have hstart : ∀ r, (w.st.ch r).x.length = cfg.nParm ∧ B (w.st.ch r).x := fun r => ⟨hok.x r, hb.x r⟩
    refine ⟨fun r => ?_, fun r k a ha => ?_⟩
    · have := congrArg Ch.x (hc r).2.1
      rw [show w'.st.x r = _ from this]
      exact (mhIter_inv (P := fun c => c.x.length = cfg.nParm ∧ B c.x) _ _ _ _ _ (hstep r) nb.toNat _ (hstart r)).2
    · rw [(hc r).2.2, fileRows_append, fileRows_note] at ha
      rcases List.mem_append.1 ha with ha | ha
      · exact hb.rows r k a ha
      · split at ha
        · obtain ⟨c, hcm, rfl⟩ := fileRows_lines_mem ha
          exact (mhRun_inv (P := fun c => c.x.length = cfg.nParm ∧ B c.x) _ _ _ _ _ (hstep r) nb.toNat _ (hstart r) c hcm).2
        · simp [fileRows] at ha
  | swap _ ty ty' h =>
    obtain ⟨i, j, d, _, _, _, hx, _⟩ := seqSwap_spec h
    refine ⟨fun r => ?_, fun r k a ha => ?_⟩
    · rw [hx]
      split
      · exact hb.x _
      · exact hb.x _
    · rw [seqSwap_log cfg root w w' ty ty' h] at ha
      exact hb.rows r k a (fileRows_sub ha rfl)
  | ladder ty h h' => exact ⟨hb.x, fun r k a ha => hb.rows r k a (fileRows_sub ha rfl)⟩
  | tune _ rk h =>
    obtain ⟨⟨sg, hst⟩, hlog, _⟩ := seqTuneRank_frame h
    exact ⟨by rw [hst]; exact hb.x, by rw [hlog]; exact hb.rows⟩

/-- The coordinates are finite. -/
def AllFin (x : List (Dbl R)) : Prop := ∀ v ∈ x, ∃ y : ℝ, v = fin y

theorem finIn_of_nanOrIn {bs : List (ℝ × ℝ)} {x : List (Dbl R)} (h : List.Forall₂ NanOrIn bs x) (hn : nan ∉ x) : List.Forall₂ FinIn bs x := by
  induction h with
  | nil => exact .nil
  | cons h _ ih =>
    rw [List.mem_cons, not_or] at hn
    exact .cons (h.resolve_left fun e => hn.1 e.symm) (ih hn.2)

theorem allFin_of_finIn {bs : List (ℝ × ℝ)} {x : List (Dbl R)} (h : List.Forall₂ FinIn bs x) : AllFin x := by
  induction h with
  | nil => exact fun v hv => absurd hv (by simp)
  | cons h _ ih =>
    intro v hv
    rcases List.mem_cons.1 hv with rfl | hv
    · exact ⟨_, h.choose_spec.1⟩
    · exact ih v hv

/-- The states of a run of a bundled model: what holds of the starting points and of the points without NaN in the box holds of all points. -/
theorem run_taken (hp : PowNan R) (m : Model (Dbl R)) (hm : m ∈ bundled (Dbl R)) (bounds : List (ℝ × ℝ)) (hb : ∀ b ∈ bounds, Repr R b) (ndim : Int)
    (hl : m.names.length = bounds.length) (cfg : Cfg (Dbl R)) (hc : cfg.user = m.user (dblBounds R bounds) ndim) (hpar : cfg.nParm = bounds.length)
    (hwf : cfg.user.Wf cfg.nParm) (file : DataFile (Dbl R)) (hn : 1 ≤ file.nlines ∨ m.columns = 0) (B : List (Dbl R) → Prop)
    (hB : ∀ x, List.Forall₂ FinIn bounds x → B x) (hI : ∀ s, B (cfg.user.initParm s).1) (clock : Nat) (root : Fin n) (w0 w : W n (Dbl R))
    (h0 : seqInit cfg file clock root = .ok w0) (hs : Steps cfg root w0 w) : BoxInv B w := by
  obtain ⟨data, hd, b0, _, hinv⟩ := seqInit_lp h0
  refine (hs.inv (P := fun w => w.st.Ok cfg ∧ w.st.nline = file.nlines ∧ BoxInv B w) (fun w w' h hst => ?_)
    ⟨seqInit_ok hwf h0, hinv.same.1, seqInit_box hI h0⟩).2.2
  obtain ⟨hok, hnl, hbox⟩ := h
  refine ⟨hst.ok hwf hok, (hst.data hwf hok).1.trans hnl, hbox.taken hwf (fun y b hy ht => hB _ ?_) hst hok⟩
  rw [hc] at ht ⊢
  refine finIn_of_nanOrIn (paraBoundary_rounded bounds y hb (hy.trans hpar)) (fun hnan => ht ?_)
  have hlen : (paraBoundary (dblBounds R bounds) y).length = m.names.length := by rw [paraBoundary_length, hy, hpar, hl]
  have := logll_nan hp m hm ndim file.nlines hn _ hlen hnan w.st.data b
  rw [hnl]
  simp only [target, Model.user]
  rw [this, nan_add]

/-- The same for the rows and the final points of every execution. -/
theorem saved_taken (hp : PowNan R) (m : Model (Dbl R)) (hm : m ∈ bundled (Dbl R)) (bounds : List (ℝ × ℝ)) (hb : ∀ b ∈ bounds, Repr R b) (ndim : Int)
    (hl : m.names.length = bounds.length) (cfg : Cfg (Dbl R)) (hc : cfg.user = m.user (dblBounds R bounds) ndim) (hpar : cfg.nParm = bounds.length)
    (file : DataFile (Dbl R)) (hv : Valid n cfg file) (hn : 1 ≤ file.nlines ∨ m.columns = 0) (B : List (Dbl R) → Prop)
    (hB : ∀ x, List.Forall₂ FinIn bounds x → B x) (hI : ∀ s, B (cfg.user.initParm s).1) (clock : Nat) (root : Fin n) (w : List (Label n))
    (t : Sys n (Msg (Dbl R)) (Line (Dbl R)) (RSt n (Dbl R))) (h : (initSys cfg file clock root).exec w = some t) :
    (∀ (r : Fin n) (k : Nat) (a : Row (Dbl R)), a ∈ fileRows k (t.log r) → B a.x) ∧
    (t.AllDone → ∀ r, ∃ s tab, t.procs root = .ret s ∧ s.tab = some tab ∧ B (tab.x r)) := by
  obtain ⟨wf, hw, hall⟩ := log_prefix cfg file hv clock root
  obtain ⟨w0, h0, hs⟩ := seqMain_steps cfg file clock root wf hw
  have hb := run_taken hp m hm bounds hb ndim hl cfg hc hpar hv.user file hn B hB hI clock root w0 wf h0 hs
  refine ⟨fun r k a ha => hb.rows r k a ((fileRows_prefix ((hall w t h).1 r)).subset ha), fun hd r => ?_⟩
  rw [(hall w t h).2 hd]
  exact ⟨_, wf.st.tab, rfl, by simp [view], hb.x r⟩

theorem initDraws_finite : ∀ (ds : List Draw) (bs : List (ℝ × ℝ)) (g : Rng), (∀ d ∈ ds, d = .unif) → (∀ b ∈ bs, DblFits R b) →
    ds.length = bs.length → List.Forall₂ FinIn bs (initDraws (ds.zip (dblBounds R bs)) g).1
  | [], [], _, _, _, _ => .nil
  | [], _ :: _, _, _, _, h => by simp at h
  | _ :: _, [], _, _, _, h => by simp at h
  | d :: ds, b :: bs, g, hd, hb, h => by
    have hd0 : d = .unif := hd d (by simp)
    subst hd0
    obtain ⟨⟨h1, h2, h3⟩, h4, h5⟩ := hb b (by simp)
    refine .cons ?_ (initDraws_finite ds bs _ (fun c hc => hd c (by simp [hc])) (fun c hc => hb c (by simp [hc])) (by simpa using h))
    exact unif_range_dbl b.1 b.2 h2 h3 h4 h5 g

theorem bundled_lengths (m : Model (Dbl R)) (hm : m ∈ bundled (Dbl R)) : m.draws.length = m.names.length := by
  simp only [bundled, List.mem_cons, List.not_mem_nil, or_false] at hm
  rcases hm with rfl | rfl | rfl | rfl | rfl <;> rfl

theorem bundled_columns (m : Model (Dbl R)) (hm : m ∈ bundled (Dbl R)) (hd : ∀ d ∈ m.draws, d = .unif) : m.columns = 0 := by
  simp only [bundled, List.mem_cons, List.not_mem_nil, or_false] at hm
  rcases hm with rfl | rfl | rfl | rfl | rfl
  · have := hd .logunif (by simp [regression])
    cases this
  all_goals rfl

/-- **C104, uniform draws.** The bundled models whose parameters all start from uniform draws, in doubles with any rounding and any libm in which the square of NaN is NaN,
with any tuning: in every execution each parameter of each saved row, and of each chain at the end, is a finite number between its bounds. -/
theorem uniform_saved_finite (hp : PowNan R) (m : Model (Dbl R)) (hm : m ∈ bundled (Dbl R)) (hu : ∀ d ∈ m.draws, d = .unif) (bounds : List (ℝ × ℝ))
    (hb : ∀ b ∈ bounds, DblFits R b) (ndim : Int) (hl : m.names.length = bounds.length) (cfg : Cfg (Dbl R)) (hc : cfg.user = m.user (dblBounds R bounds) ndim)
    (hpar : cfg.nParm = bounds.length) (file : DataFile (Dbl R)) (hv : Valid n cfg file) (clock : Nat) (root : Fin n) (w : List (Label n))
    (t : Sys n (Msg (Dbl R)) (Line (Dbl R)) (RSt n (Dbl R))) (h : (initSys cfg file clock root).exec w = some t) :
    (∀ (r : Fin n) (k : Nat) (a : Row (Dbl R)), a ∈ fileRows k (t.log r) →
      List.Forall₂ (fun b v => ∃ y : ℝ, v = fin y ∧ b.1 ≤ y ∧ y ≤ b.2) bounds a.x) ∧
    (t.AllDone → ∀ r, ∃ s tab, t.procs root = .ret s ∧ s.tab = some tab ∧
      List.Forall₂ (fun b v => ∃ y : ℝ, v = fin y ∧ b.1 ≤ y ∧ y ≤ b.2) bounds (tab.x r)) :=
  saved_taken hp m hm bounds (fun b h => (hb b h).1) ndim hl cfg hc hpar file hv (.inr (bundled_columns m hm hu)) (List.Forall₂ FinIn bounds) (fun _ h => h)
    (fun s => by rw [hc]; exact initDraws_finite _ _ _ hu hb ((bundled_lengths m hm).trans hl)) clock root w t h

end

/-! ## Log-uniform draws in doubles -/

/-- The error of an operation on binary64 numbers of moderate size. -/
theorem b64_err {x : ℝ} (h1 : 1 / 2 ^ 60 ≤ x) (h2 : x ≤ 2 ^ 900) : ∃ y, Rounding.binary64.rnd x = .fin y ∧ |y - x| ≤ x / 2 ^ 52 := by
  have h0 : 0 < x := lt_of_lt_of_le (by positivity) h1
  have a1 : (2⁻¹ : ℝ) ^ 1000 ≤ 2⁻¹ ^ 60 := pow_le_pow_of_le_one (by norm_num) (by norm_num) (by norm_num)
  have a2 : (2 : ℝ) ^ 900 ≤ 2 ^ 1000 := pow_le_pow_right₀ (by norm_num) (by norm_num)
  have a3 : (2⁻¹ : ℝ) ^ 60 = 1 / 2 ^ 60 := by norm_num
  obtain ⟨y, hy, he⟩ := Rounding.binary64.rnd_err x (by rw [abs_of_pos h0]; exact (a1.trans a3.le).trans h1) (by rw [abs_of_pos h0]; exact h2.trans a2)
  exact ⟨y, hy, by rwa [abs_of_pos h0] at he⟩

theorem b64_exp (x : ℝ) : Arith.exp (fin x : Double) = Rounding.binary64.rnd (Real.exp x) := rfl
theorem b64_log (x : ℝ) (h : 0 < x) : Arith.log (fin x : Double) = Rounding.binary64.rnd (Real.log x) := by
  show (if x < 0 then XV.nan else if x = 0 then XV.ninf else Binary64.rnd (Real.log x)) = _
  rw [if_neg h.not_gt, if_neg h.ne']
  rfl

/-- The exponent stays so far below the logarithm of the quotient that rounding the exponential does not reach the upper bound. -/
theorem logunif_margin (L l v e : ℝ) (he0 : 0 < e) (he1 : e ≤ 1 / 1000) (hL : 6 / 10 ≤ L) (hl1 : l ≤ (L + e) * (1 + e)) (hv : v ≤ (1 - 16 * e) * l * (1 + e)) :
    v + 2 * e ≤ L := by
  have h1 : (1 - 16 * e) * l * (1 + e) ≤ (1 - 16 * e) * ((L + e) * (1 + e)) * (1 + e) := by
    have : 0 ≤ 1 - 16 * e := by linarith
    gcongr
  have h2 : (1 - 16 * e) * ((L + e) * (1 + e)) * (1 + e) ≤ (L + e) * (1 - 13 * e) := by
    have h3 : (1 - 16 * e) * (1 + e) * (1 + e) ≤ 1 - 13 * e := by nlinarith [mul_pos he0 he0, mul_pos (mul_pos he0 he0) he0]
    calc _ = (L + e) * ((1 - 16 * e) * (1 + e) * (1 + e)) := by ring
      _ ≤ _ := by gcongr
  nlinarith [mul_pos he0 he0]

/-- **C41 with rounding, log-uniform draws.** For binary64 numbers `0 < a` and `2 a <= b` of moderate size every log-uniform draw is a finite number between `a` and `b`. -/
theorem logunif_range_dbl (a b : ℝ) (ha : Rounding.binary64.rnd a = .fin a) (hb : Rounding.binary64.rnd b = .fin b) (h0 : 1 / 2 ^ 400 ≤ a) (hab : 2 * a ≤ b)
    (h1 : b ≤ 2 ^ 400) (g : Rng) : ∃ v : ℝ, (r8LogunifAb (fin a : Double) (fin b) g).1 = fin v ∧ a ≤ v ∧ v ≤ b := by
  have hM : (lcgM : ℝ) = 2 ^ 48 := by norm_num [lcgM]
  have ha0 : 0 < a := lt_of_lt_of_le (by positivity) h0
  obtain ⟨e, he⟩ : ∃ e : ℝ, e = 1 / 2 ^ 52 := ⟨_, rfl⟩
  have he0 : 0 < e := by rw [he]; positivity
  have he1 : e ≤ 1 / 1000 := by rw [he]; norm_num
  have hdiv : ∀ x : ℝ, x / 2 ^ 52 = x * e := fun x => by rw [he]; ring
  have h2le : 2 ≤ b / a := (le_div_iff₀ ha0).2 hab
  have hquo : b / a ≤ 2 ^ 800 := by
    rw [div_le_iff₀ ha0]
    have k : (2 : ℝ) ^ 800 * (1 / 2 ^ 400) ≤ 2 ^ 800 * a := by gcongr
    have k2 : (2 : ℝ) ^ 800 * (1 / 2 ^ 400) = 2 ^ 400 := by rw [show (800 : ℕ) = 400 + 400 from rfl, pow_add, mul_assoc, mul_one_div_cancel (by positivity), mul_one]
    exact h1.trans (k2.symm.le.trans k)
  have hB : (2 : ℝ) ^ 800 * 4 ≤ 2 ^ 900 := by
    rw [show (900 : ℕ) = 800 + 100 from rfl, pow_add]
    gcongr
    norm_num
  have herr := @b64_err
  have small : (1 : ℝ) / 2 ^ 60 ≤ 1 / 10 := by norm_num
  clear h0 h1
  generalize (2 : ℝ) ^ 800 = B at *
  generalize (2 : ℝ) ^ 900 = H at *
  generalize (1 : ℝ) / 2 ^ 60 = z at *
  -- the quotient
  obtain ⟨q, hq, hqe⟩ := herr (x := b / a) (by linarith) (by linarith)
  have hq2 : 2 ≤ q := by
    have := le_rnd (R := Rounding.binary64) h2le (by simpa using Rounding.binary64.rnd_int 2 (by norm_num))
    rw [hq] at this
    exact this
  rw [hdiv] at hqe
  have lt2 : 6 / 10 ≤ Real.log 2 := by
    have := Real.log_two_gt_d9
    norm_num at *
    linarith
  obtain ⟨L, hL⟩ : ∃ L, L = Real.log (b / a) := ⟨_, rfl⟩
  have hL2 : 6 / 10 ≤ L := by
    rw [hL]
    exact lt2.trans (Real.log_le_log (by norm_num) h2le)
  have hLb : L ≤ B - 1 := by
    have := Real.log_le_sub_one_of_pos (show 0 < b / a by linarith)
    rw [hL]
    linarith
  have hlq : Real.log q ≤ L + e := by
    have hq' : q ≤ b / a * (1 + e) := by linarith [(abs_le.1 hqe).2]
    calc Real.log q ≤ Real.log (b / a * (1 + e)) := Real.log_le_log (by linarith) hq'
      _ = L + Real.log (1 + e) := by rw [Real.log_mul (by linarith) (by linarith), hL]
      _ ≤ L + e := by linarith [Real.log_le_sub_one_of_pos (show 0 < 1 + e by linarith)]
  have hlq2 : 6 / 10 ≤ Real.log q := lt2.trans (Real.log_le_log (by norm_num) hq2)
  -- its logarithm
  obtain ⟨l, hl, hle⟩ := herr (x := Real.log q) (by linarith) (by linarith)
  rw [hdiv] at hle
  have hl1 : l ≤ (L + e) * (1 + e) := by
    have : l ≤ Real.log q * (1 + e) := by linarith [(abs_le.1 hle).2]
    exact this.trans (by gcongr)
  have hl2 : 1 / 2 ≤ l := by
    have : Real.log q * (1 - e) ≤ l := by linarith [(abs_le.1 hle).1]
    nlinarith
  have hlB : l ≤ 2 * B := by nlinarith
  -- the exponent
  obtain ⟨u, hue⟩ : ∃ u : ℝ, u = (lcgNext g : ℝ) / 2 ^ 48 := ⟨_, rfl⟩
  have hu : u ≤ 1 - 16 * e := by
    have : (lcgNext g : ℝ) + 1 ≤ lcgM := by exact_mod_cast lcgNext_lt g
    rw [hM] at this
    rw [hue, he, div_le_iff₀ (by positivity)]
    have e : (1 - 16 * (1 / 2 ^ 52) : ℝ) * 2 ^ 48 = 2 ^ 48 - 1 := by norm_num
    rw [e]; linarith
  have hu0 : 0 ≤ u := by rw [hue]; positivity
  obtain ⟨m, hm, hme⟩ := herr (x := (1 - 16 * e) * l) (by nlinarith) (by nlinarith)
  rw [hdiv] at hme
  obtain ⟨v, hv, hv0, hvm⟩ : ∃ v, Rounding.binary64.rnd (u * l) = .fin v ∧ 0 ≤ v ∧ v ≤ m := by
    have k1 := le_rnd (R := Rounding.binary64) (x := 0) (y := u * l) (by positivity) rnd_zero
    have k2 := Rounding.binary64.rnd_mono (u * l) ((1 - 16 * e) * l) (by gcongr)
    rw [hm] at k2
    cases h : Rounding.binary64.rnd (u * l) with
    | nan => exact absurd h (Rounding.binary64.rnd_ne_nan _)
    | ninf => rw [h] at k1; exact absurd k1 (fun h => h)
    | pinf => rw [h] at k2; exact absurd k2 (fun h => h)
    | fin v => rw [h] at k1 k2; exact ⟨v, rfl, k1, k2⟩
  have hvL : v + 2 * e ≤ L := logunif_margin L l v e he0 he1 hL2 hl1 (hvm.trans (by linarith [(abs_le.1 hme).2]))
  have hexp : Real.exp L = b / a := by rw [hL, Real.exp_log (by linarith)]
  have hev : Real.exp v ≤ b / a := by rw [← hexp]; exact Real.exp_le_exp.2 (by linarith)
  have hev1 : 1 ≤ Real.exp v := Real.one_le_exp hv0
  -- the exponential
  obtain ⟨p, hp, hpe⟩ := herr (x := Real.exp v) (by linarith) (by linarith)
  rw [hdiv] at hpe
  have hp1 : 1 ≤ p := by
    have := le_rnd (R := Rounding.binary64) hev1 rnd_one
    rw [hp] at this
    exact this
  have hpb : p ≤ b / a := by
    calc p ≤ Real.exp v * (1 + e) := by linarith [(abs_le.1 hpe).2]
      _ ≤ Real.exp v * Real.exp e := by gcongr; linarith [Real.add_one_le_exp e]
      _ = Real.exp (v + e) := (Real.exp_add _ _).symm
      _ ≤ Real.exp L := Real.exp_le_exp.2 (by linarith)
      _ = b / a := hexp
  obtain ⟨y, hy, hya, hyb⟩ := rnd_between (R := Rounding.binary64) (x := a) (y := a * p) (z := b) (by nlinarith)
    (by rw [mul_comm]; exact (le_div_iff₀ ha0).1 hpb) ha hb
  refine ⟨y, ?_, hya, hyb⟩
  have f1 : (fin b /. fin a : Double) = fin q := (div_fin b a ha0.ne').trans hq
  have f2 : Arith.log (fin q : Double) = fin l := (b64_log q (by linarith)).trans hl
  have f3 : (fin u *. fin l : Double) = fin v := (mul_fin u l).trans hv
  have f4 : Arith.exp (fin v : Double) = fin p := (b64_exp v).trans hp
  have f5 : (fin a *. fin p : Double) = fin y := (mul_fin a p).trans hy
  rw [r8LogunifAb_val, logunifVal, drand48_dbl, ← hue, f1, f2, f3, f4, f5]

/-- The range of a parameter fits the way it is drawn, in binary64. -/
def Draw.FitsDbl : Draw → ℝ × ℝ → Prop
  | .unif, b => DblFits Rounding.binary64 b
  | .logunif, b => Repr Rounding.binary64 b ∧ 1 / 2 ^ 400 ≤ b.1 ∧ 2 * b.1 ≤ b.2 ∧ b.2 ≤ 2 ^ 400

theorem Draw.FitsDbl.repr {k : Draw} {b : ℝ × ℝ} (h : k.FitsDbl b) : Repr Rounding.binary64 b := by
  cases k
  · exact h.1
  · exact h.1

theorem initDraws_in {ds : List Draw} {bs : List (ℝ × ℝ)} (h : List.Forall₂ Draw.FitsDbl ds bs) :
    ∀ g : Rng, List.Forall₂ FinIn bs (initDraws (ds.zip (dblBounds Rounding.binary64 bs)) g).1 := by
  induction h with
  | nil => exact fun _ => .nil
  | @cons d b ds bs h _ ih =>
    intro g
    refine .cons ?_ (ih _)
    cases d with
    | unif => exact unif_range_dbl b.1 b.2 h.1.2.1 h.1.2.2 h.2.1 h.2.2 g
    | logunif => exact logunif_range_dbl b.1 b.2 h.1.2.1 h.1.2.2 h.2.1 h.2.2.1 h.2.2.2 g

theorem fitsDbl_repr {ds : List Draw} {bs : List (ℝ × ℝ)} (h : List.Forall₂ Draw.FitsDbl ds bs) : ∀ b ∈ bs, Repr Rounding.binary64 b := by
  induction h with
  | nil => simp
  | cons h _ ih =>
    intro b hb
    rcases List.mem_cons.1 hb with rfl | hb
    · exact h.repr
    · exact ih b hb

/-- **C104, all bundled models.** In binary64, for ranges that fit the draws, with any tuning; the regression with at least one line of data: in every execution each
parameter of each saved row, and of each chain at the end, is a finite number between its bounds. -/
theorem bundled_saved_finite {n : Nat} (m : Model Double) (hm : m ∈ bundled Double) (bounds : List (ℝ × ℝ)) (hf : List.Forall₂ Draw.FitsDbl m.draws bounds)
    (ndim : Int) (cfg : Cfg Double) (hc : cfg.user = m.user (dblBounds Rounding.binary64 bounds) ndim) (hpar : cfg.nParm = bounds.length) (file : DataFile Double)
    (hv : Valid n cfg file) (hn : 1 ≤ file.nlines ∨ m.columns = 0) (clock : Nat) (root : Fin n) (w : List (Label n))
    (t : Sys n (Msg Double) (Line Double) (RSt n Double)) (h : (initSys cfg file clock root).exec w = some t) :
    (∀ (r : Fin n) (k : Nat) (a : Row Double), a ∈ fileRows k (t.log r) →
      List.Forall₂ (fun b v => ∃ y : ℝ, v = fin y ∧ b.1 ≤ y ∧ y ≤ b.2) bounds a.x) ∧
    (t.AllDone → ∀ r, ∃ s tab, t.procs root = .ret s ∧ s.tab = some tab ∧
      List.Forall₂ (fun b v => ∃ y : ℝ, v = fin y ∧ b.1 ≤ y ∧ y ≤ b.2) bounds (tab.x r)) :=
  saved_taken powNan_binary64 m hm bounds (fitsDbl_repr hf) ndim ((bundled_lengths m hm).symm.trans hf.length_eq) cfg hc hpar file hv hn
    (List.Forall₂ FinIn bounds) (fun _ h => h) (fun s => by rw [hc]; exact initDraws_in hf _) clock root w t h

/-- **C104, the hypothesis on the data.** Without data the log-posterior of the regression does not see its first two parameters: a proposal with NaN there passes every test
that the same proposal with a number passes. -/
theorem regression_blind {R : Rounding} (bounds : List (Dbl R × Dbl R)) (ndim nline : Int) (hn : nline ≤ 0) (data : List (Dbl R)) (beta a b a' b' d : Dbl R) :
    target ((regression (F := Dbl R)).user bounds ndim) nline data beta [a, b, d] = target ((regression (F := Dbl R)).user bounds ndim) nline data beta [a', b', d] := by
  have h : nline.toNat = 0 := by omega
  have hl : ∀ a b : Dbl R, (regression (F := Dbl R)).logll ndim [a, b, d] nline data beta = ofI 0 *. beta := fun a b => by simp only [regression, h, regressionSum]
  have hp : (regression (F := Dbl R)).logPrior bounds [a, b, d] = (regression (F := Dbl R)).logPrior bounds [a', b', d] := by
    match bounds with
    | [] => rfl
    | [_] => rfl
    | [_, _] => rfl
    | [_, _, _] => rfl
    | _ :: _ :: _ :: _ :: _ => rfl
  simp only [target, Model.user]
  rw [hl, hl, hp]

/-! ## Examples -/

theorem b64_int (k : Int) (h : |k| ≤ 2 ^ 53) : Rounding.binary64.rnd k = .fin k := Rounding.binary64.rnd_int k h

theorem eggbox_fits_b64 : List.Forall₂ Draw.FitsDbl [.unif, .unif] [((0 : ℝ), (50 : ℝ)), (0, 50)] := by
  have h1 : (2⁻¹ : ℝ) ^ 990 ≤ 1 := pow_le_one₀ (by norm_num) (by norm_num)
  have h2 : (2 : ℝ) ^ 6 ≤ 2 ^ 990 := pow_le_pow_right₀ (by norm_num) (by norm_num)
  have h : DblFits Rounding.binary64 ((0 : ℝ), (50 : ℝ)) :=
    ⟨⟨by norm_num, rnd_zero, by simpa using b64_int 50 (by norm_num)⟩, h1.trans (by norm_num), le_trans (by norm_num) h2⟩
  exact .cons h (.cons h .nil)

/-- Every row of every run of the egg box with tuned widths and a tuned ladder. -/
example (clock : Nat) (root : Fin 3) (w : List (Label 3)) (t : Sys 3 (Msg Double) (Line Double) (RSt 3 Double))
    (h : (initSys Scripts.eggCfgD Scripts.eggFileD clock root).exec w = some t) (r : Fin 3) (k : Nat) (a : Row Double) (ha : a ∈ fileRows k (t.log r)) :
    List.Forall₂ (fun b v => ∃ y : ℝ, v = fin y ∧ b.1 ≤ y ∧ y ≤ b.2) [((0 : ℝ), (50 : ℝ)), (0, 50)] a.x :=
  (bundled_saved_finite eggbox (by simp [bundled]) _ eggbox_fits_b64 2 Scripts.eggCfgD rfl rfl Scripts.eggFileD Scripts.eggD_valid (.inr rfl) clock root w t h).1 r k a ha

/-- The same with exact arithmetic on numbers, infinities and NaN. -/
example (clock : Nat) (root : Fin 3) (w : List (Label 3)) (t : Sys 3 (Msg XReal) (Line XReal) (RSt 3 XReal))
    (h : (initSys demoEggboxX demoFileX clock root).exec w = some t) (r : Fin 3) (k : Nat) (a : Row XReal) (ha : a ∈ fileRows k (t.log r)) :
    List.Forall₂ (fun b v => ∃ y : ℝ, v = fin y ∧ b.1 ≤ y ∧ y ≤ b.2) [((0 : ℝ), (50 : ℝ)), (0, 50)] a.x := by
  have hv : Valid 3 demoEggboxX demoFileX :=
    { demoX_valid with parm := by simp [demoEggboxX], user := user_wf _ _ _ rfl, sigmaMin := Nat.le_refl 2, sigmaMax := Nat.le_refl 2 }
  exact (uniform_saved_finite powNan_exact eggbox (by simp [bundled]) (by simp [eggbox, model2]) _ eggbox_fits_exact 2 rfl demoEggboxX rfl rfl demoFileX hv clock root w t
    h).1 r k a ha

/-- A log-uniform draw between 1 and 30. -/
example (g : Rng) : ∃ v : ℝ, (r8LogunifAb (fin 1 : Double) (fin 30) g).1 = fin v ∧ 1 ≤ v ∧ v ≤ 30 :=
  logunif_range_dbl 1 30 (by simpa using b64_int 1 (by norm_num)) (by simpa using b64_int 30 (by norm_num))
    (by rw [div_le_one (by positivity)]; exact one_le_pow₀ (by norm_num)) (by norm_num)
    (le_trans (by norm_num : (30 : ℝ) ≤ 2 ^ 5) (pow_le_pow_right₀ (by norm_num) (by norm_num))) g

/-- A regression in doubles with two lines of data. -/
noncomputable def regrCfgD : Cfg Double :=
  { Scripts.eggCfgD with
    nParm := 3
    sigmaMin := [.fin (1 / 1024), .fin (1 / 1024), .fin (1 / 1024)]
    sigmaMax := [.fin 5, .fin 5, .fin 5]
    user := regression.user [(.fin (-20), .fin 20), (.fin (-50), .fin 50), (.fin 1, .fin 30)] 2 }

noncomputable def regrFileD : DataFile Double where
  nlines := 2
  ndim := 2
  cells := .ok [.fin 0, .fin 1, .fin 1, .fin 3]

theorem regrD_valid : Valid 3 regrCfgD regrFileD :=
  { Scripts.eggD_valid with
    parm := by simp [regrCfgD]
    user := user_wf _ _ _ rfl
    sigmaMin := Nat.le_refl 3
    sigmaMax := Nat.le_refl 3
    cells := ⟨[.fin 0, .fin 1, .fin 1, .fin 3], rfl, by simp [regrFileD], by simp⟩ }

theorem regression_fits_b64 : List.Forall₂ Draw.FitsDbl [.unif, .unif, .logunif] [((-20 : ℝ), (20 : ℝ)), (-50, 50), (1, 30)] := by
  have h1 : (2⁻¹ : ℝ) ^ 990 ≤ 1 := pow_le_one₀ (by norm_num) (by norm_num)
  have h2 : (2 : ℝ) ^ 7 ≤ 2 ^ 990 := pow_le_pow_right₀ (by norm_num) (by norm_num)
  have h3 : (2 : ℝ) ^ 5 ≤ 2 ^ 400 := pow_le_pow_right₀ (by norm_num) (by norm_num)
  refine .cons ⟨⟨by norm_num, by simpa using b64_int (-20) (by norm_num), by simpa using b64_int 20 (by norm_num)⟩, h1.trans (by norm_num), le_trans (by norm_num) h2⟩ (.cons
    ⟨⟨by norm_num, by simpa using b64_int (-50) (by norm_num), by simpa using b64_int 50 (by norm_num)⟩, h1.trans (by norm_num), le_trans (by norm_num) h2⟩ (.cons
    ⟨⟨by norm_num, by simpa using b64_int 1 (by norm_num), by simpa using b64_int 30 (by norm_num)⟩, ?_, by norm_num, le_trans (by norm_num) h3⟩ .nil))
  rw [div_le_one (by positivity)]
  exact one_le_pow₀ (by norm_num)

/-- Every row of every run of this regression. -/
example (clock : Nat) (root : Fin 3) (w : List (Label 3)) (t : Sys 3 (Msg Double) (Line Double) (RSt 3 Double))
    (h : (initSys regrCfgD regrFileD clock root).exec w = some t) (r : Fin 3) (k : Nat) (a : Row Double) (ha : a ∈ fileRows k (t.log r)) :
    List.Forall₂ (fun b v => ∃ y : ℝ, v = fin y ∧ b.1 ≤ y ∧ y ≤ b.2) [((-20 : ℝ), (20 : ℝ)), (-50, 50), (1, 30)] a.x :=
  (bundled_saved_finite regression (by simp [bundled]) _ regression_fits_b64 2 regrCfgD rfl rfl regrFileD regrD_valid (.inl (by decide)) clock root w t h).1 r k a ha

/-- A point with NaN has the log-posterior of another point when the data file is empty. -/
example : target ((regression (F := Double)).user [(fin (-20), fin 20), (fin (-50), fin 50), (fin 1, fin 30)] 2) 0 [] (fin 1) [nan, fin 3, fin 2] =
    target ((regression (F := Double)).user [(fin (-20), fin 20), (fin (-50), fin 50), (fin 1, fin 30)] 2) 0 [] (fin 1) [fin 4, fin 3, fin 2] :=
  regression_blind _ 2 0 le_rfl [] (fin 1) nan (fin 3) (fin 4) (fin 3) (fin 2)

end NiiC
