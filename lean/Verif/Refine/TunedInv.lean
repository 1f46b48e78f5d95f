import Verif.Refine.TunedLaw
import Verif.Props.Grid

/-!
# What holds after any history of tuning

The points of the chains stay in the box. Without ladder tuning every stored log-posterior belongs to the stored point. The widths stay in the ranges given for
them. All of this for any numbers drawn. Helpers for C83 and C84.
-/

set_option linter.unusedSectionVars false
set_option linter.unusedSimpArgs false

namespace NiiC

open MeasureTheory ProbabilityTheory Set

section
variable {n d : Nat} {T : Target d} {lo hi : Fin d → ℝ}

/-! ## The points -/

/-- The point is in the box and, if `c`, its stored log-posterior is the one with `b`. -/
def SoundPt (T : Target d) (lo hi : Fin d → ℝ) (c : Prop) (b : ℝ) (x : Pt d) : Prop := (∀ i, lo i ≤ x.1 i ∧ x.1 i ≤ hi i) ∧ (c → x.2 = T.lp b x.1)

/-- All points of the table. -/
def SoundTab (T : Target d) (lo hi : Fin d → ℝ) (c : Prop) (b : Fin n → ℝ) (t : Fin n → Pt d × Nat) : Prop := ∀ r, SoundPt T lo hi c (b r) (t r).1

variable {c : Prop}

theorem SoundPt.chain (hlo : ∀ i, lo i ≤ hi i) (s : Fin d → ℝ) (b : ℝ) (p : (Pt d × Nat) × Draws) (h : SoundPt T lo hi c b p.1.1) :
    SoundPt T lo hi c b (chainT T lo hi s b p).1.1 := by
  unfold chainT
  dsimp only
  split
  · exact ⟨fun i => (bounce_exact _ _ (hlo i) _).1, fun _ => rfl⟩
  · exact h

theorem SoundTab.round (hlo : ∀ i, lo i ≤ hi i) (s : Fin n → Fin d → ℝ) (b : Fin n → ℝ) (p : ((Fin n → Pt d × Nat) × Tries n) × (Fin n → Draws)) (h : SoundTab T lo hi c b p.1.1) :
    SoundTab T lo hi c b (roundC T lo hi s b p).1.1 := fun r => SoundPt.chain hlo (s r) (b r) (p.1.1 r, p.2 r) (h r)

theorem SoundTab.swapped (b : Fin n → ℝ) (i j : Fin n) {t : Fin n → Pt d × Nat} (h : SoundTab T lo hi c b t) : SoundTab T lo hi c b (swapped T b i j t) := fun r => by
  unfold NiiC.swapped
  dsimp only
  split
  · rename_i e; subst e; exact ⟨(h i).1, fun _ => rfl⟩
  · split
    · rename_i e; subst e; exact ⟨(h j).1, fun _ => rfl⟩
    · exact h r

theorem SoundTab.decided (b : Fin n → ℝ) (count : Bool) (i j : Fin n) (did : Bool) {p : (Fin n → Pt d × Nat) × Tries n} (h : SoundTab T lo hi c b p.1) :
    SoundTab T lo hi c b (decided T b count i j did p).1 := by
  unfold NiiC.decided
  dsimp only
  split
  · exact h.swapped b i j
  · exact h

theorem SoundTab.judge (b : Fin n → ℝ) (count : Bool) (i j : Fin n) {p : ((Fin n → Pt d × Nat) × Tries n) × Draws} (h : SoundTab T lo hi c b p.1.1) :
    SoundTab T lo hi c b (judgeT T b count i j p).1.1 := by
  unfold judgeT
  dsimp only
  split
  · exact h.decided b count i j true
  · exact h.decided b count i j _

theorem SoundTab.swap (b : Fin n → ℝ) (count : Bool) (mode : Int) {p : ((Fin n → Pt d × Nat) × Tries n) × Draws} (h : SoundTab T lo hi c b p.1.1) :
    SoundTab T lo hi c b (swapT T b count mode p).1.1 := by
  unfold swapT judgeIT
  split
  · exact SoundTab.judge b count _ _ (p := (p.1, (pickS n mode p.2).2)) h
  · exact h

theorem SoundTab.leg (hlo : ∀ i, lo i ≤ hi i) (cfg : Cfg ℝ) (root : Fin n) (s : Fin n → Fin d → ℝ) (b : Fin n → ℝ) (k : Int)
    {p : ((Fin n → Pt d × Nat) × Tries n) × (Fin n → Draws)} (h : SoundTab T lo hi c b p.1.1) : SoundTab T lo hi c b (legT T lo hi cfg root s b k p).1.1 := by
  have h1 : ∀ k (p : ((Fin n → Pt d × Nat) × Tries n) × (Fin n → Draws)), SoundTab T lo hi c b p.1.1 → SoundTab T lo hi c b ((roundC T lo hi s b)^[k] p).1.1 := by
    intro k
    induction k with
    | zero => exact fun p h => h
    | succ k ih => intro p h; rw [Function.iterate_succ_apply]; exact ih _ (h.round hlo s b p)
  have h2 : ∀ k (p : ((Fin n → Pt d × Nat) × Tries n) × (Fin n → Draws)), SoundTab T lo hi c b p.1.1 →
      SoundTab T lo hi c b ((onRoot root (swapT T b (decide (0 < cfg.tuneLadder)) cfg.swapmode))^[k] p).1.1 := by
    intro k
    induction k with
    | zero => exact fun p h => h
    | succ k ih => intro p h; rw [Function.iterate_succ_apply]; exact ih _ (SoundTab.swap b _ _ (p := (p.1, p.2 root)) h)
  exact h2 _ _ (h1 _ _ h)

theorem SoundTab.stack (hlo : ∀ i, lo i ≤ hi i) (cfg : Cfg ℝ) (root : Fin n) (s : Fin n → Fin d → ℝ) (b : Fin n → ℝ) (nStack : Int) : ∀ (fuel : Nat) (i : Int)
    (p : ((Fin n → Pt d × Nat) × Tries n) × (Fin n → Draws)), SoundTab T lo hi c b p.1.1 → SoundTab T lo hi c b (stackT T lo hi cfg root s b nStack fuel i p).1.1 := by
  intro fuel
  induction fuel with
  | zero => exact fun i p h => h
  | succ fuel ih =>
    intro i p h
    unfold stackT
    split
    · exact ih _ _ (SoundTab.leg hlo cfg root s b _ (p := (p.1, Function.update p.2 root (pop (p.2 root)).2)) h)
    · exact h

/-! ## The history -/

/-- The ladder was never tuned. -/
def NoLadder (h : Hist n) : Prop := ∀ o ∈ h, o.isLeft = true

variable {sig0 : Fin n → List ℝ} {beta0 : Fin n → ℝ}

theorem NoLadder.beta {cfg : Cfg ℝ} : ∀ {h : Hist n}, NoLadder h → (paramsOf cfg sig0 beta0 h).2 = beta0
  | [], _ => rfl
  | .inl _ :: h, hh => NoLadder.beta (h := h) fun o ho => hh o (List.mem_cons_of_mem _ ho)
  | .inr l :: _, hh => absurd (hh (.inr l) List.mem_cons_self) (by simp)

/-- The state after some stacks: points in the box; if the ladder is not tuned, its betas are the first ones and stored log-posteriors belong to the points. -/
structure SoundZ (T : Target d) (lo hi : Fin d → ℝ) (cfg : Cfg ℝ) (beta0 : Fin n → ℝ) (q : (Fin n → Pt d) × Hist n) : Prop where
  pts : ∀ r, SoundPt T lo hi (cfg.tuneLadder ≤ 0) (beta0 r) (q.1 r)
  hist : cfg.tuneLadder ≤ 0 → NoLadder q.2

theorem SoundZ.stackZ (hlo : ∀ i, lo i ≤ hi i) (cfg : Cfg ℝ) (root : Fin n) (nStack t : Int) (p : ((Fin n → Pt d) × Hist n) × (Fin n → Draws))
    (h : SoundZ T lo hi cfg beta0 p.1) : SoundZ T lo hi cfg beta0 (stackZ T lo hi sig0 beta0 cfg root nStack t p).1.1 := by
  have key : ∀ c : Prop, (c → cfg.tuneLadder ≤ 0) → ∀ r, SoundPt T lo hi c (beta0 r) ((NiiC.stackZ T lo hi sig0 beta0 cfg root nStack t p).1.1.1 r) := fun c hc r => by
    have e : c → (paramsOf cfg sig0 beta0 p.1.2).2 = beta0 := fun hh => (h.hist (hc hh)).beta
    have := SoundTab.stack (c := c) hlo cfg root (fun r => vec d ((paramsOf cfg sig0 beta0 p.1.2).1 r)) (paramsOf cfg sig0 beta0 p.1.2).2 nStack nStack.toNat 0
      ((fun r => (p.1.1 r, 0), []), p.2) (fun r => ⟨(h.pts r).1, fun hh => by rw [e hh]; exact (h.pts r).2 (hc hh)⟩) r
    exact ⟨this.1, fun hh => by have := this.2 hh; rw [congrFun (e hh) r] at this; exact this⟩
  refine ⟨key _ id, fun hl => ?_⟩
  show NoLadder (if t < cfg.nStopTuneLadder ∧ 0 < cfg.tuneLadder then _ else p.1.2)
  rw [if_neg (by omega)]
  exact h.hist hl

theorem SoundZ.tuneRank (cfg : Cfg ℝ) (root rk : Fin n) (p : ((Fin n → Pt d) × Hist n) × (Fin n → Draws)) (h : SoundZ T lo hi cfg beta0 p.1) :
    SoundZ T lo hi cfg beta0 (tuneRankT T lo hi sig0 beta0 cfg root rk p).1 := by
  refine ⟨h.pts, fun hl o ho => ?_⟩
  rcases List.mem_cons.1 ho with rfl | ho
  · rfl
  · exact h.hist hl o ho

theorem SoundZ.tuneRanks (cfg : Cfg ℝ) (root : Fin n) (fl : Fin n → Int) : ∀ (l : List (Fin n)) (p : ((Fin n → Pt d) × Hist n) × (Fin n → Draws)),
    SoundZ T lo hi cfg beta0 p.1 → SoundZ T lo hi cfg beta0 (tuneRanksT T lo hi sig0 beta0 cfg root fl l p).1
  | [], _, h => h
  | rk :: l, p, h => by
    unfold tuneRanksT
    split
    · exact SoundZ.tuneRanks cfg root fl l _ (h.tuneRank cfg root rk p)
    · exact SoundZ.tuneRanks cfg root fl l _ h

theorem SoundZ.roundZ (hlo : ∀ i, lo i ≤ hi i) (cfg : Cfg ℝ) (root : Fin n) (i : Int) (p : ((Fin n → Pt d) × Hist n) × (Fin n → Draws))
    (h : SoundZ T lo hi cfg beta0 p.1) : SoundZ T lo hi cfg beta0 (roundZ T lo hi sig0 beta0 cfg root i p).1 := by
  have h1 := h.stackZ (sig0 := sig0) hlo cfg root cfg.nStack (i + cfg.nStack) p
  unfold NiiC.roundZ
  dsimp only
  split
  · exact SoundZ.tuneRanks cfg root _ _ _ h1
  · exact h1

theorem SoundZ.pre (hlo : ∀ i, lo i ≤ hi i) (cfg : Cfg ℝ) (root : Fin n) : ∀ (k : Nat) (i : Int) (p : ((Fin n → Pt d) × Hist n) × (Fin n → Draws)),
    SoundZ T lo hi cfg beta0 p.1 → SoundZ T lo hi cfg beta0 (preT T lo hi sig0 beta0 cfg root k i p).1
  | 0, _, _, h => h
  | k + 1, i, p, h => SoundZ.pre hlo cfg root k _ _ (h.roundZ hlo cfg root i p)

/-! ## The widths -/

/-- The widths have the right number and each has property `Q` for its parameter. -/
def WidthsQ (cfg : Cfg ℝ) (Q : Nat → ℝ → Prop) (sig : List ℝ) : Prop := sig.length = cfg.nParm ∧ ∀ j v, sig[j]? = some v → Q j v

theorem WidthsQ.retuned {cfg : Cfg ℝ} {Q : Nat → ℝ → Prop} (hmin : cfg.nParm ≤ cfg.sigmaMin.length) (hmax : cfg.nParm ≤ cfg.sigmaMax.length)
    (hinit : WidthsQ cfg Q (cfg.user.initGp cfg.initGpRatio))
    (hg : ∀ j v lo hi (r : Fin n), cfg.sigmaMin[j]? = some lo → cfg.sigmaMax[j]? = some hi → Q j v → Q j (gridRow cfg.halfRatio lo hi cfg.jumpin v n r.val))
    {sig : List ℝ} (h : WidthsQ cfg Q sig) (c : Counts n) (ch : Int × Int) : WidthsQ cfg Q (retuned cfg sig c ch) := by
  obtain ⟨grid, hgrid⟩ := genAllTune_total (n := n) cfg sig cfg.nParm 0 (by rw [h.1]; omega) (by omega) (by omega)
  have hlen := genAllTune_length cfg sig cfg.nParm 0 grid hgrid
  have hcell : ∀ (j : Nat) (row : Fin n → ℝ), grid[j]? = some row → ∀ r, Q j (row r) := fun j row hj r => by
    have hj' : j < cfg.nParm := by
      rw [← hlen]
      by_contra hc
      rw [List.getElem?_eq_none (by omega)] at hj
      cases hj
    obtain ⟨w, lo, hi, g1, g2, g3, g4⟩ := genAllTune_get cfg sig cfg.nParm 0 grid hgrid j hj'
    rw [Nat.zero_add] at g1 g2 g3
    rw [g4] at hj
    cases hj
    exact hg j w lo hi r g2 g3 (h.2 j w g1)
  unfold NiiC.retuned
  simp only [gridOf, hgrid]
  split
  · rename_i sg hsg
    unfold modifySigma at hsg
    split at hsg
    · simp only [exc_bind, Except.ok.injEq] at hsg
      obtain ⟨row, hrow, r, _, _, hold, rfl⟩ := hsg
      refine ⟨by rw [List.length_set]; exact h.1, fun j v hv => ?_⟩
      by_cases he : ch.1.toNat = j
      · subst he
        have hlt : ch.1.toNat < sig.length := by
          by_contra hc
          have := rd_eq_ok hold
          rw [List.getElem?_eq_none (by omega)] at this
          cases this
        rw [List.getElem?_set_self hlt] at hv
        cases hv
        exact hcell _ _ (rd_eq_ok hrow) r
      · rw [List.getElem?_set_ne he] at hv
        exact h.2 j v hv
    · split at hsg
      · cases hsg; exact hinit
      · obtain ⟨e1, e2⟩ := raceAll_get cfg.arBest grid _ sg hsg
        have hl : sg.length = cfg.nParm := by rw [← hlen]; exact raceAll_length cfg.arBest grid _ sg hsg
        refine ⟨hl, fun j v hv => ?_⟩
        obtain ⟨grow, arow, r, f1, _, rfl, _⟩ := e2 j v hv
        exact hcell j grow f1 r
  · exact h

theorem widthsQ_all {cfg : Cfg ℝ} {Q : Nat → ℝ → Prop} (hmin : cfg.nParm ≤ cfg.sigmaMin.length) (hmax : cfg.nParm ≤ cfg.sigmaMax.length)
    (hinit : WidthsQ cfg Q (cfg.user.initGp cfg.initGpRatio))
    (hg : ∀ j v lo hi (r : Fin n), cfg.sigmaMin[j]? = some lo → cfg.sigmaMax[j]? = some hi → Q j v → Q j (gridRow cfg.halfRatio lo hi cfg.jumpin v n r.val))
    (h0 : ∀ r, WidthsQ cfg Q (sig0 r)) : ∀ (h : Hist n) (r : Fin n), WidthsQ cfg Q ((paramsOf cfg sig0 beta0 h).1 r)
  | [], r => h0 r
  | .inl (rk, c, ch) :: h, r => by
    have ih := widthsQ_all hmin hmax hinit hg h0 h
    simp only [paramsOf]
    by_cases hr : r = rk
    · subst hr
      rw [Function.update_self]
      exact WidthsQ.retuned hmin hmax hinit hg (ih r) c ch
    · rw [Function.update_of_ne hr]
      exact ih r
  | .inr l :: h, r => widthsQ_all hmin hmax hinit hg h0 h r

/-! ## The rest of the run -/

/-- More fuel than iterations makes no difference. -/
theorem flowH_fuel (S : Setting n d) (cfg : Cfg ℝ) (root : Fin n) : ∀ (fuel fuel' : Nat) (nStack i : Int) (p : (Fin n → Fin d → ℝ) × (Fin n → Draws)), 1 ≤ nStack →
    cfg.nIter - i ≤ fuel → cfg.nIter - i ≤ fuel' → flowH S cfg root fuel nStack i p = flowH S cfg root fuel' nStack i p := by
  have stop : ∀ (fuel : Nat) (nStack i : Int) (p : (Fin n → Fin d → ℝ) × (Fin n → Draws)), cfg.nIter ≤ i → flowH S cfg root fuel nStack i p = [] := by
    intro fuel nStack i p h
    cases fuel with
    | zero => rfl
    | succ fuel => rw [flowH, if_neg (by omega)]
  intro fuel
  induction fuel with
  | zero =>
    intro fuel' nStack i p _ h _
    rw [stop _ _ _ _ (by omega), stop _ _ _ _ (by omega)]
  | succ fuel ih =>
    intro fuel' nStack i p h1 h2 h3
    by_cases hi : i < cfg.nIter
    · cases fuel' with
      | zero => omega
      | succ fuel' =>
        rw [flowH, flowH, if_pos hi, if_pos hi]
        dsimp only
        have hpos : 1 ≤ (if cfg.nIter < i + nStack then cfg.nIter - i else nStack) := by split <;> omega
        rw [ih fuel' _ _ _ hpos (by omega) (by omega)]
    · rw [stop _ _ _ _ (by omega), stop _ _ _ _ (by omega)]

end

end NiiC
