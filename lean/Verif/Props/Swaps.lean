import Verif.Props.State

/-!
# Swap partners and swap tallies: C19, C22, C23
-/

set_option linter.unusedSectionVars false
set_option linter.unusedSimpArgs false

namespace NiiC

variable {n : Nat} {F : Type} [Arith F] [Source F]

/-! ## C19: the two chains of a swap -/

/-- **C19.** With at least two ranks and swap mode 0 or 1, for every state of the generator the two indices drawn for a swap are
two different existing chains, and in mode 0 they are neighbours. -/
theorem swap_partners [LawfulDraws F] (hn : 2 ≤ n) (hn' : n ≤ 2147483647) (mode : Int) (hm : mode = 0 ∨ mode = 1) (g : Rng) :
    ∃ i j : Fin n, toIdx n (i4Unif0a F ((n : Int) - 1) g).1 = .ok i ∧
      toIdx n (pickJ F n mode (i4Unif0a F ((n : Int) - 1) g).1 (i4Unif0a F ((n : Int) - 1) g).2).1 = .ok j ∧
      i ≠ j ∧ (mode = 0 → j.val = i.val + 1) := by
  have hi := LawfulDraws.unif0a (F := F) ((n : Int) - 1) g (by omega) (by omega)
  have hj := LawfulDraws.unif0a (F := F) ((n : Int) - 1) (i4Unif0a F ((n : Int) - 1) g).2 (by omega) (by omega)
  generalize hI : i4Unif0a F ((n : Int) - 1) g = p at *
  generalize hJ : i4Unif0a F ((n : Int) - 1) p.2 = q at *
  have hI0 : 0 ≤ p.1 ∧ p.1.toNat < n := by omega
  refine ⟨⟨p.1.toNat, hI0.2⟩, ?_⟩
  rcases hm with rfl | rfl
  · have h1 : 0 ≤ p.1 + 1 ∧ (p.1 + 1).toNat < n := by omega
    refine ⟨⟨(p.1 + 1).toNat, h1.2⟩, by simp [toIdx, hI0], by simp [pickJ, toIdx, h1], ?_, fun _ => ?_⟩
    · intro h
      have := congrArg Fin.val h
      simp only at this
      omega
    · simp only
      omega
  · have h1 : ∀ k : Int, k = (if p.1 ≤ q.1 then q.1 + 1 else q.1) → 0 ≤ k ∧ k.toNat < n ∧ k ≠ p.1 := by
      intro k hk
      split at hk <;> omega
    have h2 := h1 _ rfl
    refine ⟨⟨(if p.1 ≤ q.1 then q.1 + 1 else q.1).toNat, h2.2.1⟩, by simp [toIdx, hI0], ?_, ?_, by omega⟩
    · simp only [pickJ, hJ]
      simp [toIdx, h2.1, h2.2.1]
    · intro h
      have := congrArg Fin.val h
      simp only at this
      omega

example (g : Rng) : ∃ i j : Fin 4, toIdx 4 (i4Unif0a ℝ ((4 : Nat) - 1 : Int) g).1 = .ok i ∧
      toIdx 4 (pickJ ℝ 4 1 (i4Unif0a ℝ ((4 : Nat) - 1 : Int) g).1 (i4Unif0a ℝ ((4 : Nat) - 1 : Int) g).2).1 = .ok j ∧
      i ≠ j ∧ ((1 : Int) = 0 → j.val = i.val + 1) := swap_partners (by decide) (by decide) 1 (.inr rfl) g

/-- With one rank there is no partner, in either mode: the swap is undefined behaviour for every draw. -/
theorem swap_one_rank (mode : Int) (hm : mode = 0 ∨ mode = 1) (cfg : Cfg ℝ) (hc : cfg.swapmode = mode) (w : W 1 ℝ) (ty : Tally 1 ℝ) :
    seqSwap cfg 0 w ty = .error .oob := by
  have h0 : ∀ g, (i4Unif0a ℝ (((1 : Nat) : Int) - 1) g).1 = 0 := by
    intro g
    simp [i4Unif0a, i4Unif0aVal, drand48_posix]
  have h1 : (pickJ ℝ 1 cfg.swapmode (i4Unif0a ℝ (((1 : Nat) : Int) - 1) (w.st.g 0)).1
      (i4Unif0a ℝ (((1 : Nat) : Int) - 1) (w.st.g 0)).2).1 = 1 := by
    rw [h0, hc]
    rcases hm with rfl | rfl
    · simp [pickJ]
    · simp only [pickJ, h0]
      simp
  have h2 : toIdx 1 (pickJ ℝ 1 cfg.swapmode (i4Unif0a ℝ (((1 : Nat) : Int) - 1) (w.st.g 0)).1
      (i4Unif0a ℝ (((1 : Nat) : Int) - 1) (w.st.g 0)).2).1 = .error .oob := by rw [h1]; rfl
  have h3 : toIdx 1 (i4Unif0a ℝ (((1 : Nat) : Int) - 1) (w.st.g 0)).1 = .ok 0 := by rw [h0]; rfl
  simp only [seqSwap]
  rw [h3, h2]
  rfl

/-- The demo on one rank. -/
example (w : W 1 ℝ) : seqSwap demoCfg 0 w Tally.zero = .error .oob := swap_one_rank 0 (.inl rfl) demoCfg rfl w _

/-- With an unknown swap mode the partner is chain 0 whatever the draw, and a chain can be paired with itself. -/
theorem swap_unknown_mode (mode : Int) (h0 : mode ≠ 0) (h1 : mode ≠ 1) (n : Nat) :
    (∀ i g, (pickJ ℝ n mode i g).1 = 0) ∧ ∃ g : Rng, toIdx n (i4Unif0a ℝ ((n : Int) - 1) g).1 =
      toIdx n (pickJ ℝ n mode (i4Unif0a ℝ ((n : Int) - 1) g).1 (i4Unif0a ℝ ((n : Int) - 1) g).2).1 := by
  have hp : ∀ i g, (pickJ ℝ n mode i g).1 = 0 := by simp [pickJ, h0, h1]
  refine ⟨hp, zeroDraw, ?_⟩
  have hz : lcgNext zeroDraw = 0 := by decide
  rw [hp]
  simp [i4Unif0a, i4Unif0aVal, drand48_posix, hz]

example (i : Int) (g : Rng) : (pickJ ℝ 3 2 i g).1 = 0 := (swap_unknown_mode 2 (by decide) (by decide) 3).1 i g

/-- Events of a sequential run that are swaps have two different partners, neighbours in mode 0. -/
theorem seqSwap_pair [LawfulDraws F] {cfg : Cfg F} (hn : 2 ≤ n) (hn' : n ≤ 2147483647) (hm : cfg.swapmode = 0 ∨ cfg.swapmode = 1)
    {root : Fin n} {w w' : W n F} {ty ty' : Tally n F} (h : seqSwap cfg root w ty = .ok (w', ty')) :
    ∃ i j d, w'.hist = w.hist ++ [(Ev.swap i j d, w'.st)] ∧ i ≠ j ∧ (cfg.swapmode = 0 → j.val = i.val + 1) ∧
      ty' = if 0 < cfg.tuneLadder then ty.add i d else ty := by
  obtain ⟨i, j, hi, hj, hne, hnb⟩ := swap_partners (F := F) hn hn' cfg.swapmode hm (w.st.g root)
  simp only [seqSwap, exc_bind, Except.ok.injEq, Prod.mk.injEq] at h
  obtain ⟨i', hi', j', hj', rfl, rfl⟩ := h
  rw [hi] at hi'
  rw [hj] at hj'
  cases hi'
  cases hj'
  exact ⟨i, j, _, rfl, hne, hnb, rfl⟩

/-- A run's swaps, as events. -/
def GoodSwaps (cfg : Cfg F) (w : W n F) : Prop :=
  ∀ e ∈ w.hist, ∀ i j d, e.1 = Ev.swap i j d → i ≠ j ∧ (cfg.swapmode = 0 → j.val = i.val + 1)

/-- **C19, whole run.** In a sequential run (to which every execution is equal by C04) every swap is between two different chains,
neighbours in mode 0. -/
theorem run_swap_partners [LawfulDraws F] (cfg : Cfg F) (file : DataFile F) (hv : Valid n cfg file) (clock : Nat) (root : Fin n)
    (w : W n F) (h : seqMain cfg file clock root = .ok w) (e : Ev n × G n F) (he : e ∈ w.hist) (i j : Fin n) (d : Bool)
    (hs : e.1 = .swap i j d) : i ≠ j ∧ (cfg.swapmode = 0 → j.val = i.val + 1) := by
  obtain ⟨w0, h0, hst⟩ := seqMain_steps cfg file clock root w h
  have : w.st.Ok cfg ∧ GoodSwaps cfg w := by
    refine hst.inv (P := fun w => w.st.Ok cfg ∧ GoodSwaps cfg w) (fun w w' hp h => ⟨h.ok hv.user hp.1, ?_⟩)
      ⟨seqInit_ok hv.user h0, ?_⟩
    · have key : ∀ (ev : Ev n) (g : G n F), w'.hist = w.hist ++ [(ev, g)] → (∀ i j d, ev ≠ .swap i j d) → GoodSwaps cfg w' := by
        intro ev g hh hne e he i j d hed
        rw [hh] at he
        rcases List.mem_append.1 he with he | he
        · exact hp.2 e he i j d hed
        · simp only [List.mem_singleton] at he
          subst he
          exact absurd hed (hne i j d)
      cases h with
      | widths => exact key .widths _ rfl (by simp)
      | betas => exact hp.2
      | draw nStack i b h => exact hp.2
      | batch _ nb h => exact key _ _ (seqBatch_chain hv.user h hp.1).2.2 (by simp)
      | swap _ ty ty' h =>
        obtain ⟨i, j, d, hh, hne, hnb, _⟩ := seqSwap_pair hv.ranks hv.ranksInt hv.mode h
        intro e he i' j' d' hed
        rw [hh] at he
        rcases List.mem_append.1 he with he | he
        · exact hp.2 e he i' j' d' hed
        · simp only [List.mem_singleton] at he
          subst he
          cases hed
          exact ⟨hne, hnb⟩
      | ladder ty h h' => exact key .ladder _ rfl (by simp)
      | tune _ rk h =>
        obtain ⟨_, _, hh⟩ := seqTuneRank_frame h
        exact key _ _ hh (by simp)
    · simp only [seqInit, exc_bind, Except.ok.injEq] at h0
      obtain ⟨_, _, data, hd, _, _, _, _, _, _, beta, hb, rfl⟩ := h0
      intro e he i j d hed
      simp only [List.mem_singleton] at he
      subst he
      cases hed
  exact this.2 e he i j d hs

example (w : W 3 ℝ) (h : seqMain demoCfg demoFile 0 0 = .ok w) (e : Ev 3 × G 3 ℝ) (he : e ∈ w.hist) (i j : Fin 3) (d : Bool) (hs : e.1 = .swap i j d) :
    j.val = i.val + 1 := (run_swap_partners demoCfg demoFile demo_valid 0 0 w h e he i j d hs).2 rfl

/-! ## C22: the tallies -/

/-- Counting in the number type `F` is exact below `K`: for doubles `K` is 2^53, for exact reals there is no limit. -/
def CountsExact (F : Type) [Arith F] (K : Nat) : Prop :=
  ∀ a : Nat, a < K → ((ofI (a : Int) : F) +. ofI 1) = ofI ((a + 1 : Nat) : Int) ∧ ((ofI (a : Int) : F) +. ofI 0) = ofI (a : Int)

theorem countsExact_real (K : Nat) : CountsExact ℝ K := by
  intro a _
  simp

/-- Swaps proposed with first chain `r`. -/
def proposedAt (r : Fin n) (evs : List (Ev n)) : Nat :=
  (evs.filter (fun e => match e with | .swap i _ _ => decide (i = r) | _ => false)).length

/-- Swaps made with first chain `r`. -/
def madeAt (r : Fin n) (evs : List (Ev n)) : Nat :=
  (evs.filter (fun e => match e with | .swap i _ d => decide (i = r) && d | _ => false)).length

theorem proposedAt_append (r : Fin n) (a b : List (Ev n)) : proposedAt r (a ++ b) = proposedAt r a + proposedAt r b := by
  simp [proposedAt]

theorem madeAt_append (r : Fin n) (a b : List (Ev n)) : madeAt r (a ++ b) = madeAt r a + madeAt r b := by
  simp [madeAt]

theorem madeAt_le (r : Fin n) (evs : List (Ev n)) : madeAt r evs ≤ proposedAt r evs := by
  induction evs with
  | nil => simp [madeAt, proposedAt]
  | cons e evs ih =>
    have h1 := madeAt_append r [e] evs
    have h2 := proposedAt_append r [e] evs
    simp only [List.singleton_append] at h1 h2
    have h3 : madeAt r [e] ≤ proposedAt r [e] := by
      cases e with
      | swap i j d =>
        simp only [madeAt, proposedAt, List.filter_cons, List.filter_nil]
        by_cases h : i = r
        · cases d <;> simp [h]
        · simp [h]
      | _ => simp [madeAt, proposedAt]
    omega

theorem proposedAt_sum (evs : List (Ev n)) : (List.ofFn (fun r => proposedAt r evs)).sum =
    (evs.filter (fun e => match e with | .swap _ _ _ => true | _ => false)).length := by
  induction evs with
  | nil => simp [proposedAt, List.sum_ofFn]
  | cons e evs ih =>
    have h2 : ∀ r, proposedAt r (e :: evs) = proposedAt r [e] + proposedAt r evs := fun r => proposedAt_append r [e] evs
    simp only [h2, List.sum_ofFn, Finset.sum_add_distrib] at ih ⊢
    rw [ih]
    cases e with
    | swap i j d =>
      have : ∀ r, proposedAt r [Ev.swap i j d] = if i = r then 1 else 0 := by
        intro r
        simp only [proposedAt, List.filter_cons, List.filter_nil]
        by_cases h : i = r <;> simp [h]
      simp only [this, List.filter_cons, if_true, List.length_cons]
      simp only [Finset.sum_ite_eq, Finset.mem_univ, if_true]
      omega
    | _ => simp [proposedAt]

omit [Source F] in
/-- The tally is the tally of `evs`. -/
def TallyOf (ty : Tally n F) (evs : List (Ev n)) : Prop :=
  ∀ r, ty.nsw r = ofI (madeAt r evs : Int) ∧ ty.npr r = ofI (proposedAt r evs : Int)

theorem proposedAt_le (r : Fin n) (evs : List (Ev n)) : proposedAt r evs ≤ evs.length := List.length_filter_le _ _

theorem TallyOf.add {K : Nat} (hK : CountsExact F K) {ty : Tally n F} {evs : List (Ev n)} (h : TallyOf ty evs) (i j : Fin n)
    (d : Bool) (hl : proposedAt i evs < K) : TallyOf (ty.add i d) (evs ++ [.swap i j d]) := by
  intro r
  rw [madeAt_append, proposedAt_append]
  have hle := madeAt_le i evs
  by_cases hr : i = r
  · subst hr
    simp only [Tally.add, Function.update_self, h i |>.1, h i |>.2]
    refine ⟨?_, ?_⟩
    · cases d
      · simp only [Bool.false_eq_true, if_false]
        rw [(hK _ (by omega)).2]
        simp [madeAt]
      · simp only [if_true]
        rw [(hK _ (by omega)).1]
        simp [madeAt]
    · rw [(hK _ hl).1]
      simp [proposedAt]
  · have hr' : r ≠ i := fun h => hr h.symm
    simp only [Tally.add, Function.update_of_ne hr', h r |>.1, h r |>.2]
    simp [madeAt, proposedAt, hr]

theorem seqSwaps_tally [LawfulDraws F] {cfg : Cfg F} (hn : 2 ≤ n) (hn' : n ≤ 2147483647)
    (hm : cfg.swapmode = 0 ∨ cfg.swapmode = 1) (ht : 0 < cfg.tuneLadder) {K : Nat} (hK : CountsExact F K) {root : Fin n} :
    ∀ {k : Nat} {w w' : W n F} {ty ty' : Tally n F} {evs : List (Ev n)}, seqSwaps cfg root k w ty = .ok (w', ty') →
    TallyOf ty evs → (∀ r, proposedAt r evs + k ≤ K) → ∃ h', w'.hist = w.hist ++ h' ∧ h'.length = k ∧
      (∀ e ∈ h'.map Prod.fst, ∃ i j d, e = Ev.swap i j d) ∧ TallyOf ty' (evs ++ h'.map Prod.fst) := by
  intro k
  induction k with
  | zero => intro w w' ty ty' evs h hty hk; cases h; exact ⟨[], by simp, rfl, by simp, by simpa using hty⟩
  | succ k ih =>
    intro w w' ty ty' evs h hty hk
    simp only [seqSwaps, exc_bind] at h
    obtain ⟨⟨w1, ty1⟩, h1, h2⟩ := h
    obtain ⟨i, j, d, hh, hne, _, e⟩ := seqSwap_pair hn hn' hm h1
    rw [if_pos ht] at e
    obtain rfl : ty1 = ty.add i d := e
    obtain ⟨h', g1, g2, g3, g4⟩ := ih h2 (hty.add hK i j d (by have := hk i; omega)) (by
      intro r
      have h3 := hk r
      rw [proposedAt_append]
      have h4 : proposedAt r [Ev.swap i j d] ≤ 1 := proposedAt_le r _
      omega)
    refine ⟨(.swap i j d, w1.st) :: h', by rw [g1, hh]; simp, by simp [g2], ?_, ?_⟩
    · intro e he
      simp only [List.map_cons, List.mem_cons] at he
      rcases he with rfl | he
      · exact ⟨i, j, d, rfl⟩
      · exact g3 e he
    · simpa using g4

theorem seqStackLoop_tally [LawfulDraws F] {cfg : Cfg F} (hu : cfg.user.Wf cfg.nParm) (hn : 2 ≤ n) (hn' : n ≤ 2147483647)
    (hm : cfg.swapmode = 0 ∨ cfg.swapmode = 1) (ht : 0 < cfg.tuneLadder) {K : Nat} (hK : CountsExact F K) {root : Fin n}
    {nStack : Int} : ∀ {fuel : Nat} {i : Int} {w w' : W n F} {ty ty' : Tally n F} {evs : List (Ev n)},
    i ≤ nStack → w.st.Ok cfg → seqStackLoop cfg root nStack fuel i w ty = .ok (w', ty') → TallyOf ty evs →
    (∀ r, proposedAt r evs + cfg.nSwap.toNat * (nStack - i).toNat ≤ K) →
    ∃ h' bs, w'.hist = w.hist ++ h' ∧ StackShape cfg.nSwap.toNat (h'.map Prod.fst) bs ∧
      TallyOf ty' (evs ++ h'.map Prod.fst) := by
  intro fuel
  induction fuel with
  | zero =>
    intro i w w' ty ty' evs hi hok h hty hk
    simp only [seqStackLoop] at h
    split at h
    · cases h
    · cases h; exact ⟨[], [], by simp, .nil, by simpa using hty⟩
  | succ fuel ih =>
    intro i w w' ty ty' evs hi hok h hty hk
    simp only [seqStackLoop] at h
    split at h
    · simp only [exc_bind] at h
      obtain ⟨b, hb, w1, h1, ⟨w2, ty2⟩, h2, h3⟩ := h
      have hs1 : Step cfg root w { w with st := w.st.setG root b.2.2 } := .draw w nStack i b hb
      have hok1 := hs1.ok hu hok
      have hs2 : Step cfg root _ w1 := .batch _ w1 b.1 h1
      have hok2 := hs2.ok hu hok1
      obtain ⟨hc, _, hbh⟩ := seqBatch_chain hu h1 hok1
      have hpos := (hc root).1
      obtain ⟨hnx, hle⟩ := nextBatch_next hb
      have hty1 : TallyOf ty (evs ++ [Ev.batch b.1]) := by
        intro r
        rw [madeAt_append, proposedAt_append]
        simpa [madeAt, proposedAt] using hty r
      have hsz : cfg.nSwap.toNat + cfg.nSwap.toNat * (nStack - b.2.1).toNat ≤ cfg.nSwap.toNat * (nStack - i).toNat := by
        have : (nStack - b.2.1).toNat + 1 ≤ (nStack - i).toNat := by omega
        calc cfg.nSwap.toNat + cfg.nSwap.toNat * (nStack - b.2.1).toNat
            = cfg.nSwap.toNat * ((nStack - b.2.1).toNat + 1) := by ring
          _ ≤ _ := Nat.mul_le_mul_left _ this
      have hp1 : ∀ r, proposedAt r (evs ++ [Ev.batch b.1]) = proposedAt r evs := by
        intro r; rw [proposedAt_append]; simp [proposedAt]
      obtain ⟨h4, g1, g2, g3, g4⟩ := seqSwaps_tally hn hn' hm ht hK h2 hty1 (by
        intro r
        rw [hp1]
        have := hk r
        omega)
      have hok3 : w2.st.Ok cfg := (seqSwaps_steps cfg root _ w1 w2 ty ty2 h2).inv (P := fun w => w.st.Ok cfg)
        (fun _ _ hp h => h.ok hu hp) hok2
      obtain ⟨h5, bs, k1, k2, k3⟩ := ih hle hok3 h3 g4 (by
        intro r
        have h6 : proposedAt r (h4.map Prod.fst) ≤ cfg.nSwap.toNat := by
          have := proposedAt_le r (h4.map Prod.fst)
          simp only [List.length_map, g2] at this
          exact this
        rw [proposedAt_append, hp1]
        have := hk r
        omega)
      refine ⟨(.batch b.1, w1.st) :: (h4 ++ h5), b.1 :: bs, by rw [k1, g1, hbh]; simp, ?_, ?_⟩
      · simp only [List.map_cons, List.map_append]
        exact .cons b.1 _ _ bs (by simpa using g2) g3 k2
      · simpa using k3
    · cases h; exact ⟨[], [], by simp, .nil, by simpa using hty⟩

theorem StackShape.swaps {k : Nat} {evs : List (Ev n)} {bs : List Int} (h : StackShape k evs bs) :
    (evs.filter (fun e => match e with | .swap _ _ _ => true | _ => false)).length = k * bs.length := by
  induction h with
  | nil => rfl
  | cons b sw rest bs hk hsw _ ih =>
    have : sw.filter (fun e => match e with | .swap _ _ _ => true | _ => false) = sw := by
      rw [List.filter_eq_self]
      intro e he
      obtain ⟨i, j, d, rfl⟩ := hsw e he
      rfl
    simp only [List.filter_cons, Bool.false_eq_true, if_false, List.filter_append, this, List.length_append, ih, hk,
      List.length_cons, List.cons_append]
    ring

/-- **C22.** With ladder tuning on, when the batches of a stack are done the tallies are the numbers of swaps proposed and made with
each first chain in that stack: made is at most proposed for every chain, and the proposals of all chains sum to `N_swap`
times the number of batches. `K` bounds the numbers that `F` counts exactly (2^53 for doubles). -/
theorem swap_tallies [LawfulDraws F] (cfg : Cfg F) (hu : cfg.user.Wf cfg.nParm) (hn : 2 ≤ n) (hn' : n ≤ 2147483647)
    (hm : cfg.swapmode = 0 ∨ cfg.swapmode = 1) (ht : 0 < cfg.tuneLadder) (K : Nat) (hK : CountsExact F K) (root : Fin n)
    (nStack : Int) (h0 : 0 ≤ nStack) (hsmall : cfg.nSwap.toNat * nStack.toNat ≤ K) (fuel : Nat) (w w' : W n F)
    (ty : Tally n F) (hok : w.st.Ok cfg) (h : seqStackLoop cfg root nStack fuel 0 w Tally.zero = .ok (w', ty)) :
    ∃ (made proposed : Fin n → Nat) (evs : List (Ev n)) (bs : List Int),
      w'.hist.map Prod.fst = w.hist.map Prod.fst ++ evs ∧ StackShape cfg.nSwap.toNat evs bs ∧
      (∀ r, made r = madeAt r evs ∧ proposed r = proposedAt r evs) ∧
      (∀ r, ty.nsw r = ofI (made r : Int) ∧ ty.npr r = ofI (proposed r : Int) ∧ made r ≤ proposed r) ∧
      (List.ofFn proposed).sum = cfg.nSwap.toNat * bs.length := by
  obtain ⟨h', bs, h1, h2, h3⟩ := seqStackLoop_tally hu hn hn' hm ht hK (evs := []) h0 hok h
    (fun r => ⟨rfl, rfl⟩) (by intro r; simpa [proposedAt] using hsmall)
  refine ⟨fun r => madeAt r (h'.map Prod.fst), fun r => proposedAt r (h'.map Prod.fst), h'.map Prod.fst, bs,
    by rw [h1]; simp, h2, fun r => ⟨rfl, rfl⟩, fun r => ⟨?_, ?_, madeAt_le r _⟩, ?_⟩
  · simpa using (h3 r).1
  · simpa using (h3 r).2
  · rw [proposedAt_sum]
    exact h2.swaps

/-- Every stack of the demo has such tallies. -/
example (w : W 3 ℝ) (hok : w.st.Ok demoCfg) : ∃ (w' : W 3 ℝ) (ty : Tally 3 ℝ) (proposed : Fin 3 → Nat) (bs : List Int),
    seqStackLoop demoCfg 0 300 300 0 w Tally.zero = .ok (w', ty) ∧ bs.sum = 300 ∧ 
    (∀ r, ty.npr r = ofI (proposed r : Int)) ∧ (List.ofFn proposed).sum = 2 * bs.length := by
  have hv := demo_valid
  have hst := seqStackLoop_total demoCfg demoFile hv.toRunnable 0 300 (by simp [demoCfg]) 300 0 w Tally.zero (by decide) (by decide) hok
  obtain ⟨⟨w', ty⟩, h⟩ := hst
  obtain ⟨made, proposed, evs, bs, h1, h2, h3, h4, h5⟩ := swap_tallies demoCfg hv.user hv.ranks hv.ranksInt hv.mode (by simp [demoCfg]) _
    (countsExact_real 600) 0 300 (by decide) (by simp [demoCfg]) 300 w w' ty hok h
  obtain ⟨_, bs', g1, g2, g3, _⟩ := seqStackLoop_hist hv.user (by decide) hok h
  refine ⟨w', ty, proposed, bs, h, ?_, fun r => (h4 r).2.1, h5⟩
  rw [g1] at h1
  simp only [List.map_append, List.append_cancel_left_eq] at h1
  rw [← h2.sizes_eq, ← h1, g2.sizes_eq, g3]
  rfl

/-! ## C23: rates of pairs -/

/-- Swaps between chains `r` and `r+1`, in either order. -/
def pairProposed (r : Nat) (evs : List (Ev n)) : Nat :=
  (evs.filter (fun e => match e with
    | .swap i j _ => decide ((i.val = r ∧ j.val = r + 1) ∨ (i.val = r + 1 ∧ j.val = r)) | _ => false)).length

/-- Swaps made between chains `r` and `r+1`. -/
def pairMade (r : Nat) (evs : List (Ev n)) : Nat :=
  (evs.filter (fun e => match e with
    | .swap i j d => decide ((i.val = r ∧ j.val = r + 1) ∨ (i.val = r + 1 ∧ j.val = r)) && d | _ => false)).length

/-- **C23, mode 0.** When all swaps are between neighbours drawn as in swap mode 0 (`run_swap_partners`), the tallies of index `r`
count exactly the swaps between chains `r` and `r+1`. Missing: swap mode 1, where it is false (`pair_rate_mode1_wrong`). -/
theorem pair_rate_partial (evs : List (Ev n)) (h : ∀ e ∈ evs, ∀ i j d, e = Ev.swap i j d → j.val = i.val + 1) (r : Fin n) :
    proposedAt r evs = pairProposed r.val evs ∧ madeAt r evs = pairMade r.val evs := by
  constructor
  · unfold proposedAt pairProposed
    congr 1
    refine List.filter_congr (fun e he => ?_)
    cases e with
    | swap i j d =>
      have := h _ he i j d rfl
      simp only [decide_eq_decide]
      constructor
      · rintro rfl; exact .inl ⟨rfl, this⟩
      · rintro (⟨h1, _⟩ | ⟨h1, h2⟩)
        · exact Fin.ext h1
        · omega
    | _ => rfl
  · unfold madeAt pairMade
    congr 1
    refine List.filter_congr (fun e he => ?_)
    cases e with
    | swap i j d =>
      have := h _ he i j d rfl
      refine congrArg (· && d) ?_
      simp only [decide_eq_decide]
      constructor
      · rintro rfl; exact .inl ⟨rfl, this⟩
      · rintro (⟨h1, _⟩ | ⟨h1, h2⟩)
        · exact Fin.ext h1
        · omega
    | _ => rfl

example (r : Fin 4) : proposedAt r [.swap 1 2 true, .swap 0 1 false, .batch 5, .swap 1 2 false] =
    pairProposed (n := 4) r.val [.swap 1 2 true, .swap 0 1 false, .batch 5, .swap 1 2 false] := by
  refine (pair_rate_partial (n := 4) _ (fun e he i j d h => ?_) r).1
  subst h
  simp only [List.mem_cons, Ev.swap.injEq, List.not_mem_nil, or_false, reduceCtorEq, false_or] at he
  rcases he with ⟨rfl, rfl, rfl⟩ | ⟨rfl, rfl, rfl⟩ | ⟨rfl, rfl, rfl⟩ <;> rfl

example : proposedAt (1 : Fin 4) [.swap 1 2 true, .swap 0 1 false, .batch 5, .swap 1 2 false] = 2 ∧
    pairProposed (n := 4) 1 [.swap 1 2 true, .swap 0 1 false, .batch 5, .swap 1 2 false] = 2 ∧
    madeAt (1 : Fin 4) [.swap 1 2 true, .swap 0 1 false, .batch 5, .swap 1 2 false] = 1 := by decide

/-- **C23 is false in swap mode 1.** With three ranks there is a state of root's generator in which, whatever the chains, the next
swap is between chains 0 and 2, and it is tallied as a swap of the pair 0 and 1. -/
theorem pair_rate_mode1_wrong (cfg : Cfg ℝ) (hm : cfg.swapmode = 1) (ht : 0 < cfg.tuneLadder) (root : Fin 3) :
    ∃ g : Rng, ∀ (w : W 3 ℝ) (ty : Tally 3 ℝ), w.st.g root = g → ∃ w' d, 
      seqSwap cfg root w ty = .ok (w', ty.add 0 d) ∧ w'.hist = w.hist ++ [(.swap 0 2 d, w'.st)] := by
  refine ⟨1, fun w ty hg => ?_⟩
  have ha : lcgNext 1 = 25214903928 := by decide
  have hb : lcgNext 25214903928 = 206026503483683 := by decide
  have h0 : i4Unif0a ℝ (((3 : Nat) : Int) - 1) 1 = (0, 25214903928) := by
    simp only [i4Unif0a, drand48_posix, ha, i4Unif0aVal, RealArith.floorI_eq, RealArith.mul_eq, RealArith.lit_eq, RealArith.ofI_eq,
      Prod.mk.injEq, and_true, Int.floor_eq_iff, lcgM]
    norm_num
  have h1 : i4Unif0a ℝ (((3 : Nat) : Int) - 1) 25214903928 = (1, 206026503483683) := by
    simp only [i4Unif0a, drand48_posix, hb, i4Unif0aVal, RealArith.floorI_eq, RealArith.mul_eq, RealArith.lit_eq, RealArith.ofI_eq,
      Prod.mk.injEq, and_true, Int.floor_eq_iff, lcgM]
    norm_num
  have hi : toIdx 3 (i4Unif0a ℝ (((3 : Nat) : Int) - 1) (w.st.g root)).1 = .ok 0 := by rw [hg, h0]; rfl
  have hj : toIdx 3 (pickJ ℝ 3 cfg.swapmode (i4Unif0a ℝ (((3 : Nat) : Int) - 1) (w.st.g root)).1
      (i4Unif0a ℝ (((3 : Nat) : Int) - 1) (w.st.g root)).2).1 = .ok 2 := by
    rw [hg, h0, hm]
    simp only [pickJ, h1]
    rfl
  simp only [seqSwap, if_pos ht]
  rw [hi, hj]
  exact ⟨_, _, rfl, rfl⟩

example : ∃ g : Rng, ∀ (w : W 3 ℝ) (ty : Tally 3 ℝ), w.st.g 0 = g → ∃ w' d, seqSwap { demoCfg with swapmode := 1 } 0 w ty = .ok (w', ty.add 0 d) ∧
    w'.hist = w.hist ++ [(.swap 0 2 d, w'.st)] := pair_rate_mode1_wrong { demoCfg with swapmode := 1 } rfl (by simp [demoCfg]) 0

end NiiC
