import Verif.Props.Extend

/-!
# What is saved does not change the sampling: C111
-/

set_option linter.unusedSectionVars false

namespace NiiC
open Sys Spec

variable {n : Nat} {F : Type} [Arith F] [Source F]

/-- A line that is not a row of an iteration before `B`. -/
def Line.from (B : Nat) : Line F → Bool
  | .row _ _ _ acc _ => decide (B ≤ acc)
  | _ => true

/-- The same configuration with another `N_save_begin`. -/
def Cfg.withSave (cfg : Cfg F) (B : Nat) : Cfg F := { cfg with saveBegin := B }

/-- Output of which the second has the rows from `B` on, and everything else, of the first. -/
structure Thinned (B : Nat) (l l' : List (Line F)) : Prop where
  sub : l'.Sublist l
  same : l'.filter (Line.from B) = l.filter (Line.from B)

theorem Thinned.refl (B : Nat) (l : List (Line F)) : Thinned B l l := ⟨List.Sublist.refl _, rfl⟩

theorem Thinned.append {B : Nat} {l l' m m' : List (Line F)} (h : Thinned B l l') (h' : Thinned B m m') : Thinned B (l ++ m) (l' ++ m') :=
  ⟨h.sub.append h'.sub, by rw [List.filter_append, List.filter_append, h.same, h'.same]⟩

theorem Thinned.cons {B : Nat} {l l' : List (Line F)} (a : Line F) (h : Thinned B l l') : Thinned B (a :: l) (a :: l') :=
  (Thinned.refl B [a]).append h

/-- Runs in the same state, the second with fewer rows. -/
structure Alike (B : Nat) (w w' : W n F) : Prop where
  st : w'.st = w.st
  log : ∀ r, Thinned B (w.log r) (w'.log r)

theorem Alike.push {B : Nat} {w w' : W n F} (h : Alike B w w') (e : Ev n) (st : G n F) {a a' : Fin n → List (Line F)}
    (ha : ∀ r, Thinned B (a r) (a' r)) : Alike B (w.push e st a) (w'.push e st a') :=
  ⟨rfl, fun r => (h.log r).append (ha r)⟩

theorem mhRun_acc_le (u : User F) (sigma : List F) (nline : Int) (data : List F) (beta : F) : ∀ (k : Nat) (c : Ch F),
    ∀ d ∈ mhRun u sigma nline data beta k c, d.acc ≤ c.acc + k := by
  intro k
  induction k with
  | zero => intro c d hd; cases hd
  | succ k ih =>
    intro c d hd
    have ha := mhStep_acc u sigma nline data beta c
    rcases List.mem_cons.1 hd with rfl | hd
    · omega
    · have := ih _ d hd
      omega

theorem localBatch_alike {cfg : Cfg F} (hu : cfg.user.Wf cfg.nParm) {B : Nat} (hB : cfg.saveBegin ≤ B) {me : Fin n} {s : Loc n F} {nb : Int}
    {x : List F} {lp : F} {b : BatchOut F} (hx : x.length = cfg.nParm) (hs : s.sigma.length = cfg.nParm)
    (h : localBatch cfg me s nb x lp = .ok b) :
    ∃ ls, localBatch (cfg.withSave B) me s nb x lp = .ok { b with lines := ls } ∧ Thinned B b.lines ls := by
  have h0 := (localBatch_eq cfg hu me s nb x lp b hx hs h).1
  rw [localBatch, iterBatch_eq cfg.nParm cfg.user s.sigma s.nline s.data (s.beta me) hu hs me.val cfg.saveBegin nb h0
    ⟨x, lp, s.acc, s.accA, s.g⟩ hx] at h
  have h' := iterBatch_eq cfg.nParm cfg.user s.sigma s.nline s.data (s.beta me) hu hs me.val B nb h0
    ⟨x, lp, s.acc, s.accA, s.g⟩ hx
  cases h
  refine ⟨_, h', ?_⟩
  simp only
  by_cases hc : B ≤ s.acc + nb.toNat
  · rw [if_pos hc, if_pos (by omega)]
    exact .refl _ _
  · rw [if_neg hc]
    refine ⟨List.nil_sublist _, ?_⟩
    symm
    rw [List.filter_nil, List.filter_eq_nil_iff]
    intro l hl
    split at hl
    · obtain ⟨d, hd, rfl⟩ := List.mem_map.1 hl
      have := mhRun_acc_le _ _ _ _ _ _ _ d hd
      simp only [line, Line.from, decide_eq_true_eq]
      simp only at this
      omega
    · cases hl

theorem seqBatch_alike {cfg : Cfg F} (hu : cfg.user.Wf cfg.nParm) {B : Nat} (hB : cfg.saveBegin ≤ B) {nb : Int} {w w' v : W n F}
    (hok : w.st.Ok cfg) (ha : Alike B w w') (h : seqBatch cfg nb w = .ok v) :
    ∃ v', seqBatch (cfg.withSave B) nb w' = .ok v' ∧ Alike B v v' := by
  simp only [seqBatch, exc_bind, allOk_ok, Except.ok.injEq] at h
  obtain ⟨bs, hb, rfl⟩ := h
  choose ls h1 h2 using fun r => localBatch_alike hu hB (hok.x r) (hok.cur r) (hb r)
  refine ⟨_, exc_bind.2 ⟨fun r => { bs r with lines := ls r }, allOk_ok.2 ?_, rfl⟩, ?_⟩
  · rw [ha.st]; exact h1
  · rw [ha.st]
    exact ha.push _ _ fun r => (h2 r).cons _

theorem seqSwaps_alike {cfg : Cfg F} {B : Nat} {root : Fin n} : ∀ (k : Nat) (w w' v : W n F) (ty tv : Tally n F), Alike B w w' →
    seqSwaps cfg root k w ty = .ok (v, tv) → ∃ v', seqSwaps (cfg.withSave B) root k w' ty = .ok (v', tv) ∧ Alike B v v' := by
  intro k
  induction k with
  | zero => intro w w' v ty tv ha h; cases h; exact ⟨w', rfl, ha⟩
  | succ k ih =>
    intro w w' v ty tv ha h
    simp only [seqSwaps, exc_bind] at h
    obtain ⟨⟨w1, ty1⟩, h1, h2⟩ := h
    have hs : ∃ w1', seqSwap (cfg.withSave B) root w' ty = .ok (w1', ty1) ∧ Alike B w1 w1' := by
      simp only [seqSwap, exc_bind, Except.ok.injEq, Prod.mk.injEq] at h1
      obtain ⟨i, hi, j, hj, rfl, rfl⟩ := h1
      have e := ha.st
      obtain ⟨st', log', hist'⟩ := w'
      subst e
      exact ⟨_, exc_bind.2 ⟨i, hi, exc_bind.2 ⟨j, hj, rfl⟩⟩, ha.push _ _ fun r => .refl _ _⟩
    obtain ⟨w1', h1', ha1⟩ := hs
    obtain ⟨v', h3, hv⟩ := ih w1 w1' v ty1 tv ha1 h2
    exact ⟨v', exc_bind.2 ⟨_, h1', h3⟩, hv⟩

theorem seqStackLoop_alike {cfg : Cfg F} (hu : cfg.user.Wf cfg.nParm) {B : Nat} (hB : cfg.saveBegin ≤ B) {root : Fin n} {m : Int} :
    ∀ (fuel : Nat) (i : Int) (w w' v : W n F) (ty tv : Tally n F), w.st.Ok cfg → Alike B w w' →
      seqStackLoop cfg root m fuel i w ty = .ok (v, tv) →
      ∃ v', seqStackLoop (cfg.withSave B) root m fuel i w' ty = .ok (v', tv) ∧ Alike B v v' := by
  intro fuel
  induction fuel with
  | zero =>
    intro i w w' v ty tv hok ha h
    simp only [seqStackLoop] at h ⊢
    split at h
    · cases h
    · rename_i hi
      cases h; exact ⟨w', if_neg hi, ha⟩
  | succ fuel ih =>
    intro i w w' v ty tv hok ha h
    simp only [seqStackLoop] at h ⊢
    split at h
    · rename_i hi
      rw [if_pos hi]
      simp only [exc_bind] at h ⊢
      obtain ⟨b, hb, w1, h1, ⟨w2, ty2⟩, h2, h3⟩ := h
      have hs := ((Steps.single (.draw w m i b hb)).trans (.single (.batch _ w1 b.1 h1))).trans
        (seqSwaps_steps cfg root _ w1 w2 ty ty2 h2)
      have e := ha.st
      obtain ⟨st', log', hist'⟩ := w'
      subst e
      obtain ⟨w1', h1', ha1⟩ := seqBatch_alike hu hB (w := { w with st := w.st.setG root b.2.2 })
        (w' := ⟨w.st.setG root b.2.2, log', hist'⟩) ⟨hok.acc, hok.x, hok.sig, hok.cur⟩ ⟨rfl, ha.log⟩ h1
      obtain ⟨w2', h2', ha2⟩ := seqSwaps_alike _ w1 w1' w2 ty ty2 ha1 h2
      obtain ⟨v', h3', hv⟩ := ih _ w2 w2' v ty2 tv (hs.inv (P := fun w => w.st.Ok cfg) (fun _ _ hp hs => hs.ok hu hp) hok) ha2 h3
      exact ⟨v', ⟨b, hb, w1', h1', _, h2', h3'⟩, hv⟩
    · rename_i hi
      cases h; exact ⟨w', if_neg hi, ha⟩

theorem seqStack_alike {cfg : Cfg F} (hu : cfg.user.Wf cfg.nParm) {B : Nat} (hB : cfg.saveBegin ≤ B) {root : Fin n} {m : Int}
    {w w' v : W n F} (hok : w.st.Ok cfg) (ha : Alike B w w') (h : seqStack cfg root m w = .ok v) :
    ∃ v', seqStack (cfg.withSave B) root m w' = .ok v' ∧ Alike B v v' := by
  simp only [seqStack, exc_bind] at h ⊢
  obtain ⟨s, hs, ⟨w1, ty1⟩, h1, h2⟩ := h
  have e := ha.st
  obtain ⟨st', log', hist'⟩ := w'
  subst e
  obtain ⟨w1', h1', ha1⟩ := seqStackLoop_alike hu hB _ _
    { w with log := fun r => w.log r ++ (if r = root then [.betas (List.ofFn w.st.beta)] else []) }
    ⟨w.st, fun r => log' r ++ (if r = root then [.betas (List.ofFn w.st.beta)] else []), hist'⟩ _ _ _
    (by exact ⟨hok.acc, hok.x, hok.sig, hok.cur⟩) ⟨rfl, fun r => (ha.log r).append (.refl _ _)⟩ h1
  have e1 := ha1.st
  split at h2
  · rename_i hc
    cases h2
    refine ⟨_, ⟨s, hs, (w1', ty1), h1', if_pos (by rw [e1]; exact hc)⟩, ?_⟩
    obtain ⟨st1', log1', hist1'⟩ := w1'
    subst e1
    exact ha1.push _ _ fun r => .refl _ _
  · rename_i hc
    cases h2
    exact ⟨_, ⟨s, hs, (w1', ty1), h1', if_neg (by rw [e1]; exact hc)⟩, ha1⟩

theorem genAllTune_withSave (cfg : Cfg F) (B : Nat) (s : List F) : ∀ (k j : Nat),
    genAllTune n (cfg.withSave B) s k j = genAllTune n cfg s k j := by
  intro k
  induction k with
  | zero => intro j; rfl
  | succ k ih => intro j; simp only [genAllTune, ih]; rfl

theorem seqTuneParms_withSave (cfg : Cfg F) (B : Nat) (rk : Fin n) (grid : List (Fin n → F)) : ∀ (k j : Nat) (s : G n F) (a : List (Fin n → F)),
    seqTuneParms (cfg.withSave B) rk grid k j s a = seqTuneParms cfg rk grid k j s a := by
  intro k
  induction k with
  | zero => intro j s a; rfl
  | succ k ih => intro j s a; simp only [seqTuneParms, ih]; rfl

theorem seqTuneRanks_alike {cfg : Cfg F} {B : Nat} {root : Fin n} (fl : Fin n → Int) : ∀ (l : List (Fin n)) (w w' v : W n F), Alike B w w' →
    seqTuneRanks cfg root fl l w = .ok v → ∃ v', seqTuneRanks (cfg.withSave B) root fl l w' = .ok v' ∧ Alike B v v' := by
  intro l
  induction l with
  | nil => intro w w' v ha h; cases h; exact ⟨w', rfl, ha⟩
  | cons rk l ih =>
    intro w w' v ha h
    simp only [seqTuneRanks, exc_bind] at h ⊢
    obtain ⟨w1, h1, h2⟩ := h
    split at h1
    · rename_i hf
      simp only [seqTuneRank, exc_bind, Except.ok.injEq] at h1
      obtain ⟨grid, hg, r, hr, d, hd, sg, hsg, rfl⟩ := h1
      have e := ha.st
      obtain ⟨st', log', hist'⟩ := w'
      subst e
      obtain ⟨v', h3, hv⟩ := ih _ _ v (ha.push _ _ fun r => .refl _ _) h2
      refine ⟨v', ⟨_, ?_, h3⟩, hv⟩
      rw [if_pos hf]
      simp only [seqTuneRank, exc_bind, genAllTune_withSave, seqTuneParms_withSave]
      exact ⟨grid, hg, r, hr, d, hd, sg, hsg, rfl⟩
    · rename_i hf
      cases h1
      obtain ⟨v', h3, hv⟩ := ih _ w' v ha h2
      exact ⟨v', ⟨w', if_neg hf, h3⟩, hv⟩

theorem seqFlowLoop_alike {cfg : Cfg F} (hu : cfg.user.Wf cfg.nParm) {B : Nat} (hB : cfg.saveBegin ≤ B) {root : Fin n} :
    ∀ (fuel : Nat) (nStack i : Int) (w w' v : W n F), w.st.Ok cfg → Alike B w w' → seqFlowLoop cfg root fuel nStack i w = .ok v →
      ∃ v', seqFlowLoop (cfg.withSave B) root fuel nStack i w' = .ok v' ∧ Alike B v v' := by
  intro fuel
  induction fuel with
  | zero =>
    intro nStack i w w' v hok ha h
    simp only [seqFlowLoop] at h ⊢
    split at h
    · cases h
    · rename_i hi
      cases h; exact ⟨w', if_neg hi, ha⟩
  | succ fuel ih =>
    intro nStack i w w' v hok ha h
    simp only [seqFlowLoop] at h ⊢
    by_cases hi : i < cfg.nIter
    · rw [if_pos hi] at h
      rw [if_pos (show i < (cfg.withSave B).nIter from hi)]
      simp only [exc_bind] at h ⊢
      obtain ⟨nx, hx, w1, h1, w2, h2, h3⟩ := h
      have hs1 := (Steps.single (.widths w)).trans (seqStack_steps cfg root _ _ w1 h1)
      have hok1 := hs1.inv (P := fun w => w.st.Ok cfg) (fun _ _ hp hs => hs.ok hu hp) hok
      have e := ha.st
      obtain ⟨st', log', hist'⟩ := w'
      subst e
      obtain ⟨w1', h1', ha1⟩ := seqStack_alike hu hB (w := seqWidths w) (w' := seqWidths ⟨w.st, log', hist'⟩)
        ⟨hok.acc, hok.x, hok.sig, hok.sig⟩ (ha.push _ _ fun r => .refl _ _) h1
      by_cases hw : inTuneWindow cfg (if cfg.nIter < nx then cfg.nIter else nx) = true
      · rw [if_pos hw] at h2
        obtain ⟨w2', h2', ha2⟩ := seqTuneRanks_alike _ _ w1 w1' w2 ha1 h2
        have hok2 := (seqTuneRanks_steps cfg root _ _ w1 w2 h2).inv (P := fun w => w.st.Ok cfg) (fun _ _ hp hs => hs.ok hu hp) hok1
        obtain ⟨v', h3', hv⟩ := ih _ _ w2 w2' v hok2 ha2 h3
        refine ⟨v', ⟨nx, hx, w1', h1', w2', ?_, h3'⟩, hv⟩
        rw [ha1.st]
        exact (if_pos hw).trans h2'
      · rw [if_neg hw] at h2
        cases h2
        obtain ⟨v', h3', hv⟩ := ih _ _ w1 w1' v hok1 ha1 h3
        exact ⟨v', ⟨nx, hx, w1', h1', w1', if_neg hw, h3'⟩, hv⟩
    · rw [if_neg hi] at h
      cases h
      exact ⟨w', if_neg hi, ha⟩

theorem seqMain_alike {cfg : Cfg F} (hu : cfg.user.Wf cfg.nParm) {file : DataFile F} {B : Nat} (hB : cfg.saveBegin ≤ B) {clock : Nat}
    {root : Fin n} {v : W n F} (h : seqMain cfg file clock root = .ok v) :
    ∃ v', seqMain (cfg.withSave B) file clock root = .ok v' ∧ Alike B v v' := by
  simp only [seqMain, exc_bind] at h ⊢
  obtain ⟨w, h0, h1⟩ := h
  obtain ⟨v', h1', hv⟩ := seqFlowLoop_alike hu hB _ _ _ w w v (seqInit_ok hu h0) ⟨rfl, fun r => .refl _ _⟩ h1
  exact ⟨v', ⟨w, h0, h1'⟩, hv⟩

/-- **C111.** Take a valid configuration and the same configuration with a later `N_save_begin` `B`. When executions of both, with
the same clock, data and root, have finished, every rank holds the same variables, and it has written the same lines except
that rows of iterations before `B` may be missing in the second: its output is a part, in order, of the output of the first,
and both have the same lines when rows of iterations before `B` are left out. -/
theorem save_begin_only_thins [LawfulDraws F] (cfg : Cfg F) (file : DataFile F) (hv : Valid n cfg file) (B : Nat) (hB : cfg.saveBegin ≤ B)
    (clock : Nat) (root : Fin n) (w₁ w₂ : List (Label n)) (t t' : Sys n (Msg F) (Line F) (RSt n F))
    (h : (initSys cfg file clock root).exec w₁ = some t) (hd : t.AllDone)
    (h' : (initSys { cfg with saveBegin := B } file clock root).exec w₂ = some t') (hd' : t'.AllDone) (r : Fin n) :
    t'.procs r = t.procs r ∧ (t'.log r).Sublist (t.log r) ∧
      (t'.log r).filter (Line.from B) = (t.log r).filter (Line.from B) := by
  obtain ⟨v, hw, hall⟩ := log_prefix cfg file hv clock root
  obtain ⟨v', hw', hall'⟩ := log_prefix (cfg.withSave B) file { hv with } clock root
  have e := (hall w₁ t h).2 hd
  have e' := (hall' w₂ t' h').2 hd'
  subst e e'
  obtain ⟨v'', hw'', ha⟩ := seqMain_alike hv.user hB hw
  rw [hw'] at hw''
  cases hw''
  refine ⟨?_, (ha.log r).sub, (ha.log r).same⟩
  simp only [finalSys, ha.st]

/-- Saving from iteration 500 on and from 800 on. -/
example (clock : Nat) (w₁ w₂ : List (Label 3)) (t t' : Sys 3 (Msg ℝ) (Line ℝ) (RSt 3 ℝ))
    (h : (initSys demoCfg demoFile clock 1).exec w₁ = some t) (hd : t.AllDone)
    (h' : (initSys { demoCfg with saveBegin := 800 } demoFile clock 1).exec w₂ = some t') (hd' : t'.AllDone) :
    t'.procs 2 = t.procs 2 ∧ (t'.log 2).Sublist (t.log 2) ∧
      (t'.log 2).filter (Line.from 800) = (t.log 2).filter (Line.from 800) :=
  save_begin_only_thins demoCfg demoFile demo_valid 800 (by simp [demoCfg]) clock 1 w₁ w₂ t t' h hd h' hd' 2

/-- Such executions exist. -/
example (clock : Nat) : ∃ (w₁ w₂ : List (Label 3)) (t t' : Sys 3 (Msg ℝ) (Line ℝ) (RSt 3 ℝ)),
    (initSys demoCfg demoFile clock 1).exec w₁ = some t ∧ t.AllDone ∧
    (initSys { demoCfg with saveBegin := 800 } demoFile clock 1).exec w₂ = some t' ∧ t'.AllDone := by
  obtain ⟨v, l, _, hall⟩ := distributed_eq_sequential demoCfg demoFile demo_valid clock 1
  obtain ⟨v', l', _, hall'⟩ := distributed_eq_sequential (demoCfg.withSave 800) demoFile { demo_valid with } clock 1
  obtain ⟨⟨w₁, h, _⟩, _⟩ := hall [] _ rfl
  obtain ⟨⟨w₂, h', _⟩, _⟩ := hall' [] _ rfl
  exact ⟨w₁, w₂, _, _, h, fun _ => trivial, h', fun _ => trivial⟩

end NiiC
