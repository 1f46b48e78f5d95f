import Verif.Prob.Fresh
import Verif.Props.Sampler
import Verif.Seq.Total

/-!
# The sampler as a function of the numbers it draws

The sequential model without tuning, in exact arithmetic, with every call of `drand48` replaced by reading the next number of a stream, one stream
for each rank. `flow_stream` shows that the program computes this function of the streams of its generators. Helpers for C77.
-/

set_option linter.unusedSectionVars false
set_option linter.unusedSimpArgs false

namespace NiiC

open MeasureTheory Set NNReal

/-! ## The functions -/

/-- The numbers that the generator state `g` will give. -/
noncomputable def streamOf [Source ℝ] (g : Rng) : Draws := drawAt g

/-- Read two numbers. -/
def pop2 (ω : Draws) : (ℝ × ℝ) × Draws := (((pop ω).1, (pop (pop ω).2).1), (pop (pop ω).2).2)

/-- Read a pair for each parameter. -/
def pairsS : (d : Nat) → Draws → (Fin d → ℝ × ℝ) × Draws
  | 0, ω => (Fin.elim0, ω)
  | d + 1, ω => (Fin.cons (pop2 ω).1 (pairsS d (pop2 ω).2).1, (pairsS d (pop2 ω).2).2)

/-- The acceptance test, mpi_batch.c:214-226: a number is read only if the log-posterior does not rise. -/
noncomputable def acceptS (new old : ℝ) (ω : Draws) : Bool × Draws :=
  if Arith.log (ofI 1 /. ofI 1) <. (new -. old) then (true, ω)
  else ((pop ω).1 <. (Arith.exp (new -. old) *. ofI 1), (pop ω).2)

/-- What does not change while no tuning takes place: the target, the box, the widths and the ladder. -/
structure Setting (n d : Nat) where
  T : Target d
  lo : Fin d → ℝ
  hi : Fin d → ℝ
  s : Fin n → Fin d → ℝ≥0
  beta : Fin n → ℝ

section
variable {n d : Nat} (S : Setting n d)

/-- One iteration of the chain of rank `r`. -/
noncomputable def stepS (r : Fin n) (p : (Fin d → ℝ) × Draws) : (Fin d → ℝ) × Draws :=
  let w := pairsS d p.2
  let y := proposal S.lo S.hi (S.s r) p.1 w.1
  let a := acceptS (S.T.lp (S.beta r) y) (S.T.lp (S.beta r) p.1) w.2
  (if a.1 then y else p.1, a.2)

/-- One iteration of every chain. -/
noncomputable def roundS (p : (Fin n → Fin d → ℝ) × (Fin n → Draws)) : (Fin n → Fin d → ℝ) × (Fin n → Draws) :=
  (fun r => (stepS S r (p.1 r, p.2 r)).1, fun r => (stepS S r (p.1 r, p.2 r)).2)

/-- The two chains to be swapped, mpi_stack.c:163 and 236-247. -/
noncomputable def pickS (n : Nat) (mode : Int) (ω : Draws) : (Int × Int) × Draws :=
  if mode = 0 then ((i4Unif0aVal ((n : Int) - 1) (pop ω).1, i4Unif0aVal ((n : Int) - 1) (pop ω).1 + 1), (pop ω).2)
  else
    let i := i4Unif0aVal ((n : Int) - 1) (pop2 ω).1.1
    let j := i4Unif0aVal ((n : Int) - 1) (pop2 ω).1.2
    ((i, if i ≤ j then j + 1 else j), (pop2 ω).2)

/-- The judgement, mpi_stack.c:296-323. -/
noncomputable def judgeS (i j : Fin n) (p : (Fin n → Fin d → ℝ) × Draws) : (Fin n → Fin d → ℝ) × Draws :=
  let δ := S.T.lp (S.beta j) (p.1 i) +. S.T.lp (S.beta i) (p.1 j) -. S.T.lp (S.beta i) (p.1 i) -. S.T.lp (S.beta j) (p.1 j)
  if ofI 0 <. δ then (p.1 ∘ Equiv.swap i j, p.2)
  else (if (pop p.2).1 <. Arith.exp δ then p.1 ∘ Equiv.swap i j else p.1, (pop p.2).2)

/-- The judgement for indices given as numbers; nothing happens if they are not indices. -/
noncomputable def judgeI (ij : Int × Int) (p : (Fin n → Fin d → ℝ) × Draws) : (Fin n → Fin d → ℝ) × Draws :=
  match toIdx n ij.1, toIdx n ij.2 with
  | .ok i, .ok j => judgeS S i j p
  | _, _ => p

/-- One swap attempt with the stream of the root. -/
noncomputable def swapS (mode : Int) (p : (Fin n → Fin d → ℝ) × Draws) : (Fin n → Fin d → ℝ) × Draws :=
  judgeI S (pickS n mode p.2).1 (p.1, (pickS n mode p.2).2)

/-- Let the root do something with its stream and the table. -/
def onRoot {α β : Type} (root : Fin n) (m : α × Draws → β × Draws) (p : α × (Fin n → Draws)) : β × (Fin n → Draws) :=
  ((m (p.1, p.2 root)).1, Function.update p.2 root (m (p.1, p.2 root)).2)

/-- The size of the next batch when `i` iterations of the stack are done and the random part is `k`, mpi_stack.c:108-117. -/
def sizeOf' (cfg : Cfg ℝ) (nStack i k : Int) : Int := if nStack < i + (cfg.base + k) then nStack - i else cfg.base + k

/-- A batch and the swaps after it. -/
noncomputable def legS (cfg : Cfg ℝ) (root : Fin n) (b : Int) (p : (Fin n → Fin d → ℝ) × (Fin n → Draws)) : (Fin n → Fin d → ℝ) × (Fin n → Draws) :=
  (onRoot root (swapS S cfg.swapmode))^[cfg.nSwap.toNat] ((roundS S)^[b.toNat] p)

/-- A stack, mpi_stack.c:100-198. -/
noncomputable def stackS (cfg : Cfg ℝ) (root : Fin n) (nStack : Int) :
    (fuel : Nat) → (i : Int) → (Fin n → Fin d → ℝ) × (Fin n → Draws) → (Fin n → Fin d → ℝ) × (Fin n → Draws)
  | 0, _, p => p
  | fuel + 1, i, p =>
    if i < nStack then
      let k := i4UnifAbVal (-cfg.rand) cfg.rand (pop (p.2 root)).1
      let b := sizeOf' cfg nStack i k
      stackS cfg root nStack fuel (i + b) (legS S cfg root b (p.1, Function.update p.2 root (pop (p.2 root)).2))
    else p

/-- All stacks, mpi_flow.c:58-135 without tuning. -/
noncomputable def flowS (cfg : Cfg ℝ) (root : Fin n) :
    (fuel : Nat) → (nStack i : Int) → (Fin n → Fin d → ℝ) × (Fin n → Draws) → (Fin n → Fin d → ℝ) × (Fin n → Draws)
  | 0, _, _, p => p
  | fuel + 1, nStack, i, p =>
    if i < cfg.nIter then
      let nStack' := if cfg.nIter < i + nStack then cfg.nIter - i else nStack
      flowS cfg root fuel nStack' (i + nStack') (stackS S cfg root nStack' nStack'.toNat 0 p)
    else p

end

/-! ## The program computes them -/

section
variable [Source ℝ]

theorem pop_stream (g : Rng) : pop (streamOf g) = ((drand48 (F := ℝ) g).1, streamOf (drand48 (F := ℝ) g).2) := by
  refine Prod.ext rfl ?_
  funext k
  show drawAt g (k + 1) = drawAt (Source.next ℝ g) k
  rw [drawAt, drawAt, Function.iterate_succ_apply]

theorem pop2_stream (g : Rng) : pop2 (streamOf g) =
    (((drand48 (F := ℝ) g).1, (drand48 (F := ℝ) (drand48 (F := ℝ) g).2).1), streamOf (drand48 (F := ℝ) (drand48 (F := ℝ) g).2).2) := by
  rw [pop2, pop_stream]
  simp only [pop_stream]

theorem propose_stream : ∀ (d : Nat) (x s : Fin d → ℝ) (g : Rng),
    (Spec.propose (List.ofFn x) (List.ofFn s) g).1 = List.ofFn (fun i => x i +. boxMuller piLit ((pairsS d (streamOf g)).1 i).1 ((pairsS d (streamOf g)).1 i).2 *. s i) ∧
    streamOf (Spec.propose (List.ofFn x) (List.ofFn s) g).2 = (pairsS d (streamOf g)).2 := by
  intro d
  induction d with
  | zero => intro x s g; simp [Spec.propose, pairsS]
  | succ d ih =>
    intro x s g
    obtain ⟨h1, h2⟩ := ih (fun i => x i.succ) (fun i => s i.succ) (r8Normal01 (F := ℝ) g).2
    have hz : (r8Normal01 (F := ℝ) g).2 = (drand48 (F := ℝ) (drand48 (F := ℝ) g).2).2 := rfl
    have hp : (pop2 (streamOf g)).2 = streamOf (r8Normal01 (F := ℝ) g).2 := by rw [pop2_stream, hz]
    rw [List.ofFn_succ, List.ofFn_succ, List.ofFn_succ]
    simp only [Spec.propose, pairsS, h1, h2, hp, Fin.cons_zero, Fin.cons_succ, and_true, List.cons.injEq]
    rw [normal01_boxMuller, pop2_stream]

theorem accept_stream (new old : ℝ) (g : Rng) : acceptS new old (streamOf g) = ((Spec.accept new old g).1, streamOf (Spec.accept new old g).2) := by
  unfold acceptS Spec.accept
  rw [pop_stream]
  split <;> rfl

section
variable {n d : Nat}

/-- The configuration is one for the setting. -/
structure Fits (cfg : Cfg ℝ) (S : Setting n d) (nline : Int) (data : List ℝ) : Prop where
  parms : cfg.nParm = d
  wf : cfg.user.Wf cfg.nParm
  box : cfg.user.boundary = paraBoundary (List.ofFn fun i => (S.lo i, S.hi i))
  target : ∀ b (x : Fin d → ℝ), Spec.target cfg.user nline data b (List.ofFn x) = S.T.lp b x

variable {cfg : Cfg ℝ} {S : Setting n d} {nline : Int} {data : List ℝ}

theorem step_stream (hf : Fits cfg S nline data) (r : Fin n) (c : Spec.Ch ℝ) (x : Fin d → ℝ) (hx : c.x = List.ofFn x) (hl : c.lp = S.T.lp (S.beta r) x) :
    (Spec.mhStep cfg.user (List.ofFn fun i => (S.s r i : ℝ)) nline data (S.beta r) c).x = List.ofFn (stepS S r (x, streamOf c.g)).1 ∧
    (Spec.mhStep cfg.user (List.ofFn fun i => (S.s r i : ℝ)) nline data (S.beta r) c).lp = S.T.lp (S.beta r) (stepS S r (x, streamOf c.g)).1 ∧
    streamOf (Spec.mhStep cfg.user (List.ofFn fun i => (S.s r i : ℝ)) nline data (S.beta r) c).g = (stepS S r (x, streamOf c.g)).2 := by
  obtain ⟨h1, h2⟩ := propose_stream d x (fun i => (S.s r i : ℝ)) c.g
  have hy : cfg.user.boundary (Spec.propose c.x (List.ofFn fun i => (S.s r i : ℝ)) c.g).1 =
      List.ofFn (proposal S.lo S.hi (S.s r) x (pairsS d (streamOf c.g)).1) := by
    rw [hx, h1, hf.box, paraBoundary_ofFn]
    rfl
  unfold Spec.mhStep stepS
  simp only [hy, hf.target]
  rw [hx, ← h2, accept_stream, hl]
  split <;> simp [*]

theorem iter_stream (hf : Fits cfg S nline data) (r : Fin n) : ∀ (k : Nat) (c : Spec.Ch ℝ) (x : Fin d → ℝ), c.x = List.ofFn x → c.lp = S.T.lp (S.beta r) x →
    (Spec.mhIter cfg.user (List.ofFn fun i => (S.s r i : ℝ)) nline data (S.beta r) k c).x = List.ofFn ((stepS S r)^[k] (x, streamOf c.g)).1 ∧
    (Spec.mhIter cfg.user (List.ofFn fun i => (S.s r i : ℝ)) nline data (S.beta r) k c).lp = S.T.lp (S.beta r) ((stepS S r)^[k] (x, streamOf c.g)).1 ∧
    streamOf (Spec.mhIter cfg.user (List.ofFn fun i => (S.s r i : ℝ)) nline data (S.beta r) k c).g = ((stepS S r)^[k] (x, streamOf c.g)).2 := by
  intro k
  induction k with
  | zero => intro c x hx hl; exact ⟨hx, hl, rfl⟩
  | succ k ih =>
    intro c x hx hl
    obtain ⟨h1, h2, h3⟩ := step_stream hf r c x hx hl
    have := ih _ _ h1 h2
    rw [h3] at this
    exact this

theorem roundS_iter : ∀ (k : Nat) (p : (Fin n → Fin d → ℝ) × (Fin n → Draws)),
    (roundS S)^[k] p = (fun r => ((stepS S r)^[k] (p.1 r, p.2 r)).1, fun r => ((stepS S r)^[k] (p.1 r, p.2 r)).2) := by
  intro k
  induction k with
  | zero => intro p; rfl
  | succ k ih =>
    intro p
    rw [Function.iterate_succ_apply, ih]
    rfl

/-- The state of the run shows the table `p.1`; its generators will give the streams `p.2`. -/
structure Shows (cfg : Cfg ℝ) (S : Setting n d) (nline : Int) (data : List ℝ) (st : G n ℝ) (p : (Fin n → Fin d → ℝ) × (Fin n → Draws)) : Prop where
  x : ∀ r, st.x r = List.ofFn (p.1 r)
  lp : ∀ r, st.lp r = S.T.lp (S.beta r) (p.1 r)
  cur : ∀ r, st.cur r = List.ofFn fun i => (S.s r i : ℝ)
  sig : ∀ r, st.sig r = List.ofFn fun i => (S.s r i : ℝ)
  beta : st.beta = S.beta
  g : ∀ r, streamOf (st.g r) = p.2 r
  nline : st.nline = nline
  data : st.data = data

theorem batch_stream (hf : Fits cfg S nline data) (nb : Int) (hb : 0 < nb) (w w' : W n ℝ) (p : (Fin n → Fin d → ℝ) × (Fin n → Draws))
    (hp : Shows cfg S nline data w.st p) (h : seqBatch cfg nb w = .ok w') :
    Shows cfg S nline data w'.st ((roundS S)^[nb.toNat] p) ∧ ∀ r, w'.st.acc r = w.st.acc r + nb.toNat := by
  unfold seqBatch at h
  obtain ⟨bs, hbs, h⟩ := exc_bind.1 h
  rw [allOk_ok] at hbs
  have hw := (Except.ok.inj h).symm
  subst hw
  have key : ∀ r, (bs r).x = (Spec.mhIter cfg.user (w.st.cur r) w.st.nline w.st.data (w.st.beta r) nb.toNat ⟨w.st.x r, w.st.lp r, w.st.acc r, w.st.accA r, w.st.g r⟩).x ∧
      (bs r).lp = (Spec.mhIter cfg.user (w.st.cur r) w.st.nline w.st.data (w.st.beta r) nb.toNat ⟨w.st.x r, w.st.lp r, w.st.acc r, w.st.accA r, w.st.g r⟩).lp ∧
      (bs r).g = (Spec.mhIter cfg.user (w.st.cur r) w.st.nline w.st.data (w.st.beta r) nb.toNat ⟨w.st.x r, w.st.lp r, w.st.acc r, w.st.accA r, w.st.g r⟩).g ∧
      (bs r).acc = (Spec.mhIter cfg.user (w.st.cur r) w.st.nline w.st.data (w.st.beta r) nb.toNat ⟨w.st.x r, w.st.lp r, w.st.acc r, w.st.accA r, w.st.g r⟩).acc := fun r => by
    have h1 := hbs r
    have h2 := iterBatch_eq cfg.nParm cfg.user (w.st.cur r) w.st.nline w.st.data (w.st.beta r) hf.wf (by rw [hp.cur r, List.length_ofFn, hf.parms]) r.val
      cfg.saveBegin nb hb ⟨w.st.x r, w.st.lp r, w.st.acc r, w.st.accA r, w.st.g r⟩ (by rw [hp.x r, List.length_ofFn, hf.parms])
    have h3 : localBatch cfg r (w.st.loc r) nb (w.st.x r) (w.st.lp r) = _ := h2
    rw [h1] at h3
    rw [Except.ok.inj h3]
    exact ⟨rfl, rfl, rfl, rfl⟩
  have it := fun r => iter_stream hf r nb.toNat ⟨w.st.x r, w.st.lp r, w.st.acc r, w.st.accA r, w.st.g r⟩ (p.1 r) (hp.x r) (hp.lp r)
  simp only [hp.g] at it
  have key' := key
  simp only [hp.cur, hp.nline, hp.data, hp.beta] at key'
  rw [roundS_iter]
  refine ⟨⟨fun r => (key' r).1.trans (it r).1, fun r => (key' r).2.1.trans (it r).2.1, hp.cur, hp.sig, hp.beta, fun r => ?_, hp.nline, hp.data⟩, fun r => ?_⟩
  · show streamOf (bs r).g = _
    rw [(key' r).2.2.1]
    exact (it r).2.2
  · show (bs r).acc = _
    rw [(key r).2.2.2]
    exact mhIter_acc _ _ _ _ _ _ _

theorem pick_stream (mode : Int) (hm : mode = 0 ∨ mode = 1) (g : Rng) :
    pickS n mode (streamOf g) = (((i4Unif0a ℝ ((n : Int) - 1) g).1, (pickJ ℝ n mode (i4Unif0a ℝ ((n : Int) - 1) g).1 (i4Unif0a ℝ ((n : Int) - 1) g).2).1),
      streamOf (pickJ ℝ n mode (i4Unif0a ℝ ((n : Int) - 1) g).1 (i4Unif0a ℝ ((n : Int) - 1) g).2).2) := by
  rcases hm with rfl | rfl
  · simp only [pickS, pickJ, if_true, pop_stream, i4Unif0a]
  · simp only [pickS, pickJ, one_ne_zero, if_false, if_true, pop2_stream, i4Unif0a]
    rfl

theorem swap_stream (hf : Fits cfg S nline data) (hm : cfg.swapmode = 0 ∨ cfg.swapmode = 1) (root : Fin n) (w : W n ℝ) (ty : Tally n ℝ) (q : W n ℝ × Tally n ℝ)
    (p : (Fin n → Fin d → ℝ) × (Fin n → Draws)) (hp : Shows cfg S nline data w.st p) (h : seqSwap cfg root w ty = .ok q) :
    Shows cfg S nline data q.1.st (onRoot root (swapS S cfg.swapmode) p) ∧ q.1.st.acc = w.st.acc := by
  unfold seqSwap at h
  obtain ⟨i, hi, h⟩ := exc_bind.1 h
  obtain ⟨j, hj, h⟩ := exc_bind.1 h
  have hq := (Except.ok.inj h).symm
  subst hq
  refine ⟨?_, rfl⟩
  have hlij : logPost cfg (w.st.x i) w.st.nline w.st.data (w.st.beta j) = S.T.lp (S.beta j) (p.1 i) := by
    rw [hp.x, hp.nline, hp.data, hp.beta]; exact hf.target _ _
  have hlji : logPost cfg (w.st.x j) w.st.nline w.st.data (w.st.beta i) = S.T.lp (S.beta i) (p.1 j) := by
    rw [hp.x, hp.nline, hp.data, hp.beta]; exact hf.target _ _
  have hpk := pick_stream (n := n) cfg.swapmode hm (w.st.g root)
  rw [hp.g] at hpk
  set g' := (pickJ ℝ n cfg.swapmode (i4Unif0a ℝ ((n : Int) - 1) (w.st.g root)).1 (i4Unif0a ℝ ((n : Int) - 1) (w.st.g root)).2).2 with hg'
  have hS : swapS S cfg.swapmode (p.1, p.2 root) = judgeS S i j (p.1, streamOf g') := by
    simp only [swapS, judgeI, hpk, hi, hj]
  have hsw : ∀ r, Function.update (Function.update w.st.x i (w.st.x j)) j (w.st.x i) r = List.ofFn ((p.1 ∘ Equiv.swap i j) r) := by
    intro r
    by_cases hrj : r = j
    · subst hrj; simp [hp.x]
    · by_cases hri : r = i
      · subst hri; simp [Function.update_of_ne hrj, hp.x]
      · simp [Function.update_of_ne hrj, Function.update_of_ne hri, hp.x, Equiv.swap_apply_of_ne_of_ne hri hrj]
  have hswl : ∀ r, Function.update (Function.update w.st.lp i (S.T.lp (S.beta i) (p.1 j))) j (S.T.lp (S.beta j) (p.1 i)) r = S.T.lp (S.beta r) ((p.1 ∘ Equiv.swap i j) r) := by
    intro r
    by_cases hrj : r = j
    · subst hrj; simp
    · by_cases hri : r = i
      · subst hri; simp [Function.update_of_ne hrj]
      · simp [Function.update_of_ne hrj, Function.update_of_ne hri, hp.lp, Equiv.swap_apply_of_ne_of_ne hri hrj]
  -- both programs make the same decision
  set a := swapAccept (logPost cfg (w.st.x i) w.st.nline w.st.data (w.st.beta j)) (logPost cfg (w.st.x j) w.st.nline w.st.data (w.st.beta i)) (w.st.lp i) (w.st.lp j) g' with ha
  have hJ : judgeS S i j (p.1, streamOf g') = (if a.1 then p.1 ∘ Equiv.swap i j else p.1, streamOf a.2) := by
    rw [ha, hlij, hlji, hp.lp i, hp.lp j]
    unfold judgeS swapAccept
    simp only [pop_stream]
    split <;> simp_all
  have hon : onRoot root (swapS S cfg.swapmode) p = (if a.1 then p.1 ∘ Equiv.swap i j else p.1, Function.update p.2 root (streamOf a.2)) := by
    unfold onRoot
    rw [hS, hJ]
  rw [hon]
  refine ⟨fun r => ?_, fun r => ?_, hp.cur, hp.sig, hp.beta, fun r => ?_, hp.nline, hp.data⟩
  · show (if a.1 then swapTab w.st.tab i j _ _ else w.st.tab).x r = _
    by_cases hA : a.1 = true
    · simp only [hA, if_true, swapTab, G.tab]; exact hsw r
    · simp only [hA, G.tab]; exact hp.x r
  · show (if a.1 then swapTab w.st.tab i j _ _ else w.st.tab).lp r = _
    by_cases hA : a.1 = true
    · simp only [hA, if_true, swapTab, G.tab]; rw [hlij, hlji]; exact hswl r
    · simp only [hA, G.tab]; exact hp.lp r
  · show streamOf (Function.update w.st.g root a.2 r) = Function.update p.2 root (streamOf a.2) r
    by_cases hr : r = root
    · subst hr; simp
    · simp only [Function.update_of_ne hr]; exact hp.g r

theorem swaps_stream (hf : Fits cfg S nline data) (hm : cfg.swapmode = 0 ∨ cfg.swapmode = 1) (root : Fin n) : ∀ (k : Nat) (w : W n ℝ) (ty : Tally n ℝ)
    (q : W n ℝ × Tally n ℝ) (p : (Fin n → Fin d → ℝ) × (Fin n → Draws)), Shows cfg S nline data w.st p → seqSwaps cfg root k w ty = .ok q →
    Shows cfg S nline data q.1.st ((onRoot root (swapS S cfg.swapmode))^[k] p) ∧ q.1.st.acc = w.st.acc := by
  intro k
  induction k with
  | zero =>
    intro w ty q p hp h
    have := (Except.ok.inj h).symm
    subst this
    exact ⟨hp, rfl⟩
  | succ k ih =>
    intro w ty q p hp h
    unfold seqSwaps at h
    obtain ⟨r, hr, h⟩ := exc_bind.1 h
    obtain ⟨h1, h2⟩ := swap_stream hf hm root w ty r p hp hr
    obtain ⟨h3, h4⟩ := ih _ _ _ _ h1 h
    exact ⟨h3, h4.trans h2⟩

theorem nextBatch_stream (nStack i : Int) (g : Rng) (b : Int × Int × Rng) (h : nextBatch cfg nStack i g = .ok b) :
    b.1 = sizeOf' cfg nStack i (i4UnifAbVal (-cfg.rand) cfg.rand (pop (streamOf g)).1) ∧ b.2.1 = i + b.1 ∧ streamOf b.2.2 = (pop (streamOf g)).2 := by
  unfold nextBatch at h
  obtain ⟨_, _, h⟩ := exc_bind.1 h
  obtain ⟨_, _, h⟩ := exc_bind.1 h
  obtain ⟨nb, hnb, h⟩ := exc_bind.1 h
  obtain ⟨nx, hnx, h⟩ := exc_bind.1 h
  have e1 : nb = cfg.base + i4UnifAbVal (-cfg.rand) cfg.rand (drand48 (F := ℝ) g).1 := by
    unfold i32 at hnb
    split at hnb
    · exact (Except.ok.inj hnb).symm
    · cases hnb
  have e2 : nx = i + nb := by
    unfold i32 at hnx
    split at hnx
    · exact (Except.ok.inj hnx).symm
    · cases hnx
  rw [pop_stream]
  subst e2
  simp only [sizeOf', ← e1]
  split at h
  · rename_i hlt
    have := (Except.ok.inj h).symm
    subst this
    rw [if_pos hlt]
    exact ⟨rfl, by simp, rfl⟩
  · rename_i hlt
    have := (Except.ok.inj h).symm
    subst this
    rw [if_neg hlt]
    exact ⟨rfl, rfl, rfl⟩

theorem batch_pos (nb : Int) (w w' : W n ℝ) (hn : 0 < n) (h : seqBatch cfg nb w = .ok w') : 0 < nb := by
  by_contra hc
  unfold seqBatch at h
  obtain ⟨bs, hbs, h⟩ := exc_bind.1 h
  rw [allOk_ok] at hbs
  have h1 := hbs ⟨0, hn⟩
  unfold localBatch iterBatch at h1
  rw [if_pos (by omega)] at h1
  cases h1

theorem stack_stream (hf : Fits cfg S nline data) (hm : cfg.swapmode = 0 ∨ cfg.swapmode = 1) (root : Fin n) (nStack : Int) : ∀ (fuel : Nat) (i : Int)
    (w : W n ℝ) (ty : Tally n ℝ) (q : W n ℝ × Tally n ℝ) (p : (Fin n → Fin d → ℝ) × (Fin n → Draws)), Shows cfg S nline data w.st p →
    seqStackLoop cfg root nStack fuel i w ty = .ok q →
    Shows cfg S nline data q.1.st (stackS S cfg root nStack fuel i p) ∧ ∀ r, w.st.acc r ≤ q.1.st.acc r := by
  intro fuel
  induction fuel with
  | zero =>
    intro i w ty q p hp h
    unfold seqStackLoop at h
    split at h
    · cases h
    · have := (Except.ok.inj h).symm
      subst this
      exact ⟨hp, fun _ => le_rfl⟩
  | succ fuel ih =>
    intro i w ty q p hp h
    unfold seqStackLoop at h
    unfold stackS
    split at h
    · rename_i hlt
      rw [if_pos hlt]
      obtain ⟨b, hb, h⟩ := exc_bind.1 h
      obtain ⟨w1, hw1, h⟩ := exc_bind.1 h
      obtain ⟨r, hr, h⟩ := exc_bind.1 h
      obtain ⟨e1, e2, e3⟩ := nextBatch_stream nStack i _ b hb
      rw [hp.g] at e1 e3
      have hp1 : Shows cfg S nline data { w.st with g := Function.update w.st.g root b.2.2 } (p.1, Function.update p.2 root (pop (p.2 root)).2) := by
        refine ⟨hp.x, hp.lp, hp.cur, hp.sig, hp.beta, fun r => ?_, hp.nline, hp.data⟩
        by_cases hr : r = root
        · subst hr; simpa using e3
        · simp only [Function.update_of_ne hr]; exact hp.g r
      have hpos := batch_pos b.1 _ w1 (Nat.pos_of_ne_zero fun h0 => by subst h0; exact root.elim0) hw1
      obtain ⟨h1, h1a⟩ := batch_stream hf b.1 hpos _ w1 _ hp1 hw1
      obtain ⟨h2, h2a⟩ := swaps_stream hf hm root _ w1 ty r _ h1 hr
      obtain ⟨h3, h3a⟩ := ih _ _ _ _ _ h2 h
      rw [e2] at h3
      simp only [legS, ← e1]
      refine ⟨h3, fun r' => le_trans ?_ (h3a r')⟩
      rw [h2a, h1a]
      exact Nat.le_add_right _ _
    · rename_i hlt
      rw [if_neg hlt]
      have := (Except.ok.inj h).symm
      subst this
      exact ⟨hp, fun _ => le_rfl⟩

/-- Without tuning from iteration `i` on, the main loop computes `flowS` of the table and of the streams of the generators. -/
theorem flow_stream (hf : Fits cfg S nline data) (hm : cfg.swapmode = 0 ∨ cfg.swapmode = 1) (root : Fin n) : ∀ (fuel : Nat) (nStack i : Int)
    (w w' : W n ℝ) (p : (Fin n → Fin d → ℝ) × (Fin n → Draws)), Shows cfg S nline data { w.st with cur := w.st.sig } p →
    (∀ k, i < k → inTuneWindow cfg k = false) → (cfg.tuneLadder ≤ 0 ∨ cfg.nStopTuneLadder ≤ w.st.acc root) → 1 ≤ nStack →
    seqFlowLoop cfg root fuel nStack i w = .ok w' → Shows cfg S nline data { w'.st with cur := w'.st.sig } (flowS S cfg root fuel nStack i p) := by
  intro fuel
  induction fuel with
  | zero =>
    intro nStack i w w' p hp hT hL hs h
    unfold seqFlowLoop at h
    split at h
    · cases h
    · have := (Except.ok.inj h).symm
      subst this
      exact hp
  | succ fuel ih =>
    intro nStack i w w' p hp hT hL hs h
    unfold seqFlowLoop at h
    unfold flowS
    split at h
    · rename_i hlt
      rw [if_pos hlt]
      obtain ⟨nx, hnx, h⟩ := exc_bind.1 h
      have e : nx = i + nStack := by
        unfold i32 at hnx
        split at hnx
        · exact (Except.ok.inj hnx).symm
        · cases hnx
      subst e
      simp only at h
      set nS := (if cfg.nIter < i + nStack then cfg.nIter - i else nStack) with hnS
      have hnx' : (if cfg.nIter < i + nStack then cfg.nIter else i + nStack) = i + nS := by
        rw [hnS]; split <;> omega
      have hpos : 1 ≤ nS := by rw [hnS]; split <;> omega
      rw [hnx'] at h
      obtain ⟨w1, hw1, h⟩ := exc_bind.1 h
      rw [hT (i + nS) (by omega)] at h
      simp only [Bool.false_eq_true, if_false] at h
      obtain ⟨w2, hw2, h⟩ := exc_bind.1 h
      have := (Except.ok.inj hw2).symm
      subst this
      unfold seqStack at hw1
      obtain ⟨_, _, hw1⟩ := exc_bind.1 hw1
      obtain ⟨r, hr, hw1⟩ := exc_bind.1 hw1
      obtain ⟨h1, h1a⟩ := stack_stream hf hm root nS nS.toNat 0 _ Tally.zero r p hp hr
      have hno : ¬ ((r.1.st.acc root : Int) < cfg.nStopTuneLadder ∧ 0 < cfg.tuneLadder) := by
        have := h1a root
        have hac : w.st.acc root ≤ r.1.st.acc root := this
        rintro ⟨c1, c2⟩
        rcases hL with hL | hL
        · omega
        · omega
      rw [if_neg hno] at hw1
      have hw := (Except.ok.inj hw1).symm
      subst hw
      refine ih nS (i + nS) r.1 w' _ ⟨h1.x, h1.lp, h1.sig, h1.sig, h1.beta, h1.g, h1.nline, h1.data⟩ (fun k hk => hT k (by omega)) ?_ hpos h
      rcases hL with hL | hL
      · exact .inl hL
      · have hac : w.st.acc root ≤ r.1.st.acc root := h1a root
        exact .inr (by omega)
    · rename_i hlt
      rw [if_neg hlt]
      have := (Except.ok.inj h).symm
      subst this
      exact hp

end

end

end NiiC
