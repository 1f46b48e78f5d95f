import Verif.Props.Flow
import Verif.Props.Together

/-!
# The file of inverse temperatures and the files of widths, line by line: C108
-/

set_option linter.unusedSectionVars false
set_option linter.unusedSimpArgs false

namespace NiiC

open Spec

variable {n : Nat} {F : Type} [Arith F] [Source F]

/-! ## What is claimed -/

omit [Arith F] [Source F] in
/-- One stack as seen from the files: the iterations before it and at its end, the inverse temperatures and the widths with which it is run, the numbers of
proposals accepted before it and at its end, and what each rank writes in it after its headings. -/
structure StackRec (n : Nat) (F : Type) where
  first : Int
  last : Int
  betas : Fin n → F
  widths : Fin n → List F
  before : Fin n → Nat
  after : Fin n → Nat
  lines : Fin n → List (Line F)

omit [Arith F] [Source F] in
/-- What rank `r` writes in a stack: a line of its width file, on root a line of the file of inverse temperatures, then the rest. -/
def StackRec.log (root r : Fin n) (s : StackRec n F) : List (Line F) :=
  .sigma r.val (s.widths r) :: ((if r = root then [.betas (List.ofFn s.betas)] else []) ++ s.lines r)

omit [Arith F] [Source F] in
/-- A line that rank `r` may write in the stack after the headings: a line of its chain file for an iteration of this stack (the one for the last iteration with the
number accepted at the end of the stack), or a batch or swap begun with the inverse temperatures and the widths of the headings. -/
def StackRec.Holds (s : StackRec n F) (r : Fin n) : Line F → Prop
  | .row k _ _ i a => k = r.val ∧ s.first < i ∧ (i : Int) ≤ s.last ∧ ((i : Int) = s.last → a = s.after r)
  | .note i _ b w => s.first ≤ i ∧ (i : Int) ≤ s.last ∧ b = List.ofFn s.betas ∧ w = s.widths r
  | _ => False

omit [Source F] in
/-- What stands in the files before the first stack. -/
def startLines (cfg : Cfg F) (file : DataFile F) (data : List F) (clock : Nat) (b0 : Fin n → F) (root r : Fin n) : List (Line F) :=
  let start := fun q => (cfg.user.initParm (seedOf root (startSeed cfg clock) q)).1
  (if r = root then [.mkdir] else []) ++ [.seed r.val (seedOf root (startSeed cfg clock) r)] ++ (if r = root then [.initParm (List.ofFn start)] else []) ++
    [.row r.val (start r) (logPost cfg (start r) file.nlines data (b0 r)) 0 0] ++ [.sigma r.val (cfg.user.initGp cfg.initGpRatio)]

omit [Source F] in
/-- The stacks from iteration `i` on belong together: each is as long as configured or ends the run, and a stack is run with other inverse temperatures or widths than the
one before it only where the ladder or the chain was tuned in between. -/
structure StackList (cfg : Cfg F) (i : Int) (ss : List (StackRec n F)) : Prop where
  /-- as many as fit, and one for what is left -/
  count : i < cfg.nIter → ((ss.length : Int) - 1) * cfg.nStack < cfg.nIter - i ∧ cfg.nIter - i ≤ ss.length * cfg.nStack
  none : cfg.nIter ≤ i → ss = []
  first : ∀ (k : Nat) (h : k < ss.length), ss[k].first = i + k * cfg.nStack
  last : ∀ (k : Nat) (h : k < ss.length), ss[k].last = min cfg.nIter (i + (k + 1) * cfg.nStack)
  lines : ∀ s ∈ ss, ∀ r, ∀ l ∈ s.lines r, s.Holds r l
  accepted : ∀ (k : Nat) (h : k + 1 < ss.length), ss[k + 1].before = ss[k].after
  ladder : ∀ (k : Nat) (h : k + 1 < ss.length), ss[k + 1].betas = ss[k].betas ∨ (0 < cfg.tuneLadder ∧ ss[k].last < cfg.nStopTuneLadder)
  tuned : ∀ (k : Nat) (h : k + 1 < ss.length) (r : Fin n), ss[k + 1].widths r = ss[k].widths r ∨
    (cfg.nBegintune < ss[k].last ∧ ss[k].last < cfg.nStoptune ∧ ss[k].last < cfg.nIter ∧
      ((cfg.arLower <. (ofI ((ss[k].after r : Int) - ss[k].before r) /. ofI (ss[k].last - ss[k].first))) &&
       ((ofI ((ss[k].after r : Int) - ss[k].before r) /. ofI (ss[k].last - ss[k].first)) <. cfg.arUpper)) = false)

/-! ## Proofs -/

theorem mhRun_mem (u : User F) (sigma : List F) (nline : Int) (data : List F) (beta : F) : ∀ (k : Nat) (c d : Ch F),
    d ∈ mhRun u sigma nline data beta k c → ∃ j, 1 ≤ j ∧ j ≤ k ∧ d = mhIter u sigma nline data beta j c := by
  intro k
  induction k with
  | zero => intro c d h; cases h
  | succ k ih =>
    intro c d h
    rcases List.mem_cons.1 h with rfl | h
    · exact ⟨1, by omega, by omega, rfl⟩
    · obtain ⟨j, h1, h2, rfl⟩ := ih _ d h
      exact ⟨j + 1, by omega, by omega, rfl⟩

theorem seqSwaps_lines {cfg : Cfg F} {root : Fin n} : ∀ {k : Nat} {w w' : W n F} {ty ty' : Tally n F},
    seqSwaps cfg root k w ty = .ok (w', ty') → (∃ L : Fin n → List (Line F), w'.log = (fun r => w.log r ++ L r) ∧
      ∀ r, ∀ l ∈ L r, ∃ a, l = .note (w.st.acc r) a (List.ofFn w.st.beta) (w.st.cur r)) ∧
      w'.st.beta = w.st.beta ∧ w'.st.cur = w.st.cur ∧ w'.st.sig = w.st.sig ∧ w'.st.acc = w.st.acc ∧ w'.st.accA = w.st.accA := by
  intro k
  induction k with
  | zero => intro w w' ty ty' h; cases h; exact ⟨⟨fun _ => [], by simp, by simp⟩, rfl, rfl, rfl, rfl, rfl⟩
  | succ k ih =>
    intro w w' ty ty' h
    simp only [seqSwaps, exc_bind] at h
    obtain ⟨⟨w1, ty1⟩, h1, h2⟩ := h
    obtain ⟨i, j, d, _, hst, -⟩ := seqSwap_spec h1
    have hl := seqSwap_log cfg root w w1 ty ty1 h1
    have e1 : w1.st.beta = w.st.beta := by rw [hst]
    have e2 : w1.st.cur = w.st.cur := by rw [hst]
    have e3 : w1.st.sig = w.st.sig := by rw [hst]
    obtain ⟨-, -, -, -, e4, e5⟩ := seqSwap_hist h1
    obtain ⟨⟨L, hL, hLm⟩, a1, a2, a3, a4, a5⟩ := ih h2
    refine ⟨⟨fun r => (w.st.loc r).note :: L r, ?_, ?_⟩, a1.trans e1, a2.trans e2, a3.trans e3, a4.trans e4, a5.trans e5⟩
    · rw [hL, hl]; funext r; simp
    · intro r l hl
      rcases List.mem_cons.1 hl with rfl | hl
      · exact ⟨_, rfl⟩
      · obtain ⟨a, rfl⟩ := hLm r l hl
        exact ⟨a, by rw [e1, e2, e4]⟩

theorem seqStackLoop_lines {cfg : Cfg F} (hu : cfg.user.Wf cfg.nParm) {root : Fin n} {nStack : Int} :
    ∀ {fuel : Nat} {i : Int} {w w' : W n F} {ty ty' : Tally n F}, i ≤ nStack → w.st.Ok cfg →
    seqStackLoop cfg root nStack fuel i w ty = .ok (w', ty') →
    ∃ L : Fin n → List (Line F), w'.log = (fun r => w.log r ++ L r) ∧ w'.st.beta = w.st.beta ∧ w'.st.cur = w.st.cur ∧ w'.st.sig = w.st.sig ∧
      (∀ r, (w'.st.acc r : Int) = w.st.acc r + (nStack - i)) ∧ (nStack ≤ i → w'.st.accA = w.st.accA) ∧
      ∀ r, ∀ l ∈ L r, (∃ (x : List F) (lp : F) (j a : Nat), l = .row r.val x lp j a ∧ w.st.acc r < j ∧ j ≤ w'.st.acc r ∧ (j = w'.st.acc r → a = w'.st.accA r)) ∨
        ∃ j a : Nat, l = .note j a (List.ofFn w.st.beta) (w.st.cur r) ∧ w.st.acc r ≤ j ∧ j ≤ w'.st.acc r := by
  intro fuel
  induction fuel with
  | zero =>
    intro i w w' ty ty' hi hok h
    simp only [seqStackLoop] at h
    split at h
    · cases h
    · cases h
      exact ⟨fun _ => [], by simp, rfl, rfl, rfl, fun r => by omega, fun _ => rfl, by simp⟩
  | succ fuel ih =>
    intro i w w' ty ty' hi hok h
    simp only [seqStackLoop] at h
    split at h
    · rename_i hlt
      simp only [exc_bind] at h
      obtain ⟨b, hb, w1, h1, ⟨w2, ty2⟩, h2, h3⟩ := h
      obtain ⟨hnx, hle⟩ := nextBatch_next hb
      have hok1 := (seqBatch_ok cfg hu b.1 _ w1 h1 (hok.setG root b.2.2)).1
      obtain ⟨hc, hst, _⟩ := seqBatch_chain hu h1 (hok.setG root b.2.2)
      have hok2 : w2.st.Ok cfg := (seqSwaps_steps cfg root _ w1 w2 ty ty2 h2).inv (P := fun w => w.st.Ok cfg)
        (fun _ _ hp h => h.ok hu hp) hok1
      obtain ⟨⟨L2, hL2, hm2⟩, b1, b2, b3, b4, b5⟩ := seqSwaps_lines h2
      obtain ⟨L3, hL3, c1, c2, c3, c4, c5, hm3⟩ := ih hle hok2 h3
      have e1 : w1.st.beta = w.st.beta := by rw [hst]
      have e2 : w1.st.cur = w.st.cur := by rw [hst]
      have e3 : w1.st.sig = w.st.sig := by rw [hst]
      have hacc : ∀ r, w1.st.acc r = w.st.acc r + b.1.toNat := by
        intro r
        have := congrArg Ch.acc (hc r).2.1
        rw [mhIter_acc] at this
        exact this
      have htop : ∀ r, (w'.st.acc r : Int) = w.st.acc r + (nStack - i) := by
        intro r
        have h4 := c4 r
        have h5 := hacc r
        have h6 := (hc r).1
        rw [b4] at h4
        omega
      refine ⟨fun r => ((w.st.loc r).note :: (if cfg.saveBegin ≤ w.st.acc r + b.1.toNat then
          ((w.st.setG root b.2.2).mh cfg r b.1.toNat).map (line r.val) else [])) ++ (L2 r ++ L3 r), ?_, by rw [c1, b1, e1], by rw [c2, b2, e2],
          by rw [c3, b3, e3], htop, fun h => absurd hlt (by omega), fun r l hl => ?_⟩
      · rw [hL3, hL2]
        funext r
        simp only [(hc r).2.2, List.append_assoc]
        rfl
      · have h4 := c4 r
        have h5 := hacc r
        have h6 := (hc r).1
        have h7 := htop r
        rw [b4] at h4
        rcases List.mem_append.1 hl with hl | hl
        · rcases List.mem_cons.1 hl with rfl | hl
          · exact .inr ⟨w.st.acc r, _, rfl, le_refl _, by omega⟩
          · left
            split at hl
            · obtain ⟨d, hd, rfl⟩ := List.mem_map.1 hl
              obtain ⟨j, hj1, hj2, rfl⟩ := mhRun_mem _ _ _ _ _ _ _ _ hd
              refine ⟨_, _, _, _, rfl, ?_, ?_, fun he => ?_⟩
              · rw [mhIter_acc]
                show w.st.acc r < w.st.acc r + j
                omega
              · rw [mhIter_acc]
                show w.st.acc r + j ≤ _
                omega
              · rw [mhIter_acc] at he
                have he' : w.st.acc r + j = w'.st.acc r := he
                have hj : j = b.1.toNat := by omega
                have hn : nStack ≤ b.2.1 := by omega
                rw [c5 hn, b5]
                have := congrArg Ch.accA (hc r).2.1
                rw [hj]
                exact this.symm
            · cases hl
        · rcases List.mem_append.1 hl with hl | hl
          · obtain ⟨a, rfl⟩ := hm2 r l hl
            exact .inr ⟨_, a, by rw [e1, e2], by omega, by omega⟩
          · rcases hm3 r l hl with ⟨x, lp, j, a, rfl, g1, g2, g3⟩ | ⟨j, a, rfl, g1, g2⟩
            · rw [b4] at g1
              exact .inl ⟨x, lp, j, a, rfl, by omega, g2, g3⟩
            · rw [b4] at g1
              exact .inr ⟨j, a, by rw [b1, b2, e1, e2], by omega, g2⟩
    · cases h
      exact ⟨fun _ => [], by simp, rfl, rfl, rfl, fun r => by omega, fun _ => rfl, by simp⟩

/-- One stack as a record. -/
theorem seqStack_record {cfg : Cfg F} (hu : cfg.user.Wf cfg.nParm) {root : Fin n} {nStack i : Int} (h0 : 0 ≤ nStack) {w w' : W n F}
    (hok : w.st.Ok cfg) (hi : ∀ r, (w.st.acc r : Int) = i) (h : seqStack cfg root nStack (seqWidths w) = .ok w') : ∃ s : StackRec n F,
      s.first = i ∧ s.last = i + nStack ∧ s.betas = w.st.beta ∧ s.widths = w.st.sig ∧ s.before = w.st.accA ∧ s.after = w'.st.accA ∧
      (∀ r, ∀ l ∈ s.lines r, s.Holds r l) ∧ (w'.log = fun r => w.log r ++ s.log root r) ∧ w'.st.sig = w.st.sig ∧
      (w'.st.beta = w.st.beta ∨ (0 < cfg.tuneLadder ∧ s.last < cfg.nStopTuneLadder)) := by
  simp only [seqStack, exc_bind] at h
  obtain ⟨_, _, ⟨w1, ty1⟩, h1, h2⟩ := h
  have hok0 : (seqWidths w).st.Ok cfg := ⟨hok.acc, hok.x, hok.sig, hok.sig⟩
  obtain ⟨L, hL, hb, hcur, hsig, hacc, -, hm⟩ := seqStackLoop_lines hu h0 (by exact hok0) h1
  simp only at hL hb hcur hsig hacc hm
  have hacc' : ∀ r, (w1.st.acc r : Int) = i + nStack := by
    intro r
    have := hacc r
    have := hi r
    simp only [seqWidths, W.push] at *
    omega
  have hw : w'.log = w1.log ∧ w'.st.sig = w1.st.sig ∧ w'.st.accA = w1.st.accA ∧
      (w'.st.beta = w1.st.beta ∨ (0 < cfg.tuneLadder ∧ i + nStack < cfg.nStopTuneLadder)) := by
    split at h2
    · rename_i hc
      cases h2
      have := hacc' root
      have hc1 : (w1.st.acc root : Int) < cfg.nStopTuneLadder := hc.1
      exact ⟨by simp [seqLadder, W.push], rfl, rfl, .inr ⟨hc.2, by omega⟩⟩
    · cases h2
      exact ⟨rfl, rfl, rfl, .inl rfl⟩
  refine ⟨⟨i, i + nStack, w.st.beta, w.st.sig, w.st.accA, w'.st.accA, L⟩, rfl, rfl, rfl, rfl, rfl, rfl, ?_, ?_, ?_, ?_⟩
  · intro r l hl
    have h3 := hi r
    have h4 := hacc' r
    rcases hm r l hl with ⟨x, lp, j, a, rfl, g1, g2, g3⟩ | ⟨j, a, rfl, g1, g2⟩
    · have g1' : w.st.acc r < j := g1
      refine ⟨rfl, by simp only; omega, by simp only; omega, fun he => ?_⟩
      simp only at he ⊢
      rw [g3 (by omega), hw.2.2.1]
    · have g1' : w.st.acc r ≤ j := g1
      exact ⟨by simp only; omega, by simp only; omega, rfl, rfl⟩
  · rw [hw.1, hL]
    funext r
    simp [seqWidths, W.push, StackRec.log]
  · rw [hw.2.1, hsig]; rfl
  · rcases hw.2.2.2 with h | h
    · exact .inl (by rw [h, hb]; rfl)
    · exact .inr h

/-- A list of stacks with one more in front. -/
theorem StackList.cons {cfg : Cfg F} {i : Int} (hlt : i < cfg.nIter) {s : StackRec n F} {ss : List (StackRec n F)}
    (hf : s.first = i) (hl : s.last = min cfg.nIter (i + cfg.nStack)) (hm : ∀ r, ∀ l ∈ s.lines r, s.Holds r l)
    (h : StackList cfg (min cfg.nIter (i + cfg.nStack)) ss)
    (hnext : ∀ h : 0 < ss.length, ss[0].before = s.after ∧ (ss[0].betas = s.betas ∨ (0 < cfg.tuneLadder ∧ s.last < cfg.nStopTuneLadder)) ∧
      ∀ r : Fin n, ss[0].widths r = s.widths r ∨ (cfg.nBegintune < s.last ∧ s.last < cfg.nStoptune ∧ s.last < cfg.nIter ∧
        ((cfg.arLower <. (ofI ((s.after r : Int) - s.before r) /. ofI (s.last - s.first))) &&
         ((ofI ((s.after r : Int) - s.before r) /. ofI (s.last - s.first)) <. cfg.arUpper)) = false)) : StackList cfg i (s :: ss) := by
  have hshort : cfg.nIter ≤ i + cfg.nStack → ss = [] := fun h' => h.none (by omega)
  have hmin : ss ≠ [] → min cfg.nIter (i + cfg.nStack) = i + cfg.nStack := fun h' => by
    by_contra hc
    exact h' (hshort (by omega))
  refine ⟨fun _ => ?_, fun h' => absurd hlt (by omega), fun k hk => ?_, fun k hk => ?_, fun t ht => ?_, fun k hk => ?_, fun k hk => ?_, fun k hk r => ?_⟩
  · by_cases he : i + cfg.nStack < cfg.nIter
    · have h1 := h.count (by omega)
      have e1 : min cfg.nIter (i + cfg.nStack) = i + cfg.nStack := by omega
      rw [e1] at h1
      simp only [List.length_cons]
      push_cast
      constructor <;> nlinarith [h1.1, h1.2]
    · rw [hshort (by omega)]
      simp
      omega
  · cases k with
    | zero => simp [hf]
    | succ k =>
      have hne : ss ≠ [] := by rintro rfl; simp at hk
      have := h.first k (by simpa using hk)
      rw [hmin hne] at this
      simp only [List.getElem_cons_succ, this]
      push_cast
      ring
  · cases k with
    | zero => simp [hl]
    | succ k =>
      have hne : ss ≠ [] := by rintro rfl; simp at hk
      have := h.last k (by simpa using hk)
      rw [hmin hne] at this
      simp only [List.getElem_cons_succ, this]
      congr 1
      push_cast
      ring
  · rcases List.mem_cons.1 ht with rfl | ht
    · exact hm
    · exact h.lines t ht
  · cases k with
    | zero => exact (hnext (by simpa using hk)).1
    | succ k => exact h.accepted k (by simpa using hk)
  · cases k with
    | zero => exact (hnext (by simpa using hk)).2.1
    | succ k => exact h.ladder k (by simpa using hk)
  · cases k with
    | zero => exact (hnext (by simpa using hk)).2.2 r
    | succ k => exact h.tuned k (by simpa using hk) r

theorem seqFlowLoop_stacks {cfg : Cfg F} (hu : cfg.user.Wf cfg.nParm) (hs : 1 ≤ cfg.nStack) {root : Fin n} :
    ∀ {fuel : Nat} {nStack i : Int} {w w' : W n F}, (nStack = cfg.nStack ∨ cfg.nIter ≤ i) → (∀ r, (w.st.acc r : Int) = i) →
    w.st.Ok cfg → seqFlowLoop cfg root fuel nStack i w = .ok w' → ∃ ss : List (StackRec n F), StackList cfg i ss ∧
      (w'.log = fun r => w.log r ++ ss.flatMap (StackRec.log root r)) ∧
      ∀ h : 0 < ss.length, ss[0].betas = w.st.beta ∧ ss[0].widths = w.st.sig ∧ ss[0].before = w.st.accA := by
  intro fuel
  have base : ∀ (i : Int) (w : W n F), ¬ i < cfg.nIter → ∃ ss : List (StackRec n F), StackList cfg i ss ∧
      (w.log = fun r => w.log r ++ ss.flatMap (StackRec.log root r)) ∧
      ∀ h : 0 < ss.length, ss[0].betas = w.st.beta ∧ ss[0].widths = w.st.sig ∧ ss[0].before = w.st.accA := fun i w hi =>
    ⟨[], ⟨fun h => absurd h hi, fun _ => rfl, by simp, by simp, by simp, by simp, by simp, by simp⟩, by simp, by simp⟩
  induction fuel with
  | zero =>
    intro nStack i w w' hn hi hok h
    simp only [seqFlowLoop] at h
    split at h
    · cases h
    · cases h
      exact base i w (by assumption)
  | succ fuel ih =>
    intro nStack i w w' hn hi hok h
    simp only [seqFlowLoop] at h
    by_cases hlt : i < cfg.nIter
    · rw [if_pos hlt] at h
      obtain rfl : nStack = cfg.nStack := by omega
      simp only [exc_bind] at h
      obtain ⟨nx, hnx, w1, h1, w2, h2, h3⟩ := h
      have hnx' : nx = i + cfg.nStack := by
        unfold i32 at hnx
        split at hnx
        · cases hnx; rfl
        · cases hnx
      obtain ⟨e, he⟩ : ∃ e, e = min cfg.nIter (i + cfg.nStack) := ⟨_, rfl⟩
      have e1 : (if cfg.nIter < nx then cfg.nIter else nx) = e := by subst he; split <;> omega
      have e2 : (if cfg.nIter < nx then cfg.nIter - i else cfg.nStack) = e - i := by subst he; split <;> omega
      rw [e1, e2] at h2 h3
      rw [e2] at h1
      have hok0 : (seqWidths w).st.Ok cfg := ⟨hok.acc, hok.x, hok.sig, hok.sig⟩
      obtain ⟨_, _, _, _, _, hacc, hok1, _⟩ := seqStack_hist hu (by omega) (w := seqWidths w) hok0 h1
      have hA := seqStack_accA hu (by omega) hok0 h1
      have hafter : ∀ r, (w1.st.acc r : Int) = e := by
        intro r
        rw [hacc r]
        have := hi r
        simp only [seqWidths, W.push]
        omega
      obtain ⟨s, s1, s2, s3, s4, s5, s6, s7, s8, s9, s10⟩ := seqStack_record hu (by omega) hok hi h1
      have s2' : s.last = e := by rw [s2]; omega
      have h4 : w2.st.acc = w1.st.acc ∧ w2.st.accA = w1.st.accA ∧ w2.log = w1.log ∧ w2.st.beta = w1.st.beta ∧ w2.st.Ok cfg ∧
          ∀ r : Fin n, w2.st.sig r = w1.st.sig r ∨ (cfg.nBegintune < s.last ∧ s.last < cfg.nStoptune ∧ s.last < cfg.nIter ∧
            ((cfg.arLower <. (ofI ((s.after r : Int) - s.before r) /. ofI (s.last - s.first))) &&
             ((ofI ((s.after r : Int) - s.before r) /. ofI (s.last - s.first)) <. cfg.arUpper)) = false) := by
        by_cases hw : inTuneWindow cfg e = true
        · rw [if_pos hw] at h2
          obtain ⟨a1, a2, a3, _, _, a6, _, _, _, a7⟩ := seqTuneRanks_frame h2
          refine ⟨a1, a2, a3, a6, seqTuneRanks_ok hu h2 hok1, fun r => ?_⟩
          by_cases hf : tuneFlag cfg (stackRate F (w.st.accA r) (w1.st.accA r) (e - i)) = 1
          · right
            have hw' : cfg.nBegintune < e ∧ e < cfg.nStoptune ∧ e < cfg.nIter := by
              simpa [inTuneWindow, and_assoc] using hw
            rw [s2', s1, s5, s6]
            refine ⟨hw'.1, hw'.2.1, hw'.2.2, ?_⟩
            have h4 : w.st.accA r ≤ w1.st.accA r := (hA r).1
            simp only [stackRate, tuneFlag, Int.ofNat_sub h4] at hf
            rw [Bool.and_comm]
            cases hb : ((ofI (F := F) ((w1.st.accA r : Int) - w.st.accA r) /. ofI (e - i) <. cfg.arUpper) &&
              (cfg.arLower <. (ofI (F := F) ((w1.st.accA r : Int) - w.st.accA r) /. ofI (e - i)))) with
            | false => rfl
            | true => rw [hb] at hf; simp at hf
          · exact .inl (a7 r (.inr hf))
        · rw [if_neg hw] at h2
          cases h2
          exact ⟨rfl, rfl, rfl, rfl, hok1, fun r => .inl rfl⟩
      obtain ⟨a1, a2, a3, a4, a5, a6⟩ := h4
      obtain ⟨ss, hss, hlog, hhd⟩ := ih (by omega) (by rw [a1]; exact hafter) a5 h3
      refine ⟨s :: ss, .cons hlt s1 (by rw [s2', he]) s7 (by rw [← he]; exact hss) (fun h => ?_), ?_, fun _ => ⟨s3, s4, s5⟩⟩
      · obtain ⟨g1, g2, g3⟩ := hhd h
        refine ⟨by rw [g3, a2, s6], by rw [g1, a4, s3]; exact s10, fun r => ?_⟩
        rw [g2]
        rcases a6 r with h | h
        · exact .inl (by rw [h, s9, s4])
        · exact .inr h
      · rw [hlog, a3, s8]
        funext r
        simp
    · rw [if_neg hlt] at h
      cases h
      exact base i w hlt

/-! ## C108 -/

/-- **C108.** Every execution of a valid configuration writes, stack by stack, the same: after the lines written before the first stack, for each of the stacks of the run each
rank writes one line to its width file and root one line to the file of inverse temperatures; all moves and swaps of that stack are made with the widths and inverse
temperatures of these lines, and the chain lines that follow until the next heading are those of the iterations of that stack. The first stack has the configured values, and
a stack has other inverse temperatures or widths than the one before only where the program tunes: before `N_stopTuneLadder` with `Tune_Ladder > 0`, respectively in the
tuning window and for a chain whose acceptance in the stack before was not inside the interval. An execution that has not ended has written a beginning of this. -/
theorem stack_headings [LawfulDraws F] (cfg : Cfg F) (file : DataFile F) (hv : Valid n cfg file) (clock : Nat) (root : Fin n) :
    ∃ (b0 : Fin n → F) (data : List F) (ss : List (StackRec n F)), (∀ r : Fin n, cfg.betas[r.val]? = some (b0 r)) ∧ file.cells = .ok data ∧
      StackList cfg 0 ss ∧
      (∀ h : 0 < ss.length, ss[0].betas = b0 ∧ (∀ r, ss[0].widths r = cfg.user.initGp cfg.initGpRatio) ∧ ∀ r, ss[0].before r = 0) ∧
      ∀ (w : List (Label n)) (t : Sys n (Msg F) (Line F) (RSt n F)), (initSys cfg file clock root).exec w = some t → ∀ r,
        t.log r <+: startLines cfg file data clock b0 root r ++ ss.flatMap (StackRec.log root r) ∧
        ((∃ q, (t.procs q).done) → t.log r = startLines cfg file data clock b0 root r ++ ss.flatMap (StackRec.log root r)) := by
  obtain ⟨wf, hw, hall⟩ := log_prefix cfg file hv clock root
  obtain ⟨wf', hw', hdone⟩ := finish_together cfg file hv clock root
  obtain rfl : wf = wf' := Except.ok.inj (hw.symm.trans hw')
  have hw0 := hw
  simp only [seqMain, exc_bind] at hw
  obtain ⟨w0, h0, h1⟩ := hw
  have hok := seqInit_ok hv.user h0
  simp only [seqInit, exc_bind, Except.ok.injEq] at h0
  obtain ⟨_, _, data, hd, _, _, _, _, _, _, beta, hb, rfl⟩ := h0
  obtain ⟨ss, hss, hlog, hhd⟩ := seqFlowLoop_stacks hv.user hv.stack (.inl rfl) (by exact fun r => rfl) hok h1
  refine ⟨beta, data, ss, fun r => copyBetas_get hb r, hd, hss, fun h => ?_, fun w t ht r => ⟨?_, fun ⟨q, hq⟩ => ?_⟩⟩
  · obtain ⟨g1, g2, g3⟩ := hhd h
    exact ⟨g1, fun r => by rw [g2], fun r => by rw [g3]⟩
  · have := (hall w t ht).1 r
    rw [hlog] at this
    exact this
  · rw [hdone w t ht q hq]
    show wf.log r = _
    rw [hlog]
    rfl

omit [Arith F] [Source F] in
/-- The lines of the file of inverse temperatures among the lines of a rank. -/
def ladderLines (l : List (Line F)) : List (List F) := l.filterMap fun
  | .betas b => some b
  | _ => none

omit [Arith F] [Source F] in
/-- The lines of width files among the lines of a rank. -/
def widthLines (l : List (Line F)) : List (List F) := l.filterMap fun
  | .sigma _ s => some s
  | _ => none

omit [Arith F] [Source F] in
theorem StackRec.ladder_lines (root r : Fin n) {s : StackRec n F} (h : ∀ l ∈ s.lines r, s.Holds r l) :
    ladderLines (s.log root r) = if r = root then [List.ofFn s.betas] else [] := by
  have : ladderLines (s.lines r) = [] := by
    simp only [ladderLines, List.filterMap_eq_nil_iff]
    intro l hl
    have := h l hl
    cases l <;> simp_all [StackRec.Holds]
  simp only [StackRec.log, ladderLines, List.filterMap_cons, List.filterMap_append] at this ⊢
  rw [this]
  split <;> rfl

omit [Arith F] [Source F] in
theorem StackRec.width_lines (root r : Fin n) {s : StackRec n F} (h : ∀ l ∈ s.lines r, s.Holds r l) :
    widthLines (s.log root r) = [s.widths r] := by
  have : widthLines (s.lines r) = [] := by
    simp only [widthLines, List.filterMap_eq_nil_iff]
    intro l hl
    have := h l hl
    cases l <;> simp_all [StackRec.Holds]
  simp only [StackRec.log, widthLines, List.filterMap_cons, List.filterMap_append] at this ⊢
  rw [this]
  split <;> rfl

omit [Arith F] [Source F] in
theorem ladder_flat (root r : Fin n) : ∀ {ss : List (StackRec n F)}, (∀ s ∈ ss, ∀ r, ∀ l ∈ s.lines r, s.Holds r l) →
    ladderLines (ss.flatMap (StackRec.log root r)) = if r = root then ss.map (fun s => List.ofFn s.betas) else [] := by
  intro ss
  induction ss with
  | nil => intro _; simp [ladderLines]
  | cons s ss ih =>
    intro h
    have h1 := StackRec.ladder_lines root r (fun l hl => h s (by simp) r l hl)
    have h2 := ih (fun t ht => h t (by simp [ht]))
    simp only [ladderLines, List.flatMap_cons, List.filterMap_append] at h1 h2 ⊢
    rw [h1, h2]
    split <;> simp

omit [Arith F] [Source F] in
theorem width_flat (root r : Fin n) : ∀ {ss : List (StackRec n F)}, (∀ s ∈ ss, ∀ r, ∀ l ∈ s.lines r, s.Holds r l) →
    widthLines (ss.flatMap (StackRec.log root r)) = ss.map (fun s => s.widths r) := by
  intro ss
  induction ss with
  | nil => intro _; simp [widthLines]
  | cons s ss ih =>
    intro h
    have h1 := StackRec.width_lines root r (fun l hl => h s (by simp) r l hl)
    have h2 := ih (fun t ht => h t (by simp [ht]))
    simp only [widthLines, List.flatMap_cons, List.filterMap_append] at h1 h2 ⊢
    rw [h1, h2]
    simp

theorem start_ladder (cfg : Cfg F) (file : DataFile F) (data : List F) (clock : Nat) (b0 : Fin n → F) (root r : Fin n) :
    ladderLines (startLines cfg file data clock b0 root r) = [] ∧ widthLines (startLines cfg file data clock b0 root r) = [cfg.user.initGp cfg.initGpRatio] := by
  constructor <;> simp only [startLines, ladderLines, widthLines] <;> split <;> rfl

theorem StackList.length {cfg : Cfg F} (hs : 1 ≤ cfg.nStack) {ss : List (StackRec n F)} (h : StackList cfg 0 ss) :
    (ss.length : Int) = (max 0 cfg.nIter + cfg.nStack - 1) / cfg.nStack := by
  by_cases hz : 0 < cfg.nIter
  · rw [max_eq_right (by omega)]
    obtain ⟨h1, h2⟩ := h.count hz
    refine le_antisymm ?_ ?_
    · rw [Int.le_ediv_iff_mul_le (by omega)]
      nlinarith
    · rw [← Int.lt_add_one_iff, Int.ediv_lt_iff_lt_mul (by omega)]
      nlinarith
  · rw [h.none (by omega), show max 0 cfg.nIter + cfg.nStack - 1 = cfg.nStack - 1 by omega]
    rw [Int.ediv_eq_zero_of_lt (by omega) (by omega)]
    rfl

/-- In a list without steps all members are as the first. -/
theorem all_as_first {α : Type} {l : List α} {a : α} (h0 : ∀ h : 0 < l.length, l[0] = a) (h : ∀ (k : Nat) (h : k + 1 < l.length), l[k + 1] = l[k]) :
    ∀ b ∈ l, b = a := by
  have : ∀ (k : Nat) (hk : k < l.length), l[k] = a := by
    intro k
    induction k with
    | zero => exact h0
    | succ k ih => intro hk; rw [h k hk]; exact ih (by omega)
  intro b hb
  obtain ⟨k, hk, rfl⟩ := List.mem_iff_getElem.1 hb
  exact this k hk

theorem ofFn_take {betas : List F} {b0 : Fin n → F} (h : ∀ r : Fin n, betas[r.val]? = some (b0 r)) : List.ofFn b0 = betas.take n := by
  refine List.ext_getElem? (fun i => ?_)
  rw [List.getElem?_ofFn]
  by_cases hi : i < n
  · rw [dif_pos hi, List.getElem?_take_of_lt hi, h ⟨i, hi⟩]
  · rw [dif_neg hi, List.getElem?_eq_none (by simp; omega)]

/-- **C108, `Beta_Values_in_stack.dat`.** When a rank has ended, the file has one line for each stack, `N_iter / n_iter_a_stack` rounded up; the first is the configured ladder
(as many values as ranks), and all are when the ladder is not tuned. Only root writes to it. -/
theorem ladder_file [LawfulDraws F] (cfg : Cfg F) (file : DataFile F) (hv : Valid n cfg file) (clock : Nat) (root : Fin n)
    (w : List (Label n)) (t : Sys n (Msg F) (Line F) (RSt n F)) (h : (initSys cfg file clock root).exec w = some t) (q : Fin n) (hq : (t.procs q).done) :
    ((ladderLines (t.log root)).length : Int) = (max 0 cfg.nIter + cfg.nStack - 1) / cfg.nStack ∧
    (0 < cfg.nIter → (ladderLines (t.log root))[0]? = some (cfg.betas.take n)) ∧
    (cfg.tuneLadder ≤ 0 ∨ cfg.nStopTuneLadder ≤ cfg.nStack → ∀ b ∈ ladderLines (t.log root), b = cfg.betas.take n) ∧
    ∀ r, r ≠ root → ladderLines (t.log r) = [] := by
  obtain ⟨b0, data, ss, hb, hd, hss, hhd, hall⟩ := stack_headings cfg file hv clock root
  have hlog := fun r => (hall w t h r).2 ⟨q, hq⟩
  have hl : ∀ r, ladderLines (t.log r) = if r = root then ss.map (fun s => List.ofFn s.betas) else [] := by
    intro r
    have h1 := (start_ladder cfg file data clock b0 root r).1
    have h2 := ladder_flat root r hss.lines
    rw [hlog]
    simp only [ladderLines, List.filterMap_append] at h1 h2 ⊢
    rw [h1, h2]; simp
  rw [hl root, if_pos rfl]
  refine ⟨?_, fun hN => ?_, fun hc => ?_, fun r hr => by rw [hl, if_neg hr]⟩
  · rw [List.length_map]
    exact hss.length hv.stack
  · have hpos : 0 < ss.length := by
      have := (hss.count hN).2
      by_contra hz
      rw [show ss.length = 0 by omega] at this
      simp at this
      omega
    rw [List.getElem?_eq_getElem (by simpa using hpos), List.getElem_map, (hhd hpos).1, ofFn_take hb]
  · refine all_as_first (fun h => ?_) (fun k hk => ?_)
    · rw [List.getElem_map, (hhd (by simpa using h)).1, ofFn_take hb]
    · rw [List.length_map] at hk
      rw [List.getElem_map, List.getElem_map]
      rcases hss.ladder k hk with h | ⟨h1, h2⟩
      · rw [h]
      · exfalso
        rcases hc with hc | hc
        · omega
        · rw [hss.last k (by omega)] at h2
          have h3 := hss.first (k + 1) hk
          have h4 := hss.last (k + 1) hk
          have : ((k : Int) + 1) * cfg.nStack < cfg.nIter := by
            have := hss.count
            by_contra hx
            have h5 := (hss.count (by
              by_contra hz
              rw [hss.none (by omega)] at hk
              simp at hk)).1
            have h6 : ((k : Int) + 1) * cfg.nStack ≤ ((ss.length : Int) - 1) * cfg.nStack :=
              mul_le_mul_of_nonneg_right (by omega) (by have := hv.stack; omega)
            omega
          have h7 : cfg.nStack ≤ ((k : Int) + 1) * cfg.nStack := by
            have := hv.stack
            nlinarith
          omega

/-- **C108, `gaussian_prop.chain<r>`.** When a rank has ended, each width file has one line more than there are stacks: the first two are the widths at the start (written
before the first stack and again in it), and all are when no iteration at which tuning is possible lies in the tuning window. -/
theorem width_file [LawfulDraws F] (cfg : Cfg F) (file : DataFile F) (hv : Valid n cfg file) (clock : Nat) (root : Fin n)
    (w : List (Label n)) (t : Sys n (Msg F) (Line F) (RSt n F)) (h : (initSys cfg file clock root).exec w = some t) (q : Fin n) (hq : (t.procs q).done)
    (r : Fin n) :
    ((widthLines (t.log r)).length : Int) = (max 0 cfg.nIter + cfg.nStack - 1) / cfg.nStack + 1 ∧
    (widthLines (t.log r))[0]? = some (cfg.user.initGp cfg.initGpRatio) ∧
    (0 < cfg.nIter → (widthLines (t.log r))[1]? = some (cfg.user.initGp cfg.initGpRatio)) ∧
    ((∀ k : Nat, ¬ (cfg.nBegintune < k * cfg.nStack ∧ k * cfg.nStack < cfg.nStoptune ∧ k * cfg.nStack < cfg.nIter)) →
      ∀ s ∈ widthLines (t.log r), s = cfg.user.initGp cfg.initGpRatio) := by
  obtain ⟨b0, data, ss, hb, hd, hss, hhd, hall⟩ := stack_headings cfg file hv clock root
  have hlog := (hall w t h r).2 ⟨q, hq⟩
  have hl : widthLines (t.log r) = cfg.user.initGp cfg.initGpRatio :: ss.map (fun s => s.widths r) := by
    have h1 := (start_ladder cfg file data clock b0 root r).2
    have h2 := width_flat root r hss.lines
    rw [hlog]
    simp only [widthLines, List.filterMap_append] at h1 h2 ⊢
    rw [h1, h2]; simp
  rw [hl]
  refine ⟨?_, rfl, fun hN => ?_, fun hc => ?_⟩
  · rw [List.length_cons, List.length_map]
    have := hss.length hv.stack
    omega
  · have hpos : 0 < ss.length := by
      have := (hss.count hN).2
      by_contra hz
      rw [show ss.length = 0 by omega] at this
      simp at this
      omega
    rw [List.getElem?_cons_succ, List.getElem?_eq_getElem (by simpa using hpos), List.getElem_map, (hhd hpos).2.1]
  · intro s hs
    rcases List.mem_cons.1 hs with rfl | hs
    · rfl
    · refine all_as_first (fun h => ?_) (fun k hk => ?_) s hs
      · rw [List.getElem_map, (hhd (by simpa using h)).2.1]
      · rw [List.length_map] at hk
        rw [List.getElem_map, List.getElem_map]
        rcases hss.tuned k hk r with h | ⟨h1, h2, h3, -⟩
        · exact h
        · exfalso
          rw [hss.last k (by omega)] at h1 h2 h3
          refine hc (k + 1) ?_
          push_cast
          omega

/-- **C108, which lines were used.** When a rank has ended: a batch or swap that a rank began after `i` iterations, strictly inside the `k`-th stack, was made with the inverse
temperatures of line `k` of `Beta_Values_in_stack.dat` and the widths of line `k + 1` of its width file (counting from 0). -/
theorem lines_used [LawfulDraws F] (cfg : Cfg F) (file : DataFile F) (hv : Valid n cfg file) (clock : Nat) (root : Fin n)
    (w : List (Label n)) (t : Sys n (Msg F) (Line F) (RSt n F)) (h : (initSys cfg file clock root).exec w = some t) (q : Fin n) (hq : (t.procs q).done)
    (r : Fin n) (i a : Nat) (b s : List F) (hn : Line.note i a b s ∈ t.log r) (k : Nat) (hk : (k : Int) * cfg.nStack < i ∧ (i : Int) < (k + 1) * cfg.nStack) :
    (ladderLines (t.log root))[k]? = some b ∧ (widthLines (t.log r))[k + 1]? = some s := by
  obtain ⟨b0, data, ss, hb, hd, hss, hhd, hall⟩ := stack_headings cfg file hv clock root
  have hlog := fun r => (hall w t h r).2 ⟨q, hq⟩
  have hl : ladderLines (t.log root) = ss.map (fun s => List.ofFn s.betas) := by
    have h1 := (start_ladder cfg file data clock b0 root root).1
    have h2 := ladder_flat root root hss.lines
    rw [hlog]
    simp only [ladderLines, List.filterMap_append] at h1 h2 ⊢
    rw [h1, h2]; simp
  have hw : widthLines (t.log r) = cfg.user.initGp cfg.initGpRatio :: ss.map (fun s => s.widths r) := by
    have h1 := (start_ladder cfg file data clock b0 root r).2
    have h2 := width_flat root r hss.lines
    rw [hlog]
    simp only [widthLines, List.filterMap_append] at h1 h2 ⊢
    rw [h1, h2]; simp
  rw [hlog] at hn
  rcases List.mem_append.1 hn with hn | hn
  · exfalso
    simp only [startLines] at hn
    split at hn <;> simp at hn
  · obtain ⟨st, hst, hn⟩ := List.mem_flatMap.1 hn
    have hmem : Line.note i a b s ∈ st.lines r := by
      simp only [StackRec.log, List.mem_cons, List.mem_append] at hn
      rcases hn with hn | hn | hn
      · cases hn
      · split at hn
        · simp at hn
        · cases hn
      · exact hn
    obtain ⟨g1, g2, rfl, rfl⟩ := hss.lines st hst r _ hmem
    obtain ⟨m, hm, rfl⟩ := List.mem_iff_getElem.1 hst
    have hS := hv.stack
    rw [hss.first m hm] at g1
    rw [hss.last m hm] at g2
    have g3 : (i : Int) ≤ (m + 1) * cfg.nStack := by omega
    have g4 : (m : Int) * cfg.nStack ≤ i := by omega
    have h1 : (m : Int) < k + 1 := lt_of_mul_lt_mul_right (lt_of_le_of_lt g4 hk.2) (by omega)
    have h2 : (k : Int) < m + 1 := lt_of_mul_lt_mul_right (lt_of_lt_of_le hk.1 g3) (by omega)
    obtain rfl : m = k := by omega
    rw [hl, hw]
    exact ⟨by rw [List.getElem?_map, List.getElem?_eq_getElem hm]; rfl, by rw [List.getElem?_cons_succ, List.getElem?_map, List.getElem?_eq_getElem hm]; rfl⟩

/-- **C105, the file of inverse temperatures.** If it cannot be opened, no rank of a run with at least one iteration finishes: the run comes to a standstill after finitely many
actions, and nothing wrong has been written. -/
theorem unwritable_ladder [LawfulDraws F] (cfg : Cfg F) (file : DataFile F) (hv : Valid n cfg file) (hN : 0 < cfg.nIter) (clock : Nat) (root : Fin n) (nm : Naming)
    (names : List Str) (hs : snprintf 100 (nm.dir ++ (c!"/") ++ (c!"Beta_Values_in_stack.dat")) ∈ names) :
    ∃ (w : W n F) (len : Nat), seqMain cfg file clock root = .ok w ∧
      ∀ (w₁ : List (Label n)) (t : Sys n (Msg F) (Line F) (RSt n F)),
        (startSys fun r => (mainProg cfg file clock root r).failing (nm.blocked names)).exec w₁ = some t →
        (∀ q, t.log q <+: w.log q ∧ ¬ (t.procs q).done) ∧ w₁.length ≤ len ∧ (t.Terminal → ∃ q f, t.procs q = .fault f) := by
  obtain ⟨w, len, hw, hall⟩ := unwritable_line cfg file hv clock root (nm.blocked names)
  have hx : ∃ b, Line.betas b ∈ w.log root := by
    have h := hw
    simp only [seqMain, exc_bind] at h
    obtain ⟨w0, h0, h1⟩ := h
    have hok := seqInit_ok hv.user h0
    have hacc : ∀ r, (w0.st.acc r : Int) = 0 := by
      simp only [seqInit, exc_bind, Except.ok.injEq] at h0
      obtain ⟨_, _, data, hd, _, _, _, _, _, _, beta, hb, rfl⟩ := h0
      exact fun r => rfl
    obtain ⟨ss, hss, hlog, -⟩ := seqFlowLoop_stacks hv.user hv.stack (.inl rfl) hacc hok h1
    cases ss with
    | nil =>
      have := (hss.count hN).2
      simp at this
      omega
    | cons s ss =>
      refine ⟨List.ofFn s.betas, ?_⟩
      rw [hlog]
      exact List.mem_append_right _ (by simp [StackRec.log])
  refine ⟨w, len, hw, fun w₁ t ht => ?_⟩
  obtain ⟨h1, h2, h3, -⟩ := hall w₁ t ht
  obtain ⟨b, hb⟩ := hx
  have h4 := h3 ⟨root, _, hb, by simpa [Naming.blocked, Naming.file] using hs⟩
  exact ⟨fun q => ⟨(h1 q).1, h4.1 q⟩, h2, h4.2⟩

example : ∃ (w : W 3 ℝ) (len : Nat), seqMain demoCfg demoFile 0 0 = .ok w ∧
      ∀ (w₁ : List (Label 3)) (t : Sys 3 (Msg ℝ) (Line ℝ) (RSt 3 ℝ)),
        (startSys fun r => (mainProg demoCfg demoFile 0 0 r).failing
          (Naming.blocked ⟨100, c!"chain", c!".dat", c!"results"⟩ [c!"results/Beta_Values_in_stack.dat"])).exec w₁ = some t →
        (∀ q, t.log q <+: w.log q ∧ ¬ (t.procs q).done) ∧ w₁.length ≤ len ∧ (t.Terminal → ∃ q f, t.procs q = .fault f) :=
  unwritable_ladder demoCfg demoFile demo_valid (by simp [demoCfg]) 0 0 ⟨100, c!"chain", c!".dat", c!"results"⟩ _
    (List.mem_singleton.2 (by decide +kernel))

/-! Examples with the demo run: three ranks, 1000 iterations in stacks of 300, the ladder tuned until iteration 700, widths between 200 and 950. -/

example : ∃ (data : List ℝ) (ss : List (StackRec 3 ℝ)), demoFile.cells = .ok data ∧ ss.length = 4 ∧ (∀ h : 3 < ss.length, ss[3].first = 900 ∧ ss[3].last = 1000) ∧
    (∀ h : 3 < ss.length, ss[3].betas = ss[2].betas) ∧
    ∀ (w : List (Label 3)) (t : Sys 3 (Msg ℝ) (Line ℝ) (RSt 3 ℝ)), (initSys demoCfg demoFile 0 0).exec w = some t →
      ∃ b0 : Fin 3 → ℝ, t.log 1 <+: startLines demoCfg demoFile data 0 b0 0 1 ++ ss.flatMap (StackRec.log 0 1) := by
  obtain ⟨b0, data, ss, -, hd, hss, -, hall⟩ := stack_headings demoCfg demoFile demo_valid 0 0
  have hl : ss.length = 4 := by
    have := hss.length demo_valid.stack
    simp only [demoCfg] at this
    omega
  refine ⟨data, ss, hd, hl, fun h => ?_, fun h => ?_, fun w t ht => ⟨b0, (hall w t ht 1).1⟩⟩
  · rw [hss.first 3 h, hss.last 3 h]
    simp [demoCfg]
  · rcases hss.ladder 2 h with h' | ⟨-, h'⟩
    · exact h'
    · rw [hss.last 2 (by omega)] at h'
      simp [demoCfg] at h'

example (w : List (Label 3)) (t : Sys 3 (Msg ℝ) (Line ℝ) (RSt 3 ℝ)) (h : (initSys demoCfg demoFile 0 0).exec w = some t) (hq : (t.procs 2).done) :
    (ladderLines (t.log 0)).length = 4 ∧ (ladderLines (t.log 0))[0]? = some [1 / 10, 1 / 2, 1] := by
  obtain ⟨h1, h2, -, -⟩ := ladder_file demoCfg demoFile demo_valid 0 0 w t h 2 hq
  simp only [demoCfg] at h1 h2
  exact ⟨by omega, h2 (by norm_num)⟩

example (w : List (Label 3)) (t : Sys 3 (Msg ℝ) (Line ℝ) (RSt 3 ℝ)) (h : (initSys demoCfg demoFile 0 0).exec w = some t) (hq : (t.procs 2).done) :
    (widthLines (t.log 1)).length = 5 := by
  have h1 := (width_file demoCfg demoFile demo_valid 0 0 w t h 2 hq 1).1
  simp only [demoCfg] at h1
  omega

example (w : List (Label 3)) (t : Sys 3 (Msg ℝ) (Line ℝ) (RSt 3 ℝ)) (h : (initSys demoCfg demoFile 0 0).exec w = some t) (hq : (t.procs 2).done) (a : Nat)
    (b s : List ℝ) (hn : Line.note 350 a b s ∈ t.log 1) : (ladderLines (t.log 0))[1]? = some b ∧ (widthLines (t.log 1))[2]? = some s :=
  lines_used demoCfg demoFile demo_valid 0 0 w t h 2 hq 1 350 a b s hn 1 (by norm_num [demoCfg])

end NiiC
