import Mathlib.Data.List.TakeWhile
import Verif.Model.Launch
import Verif.Model.Spmd
import Verif.Refine.Print

/-!
# Lemmas about the start of a run
-/

set_option linter.unusedSectionVars false

namespace NiiC
open Spec

/-! ## Fields -/

/-- The first of the fields of a text. -/
theorem tokens_first (dl s : Str) : (tokens dl s = [] ∧ ∀ c ∈ s, c ∈ dl) ∨
    ∃ lead t rest, s = lead ++ t ++ rest ∧ (∀ c ∈ lead, c ∈ dl) ∧ t ≠ [] ∧ (∀ c ∈ t, c ∉ dl) ∧ Stops (fun c => decide (c ∉ dl)) rest ∧
      tokens dl s = t :: tokens dl rest := by
  induction s with
  | nil => exact .inl ⟨rfl, by simp⟩
  | cons c cs ih =>
    by_cases hc : c ∈ dl
    · rw [tokens_delim dl c cs hc]
      rcases ih with ⟨h1, h2⟩ | ⟨lead, t, rest, rfl, h2, h3, h4, h5, h6⟩
      · exact .inl ⟨h1, by simpa [hc] using h2⟩
      · exact .inr ⟨c :: lead, t, rest, by simp, by simpa [hc] using h2, h3, h4, h5, h6⟩
    · right
      have ht : ∀ x ∈ c :: cs.takeWhile (fun c => decide (c ∉ dl)), x ∉ dl := by
        intro x hx
        rcases List.mem_cons.1 hx with rfl | hx
        · exact hc
        · simpa using List.mem_takeWhile_imp hx
      have hs : c :: cs = c :: cs.takeWhile (fun c => decide (c ∉ dl)) ++ cs.dropWhile (fun c => decide (c ∉ dl)) := by
        rw [List.cons_append, List.takeWhile_append_dropWhile]
      cases hd : cs.dropWhile (fun c => decide (c ∉ dl)) with
      | nil =>
        refine ⟨[], c :: cs.takeWhile (fun c => decide (c ∉ dl)), [], ?_, by simp, by simp, ht, trivial, ?_⟩
        · rw [hd] at hs; simpa using hs
        · rw [hs, hd, List.append_nil, tokens_run dl _ (by simp) ht]; rfl
      | cons d r =>
        have hdd : d ∈ dl := by
          have := List.head_dropWhile_not (p := fun c => decide (c ∉ dl)) (l := cs) (by rw [hd]; simp)
          simp only [hd, List.head_cons] at this
          simpa using this
        refine ⟨[], c :: cs.takeWhile (fun c => decide (c ∉ dl)), d :: r, ?_, by simp, by simp, ht, ?_, ?_⟩
        · rw [hd] at hs; simpa using hs
        · simpa [Stops] using hdd
        · rw [hs, hd, tokens_run_cons dl _ d r (by simp) ht hdd, tokens_delim dl d r hdd]

/-- A number in digits behind white space. -/
theorem scanInt_digits (ws w rest : Str) (hw : ∀ c ∈ ws, isSpace c = true) (hne : w ≠ []) (hd : ∀ c ∈ w, isDigit c = true) (hr : Stops isDigit rest) :
    scanInt (ws ++ w ++ rest) = some (natOf w : Int) := by
  obtain ⟨ds, rfl, hv, _⟩ := Print.digits_of w hd
  cases ds with
  | nil => exact absurd rfl hne
  | cons d ds =>
    have h1 : (ws ++ digitsText (d :: ds) ++ rest).dropWhile isSpace = digitsText (d :: ds) ++ rest := by
      rw [List.append_assoc, List.dropWhile_append_of_pos hw]
      exact List.dropWhile_cons_of_neg (by rw [(digitChar_ne d).2.2.2.2.2.2.2.2.2.2.2.2.2.2.2]; simp)
    have h2 : scanSign (digitsText (d :: ds) ++ rest) = (false, digitsText (d :: ds) ++ rest) := by
      have h := digitChar_ne d
      show scanSign (digitChar d :: (digitsText ds ++ rest)) = _
      unfold scanSign
      split
      · rename_i he; simp only [List.cons.injEq] at he; exact absurd he.1 h.1
      · rename_i he; simp only [List.cons.injEq] at he; exact absurd he.1 h.2.1
      · rfl
    simp only [scanInt, h1, h2, spanDigits_text (d :: ds) rest hr]
    rfl

/-! ## The table of inverse temperatures is used at the start only -/

section
variable {F : Type} [Arith F] [Source F] {n : Nat} (cfg : Cfg F) (b : List F)

/-- The configuration with another table. -/
abbrev Cfg.withBetas : Cfg F := { cfg with betas := b }

theorem genAllTune_betas (sig : List F) : genAllTune n (cfg.withBetas b) sig = genAllTune n cfg sig := by
  funext k i
  induction k generalizing i with
  | zero => rfl
  | succ k ih => simp only [genAllTune, ih]

theorem swapLoop_betas (me root slave : Fin n) : swapLoop (cfg.withBetas b) me root slave = swapLoop cfg me root slave := by
  funext k
  induction k with
  | zero => rfl
  | succ k ih => funext s ty; rw [swapLoop, swapLoop, ih]; rfl

theorem stackLoop_betas (me root slave : Fin n) (nStack : Int) :
    stackLoop (cfg.withBetas b) me root slave nStack = stackLoop cfg me root slave nStack := by
  funext fuel
  induction fuel with
  | zero => rfl
  | succ k ih => funext i j s ty; rw [stackLoop, stackLoop, ih, swapLoop_betas]; rfl

theorem runStack_betas (me root : Fin n) : runStack (cfg.withBetas b) me root = runStack cfg me root := by
  funext nStack s
  simp only [runStack, stackLoop_betas]
  rfl

theorem tuneParms_betas (me root rk : Fin n) (x : List F) (lp : F) :
    tuneParms (cfg.withBetas b) me root rk x lp = tuneParms cfg me root rk x lp := by
  funext k
  induction k with
  | zero => rfl
  | succ k ih => funext j s ts; rw [tuneParms, tuneParms, ih]; rfl

theorem tuneRank_betas (me root rk : Fin n) : tuneRank (cfg.withBetas b) me root rk = tuneRank cfg me root rk := by
  funext s
  simp only [tuneRank, tuneStart, tuneParms_betas, genAllTune_betas]
  rfl

theorem tuneRanks_betas (me root : Fin n) (fl : Fin n → Int) : tuneRanks (cfg.withBetas b) me root fl = tuneRanks cfg me root fl := by
  funext l
  induction l with
  | nil => rfl
  | cons rk l ih => funext s; rw [tuneRanks, tuneRanks, ih, tuneRank_betas]

theorem flowLoop_betas (me root : Fin n) : flowLoop (cfg.withBetas b) me root = flowLoop cfg me root := by
  funext fuel
  induction fuel with
  | zero => rfl
  | succ k ih => funext nStack i j s; simp only [flowLoop, ih, runStack_betas, tuneRanks_betas]; rfl

/-- Two tables with the same values for the ranks are the same to every rank. -/
theorem mainProg_betas (file : DataFile F) (clock : Nat) (root me : Fin n) (h : ∀ r : Fin n, b[r.val]? = cfg.betas[r.val]?) :
    mainProg (cfg.withBetas b) file clock root me = mainProg cfg file clock root me := by
  have hrd : ∀ r : Fin n, rd b r.val = rd cfg.betas r.val := fun r => by simp only [rd, h r]
  have hcopy : copyBetas n b = copyBetas n cfg.betas := by
    have hlen : n ≤ b.length ↔ n ≤ cfg.betas.length := by
      rcases Nat.eq_zero_or_pos n with h0 | h0
      · omega
      · have := h ⟨n - 1, by omega⟩
        have h1 := List.getElem?_eq_none_iff (l := b) (i := n - 1)
        have h2 := List.getElem?_eq_none_iff (l := cfg.betas) (i := n - 1)
        simp only at this
        rw [this, h2] at h1
        omega
    unfold copyBetas
    by_cases hn : n ≤ b.length
    · rw [dif_pos hn, dif_pos (hlen.1 hn)]
      congr 1
      funext r
      have := h r
      rw [List.getElem?_eq_getElem (by have := r.isLt; omega), List.getElem?_eq_getElem (by have := r.isLt; have := hlen.1 hn; omega)] at this
      exact Option.some.inj this
    · rw [dif_neg hn, dif_neg (fun hc => hn (hlen.2 hc))]
  have hinit : ∀ nline data x, initCalc (cfg.withBetas b) me root nline data x = initCalc cfg me root nline data x := by
    intro nline data x
    simp only [initCalc, hrd]
    rfl
  simp only [mainProg, hinit, hcopy, entireFlow, flowLoop_betas]
  rfl

end

/-! ## Programs that cannot end -/

section
variable {n : Nat} {V L α β : Type}

/-- No way through the program ends regularly. -/
def Proc.NoRet : Proc n V L α → Prop
  | .ret _ => False
  | .send _ _ _ k => NoRet k
  | .recv _ _ k => ∀ v, NoRet (k v)
  | .barrier k => NoRet k
  | .out _ k => NoRet k
  | .fault _ => True

theorem Proc.noRet_bind (p : Proc n V L α) (f : α → Proc n V L β) (h : ∀ a, (f a).NoRet) : (p.bind f).NoRet := by
  induction p with
  | ret a => exact h a
  | send d t v k ih => exact ih
  | recv s t k ih => exact fun v => ih v
  | barrier k ih => exact ih
  | out l k ih => exact ih
  | fault e => trivial

theorem Sys.noRet_step {s t : Sys n V L α} {l : Label n} (h : ∀ r, (s.procs r).NoRet) (hs : s.step l = some t) : ∀ r, (t.procs r).NoRet := by
  cases l with
  | rank q =>
    have hq := h q
    simp only [Sys.step, Sys.stepRank] at hs
    split at hs
    · rename_i hp
      rw [hp] at hq
      cases hs
      intro r
      by_cases hr : r = q
      · subst hr; simp only [Function.update_self]; exact hq
      · simpa [Function.update_of_ne hr] using h r
    · rename_i hp
      rw [hp] at hq
      split at hs
      · cases hs
      · cases hs
        intro r
        by_cases hr : r = q
        · subst hr; simpa using hq _
        · simpa [Function.update_of_ne hr] using h r
    · rename_i hp
      rw [hp] at hq
      cases hs
      intro r
      by_cases hr : r = q
      · subst hr; simp only [Function.update_self]; exact hq
      · simpa [Function.update_of_ne hr] using h r
    · cases hs
  | barrier =>
    simp only [Sys.step, Sys.stepBarrier] at hs
    split at hs
    · cases hs
      intro r
      have hr := h r
      show ((s.procs r).barrier?.getD (s.procs r)).NoRet
      cases hp : s.procs r <;> rw [hp] at hr <;> exact hr
    · cases hs

theorem Sys.noRet_exec {w : List (Label n)} {s t : Sys n V L α} (h : ∀ r, (s.procs r).NoRet) (hs : s.exec w = some t) : ∀ r, (t.procs r).NoRet := by
  induction w generalizing s with
  | nil => cases hs; exact h
  | cons l w ih =>
    rw [Sys.exec_cons] at hs
    cases h1 : s.step l with
    | none => rw [h1] at hs; cases hs
    | some s' => rw [h1] at hs; exact ih (Sys.noRet_step h h1) hs

theorem Proc.NoRet.not_done {p : Proc n V L α} (h : p.NoRet) : ¬ p.done := by
  cases p <;> first | exact h.elim | exact id

end

end NiiC
