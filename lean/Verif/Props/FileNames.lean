import Verif.Model.FileNames
import Verif.Refine.Text
import Verif.Props.Files
import Mathlib.Tactic.IntervalCases

/-!
# C54: which file a line goes to
-/

set_option linter.unusedSectionVars false
set_option linter.unusedSimpArgs false

namespace NiiC
open Spec

theorem digitOut_val (d : Nat) (h : d < 10) : digitVal (digitOut d) = d ∧ isDigit (digitOut d) = true := by
  interval_cases d <;> decide

theorem printNat_digits (k : Nat) : ∀ c ∈ printNat k, isDigit c = true := by
  induction k using Nat.strongRecOn with
  | _ k ih =>
    rw [printNat]
    split
    · rename_i h
      intro c hc
      rw [List.mem_singleton.1 hc]
      exact (digitOut_val k h).2
    · intro c hc
      rcases List.mem_append.1 hc with h | h
      · exact ih (k / 10) (by omega) c h
      · rw [List.mem_singleton.1 h]
        exact (digitOut_val _ (by omega)).2

/-- The number printed is the number read. -/
theorem natOf_printNat (k : Nat) : natOf (printNat k) = k := by
  induction k using Nat.strongRecOn with
  | _ k ih =>
    rw [printNat]
    split
    · rename_i h
      simp [natOf, (digitOut_val k h).1]
    · have h1 := ih (k / 10) (by omega)
      simp only [natOf] at h1
      simp only [natOf, List.foldl_append, h1, List.foldl_cons, List.foldl_nil, (digitOut_val (k % 10) (by omega)).1]
      omega

theorem printNat_inj {i j : Nat} (h : printNat i = printNat j) : i = j := by
  rw [← natOf_printNat i, ← natOf_printNat j, h]

theorem printNat_ne (k : Nat) : ∃ c cs, printNat k = c :: cs ∧ isDigit c = true := by
  cases h : printNat k with
  | nil =>
    rw [printNat] at h
    split at h
    · cases h
    · simp at h
  | cons c cs => exact ⟨c, cs, rfl, printNat_digits k c (by rw [h]; simp)⟩

/-- The chain file's name fits the buffer. -/
def Naming.Fits (nm : Naming) (r : Nat) : Prop := (nm.chainFull r).length < nm.len

theorem snprintf_fit {size : Nat} {s : Str} (h : s.length < size) : snprintf size s = s := List.take_of_length_le (by omega)

/-- **C54.** Names that fit are different for different ranks. -/
theorem chain_names_apart (nm : Naming) {i j : Nat} (hi : nm.Fits i) (hj : nm.Fits j) (hij : i ≠ j) :
    snprintf nm.len (nm.chainFull i) ≠ snprintf nm.len (nm.chainFull j) := by
  rw [snprintf_fit hi, snprintf_fit hj]
  intro h
  simp only [Naming.chainFull, List.append_assoc, List.append_cancel_left_eq] at h
  exact hij (printNat_inj (List.append_cancel_right h))

/-- **C54.** Names that are cut: if there is no room for a digit, all ranks write to the same chain file. If there is room for some digits only, ranks whose numbers
begin with the same digits do. -/
theorem chain_names_cut (nm : Naming) {i j : Nat} (common di dj : Str) (hi : printNat i = common ++ di) (hj : printNat j = common ++ dj)
    (h : nm.len ≤ nm.dir.length + 1 + nm.pre.length + common.length + 1) :
    snprintf nm.len (nm.chainFull i) = snprintf nm.len (nm.chainFull j) := by
  have e : ∀ k d, printNat k = common ++ d → nm.chainFull k = (nm.dir ++ (c!"/") ++ nm.pre ++ common) ++ (d ++ nm.suf) := by
    intro k d hk
    simp [Naming.chainFull, hk]
  have hl : nm.len - 1 ≤ (nm.dir ++ (c!"/") ++ nm.pre ++ common).length := by
    simp only [List.length_append, List.length_cons, List.length_nil]
    omega
  rw [snprintf, snprintf, e i di hi, e j dj hj, List.take_append_of_le_length hl, List.take_append_of_le_length hl]

/-- Fixed names, and the widths' file. -/
def fixedName (nm : Naming) (s : Str) : Str := nm.dir ++ (c!"/") ++ s

theorem chain_ne_fixed (nm : Naming) (r : Nat) (s : Str) (hs : ∀ c ∈ s, isDigit c = false) : nm.chainFull r ≠ fixedName nm s := by
  intro h
  simp only [Naming.chainFull, fixedName, List.append_assoc, List.append_cancel_left_eq, List.cons_append, List.nil_append, List.cons.injEq, true_and] at h
  obtain ⟨c, cs, e, hc⟩ := printNat_ne r
  have := hs c (by rw [← h, e]; simp)
  rw [hc] at this
  cases this

theorem append_cancel_digit {G p X Y : Str} (hX : ∃ c cs, X = c :: cs ∧ isDigit c = true) (hG : ∀ c ∈ G, isDigit c = false) (h : p ++ X = G ++ Y) : G <+: p := by
  rcases List.append_eq_append_iff.1 h with ⟨a, rfl, h2⟩ | ⟨a, h1, h2⟩
  · -- G = p ++ a, X = a ++ Y
    cases a with
    | nil => exact ⟨[], by simp⟩
    | cons x a =>
      obtain ⟨c, cs, e, hc⟩ := hX
      rw [e, List.cons_append, List.cons.injEq] at h2
      have := hG x (by simp)
      rw [← h2.1, hc] at this
      cases this
  · exact ⟨a, h1.symm⟩

section
variable {n : Nat} {F : Type} [Arith F] [Source F]

/-- All names fit their buffers, and the prefix of the chain files does not begin with `gaussian_prop.chain`. -/
structure Naming.Good (nm : Naming) (n : Nat) : Prop where
  chain : ∀ r < n, nm.Fits r
  fixed : nm.dir.length + 14 < nm.len
  width : ∀ r < n, nm.dir.length + 20 + (printNat r).length < 100
  ladder : nm.dir.length + 25 < 100
  pre : ¬ (c!"gaussian_prop.chain") <+: nm.pre

/-- Where lines go when the names are good: different kinds of lines, and lines of different ranks, to different files. -/
theorem file_apart (nm : Naming) (hg : nm.Good n) (root r r' : Fin n) (l l' : Line F) (hl : ownLine root r l) (hl' : ownLine root r' l') (hr : r ≠ r')
    (f : Str) (hf : nm.file l = some f) (hf' : nm.file l' = some f) : f = nm.dir ++ c!"/init.randseed" := by
  have c0 : ∀ k : Nat, k < n → snprintf nm.len (nm.chainFull k) = nm.chainFull k := fun k hk => snprintf_fit (hg.chain k hk)
  have fx : ∀ s : Str, s.length ≤ 13 → snprintf nm.len (nm.dir ++ (c!"/") ++ s) = fixedName nm s := by
    intro s hs
    refine snprintf_fit ?_
    have := hg.fixed
    simp only [List.length_append, List.length_cons, List.length_nil]
    omega
  have wd : ∀ k : Nat, k < n → snprintf 100 (nm.dir ++ (c!"/") ++ (c!"gaussian_prop.chain") ++ printNat k) = fixedName nm ((c!"gaussian_prop.chain") ++ printNat k) := by
    intro k hk
    rw [snprintf_fit]
    · simp [fixedName]
    · have := hg.width k hk
      simp only [List.length_append, List.length_cons, List.length_nil]
      omega
  have ld : snprintf 100 (nm.dir ++ (c!"/") ++ c!"Beta_Values_in_stack.dat") = fixedName nm (c!"Beta_Values_in_stack.dat") := by
    refine snprintf_fit ?_
    have := hg.ladder
    simp only [List.length_append, List.length_cons, List.length_nil]
    omega
  have s1 := fx (c!"init.randseed") (by decide)
  have s2 := fx (c!"init.parm") (by decide)
  have fi : ∀ {a b : Str}, fixedName nm a = fixedName nm b → a = b := fun h => List.append_cancel_left h
  have nd1 : ∀ c ∈ (c!"init.randseed"), isDigit c = false := by decide
  have nd2 : ∀ c ∈ (c!"init.parm"), isDigit c = false := by decide
  have nd3 : ∀ c ∈ (c!"Beta_Values_in_stack.dat"), isDigit c = false := by decide
  have ndG : ∀ c ∈ (c!"gaussian_prop.chain"), isDigit c = false := by decide
  -- a width file is not a file without digits
  have wne : ∀ (k : Nat) (s : Str), (∀ c ∈ s, isDigit c = false) → (c!"gaussian_prop.chain") ++ printNat k ≠ s := by
    intro k s hs h
    obtain ⟨c, cs, e, hc⟩ := printNat_ne k
    have := hs c (by rw [← h, e]; simp)
    rw [hc] at this
    cases this
  -- a chain file is not a width file
  have cw : ∀ k k' : Nat, nm.chainFull k ≠ fixedName nm ((c!"gaussian_prop.chain") ++ printNat k') := by
    intro k k' h
    simp only [Naming.chainFull, fixedName, List.append_assoc, List.append_cancel_left_eq] at h
    obtain ⟨c, cs, e, hc⟩ := printNat_ne k
    exact hg.pre (append_cancel_digit (X := printNat k ++ nm.suf) ⟨c, cs ++ nm.suf, by rw [e]; rfl, hc⟩ ndG h)
  have e0 : nm.dir ++ c!"/init.randseed" = fixedName nm (c!"init.randseed") := by simp [fixedName]
  rw [e0]
  have hrv : r.val ≠ r'.val := fun h => hr (Fin.ext h)
  cases l with
  | mkdir => cases hf
  | note => cases hf
  | seed k v =>
    simp only [Naming.file, s1, Option.some.injEq] at hf
    exact hf.symm
  | initParm x =>
    simp only [Naming.file, s2, Option.some.injEq] at hf
    subst hf
    cases l' with
    | mkdir => cases hf'
    | note => cases hf'
    | seed k v =>
      simp only [Naming.file, s1, Option.some.injEq] at hf'
      exact hf'.symm
    | initParm x => exact absurd (Eq.trans (show r = root from hl) (show r' = root from hl').symm) hr
    | row k x lp a c =>
      have hk : k = r'.val := hl'
      subst hk
      simp only [Naming.file, c0 r'.val r'.2, Option.some.injEq] at hf'
      exact absurd hf' (chain_ne_fixed nm _ _ nd2)
    | sigma k s =>
      have hk : k = r'.val := hl'
      subst hk
      simp only [Naming.file, wd r'.val r'.2, Option.some.injEq] at hf'
      exact absurd (fi hf') (wne _ _ nd2)
    | betas b => exact absurd (Eq.trans (show r = root from hl) (show r' = root from hl').symm) hr
  | row k x lp a c =>
    have hk : k = r.val := hl
    subst hk
    simp only [Naming.file, c0 r.val r.2, Option.some.injEq] at hf
    subst hf
    cases l' with
    | mkdir => cases hf'
    | note => cases hf'
    | seed k v =>
      simp only [Naming.file, s1, Option.some.injEq] at hf'
      exact hf'.symm
    | initParm x =>
      simp only [Naming.file, s2, Option.some.injEq] at hf'
      exact absurd hf'.symm (chain_ne_fixed nm _ _ nd2)
    | row k x lp a c =>
      have hk : k = r'.val := hl'
      subst hk
      simp only [Naming.file, Option.some.injEq] at hf'
      have := chain_names_apart nm (hg.chain r.val r.2) (hg.chain r'.val r'.2) hrv
      rw [c0 r.val r.2, hf'] at this
      exact absurd rfl this
    | sigma k s =>
      have hk : k = r'.val := hl'
      subst hk
      simp only [Naming.file, wd r'.val r'.2, Option.some.injEq] at hf'
      exact absurd hf'.symm (cw _ _)
    | betas b =>
      simp only [Naming.file, ld, Option.some.injEq] at hf'
      exact absurd hf'.symm (chain_ne_fixed nm _ _ nd3)
  | sigma k s =>
    have hk : k = r.val := hl
    subst hk
    simp only [Naming.file, wd r.val r.2, Option.some.injEq] at hf
    subst hf
    cases l' with
    | mkdir => cases hf'
    | note => cases hf'
    | seed k v =>
      simp only [Naming.file, s1, Option.some.injEq] at hf'
      exact hf'.symm
    | initParm x =>
      simp only [Naming.file, s2, Option.some.injEq] at hf'
      exact absurd (fi hf').symm (wne _ _ nd2)
    | row k x lp a c =>
      have hk : k = r'.val := hl'
      subst hk
      simp only [Naming.file, c0 r'.val r'.2, Option.some.injEq] at hf'
      exact absurd hf' (cw _ _)
    | sigma k s =>
      have hk : k = r'.val := hl'
      subst hk
      simp only [Naming.file, wd r'.val r'.2, Option.some.injEq] at hf'
      exact absurd (printNat_inj (List.append_cancel_left (fi hf'))).symm hrv
    | betas b =>
      simp only [Naming.file, ld, Option.some.injEq] at hf'
      exact absurd (fi hf').symm (wne _ _ nd3)
  | betas b =>
    simp only [Naming.file, ld, Option.some.injEq] at hf
    subst hf
    cases l' with
    | mkdir => cases hf'
    | note => cases hf'
    | seed k v =>
      simp only [Naming.file, s1, Option.some.injEq] at hf'
      exact hf'.symm
    | initParm x => exact absurd (Eq.trans (show r = root from hl) (show r' = root from hl').symm) hr
    | row k x lp a c =>
      have hk : k = r'.val := hl'
      subst hk
      simp only [Naming.file, c0 r'.val r'.2, Option.some.injEq] at hf'
      exact absurd hf' (chain_ne_fixed nm _ _ nd3)
    | sigma k s =>
      have hk : k = r'.val := hl'
      subst hk
      simp only [Naming.file, wd r'.val r'.2, Option.some.injEq] at hf'
      exact absurd (fi hf') (wne _ _ nd3)
    | betas b => exact absurd (Eq.trans (show r = root from hl) (show r' = root from hl').symm) hr

/-- **C54, in executions.** With good names, in every execution a file (known by its name) into which two different ranks have written is the seed log. -/
theorem files_one_rank [LawfulDraws F] (cfg : Cfg F) (file : DataFile F) (hv : Valid n cfg file) (clock : Nat) (root : Fin n) (nm : Naming) (hg : nm.Good n)
    (w : List (Label n)) (t : Sys n (Msg F) (Line F) (RSt n F)) (h : (initSys cfg file clock root).exec w = some t)
    (r r' : Fin n) (hr : r ≠ r') (l l' : Line F) (hl : l ∈ t.log r) (hl' : l' ∈ t.log r') (f : Str) (hf : nm.file l = some f) (hf' : nm.file l' = some f) :
    f = nm.dir ++ c!"/init.randseed" :=
  file_apart nm hg root r r' l l' (one_writer cfg file hv clock root w t h r l hl) (one_writer cfg file hv clock root w t h r' l' hl') hr f hf hf'

/-- **C54, cut names in executions.** If the directory's name and the prefix fill the buffer, then in every finished execution every rank has written its first row
into one and the same file. -/
theorem cut_names_mix [LawfulDraws F] (cfg : Cfg F) (file : DataFile F) (hv : Valid n cfg file) (clock : Nat) (root : Fin n) (nm : Naming)
    (hc : nm.len ≤ nm.dir.length + 1 + nm.pre.length + 1)
    (w : List (Label n)) (t : Sys n (Msg F) (Line F) (RSt n F)) (h : (initSys cfg file clock root).exec w = some t) (hd : t.AllDone) :
    ∃ f, ∀ r : Fin n, ∃ l ∈ t.log r, nm.file l = some f ∧ ∃ x lp a c, l = .row r.val x lp a c := by
  refine ⟨snprintf nm.len (nm.chainFull 0), fun r => ?_⟩
  obtain ⟨wf, hw, hall⟩ := log_prefix cfg file hv clock root
  have e := (hall w t h).2 hd
  obtain ⟨_, _, _, _, _, _, hf⟩ := seqMain_file hv.user hw r
  obtain ⟨rest, row, e1, _⟩ := hf.file
  generalize firstRow cfg file _ clock root r _ = row0 at e1
  have hm : row0 ∈ fileRows r.val (t.log r) := by
    rw [e]
    show row0 ∈ fileRows r.val (wf.log r)
    rw [e1]
    exact List.mem_cons_self
  obtain ⟨l, hl, hm⟩ := List.mem_filterMap.1 hm
  cases l with
  | row k x lp a c =>
    by_cases hk : k = r.val
    · subst hk
      refine ⟨_, hl, ?_, x, lp, a, c, rfl⟩
      simp only [Naming.file, Option.some.injEq]
      exact chain_names_cut nm [] _ _ rfl rfl (by simpa using hc)
    · simp [hk] at hm
  | _ => simp at hm

end

/-- Names of the sample configuration: all good for up to 1000 ranks. -/
example : (⟨99, c!"chain", c!".dat", c!"results"⟩ : Naming).Good 1000 := by
  have hp : ∀ r < 1000, (printNat r).length ≤ 3 := by
    intro r hr
    by_cases h1 : r < 10
    · rw [printNat, if_pos h1]; simp
    · rw [printNat, if_neg h1]
      by_cases h2 : r / 10 < 10
      · rw [printNat, if_pos h2]; simp
      · rw [printNat, if_neg h2, printNat, if_pos (by omega)]; simp
  refine ⟨fun r hr => ?_, by decide, fun r hr => ?_, by decide, by decide⟩
  · have := hp r hr
    simp only [Naming.Fits, Naming.chainFull, List.length_append, List.length_cons, List.length_nil]
    omega
  · have := hp r hr
    simp only [List.length_cons, List.length_nil]
    omega

/-- Cut names: ranks 1 and 12 share a file; ranks 1 and 2 do not. -/
example : snprintf 16 ((⟨16, c!"chain", c!".dat", c!"results"⟩ : Naming).chainFull 1) = c!"results/chain1." ∧
    snprintf 15 ((⟨15, c!"chain", c!".dat", c!"results"⟩ : Naming).chainFull 1) = snprintf 15 ((⟨15, c!"chain", c!".dat", c!"results"⟩ : Naming).chainFull 12) ∧
    snprintf 14 ((⟨14, c!"chain", c!".dat", c!"results"⟩ : Naming).chainFull 1) = snprintf 14 ((⟨14, c!"chain", c!".dat", c!"results"⟩ : Naming).chainFull 2) := by
  have e1 : printNat 1 = c!"1" := by rw [printNat]; rfl
  have e2 : printNat 2 = c!"2" := by rw [printNat]; rfl
  have e12 : printNat 12 = c!"12" := by rw [printNat, if_neg (by decide), printNat]; rfl
  simp only [Naming.chainFull, e1, e2, e12]
  decide

/-- The condition on the prefix is needed: with the prefix `gaussian_prop.chain` and the suffix `0` the chain file of rank 1 is the width file of rank 10. -/
example (x s : List ℝ) (lp : ℝ) (a c : Nat) : (⟨99, c!"gaussian_prop.chain", c!"0", c!"results"⟩ : Naming).file (.row 1 x lp a c) =
    (⟨99, c!"gaussian_prop.chain", c!"0", c!"results"⟩ : Naming).file (.sigma 10 s) := by
  have e1 : printNat 1 = c!"1" := by rw [printNat]; rfl
  have e10 : printNat 10 = c!"10" := by rw [printNat, if_neg (by decide), printNat]; rfl
  simp only [Naming.file, Naming.chainFull, e1, e10]
  rfl

/-- Ranks 1 and 12 again, by the theorem. -/
example : snprintf 15 ((⟨15, c!"chain", c!".dat", c!"results"⟩ : Naming).chainFull 1) = snprintf 15 ((⟨15, c!"chain", c!".dat", c!"results"⟩ : Naming).chainFull 12) :=
  chain_names_cut ⟨15, c!"chain", c!".dat", c!"results"⟩ (c!"1") [] (c!"2") (by rw [printNat]; rfl) (by rw [printNat, if_neg (by decide), printNat]; rfl) (by decide)

/-- The names of the sample configuration, for the three ranks of the demo. -/
example (w : List (Label 3)) (t : Sys 3 (Msg ℝ) (Line ℝ) (RSt 3 ℝ)) (h : (initSys demoCfg demoFile 0 0).exec w = some t) (l l' : Line ℝ) (hl : l ∈ t.log 1)
    (hl' : l' ∈ t.log 2) (f : Str) (hf : (⟨99, c!"chain", c!".dat", c!"results"⟩ : Naming).file l = some f)
    (hf' : (⟨99, c!"chain", c!".dat", c!"results"⟩ : Naming).file l' = some f) : f = c!"results/init.randseed" := by
  have hp : ∀ r < 3, (printNat r).length = 1 := fun r hr => by rw [printNat, if_pos (by omega)]; rfl
  refine files_one_rank demoCfg demoFile demo_valid 0 0 ⟨99, c!"chain", c!".dat", c!"results"⟩ ⟨fun r hr => ?_, by decide, fun r hr => ?_, by decide, by decide⟩
    w t h 1 2 (by decide) l l' hl hl' f hf hf'
  · have := hp r hr
    simp only [Naming.Fits, Naming.chainFull, List.length_append, List.length_cons, List.length_nil]
    omega
  · have := hp r hr
    simp only [List.length_cons, List.length_nil]
    omega

/-- With a buffer of 14 characters all ranks of the demo write into one file. -/
example (w : List (Label 3)) (t : Sys 3 (Msg ℝ) (Line ℝ) (RSt 3 ℝ)) (h : (initSys demoCfg demoFile 0 0).exec w = some t) (hd : t.AllDone) :
    ∃ f, ∀ r : Fin 3, ∃ l ∈ t.log r, (⟨14, c!"chain", c!".dat", c!"results"⟩ : Naming).file l = some f ∧ ∃ x lp a c, l = .row r.val x lp a c :=
  cut_names_mix demoCfg demoFile demo_valid 0 0 ⟨14, c!"chain", c!".dat", c!"results"⟩ (by decide) w t h hd

end NiiC
