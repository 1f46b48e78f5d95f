import Verif.Props.Disk
import Verif.Props.Samples
import Verif.Spec.Estimate

/-!
# The samples run twice: C119
-/

set_option linter.unusedSectionVars false

namespace NiiC

open Sys Spec Samples

/-- The names in the samples are good ones, and the samples have a seed. -/
theorem samples_names : ∀ s ∈ readable, (∀ r < s.1.settings.betas.length + 1, s.1.settings.naming.Fits r) ∧
    s.1.settings.naming.dir.length + 14 < s.1.settings.naming.len ∧
    (∀ r < s.1.settings.betas.length + 1, s.1.settings.naming.dir.length + 20 + (printNat r).length < 100) ∧
    s.1.settings.naming.dir.length + 25 < 100 ∧ ¬ (c!"gaussian_prop.chain") <+: s.1.settings.naming.pre := by
  simp only [Naming.Fits]
  decide +kernel

section
variable {n : Nat} {R : Rounding} [Source (Dbl R)] [LawfulDraws (Dbl R)]

theorem sampleRuns_seed : ∀ e ∈ sampleRuns (Dbl R), (cfgOf e.2.1 e.1.settings e.1.ranges).initSeed ≠ 0 := by
  have h : ∀ s ∈ readable, (s.1.settings.raw (Dbl R)).initSeed ≠ 0 := by
    intro s hs
    simp only [readable, List.mem_cons, List.not_mem_nil, or_false] at hs
    rcases hs with rfl | rfl | rfl | rfl | rfl | rfl | rfl | rfl <;> exact (by decide +kernel : (20 : Nat) ≠ 0)
  exact fun e he => h _ (sampleRuns_readable e he).1

/-- **C119**, for the samples. A sample run twice in the same directory, at any times, under any schedules: the second run appends to every chain file what the
first has appended. -/
theorem samples_rerun (other : Str → Option (Dbl R)) (e : Sample × (Model (Dbl R) × List (Str × Str) × Nat)) (he : e ∈ sampleRuns (Dbl R)) (rows : List RowText)
    (hrow : ∀ r ∈ rows, r.Wf [' '] ∧ r.nums.length = 2) (hlines : 2 * rows.length ≤ 2147483647) (files : Str → Str)
    (hfile : files e.1.settings.dataFile = tableText rows) (hn : 2 ≤ n ∧ n ≤ e.1.settings.betas.length + 1) (clock₁ clock₂ : Nat) (root : Fin n) (nan : Str)
    (d d₁ d₂ : Disk) (w₁ w₂ : List (Label n)) (t₁ t₂ : Sys n (Msg (Dbl R)) (Line (Dbl R)) (RSt n (Dbl R)))
    (h₁ : (initText other (e.2.1.code other) e.1.text files clock₁ root).runOn e.1.settings.naming.file (Print.line nan) d w₁ = some (t₁, d₁)) (hd₁ : t₁.AllDone)
    (h₂ : (initText other (e.2.1.code other) e.1.text files clock₂ root).runOn e.1.settings.naming.file (Print.line nan) d₁ w₂ = some (t₂, d₂)) (hd₂ : t₂.AllDone)
    (r : Fin n) :
    ∃ text, d₁ (e.1.settings.naming.chainFull r.val) = d (e.1.settings.naming.chainFull r.val) ++ text ∧
      d₂ (e.1.settings.naming.chainFull r.val) = d (e.1.settings.naming.chainFull r.val) ++ text ++ text := by
  obtain ⟨h1, h2, h3⟩ := sampleRuns_readable e he
  obtain ⟨g1, g2, g3⟩ := samples_good _ h1
  obtain ⟨k1, k2, k3, k4, k5, k6, k7, k8, k9⟩ := samples_numbers _ h1
  simp only at g1 g2 g3 k1 k2 k3 k4 k5 k6 k7 k8 k9
  have hb : e.1.settings.betas.length + 1 ≤ 2147483647 := by
    have := g3.count
    have h := (g3.ints e.1.settings.nBeta (by simp)).2
    omega
  have hg : e.1.settings.naming.Good n := by
    obtain ⟨a, b, c, d, f⟩ := samples_names _ h1
    exact ⟨fun r hr => a r (lt_of_lt_of_le hr hn.2), b, fun r hr => c r (lt_of_lt_of_le hr hn.2), d, f⟩
  have hval := fun clock => texts_valid (n := n) other e.2 h2 e.1.ranges g1.1 (good_wf g1 g2) g3 (good_express g1) rows
    (fun r hr => ⟨by rw [k4]; exact (hrow r hr).1, by rw [(hrow r hr).2, k3]; rfl⟩) files hfile (by omega)
    ⟨hn, ⟨k1, k2⟩, k5, k6, k7, k8, ⟨k9.1, k9.2.1, .of_sum k9.2.2⟩, ⟨by rw [k3]; norm_num, by rw [k3]; push_cast; omega⟩⟩ (by rw [k3]; exact_mod_cast h3) clock root
  obtain ⟨-, -, hv, i₁⟩ := hval clock₁
  obtain ⟨-, -, -, i₂⟩ := hval clock₂
  rw [i₁] at h₁
  rw [i₂] at h₂
  obtain ⟨rs, q1, -⟩ := reruns_repeat _ _ hv (sampleRuns_seed e he) root nan _ hg
  have a₁ := (run_appends _ _ hv clock₁ root nan _ hg d d₁ w₁ t₁ h₁).2 r
  have a₂ := (run_appends _ _ hv clock₂ root nan _ hg d₁ d₂ w₂ t₂ h₂).2 r
  rw [q1 _ _ _ (Sys.runOn_trace h₁).1 hd₁ r] at a₁
  rw [q1 _ _ _ (Sys.runOn_trace h₂).1 hd₂ r] at a₂
  exact ⟨_, a₁, by rw [a₂, a₁]⟩

end

/-- The regression sample with four ranks, on any table of two columns. -/
example (rows : List RowText) (hrow : ∀ r ∈ rows, r.Wf [' '] ∧ r.nums.length = 2) (hlines : 2 * rows.length ≤ 2147483647) (files : Str → Str)
    (hfile : files (c!"xy.dat") = tableText rows) (d₁ d₂ : Disk) (w₁ w₂ : List (Label 4)) (t₁ t₂ : Sys 4 (Msg Double) (Line Double) (RSt 4 Double))
    (h₁ : (initText (fun _ => none) (regression.code fun _ => none) regressionSample.text files 5 0).runOn regressionSample.settings.naming.file
      (Print.line (c!"nan")) (fun _ => []) w₁ = some (t₁, d₁)) (hd₁ : t₁.AllDone)
    (h₂ : (initText (fun _ => none) (regression.code fun _ => none) regressionSample.text files 9 0).runOn regressionSample.settings.naming.file
      (Print.line (c!"nan")) d₁ w₂ = some (t₂, d₂)) (hd₂ : t₂.AllDone) :
    ∃ text, d₁ (regressionSample.settings.naming.chainFull 3) = text ∧ d₂ (regressionSample.settings.naming.chainFull 3) = text ++ text := by
  obtain ⟨text, h⟩ := samples_rerun (fun _ => none) (regressionSample, (regression, regressionPairs, 2)) (by simp [sampleRuns]) rows hrow hlines files hfile
    (by simp [regressionSample]) 5 9 0 (c!"nan") _ d₁ d₂ w₁ w₂ t₁ t₂ h₁ hd₁ h₂ hd₂ 3
  exact ⟨text, h⟩

end NiiC
