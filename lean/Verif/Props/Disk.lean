import Verif.Model.Disk
import Verif.Props.Print
import Verif.Props.Repeat
import Verif.Props.Scripts
import Verif.Props.Extend

/-!
# A second run in the same directory: C119
-/

set_option linter.unusedSectionVars false

namespace NiiC

open Sys Spec

section generic
variable {n : Nat} {V L α : Type} {file : L → Option Str} {text : L → Str}

theorem Sys.step_prints {s t : Sys n V L α} {l : Label n} (h : s.step l = some t) (r : Fin n) :
    t.log r = s.log r ++ (((s.prints l).toList.filter fun x => x.1 = r).map Prod.snd) := by
  cases l with
  | rank p =>
    simp only [Sys.step, Sys.stepRank, Sys.prints] at h ⊢
    generalize s.procs p = q at h
    cases q with
    | ret a => cases h
    | send d t v k => cases h; simp
    | recv src tag k =>
      simp only at h
      split at h <;> cases h
      simp
    | barrier k => cases h
    | out x k =>
      cases h
      by_cases hr : r = p
      · subst hr; simp
      · simp [Function.update_of_ne hr, Ne.symm hr]
    | fault f => cases h
  | barrier =>
    simp only [Sys.step, Sys.stepBarrier, Sys.prints] at h ⊢
    split at h <;> cases h
    simp

theorem Disk.after_eq (d : Disk) (x : Option (Fin n × L)) (name : Str) :
    d.after file text x name = d name ++ ((x.toList.filter fun x => file x.2 = some name).map fun x => text x.2).flatten := by
  cases x with
  | none => simp [Disk.after]
  | some x =>
    simp only [Disk.after, Disk.append, Option.toList_some]
    cases hf : file x.2 with
    | none => simp [hf]
    | some f =>
      by_cases hn : name = f
      · subst hn; simp [hf]
      · have : f ≠ name := fun h => hn h.symm
        simp [hf, Function.update_of_ne hn, this]

/-- What an execution has done to the files: there is one order of all the lines printed, which for each rank is the order in which it
printed them, and each file has got its lines in this order, behind what was there. -/
theorem Sys.runOn_trace {w : List (Label n)} {s t : Sys n V L α} {d d' : Disk} (h : s.runOn file text d w = some (t, d')) :
    s.exec w = some t ∧ ∃ tr : List (Fin n × L), (∀ r, t.log r = s.log r ++ (tr.filter fun x => x.1 = r).map Prod.snd) ∧
      ∀ name, d' name = d name ++ ((tr.filter fun x => file x.2 = some name).map fun x => text x.2).flatten := by
  induction w generalizing s d with
  | nil =>
    simp only [Sys.runOn, Option.some.injEq, Prod.mk.injEq] at h
    obtain ⟨rfl, rfl⟩ := h
    exact ⟨rfl, [], fun r => by simp, fun name => by simp⟩
  | cons l w ih =>
    simp only [Sys.runOn, Option.bind_eq_some_iff] at h
    obtain ⟨u, h1, h2⟩ := h
    obtain ⟨e, tr, g1, g2⟩ := ih h2
    refine ⟨by rw [Sys.exec_cons, h1]; exact e, (s.prints l).toList ++ tr, fun r => ?_, fun name => ?_⟩
    · rw [g1, Sys.step_prints h1, List.filter_append, List.map_append, List.append_assoc]
    · rw [g2, Disk.after_eq, List.filter_append, List.map_append, List.flatten_append, List.append_assoc]

/-- Every execution does something to the files. -/
theorem Sys.runOn_of_exec {w : List (Label n)} {s t : Sys n V L α} (d : Disk) (h : s.exec w = some t) : ∃ d', s.runOn file text d w = some (t, d') := by
  induction w generalizing s d with
  | nil => cases h; exact ⟨d, rfl⟩
  | cons l w ih =>
    rw [Sys.exec_cons, Option.bind_eq_some_iff] at h
    obtain ⟨u, h1, h2⟩ := h
    obtain ⟨d', h3⟩ := ih (d.after file text (s.prints l)) h2
    exact ⟨d', by simp only [Sys.runOn, h1, Option.bind_some, h3]⟩

/-- A file into which one rank prints only. -/
theorem Sys.runOn_own {w : List (Label n)} {s t : Sys n V L α} {d d' : Disk} (h : s.runOn file text d w = some (t, d')) (h0 : ∀ r, s.log r = [])
    (r : Fin n) (name : Str) (hr : ∀ q, q ≠ r → ∀ l ∈ t.log q, file l ≠ some name) :
    d' name = d name ++ (((t.log r).filter fun l => file l = some name).map text).flatten := by
  obtain ⟨-, tr, g1, g2⟩ := Sys.runOn_trace h
  have key : (tr.filter fun x => file x.2 = some name) = (tr.filter fun x => x.1 = r).filter fun x => file x.2 = some name := by
    rw [List.filter_filter]
    refine List.filter_congr fun x hx => ?_
    by_cases hf : file x.2 = some name
    · have : x.1 = r := by
        by_contra hne
        refine hr x.1 hne x.2 ?_ hf
        rw [g1 x.1, h0, List.nil_append]
        exact List.mem_map.2 ⟨x, List.mem_filter.2 ⟨hx, by simp⟩, rfl⟩
      simp [hf, this]
    · simp [hf]
  rw [g2, key, g1 r, h0, List.nil_append, List.filter_map, List.map_map]
  rfl

end generic

section
variable {n : Nat} {R : Rounding} [Source (Dbl R)] [LawfulDraws (Dbl R)]

/-- A run of the program on files that may be there already. -/
noncomputable def runFiles (nan : Str) (nm : Naming) (cfg : Cfg (Dbl R)) (file : DataFile (Dbl R)) (clock : Nat) (root : Fin n) (d : Disk)
    (w : List (Label n)) : Option (Sys n (Msg (Dbl R)) (Line (Dbl R)) (RSt n (Dbl R)) × Disk) :=
  (initSys cfg file clock root).runOn nm.file (Print.line nan) d w

/-- **C119.** No run takes anything away from a file: what was there stays, and what the run prints comes after it; and the chain file of a
rank gets exactly the text of its rows. -/
theorem run_appends (cfg : Cfg (Dbl R)) (file : DataFile (Dbl R)) (hv : Valid n cfg file) (clock : Nat) (root : Fin n) (nan : Str) (nm : Naming)
    (hg : nm.Good n) (d d' : Disk) (w : List (Label n)) (t : Sys n (Msg (Dbl R)) (Line (Dbl R)) (RSt n (Dbl R)))
    (h : runFiles nan nm cfg file clock root d w = some (t, d')) :
    (∀ name, d name <+: d' name) ∧
    ∀ r : Fin n, d' (nm.chainFull r.val) = d (nm.chainFull r.val) ++ ((fileRows r.val (t.log r)).map (Row.text nan)).flatten := by
  obtain ⟨he, tr, -, g2⟩ := Sys.runOn_trace h
  refine ⟨fun name => by rw [g2]; exact List.prefix_append _ _, fun r => ?_⟩
  have hown := one_writer cfg file hv clock root w t he
  rw [Sys.runOn_own h (fun _ => rfl) r (nm.chainFull r.val)
    (fun q hq l hl hf => hq (chain_name_row nm hg root r q l (hown q l hl) hf).1)]
  have e := file_text nan nm hg root r r (t.log r) (hown r)
  rw [if_pos rfl, Print.file] at e
  rw [e]

/-- `k` finished runs one after the other in the same directory, with the same input, at any times and under any schedules. -/
inductive Reruns (nan : Str) (nm : Naming) (cfg : Cfg (Dbl R)) (file : DataFile (Dbl R)) (root : Fin n) : Nat → Disk → Disk → Prop
  | none (d : Disk) : Reruns nan nm cfg file root 0 d d
  | more {k : Nat} {d d₁ d₂ : Disk} (clock : Nat) (w : List (Label n)) (t : Sys n (Msg (Dbl R)) (Line (Dbl R)) (RSt n (Dbl R)))
      (before : Reruns nan nm cfg file root k d d₁) (run : runFiles nan nm cfg file clock root d₁ w = some (t, d₂)) (done : t.AllDone) :
      Reruns nan nm cfg file root (k + 1) d d₂

theorem initSys_clock (cfg : Cfg (Dbl R)) (file : DataFile (Dbl R)) (h : cfg.initSeed ≠ 0) (clock clock' : Nat) (root : Fin n) :
    initSys cfg file clock root = initSys cfg file clock' root := by
  have hs : startSeed cfg clock = startSeed cfg clock' := by simp only [startSeed, if_neg h]
  have hp : mainProg cfg file clock root = mainProg cfg file clock' root := by
    funext me
    simp only [mainProg, hs]
  simp only [initSys, hp]

/-- **C119.** With a seed in the input, every further run in the same directory adds to each chain file what the first has added, character by
character: after `k` runs the rows are there `k` times. -/
theorem reruns_repeat (cfg : Cfg (Dbl R)) (file : DataFile (Dbl R)) (hv : Valid n cfg file) (hseed : cfg.initSeed ≠ 0) (root : Fin n) (nan : Str)
    (nm : Naming) (hg : nm.Good n) :
    ∃ rows : Fin n → List (Row (Dbl R)),
      (∀ clock w t, (initSys cfg file clock root).exec w = some t → t.AllDone → ∀ r, fileRows r.val (t.log r) = rows r) ∧
      ∀ k d d', Reruns nan nm cfg file root k d d' → ∀ r : Fin n,
        d' (nm.chainFull r.val) = d (nm.chainFull r.val) ++ (((List.replicate k (rows r)).flatten).map (Row.text nan)).flatten := by
  obtain ⟨wf, hwf, hall⟩ := log_prefix cfg file hv 0 root
  have h1 : ∀ clock w t, (initSys cfg file clock root).exec w = some t → t.AllDone → ∀ r, fileRows r.val (t.log r) = fileRows r.val (wf.log r) := by
    intro clock w t ht hd r
    rw [initSys_clock cfg file hseed clock 0] at ht
    rw [(hall w t ht).2 hd]
    rfl
  refine ⟨fun r => fileRows r.val (wf.log r), h1, fun k d d' h => ?_⟩
  induction h with
  | none d => intro r; simp
  | more clock w t before run done ih =>
    intro r
    have ha := (run_appends cfg file hv clock root nan nm hg _ _ w t run).2 r
    rw [h1 clock w t (Sys.runOn_trace run).1 done r] at ha
    rw [ha, ih r, List.replicate_succ', List.flatten_append, List.map_append, List.flatten_append, List.append_assoc]
    simp

/-- Any number of runs can follow each other. -/
theorem reruns_exist (cfg : Cfg (Dbl R)) (file : DataFile (Dbl R)) (hv : Valid n cfg file) (root : Fin n) (nan : Str) (nm : Naming) (k : Nat) (d : Disk) :
    ∃ d', Reruns nan nm cfg file root k d d' := by
  induction k with
  | zero => exact ⟨d, .none d⟩
  | succ k ih =>
    obtain ⟨d₁, h₁⟩ := ih
    obtain ⟨v, l, _, hall⟩ := distributed_eq_sequential cfg file hv 0 root
    obtain ⟨⟨w, h, _⟩, _⟩ := hall [] _ rfl
    obtain ⟨d₂, h₂⟩ := Sys.runOn_of_exec (file := nm.file) (text := Print.line nan) d₁ h
    exact ⟨d₂, .more 0 w _ h₁ h₂ fun _ => trivial⟩

theorem sum_replicate {β : Type} (f : β → ℝ) (l : List β) (k : Nat) : (((List.replicate k l).flatten).map f).sum = k * (l.map f).sum := by
  induction k with
  | zero => simp
  | succ k ih =>
    rw [List.replicate_succ, List.flatten_cons, List.map_append, List.sum_append, ih]
    push_cast
    ring

/-- **C119.** What readers of such a file get, after `k ≥ 1` runs that began with an empty directory: `k` times as many rows, in which iteration
0 occurs `k` times, and every average over the rows is that of one run. -/
theorem reruns_read {F : Type} [Arith F] (cfg : Cfg (Dbl R)) (file : DataFile (Dbl R)) (hv : Valid n cfg file) (hI : 0 ≤ cfg.nIter) (hseed : cfg.initSeed ≠ 0)
    (root : Fin n) (nan : Str) (nm : Naming) (hg : nm.Good n) (k : Nat) (hk : 1 ≤ k) (d d' : Disk) (h : Reruns nan nm cfg file root k d d') (r : Fin n)
    (hd : d (nm.chainFull r.val) = []) (other : Str → Option F) (clock : Nat) (w : List (Label n)) (t : Sys n (Msg (Dbl R)) (Line (Dbl R)) (RSt n (Dbl R)))
    (ht : (initSys cfg file clock root).exec w = some t) (hdone : t.AllDone) (hfin : ∀ a ∈ fileRows r.val (t.log r), ∃ x lp, a.Finite x lp) :
    ∃ (all : List (Row (Dbl R))) (cells : List F), d' (nm.chainFull r.val) = (all.map (Row.text nan)).flatten ∧
      (dataFile other (c!" ") (cfg.nParm + 3 : Nat) (d' (nm.chainFull r.val))).cells = .ok cells ∧
      (dataFile (F := F) other (c!" ") (cfg.nParm + 3 : Nat) (d' (nm.chainFull r.val))).nlines = k * (fileRows r.val (t.log r)).length ∧
      all.length = k * (fileRows r.val (t.log r)).length ∧
      (all.map Row.iter).count 0 = k ∧
      ∀ f : Row (Dbl R) → ℝ, (all.map f).sum / all.length = ((fileRows r.val (t.log r)).map f).sum / (fileRows r.val (t.log r)).length := by
  obtain ⟨rows, h1, h2⟩ := reruns_repeat cfg file hv hseed root nan nm hg
  have hr := h1 clock w t ht hdone r
  have hlen := (saved_in_box cfg file hv clock root (fun x => x.length = cfg.nParm) (fun y hy => hv.user.boundary y hy) (fun s => hv.user.initParm s) w t ht).1
  have e := h2 k d d' h r
  rw [hd, List.nil_append, ← hr] at e
  rw [e]
  have hl : ((List.replicate k (fileRows r.val (t.log r))).flatten).length = k * (fileRows r.val (t.log r)).length := by simp
  obtain ⟨cells, c1, c2, -⟩ := chain_text_readable other nan cfg.nParm (List.replicate k (fileRows r.val (t.log r))).flatten (by
    intro a ha
    obtain ⟨l, hl, ha⟩ := List.mem_flatten.1 ha
    rw [List.eq_of_mem_replicate hl] at ha
    exact ⟨hlen r r.val a ha, hfin a ha⟩)
  refine ⟨_, cells, rfl, c1, by rw [c2, hl]; push_cast; rfl, hl, ?_, fun f => ?_⟩
  · obtain ⟨data, beta, tail, m, _, _, ⟨hm1, _⟩, _, _, hf⟩ := chain_file cfg file hv clock root hI r
    have er := (hf w t ht).1 hdone
    have c : ((fileRows r.val (t.log r)).map Row.iter).count 0 = 1 := by
      rw [er, List.map_cons, hm1]
      rw [show (firstRow cfg file data clock root r beta).iter = 0 from rfl, List.count_cons_self,
        List.count_eq_zero_of_not_mem (by simp [List.mem_range'_1])]
    rw [List.map_flatten, List.map_replicate, List.count_flatten, List.map_replicate, c]
    simp
  · rw [sum_replicate, hl]
    push_cast
    have : (k : ℝ) ≠ 0 := by
      have : k ≠ 0 := by omega
      exact_mod_cast this
    rw [mul_div_mul_left _ _ this]

/-- **C119.** Who starts the program again with a larger `N_iter`, in the same directory and with a seed in the input, after a first run that has
finished or has been killed, does not get the first run continued: behind its rows there are the same rows once more, and only then new ones. -/
theorem extend_repeats (cfg : Cfg (Dbl R)) (file : DataFile (Dbl R)) (hv : Valid n cfg file) (hseed : cfg.initSeed ≠ 0) (N : Int) (hN : N ≤ cfg.nIter)
    (root : Fin n) (nan : Str) (nm : Naming) (hg : nm.Good n) (clock₁ clock₂ : Nat) (w₁ w₂ : List (Label n))
    (t₁ t₂ : Sys n (Msg (Dbl R)) (Line (Dbl R)) (RSt n (Dbl R))) (d d₁ d₂ : Disk)
    (h₁ : runFiles nan nm { cfg with nIter := N } file clock₁ root d w₁ = some (t₁, d₁))
    (h₂ : runFiles nan nm cfg file clock₂ root d₁ w₂ = some (t₂, d₂)) (hd : t₂.AllDone) (r : Fin n) :
    ∃ text new : Str, d₁ (nm.chainFull r.val) = d (nm.chainFull r.val) ++ text ∧ d₂ (nm.chainFull r.val) = d (nm.chainFull r.val) ++ text ++ text ++ new := by
  have e₁ := (Sys.runOn_trace h₁).1
  have e₂ := (Sys.runOn_trace h₂).1
  have a₁ := (run_appends (cfg.withIter N) file (hv.withIter hN) clock₁ root nan nm hg d d₁ w₁ t₁ h₁).2 r
  have a₂ := (run_appends cfg file hv clock₂ root nan nm hg d₁ d₂ w₂ t₂ h₂).2 r
  rw [initSys_clock cfg file hseed clock₂ clock₁] at e₂
  have hp : fileRows r.val (t₁.log r) <+: fileRows r.val (t₂.log r) := by
    have key : ∀ log : List (Line (Dbl R)), fileRows r.val log = fileRows r.val (written log) := by
      intro log
      induction log with
      | nil => rfl
      | cons l log ih =>
        simp only [written, fileRows] at ih ⊢
        cases l <;> simp [Line.real, List.filter_cons, List.filterMap_cons, ih]
    rw [key (t₁.log r), key (t₂.log r)]
    exact fileRows_prefix (longer_run_extends cfg file hv N hN clock₁ root w₁ w₂ t₁ t₂ e₁ e₂ hd r)
  obtain ⟨x, hx⟩ := hp
  refine ⟨_, (x.map (Row.text nan)).flatten, a₁, ?_⟩
  rw [a₂, a₁, ← hx, List.map_append, List.flatten_append, List.append_assoc]
  simp [List.append_assoc]

end

/-! ## Examples -/

/-- An Eggbox run in a directory where rank 2 has left a line. -/
example (w : List (Label 3)) (t : Sys 3 (Msg Double) (Line Double) (RSt 3 Double)) (d' : Disk)
    (h : runFiles (c!"nan") ⟨100, c!"chain", c!".dat", c!"results"⟩ Scripts.eggCfgD Scripts.eggFileD 7 0
      (fun name => if name = (c!"results/chain2.dat") then c!"1 2 3\n" else []) w = some (t, d')) : (c!"1 2 3\n") <+: d' (c!"results/chain2.dat") := by
  have := (run_appends Scripts.eggCfgD Scripts.eggFileD Scripts.eggD_valid 7 0 (c!"nan") _ demoNaming_good _ d' w t h).1 (c!"results/chain2.dat")
  rwa [if_pos rfl] at this

/-- Two Eggbox runs in the same directory, with the seed 20. -/
example : ∃ (d' : Disk) (rows : List (Row Double)),
    Reruns (c!"nan") ⟨100, c!"chain", c!".dat", c!"results"⟩ Scripts.eggCfgD Scripts.eggFileD (0 : Fin 3) 2 (fun _ => []) d' ∧
    d' ((⟨100, c!"chain", c!".dat", c!"results"⟩ : Naming).chainFull 2) = ((rows ++ rows).map (Row.text (c!"nan"))).flatten := by
  obtain ⟨d', h⟩ := reruns_exist Scripts.eggCfgD Scripts.eggFileD Scripts.eggD_valid (0 : Fin 3) (c!"nan") ⟨100, c!"chain", c!".dat", c!"results"⟩ 2 (fun _ => [])
  obtain ⟨rows, _, h2⟩ := reruns_repeat Scripts.eggCfgD Scripts.eggFileD Scripts.eggD_valid (by simp [Scripts.eggCfgD]) (0 : Fin 3) (c!"nan") _ demoNaming_good
  refine ⟨d', rows 2, h, (h2 2 _ d' h 2).trans ?_⟩
  simp [List.replicate]

/-- What a reader gets from three of them, when the values are finite. -/
example (d' : Disk) (h : Reruns (c!"nan") ⟨100, c!"chain", c!".dat", c!"results"⟩ Scripts.eggCfgD Scripts.eggFileD (0 : Fin 3) 3 (fun _ => []) d')
    (w : List (Label 3)) (t : Sys 3 (Msg Double) (Line Double) (RSt 3 Double)) (ht : (initSys Scripts.eggCfgD Scripts.eggFileD 7 0).exec w = some t)
    (hd : t.AllDone) (hfin : ∀ a ∈ fileRows 2 (t.log 2), ∃ x lp, a.Finite x lp) :
    ∃ all : List (Row Double), all.length = 3 * (fileRows 2 (t.log 2)).length ∧ (all.map Row.iter).count 0 = 3 := by
  obtain ⟨all, cells, _, _, _, h1, h2, _⟩ := reruns_read (F := ℝ) Scripts.eggCfgD Scripts.eggFileD Scripts.eggD_valid (by simp [Scripts.eggCfgD])
    (by simp [Scripts.eggCfgD]) 0 (c!"nan") _ demoNaming_good 3 (by omega) _ d' h 2 rfl (fun _ => none) 7 w t ht hd hfin
  exact ⟨all, h1, h2⟩

/-- A run of 600 iterations, and then one of 1000. -/
example (w₁ w₂ : List (Label 3)) (t₁ t₂ : Sys 3 (Msg Double) (Line Double) (RSt 3 Double)) (d₁ d₂ : Disk)
    (h₁ : runFiles (c!"nan") ⟨100, c!"chain", c!".dat", c!"results"⟩ { Scripts.eggCfgD with nIter := 600 } Scripts.eggFileD 7 0 (fun _ => []) w₁ = some (t₁, d₁))
    (h₂ : runFiles (c!"nan") ⟨100, c!"chain", c!".dat", c!"results"⟩ Scripts.eggCfgD Scripts.eggFileD 9 0 d₁ w₂ = some (t₂, d₂)) (hd : t₂.AllDone) :
    ∃ text new : Str, d₂ ((⟨100, c!"chain", c!".dat", c!"results"⟩ : Naming).chainFull 2) = text ++ text ++ new := by
  obtain ⟨text, new, _, h⟩ := extend_repeats Scripts.eggCfgD Scripts.eggFileD Scripts.eggD_valid (by simp [Scripts.eggCfgD]) 600 (by simp [Scripts.eggCfgD]) 0
    (c!"nan") _ demoNaming_good 7 9 w₁ w₂ t₁ t₂ _ d₁ d₂ h₁ h₂ hd 2
  exact ⟨text, new, h⟩

end NiiC
