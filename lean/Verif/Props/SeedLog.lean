import Verif.Props.Disk

/-!
# Only the order of the seed log depends on the schedule: C120
-/

set_option linter.unusedSectionVars false

namespace NiiC

open Sys Spec

/-- The name of the seed log, mpi_init.c:220. -/
def Naming.seedLog (nm : Naming) : Str := nm.dir ++ c!"/init.randseed"

section
variable {n : Nat} {R : Rounding} [Source (Dbl R)] [LawfulDraws (Dbl R)]

/-- With good names only the lines with seeds go to the seed log. -/
theorem seedLog_line (nm : Naming) (hg : nm.Good n) (root r : Fin n) (l : Line (Dbl R)) (hl : ownLine root r l) :
    nm.file l = some nm.seedLog ↔ ∃ s, l = .seed r.val s := by
  have nd : ∀ c ∈ (c!"init.randseed"), isDigit c = false := by decide
  cases l with
  | mkdir => simp [Naming.file]
  | seed k s =>
    have hk : k = r.val := hl
    subst hk
    simp only [Naming.file, Option.some.injEq, Line.seed.injEq, true_and, exists_eq', iff_true, Naming.seedLog]
    rw [snprintf_fit (by have := hg.fixed; simp; omega)]
    simp
  | initParm rows =>
    simp only [Naming.file, Option.some.injEq, reduceCtorEq, exists_const, iff_false, Naming.seedLog]
    rw [snprintf_fit (by have := hg.fixed; simp; omega), List.append_assoc]
    intro h
    exact absurd (List.append_cancel_left h) (by decide)
  | row k x lp a c =>
    have hk : k = r.val := hl
    subst hk
    simp only [Naming.file, Option.some.injEq, reduceCtorEq, exists_const, iff_false, Naming.seedLog]
    rw [snprintf_fit (hg.chain r.val r.2)]
    intro h
    exact chain_ne_fixed nm r.val (c!"init.randseed") nd (h.trans (by simp [fixedName]))
  | sigma k s =>
    have hk : k = r.val := hl
    subst hk
    simp only [Naming.file, Option.some.injEq, reduceCtorEq, exists_const, iff_false, Naming.seedLog]
    rw [snprintf_fit (by have := hg.width r.val r.2; simp; omega), List.append_assoc, List.append_assoc]
    intro h
    have := List.append_cancel_left h
    simp at this
  | betas b =>
    simp only [Naming.file, Option.some.injEq, reduceCtorEq, exists_const, iff_false, Naming.seedLog]
    rw [snprintf_fit (by have := hg.ladder; simp; omega), List.append_assoc]
    intro h
    exact absurd (List.append_cancel_left h) (by decide)
  | note a b c d => simp [Naming.file]

/-- **C120.** What a finished run adds to the files. Every file but the seed log gets the lines of one rank, in its order. The seed log gets one line of each rank, in some
order. -/
theorem disk_contents (cfg : Cfg (Dbl R)) (file : DataFile (Dbl R)) (hv : Valid n cfg file) (clock : Nat) (root : Fin n) (nan : Str) (nm : Naming)
    (hg : nm.Good n) (d d' : Disk) (w : List (Label n)) (t : Sys n (Msg (Dbl R)) (Line (Dbl R)) (RSt n (Dbl R)))
    (h : runFiles nan nm cfg file clock root d w = some (t, d')) (hd : t.AllDone) :
    (∀ name, name ≠ nm.seedLog → ∃ r, d' name = d name ++ Print.file nan nm name (t.log r) ∧ ∀ q, q ≠ r → Print.file nan nm name (t.log q) = []) ∧
    ∃ order : List (Fin n), order.Perm (List.finRange n) ∧
      d' nm.seedLog = d nm.seedLog ++ (order.map fun r => Print.line (R := R) nan (.seed r.val (seedOf root (startSeed cfg clock) r))).flatten := by
  obtain ⟨he, tr, g1, g2⟩ := Sys.runOn_trace h
  have hown := one_writer cfg file hv clock root w t he
  constructor
  · intro name hname
    by_cases hw : ∃ r, ∃ l ∈ t.log r, nm.file l = some name
    · obtain ⟨r, l, hl, hf⟩ := hw
      have hq : ∀ q, q ≠ r → ∀ l' ∈ t.log q, nm.file l' ≠ some name := fun q hq l' hl' hf' =>
        hname (files_one_rank cfg file hv clock root nm hg w t he q r hq l' l hl' hl name hf' hf)
      refine ⟨r, Sys.runOn_own h (fun _ => rfl) r name hq, fun q hne => ?_⟩
      rw [Print.file, List.filter_eq_nil_iff.2 (by simpa using hq q hne)]
      rfl
    · have hno : ∀ q, ∀ l ∈ t.log q, nm.file l ≠ some name := fun q l hl hf => hw ⟨q, l, hl, hf⟩
      exact ⟨root, Sys.runOn_own h (fun _ => rfl) root name (fun q _ => hno q), fun q _ => by
        rw [Print.file, List.filter_eq_nil_iff.2 (by simpa using hno q)]
        rfl⟩
  · -- the lines of one rank in the seed log
    have one : ∀ r, ((tr.filter fun x => nm.file x.2 = some nm.seedLog).filter fun x => x.1 = r).map Prod.snd =
        [.seed r.val (seedOf root (startSeed cfg clock) r)] := by
      intro r
      obtain ⟨rest, e, hn⟩ := seed_line cfg file hv clock root w t he hd r
      have e1 := g1 r
      rw [show (initSys cfg file clock root).log r = [] from rfl, List.nil_append] at e1
      have e2 : (t.log r).filter (fun l => nm.file l = some nm.seedLog) = [.seed r.val (seedOf root (startSeed cfg clock) r)] := by
        have hrest : rest.filter (fun l => nm.file l = some nm.seedLog) = [] := by
          refine List.filter_eq_nil_iff.2 fun l hl => ?_
          simp only [decide_eq_true_eq]
          intro hf
          obtain ⟨s, rfl⟩ := (seedLog_line nm hg root r l (hown r l (by rw [e]; simp [hl]))).1 hf
          exact hn _ _ hl
        have hs : nm.file (.seed r.val (seedOf root (startSeed cfg clock) r) : Line (Dbl R)) = some nm.seedLog :=
          (seedLog_line nm hg root r (.seed r.val _) (show r.val = r.val from rfl)).2 ⟨_, rfl⟩
        have hm : (if r = root then [Line.mkdir (F := Dbl R)] else []).filter (fun l => nm.file l = some nm.seedLog) = [] := by
          split <;> simp [Naming.file]
        rw [e, List.filter_append, hm, List.filter_cons_of_pos (by simpa using hs), hrest]
        rfl
      rw [← e2, e1, List.filter_map, List.filter_filter, List.filter_filter]
      congr 1
      refine List.filter_congr fun x _ => ?_
      simp [Bool.and_comm]
    refine ⟨(tr.filter fun x => nm.file x.2 = some nm.seedLog).map Prod.fst, ?_, ?_⟩
    · rw [List.perm_iff_count]
      intro r
      rw [List.count_eq_one_of_mem (List.nodup_finRange n) (List.mem_finRange r)]
      have := congrArg List.length (one r)
      simp only [List.length_map, List.length_cons, List.length_nil] at this
      rw [List.count_eq_countP, List.countP_map, List.countP_eq_length_filter]
      refine Eq.trans (congrArg List.length (List.filter_congr fun x _ => ?_)) this
      simp only [Function.comp_apply]
      by_cases hx : x.1 = r <;> simp [hx]
    · rw [g2, List.map_map]
      congr 2
      refine List.map_congr_left fun x hx => ?_
      have hm : x.2 ∈ ((tr.filter fun x => nm.file x.2 = some nm.seedLog).filter fun y => y.1 = x.1).map Prod.snd :=
        List.mem_map.2 ⟨x, List.mem_filter.2 ⟨hx, by simp⟩, rfl⟩
      rw [one x.1, List.mem_singleton] at hm
      simp only [Function.comp_apply]
      rw [hm]

/-- **C120.** Two finished runs on the same files, under any two schedules: all files but the seed log are the same afterwards, and the seed logs have the same lines. -/
theorem disk_schedule (cfg : Cfg (Dbl R)) (file : DataFile (Dbl R)) (hv : Valid n cfg file) (clock : Nat) (root : Fin n) (nan : Str) (nm : Naming)
    (hg : nm.Good n) (d d₁ d₂ : Disk) (w₁ w₂ : List (Label n)) (t₁ t₂ : Sys n (Msg (Dbl R)) (Line (Dbl R)) (RSt n (Dbl R)))
    (h₁ : runFiles nan nm cfg file clock root d w₁ = some (t₁, d₁)) (hd₁ : t₁.AllDone)
    (h₂ : runFiles nan nm cfg file clock root d w₂ = some (t₂, d₂)) (hd₂ : t₂.AllDone) :
    (∀ name, name ≠ nm.seedLog → d₁ name = d₂ name) ∧
    ∃ l₁ l₂ : List Str, l₁.Perm l₂ ∧ l₁.length = n ∧ d₁ nm.seedLog = d nm.seedLog ++ l₁.flatten ∧ d₂ nm.seedLog = d nm.seedLog ++ l₂.flatten := by
  obtain ⟨wf, hwf, hall⟩ := log_prefix cfg file hv clock root
  have e₁ := (hall w₁ t₁ (Sys.runOn_trace h₁).1).2 hd₁
  have e₂ := (hall w₂ t₂ (Sys.runOn_trace h₂).1).2 hd₂
  obtain ⟨a₁, o₁, p₁, b₁⟩ := disk_contents cfg file hv clock root nan nm hg d d₁ w₁ t₁ h₁ hd₁
  obtain ⟨a₂, o₂, p₂, b₂⟩ := disk_contents cfg file hv clock root nan nm hg d d₂ w₂ t₂ h₂ hd₂
  refine ⟨fun name hname => ?_, _, _, (p₁.trans p₂.symm).map _, by rw [List.length_map, p₁.length_eq, List.length_finRange], b₁, b₂⟩
  obtain ⟨r₁, c₁, f₁⟩ := a₁ name hname
  obtain ⟨r₂, c₂, f₂⟩ := a₂ name hname
  rw [c₁, c₂, e₁, e₂]
  rw [e₁] at f₁
  rw [e₂] at f₂
  by_cases hr : r₁ = r₂
  · rw [hr]
  · rw [f₁ r₂ (Ne.symm hr), f₂ r₁ hr]

end

/-! ## Two orders -/

/-- Root up to its seed, and the other ranks up to theirs. -/
def toSeeds : List (Label 3) := List.replicate 9 (.rank 0) ++ List.replicate 4 (.rank 1) ++ List.replicate 4 (.rank 2)

theorem toSeeds_reach (nan : Str) (nm : Naming) (clock : Nat) :
    ∃ (u : Sys 3 (Msg Double) (Line Double) (RSt 3 Double)) (k₀ k₁ : Proc 3 (Msg Double) (Line Double) (RSt 3 Double)) (s₀ s₁ : Nat),
    runFiles nan nm Scripts.eggCfgD Scripts.eggFileD clock 0 (fun _ => []) toSeeds = some (u, fun _ => []) ∧ u.procs 0 = .out (.seed 0 s₀) k₀ ∧
    u.procs 1 = .out (.seed 1 s₁) k₁ :=
  ⟨_, _, _, _, _, rfl, rfl, rfl⟩

theorem Sys.runOn_append {n : Nat} {V L α : Type} {file : L → Option Str} {text : L → Str} {w w' : List (Label n)} {s t t' : Sys n V L α} {d d₁ d₂ : Disk}
    (h : s.runOn file text d w = some (t, d₁)) (h' : t.runOn file text d₁ w' = some (t', d₂)) : s.runOn file text d (w ++ w') = some (t', d₂) := by
  induction w generalizing s d with
  | nil =>
    simp only [Sys.runOn, Option.some.injEq, Prod.mk.injEq] at h
    obtain ⟨rfl, rfl⟩ := h
    exact h'
  | cons l w ih =>
    simp only [Sys.runOn, Option.bind_eq_some_iff] at h
    obtain ⟨u, h1, h2⟩ := h
    simp only [List.cons_append, Sys.runOn, h1, Option.bind_some]
    exact ih h2

/-- After `toSeeds` each of the first two ranks may be the first to write. -/
theorem seed_first (nan : Str) (nm : Naming) (hg : nm.Good 3) (clock : Nat) (q : Fin 3) (hq : q = 0 ∨ q = 1) :
    ∃ (w : List (Label 3)) (t : Sys 3 (Msg Double) (Line Double) (RSt 3 Double)) (d' : Disk),
      runFiles nan nm Scripts.eggCfgD Scripts.eggFileD clock 0 (fun _ => []) w = some (t, d') ∧ t.AllDone ∧
      (c!"seed for rank ") ++ Print.int q.val <+: d' nm.seedLog := by
  obtain ⟨u, k₀, k₁, s₀, s₁, h, p₀, p₁⟩ := toSeeds_reach nan nm clock
  have hp : ∃ s k, u.procs q = .out (.seed q.val s) k := by
    rcases hq with rfl | rfl
    · exact ⟨_, _, p₀⟩
    · exact ⟨_, _, p₁⟩
  obtain ⟨s, k, hp⟩ := hp
  have hstep : ∃ v, u.step (.rank q) = some v := ⟨_, by simp only [Sys.step, Sys.stepRank, hp]; rfl⟩
  obtain ⟨v, hv⟩ := hstep
  have hf : nm.file (.seed q.val s : Line Double) = some nm.seedLog := (seedLog_line nm hg 0 q (.seed q.val s) (show q.val = q.val from rfl)).2 ⟨_, rfl⟩
  have h1 : u.runOn nm.file (Print.line nan) (fun _ => []) [.rank q] =
      some (v, Disk.append (fun _ => []) (some nm.seedLog) (Print.line nan (.seed q.val s : Line Double))) := by
    simp only [Sys.runOn, hv, Option.bind_some, Sys.prints, hp, Disk.after, hf]
  have h2 := Sys.runOn_append h h1
  obtain ⟨W, len, _, hall⟩ := distributed_eq_sequential Scripts.eggCfgD Scripts.eggFileD Scripts.eggD_valid clock 0
  obtain ⟨⟨w', h3, _⟩, _⟩ := hall _ v (Sys.runOn_trace h2).1
  obtain ⟨d', h4⟩ := Sys.runOn_of_exec (file := nm.file) (text := Print.line nan)
    (Disk.append (fun _ => []) (some nm.seedLog) (Print.line nan (.seed q.val s : Line Double))) h3
  refine ⟨_, _, d', Sys.runOn_append h2 h4, fun _ => trivial, ?_⟩
  obtain ⟨_, tr, _, g⟩ := Sys.runOn_trace h4
  rw [g, Disk.append, Function.update_self, List.nil_append, Print.line]
  simp only [List.append_assoc]
  exact (List.prefix_append_right_inj _).2 (List.prefix_append _ _)

/-- **C120.** The order does depend on the schedule: an Eggbox run with three ranks can leave different seed logs. -/
theorem seed_order_open (nan : Str) (nm : Naming) (hg : nm.Good 3) (clock : Nat) :
    ∃ (w₁ w₂ : List (Label 3)) (t₁ t₂ : Sys 3 (Msg Double) (Line Double) (RSt 3 Double)) (d₁ d₂ : Disk),
      runFiles nan nm Scripts.eggCfgD Scripts.eggFileD clock 0 (fun _ => []) w₁ = some (t₁, d₁) ∧ t₁.AllDone ∧
      runFiles nan nm Scripts.eggCfgD Scripts.eggFileD clock 0 (fun _ => []) w₂ = some (t₂, d₂) ∧ t₂.AllDone ∧ d₁ nm.seedLog ≠ d₂ nm.seedLog := by
  obtain ⟨w₁, t₁, d₁, h₁, a₁, p₁⟩ := seed_first nan nm hg clock 0 (.inl rfl)
  obtain ⟨w₂, t₂, d₂, h₂, a₂, p₂⟩ := seed_first nan nm hg clock 1 (.inr rfl)
  refine ⟨w₁, w₂, t₁, t₂, d₁, d₂, h₁, a₁, h₂, a₂, fun e => ?_⟩
  rw [← e] at p₂
  have := (List.prefix_of_prefix_length_le p₁ p₂ (by decide +kernel)).eq_of_length (by decide +kernel)
  exact absurd this (by decide +kernel)

/-! ## Examples -/

/-- The files of two Eggbox runs. -/
example (w₁ w₂ : List (Label 3)) (t₁ t₂ : Sys 3 (Msg Double) (Line Double) (RSt 3 Double)) (d₁ d₂ : Disk)
    (h₁ : runFiles (c!"nan") ⟨100, c!"chain", c!".dat", c!"results"⟩ Scripts.eggCfgD Scripts.eggFileD 7 0 (fun _ => []) w₁ = some (t₁, d₁)) (hd₁ : t₁.AllDone)
    (h₂ : runFiles (c!"nan") ⟨100, c!"chain", c!".dat", c!"results"⟩ Scripts.eggCfgD Scripts.eggFileD 7 0 (fun _ => []) w₂ = some (t₂, d₂)) (hd₂ : t₂.AllDone) :
    d₁ (c!"results/Beta_Values_in_stack.dat") = d₂ (c!"results/Beta_Values_in_stack.dat") :=
  (disk_schedule Scripts.eggCfgD Scripts.eggFileD Scripts.eggD_valid 7 0 (c!"nan") _ demoNaming_good _ d₁ d₂ w₁ w₂ t₁ t₂ h₁ hd₁ h₂ hd₂).1 _ (by decide)

/-- The seed log of one. -/
example (w : List (Label 3)) (t : Sys 3 (Msg Double) (Line Double) (RSt 3 Double)) (d' : Disk)
    (h : runFiles (c!"nan") ⟨100, c!"chain", c!".dat", c!"results"⟩ Scripts.eggCfgD Scripts.eggFileD 7 0 (fun _ => []) w = some (t, d')) (hd : t.AllDone) :
    ∃ order : List (Fin 3), order.Perm (List.finRange 3) ∧ d' (c!"results/init.randseed") =
      (order.map fun r => Print.line (R := Rounding.binary64) (c!"nan") (.seed r.val (seedOf 0 (startSeed Scripts.eggCfgD 7) r))).flatten := by
  obtain ⟨_, order, h1, h2⟩ := disk_contents Scripts.eggCfgD Scripts.eggFileD Scripts.eggD_valid 7 0 (c!"nan") _ demoNaming_good _ d' w t h hd
  exact ⟨order, h1, h2⟩

/-- Two runs with different ones. -/
example : ∃ (w₁ w₂ : List (Label 3)) (t₁ t₂ : Sys 3 (Msg Double) (Line Double) (RSt 3 Double)) (d₁ d₂ : Disk),
    runFiles (c!"nan") ⟨100, c!"chain", c!".dat", c!"results"⟩ Scripts.eggCfgD Scripts.eggFileD 7 0 (fun _ => []) w₁ = some (t₁, d₁) ∧ t₁.AllDone ∧
    runFiles (c!"nan") ⟨100, c!"chain", c!".dat", c!"results"⟩ Scripts.eggCfgD Scripts.eggFileD 7 0 (fun _ => []) w₂ = some (t₂, d₂) ∧ t₂.AllDone ∧
    d₁ (c!"results/init.randseed") ≠ d₂ (c!"results/init.randseed") :=
  seed_order_open (c!"nan") ⟨100, c!"chain", c!".dat", c!"results"⟩ demoNaming_good 7

end NiiC
