import Verif.Refine.Print
import Verif.Props.Streams
import Verif.Props.Run
import Verif.Props.Demo

/-!
# Repeating a run from its seed log (C73)
-/

set_option linter.unusedSectionVars false

namespace NiiC
open Spec

section
variable {n : Nat} {F : Type} [Arith F] [Source F]

/-! ## The configured seed is used for the start only -/

omit [Source F] in
/-- The same configuration with another seed. -/
def Cfg.seeded (cfg : Cfg F) (s : Nat) : Cfg F := { cfg with initSeed := s }

theorem genAllTune_seeded (cfg : Cfg F) (s : Nat) (sig : List F) : ∀ k i, genAllTune n (cfg.seeded s) sig k i = genAllTune n cfg sig k i := by
  intro k
  induction k with
  | zero => intro i; rfl
  | succ k ih =>
    intro i
    simp only [genAllTune, ih]
    rfl

theorem swapLoop_seeded (cfg : Cfg F) (s : Nat) (me root slave : Fin n) : ∀ k st ty,
    swapLoop (cfg.seeded s) me root slave k st ty = swapLoop cfg me root slave k st ty := by
  intro k
  induction k with
  | zero => intro st ty; rfl
  | succ k ih =>
    intro st ty
    simp only [swapLoop, ih]
    rfl

theorem stackLoop_seeded (cfg : Cfg F) (s : Nat) (me root slave : Fin n) (nStack : Int) : ∀ k i st ty,
    stackLoop (cfg.seeded s) me root slave nStack k i st ty = stackLoop cfg me root slave nStack k i st ty := by
  intro k
  induction k with
  | zero => intro i st ty; rfl
  | succ k ih =>
    intro i st ty
    simp only [stackLoop, ih, swapLoop_seeded]
    rfl

theorem runStack_seeded (cfg : Cfg F) (s : Nat) (me root : Fin n) (nStack : Int) (st : RSt n F) :
    runStack (cfg.seeded s) me root nStack st = runStack cfg me root nStack st := by
  simp only [runStack, stackLoop_seeded]
  rfl

theorem tuneParms_seeded (cfg : Cfg F) (s : Nat) (me root rk : Fin n) (x : List F) (lp : F) : ∀ k i a b,
    tuneParms (cfg.seeded s) me root rk x lp k i a b = tuneParms cfg me root rk x lp k i a b := by
  intro k
  induction k with
  | zero => intro i a b; rfl
  | succ k ih =>
    intro i a b
    simp only [tuneParms, ih]
    rfl

theorem tuneRank_seeded (cfg : Cfg F) (s : Nat) (me root rk : Fin n) (st : RSt n F) : tuneRank (cfg.seeded s) me root rk st = tuneRank cfg me root rk st := by
  have h : tuneStart (cfg.seeded s) root rk me st = tuneStart cfg root rk me st := by
    simp only [tuneStart, genAllTune_seeded]
    rfl
  simp only [tuneRank, h, tuneParms_seeded]
  rfl

theorem tuneRanks_seeded (cfg : Cfg F) (s : Nat) (me root : Fin n) (fl : Fin n → Int) : ∀ l st,
    tuneRanks (cfg.seeded s) me root fl l st = tuneRanks cfg me root fl l st := by
  intro l
  induction l with
  | nil => intro st; rfl
  | cons rk l ih =>
    intro st
    simp only [tuneRanks, ih, tuneRank_seeded]

theorem flowLoop_seeded (cfg : Cfg F) (s : Nat) (me root : Fin n) : ∀ fuel a b c st, flowLoop (cfg.seeded s) me root fuel a b c st = flowLoop cfg me root fuel a b c st := by
  intro fuel
  induction fuel with
  | zero => intro a b c st; rfl
  | succ fuel ih =>
    intro a b c st
    simp only [flowLoop, ih, runStack_seeded, tuneRanks_seeded]
    rfl

/-- **C73, repetition.** Writing the start seed of a run, when it is not 0, into the configuration gives the same program on every rank at any later time. -/
theorem repeat_run (cfg : Cfg F) (file : DataFile F) (clock clock' : Nat) (root : Fin n) (h : startSeed cfg clock ≠ 0) :
    initSys (cfg.seeded (startSeed cfg clock)) file clock' root = initSys cfg file clock root := by
  have hs : startSeed (cfg.seeded (startSeed cfg clock)) clock' = startSeed cfg clock := if_neg h
  have hp : mainProg (n := n) (cfg.seeded (startSeed cfg clock)) file clock' root = mainProg cfg file clock root := by
    funext me
    simp only [mainProg, hs, entireFlow, flowLoop_seeded]
    rfl
  simp only [initSys, hp]

/-! ## The seed log -/

/-- The number that the seed log shows for the seed `u`. -/
def shownSeed (u : Nat) : Int := if u < 2147483648 then (u : Int) else (u : Int) - 4294967296

/-- **C73, text.** The line of the seed log for a seed below 2^32 shows a number in decimal notation; it is the seed itself below 2^31, negative above, and reading it by
`%u` gives the seed. -/
theorem seed_text {R : Rounding} (nan : Str) (r u : Nat) (hu : u < 4294967296) : ∃ (tr ts : IntText),
    Print.line nan (.seed r u : Line (Dbl R)) = (c!"seed for rank ") ++ tr.text ++ (c!" is ") ++ ts.text ++ ['\n'] ∧ tr.value = r ∧ ts.value = shownSeed u ∧
    storeU ts.value = .ok u ∧ (2147483648 ≤ u → ts.value < 0) := by
  obtain ⟨tr, a1, a2, _⟩ := Print.int_text r
  obtain ⟨ts, b1, b2, _⟩ := Print.int_text (shownSeed u)
  have hm : u % 4294967296 = u := Nat.mod_eq_of_lt hu
  refine ⟨tr, ts, ?_, a2, b2, ?_, ?_⟩
  · rw [Print.line, Print.unsAsInt, hm, a1, ← b1]
    rfl
  · rw [b2, shownSeed, storeU]
    split
    · rw [if_pos (by omega), show ((u : Int) % 4294967296).toNat = u by omega]
    · rw [if_pos (by omega), show (((u : Int) - 4294967296) % 4294967296).toNat = u by omega]
  · intro h
    rw [b2, shownSeed, if_neg (by omega)]
    omega

/-- What a step adds to a rank's lines does not contain seeds. -/
theorem Step.no_seed {cfg : Cfg F} (hu : cfg.user.Wf cfg.nParm) {root : Fin n} {w w' : W n F} (h : Step cfg root w w') (hok : w.st.Ok cfg) (r : Fin n) :
    ∃ new, w'.log r = w.log r ++ new ∧ ∀ k s, Line.seed k s ∉ new := by
  cases h with
  | widths => exact ⟨_, rfl, by simp⟩
  | betas =>
    refine ⟨_, rfl, fun k s hk => ?_⟩
    split at hk <;> simp at hk
  | draw nStack i b h => exact ⟨[], by simp, by simp⟩
  | batch _ nb h =>
    obtain ⟨hc, _, _⟩ := seqBatch_chain hu h hok
    refine ⟨_, (hc r).2.2, fun k s hk => ?_⟩
    rcases List.mem_cons.1 hk with hk | hk
    · cases hk
    · split at hk
      · obtain ⟨c, _, hc⟩ := List.mem_map.1 hk
        cases hc
      · cases hk
  | swap _ ty ty' h =>
    refine ⟨_, congrFun (seqSwap_log cfg root w w' ty ty' h) r, fun k s hk => ?_⟩
    cases List.mem_singleton.1 hk
  | ladder ty h h' => exact ⟨_, rfl, by simp⟩
  | tune _ rk h => exact ⟨[], by rw [(seqTuneRank_frame h).2.1]; simp, by simp⟩

/-- Every rank writes its seed once, in front of everything but the making of the directory. -/
theorem seed_line {n : Nat} [LawfulDraws F] (cfg : Cfg F) (file : DataFile F) (hv : Valid n cfg file) (clock : Nat) (root : Fin n)
    (w : List (Label n)) (t : Sys n (Msg F) (Line F) (RSt n F)) (h : (initSys cfg file clock root).exec w = some t) (hd : t.AllDone) (r : Fin n) :
    ∃ rest, t.log r = (if r = root then [.mkdir] else []) ++ .seed r.val (seedOf root (startSeed cfg clock) r) :: rest ∧ ∀ k s, Line.seed k s ∉ rest := by
  obtain ⟨wf, hw, hall⟩ := log_prefix cfg file hv clock root
  rw [(hall w t h).2 hd]
  show ∃ rest, wf.log r = _ ∧ _
  obtain ⟨w0, h0, hs⟩ := seqMain_steps cfg file clock root wf hw
  refine (hs.inv (P := fun w => w.st.Ok cfg ∧ ∃ rest, w.log r = (if r = root then [.mkdir] else []) ++ .seed r.val (seedOf root (startSeed cfg clock) r) :: rest ∧
    ∀ k s, Line.seed k s ∉ rest) (fun a b hp hst => ⟨hst.ok hv.user hp.1, ?_⟩) ⟨seqInit_ok hv.user h0, ?_⟩).2
  · obtain ⟨rest, e, hn⟩ := hp.2
    obtain ⟨new, e', hn'⟩ := hst.no_seed hv.user hp.1 r
    refine ⟨rest ++ new, by rw [e', e]; simp, fun k s hk => ?_⟩
    rcases List.mem_append.1 hk with h | h
    · exact hn k s h
    · exact hn' k s h
  · simp only [seqInit, exc_bind, Except.ok.injEq] at h0
    obtain ⟨_, _, data, hdat, _, _, _, _, _, _, beta, hb, rfl⟩ := h0
    simp only [List.append_assoc, List.singleton_append]
    refine ⟨_, rfl, ?_⟩
    intro k s hk
    split at hk <;> simp at hk

/-- **C73.** A finished run with at least two ranks can be repeated from its seed log: let `q` be the first rank other than root, and `v` the number that the log shows for
it. The number `v - 1`, read by `%u` from the input file, is a seed `s`; unless `s` is 0, the program with this seed is at any later time the same program on every
rank, so that all its executions end as this one. -/
theorem repeat_from_log {R : Rounding} [LawfulDraws (Dbl R)] (cfg : Cfg (Dbl R)) (file : DataFile (Dbl R)) (hv : Valid n cfg file) (hseed : cfg.initSeed < 4294967296)
    (clock : Nat) (root : Fin n) (q : Fin n) (hq : q ≠ root) (hfirst : ∀ r, r ≠ root → q.val ≤ r.val) (nan : Str)
    (w : List (Label n)) (t : Sys n (Msg (Dbl R)) (Line (Dbl R)) (RSt n (Dbl R))) (h : (initSys cfg file clock root).exec w = some t) (hd : t.AllDone) :
    ∃ (u s : Nat) (tr ts : IntText), Line.seed q.val u ∈ t.log q ∧ (∀ k u', Line.seed k u' ∈ t.log q → k = q.val ∧ u' = u) ∧
      Print.line nan (.seed q.val u : Line (Dbl R)) = (c!"seed for rank ") ++ tr.text ++ (c!" is ") ++ ts.text ++ ['\n'] ∧ tr.value = q.val ∧
      storeU (ts.value - 1) = .ok s ∧
      (s ≠ 0 → ∀ clock' w' t', (initSys (cfg.seeded s) file clock' root).exec w' = some t' → t'.AllDone → t' = t) := by
  obtain ⟨rest, e, hn⟩ := seed_line cfg file hv clock root w t h hd q
  rw [if_neg hq, List.nil_append] at e
  have hs0 : startSeed cfg clock < 4294967296 := by
    unfold startSeed
    split
    · exact Nat.mod_lt _ (by omega)
    · exact hseed
  have hq0 : (if q.val < root.val then q.val + 1 else q.val) = 1 := by
    have hne : q.val ≠ root.val := fun h => hq (Fin.ext h)
    by_cases hr : root.val = 0
    · have h1 : q.val ≤ 1 := hfirst ⟨1, by have := q.2; omega⟩ (fun h => by have := congrArg Fin.val h; simp at this; omega)
      rw [if_neg (by omega)]
      omega
    · have h1 : q.val ≤ 0 := hfirst ⟨0, by have := q.2; omega⟩ (fun h => by have := congrArg Fin.val h; simp at this; omega)
      rw [if_pos (by omega)]
      omega
  have hu : seedOf root (startSeed cfg clock) q = (startSeed cfg clock + 1) % 4294967296 := by
    rw [seedOf, if_neg hq, hq0]
  have hlt : seedOf root (startSeed cfg clock) q < 4294967296 := Nat.mod_lt _ (by omega)
  obtain ⟨tr, ts, a1, a2, a3, a4, _⟩ := seed_text (R := R) nan q.val _ hlt
  refine ⟨_, startSeed cfg clock, tr, ts, by rw [e]; simp, ?_, a1, a2, ?_, ?_⟩
  · intro k u' hm
    rw [e] at hm
    rcases List.mem_cons.1 hm with hm | hm
    · cases hm
      exact ⟨rfl, rfl⟩
    · exact absurd hm (hn k u')
  · rw [a3, shownSeed, hu, storeU]
    split
    · rw [if_pos (by omega)]
      congr 1
      omega
    · rw [if_pos (by omega)]
      congr 1
      omega
  · intro hs clock' w' t' h' hd'
    rw [repeat_run cfg file clock clock' root hs] at h'
    obtain ⟨wf, _, hall⟩ := log_prefix cfg file hv clock root
    rw [(hall w' t' h').2 hd', (hall w t h).2 hd]

/-- Two runs whose start seeds differ by less than the number of ranks have ranks with the same seed: with root 0 and seeds `d` apart, rank `r` of the later one and rank `r + d` of
the earlier one have the same start point and the same random numbers. -/
theorem runs_share_seeds (cfg : Cfg F) (m seed d : Nat) (r : Nat) (h1 : 1 ≤ r) (h2 : r + d < m + 1) :
    seedOf (n := m + 1) 0 (seed + d) ⟨r, by omega⟩ = seedOf (n := m + 1) 0 seed ⟨r + d, h2⟩ ∧
    cfg.user.initParm (seedOf (n := m + 1) 0 (seed + d) ⟨r, by omega⟩) = cfg.user.initParm (seedOf (n := m + 1) 0 seed ⟨r + d, h2⟩) := by
  have h : seedOf (n := m + 1) 0 (seed + d) ⟨r, by omega⟩ = seedOf (n := m + 1) 0 seed ⟨r + d, h2⟩ := by
    have n1 : ¬ ((⟨r, by omega⟩ : Fin (m + 1)) = 0) := fun h => by have := congrArg Fin.val h; simp at this; omega
    have n2 : ¬ ((⟨r + d, h2⟩ : Fin (m + 1)) = 0) := fun h => by have := congrArg Fin.val h; simp at this; omega
    rw [seedOf, seedOf, if_neg n1, if_neg n2]
    simp
    congr 1
    omega
  exact ⟨h, by rw [h]⟩

end
/-- The demo run can be repeated: its seed log shows 21 for rank 1. -/
example (clock : Nat) (w : List (Label 3)) (t : Sys 3 (Msg XReal) (Line XReal) (RSt 3 XReal)) (h : (initSys demoCfgX demoFileX clock 0).exec w = some t)
    (hd : t.AllDone) : ∃ (u s : Nat) (ts : IntText), Line.seed 1 u ∈ t.log 1 ∧ storeU (ts.value - 1) = .ok s ∧
      (s ≠ 0 → ∀ clock' w' t', (initSys (demoCfgX.seeded s) demoFileX clock' 0).exec w' = some t' → t'.AllDone → t' = t) := by
  obtain ⟨u, s, _, ts, h1, _, _, _, h2, h3⟩ := repeat_from_log demoCfgX demoFileX demoX_valid (by simp [demoCfgX]) clock 0 1 (by decide)
    (by decide) (c!"nan") w t h hd
  exact ⟨u, s, ts, h1, h2, h3⟩

/-- Seeds below and above 2^31. -/
example : shownSeed 21 = 21 ∧ shownSeed 4294967295 = -1 ∧ storeU (-1) = .ok 4294967295 := ⟨rfl, rfl, rfl⟩
/-- Ranks 1 and 2 of a run with seed 21 have the seeds of ranks 2 and 3 of a run with seed 20. -/
example : seedOf (n := 4) 0 21 1 = seedOf (n := 4) 0 20 2 ∧ seedOf (n := 4) 0 21 2 = seedOf (n := 4) 0 20 3 :=
  ⟨(runs_share_seeds demoCfgX 3 20 1 1 (by decide) (by decide)).1, (runs_share_seeds demoCfgX 3 20 1 2 (by decide) (by decide)).1⟩

end NiiC
