import Verif.Seq.Total
import Verif.Seq.Steps
import Verif.Spec.Schedules
import Verif.Spec.Files
import Verif.Props.Demo

/-!
# The MPI protocol: C01–C05, C08, C29

All statements are about the system `initSys cfg file clock root` in which every rank is at the start of `main`.
-/

set_option linter.unusedSectionVars false

namespace NiiC

open Proc Sys

variable {n : Nat} {F : Type} [Arith F] [Source F]

omit [Source F] in
/-- The final state of the distributed run that belongs to the sequential run `w`. -/
def finalSys (root : Fin n) (w : W n F) : Sys n (Msg F) (Line F) (RSt n F) :=
  { procs := fun r => .ret (view root w.st r), chan := fun _ => [], log := w.log }

theorem initSys_star (cfg : Cfg F) (hu : cfg.user.Wf cfg.nParm) (file : DataFile F) (clock : Nat) (root : Fin n) (w : W n F)
    (h : seqMain cfg file clock root = .ok w) : SyncStar (initSys cfg file clock root) (finalSys root w) := by
  have := mainProg_runs cfg hu file clock root w h (fun _ => .ret)
  simp only [Proc.bind_ret] at this
  exact this

theorem finalSys_done (root : Fin n) (w : W n F) : (finalSys root w).AllDone := fun _ => trivial

theorem fault_stays {s t : Sys n (Msg F) (Line F) (RSt n F)} {r : Fin n} {f : Fault} {w : List (Label n)}
    (hf : s.procs r = .fault f) (hw : s.exec w = some t) : t.procs r = .fault f := by
  by_cases hr : Label.rank r ∈ w
  · exfalso
    induction w generalizing s with
    | nil => cases hr
    | cons l w ih =>
      simp only [exec_cons, Option.bind_eq_some_iff] at hw
      obtain ⟨s', hs, hw⟩ := hw
      by_cases hl : l = .rank r
      · subst hl
        simp [step, stepRank, hf] at hs
      · have : s'.procs r = .fault f := by
          have h1 : s.exec [l] = some s' := by simp [hs]
          rw [procs_frame h1 (by simpa using fun h => hl h.symm) (by rw [hf]; rfl), hf]
        exact ih this hw (by simpa [Ne.symm hl] using hr)
  · rw [procs_frame hw hr (by rw [hf]; rfl), hf]

/-- **C01.** With a usable configuration, whatever the MPI library decides about buffering (`pol`) and however the ranks are
interleaved (`w`), a state is never stuck: either every rank has finished or somebody can move. And there is a bound on the
number of moves, the same for all schedules and policies, so every run ends. -/
theorem no_deadlock [LawfulDraws F] (cfg : Cfg F) (file : DataFile F) (hv : Valid n cfg file) (clock : Nat) (root : Fin n) :
    ∃ bound : Nat, ∀ (pol : Policy n (Msg F) (Line F) (RSt n F)) (w : List (Label n)) (t : Sys n (Msg F) (Line F) (RSt n F)),
      Run pol (initSys cfg file clock root) w t → (t.AllDone ∨ t.CanMove pol) ∧ w.length ≤ bound := by
  obtain ⟨wf, hw⟩ := seqMain_total cfg file hv clock root
  have hs := initSys_star cfg hv.user file clock root wf hw
  obtain ⟨w1, h1⟩ := hs.exec
  refine ⟨w1.length, fun pol w t hrun => ⟨?_, ?_⟩⟩
  · rcases progress hs (finalSys_done root wf) hrun.exec with h | h
    · exact .inl h
    · refine .inr ?_
      cases h with
      | rendezvous a b tg v k k' ha hb hq =>
        exact ⟨.rank a, _, by simp only [Allowed, ha]; exact .inr ⟨k', hb⟩, by simp only [step, stepRank, ha]; rfl⟩
      | recv b src tg v q k' hb hq =>
        exact ⟨.rank b, _, by simp only [Allowed, hb], by simp only [step, stepRank, hb, hq]; rfl⟩
      | out r l k hr => exact ⟨.rank r, _, by simp only [Allowed, hr], by simp only [step, stepRank, hr]; rfl⟩
      | barrier h => exact ⟨.barrier, _, trivial, by simp only [step, stepBarrier, if_pos h]; rfl⟩
  · obtain ⟨w3, _, hl⟩ := exec_complete h1 (terminal_of_allDone (finalSys_done root wf)) hrun.exec
    omega

example : ∃ bound : Nat, ∀ (pol : Policy 3 (Msg ℝ) (Line ℝ) (RSt 3 ℝ)) (w : List (Label 3)) (t : Sys 3 (Msg ℝ) (Line ℝ) (RSt 3 ℝ)),
    Run pol (initSys demoCfg demoFile 0 0) w t → (t.AllDone ∨ t.CanMove pol) ∧ w.length ≤ bound :=
  no_deadlock demoCfg demoFile demo_valid 0 0

/-- **C02.** Two finished executions of the same configuration (any configuration, usable or not) end in the same state:
same variables on every rank, same lines written by every rank. -/
theorem schedule_independent (cfg : Cfg F) (file : DataFile F) (clock : Nat) (root : Fin n) (w₁ w₂ : List (Label n))
    (t₁ t₂ : Sys n (Msg F) (Line F) (RSt n F)) (h₁ : (initSys cfg file clock root).exec w₁ = some t₁) (d₁ : t₁.AllDone)
    (h₂ : (initSys cfg file clock root).exec w₂ = some t₂) (d₂ : t₂.AllDone) : t₁ = t₂ := by
  obtain ⟨w₃, h₃, _⟩ := exec_complete h₂ (terminal_of_allDone d₂) h₁
  cases w₃ with
  | nil => simpa using h₃
  | cons l w =>
    simp only [exec_cons, terminal_of_allDone d₁ l, Option.bind_none] at h₃
    cases h₃

/-- Two schedules of the demo that come to the end give the same chain files. -/
example (w₁ w₂ : List (Label 3)) (t₁ t₂ : Sys 3 (Msg ℝ) (Line ℝ) (RSt 3 ℝ)) (h₁ : (initSys demoCfg demoFile 0 0).exec w₁ = some t₁) (d₁ : t₁.AllDone)
    (h₂ : (initSys demoCfg demoFile 0 0).exec w₂ = some t₂) (d₂ : t₂.AllDone) (r : Fin 3) : fileRows r.val (t₁.log r) = fileRows r.val (t₂.log r) := by
  rw [schedule_independent demoCfg demoFile 0 0 w₁ w₂ t₁ t₂ h₁ d₁ h₂ d₂]

/-- The same for executions that end in any other way, for instance with a rank stopped by a fault: the state in which
nobody can move is unique. -/
theorem schedule_independent_terminal (cfg : Cfg F) (file : DataFile F) (clock : Nat) (root : Fin n) (w₁ w₂ : List (Label n))
    (t₁ t₂ : Sys n (Msg F) (Line F) (RSt n F)) (h₁ : (initSys cfg file clock root).exec w₁ = some t₁) (d₁ : t₁.Terminal)
    (h₂ : (initSys cfg file clock root).exec w₂ = some t₂) (d₂ : t₂.Terminal) : t₁ = t₂ := by
  obtain ⟨w₃, h₃, _⟩ := exec_complete h₂ d₂ h₁
  cases w₃ with
  | nil => simpa using h₃
  | cons l w =>
    simp only [exec_cons, d₁ l, Option.bind_none] at h₃
    cases h₃

/-- The demo without its inverse temperatures, which stops with a fault: the same lines have been written under every schedule. -/
example (w₁ w₂ : List (Label 3)) (t₁ t₂ : Sys 3 (Msg ℝ) (Line ℝ) (RSt 3 ℝ)) (h₁ : (initSys { demoCfg with betas := [] } demoFile 0 0).exec w₁ = some t₁)
    (d₁ : t₁.Terminal) (h₂ : (initSys { demoCfg with betas := [] } demoFile 0 0).exec w₂ = some t₂) (d₂ : t₂.Terminal) : t₁.log = t₂.log := by
  rw [schedule_independent_terminal _ _ _ _ w₁ w₂ t₁ t₂ h₁ d₁ h₂ d₂]

/-- **C04.** With a usable configuration the sequential sampler finishes with some `w`, and every execution of the MPI program,
wherever it has got to, can be continued, in a fixed total number of moves, to the state in which every rank holds its part
of the sequential state, has written the sequential program's lines, and no message is in flight. -/
theorem distributed_eq_sequential [LawfulDraws F] (cfg : Cfg F) (file : DataFile F) (hv : Valid n cfg file) (clock : Nat)
    (root : Fin n) : ∃ (w : W n F) (len : Nat), seqMain cfg file clock root = .ok w ∧
      ∀ (w₁ : List (Label n)) (t : Sys n (Msg F) (Line F) (RSt n F)), (initSys cfg file clock root).exec w₁ = some t →
        (∃ w₂, t.exec w₂ = some (finalSys root w) ∧ w₁.length + w₂.length = len) ∧
        (t.AllDone → (∀ r, t.procs r = .ret (view root w.st r)) ∧ t.log = w.log ∧ ∀ c, t.chan c = []) := by
  obtain ⟨wf, hw⟩ := seqMain_total cfg file hv clock root
  have hs := initSys_star cfg hv.user file clock root wf hw
  obtain ⟨w1, h1⟩ := hs.exec
  refine ⟨wf, w1.length, hw, fun w t ht => ⟨?_, fun hd => ?_⟩⟩
  · exact exec_complete h1 (terminal_of_allDone (finalSys_done root wf)) ht
  · have := schedule_independent cfg file clock root w w1 t _ ht hd h1 (finalSys_done root wf)
    subst this
    exact ⟨fun _ => rfl, rfl, fun _ => rfl⟩

example : ∃ (w : W 3 ℝ) (len : Nat), seqMain demoCfg demoFile 0 0 = .ok w ∧
      ∀ (w₁ : List (Label 3)) (t : Sys 3 (Msg ℝ) (Line ℝ) (RSt 3 ℝ)), (initSys demoCfg demoFile 0 0).exec w₁ = some t →
        (∃ w₂, t.exec w₂ = some (finalSys 0 w) ∧ w₁.length + w₂.length = len) ∧
        (t.AllDone → (∀ r, t.procs r = .ret (view 0 w.st r)) ∧ t.log = w.log ∧ ∀ c, t.chan c = []) :=
  distributed_eq_sequential demoCfg demoFile demo_valid 0 0

/-- **C03.** With a usable configuration no reachable state has a rank at a fault (a receive that gets a message of the wrong
type or length faults, as does every other kind of undefined behaviour), and when all ranks have finished no message is left. -/
theorem no_fault [LawfulDraws F] (cfg : Cfg F) (file : DataFile F) (hv : Valid n cfg file) (clock : Nat) (root : Fin n)
    (w : List (Label n)) (t : Sys n (Msg F) (Line F) (RSt n F)) (h : (initSys cfg file clock root).exec w = some t) :
    ¬ t.Faulty ∧ (t.AllDone → ∀ c, t.chan c = []) := by
  obtain ⟨wf, len, _, hall⟩ := distributed_eq_sequential cfg file hv clock root
  obtain ⟨⟨w₂, h₂, _⟩, hd⟩ := hall w t h
  refine ⟨?_, fun hdone => (hd hdone).2.2⟩
  rintro ⟨r, f, hf⟩
  have := fault_stays hf h₂
  cases this

example (w : List (Label 3)) (t : Sys 3 (Msg ℝ) (Line ℝ) (RSt 3 ℝ)) (h : (initSys demoCfg demoFile 0 0).exec w = some t) :
    ¬ t.Faulty ∧ (t.AllDone → ∀ c, t.chan c = []) := no_fault demoCfg demoFile demo_valid 0 0 w t h

/-- **C05.** With at least two ranks, the rank that helps root with a swap exists and is not root, whichever rank is root. -/
theorem swap_helper_valid (hn : 2 ≤ n) (root : Fin n) : ∃ s, slaveRank root = .ok s ∧ s ≠ root := by
  obtain ⟨s, hs⟩ := slaveRank_total hn root
  exact ⟨s, hs, slaveRank_ne hs⟩

example : ∃ s, slaveRank (3 : Fin 5) = .ok s ∧ s ≠ 3 := swap_helper_valid (by decide) 3

/-- With one rank there is no such rank. -/
theorem swap_helper_one_rank (root : Fin 1) : slaveRank root = .error .oob := by
  have : root = 0 := Subsingleton.elim _ _
  subst this
  rfl

example : slaveRank (0 : Fin 2) = .ok 1 ∧ slaveRank (1 : Fin 2) = .ok 0 ∧ slaveRank (3 : Fin 5) = .ok 0 := ⟨rfl, rfl, rfl⟩

/-! ## Variables of different ranks at the same point of the program -/

/-- Logs only grow. -/
theorem step_log {s t : Sys n (Msg F) (Line F) (RSt n F)} {l : Label n} (h : s.step l = some t) (r : Fin n) :
    s.log r <+: t.log r := by
  cases l with
  | barrier =>
    simp only [step, stepBarrier] at h
    split at h
    · cases h; exact List.prefix_refl _
    · cases h
  | rank q =>
    simp only [step, stepRank] at h
    split at h
    · cases h; exact List.prefix_refl _
    · split at h
      · cases h
      · cases h; exact List.prefix_refl _
    · cases h
      by_cases hr : r = q
      · subst hr
        simp
      · simp [Function.update_of_ne hr]
    · cases h

theorem exec_log {s t : Sys n (Msg F) (Line F) (RSt n F)} {w : List (Label n)} (h : s.exec w = some t) (r : Fin n) :
    s.log r <+: t.log r := by
  induction w generalizing s with
  | nil => simp at h; rw [h]
  | cons l w ih =>
    simp only [exec_cons, Option.bind_eq_some_iff] at h
    obtain ⟨s', hs, hw⟩ := h
    exact (step_log hs r).trans (ih hw)

/-- What the ranks have written at any moment of any execution is the beginning of what the sequential program writes. -/
theorem log_prefix [LawfulDraws F] (cfg : Cfg F) (file : DataFile F) (hv : Valid n cfg file) (clock : Nat) (root : Fin n) :
    ∃ w : W n F, seqMain cfg file clock root = .ok w ∧
      ∀ (w₁ : List (Label n)) (t : Sys n (Msg F) (Line F) (RSt n F)), (initSys cfg file clock root).exec w₁ = some t →
        (∀ r, t.log r <+: w.log r) ∧ (t.AllDone → t = finalSys root w) := by
  obtain ⟨w, len, hw, hall⟩ := distributed_eq_sequential cfg file hv clock root
  refine ⟨w, hw, fun w₁ t ht => ⟨fun r => ?_, fun hd => ?_⟩⟩
  · obtain ⟨⟨w₂, h₂, _⟩, _⟩ := hall w₁ t ht
    exact exec_log h₂ r
  · obtain ⟨h1, h2, h3⟩ := (hall w₁ t ht).2 hd
    cases t
    simp only [finalSys, Sys.mk.injEq]
    exact ⟨funext h1, funext h3, h2⟩

omit [Source F] in
/-- Iteration counter and ladder in the records agree between ranks. -/
def NotesAgree (w : W n F) : Prop :=
  ∀ r s, (notes (w.log r)).map (fun k => (k.iter, k.betas)) = (notes (w.log s)).map (fun k => (k.iter, k.betas))

theorem notes_rows (rank : Nat) (l : List (Spec.Ch F)) : notes (l.map (Spec.line rank)) = [] := by
  induction l with
  | nil => rfl
  | cons c l ih => exact ih

theorem notes_note (s : Loc n F) (l : List (Line F)) :
    notes (s.note :: l) = ⟨s.acc, s.accA, List.ofFn s.beta, s.sigma⟩ :: notes l := rfl

theorem NotesAgree.step {cfg : Cfg F} (hu : cfg.user.Wf cfg.nParm) {root : Fin n} {w w' : W n F} (h : Step cfg root w w')
    (hok : w.st.Ok cfg) (hn : NotesAgree w) : NotesAgree w' := by
  intro r s
  have h0 := hn r s
  cases h with
  | widths => simpa [seqWidths, W.push, notes] using h0
  | betas =>
    have : ∀ q, notes (if q = root then [Line.betas (List.ofFn w.st.beta)] else []) = [] := by
      intro q; split <;> rfl
    simpa [this] using h0
  | draw nStack i b h => exact h0
  | batch _ nb h =>
    obtain ⟨hb, _, _⟩ := seqBatch_chain hu h hok
    have hl : ∀ q, notes (w'.log q) = notes (w.log q) ++ [⟨w.st.acc q, w.st.accA q, List.ofFn w.st.beta, w.st.cur q⟩] := by
      intro q
      rw [(hb q).2.2, notes_append, notes_note]
      split
      · rw [G.mh, notes_rows]; rfl
      · rfl
    rw [hl, hl, List.map_append, List.map_append, h0]
    simp [hok.acc r s]
  | swap _ ty ty' h =>
    rw [seqSwap_log cfg root w w' ty ty' h]
    simp only [notes_append, notes_note, List.map_append, h0]
    simp [G.loc, notes, hok.acc r s]
  | ladder ty h h' => simpa [seqLadder, W.push, notes] using h0
  | tune _ rk h => rw [(seqTuneRank_frame h).2.1]; exact h0

theorem seqInit_notes {cfg : Cfg F} {file : DataFile F} {clock : Nat} {root : Fin n} {w : W n F}
    (h : seqInit cfg file clock root = .ok w) : NotesAgree w := by
  simp only [seqInit, exc_bind, Except.ok.injEq] at h
  obtain ⟨_, _, _, _, _, _, _, _, _, _, _, _, rfl⟩ := h
  have : ∀ (p : Prop) [Decidable p] (l : Line F), notes [l] = [] → notes (if p then [l] else []) = [] := by
    intro p _ l hl; split
    · exact hl
    · rfl
  intro r s
  simp only [notes_append]
  rw [this _ _ rfl, this _ _ rfl, this _ _ rfl, this _ _ rfl]
  rfl

theorem seqMain_notes {cfg : Cfg F} (hu : cfg.user.Wf cfg.nParm) {file : DataFile F} {clock : Nat} {root : Fin n} {w : W n F}
    (h : seqMain cfg file clock root = .ok w) : NotesAgree w := by
  obtain ⟨w0, h0, hs⟩ := seqMain_steps cfg file clock root w h
  exact (hs.inv (P := fun w => w.st.Ok cfg ∧ NotesAgree w) (fun _ _ hp h => ⟨h.ok hu hp.1, hp.2.step hu h hp.1⟩)
    ⟨seqInit_ok hu h0, seqInit_notes h0⟩).2

theorem prefix_getElem? {α : Type} {l l' : List α} (h : l <+: l') {k : Nat} {a : α} (hk : l[k]? = some a) :
    l'[k]? = some a := by
  obtain ⟨t, rfl⟩ := h
  rw [List.getElem?_append_left]
  · exact hk
  · exact (List.getElem?_eq_some_iff.1 hk).1

theorem notes_prefix {l l' : List (Line F)} (h : l <+: l') : notes l <+: notes l' := by
  obtain ⟨t, rfl⟩ := h
  rw [notes_append]
  exact List.prefix_append _ _

theorem notes_agree_exec [LawfulDraws F] (cfg : Cfg F) (file : DataFile F) (hv : Valid n cfg file) (clock : Nat) (root : Fin n)
    (w : List (Label n)) (t : Sys n (Msg F) (Line F) (RSt n F)) (h : (initSys cfg file clock root).exec w = some t)
    (r s : Fin n) (k : Nat) (a b : Note F) (ha : (notes (t.log r))[k]? = some a) (hb : (notes (t.log s))[k]? = some b) :
    a.iter = b.iter ∧ a.betas = b.betas := by
  obtain ⟨wf, hw, hall⟩ := log_prefix cfg file hv clock root
  have hp := (hall w t h).1
  have h1 := prefix_getElem? (notes_prefix (hp r)) ha
  have h2 := prefix_getElem? (notes_prefix (hp s)) hb
  have h3 := congrArg (fun l => l[k]?) (seqMain_notes hv.user hw r s)
  simp only [List.getElem?_map, h1, h2, Option.map_some, Option.some.injEq, Prod.mk.injEq] at h3
  exact h3

/-- **C08.** In every execution, when two ranks start their `k`-th computation (a batch or a swap), they have the same
iteration counter; and when all ranks have finished, all counters are equal. -/
theorem same_iteration [LawfulDraws F] (cfg : Cfg F) (file : DataFile F) (hv : Valid n cfg file) (clock : Nat) (root : Fin n)
    (w : List (Label n)) (t : Sys n (Msg F) (Line F) (RSt n F)) (h : (initSys cfg file clock root).exec w = some t) :
    (∀ (r s : Fin n) (k : Nat) (a b : Note F), (notes (t.log r))[k]? = some a → (notes (t.log s))[k]? = some b →
      a.iter = b.iter) ∧
    (t.AllDone → ∀ r s : Fin n, ∃ a b, t.procs r = .ret a ∧ t.procs s = .ret b ∧ a.loc.acc = b.loc.acc) := by
  refine ⟨fun r s k a b ha hb => (notes_agree_exec cfg file hv clock root w t h r s k a b ha hb).1, fun hd r s => ?_⟩
  obtain ⟨wf, hw, hall⟩ := log_prefix cfg file hv clock root
  rw [(hall w t h).2 hd]
  obtain ⟨w0, h0, hs⟩ := seqMain_steps cfg file clock root wf hw
  have hok := hs.inv (P := fun w => w.st.Ok cfg) (fun _ _ hp h => h.ok hv.user hp) (seqInit_ok hv.user h0)
  exact ⟨_, _, rfl, rfl, hok.acc r s⟩

example (w : List (Label 3)) (t : Sys 3 (Msg ℝ) (Line ℝ) (RSt 3 ℝ)) (h : (initSys demoCfg demoFile 0 0).exec w = some t) (a b : Note ℝ)
    (ha : (notes (t.log 1))[7]? = some a) (hb : (notes (t.log 2))[7]? = some b) : a.iter = b.iter :=
  (same_iteration demoCfg demoFile demo_valid 0 0 w t h).1 1 2 7 a b ha hb

/-- **C29.** In every execution, when a rank starts its `k`-th computation (a batch or a swap), the ladder it has is the one
that root has when it starts its `k`-th computation. -/
theorem same_ladder [LawfulDraws F] (cfg : Cfg F) (file : DataFile F) (hv : Valid n cfg file) (clock : Nat) (root : Fin n)
    (w : List (Label n)) (t : Sys n (Msg F) (Line F) (RSt n F)) (h : (initSys cfg file clock root).exec w = some t)
    (r : Fin n) (k : Nat) (a b : Note F) (ha : (notes (t.log r))[k]? = some a) (hb : (notes (t.log root))[k]? = some b) :
    a.betas = b.betas :=
  (notes_agree_exec cfg file hv clock root w t h r root k a b ha hb).2

example (w : List (Label 3)) (t : Sys 3 (Msg ℝ) (Line ℝ) (RSt 3 ℝ)) (h : (initSys demoCfg demoFile 0 0).exec w = some t) (a b : Note ℝ)
    (ha : (notes (t.log 1))[7]? = some a) (hb : (notes (t.log 0))[7]? = some b) : a.betas = b.betas :=
  same_ladder demoCfg demoFile demo_valid 0 0 w t h 1 7 a b ha hb

end NiiC
