import Verif.Model.Crash
import Verif.Props.Demo
import Verif.Props.Protocol
import Verif.Props.FileNames
import Verif.Refine.Launch

/-!
# Ranks finish together or not at all: C105
-/

set_option linter.unusedSectionVars false

namespace NiiC
open Sys

section generic
variable {n : Nat} {V L α : Type}

/-- Every return comes directly behind a barrier. -/
def Proc.Guarded : Proc n V L α → Prop
  | .ret _ => False
  | .send _ _ _ k => k.Guarded
  | .recv _ _ k => ∀ v, (k v).Guarded
  | .barrier k => k.done ∨ k.Guarded
  | .out _ k => k.Guarded
  | .fault _ => True

theorem Proc.guarded_bind {β : Type} (p : Proc n V L α) (f : α → Proc n V L β) (h : ∀ a, (f a).Guarded) : (p.bind f).Guarded := by
  induction p with
  | ret a => exact h a
  | send d t v k ih => exact ih
  | recv s t k ih => exact fun v => ih v
  | barrier k ih => exact .inr ih
  | out l k ih => exact ih
  | fault e => trivial

theorem Proc.Guarded.not_done {p : Proc n V L α} (h : p.Guarded) : ¬ p.done := by
  cases p <;> first | exact h.elim | exact id

/-- While one rank is done, a guarded rank stays guarded. -/
theorem guarded_step {s t : Sys n V L α} {l : Label n} {q r : Fin n} (hq : (s.procs q).done) (hr : (s.procs r).Guarded) (hs : s.step l = some t) :
    (t.procs q).done ∧ (t.procs r).Guarded := by
  cases l with
  | rank p =>
    simp only [Sys.step, Sys.stepRank] at hs
    have key : ∀ (k : Proc n V L α), (¬ (s.procs p).done) → ((s.procs p).Guarded → k.Guarded) → t.procs = Function.update s.procs p k →
        (t.procs q).done ∧ (t.procs r).Guarded := by
      intro k hp hk ht
      rw [ht]
      constructor
      · rw [Function.update_of_ne (by rintro rfl; exact hp hq)]; exact hq
      · by_cases h : r = p
        · subst h; rw [Function.update_self]; exact hk hr
        · rw [Function.update_of_ne h]; exact hr
    split at hs
    · rename_i hp
      cases hs
      exact key _ (by rw [hp]; exact id) (by rw [hp]; exact id) rfl
    · rename_i hp
      split at hs
      · cases hs
      · cases hs
        exact key _ (by rw [hp]; exact id) (by rw [hp]; exact fun h => h _) rfl
    · rename_i hp
      cases hs
      exact key _ (by rw [hp]; exact id) (by rw [hp]; exact id) rfl
    · cases hs
  | barrier =>
    simp only [Sys.step, Sys.stepBarrier] at hs
    split at hs
    · rename_i h
      have := h.2 q
      cases hp : s.procs q <;> rw [hp] at this hq <;> first | exact hq.elim | (simp [Proc.barrier?] at this)
    · cases hs

theorem guarded_exec {w : List (Label n)} {s t : Sys n V L α} {q r : Fin n} (hq : (s.procs q).done) (hr : (s.procs r).Guarded)
    (hs : s.exec w = some t) : (t.procs q).done ∧ (t.procs r).Guarded := by
  induction w generalizing s with
  | nil => cases hs; exact ⟨hq, hr⟩
  | cons l w ih =>
    rw [Sys.exec_cons] at hs
    cases h1 : s.step l with
    | none => rw [h1] at hs; cases hs
    | some s' =>
      rw [h1] at hs
      have := guarded_step hq hr h1
      exact ih this.1 this.2 hs

/-- Guarded or done is kept by every step. -/
theorem guarded_or_done_step {s t : Sys n V L α} {l : Label n} (h : ∀ r, (s.procs r).done ∨ (s.procs r).Guarded) (hs : s.step l = some t) :
    ∀ r, (t.procs r).done ∨ (t.procs r).Guarded := by
  intro r
  cases l with
  | rank p =>
    simp only [Sys.step, Sys.stepRank] at hs
    have key : ∀ (k : Proc n V L α), (¬ (s.procs p).done) → ((s.procs p).Guarded → k.Guarded) → t.procs = Function.update s.procs p k →
        (t.procs r).done ∨ (t.procs r).Guarded := by
      intro k hp hk ht
      rw [ht]
      by_cases h' : r = p
      · subst h'; rw [Function.update_self]; exact .inr (hk ((h r).resolve_left hp))
      · rw [Function.update_of_ne h']; exact h r
    split at hs
    · rename_i hp
      cases hs
      exact key _ (by rw [hp]; exact id) (by rw [hp]; exact id) rfl
    · rename_i hp
      split at hs
      · cases hs
      · cases hs
        exact key _ (by rw [hp]; exact id) (by rw [hp]; exact fun h => h _) rfl
    · rename_i hp
      cases hs
      exact key _ (by rw [hp]; exact id) (by rw [hp]; exact id) rfl
    · cases hs
  | barrier =>
    simp only [Sys.step, Sys.stepBarrier] at hs
    split at hs
    · rename_i hb
      have hr := hb.2 r
      have hg := h r
      cases hs
      show ((s.procs r).barrier?.getD (s.procs r)).done ∨ ((s.procs r).barrier?.getD (s.procs r)).Guarded
      cases hp : s.procs r with
      | barrier k =>
        rw [hp] at hg
        rcases hg with h' | h' | h'
        · exact h'.elim
        · exact .inl h'
        · exact .inr h'
      | _ => rw [hp] at hr; simp [Proc.barrier?] at hr
    · cases hs

theorem guarded_or_done_exec {w : List (Label n)} {s t : Sys n V L α} (h : ∀ r, (s.procs r).done ∨ (s.procs r).Guarded) (hs : s.exec w = some t) :
    ∀ r, (t.procs r).done ∨ (t.procs r).Guarded := by
  induction w generalizing s with
  | nil => cases hs; exact h
  | cons l w ih =>
    rw [Sys.exec_cons] at hs
    cases h1 : s.step l with
    | none => rw [h1] at hs; cases hs
    | some s' => rw [h1] at hs; exact ih (guarded_or_done_step h h1) hs

/-! ## Stopped programs -/

theorem cut_refl (p : Proc n V L α) : Cut p p := by
  induction p with
  | ret a => exact .ret a
  | send d t v k ih => exact .send _ _ _ _ _ ih
  | recv s t k ih => exact .recv _ _ _ _ ih
  | barrier k ih => exact .barrier _ _ ih
  | out l k ih => exact .out _ _ _ ih
  | fault e => exact .stop _ _ id

theorem cut_bind {β : Type} (p : Proc n V L α) (f' f : α → Proc n V L β) (h : ∀ a, Cut (f' a) (f a)) : Cut (p.bind f') (p.bind f) := by
  induction p with
  | ret a => exact h a
  | send d t v k ih => exact .send _ _ _ _ _ ih
  | recv s t k ih => exact .recv _ _ _ _ ih
  | barrier k ih => exact .barrier _ _ ih
  | out l k ih => exact .out _ _ _ ih
  | fault e => exact .stop _ _ id

theorem cut_failing (bad : L → Bool) (p : Proc n V L α) : Cut (p.failing bad) p := by
  induction p with
  | ret a => exact .ret a
  | send d t v k ih => exact .send _ _ _ _ _ ih
  | recv s t k ih => exact .recv _ _ _ _ ih
  | barrier k ih => exact .barrier _ _ ih
  | out l k ih =>
    rw [Proc.failing]
    split
    · exact .stop _ _ id
    · exact .out _ _ _ ih
  | fault e => exact .stop _ _ id

theorem cut_killed (k : Nat) (p : Proc n V L α) : Cut (p.killed k) p := by
  induction p generalizing k with
  | ret a => cases k <;> exact .ret a
  | send d t v c ih => cases k with
    | zero => exact .stop _ _ id
    | succ k => exact .send _ _ _ _ _ (ih k)
  | recv s t c ih => cases k with
    | zero => exact .stop _ _ id
    | succ k => exact .recv _ _ _ _ fun v => ih v k
  | barrier c ih => cases k with
    | zero => exact .stop _ _ id
    | succ k => exact .barrier _ _ (ih k)
  | out l c ih => cases k with
    | zero => exact .stop _ _ id
    | succ k => exact .out _ _ _ (ih k)
  | fault e => cases k <;> exact .stop _ _ id

/-- One system runs stopped programs of the other. -/
structure CutSys (s' s : Sys n V L α) : Prop where
  procs : ∀ r, Cut (s'.procs r) (s.procs r)
  chan : s'.chan = s.chan
  log : s'.log = s.log

theorem CutSys.update {s' s : Sys n V L α} (h : CutSys s' s) (r : Fin n) {k' k : Proc n V L α} (hk : Cut k' k) (q : Fin n) :
    Cut (Function.update s'.procs r k' q) (Function.update s.procs r k q) := by
  by_cases hq : q = r
  · subst hq; rwa [Function.update_self, Function.update_self]
  · rw [Function.update_of_ne hq, Function.update_of_ne hq]; exact h.procs q

/-- A step with stopped programs is a step without. -/
theorem CutSys.step {s' s t' : Sys n V L α} {l : Label n} (h : CutSys s' s) (hs : s'.step l = some t') : ∃ t, s.step l = some t ∧ CutSys t' t := by
  cases l with
  | rank r =>
    have hr := h.procs r
    simp only [Sys.step, Sys.stepRank] at hs ⊢
    generalize hp : s.procs r = p at hr
    generalize hp' : s'.procs r = p' at hr hs
    cases hr with
    | stop f p hd => cases hs
    | ret a => cases hs
    | send d t v k' k hk =>
      cases hs
      exact ⟨_, rfl, h.update r hk, by simp only [h.chan], h.log⟩
    | recv sr t k' k hk =>
      simp only [h.chan] at hs
      simp only
      split at hs
      · cases hs
      · rename_i v q hq
        cases hs
        exact ⟨_, rfl, h.update r (hk v), rfl, h.log⟩
    | barrier k' k hk => cases hs
    | out l k' k hk =>
      cases hs
      exact ⟨_, rfl, h.update r hk, h.chan, by simp only [h.log]⟩
  | barrier =>
    simp only [Sys.step, Sys.stepBarrier] at hs ⊢
    split at hs
    · rename_i hb
      have hall : ∀ r, ∃ k' k, s'.procs r = .barrier k' ∧ s.procs r = .barrier k ∧ Cut k' k := by
        intro r
        have h1 := hb.2 r
        have h2 := h.procs r
        generalize s.procs r = p at h2
        generalize s'.procs r = p' at h1 h2
        cases h2 with
        | barrier k' k hk => exact ⟨_, _, rfl, rfl, hk⟩
        | _ => exact absurd h1 (by simp [Proc.barrier?])
      have hb' : s.AllAtBarrier := ⟨hb.1, fun r => by
        obtain ⟨k', k, -, h2, -⟩ := hall r
        rw [h2]; rfl⟩
      rw [if_pos hb']
      cases hs
      refine ⟨_, rfl, fun r => ?_, h.chan, h.log⟩
      obtain ⟨k', k, h1, h2, h3⟩ := hall r
      simp only [h1, h2]
      exact h3
    · cases hs

/-- An execution with stopped programs is an execution without. -/
theorem CutSys.exec {w : List (Label n)} {s' s t' : Sys n V L α} (h : CutSys s' s) (hs : s'.exec w = some t') :
    ∃ t, s.exec w = some t ∧ CutSys t' t := by
  induction w generalizing s' s with
  | nil => cases hs; exact ⟨s, rfl, h⟩
  | cons l w ih =>
    rw [Sys.exec_cons] at hs
    cases h1 : s'.step l with
    | none => rw [h1] at hs; cases hs
    | some u' =>
      rw [h1] at hs
      obtain ⟨u, h2, h3⟩ := h.step h1
      obtain ⟨t, h4, h5⟩ := ih h3 hs
      exact ⟨t, by rw [Sys.exec_cons, h2]; exact h4, h5⟩

theorem Cut.done_iff {p' p : Proc n V L α} (h : Cut p' p) : p'.done ↔ p.done := by
  cases h with
  | stop f p hd => exact ⟨fun h => h.elim, fun h => (hd h).elim⟩
  | ret a => exact Iff.rfl
  | send d t v k' k hk => exact Iff.rfl
  | recv s t k' k hk => exact Iff.rfl
  | barrier k' k hk => exact Iff.rfl
  | out l k' k hk => exact Iff.rfl

/-- Where no rank has stopped, the stopped programs take every step of the others. -/
theorem CutSys.step_back {s' s t : Sys n V L α} {l : Label n} (h : CutSys s' s) (hn : ∀ r f, s'.procs r ≠ .fault f) (hs : s.step l = some t) :
    ∃ t', s'.step l = some t' := by
  cases l with
  | rank r =>
    have hr := h.procs r
    have hr' := hn r
    simp only [Sys.step, Sys.stepRank] at hs ⊢
    generalize hp : s.procs r = p at hr hs
    generalize hp' : s'.procs r = p' at hr hr'
    cases hr with
    | stop f p hd => exact absurd rfl (hr' f)
    | ret a => cases hs
    | send d t v k' k hk => exact ⟨_, rfl⟩
    | recv sr t k' k hk =>
      simp only [h.chan]
      simp only at hs
      split at hs
      · cases hs
      · exact ⟨_, rfl⟩
    | barrier k' k hk => cases hs
    | out l k' k hk => exact ⟨_, rfl⟩
  | barrier =>
    simp only [Sys.step, Sys.stepBarrier] at hs ⊢
    split at hs
    · rename_i hb
      have hb' : s'.AllAtBarrier := ⟨hb.1, fun r => by
        have h1 := hb.2 r
        have h2 := h.procs r
        have h3 := hn r
        generalize s.procs r = p at h1 h2
        generalize s'.procs r = p' at h2 h3
        cases h2 with
        | stop f p hd => exact absurd rfl (h3 f)
        | barrier k' k hk => rfl
        | _ => exact absurd h1 (by simp [Proc.barrier?])⟩
      rw [if_pos hb']
      exact ⟨_, rfl⟩
    · cases hs

/-- One system runs the programs of the other, with some lines that cannot be written; none of them has been. -/
structure FailSys (bad : L → Bool) (s' s : Sys n V L α) : Prop where
  procs : ∀ r, s'.procs r = (s.procs r).failing bad
  chan : s'.chan = s.chan
  log : s'.log = s.log
  good : ∀ r, ∀ x ∈ s.log r, bad x = false

theorem FailSys.update {bad : L → Bool} {s' s : Sys n V L α} (h : FailSys bad s' s) (r : Fin n) (k : Proc n V L α) (q : Fin n) :
    Function.update s'.procs r (k.failing bad) q = (Function.update s.procs r k q).failing bad := by
  by_cases hq : q = r
  · subst hq; rw [Function.update_self, Function.update_self]
  · rw [Function.update_of_ne hq, Function.update_of_ne hq]; exact h.procs q

theorem FailSys.step {bad : L → Bool} {s' s t' : Sys n V L α} {l : Label n} (h : FailSys bad s' s) (hs : s'.step l = some t') :
    ∃ t, s.step l = some t ∧ FailSys bad t' t := by
  cases l with
  | rank r =>
    have hr := h.procs r
    simp only [Sys.step, Sys.stepRank] at hs ⊢
    rw [hr] at hs
    cases hp : s.procs r with
    | ret a => rw [hp] at hs; cases hs
    | send d t v k =>
      rw [hp] at hs
      cases hs
      exact ⟨_, rfl, h.update r k, by simp only [h.chan], h.log, h.good⟩
    | recv sr t k =>
      rw [hp] at hs
      simp only [Proc.failing, h.chan] at hs
      simp only
      split at hs
      · cases hs
      · rename_i v q hq
        cases hs
        exact ⟨_, rfl, h.update r (k v), rfl, h.log, h.good⟩
    | barrier k => rw [hp] at hs; cases hs
    | out x k =>
      rw [hp, Proc.failing] at hs
      by_cases hb : bad x = true
      · rw [if_pos hb] at hs; cases hs
      · rw [if_neg hb] at hs
        cases hs
        refine ⟨_, rfl, h.update r k, h.chan, by simp only [h.log], fun q y hy => ?_⟩
        by_cases hq : q = r
        · subst hq
          simp only [Function.update_self, List.mem_append, List.mem_singleton] at hy
          rcases hy with hy | rfl
          · exact h.good q y hy
          · exact Bool.eq_false_iff.2 hb
        · simp only [Function.update_of_ne hq] at hy
          exact h.good q y hy
    | fault e => rw [hp] at hs; cases hs
  | barrier =>
    simp only [Sys.step, Sys.stepBarrier] at hs ⊢
    split at hs
    · rename_i hb
      have hall : ∀ r, ∃ k, s.procs r = .barrier k := by
        intro r
        have h1 := hb.2 r
        rw [h.procs r] at h1
        cases hp : s.procs r with
        | barrier k => exact ⟨k, rfl⟩
        | out x k =>
          rw [hp, Proc.failing] at h1
          split at h1 <;> simp [Proc.barrier?] at h1
        | _ => rw [hp] at h1; simp [Proc.barrier?, Proc.failing] at h1
      have hb' : s.AllAtBarrier := ⟨hb.1, fun r => by
        obtain ⟨k, h2⟩ := hall r
        rw [h2]; rfl⟩
      rw [if_pos hb']
      cases hs
      refine ⟨_, rfl, fun r => ?_, h.chan, h.log, h.good⟩
      obtain ⟨k, h1⟩ := hall r
      simp only [h.procs r, h1]
      rfl
    · cases hs

theorem FailSys.exec {bad : L → Bool} {w : List (Label n)} {s' s t' : Sys n V L α} (h : FailSys bad s' s) (hs : s'.exec w = some t') :
    ∃ t, s.exec w = some t ∧ FailSys bad t' t := by
  induction w generalizing s' s with
  | nil => cases hs; exact ⟨s, rfl, h⟩
  | cons l w ih =>
    rw [Sys.exec_cons] at hs
    cases h1 : s'.step l with
    | none => rw [h1] at hs; cases hs
    | some u' =>
      rw [h1] at hs
      obtain ⟨u, h2, h3⟩ := h.step h1
      obtain ⟨t, h4, h5⟩ := ih h3 hs
      exact ⟨t, by rw [Sys.exec_cons, h2]; exact h4, h5⟩

end generic

variable {n : Nat} {F : Type} [Arith F] [Source F]

/-- `main` returns only behind its last barrier. -/
theorem mainProg_guarded (cfg : Cfg F) (file : DataFile F) (clock : Nat) (root me : Fin n) : (mainProg cfg file clock root me).Guarded := by
  unfold mainProg
  iterate 13 refine Proc.guarded_bind _ _ fun _ => ?_
  exact .inl trivial

/-- **C105.** In a run with a usable configuration, as soon as one rank has finished all have, with everything written; so a rank that has not passed the last
barrier keeps every other from finishing. -/
theorem finish_together [LawfulDraws F] (cfg : Cfg F) (file : DataFile F) (hv : Valid n cfg file) (clock : Nat) (root : Fin n) :
    ∃ w : W n F, seqMain cfg file clock root = .ok w ∧
      ∀ (w₁ : List (Label n)) (t : Sys n (Msg F) (Line F) (RSt n F)), (initSys cfg file clock root).exec w₁ = some t →
        ∀ q, (t.procs q).done → t = finalSys root w := by
  obtain ⟨w, hw, hall⟩ := log_prefix cfg file hv clock root
  refine ⟨w, hw, fun w₁ t ht q hq => (hall w₁ t ht).2 fun r => ?_⟩
  obtain ⟨wf, len, hwf, hd⟩ := distributed_eq_sequential cfg file hv clock root
  obtain ⟨⟨w₂, h₂, -⟩, -⟩ := hd w₁ t ht
  refine (guarded_or_done_exec (fun r => .inr (mainProg_guarded cfg file clock root r)) ht r).resolve_right fun hg => ?_
  exact (guarded_exec hq hg h₂).2.not_done trivial

example : ∃ w : W 3 ℝ, seqMain demoCfg demoFile 0 0 = .ok w ∧
      ∀ (w₁ : List (Label 3)) (t : Sys 3 (Msg ℝ) (Line ℝ) (RSt 3 ℝ)), (initSys demoCfg demoFile 0 0).exec w₁ = some t →
        ∀ q, (t.procs q).done → t = finalSys 0 w :=
  finish_together demoCfg demoFile demo_valid 0 0

/-- **C105.** Ranks may stop anywhere, for any reason. What has been written is the beginning of what an undisturbed run writes; once a rank has stopped, no
rank finishes; the run cannot go on for ever, and it comes to a standstill before its end only where a rank has stopped. -/
theorem stopped_rank [LawfulDraws F] (cfg : Cfg F) (file : DataFile F) (hv : Valid n cfg file) (clock : Nat) (root : Fin n)
    (progs : Fin n → Proc n (Msg F) (Line F) (RSt n F)) (hc : ∀ r, Cut (progs r) (mainProg cfg file clock root r)) :
    ∃ (w : W n F) (len : Nat), seqMain cfg file clock root = .ok w ∧
      ∀ (w₁ : List (Label n)) (t : Sys n (Msg F) (Line F) (RSt n F)),
        (startSys progs).exec w₁ = some t →
        (∀ r, t.log r <+: w.log r) ∧ w₁.length ≤ len ∧ ((∃ q, (t.procs q).done) → t = finalSys root w) ∧
        ((∃ r f, t.procs r = .fault f) → ∀ q, ¬ (t.procs q).done) ∧ (t.Terminal → t = finalSys root w ∨ ∃ r f, t.procs r = .fault f) := by
  obtain ⟨w, len, hw, hd⟩ := distributed_eq_sequential cfg file hv clock root
  obtain ⟨w', hw', hp⟩ := log_prefix cfg file hv clock root
  obtain ⟨w'', hw'', ht⟩ := finish_together cfg file hv clock root
  obtain rfl : w' = w := Except.ok.inj (hw'.symm.trans hw)
  obtain rfl : w'' = w' := Except.ok.inj (hw''.symm.trans hw)
  refine ⟨w'', len, hw, fun w₁ t' ht' => ?_⟩
  obtain ⟨t, h1, h2⟩ := CutSys.exec (s' := startSys progs) (s := initSys cfg file clock root) ⟨hc, rfl, rfl⟩ ht'
  have hfin : (∃ q, (t'.procs q).done) → t' = finalSys root w'' := by
    rintro ⟨q, hq⟩
    have e := ht w₁ t h1 q ((h2.procs q).done_iff.1 hq)
    subst e
    have : t'.procs = (finalSys root w'').procs := by
      funext r
      have hr := h2.procs r
      generalize t'.procs r = p at hr
      generalize e : (finalSys root w'').procs r = p' at hr
      cases hr with
      | stop f p hd => subst e; exact absurd trivial hd
      | ret a => rfl
      | _ => cases e
    have hc := h2.chan
    have hl := h2.log
    cases t'
    subst this hc hl
    rfl
  refine ⟨fun r => by rw [h2.log]; exact (hp w₁ t h1).1 r, ?_, hfin, ?_, fun hT => ?_⟩
  · obtain ⟨⟨w₂, -, h⟩, -⟩ := hd w₁ t h1
    omega
  · rintro ⟨r, f, hr⟩ q hq
    rw [hfin ⟨q, hq⟩] at hr
    cases hr
  · by_cases hf : ∃ r f, t'.procs r = .fault f
    · exact .inr hf
    · left
      simp only [not_exists] at hf
      obtain ⟨⟨w₂, h, -⟩, -⟩ := hd w₁ t h1
      cases w₂ with
      | nil =>
        cases h
        exact hfin ⟨root, (h2.procs root).done_iff.2 trivial⟩
      | cons l w₂ =>
        rw [Sys.exec_cons] at h
        cases hl : t.step l with
        | none => rw [hl] at h; cases h
        | some u =>
          obtain ⟨u', hu⟩ := h2.step_back hf hl
          rw [hT l] at hu
          cases hu

/-- Rank 1 is killed before its fifth action, rank 2 before its hundredth. -/
example : ∃ (w : W 3 ℝ) (len : Nat), seqMain demoCfg demoFile 0 0 = .ok w ∧
      ∀ (w₁ : List (Label 3)) (t : Sys 3 (Msg ℝ) (Line ℝ) (RSt 3 ℝ)),
        (startSys fun r => (mainProg demoCfg demoFile 0 0 r).killed (if r = 1 then 4 else if r = 2 then 99 else 1000000)).exec w₁ = some t →
        (∀ r, t.log r <+: w.log r) ∧ w₁.length ≤ len ∧ ((∃ q, (t.procs q).done) → t = finalSys 0 w) ∧
        ((∃ r f, t.procs r = .fault f) → ∀ q, ¬ (t.procs q).done) ∧ (t.Terminal → t = finalSys 0 w ∨ ∃ r f, t.procs r = .fault f) :=
  stopped_rank demoCfg demoFile demo_valid 0 0 _ fun _ => cut_killed _ _

/-- **C105.** Lines that cannot be written: a run finishes if and only if it has none of them to write. Otherwise every rank's output is the beginning of that of
an undisturbed run, without any of those lines, no rank finishes, and the run stands still after finitely many actions with a rank that has stopped. -/
theorem unwritable_line [LawfulDraws F] (cfg : Cfg F) (file : DataFile F) (hv : Valid n cfg file) (clock : Nat) (root : Fin n) (bad : Line F → Bool) :
    ∃ (w : W n F) (len : Nat), seqMain cfg file clock root = .ok w ∧
      ∀ (w₁ : List (Label n)) (t : Sys n (Msg F) (Line F) (RSt n F)),
        (startSys fun r => (mainProg cfg file clock root r).failing bad).exec w₁ = some t →
        (∀ r, t.log r <+: w.log r ∧ ∀ x ∈ t.log r, bad x = false) ∧ w₁.length ≤ len ∧
        ((∃ r, ∃ x ∈ w.log r, bad x = true) → (∀ q, ¬ (t.procs q).done) ∧ (t.Terminal → ∃ r f, t.procs r = .fault f)) ∧
        ((∀ r, ∀ x ∈ w.log r, bad x = false) → t.Terminal → t = finalSys root w) := by
  obtain ⟨w, len, hw, hall⟩ := stopped_rank cfg file hv clock root (fun r => (mainProg cfg file clock root r).failing bad) fun r => cut_failing _ _
  refine ⟨w, len, hw, fun w₁ t ht => ?_⟩
  obtain ⟨h1, h2, h3, -, h5⟩ := hall w₁ t ht
  obtain ⟨u, h8, h9⟩ := FailSys.exec (bad := bad) (s' := startSys fun r => (mainProg cfg file clock root r).failing bad) (s := initSys cfg file clock root) ⟨fun r => rfl, rfl, rfl, fun r x hx => by cases hx⟩ ht
  have h6 : ∀ r, ∀ x ∈ t.log r, bad x = false := by rw [h9.log]; exact h9.good
  have h7 : (∃ r, ∃ x ∈ w.log r, bad x = true) → ∀ q, ¬ (t.procs q).done := by
    rintro ⟨r, x, hx, hb⟩ q hq
    have := h3 ⟨q, hq⟩
    subst this
    have := h6 r x hx
    rw [hb] at this
    cases this
  refine ⟨fun r => ⟨h1 r, h6 r⟩, h2, fun h => ⟨h7 h, fun hT => ?_⟩, fun h hT => ?_⟩
  · rcases h5 hT with rfl | h8
    · exact absurd trivial (h7 h root)
    · exact h8
  · rcases h5 hT with h8 | ⟨r, f, hr⟩
    · exact h8
    · exfalso
      obtain ⟨w', hw', hp⟩ := log_prefix cfg file hv clock root
      obtain rfl : w' = w := Except.ok.inj (hw'.symm.trans hw)
      have hn := (no_fault cfg file hv clock root w₁ u h8).1
      have hpr := h9.procs r
      rw [hr] at hpr
      cases hu : u.procs r with
      | fault e => exact hn ⟨r, e, hu⟩
      | out x k =>
        rw [hu, Proc.failing] at hpr
        have h11 : (initSys cfg file clock root).exec (w₁ ++ [.rank r]) =
            some { u with procs := Function.update u.procs r k, log := Function.update u.log r (u.log r ++ [x]) } := by
          rw [Sys.exec_append, h8]
          simp only [Option.bind_some, Sys.exec_cons, Sys.step, Sys.stepRank, hu, Sys.exec_nil]
        have h10 := ((hp _ _ h11).1 r).subset (a := x) (by simp)
        rw [h r x h10] at hpr
        cases hpr
      | _ => rw [hu] at hpr; cases hpr

/-- The disk is full for rows from iteration 4 on. -/
example : ∃ (w : W 3 ℝ) (len : Nat), seqMain demoCfg demoFile 0 0 = .ok w ∧
      ∀ (w₁ : List (Label 3)) (t : Sys 3 (Msg ℝ) (Line ℝ) (RSt 3 ℝ)),
        (startSys fun r => (mainProg demoCfg demoFile 0 0 r).failing fun x => match x with | .row _ _ _ k _ => 4 ≤ k | _ => false).exec w₁ = some t →
        (∀ r, t.log r <+: w.log r ∧ ∀ x ∈ t.log r, (match x with | .row _ _ _ k _ => decide (4 ≤ k) | _ => false) = false) ∧ w₁.length ≤ len ∧
        ((∃ r, ∃ x ∈ w.log r, (match x with | .row _ _ _ k _ => decide (4 ≤ k) | _ => false) = true) →
          (∀ q, ¬ (t.procs q).done) ∧ (t.Terminal → ∃ r f, t.procs r = .fault f)) ∧
        ((∀ r, ∀ x ∈ w.log r, (match x with | .row _ _ _ k _ => decide (4 ≤ k) | _ => false) = false) → t.Terminal → t = finalSys 0 w) :=
  unwritable_line demoCfg demoFile demo_valid 0 0 _

/-- A line once written stays. -/
theorem Step.line_stays {cfg : Cfg F} (hu : cfg.user.Wf cfg.nParm) {root : Fin n} {w w' : W n F} (h : Step cfg root w w') (hok : w.st.Ok cfg) {r : Fin n}
    {x : Line F} (hx : x ∈ w.log r) : x ∈ w'.log r := by
  cases h with
  | widths => simp only [seqWidths, W.push, List.mem_append]; exact .inl hx
  | betas => exact List.mem_append_left _ hx
  | draw nStack i b h => exact hx
  | batch _ nb h =>
    obtain ⟨hc, -, -⟩ := seqBatch_chain hu h hok
    rw [(hc r).2.2]
    exact List.mem_append_left _ hx
  | swap _ ty ty' h =>
    rw [seqSwap_log cfg root w w' ty ty' h]
    exact List.mem_append_left _ hx
  | ladder ty h h' hr => simpa [seqLadder, W.push] using hx
  | tune _ rk h =>
    obtain ⟨-, hlog, -⟩ := seqTuneRank_frame h
    rw [hlog]; exact hx

/-- Files that every run writes to. -/
theorem start_files [LawfulDraws F] (cfg : Cfg F) (file : DataFile F) (hv : Valid n cfg file) (clock : Nat) (root : Fin n) {w : W n F}
    (hw : seqMain cfg file clock root = .ok w) (nm : Naming) (r : Fin n) (s : Str)
    (h : s = snprintf nm.len (nm.chainFull r.val) ∨ s = snprintf 100 (nm.dir ++ (c!"/") ++ (c!"gaussian_prop.chain") ++ printNat r.val) ∨
      s = snprintf nm.len (nm.dir ++ (c!"/") ++ c!"init.randseed") ∨ s = snprintf nm.len (nm.dir ++ (c!"/") ++ c!"init.parm")) :
    ∃ q, ∃ x ∈ w.log q, nm.file x = some s := by
  obtain ⟨w0, h0, hs⟩ := seqMain_steps cfg file clock root w hw
  have stay : ∀ q x, x ∈ w0.log q → x ∈ w.log q := fun q x hx =>
    (hs.inv (P := fun w => w.st.Ok cfg ∧ x ∈ w.log q) (fun _ _ hp h => ⟨h.ok hv.user hp.1, h.line_stays hv.user hp.1 hp.2⟩) ⟨seqInit_ok hv.user h0, hx⟩).2
  simp only [seqInit, exc_bind, Except.ok.injEq] at h0
  obtain ⟨_, _, data, hd, _, _, _, _, _, _, beta, hb, rfl⟩ := h0
  rcases h with rfl | rfl | rfl | rfl
  · exact ⟨r, .row r.val _ _ 0 0, stay r _ (List.mem_append_left _ (List.mem_append_right _ (List.mem_singleton.2 rfl))), rfl⟩
  · exact ⟨r, .sigma r.val _, stay r _ (List.mem_append_right _ (List.mem_singleton.2 rfl)), rfl⟩
  · exact ⟨r, .seed r.val _, stay r _ (List.mem_append_left _ (List.mem_append_left _ (List.mem_append_left _ (List.mem_append_right _
      (List.mem_singleton.2 rfl))))), rfl⟩
  · exact ⟨root, .initParm _, stay root _ (List.mem_append_left _ (List.mem_append_left _ (List.mem_append_right _ (by
      rw [if_pos rfl]
      exact List.mem_singleton.2 rfl)))), rfl⟩

/-- **C105.** If the file of one chain, one of the files of proposal widths, the file of seeds or the file of starting points cannot be opened, the run comes to a
standstill after finitely many actions; no rank finishes, and nothing wrong has been written. -/
theorem unwritable_file [LawfulDraws F] (cfg : Cfg F) (file : DataFile F) (hv : Valid n cfg file) (clock : Nat) (root : Fin n) (nm : Naming)
    (names : List Str) (r : Fin n) (s : Str) (hs : s ∈ names)
    (h : s = snprintf nm.len (nm.chainFull r.val) ∨ s = snprintf 100 (nm.dir ++ (c!"/") ++ (c!"gaussian_prop.chain") ++ printNat r.val) ∨
      s = snprintf nm.len (nm.dir ++ (c!"/") ++ c!"init.randseed") ∨ s = snprintf nm.len (nm.dir ++ (c!"/") ++ c!"init.parm")) :
    ∃ (w : W n F) (len : Nat), seqMain cfg file clock root = .ok w ∧
      ∀ (w₁ : List (Label n)) (t : Sys n (Msg F) (Line F) (RSt n F)),
        (startSys fun r => (mainProg cfg file clock root r).failing (nm.blocked names)).exec w₁ = some t →
        (∀ q, t.log q <+: w.log q ∧ ¬ (t.procs q).done) ∧ w₁.length ≤ len ∧ (t.Terminal → ∃ q f, t.procs q = .fault f) := by
  obtain ⟨w, len, hw, hall⟩ := unwritable_line cfg file hv clock root (nm.blocked names)
  refine ⟨w, len, hw, fun w₁ t ht => ?_⟩
  obtain ⟨h1, h2, h3, -⟩ := hall w₁ t ht
  obtain ⟨q, x, hx, hf⟩ := start_files cfg file hv clock root hw nm r s h
  have h4 := h3 ⟨q, x, hx, by simp [Naming.blocked, hf, hs]⟩
  exact ⟨fun q => ⟨(h1 q).1, h4.1 q⟩, h2, h4.2⟩

/-- The chain file of rank 2 exists as a directory. -/
example : ∃ (w : W 3 ℝ) (len : Nat), seqMain demoCfg demoFile 0 0 = .ok w ∧
      ∀ (w₁ : List (Label 3)) (t : Sys 3 (Msg ℝ) (Line ℝ) (RSt 3 ℝ)),
        (startSys fun r => (mainProg demoCfg demoFile 0 0 r).failing (Naming.blocked ⟨100, c!"chain", c!".dat", c!"results"⟩ [c!"results/chain2.dat"])).exec w₁ = some t →
        (∀ q, t.log q <+: w.log q ∧ ¬ (t.procs q).done) ∧ w₁.length ≤ len ∧ (t.Terminal → ∃ q f, t.procs q = .fault f) :=
  unwritable_file demoCfg demoFile demo_valid 0 0 ⟨100, c!"chain", c!".dat", c!"results"⟩ _ 2 _ (List.mem_singleton.2 rfl) (.inl (by decide +kernel))

/-! ## Data that cannot be read -/

theorem noRet_step_rank {V L α : Type} {s t : Sys n V L α} {l : Label n} {r : Fin n} (h : (s.procs r).NoRet) (hs : s.step l = some t) : (t.procs r).NoRet := by
  cases l with
  | rank p =>
    simp only [Sys.step, Sys.stepRank] at hs
    have key : ∀ (k : Proc n V L α), ((s.procs p).NoRet → k.NoRet) → t.procs = Function.update s.procs p k → (t.procs r).NoRet := by
      intro k hk ht
      rw [ht]
      by_cases h' : r = p
      · subst h'; rw [Function.update_self]; exact hk h
      · rw [Function.update_of_ne h']; exact h
    split at hs
    · rename_i hp
      cases hs
      exact key _ (by rw [hp]; exact id) rfl
    · rename_i hp
      split at hs
      · cases hs
      · cases hs
        exact key _ (by rw [hp]; exact fun h => h _) rfl
    · rename_i hp
      cases hs
      exact key _ (by rw [hp]; exact id) rfl
    · cases hs
  | barrier =>
    simp only [Sys.step, Sys.stepBarrier] at hs
    split at hs
    · cases hs
      show ((s.procs r).barrier?.getD (s.procs r)).NoRet
      cases hp : s.procs r <;> rw [hp] at h <;> exact h
    · cases hs

theorem noRet_exec_rank {V L α : Type} {w : List (Label n)} {s t : Sys n V L α} {r : Fin n} (h : (s.procs r).NoRet) (hs : s.exec w = some t) :
    (t.procs r).NoRet := by
  induction w generalizing s with
  | nil => cases hs; exact h
  | cons l w ih =>
    rw [Sys.exec_cons] at hs
    cases h1 : s.step l with
    | none => rw [h1] at hs; cases hs
    | some s' => rw [h1] at hs; exact ih (noRet_step_rank h h1) hs

/-- **C105.** Without a data file, whatever the configuration, nothing happens but the making of the directory: the other ranks wait for the number of lines. -/
theorem missing_data (cfg : Cfg F) (file : DataFile F) (clock : Nat) (root : Fin n) (w : List (Label n)) (t : Sys n (Msg F) (Line F) (RSt n F))
    (h : (startSys (noDataProg cfg file clock root)).exec w = some t) :
    w.length ≤ 1 ∧ (∀ q, ¬ (t.procs q).done) ∧ (∀ q, t.log q = [] ∨ q = root ∧ t.log q = [.mkdir]) ∧
      (t.Terminal → ∃ f, t.procs root = .fault f) := by
  have hwait : ∀ q, q ≠ root → ∃ k, noDataProg cfg file clock root q = .recv root .bcast k := by
    intro q hq
    rw [noDataProg, if_neg hq]
    unfold mainProg
    simp only [hq, if_false]
    simp only [outs, bcastInt, bcast, hq, if_false]
    exact ⟨_, rfl⟩
  have hroot : noDataProg cfg file clock root root = .out .mkdir (.fault .null) := if_pos rfl
  have hnb : ∀ (s : Sys n (Msg F) (Line F) (RSt n F)), (s.procs root).barrier? = none → s.stepBarrier = none := by
    intro s hs
    rw [Sys.stepBarrier, if_neg]
    rintro ⟨-, h2⟩
    have := h2 root
    rw [hs] at this
    cases this
  have hnr : ∀ (s : Sys n (Msg F) (Line F) (RSt n F)) (q : Fin n), (∃ k, s.procs q = .recv root .bcast k) → s.chan (root, q, .bcast) = [] →
      s.stepRank q = none := by
    rintro s q ⟨k, hk⟩ hc
    simp only [Sys.stepRank, hk, hc]
  cases w with
  | nil =>
    cases h
    refine ⟨by simp, fun q hq => ?_, fun q => .inl rfl, fun hT => ?_⟩
    · change (noDataProg cfg file clock root q).done at hq
      by_cases e : q = root
      · subst e; rw [hroot] at hq; exact hq
      · obtain ⟨k, hk⟩ := hwait q e; rw [hk] at hq; exact hq
    · have := hT (.rank root)
      simp only [Sys.step, Sys.stepRank, startSys, hroot] at this
      cases this
  | cons l w =>
    rw [Sys.exec_cons] at h
    have hl : l = .rank root := by
      cases l with
      | barrier =>
        rw [show (startSys (noDataProg cfg file clock root)).step .barrier = none from hnb _ (by show (noDataProg cfg file clock root root).barrier? = _; rw [hroot]; rfl)] at h
        cases h
      | rank q =>
        by_cases e : q = root
        · rw [e]
        · rw [show (startSys (noDataProg cfg file clock root)).step (.rank q) = none from hnr _ q (hwait q e) rfl] at h
          cases h
    subst hl
    have h1 : (startSys (noDataProg cfg file clock root)).step (.rank root) = some
        { procs := Function.update (noDataProg cfg file clock root) root (.fault .null), chan := fun _ => [],
          log := Function.update (fun _ => []) root [.mkdir] } := by
      simp only [Sys.step, Sys.stepRank, startSys, hroot, List.nil_append]
    rw [h1] at h
    cases w with
    | nil =>
      cases h
      refine ⟨by simp, fun q hq => ?_, fun q => ?_, fun _ => ⟨.null, Function.update_self ..⟩⟩
      · by_cases e : q = root
        · subst e; simp only [Function.update_self] at hq; exact hq
        · obtain ⟨k, hk⟩ := hwait q e
          simp only [Function.update_of_ne e, hk] at hq
          exact hq
      · by_cases e : q = root
        · subst e; exact .inr ⟨rfl, by simp only [Function.update_self]⟩
        · exact .inl (by simp only [Function.update_of_ne e])
    | cons l' w =>
      exfalso
      simp only [Option.bind_some, Sys.exec_cons] at h
      cases l' with
      | barrier =>
        rw [Sys.step, hnb _ (by simp only [Function.update_self]; rfl)] at h
        cases h
      | rank q =>
        by_cases e : q = root
        · subst e
          simp only [Sys.step, Sys.stepRank, Function.update_self, Option.bind_none] at h
          cases h
        · rw [Sys.step, hnr _ q (by obtain ⟨k, hk⟩ := hwait q e; exact ⟨k, by simp only [Function.update_of_ne e, hk]⟩) rfl] at h
          cases h

example (w : List (Label 3)) (t : Sys 3 (Msg ℝ) (Line ℝ) (RSt 3 ℝ)) (h : (startSys (noDataProg demoCfg demoFile 0 (0 : Fin 3))).exec w = some t) :
    ¬ (t.procs 2).done := (missing_data demoCfg demoFile 0 0 w t h).2.1 2

/-- **C105.** Data that cannot be read (a line with too few fields), in a configuration that is usable with other data of the same size: no rank finishes, the run
stands still where a rank has failed, and what has been written is what a run with the other data writes first. -/
theorem unreadable_data [LawfulDraws F] (cfg : Cfg F) (file bad : DataFile F) (hv : Valid n cfg file) (hl : bad.nlines = file.nlines)
    (hd : bad.ndim = file.ndim) (e : Fault) (he : bad.cells = .error e) (clock : Nat) (root : Fin n) :
    ∃ w : W n F, seqMain cfg file clock root = .ok w ∧
      ∀ (w₁ : List (Label n)) (t : Sys n (Msg F) (Line F) (RSt n F)), (initSys cfg bad clock root).exec w₁ = some t →
        (∀ r, t.log r <+: w.log r) ∧ (∀ q, ¬ (t.procs q).done) ∧ (t.Terminal → ∃ q f, t.procs q = .fault f) := by
  have hc : ∀ r, Cut (mainProg cfg bad clock root r) (mainProg cfg file clock root r) := by
    intro r
    by_cases hr : r = root
    · subst hr
      unfold mainProg
      simp only [if_true, hl, hd, he]
      refine cut_bind _ _ _ fun _ => cut_bind _ _ _ fun _ => cut_bind _ _ _ fun _ => cut_bind _ _ _ fun _ => .stop e _ (Proc.Guarded.not_done ?_)
      iterate 9 refine Proc.guarded_bind _ _ fun _ => ?_
      exact .inl trivial
    · have : mainProg cfg bad clock root r = mainProg cfg file clock root r := by
        unfold mainProg
        simp only [hr, if_false, hd]
      rw [this]
      exact cut_refl _
  obtain ⟨w, len, hw, hall⟩ := stopped_rank cfg file hv clock root (mainProg cfg bad clock root) hc
  refine ⟨w, hw, fun w₁ t ht => ?_⟩
  obtain ⟨h1, h2, h3, h4, h5⟩ := hall w₁ t ht
  have hn : (t.procs root).NoRet := noRet_exec_rank (s := initSys cfg bad clock root) (by
    show (mainProg cfg bad clock root root).NoRet
    unfold mainProg
    simp only [if_true, he]
    refine Proc.noRet_bind _ _ fun _ => Proc.noRet_bind _ _ fun _ => Proc.noRet_bind _ _ fun _ => Proc.noRet_bind _ _ fun _ => ?_
    exact trivial) ht
  have hnd : ∀ q, ¬ (t.procs q).done := fun q hq => by
    have := h3 ⟨q, hq⟩
    subst this
    exact hn
  refine ⟨h1, hnd, fun hT => ?_⟩
  rcases h5 hT with rfl | h
  · exact hn.elim
  · exact h

example : ∃ w : W 3 ℝ, seqMain demoCfg demoFile 0 0 = .ok w ∧
      ∀ (w₁ : List (Label 3)) (t : Sys 3 (Msg ℝ) (Line ℝ) (RSt 3 ℝ)), (initSys demoCfg { demoFile with cells := .error .null } 0 0).exec w₁ = some t →
        (∀ r, t.log r <+: w.log r) ∧ (∀ q, ¬ (t.procs q).done) ∧ (t.Terminal → ∃ q f, t.procs q = .fault f) :=
  unreadable_data demoCfg demoFile { demoFile with cells := .error .null } demo_valid rfl rfl .null rfl 0 0

end NiiC
