import Verif.Props.Together

/-!
# Unreadable data leave no output: C105, for every configuration
-/

set_option linter.unusedSectionVars false

namespace NiiC
open Sys

section generic
variable {n : Nat} {V L α : Type}

/-- The process writes and sends nothing as long as it gets at most `k` messages from root's broadcasts. -/
def Proc.Quiet (root : Fin n) : Nat → Proc n V L α → Prop
  | 0, .recv s t _ => s = root ∧ t = .bcast
  | k + 1, .recv s t c => s = root ∧ t = .bcast ∧ ∀ v, (c v).Quiet root k
  | _, .fault _ => True
  | _, _ => False

/-- The process broadcasts at most `b r` messages to rank `r` and then fails. -/
def Proc.Dies : (b : Fin n → Nat) → Proc n V L α → Prop
  | b, .send d t _ k => t = .bcast ∧ 0 < b d ∧ k.Dies (Function.update b d (b d - 1))
  | _, .fault _ => True
  | _, _ => False

/-- Root has made the directory or is about to, and will fail; the others wait. -/
structure Waiting (root : Fin n) (line : L) (s : Sys n V L α) : Prop where
  root : ∃ b : Fin n → Nat, ((∃ p, s.procs root = .out line p ∧ p.Dies b ∧ s.log root = []) ∨
    (s.procs root).Dies b ∧ s.log root = [line]) ∧
    ∀ r, r ≠ root → s.log r = [] ∧ ∃ k, (s.procs r).Quiet root k ∧ (s.chan (root, r, .bcast)).length + b r ≤ k

theorem Waiting.step {root : Fin n} {line : L} {s s' : Sys n V L α} (h : Waiting root line s) {l : Label n} (hs : s.step l = some s') :
    Waiting root line s' := by
  obtain ⟨b, hroot, hr⟩ := h.root
  cases l with
  | barrier =>
    exfalso
    simp only [Sys.step, Sys.stepBarrier] at hs
    split at hs
    · rename_i hb
      have := hb.2 root
      rcases hroot with ⟨p, hp, -⟩ | ⟨hd, -⟩
      · rw [hp] at this; cases this
      · cases e : s.procs root <;> rw [e] at this hd <;> first | exact (show False from hd) | cases this
    · cases hs
  | rank q =>
    simp only [Sys.step] at hs
    by_cases hq : q = root
    · subst hq
      rcases hroot with ⟨p, hp, hd, hl⟩ | ⟨hd, hl⟩
      · simp only [Sys.stepRank, hp, Option.some.injEq] at hs
        subst hs
        refine ⟨b, .inr ⟨by simpa using hd, by simp [hl]⟩, fun r hne => ?_⟩
        obtain ⟨h1, k, h2, h3⟩ := hr r hne
        exact ⟨by simp [Function.update_of_ne hne, h1], k, by simpa [Function.update_of_ne hne] using h2, h3⟩
      · cases e : s.procs q with
        | send d t v k =>
          rw [e] at hd
          obtain ⟨rfl, hb, hk⟩ := hd
          simp only [Sys.stepRank, e, Option.some.injEq] at hs
          subst hs
          refine ⟨_, .inr ⟨by simpa using hk, hl⟩, fun r hne => ?_⟩
          obtain ⟨h1, m, h2, h3⟩ := hr r hne
          refine ⟨h1, m, by simpa [Function.update_of_ne hne] using h2, ?_⟩
          by_cases hrd : r = d
          · subst hrd
            simp only [Function.update_self, List.length_append, List.length_singleton]
            omega
          · rw [Function.update_of_ne hrd]
            simp only
            rw [Function.update_of_ne (by simp [hrd])]
            exact h3
        | fault f => simp [Sys.stepRank, e] at hs
        | ret a => rw [e] at hd; exact hd.elim
        | recv a b c => rw [e] at hd; exact hd.elim
        | barrier k => rw [e] at hd; exact hd.elim
        | out l k => rw [e] at hd; exact hd.elim
    · obtain ⟨g1, m, g2, g3⟩ := hr q hq
      cases e : s.procs q with
      | recv src t c =>
        have hsrc : src = root ∧ t = .bcast ∧ (∀ k, m = k + 1 → ∀ v, (c v).Quiet root k) := by
          rw [e] at g2
          cases m with
          | zero => exact ⟨g2.1, g2.2, fun k hk => by cases hk⟩
          | succ m => exact ⟨g2.1, g2.2.1, fun k hk => by cases hk; exact g2.2.2⟩
        obtain ⟨rfl, rfl, hc⟩ := hsrc
        cases ech : s.chan (src, q, .bcast) with
        | nil => simp [Sys.stepRank, e, ech] at hs
        | cons v vs =>
          simp only [Sys.stepRank, e, ech, Option.some.injEq] at hs
          subst hs
          rw [ech] at g3
          simp only [List.length_cons] at g3
          obtain ⟨k, rfl⟩ : ∃ k, m = k + 1 := ⟨m - 1, by omega⟩
          have hne : src ≠ q := fun h => hq h.symm
          refine ⟨b, by simpa [Function.update_of_ne hne] using hroot, fun r hne' => ?_⟩
          by_cases hrq : r = q
          · subst hrq
            refine ⟨g1, k, by simpa using hc k rfl v, ?_⟩
            simp only [Function.update_self]
            omega
          · obtain ⟨h1, j, h2, h3⟩ := hr r hne'
            refine ⟨h1, j, by simpa [Function.update_of_ne hrq] using h2, ?_⟩
            simp only
            rw [Function.update_of_ne (by simp [hrq])]
            exact h3
      | fault f => simp [Sys.stepRank, e] at hs
      | send d t v k => rw [e] at g2; cases m <;> exact g2.elim
      | ret a => rw [e] at g2; cases m <;> exact g2.elim
      | barrier k => rw [e] at g2; cases m <;> exact g2.elim
      | out l k => rw [e] at g2; cases m <;> exact g2.elim

theorem Waiting.exec {root : Fin n} {line : L} : ∀ (w : List (Label n)) {s t : Sys n V L α}, Waiting root line s → s.exec w = some t →
    Waiting root line t := by
  intro w
  induction w with
  | nil => intro s t h ht; cases ht; exact h
  | cons l w ih =>
    intro s t h ht
    rw [Sys.exec_cons] at ht
    cases hs : s.step l with
    | none => rw [hs] at ht; cases ht
    | some s' => rw [hs] at ht; exact ih (h.step hs) ht

/-- What can be seen of such a run. -/
theorem Waiting.visible {root : Fin n} {line : L} {s : Sys n V L α} (h : Waiting root line s) :
    (∀ q, ¬ (s.procs q).done) ∧ (∀ q, s.log q = [] ∨ q = root ∧ s.log q = [line]) ∧
      (s.Terminal → ∃ f, s.procs root = .fault f) := by
  obtain ⟨b, hroot, hr⟩ := h.root
  refine ⟨fun q hq => ?_, fun q => ?_, fun hT => ?_⟩
  · by_cases e : q = root
    · subst e
      rcases hroot with ⟨p, hp, -⟩ | ⟨hd, -⟩
      · rw [hp] at hq; exact hq
      · cases e : s.procs q <;> rw [e] at hq hd <;> first | exact hq | exact hd
    · obtain ⟨-, k, h2, -⟩ := hr q e
      cases e : s.procs q <;> rw [e] at hq h2 <;> first | exact hq | (cases k <;> exact h2)
  · by_cases e : q = root
    · subst e
      rcases hroot with ⟨p, hp, -, hl⟩ | ⟨hd, hl⟩
      · exact .inl hl
      · exact .inr ⟨rfl, hl⟩
    · exact .inl (hr q e).1
  · have := hT (.rank root)
    rcases hroot with ⟨p, hp, -⟩ | ⟨hd, -⟩
    · simp [Sys.step, Sys.stepRank, hp] at this
    · cases e : s.procs root with
      | send d t v k => simp [Sys.step, Sys.stepRank, e] at this
      | fault f => exact ⟨f, rfl⟩
      | ret a => rw [e] at hd; exact hd.elim
      | recv a b c => rw [e] at hd; exact hd.elim
      | barrier k => rw [e] at hd; exact hd.elim
      | out l k => rw [e] at hd; exact hd.elim

end generic

variable {n : Nat} {F : Type} [Arith F] [Source F]

theorem dies_forSlaves (root : Fin n) (v : Msg F) (p : P n F (RSt n F)) (hp : ∀ b, p.Dies b) : ∀ (l : List (Fin n)) (b : Fin n → Nat),
    l.Nodup → (∀ i ∈ l, 0 < b i) →
    ((forSlaves root (fun i _ => sendM i .bcast v) l ()).bind (fun _ => p)).Dies b := by
  intro l
  induction l with
  | nil => intro b _ _; exact hp b
  | cons i l ih =>
    intro b hnd hb
    rw [List.nodup_cons] at hnd
    simp only [forSlaves]
    split
    · exact ih b hnd.2 fun j hj => hb j (List.mem_cons_of_mem _ hj)
    · refine ⟨rfl, hb i (List.mem_cons_self ..), ih _ hnd.2 fun j hj => ?_⟩
      rw [Function.update_of_ne (by rintro rfl; exact hnd.1 hj)]
      exact hb j (List.mem_cons_of_mem _ hj)

/-- **C105** (every configuration). When root cannot read the data (a line with too few fields, no memory for its copy), then, whatever the
configuration, no rank finishes, root fails, and nothing is left behind but the output directory: no rank writes a line. -/
theorem unreadable_data_silent (cfg : Cfg F) (file : DataFile F) (e : Fault) (he : file.cells = .error e) (clock : Nat) (root : Fin n)
    (w : List (Label n)) (t : Sys n (Msg F) (Line F) (RSt n F)) (h : (initSys cfg file clock root).exec w = some t) :
    (∀ q, ¬ (t.procs q).done) ∧ (∀ q, t.log q = [] ∨ q = root ∧ t.log q = [.mkdir]) ∧
      (t.Terminal → ∃ f, t.procs root = .fault f) := by
  have hroot : ∃ p, mainProg cfg file clock root root = .out .mkdir p ∧ p.Dies (fun _ => 1) := by
    unfold mainProg
    simp only [if_true, he, outs]
    refine ⟨_, rfl, ?_⟩
    simp only [bcastInt, bcast, if_true, Proc.bind_eq, Proc.bind_assoc, Proc.ret_bind, forSlaves_]
    refine dies_forSlaves root _ _ (fun b => ?_) _ _ (List.nodup_finRange n) (fun _ _ => Nat.one_pos)
    cases i32 (file.nlines * file.ndim) with
    | error f => trivial
    | ok c =>
      simp only [Proc.lift_ok, Proc.ret_bind]
      split <;> trivial
  have hwait : ∀ q, q ≠ root → (mainProg cfg file clock root q).Quiet root 1 := by
    intro q hq
    unfold mainProg
    simp only [hq, if_false, outs, bcastInt, bcast, bcastDbls, Proc.bind_eq, Proc.ret_bind, Proc.recv_bind]
    refine ⟨rfl, rfl, fun v => ?_⟩
    cases v with
    | int i =>
      simp only [Proc.ret_bind]
      cases i32 (i * file.ndim) with
      | error f => trivial
      | ok c =>
        simp only [Proc.lift_ok, Proc.ret_bind]
        split
        · trivial
        · exact ⟨rfl, rfl⟩
    | _ => trivial
  obtain ⟨p, hp, hd⟩ := hroot
  exact (Waiting.exec (line := .mkdir) w ⟨⟨fun _ => 1, .inl ⟨p, hp, hd, rfl⟩, fun r hr => ⟨rfl, 1, hwait r hr, le_rfl⟩⟩⟩ h).visible

/-- With any configuration at all, here one without parameters. -/
example (w : List (Label 3)) (t : Sys 3 (Msg ℝ) (Line ℝ) (RSt 3 ℝ))
    (h : (initSys { demoCfg with nParm := 0, nIter := -5 } { demoFile with cells := .error .null } 0 2).exec w = some t) :
    t.log 1 = [] := by
  rcases (unreadable_data_silent _ _ .null rfl 0 2 w t h).2.1 1 with h | ⟨h, -⟩
  · exact h
  · exact absurd h (by decide)

end NiiC
