import Verif.Mpi.Proc

/-!
# Schedules do not matter

General facts about the transition system of `Verif.Mpi.Proc`, for arbitrary processes:
* two different enabled labels commute (`step_comm`);
* if one schedule ends in a state where nothing can move, every schedule can be completed to that same state, with the
  same total number of steps (`exec_complete`);
* if the program has one complete execution that never relies on buffering, then no execution, with any mixture of
  buffered and unbuffered sends, reaches a deadlock (`progress`).
-/

namespace NiiC
namespace Sys

variable {n : Nat} {V L α : Type}

theorem stepRank_comm {s a b : Sys n V L α} {r r' : Fin n} (hne : r ≠ r')
    (ha : s.stepRank r = some a) (hb : s.stepRank r' = some b) :
    ∃ c, a.stepRank r' = some c ∧ b.stepRank r = some c := by
  have hne' : r' ≠ r := fun h => hne h.symm
  unfold stepRank at ha hb
  split at ha
  · rename_i d t v k hk
    cases ha
    split at hb
    · rename_i d' t' v' k' hk'
      cases hb
      have h1 : ((r', d', t') : Fin n × Fin n × Tag) ≠ (r, d, t) := by
        intro h; exact hne' (congrArg Prod.fst h)
      simp [stepRank, Function.update_of_ne hne, Function.update_of_ne hne', hk, hk',
        Function.update_of_ne h1, Function.update_of_ne h1.symm, Function.update_comm hne,
        Function.update_comm h1]
    · rename_i src t' k' hk'
      split at hb
      · cases hb
      · rename_i v' q hq
        cases hb
        by_cases h1 : ((src, r', t') : Fin n × Fin n × Tag) = (r, d, t)
        · obtain ⟨rfl, h2⟩ := Prod.mk.inj h1
          obtain ⟨rfl, rfl⟩ := Prod.mk.inj h2
          simp [stepRank, Function.update_of_ne hne, Function.update_of_ne hne', hk, hk', hq,
            Function.update_comm hne]
        · have h1' : ((r, d, t) : Fin n × Fin n × Tag) ≠ (src, r', t') := fun h => h1 h.symm
          simp [stepRank, Function.update_of_ne hne, Function.update_of_ne hne', hk, hk', hq,
            Function.update_of_ne h1, Function.update_of_ne h1', Function.update_comm hne,
            Function.update_comm h1]
    · rename_i l' k' hk'
      cases hb
      simp [stepRank, Function.update_of_ne hne, Function.update_of_ne hne', hk, hk',
        Function.update_comm hne]
    · cases hb
  · rename_i src t k hk
    split at ha
    · cases ha
    · rename_i v q hq
      cases ha
      split at hb
      · rename_i d' t' v' k' hk'
        cases hb
        by_cases h1 : ((src, r, t) : Fin n × Fin n × Tag) = (r', d', t')
        · obtain ⟨rfl, h2⟩ := Prod.mk.inj h1
          obtain ⟨rfl, rfl⟩ := Prod.mk.inj h2
          simp [stepRank, Function.update_of_ne hne, Function.update_of_ne hne', hk, hk', hq,
            Function.update_comm hne]
        · have h1' : ((r', d', t') : Fin n × Fin n × Tag) ≠ (src, r, t) := fun h => h1 h.symm
          simp [stepRank, Function.update_of_ne hne, Function.update_of_ne hne', hk, hk', hq,
            Function.update_of_ne h1, Function.update_of_ne h1', Function.update_comm hne,
            Function.update_comm h1]
      · rename_i src' t' k' hk'
        split at hb
        · cases hb
        · rename_i v' q' hq'
          cases hb
          have h1 : ((src', r', t') : Fin n × Fin n × Tag) ≠ (src, r, t) := by
            intro h
            exact hne' (congrArg (fun x => x.2.1) h)
          simp [stepRank, Function.update_of_ne hne, Function.update_of_ne hne', hk, hk', hq, hq',
            Function.update_of_ne h1, Function.update_of_ne h1.symm, Function.update_comm hne,
            Function.update_comm h1]
      · rename_i l' k' hk'
        cases hb
        simp [stepRank, Function.update_of_ne hne, Function.update_of_ne hne', hk, hk', hq,
          Function.update_comm hne]
      · cases hb
  · rename_i l k hk
    cases ha
    split at hb
    · rename_i d' t' v' k' hk'
      cases hb
      simp [stepRank, Function.update_of_ne hne, Function.update_of_ne hne', hk, hk',
        Function.update_comm hne]
    · rename_i src t' k' hk'
      split at hb
      · cases hb
      · rename_i v' q hq
        cases hb
        simp [stepRank, Function.update_of_ne hne, Function.update_of_ne hne', hk, hk', hq,
          Function.update_comm hne]
    · rename_i l' k' hk'
      cases hb
      simp [stepRank, Function.update_of_ne hne, Function.update_of_ne hne', hk, hk',
        Function.update_comm hne]
    · cases hb
  · cases ha

theorem stepRank_none_of_barrier {s : Sys n V L α} {r : Fin n}
    (h : (s.procs r).barrier?.isSome = true) : s.stepRank r = none := by
  unfold stepRank
  cases hp : s.procs r <;> simp_all [Proc.barrier?]

/-- Two different enabled labels commute. -/
theorem step_comm {s a b : Sys n V L α} {l l' : Label n} (hne : l ≠ l')
    (ha : s.step l = some a) (hb : s.step l' = some b) :
    ∃ c, a.step l' = some c ∧ b.step l = some c := by
  cases l with
  | rank r =>
    cases l' with
    | rank r' => exact stepRank_comm (fun h => hne (by rw [h])) ha hb
    | barrier =>
      exfalso
      simp only [step, stepBarrier] at ha hb
      split at hb
      · rename_i h
        rw [stepRank_none_of_barrier (h.2 r)] at ha
        cases ha
      · cases hb
  | barrier =>
    cases l' with
    | rank r =>
      exfalso
      simp only [step, stepBarrier] at ha hb
      split at ha
      · rename_i h
        rw [stepRank_none_of_barrier (h.2 r)] at hb
        cases hb
      · cases ha
    | barrier => exact absurd rfl hne

/-- A step that is enabled now is either still enabled after a schedule that does not perform it, or can be moved to
the front of a schedule that does. -/
theorem residual {s s' t : Sys n V L α} {l : Label n} {w : List (Label n)}
    (hs : s.step l = some s') (hw : s.exec w = some t) :
    (l ∉ w → ∃ t', t.step l = some t' ∧ s'.exec w = some t') ∧
    (l ∈ w → s'.exec (w.erase l) = some t) := by
  induction w generalizing s s' with
  | nil =>
    simp only [exec_nil, Option.some.injEq] at hw
    subst hw
    exact ⟨fun _ => ⟨s', hs, rfl⟩, fun h => absurd h (by simp)⟩
  | cons x w ih =>
    simp only [exec_cons] at hw
    cases hx : s.step x with
    | none => rw [hx] at hw; cases hw
    | some s₁ =>
      rw [hx] at hw
      simp only [Option.bind_some] at hw
      by_cases hxl : x = l
      · subst hxl
        rw [hx] at hs
        cases hs
        exact ⟨fun h => absurd (by simp) h, fun _ => by simpa using hw⟩
      · obtain ⟨c, hc1, hc2⟩ := step_comm hxl hx hs
        have := ih hc1 hw
        constructor
        · intro hnot
          have hnot' : l ∉ w := fun h => hnot (List.mem_cons_of_mem _ h)
          obtain ⟨t', ht1, ht2⟩ := this.1 hnot'
          exact ⟨t', ht1, by simp [exec_cons, hc2, ht2]⟩
        · intro hmem
          have hmem' : l ∈ w := by
            cases hmem with
            | head => exact absurd rfl hxl
            | tail _ h => exact h
          have h2 := this.2 hmem'
          rw [List.erase_cons_tail (by simpa using hxl)]
          simp [exec_cons, hc2, h2]

/-- Nothing can move. -/
def Terminal (s : Sys n V L α) : Prop := ∀ l, s.step l = none

theorem terminal_of_allDone {s : Sys n V L α} (h : s.AllDone) : s.Terminal := by
  intro l
  cases l with
  | rank r =>
    have := h r
    simp only [step, stepRank]
    cases hp : s.procs r <;> simp_all [Proc.done]
  | barrier =>
    simp only [step, stepBarrier]
    split
    · rename_i hb
      have h1 := h ⟨0, hb.1⟩
      have h2 := hb.2 ⟨0, hb.1⟩
      cases hp : s.procs ⟨0, hb.1⟩ <;> simp_all [Proc.done, Proc.barrier?]
    · rfl

/-- If one schedule leads to a state where nothing can move, then every schedule is a prefix of one that leads to the
same state in the same number of steps. -/
theorem exec_complete {s f t : Sys n V L α} {w₁ w₂ : List (Label n)}
    (h₁ : s.exec w₁ = some f) (hf : f.Terminal) (h₂ : s.exec w₂ = some t) :
    ∃ w₃, t.exec w₃ = some f ∧ w₂.length + w₃.length = w₁.length := by
  induction w₂ generalizing s w₁ with
  | nil =>
    simp only [exec_nil, Option.some.injEq] at h₂
    subst h₂
    exact ⟨w₁, h₁, by simp⟩
  | cons l w ih =>
    simp only [exec_cons] at h₂
    cases hl : s.step l with
    | none => rw [hl] at h₂; cases h₂
    | some s' =>
      rw [hl] at h₂
      simp only [Option.bind_some] at h₂
      have hres := residual hl h₁
      by_cases hmem : l ∈ w₁
      · obtain ⟨w₃, hw₃, hlen⟩ := ih (hres.2 hmem) h₂
        refine ⟨w₃, hw₃, ?_⟩
        have := List.length_erase_of_mem hmem
        have hpos : 0 < w₁.length := List.length_pos_of_mem hmem
        simp only [List.length_cons]
        omega
      · obtain ⟨t', ht', _⟩ := hres.1 hmem
        rw [hf l] at ht'
        cases ht'

/-- A process not at a barrier and not scheduled does not change. -/
theorem procs_frame {s t : Sys n V L α} {r : Fin n} {w : List (Label n)}
    (hw : s.exec w = some t) (hr : Label.rank r ∉ w) (hb : (s.procs r).barrier? = none) :
    t.procs r = s.procs r := by
  induction w generalizing s with
  | nil => simp only [exec_nil, Option.some.injEq] at hw; rw [hw]
  | cons l w ih =>
    simp only [exec_cons] at hw
    cases hl : s.step l with
    | none => rw [hl] at hw; cases hw
    | some s' =>
      rw [hl] at hw
      simp only [Option.bind_some] at hw
      have hr' : Label.rank r ∉ w := fun h => hr (List.mem_cons_of_mem _ h)
      have key : s'.procs r = s.procs r := by
        cases l with
        | rank c =>
          have hc : r ≠ c := fun h => hr (by simp [h])
          simp only [step, stepRank] at hl
          split at hl
          · cases hl; simp [Function.update_of_ne hc]
          · split at hl
            · cases hl
            · cases hl; simp [Function.update_of_ne hc]
          · cases hl; simp [Function.update_of_ne hc]
          · cases hl
        | barrier =>
          simp only [step, stepBarrier] at hl
          split at hl
          · rename_i h
            have := h.2 r
            rw [hb] at this
            cases this
          · cases hl
      rw [ih hw hr' (by rw [key]; exact hb), key]

/-- One step of an execution that never relies on buffering. -/
inductive Sync : Sys n V L α → Sys n V L α → Prop where
  | rendezvous {s m s' : Sys n V L α} (a b : Fin n) (t : Tag) (v : V) (k : Proc n V L α) (k' : V → Proc n V L α)
      (hne : a ≠ b) (ha : s.procs a = .send b t v k) (hb : s.procs b = .recv a t k') (hq : s.chan (a, b, t) = [])
      (h1 : s.stepRank a = some m) (h2 : m.stepRank b = some s') : Sync s s'
  | out {s s' : Sys n V L α} (r : Fin n) (l : L) (k : Proc n V L α) (hr : s.procs r = .out l k)
      (h : s.stepRank r = some s') : Sync s s'
  | barrier {s s' : Sys n V L α} (h : s.stepBarrier = some s') : Sync s s'

/-- An execution that never relies on buffering. -/
inductive SyncStar : Sys n V L α → Sys n V L α → Prop where
  | refl (s : Sys n V L α) : SyncStar s s
  | head {s s' t : Sys n V L α} (h : Sync s s') (h' : SyncStar s' t) : SyncStar s t

theorem SyncStar.trans {s t u : Sys n V L α} (h : SyncStar s t) (h' : SyncStar t u) : SyncStar s u := by
  induction h with
  | refl => exact h'
  | head h _ ih => exact .head h (ih h')

theorem SyncStar.single {s t : Sys n V L α} (h : Sync s t) : SyncStar s t := .head h (.refl _)

/-- An unbuffered execution is in particular a schedule. -/
theorem SyncStar.exec {s t : Sys n V L α} (h : SyncStar s t) : ∃ w, s.exec w = some t := by
  induction h with
  | refl s => exact ⟨[], rfl⟩
  | head h _ ih =>
    obtain ⟨w, hw⟩ := ih
    cases h with
    | rendezvous a b t v k k' hne ha hb hq h1 h2 =>
      exact ⟨.rank a :: .rank b :: w, by simp [exec_cons, step, h1, h2, hw]⟩
    | out r l k hr h => exact ⟨.rank r :: w, by simp [exec_cons, step, h, hw]⟩
    | barrier h => exact ⟨.barrier :: w, by simp [exec_cons, step, h, hw]⟩

theorem rendezvous_frame {s t : Sys n V L α} {a b : Fin n} {tg : Tag} {v : V} {k : Proc n V L α}
    {k' : V → Proc n V L α} {w : List (Label n)}
    (ha : s.procs a = .send b tg v k) (hb : s.procs b = .recv a tg k') (hq : s.chan (a, b, tg) = [])
    (hw : s.exec w = some t) (hna : Label.rank a ∉ w) :
    t.procs a = .send b tg v k ∧ t.procs b = .recv a tg k' ∧ t.chan (a, b, tg) = [] := by
  induction w generalizing s with
  | nil =>
    simp only [exec_nil, Option.some.injEq] at hw
    subst hw
    exact ⟨ha, hb, hq⟩
  | cons l w ih =>
    simp only [exec_cons] at hw
    cases hl : s.step l with
    | none => rw [hl] at hw; cases hw
    | some s' =>
      rw [hl] at hw
      simp only [Option.bind_some] at hw
      have hna' : Label.rank a ∉ w := fun h => hna (List.mem_cons_of_mem _ h)
      cases l with
      | barrier =>
        simp only [step, stepBarrier] at hl
        split at hl
        · rename_i h
          have := h.2 a
          rw [ha] at this
          cases this
        · cases hl
      | rank c =>
        have hca : a ≠ c := fun h => hna (by simp [h])
        have hcb : b ≠ c := by
          intro h
          subst h
          simp only [step, stepRank, hb, hq] at hl
          cases hl
        refine ih ?_ ?_ ?_ hw hna'
        all_goals
          simp only [step, stepRank] at hl
          split at hl
          · rename_i d tg' v' k'' hk
            cases hl
            have h1 : ((a, b, tg) : Fin n × Fin n × Tag) ≠ (c, d, tg') := fun h => hca (congrArg Prod.fst h)
            simp [Function.update_of_ne hca, Function.update_of_ne hcb, Function.update_of_ne h1, ha, hb, hq]
          · rename_i src tg' k'' hk
            split at hl
            · cases hl
            · cases hl
              have h1 : ((a, b, tg) : Fin n × Fin n × Tag) ≠ (src, c, tg') :=
                fun h => hcb (congrArg (fun x => x.2.1) h)
              simp [Function.update_of_ne hca, Function.update_of_ne hcb, Function.update_of_ne h1, ha, hb, hq]
          · cases hl
            simp [Function.update_of_ne hca, Function.update_of_ne hcb, ha, hb, hq]
          · cases hl

theorem mem_of_step_recv {t t' : Sys n V L α} {b src : Fin n} {tg : Tag} {k' : V → Proc n V L α}
    (hb : t.procs b = .recv src tg k') (h : t.stepRank b = some t') : ∃ v q, t.chan (src, b, tg) = v :: q := by
  simp only [stepRank, hb] at h
  cases hq : t.chan (src, b, tg) with
  | nil => rw [hq] at h; cases h
  | cons v q => exact ⟨v, q, rfl⟩

/-- If there is one complete unbuffered execution, then every state reached by any schedule is finished or has an
enabled transition that does not rely on buffering. -/
theorem progress {s f t : Sys n V L α} {w : List (Label n)}
    (h : SyncStar s f) (hf : f.AllDone) (hw : s.exec w = some t) : t.AllDone ∨ t.SyncEnabled := by
  induction h generalizing w with
  | refl s =>
    cases w with
    | nil =>
      simp only [exec_nil, Option.some.injEq] at hw
      subst hw
      exact .inl hf
    | cons l w =>
      simp only [exec_cons, terminal_of_allDone hf l] at hw
      cases hw
  | head h _ ih =>
    cases h with
    | rendezvous a b tg v k k' hne ha hb hq h1 h2 =>
      rename_i s0 s1 u _ m
      have hstep : s0.step (.rank a) = some m := h1
      have hres := residual hstep hw
      by_cases hmem : Label.rank a ∈ w
      · have hm := hres.2 hmem
        have hstep2 : m.step (.rank b) = some s1 := h2
        have hres2 := residual hstep2 hm
        have hmb : m.procs b = .recv a tg k' := by
          simp only [stepRank, ha] at h1
          cases h1
          simp [Function.update_of_ne hne.symm, hb]
        by_cases hmem2 : Label.rank b ∈ w.erase (.rank a)
        · exact ih hf (hres2.2 hmem2)
        · obtain ⟨t', ht', _⟩ := hres2.1 hmem2
          have hfr := procs_frame hm hmem2 (by rw [hmb]; rfl)
          rw [hmb] at hfr
          obtain ⟨v', q', hq'⟩ := mem_of_step_recv hfr ht'
          exact .inr (.recv b a tg v' q' k' hfr hq')
      · obtain ⟨p1, p2, p3⟩ := rendezvous_frame ha hb hq hw hmem
        exact .inr (.rendezvous a b tg v k k' p1 p2 p3)
    | out r l k hr h =>
      rename_i s0 s1 u _
      have hstep : s0.step (.rank r) = some s1 := h
      have hres := residual hstep hw
      by_cases hmem : Label.rank r ∈ w
      · exact ih hf (hres.2 hmem)
      · have hfr := procs_frame hw hmem (by rw [hr]; rfl)
        exact .inr (.out r l k (by rw [hfr, hr]))
    | barrier h =>
      rename_i s0 s1 u _
      have hstep : s0.step .barrier = some s1 := h
      have hres := residual hstep hw
      by_cases hmem : Label.barrier ∈ w
      · exact ih hf (hres.2 hmem)
      · obtain ⟨t', ht', _⟩ := hres.1 hmem
        simp only [step, stepBarrier] at ht'
        split at ht'
        · rename_i hall
          exact .inr (.barrier hall)
        · cases ht'

end Sys
end NiiC
