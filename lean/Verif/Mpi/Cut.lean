import Verif.Mpi.Confluence

/-!
# A barrier cuts every execution in two

If one schedule leads to a state in which all ranks are at a barrier, then every other schedule either is still on its way to that
very state, or has been there.
-/

namespace NiiC
namespace Sys

variable {n : Nat} {V L α : Type}

/-- Once all ranks are at a barrier, the barrier is the only way on. -/
theorem step_allAtBarrier {s t : Sys n V L α} {l : Label n} (hb : s.AllAtBarrier) (h : s.step l = some t) :
    l = .barrier ∧ s.stepBarrier = some t := by
  cases l with
  | rank r =>
    simp only [step] at h
    rw [stepRank_none_of_barrier (hb.2 r)] at h
    cases h
  | barrier => exact ⟨rfl, h⟩

/-- Every execution is before or after a given barrier. -/
theorem cut {s pre post t : Sys n V L α} {w₁ w : List (Label n)} (h₁ : s.exec w₁ = some pre) (hb : pre.stepBarrier = some post)
    (hw : s.exec w = some t) : (∃ w', t.exec w' = some pre) ∨ ∃ w', post.exec w' = some t := by
  have hall : pre.AllAtBarrier := by
    unfold stepBarrier at hb
    split at hb
    · assumption
    · cases hb
  induction w generalizing s w₁ with
  | nil =>
    simp only [exec_nil, Option.some.injEq] at hw
    subst hw
    exact .inl ⟨w₁, h₁⟩
  | cons l w ih =>
    simp only [exec_cons] at hw
    cases hl : s.step l with
    | none => rw [hl] at hw; cases hw
    | some s' =>
      rw [hl] at hw
      simp only [Option.bind_some] at hw
      have hres := residual hl h₁
      by_cases hmem : l ∈ w₁
      · exact ih (hres.2 hmem) hw
      · obtain ⟨t', ht', ht2⟩ := hres.1 hmem
        obtain ⟨rfl, hb'⟩ := step_allAtBarrier hall ht'
        have hs : s.AllAtBarrier := by
          simp only [step, stepBarrier] at hl
          split at hl
          · assumption
          · cases hl
        cases w₁ with
        | nil =>
          simp only [exec_nil, Option.some.injEq] at h₁
          subst h₁
          have : s' = post := Option.some.inj ((hl : s.stepBarrier = some s').symm.trans hb)
          subst this
          exact .inr ⟨w, hw⟩
        | cons x w₁ =>
          simp only [exec_cons] at h₁
          cases hx : s.step x with
          | none => rw [hx] at h₁; cases h₁
          | some u =>
            obtain ⟨rfl, _⟩ := step_allAtBarrier hs hx
            exact absurd (List.mem_cons_self) hmem

end Sys
end NiiC
