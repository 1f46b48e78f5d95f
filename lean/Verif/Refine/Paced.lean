import Verif.Mpi.Flight
import Verif.Model.Spmd

/-!
# The rank program keeps its budget

Function by function: with one message per tag and two broadcasts between two points of contact (`oneEach`), no rank ever sends more
than that.
-/

set_option linter.unusedSectionVars false

namespace NiiC

open Proc Sys

variable {n : Nat} {F : Type} [Arith F]

/-- One message per tag, two broadcasts. -/
def oneEach : Tag → Nat
  | .user _ => 1
  | .bcast => 2

namespace Flight

variable {α γ : Type} {K : Tag → Nat}

theorem lift_paced {e : Except Fault α} {β : Budget n} {Q : α → Budget n → Prop} (h : ∀ a, e = .ok a → Q a β) :
    (Proc.lift e : P n F α).Paced K β Q := by
  cases e with
  | ok a => exact h a rfl
  | error e => trivial

theorem ite_paced {c : Prop} [Decidable c] {p q : P n F α} {β : Budget n} {Q : α → Budget n → Prop} (h : c → p.Paced K β Q)
    (h' : ¬ c → q.Paced K β Q) : (if c then p else q).Paced K β Q := by
  split
  · exact h ‹_›
  · exact h' ‹_›

theorem outs_paced {ls : List (Line F)} {β : Budget n} {Q : Unit → Budget n → Prop} (h : Q () β) :
    (outs ls : P n F Unit).Paced K β Q := by
  induction ls with
  | nil => exact h
  | cons l ls ih => exact ih

theorem needTab_paced {s : RSt n F} {β : Budget n} {Q : Tab n F → Budget n → Prop} (h : ∀ t, Q t β) :
    (needTab s).Paced K β Q := by
  unfold needTab
  split
  · exact h _
  · trivial

theorem sendM_paced {d : Fin n} {t : Tag} {v : Msg F} {β : Budget n} {Q : Unit → Budget n → Prop} (h0 : 0 < β d t)
    (h : Q () (β.spend d t)) : (sendM d t v).Paced K β Q := ⟨h0, h⟩

theorem recvInt_paced {d : Fin n} {t : Tag} {β : Budget n} {Q : Int → Budget n → Prop} (h : ∀ v, Q v (β.heard K d)) :
    (recvInt d t : P n F Int).Paced K β Q := by
  intro v
  dsimp only
  split
  · exact h _
  · trivial

theorem recvUns_paced {d : Fin n} {t : Tag} {β : Budget n} {Q : Nat → Budget n → Prop} (h : ∀ v, Q v (β.heard K d)) :
    (recvUns d t : P n F Nat).Paced K β Q := by
  intro v
  dsimp only
  split
  · exact h _
  · trivial

theorem recvDbl_paced {d : Fin n} {t : Tag} {β : Budget n} {Q : F → Budget n → Prop} (h : ∀ v, Q v (β.heard K d)) :
    (recvDbl d t : P n F F).Paced K β Q := by
  intro v
  dsimp only
  split
  · exact h _
  · trivial

theorem recvDbls_paced {d : Fin n} {t : Tag} {len : Nat} {β : Budget n} {Q : List F → Budget n → Prop}
    (h : ∀ v, Q v (β.heard K d)) : (recvDbls d t len : P n F (List F)).Paced K β Q := by
  intro v
  dsimp only
  split
  · split
    · exact h _
    · trivial
  · trivial

theorem recvVec_paced {d : Fin n} {t : Tag} {β : Budget n} {Q : (Fin n → F) → Budget n → Prop}
    (h : ∀ v, Q v (β.heard K d)) : (recvVec d t : P n F (Fin n → F)).Paced K β Q := by
  intro v
  dsimp only
  split
  · split
    · exact h _
    · trivial
  · trivial

theorem barrier_paced {β : Budget n} {Q : Unit → Budget n → Prop} (h : Q () (fun _ => K)) :
    (barrier : P n F Unit).Paced K β Q := h

/-- Every rank but root has a budget with `Pr`. -/
def Each (root : Fin n) (Pr : (Tag → Nat) → Prop) (β : Budget n) : Prop := ∀ i, i ≠ root → Pr (β i)

theorem forSlaves_paced {S : Type} {root : Fin n} {Pr R : (Tag → Nat) → Prop} {body : Fin n → S → P n F S}
    (hb : ∀ i, i ≠ root → ∀ (β : Budget n) s, Pr (β i) → (body i s).Paced K β (fun _ β' => R (β' i) ∧ ∀ d, d ≠ i → β' d = β d)) :
    ∀ (l : List (Fin n)) (s : S) (β : Budget n), l.Nodup → (∀ i, i ∈ l → i ≠ root → Pr (β i)) →
      (forSlaves root body l s).Paced K β (fun _ β' => (∀ i, i ∈ l → i ≠ root → R (β' i)) ∧ ∀ d, d ∉ l → β' d = β d)
  | [], s, β, _, _ => ⟨fun i h => (by cases h), fun d _ => rfl⟩
  | i :: l, s, β, hn, hp => by
    have hn' := List.nodup_cons.1 hn
    unfold forSlaves
    by_cases hi : i = root
    · rw [if_pos hi]
      refine (forSlaves_paced hb l s β hn'.2 (fun j hj => hp j (List.mem_cons_of_mem _ hj))).mono ?_
      rintro a β' ⟨h1, h2⟩
      refine ⟨fun j hj hjr => ?_, fun d hd => h2 d (fun h => hd (List.mem_cons_of_mem _ h))⟩
      rcases List.mem_cons.1 hj with rfl | hj
      · exact absurd hi hjr
      · exact h1 j hj hjr
    · rw [if_neg hi]
      refine (hb i hi β s (hp i List.mem_cons_self hi)).seq ?_
      rintro a β' ⟨h1, h2⟩
      have hne : ∀ j, j ∈ l → j ≠ i := fun j hj e => hn'.1 (e ▸ hj)
      refine (forSlaves_paced hb l a β' hn'.2 (fun j hj hjr => ?_)).mono ?_
      · rw [h2 j (hne j hj)]
        exact hp j (List.mem_cons_of_mem _ hj) hjr
      · rintro a' β'' ⟨h3, h4⟩
        refine ⟨fun j hj hjr => ?_, fun d hd => ?_⟩
        · rcases List.mem_cons.1 hj with rfl | hj
          · rw [h4 j hn'.1]
            exact h1
          · exact h3 j hj hjr
        · rw [h4 d (fun h => hd (List.mem_cons_of_mem _ h)), h2 d (fun h => hd (h ▸ List.mem_cons_self))]

theorem slaves_paced {S : Type} {root : Fin n} {Pr R : (Tag → Nat) → Prop} {body : Fin n → S → P n F S} {s : S} {β : Budget n}
    (hb : ∀ i, i ≠ root → ∀ (β : Budget n) s, Pr (β i) → (body i s).Paced K β (fun _ β' => R (β' i) ∧ ∀ d, d ≠ i → β' d = β d))
    (hp : Each root Pr β) : (forSlaves root body (List.finRange n) s).Paced K β (fun _ β' => Each root R β') :=
  (forSlaves_paced hb (List.finRange n) s β (List.nodup_finRange n) (fun i _ => hp i)).mono
    (fun _ _ h i hi => h.1 i (List.mem_finRange i) hi)

theorem slavesUnit_paced {root : Fin n} {Pr R : (Tag → Nat) → Prop} {body : Fin n → P n F Unit} {β : Budget n}
    (hb : ∀ i, i ≠ root → ∀ (β : Budget n), Pr (β i) → (body i).Paced K β (fun _ β' => R (β' i) ∧ ∀ d, d ≠ i → β' d = β d))
    (hp : Each root Pr β) : (forSlaves_ root body).Paced K β (fun _ β' => Each root R β') :=
  slaves_paced (fun i hi β _ h => hb i hi β h) hp

theorem spend_at (β : Budget n) (i : Fin n) (t : Tag) : β.spend i t i = Function.update (β i) t (β i t - 1) := by
  simp [Budget.spend]

theorem spend_off (β : Budget n) {i d : Fin n} (t : Tag) (h : d ≠ i) : β.spend i t d = β d := by
  simp [Budget.spend, Function.update_of_ne h]

theorem heard_at (β : Budget n) (i : Fin n) : β.heard K i i = K := by simp [Budget.heard]

theorem heard_off (β : Budget n) {i d : Fin n} (h : d ≠ i) : β.heard K i d = β d := by
  simp [Budget.heard, Function.update_of_ne h]

/-- Root sends one message to everybody. -/
theorem send1_paced {root : Fin n} {Pr R : (Tag → Nat) → Prop} {t : Tag} {v : Fin n → Msg F} {β : Budget n}
    (h : ∀ κ, Pr κ → 0 < κ t ∧ R (Function.update κ t (κ t - 1))) (hp : Each root Pr β) :
    (forSlaves_ root (fun i => sendM i t (v i))).Paced K β (fun _ β' => Each root R β') :=
  slavesUnit_paced (Pr := Pr) (fun i _ β hi =>
    sendM_paced (h _ hi).1 ⟨by rw [spend_at]; exact (h _ hi).2, fun d hd => spend_off β t hd⟩) hp

/-- Root sends two messages with different tags to everybody. -/
theorem send2_paced {root : Fin n} {Pr R : (Tag → Nat) → Prop} {t u : Tag} (htu : u ≠ t) {v v' : Fin n → Msg F} {β : Budget n}
    (h : ∀ κ, Pr κ → 0 < κ t ∧ 0 < κ u ∧ R (Function.update (Function.update κ t (κ t - 1)) u (κ u - 1))) (hp : Each root Pr β) :
    (forSlaves_ root (fun i => do
      sendM i t (v i)
      sendM i u (v' i))).Paced K β (fun _ β' => Each root R β') :=
  slavesUnit_paced (Pr := Pr) (fun i _ β hi => by
    obtain ⟨h1, h2, h3⟩ := h _ hi
    refine .bind (sendM_paced h1 (sendM_paced ?_ ⟨?_, fun d hd => ?_⟩))
    · rw [spend_at, Function.update_of_ne htu]
      exact h2
    · rw [spend_at, spend_at, Function.update_of_ne htu]
      exact h3
    · rw [spend_off _ _ hd, spend_off _ _ hd]) hp

theorem each_true (root : Fin n) (β : Budget n) : Each root (fun _ => True) β := fun _ _ => trivial

/-- A broadcast. -/
theorem bcast_paced {me root : Fin n} {Pr R : (Tag → Nat) → Prop} {v : Msg F} {β : Budget n} {Q : Msg F → Budget n → Prop}
    (h : ∀ κ, Pr κ → 0 < κ .bcast ∧ R (Function.update κ .bcast (κ .bcast - 1))) (hp : me = root → Each root Pr β)
    (hQ : ∀ a β', (me = root → Each root R β') → Q a β') : (bcast me root v).Paced K β Q := by
  unfold bcast
  by_cases hm : me = root
  · rw [if_pos hm]
    refine (send1_paced (v := fun _ => v) h (hp hm)).seq ?_
    exact fun _ β' hβ => hQ _ _ (fun _ => hβ)
  · rw [if_neg hm]
    exact fun v => hQ _ _ (fun e => absurd e hm)

variable {me root : Fin n} {cfg : Cfg F}

theorem bcastInt_paced {Pr R : (Tag → Nat) → Prop} {x : Int} {β : Budget n} {Q : Int → Budget n → Prop}
    (h : ∀ κ, Pr κ → 0 < κ .bcast ∧ R (Function.update κ .bcast (κ .bcast - 1))) (hp : me = root → Each root Pr β)
    (hQ : ∀ a β', (me = root → Each root R β') → Q a β') : (bcastInt me root x : P n F Int).Paced K β Q := by
  refine .bind (bcast_paced h hp fun a β' h' => ?_)
  split
  · exact hQ _ _ h'
  · trivial

theorem bcastDbl_paced {Pr R : (Tag → Nat) → Prop} {x : F} {β : Budget n} {Q : F → Budget n → Prop}
    (h : ∀ κ, Pr κ → 0 < κ .bcast ∧ R (Function.update κ .bcast (κ .bcast - 1))) (hp : me = root → Each root Pr β)
    (hQ : ∀ a β', (me = root → Each root R β') → Q a β') : (bcastDbl me root x : P n F F).Paced K β Q := by
  refine .bind (bcast_paced h hp fun a β' h' => ?_)
  split
  · exact hQ _ _ h'
  · trivial

theorem bcastDbls_paced {Pr R : (Tag → Nat) → Prop} {len : Nat} {x : List F} {β : Budget n} {Q : List F → Budget n → Prop}
    (h : ∀ κ, Pr κ → 0 < κ .bcast ∧ R (Function.update κ .bcast (κ .bcast - 1))) (hp : me = root → Each root Pr β)
    (hQ : ∀ a β', (me = root → Each root R β') → Q a β') : (bcastDbls me root len x : P n F (List F)).Paced K β Q := by
  refine .bind (bcast_paced h hp fun a β' h' => ?_)
  split
  · split
    · exact hQ _ _ h'
    · trivial
  · trivial

theorem bcastInts_paced {Pr R : (Tag → Nat) → Prop} {f : Fin n → Int} {β : Budget n} {Q : (Fin n → Int) → Budget n → Prop}
    (h : ∀ κ, Pr κ → 0 < κ .bcast ∧ R (Function.update κ .bcast (κ .bcast - 1))) (hp : me = root → Each root Pr β)
    (hQ : ∀ a β', (me = root → Each root R β') → Q a β') : (bcastInts me root f : P n F (Fin n → Int)).Paced K β Q := by
  refine .bind (bcast_paced h hp fun a β' h' => ?_)
  split
  · split
    · exact hQ _ _ h'
    · trivial
  · trivial

/-- Root receives one row from everybody. -/
theorem gather_paced {S T : Type} {recv : Fin n → P n F T} {g : Fin n → S → T → S} {s : S} {β : Budget n} {Q : S → Budget n → Prop}
    (hr : ∀ i (β : Budget n) (Q : T → Budget n → Prop), (∀ v, Q v (β.heard K i)) → (recv i).Paced K β Q)
    (hQ : ∀ a β', Each root (· = K) β' → Q a β') :
    (forSlaves root (fun i s => do
      let v ← recv i
      .ret (g i s v)) (List.finRange n) s).Paced K β Q :=
  (slaves_paced (Pr := fun _ => True) (R := (· = K)) (fun i _ β s _ => by
    refine Paced.bind (hr i β _ fun v => ?_)
    exact And.intro (heard_at β i) (fun _ hd => heard_off β hd)) (each_true root β)).mono hQ

theorem rs_ne {i j : Nat} (h : i ≠ j) : rootsent i ≠ rootsent j := by
  unfold rootsent
  intro e
  injection e with e
  omega

theorem genInitParm_paced {seed : Nat} {β : Budget n} {Q : Option (Fin n → List F) × Rng → Budget n → Prop}
    (hp : me = root → Each root (fun κ => 0 < κ (rootsent 0) ∧ 0 < κ (rootsent 1)) β)
    (hQ : ∀ a β', (me = root → Each root (· = oneEach) β') → Q a β') :
    (genInitParm cfg me root seed).Paced oneEach β Q := by
  unfold genInitParm
  by_cases hm : me = root
  · rw [if_pos hm]
    refine .bind ((slaves_paced (Pr := fun κ => 0 < κ (rootsent 0) ∧ 0 < κ (rootsent 1)) (R := fun _ => True)
      (fun i _ β s h => ?_) (hp hm)).mono fun s β' _ => ?_)
    · refine .bind (sendM_paced h.1 (.bind (sendM_paced ?_ ⟨trivial, fun d hd => ?_⟩)))
      · rw [spend_at, Function.update_of_ne (rs_ne (by decide))]
        exact h.2
      · rw [spend_off _ _ hd, spend_off _ _ hd]
    · refine .bind (outs_paced (.bind (gather_paced (recv := fun i => recvDbls i (slavereturn 0) cfg.nParm)
        (g := fun i x row => Function.update x i row) (fun i β Q h => recvDbls_paced h) fun a β' h => ?_)))
      exact .bind (outs_paced (hQ _ _ fun _ => h))
  · rw [if_neg hm]
    refine .bind (recvInt_paced fun _ => .bind (recvUns_paced fun _ => .bind (outs_paced (.bind (lift_paced fun _ _ =>
      .bind (sendM_paced ?_ (hQ _ _ fun e => absurd e hm)))))))
    rw [heard_at]
    exact Nat.one_pos

theorem initCalc_paced {nline : Int} {data : List F} {x : Option (Fin n → List F)} {β : Budget n}
    (hp : me = root → Each root (· = oneEach) β) :
    (initCalc cfg me root nline data x).Paced oneEach β (fun _ _ => True) := by
  unfold initCalc
  by_cases hm : me = root
  · rw [if_pos hm]
    split
    · trivial
    · refine .bind ((send1_paced (R := fun _ => True) (fun κ h => ⟨?_, trivial⟩) (hp hm)).mono fun _ β' _ => ?_)
      · rw [h]; exact Nat.one_pos
      · refine .bind (lift_paced fun b _ => .bind (outs_paced (.bind (gather_paced (recv := fun i => recvDbl i (slavereturn 0))
          (g := fun i x row => Function.update x i row) (fun i β Q h => recvDbl_paced h) fun a β' h => trivial))))
  · rw [if_neg hm]
    refine .bind (recvDbls_paced fun _ => .bind (lift_paced fun _ _ => .bind (outs_paced (.bind (sendM_paced ?_ trivial)))))
    rw [heard_at]
    exact Nat.one_pos

theorem gatherSigma_paced {sigma : List F} {β : Budget n} (hp : β = fun _ => oneEach) :
    (gatherSigma cfg me root sigma).Paced oneEach β (fun _ β' => me = root → Each root (· = oneEach) β') := by
  unfold gatherSigma
  by_cases hm : me = root
  · rw [if_pos hm]
    exact .bind (gather_paced (recv := fun i => recvDbls i (slavereturn 0) cfg.nParm)
        (g := fun i x row => Function.update x i row) (fun i β Q h => recvDbls_paced h) fun a β' h _ => h)
  · rw [if_neg hm]
    refine .bind (sendM_paced ?_ fun e => absurd e hm)
    rw [hp]
    exact Nat.one_pos

theorem distributeSigma_paced {sig : Option (Fin n → List F)} {β : Budget n}
    (hp : me = root → Each root (· = oneEach) β) :
    (distributeSigma cfg me root sig).Paced oneEach β (fun _ _ => True) := by
  unfold distributeSigma
  by_cases hm : me = root
  · rw [if_pos hm]
    split
    · trivial
    · refine .bind ((send1_paced (R := fun _ => True) (fun κ h => ⟨?_, trivial⟩) (hp hm)).mono fun _ β' _ => trivial)
      rw [h]; exact Nat.one_pos
  · rw [if_neg hm]
    exact recvDbls_paced fun _ => trivial

theorem full_each {β : Budget n} (h : β = fun _ => oneEach) : Each root (· = oneEach) β := fun _ _ => by rw [h]

variable [Source F]

theorem runBatch_paced {nb : Int} {s : RSt n F} {β : Budget n} (hp : β = fun _ => oneEach) :
    (runBatch cfg me root nb s).Paced oneEach β (fun _ _ => True) := by
  unfold runBatch
  refine .bind (outs_paced ?_)
  by_cases hm : me = root
  · rw [if_pos hm]
    refine .bind (needTab_paced fun t => .bind ((send2_paced (R := fun _ => True) (rs_ne (by decide)) (fun κ h => ?_)
      (full_each hp)).mono fun _ β' _ => ?_))
    · rw [h]; exact ⟨Nat.one_pos, Nat.one_pos, trivial⟩
    · refine .bind (lift_paced fun b _ => .bind (outs_paced (.bind ((slaves_paced (Pr := fun _ => True) (R := fun _ => True)
        (fun i _ β s _ => ?_) (each_true root β')).mono fun _ _ _ => trivial))))
      exact .bind (recvDbls_paced fun _ => .bind (recvDbl_paced fun _ => ⟨trivial, fun d hd => by
        rw [heard_off _ hd, heard_off _ hd]⟩))
  · rw [if_neg hm]
    refine .bind (recvDbls_paced fun _ => .bind (recvDbl_paced fun _ => .bind (lift_paced fun _ _ => .bind (outs_paced
      (.bind (sendM_paced ?_ (.bind (sendM_paced ?_ trivial))))))))
    · rw [heard_at]; exact Nat.one_pos
    · rw [spend_at, heard_at, Function.update_of_ne (by unfold slavereturn; decide)]
      exact Nat.one_pos

/-- Between two swap proposals root has heard from the rank with which it talks. -/
def Ready (slave me root : Fin n) (β : Budget n) : Prop := me = root → β slave = oneEach

theorem judgeSwap_paced {slave : Fin n} {i : Int} {s : RSt n F} {β : Budget n} (hp : Ready slave me root β) :
    (judgeSwap cfg me root slave i s).Paced oneEach β (fun _ β' => Ready slave me root β') := by
  unfold judgeSwap
  by_cases hm : me = root
  · rw [if_pos hm]
    refine .bind (needTab_paced fun t => .bind (lift_paced fun _ _ => .bind (lift_paced fun _ _ =>
      .bind (sendM_paced ?_ (.bind (sendM_paced ?_ (.bind (recvDbl_paced fun _ => fun _ => ?_))))))))
    · rw [hp hm]; exact Nat.one_pos
    · rw [spend_at, hp hm, Function.update_of_ne (rs_ne (by decide))]
      exact Nat.one_pos
    · exact heard_at _ _
  · rw [if_neg hm]
    by_cases hs : me = slave
    · rw [if_pos hs]
      refine .bind (recvDbls_paced fun _ => .bind (recvInt_paced fun _ => .bind (lift_paced fun _ _ =>
        .bind (sendM_paced ?_ fun e => absurd e hm))))
      rw [heard_at]
      exact Nat.one_pos
    · rw [if_neg hs]
      exact hp

theorem swapRound_paced {slave : Fin n} {s : RSt n F} {ty : Tally n F} {β : Budget n} (hp : Ready slave me root β) :
    (swapRound cfg me root slave s ty).Paced oneEach β (fun _ β' => Ready slave me root β') := by
  unfold swapRound
  refine .bind (outs_paced ?_)
  by_cases hm : me = root
  · rw [if_pos hm]
    refine (judgeSwap_paced hp).seq fun r β' h => ?_
    split
    · exact .bind (lift_paced fun _ _ => h)
    · exact h
  · rw [if_neg hm]
    exact (judgeSwap_paced hp).seq fun r β' h => h

theorem swapLoop_paced {slave : Fin n} : ∀ (k : Nat) {s : RSt n F} {ty : Tally n F} {β : Budget n} (_ : Ready slave me root β),
    (swapLoop cfg me root slave k s ty).Paced oneEach β (fun _ _ => True)
  | 0, _, _, _, _ => trivial
  | k + 1, _, _, _, hp => (swapRound_paced hp).seq fun _ _ h => swapLoop_paced k h

theorem announce_paced {nStack iTmp : Int} {s : RSt n F} {β : Budget n} (hp : β = fun _ => oneEach) :
    (announce cfg me root nStack iTmp s).Paced oneEach β (fun _ _ => True) := by
  unfold announce
  by_cases hm : me = root
  · rw [if_pos hm]
    refine .bind (lift_paced fun b _ => .bind ((send2_paced (R := fun _ => True) (rs_ne (by decide)) (fun κ h => ?_)
      (full_each hp)).mono fun _ β' _ => trivial))
    rw [h]; exact ⟨Nat.one_pos, Nat.one_pos, trivial⟩
  · rw [if_neg hm]
    exact .bind (recvInt_paced fun _ => .bind (recvInt_paced fun _ => trivial))

theorem stackLoop_paced {slave : Fin n} {nStack : Int} : ∀ (fuel : Nat) {iTmp iNext : Int} {s : RSt n F} {ty : Tally n F}
    {β : Budget n} (_ : β = fun _ => oneEach),
    (stackLoop cfg me root slave nStack fuel iTmp iNext s ty).Paced oneEach β (fun _ β' => β' = fun _ => oneEach)
  | 0, _, iNext, _, _, _, hp => by
    unfold stackLoop
    split
    · trivial
    · exact hp
  | fuel + 1, _, _, _, _, _, hp => by
    unfold stackLoop
    split
    · exact (announce_paced hp).seq fun _ _ _ => .bind (barrier_paced ((runBatch_paced rfl).seq fun _ _ _ =>
        .bind (barrier_paced ((swapLoop_paced _ (fun _ => rfl)).seq fun _ _ _ =>
          .bind (barrier_paced (stackLoop_paced fuel rfl))))))
    · exact hp

theorem adjustLadder_paced {s : RSt n F} {ty : Tally n F} {β : Budget n} (hp : β = fun _ => oneEach) :
    (adjustLadder cfg me root s ty).Paced oneEach β (fun _ _ => True) := by
  unfold adjustLadder
  by_cases hm : me = root
  · rw [if_pos hm]
    refine .bind ((send1_paced (R := fun _ => True) (fun κ h => ⟨?_, trivial⟩) (full_each hp)).mono fun _ β' _ => trivial)
    rw [h]; exact Nat.one_pos
  · rw [if_neg hm]
    exact .bind (recvVec_paced fun _ => trivial)

theorem runStack_paced {nStack : Int} {s : RSt n F} {β : Budget n} (hp : β = fun _ => oneEach) :
    (runStack cfg me root nStack s).Paced oneEach β (fun _ _ => True) := by
  unfold runStack
  refine .bind (lift_paced fun slave _ => .bind (outs_paced ((stackLoop_paced _ hp).seq fun r β' h => ?_)))
  split
  · exact adjustLadder_paced h
  · trivial

theorem tuneParm_paced {rk : Fin n} {x : List F} {lp : F} {s : Loc n F} {β : Budget n} (hp : β = fun _ => oneEach) :
    (tuneParm cfg me root rk x lp s).Paced oneEach β (fun _ _ => True) := by
  unfold tuneParm
  refine .bind (lift_paced fun a _ => ?_)
  by_cases hm : me = root
  · rw [if_pos hm]
    exact .bind (gather_paced (recv := fun i => recvDbl i (slavereturn 0))
      (g := fun i x row => Function.update x i row) (fun i β Q h => recvDbl_paced h) fun a β' h => trivial)
  · rw [if_neg hm]
    refine .bind (sendM_paced ?_ trivial)
    rw [hp]
    exact Nat.one_pos

theorem tuneParms_paced {rk : Fin n} {x : List F} {lp : F} : ∀ (k j : Nat) {s : Loc n F} {ts : Option (TuneSt n F)} {β : Budget n}
    (_ : β = fun _ => oneEach),
    (tuneParms cfg me root rk x lp k j s ts).Paced oneEach β (fun _ β' => β' = fun _ => oneEach)
  | 0, _, _, _, _, hp => hp
  | k + 1, j, _, _, _, hp => by
    unfold tuneParms
    exact .bind (lift_paced fun _ _ => (distributeSigma_paced fun _ => full_each hp).seq fun _ _ _ =>
      .bind (barrier_paced ((tuneParm_paced rfl).seq fun _ _ _ => .bind (barrier_paced (tuneParms_paced k (j + 1) rfl)))))

theorem tuneRank_paced {rk : Fin n} {s : RSt n F} {β : Budget n} (hp : β = fun _ => oneEach) :
    (tuneRank cfg me root rk s).Paced oneEach β (fun _ β' => β' = fun _ => oneEach) := by
  unfold tuneRank
  have hst : (tuneStart cfg root rk me s).Paced oneEach β (fun _ β' => β' = fun _ => oneEach) := by
    unfold tuneStart
    by_cases hm : me = root
    · rw [if_pos hm]
      exact .bind (needTab_paced fun t => .bind (lift_paced fun _ _ => hp))
    · rw [if_neg hm]
      exact hp
  refine hst.seq fun st β' h => .bind (bcastDbls_paced (Pr := (· = oneEach)) (R := fun κ => 0 < κ .bcast) ?_
    (fun _ => full_each h) fun _ β1 h1 => .bind (bcastDbl_paced (R := fun _ => True) ?_ h1 fun _ β2 _ => .bind (barrier_paced
      ((tuneParms_paced _ _ rfl).seq fun _ _ _ => .bind (lift_paced fun _ _ => .bind (barrier_paced rfl))))))
  · rintro κ rfl
    exact ⟨Nat.two_pos, by rw [Function.update_self]; exact Nat.one_pos⟩
  · exact fun κ h => ⟨h, trivial⟩

theorem findRanks_paced {rate : F} {β : Budget n} (hp : β = fun _ => oneEach) :
    (findRanks cfg me root rate).Paced oneEach β (fun _ _ => True) := by
  unfold findRanks
  refine Paced.seq (R := fun _ β' => me = root → Each root (· = oneEach) β') ?_ fun fl β' h =>
    bcastInts_paced (R := fun _ => True) ?_ h fun _ _ _ => trivial
  · by_cases hm : me = root
    · rw [if_pos hm]
      exact gather_paced (recv := fun i => recvInt i (slavereturn 0))
        (g := fun i x row => Function.update x i row) (fun i β Q h => recvInt_paced h) fun a β' h _ => h
    · rw [if_neg hm]
      refine .bind (sendM_paced ?_ fun e => absurd e hm)
      rw [hp]
      exact Nat.one_pos
  · rintro κ rfl
    exact ⟨Nat.two_pos, trivial⟩

theorem tuneRanks_paced {fl : Fin n → Int} : ∀ (l : List (Fin n)) {s : RSt n F} {β : Budget n} (_ : β = fun _ => oneEach),
    (tuneRanks cfg me root fl l s).Paced oneEach β (fun _ β' => β' = fun _ => oneEach)
  | [], _, _, hp => hp
  | rk :: l, s, β, hp => by
    unfold tuneRanks
    refine Paced.seq (R := fun _ _ => True) ?_ fun _ _ _ => .bind (barrier_paced (tuneRanks_paced l rfl))
    split
    · exact (tuneRank_paced hp).mono fun _ _ _ => trivial
    · trivial

theorem flowLoop_paced : ∀ (fuel : Nat) {nStack iTmp iNext : Int} {s : RSt n F} {β : Budget n}
    (_ : me = root → Each root (· = oneEach) β),
    (flowLoop cfg me root fuel nStack iTmp iNext s).Paced oneEach β (fun _ _ => True)
  | 0, _, _, _, _, _, hp => by
    unfold flowLoop
    split <;> trivial
  | fuel + 1, _, _, _, _, _, hp => by
    unfold flowLoop
    split
    · refine .bind (lift_paced fun nx _ => (distributeSigma_paced hp).seq fun _ _ _ => .bind (barrier_paced (.bind (outs_paced
        ((runStack_paced rfl).seq fun s1 _ _ => .bind (barrier_paced (Paced.seq (R := fun _ β' => β' = fun _ => oneEach) ?_
          fun _ _ h => flowLoop_paced fuel fun _ => full_each h)))))))
      exact ite_paced (fun _ => (findRanks_paced rfl).seq fun _ _ _ => .bind (barrier_paced (tuneRanks_paced _ rfl))) fun _ => rfl
    · trivial

theorem mainProg_paced {file : DataFile F} {clock : Nat} :
    (mainProg cfg file clock root me).Paced oneEach (fun _ => oneEach) (fun _ _ => True) := by
  unfold mainProg
  refine .bind (outs_paced (.bind (bcastInt_paced (Pr := (· = oneEach))
    (R := fun κ => 0 < κ .bcast ∧ 0 < κ (rootsent 0) ∧ 0 < κ (rootsent 1)) ?_ (fun _ => full_each rfl) fun _ β1 h1 =>
    .bind (lift_paced fun _ _ => .bind (lift_paced fun _ _ => .bind (lift_paced fun _ _ =>
      .bind (bcastDbls_paced (R := fun κ => 0 < κ (rootsent 0) ∧ 0 < κ (rootsent 1)) ?_ h1 fun _ β2 h2 =>
        .bind (genInitParm_paced h2 fun x β3 h3 => (initCalc_paced h3).seq fun _ _ _ => .bind (barrier_paced
          (.bind (outs_paced ((gatherSigma_paced rfl).seq fun _ β4 h4 => .bind (lift_paced fun _ _ =>
            (flowLoop_paced _ h4).seq fun _ _ _ => .bind (barrier_paced trivial))))))))))))))
  · rintro κ rfl
    refine ⟨Nat.two_pos, ?_, ?_, ?_⟩
    · rw [Function.update_self]; exact Nat.one_pos
    · rw [Function.update_of_ne (by unfold rootsent; simp)]; exact Nat.one_pos
    · rw [Function.update_of_ne (by unfold rootsent; simp)]; exact Nat.one_pos
  · rintro κ ⟨h1, h2, h3⟩
    refine ⟨h1, ?_, ?_⟩
    · rw [Function.update_of_ne (by unfold rootsent; simp)]; exact h2
    · rw [Function.update_of_ne (by unfold rootsent; simp)]; exact h3

end Flight

end NiiC
