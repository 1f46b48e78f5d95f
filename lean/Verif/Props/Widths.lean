import Verif.Props.Flow
import Verif.Props.Demo
import Verif.Num.Dbl
import Verif.Num.Real
import Mathlib.Analysis.SpecialFunctions.Sqrt

/-!
# Tuned widths: C32, C33, C34, C36, C37
-/

set_option linter.unusedSectionVars false
set_option linter.unusedSimpArgs false

namespace NiiC

open Spec

/-! ## C36: searches -/

section
variable {F : Type} [Arith F] [Source F]

omit [Source F] in
/-- On the numbers in `S` the comparison is that of a total order, up to equivalence. Holds for reals and for doubles other than NaN. -/
structure OrderOn (S : F → Prop) : Prop where
  irrefl : ∀ a, S a → (a <. a) = false
  trans : ∀ a b c, S a → S b → S c → (a <. b) = true → (b <. c) = true → (a <. c) = true
  cotrans : ∀ a b c, S a → S b → S c → (a <. b) = false → (b <. c) = false → (a <. c) = false

theorem OrderOn.lt_of_lt_le {S : F → Prop} (h : OrderOn S) {a b c : F} (ha : S a) (hb : S b) (hc : S c) (h1 : (a <. b) = true)
    (h2 : (c <. b) = false) : (a <. c) = true := by
  by_contra hn
  have := h.cotrans a c b ha hc hb (Bool.eq_false_iff.2 hn) h2
  rw [h1] at this
  cases this

theorem OrderOn.asymm {S : F → Prop} (h : OrderOn S) {a b : F} (ha : S a) (hb : S b) (h1 : (a <. b) = true) : (b <. a) = false := by
  rw [Bool.eq_false_iff]
  intro h2
  have := h.trans a b a ha hb ha h1 h2
  rw [h.irrefl a ha] at this
  cases this

/-- What the scan for a minimum finds. -/
theorem scanMin_spec {ι : Type} {S : F → Prop} (ho : OrderOn S) : ∀ (l : List (ι × F)) (cur : F) (k : ι), S cur → (∀ p ∈ l, S p.2) →
    (scanMin cur k l = (cur, k) ∧ ∀ p ∈ l, (p.2 <. cur) = false) ∨
    ∃ l1 l2 i v, l = l1 ++ (i, v) :: l2 ∧ scanMin cur k l = (v, i) ∧ (v <. cur) = true ∧
      (∀ p ∈ l1, (v <. p.2) = true) ∧ ∀ p ∈ l2, (p.2 <. v) = false := by
  intro l
  induction l with
  | nil => intro cur k _ _; exact .inl ⟨rfl, fun p hp => by cases hp⟩
  | cons a l ih =>
    intro cur k hc hl
    obtain ⟨i, v⟩ := a
    have hv : S v := hl (i, v) List.mem_cons_self
    have hl' : ∀ p ∈ l, S p.2 := fun p hp => hl p (List.mem_cons_of_mem _ hp)
    by_cases h : (v <. cur) = true
    · simp only [scanMin, h, if_true]
      rcases ih v i hv hl' with ⟨e, hn⟩ | ⟨l1, l2, j, u, rfl, e, hu, h1, h2⟩
      · exact .inr ⟨[], l, i, v, rfl, e, h, fun p hp => (by cases hp), hn⟩
      · have hju : S u := hl' (j, u) (by simp)
        refine .inr ⟨(i, v) :: l1, l2, j, u, rfl, e, ho.trans _ _ _ hju hv hc hu h, fun p hp => ?_, h2⟩
        rcases List.mem_cons.1 hp with rfl | hp
        · exact hu
        · exact h1 p hp
    · have h' := Bool.eq_false_iff.2 h
      simp only [scanMin, h, if_false]
      rcases ih cur k hc hl' with ⟨e, hn⟩ | ⟨l1, l2, j, u, rfl, e, hu, h1, h2⟩
      · refine .inl ⟨e, fun p hp => ?_⟩
        rcases List.mem_cons.1 hp with rfl | hp
        · exact h'
        · exact hn p hp
      · have hju : S u := hl' (j, u) (by simp)
        refine .inr ⟨(i, v) :: l1, l2, j, u, rfl, e, hu, fun p hp => ?_, h2⟩
        rcases List.mem_cons.1 hp with rfl | hp
        · exact ho.lt_of_lt_le hju hc hv hu h'
        · exact h1 p hp

/-- The scan for a maximum is the scan for a minimum in the opposite order. -/
theorem scanMax_spec {ι : Type} {S : F → Prop} (ho : OrderOn S) : ∀ (l : List (ι × F)) (cur : F) (k : ι), S cur → (∀ p ∈ l, S p.2) →
    (scanMax cur k l = (cur, k) ∧ ∀ p ∈ l, (cur <. p.2) = false) ∨
    ∃ l1 l2 i v, l = l1 ++ (i, v) :: l2 ∧ scanMax cur k l = (v, i) ∧ (cur <. v) = true ∧
      (∀ p ∈ l1, (p.2 <. v) = true) ∧ ∀ p ∈ l2, (v <. p.2) = false := by
  intro l
  induction l with
  | nil => intro cur k _ _; exact .inl ⟨rfl, fun p hp => by cases hp⟩
  | cons a l ih =>
    intro cur k hc hl
    obtain ⟨i, v⟩ := a
    have hv : S v := hl (i, v) List.mem_cons_self
    have hl' : ∀ p ∈ l, S p.2 := fun p hp => hl p (List.mem_cons_of_mem _ hp)
    have flip : ∀ {a b c : F}, S a → S b → S c → (b <. a) = true → (b <. c) = false → (c <. a) = true := by
      intro a b c ha hb hc h1 h2
      by_contra hn
      have := ho.cotrans b c a hb hc ha h2 (Bool.eq_false_iff.2 hn)
      rw [h1] at this
      cases this
    by_cases h : (cur <. v) = true
    · simp only [scanMax, h, if_true]
      rcases ih v i hv hl' with ⟨e, hn⟩ | ⟨l1, l2, j, u, rfl, e, hu, h1, h2⟩
      · exact .inr ⟨[], l, i, v, rfl, e, h, fun p hp => (by cases hp), hn⟩
      · have hju : S u := hl' (j, u) (by simp)
        refine .inr ⟨(i, v) :: l1, l2, j, u, rfl, e, ho.trans _ _ _ hc hv hju h hu, fun p hp => ?_, h2⟩
        rcases List.mem_cons.1 hp with rfl | hp
        · exact hu
        · exact h1 p hp
    · have h' := Bool.eq_false_iff.2 h
      simp only [scanMax, h, if_false]
      rcases ih cur k hc hl' with ⟨e, hn⟩ | ⟨l1, l2, j, u, rfl, e, hu, h1, h2⟩
      · refine .inl ⟨e, fun p hp => ?_⟩
        rcases List.mem_cons.1 hp with rfl | hp
        · exact h'
        · exact hn p hp
      · have hju : S u := hl' (j, u) (by simp)
        refine .inr ⟨(i, v) :: l1, l2, j, u, rfl, e, hu, fun p hp => ?_, h2⟩
        rcases List.mem_cons.1 hp with rfl | hp
        · exact flip hju hc hv hu h'
        · exact h1 p hp

theorem indexed_mem_iff : ∀ (l : List F) (s : Nat) (p : Nat × F), p ∈ indexed s l ↔ s ≤ p.1 ∧ l[p.1 - s]? = some p.2 := by
  intro l
  induction l with
  | nil => intro s p; simp [indexed]
  | cons v l ih =>
    intro s p
    simp only [indexed, List.mem_cons, ih]
    constructor
    · rintro (rfl | ⟨h1, h2⟩)
      · simp
      · refine ⟨by omega, ?_⟩
        rw [show p.1 - s = (p.1 - (s + 1)) + 1 by omega, List.getElem?_cons_succ]
        exact h2
    · rintro ⟨h1, h2⟩
      by_cases h : p.1 = s
      · left
        rw [h, Nat.sub_self, List.getElem?_cons_zero, Option.some.injEq] at h2
        exact Prod.ext h h2.symm
      · right
        rw [show p.1 - s = (p.1 - (s + 1)) + 1 by omega, List.getElem?_cons_succ] at h2
        exact ⟨by omega, h2⟩

theorem indexed_split : ∀ (l : List F) (s : Nat) (l1 l2 : List (Nat × F)) (i : Nat) (v : F), indexed s l = l1 ++ (i, v) :: l2 →
    s ≤ i ∧ l[i - s]? = some v ∧ (∀ j u, s ≤ j → j < i → l[j - s]? = some u → (j, u) ∈ l1) ∧ (∀ j u, i < j → l[j - s]? = some u → (j, u) ∈ l2) := by
  intro l
  induction l with
  | nil => intro s l1 l2 i v h; simp [indexed] at h
  | cons w l ih =>
    intro s l1 l2 i v h
    cases l1 with
    | nil =>
      simp only [indexed, List.nil_append, List.cons.injEq, Prod.mk.injEq] at h
      obtain ⟨⟨rfl, rfl⟩, h2⟩ := h
      refine ⟨le_refl _, by simp, fun j u h1 h2 => by omega, fun j u hj hu => ?_⟩
      rw [← h2, indexed_mem_iff]
      refine ⟨by omega, ?_⟩
      rw [show j - s = (j - (s + 1)) + 1 by omega, List.getElem?_cons_succ] at hu
      exact hu
    | cons a l1 =>
      simp only [indexed, List.cons_append, List.cons.injEq] at h
      obtain ⟨rfl, h2⟩ := h
      obtain ⟨a1, a2, a3, a4⟩ := ih (s + 1) l1 l2 i v h2
      have sh : ∀ j, s + 1 ≤ j → (w :: l)[j - s]? = l[j - (s + 1)]? := by
        intro j hj
        rw [show j - s = (j - (s + 1)) + 1 by omega, List.getElem?_cons_succ]
      refine ⟨by omega, by rw [sh i a1]; exact a2, fun j u h1 h3 hu => ?_, fun j u hj hu => ?_⟩
      · by_cases hj : j = s
        · subst hj
          rw [Nat.sub_self, List.getElem?_cons_zero, Option.some.injEq] at hu
          subst hu
          exact List.mem_cons_self
        · rw [sh j (by omega)] at hu
          exact List.mem_cons_of_mem _ (a3 j u (by omega) h3 hu)
      · rw [sh j (by omega)] at hu
        exact a4 j u hj hu

/-- **C36.** `argmin` returns the first index of a smallest entry: no entry is smaller, and every entry before it is larger. -/
theorem argmin_first {S : F → Prop} (ho : OrderOn S) (xs : List F) (hne : xs ≠ []) (hS : ∀ v ∈ xs, S v) :
    ∃ i v, argmin xs = .ok i ∧ xs[i]? = some v ∧ (∀ (j : Nat) u, xs[j]? = some u → (u <. v) = false) ∧
      ∀ (j : Nat) u, j < i → xs[j]? = some u → (v <. u) = true := by
  cases xs with
  | nil => exact absurd rfl hne
  | cons a l =>
    have ha : S a := hS a List.mem_cons_self
    have hl : ∀ p ∈ indexed 1 l, S p.2 := by
      intro p hp
      exact hS _ (List.mem_cons_of_mem _ (List.mem_of_getElem? ((indexed_mem_iff l 1 p).1 hp).2))
    rcases scanMin_spec ho (indexed 1 l) a 0 ha hl with ⟨e, hn⟩ | ⟨l1, l2, i, v, hs, e, hv, h1, h2⟩
    · refine ⟨0, a, by simp [argmin, e], rfl, fun j u hj => ?_, fun j u hj => by omega⟩
      cases j with
      | zero => cases hj; exact ho.irrefl a ha
      | succ j =>
        rw [List.getElem?_cons_succ] at hj
        exact hn (j + 1, u) ((indexed_mem_iff l 1 _).2 ⟨by omega, by simpa using hj⟩)
    · obtain ⟨b1, b2, b3, b4⟩ := indexed_split l 1 l1 l2 i v hs
      have hi : (a :: l)[i]? = some v := by
        rw [show i = (i - 1) + 1 by omega, List.getElem?_cons_succ]; exact b2
      have hvS : S v := hS v (List.mem_of_getElem? hi)
      have before : ∀ (j : Nat) u, j < i → (a :: l)[j]? = some u → (v <. u) = true := by
        intro j u hj hu
        cases j with
        | zero => cases hu; exact hv
        | succ j =>
          rw [List.getElem?_cons_succ] at hu
          exact h1 _ (b3 (j + 1) u (by omega) hj (by simpa using hu))
      refine ⟨i, v, by simp [argmin, e], hi, fun j u hu => ?_, before⟩
      rcases Nat.lt_trichotomy j i with hj | rfl | hj
      · exact ho.asymm hvS (hS u (List.mem_of_getElem? hu)) (before j u hj hu)
      · rw [hi] at hu; cases hu; exact ho.irrefl v hvS
      · refine h2 _ (b4 j u hj ?_)
        rw [show j = (j - 1) + 1 by omega, List.getElem?_cons_succ] at hu
        exact hu

/-- **C36.** `argmax` returns the first index of a largest entry. -/
theorem argmax_first {S : F → Prop} (ho : OrderOn S) (xs : List F) (hne : xs ≠ []) (hS : ∀ v ∈ xs, S v) :
    ∃ i v, argmax xs = .ok i ∧ xs[i]? = some v ∧ (∀ (j : Nat) u, xs[j]? = some u → (v <. u) = false) ∧
      ∀ (j : Nat) u, j < i → xs[j]? = some u → (u <. v) = true := by
  cases xs with
  | nil => exact absurd rfl hne
  | cons a l =>
    have ha : S a := hS a List.mem_cons_self
    have hl : ∀ p ∈ indexed 1 l, S p.2 := by
      intro p hp
      exact hS _ (List.mem_cons_of_mem _ (List.mem_of_getElem? ((indexed_mem_iff l 1 p).1 hp).2))
    rcases scanMax_spec ho (indexed 1 l) a 0 ha hl with ⟨e, hn⟩ | ⟨l1, l2, i, v, hs, e, hv, h1, h2⟩
    · refine ⟨0, a, by simp [argmax, e], rfl, fun j u hj => ?_, fun j u hj => by omega⟩
      cases j with
      | zero => cases hj; exact ho.irrefl a ha
      | succ j =>
        rw [List.getElem?_cons_succ] at hj
        exact hn (j + 1, u) ((indexed_mem_iff l 1 _).2 ⟨by omega, by simpa using hj⟩)
    · obtain ⟨b1, b2, b3, b4⟩ := indexed_split l 1 l1 l2 i v hs
      have hi : (a :: l)[i]? = some v := by
        rw [show i = (i - 1) + 1 by omega, List.getElem?_cons_succ]; exact b2
      have hvS : S v := hS v (List.mem_of_getElem? hi)
      have before : ∀ (j : Nat) u, j < i → (a :: l)[j]? = some u → (u <. v) = true := by
        intro j u hj hu
        cases j with
        | zero => cases hu; exact hv
        | succ j =>
          rw [List.getElem?_cons_succ] at hu
          exact h1 _ (b3 (j + 1) u (by omega) hj (by simpa using hu))
      refine ⟨i, v, by simp [argmax, e], hi, fun j u hu => ?_, before⟩
      rcases Nat.lt_trichotomy j i with hj | rfl | hj
      · exact ho.asymm (hS u (List.mem_of_getElem? hu)) hvS (before j u hj hu)
      · rw [hi] at hu; cases hu; exact ho.irrefl v hvS
      · refine h2 _ (b4 j u hj ?_)
        rw [show j = (j - 1) + 1 by omega, List.getElem?_cons_succ] at hu
        exact hu

variable {n : Nat}

/-- **C36.** The search in one row returns a trial of that row whose rate is as close to `ar_best` as any other in the row. -/
theorem closestOne_best {S : F → Prop} (ho : OrderOn S) (best : F) (row : Fin n → F) (hn : 0 < n)
    (hS : ∀ r, S (Arith.fabs (row r -. best))) :
    ∃ r : Fin n, closestOne best row = .ok (Arith.fabs (row r -. best), r.val) ∧
      ∀ r', (Arith.fabs (row r' -. best) <. Arith.fabs (row r -. best)) = false := by
  have hget : ∀ (j : Nat) u, (errRow best row)[j]? = some u ↔ ∃ h : j < n, u = Arith.fabs (row ⟨j, h⟩ -. best) := by
    intro j u
    simp only [errRow, List.getElem?_ofFn]
    by_cases h : j < n
    · simp [h, eq_comm]
    · simp [h]
  obtain ⟨a, l, hal⟩ : ∃ a l, errRow best row = a :: l := by
    cases h : errRow best row with
    | nil => simp [errRow] at h; omega
    | cons a l => exact ⟨a, l, rfl⟩
  have h0 := hget 0 a
  rw [hal] at h0 hget
  obtain ⟨_, ha⟩ := h0.1 rfl
  have hS' : ∀ p ∈ indexed 0 (a :: l), S p.2 := by
    intro p hp
    obtain ⟨h, e⟩ := (hget _ _).1 ((indexed_mem_iff _ 0 p).1 hp).2
    rw [e]; exact hS _
  unfold closestOne
  rw [hal]
  rcases scanMin_spec ho (indexed 0 (a :: l)) a 0 (by rw [ha]; exact hS _) hS' with ⟨e, hm⟩ | ⟨l1, l2, i, v, hs, e, hv, h1, h2⟩
  · refine ⟨⟨0, hn⟩, (congrArg Except.ok e).trans (congrArg (fun v => Except.ok (v, 0)) ha), fun r' => ?_⟩
    rw [← ha]
    exact hm (r'.val, _) ((indexed_mem_iff _ 0 _).2 ⟨Nat.zero_le _, (hget _ _).2 ⟨r'.isLt, rfl⟩⟩)
  · obtain ⟨b1, b2, b3, b4⟩ := indexed_split _ 0 l1 l2 i v hs
    obtain ⟨hi, rfl⟩ := (hget _ _).1 b2
    simp only [Nat.sub_zero] at hi
    refine ⟨⟨i, hi⟩, by simp only [e]; rfl, fun r' => ?_⟩
    rcases Nat.lt_trichotomy r'.val i with hj | hj | hj
    · exact ho.asymm (hS _) (hS r') (h1 _ (b3 r'.val _ (Nat.zero_le _) hj ((hget _ _).2 ⟨r'.isLt, rfl⟩)))
    · have : r' = ⟨i, hi⟩ := Fin.ext hj
      rw [this]; exact ho.irrefl _ (hS _)
    · exact h2 _ (b4 r'.val _ hj ((hget _ _).2 ⟨r'.isLt, rfl⟩))

theorem errCells_mem_iff (best : F) : ∀ (ars : List (Fin n → F)) (s : Nat) (p : (Nat × Nat) × F),
    p ∈ errCells best s ars ↔ s ≤ p.1.1 ∧ ∃ row, ars[p.1.1 - s]? = some row ∧ ∃ h : p.1.2 < n, p.2 = Arith.fabs (row ⟨p.1.2, h⟩ -. best) := by
  intro ars
  induction ars with
  | nil => intro s p; simp [errCells]
  | cons row ars ih =>
    intro s p
    simp only [errCells, List.mem_append, List.mem_map, ih]
    constructor
    · rintro (⟨c, hc, rfl⟩ | ⟨h1, r, h2, h3⟩)
      · obtain ⟨_, hc⟩ := (indexed_mem_iff _ 0 c).1 hc
        simp only [errRow, List.getElem?_ofFn, Nat.sub_zero] at hc
        by_cases h : c.1 < n
        · simp only [h, dif_pos, Option.some.injEq] at hc
          exact ⟨le_refl _, row, by simp, h, hc.symm⟩
        · simp [h] at hc
      · refine ⟨by omega, r, ?_, h3⟩
        rw [show p.1.1 - s = (p.1.1 - (s + 1)) + 1 by omega, List.getElem?_cons_succ]
        exact h2
    · rintro ⟨h1, r, h2, h, h3⟩
      by_cases hp : p.1.1 = s
      · left
        rw [hp, Nat.sub_self, List.getElem?_cons_zero, Option.some.injEq] at h2
        subst h2
        refine ⟨(p.1.2, p.2), (indexed_mem_iff _ 0 _).2 ⟨Nat.zero_le _, ?_⟩, ?_⟩
        · simp only [errRow, List.getElem?_ofFn, Nat.sub_zero, h, dif_pos, h3]
        · rw [← hp]
      · right
        rw [show p.1.1 - s = (p.1.1 - (s + 1)) + 1 by omega, List.getElem?_cons_succ] at h2
        exact ⟨by omega, r, h2, h, h3⟩

/-- **C36.** The search in the whole table returns a trial whose rate is as close to `ar_best` as any other in the table. -/
theorem closestAll_best {S : F → Prop} (ho : OrderOn S) (best : F) (ars : List (Fin n → F)) (hn : 0 < n) (hne : ars ≠ [])
    (hS : ∀ row ∈ ars, ∀ r, S (Arith.fabs (row r -. best))) :
    ∃ (i : Nat) (row : Fin n → F) (r : Fin n), ars[i]? = some row ∧ closestAll best ars = .ok (Arith.fabs (row r -. best), i, r.val) ∧
      ∀ row' ∈ ars, ∀ r', (Arith.fabs (row' r' -. best) <. Arith.fabs (row r -. best)) = false := by
  obtain ⟨row0, ars', rfl⟩ : ∃ a l, ars = a :: l := by
    cases ars with
    | nil => exact absurd rfl hne
    | cons a l => exact ⟨a, l, rfl⟩
  have hSc : ∀ p ∈ errCells best 0 (row0 :: ars'), S p.2 := by
    intro p hp
    obtain ⟨_, row, h1, h, h2⟩ := (errCells_mem_iff best _ 0 p).1 hp
    rw [h2]; exact hS row (List.mem_of_getElem? h1) _
  obtain ⟨c, l, hcl, hc⟩ : ∃ c l, errCells best 0 (row0 :: ars') = c :: l ∧ c.2 = Arith.fabs (row0 ⟨0, hn⟩ -. best) := by
    obtain ⟨m, rfl⟩ : ∃ m, n = m + 1 := ⟨n - 1, by omega⟩
    have h : ∃ l, errCells best 0 (row0 :: ars') = ((0, 0), Arith.fabs (row0 0 -. best)) :: l := by
      simp only [errCells, errRow, List.ofFn_succ, indexed, List.map_cons, List.cons_append]
      exact ⟨_, rfl⟩
    obtain ⟨l, hl⟩ := h
    exact ⟨_, l, hl, rfl⟩
  have hmem : ∀ row' ∈ row0 :: ars', ∀ r' : Fin n, ∃ i, ((i, r'.val), Arith.fabs (row' r' -. best)) ∈ errCells best 0 (row0 :: ars') := by
    intro row' hr r'
    obtain ⟨i, hi⟩ := List.mem_iff_getElem?.1 hr
    exact ⟨i, (errCells_mem_iff best _ 0 _).2 ⟨Nat.zero_le _, row', by simpa using hi, r'.isLt, rfl⟩⟩
  unfold closestAll
  rw [hcl] at hSc hmem ⊢
  have hc0 : S c.2 := hSc c List.mem_cons_self
  rcases scanMin_spec ho (c :: l) c.2 (0, 0) hc0 hSc with ⟨e, hm⟩ | ⟨l1, l2, i, v, hs, e, hv, h1, h2⟩
  · refine ⟨0, row0, ⟨0, hn⟩, rfl, by simp only [e]; rw [hc], fun row' hr r' => ?_⟩
    obtain ⟨i, hi⟩ := hmem row' hr r'
    rw [← hc]
    exact hm _ hi
  · have hiv : (i, v) ∈ errCells best 0 (row0 :: ars') := by rw [hcl, hs]; simp
    obtain ⟨_, row, g1, h, g2⟩ := (errCells_mem_iff best _ 0 _).1 hiv
    simp only at g2
    refine ⟨i.1, row, ⟨i.2, h⟩, by simpa using g1, by simp only [e]; rw [g2], fun row' hr r' => ?_⟩
    obtain ⟨i', hi'⟩ := hmem row' hr r'
    rw [hs] at hi'
    have hvS : S v := hSc (i, v) (by rw [hs]; simp)
    have huS : S (Arith.fabs (row' r' -. best)) := hS row' hr r'
    rw [← g2]
    rcases List.mem_append.1 hi' with h' | h'
    · exact ho.asymm hvS huS (h1 _ h')
    · rcases List.mem_cons.1 h' with h' | h'
      · rw [Prod.mk.injEq] at h'
        rw [h'.2]; exact ho.irrefl v hvS
      · exact h2 _ h'

end

theorem orderOn_real : OrderOn (F := ℝ) (fun _ => True) where
  irrefl a _ := by simp
  trans a b c _ _ _ h1 h2 := by simp only [RealArith.lt_iff] at *; exact h1.trans h2
  cotrans a b c _ _ _ h1 h2 := by simp only [RealArith.lt_false_iff] at *; exact h2.trans h1

theorem orderOn_dbl (R : Rounding) : OrderOn (F := Dbl R) (fun v => v ≠ Dbl.nan) where
  irrefl a h := by
    rw [Bool.eq_false_iff, ne_eq, Dbl.lt_iff]
    cases a <;> simp [XV.Lt]
  trans a b c ha hb hc h1 h2 := by
    rw [Dbl.lt_iff] at *
    cases a <;> cases b <;> cases c <;> simp_all [XV.Lt]
    linarith
  cotrans a b c ha hb hc h1 h2 := by
    rw [Bool.eq_false_iff, ne_eq, Dbl.lt_iff] at *
    cases a <;> cases b <;> cases c <;> simp_all [XV.Lt, Dbl.nan]
    all_goals first | exact absurd rfl hb | linarith

/-- The searches on a list with a repeated minimum. -/
example : argmin [(3 : ℝ), 1, 2, 1] = .ok 1 := by
  norm_num [argmin, indexed, scanMin]

/-! ## C37: the decision -/

section
variable {F : Type} [Arith F] [Source F] {n : Nat}

/-- **C37.** If some trial rate is closer to `ar_best` than `ar_accept_diff`, the decision names one trial, and its rate is that
close. Otherwise the decision is one of the two codes that stand for "initial widths" and "best width of every parameter". -/
theorem decide_acceptable {S : F → Prop} (ho : OrderOn S) (cfg : Cfg F) (ars : List (Fin n → F)) (hn : 0 < n) (hne : ars ≠ [])
    (hS : ∀ row ∈ ars, ∀ r, S (Arith.fabs (row r -. cfg.arBest))) (hd : S cfg.arAcceptDiff) (g : Rng) :
    ∃ ch g', decideSigma cfg ars g = .ok (ch, g') ∧
      ((∃ row ∈ ars, ∃ r, (Arith.fabs (row r -. cfg.arBest) <. cfg.arAcceptDiff) = true) →
        ∃ (i : Nat) (row : Fin n → F) (r : Fin n), ch = ((i : Int), (r.val : Int)) ∧ ars[i]? = some row ∧
          (Arith.fabs (row r -. cfg.arBest) <. cfg.arAcceptDiff) = true) ∧
      ((∀ row ∈ ars, ∀ r, (Arith.fabs (row r -. cfg.arBest) <. cfg.arAcceptDiff) = false) → ch = (-1, 0) ∨ ch = (-1, -1)) := by
  obtain ⟨p, hp, hpl⟩ := argmax_total (ars.map sdRow) (by simpa using hne)
  rw [List.length_map] at hpl
  have hpm : ars[p] ∈ ars := List.getElem_mem hpl
  obtain ⟨r1, hc1, _⟩ := closestOne_best ho cfg.arBest ars[p] hn (hS _ hpm)
  obtain ⟨i2, row2, r2, h2, hc2, hmin⟩ := closestAll_best ho cfg.arBest ars hn hne hS
  have hm2 : row2 ∈ ars := List.mem_of_getElem? h2
  have heq : decideSigma cfg ars g =
      (if Arith.fabs (ars[p] r1 -. cfg.arBest) <. cfg.arAcceptDiff then
        if Arith.fabs (row2 r2 -. cfg.arBest) <. cfg.arAcceptDiff then
          if Arith.lit 1 2 <. (drand48 (F := F) g).1 then .ok (((p : Int), (r1.val : Int)), (drand48 (F := F) g).2)
          else .ok (((i2 : Int), (r2.val : Int)), (drand48 (F := F) g).2)
        else .ok ((p, r1.val), g)
      else if Arith.fabs (row2 r2 -. cfg.arBest) <. cfg.arAcceptDiff then .ok ((i2, r2.val), g)
      else if Arith.lit 1 2 <. (drand48 (F := F) g).1 then .ok ((-1, 0), (drand48 (F := F) g).2)
      else .ok ((-1, -1), (drand48 (F := F) g).2) : Except Fault ((Int × Int) × Rng)) :=
    by simp only [decideSigma, hp, rd_ok hpl, hc1, hc2, bind, Except.bind]
  rw [heq]
  by_cases e2 : (Arith.fabs (row2 r2 -. cfg.arBest) <. cfg.arAcceptDiff) = true
  · have none : ¬ ∀ row ∈ ars, ∀ r, (Arith.fabs (row r -. cfg.arBest) <. cfg.arAcceptDiff) = false := by
      intro h; rw [h row2 hm2 r2] at e2; cases e2
    by_cases e1 : (Arith.fabs (ars[p] r1 -. cfg.arBest) <. cfg.arAcceptDiff) = true
    · rw [if_pos e1, if_pos e2]
      split
      · exact ⟨_, _, rfl, fun _ => ⟨p, ars[p], r1, rfl, List.getElem?_eq_getElem hpl, e1⟩, fun h => absurd h none⟩
      · exact ⟨_, _, rfl, fun _ => ⟨i2, row2, r2, rfl, h2, e2⟩, fun h => absurd h none⟩
    · rw [if_neg e1, if_pos e2]
      exact ⟨_, _, rfl, fun _ => ⟨i2, row2, r2, rfl, h2, e2⟩, fun h => absurd h none⟩
  · have e2' := Bool.eq_false_iff.2 e2
    have all : ∀ row ∈ ars, ∀ r, (Arith.fabs (row r -. cfg.arBest) <. cfg.arAcceptDiff) = false := by
      intro row hr r
      exact ho.cotrans _ _ _ (hS row hr r) (hS row2 hm2 r2) hd (hmin row hr r) e2'
    have none : ¬ ∃ row ∈ ars, ∃ r, (Arith.fabs (row r -. cfg.arBest) <. cfg.arAcceptDiff) = true := by
      rintro ⟨row, hr, r, h⟩; rw [all row hr r] at h; cases h
    rw [if_neg (by rw [all _ hpm r1]; exact Bool.false_ne_true), if_neg e2]
    split
    · exact ⟨_, _, rfl, fun h => absurd h none, fun _ => .inl rfl⟩
    · exact ⟨_, _, rfl, fun h => absurd h none, fun _ => .inr rfl⟩

/-- **C37.** The case "best of one row acceptable but best overall not" of mpi_tune.c:711-722 never occurs: if the closest rate of
any row is acceptable, so is the closest rate of the table. -/
theorem decide_dead_branch {S : F → Prop} (ho : OrderOn S) (best diff : F) (ars : List (Fin n → F)) (hn : 0 < n)
    (hS : ∀ row ∈ ars, ∀ r, S (Arith.fabs (row r -. best))) (hd : S diff) (row : Fin n → F) (hr : row ∈ ars)
    (c1 : F × Nat) (c2 : F × Nat × Nat) (h1 : closestOne best row = .ok c1) (h2 : closestAll best ars = .ok c2)
    (h : (c1.1 <. diff) = true) : (c2.1 <. diff) = true := by
  obtain ⟨r1, e1, _⟩ := closestOne_best ho best row hn (hS _ hr)
  obtain ⟨i2, row2, r2, hi, e2, hmin⟩ := closestAll_best ho best ars hn (List.ne_nil_of_mem hr) hS
  rw [h1] at e1
  rw [h2] at e2
  cases e1
  cases e2
  by_contra hc
  have := ho.cotrans _ _ _ (hS row hr r1) (hS row2 (List.mem_of_getElem? hi) r2) hd (hmin row hr r1) (Bool.eq_false_iff.2 hc)
  rw [this] at h
  cases h

/-! ## C32: where a tuned width comes from -/

/-- Cells of the grid. -/
theorem genAllTune_get (cfg : Cfg F) (sig : List F) : ∀ (k i : Nat) (grid : List (Fin n → F)), genAllTune n cfg sig k i = .ok grid →
    ∀ j, j < k → ∃ w lo hi, sig[i + j]? = some w ∧ cfg.sigmaMin[i + j]? = some lo ∧ cfg.sigmaMax[i + j]? = some hi ∧
      grid[j]? = some (fun r => gridRow cfg.halfRatio lo hi cfg.jumpin w n r.val) := by
  intro k
  induction k with
  | zero => intro i grid _ j hj; omega
  | succ k ih =>
    intro i grid h j hj
    simp only [genAllTune, exc_bind, Except.ok.injEq] at h
    obtain ⟨w, hw, lo, hlo, hi, hhi, rest, hrest, rfl⟩ := h
    cases j with
    | zero => exact ⟨w, lo, hi, rd_eq_ok hw, rd_eq_ok hlo, rd_eq_ok hhi, rfl⟩
    | succ j =>
      obtain ⟨a, b, c, h1, h2, h3, h4⟩ := ih (i + 1) rest hrest j (by omega)
      rw [show i + 1 + j = i + (j + 1) by omega] at h1 h2 h3
      exact ⟨a, b, c, h1, h2, h3, h4⟩

/-- Every trial: chain `rk` run from its current point with one width replaced by the grid value. -/
def TrialRate (cfg : Cfg F) (st : G n F) (rk : Fin n) (grid : List (Fin n → F)) (j : Nat) (r : Fin n) (v : F) : Prop :=
  ∃ row g, grid[j]? = some row ∧
    v = ofI (acceptedIn cfg.user ((st.sig rk).set j (row r)) st.nline st.data (st.beta rk) cfg.nIterInTune.toNat
      ⟨st.x rk, st.lp rk, 0, 0, g⟩ : Int) /. ofI cfg.nIterInTune

theorem rates_measured {cfg : Cfg F} (hu : cfg.user.Wf cfg.nParm) (ht : 1 ≤ cfg.nIterInTune) (rk : Fin n) (grid : List (Fin n → F)) :
    ∀ (k j : Nat) (st st' : G n F) (ars ars' : List (Fin n → F)), seqTuneParms cfg rk grid k j st ars = .ok (st', ars') →
    ars.length = j → st.Ok cfg → (∀ (i : Nat) row, ars[i]? = some row → ∀ r, TrialRate cfg st rk grid i r (row r)) →
    ars'.length = j + k ∧ ∀ (i : Nat) row, ars'[i]? = some row → ∀ r, TrialRate cfg st rk grid i r (row r) := by
  intro k
  induction k with
  | zero => intro j st st' ars ars' h hj _ hr; cases h; exact ⟨hj, hr⟩
  | succ k ih =>
    intro j st st' ars ars' h hj hok hr
    simp only [seqTuneParms, exc_bind, allOk_ok] at h
    obtain ⟨rows, h1, a, h2, h3⟩ := h
    have hl : ∀ r, (rows r).length = cfg.nParm := fun r => by rw [trialRows_length h1 r, hok.sig rk]
    obtain ⟨e1, e2⟩ := ih (j + 1) _ st' _ ars' h3 (by simp [hj]) ⟨hok.acc, hok.x, hok.sig, hl⟩ (by
      intro i row hi r
      rw [List.getElem?_append] at hi
      split at hi
      · exact hr i row hi r
      · have hi0 : i = j := by
          rcases Nat.lt_or_ge (i - ars.length) 1 with h | h
          · omega
          · rw [List.getElem?_eq_none (by simpa using h)] at hi; cases hi
        subst hi0
        rw [hj, Nat.sub_self] at hi
        cases hi
        simp only [trialRows, exc_bind, Except.ok.injEq] at h1
        obtain ⟨row, hrow, _, _, rfl⟩ := h1
        have hit := iterBatchTune_eq cfg.nParm cfg.user ((st.sig rk).set i (row r)) st.nline st.data (st.beta rk) hu (hl r)
          cfg.nIterInTune (by omega) (st.x rk) (st.lp rk) (st.g r) (hok.x rk)
        rw [h2 r] at hit
        refine ⟨row, st.g r, rd_eq_ok hrow, ?_⟩
        rw [mhIter_accepted, Nat.zero_add, Except.ok.injEq] at hit
        exact congrArg Prod.fst hit)
    exact ⟨by omega, e2⟩

/-- What the per-parameter race chooses. -/
theorem raceAll_get (best : F) : ∀ (grid ars : List (Fin n → F)) (sg : List F), raceAll best grid ars = .ok sg →
    sg.length = ars.length ∧ ∀ (j : Nat) v, sg[j]? = some v → ∃ (grow arow : Fin n → F) (r : Fin n), grid[j]? = some grow ∧ ars[j]? = some arow ∧ v = grow r ∧
      argmin (errRow best arow) = .ok r.val := by
  intro grid
  induction grid with
  | nil =>
    intro ars sg h
    cases ars with
    | nil => cases h; exact ⟨rfl, fun j v hj => by simp at hj⟩
    | cons a l => cases h
  | cons g grid ih =>
    intro ars sg h
    cases ars with
    | nil => cases h
    | cons a l =>
      simp only [raceAll, exc_bind, Except.ok.injEq] at h
      obtain ⟨k, hk, r, hr, rest, hrest, rfl⟩ := h
      obtain ⟨e1, e2⟩ := ih l rest hrest
      refine ⟨by simp [e1], fun j v hj => ?_⟩
      cases j with
      | zero =>
        cases hj
        refine ⟨g, a, r, rfl, rfl, rfl, ?_⟩
        have := toIdx_val hr
        rw [hk]
        congr 1
        omega
      | succ j => exact e2 j v hj

/-- **C32, C37.** Tuning a chain: there is a table of measured acceptance rates, one for each parameter `j` and rank `r`, of the
current chain run with the `r`-th grid value as width of parameter `j`. If one of the rates is closer to `ar_best` than
`ar_accept_diff`, one width is replaced by a grid value whose rate is that close and all others stay. Otherwise all widths become
the initial widths, or each becomes a grid value of its own parameter whose rate is as close to `ar_best` as any of that parameter. -/
theorem tuned_widths {S : F → Prop} (ho : OrderOn S) {cfg : Cfg F} (hu : cfg.user.Wf cfg.nParm) (ht : 1 ≤ cfg.nIterInTune)
    (hp : 1 ≤ cfg.nParm) {root rk : Fin n} {w w' : W n F} (h : seqTuneRank cfg root rk w = .ok w') (hok : w.st.Ok cfg)
    (hS : ∀ k : Int, S (Arith.fabs (ofI k /. ofI cfg.nIterInTune -. cfg.arBest))) (hd : S cfg.arAcceptDiff) :
    ∃ grid ars : List (Fin n → F), grid.length = cfg.nParm ∧ ars.length = cfg.nParm ∧
      (∀ j, j < cfg.nParm → ∃ v lo hi, (w.st.sig rk)[j]? = some v ∧ cfg.sigmaMin[j]? = some lo ∧ cfg.sigmaMax[j]? = some hi ∧
        grid[j]? = some (fun r => gridRow cfg.halfRatio lo hi cfg.jumpin v n r.val)) ∧
      (∀ (j : Nat) row, ars[j]? = some row → ∀ r, TrialRate cfg w.st rk grid j r (row r)) ∧
      ((∃ row ∈ ars, ∃ r, (Arith.fabs (row r -. cfg.arBest) <. cfg.arAcceptDiff) = true) →
        ∃ (j : Nat) (grow arow : Fin n → F) (r : Fin n), grid[j]? = some grow ∧ ars[j]? = some arow ∧
          (Arith.fabs (arow r -. cfg.arBest) <. cfg.arAcceptDiff) = true ∧ w'.st.sig rk = (w.st.sig rk).set j (grow r)) ∧
      ((∀ row ∈ ars, ∀ r, (Arith.fabs (row r -. cfg.arBest) <. cfg.arAcceptDiff) = false) →
        w'.st.sig rk = cfg.user.initGp cfg.initGpRatio ∨
        ((w'.st.sig rk).length = cfg.nParm ∧ ∀ (j : Nat) v, (w'.st.sig rk)[j]? = some v → ∃ (grow arow : Fin n → F) (r : Fin n), grid[j]? = some grow ∧ ars[j]? = some arow ∧ v = grow r ∧
          ∀ r', (Arith.fabs (arow r' -. cfg.arBest) <. Arith.fabs (arow r -. cfg.arBest)) = false)) := by
  have hn : 0 < n := Nat.lt_of_le_of_lt (Nat.zero_le _) rk.isLt
  simp only [seqTuneRank, exc_bind, Except.ok.injEq] at h
  obtain ⟨grid, hgrid, ⟨st1, ars⟩, h1, d, hdec, sg, hsg, rfl⟩ := h
  have hf := seqTuneParms_frame cfg rk grid _ _ _ _ _ _ h1
  have hgl := genAllTune_length cfg _ _ _ _ hgrid
  obtain ⟨hal, hrates⟩ := rates_measured hu ht rk grid cfg.nParm 0 w.st st1 [] ars h1 rfl hok (by simp)
  rw [Nat.zero_add] at hal
  have hsig : st1.sig rk = w.st.sig rk := by rw [hf]
  have hS' : ∀ row ∈ ars, ∀ r, S (Arith.fabs (row r -. cfg.arBest)) := by
    intro row hr r
    obtain ⟨i, hi⟩ := List.mem_iff_getElem?.1 hr
    obtain ⟨_, g, _, e⟩ := hrates i row hi r
    rw [e]; exact hS _
  have hne : ars ≠ [] := by intro h; rw [h] at hal; simp at hal; omega
  obtain ⟨ch, g', hdec', hyes, hno⟩ := decide_acceptable ho cfg ars hn hne hS' hd (st1.g root)
  simp only at hdec hsg
  rw [hdec'] at hdec
  cases hdec
  simp only [hsig] at hsg
  have hget := genAllTune_get cfg (w.st.sig rk) cfg.nParm 0 grid hgrid
  simp only [Nat.zero_add] at hget
  refine ⟨grid, ars, hgl, hal, hget, hrates, fun hex => ?_, fun hall => ?_⟩
  · obtain ⟨i, row, r, rfl, hi, hacc⟩ := hyes hex
    simp only [modifySigma] at hsg
    rw [if_pos (by omega)] at hsg
    simp only [exc_bind, Except.ok.injEq] at hsg
    obtain ⟨grow, hg, j, hj, _, _, rfl⟩ := hsg
    have hjr : j = r := by
      have := toIdx_val hj
      exact Fin.ext (by omega)
    subst hjr
    refine ⟨i, grow, row, j, rd_eq_ok hg, hi, hacc, ?_⟩
    simp [W.push]
  · rcases hno hall with rfl | rfl
    · left
      cases hsg
      simp [W.push]
    · right
      have hsg' : raceAll cfg.arBest grid ars = .ok sg := hsg
      obtain ⟨hl, hr⟩ := raceAll_get cfg.arBest grid ars sg hsg'
      simp only [W.push, Function.update_self]
      refine ⟨by omega, fun j v hj => ?_⟩
      obtain ⟨grow, arow, r, e1, e2, e3, e4⟩ := hr j v hj
      refine ⟨grow, arow, r, e1, e2, e3, fun r' => ?_⟩
      have herr : ∀ (k : Fin n), (errRow cfg.arBest arow)[k.val]? = some (Arith.fabs (arow k -. cfg.arBest)) := by
        intro k
        simp only [errRow, List.getElem?_ofFn, k.isLt, dif_pos]
      obtain ⟨i, v', f1, f2, f3, _⟩ := argmin_first ho (errRow cfg.arBest arow) (by
        intro h; have := errRow_length cfg.arBest arow; rw [h] at this; simp at this; omega) (by
        intro v hv
        simp only [errRow, List.mem_ofFn] at hv
        obtain ⟨k, rfl⟩ := hv
        exact hS' arow (List.mem_of_getElem? e2) k)
      rw [e4] at f1
      cases f1
      rw [herr r] at f2
      cases f2
      exact f3 r'.val _ (herr r')

/-- **C32.** After tuning a chain each of its widths is the width it had before, or one of the `n` grid values tried for that parameter,
or the initial width of that parameter. No assumption on the arithmetic. -/
theorem tuned_width_origin {cfg : Cfg F} {root rk : Fin n} {w w' : W n F} (h : seqTuneRank cfg root rk w = .ok w')
    (hok : w.st.Ok cfg) (j : Nat) (hj : j < cfg.nParm) (v : F) (hv : (w'.st.sig rk)[j]? = some v) :
    (w.st.sig rk)[j]? = some v ∨
    (∃ (r : Fin n) (v0 lo hi : F), (w.st.sig rk)[j]? = some v0 ∧ cfg.sigmaMin[j]? = some lo ∧ cfg.sigmaMax[j]? = some hi ∧
      v = gridRow cfg.halfRatio lo hi cfg.jumpin v0 n r.val) ∨
    (cfg.user.initGp cfg.initGpRatio)[j]? = some v := by
  simp only [seqTuneRank, exc_bind, Except.ok.injEq] at h
  obtain ⟨grid, hgrid, ⟨st1, ars⟩, h1, d, hdec, sg, hsg, rfl⟩ := h
  have hf := seqTuneParms_frame cfg rk grid _ _ _ _ _ _ h1
  have hsig : st1.sig rk = w.st.sig rk := by rw [hf]
  simp only [hsig] at hsg
  simp only [W.push, Function.update_self] at hv
  obtain ⟨v0, lo, hi, g1, g2, g3, g4⟩ := genAllTune_get cfg (w.st.sig rk) cfg.nParm 0 grid hgrid j hj
  rw [Nat.zero_add] at g1 g2 g3
  unfold modifySigma at hsg
  split at hsg
  · simp only [exc_bind, Except.ok.injEq] at hsg
    obtain ⟨row, hrow, r, _, _, _, rfl⟩ := hsg
    by_cases he : d.1.1.toNat = j
    · subst he
      rw [List.getElem?_set_self (by rw [hok.sig rk]; exact hj)] at hv
      cases hv
      have := rd_eq_ok hrow
      rw [g4] at this
      cases this
      exact .inr (.inl ⟨r, v0, lo, hi, g1, g2, g3, rfl⟩)
    · rw [List.getElem?_set_ne he] at hv
      exact .inl hv
  · split at hsg
    · cases hsg; exact .inr (.inr hv)
    · obtain ⟨grow, arow, r, e1, _, e3, _⟩ := (raceAll_get cfg.arBest grid ars sg hsg).2 j v hv
      rw [g4] at e1
      cases e1
      exact .inr (.inl ⟨r, v0, lo, hi, g1, g2, g3, e3⟩)

end

/-- Two parameters, three ranks, rates of which one is acceptable for the demo (0.23 ± 0.1): the decision is that cell, whatever the draw. -/
example (g : Rng) : ∃ g', decideSigma (n := 3) demoCfg [![1 / 2, 6 / 10, 7 / 10], ![9 / 10, 3 / 10, 0]] g = .ok ((1, 1), g') := by
  obtain ⟨ch, g', h, hy, _⟩ := decide_acceptable orderOn_real demoCfg (n := 3) [![1 / 2, 6 / 10, 7 / 10], ![9 / 10, 3 / 10, 0]] (by norm_num) (by simp)
    (fun _ _ _ => trivial) trivial g
  obtain ⟨i, row, r, rfl, hi, hr⟩ := hy ⟨![9 / 10, 3 / 10, 0], by simp, 1, by
    simp only [RealArith.lt_iff, RealArith.fabs_eq, RealArith.sub_eq, demoCfg]; norm_num [abs_lt]⟩
  simp only [RealArith.lt_iff, RealArith.fabs_eq, RealArith.sub_eq, demoCfg, abs_lt] at hr
  match i with
  | 0 =>
    cases hi
    fin_cases r <;> norm_num at hr
  | 1 =>
    cases hi
    fin_cases r <;> norm_num at hr
    exact ⟨g', h⟩
  | i + 2 => simp at hi

/-- The hypotheses of `tuned_widths` and `tuned_width_origin` are met at the start of the demo. -/
example : ∃ w w' : W 3 ℝ, seqInit demoCfg demoFile 7 (0 : Fin 3) = .ok w ∧ seqTuneRank demoCfg 0 1 w = .ok w' ∧ ∃ grid ars : List (Fin 3 → ℝ),
    grid.length = 2 ∧ ars.length = 2 ∧ ∀ (j : Nat) row, ars[j]? = some row → ∀ r, TrialRate demoCfg w.st 1 grid j r (row r) := by
  obtain ⟨w, hw, hok⟩ := seqInit_total demoCfg demoFile demo_valid.toRunnable 7 (0 : Fin 3)
  obtain ⟨w', hw'⟩ := seqTuneRank_total demoCfg demoFile demo_valid.toRunnable 0 1 w hok
  obtain ⟨grid, ars, h1, h2, -, h4, -⟩ := tuned_widths orderOn_real demo_valid.user (by simp [demoCfg]) (by simp [demoCfg]) hw' hok (fun _ => trivial) trivial
  exact ⟨w, w', hw, hw', grid, ars, h1, h2, h4⟩

/-- When the spread of the second row is the largest and one of its rates is acceptable, so is the best of all. -/
example (c1 : ℝ × Nat) (c2 : ℝ × Nat × Nat) (h1 : closestOne (n := 3) (23 / 100) ![9 / 10, 3 / 10, 0] = .ok c1)
    (h2 : closestAll (n := 3) (23 / 100) [![1 / 2, 6 / 10, 7 / 10], ![9 / 10, 3 / 10, 0]] = .ok c2) (h : (c1.1 <. (1 / 10 : ℝ)) = true) :
    (c2.1 <. (1 / 10 : ℝ)) = true :=
  decide_dead_branch orderOn_real (23 / 100) (1 / 10) [![1 / 2, 6 / 10, 7 / 10], ![9 / 10, 3 / 10, 0]] (by decide) (fun _ _ _ => trivial) trivial _ (by simp)
    c1 c2 h1 h2 h

end NiiC
