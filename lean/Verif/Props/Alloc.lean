import Verif.Model.Alloc
import Verif.Spec.Store
import Verif.Refine.Stack
import Mathlib.Tactic.Positivity

/-!
# C53: tables do not alias
-/

set_option linter.unusedSectionVars false
set_option linter.unusedSimpArgs false

namespace NiiC
open Spec

section
variable {V : Type}

theorem block_ok {h : Heap V} {b : Nat} {l : List (MCell V)} (e : h[b]? = some (some l)) : h.block b = .ok l := by
  simp only [Heap.block, e]

theorem shift_ok {h : Heap V} {p : Ptr} {l : List (MCell V)} (k : Int) (m : Nat) (e : h[p.blk]? = some (some l)) (hm : (p.off : Int) + k = m)
    (hle : m ≤ l.length) : h.shift p k = .ok ⟨p.blk, m⟩ := by
  have h1 : 0 ≤ (p.off : Int) + k ∧ (p.off : Int) + k ≤ l.length := by omega
  simp only [Heap.shift, block_ok e, bind, Except.bind, if_pos h1]
  rw [hm]
  rfl

theorem load_ok {h : Heap V} {p : Ptr} {l : List (MCell V)} {c : MCell V} (e : h[p.blk]? = some (some l)) (hc : l[p.off]? = some c) : h.load p = .ok c := by
  simp only [Heap.load, block_ok e, bind, Except.bind, hc]

theorem loadPtr_ok {h : Heap V} {p q : Ptr} {l : List (MCell V)} (e : h[p.blk]? = some (some l)) (hc : l[p.off]? = some (.ptr q)) : h.loadPtr p = .ok q := by
  simp only [Heap.loadPtr, load_ok e hc, bind, Except.bind]

theorem store_ok {h : Heap V} {p : Ptr} {l : List (MCell V)} (c : MCell V) (e : h[p.blk]? = some (some l)) (hlt : p.off < l.length) :
    h.store p c = .ok (h.set p.blk (some (l.set p.off c))) := by
  simp only [Heap.store, block_ok e, bind, Except.bind, if_pos hlt]

/-- A pointer table of `n` rows of which the first `j` are linked. -/
def rowsUpto (d step j n : Nat) : List (MCell V) := (List.range n).map fun i => if i < j then .ptr ⟨d, i * step⟩ else .undef

theorem rowsUpto_length (d step j n : Nat) : (rowsUpto (V := V) d step j n).length = n := by simp [rowsUpto]

theorem rowsUpto_get (d step j n i : Nat) (hi : i < n) :
    (rowsUpto (V := V) d step j n)[i]? = some (if i < j then .ptr ⟨d, i * step⟩ else .undef) := by
  simp [rowsUpto, List.getElem?_map, hi]

theorem rowsUpto_set (d step j n : Nat) (hj : j < n) : (rowsUpto (V := V) d step j n).set j (.ptr ⟨d, j * step⟩) = rowsUpto d step (j + 1) n := by
  apply List.ext_getElem?
  intro i
  by_cases hi : i < n
  · rw [List.getElem?_set, rowsUpto_get _ _ _ _ _ hi, rowsUpto_get _ _ _ _ _ hi, rowsUpto_length]
    by_cases hij : j = i
    · subst hij
      simp [hj]
    · rw [if_neg hij]
      have : i < j ↔ i < j + 1 := by omega
      simp only [this]
  · rw [List.getElem?_eq_none (by rw [List.length_set, rowsUpto_length]; omega), List.getElem?_eq_none (by rw [rowsUpto_length]; omega)]

theorem linkRows_eq (tb d step n : Nat) (D : List (MCell V)) (hne : tb ≠ d) : ∀ (k j : Nat) (h : Heap V), 1 ≤ j → j + k = n →
    h[tb]? = some (some (rowsUpto d step j n)) → h[d]? = some (some D) → (n - 1) * step ≤ D.length →
    linkRows ⟨tb, 0⟩ (step : Int) k j h = .ok (h.set tb (some (rowsUpto d step n n))) := by
  intro k
  induction k with
  | zero =>
    intro j h _ hjn ht _ _
    have : j = n := by omega
    subst this
    rw [linkRows]
    congr 1
    apply List.ext_getElem?
    intro i
    rw [List.getElem?_set]
    by_cases hi : tb = i
    · subst hi
      rw [ht]
      simp [(List.getElem?_eq_some_iff.1 ht).1]
    · rw [if_neg hi]
  | succ k ih =>
    intro j h hj hjn ht hd hD
    have hj1 : (j - 1) * step + step = j * step := by
      obtain ⟨j', rfl⟩ : ∃ j', j = j' + 1 := ⟨j - 1, by omega⟩
      simp [Nat.succ_mul]
    have hle : j * step ≤ D.length := le_trans (Nat.mul_le_mul_right _ (by omega)) hD
    have e1 : h.shift ⟨tb, 0⟩ ((j : Int) - 1) = .ok ⟨tb, j - 1⟩ := shift_ok _ _ ht (by simp; omega) (by rw [rowsUpto_length]; omega)
    have e2 : h.loadPtr ⟨tb, j - 1⟩ = .ok ⟨d, (j - 1) * step⟩ := by
      refine loadPtr_ok ht ?_
      rw [rowsUpto_get _ _ _ _ _ (by show j - 1 < n; omega), if_pos (by show j - 1 < j; omega)]
    have e3 : h.shift ⟨d, (j - 1) * step⟩ step = .ok ⟨d, j * step⟩ := shift_ok _ _ hd (by simp only []; exact_mod_cast hj1) hle
    have e4 : h.shift ⟨tb, 0⟩ (j : Int) = .ok ⟨tb, j⟩ := shift_ok _ _ ht (by simp) (by rw [rowsUpto_length]; omega)
    have e5 : h.store ⟨tb, j⟩ (.ptr ⟨d, j * step⟩) = .ok (h.set tb (some (rowsUpto d step (j + 1) n))) := by
      rw [store_ok _ ht (by rw [rowsUpto_length]; show j < n; omega)]
      simp only [rowsUpto_set d step j n (by omega)]
    simp only [linkRows, e1, e2, e3, e4, e5, bind, Except.bind]
    rw [ih (j + 1) _ (by omega) (by omega) ?_ ?_ hD]
    · simp
    · rw [List.getElem?_set, if_pos rfl, if_pos (List.getElem?_eq_some_iff.1 ht).1]
    · rw [List.getElem?_set, if_neg hne, hd]

theorem malloc_eq (grant : Nat → Bool) (h : Heap V) (size n : Nat) (hs : 0 < size) (hn : size * n < 2 ^ 64) (hg : grant (size * n) = true) :
    h.malloc grant size (n : Int) = .ok (⟨h.length, 0⟩, h ++ [some (List.replicate n .undef)]) := by
  have e : (((size : Int) * n) % 2 ^ 64).toNat = size * n := by
    rw [Int.emod_eq_of_lt (by positivity) (by exact_mod_cast hn)]
    exact_mod_cast Int.toNat_natCast (size * n)
  simp only [Heap.malloc, e, hg, if_true, Nat.mul_div_cancel_left n hs]

theorem makeRows_eq (tb d step n : Nat) (D : List (MCell V)) (hne : tb ≠ d) (h : Heap V) (hn : 1 ≤ n)
    (ht : h[tb]? = some (some (List.replicate n .undef))) (hd : h[d]? = some (some D)) (hD : (n - 1) * step ≤ D.length) :
    makeRows ⟨tb, 0⟩ ⟨d, 0⟩ (n : Int) (step : Int) h = .ok (h.set tb (some (rowsUpto d step n n))) := by
  have e0 : (List.replicate n (MCell.undef : MCell V)).set 0 (.ptr ⟨d, 0⟩) = rowsUpto d step 1 n := by
    have h0 : List.replicate n (MCell.undef : MCell V) = rowsUpto d step 0 n := by
      apply List.ext_getElem?
      intro i
      by_cases hi : i < n
      · rw [rowsUpto_get _ _ _ _ _ hi]; simp [hi]
      · rw [List.getElem?_eq_none (by simp; omega), List.getElem?_eq_none (by rw [rowsUpto_length]; omega)]
    rw [h0]
    have := rowsUpto_set (V := V) d step 0 n (by omega)
    rwa [Nat.zero_mul] at this
  have e1 : h.store ⟨tb, 0⟩ (.ptr ⟨d, 0⟩) = .ok (h.set tb (some (rowsUpto d step 1 n))) := by
    rw [store_ok _ ht (by simp; omega), e0]
  simp only [makeRows, e1, bind, Except.bind]
  rw [linkRows_eq tb d step n D hne _ 1 _ le_rfl (by omega) ?_ ?_ hD]
  · simp
  · rw [List.getElem?_set, if_pos rfl, if_pos (List.getElem?_eq_some_iff.1 ht).1]
  · rw [List.getElem?_set, if_neg hne, hd]

/-- What `alloc_2d` leaves behind. -/
theorem alloc2d_eq (grant : Nat → Bool) (size n1 n2 : Nat) (h : Heap V) (h1 : 1 ≤ n1) (hs : 0 < size) (hw : 8 * n1 < 2 ^ 64) (hw' : size * (n1 * n2) < 2 ^ 64)
    (hg : grant (8 * n1) = true) (hg' : grant (size * (n1 * n2)) = true) :
    alloc2d grant size n1 n2 h = .ok (⟨h.length, 0⟩, h ++ [some (rowsUpto (h.length + 1) n2 n1 n1)] ++ [some (List.replicate (n1 * n2) .undef)]) := by
  have e1 := malloc_eq grant h 8 n1 (by decide) hw hg
  have e2 := malloc_eq grant (h ++ [some (List.replicate n1 MCell.undef)]) size (n1 * n2) hs hw' hg'
  push_cast at e2
  simp only [List.length_append, List.length_cons, List.length_nil, Nat.zero_add] at e2
  have e3 := makeRows_eq (V := V) h.length (h.length + 1) n2 n1 (List.replicate (n1 * n2) .undef) (by omega)
    (h ++ [some (List.replicate n1 MCell.undef)] ++ [some (List.replicate (n1 * n2) (MCell.undef : MCell V))]) h1
    (by simp [List.getElem?_append]) (by simp [List.getElem?_append]) (by simp; exact Nat.mul_le_mul_right _ (by omega))
  simp only [alloc2d, e1, e2, e3, bind, Except.bind]
  simp [List.set_append]

/-- What `alloc_3d` leaves behind. -/
theorem alloc3d_eq (grant : Nat → Bool) (size n1 n2 n3 : Nat) (h : Heap V) (h1 : 1 ≤ n1) (h2 : 1 ≤ n2) (hs : 0 < size) (hi : n1 * n2 < 2 ^ 31)
    (hw : size * (n1 * n2 * n3) < 2 ^ 64) (hg : grant (8 * n1) = true) (hg' : grant (8 * (n1 * n2)) = true) (hg'' : grant (size * (n1 * n2 * n3)) = true) :
    alloc3d grant size n1 n2 n3 h = .ok (⟨h.length, 0⟩, h ++ [some (rowsUpto (h.length + 1) n2 n1 n1)] ++
      [some (rowsUpto (h.length + 2) n3 (n1 * n2) (n1 * n2))] ++ [some (List.replicate (n1 * n2 * n3) .undef)]) := by
  have hn : n1 ≤ n1 * n2 := Nat.le_mul_of_pos_right _ h2
  have e1 := malloc_eq grant h 8 n1 (by decide) (by omega) hg
  have e2 := malloc_eq grant (h ++ [some (List.replicate n1 MCell.undef)]) 8 (n1 * n2) (by decide) (by omega) hg'
  push_cast at e2
  simp only [List.length_append, List.length_cons, List.length_nil, Nat.zero_add] at e2
  have e3 := makeRows_eq (V := V) h.length (h.length + 1) n2 n1 (List.replicate (n1 * n2) .undef) (by omega)
    (h ++ [some (List.replicate n1 MCell.undef)] ++ [some (List.replicate (n1 * n2) (MCell.undef : MCell V))]) h1
    (by simp [List.getElem?_append]) (by simp [List.getElem?_append]) (by simp; exact Nat.mul_le_mul_right _ (by omega))
  have e3' : ((h ++ [some (List.replicate n1 MCell.undef)] ++ [some (List.replicate (n1 * n2) (MCell.undef : MCell V))]).set h.length
      (some (rowsUpto (h.length + 1) n2 n1 n1)) : Heap V) = h ++ [some (rowsUpto (h.length + 1) n2 n1 n1)] ++ [some (List.replicate (n1 * n2) (MCell.undef : MCell V))] := by
    simp [List.set_append]
  rw [e3'] at e3
  have e4 := malloc_eq grant (h ++ [some (rowsUpto (h.length + 1) n2 n1 n1)] ++ [some (List.replicate (n1 * n2) (MCell.undef : MCell V))]) size (n1 * n2 * n3)
    hs hw hg''
  push_cast at e4
  simp only [List.length_append, List.length_cons, List.length_nil, Nat.zero_add] at e4
  have e5 := makeRows_eq (V := V) (h.length + 1) (h.length + 2) n3 (n1 * n2) (List.replicate (n1 * n2 * n3) .undef) (by omega)
    (h ++ [some (rowsUpto (h.length + 1) n2 n1 n1)] ++ [some (List.replicate (n1 * n2) (MCell.undef : MCell V))] ++
      [some (List.replicate (n1 * n2 * n3) .undef)]) (by omega)
    (by simp [List.getElem?_append]) (by simp [List.getElem?_append]) (by simp; exact Nat.mul_le_mul_right _ (by omega))
  simp only [makeRows, exc_bind, Nat.cast_mul] at e5
  obtain ⟨h5, e5a, e5b⟩ := e5
  have hno : ¬ ((2 : Int) ^ 31 ≤ (n1 : Int) * n2 ∨ (n1 : Int) * n2 < -2 ^ 31) := by
    have : ((n1 * n2 : Nat) : Int) < 2 ^ 31 := by exact_mod_cast hi
    push_cast at this
    have h0 : (0 : Int) ≤ (n1 : Int) * n2 := by positivity
    omega
  simp only [alloc3d, e1, e2, e3, e4, e5a, e5b, if_neg hno, bind, Except.bind]
  simp [List.set_append]

/-- Writing under an index. -/
def putAt (at' : Heap V → Except Fault Ptr) (v : V) (h : Heap V) : Except Fault (Heap V) := do
  let p ← at' h
  h.store p (.val v)
/-- Reading under an index: `none` for a cell that has not been written. -/
def getAt (at' : Heap V → Except Fault Ptr) (h : Heap V) : Except Fault (Option V) := do
  let p ← at' h
  match ← h.load p with
  | .val v => .ok (some v)
  | .undef => .ok none
  | .ptr _ => .error .uninit

/-- Writing several values in order. -/
def putAll {κ : Type} (at' : κ → Heap V → Except Fault Ptr) : List (κ × V) → Heap V → Except Fault (Heap V)
  | [], h => .ok h
  | (k, v) :: ws, h => do
    let h ← putAt (at' k) v h
    putAll at' ws h

/-- A table whose index calculation does not look at the data block is a store. -/
theorem store_table {κ : Type} [DecidableEq κ] (at' : κ → Heap V → Except Fault Ptr) (pre : Heap V) (N : Nat) (addr : κ → Nat)
    (hinj : ∀ k k', addr k = addr k' → k = k') (hlt : ∀ k, addr k < N)
    (hat : ∀ k (D : List (MCell V)), D.length = N → at' k (pre ++ [some D]) = .ok ⟨pre.length, addr k⟩) :
    ∀ (ws : List (κ × V)) (D : List (MCell V)), D.length = N →
      ∃ D', D'.length = N ∧ putAll at' ws (pre ++ [some D]) = .ok (pre ++ [some D']) ∧
        ∀ k, D'[addr k]? = match lastWritten ws k with | some v => some (.val v) | none => D[addr k]? := by
  intro ws
  induction ws with
  | nil => intro D hD; exact ⟨D, hD, rfl, fun k => rfl⟩
  | cons w ws ih =>
    intro D hD
    obtain ⟨k0, v⟩ := w
    have hget : (pre ++ [some D])[pre.length]? = some (some D) := by simp
    have e1 : putAt (at' k0) v (pre ++ [some D]) = .ok (pre ++ [some (D.set (addr k0) (.val v))]) := by
      simp only [putAt, hat k0 D hD, bind, Except.bind]
      rw [store_ok (l := D) _ (by simp) (by rw [hD]; exact hlt k0)]
      simp [List.set_append]
    obtain ⟨D', h1, h2, h3⟩ := ih (D.set (addr k0) (.val v)) (by simpa using hD)
    refine ⟨D', h1, ?_, ?_⟩
    · simp only [putAll, e1, bind, Except.bind, h2]
    · intro k
      rw [h3 k]
      simp only [lastWritten]
      cases hl : lastWritten ws k with
      | some v' => rfl
      | none =>
        simp only []
        by_cases hk : k = k0
        · subst hk
          rw [if_pos rfl, List.getElem?_set, if_pos rfl, if_pos (by rw [hD]; exact hlt k)]
        · rw [if_neg hk, List.getElem?_set, if_neg (fun e => hk (hinj _ _ e.symm))]

theorem getAt_eq {κ : Type} (at' : κ → Heap V → Except Fault Ptr) (pre : Heap V) (D : List (MCell V)) (k : κ) (a : Nat) (o : Option V)
    (hat : at' k (pre ++ [some D]) = .ok ⟨pre.length, a⟩) (hD : D[a]? = match o with | some v => some (.val v) | none => some .undef) :
    getAt (at' k) (pre ++ [some D]) = .ok o := by
  have hb : (pre ++ [some D])[pre.length]? = some (some D) := by simp
  cases o with
  | none => simp only [getAt, hat, bind, Except.bind, load_ok (p := ⟨pre.length, a⟩) hb hD]
  | some v => simp only [getAt, hat, bind, Except.bind, load_ok (p := ⟨pre.length, a⟩) hb hD]

theorem index2_lt {n1 n2 : Nat} (i : Fin n1) (j : Fin n2) : i.val * n2 + j.val < n1 * n2 := by
  have : (i.val + 1) * n2 ≤ n1 * n2 := Nat.mul_le_mul_right _ i.2
  rw [Nat.succ_mul] at this
  have := j.2
  omega

theorem index2_inj {n1 n2 : Nat} (i i' : Fin n1) (j j' : Fin n2) (h : i.val * n2 + j.val = i'.val * n2 + j'.val) : i = i' ∧ j = j' := by
  have h1 : (j.val + n2 * i.val) / n2 = i.val := by rw [Nat.add_mul_div_left _ _ (lt_of_le_of_lt (Nat.zero_le _) j.2), Nat.div_eq_of_lt j.2, Nat.zero_add]
  have h2 : (j'.val + n2 * i'.val) / n2 = i'.val := by rw [Nat.add_mul_div_left _ _ (lt_of_le_of_lt (Nat.zero_le _) j.2), Nat.div_eq_of_lt j'.2, Nat.zero_add]
  have h3 : i.val = i'.val := by rw [← h1, ← h2]; congr 1; rw [Nat.mul_comm n2, Nat.mul_comm n2]; omega
  refine ⟨Fin.ext h3, Fin.ext ?_⟩
  rw [h3] at h
  omega

/-- `&t[i][j]` in a table of two dimensions. -/
theorem at2_eq (h : Heap V) (n1 n2 : Nat) (i : Fin n1) (j : Fin n2) (D : List (MCell V)) (hD : D.length = n1 * n2) (tail : Heap V) :
    at2 ⟨h.length, 0⟩ i.val j.val (h ++ [some (rowsUpto (h.length + 1) n2 n1 n1)] ++ [some D] ++ tail) = .ok ⟨h.length + 1, i.val * n2 + j.val⟩ := by
  have hb : (h ++ [some (rowsUpto (h.length + 1) n2 n1 n1)] ++ [some D] ++ tail)[h.length]? = some (some (rowsUpto (h.length + 1) n2 n1 n1)) := by simp
  have hd : (h ++ [some (rowsUpto (h.length + 1) n2 n1 n1)] ++ [some D] ++ tail)[h.length + 1]? = some (some D) := by simp [List.getElem?_append]
  have e1 := shift_ok (p := ⟨h.length, 0⟩) (i.val : Int) i.val hb (by simp) (by rw [rowsUpto_length]; exact i.2.le)
  have e2 := loadPtr_ok (p := ⟨h.length, i.val⟩) (q := ⟨h.length + 1, i.val * n2⟩) hb (by rw [rowsUpto_get _ _ _ _ _ i.2, if_pos i.2])
  have e3 := shift_ok (p := ⟨h.length + 1, i.val * n2⟩) (j.val : Int) (i.val * n2 + j.val) hd (by simp) (by rw [hD]; exact (index2_lt i j).le)
  simp only [at2, at1, e1, e2, e3, bind, Except.bind]

/-- **C53.** `alloc_2d_int` and `alloc_2d_double`: if the byte counts do not wrap around and the requests are granted, the call succeeds and leaves all older blocks
alone; the table is then a store indexed by pairs — after any sequence of writes, an entry holds what was last written under this pair of indices, so that different
pairs are different cells, and the older blocks are still as they were; the cells of row `i` are consecutive, row `i+1` begins behind row `i`; and freeing the table
gives back everything. -/
theorem alloc2d_store (grant : Nat → Bool) (size n1 n2 : Nat) (h : Heap V) (h1 : 1 ≤ n1) (hs : 0 < size) (hw : 8 * n1 < 2 ^ 64)
    (hw' : size * (n1 * n2) < 2 ^ 64) (hg : grant (8 * n1) = true) (hg' : grant (size * (n1 * n2)) = true) :
    ∃ t h' b, alloc2d grant size n1 n2 h = .ok (t, h') ∧ h <+: h' ∧
      ∀ ws : List ((Fin n1 × Fin n2) × V), ∃ h'', putAll (fun k => at2 t k.1.val k.2.val) ws h' = .ok h'' ∧ h <+: h'' ∧
        (∀ i j, getAt (at2 t (i : Fin n1).val (j : Fin n2).val) h'' = .ok (lastWritten ws (i, j))) ∧
        (∀ i j, at2 t (i : Fin n1).val (j : Fin n2).val h'' = .ok ⟨b, i.val * n2 + j.val⟩) ∧
        free2d t h'' = .ok (h ++ [none, none]) := by
  refine ⟨_, _, h.length + 1, alloc2d_eq grant size n1 n2 h h1 hs hw hw' hg hg', by simp, fun ws => ?_⟩
  obtain ⟨D', hD', hp, hv⟩ := store_table (κ := Fin n1 × Fin n2) (fun k => at2 ⟨h.length, 0⟩ k.1.val k.2.val)
    (h ++ [some (rowsUpto (h.length + 1) n2 n1 n1)]) (n1 * n2) (fun k => k.1.val * n2 + k.2.val)
    (fun k k' e => Prod.ext (index2_inj _ _ _ _ e).1 (index2_inj _ _ _ _ e).2) (fun k => index2_lt k.1 k.2)
    (fun k D hD => by simpa using at2_eq h n1 n2 k.1 k.2 D hD []) ws (List.replicate (n1 * n2) .undef) (by simp)
  have hat : ∀ (i : Fin n1) (j : Fin n2), at2 ⟨h.length, 0⟩ i.val j.val (h ++ [some (rowsUpto (h.length + 1) n2 n1 n1)] ++ [some D']) =
      .ok ⟨h.length + 1, i.val * n2 + j.val⟩ := fun i j => by simpa using at2_eq h n1 n2 i j D' hD' []
  refine ⟨_, hp, by simp, fun i j => ?_, hat, ?_⟩
  · refine getAt_eq (κ := Fin n1 × Fin n2) (fun k => at2 ⟨h.length, 0⟩ k.1.val k.2.val) _ D' (i, j) (i.val * n2 + j.val) _ (by simpa using hat i j) ?_
    rw [hv (i, j)]
    cases lastWritten ws (i, j) with
    | some v => rfl
    | none => simp [index2_lt i j]
  · have hb : (h ++ [some (rowsUpto (h.length + 1) n2 n1 n1)] ++ [some D'])[h.length]? = some (some (rowsUpto (h.length + 1) n2 n1 n1)) := by simp
    have e2 := loadPtr_ok (p := ⟨h.length, 0⟩) (q := ⟨h.length + 1, 0⟩) hb (by rw [rowsUpto_get _ _ _ _ _ h1, if_pos (show 0 < n1 from h1)]; simp)
    have e3 : Heap.free (h ++ [some (rowsUpto (h.length + 1) n2 n1 n1)] ++ [some D']) ⟨h.length + 1, 0⟩ =
        .ok (h ++ [some (rowsUpto (h.length + 1) n2 n1 n1)] ++ [none]) := by
      simp only [Heap.free, bind, Except.bind, if_true]
      rw [block_ok (l := D') (by simp [List.getElem?_append])]
      simp [List.set_append]
    have e4 : Heap.free (h ++ [some (rowsUpto (h.length + 1) n2 n1 n1)] ++ [none]) ⟨h.length, 0⟩ = .ok (h ++ [none, none]) := by
      simp only [Heap.free, bind, Except.bind, if_true]
      rw [block_ok (l := rowsUpto (h.length + 1) n2 n1 n1) (by simp [List.getElem?_append])]
      simp [List.set_append]
    simp only [free2d, e2, e3, e4, bind, Except.bind]

/-- `&t[i][j][k]` in a table of three dimensions. -/
theorem at3_eq (h : Heap V) (n1 n2 n3 : Nat) (i : Fin n1) (j : Fin n2) (k : Fin n3) (D : List (MCell V)) (hD : D.length = n1 * n2 * n3) :
    at3 ⟨h.length, 0⟩ i.val j.val k.val (h ++ [some (rowsUpto (h.length + 1) n2 n1 n1)] ++ [some (rowsUpto (h.length + 2) n3 (n1 * n2) (n1 * n2))] ++ [some D]) =
      .ok ⟨h.length + 2, (i.val * n2 + j.val) * n3 + k.val⟩ := by
  have e1 := at2_eq h n1 n2 i j (rowsUpto (V := V) (h.length + 2) n3 (n1 * n2) (n1 * n2)) (rowsUpto_length _ _ _ _) [some D]
  have hb : (h ++ [some (rowsUpto (h.length + 1) n2 n1 n1)] ++ [some (rowsUpto (h.length + 2) n3 (n1 * n2) (n1 * n2))] ++ [some D])[h.length + 1]? =
      some (some (rowsUpto (h.length + 2) n3 (n1 * n2) (n1 * n2))) := by simp [List.getElem?_append]
  have hd : (h ++ [some (rowsUpto (h.length + 1) n2 n1 n1)] ++ [some (rowsUpto (h.length + 2) n3 (n1 * n2) (n1 * n2))] ++ [some D])[h.length + 2]? =
      some (some D) := by simp [List.getElem?_append]
  have e2 := loadPtr_ok (p := ⟨h.length + 1, i.val * n2 + j.val⟩) (q := ⟨h.length + 2, (i.val * n2 + j.val) * n3⟩) hb
    (by rw [rowsUpto_get _ _ _ _ _ (index2_lt i j), if_pos (index2_lt i j)])
  have e3 := shift_ok (p := ⟨h.length + 2, (i.val * n2 + j.val) * n3⟩) (k.val : Int) ((i.val * n2 + j.val) * n3 + k.val) hd (by simp)
    (by rw [hD]; exact (index2_lt ⟨i.val * n2 + j.val, index2_lt i j⟩ k).le)
  simp only [at3, e1, e2, e3, bind, Except.bind]

/-- **C53.** The same for `alloc_3d_int` and `alloc_3d_double`; here `n1*n2` has to fit an `int`. -/
theorem alloc3d_store (grant : Nat → Bool) (size n1 n2 n3 : Nat) (h : Heap V) (h1 : 1 ≤ n1) (h2 : 1 ≤ n2) (hs : 0 < size) (hi : n1 * n2 < 2 ^ 31)
    (hw : size * (n1 * n2 * n3) < 2 ^ 64) (hg : grant (8 * n1) = true) (hg' : grant (8 * (n1 * n2)) = true) (hg'' : grant (size * (n1 * n2 * n3)) = true) :
    ∃ t h' b, alloc3d grant size n1 n2 n3 h = .ok (t, h') ∧ h <+: h' ∧
      ∀ ws : List ((Fin n1 × Fin n2 × Fin n3) × V), ∃ h'', putAll (fun k => at3 t k.1.val k.2.1.val k.2.2.val) ws h' = .ok h'' ∧ h <+: h'' ∧
        (∀ i j k, getAt (at3 t (i : Fin n1).val (j : Fin n2).val (k : Fin n3).val) h'' = .ok (lastWritten ws (i, j, k))) ∧
        (∀ i j k, at3 t (i : Fin n1).val (j : Fin n2).val (k : Fin n3).val h'' = .ok ⟨b, (i.val * n2 + j.val) * n3 + k.val⟩) ∧
        free3d t h'' = .ok (h ++ [none, none, none]) := by
  refine ⟨_, _, h.length + 2, alloc3d_eq grant size n1 n2 n3 h h1 h2 hs hi hw hg hg' hg'', by simp, fun ws => ?_⟩
  have hlt : ∀ k : Fin n1 × Fin n2 × Fin n3, (k.1.val * n2 + k.2.1.val) * n3 + k.2.2.val < n1 * n2 * n3 :=
    fun k => index2_lt ⟨k.1.val * n2 + k.2.1.val, index2_lt k.1 k.2.1⟩ k.2.2
  obtain ⟨D', hD', hp, hv⟩ := store_table (κ := Fin n1 × Fin n2 × Fin n3) (fun k => at3 ⟨h.length, 0⟩ k.1.val k.2.1.val k.2.2.val)
    (h ++ [some (rowsUpto (h.length + 1) n2 n1 n1)] ++ [some (rowsUpto (h.length + 2) n3 (n1 * n2) (n1 * n2))]) (n1 * n2 * n3)
    (fun k => (k.1.val * n2 + k.2.1.val) * n3 + k.2.2.val)
    (fun k k' e => by
      obtain ⟨e1, e2⟩ := index2_inj ⟨k.1.val * n2 + k.2.1.val, index2_lt k.1 k.2.1⟩ ⟨k'.1.val * n2 + k'.2.1.val, index2_lt k'.1 k'.2.1⟩ k.2.2 k'.2.2 e
      obtain ⟨e3, e4⟩ := index2_inj _ _ _ _ (Fin.mk.inj e1)
      exact Prod.ext e3 (Prod.ext e4 e2)) hlt
    (fun k D hD => by simpa using at3_eq h n1 n2 n3 k.1 k.2.1 k.2.2 D hD) ws (List.replicate (n1 * n2 * n3) .undef) (by simp)
  have hat : ∀ (i : Fin n1) (j : Fin n2) (k : Fin n3), at3 ⟨h.length, 0⟩ i.val j.val k.val
      (h ++ [some (rowsUpto (h.length + 1) n2 n1 n1)] ++ [some (rowsUpto (h.length + 2) n3 (n1 * n2) (n1 * n2))] ++ [some D']) =
      .ok ⟨h.length + 2, (i.val * n2 + j.val) * n3 + k.val⟩ := fun i j k => at3_eq h n1 n2 n3 i j k D' hD'
  refine ⟨_, hp, by simp, fun i j k => ?_, hat, ?_⟩
  · refine getAt_eq (κ := Fin n1 × Fin n2 × Fin n3) (fun k => at3 ⟨h.length, 0⟩ k.1.val k.2.1.val k.2.2.val) _ D' (i, j, k) _ _
      (by simpa using hat i j k) ?_
    rw [hv (i, j, k)]
    cases lastWritten ws (i, j, k) with
    | some v => rfl
    | none =>
      have := hlt (i, j, k)
      simp only [] at this
      simp [this]
  · have hpos : 0 < n1 * n2 := Nat.mul_pos h1 h2
    have f1 : ∀ X Y : Option (List (MCell V)), (h ++ [some (rowsUpto (h.length + 1) n2 n1 n1)] ++ [X] ++ [Y])[h.length]? =
        some (some (rowsUpto (h.length + 1) n2 n1 n1)) := fun X Y => by simp
    have e1 : ∀ X Y : Option (List (MCell V)), Heap.loadPtr (h ++ [some (rowsUpto (h.length + 1) n2 n1 n1)] ++ [X] ++ [Y]) ⟨h.length, 0⟩ =
        .ok ⟨h.length + 1, 0⟩ := fun X Y =>
      loadPtr_ok (p := ⟨h.length, 0⟩) (q := ⟨h.length + 1, 0⟩) (f1 X Y) (by rw [rowsUpto_get _ _ _ _ _ h1, if_pos (show 0 < n1 from h1)]; simp)
    have e2 := loadPtr_ok (V := V) (h := h ++ [some (rowsUpto (h.length + 1) n2 n1 n1)] ++ [some (rowsUpto (h.length + 2) n3 (n1 * n2) (n1 * n2))] ++ [some D'])
      (p := ⟨h.length + 1, 0⟩) (q := ⟨h.length + 2, 0⟩) (l := rowsUpto (h.length + 2) n3 (n1 * n2) (n1 * n2))
      (by simp [List.getElem?_append]) (by rw [rowsUpto_get _ _ _ _ _ hpos, if_pos hpos]; simp)
    have e3 : Heap.free (h ++ [some (rowsUpto (h.length + 1) n2 n1 n1)] ++ [some (rowsUpto (h.length + 2) n3 (n1 * n2) (n1 * n2))] ++ [some D'])
        ⟨h.length + 2, 0⟩ =
        .ok (h ++ [some (rowsUpto (h.length + 1) n2 n1 n1)] ++ [some (rowsUpto (h.length + 2) n3 (n1 * n2) (n1 * n2))] ++ [none]) := by
      simp only [Heap.free, bind, Except.bind, if_true]
      rw [block_ok (l := D') (by simp [List.getElem?_append])]
      simp [List.set_append]
    have e4 : Heap.free (h ++ [some (rowsUpto (h.length + 1) n2 n1 n1)] ++ [some (rowsUpto (h.length + 2) n3 (n1 * n2) (n1 * n2))] ++ [none])
        ⟨h.length + 1, 0⟩ = .ok (h ++ [some (rowsUpto (h.length + 1) n2 n1 n1)] ++ [none] ++ [none]) := by
      simp only [Heap.free, bind, Except.bind, if_true]
      rw [block_ok (l := rowsUpto (h.length + 2) n3 (n1 * n2) (n1 * n2)) (by simp [List.getElem?_append])]
      simp [List.set_append]
    have e5 : Heap.free (h ++ [some (rowsUpto (h.length + 1) n2 n1 n1)] ++ [none] ++ [none]) ⟨h.length, 0⟩ = .ok (h ++ [none, none, none]) := by
      simp only [Heap.free, bind, Except.bind, if_true]
      rw [block_ok (l := rowsUpto (h.length + 1) n2 n1 n1) (by simp [List.getElem?_append])]
      simp [List.set_append]
    simp only [free3d, e1, e2, e3, e4, e5, bind, Except.bind]

/-- A table without rows cannot be made: the first row pointer is stored outside of the block. -/
theorem alloc2d_no_rows (grant : Nat → Bool) (size : Nat) (n2 : Int) (h : Heap V) (hg : grant 0 = true) : alloc2d grant size 0 n2 h = .error .oob := by
  have e1 : h.malloc grant 8 0 = .ok (⟨h.length, 0⟩, h ++ [some []]) := by simp [Heap.malloc, hg]
  have e2 : (h ++ [some []]).malloc grant size 0 = .ok (⟨h.length + 1, 0⟩, h ++ [some []] ++ [some []]) := by simp [Heap.malloc, hg]
  have e3 : Heap.store (h ++ [some []] ++ [some []]) ⟨h.length, 0⟩ (.ptr ⟨h.length + 1, 0⟩) = .error (.oob : Fault) := by
    simp only [Heap.store, bind, Except.bind]
    rw [block_ok (l := []) (by simp)]
    rfl
  simp only [alloc2d, e1, Int.zero_mul, e2, makeRows, e3, bind, Except.bind]

/-- A table of three dimensions with too many rows: `n1*n2` overflows, whatever the allocator grants. -/
theorem alloc3d_overflow (grant : Nat → Bool) (size : Nat) (n1 n2 n3 : Int) (h : Heap V) (hbig : 2 ^ 31 ≤ n1 * n2) (r : Ptr × Heap V) :
    alloc3d grant size n1 n2 n3 h ≠ .ok r := by
  intro he
  simp only [alloc3d, exc_bind, if_pos (Or.inl hbig : 2 ^ 31 ≤ n1 * n2 ∨ n1 * n2 < -2 ^ 31)] at he
  obtain ⟨_, _, _, _, _, _, _, _, _, _, he⟩ := he
  cases he

end

/-- The hypotheses can be met: 3 tables of 2 rows of 5 doubles. -/
example : ∃ t h' b, alloc3d (V := ℤ) (fun b => decide (b < 2 ^ 40)) 8 3 2 5 [] = .ok (t, h') ∧ [] <+: h' ∧
    ∀ ws : List ((Fin 3 × Fin 2 × Fin 5) × ℤ), ∃ h'', putAll (fun k => at3 t k.1.val k.2.1.val k.2.2.val) ws h' = .ok h'' ∧ [] <+: h'' ∧
      (∀ i j k, getAt (at3 t (i : Fin 3).val (j : Fin 2).val (k : Fin 5).val) h'' = .ok (lastWritten ws (i, j, k))) ∧
      (∀ i j k, at3 t (i : Fin 3).val (j : Fin 2).val (k : Fin 5).val h'' = .ok ⟨b, (i.val * 2 + j.val) * 5 + k.val⟩) ∧
      free3d t h'' = .ok [none, none, none] :=
  alloc3d_store _ 8 3 2 5 [] (by decide) (by decide) (by decide) (by decide) (by decide) (by decide) (by decide) (by decide)
example : ∃ t h' b, alloc2d (V := ℤ) (fun b => decide (b < 2 ^ 40)) 4 100 7 [] = .ok (t, h') ∧ [] <+: h' ∧
    ∀ ws : List ((Fin 100 × Fin 7) × ℤ), ∃ h'', putAll (fun k => at2 t k.1.val k.2.val) ws h' = .ok h'' ∧ [] <+: h'' ∧
      (∀ i j, getAt (at2 t (i : Fin 100).val (j : Fin 7).val) h'' = .ok (lastWritten ws (i, j))) ∧
      (∀ i j, at2 t (i : Fin 100).val (j : Fin 7).val h'' = .ok ⟨b, i.val * 7 + j.val⟩) ∧ free2d t h'' = .ok [none, none] :=
  alloc2d_store _ 4 100 7 [] (by decide) (by decide) (by decide) (by decide) (by decide) (by decide)

example : alloc2d (V := ℤ) (fun b => decide (b < 2 ^ 40)) 8 0 5 [] = .error .oob := alloc2d_no_rows _ 8 5 [] (by decide)
example (r : Ptr × Heap ℤ) : alloc3d (fun b => decide (b < 2 ^ 40)) 8 65536 32768 5 [] ≠ .ok r := alloc3d_overflow _ 8 _ _ 5 [] (by decide) r

end NiiC
