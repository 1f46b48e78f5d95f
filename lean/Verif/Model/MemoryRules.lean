import Verif.Model.Memory
import Mathlib.Tactic.Ring
import Mathlib.Tactic.Linarith
import Mathlib.Data.List.Nodup

/-!
# Reasoning about the heap

`Ok p m Q`: from heap `m` the program `p` ends without a fault, with a result and a heap that satisfy `Q`.
`At b l E m`: heap `m` is the heap `b` with the blocks `l` added, and since `b` at most `E` bytes were live beyond those
of `b`.
`Keeps E pre p`: from every heap with `pre`, the program ends without a fault, leaves exactly the blocks that were live
before, and needs at most `E` bytes in between.
-/

namespace NiiC.RankHeap

variable {α β : Type}

/-- The program ends without a fault and establishes `Q`. -/
def Ok (p : MM α) (m : Mem) (Q : α → Mem → Prop) : Prop :=
  ∃ a m', p m = .ok (a, m') ∧ Q a m'

theorem Ok.bind {p : MM α} {f : α → MM β} {m : Mem} {Q : β → Mem → Prop}
    (h : Ok p m fun a m' => Ok (f a) m' Q) : Ok (p >>= f) m Q := by
  obtain ⟨a, m', h1, b, m'', h2, hQ⟩ := h
  refine ⟨b, m'', ?_, hQ⟩
  show (p m >>= fun x => f x.1 x.2) = _
  rw [h1]
  exact h2

theorem Ok.pure {a : α} {m : Mem} {Q : α → Mem → Prop} (h : Q a m) : Ok (Pure.pure a) m Q := ⟨a, m, rfl, h⟩

theorem Ok.mono {p : MM α} {m : Mem} {Q Q' : α → Mem → Prop} (h : Ok p m Q) (hQ : ∀ a m', Q a m' → Q' a m') :
    Ok p m Q' := by
  obtain ⟨a, m', h1, h2⟩ := h
  exact ⟨a, m', h1, hQ _ _ h2⟩

/-- The first `k` bytes behind the pointer may be accessed. -/
def Has (m : Mem) : Ptr → Nat → Prop
  | .null, _ => False
  | .literal, _ => True
  | .blk b, k => ∃ n, m.live.lookup b = some n ∧ k ≤ n

theorem Has.mono {m : Mem} {p : Ptr} {k k' : Nat} (h : Has m p k) (hk : k' ≤ k) : Has m p k' := by
  cases p with
  | null => exact h
  | literal => trivial
  | blk b => obtain ⟨n, h1, h2⟩ := h; exact ⟨n, h1, hk.trans h2⟩

theorem Has.live {m m' : Mem} {p : Ptr} {k : Nat} (h : Has m p k) (hm : m'.live = m.live) : Has m' p k := by
  cases p with
  | null => exact h
  | literal => trivial
  | blk b => obtain ⟨n, h1, h2⟩ := h; exact ⟨n, by rw [hm]; exact h1, h2⟩

theorem Ok.touch {m : Mem} {p : Ptr} {k : Nat} {Q : Unit → Mem → Prop} (h : Has m p k) (hQ : Q () m) :
    Ok (touch p k) m Q := by
  refine ⟨(), m, ?_, hQ⟩
  cases p with
  | null => exact h.elim
  | literal => rfl
  | blk b =>
    obtain ⟨n, h1, h2⟩ := h
    simp only [RankHeap.touch, h1, if_pos h2]

/-- Both blocks of a table, with `n1` rows of `n2` doubles. -/
def HasTab (m : Mem) (t : Tab) (n1 n2 : Nat) : Prop := Has m t.rows (8 * n1) ∧ Has m t.cells (8 * (n1 * n2))

theorem HasTab.live {m m' : Mem} {t : Tab} {n1 n2 : Nat} (h : HasTab m t n1 n2) (hm : m'.live = m.live) :
    HasTab m' t n1 n2 := ⟨h.1.live hm, h.2.live hm⟩

theorem Ok.touchRow {m : Mem} {t : Tab} {i n1 n2 : Nat} {Q : Unit → Mem → Prop} (h : HasTab m t n1 n2) (hi : i < n1)
    (hQ : Q () m) : Ok (touchRow t i n2) m Q := by
  refine Ok.bind (Ok.touch (h.1.mono (by omega)) (Ok.touch (h.2.mono ?_) hQ))
  exact Nat.mul_le_mul_left _ (Nat.mul_le_mul_right _ hi)

/-- The keys of the blocks lie below the next fresh one. -/
def WF (m : Mem) : Prop := (∀ x ∈ m.live, x.1 < m.next) ∧ m.size ≤ m.peak

/-- Heap `m` is `b` with the blocks `l` added; at most `E` bytes beyond those of `b` were live since. -/
structure At (b : Mem) (l : List (Nat × Nat)) (E : Nat) (m : Mem) : Prop where
  wf : WF b
  live : m.live = l ++ b.live
  next : b.next ≤ m.next
  keys : ∀ x ∈ l, b.next ≤ x.1 ∧ x.1 < m.next
  nodup : (l.map Prod.fst).Nodup
  peak : m.peak ≤ max b.peak (b.size + E)
  size : m.size ≤ m.peak

theorem At.start {b : Mem} (h : WF b) (E : Nat) : At b [] E b :=
  ⟨h, rfl, le_rfl, by simp, by simp, by omega, h.2⟩

theorem sz_append (l l' : List (Nat × Nat)) : sz (l ++ l') = sz l + sz l' := by simp [sz]

theorem At.sz_eq {b m : Mem} {l : List (Nat × Nat)} {E : Nat} (h : At b l E m) : m.size = sz l + b.size := by
  rw [Mem.size, h.live, sz_append]; rfl

theorem At.toWF {b m : Mem} {l : List (Nat × Nat)} {E : Nat} (h : At b l E m) : WF m := by
  refine ⟨fun x hx => ?_, h.size⟩
  rw [h.live, List.mem_append] at hx
  rcases hx with hx | hx
  · exact (h.keys x hx).2
  · exact (h.wf.1 x hx).trans_le h.next

theorem lookup_append_none {l l' : List (Nat × Nat)} {x : Nat} (h : ∀ y ∈ l, y.1 ≠ x) :
    (l ++ l').lookup x = l'.lookup x := by
  induction l with
  | nil => rfl
  | cons y l ih =>
    have h1 : y.1 ≠ x := h y (by simp)
    have h2 : (x == y.1) = false := by simpa using fun e => h1 e.symm
    obtain ⟨y1, y2⟩ := y
    rw [List.cons_append, List.lookup_cons, h2]
    exact ih fun z hz => h z (by simp [hz])

theorem lookup_mem {l : List (Nat × Nat)} {x n : Nat} (h : l.lookup x = some n) : (x, n) ∈ l := by
  induction l with
  | nil => simp at h
  | cons y l ih =>
    obtain ⟨y1, y2⟩ := y
    rw [List.lookup_cons] at h
    by_cases e : x = y1
    · subst e
      simp at h
      simp [h]
    · have h2 : (x == y1) = false := by simpa using e
      rw [h2] at h
      exact List.mem_cons_of_mem _ (ih h)

theorem lookup_mid {l l' : List (Nat × Nat)} {x n : Nat} (h : ∀ y ∈ l, y.1 ≠ x) :
    (l ++ (x, n) :: l').lookup x = some n := by
  rw [lookup_append_none h]
  simp

theorem eraseP_mid {l l' : List (Nat × Nat)} {x n : Nat} (h : ∀ y ∈ l, y.1 ≠ x) :
    (l ++ (x, n) :: l').eraseP (fun y => y.1 == x) = l ++ l' := by
  rw [List.eraseP_append_right _ (by simpa using h)]
  simp

theorem At.has_base {b m : Mem} {l : List (Nat × Nat)} {E : Nat} (h : At b l E m) {p : Ptr} {k : Nat} (hp : Has b p k) :
    Has m p k := by
  cases p with
  | null => exact hp
  | literal => trivial
  | blk x =>
    obtain ⟨n, h1, h2⟩ := hp
    refine ⟨n, ?_, h2⟩
    rw [h.live, lookup_append_none fun y hy e => ?_, h1]
    have := h.wf.1 _ (lookup_mem h1)
    have := (h.keys y hy).1
    omega

theorem At.tab_base {b m : Mem} {l : List (Nat × Nat)} {E : Nat} (h : At b l E m) {t : Tab} {n1 n2 : Nat}
    (hp : HasTab b t n1 n2) : HasTab m t n1 n2 := ⟨h.has_base hp.1, h.has_base hp.2⟩

theorem At.fresh {b m : Mem} {l l1 l2 : List (Nat × Nat)} {E x n : Nat} (h : At b l E m) (hl : l = l1 ++ (x, n) :: l2) :
    ∀ y ∈ l1, y.1 ≠ x := by
  intro y hy e
  have hnd := h.nodup
  rw [hl, List.map_append, List.nodup_append] at hnd
  exact hnd.2.2 _ (List.mem_map_of_mem hy) x (by simp) e

/-- An added block may be accessed. -/
theorem At.has_mid {b m : Mem} {l l1 l2 : List (Nat × Nat)} {E x n k : Nat} (h : At b l E m)
    (hl : l = l1 ++ (x, n) :: l2) (hk : k ≤ n) : Has m (.blk x) k := by
  refine ⟨n, ?_, hk⟩
  rw [h.live, hl, List.append_assoc]
  exact lookup_mid (h.fresh hl)

theorem At.has {b m : Mem} {l : List (Nat × Nat)} {E x n k : Nat} (i : Nat) (h : At b l E m)
    (hl : l[i]? = some (x, n)) (hk : k ≤ n) : Has m (.blk x) k := by
  obtain ⟨hi, he⟩ := List.getElem?_eq_some_iff.mp hl
  refine h.has_mid (l1 := l.take i) (l2 := l.drop (i + 1)) ?_ hk
  rw [← he, ← List.drop_eq_getElem_cons hi, List.take_append_drop]

theorem Ok.alloc {b m : Mem} {l : List (Nat × Nat)} {E n : Nat} {Q : Ptr → Mem → Prop} (h : At b l E m)
    (hE : sz l + n ≤ E) (k : ∀ x m', At b ((x, n) :: l) E m' → Q (.blk x) m') : Ok (alloc n) m Q := by
  refine ⟨_, _, rfl, k _ _ ⟨h.wf, ?_, ?_, ?_, ?_, ?_, ?_⟩⟩
  · show (m.next, n) :: m.live = _
    rw [h.live]; rfl
  · show b.next ≤ m.next + 1
    exact h.next.trans (Nat.le_succ _)
  · intro x hx
    show _ ∧ _ < m.next + 1
    rcases List.mem_cons.mp hx with rfl | hx
    · exact ⟨h.next, Nat.lt_succ_self _⟩
    · exact ⟨(h.keys x hx).1, (h.keys x hx).2.trans (Nat.lt_succ_self _)⟩
  · rw [List.map_cons, List.nodup_cons]
    refine ⟨fun hm => ?_, h.nodup⟩
    obtain ⟨y, hy, e⟩ := List.mem_map.mp hm
    have := (h.keys y hy).2
    simp only at e
    omega
  · show max m.peak (m.size + n) ≤ _
    have := h.peak
    have := h.sz_eq
    omega
  · show sz ((m.next, n) :: m.live) ≤ max m.peak (m.size + n)
    have : sz ((m.next, n) :: m.live) = n + m.size := by simp [sz, Mem.size]
    omega

theorem Ok.freeMid {b m : Mem} {l : List (Nat × Nat)} {E x n : Nat} {Q : Unit → Mem → Prop} (l1 l2 : List (Nat × Nat))
    (h : At b l E m) (hl : l = l1 ++ (x, n) :: l2) (k : ∀ m', At b (l1 ++ l2) E m' → Q () m') :
    Ok (free (.blk x)) m Q := by
  have hf := h.fresh hl
  have hlk : m.live.lookup x = some n := by
    rw [h.live, hl, List.append_assoc]; exact lookup_mid hf
  refine ⟨(), { m with live := m.live.eraseP fun y => y.1 == x }, by simp only [free, hlk], k _ ⟨h.wf, ?_, h.next, ?_, ?_,
    h.peak, ?_⟩⟩
  · show m.live.eraseP _ = _
    rw [h.live, hl, List.append_assoc, List.cons_append, eraseP_mid hf, List.append_assoc]
  · intro y hy
    refine h.keys y ?_
    rw [hl]
    rcases List.mem_append.mp hy with hy | hy
    · simp [hy]
    · simp [hy]
  · have := h.nodup
    rw [hl] at this
    rw [List.map_append] at this ⊢
    exact (List.nodup_append.mp this).elim fun h1 h2 => by
      rw [List.map_cons, List.nodup_cons] at h2
      rw [List.nodup_append]
      exact ⟨h1, h2.1.2, fun a ha c hc => h2.2 a ha c (by simp [hc])⟩
  · show sz (m.live.eraseP _) ≤ m.peak
    refine le_trans ?_ h.size
    rw [h.live, hl, List.append_assoc, List.cons_append, eraseP_mid hf, Mem.size, h.live, hl]
    simp [sz]

theorem Ok.free {b m : Mem} {l : List (Nat × Nat)} {E x n : Nat} {Q : Unit → Mem → Prop} (i : Nat)
    (h : At b l E m) (hl : l[i]? = some (x, n)) (k : ∀ m', At b (l.eraseIdx i) E m' → Q () m') :
    Ok (free (.blk x)) m Q := by
  obtain ⟨hi, he⟩ := List.getElem?_eq_some_iff.mp hl
  refine Ok.freeMid (n := n) (l.take i) (l.drop (i + 1)) h ?_ ?_
  · rw [← he, ← List.drop_eq_getElem_cons hi, List.take_append_drop]
  · rwa [← List.eraseIdx_eq_take_drop_succ]

theorem Ok.freeTab {b m : Mem} {l : List (Nat × Nat)} {E x y n n' : Nat} {Q : Unit → Mem → Prop} (i : Nat)
    (h : At b l E m) (hc : l[i]? = some (y, n)) (hr : l[i + 1]? = some (x, n')) (h8 : 8 ≤ n')
    (k : ∀ m', At b ((l.eraseIdx i).eraseIdx i) E m' → Q () m') : Ok (freeTab ⟨.blk x, .blk y⟩) m Q := by
  refine Ok.bind (Ok.touch (h.has (i + 1) hr h8) ?_)
  refine Ok.bind (Ok.free i h hc fun m' h' => ?_)
  refine Ok.free (n := n') i h' ?_ k
  rw [List.getElem?_eraseIdx_of_ge (le_refl _)]
  exact hr

theorem Ok.tab {b m : Mem} {l : List (Nat × Nat)} {E n1 n2 : Nat} {Q : Tab → Mem → Prop} (h : At b l E m)
    (hE : sz l + (8 * n1 + 8 * (n1 * n2)) ≤ E)
    (k : ∀ x y m', At b ((y, 8 * (n1 * n2)) :: (x, 8 * n1) :: l) E m' → Q ⟨.blk x, .blk y⟩ m') : Ok (tab n1 n2) m Q := by
  refine Ok.bind (Ok.alloc h (by omega) fun x m1 h1 => ?_)
  have e : 8 * n1 * n2 = 8 * (n1 * n2) := by ring
  rw [e]
  refine Ok.bind (Ok.alloc h1 (by simp only [sz, List.map_cons, List.sum_cons] at hE ⊢; omega) fun y m2 h2 => ?_)
  refine Ok.bind (Ok.touch (h2.has 1 rfl le_rfl) (Ok.pure (k x y m2 h2)))

/-- From every heap with `pre` the program ends without a fault, leaves the blocks as they were, and needs at most `E`
bytes in between. -/
def Keeps (E : Nat) (pre : Mem → Prop) (p : MM α) : Prop :=
  ∀ m, WF m → pre m → Ok p m fun _ m' => At m [] E m'

theorem Ok.call {b m : Mem} {l : List (Nat × Nat)} {E E' : Nat} {pre : Mem → Prop} {p : MM α} {Q : α → Mem → Prop}
    (h : At b l E m) (hp : Keeps E' pre p) (hpre : pre m) (hE : sz l + E' ≤ E) (k : ∀ a m', At b l E m' → Q a m') :
    Ok p m Q := by
  refine (hp m h.toWF hpre).mono fun a m' h' => k a m' ⟨h.wf, ?_, h.next.trans h'.next, ?_, h.nodup, ?_, h'.size⟩
  · rw [h'.live, List.nil_append, h.live]
  · exact fun x hx => ⟨(h.keys x hx).1, (h.keys x hx).2.trans_le h'.next⟩
  · have := h'.peak
    have := h.peak
    have := h.sz_eq
    omega

theorem Keeps.intro {E : Nat} {pre : Mem → Prop} {p : MM α}
    (h : ∀ b, WF b → pre b → At b [] E b → Ok p b fun _ m' => At b [] E m') : Keeps E pre p :=
  fun m hw hp => h m hw hp (At.start hw E)

/-- A loop whose rounds keep the heap. -/
theorem Ok.forM {γ : Type} {b m : Mem} {l : List (Nat × Nat)} {E : Nat} {xs : List γ} {f : γ → MM Unit}
    {Q : Unit → Mem → Prop} (h : At b l E m)
    (hf : ∀ x ∈ xs, ∀ m', At b l E m' → Ok (f x) m' fun _ m'' => At b l E m'')
    (k : ∀ m', At b l E m' → Q () m') : Ok (xs.forM f) m Q := by
  induction xs generalizing m with
  | nil => exact Ok.pure (k m h)
  | cons x xs ih =>
    refine Ok.bind ((hf x (by simp) m h).mono fun _ m' h' => ?_)
    exact ih h' fun y hy => hf y (by simp [hy])

theorem Ok.ite {m : Mem} {c : Prop} [Decidable c] {p q : MM α} {Q : α → Mem → Prop} (h1 : c → Ok p m Q)
    (h2 : ¬ c → Ok q m Q) : Ok (if c then p else q) m Q := by
  split
  · exact h1 ‹_›
  · exact h2 ‹_›

theorem Ok.only {m : Mem} {c : Prop} [Decidable c] {p : MM Unit} {Q : Unit → Mem → Prop} (h1 : c → Ok p m Q)
    (h2 : ¬ c → Q () m) : Ok (only c p) m Q := Ok.ite h1 fun h => Ok.pure (h2 h)

end NiiC.RankHeap
