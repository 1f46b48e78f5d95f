import Verif.Model.MemoryKeeps

/-!
# C94: what a run does to the heap

For every rank, every input with the names the program asks for, every user's model that minds its own blocks, and every
course of the run (any number of stacks, batches and tunings, any accepted or rejected proposals and swaps): no `NULL` is
dereferenced, no block is used after it was freed or beyond its end, nothing is freed twice; the memory in use has a bound
that does not depend on the number of iterations; and the blocks that are never freed are exactly a list that depends only
on the sizes of the input.
-/

namespace NiiC.RankHeap

variable {s : Sizes} {u : UserHeap} {U B r : Nat} {plan : Plan}

/-! ## Specification -/

/-- The names that the program looks up in `input.ini` before the user's ranges. -/
def inputNames : List String := gridNames ++ outNames ++ ["Beta_Values"] ++ dataNames ++ samplingNames

/-- What the input must provide: every name is on exactly one line, `N_beta` numbers behind `Beta_Values`, a number for
every rank, at least one range, one parameter and one iteration per tuning run, and no more lines of data than newlines
were counted. -/
structure SizesOk (s : Sizes) : Prop where
  names : ∀ name ∈ inputNames ++ s.ranges, s.found name = 1
  ranges : s.ranges ≠ []
  betas : s.betas = s.nBeta
  ladder : s.n ≤ s.nBeta
  parm : 0 < s.p
  tune : 0 < s.nTune
  rows : s.rows ≤ s.lines

/-- The sizes of the blocks that are never freed, newest first: on the root `logpost_all_ranks`; `sigma_parm_max` and
`sigma_parm_min`; one line for every range but the last; the lines of the input but the last of every reader, with
`Delimiter`, `Data_file`, `results_dir`, `FoutSuf`, `FoutPre` among them, and `Beta_Values`. -/
def leftover (s : Sizes) (r : Nat) : List Nat :=
  (if r = 0 then [8 * s.n] else []) ++ ([8 * s.p, 8 * s.p] ++ List.replicate (s.ranges.length - 1) 100) ++
    (List.replicate 20 100 ++ [8 * s.nBeta] ++ List.replicate 14 100)

/-- The bytes a run needs at most: what reading the input needs, what a rank carries around, and one stack or the tuning
of one rank with batches of at most `B` iterations. -/
def peakBytes (s : Sizes) (U B : Nat) : Nat :=
  (3500 + 8 * s.nBeta + s.buf) +
  (8 * (s.lines * s.ndim) + 2 * (8 * s.n + 8 * (s.n * s.p)) + 100 * s.ranges.length + 24 * s.p + 16 * s.n) +
  flowBytes s U B

/-! ## Reading -/

theorem At.trans {b m m' : Mem} {l ls : List (Nat × Nat)} {E E' : Nat} (h : At b l E m) (h' : At m ls E' m')
    (hE : sz l + E' ≤ E) : At b (ls ++ l) E m' := by
  refine ⟨h.wf, ?_, h.next.trans h'.next, ?_, ?_, ?_, h'.size⟩
  · rw [h'.live, h.live, List.append_assoc]
  · intro x hx
    rcases List.mem_append.mp hx with hx | hx
    · exact ⟨h.next.trans (h'.keys x hx).1, (h'.keys x hx).2⟩
    · exact ⟨(h.keys x hx).1, (h.keys x hx).2.trans_le h'.next⟩
  · rw [List.map_append, List.nodup_append]
    refine ⟨h'.nodup, h.nodup, fun a ha c hc e => ?_⟩
    obtain ⟨y, hy, rfl⟩ := List.mem_map.mp ha
    obtain ⟨z, hz, rfl⟩ := List.mem_map.mp hc
    have := (h'.keys y hy).1
    have := (h.keys z hz).2
    omega
  · have := h'.peak
    have := h.peak
    have := h.sz_eq
    omega

theorem sz_of_map {l : List (Nat × Nat)} {ns : List Nat} (h : l.map Prod.snd = ns) : sz l = ns.sum := by rw [sz, h]

theorem ok_readOnepara {b m : Mem} {l : List (Nat × Nat)} {E : Nat} {name : String} {Q : Ptr → Mem → Prop}
    (hf : s.found name = 1) (h : At b l E m) (hE : sz l + 100 + s.buf ≤ E)
    (k : ∀ x m', At b ((x, 100) :: l) E m' → Q (.blk x) m') : Ok (readOnepara s name) m Q := by
  refine Ok.bind (Ok.alloc h (by omega) fun f m1 k1 => ?_)
  refine Ok.bind (Ok.alloc k1 (by simp only [sz_cons, destSize]; omega) fun p m2 k2 => ?_)
  refine Ok.bind (Ok.alloc k2 (by simp only [sz_cons, destSize]; omega) fun n m3 k3 => ?_)
  refine Ok.bind (Ok.touch (k3.has 0 rfl le_rfl) ?_)
  refine Ok.bind (Ok.touch (k3.has 1 rfl le_rfl) ?_)
  refine Ok.bind (Ok.touch (k3.has 2 rfl le_rfl) ?_)
  refine Ok.bind (Ok.free 2 k3 rfl fun m4 k4 => ?_)
  refine Ok.bind (Ok.free 0 k4 rfl fun m5 k5 => ?_)
  rw [if_pos hf]
  exact Ok.pure (k _ _ k5)

theorem ok_readNames {b : Mem} {E : Nat} {Q : Ptr → Mem → Prop} (rest : List String) :
    ∀ (name : String) (last : Ptr) (m : Mem) (l : List (Nat × Nat)), (∀ x ∈ name :: rest, s.found x = 1) →
    At b l E m → sz l + 100 * (rest.length + 1) + s.buf ≤ E →
    (∀ x ls m', ls.map Prod.snd = List.replicate rest.length 100 → At b ((x, 100) :: (ls ++ l)) E m' → Q (.blk x) m') →
    Ok (readNames s last (name :: rest)) m Q := by
  induction rest with
  | nil =>
    intro name last m l hf h hE k
    refine Ok.bind (ok_readOnepara (hf name (by simp)) h (by simp at hE; omega) fun x m1 k1 => ?_)
    refine Ok.bind (Ok.touch (k1.has 0 rfl le_rfl) ?_)
    exact Ok.pure (k x [] m1 rfl k1)
  | cons name' rest ih =>
    intro name last m l hf h hE k
    refine Ok.bind (ok_readOnepara (hf name (by simp)) h (by simp at hE; omega) fun x m1 k1 => ?_)
    refine Ok.bind (Ok.touch (k1.has 0 rfl le_rfl) ?_)
    refine ih name' (.blk x) m1 ((x, 100) :: l) (fun y hy => hf y (by simp [hy])) k1 ?_ fun y ls m2 hls k2 => ?_
    · simp only [sz_cons, List.length_cons] at hE ⊢
      omega
    · refine k y (ls ++ [(x, 100)]) m2 ?_ (by simpa using k2)
      rw [List.map_append, hls, List.length_cons, List.replicate_succ']
      rfl

/-- A reader: its lines, all but the last left behind. -/
theorem ok_reader {b m : Mem} {l : List (Nat × Nat)} {E : Nat} {names : List String} {Q : Ptr → Mem → Prop}
    (hne : names ≠ []) (hf : ∀ x ∈ names, s.found x = 1) (h : At b l E m) (hE : sz l + 100 * names.length + s.buf ≤ E)
    (k : ∀ x ls m', ls.map Prod.snd = List.replicate (names.length - 1) 100 → At b ((x, 100) :: (ls ++ l)) E m' →
      Q (.blk x) m') : Ok (readNames s .null names) m Q := by
  cases names with
  | nil => exact absurd rfl hne
  | cons name rest => exact ok_readNames rest name .null m l hf h hE k

theorem ok_readInput (hs : SizesOk s) {b : Mem} (hb : WF b) :
    Ok (readInput s) b fun g m' => ∃ ls, At b ls (3500 + 8 * s.nBeta + s.buf) m' ∧
      ls.map Prod.snd = List.replicate 20 100 ++ [8 * s.nBeta] ++ List.replicate 14 100 ∧
      Has m' g.dir destSize ∧ Has m' g.betas (8 * s.nBeta) ∧ Has m' g.file destSize ∧ Has m' g.delim 1 := by
  have hin : ∀ x ∈ inputNames, s.found x = 1 := fun x hx => hs.names x (List.mem_append_left _ hx)
  generalize hE : 3500 + 8 * s.nBeta + s.buf = E
  have h := At.start hb E
  have hsz : ∀ {l : List (Nat × Nat)} {k : Nat}, l.map Prod.snd = List.replicate k 100 → sz l = k * 100 := by
    intro l k hl
    rw [sz_of_map hl]
    simp
  -- `read_chains_grid`
  refine Ok.bind (Ok.bind (ok_reader (by simp [gridNames]) (fun x hx => hin x (by simp [inputNames, hx])) h
    (by simp [sz_nil, gridNames]; omega) fun x1 l1 m1 e1 k1 => ?_))
  refine Ok.free 0 k1 rfl fun m2 k2 => ?_
  have z1 := hsz e1
  simp only [gridNames, List.length_cons, List.length_nil] at e1 z1
  replace k2 : At b (l1 ++ []) E m2 := k2
  rw [List.append_nil] at k2
  -- `read_chain_out_name`
  refine Ok.bind (Ok.bind (Ok.alloc k2 (by simp only [destSize]; omega) fun p1 m3 k3 => ?_))
  refine Ok.bind (Ok.alloc k3 (by simp only [sz_cons, destSize]; omega) fun p2 m4 k4 => ?_)
  refine Ok.bind (Ok.alloc k4 (by simp only [sz_cons, destSize]; omega) fun p3 m5 k5 => ?_)
  refine Ok.bind (ok_reader (by simp [outNames]) (fun x hx => hin x (by simp [inputNames, hx])) k5
    (by simp only [sz_cons, destSize, outNames, List.length_cons, List.length_nil]; omega) fun x2 l2 m6 e2 k6 => ?_)
  have z2 := hsz e2
  simp only [outNames, List.length_cons, List.length_nil] at e2 z2
  refine Ok.bind (Ok.touch (k6.has_mid (l1 := (x2, 100) :: (l2 ++ [(p3, destSize), (p2, destSize)])) (l2 := l1)
    (n := destSize) (by simp) le_rfl) ?_)
  refine Ok.bind (Ok.touch (k6.has_mid (l1 := (x2, 100) :: (l2 ++ [(p3, destSize)])) (l2 := (p1, destSize) :: l1)
    (n := destSize) (by simp) le_rfl) ?_)
  refine Ok.bind (Ok.touch (k6.has_mid (l1 := (x2, 100) :: l2) (l2 := (p2, destSize) :: (p1, destSize) :: l1)
    (n := destSize) (by simp) le_rfl) ?_)
  refine Ok.bind (Ok.free 0 k6 rfl fun m7 k7 => ?_)
  refine Ok.pure ?_
  replace k7 : At b (l2 ++ (p3, destSize) :: (p2, destSize) :: (p1, destSize) :: l1) E m7 := k7
  -- `read_beta_values`
  refine Ok.bind (Ok.bind (Ok.alloc k7 (by simp only [sz_append, sz_cons, destSize]; omega) fun p4 m8 k8 => ?_))
  refine Ok.bind (ok_reader (by simp) (fun x hx => hin x (by simp [inputNames] at hx ⊢; simp [hx])) k8
    (by simp only [sz_append, sz_cons, destSize, List.length_cons, List.length_nil]; omega) fun x3 l3 m9 e3 k9 => ?_)
  simp only [List.length_cons, List.length_nil, Nat.zero_add, Nat.sub_self, List.replicate_zero, List.map_eq_nil_iff] at e3
  subst e3
  rw [List.nil_append] at k9
  refine Ok.bind (Ok.forM k9 (fun i hi m10 k10 => ?_) fun m10 k10 => ?_)
  · have hi' := List.mem_range.mp hi
    rw [hs.betas] at hi'
    exact Ok.touch (k10.has 1 rfl (by omega)) k10
  refine Ok.bind (Ok.free 0 k10 rfl fun m11 k11 => ?_)
  rw [if_pos hs.betas]
  refine Ok.pure ?_
  replace k11 : At b ((p4, 8 * s.nBeta) :: (l2 ++ (p3, destSize) :: (p2, destSize) :: (p1, destSize) :: l1)) E m11 := k11
  -- `read_data_desc`
  refine Ok.bind (Ok.bind (Ok.alloc k11 (by simp only [sz_append, sz_cons, destSize]; omega) fun p5 m12 k12 => ?_))
  refine Ok.bind (Ok.alloc k12 (by simp only [sz_append, sz_cons, destSize]; omega) fun p6 m13 k13 => ?_)
  refine Ok.bind (ok_reader (by simp [dataNames]) (fun x hx => hin x (by simp [inputNames, hx])) k13
    (by simp only [sz_append, sz_cons, destSize, dataNames, List.length_cons, List.length_nil]; omega)
    fun x4 l4 m14 e4 k14 => ?_)
  have z4 := hsz e4
  simp only [dataNames, List.length_cons, List.length_nil] at e4 z4
  refine Ok.bind (Ok.touch (k14.has_mid (l1 := (x4, 100) :: (l4 ++ [(p6, destSize)])) (n := destSize)
    (l2 := (p4, 8 * s.nBeta) :: (l2 ++ (p3, destSize) :: (p2, destSize) :: (p1, destSize) :: l1)) (by simp) le_rfl) ?_)
  refine Ok.bind (Ok.touch (k14.has_mid (l1 := (x4, 100) :: l4) (n := destSize)
    (l2 := (p5, destSize) :: (p4, 8 * s.nBeta) :: (l2 ++ (p3, destSize) :: (p2, destSize) :: (p1, destSize) :: l1))
    (by simp) le_rfl) ?_)
  refine Ok.bind (Ok.free 0 k14 rfl fun m15 k15 => ?_)
  refine Ok.pure ?_
  replace k15 : At b (l4 ++ (p6, destSize) :: (p5, destSize) :: (p4, 8 * s.nBeta) ::
    (l2 ++ (p3, destSize) :: (p2, destSize) :: (p1, destSize) :: l1)) E m15 := k15
  -- `read_sampling_para`
  refine Ok.bind (Ok.bind (ok_reader (by simp [samplingNames]) (fun x hx => hin x (by simp [inputNames, hx])) k15
    (by simp only [sz_append, sz_cons, destSize, samplingNames, List.length_cons, List.length_nil]; omega)
    fun x5 l5 m16 e5 k16 => ?_))
  have z5 := hsz e5
  simp only [samplingNames, List.length_cons, List.length_nil] at e5 z5
  refine Ok.free 0 k16 rfl fun m17 k17 => ?_
  replace k17 : At b (l5 ++ (l4 ++ (p6, destSize) :: (p5, destSize) :: (p4, 8 * s.nBeta) ::
    (l2 ++ (p3, destSize) :: (p2, destSize) :: (p1, destSize) :: l1))) E m17 := k17
  refine Ok.pure ⟨_, k17, ?_, ?_, ?_, ?_, ?_⟩
  · simp only [List.map_append, List.map_cons, e1, e2, e4, e5, destSize]
    rfl
  · exact k17.has_mid (l1 := l5 ++ (l4 ++ (p6, destSize) :: (p5, destSize) :: (p4, 8 * s.nBeta) :: l2)) (n := destSize)
      (l2 := (p2, destSize) :: (p1, destSize) :: l1) (by simp) le_rfl
  · exact k17.has_mid (l1 := l5 ++ (l4 ++ [(p6, destSize), (p5, destSize)])) (n := 8 * s.nBeta)
      (l2 := l2 ++ (p3, destSize) :: (p2, destSize) :: (p1, destSize) :: l1) (by simp) le_rfl
  · exact k17.has_mid (l1 := l5 ++ (l4 ++ [(p6, destSize)])) (n := destSize)
      (l2 := (p4, 8 * s.nBeta) :: (l2 ++ (p3, destSize) :: (p2, destSize) :: (p1, destSize) :: l1)) (by simp) le_rfl
  · show Has m17 (if s.blank = true then Ptr.literal else Ptr.blk p6) 1
    split
    · trivial
    · exact k17.has_mid (l1 := l5 ++ l4) (n := destSize)
        (l2 := (p5, destSize) :: (p4, 8 * s.nBeta) :: (l2 ++ (p3, destSize) :: (p2, destSize) :: (p1, destSize) :: l1))
        (by simp) (by simp [destSize])

/-! ## The data and the start -/

theorem keeps_getNlines {file : Ptr} : Keeps 0 (fun m => Has m file destSize) (getNlines file) := by
  refine Keeps.intro fun g hw hp h => ?_
  refine Ok.bind (Ok.touch hp ?_)
  refine Ok.bind (Ok.alloc h (by simp [sz_nil]) fun x m1 k1 => ?_)
  refine Ok.bind (Ok.touch (k1.has 0 rfl le_rfl) ?_)
  exact Ok.free 0 k1 rfl fun m2 k2 => k2

theorem keeps_dataLoader (hs : SizesOk s) {file delim data : Ptr} :
    Keeps s.buf (fun m => Has m file destSize ∧ Has m delim 1 ∧ Has m data (8 * (s.lines * s.ndim)))
      (dataLoader s r file delim data) := by
  refine Keeps.intro fun g hw hp h => ?_
  obtain ⟨h1, h2, h3⟩ := hp
  refine Ok.bind (Ok.only (fun _ => ?_) fun _ => Ok.touch h3 h)
  refine Ok.bind (Ok.touch h1 ?_)
  refine Ok.bind (Ok.alloc h (by simp [sz_nil]) fun x m1 k1 => ?_)
  refine Ok.bind (Ok.alloc k1 (by simp [sz_cons, sz_nil]) fun y m2 k2 => ?_)
  refine Ok.bind (Ok.forM k2 (fun i hi m3 k3 => ?_) fun m3 k3 => ?_)
  · have hi' := List.mem_range.mp hi
    refine Ok.bind (Ok.touch (k3.has 0 rfl le_rfl) ?_)
    refine Ok.bind (Ok.touch (k3.has_base h2) ?_)
    refine Ok.touch ((k3.has_base h3).mono ?_) k3
    have := hs.rows
    exact Nat.mul_le_mul_left _ (Nat.mul_le_mul_right _ (by omega))
  · refine Ok.bind (Ok.touch (k3.has 1 rfl le_rfl) ?_)
    refine Ok.bind (Ok.free 1 k3 rfl fun m4 k4 => ?_)
    exact Ok.free 0 k4 rfl fun m5 k5 => Ok.touch (k5.has_base h3) k5

theorem ok_initParm (hs : SizesOk s) {b m : Mem} {l : List (Nat × Nat)} {E : Nat} {chain : Ptr}
    {Q : Ptr × Ptr → Mem → Prop} (h : At b l E m) (hc : ∀ ls m', At b (ls ++ l) E m' → Has m' chain (8 * s.p))
    (hE : sz l + 100 * s.ranges.length + s.buf + 16 * s.p ≤ E)
    (k : ∀ x y ls m', ls.map Prod.snd = List.replicate (s.ranges.length - 1) 100 →
      At b ((y, 8 * s.p) :: (x, 8 * s.p) :: ls ++ l) E m' → Q (.blk x, .blk y) m') : Ok (initParm s chain) m Q := by
  refine Ok.bind (ok_reader hs.ranges (fun x hx => hs.names x (List.mem_append_right _ hx)) h (by omega)
    fun x1 l1 m1 e1 k1 => ?_)
  have z1 : sz l1 = (s.ranges.length - 1) * 100 := by
    rw [sz_of_map e1]
    simp
  refine Ok.bind (Ok.free 0 k1 rfl fun m2 k2 => ?_)
  replace k2 : At b (l1 ++ l) E m2 := k2
  refine Ok.bind (Ok.touch (hc l1 m2 k2) ?_)
  refine Ok.bind (Ok.alloc k2 (by simp only [sz_append]; omega) fun x m3 k3 => ?_)
  refine Ok.bind (Ok.alloc k3 (by simp only [sz_cons, sz_append]; omega) fun y m4 k4 => ?_)
  refine Ok.bind (Ok.touch (k4.has 1 rfl le_rfl) ?_)
  refine Ok.bind (Ok.touch (k4.has 0 rfl le_rfl) ?_)
  exact Ok.pure (k x y l1 m4 e1 k4)

theorem ok_genInit (hs : SizesOk s) (hr : r < s.n) {b : Mem} (hb : WF b) {dir : Ptr} {transit : Tab}
    (hd : Has b dir destSize) (ht : HasTab b transit s.n s.p) :
    Ok (genInit s r dir transit) b fun lims m' => ∃ x y ls, lims = (.blk x, .blk y) ∧
      At b ((y, 8 * s.p) :: (x, 8 * s.p) :: ls) (100 * s.ranges.length + s.buf + 24 * s.p) m' ∧
      ls.map Prod.snd = List.replicate (s.ranges.length - 1) 100 := by
  generalize hE : 100 * s.ranges.length + s.buf + 24 * s.p = E
  have h := At.start hb E
  have hsave : Keeps 0 (fun m => Has m dir destSize) (saveSeed dir) :=
    keeps_saving keeps_touch fun _ _ _ _ k hp => k.has_base hp
  unfold genInit
  refine Ok.ite (fun e => ?_) fun e => ?_
  · refine Ok.bind (Ok.call h hsave hd (by simp [sz_nil]) fun _ m1 k1 => ?_)
    refine Ok.bind (Ok.touchRow (k1.tab_base ht) (by omega) ?_)
    refine Ok.bind (ok_initParm hs k1 (fun ls m' k => ?_) (by simp only [sz_nil]; omega) fun x y l1 m2 e1 k2 => ?_)
    · refine (k.tab_base ht).2.mono ?_
      have : 1 * s.p ≤ s.n * s.p := Nat.mul_le_mul_right _ (by omega)
      omega
    rw [List.append_nil] at k2
    refine Ok.bind (Ok.forM k2 (fun i hi m3 k3 => Ok.touchRow (k3.tab_base ht) (List.mem_range.mp hi) k3)
      fun m3 k3 => ?_)
    have z1 : sz l1 = (s.ranges.length - 1) * 100 := by
      rw [sz_of_map e1]
      simp
    refine Ok.bind (Ok.bind (Ok.alloc k3 (by simp only [sz_cons, sz_append]; omega) fun o m4 k4 => ?_))
    refine Ok.bind (Ok.bind (Ok.touch (k4.has_base hd) ?_))
    refine Ok.forM k4 (fun i hi m5 k5 => Ok.touchRow (k5.tab_base ht) (List.mem_range.mp hi) k5) fun m5 k5 => ?_
    refine Ok.bind (Ok.touch (k5.has 0 rfl le_rfl) ?_)
    refine Ok.free 0 k5 rfl fun m6 k6 => ?_
    exact Ok.pure ⟨x, y, l1, rfl, k6, e1⟩
  · refine Ok.bind (Ok.call h hsave hd (by simp [sz_nil]) fun _ m1 k1 => ?_)
    refine Ok.bind (Ok.alloc k1 (by simp only [sz_nil]; omega) fun c m2 k2 => ?_)
    refine Ok.bind (ok_initParm hs k2 (fun ls m' k => k.has_mid (l2 := []) rfl le_rfl)
      (by simp only [sz_cons, sz_nil]; omega) fun x y l1 m3 e1 k3 => ?_)
    refine Ok.bind (Ok.touch (k3.has_mid (l1 := (y, 8 * s.p) :: (x, 8 * s.p) :: l1) (l2 := []) (n := 8 * s.p) rfl
      le_rfl) ?_)
    refine Ok.bind (Ok.freeMid ((y, 8 * s.p) :: (x, 8 * s.p) :: l1) [] k3 rfl fun m4 k4 => ?_)
    rw [List.append_nil] at k4
    exact Ok.pure ⟨x, y, l1, rfl, k4, e1⟩

theorem keeps_initLogpost (hu : UserOk s u U) (hr : r < s.n) {dir data betas logposts : Ptr} {transit : Tab} :
    Keeps (8 * s.p + U) (fun m => Has m dir destSize ∧ HasTab m transit s.n s.p ∧ Has m data (8 * (s.lines * s.ndim)) ∧
      Has m betas (8 * s.n) ∧ Has m logposts (8 * s.n)) (initLogpost s u r dir transit data betas logposts) := by
  refine Keeps.intro fun g hw hp h => ?_
  obtain ⟨h1, h2, h3, h4, h5⟩ := hp
  unfold initLogpost
  refine Ok.ite (fun e => ?_) fun e => ?_
  · refine Ok.bind (Ok.forM h (fun i hi m1 k1 => Ok.touchRow (k1.tab_base h2) (List.mem_range.mp hi) k1) fun m1 k1 => ?_)
    refine Ok.bind (Ok.alloc k1 (by simp only [sz_nil]; omega) fun x m2 k2 => ?_)
    refine Ok.bind (Ok.touch (k2.has 0 rfl le_rfl) ?_)
    refine Ok.bind (Ok.call k2 (keeps_posterior hu) ⟨k2.has 0 rfl le_rfl, k2.has_base h3,
      (k2.has_base h4).mono (by omega)⟩ (by simp only [sz_cons, sz_nil]; omega) fun _ m3 k3 => ?_)
    refine Ok.bind (Ok.touch ((k3.has_base h5).mono (by omega)) ?_)
    refine Ok.bind (Ok.bind (Ok.alloc k3 (by simp only [sz_cons, sz_nil]; omega) fun o m4 k4 => ?_))
    refine Ok.bind (Ok.bind (Ok.touch (k4.has_base h1) ?_))
    refine Ok.touch (k4.has 1 rfl le_rfl) ?_
    refine Ok.bind (Ok.touch (k4.has 0 rfl le_rfl) ?_)
    refine Ok.free 0 k4 rfl fun m5 k5 => ?_
    replace k5 : At g [(x, 8 * s.p)] (8 * s.p + U) m5 := k5
    refine Ok.bind (Ok.forM k5 (fun i hi m6 k6 => ?_) fun m6 k6 => Ok.free 0 k6 rfl fun m7 k7 => k7)
    have hi' := List.mem_range.mp hi
    exact Ok.touch ((k6.has_base h5).mono (by omega)) k6
  · refine Ok.bind (Ok.alloc h (by simp only [sz_nil]; omega) fun x m2 k2 => ?_)
    refine Ok.bind (Ok.touch (k2.has 0 rfl le_rfl) ?_)
    refine Ok.bind (Ok.call k2 (keeps_posterior hu) ⟨k2.has 0 rfl le_rfl, k2.has_base h3,
      (k2.has_base h4).mono (by omega)⟩ (by simp only [sz_cons, sz_nil]; omega) fun _ m3 k3 => ?_)
    refine Ok.bind (Ok.bind (Ok.alloc k3 (by simp only [sz_cons, sz_nil]; omega) fun o m4 k4 => ?_))
    refine Ok.bind (Ok.bind (Ok.touch (k4.has_base h1) ?_))
    refine Ok.touch (k4.has 1 rfl le_rfl) ?_
    refine Ok.bind (Ok.touch (k4.has 0 rfl le_rfl) ?_)
    refine Ok.free 0 k4 rfl fun m5 k5 => ?_
    exact Ok.free 0 k5 rfl fun m7 k7 => k7

theorem Ok.onlyCall {b m : Mem} {l : List (Nat × Nat)} {E E' : Nat} {pre : Mem → Prop} {c : Prop} [Decidable c]
    {p : MM Unit} {Q : Unit → Mem → Prop} (h : At b l E m) (hp : Keeps E' pre p) (hpre : c → pre m) (hE : sz l + E' ≤ E)
    (k : ∀ m', At b l E m' → Q () m') : Ok (RankHeap.only c p) m Q :=
  Ok.only (fun hc => Ok.call h hp (hpre hc) hE fun _ m' h' => k m' h') fun _ => k m h

theorem ok_mainFlow (hs : SizesOk s) (hr : r < s.n) (hu : UserOk s u U) (hk : PlanOk s B plan) {b : Mem} (hb : WF b)
    {g : Globals} {data lo hi logposts : Ptr} {transit sigmas : Tab} (h1 : Has b g.dir destSize)
    (h2 : Has b g.betas (8 * s.nBeta)) (h3 : Has b data (8 * (s.lines * s.ndim))) (h4 : Has b lo (8 * s.p))
    (h5 : Has b hi (8 * s.p)) (h6 : r = 0 → HasTab b transit s.n s.p ∧ Has b logposts (8 * s.n) ∧ HasTab b sigmas s.n s.p) :
    Ok (mainFlow s u r plan g data lo hi transit logposts sigmas) b fun wb m' => ∃ x y, wb = (.blk x, .blk y) ∧
      At b [(y, 8 * s.n), (x, 8 * s.p)] (8 * s.n + 8 * s.p + flowBytes s U B) m' := by
  have h := At.start hb (8 * s.n + 8 * s.p + flowBytes s U B)
  have hladder := hs.ladder
  refine Ok.bind (Ok.alloc h (by simp only [sz_nil]; omega) fun x m1 k1 => ?_)
  refine Ok.bind (Ok.touch (k1.has 0 rfl le_rfl) ?_)
  refine Ok.bind (Ok.bind (Ok.alloc k1 (by simp only [sz_cons, sz_nil]; omega) fun o m2 k2 => ?_))
  refine Ok.bind (Ok.bind (Ok.touch (k2.has_base h1) ?_))
  refine Ok.touch (k2.has 1 rfl le_rfl) ?_
  refine Ok.bind (Ok.touch (k2.has 0 rfl le_rfl) ?_)
  refine Ok.free 0 k2 rfl fun m3 k3 => ?_
  replace k3 : At b [(x, 8 * s.p)] (8 * s.n + 8 * s.p + flowBytes s U B) m3 := k3
  have hrest : ∀ m, At b [(x, 8 * s.p)] (8 * s.n + 8 * s.p + flowBytes s U B) m → Ok (do
      let betas ← dbls s.n
      (List.range s.n).forM fun i => do
        touch betas (8 * (i + 1))
        touch g.betas (8 * (i + 1))
      flow s u ⟨g.dir, data, .blk x, betas, transit, logposts, sigmas, lo, hi⟩ r plan
      pure (Ptr.blk x, betas) : MM (Ptr × Ptr)) m fun wb m' => ∃ x y, wb = (.blk x, .blk y) ∧
      At b [(y, 8 * s.n), (x, 8 * s.p)] (8 * s.n + 8 * s.p + flowBytes s U B) m' := by
    intro m k4
    refine Ok.bind (Ok.alloc k4 (by simp only [sz_cons, sz_nil]; omega) fun y m5 k5 => ?_)
    refine Ok.bind (Ok.forM k5 (fun i hi' m6 k6 => ?_) fun m6 k6 => ?_)
    · have hi'' := List.mem_range.mp hi'
      refine Ok.bind (Ok.touch (k6.has 0 rfl (by omega)) ?_)
      exact Ok.touch ((k6.has_base h2).mono (by omega)) k6
    · refine Ok.bind (Ok.call k6 (keeps_flow hu hr hs.tune hs.parm hk) ⟨k6.has_base h1, k6.has_base h3,
        k6.has 1 rfl le_rfl, k6.has 0 rfl le_rfl, k6.has_base h4, k6.has_base h5, fun e => k6.tab_base (h6 e).1,
        fun e => k6.has_base (h6 e).2.1, fun e => k6.tab_base (h6 e).2.2⟩ (by simp only [sz_cons, sz_nil]; omega)
        fun _ m7 k7 => ?_)
      exact Ok.pure ⟨x, y, rfl, k7⟩
  refine Ok.bind (Ok.only (fun e => ?_) fun _ => hrest m3 k3)
  exact Ok.forM k3 (fun i hi' m4 k4 => Ok.touchRow (k4.tab_base (h6 e).2.2) (List.mem_range.mp hi') k4)
    fun m4 k4 => hrest m4 k4

/-! ## The run -/

theorem wf_empty : WF {} := ⟨by simp, by simp [Mem.size, sz]⟩

theorem heap_end {m0 m : Mem} {l0 l : List (Nat × Nat)} {E : Nat} (k0 : At {} l0 (3500 + 8 * s.nBeta + s.buf) m0)
    (e0 : l0.map Prod.snd = List.replicate 20 100 ++ [8 * s.nBeta] ++ List.replicate 14 100)
    (hE : s.buf + (8 * (s.lines * s.ndim) + 2 * (8 * s.n + 8 * (s.n * s.p)) + 100 * s.ranges.length + 24 * s.p +
      16 * s.n) + flowBytes s U B = E)
    (k : At m0 l E m) (el : l.map Prod.snd = (if r = 0 then [8 * s.n] else []) ++
      ([8 * s.p, 8 * s.p] ++ List.replicate (s.ranges.length - 1) 100)) :
    m.peak ≤ peakBytes s U B ∧ m.live.map Prod.snd = leftover s r := by
  refine ⟨?_, ?_⟩
  · have h1 := k.peak
    have h2 := k0.peak
    have h3 := k0.sz_eq
    have h4 : sz l0 = 3400 + 8 * s.nBeta := by
      have a1 : (List.replicate 20 100).sum = 2000 := rfl
      have a2 : (List.replicate 14 100).sum = 1400 := rfl
      rw [sz_of_map e0, List.sum_append, List.sum_append, List.sum_singleton, a1, a2]
      omega
    have h5 : Mem.size {} = 0 := rfl
    have h6 : (({} : Mem).peak) = 0 := rfl
    unfold peakBytes
    omega
  · have h1 : m0.live = l0 := by rw [k0.live]; simp
    rw [k.live, List.map_append, el, h1, e0]
    rfl

set_option maxHeartbeats 400000 in
/-- **The heap of a run.** On every rank, whatever the course of the run: no fault of a pointer, the memory in use within
a bound that does not depend on how many stacks the run has, and exactly the listed blocks left at the end. -/
theorem heap_run (hs : SizesOk s) (hr : r < s.n) (hu : UserOk s u U) (hk : PlanOk s B plan) :
    ∃ m, mainHeap s u r plan {} = .ok ((), m) ∧ m.peak ≤ peakBytes s U B ∧ m.live.map Prod.snd = leftover s r := by
  suffices H : Ok (mainHeap s u r plan) {} fun _ m => m.peak ≤ peakBytes s U B ∧ m.live.map Prod.snd = leftover s r by
    obtain ⟨⟨⟩, m, h1, h2⟩ := H
    exact ⟨m, h1, h2⟩
  refine Ok.bind ((ok_readInput hs wf_empty).mono fun g m0 hg => ?_)
  obtain ⟨l0, k0, e0, hdir, hbetas, hfile, hdelim⟩ := hg
  have hflow : 8 * s.p + U ≤ flowBytes s U B := by unfold flowBytes; omega
  generalize hE : s.buf + (8 * (s.lines * s.ndim) + 2 * (8 * s.n + 8 * (s.n * s.p)) + 100 * s.ranges.length + 24 * s.p +
    16 * s.n) + flowBytes s U B = E
  have h := At.start k0.toWF E
  have hn := hr
  -- the data
  refine Ok.bind (Ok.onlyCall h keeps_touch (fun _ => hdir) (by simp [sz_nil]) fun m1 k1 => ?_)
  refine Ok.bind (Ok.onlyCall k1 keeps_getNlines (fun _ => k1.has_base hfile) (by simp [sz_nil]) fun m2 k2 => ?_)
  refine Ok.bind (Ok.alloc k2 (by simp only [sz_nil]; omega) fun d m3 k3 => ?_)
  refine Ok.bind (Ok.call k3 (keeps_dataLoader hs) ⟨k3.has_base hfile, k3.has_base hdelim, k3.has 0 rfl le_rfl⟩
    (by simp only [sz_cons, sz_nil]; omega) fun _ m4 k4 => ?_)
  -- the start
  refine Ok.bind (Ok.tab k4 (by simp only [sz_cons, sz_nil]; omega) fun t1 t2 m5 k5 => ?_)
  refine Ok.bind ((ok_genInit hs hr k5.toWF (k5.has_base hdir) ⟨k5.has 1 rfl le_rfl, k5.has 0 rfl le_rfl⟩).mono
    fun lims m6 hl => ?_)
  obtain ⟨lo, hi, l1, rfl, k6', e1⟩ := hl
  have z1 : sz l1 + 100 ≤ 100 * s.ranges.length := by
    rw [sz_of_map e1]
    have := List.length_pos_iff.mpr hs.ranges
    simp
    omega
  have k6 := k5.trans k6' (by simp only [sz_cons, sz_nil]; omega)
  -- the first log-posteriors
  have hmem : ∀ {l' : List (Nat × Nat)} {m'}, At m0 (l' ++ ((hi, 8 * s.p) :: (lo, 8 * s.p) :: (l1 ++
      [(t2, 8 * (s.n * s.p)), (t1, 8 * s.n), (d, 8 * (s.lines * s.ndim))]))) E m' →
      HasTab m' ⟨.blk t1, .blk t2⟩ s.n s.p ∧ Has m' (.blk d) (8 * (s.lines * s.ndim)) := fun {l' m'} k =>
    ⟨⟨k.has_mid (l1 := l' ++ ((hi, 8 * s.p) :: (lo, 8 * s.p) :: (l1 ++ [(t2, 8 * (s.n * s.p))])))
      (l2 := [(d, 8 * (s.lines * s.ndim))]) (n := 8 * s.n) (by simp) le_rfl,
      k.has_mid (l1 := l' ++ ((hi, 8 * s.p) :: (lo, 8 * s.p) :: l1)) (l2 := [(t1, 8 * s.n), (d, 8 * (s.lines * s.ndim))])
      (n := 8 * (s.n * s.p)) (by simp) le_rfl⟩,
      k.has_mid (l1 := l' ++ ((hi, 8 * s.p) :: (lo, 8 * s.p) :: (l1 ++ [(t2, 8 * (s.n * s.p)), (t1, 8 * s.n)])))
      (l2 := []) (n := 8 * (s.lines * s.ndim)) (by simp) le_rfl⟩
  refine Ok.bind (Ok.alloc k6 (by simp only [List.cons_append, sz_append, sz_cons, sz_nil]; omega) fun q m7 k7 => ?_)
  have hq := hmem (l' := [(q, 8 * s.n)]) k7
  have hladder := hs.ladder
  refine Ok.bind (Ok.call k7 (keeps_initLogpost hu hr) ⟨k7.has_base hdir, hq.1, hq.2,
    (k7.has_base hbetas).mono (by omega), k7.has 0 rfl le_rfl⟩
    (by simp only [List.cons_append, sz_append, sz_cons, sz_nil]; omega) fun _ m8 k8 => ?_)
  refine Ok.bind (Ok.tab k8 (by simp only [List.cons_append, sz_append, sz_cons, sz_nil]; omega) fun g1 g2 m9 k9 => ?_)
  by_cases e : r = 0
  · refine Ok.bind (Ok.ite (fun _ => Ok.pure ?_) fun e' => absurd e e')
    have hg := hmem (l' := [(g2, 8 * (s.n * s.p)), (g1, 8 * s.n), (q, 8 * s.n)]) k9
    refine Ok.bind ((ok_mainFlow hs hr hu hk k9.toWF (k9.has_base hdir) (k9.has_base hbetas) hg.2 (k9.has 4 rfl le_rfl)
      (k9.has 3 rfl le_rfl) fun _ => ⟨hg.1, k9.has 2 rfl le_rfl, k9.has 1 rfl le_rfl, k9.has 0 rfl le_rfl⟩).mono
      fun wb m10 hwb => ?_)
    obtain ⟨w, be, rfl, k10'⟩ := hwb
    have k10 := k9.trans k10' (by simp only [List.cons_append, sz_append, sz_cons, sz_nil]; omega)
    have h10 := hmem (l' := [(be, 8 * s.n), (w, 8 * s.p), (g2, 8 * (s.n * s.p)), (g1, 8 * s.n), (q, 8 * s.n)]) k10
    refine Ok.bind (Ok.only (fun _ => ?_) fun e' => absurd e e')
    refine Ok.bind (Ok.bind (Ok.touch (h10.1.1.mono (by omega)) ?_))
    refine Ok.bind (Ok.freeMid (n := 8 * (s.n * s.p)) ((be, 8 * s.n) :: (w, 8 * s.p) :: (g2, 8 * (s.n * s.p)) ::
      (g1, 8 * s.n) :: (q, 8 * s.n) :: (hi, 8 * s.p) :: (lo, 8 * s.p) :: l1) [(t1, 8 * s.n), (d, 8 * (s.lines * s.ndim))] k10
      (by simp) fun m11 k11 => ?_)
    refine Ok.freeMid (n := 8 * s.n) ((be, 8 * s.n) :: (w, 8 * s.p) :: (g2, 8 * (s.n * s.p)) ::
      (g1, 8 * s.n) :: (q, 8 * s.n) :: (hi, 8 * s.p) :: (lo, 8 * s.p) :: l1) [(d, 8 * (s.lines * s.ndim))] k11
      (by simp) fun m12 k12 => ?_
    refine Ok.freeTab 2 k12 rfl rfl (by omega) fun m13 k13 => ?_
    replace k13 : At m0 ((be, 8 * s.n) :: (w, 8 * s.p) :: (q, 8 * s.n) :: (hi, 8 * s.p) :: (lo, 8 * s.p) ::
      (l1 ++ [(d, 8 * (s.lines * s.ndim))])) E m13 := k13
    refine Ok.bind (Ok.freeMid (n := 8 * (s.lines * s.ndim)) ((be, 8 * s.n) :: (w, 8 * s.p) :: (q, 8 * s.n) ::
      (hi, 8 * s.p) :: (lo, 8 * s.p) :: l1) [] k13 (by simp) fun m14 k14 => ?_)
    rw [List.append_nil] at k14
    refine Ok.bind (Ok.free 1 k14 rfl fun m15 k15 => ?_)
    refine Ok.free 0 k15 rfl fun m16 k16 => heap_end k0 e0 hE k16 ?_
    show 8 * s.n :: 8 * s.p :: 8 * s.p :: l1.map Prod.snd = _
    rw [e1, if_pos e]
    rfl
  · refine Ok.bind (Ok.ite (fun e' => absurd e' e) fun _ => ?_)
    have hg := hmem (l' := [(g2, 8 * (s.n * s.p)), (g1, 8 * s.n), (q, 8 * s.n)]) k9
    refine Ok.bind (Ok.bind (Ok.touch (hg.1.1.mono (by omega)) ?_))
    refine Ok.bind (Ok.freeMid (n := 8 * (s.n * s.p)) ((g2, 8 * (s.n * s.p)) ::
      (g1, 8 * s.n) :: (q, 8 * s.n) :: (hi, 8 * s.p) :: (lo, 8 * s.p) :: l1) [(t1, 8 * s.n), (d, 8 * (s.lines * s.ndim))] k9
      (by simp) fun m11 k11 => ?_)
    refine Ok.freeMid (n := 8 * s.n) ((g2, 8 * (s.n * s.p)) ::
      (g1, 8 * s.n) :: (q, 8 * s.n) :: (hi, 8 * s.p) :: (lo, 8 * s.p) :: l1) [(d, 8 * (s.lines * s.ndim))] k11
      (by simp) fun m12 k12 => ?_
    refine Ok.bind (Ok.free 2 k12 rfl fun m13 k13 => ?_)
    refine Ok.bind (Ok.freeTab 0 k13 rfl rfl (by omega) fun m14 k14 => Ok.pure ?_)
    replace k14 : At m0 ((hi, 8 * s.p) :: (lo, 8 * s.p) :: (l1 ++ [(d, 8 * (s.lines * s.ndim))])) E m14 := k14
    refine Ok.bind ((ok_mainFlow hs hr hu hk k14.toWF (k14.has_base hdir) (k14.has_base hbetas)
      (k14.has_mid (l1 := (hi, 8 * s.p) :: (lo, 8 * s.p) :: l1) (l2 := []) (n := 8 * (s.lines * s.ndim)) rfl le_rfl)
      (k14.has 1 rfl le_rfl) (k14.has 0 rfl le_rfl) fun e' => absurd e' e).mono fun wb m15 hwb => ?_)
    obtain ⟨w, be, rfl, k15'⟩ := hwb
    have k15 := k14.trans k15' (by simp only [sz_append, sz_cons, sz_nil]; omega)
    refine Ok.bind (Ok.only (fun e' => absurd e' e) fun _ => ?_)
    refine Ok.bind (Ok.freeMid (n := 8 * (s.lines * s.ndim)) ((be, 8 * s.n) :: (w, 8 * s.p) ::
      (hi, 8 * s.p) :: (lo, 8 * s.p) :: l1) [] k15 rfl fun m16 k16 => ?_)
    rw [List.append_nil] at k16
    refine Ok.bind (Ok.free 1 k16 rfl fun m17 k17 => ?_)
    refine Ok.free 0 k17 rfl fun m18 k18 => heap_end k0 e0 hE k18 ?_
    show 8 * s.p :: 8 * s.p :: l1.map Prod.snd = _
    rw [e1, if_neg e]
    rfl

/-- **Stacks do not accumulate memory.** Any number of stacks, with all their batches, swaps and tunings, leave exactly the
blocks that were live before, and need at most `flowBytes` beyond them, however many there are. -/
theorem heap_flow (hr : r < s.n) (hu : UserOk s u U) (hk : PlanOk s B plan) (hT : 0 < s.nTune) (hp : 0 < s.p) {c : Ctx}
    {m : Mem} (hm : WF m) (hc : CtxOk s r c m) :
    ∃ m', flow s u c r plan m = .ok ((), m') ∧ m'.live = m.live ∧ m'.peak ≤ max m.peak (m.size + flowBytes s U B) := by
  obtain ⟨⟨⟩, m', h1, h2⟩ := keeps_flow hu hr hT hp hk m hm hc
  exact ⟨m', h1, by simpa using h2.live, h2.peak⟩

/-- **What is never freed.** The bytes that are live when a rank ends. -/
theorem heap_leak (hs : SizesOk s) (hr : r < s.n) (hu : UserOk s u U) (hk : PlanOk s B plan) :
    ∃ m, mainHeap s u r plan {} = .ok ((), m) ∧
      m.size = 3300 + 100 * s.ranges.length + 8 * s.nBeta + 16 * s.p + (if r = 0 then 8 * s.n else 0) ∧
      m.live.length = 36 + s.ranges.length + (if r = 0 then 1 else 0) := by
  obtain ⟨m, h1, _, h3⟩ := heap_run hs hr hu hk
  have hlen := List.length_pos_iff.mpr hs.ranges
  refine ⟨m, h1, ?_, ?_⟩
  · have a1 : (List.replicate 20 100).sum = 2000 := rfl
    have a2 : (List.replicate 14 100).sum = 1400 := rfl
    have a3 : (List.replicate (s.ranges.length - 1) 100).sum = (s.ranges.length - 1) * 100 := by simp
    rw [Mem.size, sz_of_map h3, leftover]
    simp only [List.sum_append, List.sum_cons, List.sum_nil, a1, a2, a3]
    split
    · simp only [List.sum_cons, List.sum_nil]
      omega
    · simp only [List.sum_nil]
      omega
  · have h4 : m.live.length = (m.live.map Prod.snd).length := by rw [List.length_map]
    rw [h4, h3, leftover]
    simp only [List.length_append, List.length_cons, List.length_nil, List.length_replicate]
    split
    · simp only [List.length_cons, List.length_nil]
      omega
    · simp only [List.length_nil]
      omega

/-! ## A name that is missing or repeated -/

theorem fails_bind {α β : Type} {p : MM α} {f : α → MM β} {m : Mem} {e : MemFault}
    (h : Ok p m fun a m' => f a m' = .error e) : (p >>= f) m = .error e := by
  obtain ⟨a, m', h1, h2⟩ := h
  show (p m >>= fun x => f x.1 x.2) = _
  rw [h1]
  exact h2

theorem fails_bind_left {α β : Type} {p : MM α} {f : α → MM β} {m : Mem} {e : MemFault} (h : p m = .error e) :
    (p >>= f) m = .error e := by
  show (p m >>= fun x => f x.1 x.2) = _
  rw [h]
  rfl

theorem ok_readOnepara_any {m : Mem} (hm : WF m) (name : String) :
    Ok (readOnepara s name) m fun p m' => WF m' ∧ (s.found name = 1 → Has m' p destSize) ∧
      (s.found name ≠ 1 → p = .null) := by
  have h := At.start hm (100 + s.buf)
  refine Ok.bind (Ok.alloc h (by simp [sz_nil]) fun f m1 k1 => ?_)
  refine Ok.bind (Ok.alloc k1 (by simp only [sz_cons, sz_nil, destSize]; omega) fun p m2 k2 => ?_)
  refine Ok.bind (Ok.alloc k2 (by simp only [sz_cons, sz_nil, destSize]; omega) fun n m3 k3 => ?_)
  refine Ok.bind (Ok.touch (k3.has 0 rfl le_rfl) ?_)
  refine Ok.bind (Ok.touch (k3.has 1 rfl le_rfl) ?_)
  refine Ok.bind (Ok.touch (k3.has 2 rfl le_rfl) ?_)
  refine Ok.bind (Ok.free 2 k3 rfl fun m4 k4 => ?_)
  refine Ok.bind (Ok.free 0 k4 rfl fun m5 k5 => Ok.pure ⟨k5.toWF, fun hf => ?_, fun hf => if_neg hf⟩)
  rw [if_pos hf]
  exact k5.has 0 rfl le_rfl

theorem readNames_missing {names : List String} : ∀ {m : Mem} {last : Ptr}, WF m → (∃ x ∈ names, s.found x ≠ 1) →
    readNames s last names m = .error .null := by
  induction names with
  | nil => rintro m last _ ⟨x, hx, _⟩; simp at hx
  | cons name rest ih =>
    intro m last hm hx
    refine fails_bind ((ok_readOnepara_any (s := s) hm name).mono fun p m' hp => ?_)
    by_cases hf : s.found name = 1
    · refine fails_bind (Ok.touch (hp.2.1 hf) (ih hp.1 ?_))
      obtain ⟨x, hx, hne⟩ := hx
      rcases List.mem_cons.mp hx with rfl | hx
      · exact absurd hf hne
      · exact ⟨x, hx, hne⟩
    · rw [hp.2.2 hf]
      exact fails_bind_left rfl

/-- **Missing names.** If one of the names that `read_chains_grid` looks up is on no line of `input.ini` or on several,
every rank dereferences `NULL`. -/
theorem heap_missing_name (h : ∃ x ∈ gridNames, s.found x ≠ 1) : mainHeap s u r plan {} = .error .null :=
  fails_bind_left (fails_bind_left (fails_bind_left (readNames_missing wf_empty h)))

/-! ## Users -/

/-- The bundled models of the present interface need no memory of their own. -/
theorem plain_user_ok (s : Sizes) : UserOk s (plainUser s) 0 where
  logll chain data := Keeps.intro fun _ _ hp h => Ok.bind (Ok.touch hp.1 (Ok.touch hp.2 h))
  prior chain := keeps_touch
  boundary chain := keeps_touch

/-- The log-likelihood of the model `fit_orbit` frees what it allocates: it needs 104 bytes for every epoch and leaves
none, if there is at least one epoch. -/
theorem orbit_user_ok (s : Sizes) (h2 : 2 ≤ s.lines) : UserOk s (orbitUser s) (104 * (s.lines / 2)) where
  logll chain data := by
    refine Keeps.intro fun g _ hp h => ?_
    show Ok (do
      touch chain (8 * s.p)
      let a ← tab (s.lines / 2) 2
      let b ← tab (s.lines / 2) 2
      let c ← tab (s.lines / 2) 2
      let d ← tab (s.lines / 2) 2
      let e ← dbls (s.lines / 2)
      touch data (8 * (s.lines * s.ndim))
      touch e (8 * (s.lines / 2))
      (List.range (s.lines / 2)).forM fun i => do
        touchRow d i 2
        touchRow a i 2
        touchRow b i 2
        touchRow c i 2
      freeTab a
      freeTab b
      freeTab c
      freeTab d
      free e : MM Unit) g _
    generalize ht : s.lines / 2 = t at h ⊢
    have ht0 : 0 < t := by omega
    refine Ok.bind (Ok.touch hp.1 ?_)
    refine Ok.bind (Ok.tab h (by simp only [sz_nil]; omega) fun a1 a2 m1 k1 => ?_)
    refine Ok.bind (Ok.tab k1 (by simp only [sz_cons, sz_nil]; omega) fun b1 b2 m2 k2 => ?_)
    refine Ok.bind (Ok.tab k2 (by simp only [sz_cons, sz_nil]; omega) fun c1 c2 m3 k3 => ?_)
    refine Ok.bind (Ok.tab k3 (by simp only [sz_cons, sz_nil]; omega) fun d1 d2 m4 k4 => ?_)
    refine Ok.bind (Ok.alloc k4 (by simp only [sz_cons, sz_nil]; omega) fun e m5 k5 => ?_)
    refine Ok.bind (Ok.touch (k5.has_base hp.2) ?_)
    refine Ok.bind (Ok.touch (k5.has 0 rfl le_rfl) ?_)
    refine Ok.bind (Ok.forM k5 (fun i hi m6 k6 => ?_) fun m6 k6 => ?_)
    · have hi' := List.mem_range.mp hi
      refine Ok.bind (Ok.touchRow (n1 := t) ⟨k6.has 2 rfl le_rfl, k6.has 1 rfl le_rfl⟩ hi' ?_)
      refine Ok.bind (Ok.touchRow (n1 := t) ⟨k6.has 8 rfl le_rfl, k6.has 7 rfl le_rfl⟩ hi' ?_)
      refine Ok.bind (Ok.touchRow (n1 := t) ⟨k6.has 6 rfl le_rfl, k6.has 5 rfl le_rfl⟩ hi' ?_)
      exact Ok.touchRow (n1 := t) ⟨k6.has 4 rfl le_rfl, k6.has 3 rfl le_rfl⟩ hi' k6
    · refine Ok.bind (Ok.freeTab 7 k6 rfl rfl (by omega) fun m7 k7 => ?_)
      refine Ok.bind (Ok.freeTab 5 k7 rfl rfl (by omega) fun m8 k8 => ?_)
      refine Ok.bind (Ok.freeTab 3 k8 rfl rfl (by omega) fun m9 k9 => ?_)
      refine Ok.bind (Ok.freeTab 1 k9 rfl rfl (by omega) fun m10 k10 => ?_)
      exact Ok.free 0 k10 rfl fun m11 k11 => k11
  prior chain := (keeps_touch (p := chain)).mono (Nat.zero_le _) fun _ h => h
  boundary chain := (keeps_touch (p := chain)).mono (Nat.zero_le _) fun _ h => h

/-! ## A run that meets the hypotheses -/

/-- Two ranks, three parameters, ten lines of data, the six ranges of `models/regression`. -/
def demoSizes : Sizes where
  n := 2
  p := 3
  nBeta := 2
  betas := 2
  found := fun _ => 1
  ranges := ["a_min", "a_max", "b_min", "b_max", "d_min", "d_max"]
  blank := true
  lines := 10
  rows := 10
  ndim := 2
  nTune := 4
  buf := 120
  ladder := true

/-- Two stacks, with a swap, an adjusted ladder and a tuned rank. -/
def demoPlan : Plan :=
  [(⟨[(⟨2, fun i => i == 1, true⟩, [⟨0, 1, true⟩]), (⟨3, fun _ => false, false⟩, [⟨0, 1, false⟩])], true⟩,
      some [⟨1, fun _ _ => true, none, none⟩, ⟨0, fun _ _ => false, some 2, some 1⟩]),
    (⟨[(⟨1, fun _ => true, true⟩, [])], false⟩, none)]

theorem demo_sizes : SizesOk demoSizes := by
  refine ⟨fun _ _ => rfl, by simp [demoSizes], rfl, le_rfl, ?_, ?_, le_rfl⟩ <;> decide

theorem demo_plan : PlanOk demoSizes 3 demoPlan := by
  intro k hk
  simp only [demoPlan, List.mem_cons, List.not_mem_nil, or_false] at hk
  rcases hk with rfl | rfl <;> refine ⟨?_, ?_⟩ <;> simp [StackOk, TuneOk, demoSizes]

/-- Both ranks of that run end without a fault; the root leaves 3980 bytes in 43 blocks. -/
example : ∃ m, mainHeap demoSizes (plainUser demoSizes) 0 demoPlan {} = .ok ((), m) ∧ m.size = 3980 ∧
    m.live.length = 43 := by
  obtain ⟨m, h1, h2, h3⟩ := heap_leak demo_sizes (r := 0) (by decide) (plain_user_ok _) demo_plan
  exact ⟨m, h1, h2, h3⟩

example : ∃ m, mainHeap demoSizes (orbitUser demoSizes) 1 demoPlan {} = .ok ((), m) ∧
    m.peak ≤ peakBytes demoSizes 520 3 := by
  obtain ⟨m, h1, h2, _⟩ := heap_run demo_sizes (r := 1) (by decide) (orbit_user_ok _ (by decide)) demo_plan
  exact ⟨m, h1, h2⟩

/-- `N_iter` is forgotten. -/
example : mainHeap { demoSizes with found := fun x => if x = "N_iter" then 0 else 1 } (plainUser demoSizes) 1 demoPlan {}
    = .error .null :=
  heap_missing_name ⟨"N_iter", by simp [gridNames], by simp⟩

/-- The stacks of rank 1 with the six blocks that it has then. -/
example : ∃ m', flow demoSizes (plainUser demoSizes) ⟨.blk 0, .blk 1, .blk 2, .blk 3, ⟨.null, .null⟩, .null, ⟨.null, .null⟩, .blk 4, .blk 5⟩ 1 demoPlan
    { live := [(5, 24), (4, 24), (3, 16), (2, 24), (1, 160), (0, 100)], next := 6, peak := 348 } = .ok ((), m') ∧
    m'.live = [(5, 24), (4, 24), (3, 16), (2, 24), (1, 160), (0, 100)] ∧ m'.peak ≤ 348 + flowBytes demoSizes 0 3 := by
  obtain ⟨m', h1, h2, h3⟩ := heap_flow (s := demoSizes) (r := 1) (by decide) (plain_user_ok _) demo_plan (by decide) (by decide)
    (c := ⟨.blk 0, .blk 1, .blk 2, .blk 3, ⟨.null, .null⟩, .null, ⟨.null, .null⟩, .blk 4, .blk 5⟩)
    (m := { live := [(5, 24), (4, 24), (3, 16), (2, 24), (1, 160), (0, 100)], next := 6, peak := 348 }) ⟨by decide, by decide⟩
    ⟨⟨100, rfl, by decide⟩, ⟨160, rfl, by decide⟩, ⟨24, rfl, by decide⟩, ⟨16, rfl, by decide⟩, ⟨24, rfl, by decide⟩, ⟨24, rfl, by decide⟩,
      fun h => absurd h (by decide), fun h => absurd h (by decide), fun h => absurd h (by decide)⟩
  exact ⟨m', h1, h2, h3.trans (max_le (Nat.le_add_right _ _) le_rfl)⟩

end NiiC.RankHeap
