import Verif.Model.MemoryRules

/-!
# What each function needs of the heap

One lemma per function of `Model/Memory.lean`: under which blocks it runs without a fault, that it leaves the blocks as
it found them, and the bytes it needs meanwhile. Used by `Props/Memory.lean`.
-/

namespace NiiC.RankHeap

variable {α : Type}

theorem Keeps.mono {E E' : Nat} {pre pre' : Mem → Prop} {p : MM α} (h : Keeps E pre p) (hE : E ≤ E')
    (hpre : ∀ m, pre' m → pre m) : Keeps E' pre' p := by
  intro m hw hp
  refine (h m hw (hpre m hp)).mono fun _ m' h' => ⟨h'.wf, h'.live, h'.next, h'.keys, h'.nodup, ?_, h'.size⟩
  have := h'.peak
  omega

theorem sz_cons (x n : Nat) (l : List (Nat × Nat)) : sz ((x, n) :: l) = n + sz l := by simp [sz]

theorem sz_nil : sz [] = 0 := rfl

/-- The user's functions run without a fault on a chain and the data, leave the blocks as they found them, and need at
most `U` bytes meanwhile. -/
structure UserOk (s : Sizes) (u : UserHeap) (U : Nat) : Prop where
  logll : ∀ chain data, Keeps U (fun m => Has m chain (8 * s.p) ∧ Has m data (8 * (s.lines * s.ndim))) (u.logll chain data)
  prior : ∀ chain, Keeps U (fun m => Has m chain (8 * s.p)) (u.prior chain)
  boundary : ∀ chain, Keeps U (fun m => Has m chain (8 * s.p)) (u.boundary chain)

/-- The blocks a rank carries around are live and large enough. -/
structure CtxOk (s : Sizes) (r : Nat) (c : Ctx) (m : Mem) : Prop where
  dir : Has m c.dir destSize
  data : Has m c.data (8 * (s.lines * s.ndim))
  widths : Has m c.widths (8 * s.p)
  betas : Has m c.betas (8 * s.n)
  lo : Has m c.lo (8 * s.p)
  hi : Has m c.hi (8 * s.p)
  transit : r = 0 → HasTab m c.transit s.n s.p
  logposts : r = 0 → Has m c.logposts (8 * s.n)
  sigmas : r = 0 → HasTab m c.sigmas s.n s.p

theorem CtxOk.at {s : Sizes} {r : Nat} {c : Ctx} {b m : Mem} {l : List (Nat × Nat)} {E : Nat} (h : CtxOk s r c b)
    (hA : At b l E m) : CtxOk s r c m :=
  ⟨hA.has_base h.dir, hA.has_base h.data, hA.has_base h.widths, hA.has_base h.betas, hA.has_base h.lo, hA.has_base h.hi,
    fun e => hA.tab_base (h.transit e), fun e => hA.has_base (h.logposts e), fun e => hA.tab_base (h.sigmas e)⟩

/-- A function `save_*` whose body keeps the heap. -/
theorem keeps_saving {pre : Mem → Prop} {body : MM Unit} (hb : Keeps 0 pre body)
    (hs : ∀ b m l E, At b l E m → pre b → pre m) : Keeps 0 pre (saving body) := by
  refine Keeps.intro fun b hw hp h => ?_
  refine Ok.bind (Ok.alloc h (by simp [sz_nil]) fun x m1 h1 => ?_)
  refine Ok.bind (Ok.call h1 hb (hs _ _ _ _ h1 hp) (by simp [sz_cons, sz_nil]) fun _ m2 h2 => ?_)
  refine Ok.bind (Ok.touch (h2.has 0 rfl (Nat.zero_le _)) ?_)
  exact Ok.free 0 h2 rfl fun m3 h3 => h3

theorem keeps_touch {p : Ptr} {k : Nat} : Keeps 0 (fun m => Has m p k) (touch p k) :=
  Keeps.intro fun _ _ hp h => Ok.touch hp h

section

variable {s : Sizes} {u : UserHeap} {U : Nat} {r : Nat} {c : Ctx}

theorem keeps_posterior (hu : UserOk s u U) {chain data betas : Ptr} {i : Nat} :
    Keeps U (fun m => Has m chain (8 * s.p) ∧ Has m data (8 * (s.lines * s.ndim)) ∧ Has m betas (8 * (i + 1)))
      (posterior s u chain data betas i) := by
  refine Keeps.intro fun b hw hp h => ?_
  obtain ⟨h1, h2, h3⟩ := hp
  refine Ok.bind (Ok.touch h3 ?_)
  refine Ok.bind (Ok.call h (hu.logll chain data) ⟨h1, h2⟩ (by simp [sz_nil]) fun _ m1 k1 => ?_)
  refine Ok.bind (Ok.call k1 (hu.prior chain) (k1.has_base h1) (by simp [sz_nil]) fun _ m2 k2 => ?_)
  exact Ok.touch (k2.has_base h1) k2

theorem keeps_mhIter (hu : UserOk s u U) {beta : Nat} {chain : Tab} {logpost new : Ptr} {acc : Bool} {i len : Nat}
    (hi : i < len) (hbeta : beta < s.n) :
    Keeps U (fun m => Has m c.widths (8 * s.p) ∧ Has m c.data (8 * (s.lines * s.ndim)) ∧ Has m c.betas (8 * s.n) ∧
      HasTab m chain len s.p ∧ Has m logpost (8 * len) ∧ Has m new (8 * s.p))
      (mhIter s u c beta chain logpost new acc i) := by
  refine Keeps.intro fun b hw hp h => ?_
  obtain ⟨h1, h2, h3, h4, h5, h6⟩ := hp
  refine Ok.bind (Ok.only (fun h0 => Ok.touch (h5.mono (by omega)) ?_) fun _ => ?_)
  all_goals
    refine Ok.bind (Ok.touchRow h4 (by omega) ?_)
    refine Ok.bind (Ok.touch h1 ?_)
    refine Ok.bind (Ok.touch h6 ?_)
    refine Ok.bind (Ok.call h (hu.boundary new) h6 (by simp [sz_nil]) fun _ m1 k1 => ?_)
    refine Ok.bind (Ok.call k1 (keeps_posterior hu) ⟨k1.has_base h6, k1.has_base h2, (k1.has_base h3).mono (by omega)⟩
      (by simp [sz_nil]) fun _ m2 k2 => ?_)
    have hset : Ok (do
        touchRow chain i s.p
        touch logpost (8 * (i + 1)) : MM Unit) m2 fun _ m' => At b [] U m' := by
      refine Ok.bind (Ok.touchRow (k2.tab_base h4) hi ?_)
      exact Ok.touch ((k2.has_base h5).mono (by omega)) k2
    exact Ok.ite (fun _ => hset) fun _ => Ok.only (fun _ => hset) fun _ => k2

theorem keeps_iterBatch (hu : UserOk s u U) {chain : Tab} {b : BatchPlan} (hr : r < s.n) (hlen : 0 < b.len) :
    Keeps (16 * b.len + 8 * s.p + U) (fun m => Has m c.dir destSize ∧ Has m c.widths (8 * s.p) ∧
      Has m c.data (8 * (s.lines * s.ndim)) ∧ Has m c.betas (8 * s.n) ∧ HasTab m chain b.len s.p)
      (iterBatch s u c r chain b) := by
  refine Keeps.intro fun g hw hp h => ?_
  obtain ⟨h0, h1, h2, h3, h4⟩ := hp
  refine Ok.bind (Ok.alloc h (by simp only [sz_nil]; omega) fun x1 m1 k1 => ?_)
  refine Ok.bind (Ok.alloc k1 (by simp only [sz_cons, sz_nil]; omega) fun x2 m2 k2 => ?_)
  refine Ok.bind (Ok.alloc k2 (by simp only [sz_cons, sz_nil]; omega) fun x3 m3 k3 => ?_)
  refine Ok.bind (Ok.touchRow (k3.tab_base h4) hlen ?_)
  refine Ok.bind (Ok.alloc k3 (by simp only [sz_cons, sz_nil]; omega) fun x4 m4 k4 => ?_)
  refine Ok.bind (Ok.touch (k4.has 1 rfl (by omega)) ?_)
  refine Ok.bind (Ok.forM k4 (fun i hi m5 k5 => ?_) fun m5 k5 => ?_)
  · have hi' := List.mem_range.mp hi
    refine Ok.bind (Ok.call k5 (keeps_mhIter hu hi' hr) ⟨k5.has_base h1, k5.has_base h2, k5.has_base h3, k5.tab_base h4,
      k5.has 1 rfl le_rfl, k5.has 0 rfl le_rfl⟩ (by simp only [sz_cons, sz_nil]; omega) fun _ m6 k6 => ?_)
    refine Ok.bind (Ok.touch (k6.has 2 rfl (by omega)) ?_)
    exact Ok.touch (k6.has 3 rfl (by omega)) k6
  · have hend : ∀ m, At g [(x4, 8 * s.p), (x3, 8 * b.len), (x2, 4 * b.len), (x1, 4 * b.len)]
        (16 * b.len + 8 * s.p + U) m → Ok (do
        touch (.blk x3) (8 * b.len)
        free (.blk x4)
        free (.blk x3)
        free (.blk x1)
        free (.blk x2) : MM Unit) m fun _ m' => At g [] (16 * b.len + 8 * s.p + U) m' := by
      intro m k
      refine Ok.bind (Ok.touch (k.has 1 rfl le_rfl) ?_)
      refine Ok.bind (Ok.free 0 k rfl fun m7 k7 => ?_)
      refine Ok.bind (Ok.free 0 k7 rfl fun m8 k8 => ?_)
      refine Ok.bind (Ok.free 1 k8 rfl fun m9 k9 => ?_)
      exact Ok.free 0 k9 rfl fun m10 k10 => k10
    refine Ok.bind (Ok.only (fun _ => ?_) fun _ => hend _ k5)
    refine Ok.bind (Ok.alloc k5 (by simp only [sz_cons, sz_nil]; omega) fun x5 m6 k6 => ?_)
    refine Ok.bind (Ok.bind (Ok.touch (k6.has_base h0) ?_))
    refine Ok.forM k6 (fun i hi m7 k7 => ?_) fun m7 k7 => ?_
    · have hi' := List.mem_range.mp hi
      refine Ok.bind (Ok.touchRow (k7.tab_base h4) hi' ?_)
      refine Ok.bind (Ok.touch (k7.has 2 rfl (by omega)) ?_)
      refine Ok.bind (Ok.touch (k7.has 3 rfl (by omega)) ?_)
      exact Ok.touch (k7.has 4 rfl (by omega)) k7
    · refine Ok.bind (Ok.touch (k7.has 0 rfl le_rfl) ?_)
      exact Ok.free 0 k7 rfl fun m8 k8 => hend _ k8

theorem keeps_runBatch (hu : UserOk s u U) {b : BatchPlan} (hr : r < s.n) (hlen : 0 < b.len) :
    Keeps (8 * b.len + 8 * (b.len * s.p) + (16 * b.len + 8 * s.p + U)) (CtxOk s r c) (runBatch s u c r b) := by
  refine Keeps.intro fun g hw hc h => ?_
  unfold runBatch
  refine Ok.ite (fun e => ?_) fun _ => ?_
  · have ht := hc.transit e
    have hl := hc.logposts e
    have hmsg : ∀ (l : List (Nat × Nat)) E m, At g l E m → ∀ i ∈ List.range s.n, ∀ m', At g l E m' → Ok (do
        touchRow c.transit i s.p
        touch c.logposts (8 * (i + 1)) : MM Unit) m' fun _ m'' => At g l E m'' := by
      intro l E m _ i hi m' k
      have hi' := List.mem_range.mp hi
      refine Ok.bind (Ok.touchRow (k.tab_base ht) hi' ?_)
      exact Ok.touch ((k.has_base hl).mono (by omega)) k
    refine Ok.bind (Ok.forM h (hmsg _ _ _ h) fun m0 k0 => ?_)
    refine Ok.bind (Ok.tab k0 (by simp only [sz_nil]; omega) fun x y m1 k1 => ?_)
    have hch : ∀ m', At g [(y, 8 * (b.len * s.p)), (x, 8 * b.len)]
        (8 * b.len + 8 * (b.len * s.p) + (16 * b.len + 8 * s.p + U)) m' → HasTab m' ⟨.blk x, .blk y⟩ b.len s.p :=
      fun m' k => ⟨k.has 1 rfl le_rfl, k.has 0 rfl le_rfl⟩
    refine Ok.bind (Ok.touchRow (hch _ k1) hlen ?_)
    refine Ok.bind (Ok.touchRow (k1.tab_base ht) (by omega) ?_)
    refine Ok.bind (Ok.touch ((k1.has_base hl).mono (by omega)) ?_)
    have hc1 := hc.at k1
    refine Ok.bind (Ok.call k1 (keeps_iterBatch hu (by omega) hlen) ⟨hc1.dir, hc1.widths, hc1.data, hc1.betas, hch _ k1⟩
      (by simp only [sz_cons, sz_nil]; omega) fun _ m2 k2 => ?_)
    refine Ok.bind (Ok.touch ((k2.has_base hl).mono (by omega)) ?_)
    refine Ok.bind (Ok.touchRow (k2.tab_base ht) (by omega) ?_)
    refine Ok.bind (Ok.touchRow (hch _ k2) (by omega) ?_)
    refine Ok.bind (Ok.forM k2 (hmsg _ _ _ k2) fun m3 k3 => ?_)
    exact Ok.freeTab 0 k3 rfl rfl (by omega) fun m4 k4 => k4
  · refine Ok.bind (Ok.tab h (by simp only [sz_nil]; omega) fun x y m1 k1 => ?_)
    have hch : ∀ m', At g [(y, 8 * (b.len * s.p)), (x, 8 * b.len)]
        (8 * b.len + 8 * (b.len * s.p) + (16 * b.len + 8 * s.p + U)) m' → HasTab m' ⟨.blk x, .blk y⟩ b.len s.p :=
      fun m' k => ⟨k.has 1 rfl le_rfl, k.has 0 rfl le_rfl⟩
    refine Ok.bind (Ok.touchRow (hch _ k1) hlen ?_)
    have hc1 := hc.at k1
    refine Ok.bind (Ok.call k1 (keeps_iterBatch hu hr hlen) ⟨hc1.dir, hc1.widths, hc1.data, hc1.betas, hch _ k1⟩
      (by simp only [sz_cons, sz_nil]; omega) fun _ m2 k2 => ?_)
    refine Ok.bind (Ok.touchRow (hch _ k2) (by omega) ?_)
    exact Ok.freeTab 0 k2 rfl rfl (by omega) fun m4 k4 => k4

theorem keeps_judgeSwap (hu : UserOk s u U) {w : SwapPlan} (hi : w.i < s.n) (hj : w.j < s.n) :
    Keeps (8 * s.p + U) (CtxOk s r c) (judgeSwap s u c r w) := by
  refine Keeps.intro fun g hw hc h => ?_
  unfold judgeSwap
  refine Ok.ite (fun e => ?_) fun _ => Ok.ite (fun _ => ?_) fun _ => Ok.pure h
  · have ht := hc.transit e
    have hl := hc.logposts e
    refine Ok.bind (Ok.touch (hl.mono (by omega)) ?_)
    refine Ok.bind (Ok.touch (hl.mono (by omega)) ?_)
    refine Ok.bind (Ok.touchRow ht hj ?_)
    refine Ok.bind (Ok.alloc h (by simp only [sz_nil]; omega) fun x m1 k1 => ?_)
    refine Ok.bind (Ok.touchRow (k1.tab_base ht) hi ?_)
    refine Ok.bind (Ok.touch (k1.has 0 rfl le_rfl) ?_)
    refine Ok.bind (Ok.call k1 (keeps_posterior hu) ⟨k1.has 0 rfl le_rfl, k1.has_base hc.data,
      (k1.has_base hc.betas).mono (by omega)⟩ (by simp only [sz_cons, sz_nil]; omega) fun _ m2 k2 => ?_)
    refine Ok.bind (Ok.only (fun _ => ?_) fun _ => Ok.free 0 k2 rfl fun m3 k3 => k3)
    refine Ok.bind (Ok.touchRow (k2.tab_base ht) hi ?_)
    refine Ok.bind (Ok.touchRow (k2.tab_base ht) hj ?_)
    refine Ok.bind (Ok.touch ((k2.has_base hl).mono (by omega)) ?_)
    refine Ok.touch ((k2.has_base hl).mono (by omega)) ?_
    exact Ok.free 0 k2 rfl fun m3 k3 => k3
  · refine Ok.bind (Ok.alloc h (by simp only [sz_nil]; omega) fun x m1 k1 => ?_)
    refine Ok.bind (Ok.touch (k1.has 0 rfl le_rfl) ?_)
    refine Ok.bind (Ok.call k1 (keeps_posterior hu) ⟨k1.has 0 rfl le_rfl, k1.has_base hc.data,
      (k1.has_base hc.betas).mono (by omega)⟩ (by simp only [sz_cons, sz_nil]; omega) fun _ m2 k2 => ?_)
    exact Ok.free 0 k2 rfl fun m3 k3 => k3

theorem keeps_adjustLadder {nswaps nprops : Ptr} :
    Keeps (16 * s.n) (fun m => Has m c.betas (8 * s.n) ∧ Has m nswaps (8 * s.n) ∧ Has m nprops (8 * s.n))
      (adjustLadder s c r nswaps nprops) := by
  refine Keeps.intro fun g hw hp h => ?_
  obtain ⟨h1, h2, h3⟩ := hp
  unfold adjustLadder
  refine Ok.bind (Ok.only (fun _ => ?_) fun _ => Ok.touch h1 h)
  refine Ok.bind (Ok.alloc h (by simp only [sz_nil]; omega) fun x m1 k1 => ?_)
  refine Ok.bind (Ok.touch (k1.has 0 rfl le_rfl) ?_)
  refine Ok.bind (Ok.touch (k1.has_base h1) ?_)
  refine Ok.bind (Ok.alloc k1 (by simp only [sz_cons, sz_nil]; omega) fun y m2 k2 => ?_)
  refine Ok.bind (Ok.touch (k2.has 0 rfl le_rfl) ?_)
  refine Ok.bind (Ok.touch ((k2.has_base h2).mono (by omega)) ?_)
  refine Ok.bind (Ok.touch ((k2.has_base h3).mono (by omega)) ?_)
  refine Ok.bind (Ok.touch (k2.has 1 rfl le_rfl) ?_)
  refine Ok.bind (Ok.touch (k2.has_base h1) ?_)
  refine Ok.bind (Ok.free 0 k2 rfl fun m3 k3 => ?_)
  exact Ok.free 0 k3 rfl fun m4 k4 => Ok.touch (k4.has_base h1) k4

/-- The batches of a stack have between one and `B` iterations and its swaps are between ranks of the run. -/
def StackOk (s : Sizes) (B : Nat) (k : StackPlan) : Prop :=
  ∀ bw ∈ k.batches, 0 < bw.1.len ∧ bw.1.len ≤ B ∧ ∀ w ∈ bw.2, w.i < s.n ∧ w.j < s.n

/-- Bytes a batch of `B` iterations needs. -/
def batchBytes (s : Sizes) (U B : Nat) : Nat := 8 * B + 8 * (B * s.p) + (16 * B + 8 * s.p + U)

theorem batchBytes_mono {B B' : Nat} (h : B ≤ B') : batchBytes s U B ≤ batchBytes s U B' := by
  have := Nat.mul_le_mul_right s.p h
  unfold batchBytes
  omega

theorem keeps_runStack (hu : UserOk s u U) {B : Nat} {k : StackPlan} (hr : r < s.n) (hk : StackOk s B k) :
    Keeps (16 * s.n + max (16 * s.n) (max (8 * s.p + U) (batchBytes s U B))) (CtxOk s r c) (runStack s u c r k) := by
  refine Keeps.intro fun g hw hc h => ?_
  generalize hE : 16 * s.n + max (16 * s.n) (max (8 * s.p + U) (batchBytes s U B)) = E at h ⊢
  refine Ok.bind (Ok.alloc h (by simp only [sz_nil]; omega) fun x m1 k1 => ?_)
  refine Ok.bind (Ok.alloc k1 (by simp only [sz_cons, sz_nil]; omega) fun y m2 k2 => ?_)
  have hadj : ∀ m, At g [(y, 8 * s.n), (x, 8 * s.n)] E m → Ok (do
      only (k.adjust ∧ s.ladder) (adjustLadder s c r (.blk x) (.blk y))
      free (.blk x)
      free (.blk y) : MM Unit) m fun _ m' => At g [] E m' := by
    intro m km
    have hfree : ∀ m, At g [(y, 8 * s.n), (x, 8 * s.n)] E m → Ok (do
        free (.blk x)
        free (.blk y) : MM Unit) m fun _ m' => At g [] E m' := by
      intro m km
      refine Ok.bind (Ok.free 1 km rfl fun m3 k3 => ?_)
      exact Ok.free 0 k3 rfl fun m4 k4 => k4
    refine Ok.bind (Ok.only (fun _ => ?_) fun _ => hfree _ km)
    exact Ok.call km keeps_adjustLadder ⟨km.has_base hc.betas, km.has 1 rfl le_rfl, km.has 0 rfl le_rfl⟩
      (by simp only [sz_cons, sz_nil]; omega) fun _ m3 k3 => hfree _ k3
  have hloop : ∀ m, At g [(y, 8 * s.n), (x, 8 * s.n)] E m → Ok (do
      k.batches.forM fun bw => do
        runBatch s u c r bw.1
        bw.2.forM fun w => do
          judgeSwap s u c r w
          only (s.ladder ∧ r = 0) (do
            touch (.blk y) (8 * (w.i + 1))
            touch (.blk x) (8 * (w.i + 1)))
      only (k.adjust ∧ s.ladder) (adjustLadder s c r (.blk x) (.blk y))
      free (.blk x)
      free (.blk y) : MM Unit) m fun _ m' => At g [] E m' := by
    intro m km
    refine Ok.bind (Ok.forM km (fun bw hbw m3 k3 => ?_) fun m3 k3 => hadj _ k3)
    obtain ⟨hl1, hl2, hsw⟩ := hk bw hbw
    have hbb := batchBytes_mono (s := s) (U := U) hl2
    refine Ok.bind (Ok.call k3 (keeps_runBatch hu hr hl1) (hc.at k3) ?_ fun _ m4 k4 => ?_)
    · unfold batchBytes at hbb
      unfold batchBytes at hE
      simp only [sz_cons, sz_nil]
      omega
    · refine Ok.forM k4 (fun w hw' m5 k5 => ?_) fun m5 k5 => k5
      obtain ⟨hi, hj⟩ := hsw w hw'
      refine Ok.bind (Ok.call k5 (keeps_judgeSwap hu hi hj) (hc.at k5) (by simp only [sz_cons, sz_nil]; omega)
        fun _ m6 k6 => ?_)
      refine Ok.only (fun _ => ?_) fun _ => k6
      refine Ok.bind (Ok.touch (k6.has 0 rfl (by omega)) ?_)
      exact Ok.touch (k6.has 1 rfl (by omega)) k6
  have hsave : ∀ m, At g [(y, 8 * s.n), (x, 8 * s.n)] E m → Ok (do
      only (r = 0) (saving (do
        touch c.dir destSize
        touch c.betas (8 * s.n)))
      k.batches.forM fun bw => do
        runBatch s u c r bw.1
        bw.2.forM fun w => do
          judgeSwap s u c r w
          only (s.ladder ∧ r = 0) (do
            touch (.blk y) (8 * (w.i + 1))
            touch (.blk x) (8 * (w.i + 1)))
      only (k.adjust ∧ s.ladder) (adjustLadder s c r (.blk x) (.blk y))
      free (.blk x)
      free (.blk y) : MM Unit) m fun _ m' => At g [] E m' := by
    intro m km
    refine Ok.bind (Ok.only (fun _ => ?_) fun _ => hloop _ km)
    refine Ok.bind (Ok.alloc km (by simp only [sz_cons, sz_nil]; omega) fun z m3 k3 => ?_)
    refine Ok.bind (Ok.bind (Ok.touch (k3.has_base hc.dir) ?_))
    refine Ok.touch (k3.has_base hc.betas) ?_
    refine Ok.bind (Ok.touch (k3.has 0 rfl le_rfl) ?_)
    exact Ok.free 0 k3 rfl fun m4 k4 => hloop _ k4
  refine Ok.bind (Ok.only (fun _ => ?_) fun _ => hsave _ k2)
  refine Ok.bind (Ok.touch (k2.has 1 rfl le_rfl) ?_)
  exact Ok.touch (k2.has 0 rfl le_rfl) (hsave _ k2)

/-! ## Tuning -/

theorem keeps_iterTune (hu : UserOk s u U) {rank : Nat} {chain : Tab} {acc : Nat → Bool} (hr : rank < s.n)
    (hT : 0 < s.nTune) :
    Keeps (8 * s.nTune + 8 * s.p + U) (fun m => Has m c.widths (8 * s.p) ∧ Has m c.data (8 * (s.lines * s.ndim)) ∧
      Has m c.betas (8 * s.n) ∧ HasTab m chain s.nTune s.p) (iterTune s u c rank chain acc) := by
  refine Keeps.intro fun g hw hp h => ?_
  obtain ⟨h1, h2, h3, h4⟩ := hp
  refine Ok.bind (Ok.alloc h (by simp only [sz_nil]; omega) fun x m1 k1 => ?_)
  refine Ok.bind (Ok.touchRow (k1.tab_base h4) hT ?_)
  refine Ok.bind (Ok.alloc k1 (by simp only [sz_cons, sz_nil]; omega) fun y m2 k2 => ?_)
  refine Ok.bind (Ok.touch (k2.has 1 rfl (by omega)) ?_)
  refine Ok.bind (Ok.forM k2 (fun i hi m3 k3 => ?_) fun m3 k3 => ?_)
  · exact Ok.call k3 (keeps_mhIter hu (List.mem_range.mp hi) hr) ⟨k3.has_base h1, k3.has_base h2, k3.has_base h3,
      k3.tab_base h4, k3.has 1 rfl le_rfl, k3.has 0 rfl le_rfl⟩ (by simp only [sz_cons, sz_nil]; omega) fun _ m4 k4 => k4
  · refine Ok.bind (Ok.free 0 k3 rfl fun m4 k4 => ?_)
    exact Ok.free 0 k4 rfl fun m5 k5 => k5

/-- Bytes a tuning batch needs. -/
def tuneBytes (s : Sizes) (U : Nat) : Nat := 8 * s.nTune + 8 * (s.nTune * s.p) + (8 * s.nTune + 8 * s.p + U)

theorem keeps_tuneParm (hu : UserOk s u U) {t : TunePlan} {single : Ptr} {ar : Tab} {j : Nat} (ht : t.rank < s.n)
    (hT : 0 < s.nTune) (hj : j < s.p) :
    Keeps (tuneBytes s U) (fun m => CtxOk s r c m ∧ Has m single (8 * s.p) ∧ (r = 0 → HasTab m ar s.p s.n))
      (tuneParm s u c r t single ar j) := by
  refine Keeps.intro fun g hw hp h => ?_
  obtain ⟨hc, h1, h2⟩ := hp
  unfold tuneBytes at h ⊢
  have hmain : ∀ x y m1, At g [(y, 8 * (s.nTune * s.p)), (x, 8 * s.nTune)]
      (8 * s.nTune + 8 * (s.nTune * s.p) + (8 * s.nTune + 8 * s.p + U)) m1 → ∀ Q : Unit → Mem → Prop,
      (∀ m', At g [(y, 8 * (s.nTune * s.p)), (x, 8 * s.nTune)]
        (8 * s.nTune + 8 * (s.nTune * s.p) + (8 * s.nTune + 8 * s.p + U)) m' → Q () m') →
      Ok (iterTune s u c t.rank ⟨.blk x, .blk y⟩ (t.accept j)) m1 Q := by
    intro x y m1 k1 Q hQ
    have hc1 := hc.at k1
    exact Ok.call k1 (keeps_iterTune hu ht hT) ⟨hc1.widths, hc1.data, hc1.betas, k1.has 1 rfl le_rfl, k1.has 0 rfl le_rfl⟩
      (by simp only [sz_cons, sz_nil]; omega) fun _ m2 k2 => hQ m2 k2
  unfold tuneParm
  refine Ok.ite (fun e => ?_) fun _ => ?_
  · refine Ok.bind (Ok.tab h (by simp only [sz_nil]; omega) fun x y m1 k1 => ?_)
    refine Ok.bind (Ok.touchRow (n1 := s.nTune) ⟨k1.has 1 rfl le_rfl, k1.has 0 rfl le_rfl⟩ hT ?_)
    refine Ok.bind (Ok.touch (k1.has_base h1) ?_)
    refine Ok.bind (hmain x y m1 k1 _ fun m2 k2 => ?_)
    refine Ok.bind (Ok.touchRow (k2.tab_base (h2 e)) hj ?_)
    exact Ok.freeTab 0 k2 rfl rfl (by omega) fun m3 k3 => k3
  · refine Ok.bind (Ok.tab h (by simp only [sz_nil]; omega) fun x y m1 k1 => ?_)
    refine Ok.bind (Ok.touchRow (n1 := s.nTune) ⟨k1.has 1 rfl le_rfl, k1.has 0 rfl le_rfl⟩ hT ?_)
    refine Ok.bind (Ok.touch (k1.has_base h1) ?_)
    refine Ok.bind (hmain x y m1 k1 _ fun m2 k2 => ?_)
    exact Ok.freeTab 0 k2 rfl rfl (by omega) fun m3 k3 => k3

theorem keeps_distribute {widths : Ptr} {t : Tab} :
    Keeps 0 (fun m => Has m widths (8 * s.p) ∧ (r = 0 → HasTab m t s.n s.p)) (distribute s r widths t) := by
  refine Keeps.intro fun g hw hp h => ?_
  obtain ⟨h1, h2⟩ := hp
  refine Ok.bind (Ok.only (fun e => ?_) fun _ => Ok.touch h1 h)
  refine Ok.forM h (fun i hi m1 k1 => ?_) fun m1 k1 => Ok.touch (k1.has_base h1) k1
  exact Ok.touchRow (k1.tab_base (h2 e)) (List.mem_range.mp hi) k1

theorem keeps_tuneRound (hu : UserOk s u U) {t : TunePlan} {single : Ptr} {ar alltune : Tab} {j : Nat}
    (ht : t.rank < s.n) (hT : 0 < s.nTune) (hj : j < s.p) :
    Keeps (8 * s.n + 8 * (s.n * s.p) + tuneBytes s U) (fun m => CtxOk s r c m ∧ Has m single (8 * s.p) ∧
      (r = 0 → HasTab m ar s.p s.n) ∧ (r = 0 → HasTab m alltune s.p s.n))
      (tuneRound s u c r t single ar alltune j) := by
  refine Keeps.intro fun g hw hp h => ?_
  obtain ⟨hc, h1, h2, h3⟩ := hp
  refine Ok.bind (Ok.tab h (by simp only [sz_nil]; omega) fun x y m1 k1 => ?_)
  by_cases e : r = 0
  · have hch : ∀ m', At g [(y, 8 * (s.n * s.p)), (x, 8 * s.n)] (8 * s.n + 8 * (s.n * s.p) + tuneBytes s U) m' →
        HasTab m' ⟨.blk x, .blk y⟩ s.n s.p := fun m' k => ⟨k.has 1 rfl le_rfl, k.has 0 rfl le_rfl⟩
    refine Ok.bind (Ok.ite (fun _ => Ok.pure ?_) fun e' => absurd e e')
    refine Ok.bind (Ok.only (fun _ => ?_) fun e' => absurd e e')
    refine Ok.bind (Ok.forM k1 (fun i hi m2 k2 => Ok.touchRow (hch _ k2) (List.mem_range.mp hi) k2) fun m2 k2 => ?_)
    refine Ok.bind (Ok.touchRow (k2.tab_base (hc.sigmas e)) ht ?_)
    refine Ok.touchRow (k2.tab_base (h3 e)) hj ?_
    refine Ok.bind (Ok.call k2 keeps_distribute ⟨(hc.at k2).widths, fun _ => hch _ k2⟩
      (by simp only [sz_cons, sz_nil]; omega) fun _ m3 k3 => ?_)
    refine Ok.bind (Ok.call k3 (keeps_tuneParm (r := r) (c := c) hu ht hT hj) ⟨hc.at k3, k3.has_base h1,
      fun e => k3.tab_base (h2 e)⟩ (by simp only [sz_cons, sz_nil]; omega) fun _ m4 k4 => ?_)
    exact Ok.only (fun _ => Ok.freeTab 0 k4 rfl rfl (by omega) fun m5 k5 => k5) fun e' => absurd e e'
  · refine Ok.bind (Ok.ite (fun e' => absurd e' e) fun _ => ?_)
    refine Ok.bind (Ok.freeTab 0 k1 rfl rfl (by omega) fun m2 k2 => Ok.pure ?_)
    refine Ok.bind (Ok.only (fun e' => absurd e' e) fun _ => ?_)
    refine Ok.bind (Ok.call k2 keeps_distribute ⟨(hc.at k2).widths, fun e' => absurd e' e⟩
      (by simp [sz_nil]) fun _ m3 k3 => ?_)
    refine Ok.bind (Ok.call k3 (keeps_tuneParm (r := r) (c := c) hu ht hT hj) ⟨hc.at k3, k3.has_base h1,
      fun e => k3.tab_base (h2 e)⟩ (by simp [sz_nil]) fun _ m4 k4 => ?_)
    exact Ok.only (fun e' => absurd e' e) fun _ => k4

theorem keeps_genSigma {t : TunePlan} {alltune : Tab} (ht : t.rank < s.n) :
    Keeps (8 * s.n) (fun m => HasTab m c.sigmas s.n s.p ∧ Has m c.lo (8 * s.p) ∧ Has m c.hi (8 * s.p) ∧
      HasTab m alltune s.p s.n) (genSigma s c t alltune) := by
  refine Keeps.intro fun g hw hp h => ?_
  obtain ⟨h1, h2, h3, h4⟩ := hp
  refine Ok.bind (Ok.alloc h (by simp [sz_nil]) fun x m1 k1 => ?_)
  refine Ok.bind (Ok.forM k1 (fun i hi m2 k2 => ?_) fun m2 k2 => Ok.free 0 k2 rfl fun m3 k3 => k3)
  have hi' := List.mem_range.mp hi
  refine Ok.bind (Ok.touchRow (k2.tab_base h1) ht ?_)
  refine Ok.bind (Ok.touch (k2.has 0 rfl le_rfl) ?_)
  refine Ok.bind (Ok.touch ((k2.has_base h2).mono (by omega)) ?_)
  refine Ok.bind (Ok.touch ((k2.has_base h3).mono (by omega)) ?_)
  exact Ok.touchRow (k2.tab_base h4) hi' k2

theorem keeps_decideSigma {ar : Tab} : Keeps (8 * s.p) (fun m => HasTab m ar s.p s.n) (decideSigma s ar) := by
  refine Keeps.intro fun g hw hp h => ?_
  refine Ok.bind (Ok.alloc h (by simp [sz_nil]) fun x m1 k1 => ?_)
  refine Ok.bind (Ok.forM k1 (fun i hi m2 k2 => ?_) fun m2 k2 => Ok.free 0 k2 rfl fun m3 k3 => k3)
  have hi' := List.mem_range.mp hi
  refine Ok.bind (Ok.touchRow (k2.tab_base hp) hi' ?_)
  exact Ok.touch (k2.has 0 rfl (by omega)) k2

theorem keeps_raceAll {w : Ptr} {alltune ar : Tab} :
    Keeps (8 * s.n) (fun m => Has m w (8 * s.p) ∧ HasTab m alltune s.p s.n ∧ HasTab m ar s.p s.n)
      (raceAll s w alltune ar) := by
  refine Keeps.intro fun g hw hp h => ?_
  obtain ⟨h1, h2, h3⟩ := hp
  refine Ok.bind (Ok.alloc h (by simp [sz_nil]) fun x m1 k1 => ?_)
  refine Ok.bind (Ok.forM k1 (fun i hi m2 k2 => ?_) fun m2 k2 => Ok.free 0 k2 rfl fun m3 k3 => k3)
  have hi' := List.mem_range.mp hi
  refine Ok.bind (Ok.touchRow (k2.tab_base h3) hi' ?_)
  refine Ok.bind (Ok.touch (k2.has 0 rfl le_rfl) ?_)
  refine Ok.bind (Ok.touchRow (k2.tab_base h2) hi' ?_)
  exact Ok.touch ((k2.has_base h1).mono (by omega)) k2

/-- A tuning plan tunes a rank of the run, and changes a parameter of the model if it changes one. -/
def TuneOk (s : Sizes) (t : TunePlan) : Prop := t.rank < s.n ∧ ∀ a, t.iparm = some a → a < s.p

theorem keeps_modifySigma {t : TunePlan} {alltune ar : Tab} (ht : TuneOk s t) :
    Keeps (8 * s.p + 8 * s.n) (fun m => HasTab m c.sigmas s.n s.p ∧ HasTab m alltune s.p s.n ∧ HasTab m ar s.p s.n)
      (modifySigma s c t alltune ar) := by
  refine Keeps.intro fun g hw hp h => ?_
  obtain ⟨h1, h2, h3⟩ := hp
  unfold modifySigma
  cases e : t.iparm with
  | some a =>
    refine Ok.bind (Ok.touchRow h1 ht.1 ?_)
    exact Ok.touchRow h2 (ht.2 a e) h
  | none =>
    refine Ok.bind (Ok.alloc h (by simp [sz_nil]) fun x m1 k1 => ?_)
    have hend : ∀ m, At g [(x, 8 * s.p)] (8 * s.p + 8 * s.n) m → Ok (do
        touchRow c.sigmas t.rank s.p
        touch (.blk x) (8 * s.p)
        free (.blk x) : MM Unit) m fun _ m' => At g [] (8 * s.p + 8 * s.n) m' := by
      intro m k
      refine Ok.bind (Ok.touchRow (k.tab_base h1) ht.1 ?_)
      refine Ok.bind (Ok.touch (k.has 0 rfl le_rfl) ?_)
      exact Ok.free 0 k rfl fun m3 k3 => k3
    cases t.irank with
    | some b => exact Ok.bind (Ok.touch (k1.has 0 rfl le_rfl) (hend _ k1))
    | none =>
      exact Ok.bind (Ok.call k1 keeps_raceAll ⟨k1.has 0 rfl le_rfl, k1.tab_base h2, k1.tab_base h3⟩
        (by simp only [sz_cons, sz_nil]; omega) fun _ m2 k2 => hend _ k2)

/-- Bytes the tuning of one rank needs. -/
def tuneRankBytes (s : Sizes) (U : Nat) : Nat :=
  8 * s.p + 2 * (8 * s.p + 8 * (s.p * s.n)) + (8 * s.n + 8 * (s.n * s.p) + tuneBytes s U)

theorem keeps_tuneRank (hu : UserOk s u U) {t : TunePlan} (ht : TuneOk s t) (hT : 0 < s.nTune) (hp0 : 0 < s.p) :
    Keeps (tuneRankBytes s U) (CtxOk s r c) (tuneRank s u c r t) := by
  refine Keeps.intro fun g hw hc h => ?_
  have hE : 8 * s.p + 2 * (8 * s.p + 8 * (s.p * s.n)) + (8 * s.n + 8 * (s.n * s.p) + tuneBytes s U) = tuneRankBytes s U := rfl
  have hcomm : s.n * s.p = s.p * s.n := Nat.mul_comm _ _
  have htb : 8 * s.p ≤ tuneBytes s U := by unfold tuneBytes; omega
  generalize tuneRankBytes s U = E at h hE ⊢
  refine Ok.bind (Ok.alloc h (by simp only [sz_nil]; omega) fun x m1 k1 => ?_)
  refine Ok.bind (Ok.tab k1 (by simp only [sz_cons, sz_nil]; omega) fun a1 a2 m2 k2 => ?_)
  refine Ok.bind (Ok.tab k2 (by simp only [sz_cons, sz_nil]; omega) fun t1 t2 m3 k3 => ?_)
  refine Ok.ite (fun e => ?_) fun e => ?_
  · have hal : ∀ m', At g [(t2, 8 * (s.p * s.n)), (t1, 8 * s.p), (a2, 8 * (s.p * s.n)), (a1, 8 * s.p), (x, 8 * s.p)] E m' →
        HasTab m' ⟨.blk t1, .blk t2⟩ s.p s.n := fun m' k => ⟨k.has 1 rfl le_rfl, k.has 0 rfl le_rfl⟩
    have har : ∀ m', At g [(t2, 8 * (s.p * s.n)), (t1, 8 * s.p), (a2, 8 * (s.p * s.n)), (a1, 8 * s.p), (x, 8 * s.p)] E m' →
        HasTab m' ⟨.blk a1, .blk a2⟩ s.p s.n := fun m' k => ⟨k.has 3 rfl le_rfl, k.has 2 rfl le_rfl⟩
    refine Ok.bind (Ok.call k3 (keeps_genSigma ht.1) ⟨(hc.at k3).sigmas e, (hc.at k3).lo, (hc.at k3).hi, hal _ k3⟩
      (by simp only [sz_cons, sz_nil]; omega) fun _ m4 k4 => ?_)
    have htr := ht.1
    refine Ok.bind (Ok.touch (((hc.at k4).logposts e).mono (by omega)) ?_)
    refine Ok.bind (Ok.touch (k4.has 4 rfl le_rfl) ?_)
    refine Ok.bind (Ok.touchRow ((hc.at k4).transit e) ht.1 ?_)
    refine Ok.bind (Ok.touch (k4.has 4 rfl le_rfl) ?_)
    refine Ok.bind (Ok.forM k4 (fun j hj m5 k5 => ?_) fun m5 k5 => ?_)
    · exact Ok.call k5 (keeps_tuneRound hu ht.1 hT (List.mem_range.mp hj)) ⟨hc.at k5, k5.has 4 rfl le_rfl,
        fun _ => har _ k5, fun _ => hal _ k5⟩ (by simp only [sz_cons, sz_nil]; omega) fun _ m6 k6 => k6
    · refine Ok.bind (Ok.free 4 k5 rfl fun m6 k6 => ?_)
      have hal : ∀ m', At g [(t2, 8 * (s.p * s.n)), (t1, 8 * s.p), (a2, 8 * (s.p * s.n)), (a1, 8 * s.p)] E m' →
          HasTab m' ⟨.blk t1, .blk t2⟩ s.p s.n := fun m' k => ⟨k.has 1 rfl le_rfl, k.has 0 rfl le_rfl⟩
      have har : ∀ m', At g [(t2, 8 * (s.p * s.n)), (t1, 8 * s.p), (a2, 8 * (s.p * s.n)), (a1, 8 * s.p)] E m' →
          HasTab m' ⟨.blk a1, .blk a2⟩ s.p s.n := fun m' k => ⟨k.has 3 rfl le_rfl, k.has 2 rfl le_rfl⟩
      replace k6 : At g [(t2, 8 * (s.p * s.n)), (t1, 8 * s.p), (a2, 8 * (s.p * s.n)), (a1, 8 * s.p)] E m6 := k6
      refine Ok.bind (Ok.call k6 keeps_decideSigma (har _ k6) (by simp only [sz_cons, sz_nil]; omega) fun _ m7 k7 => ?_)
      refine Ok.bind (Ok.call k7 (keeps_modifySigma ht) ⟨(hc.at k7).sigmas e, hal _ k7, har _ k7⟩
        (by simp only [sz_cons, sz_nil]; omega) fun _ m8 k8 => ?_)
      refine Ok.bind (Ok.freeTab 2 k8 rfl rfl (by omega) fun m9 k9 => ?_)
      exact Ok.freeTab 0 k9 rfl rfl (by omega) fun m10 k10 => k10
  · refine Ok.bind (Ok.freeTab 2 k3 rfl rfl (by omega) fun m4 k4 => ?_)
    refine Ok.bind (Ok.freeTab 0 k4 rfl rfl (by omega) fun m5 k5 => ?_)
    replace k5 : At g [(x, 8 * s.p)] E m5 := k5
    refine Ok.bind (Ok.touch (k5.has 0 rfl le_rfl) ?_)
    refine Ok.bind (Ok.forM k5 (fun j hj m6 k6 => ?_) fun m6 k6 => Ok.free 0 k6 rfl fun m7 k7 => k7)
    exact Ok.call k6 (keeps_tuneRound hu ht.1 hT (List.mem_range.mp hj)) ⟨hc.at k6, k6.has 0 rfl le_rfl,
      fun e' => absurd e' e, fun e' => absurd e' e⟩ (by simp only [sz_cons, sz_nil]; omega) fun _ m7 k7 => k7

/-! ## The flow -/

/-- Every stack and every tuning of a plan makes sense. -/
def PlanOk (s : Sizes) (B : Nat) (plan : Plan) : Prop :=
  ∀ k ∈ plan, StackOk s B k.1 ∧ ∀ ts, k.2 = some ts → ∀ t ∈ ts, TuneOk s t

/-- Bytes the stacks and the tuning need, beyond what a rank carries around. -/
def flowBytes (s : Sizes) (U B : Nat) : Nat :=
  4 * s.n + max (16 * s.n + max (16 * s.n) (max (8 * s.p + U) (batchBytes s U B))) (tuneRankBytes s U)

theorem keeps_flow (hu : UserOk s u U) {B : Nat} {plan : Plan} (hr : r < s.n) (hT : 0 < s.nTune) (hp0 : 0 < s.p)
    (hk : PlanOk s B plan) : Keeps (flowBytes s U B) (CtxOk s r c) (flow s u c r plan) := by
  refine Keeps.intro fun g hw hc h => ?_
  have hE : 4 * s.n + max (16 * s.n + max (16 * s.n) (max (8 * s.p + U) (batchBytes s U B))) (tuneRankBytes s U)
      = flowBytes s U B := rfl
  generalize flowBytes s U B = E at h hE ⊢
  refine Ok.bind (Ok.alloc h (by simp only [sz_nil]; omega) fun x m1 k1 => ?_)
  refine Ok.bind (Ok.forM k1 (fun k hk' m2 k2 => ?_) fun m2 k2 => Ok.free 0 k2 rfl fun m3 k3 => k3)
  obtain ⟨hs, hts⟩ := hk k hk'
  refine Ok.bind (Ok.call k2 keeps_distribute ⟨(hc.at k2).widths, (hc.at k2).sigmas⟩
    (by simp only [sz_cons, sz_nil]; omega) fun _ m3 k3 => ?_)
  refine Ok.bind (Ok.bind (Ok.alloc k3 (by simp only [sz_cons, sz_nil]; omega) fun y m4 k4 => ?_))
  refine Ok.bind (Ok.bind (Ok.touch (hc.at k4).dir ?_))
  refine Ok.touch (hc.at k4).widths ?_
  refine Ok.bind (Ok.touch (k4.has 0 rfl le_rfl) ?_)
  refine Ok.free 0 k4 rfl fun m5 k5 => ?_
  replace k5 : At g [(x, 4 * s.n)] E m5 := k5
  refine Ok.bind (Ok.call k5 (keeps_runStack hu hr hs) (hc.at k5) (by simp only [sz_cons, sz_nil]; omega)
    fun _ m6 k6 => ?_)
  cases e : k.2 with
  | none => exact Ok.pure k6
  | some ts =>
    refine Ok.bind (Ok.touch (k6.has 0 rfl le_rfl) ?_)
    refine Ok.forM k6 (fun t ht m7 k7 => ?_) fun m7 k7 => k7
    exact Ok.call k7 (keeps_tuneRank hu (hts ts e t ht) hT hp0) (hc.at k7) (by simp only [sz_cons, sz_nil]; omega)
      fun _ m8 k8 => k8

end

end NiiC.RankHeap
