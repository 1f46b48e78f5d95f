import Verif.Props.Memory
import Verif.Props.Run

/-!
# C94: the heap of the runs of the sampler

`Props/Memory.lean` quantifies over all courses a run could take. Here the courses are those of the sampler itself: with a usable configuration,
every plan that has the events of the run (the lengths of its batches, its swaps, the updates of the ladder, the ranks that are tuned) meets what
those theorems ask, and the longest batch is `n_iter_a_batch_base + n_iter_a_batch_rand`.
-/

namespace NiiC.RankHeap

set_option linter.unusedSectionVars false

variable {F : Type} [Arith F] [Source F] {n : Nat}

/-- What happens in a run, as far as blocks are concerned. -/
inductive Moment where
  | widths
  | batch (len : Int)
  | swap (i j : Nat) (did : Bool)
  | ladder
  | tune (rank : Nat)

/-- The events of the sampler. -/
def moment : Ev n → Option Moment
  | .start => none
  | .widths => some .widths
  | .batch b => some (.batch b)
  | .swap i j d => some (.swap i.val j.val d)
  | .ladder => some .ladder
  | .tune r => some (.tune r.val)

/-- The events of a plan. -/
def StackPlan.moments (k : StackPlan) : List Moment :=
  k.batches.flatMap (fun bw => .batch bw.1.len :: bw.2.map fun w => .swap w.i w.j w.accept) ++ (if k.adjust then [.ladder] else [])

def Plan.moments (plan : Plan) : List Moment :=
  plan.flatMap fun k => .widths :: (k.1.moments ++ (k.2.getD []).map fun t => .tune t.rank)

/-- The plan has the events of the run `w`, and where the widths of a rank are tuned a parameter that exists is chosen. -/
structure Follows (p : Nat) (plan : Plan) (w : W n F) : Prop where
  moments : plan.moments = (w.hist.map Prod.fst).filterMap moment
  chosen : ∀ k ∈ plan, ∀ ts, k.2 = some ts → ∀ t ∈ ts, ∀ a, t.iparm = some a → a < p

theorem mem_sizes {evs : List (Ev n)} {b : Int} (h : Ev.batch b ∈ evs) : b ∈ sizes evs :=
  List.mem_filterMap.2 ⟨_, h, rfl⟩

/-- A plan that follows a run of a usable configuration is one the theorems about the heap speak of. -/
theorem Follows.ok [LawfulDraws F] {cfg : Cfg F} {file : DataFile F} (hv : Valid n cfg file) {clock : Nat} {root : Fin n} {w : W n F}
    (hw : seqMain cfg file clock root = .ok w) {s : Sizes} (hn : s.n = n) {plan : Plan} (hf : Follows s.p plan w) :
    PlanOk s (cfg.base + cfg.rand).toNat plan := by
  obtain ⟨-, hsz, -⟩ := seqMain_sizes hv hw
  have key : ∀ x ∈ plan.moments, ∃ e ∈ w.hist.map Prod.fst, moment e = some x := by
    intro x hx
    rw [hf.moments] at hx
    exact List.mem_filterMap.1 hx
  intro k hk
  have hmem : ∀ x ∈ k.1.moments, x ∈ plan.moments := fun x hx =>
    List.mem_flatMap.2 ⟨k, hk, List.mem_cons_of_mem _ (List.mem_append_left _ hx)⟩
  refine ⟨fun bw hbw => ⟨?_, ?_, fun v hv' => ?_⟩, fun ts hts t ht => ⟨?_, hf.chosen k hk ts hts t ht⟩⟩
  rotate_left 2
  · have h1 : Moment.swap v.i v.j v.accept ∈ k.1.moments := List.mem_append_left _ (List.mem_flatMap.2
      ⟨bw, hbw, List.mem_cons_of_mem _ (List.mem_map.2 ⟨v, hv', rfl⟩)⟩)
    obtain ⟨e, -, he⟩ := key _ (hmem _ h1)
    cases e <;> simp only [moment, Option.some.injEq, Moment.swap.injEq, reduceCtorEq] at he
    obtain ⟨h2, h3, -⟩ := he
    rw [hn, ← h2, ← h3]
    exact ⟨Fin.isLt _, Fin.isLt _⟩
  · have h1 : Moment.tune t.rank ∈ plan.moments := List.mem_flatMap.2 ⟨k, hk, List.mem_cons_of_mem _ (List.mem_append_right _
      (List.mem_map.2 ⟨t, by rw [hts]; exact ht, rfl⟩))⟩
    obtain ⟨e, -, he⟩ := key _ h1
    cases e <;> simp only [moment, Option.some.injEq, Moment.tune.injEq, reduceCtorEq] at he
    rw [hn, ← he]
    exact Fin.isLt _
  all_goals
    have h1 : Moment.batch bw.1.len ∈ k.1.moments := List.mem_append_left _ (List.mem_flatMap.2 ⟨bw, hbw, List.mem_cons_self⟩)
    obtain ⟨e, h2, he⟩ := key _ (hmem _ h1)
    cases e <;> simp only [moment, Option.some.injEq, Moment.batch.injEq, reduceCtorEq] at he
    subst he
    obtain ⟨h3, m, i, g, i', g', h4⟩ := hsz _ (mem_sizes h2)
    have h5 := nextBatch_le hv.rand hv.randInt h4
    simp only at h5
    omega

/-! ## Every run has such a plan -/

theorem swaps_plan : ∀ (sw : List (Ev n)), (∀ e ∈ sw, ∃ i j d, e = Ev.swap i j d) →
    ∃ ws : List SwapPlan, ws.map (fun w => Moment.swap w.i w.j w.accept) = sw.filterMap moment := by
  intro sw
  induction sw with
  | nil => exact fun _ => ⟨[], rfl⟩
  | cons e sw ih =>
    intro h
    obtain ⟨i, j, d, rfl⟩ := h e (by simp)
    obtain ⟨ws, hws⟩ := ih (fun e he => h e (by simp [he]))
    exact ⟨⟨i.val, j.val, d⟩ :: ws, by simp [hws, moment]⟩

theorem batches_plan {k : Nat} {evs : List (Ev n)} {bs : List Int} (h : StackShape k evs bs) : (∀ b ∈ bs, 0 < b) →
    ∃ l : List (BatchPlan × List SwapPlan),
      l.flatMap (fun bw => Moment.batch bw.1.len :: bw.2.map fun w => .swap w.i w.j w.accept) = evs.filterMap moment := by
  induction h with
  | nil => exact fun _ => ⟨[], rfl⟩
  | cons b sw rest bs hk hsw _ ih =>
    intro hpos
    obtain ⟨l, hl⟩ := ih (fun b hb => hpos b (by simp [hb]))
    obtain ⟨ws, hws⟩ := swaps_plan sw hsw
    have hb := hpos b (by simp)
    refine ⟨(⟨b.toNat, fun _ => true, true⟩, ws) :: l, ?_⟩
    have : ((b.toNat : Nat) : Int) = b := by omega
    simp [hl, hws, moment, this]

theorem tunes_moments (l : List (Fin n)) : (l.map Ev.tune).filterMap moment = l.map (fun r : Fin n => Moment.tune r.val) := by
  induction l with
  | nil => rfl
  | cons a l ih => simp only [List.map_cons, List.filterMap_cons, moment, ih]

theorem flow_plan {cfg : Cfg F} (hu : cfg.user.Wf cfg.nParm) {root : Fin n} : ∀ {fuel : Nat} {nStack i : Int}
    {w w' : W n F}, 0 ≤ nStack → i ≤ cfg.nIter → w.st.Ok cfg → seqFlowLoop cfg root fuel nStack i w = .ok w' →
    ∃ (h' : List (Ev n × G n F)) (plan : Plan), w'.hist = w.hist ++ h' ∧ plan.moments = (h'.map Prod.fst).filterMap moment ∧
      ∀ k ∈ plan, ∀ ts, k.2 = some ts → ∀ t ∈ ts, t.iparm = none := by
  intro fuel
  induction fuel with
  | zero =>
    intro nStack i w w' hn hi hok h
    simp only [seqFlowLoop] at h
    split at h
    · cases h
    · cases h
      exact ⟨[], [], by simp, rfl, by simp⟩
  | succ fuel ih =>
    intro nStack i w w' hn hi hok h
    simp only [seqFlowLoop] at h
    split at h
    · rename_i hlt
      simp only [exc_bind] at h
      obtain ⟨nx, hnx, w1, h1, w2, h2, h3⟩ := h
      have hnx' : nx = i + nStack := by
        unfold i32 at hnx
        split at hnx
        · cases hnx; rfl
        · cases hnx
      obtain ⟨hs, bs, hsh, hsum, hpos, hacc, hok1, hh⟩ := seqStack_hist hu (by split <;> omega)
        (w := seqWidths w) ⟨hok.acc, hok.x, hok.sig, hok.sig⟩ h1
      have h2' : ∃ (ht : List (Ev n × G n F)) (l : List (Fin n)), w2.hist = w1.hist ++ ht ∧ ht.map Prod.fst = l.map Ev.tune ∧ w2.st.Ok cfg := by
        by_cases hw : inTuneWindow cfg (if cfg.nIter < nx then cfg.nIter else nx) = true
        · rw [if_pos hw] at h2
          obtain ⟨a1, _, _, _, _, _, ht, hht, hm, _⟩ := seqTuneRanks_frame h2
          exact ⟨ht, _, hht, hm, seqTuneRanks_ok hu h2 hok1⟩
        · rw [if_neg hw] at h2
          cases h2
          exact ⟨[], [], by simp, rfl, hok1⟩
      obtain ⟨ht, l, hht, hm, hok2⟩ := h2'
      obtain ⟨h', plan, hh', hp, hc⟩ := ih (by split <;> omega) (by split <;> omega) hok2 h3
      obtain ⟨bl, hbl⟩ := batches_plan hsh (fun b hb => (hpos b hb).1)
      refine ⟨(.widths, (seqWidths w).st) :: (hs ++ (if (w1.st.acc root : Int) < cfg.nStopTuneLadder ∧ 0 < cfg.tuneLadder
        then [(.ladder, w1.st)] else []) ++ ht ++ h'),
        (⟨bl, decide ((w1.st.acc root : Int) < cfg.nStopTuneLadder ∧ 0 < cfg.tuneLadder)⟩,
          some (l.map fun r => ⟨r.val, fun _ _ => true, none, none⟩)) :: plan, ?_, ?_, ?_⟩
      · rw [hh', hht, hh]
        simp [seqWidths, W.push]
      · have e1 : Plan.moments ((⟨bl, decide ((w1.st.acc root : Int) < cfg.nStopTuneLadder ∧ 0 < cfg.tuneLadder)⟩,
          some (l.map fun r => (⟨r.val, fun _ _ => true, none, none⟩ : TunePlan))) :: plan) =
          .widths :: (bl.flatMap (fun bw => Moment.batch bw.1.len :: bw.2.map fun w => .swap w.i w.j w.accept) ++
            (if (w1.st.acc root : Int) < cfg.nStopTuneLadder ∧ 0 < cfg.tuneLadder then [.ladder] else []) ++
            l.map (fun r => .tune r.val)) ++ plan.moments := by
          simp [Plan.moments, StackPlan.moments, Function.comp_def]
        have e2 := tunes_moments l
        rw [e1, hbl, hp]
        simp only [List.map_cons, List.map_append, List.filterMap_cons, moment, List.filterMap_append, hm, e2]
        split <;> simp [moment]
      · intro k hk ts hts t ht'
        rcases List.mem_cons.1 hk with rfl | hk
        · cases hts
          obtain ⟨r, -, rfl⟩ := List.mem_map.1 ht'
          rfl
        · exact hc k hk ts hts t ht'
    · cases h
      exact ⟨[], [], by simp, rfl, by simp⟩

/-- **The heap of the runs of the sampler.** With a usable configuration the sampler has a run `w`, and there are plans with its events. For every
such plan, on every rank: no fault of a pointer, no more memory than the bound for batches of `n_iter_a_batch_base + n_iter_a_batch_rand`
iterations, whatever `N_iter` is, and exactly the listed blocks left at the end. -/
theorem heap_of_run [LawfulDraws F] (cfg : Cfg F) (file : DataFile F) (hv : Valid n cfg file) (clock : Nat) (root : Fin n) {s : Sizes}
    (hs : SizesOk s) (hn : s.n = n) {u : UserHeap} {U : Nat} (hu : UserOk s u U) : ∃ w : W n F, seqMain cfg file clock root = .ok w ∧
      (∃ plan, Follows s.p plan w) ∧ ∀ plan, Follows s.p plan w → ∀ r : Fin n, ∃ m, mainHeap s u r.val plan {} = .ok ((), m) ∧
        m.peak ≤ peakBytes s U (cfg.base + cfg.rand).toNat ∧ m.live.map Prod.snd = leftover s r.val := by
  obtain ⟨w, hw⟩ := seqMain_total cfg file hv clock root
  refine ⟨w, hw, ?_, fun plan hf r => heap_run hs (by rw [hn]; exact r.isLt) hu (hf.ok hv hw hn)⟩
  have hw' := hw
  simp only [seqMain, exc_bind] at hw'
  obtain ⟨w0, h0, h1⟩ := hw'
  obtain ⟨w0', h0', hok⟩ := seqInit_total cfg file hv.toRunnable clock root
  rw [h0] at h0'
  cases h0'
  have hstart : ((w0.hist.map Prod.fst).filterMap moment) = [] := by
    simp only [seqInit, exc_bind, Except.ok.injEq] at h0
    obtain ⟨_, _, _, _, _, _, _, _, _, _, _, _, rfl⟩ := h0
    rfl
  by_cases hi : 0 ≤ cfg.nIter
  · obtain ⟨h', plan, hh, hp, hc⟩ := flow_plan hv.user (by have := hv.stack; omega) hi hok h1
    refine ⟨plan, ?_, fun k hk ts hts t ht a ha => ?_⟩
    · rw [hh, hp, List.map_append, List.filterMap_append, hstart]
      rfl
    · rw [hc k hk ts hts t ht] at ha
      cases ha
  · have : cfg.nIter.toNat = 0 := by omega
    rw [this] at h1
    simp only [seqFlowLoop] at h1
    rw [if_neg (by omega)] at h1
    cases h1
    exact ⟨[], by rw [hstart]; rfl, by simp⟩

/-- The demo: three ranks, two parameters, batches of up to 60 iterations. -/
def demoRunSizes : Sizes := { demoSizes with n := 3, p := 2, nBeta := 3, betas := 3, lines := 2, rows := 2, nTune := 100 }

theorem demo_run_sizes : SizesOk demoRunSizes := by
  refine ⟨fun _ _ => rfl, by simp [demoRunSizes, demoSizes], rfl, le_rfl, ?_, ?_, le_rfl⟩ <;> decide

/-- Every rank of the demo stays below 11000 bytes. -/
example : ∃ w : W 3 ℝ, seqMain demoCfg demoFile 7 0 = .ok w ∧ (∃ plan, Follows 2 plan w) ∧ ∀ plan, Follows 2 plan w → ∀ r : Fin 3,
    ∃ m, mainHeap demoRunSizes (plainUser demoRunSizes) r.val plan {} = .ok ((), m) ∧ m.peak ≤ 11000 := by
  obtain ⟨w, h1, h2, h3⟩ := heap_of_run demoCfg demoFile demo_valid 7 0 demo_run_sizes rfl (plain_user_ok _)
  refine ⟨w, h1, h2, fun plan hf r => ?_⟩
  obtain ⟨m, h4, h5, -⟩ := h3 plan hf r
  refine ⟨m, h4, h5.trans ?_⟩
  have : (demoCfg.base + demoCfg.rand).toNat = 60 := by simp [demoCfg]
  rw [this]
  decide

end NiiC.RankHeap
