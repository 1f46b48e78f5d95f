import Verif.Props.Disk
import Verif.Props.Together
import Verif.Props.Protocol

/-!
# Without the directory of results: C121

`make_dir`, readin.c:390-404, takes every failure of `mkdir` for "exists" and only warns; main.c:102 ignores what it returns. If the directory
could not be made (its parent is missing, no permission, a file of that name), every `fopen(fname, "a")` into it fails, and the rank ends by
`exit(3)` (mpi_init.c:224-228, 252-256, 289-293; mpi_batch.c:438-442; mpi_flow.c:347-351; mpi_stack.c:474-478).
-/

set_option linter.unusedSectionVars false

namespace NiiC

open Proc Sys Spec

section generic
variable {n : Nat} {V L α : Type}

/-- What the undisturbed program does without one of the lines, the other does too. -/
theorem FailSys.back {bad : L → Bool} {s' s t : Sys n V L α} {l : Label n} (h : FailSys bad s' s) (hs : s.step l = some t)
    (hg : ∀ r, ∀ x ∈ t.log r, bad x = false) : ∃ t', s'.step l = some t' ∧ FailSys bad t' t := by
  cases l with
  | rank r =>
    have hr := h.procs r
    simp only [Sys.step, Sys.stepRank] at hs ⊢
    rw [hr]
    cases hp : s.procs r with
    | ret a => rw [hp] at hs; cases hs
    | send d t v k =>
      rw [hp] at hs
      cases hs
      exact ⟨_, rfl, h.update r k, by simp only [h.chan], h.log, h.good⟩
    | recv sr t k =>
      rw [hp] at hs
      simp only [Proc.failing, h.chan]
      simp only at hs
      split at hs
      · cases hs
      · rename_i v q hq
        cases hs
        exact ⟨_, rfl, h.update r (k v), rfl, h.log, h.good⟩
    | barrier k => rw [hp] at hs; cases hs
    | out x k =>
      rw [hp] at hs
      cases hs
      have hb : ¬ bad x = true := by
        rw [hg r x (by simp)]
        exact Bool.false_ne_true
      rw [Proc.failing, if_neg hb]
      exact ⟨_, rfl, h.update r k, h.chan, by simp only [h.log], hg⟩
    | fault e => rw [hp] at hs; cases hs
  | barrier =>
    simp only [Sys.step, Sys.stepBarrier] at hs ⊢
    split at hs
    · rename_i hb
      have hall : ∀ r, ∃ k, s.procs r = .barrier k := by
        intro r
        have h1 := hb.2 r
        cases hp : s.procs r with
        | barrier k => exact ⟨k, rfl⟩
        | _ => rw [hp] at h1; simp [Proc.barrier?] at h1
      have hb' : s'.AllAtBarrier := ⟨hb.1, fun r => by
        obtain ⟨k, h2⟩ := hall r
        rw [h.procs r, h2]; rfl⟩
      rw [if_pos hb']
      cases hs
      refine ⟨_, rfl, fun r => ?_, h.chan, h.log, h.good⟩
      obtain ⟨k, h1⟩ := hall r
      simp only [h.procs r, h1]
      rfl
    · cases hs

end generic

section
variable {n : Nat} {F : Type} [Arith F] [Source F]

theorem FailSys.exec_back {bad : Line F → Bool} {w : List (Label n)} {s' s t : Sys n (Msg F) (Line F) (RSt n F)} (h : FailSys bad s' s)
    (hs : s.exec w = some t) (hg : ∀ r, ∀ x ∈ t.log r, bad x = false) : ∃ t', s'.exec w = some t' ∧ FailSys bad t' t := by
  induction w generalizing s' s with
  | nil => cases hs; exact ⟨s', rfl, h⟩
  | cons l w ih =>
    rw [Sys.exec_cons, Option.bind_eq_some_iff] at hs
    obtain ⟨u, h1, h2⟩ := hs
    obtain ⟨u', h3, h4⟩ := h.back h1 fun r x hx => hg r x ((exec_log h2 r).subset hx)
    obtain ⟨t', h5, h6⟩ := ih h4 h2
    exact ⟨t', by rw [Sys.exec_cons, h3]; exact h5, h6⟩

/-- `mpi_gen_init_parm` up to the seeds: mpi_init.c:32-63, 82-97. -/
theorem genInitParm_seeds {γ : Type} (cfg : Cfg F) (root : Fin n) (seed : Nat) (log : Fin n → List (Line F))
    (K : Fin n → Option (Fin n → List F) × Rng → P n F γ) :
    ∃ k : Fin n → P n F γ, SyncStar (mkS (fun r => (genInitParm cfg r root seed).bind (K r)) log)
      (mkS (fun r => .out (.seed r.val (seedOf root seed r)) (k r)) log) := by
  have h1 := RunsTo.slaves (F := F) (root := root) (S := Nat)
    (body := fun i s => (sendM i (rootsent 0) (.int cfg.nParm)).bind fun _ =>
      (sendM i (rootsent 1) (.uns (seedSucc s))).bind fun _ => .ret (seedSucc s))
    (sp := fun r => (recvInt root (rootsent 0)).bind fun np => (recvUns root (rootsent 1)).bind fun s => .ret (np, s))
    (upd := fun _ => seedSucc) (d := fun _ s => ((cfg.nParm : Int), seedSucc s)) (fun s => ((cfg.nParm : Int), seedSucc s)) seed
    (fun i hi s => by
      simp only [sendM, recvInt, recvUns, send_bind, ret_bind, recv_bind]
      exact Pair.send hi.symm (Pair.send hi.symm (Pair.ret _ _))) log
  have h1' := RunsTo.congr_res h1 (res' := fun r => ((cfg.nParm : Int), seedOf root seed r)) (fun r => by
    by_cases hr : r = root
    · subst hr; simp [seed_root]
    · simp [hr, seed_slave]) (fun _ => rfl)
  have key (rest : Fin n → Int × Nat → P n F γ)
      (he : ∀ r, (genInitParm cfg r root seed).bind (K r) = Proc.bind (if r = root then (forSlaves root (fun i s =>
          (sendM i (rootsent 0) (.int cfg.nParm)).bind fun _ => (sendM i (rootsent 1) (.uns (seedSucc s))).bind fun _ => .ret (seedSucc s))
            (List.finRange n) seed).bind (fun s => .ret ((cfg.nParm : Int), seedSucc s))
        else (recvInt root (rootsent 0)).bind fun np => (recvUns root (rootsent 1)).bind fun s => .ret (np, s))
        fun a => .out (.seed r.val a.2) (rest r a)) :
      ∃ k : Fin n → P n F γ, SyncStar (mkS (fun r => (genInitParm cfg r root seed).bind (K r)) log)
        (mkS (fun r => .out (.seed r.val (seedOf root seed r)) (k r)) log) :=
    ⟨fun r => rest r ((cfg.nParm : Int), seedOf root seed r), by rw [funext he]; exact h1' fun r a => .out (.seed r.val a.2) (rest r a)⟩
  refine key (fun r a => (if r = root then
      (forSlaves root (fun i x => (recvDbls i (slavereturn 0) cfg.nParm).bind fun row => .ret (Function.update x i row)) (List.finRange n)
        (Function.update (fun _ => []) root (cfg.user.initParm a.2).1)).bind fun x =>
      (outs [.initParm (List.ofFn x)]).bind fun _ => .ret (some x, (cfg.user.initParm a.2).2)
    else
      (Proc.lift (if a.1 ≤ 0 then .error .badAlloc else .ok ())).bind fun _ =>
      (sendM root (slavereturn 0) (.dbl (cfg.user.initParm a.2).1)).bind fun _ => .ret (none, (cfg.user.initParm a.2).2)).bind (K r)) fun r => ?_
  by_cases hr : r = root
  · subst hr
    simp [genInitParm, Proc.bind_assoc, outs]
  · simp [genInitParm, hr, Proc.bind_assoc, outs]

theorem RunsTo.leads {β γ δ : Type} {p : Fin n → P n F β} {f : Fin n → β → P n F γ} {log log' : Fin n → List (Line F)} {a : Fin n → β}
    {T : δ → Sys n (Msg F) (Line F) γ} (h : RunsTo p log log' a) (h' : ∃ k, SyncStar (mkS (fun r => f r (a r)) log') (T k)) :
    ∃ k, SyncStar (mkS (fun r => (p r).bind (f r)) log) (T k) := by
  obtain ⟨k, hk⟩ := h'
  exact ⟨k, (h f).trans hk⟩

/-- Every rank can come to its seed, with nothing in flight, when no file has been written. -/
theorem main_seeds (cfg : Cfg F) (file : DataFile F) (clock : Nat) (root : Fin n) (w : W n F) (h0 : seqInit cfg file clock root = .ok w) :
    ∃ k : Fin n → P n F (RSt n F), SyncStar (initSys cfg file clock root)
      (mkS (fun r => .out (.seed r.val (seedOf root (startSeed cfg clock) r)) (k r)) fun r => if r = root then [.mkdir] else []) := by
  simp only [seqInit, exc_bind, Except.ok.injEq] at h0
  obtain ⟨cells, hcells, data, hdata, _, hneg, _, hlen, -⟩ := h0
  have hneg' : ¬ cells < 0 := by
    intro h; rw [if_pos h] at hneg; cases hneg
  have hlen' : data.length = cells.toNat := by
    by_contra h; rw [if_pos h] at hlen; cases hlen
  refine RunsTo.leads (RunsTo.outs _ _) ?_
  refine RunsTo.leads (RunsTo.congr_res (bcastInt_runs root _ _) (res' := fun _ => file.nlines) (fun r => by simp)
    (fun _ => rfl)) ?_
  refine RunsTo.leads (RunsTo.lift (fun _ => hcells) _) ?_
  refine RunsTo.leads (RunsTo.lift (a := fun _ => ()) (fun _ => if_neg hneg') _) ?_
  refine RunsTo.leads (RunsTo.lift (a := fun r => if r = root then data else []) (fun r => ?_) _) ?_
  · by_cases hr : r = root
    · simp [hr, hdata]
    · simp [hr]
  refine RunsTo.leads (RunsTo.congr_res (bcastDbls_runs root _ _ (by simp [hlen']) _) (res' := fun _ => data)
    (fun r => by simp) (fun _ => rfl)) ?_
  exact genInitParm_seeds cfg root (startSeed cfg clock) _ _

end

section
variable {n : Nat} {R : Rounding} [Source (Dbl R)] [LawfulDraws (Dbl R)]

/-- **C121.** If the directory of results is neither there nor can be made, no run writes a character anywhere and no rank finishes. Every
execution can be continued to the same standstill, by the same number of actions in all; there every rank has stopped, at the seed log it could
not open. -/
theorem no_directory (cfg : Cfg (Dbl R)) (file : DataFile (Dbl R)) (hv : Valid n cfg file) (clock : Nat) (root : Fin n) (nan : Str) (nm : Naming) :
    ∃ len, ∀ (d d' : Disk) (w : List (Label n)) (t : Sys n (Msg (Dbl R)) (Line (Dbl R)) (RSt n (Dbl R))),
      (startSys fun r => (mainProg cfg file clock root r).failing fun l => (nm.file l).isSome).runOn nm.file (Print.line nan) d w = some (t, d') →
      d' = d ∧ (∀ q, ¬ (t.procs q).done) ∧ (∃ w' t', t.exec w' = some t' ∧ t'.Terminal ∧ w.length + w'.length = len) ∧
      (t.Terminal → ∀ q, ∃ f, t.procs q = .fault f) := by
  obtain ⟨w, _, hw, hall⟩ := unwritable_line cfg file hv clock root (fun l => (nm.file l).isSome)
  obtain ⟨w0, h0, -⟩ := seqMain_steps cfg file clock root w hw
  obtain ⟨k, hk⟩ := main_seeds cfg file clock root w0 h0
  obtain ⟨ws, hws⟩ := hk.exec
  have hgood : ∀ r, ∀ x ∈ (if r = root then [.mkdir] else [] : List (Line (Dbl R))), (nm.file x).isSome = false := by
    intro r x hx
    split at hx
    · rw [List.mem_singleton.1 hx]; rfl
    · cases hx
  obtain ⟨f, hf, hfs⟩ := FailSys.exec_back (bad := fun l => (nm.file l).isSome)
    (s' := startSys fun r => (mainProg cfg file clock root r).failing fun l => (nm.file l).isSome)
    (s := initSys cfg file clock root) ⟨fun r => rfl, rfl, rfl, fun r x hx => by cases hx⟩ hws hgood
  have hstop : ∀ q, ∃ e, f.procs q = .fault e := fun q => ⟨.null, by
    rw [hfs.procs q]
    show (Proc.out _ _).failing _ = _
    rw [Proc.failing]
    exact if_pos rfl⟩
  have hterm : f.Terminal := by
    intro l
    cases l with
    | rank q =>
      obtain ⟨e, he⟩ := hstop q
      simp only [Sys.step, Sys.stepRank, he]
    | barrier =>
      simp only [Sys.step, Sys.stepBarrier]
      refine if_neg fun hb => ?_
      obtain ⟨e, he⟩ := hstop root
      have := hb.2 root
      rw [he] at this
      cases this
  refine ⟨ws.length, fun d d' w₁ t h => ?_⟩
  obtain ⟨he, tr, g1, g2⟩ := Sys.runOn_trace h
  obtain ⟨h1, -, h3, -⟩ := hall w₁ t he
  obtain ⟨q, x, hx, hf'⟩ := start_files cfg file hv clock root hw nm root _ (.inr (.inr (.inl rfl)))
  have h4 := h3 ⟨q, x, hx, by simp only [hf', Option.isSome_some]⟩
  obtain ⟨w', hw', hlen⟩ := exec_complete hf hterm he
  refine ⟨funext fun name => ?_, h4.1, ⟨w', f, hw', hterm, hlen⟩, fun hT => ?_⟩
  · have hnil : (tr.filter fun x => nm.file x.2 = some name) = [] := by
      rw [List.filter_eq_nil_iff]
      intro y hy hfy
      have hmem : y.2 ∈ t.log y.1 := by
        rw [g1]
        exact List.mem_append_right _ (List.mem_map.2 ⟨y, List.mem_filter.2 ⟨hy, by simp⟩, rfl⟩)
      have := (h1 y.1).2 _ hmem
      rw [of_decide_eq_true hfy] at this
      cases this
    rw [g2, hnil, List.map_nil, List.flatten_nil, List.append_nil]
  · cases w' with
    | nil => cases hw'; exact hstop
    | cons l w' =>
      rw [Sys.exec_cons, hT l] at hw'
      cases hw'

end

/-- The Eggbox on three ranks, in a directory that cannot be made. -/
example : ∃ len, ∀ (d d' : Disk) (w : List (Label 3)) (t : Sys 3 _ _ _),
      (startSys fun r => (mainProg Scripts.eggCfgD Scripts.eggFileD 7 0 r).failing fun l => (Naming.file ⟨100, c!"chain", c!".dat", c!"results"⟩ l).isSome).runOn
        (Naming.file ⟨100, c!"chain", c!".dat", c!"results"⟩) (Print.line (c!"nan")) d w = some (t, d') →
      d' = d ∧ (∀ q, ¬ (t.procs q).done) ∧ (∃ w' t', t.exec w' = some t' ∧ t'.Terminal ∧ w.length + w'.length = len) ∧
      (t.Terminal → ∀ q, ∃ f, t.procs q = .fault f) :=
  no_directory Scripts.eggCfgD Scripts.eggFileD Scripts.eggD_valid 7 0 _ _

end NiiC
