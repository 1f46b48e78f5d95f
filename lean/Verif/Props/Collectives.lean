import Verif.Refine.Relay
import Verif.Props.Fences

/-!
# How MPI carries out its collectives does not matter: C115

The standard leaves it to the library by which messages `MPI_Bcast` and `MPI_Barrier` are carried out. `Colls.tree` relays a
broadcast along any tree of ranks, with any order of the children, and makes a barrier of reports up a tree and a release down it.
-/

set_option linter.unusedSectionVars false

namespace NiiC

open Proc Sys

variable {n : Nat} {F : Type} [Arith F]

/-- A tree on the ranks: everybody but the root has a parent, and there is an order of the ranks in which no rank comes before
its parent. -/
structure RankTree (root : Fin n) where
  par : Fin n → Fin n
  ord : List (Fin n)
  nodup : ord.Nodup
  mem : ∀ r, r ∈ ord ↔ r ≠ root
  own : ∀ c ∈ ord, par c ≠ c
  fed : ord.Pairwise fun c d => par c ≠ d

/-- Send `v` to the ranks of a list, one after the other. -/
def sendAll (t : Tag) (v : Msg F) : List (Fin n) → P n F Unit
  | [] => .ret ()
  | d :: l => .send d t v (sendAll t v l)

/-- Receive one message from each rank of a list, one after the other. -/
def recvAll (t : Tag) : List (Fin n) → P n F Unit
  | [] => .ret ()
  | d :: l => .recv d t fun _ => recvAll t l

/-- The children of a rank, in the order of `l`. -/
def kids (par : Fin n → Fin n) (l : List (Fin n)) (r : Fin n) : List (Fin n) := l.filter fun c => par c = r

/-- A broadcast along a tree: receive from the parent, pass on to the children. -/
def relay {root : Fin n} (T : RankTree root) (me : Fin n) (v : Msg F) : P n F (Msg F) :=
  if me = root then (sendAll .bcast v (kids T.par T.ord me)).bind fun _ => .ret v
  else .recv (T.par me) .bcast fun u => (sendAll .bcast u (kids T.par T.ord me)).bind fun _ => .ret u

/-- Reports up a tree: wait for the children, then tell the parent. -/
def report {root : Fin n} (T : RankTree root) (me : Fin n) : P n F Unit :=
  (recvAll .bcast (kids T.par T.ord.reverse me)).bind fun _ =>
    if me = root then .ret () else .send (T.par me) .bcast (.int 0) (.ret ())

/-- The collectives carried out along trees, one for every root of a broadcast, and one with root `b` for the barriers. -/
def Colls.tree (T : (root : Fin n) → RankTree root) (b : Fin n) : Colls n F :=
  { bcast := fun me root v => relay (T root) me v
    barrier := fun me => (report (T b) me).bind fun _ => (relay (T b) me (.int 0)).bind fun _ => .ret () }

theorem kids_cons_self (par : Fin n → Fin n) (c : Fin n) (b : List (Fin n)) : kids par (c :: b) (par c) = c :: kids par b (par c) := by
  simp [kids]

theorem kids_cons_ne {par : Fin n → Fin n} {c r : Fin n} (h : par c ≠ r) (b : List (Fin n)) : kids par (c :: b) r = kids par b r := by
  simp [kids, h]

/-- A broadcast under way: the ranks of `b` are still to be served. -/
theorem relay_star {γ : Type} (par : Fin n → Fin n) (v : Msg F) (K : Fin n → Msg F → P n F γ) (log : Fin n → List (Line F)) :
    ∀ b : List (Fin n), b.Nodup → (∀ c ∈ b, par c ≠ c) → b.Pairwise (fun c d => par c ≠ d) →
    SyncStar (mkS (fun r => if r ∈ b then .recv (par r) .bcast fun u => (sendAll .bcast u (kids par b r)).bind fun _ => K r u
      else (sendAll .bcast v (kids par b r)).bind fun _ => K r v) log) (mkS (fun r => K r v) log) := by
  intro b
  induction b with
  | nil =>
    intro _ _ _
    have e : (fun r : Fin n => if r ∈ ([] : List (Fin n)) then
        (.recv (par r) .bcast fun u => (sendAll .bcast u (kids par [] r)).bind fun _ => K r u : P n F γ)
        else (sendAll .bcast v (kids par [] r)).bind fun _ => K r v) = fun r => K r v := by
      funext r; simp [kids, sendAll]
    rw [e]
    exact .refl _
  | cons c b ih =>
    intro hnd hown hfed
    have hc : par c ≠ c := hown c (by simp)
    have hcb : c ∉ b := (List.nodup_cons.1 hnd).1
    have hab : par c ∉ b := fun h => (List.pairwise_cons.1 hfed).1 _ h rfl
    refine SyncStar.head (sync_msg _ log (a := par c) (b := c) (t := .bcast) (v := v)
      (k := (sendAll .bcast v (kids par b (par c))).bind fun _ => K (par c) v)
      (k' := fun u => (sendAll .bcast u (kids par b c)).bind fun _ => K c u) hc ?_ ?_) ?_
    · simp [hc, hab, kids_cons_self, sendAll]
    · simp [kids_cons_ne hc]
    · have h := ih (List.nodup_cons.1 hnd).2 (fun d hd => hown d (List.mem_cons_of_mem _ hd)) (List.pairwise_cons.1 hfed).2
      refine (mkS_congr (fun r => ?_) (fun _ => rfl)) ▸ h
      by_cases h1 : r = c
      · subst h1; simp [hcb]
      · by_cases h2 : r = par c
        · subst h2; simp [Function.update_of_ne h1, hab]
        · simp [Function.update_of_ne h1, Function.update_of_ne h2, h1, kids_cons_ne (Ne.symm h2)]

/-- Reports under way: the ranks of `b` have not yet reported. -/
theorem report_star {γ : Type} (par : Fin n → Fin n) (K : Fin n → P n F γ) (log : Fin n → List (Line F)) :
    ∀ b : List (Fin n), b.Nodup → (∀ c ∈ b, par c ≠ c) → b.Pairwise (fun c d => par d ≠ c) →
    SyncStar (mkS (fun r => (recvAll .bcast (kids par b r)).bind fun _ =>
      if r ∈ b then .send (par r) .bcast (.int 0) (K r) else K r) log) (mkS K log) := by
  intro b
  induction b with
  | nil =>
    intro _ _ _
    have e : (fun r : Fin n => ((recvAll .bcast (kids par [] r)).bind fun _ =>
      if r ∈ ([] : List (Fin n)) then .send (par r) .bcast (.int 0) (K r) else K r : P n F γ)) = K := by
      funext r; simp [kids, recvAll]
    rw [e]
    exact .refl _
  | cons c b ih =>
    intro hnd hown hfed
    have hc : par c ≠ c := hown c (by simp)
    have hcb : c ∉ b := (List.nodup_cons.1 hnd).1
    have hk : kids par b c = [] := by
      simp only [kids, List.filter_eq_nil_iff, decide_eq_true_eq]
      exact fun d hd => (List.pairwise_cons.1 hfed).1 d hd
    refine SyncStar.head (sync_msg _ log (a := c) (b := par c) (t := .bcast) (v := .int 0) (k := K c)
      (k' := fun _ => (recvAll .bcast (kids par b (par c))).bind fun _ =>
        if par c ∈ b then .send (par (par c)) .bcast (.int 0) (K (par c)) else K (par c)) hc.symm ?_ ?_) ?_
    · simp [kids_cons_ne hc, hk, recvAll]
    · simp [hc, kids_cons_self, recvAll]
    · have h := ih (List.nodup_cons.1 hnd).2 (fun d hd => hown d (List.mem_cons_of_mem _ hd)) (List.pairwise_cons.1 hfed).2
      refine (mkS_congr (fun r => ?_) (fun _ => rfl)) ▸ h
      by_cases h2 : r = par c
      · subst h2; simp
      · by_cases h1 : r = c
        · subst h1; simp [Function.update_of_ne h2, hcb, hk, recvAll]
        · simp [Function.update_of_ne h1, Function.update_of_ne h2, h1, kids_cons_ne (Ne.symm h2)]

theorem relay_runs {root : Fin n} (T : RankTree root) (v : Fin n → Msg F) (log : Fin n → List (Line F)) :
    RunsTo (fun r => relay T r (v r)) log log (fun _ => v root) := by
  intro γ K
  refine (mkS_congr (fun r => ?_) (fun _ => rfl)) ▸ relay_star T.par (v root) K log T.ord T.nodup T.own T.fed
  by_cases hr : r = root
  · subst hr; simp [relay, T.mem, Proc.bind_assoc]
  · simp [relay, T.mem, hr, Proc.bind_assoc]

theorem report_runs {root : Fin n} (T : RankTree root) (log : Fin n → List (Line F)) :
    RunsTo (fun r => report T r) log log (fun _ => ()) := by
  intro γ K
  refine (mkS_congr (fun r => ?_) (fun _ => rfl)) ▸ report_star T.par (fun r => K r ()) log T.ord.reverse
    (List.nodup_reverse.2 T.nodup) (fun c hc => T.own c (List.mem_reverse.1 hc)) (List.pairwise_reverse.2 T.fed)
  by_cases hr : r = root
  · subst hr; simp [report, T.mem, Proc.bind_assoc]
  · simp [report, T.mem, hr, Proc.bind_assoc]

/-- Collectives along trees do what the standard asks. -/
theorem tree_works (T : (root : Fin n) → RankTree root) (b : Fin n) : (Colls.tree T b : Colls n F).Works :=
  { bcast := fun root v log => relay_runs (T root) v log
    barrier := fun log => RunsTo.bind (report_runs (T b) log) (RunsTo.bind (relay_runs (T b) (fun _ => .int 0) log) (RunsTo.ret _ _)) }

/-- The collectives of the model do so too. -/
theorem plain_works (hn : 0 < n) : (Colls.plain : Colls n F).Works :=
  { bcast := fun root v log => bcast_runs root v log
    barrier := fun log => RunsTo.barrier hn log }

/-- The chain 0 → 1 → 2 and its rotations: every rank hands the message to the next. -/
def chain3 (root : Fin 3) : RankTree root :=
  { par := fun r => r - 1
    ord := [root + 1, root + 2]
    nodup := by revert root; decide
    mem := by revert root; decide
    own := by revert root; decide
    fed := by revert root; decide }

/-- The star: the root serves everybody, in the order of the ranks. There is a tree for any number of ranks. -/
def starTree (root : Fin n) : RankTree root :=
  { par := fun _ => root
    ord := (List.finRange n).filter fun r => r ≠ root
    nodup := (List.nodup_finRange n).filter _
    mem := by simp
    own := fun c hc h => by simp [← h] at hc
    fed := List.Pairwise.imp_of_mem (R := fun _ _ => True) (fun _ hd _ h => by simp [← h] at hd)
      (List.pairwise_of_forall (fun _ _ => trivial)) }

/-- A broadcast along the chain on three ranks. -/
example (v : Fin 3 → Msg ℝ) (log : Fin 3 → List (Line ℝ)) :
    RunsTo (fun r => relay (chain3 0) r (v r)) log log (fun _ => v 0) := relay_runs (chain3 0) v log

/-- In the chain only the middle rank passes the message on. -/
example : kids (chain3 0).par (chain3 0).ord 0 = [1] ∧ kids (chain3 0).par (chain3 0).ord 1 = [2] ∧
    kids (chain3 0).par (chain3 0).ord 2 = [] := by decide

variable [Source F]

/-- All ranks before their first action, with the collectives of `A`. -/
def initSysBy (A : Colls n F) (cfg : Cfg F) (file : DataFile F) (clock : Nat) (root : Fin n) : Sys n (Msg F) (Line F) (RSt n F) :=
  { procs := fun r => Relay.mainProg A cfg file clock root r, chan := fun _ => [], log := fun _ => [] }

/-- With the collectives of the model this is `initSys`. -/
theorem initSysBy_plain (cfg : Cfg F) (file : DataFile F) (clock : Nat) (root : Fin n) :
    initSysBy Colls.plain cfg file clock root = initSys cfg file clock root := by
  simp only [initSysBy, Relay.mainProg_plain]
  rfl

/-- **C115.** Whatever messages the collectives are made of, the program does not deadlock, under any schedule and buffering
policy, and it ends in the very state in which it ends with the collectives of the model: the same variables and the same lines on
every rank. -/
theorem collectives_do_not_matter [LawfulDraws F] (A : Colls n F) (hA : A.Works) (cfg : Cfg F) (file : DataFile F)
    (hv : Valid n cfg file) (clock : Nat) (root : Fin n) :
    (∃ bound : Nat, ∀ (pol : Policy n (Msg F) (Line F) (RSt n F)) (w : List (Label n)) (t : Sys n (Msg F) (Line F) (RSt n F)),
      Run pol (initSysBy A cfg file clock root) w t → (t.AllDone ∨ t.CanMove pol) ∧ w.length ≤ bound) ∧
    ∀ (w w' : List (Label n)) (t t' : Sys n (Msg F) (Line F) (RSt n F)),
      (initSysBy A cfg file clock root).exec w = some t → t.AllDone →
      (initSys cfg file clock root).exec w' = some t' → t'.AllDone → t = t' := by
  obtain ⟨wf, hwf⟩ := seqMain_total cfg file hv clock root
  have hs := initSys_star cfg hv.user file clock root wf hwf
  have hu : SyncStar (initSysBy A cfg file clock root) (finalSys root wf) := by
    have h := Relay.mainProg_runs hA cfg hv.user file clock root wf hwf (fun _ => Proc.ret)
    simp only [Proc.bind_ret] at h
    exact h
  refine ⟨star_runs hu (finalSys_done root wf), fun w w' t t' hw ht hw' ht' => ?_⟩
  rw [done_unique hu (finalSys_done root wf) hw ht, done_unique hs (finalSys_done root wf) hw' ht']

/-- **C115** for collectives along trees: any tree for every broadcast, any tree for the barriers. -/
theorem trees_do_not_matter [LawfulDraws F] (T : (root : Fin n) → RankTree root) (b : Fin n) (cfg : Cfg F) (file : DataFile F)
    (hv : Valid n cfg file) (clock : Nat) (root : Fin n) :
    (∃ bound : Nat, ∀ (pol : Policy n (Msg F) (Line F) (RSt n F)) (w : List (Label n)) (t : Sys n (Msg F) (Line F) (RSt n F)),
      Run pol (initSysBy (Colls.tree T b) cfg file clock root) w t → (t.AllDone ∨ t.CanMove pol) ∧ w.length ≤ bound) ∧
    ∀ (w w' : List (Label n)) (t t' : Sys n (Msg F) (Line F) (RSt n F)),
      (initSysBy (Colls.tree T b) cfg file clock root).exec w = some t → t.AllDone →
      (initSys cfg file clock root).exec w' = some t' → t'.AllDone → t = t' :=
  collectives_do_not_matter _ (tree_works T b) cfg file hv clock root

/-- The chain files of the demo are the same when every broadcast runs along the chain of the three ranks. -/
example (w w' : List (Label 3)) (t t' : Sys 3 (Msg ℝ) (Line ℝ) (RSt 3 ℝ))
    (hw : (initSysBy (Colls.tree chain3 0) demoCfg demoFile 0 0).exec w = some t) (ht : t.AllDone)
    (hw' : (initSys demoCfg demoFile 0 0).exec w' = some t') (ht' : t'.AllDone) (r : Fin 3) :
    fileRows r.val (t.log r) = fileRows r.val (t'.log r) := by
  rw [(trees_do_not_matter chain3 0 demoCfg demoFile demo_valid 0 0).2 w w' t t' hw ht hw' ht']

/-- And there is no deadlock in it. -/
example : ∃ bound : Nat, ∀ (pol : Policy 3 (Msg ℝ) (Line ℝ) (RSt 3 ℝ)) (w : List (Label 3)) (t : Sys 3 (Msg ℝ) (Line ℝ) (RSt 3 ℝ)),
    Run pol (initSysBy (Colls.tree chain3 0) demoCfg demoFile 0 0) w t → (t.AllDone ∨ t.CanMove pol) ∧ w.length ≤ bound :=
  (collectives_do_not_matter _ (tree_works chain3 0) demoCfg demoFile demo_valid 0 0).1

end NiiC
