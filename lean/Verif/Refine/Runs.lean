import Verif.Mpi.Confluence
import Verif.Model.Spmd
import Mathlib.Data.List.FinRange
import Mathlib.Data.List.Nodup

/-!
# A calculus of unbuffered runs

`RunsTo p log log' res`: if every rank `r` is about to run `p r` and nothing is in flight, there is an unbuffered execution
after which every rank has finished `p r` with result `res r`, nothing is in flight, and the logs are `log'`.
-/

namespace NiiC

open Proc Sys

variable {n : Nat} {F : Type} {α β γ δ S : Type}

/-- A system with nothing in flight. -/
def mkS (Q : Fin n → P n F γ) (log : Fin n → List (Line F)) : Sys n (Msg F) (Line F) γ :=
  { procs := Q, chan := fun _ => [], log := log }

theorem mkS_congr {Q Q' : Fin n → P n F γ} {log log' : Fin n → List (Line F)} (h : ∀ r, Q r = Q' r)
    (h' : ∀ r, log r = log' r) : mkS Q log = mkS Q' log' := by
  rw [funext h, funext h']

theorem sync_msg (Q : Fin n → P n F γ) (log : Fin n → List (Line F)) {a b : Fin n} {t : Tag} {v : Msg F}
    {k : P n F γ} {k' : Msg F → P n F γ} (hne : a ≠ b) (ha : Q a = .send b t v k) (hb : Q b = .recv a t k') :
    Sync (mkS Q log) (mkS (Function.update (Function.update Q a k) b (k' v)) log) := by
  refine Sync.rendezvous (s := mkS Q log)
    (m := { procs := Function.update Q a k, chan := Function.update (fun _ => []) (a, b, t) [v], log := log })
    a b t v k k' hne ha hb rfl ?_ ?_
  · simp [stepRank, mkS, ha]
  · simp [stepRank, mkS, Function.update_of_ne hne.symm, hb]

theorem sync_out (Q : Fin n → P n F γ) (log : Fin n → List (Line F)) {r : Fin n} {l : Line F} {k : P n F γ}
    (hr : Q r = .out l k) :
    Sync (mkS Q log) (mkS (Function.update Q r k) (Function.update log r (log r ++ [l]))) := by
  refine Sync.out (s := mkS Q log) r l k hr ?_
  simp [stepRank, mkS, hr]

theorem sync_barrier (Q Q' : Fin n → P n F γ) (log : Fin n → List (Line F)) (hn : 0 < n)
    (h : ∀ r, Q r = .barrier (Q' r)) : Sync (mkS Q log) (mkS Q' log) := by
  refine Sync.barrier ?_
  have h1 : (mkS Q log).AllAtBarrier := ⟨hn, fun r => by simp [mkS, h r, barrier?]⟩
  have h2 : (fun r => ((mkS Q log).procs r).barrier?.getD ((mkS Q log).procs r)) = Q' := by
    funext r
    simp [mkS, h r, barrier?]
  rw [stepBarrier, if_pos h1, h2]
  rfl

/-! ## Two ranks -/

/-- If `a` is about to run `pa` and `b` is about to run `pb`, they can do so together without help from the others. -/
def Pair (a b : Fin n) (pa : P n F α) (pb : P n F β) (ra : α) (rb : β) : Prop :=
  ∀ ⦃γ : Type⦄ (Ka : α → P n F γ) (Kb : β → P n F γ) (Q : Fin n → P n F γ) (log : Fin n → List (Line F)),
    Q a = pa.bind Ka → Q b = pb.bind Kb →
    SyncStar (mkS Q log) (mkS (Function.update (Function.update Q a (Ka ra)) b (Kb rb)) log)

theorem Pair.ret {a b : Fin n} (x : α) (y : β) : Pair a b (.ret x : P n F α) (.ret y : P n F β) x y := by
  intro γ Ka Kb Q log ha hb
  have : mkS (Function.update (Function.update Q a (Ka x)) b (Kb y)) log = mkS Q log := by
    have ha' : Ka x = Q a := ha.symm
    have hb' : Kb y = Q b := hb.symm
    rw [ha', Function.update_eq_self, hb', Function.update_eq_self]
  rw [this]
  exact .refl _

theorem Pair.send {a b : Fin n} (hne : a ≠ b) {t : Tag} {v : Msg F} {pa : P n F α} {k : Msg F → P n F β} {ra : α} {rb : β}
    (h : Pair a b pa (k v) ra rb) : Pair a b (.send b t v pa) (.recv a t k) ra rb := by
  intro γ Ka Kb Q log ha hb
  refine .head (sync_msg Q log hne ha hb) ?_
  have := h Ka Kb (Function.update (Function.update Q a (pa.bind Ka)) b ((k v).bind Kb)) log
    (by rw [Function.update_of_ne hne, Function.update_self]) (by rw [Function.update_self])
  refine cast ?_ this
  congr 2
  funext r
  by_cases h1 : r = b
  · subst h1; simp
  · by_cases h2 : r = a
    · subst h2; simp [Function.update_of_ne h1]
    · simp [Function.update_of_ne h1, Function.update_of_ne h2]

theorem Pair.recv {a b : Fin n} (hne : a ≠ b) {t : Tag} {v : Msg F} {pb : P n F β} {k : Msg F → P n F α} {ra : α} {rb : β}
    (h : Pair a b (k v) pb ra rb) : Pair a b (.recv b t k) (.send a t v pb) ra rb := by
  intro γ Ka Kb Q log ha hb
  refine .head (sync_msg Q log hne.symm hb ha) ?_
  have := h Ka Kb (Function.update (Function.update Q b (pb.bind Kb)) a ((k v).bind Ka)) log
    (by rw [Function.update_self]) (by rw [Function.update_of_ne hne.symm, Function.update_self])
  refine cast ?_ this
  congr 2
  funext r
  by_cases h1 : r = b
  · subst h1; simp
  · by_cases h2 : r = a
    · subst h2; simp [Function.update_of_ne h1]
    · simp [Function.update_of_ne h1, Function.update_of_ne h2]

/-! ## All ranks -/

/-- See the header of this file. -/
def RunsTo (p : Fin n → P n F β) (log log' : Fin n → List (Line F)) (res : Fin n → β) : Prop :=
  ∀ ⦃γ : Type⦄ (K : Fin n → β → P n F γ),
    SyncStar (mkS (fun r => (p r).bind (K r)) log) (mkS (fun r => K r (res r)) log')

theorem RunsTo.congr {p p' : Fin n → P n F β} {log log' : Fin n → List (Line F)} {res : Fin n → β}
    (h : RunsTo p' log log' res) (hp : ∀ r, p r = p' r) : RunsTo p log log' res := by
  rw [funext hp]; exact h

theorem RunsTo.congr_res {p : Fin n → P n F β} {log log' log'' : Fin n → List (Line F)} {res res' : Fin n → β}
    (h : RunsTo p log log' res) (hr : ∀ r, res r = res' r) (hl : ∀ r, log' r = log'' r) : RunsTo p log log'' res' := by
  rw [← funext hr, ← funext hl]; exact h

theorem RunsTo.ret (a : Fin n → β) (log : Fin n → List (Line F)) : RunsTo (fun r => .ret (a r)) log log a :=
  fun _ _ => .refl _

theorem RunsTo.bind {p : Fin n → P n F α} {f : Fin n → α → P n F β} {log log' log'' : Fin n → List (Line F)}
    {a : Fin n → α} {b : Fin n → β} (h : RunsTo p log log' a) (h' : RunsTo (fun r => f r (a r)) log' log'' b) :
    RunsTo (fun r => (p r).bind (f r)) log log'' b := by
  intro γ K
  have h1 := h (fun r x => (f r x).bind (K r))
  have h2 := h' K
  simp only [Proc.bind_assoc]
  exact h1.trans h2

/-- Finish with a local computation. -/
theorem RunsTo.map {p : Fin n → P n F α} {f : Fin n → α → β} {log log' : Fin n → List (Line F)}
    {a : Fin n → α} (h : RunsTo p log log' a) :
    RunsTo (fun r => (p r).bind (fun x => .ret (f r x))) log log' (fun r => f r (a r)) :=
  RunsTo.bind (f := fun r x => .ret (f r x)) h (RunsTo.ret _ _)

theorem RunsTo.lift {e : Fin n → Except Fault β} {a : Fin n → β} (h : ∀ r, e r = .ok (a r))
    (log : Fin n → List (Line F)) : RunsTo (fun r => Proc.lift (e r)) log log a :=
  RunsTo.congr (RunsTo.ret a log) (fun r => by rw [h r]; rfl)

theorem RunsTo.barrier (hn : 0 < n) (log : Fin n → List (Line F)) :
    RunsTo (fun _ => (NiiC.barrier : P n F Unit)) log log (fun _ => ()) :=
  fun _ _ => .single (sync_barrier _ _ _ hn (fun _ => rfl))

/-- Ranks act one after the other. -/
theorem sweep {Q0 Q1 : Fin n → P n F γ} {L0 L1 : Fin n → List (Line F)}
    (h : ∀ (r : Fin n) (Q : Fin n → P n F γ) (log : Fin n → List (Line F)), Q r = Q0 r → log r = L0 r →
      SyncStar (mkS Q log) (mkS (Function.update Q r (Q1 r)) (Function.update log r (L1 r)))) :
    SyncStar (mkS Q0 L0) (mkS Q1 L1) := by
  have key : ∀ (l : List (Fin n)), l.Nodup → ∀ (Q : Fin n → P n F γ) (log : Fin n → List (Line F)),
      (∀ r ∈ l, Q r = Q0 r ∧ log r = L0 r) →
      SyncStar (mkS Q log) (mkS (fun r => if r ∈ l then Q1 r else Q r) (fun r => if r ∈ l then L1 r else log r)) := by
    intro l
    induction l with
    | nil => intro _ Q log _; simp; exact .refl _
    | cons i l ih =>
      intro hnd Q log hl
      rw [List.nodup_cons] at hnd
      have hi := hl i (by simp)
      refine (h i Q log hi.1 hi.2).trans ?_
      refine cast ?_ (ih hnd.2 (Function.update Q i (Q1 i)) (Function.update log i (L1 i)) ?_)
      · congr 2
        · funext r
          by_cases h1 : r = i
          · subst h1; simp [hnd.1]
          · simp [h1]
        · funext r
          by_cases h1 : r = i
          · subst h1; simp [hnd.1]
          · simp [h1]
      · intro r hr
        have h1 : r ≠ i := fun h => hnd.1 (h ▸ hr)
        simp only [Function.update_of_ne h1]
        exact hl r (List.mem_cons_of_mem _ hr)
  have := key (List.finRange n) (List.nodup_finRange n) Q0 L0 (fun r _ => ⟨rfl, rfl⟩)
  simpa using this

theorem outs_sync (ls : List (Line F)) (r : Fin n) (k : P n F γ) :
    ∀ (Q : Fin n → P n F γ) (log : Fin n → List (Line F)), Q r = (outs ls).bind (fun _ => k) →
      SyncStar (mkS Q log) (mkS (Function.update Q r k) (Function.update log r (log r ++ ls))) := by
  induction ls with
  | nil =>
    intro Q log h
    have h1 : Function.update Q r k = Q := by
      have : Q r = k := h
      rw [← this, Function.update_eq_self]
    rw [h1, List.append_nil, Function.update_eq_self]
    exact .refl _
  | cons l ls ih =>
    intro Q log h
    refine .head (sync_out Q log (l := l) (k := (outs ls).bind (fun _ => k)) h) ?_
    have := ih (Function.update Q r ((outs ls).bind (fun _ => k))) (Function.update log r (log r ++ [l]))
      (by rw [Function.update_self])
    simpa using this

/-- Every rank writes some lines. -/
theorem RunsTo.outs (ls : Fin n → List (Line F)) (log : Fin n → List (Line F)) :
    RunsTo (fun r => (NiiC.outs (ls r) : P n F Unit)) log (fun r => log r ++ ls r) (fun _ => ()) := by
  intro γ K
  refine sweep (fun r Q log' hQ hlog => ?_)
  rw [← hlog]
  exact outs_sync (ls r) r (K r ()) Q log' hQ

/-- Two ranks talk, the others have nothing to do. -/
theorem RunsTo.pair {a b : Fin n} (hne : a ≠ b) {pa pb : P n F β} {ra rb : β} (rest : Fin n → β)
    (h : Pair a b pa pb ra rb) (log : Fin n → List (Line F)) :
    RunsTo (fun r => if r = a then pa else if r = b then pb else .ret (rest r)) log log
      (fun r => if r = a then ra else if r = b then rb else rest r) := by
  intro γ K
  have := h (K a) (K b) (fun r => (if r = a then pa else if r = b then pb else .ret (rest r)).bind (K r)) log
    (by simp) (by simp [hne.symm])
  refine cast ?_ this
  congr 2
  funext r
  by_cases h1 : r = b
  · subst h1; simp [hne.symm]
  · by_cases h2 : r = a
    · subst h2; simp [Function.update_of_ne h1]
    · simp [h1, h2]

/-! ## Loops over the other ranks -/

/-- Effect of `forSlaves` when round `i` changes the variables by `upd i`. -/
def foldS (root : Fin n) (upd : Fin n → S → S) : List (Fin n) → S → S
  | [], s => s
  | i :: l, s => if i = root then foldS root upd l s else foldS root upd l (upd i s)

/-- The variables when the loop reaches rank `r`. -/
def beforeS (root : Fin n) (upd : Fin n → S → S) (r : Fin n) : List (Fin n) → S → S
  | [], s => s
  | i :: l, s => if i = r then s else if i = root then beforeS root upd r l s else beforeS root upd r l (upd i s)

theorem forSlaves_sync {root : Fin n} {body : Fin n → S → P n F S} {sp : Fin n → P n F β} {upd : Fin n → S → S}
    {d : Fin n → S → β} (hpair : ∀ i, i ≠ root → ∀ s, Pair root i (body i s) (sp i) (upd i s) (d i s))
    (KB : Fin n → β → P n F γ) (K : S → P n F γ) :
    ∀ (l : List (Fin n)), l.Nodup → ∀ (s : S) (Q : Fin n → P n F γ) (log : Fin n → List (Line F)),
      Q root = (forSlaves root body l s).bind K → (∀ i ∈ l, i ≠ root → Q i = (sp i).bind (KB i)) →
      SyncStar (mkS Q log)
        (mkS (fun r => if r = root then K (foldS root upd l s)
          else if r ∈ l then KB r (d r (beforeS root upd r l s)) else Q r) log) := by
  intro l
  induction l with
  | nil =>
    intro _ s Q log hr _
    have : (fun r => if r = root then K (foldS root upd [] s)
        else if r ∈ ([] : List (Fin n)) then KB r (d r (beforeS root upd r [] s)) else Q r) = Q := by
      funext r
      by_cases h : r = root
      · subst h; simp [foldS, hr, forSlaves]
      · simp [h]
    rw [this]
    exact .refl _
  | cons i l ih =>
    intro hnd s Q log hr hl
    rw [List.nodup_cons] at hnd
    by_cases hi : i = root
    · subst hi
      have h1 := ih hnd.2 s Q log (by rw [hr]; simp [forSlaves]) (fun j hj => hl j (List.mem_cons_of_mem _ hj))
      refine cast ?_ h1
      congr 2
      funext r
      by_cases h : r = i
      · subst h; simp [foldS]
      · simp [h, beforeS, Ne.symm h]
    · have h0 := hpair i hi s (fun s' => (forSlaves root body l s').bind K) (KB i) Q log
        (by rw [hr]; simp [forSlaves, hi, Proc.bind_assoc]) (hl i (by simp) hi)
      refine h0.trans ?_
      have h1 := ih hnd.2 (upd i s)
        (Function.update (Function.update Q root ((forSlaves root body l (upd i s)).bind K)) i (KB i (d i s))) log
        (by rw [Function.update_of_ne (Ne.symm hi), Function.update_self])
        (fun j hj hjr => by
          have : j ≠ i := fun h => hnd.1 (h ▸ hj)
          rw [Function.update_of_ne this, Function.update_of_ne hjr]
          exact hl j (List.mem_cons_of_mem _ hj) hjr)
      refine cast ?_ h1
      congr 2
      funext r
      by_cases h : r = root
      · subst h; simp [foldS, hi]
      · by_cases h2 : r = i
        · subst h2; simp [h, hnd.1, beforeS]
        · simp [h, h2, beforeS, Ne.symm h2, hi]

/-- A loop of root over the others, against the matching programs of the others. -/
theorem RunsTo.slaves {root : Fin n} {body : Fin n → S → P n F S} {sp : Fin n → P n F β} {upd : Fin n → S → S}
    {d : Fin n → S → β} (fR : S → β) (s0 : S)
    (hpair : ∀ i, i ≠ root → ∀ s, Pair root i (body i s) (sp i) (upd i s) (d i s)) (log : Fin n → List (Line F)) :
    RunsTo (fun r => if r = root then (forSlaves root body (List.finRange n) s0).bind (fun s => .ret (fR s)) else sp r)
      log log
      (fun r => if r = root then fR (foldS root upd (List.finRange n) s0)
        else d r (beforeS root upd r (List.finRange n) s0)) := by
  intro γ K
  have := forSlaves_sync hpair K (fun s => K root (fR s)) (List.finRange n) (List.nodup_finRange n) s0
    (fun r => (if r = root then (forSlaves root body (List.finRange n) s0).bind (fun s => .ret (fR s)) else sp r).bind (K r))
    log (by simp [Proc.bind_assoc]) (fun i _ hi => by simp [hi])
  refine cast ?_ this
  congr 2
  funext r
  by_cases h : r = root
  · subst h; simp
  · simp [h]

theorem foldS_const (root : Fin n) (l : List (Fin n)) (s : S) : foldS root (fun _ s => s) l s = s := by
  induction l with
  | nil => rfl
  | cons i l ih => simp [foldS, ih]

theorem foldS_update_list (root : Fin n) (v : Fin n → α) : ∀ (l : List (Fin n)) (x : Fin n → α) (r : Fin n),
    foldS root (fun i x => Function.update x i (v i)) l x r = if r ≠ root ∧ r ∈ l then v r else x r := by
  intro l
  induction l with
  | nil => intro x r; simp [foldS]
  | cons i l ih =>
    intro x r
    simp only [foldS]
    by_cases hi : i = root
    · simp only [hi, if_true]
      rw [ih]
      by_cases h : r = root
      · simp [h]
      · simp [h]
    · simp only [hi, if_false]
      rw [ih]
      by_cases h : r = root
      · subst h; simp [Ne.symm hi]
      · by_cases h2 : r = i
        · subst h2; simp [h]
        · simp [h, h2]

/-- Collecting one value from each of the others. -/
theorem foldS_update (root : Fin n) (v : Fin n → α) (x : Fin n → α) :
    foldS root (fun i x => Function.update x i (v i)) (List.finRange n) x = fun r => if r = root then x r else v r := by
  funext r
  rw [foldS_update_list]
  by_cases h : r = root <;> simp [h]

end NiiC
