import Mathlib.Logic.Function.Basic

/-!
# Processes and the MPI transition system

The C program (`/repo/main.c` and the `mpi_*.c` files) uses only `MPI_Send`, `MPI_Recv` with an explicit source and
an explicit tag, `MPI_Bcast` and `MPI_Barrier`, all on `MPI_COMM_WORLD`.

A rank is a process tree `Proc`. A system `Sys` has one process per rank, one FIFO queue per (source, destination, tag)
(MPI guarantees that messages with equal source, destination, tag and communicator do not overtake), and the list of
lines each rank has written.

Simplifications: `MPI_Bcast` is root sending to every other rank on the reserved tag `Tag.bcast`, in rank order
(collectives use their own context in MPI, so they cannot be confused with point-to-point messages). Local computation
takes no time: it happens inside the continuation.
-/

namespace NiiC

/-- Everything that is not a regular result: C undefined behaviour, MPI misuse, loop fuel exhausted. -/
inductive Fault where
  /-- array access out of bounds -/
  | oob
  /-- null pointer dereferenced -/
  | null
  /-- read of a cell that was never written -/
  | uninit
  /-- signed integer overflow -/
  | overflow
  /-- allocation with a non-positive size, followed by a write to its first cell -/
  | badAlloc
  /-- a message of the wrong type or length was received -/
  | msg
  /-- the model's loop fuel is exhausted -/
  | fuel
  deriving DecidableEq, Repr

/-- Message tags: those passed by the program, and the separate context used by `MPI_Bcast`. -/
inductive Tag where
  | user (t : Nat)
  | bcast
  deriving DecidableEq, Repr

/-- The remaining behaviour of one rank in a world of `n` ranks; `V` messages, `L` output lines, `α` result. -/
inductive Proc (n : Nat) (V L α : Type) : Type where
  | ret (a : α)
  | send (dst : Fin n) (tag : Tag) (v : V) (k : Proc n V L α)
  | recv (src : Fin n) (tag : Tag) (k : V → Proc n V L α)
  | barrier (k : Proc n V L α)
  | out (l : L) (k : Proc n V L α)
  | fault (f : Fault)

namespace Proc

variable {n : Nat} {V L α β γ : Type}

/-- Sequencing of rank programs. -/
def bind : Proc n V L α → (α → Proc n V L β) → Proc n V L β
  | ret a, f => f a
  | send d t v k, f => send d t v (bind k f)
  | recv s t k, f => recv s t (fun v => bind (k v) f)
  | barrier k, f => barrier (bind k f)
  | out l k, f => out l (bind k f)
  | fault e, _ => fault e

instance : Monad (Proc n V L) where
  pure := ret
  bind := bind

@[simp] theorem pure_eq (a : α) : (pure a : Proc n V L α) = ret a := rfl
@[simp] theorem bind_eq (p : Proc n V L α) (f : α → Proc n V L β) : (p >>= f) = bind p f := rfl
@[simp] theorem ret_bind (a : α) (f : α → Proc n V L β) : bind (ret a) f = f a := rfl
@[simp] theorem send_bind (d : Fin n) (t : Tag) (v : V) (k : Proc n V L α) (f : α → Proc n V L β) :
    bind (send d t v k) f = send d t v (bind k f) := rfl
@[simp] theorem recv_bind (s : Fin n) (t : Tag) (k : V → Proc n V L α) (f : α → Proc n V L β) :
    bind (recv s t k) f = recv s t (fun v => bind (k v) f) := rfl
@[simp] theorem barrier_bind (k : Proc n V L α) (f : α → Proc n V L β) :
    bind (barrier k) f = barrier (bind k f) := rfl
@[simp] theorem out_bind (l : L) (k : Proc n V L α) (f : α → Proc n V L β) :
    bind (out l k) f = out l (bind k f) := rfl
@[simp] theorem fault_bind (e : Fault) (f : α → Proc n V L β) :
    bind (fault e : Proc n V L α) f = fault e := rfl

theorem bind_assoc (p : Proc n V L α) (f : α → Proc n V L β) (g : β → Proc n V L γ) :
    bind (bind p f) g = bind p (fun a => bind (f a) g) := by
  induction p with
  | ret a => rfl
  | send d t v k ih => simp [ih]
  | recv s t k ih => simp [ih]
  | barrier k ih => simp [ih]
  | out l k ih => simp [ih]
  | fault e => rfl

theorem bind_ret (p : Proc n V L α) : bind p ret = p := by
  induction p with
  | ret a => rfl
  | send d t v k ih => simp [ih]
  | recv s t k ih => simp [ih]
  | barrier k ih => simp [ih]
  | out l k ih => simp [ih]
  | fault e => rfl

/-- `some k` when the process waits at a barrier with continuation `k`. -/
def barrier? : Proc n V L α → Option (Proc n V L α)
  | barrier k => some k
  | _ => none

/-- The process has finished regularly. -/
def done : Proc n V L α → Prop
  | ret _ => True
  | _ => False

instance : DecidablePred (done (n := n) (V := V) (L := L) (α := α)) := fun p => by
  cases p <;> simp only [done] <;> infer_instance

end Proc

/-- A world of `n` ranks. -/
structure Sys (n : Nat) (V L α : Type) where
  procs : Fin n → Proc n V L α
  /-- queues indexed by (source, destination, tag) -/
  chan : Fin n × Fin n × Tag → List V
  /-- lines written so far by each rank, oldest first -/
  log : Fin n → List L

/-- What moves: one rank, or all ranks leaving a barrier together. -/
inductive Label (n : Nat) where
  | rank (r : Fin n)
  | barrier
  deriving DecidableEq

namespace Sys

variable {n : Nat} {V L α : Type}

/-- One action of rank `r` (buffered send, receive from a non-empty queue, output), if enabled. -/
def stepRank (s : Sys n V L α) (r : Fin n) : Option (Sys n V L α) :=
  match s.procs r with
  | .send d t v k =>
    some { s with procs := Function.update s.procs r k,
                  chan := Function.update s.chan (r, d, t) (s.chan (r, d, t) ++ [v]) }
  | .recv src t k =>
    match s.chan (src, r, t) with
    | [] => none
    | v :: q =>
      some { s with procs := Function.update s.procs r (k v),
                    chan := Function.update s.chan (src, r, t) q }
  | .out l k =>
    some { s with procs := Function.update s.procs r k,
                  log := Function.update s.log r (s.log r ++ [l]) }
  | _ => none

/-- All ranks wait at a barrier. -/
def AllAtBarrier (s : Sys n V L α) : Prop := 0 < n ∧ ∀ r, (s.procs r).barrier?.isSome = true

instance (s : Sys n V L α) : Decidable s.AllAtBarrier := by unfold AllAtBarrier; infer_instance

/-- All ranks leave a barrier, if all are at one. -/
def stepBarrier (s : Sys n V L α) : Option (Sys n V L α) :=
  if s.AllAtBarrier then some { s with procs := fun r => (s.procs r).barrier?.getD (s.procs r) } else none

/-- One transition. -/
def step (s : Sys n V L α) : Label n → Option (Sys n V L α)
  | .rank r => s.stepRank r
  | .barrier => s.stepBarrier

/-- A schedule: the labels in the order in which they happen. -/
def exec (s : Sys n V L α) : List (Label n) → Option (Sys n V L α)
  | [] => some s
  | l :: w => (s.step l).bind (fun s' => s'.exec w)

@[simp] theorem exec_nil (s : Sys n V L α) : s.exec [] = some s := rfl
@[simp] theorem exec_cons (s : Sys n V L α) (l : Label n) (w : List (Label n)) :
    s.exec (l :: w) = (s.step l).bind (fun s' => s'.exec w) := rfl

theorem exec_append (s : Sys n V L α) (w w' : List (Label n)) :
    s.exec (w ++ w') = (s.exec w).bind (fun s' => s'.exec w') := by
  induction w generalizing s with
  | nil => simp
  | cons l w ih =>
    simp only [List.cons_append, exec_cons]
    cases s.step l with
    | none => rfl
    | some s' => simp [ih]

/-- Every rank has finished. -/
def AllDone (s : Sys n V L α) : Prop := ∀ r, (s.procs r).done

/-- A transition that does not depend on the MPI library buffering a message: a rendezvous of a sender with a receiver
already waiting for that message, a receive of a message already in flight, an output, or a barrier. -/
inductive SyncEnabled (s : Sys n V L α) : Prop where
  | rendezvous (a b : Fin n) (t : Tag) (v : V) (k : Proc n V L α) (k' : V → Proc n V L α)
      (ha : s.procs a = .send b t v k) (hb : s.procs b = .recv a t k') (hq : s.chan (a, b, t) = [])
  | recv (b src : Fin n) (t : Tag) (v : V) (q : List V) (k' : V → Proc n V L α)
      (hb : s.procs b = .recv src t k') (hq : s.chan (src, b, t) = v :: q)
  | out (r : Fin n) (l : L) (k : Proc n V L α) (hr : s.procs r = .out l k)
  | barrier (h : s.AllAtBarrier)

end Sys
end NiiC
