import Verif.Model.FileNames
import Verif.Model.Spmd
import Verif.Mpi.Confluence

/-!
# Ranks that stop

A rank that cannot open an output file calls `exit(3)` (mpi_init.c:224-228, 252-256, 289-293; mpi_batch.c:362-366, 398-402, 438-442; mpi_flow.c:313-317,
347-351; mpi_stack.c:413-417, 444-448, 474-478; mpi_tune.c:900-904, 939-943), one that gets no memory calls `exit(1)` (alloc.c:6-11), and a rank may be killed
from outside. In all cases it does nothing more. Whether the other ranks are then aborted by `mpirun` or wait is up to the MPI library; an aborted rank is a rank
that has stopped as well.

Simplification: a call between the last barrier (main.c:207) and the end of `main` does not fail; a rank that has passed that barrier counts as finished.
-/

namespace NiiC

variable {n : Nat} {V L α : Type}

/-- `Cut p' p`: `p'` is `p`, stopped anywhere, possibly depending on what it has received; not stopped after its end. -/
inductive Cut : Proc n V L α → Proc n V L α → Prop where
  | stop (f : Fault) (p : Proc n V L α) (h : ¬ p.done) : Cut (.fault f) p
  | ret (a : α) : Cut (.ret a) (.ret a)
  | send (d : Fin n) (t : Tag) (v : V) (k' k : Proc n V L α) (h : Cut k' k) : Cut (.send d t v k') (.send d t v k)
  | recv (s : Fin n) (t : Tag) (k' k : V → Proc n V L α) (h : ∀ v, Cut (k' v) (k v)) : Cut (.recv s t k') (.recv s t k)
  | barrier (k' k : Proc n V L α) (h : Cut k' k) : Cut (.barrier k') (.barrier k)
  | out (l : L) (k' k : Proc n V L α) (h : Cut k' k) : Cut (.out l k') (.out l k)

/-- The program of a rank that stops when it is to write a line that cannot be written (`fopen` fails, and `exit` is called). -/
def Proc.failing (bad : L → Bool) : Proc n V L α → Proc n V L α
  | .ret a => .ret a
  | .send d t v k => .send d t v (k.failing bad)
  | .recv s t k => .recv s t fun v => (k v).failing bad
  | .barrier k => .barrier (k.failing bad)
  | .out l k => if bad l then .fault .null else .out l (k.failing bad)
  | .fault f => .fault f

/-- A rank that is killed before its action number `k`, counted from 0. -/
def Proc.killed : Nat → Proc n V L α → Proc n V L α
  | _, .ret a => .ret a
  | 0, _ => .fault .null
  | k + 1, .send d t v c => .send d t v (c.killed k)
  | k + 1, .recv s t c => .recv s t fun v => (c v).killed k
  | k + 1, .barrier c => .barrier (c.killed k)
  | k + 1, .out l c => .out l (c.killed k)
  | _ + 1, .fault f => .fault f

/-- A system of given programs at its start. -/
def startSys (progs : Fin n → Proc n V L α) : Sys n V L α := { procs := progs, chan := fun _ => [], log := fun _ => [] }

/-- The lines that go to files of names in `names`, which cannot be opened. -/
def Naming.blocked {F : Type} (nm : Naming) (names : List Str) (l : Line F) : Bool :=
  match nm.file l with
  | some s => s ∈ names
  | none => false

/-- `main` when the data file cannot be opened: root makes the directory (main.c:102) and calls `getc` on a null pointer (data_loader.c:100-110). The other ranks
do not open the file; what they do depends on `file` only by `ndim_data`, which is in input.ini. -/
def noDataProg {F : Type} [Arith F] [Source F] (cfg : Cfg F) (file : DataFile F) (clock : Nat) (root me : Fin n) : P n F (RSt n F) :=
  if me = root then .out .mkdir (.fault .null) else mainProg cfg file clock root me

end NiiC
