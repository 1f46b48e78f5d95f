import Verif.Mpi.Proc

/-!
# Memory and the allocation of tables: alloc.c

The heap is a list of blocks; a pointer is a block number and a position in it, counted in cells. A cell holds nothing yet, a value, or a pointer. Sizes are counted
in bytes as the C code does, in `size_t`; `grant` says which requests the allocator satisfies. The cells of `int` tables (4 bytes), `double` tables and pointer
tables (8 bytes) differ only in their size.
-/

namespace NiiC

/-- A pointer. -/
structure Ptr where
  blk : Nat
  off : Nat
  deriving DecidableEq

/-- What a cell of memory holds. -/
inductive MCell (V : Type) where
  | undef
  | val (v : V)
  | ptr (p : Ptr)

/-- The heap: `none` is a block that has been freed. -/
abbrev Heap (V : Type) := List (Option (List (MCell V)))

section
variable {V : Type}

/-- The cells of a live block. -/
def Heap.block (h : Heap V) (b : Nat) : Except Fault (List (MCell V)) :=
  match h[b]? with
  | some (some l) => .ok l
  | _ => .error .oob

/-- `p + k`: undefined outside of the block (and the position just behind it). -/
def Heap.shift (h : Heap V) (p : Ptr) (k : Int) : Except Fault Ptr := do
  let l ← h.block p.blk
  if 0 ≤ (p.off : Int) + k ∧ (p.off : Int) + k ≤ l.length then .ok ⟨p.blk, ((p.off : Int) + k).toNat⟩ else .error .oob

/-- `*p`. -/
def Heap.load (h : Heap V) (p : Ptr) : Except Fault (MCell V) := do
  let l ← h.block p.blk
  match l[p.off]? with
  | some c => .ok c
  | none => .error .oob

/-- `*p = c`. -/
def Heap.store (h : Heap V) (p : Ptr) (c : MCell V) : Except Fault (Heap V) := do
  let l ← h.block p.blk
  if p.off < l.length then .ok (h.set p.blk (some (l.set p.off c))) else .error .oob

/-- `*p` where a pointer is needed. -/
def Heap.loadPtr (h : Heap V) (p : Ptr) : Except Fault Ptr := do
  match ← h.load p with
  | .ptr q => .ok q
  | _ => .error .uninit

/-- `malloc(sizeof(cell) * n)` with the check of alloc.c:6-11: the product is computed in `size_t`, so a negative `n` becomes huge and a large one wraps around. -/
def Heap.malloc (grant : Nat → Bool) (h : Heap V) (size : Nat) (n : Int) : Except Fault (Ptr × Heap V) :=
  let bytes := (((size : Int) * n) % 2 ^ 64).toNat
  if grant bytes then .ok (⟨h.length, 0⟩, h ++ [some (List.replicate (bytes / size) .undef)]) else .error .badAlloc

/-- `free(p)`: only for the start of a live block. -/
def Heap.free (h : Heap V) (p : Ptr) : Except Fault (Heap V) := do
  let _ ← h.block p.blk
  if p.off = 0 then .ok (h.set p.blk none) else .error .oob

/-- `for (j = 1; j < n; j++) { t[j] = t[j - 1] + step; }` with `k` rounds left (alloc.c:68-72, 96-98, 131-133, 137-139, 163-165, 169-171). -/
def linkRows (t : Ptr) (step : Int) : Nat → Nat → Heap V → Except Fault (Heap V)
  | 0, _, h => .ok h
  | k + 1, j, h => do
    let p ← h.shift t ((j : Int) - 1)
    let q ← h.loadPtr p
    let q' ← h.shift q step
    let p' ← h.shift t j
    let h ← h.store p' (.ptr q')
    linkRows t step k (j + 1) h

/-- `t[0] = d` and the loop. -/
def makeRows (t d : Ptr) (n step : Int) (h : Heap V) : Except Fault (Heap V) := do
  let h ← h.store t (.ptr d)
  linkRows t step (n - 1).toNat 1 h

/-- `alloc_1d_int`, `alloc_1d_double`, alloc.c:15-22, 32-39. -/
def alloc1d (grant : Nat → Bool) (size : Nat) (n1 : Int) (h : Heap V) : Except Fault (Ptr × Heap V) := h.malloc grant size n1

/-- `alloc_2d_int`, `alloc_2d_double`, alloc.c:49-74, 86-100. -/
def alloc2d (grant : Nat → Bool) (size : Nat) (n1 n2 : Int) (h : Heap V) : Except Fault (Ptr × Heap V) := do
  let (dd, h) ← h.malloc grant 8 n1
  let (d, h) ← h.malloc grant size (n1 * n2)
  let h ← makeRows dd d n1 n2 h
  .ok (dd, h)

/-- `alloc_3d_int`, `alloc_3d_double`, alloc.c:121-141, 153-173. The bound `n1 * n2` of the second loop is computed in `int`. -/
def alloc3d (grant : Nat → Bool) (size : Nat) (n1 n2 n3 : Int) (h : Heap V) : Except Fault (Ptr × Heap V) := do
  let (ddd, h) ← h.malloc grant 8 n1
  let (dd, h) ← h.malloc grant 8 (n1 * n2)
  let h ← makeRows ddd dd n1 n2 h
  let (d, h) ← h.malloc grant size (n1 * n2 * n3)
  let h ← h.store dd (.ptr d)
  if 2 ^ 31 ≤ n1 * n2 ∨ n1 * n2 < -2 ^ 31 then .error .overflow else do
    let h ← linkRows dd n3 (n1 * n2 - 1).toNat 1 h
    .ok (ddd, h)

/-- `&t[i]`. -/
def at1 (t : Ptr) (i : Int) (h : Heap V) : Except Fault Ptr := h.shift t i
/-- `&t[i][j]`. -/
def at2 (t : Ptr) (i j : Int) (h : Heap V) : Except Fault Ptr := do
  let p ← at1 t i h
  let q ← h.loadPtr p
  h.shift q j
/-- `&t[i][j][k]`. -/
def at3 (t : Ptr) (i j k : Int) (h : Heap V) : Except Fault Ptr := do
  let p ← at2 t i j h
  let q ← h.loadPtr p
  h.shift q k

/-- `free_2d_int`, `free_2d_double`, alloc.c:76-81, 112-116. -/
def free2d (t : Ptr) (h : Heap V) : Except Fault (Heap V) := do
  let d ← h.loadPtr t
  let h ← h.free d
  h.free t

/-- `free_3d_int`, `free_3d_double`, alloc.c:143-148, 175-180. -/
def free3d (t : Ptr) (h : Heap V) : Except Fault (Heap V) := do
  let dd ← h.loadPtr t
  let d ← h.loadPtr dd
  let h ← h.free d
  let dd ← h.loadPtr t
  let h ← h.free dd
  h.free t

end

end NiiC
