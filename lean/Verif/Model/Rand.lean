import Verif.Model.Arith

/-!
# Random numbers: `/repo/rand_func.c` on top of POSIX `drand48`
-/

namespace NiiC

/-- State of a generator. One per rank, since every MPI rank is its own process. -/
abbrev Rng := Nat

/-- A generator behind `srand48` and `drand48`: the state that a seed sets, the step, and the number read off a state. -/
class Source (F : Type) where
  seed : Nat → Rng
  next : Rng → Rng
  val : Rng → F

/-- Multiplier of `drand48` (POSIX). -/
def lcgA : Nat := 0x5DEECE66D
/-- Addend of `drand48` (POSIX). -/
def lcgC : Nat := 0xB
/-- Modulus 2^48 of `drand48`. -/
def lcgM : Nat := 281474976710656

/-- The state set by `srand48(seed)`: the high 32 bits of X become the low 32 bits of `seed`, the low 16 bits become 0x330E (POSIX). -/
def lcgSeed (seed : Nat) : Rng := (seed % 4294967296) * 65536 + 0x330E

/-- One step of the generator of POSIX. -/
def lcgNext (x : Rng) : Rng := (lcgA * x + lcgC) % lcgM

/-- The generator of POSIX: the state is the 48-bit number X, the number read off is X / 2^48. Theorems over `ℝ` or doubles that name no
source are about this one. -/
@[instance_reducible] def posix (F : Type) [Arith F] : Source F where
  seed := lcgSeed
  next := lcgNext
  val x := Arith.lit (x : Int) lcgM

attribute [instance] posix

section
variable {F : Type} [Source F]

/-- `srand48(seed)`. -/
def srand48 (F : Type) [Source F] (seed : Nat) : Rng := Source.seed F seed

/-- `drand48()`: advance, then return the number of the new state. -/
def drand48 (g : Rng) : F × Rng := (Source.val (Source.next F g), Source.next F g)

end

section
variable {F : Type} [Arith F]

theorem drand48_posix (g : Rng) : drand48 (F := F) g = (Arith.lit (lcgNext g : Int) lcgM, lcgNext g) := rfl

theorem next_posix (g : Rng) : Source.next F g = lcgNext g := rfl

theorem srand48_posix (s : Nat) : srand48 F s = lcgSeed s := rfl

end

section
variable {F : Type} [Arith F] [Source F]

/-- `r8_normal_01`, rand_func.c:32-44. The literal of pi is the one in the source. -/
def r8Normal01 (g : Rng) : F × Rng :=
  let (r1, g) := drand48 (F := F) g
  let (r2, g) := drand48 (F := F) g
  (Arith.sqrt (ofI (-2) *. Arith.log r1)
    *. Arith.cos (ofI 2 *. Arith.lit 3141592653589793 1000000000000000 *. r2), g)

/-- `r8_normal_ab`, rand_func.c:69-76. -/
def r8NormalAb (a b : F) (g : Rng) : F × Rng :=
  let (z, g) := r8Normal01 (F := F) g
  (a +. b *. z, g)

/-- `r8_logunif_ab`, rand_func.c:100-112. -/
def r8LogunifAb (a b : F) (g : Rng) : F × Rng :=
  let (u, g) := drand48 (F := F) g
  (a *. Arith.exp (u *. Arith.log (b /. a)), g)

/-- `r8_unif_ab`, rand_func.c:132-143. -/
def r8UnifAb (a b : F) (g : Rng) : F × Rng :=
  let (u, g) := drand48 (F := F) g
  (u *. (b -. a) +. a, g)

omit [Source F] in
/-- The value computed by `i4_unif_ab` from the draw `u`, rand_func.c:167. -/
def i4UnifAbVal (a b : Int) (u : F) : Int := Arith.roundI (u *. ofI (b - a)) + a

/-- `i4_unif_ab`, rand_func.c:159-170. -/
def i4UnifAb (F : Type) [Arith F] [Source F] (a b : Int) (g : Rng) : Int × Rng :=
  let (u, g) := drand48 (F := F) g
  (i4UnifAbVal a b u, g)

omit [Source F] in
/-- The value computed by `i4_unif_0a` from the draw `u`, rand_func.c:193. -/
def i4Unif0aVal (a : Int) (u : F) : Int := Arith.floorI (u *. ofI a)

/-- `i4_unif_0a`, rand_func.c:185-196. -/
def i4Unif0a (F : Type) [Arith F] [Source F] (a : Int) (g : Rng) : Int × Rng :=
  let (u, g) := drand48 (F := F) g
  (i4Unif0aVal a u, g)

omit [Source F] in
/-- `normal_pdf`, rand_func.c:200-206. -/
def normalPdf (x mean sd : F) : F :=
  let a := (x -. mean) /. sd
  Arith.lit 3989422804014327 10000000000000000 /. sd *. Arith.exp (Arith.lit (-1) 2 *. a *. a)

end

/-- The two integer draws stay in range. This is what the rest of the program relies on; it is proved for exact reals and
for rounded doubles in `Verif.Num.Real`. -/
class LawfulDraws (F : Type) [Arith F] [Source F] : Prop where
  unifAb : ∀ (a b : Int) (g : Rng), a ≤ b → b - a < 2147483648 →
    a ≤ (i4UnifAb F a b g).1 ∧ (i4UnifAb F a b g).1 ≤ b
  unif0a : ∀ (a : Int) (g : Rng), 1 ≤ a → a < 2147483648 →
    0 ≤ (i4Unif0a F a g).1 ∧ (i4Unif0a F a g).1 < a

end NiiC
