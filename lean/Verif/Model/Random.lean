import Mathlib.Data.Real.Basic
import Mathlib.Analysis.SpecialFunctions.Log.Basic
import Mathlib.Analysis.SpecialFunctions.Trigonometric.Basic

set_option autoImplicit false

/-!
# Model of `src/random.c`

`uint64_t` is `BitVec 64` (exact modular arithmetic).
-/

namespace Verif.Random

/-- `randseed_t` (include/random.h): 16 words and the counter.  The counter is an `int` in C; it is
only ever set to 0 (random.c:26, checkpoint.c:54) or to `(p + 1) & 15` (random.c:44), hence `Fin 16`. -/
structure Seed where
  s : Fin 16 → BitVec 64
  p : Fin 16

/-- Body of the loop of `Random_SeedInit` acting on `n` (random.c:18-20). -/
def seedMix (n : BitVec 64) : BitVec 64 :=
  let n := n ^^^ (n >>> 12)
  let n := n ^^^ (n <<< 25)
  n ^^^ (n >>> 27)

/-- Value of the local variable `n` after `k` rounds of the loop (random.c:16-24). -/
def seedIter (n : BitVec 64) : ℕ → BitVec 64
  | 0 => n
  | k + 1 => seedMix (seedIter n k)

/-- `Random_SeedInit` (random.c:10-27).  The assertion on line 13 is compiled out (`-DNDEBUG`). -/
def seedInit (n : BitVec 64) : Seed where
  s := fun i => seedIter n (i + 1) * 2685821657736338717#64
  p := 0

/-- `Random_GetUint` (random.c:41-53): the returned word and the new state. -/
def getUint (sd : Seed) : BitVec 64 × Seed :=
  let s0 := sd.s sd.p
  let p := sd.p + 1
  let s1 := sd.s p
  let s1 := s1 ^^^ (s1 <<< 31)
  let s1 := s1 ^^^ (s1 >>> 11)
  let s0 := s0 ^^^ (s0 >>> 30)
  let w := s0 ^^^ s1
  (w * 1181783497276652981#64, { s := Function.update sd.s p w, p := p })

/-- The `n`-th state and the `n`-th output (counted from 0) of repeated `Random_GetUint` calls. -/
def stateAt (sd : Seed) : ℕ → Seed
  | 0 => sd
  | n + 1 => (getUint (stateAt sd n)).2

/-- The `n`-th word returned by repeated calls of `Random_GetUint` (random.c:41-53). -/
def outputAt (sd : Seed) (n : ℕ) : BitVec 64 := (getUint (stateAt sd n)).1

/-- `thresh` of `Random_GetBoundedUint` (random.c:63). `bound = 0` is undefined behaviour in C
(remainder by zero); every theorem about this function assumes `bound ≠ 0`. -/
def thresh (bound : BitVec 64) : BitVec 64 := (-bound) % bound

/-- `Random_GetBoundedUint` (random.c:61-72).  `none` means that the loop never ends. -/
def boundedUint (bound : BitVec 64) (sd : Seed) : Option (BitVec 64 × Seed) :=
  let d := getUint sd
  if thresh bound ≤ d.1 then some (d.1 % bound, d.2)
  else boundedUint bound d.2
partial_fixpoint

/-- One pass of the loop of `Random_Shuffle` with the draw `j` (random.c:84-89); `seq` is the
memory of the array, as a function of the index. -/
def shuffleStep (seq : ℕ → ℤ) (i j : ℕ) : ℕ → ℤ :=
  let seq := if j ≠ i then Function.update seq i (seq j) else seq
  Function.update seq j (i : ℤ)

/-- The first `n` passes of the loop of `Random_Shuffle` (random.c:82-90) when the bounded draws are
`d 0, d 1, …`. -/
def shuffleDraws (seq : ℕ → ℤ) (d : ℕ → ℕ) : ℕ → ℕ → ℤ
  | 0 => seq
  | i + 1 => shuffleStep (shuffleDraws seq d i) i (d i)

/-- The loop of `Random_Shuffle` for `i, i+1, …, i+k-1` (random.c:82-90). -/
def shuffleLoop : ℕ → ℕ → Seed → (ℕ → ℤ) → Option ((ℕ → ℤ) × Seed)
  | 0, _, sd, seq => some (seq, sd)
  | k + 1, i, sd, seq => do
    let (j, sd) ← boundedUint (BitVec.ofNat 64 (i + 1)) sd
    shuffleLoop k (i + 1) sd (shuffleStep seq i j.toNat)

/-- `Random_Shuffle` (random.c:79-91). `none` means that one of the draws never returns.
`n` is an `int`, so `n < 2^31` and `i + 1` is not truncated by the conversion to `uint64_t`. -/
def shuffle (sd : Seed) (n : ℕ) (seq : ℕ → ℤ) : Option ((ℕ → ℤ) × Seed) :=
  shuffleLoop n 0 sd seq

/-- Arithmetic of `Random_GetUniform` (random.c:101-103) with an arbitrary rounding `rnd` applied to
the conversion of `u`, to the literal, to the sum and to the product.  (`1.0` is exact.) -/
noncomputable def uniformOf (rnd : ℝ → ℝ) (u : BitVec 64) : ℝ :=
  rnd (rnd (rnd (u.toNat : ℝ) + 1) * rnd 5.4210108624275221700372640e-20)

/-- `Random_GetUniform` (random.c:98-104) -/
noncomputable def getUniform (rnd : ℝ → ℝ) (sd : Seed) : ℝ × Seed :=
  let d := getUint sd
  (uniformOf rnd d.1, d.2)

/-- `Random_GetNormal` (random.c:111-120), exact `log`, `sqrt`, `sin`; rounding only in the uniform
draws.  `none` when the argument of `log` is not positive or that of `sqrt` is negative
(NaN or infinity in C). -/
noncomputable def getNormal (rnd : ℝ → ℝ) (sd : Seed) : Option ℝ × Seed :=
  let u1 := getUniform rnd sd
  let u2 := getUniform rnd u1.2
  let a := -2 * Real.log u1.1
  (if 0 < u1.1 ∧ 0 ≤ a then some (Real.sqrt a * Real.sin (6.2831853071795864769 * u2.1)) else none,
    u2.2)

end Verif.Random
