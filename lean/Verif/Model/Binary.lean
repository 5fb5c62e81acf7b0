import Verif.Props.Jacobi
import Mathlib.Data.Int.Log

/-!
# Binary floating point numbers

The program computes with the type `double`: binary numbers with a significand of 53 bits; the results of `+`, `-`, `*`, `/` and `sqrt`
are rounded to the nearest number, in the case of a tie to the one with an even significand (IEEE 754-2019, sections 4.3.1 and 5.4.1;
no line of the source changes the rounding mode).  Here the length `t` of the significand is a parameter, and the range of exponents is
not bounded.  The functions `exp`, `expm1` and `log` are rounded correctly as well.
-/

set_option autoImplicit false

namespace Verif.Binary

open Matrix Verif.Lapack Verif.Rounded Verif.Reference

/-- the nearest integer, in the case of a tie the even one -/
noncomputable def roundEven (x : ℝ) : ℤ :=
  if x - ⌊x⌋ < 1 / 2 then ⌊x⌋ else if 1 / 2 < x - ⌊x⌋ then ⌊x⌋ + 1 else if ⌊x⌋ % 2 = 0 then ⌊x⌋ else ⌊x⌋ + 1

/-- distance of the numbers with significands of `t` bits next to `x` -/
noncomputable def ulp (t : ℕ) (x : ℝ) : ℝ := (2 : ℝ) ^ (Int.log 2 |x| + 1 - t)

/-- rounding to a significand of `t` bits -/
noncomputable def fl (t : ℕ) (x : ℝ) : ℝ := roundEven (x / ulp t x) * ulp t x

/-- operations and functions of `math.h` -/
noncomputable def scalars (t : ℕ) : Scalars where
  add x y := fl t (x + y)
  sub x y := fl t (x - y)
  mul x y := fl t (x * y)
  div x y := fl t (x / y)
  log x := fl t (Real.log x)
  sqrt x := fl t (Real.sqrt x)
  exp x := fl t (Real.exp x)
  expm1 x := fl t (Real.exp x - 1)

/-- the program with binary numbers: `N² t` rotations for the eigenvalue decomposition -/
noncomputable def platform (N t : ℕ) (piv : Mat N → Equiv.Perm (Fin N)) : Platform N :=
  refPlatform (jacobiLib N (scalars t) (N ^ 2 * t)) piv

end Verif.Binary
