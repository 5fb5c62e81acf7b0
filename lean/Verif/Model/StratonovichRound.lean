import Verif.Model.Stratonovich

/-!
# `FillStratonovichParameters` in rounded arithmetic

The tables of `src/stratonovich.c` as they are computed when every operation is followed by a
rounding.  The arithmetic is a parameter: any functions for `+ - * /` and for the three library
functions.  `Accurate u` says that each of them has relative error at most `u`; this is the usual
model of floating-point arithmetic as long as no intermediate result overflows or underflows.
For binary64 with library functions accurate to one unit in the last place, `u = 2^-52`.
-/

set_option autoImplicit false

namespace Verif.Stratonovich

/-- The operations used by stratonovich.c:24-43 -/
structure Arith where
  add : ℝ → ℝ → ℝ
  sub : ℝ → ℝ → ℝ
  mul : ℝ → ℝ → ℝ
  div : ℝ → ℝ → ℝ
  sqrt : ℝ → ℝ
  exp : ℝ → ℝ
  expm1 : ℝ → ℝ

/-- Every operation has relative error at most `u` -/
structure Arith.Accurate (A : Arith) (u : ℝ) : Prop where
  add : ∀ x y, |A.add x y - (x + y)| ≤ u * |x + y|
  sub : ∀ x y, |A.sub x y - (x - y)| ≤ u * |x - y|
  mul : ∀ x y, |A.mul x y - x * y| ≤ u * |x * y|
  div : ∀ x y, |A.div x y - x / y| ≤ u * |x / y|
  sqrt : ∀ x, |A.sqrt x - Real.sqrt x| ≤ u * |Real.sqrt x|
  exp : ∀ x, |A.exp x - Real.exp x| ≤ u * |Real.exp x|
  expm1 : ∀ x, |A.expm1 x - (Real.exp x - 1)| ≤ u * |Real.exp x - 1|

namespace Arith

variable (A : Arith) (U dt : ℝ)

/-- `const double x = 0.5*dt*U[o];` (stratonovich.c:24) -/
noncomputable def x : ℝ := A.mul (A.mul 0.5 dt) U

/-- `const double exp_x = exp(x);` (stratonovich.c:25) -/
noncomputable def expX : ℝ := A.exp (A.x U dt)

/-- `const double y = expm1(x) * (exp_x + 1);` (stratonovich.c:26) -/
noncomputable def y : ℝ := A.mul (A.expm1 (A.x U dt)) (A.add (A.expX U dt) 1)

/-- `const double sqrt_y = sqrt(y);` (stratonovich.c:27) -/
noncomputable def sqrtY : ℝ := A.sqrt (A.y U dt)

/-- `exp_pos_lambda = exp_x + sqrt_y` (stratonovich.c:30) -/
noncomputable def pos : ℝ := A.add (A.expX U dt) (A.sqrtY U dt)

/-- `exp_neg_lambda = 1.0 / exp_pos_lambda` (stratonovich.c:31) -/
noncomputable def neg : ℝ := A.div 1.0 (A.pos U dt)

/-- `delta[0][o] = 2 * (y + exp_x * sqrt_y)` (stratonovich.c:42) -/
noncomputable def delta0 : ℝ := A.mul 2 (A.add (A.y U dt) (A.mul (A.expX U dt) (A.sqrtY U dt)))

/-- `delta[1][o] = 1.0 / (delta[0][o] + 1) - 1` (stratonovich.c:43) -/
noncomputable def delta1 : ℝ := A.sub (A.div 1.0 (A.add (A.delta0 U dt) 1)) 1

open Classical in
/-- `FillStratonovichParameters` (stratonovich.c:10-45); `none` when the square root of a negative
number would be taken for one of the orbitals -/
noncomputable def fill (Norb : ℕ) (U : ℕ → ℝ) (dt : ℝ) : Option HSParams :=
  if ∃ o < Norb, A.y (U o) dt < 0 then none
  else some
    { expVu := fun s o => if s = 0 then A.neg (U o) dt else A.pos (U o) dt
      expVd := fun s o => if s = 0 then A.pos (U o) dt else A.neg (U o) dt
      delta := fun s o => if s = 0 then A.delta0 (U o) dt else A.delta1 (U o) dt }

/-- Exact arithmetic -/
noncomputable def exact : Arith where
  add x y := x + y
  sub x y := x - y
  mul x y := x * y
  div x y := x / y
  sqrt := Real.sqrt
  exp := Real.exp
  expm1 x := Real.exp x - 1

end Arith

end Verif.Stratonovich
