import Mathlib.Analysis.SpecialFunctions.Exp
import Mathlib.Analysis.SpecialFunctions.Sqrt

/-!
# Model of `src/stratonovich.c`

Field values 0 and 1 are `Fin 2` (`spin_field_t` is a byte; loading arbitrary bytes is treated in the
checkpoint model).  Reading the tables at a field value other than 0 or 1 would be undefined.
-/

set_option autoImplicit false

namespace Verif.Stratonovich

/-- `stratonovich_params_t` (stratonovich.h:18-23); orbital index `ℕ` -/
structure HSParams where
  expVu : Fin 2 → ℕ → ℝ
  expVd : Fin 2 → ℕ → ℝ
  delta : Fin 2 → ℕ → ℝ

/-- `x = 0.5*dt*U[o]` (stratonovich.c:24) -/
noncomputable def hsX (U dt : ℝ) : ℝ := 0.5 * dt * U

/-- `y = expm1(x) * (exp_x + 1)` (stratonovich.c:26); `expm1(x) = exp(x) - 1` -/
noncomputable def hsY (U dt : ℝ) : ℝ := (Real.exp (hsX U dt) - 1) * (Real.exp (hsX U dt) + 1)

/-- `exp_pos_lambda = exp_x + sqrt_y` (stratonovich.c:30) -/
noncomputable def expPos (U dt : ℝ) : ℝ := Real.exp (hsX U dt) + Real.sqrt (hsY U dt)

/-- `exp_neg_lambda = 1.0 / exp_pos_lambda` (stratonovich.c:31) -/
noncomputable def expNeg (U dt : ℝ) : ℝ := 1.0 / expPos U dt

/-- `delta[0]` (stratonovich.c:42) -/
noncomputable def delta0 (U dt : ℝ) : ℝ :=
  2 * (hsY U dt + Real.exp (hsX U dt) * Real.sqrt (hsY U dt))

open Classical in
/-- `FillStratonovichParameters` (stratonovich.c:10-45); `none` when the square root of a negative
number would be taken for one of the orbitals -/
noncomputable def fill (Norb : ℕ) (U : ℕ → ℝ) (dt : ℝ) : Option HSParams :=
  if ∃ o < Norb, hsY (U o) dt < 0 then none
  else some
    { expVu := fun s o => if s = 0 then expNeg (U o) dt else expPos (U o) dt
      expVd := fun s o => if s = 0 then expPos (U o) dt else expNeg (U o) dt
      delta := fun s o => if s = 0 then delta0 (U o) dt else 1.0 / (delta0 (U o) dt + 1) - 1 }

end Verif.Stratonovich
