import Verif.Model.TimeFlow
import Mathlib.Analysis.SpecialFunctions.Log.Basic

/-! # Model of `src/greens_func.c`: equal time Green's functions -/

set_option autoImplicit false

namespace Verif.Greens

open Matrix Verif.Lapack Verif.TimeFlow

variable {N : ℕ}

/-- `greens_func_t` (greens_func.h:12-18) -/
structure GreensFn (N : ℕ) where
  mat : Mat N
  logdet : ℝ
  sgndet : ℤ

/-- `CopyGreensFunction` (greens_func.c:37-47) -/
def copy (src _dst : GreensFn N) : GreensFn N :=
  { mat := src.mat, logdet := src.logdet, sgndet := src.sgndet }

/-- `logdet` and `sgndet` while they are being computed -/
structure DetRec where
  logdet : ℝ
  sgndet : ℤ

/-- loop over the diagonal of `U` and the pivots (greens_func.c:111-127) -/
noncomputable def detStepU (F : Mat N) (ipiv : Fin N → Fin N) (r : DetRec) (i : Fin N) : DetRec :=
  let t := F i i
  let r1 : DetRec := if t < 0 then { r with sgndet := -r.sgndet } else r
  let t := if t < 0 then -t else t
  let r2 : DetRec := { r1 with logdet := r1.logdet - Real.log t }
  if ipiv i ≠ i then { r2 with sgndet := -r2.sgndet } else r2

/-- loop over the large entries of `d` (greens_func.c:129-143) -/
noncomputable def detStepD (d : Fin N → ℝ) (r : DetRec) (i : Fin N) : DetRec :=
  if |d i| ≤ 1.0 then r
  else
    let t := d i
    let r1 : DetRec := if t < 0 then { r with sgndet := -r.sgndet } else r
    let t := if t < 0 then -t else t
    { r1 with logdet := r1.logdet - Real.log t }

/-- loop over the reflectors (greens_func.c:145-151) -/
noncomputable def detStepTau (tau : Fin N → ℝ) (r : DetRec) (i : Fin N) : DetRec :=
  if tau i > 0 then { r with sgndet := -r.sgndet } else r

open Classical in
/-- `GreenConstruct` (greens_func.c:62-162).  `none` if an exact zero occurs on the diagonal of `U`
(logarithm of zero and division by zero in `dgetrs`). -/
noncomputable def greenConstruct [NeZero N] (lp : Lapack N) (tsm : TSM N) (sliceShift : ℕ) :
    Option (GreensFn N) :=
  let f := timeFlowMap lp tsm sliceShift
  -- D_b^{-1}
  let Db : Mat N := diagonal fun i => if |f.d i| > 1.0 then 1.0 / f.d i else 1.0
  -- D_b^{-1} Q^T
  let G := Db * (qMat f.Q f.tau)ᵀ
  -- D_s T
  let T : Mat N := Matrix.of fun i j => if |f.d i| ≤ 1.0 then f.d i * f.T i j else f.T i j
  let T := T + G
  let r := lp.lu.run T
  if ∃ i, r.1 i i = 0 then none
  else
    let r0 : DetRec := { logdet := 0.0, sgndet := 1 }
    let r1 := (List.finRange N).foldl (detStepU r.1 r.2) r0
    let r2 := (List.finRange N).foldl (detStepD f.d) r1
    let r3 := (List.finRange N).foldl (detStepTau f.tau) r2
    some { mat := dgetrs r.1 r.2 G, logdet := r3.logdet, sgndet := r3.sgndet }

/-- `GreenShermanMorrisonUpdate` (greens_func.c:169-195) -/
noncomputable def shermanMorrison (delta : ℝ) (i : Fin N) (G : Mat N) : Mat N :=
  -- i-th row, with 1 subtracted from entry i
  let c : Fin N → ℝ := fun j => if j = i then G i j - 1.0 else G i j
  -- i-th column
  let d : Fin N → ℝ := fun j => G j i
  -- cblas_dger
  Matrix.of fun a b => G a b + delta / (1.0 - delta * c i) * d a * c b

/-- `GreenTimeSliceWrap` (greens_func.c:202-215) -/
noncomputable def timeSliceWrap (B invB G : Mat N) : Mat N := (B * G) * invB

end Verif.Greens
