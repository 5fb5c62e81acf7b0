import Mathlib.Data.Matrix.Mul
import Mathlib.Data.Real.Basic
import Mathlib.LinearAlgebra.Matrix.NonsingularInverse
import Mathlib.LinearAlgebra.Matrix.Permutation
import Mathlib.Analysis.SpecialFunctions.Sqrt

/-!
# Contracts of the LAPACK routines used by the code

The routines are arbitrary functions satisfying the documented contract, in the packed storage
formats the code relies on.  Existence of such functions is shown in `Verif/Lemmas/Lapack.lean`.
-/

set_option autoImplicit false

namespace Verif

open Matrix

/-- square matrices of size `N` -/
abbrev Mat (N : ℕ) := Matrix (Fin N) (Fin N) ℝ

namespace Lapack

variable {m n : ℕ}

/-- Householder vector number `i` in the packed format of `dgeqrf`/`dgeqp3`: zero above row `i`, one
in row `i`, below row `i` the entries stored in column `i` -/
def houseVec (F : Matrix (Fin m) (Fin n) ℝ) (i : Fin n) : Fin m → ℝ := fun r =>
  if r.val < i.val then 0 else if r.val = i.val then 1 else F r i

/-- elementary reflector `H_i = I - tau_i v_i v_iᵀ` -/
def reflector (F : Matrix (Fin m) (Fin n) ℝ) (tau : Fin n → ℝ) (i : Fin n) :
    Matrix (Fin m) (Fin m) ℝ :=
  1 - tau i • vecMulVec (houseVec F i) (houseVec F i)

/-- the matrix `Q = H_0 H_1 ... H_{n-1}` represented by the packed format; multiplied by `dormqr` -/
def qMat (F : Matrix (Fin m) (Fin n) ℝ) (tau : Fin n → ℝ) : Matrix (Fin m) (Fin m) ℝ :=
  ((List.finRange n).map (reflector F tau)).prod

/-- upper triangular (trapezoidal) part -/
def upper (F : Matrix (Fin m) (Fin n) ℝ) : Matrix (Fin m) (Fin n) ℝ :=
  Matrix.of fun i j => if i.val ≤ j.val then F i j else 0

/-- contract of `dgeqrf` for a matrix with at least as many rows as columns: `A = Q R` with `R` in
the upper part and the reflectors in the lower part; every reflector is the identity (`tau = 0`) or
a reflection (`tau vᵀv = 2`) -/
structure IsQR (A F : Matrix (Fin m) (Fin n) ℝ) (tau : Fin n → ℝ) : Prop where
  refl : ∀ i, tau i = 0 ∨ tau i * (houseVec F i ⬝ᵥ houseVec F i) = 2
  eq : A = qMat F tau * upper F

/-- an implementation of `dgeqrf` -/
structure QRAlg (m n : ℕ) where
  run : Matrix (Fin m) (Fin n) ℝ → Matrix (Fin m) (Fin n) ℝ × (Fin n → ℝ)
  spec : ∀ A, IsQR A (run A).1 (run A).2

/-- an implementation of `dgeqp3` (QR with column pivoting): the columns of `A` in the order `jpvt`
have the QR decomposition returned.  (`jpvt` is converted to 0-based indices, as the code does in
time_flow.c:386.) -/
structure QRPAlg (n : ℕ) where
  run : Mat n → Mat n × (Fin n → ℝ) × Equiv.Perm (Fin n)
  spec : ∀ A, IsQR (A.submatrix id (run A).2.2) (run A).1 (run A).2.1

/-- unit lower triangular part -/
def unitLower (F : Mat n) : Mat n :=
  Matrix.of fun i j => if j < i then F i j else if i = j then 1 else 0

/-- the row interchanges `i ↔ ipiv[i]` for `i = 0, 1, ...` (0-based): `P_0 P_1 ... P_{n-1}` -/
def pivMat (ipiv : Fin n → Fin n) : Mat n :=
  ((List.finRange n).map fun i => (Equiv.swap i (ipiv i)).permMatrix ℝ).prod

/-- an implementation of `dgetrf`: `A = P L U` in packed format -/
structure LUAlg (n : ℕ) where
  run : Mat n → Mat n × (Fin n → Fin n)
  spec : ∀ A, A = pivMat (run A).2 * unitLower (run A).1 * upper (run A).1

/-- `dgetrs('N', ..)`: undo the interchanges, then solve with `L` and with `U` -/
noncomputable def dgetrs (F : Mat n) (ipiv : Fin n → Fin n) (G : Mat n) : Mat n :=
  (upper F)⁻¹ * ((unitLower F)⁻¹ * ((pivMat ipiv)⁻¹ * G))

end Lapack

/-- the LAPACK routines for `N×N` matrices -/
structure Lapack (N : ℕ) where
  qr : Lapack.QRAlg N N
  qrp : Lapack.QRPAlg N
  lu : Lapack.LUAlg N

end Verif
