import Verif.Model.Lattice
import Verif.Model.Params
import Mathlib.Analysis.SpecialFunctions.Exp
import Mathlib.Data.Matrix.Mul

/-!
# Model of `src/kinetic.c` and of `MatrixExp` (src/linalg.c)

Arrays are memory functions `ℤ → ℝ`; matrices are stored column-major: entry (r, c) of an `N×N`
matrix is at index `r + c*N`.  `Norb`, `Nx`, `Ny` are positive (validated) and taken as naturals,
`pbc_shift` is any integer.  An access outside the array is the outcome `none`.
-/

set_option autoImplicit false

namespace Verif.Kinetic

open Verif.Mem Verif.Lattice Verif.Params

/-- the two updates of one bond (e.g. kinetic.c:59-60): `x`, `y` are cells, `o`, `p` orbitals -/
def bondWrites (N Ncell o p x y : ℤ) (v : ℝ) : List (ℤ × ℝ) :=
  [((x + o * Ncell) + (y + p * Ncell) * N, -v), ((x + o * Ncell) * N + (y + p * Ncell), -v)]

/-- all updates `T[..] -= t` in program order (kinetic.c:29-76) -/
def hopWrites (Norb Nx Ny : ℕ) (shift : ℤ) (t : Hoppings ℝ) : List (ℤ × ℝ) :=
  let Ncell : ℤ := (Nx * Ny : ℕ)
  let N : ℤ := (Norb * (Nx * Ny) : ℕ)
  forLoop Norb fun o => forLoop Norb fun p => forLoop Ny fun j => forLoop Nx fun i =>
    let jNext := nextIdx Ny j
    let iNext := nextIdx Nx i
    let is := Int.tmod (i + (if jNext = 0 then shift else 0)) Nx
    let isNext := nextIdx Nx is
    let a : ℤ := i + j * Nx
    let b := iNext + j * Nx
    let c := is + jNext * Nx
    let d := isNext + jNext * Nx
    let k : ℤ := o + p * Norb
    bondWrites N Ncell o p a a (t.aa k) ++
    (bondWrites N Ncell o p a b (t.ab k) ++
    (bondWrites N Ncell o p a c (t.ac k) ++
    (bondWrites N Ncell o p a d (t.ad k) ++
     bondWrites N Ncell o p b c (t.bc k))))

/-- assignments of the diagonal entries (kinetic.c:79-86) -/
def diagWrites (Norb Nx Ny : ℕ) (eps : ℤ → ℝ) (mu : ℝ) : List (ℤ × ℝ) :=
  let Ncell : ℤ := (Nx * Ny : ℕ)
  let N : ℤ := (Norb * (Nx * Ny) : ℕ)
  forLoop Norb fun o => forLoop (Nx * Ny) fun i =>
    let index : ℤ := i + o * Ncell
    [(index + N * index, -mu + eps o)]

/-- the array `T` before scaling (kinetic.c:26-86); `none` when an index leaves the array of
`N*N` zero-initialised entries -/
noncomputable def hopping (Norb Nx Ny : ℕ) (shift : ℤ) (t : Hoppings ℝ) (eps : ℤ → ℝ) (mu : ℝ) :
    Option (ℤ → ℝ) :=
  let N : ℤ := (Norb * (Nx * Ny) : ℕ)
  if (hopWrites Norb Nx Ny shift t).all (fun w => 0 ≤ w.1 ∧ w.1 < N * N) ∧
      (diagWrites Norb Nx Ny eps mu).all (fun w => 0 ≤ w.1 ∧ w.1 < N * N) then
    some (assignAll (addAll (fun _ => 0) (hopWrites Norb Nx Ny shift t))
      (diagWrites Norb Nx Ny eps mu))
  else none

/-- column-major array as a matrix -/
def toMatrix (N : ℕ) (m : ℤ → ℝ) : Matrix (Fin N) (Fin N) ℝ :=
  Matrix.of fun r c => m ((r : ℕ) + (c : ℕ) * (N : ℤ))

/-- LAPACK `dsyev('V', 'U', ..)`: an arbitrary function from the input array to eigenvectors and
eigenvalues.  Contract: only the upper triangle is used; the eigenvectors are orthonormal and
diagonalise the symmetric matrix given by the upper triangle.  Failure to converge (`info > 0`,
whose return value `RectangularKineticExponential` ignores) is not modelled. -/
structure Eigensolver (N : ℕ) where
  run : Matrix (Fin N) (Fin N) ℝ → Matrix (Fin N) (Fin N) ℝ × (Fin N → ℝ)
  orthonormal : ∀ A, (run A).1.transpose * (run A).1 = 1
  diagonalises : ∀ A, (Matrix.of fun i j => if i ≤ j then A i j else A j i)
    = (run A).1 * Matrix.diagonal (run A).2 * (run A).1.transpose

/-- `MatrixExp` (linalg.c:47-90): `U diag(exp w) Uᵀ` -/
noncomputable def matrixExp {N : ℕ} (es : Eigensolver N) (A : Matrix (Fin N) (Fin N) ℝ) :
    Matrix (Fin N) (Fin N) ℝ :=
  let r := es.run A
  -- linalg.c:66-69
  let w : Fin N → ℝ := fun i => Real.exp (r.2 i)
  -- linalg.c:71-82: columns scaled by w
  let UexpD : Matrix (Fin N) (Fin N) ℝ := Matrix.of fun i j => r.1 i j * w j
  -- linalg.c:84-85
  UexpD * r.1.transpose

/-- `kinetic_t` -/
structure KineticExp (N : ℕ) where
  expK : Matrix (Fin N) (Fin N) ℝ
  invExpK : Matrix (Fin N) (Fin N) ℝ

/-- `RectangularKineticExponential` (kinetic.c:11-105) -/
noncomputable def kineticExponential (Norb Nx Ny : ℕ) (shift : ℤ) (t : Hoppings ℝ) (eps : ℤ → ℝ)
    (mu dt : ℝ) (es : Eigensolver (Norb * (Nx * Ny))) : Option (KineticExp (Norb * (Nx * Ny))) :=
  (hopping Norb Nx Ny shift t eps mu).map fun T =>
    -- kinetic.c:89
    let T1 : ℤ → ℝ := fun k => -dt * T k
    -- kinetic.c:98
    let T2 : ℤ → ℝ := fun k => -1 * T1 k
    { expK := matrixExp es (toMatrix _ T1), invExpK := matrixExp es (toMatrix _ T2) }

end Verif.Kinetic
