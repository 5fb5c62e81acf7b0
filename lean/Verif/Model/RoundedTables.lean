import Verif.Model.Kinetic
import Verif.Model.Rounded
import Verif.Model.StratonovichRound

/-!
# The tables of exponentials in rounded arithmetic

`RectangularKineticExponential`, `MatrixExp` and `FillStratonovichParameters` with the operations of the program replaced by
arbitrary functions, as in `Verif/Model/Rounded.lean`.  What is required of these functions is stated in
`Verif/Props/RoundedTables.lean`.  As in `Verif/Model/Kinetic.lean`, failure of `LAPACKE_dsyev` to converge is not modelled.
-/

set_option autoImplicit false

namespace Verif.Rounded

open Matrix Verif.Lapack Verif.Mem Verif.Params Verif.Kinetic

/-- the operations, and the library functions and LAPACK calls used for the tables -/
structure Platform (N : ℕ) extends Arith N where
  sqrt : ℝ → ℝ
  exp : ℝ → ℝ
  expm1 : ℝ → ℝ
  /-- `cblas_dgemm` with `CblasTrans` for the second matrix -/
  gemmT : Mat N → Mat N → Mat N
  /-- `LAPACKE_dsyev('V', 'U', ..)`: eigenvectors and eigenvalues -/
  syev : Mat N → Mat N × (Fin N → ℝ)

/-- the operations used by `FillStratonovichParameters` -/
def Platform.scalar {N : ℕ} (pl : Platform N) : Stratonovich.Arith where
  add := pl.add
  sub := pl.sub
  mul := pl.mul
  div := pl.div
  sqrt := pl.sqrt
  exp := pl.exp
  expm1 := pl.expm1

/-- execute the updates `T[..] -= t` in order; `hopWrites` contains the values `-t` -/
def subAll (op : Ops) (m : ℤ → ℝ) (ws : List (ℤ × ℝ)) : ℤ → ℝ :=
  ws.foldl (fun m w => Function.update m w.1 (op.sub (m w.1) (-w.2))) m

/-- assignments of the diagonal entries (kinetic.c:79-86) -/
def diagWrites (op : Ops) (Norb Nx Ny : ℕ) (eps : ℤ → ℝ) (mu : ℝ) : List (ℤ × ℝ) :=
  let Ncell : ℤ := (Nx * Ny : ℕ)
  let N : ℤ := (Norb * (Nx * Ny) : ℕ)
  forLoop Norb fun o => forLoop (Nx * Ny) fun i =>
    let index : ℤ := i + o * Ncell
    [(index + N * index, op.add (-mu) (eps o))]

/-- the array `T` before scaling (kinetic.c:26-86) -/
noncomputable def hopping (op : Ops) (Norb Nx Ny : ℕ) (shift : ℤ) (t : Hoppings ℝ) (eps : ℤ → ℝ) (mu : ℝ) : Option (ℤ → ℝ) :=
  let N : ℤ := (Norb * (Nx * Ny) : ℕ)
  if (hopWrites Norb Nx Ny shift t).all (fun w => 0 ≤ w.1 ∧ w.1 < N * N) ∧
      (diagWrites op Norb Nx Ny eps mu).all (fun w => 0 ≤ w.1 ∧ w.1 < N * N) then
    some (assignAll (subAll op (fun _ => 0) (hopWrites Norb Nx Ny shift t)) (diagWrites op Norb Nx Ny eps mu))
  else none

/-- `MatrixExp` (linalg.c:47-90) -/
def matrixExp {N : ℕ} (pl : Platform N) (A : Mat N) : Mat N :=
  let r := pl.syev A
  let w : Fin N → ℝ := fun i => pl.exp (r.2 i)
  let UexpD : Mat N := Matrix.of fun i j => pl.mul (w j) (r.1 i j)
  pl.gemmT UexpD r.1

/-- `RectangularKineticExponential` (kinetic.c:11-105) -/
noncomputable def kineticExponential (Norb Nx Ny : ℕ) (shift : ℤ) (t : Hoppings ℝ) (eps : ℤ → ℝ) (mu dt : ℝ)
    (pl : Platform (Norb * (Nx * Ny))) : Option (KineticExp (Norb * (Nx * Ny))) :=
  (hopping pl.toOps Norb Nx Ny shift t eps mu).map fun T =>
    -- kinetic.c:89
    let T1 : ℤ → ℝ := fun k => pl.mul (-dt) (T k)
    -- kinetic.c:98
    let T2 : ℤ → ℝ := fun k => pl.mul (-1) (T1 k)
    { expK := matrixExp pl (toMatrix _ T1), invExpK := matrixExp pl (toMatrix _ T2) }

/-- the tables computed from the parameters (monte_carlo.c:752-768) -/
noncomputable def tables (p : SimParams ℝ) (pl : Platform (Main.sites p)) : Option (Tables (Main.sites p)) := do
  let k ← kineticExponential p.Norb.toNat p.Nx.toNat p.Ny.toNat p.pbcShift p.t p.eps p.mu p.dt pl
  let hs ← pl.scalar.fill p.Norb.toNat (fun o => p.U o) p.dt
  return { expK := k.expK, invExpK := k.invExpK, hs := hs }

end Verif.Rounded
