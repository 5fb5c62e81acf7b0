import Verif.Model.Mem

set_option autoImplicit false

/-!
# Model of the lattice maps of `src/measurement.c`

`Nx`, `Ny` are positive (validated, param_parser.c:401) and taken as naturals; `pbc_shift` is any
`int`.  The C remainder `%` is `Int.tmod`.
-/

namespace Verif.Lattice

open Verif.Mem

/-- C conditional increment `(i < n-1 ? i + 1 : 0)` (kinetic.c:35,39,43; measurement.c:58,64) -/
def nextIdx (n i : ℤ) : ℤ := if i < n - 1 then i + 1 else 0

/-- C conditional decrement `(i > 0 ? i - 1 : n-1)` (measurement.c:59,65) -/
def prevIdx (n i : ℤ) : ℤ := if i > 0 then i - 1 else n - 1

/-- writes of `ConstructLatticeCoordinateSumMap` in program order (measurement.c:20-45) -/
def sumMapWrites (Nx Ny : ℕ) (pbcShift : ℤ) : List (ℤ × ℤ) :=
  forLoop Ny fun j => forLoop Nx fun i => forLoop Ny fun l => forLoop Nx fun k =>
    let ij : ℤ := i + Nx * j
    let kl : ℤ := k + Nx * l
    let u : ℤ := Int.tmod (i + k + (if (j : ℤ) + l < Ny then 0 else pbcShift)) Nx
    let v : ℤ := Int.tmod (j + l) Ny
    [(ij + (Nx * Ny : ℕ) * kl, u + Nx * v)]

/-- `ConstructLatticeCoordinateSumMap` (measurement.c:15-46): the array, starting from
uninitialised memory `junk` -/
def sumMap (Nx Ny : ℕ) (pbcShift : ℤ) (junk : ℤ → ℤ) : ℤ → ℤ :=
  assignAll junk (sumMapWrites Nx Ny pbcShift)

/-- writes of one of the nearest neighbour maps in program order (measurement.c:55-75); `f i j` is
the stored value -/
def nnWrites (Nx Ny : ℕ) (f : ℤ → ℤ → ℤ) : List (ℤ × ℤ) :=
  forLoop Ny fun j => forLoop Nx fun i => [((i : ℤ) + Nx * j, f i j)]

/-- `latt_xp1_map` (measurement.c:70) -/
def xp1Map (Nx Ny : ℕ) (junk : ℤ → ℤ) : ℤ → ℤ :=
  assignAll junk (nnWrites Nx Ny fun i j => nextIdx Nx i + Nx * j)

/-- `latt_xm1_map` (measurement.c:71) -/
def xm1Map (Nx Ny : ℕ) (junk : ℤ → ℤ) : ℤ → ℤ :=
  assignAll junk (nnWrites Nx Ny fun i j => prevIdx Nx i + Nx * j)

/-- `latt_yp1_map` (measurement.c:72) -/
def yp1Map (Nx Ny : ℕ) (junk : ℤ → ℤ) : ℤ → ℤ :=
  assignAll junk (nnWrites Nx Ny fun i j => i + Nx * nextIdx Ny j)

/-- `latt_ym1_map` (measurement.c:73) -/
def ym1Map (Nx Ny : ℕ) (junk : ℤ → ℤ) : ℤ → ℤ :=
  assignAll junk (nnWrites Nx Ny fun i j => i + Nx * prevIdx Ny j)

end Verif.Lattice
