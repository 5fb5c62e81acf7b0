import Verif.Model.BlockCyclic
import Verif.Model.TimeFlow
import Verif.Model.Greens
import Verif.Model.Measurement

/-!
# Unequal time Green's functions (greens_func.c:238-327)

The arrays are buffers with checked addresses, as in `Verif/Model/BlockCyclic.lean`.  The contents of
fresh or reused memory are parameters.
-/

set_option autoImplicit false

namespace Verif.GreensUneq

open Verif.BlockCyclic Verif.TimeFlow

variable {N : ℕ}

/-- the array `H` as identity matrix with `p` blocks (greens_func.c:245-249) -/
def identity (N p : ℕ) : Buf :=
  (List.range (p * N)).foldl (fun H i => Function.update H (i + i * p * N) 1) fun _ => 0

/-- copy the product number `i` into its block (greens_func.c:254-263); `domatcopy` of a matrix with
factor -/
def putBlock (p : ℕ) (Bprod : ℕ → Mat N) (H : Buf) (i : ℕ) : Option Buf :=
  if i < p - 1 then
    save ((N * p) * (N * p)) H (((i + 1) + (N * p : ℕ) * i) * N) (N * p) ((-1.0 : ℝ) • Bprod i)
  else
    save ((N * p) * (N * p)) H ((N * p : ℕ) * (p - 1) * N) (N * p) ((1.0 : ℝ) • Bprod i)

/-- the matrix to be inverted (greens_func.c:244-264) -/
def buildH (tsm : TSM N) : Option Buf :=
  (List.range tsm.numBprod).foldlM (putBlock tsm.numBprod tsm.Bprod) (identity N tsm.numBprod)

/-- one pass of the loop for `Gtau0` (greens_func.c:270-280) -/
def tau0Step (tsm : TSM N) (L : ℕ) (H : Buf) (G : Buf) (i : ℕ) : Option Buf := do
  let p := tsm.numBprod
  if i % tsm.prodBlen = 0 then
    let M ← load ((N * p) * (N * p)) H ((i / tsm.prodBlen : ℕ) * N) (N * p) N N
    save (L * N * N) G (i * N) (L * N) M
  else
    let M ← load (L * N * N) G ((i - 1) * N) (L * N) N N
    save (L * N * N) G (i * N) (L * N) (tsm.B (i - 1) * M)

/-- one pass of the loop for `G0tau` (greens_func.c:283-310) -/
def zerotauStep (tsm : TSM N) (L : ℕ) (H : Buf) (G : Buf) (i : ℕ) : Option Buf := do
  let p := tsm.numBprod
  if i % tsm.prodBlen = 0 then
    let M ← load ((N * p) * (N * p)) H ((i / tsm.prodBlen : ℕ) * (N * p : ℕ) * N) (N * p) N N
    save (L * N * N) G (i * N * N) N M
  else if i = 1 then
    let M ← load ((N * p) * (N * p)) H 0 (N * p) N N
    save (L * N * N) G (i * N * N) N ((M - 1) * tsm.invB (i - 1))
  else
    let M ← load (L * N * N) G ((i - 1) * N * N) N N N
    save (L * N * N) G (i * N * N) N (M * tsm.invB (i - 1))

/-- one pass of the loop for `Geqlt` (greens_func.c:313-326) -/
noncomputable def eqltStep (tsm : TSM N) (L : ℕ) (H : Buf) (G : Buf) (i : ℕ) : Option Buf := do
  let p := tsm.numBprod
  if i % tsm.prodBlen = 0 then
    let ib := i / tsm.prodBlen
    let M ← load ((N * p) * (N * p)) H ((ib + ib * (N * p : ℕ)) * N) (N * p) N N
    save (L * N * N) G (i * N * N) N M
  else
    let M ← load (L * N * N) G ((i - 1) * N * N) N N N
    save (L * N * N) G (i * N * N) N (Greens.timeSliceWrap (tsm.B (i - 1)) (tsm.invB (i - 1)) M)

/-- the three arrays -/
structure Arrays where
  Gtau0 : Buf
  G0tau : Buf
  Geqlt : Buf

/-- `ComputeUnequalTimeGreensFunction` (greens_func.c:238-327); `old` holds the previous content of the
arrays, `tau` the content of the array allocated in `BlockCyclicInverse` -/
noncomputable def compute (alg : QRs N) (tsm : TSM N) (L : ℕ) (tau : Buf) (old : Arrays) :
    Option Arrays := do
  let H ← buildH tsm
  let H ← blockCyclicInverse alg tsm.numBprod H tau
  let t ← (List.range L).foldlM (tau0Step tsm L H) old.Gtau0
  let z ← (List.range L).foldlM (zerotauStep tsm L H) old.G0tau
  let e ← (List.range L).foldlM (eqltStep tsm L H) old.Geqlt
  return ⟨t, z, e⟩

/-- the arrays as they are read by `AccumulateUnequalTimeMeasurement` -/
def Arrays.toCur (N L : ℕ) (A : Arrays) : Measurement.Cur where
  tau0 z := if 0 ≤ z ∧ z < (L * N * N : ℕ) then some (A.Gtau0 z.toNat) else none
  zerotau z := if 0 ≤ z ∧ z < (L * N * N : ℕ) then some (A.G0tau z.toNat) else none
  eqlt z := if 0 ≤ z ∧ z < (L * N * N : ℕ) then some (A.Geqlt z.toNat) else none

end Verif.GreensUneq
