import Verif.Model.Lapack
import Verif.Model.Stratonovich

/-!
# Model of `src/time_flow.c` and of `MatrixProductSequence` (src/linalg.c)

`N = Norb*Ncell` is the number of sites.  The cell count `Ncell` is positive.  Fields of a slice are
functions of the site.
-/

set_option autoImplicit false

namespace Verif.TimeFlow

open Matrix Verif.Stratonovich Verif.Lapack

variable {N : ℕ}

/-- `ComputeTimeStepMatrix` (time_flow.c:15-34): row `i` of `expK` is scaled -/
def timeStepMatrix (Ncell : ℕ) (expK : Mat N) (expV : Fin 2 → ℕ → ℝ) (s : Fin N → Fin 2) : Mat N :=
  Matrix.of fun i j => expV (s i) (i / Ncell) * expK i j

/-- `ComputeInverseTimeStepMatrix` (time_flow.c:40-59): column `i` of `inv_expK` is scaled -/
def invTimeStepMatrix (Ncell : ℕ) (invExpK : Mat N) (expV : Fin 2 → ℕ → ℝ) (s : Fin N → Fin 2) :
    Mat N :=
  Matrix.of fun j i => expV (1 - s i) (i / Ncell) * invExpK j i

/-- `ComputePhononTimeStepMatrix` (time_flow.c:66-85) -/
def phononTimeStepMatrix (Ncell : ℕ) (expK : Mat N) (expV : Fin 2 → ℕ → ℝ) (s : Fin N → Fin 2)
    (expX : Fin N → ℝ) : Mat N :=
  Matrix.of fun i j => expV (s i) (i / Ncell) * expX i * expK i j

/-- `ComputeInversePhononTimeStepMatrix` (time_flow.c:91-110) -/
noncomputable def invPhononTimeStepMatrix (Ncell : ℕ) (invExpK : Mat N) (expV : Fin 2 → ℕ → ℝ)
    (s : Fin N → Fin 2) (expX : Fin N → ℝ) : Mat N :=
  Matrix.of fun j i => expV (1 - s i) (i / Ncell) / expX i * invExpK j i

/-! ## `MatrixProductSequence` -/

/-- the two buffers and the pointers `T1`, `T2`: `t1IsRet` says that `T1` points to `ret` -/
structure ProdState (N : ℕ) where
  ret : Mat N
  W : Mat N
  t1IsRet : Bool

/-- the matrix `T1` points to -/
def ProdState.t1 (st : ProdState N) : Mat N := if st.t1IsRet then st.ret else st.W

/-- write to `T1` -/
def ProdState.setT1 (st : ProdState N) (M : Mat N) : ProdState N :=
  if st.t1IsRet then { st with ret := M } else { st with W := M }

/-- write to `T2` -/
def ProdState.setT2 (st : ProdState N) (M : Mat N) : ProdState N :=
  if st.t1IsRet then { st with W := M } else { st with ret := M }

/-- one pass of the loop (linalg.c:124-134): `T2 := A[i] T1`, swap -/
def prodStep (A : ℕ → Mat N) (st : ProdState N) (i : ℕ) : ProdState N :=
  let st := st.setT2 (A i * st.t1)
  { st with t1IsRet := !st.t1IsRet }

/-- `MatrixProductSequence` (linalg.c:97-143): content of `ret` at the end; `ret0`, `W0` are the
initial contents of `ret` and of the work space -/
def matrixProductSequence (num : ℕ) (A : ℕ → Mat N) (ret0 W0 : Mat N) : Mat N :=
  let st : ProdState N := { ret := ret0, W := W0, t1IsRet := num % 2 != 0 }
  let st := st.setT1 (A 0)
  -- for (i = 1; i < num; i++)
  ((List.range' 1 (num - 1)).foldl (prodStep A) st).ret

/-! ## Time step matrices -/

/-- `time_step_matrices_t` (time_flow.h:13-22); `B` and `invB` are indexed by the slice, `Bprod` by
the block -/
structure TSM (N : ℕ) where
  B : ℕ → Mat N
  invB : ℕ → Mat N
  Bprod : ℕ → Mat N
  L : ℕ
  prodBlen : ℕ
  numBprod : ℕ

/-- `AllocateTimeStepMatrices` (time_flow.c:117-143): dimensions; the matrices hold arbitrary data -/
def allocate (L prodBlen : ℕ) (junk : ℕ → Mat N) : TSM N :=
  { B := junk, invB := junk, Bprod := junk, L := L, prodBlen := prodBlen, numBprod := L / prodBlen }

/-- set the matrices of slice `l` -/
def TSM.setB (tsm : TSM N) (l : ℕ) (M Minv : Mat N) : TSM N :=
  { tsm with B := Function.update tsm.B l M, invB := Function.update tsm.invB l Minv }

/-- recompute the product of the block starting at slice `lstart` -/
def TSM.setProd (tsm : TSM N) (lstart : ℕ) (W0 : Mat N) : TSM N :=
  let k := lstart / tsm.prodBlen
  let P := matrixProductSequence tsm.prodBlen (fun i => tsm.B (lstart + i)) (tsm.Bprod k) W0
  { tsm with Bprod := Function.update tsm.Bprod k P }

/-- body shared by `InitTimeStepMatrices` and `InitPhononTimeStepMatrices` (time_flow.c:218-260):
`mk l` and `mkInv l` are the matrices of slice `l`; `W0` is the content of fresh work space -/
def initWith (mk mkInv : ℕ → Mat N) (W0 : Mat N) (tsm : TSM N) : TSM N :=
  let tsm := (List.range tsm.L).foldl (fun t l => t.setB l (mk l) (mkInv l)) tsm
  (List.range tsm.numBprod).foldl (fun t l => t.setProd (l * t.prodBlen) W0) tsm

/-- body shared by `UpdateTimeStepMatrices` and `UpdatePhononTimeStepMatrices`
(time_flow.c:268-301) -/
def updateWith (mk mkInv : ℕ → Mat N) (W0 : Mat N) (l : ℕ) (tsm : TSM N) : TSM N :=
  let tsm := tsm.setB l (mk l) (mkInv l)
  if l % tsm.prodBlen = tsm.prodBlen - 1 then tsm.setProd (l - (tsm.prodBlen - 1)) W0
  else tsm

/-- `CopyTimeStepMatrices` (time_flow.c:175-211) with equal dimensions: copies the first `L`
matrices and the first `numBprod` products -/
def copy (src dst : TSM N) : TSM N :=
  { dst with
    B := fun l => if l < src.L then src.B l else dst.B l
    invB := fun l => if l < src.L then src.invB l else dst.invB l
    Bprod := fun l => if l < src.numBprod then src.Bprod l else dst.Bprod l }

/-! ## Pre-pivoting -/

/-- inner loop of the insertion sort (time_flow.c:425-428): `jpvt` as a function, `j` runs down from
`i` -/
noncomputable def insertInner {ι : Type} (norms : ι → ℝ) (i : ι) : ℕ → (ℕ → ι) → (ℕ → ι)
  | 0, p => Function.update p 0 i
  | j + 1, p =>
    if norms (p j) < norms i then insertInner norms i j (Function.update p (j + 1) (p j))
    else Function.update p (j + 1) i

/-- insertion sort (time_flow.c:421-430); `p0` is the previous content of `jpvt`.  (In C the first
element is stored before the loop; for `i = 0` the loop body does the same.) -/
noncomputable def pivotOrder (norms : Fin N → ℝ) (p0 : ℕ → Fin N) : ℕ → Fin N :=
  (List.finRange N).foldl (fun p i => insertInner norms i i.val p) p0

/-- `cblas_dnrm2` of column `j` -/
noncomputable def colNorm (W : Mat N) (j : Fin N) : ℝ := Real.sqrt (∑ i, W i j ^ 2)

/-! ## `TimeFlowMap` -/

/-- the representation `Q diag(d) T`, `Q` in packed format -/
structure Flow (N : ℕ) where
  Q : Mat N
  tau : Fin N → ℝ
  d : Fin N → ℝ
  T : Mat N
  /-- content of `jpvt` -/
  jpvt : ℕ → Fin N

open Classical in
/-- diagonal of `R`, zeros replaced by one (time_flow.c:369-377, 443-452) -/
noncomputable def diagOf (Q : Mat N) : Fin N → ℝ := fun i => if Q i i = 0 then 1 else Q i i

/-- first QR decomposition (time_flow.c:358-393) -/
noncomputable def flowInit [NeZero N] (lp : Lapack N) (Bp : Mat N) : Flow N :=
  let r := lp.qrp.run Bp
  let Q := r.1
  let d := diagOf Q
  let v : Fin N → ℝ := fun i => 1.0 / d i
  -- T is zero except T[i, jpvt[j]] = v[i] * Q[i, j] for i <= j
  let T : Mat N := Matrix.of fun i c =>
    let j := r.2.2.symm c
    if i ≤ j then v i * Q i j else 0
  { Q := Q, tau := r.2.1, d := d, T := T, jpvt := fun j => r.2.2 (Fin.ofNat N j) }

/-- one pass of the loop over the blocks (time_flow.c:396-485) -/
noncomputable def flowStep (lp : Lapack N) (f : Flow N) (Bp : Mat N) : Flow N :=
  -- W := Bprod Q, columns scaled by d
  let W : Mat N := Matrix.of fun i j => (Bp * qMat f.Q f.tau) i j * f.d j
  let jpvt := pivotOrder (colNorm W) f.jpvt
  -- pre-pivoted W and its QR decomposition
  let r := lp.qr.run (Matrix.of fun i j => W i (jpvt j))
  let Q := r.1
  let d := diagOf Q
  let v : Fin N → ℝ := fun i => 1.0 / d i
  -- upper part scaled
  let Q' : Mat N := Matrix.of fun i j => if i ≤ j then Q i j * v i else Q i j
  -- rows of T permuted
  let T : Mat N := Matrix.of fun i j => f.T (jpvt i) j
  -- dtrmm
  { Q := Q', tau := r.2, d := d, T := upper Q' * T, jpvt := jpvt }

/-- `TimeFlowMap` (time_flow.c:327-495) -/
noncomputable def timeFlowMap [NeZero N] (lp : Lapack N) (tsm : TSM N) (sliceShift : ℕ) : Flow N :=
  let sh := sliceShift / tsm.prodBlen
  (List.range' 1 (tsm.numBprod - 1)).foldl
    (fun f l => flowStep lp f (tsm.Bprod ((l + sh) % tsm.numBprod)))
    (flowInit lp (tsm.Bprod (sh % tsm.numBprod)))

end Verif.TimeFlow
