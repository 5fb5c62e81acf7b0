import Verif.Model.Inexact
import Verif.Model.Measurement
import Verif.Model.Main

/-!
# The iteration without phonons in rounded arithmetic

The functions of `Verif/Model/TimeFlow.lean`, `Verif/Model/Greens.lean`, `Verif/Model/MonteCarlo.lean` and
`AccumulateMeasurement` with the operations of the program in the order in which it performs them, every operation replaced by
an arbitrary function: `Ops` are the floating point operations of the C code, `Arith` adds the calls of BLAS and LAPACK.
What is required of these functions is stated in `Verif/Props/RoundedGreens.lean`.

Simplifications: the operations have real values (no infinities and no NaN; `none` where the exact model has `none`), changes of
sign, comparisons, and conversions from `int` are exact, and an expression is evaluated operation by operation (a fused multiplication
and addition is not a composition of two operations).  The unequal time measurement is in `Verif/Model/RoundedUneq.lean`.
-/

set_option autoImplicit false

namespace Verif.Rounded

open Matrix Verif.Lapack Verif.TimeFlow Verif.Greens Verif.Stratonovich Verif.MonteCarlo Verif.Measurement

/-- the floating point operations -/
structure Ops where
  add : ℝ → ℝ → ℝ
  sub : ℝ → ℝ → ℝ
  mul : ℝ → ℝ → ℝ
  div : ℝ → ℝ → ℝ
  log : ℝ → ℝ

/-- the operations and the calls of BLAS and LAPACK for `N × N` matrices -/
structure Arith (N : ℕ) extends Ops where
  /-- `cblas_dnrm2` -/
  nrm2 : (Fin N → ℝ) → ℝ
  /-- `cblas_dgemm` with factors 1 and 0 -/
  gemm : Mat N → Mat N → Mat N
  /-- `cblas_dtrmm`: multiplication by the upper triangle of the first matrix -/
  trmm : Mat N → Mat N → Mat N
  /-- `cblas_dger`: `A + α x yᵀ` -/
  ger : ℝ → (Fin N → ℝ) → (Fin N → ℝ) → Mat N → Mat N
  geqp3 : Mat N → Mat N × (Fin N → ℝ) × Equiv.Perm (Fin N)
  geqrf : Mat N → Mat N × (Fin N → ℝ)
  /-- `LAPACKE_dormqr('R', 'N', ..)`: multiplication by `Q` from the right -/
  ormqr : Mat N → (Fin N → ℝ) → Mat N → Mat N
  /-- `LAPACKE_dormqr('R', 'T', ..)`: multiplication by `Qᵀ` from the right -/
  ormqrT : Mat N → (Fin N → ℝ) → Mat N → Mat N
  getrf : Mat N → Mat N × (Fin N → Fin N)
  getrs : Mat N → (Fin N → Fin N) → Mat N → Mat N

/-- the tables of exponentials as computed by the program -/
structure Tables (N : ℕ) where
  expK : Mat N
  invExpK : Mat N
  hs : HSParams

variable {N : ℕ} (ar : Arith N)

/-! ## Time step matrices -/

/-- `ComputeTimeStepMatrix` (time_flow.c:15-34) -/
def timeStep (Ncell : ℕ) (expK : Mat N) (expV : Fin 2 → ℕ → ℝ) (s : Fin N → Fin 2) : Mat N :=
  Matrix.of fun i j => ar.mul (expV (s i) (i / Ncell)) (expK i j)

/-- `ComputeInverseTimeStepMatrix` (time_flow.c:40-59) -/
def invTimeStep (Ncell : ℕ) (invExpK : Mat N) (expV : Fin 2 → ℕ → ℝ) (s : Fin N → Fin 2) : Mat N :=
  Matrix.of fun j i => ar.mul (expV (1 - s i) (i / Ncell)) (invExpK j i)

/-- one pass of the loop of `MatrixProductSequence` (linalg.c:124-134) -/
def prodStep (A : ℕ → Mat N) (st : ProdState N) (i : ℕ) : ProdState N :=
  let st := st.setT2 (ar.gemm (A i) st.t1)
  { st with t1IsRet := !st.t1IsRet }

/-- `MatrixProductSequence` (linalg.c:97-143) -/
def matrixProductSequence (num : ℕ) (A : ℕ → Mat N) (ret0 W0 : Mat N) : Mat N :=
  let st : ProdState N := { ret := ret0, W := W0, t1IsRet := num % 2 != 0 }
  let st := st.setT1 (A 0)
  ((List.range' 1 (num - 1)).foldl (prodStep ar A) st).ret

/-- recompute the product of the block starting at slice `lstart` -/
def setProd (tsm : TSM N) (lstart : ℕ) (W0 : Mat N) : TSM N :=
  let k := lstart / tsm.prodBlen
  let P := matrixProductSequence ar tsm.prodBlen (fun i => tsm.B (lstart + i)) (tsm.Bprod k) W0
  { tsm with Bprod := Function.update tsm.Bprod k P }

/-- `InitTimeStepMatrices` (time_flow.c:218-260) -/
def initWith (mk mkInv : ℕ → Mat N) (W0 : Mat N) (tsm : TSM N) : TSM N :=
  let tsm := (List.range tsm.L).foldl (fun t l => t.setB l (mk l) (mkInv l)) tsm
  (List.range tsm.numBprod).foldl (fun t l => setProd ar t (l * t.prodBlen) W0) tsm

/-- `UpdateTimeStepMatrices` (time_flow.c:268-301) -/
def updateWith (mk mkInv : ℕ → Mat N) (W0 : Mat N) (l : ℕ) (tsm : TSM N) : TSM N :=
  let tsm := tsm.setB l (mk l) (mkInv l)
  if l % tsm.prodBlen = tsm.prodBlen - 1 then setProd ar tsm (l - (tsm.prodBlen - 1)) W0
  else tsm

/-! ## `TimeFlowMap` -/

/-- first QR decomposition (time_flow.c:358-393) -/
noncomputable def flowInit [NeZero N] (Bp : Mat N) : Flow N :=
  let r := ar.geqp3 Bp
  let Q := r.1
  let d := diagOf Q
  let v : Fin N → ℝ := fun i => ar.div 1.0 (d i)
  let T : Mat N := Matrix.of fun i c =>
    let j := r.2.2.symm c
    if i ≤ j then ar.mul (v i) (Q i j) else 0
  { Q := Q, tau := r.2.1, d := d, T := T, jpvt := fun j => r.2.2 (Fin.ofNat N j) }

/-- one pass of the loop over the blocks (time_flow.c:396-485) -/
noncomputable def flowStep (f : Flow N) (Bp : Mat N) : Flow N :=
  let C := ar.ormqr f.Q f.tau Bp
  let W : Mat N := Matrix.of fun i j => ar.mul (f.d j) (C i j)
  let jpvt := pivotOrder (fun j => ar.nrm2 fun i => W i j) f.jpvt
  let r := ar.geqrf (Matrix.of fun i j => W i (jpvt j))
  let Q := r.1
  let d := diagOf Q
  let v : Fin N → ℝ := fun i => ar.div 1.0 (d i)
  let Q' : Mat N := Matrix.of fun i j => if i ≤ j then ar.mul (Q i j) (v i) else Q i j
  let T : Mat N := Matrix.of fun i j => f.T (jpvt i) j
  { Q := Q', tau := r.2, d := d, T := ar.trmm Q' T, jpvt := jpvt }

/-- `TimeFlowMap` (time_flow.c:327-495) -/
noncomputable def timeFlowMap [NeZero N] (tsm : TSM N) (sliceShift : ℕ) : Flow N :=
  let sh := sliceShift / tsm.prodBlen
  (List.range' 1 (tsm.numBprod - 1)).foldl
    (fun f l => flowStep ar f (tsm.Bprod ((l + sh) % tsm.numBprod)))
    (flowInit ar (tsm.Bprod (sh % tsm.numBprod)))

/-! ## Green's functions -/

/-- loop over the diagonal of `U` and the pivots (greens_func.c:111-127) -/
noncomputable def detStepU (F : Mat N) (ipiv : Fin N → Fin N) (r : DetRec) (i : Fin N) : DetRec :=
  let t := F i i
  let r1 : DetRec := if t < 0 then { r with sgndet := -r.sgndet } else r
  let t := if t < 0 then -t else t
  let r2 : DetRec := { r1 with logdet := ar.sub r1.logdet (ar.log t) }
  if ipiv i ≠ i then { r2 with sgndet := -r2.sgndet } else r2

/-- loop over the large entries of `d` (greens_func.c:129-143) -/
noncomputable def detStepD (d : Fin N → ℝ) (r : DetRec) (i : Fin N) : DetRec :=
  if |d i| ≤ 1.0 then r
  else
    let t := d i
    let r1 : DetRec := if t < 0 then { r with sgndet := -r.sgndet } else r
    let t := if t < 0 then -t else t
    { r1 with logdet := ar.sub r1.logdet (ar.log t) }

open Classical in
/-- `GreenConstruct` (greens_func.c:62-162) -/
noncomputable def greenConstruct [NeZero N] (tsm : TSM N) (sliceShift : ℕ) : Option (GreensFn N) :=
  let f := timeFlowMap ar tsm sliceShift
  let Db : Mat N := diagonal fun i => if |f.d i| > 1.0 then ar.div 1.0 (f.d i) else 1.0
  let G := ar.ormqrT f.Q f.tau Db
  let T : Mat N := Matrix.of fun i j => if |f.d i| ≤ 1.0 then ar.mul (f.d i) (f.T i j) else f.T i j
  let T : Mat N := Matrix.of fun i j => ar.add (T i j) (G i j)
  let r := ar.getrf T
  if ∃ i, r.1 i i = 0 then none
  else
    let r0 : DetRec := { logdet := 0.0, sgndet := 1 }
    let r1 := (List.finRange N).foldl (detStepU ar r.1 r.2) r0
    let r2 := (List.finRange N).foldl (detStepD ar f.d) r1
    let r3 := (List.finRange N).foldl (detStepTau f.tau) r2
    some { mat := ar.getrs r.1 r.2 G, logdet := r3.logdet, sgndet := r3.sgndet }

/-- `GreenShermanMorrisonUpdate` (greens_func.c:169-195) -/
noncomputable def shermanMorrison (delta : ℝ) (i : Fin N) (G : Mat N) : Mat N :=
  let c : Fin N → ℝ := fun j => if j = i then ar.sub (G i j) 1.0 else G i j
  let d : Fin N → ℝ := fun j => G j i
  ar.ger (ar.div delta (ar.sub 1.0 (ar.mul delta (c i)))) d c G

/-- `GreenTimeSliceWrap` (greens_func.c:202-215) -/
def timeSliceWrap (B invB G : Mat N) : Mat N := ar.gemm (ar.gemm B G) invB

/-- acceptance factor of a row change (monte_carlo.c:88-89) -/
def ratio (G : GreensFn N) (i : Fin N) (delta : ℝ) : ℝ := ar.add 1 (ar.mul (ar.sub 1 (G.mat i i)) delta)

/-- update of a Green's function and its determinant (monte_carlo.c:93-104) -/
noncomputable def applyUpdate (G : GreensFn N) (i : Fin N) (delta d : ℝ) : GreensFn N :=
  { mat := shermanMorrison ar delta i G.mat
    logdet := ar.sub G.logdet (ar.log |d|)
    sgndet := if d < 0 then -G.sgndet else G.sgndet }

/-! ## The iteration -/

/-- the numbers a run without phonons changes -/
structure Numbers (N : ℕ) (M : Type) where
  tsmU : TSM N
  tsmD : TSM N
  Gu : GreensFn N
  Gd : GreensFn N
  meas : M

variable {σ : Type} {M : Type} (sys : Sys σ N M) (cfg : Cfg) (tab : Tables N) (ms : Meas N M)

/-- the time step matrices for a field (time_flow.c:15-34) -/
def slices (expV : Fin 2 → ℕ → ℝ) (s : ℕ → Fin N → Fin 2) (l : ℕ) : Mat N :=
  timeStep ar sys.Ncell tab.expK expV (s l)

/-- their inverses (time_flow.c:40-59) -/
def invSlices (expV : Fin 2 → ℕ → ℝ) (s : ℕ → Fin N → Fin 2) (l : ℕ) : Mat N :=
  invTimeStep ar sys.Ncell tab.invExpK expV (s l)

/-- new time step matrices, recomputation and measurement after slice `l` (monte_carlo.c:112-171) -/
noncomputable def finish [NeZero N] (it : ℤ) (s : ℕ → Fin N → Fin 2) (l : ℕ) (v : Numbers N M) : Option (Numbers N M) := do
  let tU := updateWith ar (slices ar sys tab tab.hs.expVu s) (invSlices ar sys tab tab.hs.expVu s) sys.W0 l v.tsmU
  let tD := updateWith ar (slices ar sys tab tab.hs.expVd s) (invSlices ar sys tab tab.hs.expVd s) sys.W0 l v.tsmD
  let gu ← if (l + 1) % sys.nwraps = 0 then greenConstruct ar tU ((l + 1) % tU.L) else some v.Gu
  let gd ← if (l + 1) % sys.nwraps = 0 then greenConstruct ar tD ((l + 1) % tU.L) else some v.Gd
  let m ← if effNeqlt cfg it > 0 ∧ (l + 1) % effNeqlt cfg it = 0 then ms.eq gu gd v.meas else some v.meas
  return { tsmU := tU, tsmD := tD, Gu := gu, Gd := gd, meas := m }

/-- the operations of the iteration in rounded arithmetic; the measurement routines are a parameter -/
noncomputable def numerics [NeZero N] : Numerics N (Numbers N M) where
  wrap := fun l v =>
    { v with
      Gu := { v.Gu with mat := timeSliceWrap ar (v.tsmU.B l) (v.tsmU.invB l) v.Gu.mat }
      Gd := { v.Gd with mat := timeSliceWrap ar (v.tsmD.B l) (v.tsmD.invB l) v.Gd.mat } }
  factor := fun s l v i => |ar.mul (ratio ar v.Gu i (tab.hs.delta (s l i) (sys.orb i)))
    (ratio ar v.Gd i (tab.hs.delta (1 - s l i) (sys.orb i)))|
  update := fun s l v i =>
    let deltaU := tab.hs.delta (s l i) (sys.orb i)
    let deltaD := tab.hs.delta (1 - s l i) (sys.orb i)
    { v with
      Gu := applyUpdate ar v.Gu i deltaU (ratio ar v.Gu i deltaU)
      Gd := applyUpdate ar v.Gd i deltaD (ratio ar v.Gd i deltaD) }
  finish := finish ar sys cfg tab ms
  close := fun it _ v =>
    if it ≥ cfg.nequil ∧ cfg.nuneqlt > 0 ∧ it.tmod cfg.nuneqlt = 0 then do
      let m ← ms.uneq (v.Gu.sgndet * v.Gd.sgndet) v.tsmU v.tsmD v.meas
      return { v with meas := m }
    else some v

/-- set-up before the iterations (monte_carlo.c:773-812) -/
noncomputable def start [NeZero N] (s : ℕ → Fin N → Fin 2) (meas : M) : Option (Numbers N M) := do
  let tsm := allocate cfg.L cfg.prodBlen sys.junk
  let tU := initWith ar (slices ar sys tab tab.hs.expVu s) (invSlices ar sys tab tab.hs.expVu s) sys.W0 tsm
  let tD := initWith ar (slices ar sys tab tab.hs.expVd s) (invSlices ar sys tab tab.hs.expVd s) sys.W0 tsm
  let gu ← greenConstruct ar tU 0
  let gd ← greenConstruct ar tD 0
  return { tsmU := tU, tsmD := tD, Gu := gu, Gd := gd, meas := meas }

/-! ## `AccumulateMeasurement` -/

section measure

variable (op : Ops)

/-- execute one addition -/
def addTo {A : Type} [DecidableEq A] (size : A → ℤ) (m : Arrays A) (w : Measurement.Add A) : Option (Arrays A) :=
  if 0 ≤ w.2.1 ∧ w.2.1 < size w.1 then
    some (Function.update m w.1 (Function.update (m w.1) w.2.1 (op.add (m w.1 w.2.1) w.2.2)))
  else none

/-- execute additions in order -/
def execute {A : Type} [DecidableEq A] (size : A → ℤ) (m : Arrays A) (ws : List (Measurement.Add A)) :
    Option (Arrays A) := ws.foldlM (addTo op size) m

/-- a C loop summing up doubles -/
def sumM (n : ℕ) (f : ℕ → Option ℝ) : Option ℝ :=
  (List.range n).foldlM (fun a i => (f i).map (op.add a ·)) 0

/-- an expression `± f(r,c) ± f(r',c') ...` -/
noncomputable def sumTerms (ts : List (ℝ × ℤ × ℤ)) (f : ℤ → ℤ → Option ℝ) : Option ℝ :=
  ts.foldlM (fun a t => (f t.2.1 t.2.2).map fun x => if t.1 < 0 then op.sub a x else op.add a x) 0

variable (Norb Ncell : ℕ) (mp : Maps) (u d : ℤ → Option ℝ)

/-- densities and double occupancy (measurement.c:188-204) -/
def densityAdds (sf : ℝ) : Option (List (Measurement.Add EqF)) :=
  loopM Norb fun o => do
    let N : ℤ := Ncell * Norb
    let nu ← sumM op Ncell fun i => do
      let io : ℤ := i + Ncell * o
      return op.sub 1 (← u (io + N * io))
    let nd ← sumM op Ncell fun i => do
      let io : ℤ := i + Ncell * o
      return op.sub 1 (← d (io + N * io))
    let oc ← sumM op Ncell fun i => do
      let io : ℤ := i + Ncell * o
      return op.mul (op.sub 1 (← u (io + N * io))) (op.sub 1 (← d (io + N * io)))
    return [(.densityU, o, op.mul sf nu), (.densityD, o, op.mul sf nd), (.doubleocc, o, op.mul sf oc)]

/-- `cblas_daxpy` of the Green's functions (measurement.c:207-208) -/
def grfunAdds (sign : ℝ) : Option (List (Measurement.Add EqF)) := do
  let a ← loopM ((Ncell * Norb) * (Ncell * Norb)) fun z => do
    return [(EqF.grfunU, (z : ℤ), op.mul sign (← u z))]
  let b ← loopM ((Ncell * Norb) * (Ncell * Norb)) fun z => do
    return [(EqF.grfunD, (z : ℤ), op.mul sign (← d z))]
  return a ++ b

/-- body of the correlation loops (measurement.c:221-250) -/
def corrAdds (sf : ℝ) (o p i k : ℕ) : Option (List (Measurement.Add EqF)) := do
  let N : ℤ := Ncell * Norb
  let offset : ℤ := Ncell * (o + Norb * p)
  let io : ℤ := i + Ncell * o
  let Gu_ii ← u (io + N * io)
  let Gd_ii ← d (io + N * io)
  let j ← rdInt (Ncell * Ncell) mp.sum (k + Ncell * i)
  let jp : ℤ := j + p * Ncell
  let Gu_jj ← u (jp + N * jp)
  let Gd_jj ← d (jp + N * jp)
  let Gu_ij ← u (io + N * jp)
  let Gd_ij ← d (io + N * jp)
  let Gu_ji ← u (jp + N * io)
  let Gd_ji ← d (jp + N * io)
  return (if k = 0 ∧ o = p then
      [(.uu, k + offset, op.mul sf (op.sub 1 Gu_ii)),
       (.dd, k + offset, op.mul sf (op.sub 1 Gd_ii)),
       (.ff, k + offset, op.mul sf (op.add (op.mul Gu_ii (op.sub 1 Gu_ii)) (op.mul Gd_ii (op.sub 1 Gd_ii)))),
       (.zz, k + offset, op.mul sf (op.add (op.sub Gu_ii (op.mul (op.mul 2 Gu_ii) Gd_ii)) Gd_ii)),
       (.xx, k + offset, op.mul sf (op.add (op.sub Gu_ii (op.mul (op.mul 2 Gu_ii) Gd_ii)) Gd_ii))]
    else
      [(.uu, k + offset, op.mul sf (op.sub (op.mul (op.sub 1 Gu_ii) (op.sub 1 Gu_jj)) (op.mul Gu_ij Gu_ji))),
       (.dd, k + offset, op.mul sf (op.sub (op.mul (op.sub 1 Gd_ii) (op.sub 1 Gd_jj)) (op.mul Gd_ij Gd_ji))),
       (.ff, k + offset, op.mul sf (-op.add (op.mul Gu_ij Gu_ji) (op.mul Gd_ij Gd_ji))),
       (.zz, k + offset, op.mul sf (op.sub (op.mul (op.sub Gu_ii Gd_ii) (op.sub Gu_jj Gd_jj))
         (op.add (op.mul Gu_ij Gu_ji) (op.mul Gd_ij Gd_ji)))),
       (.xx, k + offset, op.mul sf (-op.add (op.mul Gu_ij Gd_ji) (op.mul Gd_ij Gu_ji)))])
    ++ [(.ud, k + offset, op.mul sf (op.add (op.mul (op.sub 1 Gu_ii) (op.sub 1 Gd_jj))
      (op.mul (op.sub 1 Gd_ii) (op.sub 1 Gu_jj))))]

/-- body of the loops for the superconducting susceptibilities (measurement.c:252-298) -/
noncomputable def pairAdds (sf : ℝ) (o i k : ℕ) : Option (List (Measurement.Add EqF)) := do
  let N : ℤ := Ncell * Norb
  let base : ℤ := Ncell * o + N * (Ncell * o)
  let ni ← mp.nbrs Ncell i
  let j ← rdInt (Ncell * Ncell) mp.sum (k + Ncell * i)
  let nj ← mp.nbrs Ncell j
  let Gu_ij ← u (base + (i + N * j))
  let Gd_ij ← d (base + (i + N * j))
  let dw ← sumTerms op (dwTerms ni nj) fun r c => d (base + (r + N * c))
  let sx ← sumTerms op (sxTerms ni nj) fun r c => d (base + (r + N * c))
  return [(.scSw, k + Ncell * o, op.mul sf (op.mul Gu_ij Gd_ij)),
    (.scDw, k + Ncell * o, op.mul (op.mul (op.mul sf 0.25) Gu_ij) dw),
    (.scSx, k + Ncell * o, op.mul (op.mul (op.mul sf 0.25) Gu_ij) sx)]

/-- all additions of `AccumulateMeasurement` in program order (measurement.c:188-300) -/
noncomputable def eqAdds (sign : ℝ) : Option (List (Measurement.Add EqF)) := do
  let sf := op.div sign Ncell
  let a ← densityAdds op Norb Ncell u d sf
  let b ← grfunAdds op Norb Ncell u d sign
  let c ← loopM Norb fun o => loopM Norb fun p => loopM Ncell fun i => loopM Ncell fun k =>
    corrAdds op Norb Ncell mp u d sf o p i k
  let e ← loopM Norb fun o => loopM Ncell fun i => loopM Ncell fun k =>
    pairAdds op Norb Ncell mp u d sf o i k
  return a ++ b ++ c ++ e

end measure

/-- `AccumulateMeasurement` (measurement.c:170-313) -/
noncomputable def accumulateEq (op : Ops) (Norb Ncell : ℕ) (mp : Maps) (Gu Gd : GreensFn N) (m : EqData) : Option EqData := do
  let sign : ℝ := ((Gu.sgndet * Gd.sgndet : ℤ) : ℝ)
  let ws ← eqAdds op Norb Ncell mp (flat Gu.mat) (flat Gd.mat) sign
  let arr ← execute op (EqF.size Norb Ncell) m.arr ws
  return { arr := arr, sign := op.add m.sign sign, nsampl := m.nsampl + 1 }

/-- the measurement routines with `AccumulateMeasurement` in rounded arithmetic; the others are not called in runs without
phonons and unequal time measurements -/
noncomputable def roundMeas (op : Ops) (Norb Ncell : ℕ) (mp : Maps) (rest : Meas N Main.MeasData) : Meas N Main.MeasData :=
  { rest with eq := fun Gu Gd m => (accumulateEq op Norb Ncell mp Gu Gd m.eq).map fun e => { m with eq := e } }

end Verif.Rounded
