import Verif.Model.Rounded
import Verif.Model.GreensUneq

/-!
# The unequal time measurement in rounded arithmetic

`BlockCyclicInverse` (src/linalg.c:144-376), `ComputeUnequalTimeGreensFunction` (greens_func.c:238-327) and
`AccumulateUnequalTimeMeasurement` (measurement.c:550-811) with the operations of the program in the order in which it performs
them, as in `Verif/Model/Rounded.lean`: `BlockArith` holds the calls of BLAS and LAPACK for rectangular matrices, which are
arbitrary functions here; what is required of them is stated in `Verif/Props/RoundedBlocks.lean`.

Copies of matrices with a factor 1 or -1 (`domatcopy`) are exact.
-/

set_option autoImplicit false

namespace Verif.Rounded

open Matrix Verif.Lapack Verif.TimeFlow Verif.Greens Verif.MonteCarlo Verif.Measurement Verif.BlockCyclic Verif.GreensUneq

/-- the calls of BLAS and LAPACK for rectangular matrices -/
structure BlockArith where
  geqrf : ∀ {m k : ℕ}, Matrix (Fin m) (Fin k) ℝ → Matrix (Fin m) (Fin k) ℝ × (Fin k → ℝ)
  /-- `LAPACKE_dormqr('L', 'T', ..)`: multiplication by `Qᵀ` from the left -/
  ormqrL : ∀ {m c k : ℕ}, Matrix (Fin m) (Fin k) ℝ → (Fin k → ℝ) → Matrix (Fin m) (Fin c) ℝ → Matrix (Fin m) (Fin c) ℝ
  /-- `LAPACKE_dormqr('R', 'T', ..)`: multiplication by `Qᵀ` from the right -/
  ormqrR : ∀ {m c k : ℕ}, Matrix (Fin c) (Fin k) ℝ → (Fin k → ℝ) → Matrix (Fin m) (Fin c) ℝ → Matrix (Fin m) (Fin c) ℝ
  /-- `LAPACKE_dtrtri('U', 'N', ..)`: inverse of the upper triangle -/
  trtri : ∀ {m : ℕ}, Mat m → Mat m
  /-- `cblas_dtrmm(Left, Upper, ..)`: `α T B` with the upper triangle of `T` -/
  trmmL : ∀ {m k : ℕ}, ℝ → Mat m → Matrix (Fin m) (Fin k) ℝ → Matrix (Fin m) (Fin k) ℝ
  /-- `cblas_dtrmm(Right, Upper, ..)`: `B T` with the upper triangle of `T` -/
  trmmR : ∀ {m k : ℕ}, Matrix (Fin m) (Fin k) ℝ → Mat k → Matrix (Fin m) (Fin k) ℝ
  /-- `cblas_dgemm` with factors 1 and 1: `X Y + Z` -/
  gemmAcc : ∀ {m l k : ℕ}, Matrix (Fin m) (Fin l) ℝ → Matrix (Fin l) (Fin k) ℝ → Matrix (Fin m) (Fin k) ℝ → Matrix (Fin m) (Fin k) ℝ

/-! ## `BlockCyclicInverse` -/

section blocks

variable (bl : BlockArith)

/-- `dgeqrf` of the matrix at `a`; the scalar factors are written to `tau + t` -/
def dgeqrf (m k size tsize : ℕ) (A tau : Buf) (a t : ℤ) (ld : ℕ) : Option (Buf × Buf) := do
  let M ← load size A a ld m k
  let A ← save size A a ld (bl.geqrf M).1
  let tau ← save tsize tau t tsize (Matrix.of fun (j : Fin k) (_ : Fin 1) => (bl.geqrf M).2 j)
  return (A, tau)

/-- `dormqr('L', 'T', ..)` of the matrix at `a` with the reflectors at `q` -/
def dormqrL (m c k size tsize : ℕ) (A tau : Buf) (q t a : ℤ) (ld : ℕ) : Option Buf := do
  let F ← load size A q ld m k
  let tv ← loadTau tsize tau t k
  let C ← load size A a ld m c
  save size A a ld (bl.ormqrL F tv C)

open Classical in
/-- `dtrtri('U', 'N', ..)`: a zero on the diagonal is reported as an error -/
noncomputable def dtrtri (m size : ℕ) (A : Buf) (a : ℤ) (ld : ℕ) : Option Buf := do
  let M ← load size A a ld m m
  if ∃ i, M i i = 0 then none
  else save size A a ld (Matrix.of fun i j => if i.val ≤ j.val then bl.trtri M i j else M i j)

/-- `cblas_dtrmm(Right, Upper, ..)` -/
def dtrmmR (m k size : ℕ) (A : Buf) (q a : ℤ) (ld : ℕ) : Option Buf := do
  let T ← load size A q ld k k
  let B ← load size A a ld m k
  save size A a ld (bl.trmmR B T)

/-- `cblas_dtrmm(Left, Upper, ..)` with factor `alpha` -/
def dtrmmL (m k size : ℕ) (alpha : ℝ) (A : Buf) (q a : ℤ) (ld : ℕ) : Option Buf := do
  let T ← load size A q ld m m
  let B ← load size A a ld m k
  save size A a ld (bl.trmmL alpha T B)

/-- `cblas_dgemm` with `beta = 1` -/
def dgemmAcc (m l k size : ℕ) (A : Buf) (x y z : ℤ) (ld : ℕ) : Option Buf := do
  let X ← load size A x ld m l
  let Y ← load size A y ld l k
  let Z ← load size A z ld m k
  save size A z ld (bl.gemmAcc X Y Z)

/-- `dormqr('R', 'T', ..)` of the matrix at `a` with the reflectors in the buffer `Q` -/
def dormqrR (m c k size qsize tsize : ℕ) (A Q tau : Buf) (t a : ℤ) (ldq ld : ℕ) : Option Buf := do
  let F ← load qsize Q 0 ldq c k
  let tv ← loadTau tsize tau t k
  let C ← load size A a ld m c
  save size A a ld (bl.ormqrR F tv C)

/-- one pass of the loop of `BlockCyclicQR` (linalg.c:166-181) -/
def qrStep (n p : ℕ) (s : Buf × Buf) (i : ℕ) : Option (Buf × Buf) := do
  let N := n * p
  let (A, tau) ← dgeqrf bl (2 * n) (1 * n) (N * N) N s.1 s.2 ((1 + N) * i * n) (i * n) N
  let A ← dormqrL bl (2 * n) (1 * n) (1 * n) (N * N) N A tau ((1 + N) * i * n) (i * n) ((i + N * (i + 1)) * n) N
  let A ← dormqrL bl (2 * n) (1 * n) (1 * n) (N * N) N A tau ((1 + N) * i * n) (i * n) ((i + N * (p - 1)) * n) N
  return (A, tau)

/-- `BlockCyclicQR` (linalg.c:161-192) -/
def blockCyclicQR (n p : ℕ) (A tau : Buf) : Option (Buf × Buf) := do
  let N := n * p
  let s ← (List.range (p - 2)).foldlM (qrStep bl n p) (A, tau)
  dgeqrf bl (2 * n) (2 * n) (N * N) N s.1 s.2 ((1 + N) * (p - 2) * n) ((p - 2 : ℕ) * n) N

/-- one pass of the loop of `BlockCyclicTriangularInverse` (linalg.c:234-259) -/
noncomputable def triStep (n p : ℕ) (R : Buf) (i : ℕ) : Option Buf := do
  let N := n * p
  let R ← dtrtri bl (1 * n) (N * N) R ((1 + N) * i * n) N
  let R ← dtrmmL bl (1 * n) (1 * n) (N * N) (-1) R ((1 + N) * i * n) ((i + N * (p - 1)) * n) N
  let R ← dtrmmL bl (1 * n) (1 * n) (N * N) (-1) R ((1 + N) * i * n) ((i + N * (i + 1)) * n) N
  let R ← dgemmAcc bl (1 * n) (1 * n) ((p - i - 2) * n) (N * N) R ((i + N * (i + 1)) * n)
    (((i + 1) + N * (i + 2)) * n) ((i + N * (i + 2)) * n) N
  dtrmmR bl (1 * n) (1 * n) (N * N) R ((1 + N) * (i + 1) * n) ((i + N * (i + 1)) * n) N

/-- `BlockCyclicTriangularInverse` (linalg.c:209-266) -/
noncomputable def blockCyclicTri (n p : ℕ) (R : Buf) : Option Buf := do
  let N := n * p
  if p ≤ 2 then dtrtri bl (p * n) (N * N) R 0 N
  else
    let R ← dtrtri bl (3 * n) (N * N) R ((1 + N) * (p - 3) * n) N
    if p > 3 then
      let R ← dtrmmR bl ((p - 3) * n) (1 * n) (N * N) R ((1 + N) * (p - 1) * n) (N * (p - 1) * n) N
      (List.range (p - 3)).reverse.foldlM (triStep bl n p) R
    else return R

/-- one pass of the loop of `BlockCyclicInverseRotation` (linalg.c:330-339) -/
def rotStep (n p : ℕ) (tau : Buf) (s : Buf × Buf) (i : ℕ) : Option (Buf × Buf) := do
  let N := n * p
  let (A, Q) ← moveLower (2 * n) (1 * n) (N * N) (4 * n * n) s.1 s.2 ((1 + N) * i * n) N (2 * n)
  let A ← dormqrR bl (p * n) (2 * n) (1 * n) (N * N) (4 * n * n) N A Q tau (i * n) (N * i * n) (2 * n) N
  return (A, Q)

/-- `BlockCyclicInverseRotation` (linalg.c:312-344) -/
def blockCyclicRot (n p : ℕ) (A tau : Buf) : Option Buf := do
  let N := n * p
  let (A, Q) ← moveLower (2 * n) (2 * n) (N * N) (4 * n * n) A (fun _ => 0) ((1 + N) * (p - 2) * n) N (2 * n)
  let A ← dormqrR bl (p * n) (2 * n) (2 * n) (N * N) (4 * n * n) N A Q tau ((p - 2) * n) (N * (p - 2) * n) (2 * n) N
  let s ← (List.range (p - 2)).reverse.foldlM (rotStep bl n p tau) (A, Q)
  return s.1

/-- `BlockCyclicInverse` (linalg.c:361-376) -/
noncomputable def blockCyclicInverse (n p : ℕ) (H tau : Buf) : Option Buf := do
  let (H, tau) ← blockCyclicQR bl n p H tau
  let H ← blockCyclicTri bl n p H
  blockCyclicRot bl n p H tau

end blocks

/-! ## `ComputeUnequalTimeGreensFunction` -/

section green

variable {N : ℕ} (ar : Arith N)

/-- one pass of the loop for `Gtau0` (greens_func.c:270-280) -/
def tau0Step (tsm : TSM N) (L : ℕ) (H : Buf) (G : Buf) (i : ℕ) : Option Buf := do
  let p := tsm.numBprod
  if i % tsm.prodBlen = 0 then
    let M ← load ((N * p) * (N * p)) H ((i / tsm.prodBlen : ℕ) * N) (N * p) N N
    save (L * N * N) G (i * N) (L * N) M
  else
    let M ← load (L * N * N) G ((i - 1) * N) (L * N) N N
    save (L * N * N) G (i * N) (L * N) (ar.gemm (tsm.B (i - 1)) M)

/-- `T[j + N*j]--` (greens_func.c:296-299) -/
def minusOne (M : Mat N) : Mat N := Matrix.of fun i j => if i = j then ar.sub (M i j) 1 else M i j

/-- one pass of the loop for `G0tau` (greens_func.c:283-310) -/
def zerotauStep (tsm : TSM N) (L : ℕ) (H : Buf) (G : Buf) (i : ℕ) : Option Buf := do
  let p := tsm.numBprod
  if i % tsm.prodBlen = 0 then
    let M ← load ((N * p) * (N * p)) H ((i / tsm.prodBlen : ℕ) * (N * p : ℕ) * N) (N * p) N N
    save (L * N * N) G (i * N * N) N M
  else if i = 1 then
    let M ← load ((N * p) * (N * p)) H 0 (N * p) N N
    save (L * N * N) G (i * N * N) N (ar.gemm (minusOne ar M) (tsm.invB (i - 1)))
  else
    let M ← load (L * N * N) G ((i - 1) * N * N) N N N
    save (L * N * N) G (i * N * N) N (ar.gemm M (tsm.invB (i - 1)))

/-- one pass of the loop for `Geqlt` (greens_func.c:313-326) -/
def eqltStep (tsm : TSM N) (L : ℕ) (H : Buf) (G : Buf) (i : ℕ) : Option Buf := do
  let p := tsm.numBprod
  if i % tsm.prodBlen = 0 then
    let ib := i / tsm.prodBlen
    let M ← load ((N * p) * (N * p)) H ((ib + ib * (N * p : ℕ)) * N) (N * p) N N
    save (L * N * N) G (i * N * N) N M
  else
    let M ← load (L * N * N) G ((i - 1) * N * N) N N N
    save (L * N * N) G (i * N * N) N (timeSliceWrap ar (tsm.B (i - 1)) (tsm.invB (i - 1)) M)

/-- `ComputeUnequalTimeGreensFunction` (greens_func.c:238-327) -/
noncomputable def compute (bl : BlockArith) (tsm : TSM N) (L : ℕ) (tau : Buf) (old : GreensUneq.Arrays) :
    Option GreensUneq.Arrays := do
  let H ← buildH tsm
  let H ← blockCyclicInverse bl N tsm.numBprod H tau
  let t ← (List.range L).foldlM (tau0Step ar tsm L H) old.Gtau0
  let z ← (List.range L).foldlM (zerotauStep ar tsm L H) old.G0tau
  let e ← (List.range L).foldlM (eqltStep ar tsm L H) old.Geqlt
  return ⟨t, z, e⟩

end green

/-! ## `AccumulateUnequalTimeMeasurement` -/

section measure

variable (op : Ops) (Norb Ncell L : ℕ) (mp : Maps) (u d : Cur)

/-- Green's functions for the sites `io` and `jp` (measurement.c:612-617) -/
def uneqGreenAdds (sf : ℝ) (l : ℕ) (io jp kz : ℤ) : Option (List (Measurement.Add UneqF)) := do
  let N : ℤ := Ncell * Norb
  let e_u ← u.eqlt (io + N * (jp + N * l))
  let e_d ← d.eqlt (io + N * (jp + N * l))
  let t_u ← u.tau0 (io + N * (l + L * jp))
  let t_d ← d.tau0 (io + N * (l + L * jp))
  let z_u ← u.zerotau (io + N * (jp + N * l))
  let z_d ← d.zerotau (io + N * (jp + N * l))
  return [(.geqltU, kz, op.mul sf e_u), (.geqltD, kz, op.mul sf e_d), (.gtau0U, kz, op.mul sf t_u),
    (.gtau0D, kz, op.mul sf t_d), (.g0tauU, kz, op.mul sf z_u), (.g0tauD, kz, op.mul sf z_d)]

/-- same lattice site, orbital and time slice (measurement.c:622-624) -/
def uneqSameAdds (sf Gtt_u_ii Gtt_d_ii : ℝ) (offset : ℤ) : List (Measurement.Add UneqF) :=
  [(.nn, 0 + offset, op.mul sf (op.add (op.sub 4 (op.mul 3 (op.add Gtt_u_ii Gtt_d_ii))) (op.mul (op.mul 2 Gtt_u_ii) Gtt_d_ii))),
   (.zz, 0 + offset, op.mul sf (op.add (op.sub Gtt_u_ii (op.mul (op.mul 2 Gtt_u_ii) Gtt_d_ii)) Gtt_d_ii)),
   (.xx, 0 + offset, op.mul sf (op.add (op.sub Gtt_u_ii (op.mul (op.mul 2 Gtt_u_ii) Gtt_d_ii)) Gtt_d_ii))]

/-- general case (measurement.c:628-638) -/
def uneqDiffAdds (sf Gtt_u_ii Gtt_d_ii : ℝ) (l : ℕ) (io jp kz : ℤ) : Option (List (Measurement.Add UneqF)) := do
  let N : ℤ := Ncell * Norb
  let G00_u_jj ← u.eqlt (jp + N * jp)
  let G00_d_jj ← d.eqlt (jp + N * jp)
  let Gt0_u_ij ← u.tau0 (io + N * (l + L * jp))
  let Gt0_d_ij ← d.tau0 (io + N * (l + L * jp))
  let G0t_u_ji ← u.zerotau (jp + N * (io + N * l))
  let G0t_d_ji ← d.zerotau (jp + N * (io + N * l))
  return [(.nn, kz, op.mul sf (op.sub (op.mul (op.sub (op.sub 2 Gtt_u_ii) Gtt_d_ii) (op.sub (op.sub 2 G00_u_jj) G00_d_jj))
        (op.add (op.mul Gt0_u_ij G0t_u_ji) (op.mul Gt0_d_ij G0t_d_ji)))),
    (.zz, kz, op.mul sf (op.sub (op.mul (op.sub Gtt_u_ii Gtt_d_ii) (op.sub G00_u_jj G00_d_jj))
        (op.add (op.mul Gt0_u_ij G0t_u_ji) (op.mul Gt0_d_ij G0t_d_ji)))),
    (.xx, kz, op.mul sf (-op.add (op.mul Gt0_u_ij G0t_d_ji) (op.mul Gt0_d_ij G0t_u_ji)))]

/-- body of the correlation loops (measurement.c:596-644) -/
def uneqCorrAdds (sf : ℝ) (l o p i k : ℕ) : Option (List (Measurement.Add UneqF)) := do
  let N : ℤ := Ncell * Norb
  let offset : ℤ := Ncell * (o + Norb * p + Norb * Norb * l)
  let io : ℤ := i + o * Ncell
  let Gtt_u_ii ← u.eqlt (io + N * (io + N * l))
  let Gtt_d_ii ← d.eqlt (io + N * (io + N * l))
  let j ← rdInt (Ncell * Ncell) mp.sum (k + Ncell * i)
  let jp : ℤ := j + Ncell * p
  let g ← uneqGreenAdds op Norb Ncell L u d sf l io jp (k + offset)
  let c ← if k = 0 ∧ o = p ∧ l = 0 then some (uneqSameAdds op sf Gtt_u_ii Gtt_d_ii offset)
    else uneqDiffAdds op Norb Ncell L u d sf Gtt_u_ii Gtt_d_ii l io jp (k + offset)
  return g ++ c

/-- current correlation (measurement.c:718-726 for x, 729-737 for y) -/
def currentTerm (bu bd : Base) (l : ℕ) (i ip j jp : ℤ) : Option ℝ := do
  let delta_i_j := deltaTau l i j
  let delta_i_jp := deltaTau l i jp
  let delta_ip_j := deltaTau l ip j
  return op.add (op.sub (op.sub (op.add
    (op.mul (-op.sub (op.add (op.sub (← bu.gtt ip i) (← bu.gtt i ip)) (← bd.gtt ip i)) (← bd.gtt i ip))
      (op.sub (op.add (op.sub (← bu.g00 jp j) (← bu.g00 j jp)) (← bd.g00 jp j)) (← bd.g00 j jp)))
    (op.add (op.mul (← bu.t0 ip jp) (op.sub delta_i_j (← bu.zt j i))) (op.mul (← bd.t0 ip jp) (op.sub delta_i_j (← bd.zt j i)))))
    (op.add (op.mul (← bu.t0 ip j) (op.sub delta_i_jp (← bu.zt jp i))) (op.mul (← bd.t0 ip j) (op.sub delta_i_jp (← bd.zt jp i)))))
    (op.add (op.mul (← bu.t0 i jp) (op.sub delta_ip_j (← bu.zt j ip))) (op.mul (← bd.t0 i jp) (op.sub delta_ip_j (← bd.zt j ip)))))
    (op.add (op.mul (← bu.t0 i j) (op.sub delta_i_j (← bu.zt jp ip))) (op.mul (← bd.t0 i j) (op.sub delta_i_j (← bd.zt jp ip))))

/-- one of the 16 terms of a Raman correlation function (measurement.c:747-765, 775-793) -/
def ramanTerm (bu bd : Base) (l : ℕ) (i j ia jb : ℤ) : Option ℝ := do
  return op.sub (op.sub
    (op.mul (op.add (← bu.gtt i ia) (← bd.gtt i ia)) (op.add (← bu.g00 j jb) (← bd.g00 j jb)))
    (op.mul (← bu.t0 i jb) (op.sub (← bu.zt j ia) (deltaTau l j ia))))
    (op.mul (← bd.t0 i jb) (op.sub (← bd.zt j ia) (deltaTau l j ia)))

/-- body of the second loop nest (measurement.c:646-797) -/
noncomputable def uneqPairAdds (sf : ℝ) (l o i k : ℕ) : Option (List (Measurement.Add UneqF)) := do
  let N : ℤ := Ncell * Norb
  let bu := u.base Norb Ncell L l o
  let bd := d.base Norb Ncell L l o
  let offset : ℤ := Ncell * o + N * l
  let ni ← mp.nbrs Ncell i
  let di ← mp.diag Ncell ni
  let j ← rdInt (Ncell * Ncell) mp.sum (k + Ncell * i)
  let nj ← mp.nbrs Ncell j
  let dj ← mp.diag Ncell nj
  let Gt0_u_ij ← bu.t0 i j
  let Gt0_d_ij ← bd.t0 i j
  let dw ← sumTerms op (dwTerms ni nj) bd.t0
  let sx ← sumTerms op (sxTerms ni nj) bd.t0
  let jx ← currentTerm op bu bd l i ni.px j nj.px
  let jy ← currentTerm op bu bd l i ni.py j nj.py
  let b1 ← sumTerms op (b1gTerms ni nj) (ramanTerm op bu bd l i j)
  let b2 ← sumTerms op (b2gTerms di dj) (ramanTerm op bu bd l i j)
  return [(.scSw, k + offset, op.mul sf (op.mul Gt0_u_ij Gt0_d_ij)),
    (.scDw, k + offset, op.mul (op.mul (op.mul sf 0.25) Gt0_u_ij) dw),
    (.scSx, k + offset, op.mul (op.mul (op.mul sf 0.25) Gt0_u_ij) sx),
    (.jx, k + offset, op.mul sf jx), (.jy, k + offset, op.mul sf jy),
    (.b1g, k + offset, op.mul (op.mul sf 0.0625) b1), (.b2g, k + offset, op.mul (op.mul sf 0.0625) b2)]

/-- all additions of `AccumulateUnequalTimeMeasurement` in program order (measurement.c:588-798) -/
noncomputable def uneqAdds (sign : ℝ) : Option (List (Measurement.Add UneqF)) :=
  let sf := op.div sign Ncell
  loopM L fun l => loopM Norb fun o => do
    let a ← loopM Norb fun p => loopM Ncell fun i => loopM Ncell fun k =>
      uneqCorrAdds op Norb Ncell L mp u d sf l o p i k
    let b ← loopM Ncell fun i => loopM Ncell fun k =>
      uneqPairAdds op Norb Ncell L mp u d sf l o i k
    return a ++ b

/-- `AccumulateUnequalTimeMeasurement` (measurement.c:550-811), after the computation of the Green's functions -/
noncomputable def accumulateUneq (sign : ℝ) (m : UneqData) : Option UneqData := do
  let ws ← uneqAdds op Norb Ncell L mp u d sign
  let arr ← execute op (UneqF.size Norb Ncell L) m.arr ws
  return { arr := arr, sign := op.add m.sign sign, nsampl := m.nsampl + 1 }

end measure

/-- the measurement routines of runs without phonons in rounded arithmetic; the routine for phonons is not called -/
noncomputable def roundMeasAll {N : ℕ} (Norb Ncell L : ℕ) (mp : Maps) (tau : Buf) (old : GreensUneq.Arrays)
    (rest : Meas N Main.MeasData) (ar : Arith N) (bl : BlockArith) : Meas N Main.MeasData where
  eq Gu Gd m := (accumulateEq ar.toOps Norb Ncell mp Gu Gd m.eq).map fun e => { m with eq := e }
  phonon := rest.phonon
  uneq sign tU tD m := do
    let u ← compute ar bl tU L tau old
    let d ← compute ar bl tD L tau old
    let e ← accumulateUneq ar.toOps Norb Ncell L mp (u.toCur N L) (d.toCur N L) (sign : ℝ) m.uneq
    return { m with uneq := e }

end Verif.Rounded
