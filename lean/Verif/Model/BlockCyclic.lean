import Verif.Model.Lapack

/-!
# Model of the block cyclic inversion (src/linalg.c:144-376)

Matrices are stored column by column in a flat buffer.  The LAPACK and BLAS routines work on a part of
the buffer given by the address of its first entry and the distance `ld` between columns; an access
outside of the buffer makes the result `none`, and so does a singular matrix in `dtrtri` (which then
returns a nonzero error code).  Block sizes are written `1 * n`, `2 * n`, ... so that all of them are
multiples of `n`.
-/

set_option autoImplicit false

namespace Verif.BlockCyclic

open Matrix Verif.Lapack

/-- a buffer of doubles -/
abbrev Buf := ℕ → ℝ

/-- the `m × k` matrix at address `a` -/
def view (A : Buf) (a ld m k : ℕ) : Matrix (Fin m) (Fin k) ℝ :=
  Matrix.of fun i j => A (a + i + ld * j)

/-- replace the matrix at address `a` -/
def store {m k : ℕ} (A : Buf) (a ld : ℕ) (M : Matrix (Fin m) (Fin k) ℝ) : Buf := fun x =>
  if h : a ≤ x ∧ (x - a) % ld < m ∧ (x - a) / ld < k then M ⟨_, h.2.1⟩ ⟨_, h.2.2⟩ else A x

/-- all entries of the matrix are inside a buffer of the given size -/
def Fits (size : ℕ) (a : ℤ) (ld m k : ℕ) : Prop :=
  0 ≤ a ∧ (0 < m → 0 < k → a + (m - 1 : ℕ) + ld * (k - 1 : ℕ) < size)

instance (size : ℕ) (a : ℤ) (ld m k : ℕ) : Decidable (Fits size a ld m k) := by
  unfold Fits; infer_instance

/-- read a matrix, with check of the addresses -/
def load (size : ℕ) (A : Buf) (a : ℤ) (ld m k : ℕ) : Option (Matrix (Fin m) (Fin k) ℝ) :=
  if Fits size a ld m k then some (view A a.toNat ld m k) else none

/-- write a matrix, with check of the addresses -/
def save {m k : ℕ} (size : ℕ) (A : Buf) (a : ℤ) (ld : ℕ) (M : Matrix (Fin m) (Fin k) ℝ) :
    Option Buf :=
  if Fits size a ld m k then some (store A a.toNat ld M) else none


/-- `dgeqrf` of the matrix at `a`; the scalar factors are written to `tau + t` -/
def dgeqrf {m k : ℕ} (alg : QRAlg m k) (size tsize : ℕ) (A tau : Buf) (a t : ℤ) (ld : ℕ) :
    Option (Buf × Buf) := do
  let M ← load size A a ld m k
  let A ← save size A a ld (alg.run M).1
  let tau ← save tsize tau t tsize (Matrix.of fun (j : Fin k) (_ : Fin 1) => (alg.run M).2 j)
  return (A, tau)

/-- the scalar factors at `tau + t` -/
def loadTau (tsize : ℕ) (tau : Buf) (t : ℤ) (k : ℕ) : Option (Fin k → ℝ) := do
  let T ← load tsize tau t tsize k 1
  return fun j => T j 0

/-- `dormqr('L', 'T', ..)`: replace the `m × c` matrix `C` at address `a` by `Qᵀ C`, where `Q` is given
by the reflectors at address `q` -/
def dormqrL (m c k size tsize : ℕ) (A tau : Buf) (q t a : ℤ) (ld : ℕ) : Option Buf := do
  let F ← load size A q ld m k
  let tv ← loadTau tsize tau t k
  let C ← load size A a ld m c
  save size A a ld ((qMat F tv)ᵀ * C)

/-- `dtrtri('U', 'N', ..)`: replace the upper triangle by the inverse; the other entries are neither
read nor written -/
noncomputable def dtrtri (m size : ℕ) (A : Buf) (a : ℤ) (ld : ℕ) : Option Buf := do
  let M ← load size A a ld m m
  if (upper M).det = 0 then none
  else save size A a ld (Matrix.of fun i j => if i.val ≤ j.val then (upper M)⁻¹ i j else M i j)

/-- `cblas_dtrmm(Right, Upper, ..)`: `B := B T` with the upper triangle of the matrix at `q` -/
def dtrmmR (m k size : ℕ) (A : Buf) (q a : ℤ) (ld : ℕ) : Option Buf := do
  let T ← load size A q ld k k
  let B ← load size A a ld m k
  save size A a ld (B * upper T)

/-- `cblas_dtrmm(Left, Upper, ..)` with factor `alpha`: `B := alpha T B` -/
def dtrmmL (m k size : ℕ) (alpha : ℝ) (A : Buf) (q a : ℤ) (ld : ℕ) : Option Buf := do
  let T ← load size A q ld m m
  let B ← load size A a ld m k
  save size A a ld (alpha • (upper T * B))

/-- `cblas_dgemm` with `beta = 1`: `C := C + A B` -/
def dgemmAcc (m l k size : ℕ) (A : Buf) (x y z : ℤ) (ld : ℕ) : Option Buf := do
  let X ← load size A x ld m l
  let Y ← load size A y ld l k
  let Z ← load size A z ld m k
  save size A z ld (X * Y + Z)

/-- the QR factorisations used -/
structure QRs (n : ℕ) where
  col : QRAlg (2 * n) (1 * n)
  last : QRAlg (2 * n) (2 * n)

variable {n : ℕ}

/-- one pass of the loop of `BlockCyclicQR` (linalg.c:166-181) -/
def qrStep (alg : QRs n) (p : ℕ) (s : Buf × Buf) (i : ℕ) : Option (Buf × Buf) := do
  let N := n * p
  let (A, tau) ← dgeqrf alg.col (N * N) N s.1 s.2 ((1 + N) * i * n) (i * n) N
  let A ← dormqrL (2 * n) (1 * n) (1 * n) (N * N) N A tau ((1 + N) * i * n) (i * n)
    ((i + N * (i + 1)) * n) N
  let A ← dormqrL (2 * n) (1 * n) (1 * n) (N * N) N A tau ((1 + N) * i * n) (i * n)
    ((i + N * (p - 1)) * n) N
  return (A, tau)

/-- `BlockCyclicQR` (linalg.c:161-192) -/
def blockCyclicQR (alg : QRs n) (p : ℕ) (A tau : Buf) : Option (Buf × Buf) := do
  let N := n * p
  let s ← (List.range (p - 2)).foldlM (qrStep alg p) (A, tau)
  dgeqrf alg.last (N * N) N s.1 s.2 ((1 + N) * (p - 2) * n) ((p - 2 : ℕ) * n) N

/-- one pass of the loop of `BlockCyclicTriangularInverse` (linalg.c:234-259) -/
noncomputable def triStep (n p : ℕ) (R : Buf) (i : ℕ) : Option Buf := do
  let N := n * p
  let R ← dtrtri (1 * n) (N * N) R ((1 + N) * i * n) N
  let R ← dtrmmL (1 * n) (1 * n) (N * N) (-1) R ((1 + N) * i * n) ((i + N * (p - 1)) * n) N
  let R ← dtrmmL (1 * n) (1 * n) (N * N) (-1) R ((1 + N) * i * n) ((i + N * (i + 1)) * n) N
  let R ← dgemmAcc (1 * n) (1 * n) ((p - i - 2) * n) (N * N) R ((i + N * (i + 1)) * n)
    (((i + 1) + N * (i + 2)) * n) ((i + N * (i + 2)) * n) N
  dtrmmR (1 * n) (1 * n) (N * N) R ((1 + N) * (i + 1) * n) ((i + N * (i + 1)) * n) N

/-- `BlockCyclicTriangularInverse` (linalg.c:209-266) -/
noncomputable def blockCyclicTri (n p : ℕ) (R : Buf) : Option Buf := do
  let N := n * p
  if p ≤ 2 then dtrtri (p * n) (N * N) R 0 N
  else
    let R ← dtrtri (3 * n) (N * N) R ((1 + N) * (p - 3) * n) N
    if p > 3 then
      let R ← dtrmmR ((p - 3) * n) (1 * n) (N * N) R ((1 + N) * (p - 1) * n) (N * (p - 1) * n) N
      (List.range (p - 3)).reverse.foldlM (triStep n p) R
    else return R

/-- `MoveStrictlyLowerTriangularMatrix` (linalg.c:280-294): the strictly lower part of the `m × k`
matrix at `a` goes to the buffer `Q`, and is set to zero -/
def moveLower (m k size qsize : ℕ) (A Q : Buf) (a : ℤ) (lda ldq : ℕ) : Option (Buf × Buf) := do
  let F ← load size A a lda m k
  let Q0 ← load qsize Q 0 ldq m k
  let Q ← save qsize Q 0 ldq
    (Matrix.of fun (i : Fin m) (j : Fin k) => if j.val < i.val then F i j else Q0 i j)
  let A ← save size A a lda
    (Matrix.of fun (i : Fin m) (j : Fin k) => if j.val < i.val then 0 else F i j)
  return (A, Q)

/-- `dormqr('R', 'T', ..)`: replace the `m × c` matrix `C` at `a` by `C Qᵀ`, with the reflectors in
the buffer `Q` -/
def dormqrR (m c k size qsize tsize : ℕ) (A Q tau : Buf) (t a : ℤ) (ldq ld : ℕ) : Option Buf := do
  let F ← load qsize Q 0 ldq c k
  let tv ← loadTau tsize tau t k
  let C ← load size A a ld m c
  save size A a ld (C * (qMat F tv)ᵀ)

/-- one pass of the loop of `BlockCyclicInverseRotation` (linalg.c:330-339) -/
def rotStep (n p : ℕ) (tau : Buf) (s : Buf × Buf) (i : ℕ) : Option (Buf × Buf) := do
  let N := n * p
  let (A, Q) ← moveLower (2 * n) (1 * n) (N * N) (4 * n * n) s.1 s.2 ((1 + N) * i * n) N (2 * n)
  let A ← dormqrR (p * n) (2 * n) (1 * n) (N * N) (4 * n * n) N A Q tau (i * n) (N * i * n) (2 * n) N
  return (A, Q)

/-- `BlockCyclicInverseRotation` (linalg.c:312-344) -/
def blockCyclicRot (n p : ℕ) (A tau : Buf) : Option Buf := do
  let N := n * p
  let (A, Q) ← moveLower (2 * n) (2 * n) (N * N) (4 * n * n) A (fun _ => 0)
    ((1 + N) * (p - 2) * n) N (2 * n)
  let A ← dormqrR (p * n) (2 * n) (2 * n) (N * N) (4 * n * n) N A Q tau ((p - 2) * n)
    (N * (p - 2) * n) (2 * n) N
  let s ← (List.range (p - 2)).reverse.foldlM (rotStep n p tau) (A, Q)
  return s.1

/-- `BlockCyclicInverse` (linalg.c:361-376); `tau` is the content of the fresh array -/
noncomputable def blockCyclicInverse (alg : QRs n) (p : ℕ) (H tau : Buf) : Option Buf := do
  let (H, tau) ← blockCyclicQR alg p H tau
  let H ← blockCyclicTri n p H
  blockCyclicRot n p H tau

end Verif.BlockCyclic
