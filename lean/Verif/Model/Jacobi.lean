import Verif.Model.Reference
import Mathlib.Data.List.MinMax
import Mathlib.Data.List.ProdSigma

/-!
# The eigenvalue decomposition by Jacobi's method

The program calls `LAPACKE_dsyev` with the arguments 'V' and 'U' (src/linalg.c:59), of which properties C115, C121 and C124
require a certain accuracy.  This is the classical method of Jacobi (Golub and Van Loan, Matrix Computations, section 8.5) in
rounded arithmetic: rotations annihilate the entry of largest magnitude above the diagonal.  `Verif/Props/Jacobi.lean` proves that
it meets the requirement.
-/

set_option autoImplicit false

namespace Verif.Reference

open Matrix Verif.Lapack Verif.Rounded

variable {N : ℕ}

section

variable (op : FlOps)

open Classical in
/-- cosine and sine of the rotation for the entries `app`, `aqq` and `apq` -/
noncomputable def schur2 (app aqq apq : ℝ) : ℝ × ℝ :=
  if apq = 0 then (1, 0)
  else
    let τ := op.div (op.sub aqq app) (op.mul 2 apq)
    let r := op.sqrt (op.add 1 (op.mul τ τ))
    let t := if 0 ≤ τ then op.div 1 (op.add τ r) else op.div 1 (op.sub τ r)
    let c := op.div 1 (op.sqrt (op.add 1 (op.mul t t)))
    (c, op.mul t c)

end

/-- the rotation in the plane of `p` and `q` -/
def rot (p q : Fin N) (c s : ℝ) : Mat N := Matrix.of fun i j =>
  if j = p then (if i = p then c else if i = q then -s else 0)
  else if j = q then (if i = p then s else if i = q then c else 0)
  else if i = j then 1 else 0

/-- the positions above the diagonal -/
def above (N : ℕ) : List (Fin N × Fin N) := (List.finRange N ×ˢ List.finRange N).filter fun x => x.1 < x.2

/-- the position of the entry of largest magnitude above the diagonal -/
noncomputable def pivot (A : Mat N) : Option (Fin N × Fin N) := (above N).argmax fun x => |A x.1 x.2|

/-- the entries above the diagonal determine those below it -/
def mirror (A : Mat N) : Mat N := Matrix.of fun i j => if i ≤ j then A i j else A j i

variable (op : FlOps)

/-- one rotation of the matrix `X.1`, multiplied to `X.2` -/
noncomputable def jacobiStep (X : Mat N × Mat N) : Mat N × Mat N :=
  match pivot X.1 with
  | none => X
  | some (p, q) =>
    let cs := schur2 op (X.1 p p) (X.1 q q) (X.1 p q)
    let J := rot p q cs.1 cs.2
    (mirror (gemmAcc op.toOps (gemmAcc op.toOps Jᵀ X.1 0) J 0), gemmAcc op.toOps X.2 J 0)

/-- `m` rotations; the eigenvectors and eigenvalues -/
noncomputable def jacobi (m : ℕ) (A : Mat N) : Mat N × (Fin N → ℝ) :=
  let X := (jacobiStep op)^[m] (mirror A, 1)
  (X.2, X.1.diag)

end Verif.Reference
