import Verif.Model.Lapack
import Mathlib.LinearAlgebra.Matrix.SchurComplement
import Mathlib.LinearAlgebra.Matrix.Block
import Mathlib.Tactic.Ring
import Mathlib.Tactic.Linarith
import Mathlib.Tactic.LinearCombination
import Mathlib.Tactic.Module
import Mathlib.Tactic.NoncommRing

/-! # Consequences of the LAPACK contracts -/

set_option autoImplicit false

namespace Verif.Lapack

open Matrix

variable {m n : ℕ}

/-- the contract of one reflector -/
def GoodTau (F : Matrix (Fin m) (Fin n) ℝ) (tau : Fin n → ℝ) : Prop :=
  ∀ i, tau i = 0 ∨ tau i * (houseVec F i ⬝ᵥ houseVec F i) = 2

theorem vecMulVec_mul_self (v : Fin m → ℝ) :
    vecMulVec v v * vecMulVec v v = (v ⬝ᵥ v) • vecMulVec v v := by
  ext i j
  simp only [mul_apply, vecMulVec_apply, Matrix.smul_apply, smul_eq_mul, dotProduct, Finset.sum_mul]
  exact Finset.sum_congr rfl fun k _ => by ring

theorem reflector_transpose (F : Matrix (Fin m) (Fin n) ℝ) (tau : Fin n → ℝ) (i : Fin n) :
    (reflector F tau i)ᵀ = reflector F tau i := by
  ext a b
  simp only [reflector, transpose_apply, Matrix.sub_apply, one_apply, Matrix.smul_apply, vecMulVec_apply,
    smul_eq_mul, eq_comm (a := a)]
  ring

theorem reflector_mul_self {F : Matrix (Fin m) (Fin n) ℝ} {tau : Fin n → ℝ} (h : GoodTau F tau)
    (i : Fin n) : reflector F tau i * reflector F tau i = 1 := by
  unfold reflector
  rw [sub_mul, mul_sub, mul_sub, one_mul, one_mul, mul_one, smul_mul_smul_comm, vecMulVec_mul_self,
    smul_smul]
  rcases h i with h0 | h2
  · rw [h0]; simp
  · have : tau i * tau i * (houseVec F i ⬝ᵥ houseVec F i) = 2 * tau i := by
      rw [mul_assoc, h2]; ring
    rw [this]; module

theorem det_reflector {F : Matrix (Fin m) (Fin n) ℝ} {tau : Fin n → ℝ} (h : GoodTau F tau)
    (i : Fin n) : (reflector F tau i).det = if 0 < tau i then -1 else 1 := by
  have hdet : (reflector F tau i).det = 1 - tau i * (houseVec F i ⬝ᵥ houseVec F i) := by
    have h1 : reflector F tau i
        = 1 + replicateCol Unit (-tau i • houseVec F i) * replicateRow Unit (houseVec F i) := by
      rw [← vecMulVec_eq]
      ext a b
      simp [reflector, vecMulVec_apply]; ring
    rw [h1, det_one_add_replicateCol_mul_replicateRow, dotProduct_smul, smul_eq_mul]; ring
  rw [hdet]
  rcases h i with h0 | h2
  · rw [h0]; simp
  · have hpos : 0 < tau i := by
      have hnn : 0 ≤ houseVec F i ⬝ᵥ houseVec F i := by
        unfold dotProduct; exact Finset.sum_nonneg fun j _ => mul_self_nonneg _
      by_contra hneg
      have : tau i * (houseVec F i ⬝ᵥ houseVec F i) ≤ 0 :=
        mul_nonpos_of_nonpos_of_nonneg (not_lt.1 hneg) hnn
      linarith
    rw [if_pos hpos, h2]; norm_num

theorem list_prod_orthogonal {ι : Type} (H : ι → Mat m)
    (hT : ∀ i, (H i)ᵀ * H i = 1) (l : List ι) :
    ((l.map H).prod)ᵀ * (l.map H).prod = 1 := by
  induction l with
  | nil => simp
  | cons i l ih =>
    rw [List.map_cons, List.prod_cons, transpose_mul, Matrix.mul_assoc, ← Matrix.mul_assoc (H i)ᵀ,
      hT, Matrix.one_mul, ih]

/-- `Q` is orthogonal -/
theorem qMat_orthogonal {F : Matrix (Fin m) (Fin n) ℝ} {tau : Fin n → ℝ} (h : GoodTau F tau) :
    (qMat F tau)ᵀ * qMat F tau = 1 :=
  list_prod_orthogonal _ (fun i => by rw [reflector_transpose, reflector_mul_self h]) _

theorem qMat_orthogonal' {F : Matrix (Fin m) (Fin n) ℝ} {tau : Fin n → ℝ} (h : GoodTau F tau) :
    qMat F tau * (qMat F tau)ᵀ = 1 := mul_eq_one_comm.1 (qMat_orthogonal h)

theorem det_list_prod {ι : Type} (H : ι → Mat m) (l : List ι) :
    ((l.map H).prod).det = (l.map fun i => (H i).det).prod := by
  induction l with
  | nil => simp
  | cons i l ih => rw [List.map_cons, List.prod_cons, det_mul, ih, List.map_cons, List.prod_cons]

theorem det_qMat {F : Matrix (Fin m) (Fin n) ℝ} {tau : Fin n → ℝ} (h : GoodTau F tau) :
    (qMat F tau).det = ∏ i, if 0 < tau i then -1 else 1 := by
  unfold qMat
  rw [det_list_prod]
  simp only [det_reflector h]
  rw [Fin.prod_univ_def]

/-- `Q` depends on the strictly lower part only -/
theorem qMat_congr {F F' : Matrix (Fin m) (Fin n) ℝ} (tau : Fin n → ℝ)
    (h : ∀ (r : Fin m) (i : Fin n), i.val < r.val → F r i = F' r i) : qMat F tau = qMat F' tau := by
  have hv : ∀ i, houseVec F i = houseVec F' i := by
    intro i
    ext r
    unfold houseVec
    split
    · rfl
    · split
      · rfl
      · exact h r i (by omega)
  unfold qMat reflector
  simp only [hv]

theorem goodTau_congr {F F' : Matrix (Fin m) (Fin n) ℝ} {tau : Fin n → ℝ}
    (h : ∀ (r : Fin m) (i : Fin n), i.val < r.val → F r i = F' r i) (hg : GoodTau F tau) :
    GoodTau F' tau := by
  have hv : ∀ i, houseVec F i = houseVec F' i := by
    intro i
    ext r
    unfold houseVec
    split
    · rfl
    · split
      · rfl
      · exact h r i (by omega)
  intro i
  rw [← hv]; exact hg i

theorem det_upper (F : Mat n) : (upper F).det = ∏ i, F i i := by
  rw [det_of_isUpperTriangular]
  · simp [upper]
  · intro i j hij
    simp only [upper, of_apply]
    rw [if_neg]
    simpa using hij

theorem det_unitLower (F : Mat n) : (unitLower F).det = 1 := by
  rw [det_of_isLowerTriangular]
  · simp [unitLower]
  · intro i j hij
    have hij : i < j := by simpa using hij
    simp only [unitLower, of_apply]
    rw [if_neg (not_lt.2 hij.le), if_neg hij.ne]

theorem det_pivMat (ipiv : Fin n → Fin n) :
    (pivMat ipiv).det = ∏ i, if ipiv i ≠ i then -1 else 1 := by
  unfold pivMat
  rw [det_list_prod]
  have : ∀ i, ((Equiv.swap i (ipiv i)).permMatrix ℝ).det = if ipiv i ≠ i then -1 else 1 := by
    intro i
    rw [det_permutation]
    by_cases h : ipiv i = i
    · rw [h]; simp
    · rw [Equiv.Perm.sign_swap (Ne.symm h)]; simp [h]
  simp only [this]
  rw [Fin.prod_univ_def]

theorem isUnit_det_pivMat (ipiv : Fin n → Fin n) : IsUnit (pivMat ipiv).det := by
  rw [det_pivMat]
  apply IsUnit.mk0
  rw [Finset.prod_ne_zero_iff]
  intro i _
  split <;> norm_num

/-- `dgetrs` solves the linear system if `U` is not singular -/
theorem dgetrs_eq (F : Mat n) (ipiv : Fin n → Fin n) (A G : Mat n)
    (hA : A = pivMat ipiv * unitLower F * upper F) : dgetrs F ipiv G = A⁻¹ * G := by
  rw [hA, Matrix.mul_inv_rev, Matrix.mul_inv_rev]
  simp only [dgetrs, Matrix.mul_assoc]

theorem det_lu (F : Mat n) (ipiv : Fin n → Fin n) (A : Mat n)
    (hA : A = pivMat ipiv * unitLower F * upper F) :
    A.det = (∏ i, if ipiv i ≠ i then -1 else 1) * ∏ i, F i i := by
  rw [hA, det_mul, det_mul, det_unitLower, mul_one, det_upper, det_pivMat]

end Verif.Lapack
