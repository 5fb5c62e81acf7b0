import Verif.Props.Kinetic
import Mathlib.Algebra.Order.Star.Real
import Mathlib.Analysis.SpecialFunctions.Exponential

/-! # Property C17: the kinetic exponentials -/

set_option autoImplicit false

namespace Verif.Kinetic

open Matrix Verif.Params

variable {N : ℕ}

theorem matrixExp_eq_conj (es : Eigensolver N) (A : Matrix (Fin N) (Fin N) ℝ) :
    matrixExp es A = (es.run A).1 * diagonal (fun i => Real.exp ((es.run A).2 i)) * (es.run A).1ᵀ := by
  unfold matrixExp
  simp only
  congr 1
  ext i j
  simp [Matrix.mul_diagonal]

/-- `MatrixExp` of a symmetric matrix is the matrix exponential, for every eigensolver. -/
theorem matrixExp_eq_exp (es : Eigensolver N) (A : Matrix (Fin N) (Fin N) ℝ) (hA : A.IsSymm) :
    matrixExp es A = NormedSpace.exp A := by
  have hU := es.orthonormal A
  have hinv : (es.run A).1⁻¹ = (es.run A).1ᵀ := inv_eq_left_inv hU
  have hunit : IsUnit (es.run A).1 := by
    rw [isUnit_iff_isUnit_det]
    exact IsUnit.of_mul_eq_one _ (by rw [← det_mul, mul_eq_one_comm.1 hU, det_one])
  have hsym : (Matrix.of fun i j => if i ≤ j then A i j else A j i) = A := by
    ext i j
    simp only [of_apply]
    split
    · rfl
    · exact hA.apply i j
  have hd := es.diagonalises A
  rw [hsym] at hd
  rw [matrixExp_eq_conj]
  conv_rhs => rw [hd, ← hinv, exp_conj _ _ hunit, exp_diagonal, hinv]
  congr 3
  ext i
  rw [Pi.coe_exp, Real.exp_eq_exp_ℝ]

theorem matrixExp_symm (es : Eigensolver N) (A : Matrix (Fin N) (Fin N) ℝ) :
    (matrixExp es A).IsSymm := by
  rw [matrixExp_eq_conj]
  unfold IsSymm
  rw [transpose_mul, transpose_mul, transpose_transpose, diagonal_transpose, Matrix.mul_assoc]

theorem matrixExp_posDef (es : Eigensolver N) (A : Matrix (Fin N) (Fin N) ℝ) :
    (matrixExp es A).PosDef := by
  rw [matrixExp_eq_conj]
  have hU := es.orthonormal A
  have hD : (diagonal (fun i => Real.exp ((es.run A).2 i))).PosDef :=
    PosDef.diagonal fun i => Real.exp_pos _
  have hinj : Function.Injective ((es.run A).1.vecMul) := by
    intro v w h
    have := congrArg (fun x => x ᵥ* (es.run A).1ᵀ) h
    simpa [Matrix.vecMul_vecMul, mul_eq_one_comm.1 hU] using this
  have := hD.mul_mul_conjTranspose_same hinj
  rwa [conjTranspose_eq_transpose_of_trivial] at this

theorem toMatrix_symm_of (N : ℕ) (T : ℤ → ℝ)
    (h : ∀ r c : ℤ, 0 ≤ r → r < N → 0 ≤ c → c < N → entry N T r c = entry N T c r) :
    (toMatrix N T).IsSymm := by
  ext i j
  exact h j i (by omega) (by exact_mod_cast j.2) (by omega) (by exact_mod_cast i.2)

/-- C17: the stored matrices are `exp(-dt K)` and `exp(dt K)` of the hopping matrix `K`; they are
inverse to each other, symmetric and positive definite, whatever (orthonormal) eigenvectors the
eigensolver returns. -/
theorem kinetic_exponentials (Norb Nx Ny : ℕ) (hx : 0 < Nx) (hy : 0 < Ny) (s : ℤ) (hs : 0 ≤ s)
    (t : Hoppings ℝ) (eps : ℤ → ℝ) (mu dt : ℝ) (es : Eigensolver (Norb * (Nx * Ny))) :
    ∃ T K, hopping Norb Nx Ny s t eps mu = some T ∧
      kineticExponential Norb Nx Ny s t eps mu dt es = some K ∧
      K.expK = NormedSpace.exp (-dt • toMatrix (Norb * (Nx * Ny)) T) ∧
      K.invExpK = NormedSpace.exp (dt • toMatrix (Norb * (Nx * Ny)) T) ∧
      K.expK * K.invExpK = 1 ∧ K.invExpK * K.expK = 1 ∧
      K.expK.IsSymm ∧ K.invExpK.IsSymm ∧ K.expK.PosDef ∧ K.invExpK.PosDef := by
  obtain ⟨T, hT, hsym, -, -⟩ := hopping_spec Norb Nx Ny hx hy s hs t eps mu
  have hS := toMatrix_symm_of _ T hsym
  have e1 : toMatrix (Norb * (Nx * Ny)) (fun k => -dt * T k) = -dt • toMatrix _ T := by
    ext i j; simp [toMatrix]
  have e2 : toMatrix (Norb * (Nx * Ny)) (fun k => -1 * (-dt * T k)) = dt • toMatrix _ T := by
    ext i j; simp [toMatrix]
  have h1 : matrixExp es (toMatrix (Norb * (Nx * Ny)) (fun k => -dt * T k))
      = NormedSpace.exp (-dt • toMatrix (Norb * (Nx * Ny)) T) := by
    rw [e1]; exact matrixExp_eq_exp es _ (hS.smul _)
  have h2 : matrixExp es (toMatrix (Norb * (Nx * Ny)) (fun k => -1 * (-dt * T k)))
      = NormedSpace.exp (dt • toMatrix (Norb * (Nx * Ny)) T) := by
    rw [e2]; exact matrixExp_eq_exp es _ (hS.smul _)
  have hinv : NormedSpace.exp (-dt • toMatrix (Norb * (Nx * Ny)) T)
      * NormedSpace.exp (dt • toMatrix (Norb * (Nx * Ny)) T) = 1 := by
    rw [← Matrix.exp_add_of_commute _ _ (((Commute.refl _).smul_left _).smul_right _), ← add_smul]
    simp
  refine ⟨T, _, hT, by rw [kineticExponential, hT, Option.map_some], h1, h2, ?_, ?_,
    matrixExp_symm _ _, matrixExp_symm _ _, matrixExp_posDef _ _, matrixExp_posDef _ _⟩
  · simp only [h1, h2]; exact hinv
  · simp only [h1, h2]; exact mul_eq_one_comm.1 hinv

/-- non-vacuity: an eigensolver satisfying the contract exists for every size (spectral theorem) -/
theorem eigensolver_exists (N : ℕ) : Nonempty (Eigensolver N) := by
  have key : ∀ A : Matrix (Fin N) (Fin N) ℝ, ∃ r : Matrix (Fin N) (Fin N) ℝ × (Fin N → ℝ),
      r.1ᵀ * r.1 = 1 ∧ (Matrix.of fun i j => if i ≤ j then A i j else A j i)
        = r.1 * diagonal r.2 * r.1ᵀ := by
    intro A
    have hH : (Matrix.of fun i j => if i ≤ j then A i j else A j i).IsHermitian := by
      ext i j
      simp only [conjTranspose_apply, of_apply, star_trivial]
      rcases lt_trichotomy i j with h | h | h
      · rw [if_neg (not_le.2 h), if_pos h.le]
      · rw [h]
      · rw [if_pos h.le, if_neg (not_le.2 h)]
    have hsp := hH.spectral_theorem
    set U : Matrix (Fin N) (Fin N) ℝ := (hH.eigenvectorUnitary : Matrix (Fin N) (Fin N) ℝ) with hUdef
    have hUU : Uᵀ * U = 1 := by
      have := (Matrix.mem_unitaryGroup_iff').1 hH.eigenvectorUnitary.2
      rwa [star_eq_conjTranspose, conjTranspose_eq_transpose_of_trivial] at this
    refine ⟨(U, hH.eigenvalues), hUU, ?_⟩
    exact hsp.trans rfl
  choose f hf using key
  exact ⟨⟨f, fun A => (hf A).1, fun A => (hf A).2⟩⟩

end Verif.Kinetic
