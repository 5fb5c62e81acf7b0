import Verif.Lemmas.SpinRotation
import Verif.Props.Measurement

/-!
# Permutations of the sites

A permutation of the sites acts on the Fock space by conjugation with `gamma` of its matrix.
-/

set_option autoImplicit false

namespace Verif.Fock

open Matrix Verif.Lapack Verif.TimeFlow Verif.Measurement

variable {N : ℕ}

/-- matrix of the permutation: it acts in the same way on both spins -/
def permMat (e : Equiv.Perm (Fin N)) : Matrix (Mode N) (Mode N) ℝ := Matrix.of fun a b => if a = (e b.1, b.2) then 1 else 0

/-- operator with permuted sites -/
noncomputable def relabel (e : Equiv.Perm (Fin N)) (X : Op (Mode N)) : Op (Mode N) := gamma (permMat e) * X * gamma (permMat e)ᵀ

theorem permMat_mul_transpose (e : Equiv.Perm (Fin N)) : permMat e * (permMat e)ᵀ = 1 := by
  ext ⟨i, s⟩ ⟨j, t⟩
  rw [Matrix.mul_apply, Finset.sum_eq_single (e.symm i, s)]
  · simp only [permMat, Matrix.of_apply, Matrix.transpose_apply, Equiv.apply_symm_apply, if_true, one_mul, Matrix.one_apply]
    exact if_congr eq_comm rfl rfl
  · rintro ⟨k, u⟩ - h
    have : (i, s) ≠ (e k, u) := by
      intro h'
      obtain ⟨h1, h2⟩ := Prod.mk.inj h'
      exact h (by rw [h1, h2, Equiv.symm_apply_apply])
    simp [permMat, this]
  · exact fun h => absurd (Finset.mem_univ _) h

theorem permMat_transpose_mul (e : Equiv.Perm (Fin N)) : (permMat e)ᵀ * permMat e = 1 :=
  mul_eq_one_comm.1 (permMat_mul_transpose e)

theorem gamma_perm_mul (e : Equiv.Perm (Fin N)) : gamma (permMat e) * gamma (permMat e)ᵀ = 1 := by
  rw [← gamma_mul, permMat_mul_transpose, gamma_one]

theorem gamma_mul_perm (e : Equiv.Perm (Fin N)) : gamma (permMat e)ᵀ * gamma (permMat e) = 1 := by
  rw [← gamma_mul, permMat_transpose_mul, gamma_one]

theorem relabel_one (e : Equiv.Perm (Fin N)) : relabel e 1 = 1 := by rw [relabel, mul_one, gamma_perm_mul]

theorem relabel_mul (e : Equiv.Perm (Fin N)) (X Y : Op (Mode N)) : relabel e (X * Y) = relabel e X * relabel e Y := by
  have h : relabel e X * relabel e Y = gamma (permMat e) * X * (gamma (permMat e)ᵀ * gamma (permMat e)) * Y
      * gamma (permMat e)ᵀ := by
    unfold relabel
    noncomm_ring
  rw [h, gamma_mul_perm, mul_one, relabel]
  noncomm_ring

theorem relabel_add (e : Equiv.Perm (Fin N)) (X Y : Op (Mode N)) : relabel e (X + Y) = relabel e X + relabel e Y := by
  unfold relabel
  rw [mul_add, add_mul]

theorem relabel_sub (e : Equiv.Perm (Fin N)) (X Y : Op (Mode N)) : relabel e (X - Y) = relabel e X - relabel e Y := by
  unfold relabel
  rw [mul_sub, sub_mul]

theorem relabel_smul (e : Equiv.Perm (Fin N)) (r : ℝ) (X : Op (Mode N)) : relabel e (r • X) = r • relabel e X := by
  unfold relabel
  rw [Matrix.mul_smul, Matrix.smul_mul]

theorem relabel_zero (e : Equiv.Perm (Fin N)) : relabel e 0 = 0 := by
  unfold relabel
  rw [mul_zero, zero_mul]

theorem relabel_sum {α : Type} (e : Equiv.Perm (Fin N)) (s : Finset α) (X : α → Op (Mode N)) :
    relabel e (∑ a ∈ s, X a) = ∑ a ∈ s, relabel e (X a) := by
  unfold relabel
  rw [Finset.mul_sum, Finset.sum_mul]

theorem relabel_cre (e : Equiv.Perm (Fin N)) (a : Mode N) : relabel e (cre a) = cre (e a.1, a.2) := by
  rw [relabel, gamma_cre, Finset.sum_mul, Finset.sum_eq_single (e a.1, a.2)]
  · rw [Matrix.smul_mul, mul_assoc, gamma_perm_mul, mul_one]
    simp [permMat]
  · intro b _ h
    simp [permMat, h]
  · exact fun h => absurd (Finset.mem_univ _) h

theorem relabel_ann (e : Equiv.Perm (Fin N)) (a : Mode N) : relabel e (ann a) = ann (e a.1, a.2) := by
  rw [relabel, mul_assoc, ann_gamma, Finset.mul_sum, Finset.sum_eq_single (e a.1, a.2)]
  · rw [Matrix.mul_smul, ← mul_assoc, gamma_perm_mul, one_mul]
    simp [permMat]
  · intro b _ h
    simp [permMat, h]
  · exact fun h => absurd (Finset.mem_univ _) h

theorem relabel_num (e : Equiv.Perm (Fin N)) (a : Mode N) : relabel e (num a) = num (e a.1, a.2) := by
  rw [num_eq, relabel_mul, relabel_cre, relabel_ann, num_eq]

/-- one-body operators with permuted sites -/
def moveOne (e : Equiv.Perm (Fin N)) (A : OneBody N) : OneBody N :=
  A.map fun x => (x.1, (e x.2.1.1, x.2.1.2), (e x.2.2.1, x.2.2.2))

/-- pairs with permuted sites -/
def movePair (e : Equiv.Perm (Fin N)) (A : PairOp N) : PairOp N :=
  A.map fun x => (x.1, (e x.2.1.1, x.2.1.2), (e x.2.2.1, x.2.2.2))

theorem relabel_opOf (e : Equiv.Perm (Fin N)) (A : OneBody N) : relabel e (opOf A) = opOf (moveOne e A) := by
  unfold opOf moveOne
  induction A with
  | nil => simp [relabel_zero]
  | cons x A ih =>
    simp only [List.map_cons, List.sum_cons] at ih ⊢
    rw [relabel_add, ih, relabel_smul, relabel_mul, relabel_cre, relabel_ann]

theorem relabel_pairOf (e : Equiv.Perm (Fin N)) (A : PairOp N) : relabel e (pairOf A) = pairOf (movePair e A) := by
  unfold pairOf movePair
  induction A with
  | nil => simp [relabel_zero]
  | cons x A ih =>
    simp only [List.map_cons, List.sum_cons] at ih ⊢
    rw [relabel_add, ih, relabel_smul, relabel_mul, relabel_ann, relabel_ann]

theorem relabel_pairOf_transpose (e : Equiv.Perm (Fin N)) (A : PairOp N) :
    relabel e (pairOf A)ᵀ = (pairOf (movePair e A))ᵀ := by
  unfold pairOf movePair
  induction A with
  | nil => simp [relabel_zero]
  | cons x A ih =>
    simp only [List.map_cons, List.sum_cons, Matrix.transpose_add, Matrix.transpose_smul, Matrix.transpose_mul] at ih ⊢
    rw [relabel_add, ih, relabel_smul, relabel_mul, ← cre_transpose, ← cre_transpose, ← cre_transpose, ← cre_transpose,
      Matrix.transpose_transpose, Matrix.transpose_transpose, Matrix.transpose_transpose, Matrix.transpose_transpose,
      relabel_cre, relabel_cre]

/-! ## The model -/

theorem relabel_hopOp (e : Equiv.Perm (Fin N)) {K : Mat N} (hK : ∀ i j, K (e i) (e j) = K i j) : relabel e (hopOp K) = hopOp K := by
  unfold hopOp
  simp only [relabel_sum, relabel_smul, relabel_mul, relabel_cre, relabel_ann]
  refine Finset.sum_congr rfl fun s _ => ?_
  refine Eq.trans ?_ (Equiv.sum_comp e fun i => ∑ j, K i j • (cre (i, s) * ann (j, s)))
  refine Finset.sum_congr rfl fun i _ => ?_
  refine Eq.trans ?_ (Equiv.sum_comp e fun j => K (e i) j • (cre (e i, s) * ann (j, s)))
  exact Finset.sum_congr rfl fun j _ => by rw [hK]

theorem relabel_repOp (e : Equiv.Perm (Fin N)) {U : Fin N → ℝ} (hU : ∀ i, U (e i) = U i) : relabel e (repOp U) = repOp U := by
  unfold repOp
  simp only [relabel_sum, relabel_smul, relabel_mul, relabel_sub, relabel_one, relabel_num]
  rw [← Equiv.sum_comp e (fun i => U i • ((num (i, true) - (1 / 2 : ℝ) • 1) * (num (i, false) - (1 / 2 : ℝ) • 1)))]
  exact Finset.sum_congr rfl fun i _ => by rw [hU]

theorem relabel_potOp (e : Equiv.Perm (Fin N)) (v : Fin N → ℝ) : relabel e (potOp fun i => v (e i)) = potOp v := by
  unfold potOp
  simp only [relabel_sum, relabel_smul, relabel_add, relabel_num]
  exact Equiv.sum_comp e fun i => v i • (num (i, true) + num (i, false))

theorem relabel_exp (e : Equiv.Perm (Fin N)) (X : Op (Mode N)) : relabel e (NormedSpace.exp X) = NormedSpace.exp (relabel e X) := by
  have hu : IsUnit (gamma (permMat e)) := ⟨⟨_, _, gamma_perm_mul e, gamma_mul_perm e⟩, rfl⟩
  have hi : (gamma (permMat e))⁻¹ = gamma (permMat e)ᵀ := Matrix.inv_eq_left_inv (gamma_mul_perm e)
  unfold relabel
  rw [← hi, Matrix.exp_conj _ _ hu]

/-- time step: the potential moves along -/
theorem relabel_stepOp (e : Equiv.Perm (Fin N)) {K : Mat N} (hK : ∀ i j, K (e i) (e j) = K i j) {U : Fin N → ℝ}
    (hU : ∀ i, U (e i) = U i) (dt : ℝ) (v : Fin N → ℝ) : relabel e (stepOp K U dt fun i => v (e i)) = stepOp K U dt v := by
  unfold stepOp
  rw [relabel_mul, relabel_mul, relabel_exp, relabel_exp, relabel_exp, relabel_smul, relabel_smul, relabel_smul,
    relabel_hopOp e hK, relabel_repOp e hU, relabel_potOp]

theorem relabel_pow (e : Equiv.Perm (Fin N)) (X : Op (Mode N)) (k : ℕ) : relabel e (X ^ k) = relabel e X ^ k := by
  induction k with
  | zero => rw [pow_zero, pow_zero, relabel_one]
  | succ k ih => rw [pow_succ, pow_succ, relabel_mul, ih]

theorem relabel_oprod (e : Equiv.Perm (Fin N)) (t : ℕ → Op (Mode N)) (k : ℕ) :
    relabel e (oprod t k) = oprod (fun j => relabel e (t j)) k := by
  induction k with
  | zero => exact relabel_one e
  | succ k ih => rw [oprod, oprod, relabel_mul, ih]

theorem trace_relabel (e : Equiv.Perm (Fin N)) (X : Op (Mode N)) : (relabel e X).trace = X.trace := by
  rw [relabel, Matrix.trace_mul_comm, ← mul_assoc, gamma_mul_perm, one_mul]

end Verif.Fock
