import Verif.Lemmas.FockGamma
import Mathlib.LinearAlgebra.Matrix.NonsingularInverse

/-! # Wick's theorem for products of two and four fermion operators -/

set_option autoImplicit false

namespace Verif.Fock

open Matrix

variable {m : Type} [Fintype m] [LinearOrder m]

/-- cyclic move of a creation operator around the trace -/
theorem wick_step (A : Matrix m m ℝ) (h : (1 + A).det ≠ 0) (X : Op m) (Y : m → Op m)
    (hX : ∀ j, X * cre j + cre j * X = Y j) (j : m) :
    (X * cre j * gamma A).trace = ∑ k, (Y k * gamma A).trace * (1 + A)⁻¹ k j := by
  have key : ∀ l, ∑ k, (X * cre k * gamma A).trace * (1 + A) k l = (Y l * gamma A).trace := by
    intro l
    have e1 : (cre l * X * gamma A).trace = ∑ k, A k l * (X * cre k * gamma A).trace := by
      rw [mul_assoc, Matrix.trace_mul_comm, mul_assoc, gamma_cre, Finset.mul_sum, Matrix.trace_sum]
      refine Finset.sum_congr rfl fun k _ => ?_
      rw [mul_smul_comm, Matrix.trace_smul, smul_eq_mul, mul_assoc]
    rw [← hX l, add_mul, Matrix.trace_add, e1]
    simp only [Matrix.add_apply, Matrix.one_apply, mul_add, Finset.sum_add_distrib, mul_ite, mul_one,
      mul_zero]
    rw [Finset.sum_ite_eq' Finset.univ l, if_pos (Finset.mem_univ _)]
    congr 1
    exact Finset.sum_congr rfl fun k _ => mul_comm _ _
  have hv : (fun k => (X * cre k * gamma A).trace) ᵥ* (1 + A) = fun l => (Y l * gamma A).trace := by
    funext l
    exact key l
  have hu : IsUnit (1 + A).det := isUnit_iff_ne_zero.2 h
  have e := congrArg (fun v => v ᵥ* (1 + A)⁻¹) hv
  simp only [Matrix.vecMul_vecMul, Matrix.mul_nonsing_inv _ hu, Matrix.vecMul_one] at e
  exact congrFun e j

/-- `⟨c_i c†_j⟩` -/
theorem wick_two (A : Matrix m m ℝ) (h : (1 + A).det ≠ 0) (i j : m) :
    (ann i * cre j * gamma A).trace = (1 + A).det * (1 + A)⁻¹ i j := by
  rw [wick_step A h (ann i) (fun k => if i = k then 1 else 0) (ann_cre i) j, Finset.sum_eq_single i]
  · rw [if_pos rfl, one_mul, trace_gamma]
  · intro k _ hk
    rw [if_neg (Ne.symm hk), zero_mul, Matrix.trace_zero, zero_mul]
  · simp

theorem ann_cre_eq (i j : m) : ann i * cre j = (if i = j then 1 else 0) - cre j * ann i :=
  eq_sub_of_add_eq (ann_cre i j)

theorem cre_ann_eq (i j : m) : cre i * ann j = (if i = j then 1 else 0) - ann j * cre i := by
  rw [ann_cre_eq]
  by_cases h : i = j
  · subst h; simp
  · simp [h, Ne.symm h]

theorem cre_swap (i j : m) : cre i * cre j = -(cre j * cre i) :=
  eq_neg_of_add_eq_zero_left (cre_anti i j)

theorem ann_swap (i j : m) : ann i * ann j = -(ann j * ann i) :=
  eq_neg_of_add_eq_zero_left (ann_anti i j)

/-- `⟨c†_i c_j⟩` -/
theorem wick_dens (A : Matrix m m ℝ) (h : (1 + A).det ≠ 0) (i j : m) :
    (cre i * ann j * gamma A).trace
      = (1 + A).det * ((if i = j then 1 else 0) - (1 + A)⁻¹ j i) := by
  rw [cre_ann_eq, sub_mul, Matrix.trace_sub, wick_two A h, mul_sub]
  congr 1
  split
  · rw [one_mul, trace_gamma, mul_one]
  · rw [zero_mul, Matrix.trace_zero, mul_zero]

/-- `⟨c_i c†_j c_k c†_l⟩` -/
theorem wick_four (A : Matrix m m ℝ) (h : (1 + A).det ≠ 0) (i j k l : m) :
    (ann i * cre j * ann k * cre l * gamma A).trace
      = (1 + A).det * ((1 + A)⁻¹ i j * (1 + A)⁻¹ k l
        + (1 + A)⁻¹ i l * ((if j = k then 1 else 0) - (1 + A)⁻¹ k j)) := by
  rw [wick_step A h (ann i * cre j * ann k)
    (fun l => (if k = l then ann i * cre j else 0) + if i = l then cre j * ann k else 0) ?_ l]
  · simp only [add_mul, Matrix.trace_add, Finset.sum_add_distrib]
    rw [Finset.sum_eq_single k, Finset.sum_eq_single i, if_pos rfl, if_pos rfl, wick_two A h,
      wick_dens A h]
    · ring
    · intro b _ hb
      rw [if_neg (Ne.symm hb), zero_mul, Matrix.trace_zero, zero_mul]
    · simp
    · intro b _ hb
      rw [if_neg (Ne.symm hb), zero_mul, Matrix.trace_zero, zero_mul]
    · simp
  · intro l
    have e1 : ann i * cre j * ann k * cre l = ann i * cre j * (ann k * cre l) := by noncomm_ring
    have e2 : ann i * cre j * (cre l * ann k) = -(ann i * cre l * (cre j * ann k)) := by
      rw [show ann i * cre j * (cre l * ann k) = ann i * (cre j * cre l) * ann k by noncomm_ring,
        cre_swap j l]
      noncomm_ring
    rw [e1, ann_cre_eq k l, mul_sub, e2, ann_cre_eq i l]
    split <;> split <;> noncomm_ring

/-- `⟨c_i c_j c†_k c†_l⟩` -/
theorem wick_pair (A : Matrix m m ℝ) (h : (1 + A).det ≠ 0) (i j k l : m) :
    (ann i * ann j * cre k * cre l * gamma A).trace
      = (1 + A).det * ((1 + A)⁻¹ i l * (1 + A)⁻¹ j k - (1 + A)⁻¹ i k * (1 + A)⁻¹ j l) := by
  rw [wick_step A h (ann i * ann j * cre k)
    (fun l => (if i = l then ann j * cre k else 0) - if j = l then ann i * cre k else 0) ?_ l]
  · simp only [sub_mul, Matrix.trace_sub, Finset.sum_sub_distrib]
    rw [Finset.sum_eq_single i, Finset.sum_eq_single j, if_pos rfl, if_pos rfl, wick_two A h,
      wick_two A h]
    · ring
    · intro b _ hb
      rw [if_neg (Ne.symm hb), zero_mul, Matrix.trace_zero, zero_mul]
    · simp
    · intro b _ hb
      rw [if_neg (Ne.symm hb), zero_mul, Matrix.trace_zero, zero_mul]
    · simp
  · intro l
    have e1 : ann i * ann j * cre k * cre l = ann i * ann j * (cre k * cre l) := by noncomm_ring
    have e2 : ann i * ann j * (cre l * cre k) = ann i * (ann j * cre l) * cre k := by noncomm_ring
    have e3 : ann i * (cre l * ann j) * cre k = ann i * cre l * (ann j * cre k) := by noncomm_ring
    rw [e1, cre_swap k l, mul_neg, e2, ann_cre_eq j l, mul_sub, sub_mul, e3, ann_cre_eq i l]
    split <;> split <;> noncomm_ring

/-! ## Operators at two times

`A` is the propagator from time 0 to `τ`, `B` that from `τ` to the end. -/

section times

variable (A B : Matrix m m ℝ)

theorem gamma_mul' : gamma B * gamma A = gamma (B * A) := (gamma_mul B A).symm

/-- `⟨c_i(τ) c†_j(0)⟩` -/
theorem greater_trace (h : (1 + B * A).det ≠ 0) (i j : m) :
    (gamma B * ann i * gamma A * cre j).trace
      = (1 + B * A).det * (A * (1 + B * A)⁻¹) i j := by
  rw [mul_assoc (gamma B), ann_gamma, Finset.mul_sum, Finset.sum_mul, Matrix.trace_sum, Matrix.mul_apply,
    Finset.mul_sum]
  refine Finset.sum_congr rfl fun k _ => ?_
  rw [mul_smul_comm, smul_mul_assoc, Matrix.trace_smul, ← mul_assoc, gamma_mul', mul_assoc,
    Matrix.trace_mul_comm, wick_two _ h, smul_eq_mul]
  ring

/-- `⟨c†_i(τ) c_j(0)⟩` -/
theorem lesser_trace (h : (1 + B * A).det ≠ 0) (i j : m) :
    (gamma B * cre i * gamma A * ann j).trace
      = (1 + B * A).det * ((1 + B * A)⁻¹ * B) j i := by
  rw [gamma_cre, Finset.sum_mul, Finset.sum_mul, Matrix.trace_sum, Matrix.mul_apply, Finset.mul_sum]
  refine Finset.sum_congr rfl fun k _ => ?_
  rw [smul_mul_assoc, smul_mul_assoc, Matrix.trace_smul, mul_assoc (cre k), gamma_mul', Matrix.trace_mul_comm,
    ← mul_assoc, wick_two _ h, smul_eq_mul]
  ring

theorem det_swap : (1 + A * B).det = (1 + B * A).det := Matrix.det_one_add_mul_comm A B

theorem inv_swap (h : (1 + B * A).det ≠ 0) : A * (1 + B * A)⁻¹ * B = 1 - (1 + A * B)⁻¹ := by
  have hu : IsUnit (1 + B * A).det := isUnit_iff_ne_zero.2 h
  have hu' : IsUnit (1 + A * B).det := by rw [det_swap]; exact hu
  have e : (1 + A * B) * A = A * (1 + B * A) := by noncomm_ring
  have e2 : A * (1 + B * A)⁻¹ = (1 + A * B)⁻¹ * A := by
    have := congrArg (fun X => (1 + A * B)⁻¹ * X * (1 + B * A)⁻¹) e
    simp only [← mul_assoc, Matrix.nonsing_inv_mul _ hu', one_mul] at this
    rw [this, mul_assoc ((1 + A * B)⁻¹ * A), Matrix.mul_nonsing_inv _ hu, mul_one]
  rw [e2, mul_assoc, show A * B = (1 + A * B) - 1 by noncomm_ring, mul_sub]
  rw [show (1 + (1 + A * B - 1)) = 1 + A * B by noncomm_ring, Matrix.nonsing_inv_mul _ hu', mul_one]

/-- operators at time `τ` -/
theorem late_trace (h : (1 + B * A).det ≠ 0) (i j : m) :
    (gamma B * (cre i * ann j) * gamma A).trace
      = (1 + B * A).det * ((if i = j then 1 else 0) - (1 + A * B)⁻¹ j i) := by
  rw [Matrix.trace_mul_comm, ← mul_assoc, gamma_mul', Matrix.trace_mul_comm, wick_dens _ (by rwa [det_swap]),
    det_swap]

/-- operators at time 0 -/
theorem early_trace (h : (1 + B * A).det ≠ 0) (i j : m) :
    (gamma B * gamma A * (cre i * ann j)).trace
      = (1 + B * A).det * ((if i = j then 1 else 0) - (1 + B * A)⁻¹ j i) := by
  rw [gamma_mul', Matrix.trace_mul_comm, wick_dens _ h]

/-- `⟨c†_i(τ) c_j(τ) c†_k(0) c_l(0)⟩` -/
theorem four_trace (h : (1 + B * A).det ≠ 0) (i j k l : m) :
    (gamma B * (cre i * ann j) * gamma A * (cre k * ann l)).trace
      = (1 + B * A).det *
        (((if i = j then 1 else 0) - (1 + A * B)⁻¹ j i) * ((if k = l then 1 else 0) - (1 + B * A)⁻¹ l k)
          + ((1 + B * A)⁻¹ * B) l i * (A * (1 + B * A)⁻¹) j k) := by
  have e : ∀ p q : m, (cre p * gamma (B * A) * ann q * (cre k * ann l)).trace
      = (1 + B * A).det * ((1 + B * A)⁻¹ q k * (1 + B * A)⁻¹ l p
        + (1 + B * A)⁻¹ q p * ((if k = l then 1 else 0) - (1 + B * A)⁻¹ l k)) := by
    intro p q
    rw [← wick_four _ h, show cre p * gamma (B * A) * ann q * (cre k * ann l)
      = (cre p * gamma (B * A)) * (ann q * cre k * ann l) by noncomm_ring, Matrix.trace_mul_comm,
      ← mul_assoc]
  have e1 : (gamma B * (cre i * ann j) * gamma A * (cre k * ann l)).trace
      = ∑ p, ∑ q, B p i * A j q * (cre p * gamma (B * A) * ann q * (cre k * ann l)).trace := by
    rw [show gamma B * (cre i * ann j) * gamma A = (gamma B * cre i) * (ann j * gamma A) by noncomm_ring,
      gamma_cre, ann_gamma]
    simp only [Finset.sum_mul, Finset.mul_sum, Matrix.trace_sum]
    rw [Finset.sum_comm]
    refine Finset.sum_congr rfl fun p _ => Finset.sum_congr rfl fun q _ => ?_
    rw [smul_mul_assoc, smul_mul_assoc, mul_smul_comm, smul_mul_assoc, Matrix.trace_smul, Matrix.trace_smul,
      smul_eq_mul, smul_eq_mul, ← mul_assoc, gamma_mul]
    congr 3
    noncomm_ring
  have e2 : ((if i = j then 1 else 0) - (1 + A * B)⁻¹ j i) = (A * (1 + B * A)⁻¹ * B) j i := by
    rw [inv_swap A B h, Matrix.sub_apply, Matrix.one_apply]
    simp only [eq_comm]
  rw [e1, e2]
  simp only [e]
  have f1 : ((1 + B * A)⁻¹ * B) l i * (A * (1 + B * A)⁻¹) j k
      = ∑ p, ∑ q, ((1 + B * A)⁻¹ l p * B p i) * (A j q * (1 + B * A)⁻¹ q k) := by
    rw [Matrix.mul_apply, Matrix.mul_apply, Finset.sum_mul_sum]
  have f2 : (A * (1 + B * A)⁻¹ * B) j i = ∑ p, ∑ q, A j q * (1 + B * A)⁻¹ q p * B p i := by
    simp only [Matrix.mul_apply, Finset.sum_mul]
  rw [f1, f2]
  simp only [Finset.sum_mul, ← Finset.sum_add_distrib, Finset.mul_sum]
  refine Finset.sum_congr rfl fun p _ => Finset.sum_congr rfl fun q _ => ?_
  ring

/-- `⟨c_i(τ) c_j(τ) c†_k(0) c†_l(0)⟩` -/
theorem pair_trace (h : (1 + B * A).det ≠ 0) (i j k l : m) :
    (gamma B * (ann i * ann j) * gamma A * (cre k * cre l)).trace
      = (1 + B * A).det *
        ((A * (1 + B * A)⁻¹) i l * (A * (1 + B * A)⁻¹) j k
          - (A * (1 + B * A)⁻¹) i k * (A * (1 + B * A)⁻¹) j l) := by
  have e1 : (gamma B * (ann i * ann j) * gamma A * (cre k * cre l)).trace
      = ∑ p, ∑ q, A i p * A j q * (ann p * ann q * cre k * cre l * gamma (B * A)).trace := by
    have f1 : gamma B * (ann i * ann j) * gamma A
        = ∑ p, ∑ q, (A i p * A j q) • (gamma (B * A) * (ann p * ann q)) := by
      rw [show gamma B * (ann i * ann j) * gamma A = gamma B * (ann i * (ann j * gamma A)) by noncomm_ring,
        ann_gamma]
      simp only [Finset.mul_sum, mul_smul_comm, ← mul_assoc]
      have f2 : ∀ q, gamma B * ann i * gamma A * ann q = ∑ p, A i p • (gamma (B * A) * (ann p * ann q)) := by
        intro q
        rw [mul_assoc (gamma B), ann_gamma, Finset.mul_sum, Finset.sum_mul]
        refine Finset.sum_congr rfl fun p _ => ?_
        rw [mul_smul_comm, smul_mul_assoc, ← mul_assoc (gamma B), gamma_mul', mul_assoc]
      simp only [f2, Finset.smul_sum, smul_smul]
      rw [Finset.sum_comm]
      refine Finset.sum_congr rfl fun p _ => Finset.sum_congr rfl fun q _ => ?_
      rw [mul_comm, mul_assoc]
    rw [f1]
    simp only [Finset.sum_mul, Matrix.trace_sum]
    refine Finset.sum_congr rfl fun p _ => Finset.sum_congr rfl fun q _ => ?_
    rw [smul_mul_assoc, Matrix.trace_smul, smul_eq_mul]
    congr 1
    rw [mul_assoc, Matrix.trace_mul_comm]
    congr 2
    noncomm_ring
  rw [e1]
  simp only [wick_pair _ h, Matrix.mul_apply, Finset.sum_mul_sum]
  simp only [← Finset.sum_sub_distrib, Finset.mul_sum]
  refine Finset.sum_congr rfl fun p _ => Finset.sum_congr rfl fun q _ => ?_
  ring

end times

end Verif.Fock
