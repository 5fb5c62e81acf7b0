import Verif.Model.Jacobi
import Mathlib.Analysis.InnerProductSpace.PiL2
import Mathlib.LinearAlgebra.Matrix.Trace

/-! # Rotations in exact arithmetic -/

set_option autoImplicit false

namespace Verif.Reference

open Matrix Verif.Lapack Verif.Rounded

variable {N : ℕ}

/-! ## Frobenius norm -/

/-- Frobenius norm -/
noncomputable def fro (A : Mat N) : ℝ := Real.sqrt (∑ i, ∑ j, A i j ^ 2)

theorem fro_sum_nonneg (A : Mat N) : 0 ≤ ∑ i, ∑ j, A i j ^ 2 := Finset.sum_nonneg fun _ _ => Finset.sum_nonneg fun _ _ => sq_nonneg _

theorem fro_nonneg (A : Mat N) : 0 ≤ fro A := Real.sqrt_nonneg _

theorem fro_sq (A : Mat N) : fro A ^ 2 = ∑ i, ∑ j, A i j ^ 2 := Real.sq_sqrt (fro_sum_nonneg A)

theorem fro_eq_norm (A : Mat N) : fro A = ‖(WithLp.toLp 2 fun x : Fin N × Fin N => A x.1 x.2 : EuclideanSpace ℝ (Fin N × Fin N))‖ := by
  rw [EuclideanSpace.norm_eq, fro, Fintype.sum_prod_type]
  simp

theorem fro_add (A B : Mat N) : fro (A + B) ≤ fro A + fro B := by
  rw [fro_eq_norm, fro_eq_norm, fro_eq_norm]
  exact norm_add_le (WithLp.toLp 2 fun x : Fin N × Fin N => A x.1 x.2 : EuclideanSpace ℝ (Fin N × Fin N))
    (WithLp.toLp 2 fun x : Fin N × Fin N => B x.1 x.2 : EuclideanSpace ℝ (Fin N × Fin N))

theorem entry_le_fro (A : Mat N) (i j : Fin N) : |A i j| ≤ fro A := by
  refine abs_le_of_sq_le_sq ?_ (fro_nonneg A)
  rw [fro_sq]
  exact (Finset.single_le_sum (f := fun j => A i j ^ 2) (fun _ _ => sq_nonneg _) (Finset.mem_univ j)).trans
    (Finset.single_le_sum (f := fun i => ∑ j, A i j ^ 2) (fun _ _ => Finset.sum_nonneg fun _ _ => sq_nonneg _) (Finset.mem_univ i))

theorem fro_le {A : Mat N} {η : ℝ} (hη : 0 ≤ η) (h : ∀ i j, |A i j| ≤ η) : fro A ≤ N * η := by
  refine le_of_sq_le_sq ?_ (by positivity)
  rw [fro_sq]
  calc ∑ i, ∑ j, A i j ^ 2 ≤ ∑ _i : Fin N, ∑ _j : Fin N, η ^ 2 :=
        Finset.sum_le_sum fun i _ => Finset.sum_le_sum fun j _ => sq_le_sq' (abs_le.1 (h i j)).1 (abs_le.1 (h i j)).2
    _ = (N * η) ^ 2 := by
        simp
        ring

theorem fro_trace (A : Mat N) : fro A ^ 2 = (Aᵀ * A).trace := by
  rw [fro_sq, Finset.sum_comm]
  simp only [trace, diag_apply, mul_apply, transpose_apply, sq]

theorem fro_congr {A B : Mat N} (h : fro A ^ 2 = fro B ^ 2) : fro A = fro B :=
  (pow_left_inj₀ (fro_nonneg A) (fro_nonneg B) two_ne_zero).1 h

theorem fro_transpose (A : Mat N) : fro Aᵀ = fro A :=
  fro_congr (by
    rw [fro_sq, fro_sq, Finset.sum_comm]
    rfl)

theorem fro_mul_left {Q : Mat N} (hQ : Qᵀ * Q = 1) (A : Mat N) : fro (Q * A) = fro A :=
  fro_congr (by rw [fro_trace, fro_trace, transpose_mul, Matrix.mul_assoc, ← Matrix.mul_assoc Qᵀ, hQ, Matrix.one_mul])

theorem fro_mul_right {Q : Mat N} (hQ : Qᵀ * Q = 1) (A : Mat N) : fro (A * Q) = fro A := by
  have h : Qᵀᵀ * Qᵀ = 1 := by
    rw [transpose_transpose]
    exact mul_eq_one_comm.1 hQ
  rw [← fro_transpose, transpose_mul, fro_mul_left h, fro_transpose]

theorem fro_conj {Q : Mat N} (hQ : Qᵀ * Q = 1) (A : Mat N) : fro (Qᵀ * A * Q) = fro A := by
  have h : Qᵀᵀ * Qᵀ = 1 := by
    rw [transpose_transpose]
    exact mul_eq_one_comm.1 hQ
  rw [fro_mul_right hQ, fro_mul_left h]

theorem fro_conj' {Q : Mat N} (hQ : Qᵀ * Q = 1) (A : Mat N) : fro (Q * A * Qᵀ) = fro A := by
  have h : Qᵀᵀ * Qᵀ = 1 := by
    rw [transpose_transpose]
    exact mul_eq_one_comm.1 hQ
  rw [fro_mul_right h, fro_mul_left hQ]

/-! ## Outside of the diagonal -/

/-- Frobenius norm of the part outside of the diagonal -/
noncomputable def off (A : Mat N) : ℝ := fro (A - diagonal A.diag)

theorem off_sq (A : Mat N) : off A ^ 2 = fro A ^ 2 - ∑ i, A i i ^ 2 := by
  rw [off, fro_sq, fro_sq, ← Finset.sum_sub_distrib]
  refine Finset.sum_congr rfl fun i _ => ?_
  rw [eq_sub_iff_add_eq, ← Finset.add_sum_erase _ _ (Finset.mem_univ i), ← Finset.add_sum_erase Finset.univ (fun j => A i j ^ 2) (Finset.mem_univ i)]
  simp only [Matrix.sub_apply, diagonal_apply_eq, diag_apply, sub_self]
  rw [Finset.sum_congr rfl fun j hj => by rw [diagonal_apply_ne _ (Finset.ne_of_mem_erase hj).symm, sub_zero]]
  ring

theorem off_nonneg (A : Mat N) : 0 ≤ off A := fro_nonneg _

theorem off_le_fro (A : Mat N) : off A ≤ fro A := by
  refine le_of_sq_le_sq ?_ (fro_nonneg A)
  rw [off_sq]
  linarith [Finset.sum_nonneg fun (i : Fin N) (_ : i ∈ Finset.univ) => sq_nonneg (A i i)]

theorem off_le_add (A B : Mat N) : off A ≤ off B + fro (A - B) := by
  have h : A - diagonal A.diag = (B - diagonal B.diag) + ((A - B) - diagonal (A - B).diag) := by
    have e : diagonal (A - B).diag = diagonal A.diag - diagonal B.diag := by
      rw [diagonal_sub]
      rfl
    rw [e]
    abel
  unfold off
  rw [h]
  exact (fro_add _ _).trans (by
    have := off_le_fro (A - B)
    unfold off at this
    linarith)

/-! ## Rotations -/

variable {p q : Fin N} {c s : ℝ}

theorem col_p (h : p ≠ q) : (rot p q c s)ᵀ p = Pi.single p c - Pi.single q s := by
  funext i
  simp only [rot, transpose_apply, of_apply, if_true, Pi.sub_apply, Pi.single_apply]
  by_cases hi : i = p
  · subst hi
    simp [h]
  · rw [if_neg hi, if_neg hi, zero_sub]
    by_cases hq : i = q <;> simp [hq]

theorem col_q (h : p ≠ q) : (rot p q c s)ᵀ q = Pi.single p s + Pi.single q c := by
  funext i
  simp only [rot, transpose_apply, of_apply, Pi.add_apply, Pi.single_apply, if_neg h.symm, if_true]
  by_cases hi : i = p
  · subst hi
    simp [h]
  · rw [if_neg hi, if_neg hi, zero_add]

theorem col_other {j : Fin N} (h : j ≠ p) (h' : j ≠ q) : (rot p q c s)ᵀ j = Pi.single j 1 := by
  funext i
  simp only [rot, transpose_apply, of_apply, Pi.single_apply, if_neg h, if_neg h']

theorem conj_apply (Q A : Mat N) (i j : Fin N) : (Qᵀ * A * Q) i j = Qᵀ i ⬝ᵥ (A *ᵥ Qᵀ j) := by
  rw [Matrix.mul_assoc, mul_apply]
  rfl

theorem rot_orthogonal (h : p ≠ q) (hcs : c ^ 2 + s ^ 2 = 1) : (rot p q c s)ᵀ * rot p q c s = 1 := by
  ext i j
  have e : ((rot p q c s)ᵀ * rot p q c s) i j = (rot p q c s)ᵀ i ⬝ᵥ (rot p q c s)ᵀ j := rfl
  rw [e]
  by_cases hi : i = p
  · subst hi
    by_cases hj : j = i
    · subst hj
      rw [col_p h]
      simp [h, h.symm]
      linarith
    · by_cases hj' : j = q
      · subst hj'
        rw [col_p h, col_q h]
        simp [h, h.symm]
        ring
      · rw [col_p h, col_other hj hj']
        simp [Ne.symm hj, Ne.symm hj']
  · by_cases hi' : i = q
    · subst hi'
      by_cases hj : j = p
      · subst hj
        rw [col_p h, col_q h]
        simp [h, h.symm]
        ring
      · by_cases hj' : j = i
        · subst hj'
          rw [col_q h]
          simp [h, h.symm]
          linarith
        · rw [col_q h, col_other hj hj']
          simp [Ne.symm hj, Ne.symm hj']
    · rw [col_other hi hi']
      simp only [single_dotProduct, one_mul, Matrix.one_apply]
      have : (rot p q c s)ᵀ j i = if i = j then 1 else 0 := by
        by_cases hj : j = p
        · subst hj
          rw [col_p h]
          simp [hi, hi']
        · by_cases hj' : j = q
          · subst hj'
            rw [col_q h]
            simp [hi, hi']
          · rw [col_other hj hj', Pi.single_apply]
      exact this

theorem conj_pp (h : p ≠ q) (A : Mat N) :
    ((rot p q c s)ᵀ * A * rot p q c s) p p = c * c * A p p - c * s * A p q - s * c * A q p + s * s * A q q := by
  rw [conj_apply, col_p h]
  simp [mulVec_sub, Matrix.mulVec_single]
  ring

theorem conj_qq (h : p ≠ q) (A : Mat N) :
    ((rot p q c s)ᵀ * A * rot p q c s) q q = s * s * A p p + s * c * A p q + c * s * A q p + c * c * A q q := by
  rw [conj_apply, col_q h]
  simp [mulVec_add, Matrix.mulVec_single]
  ring

theorem conj_pq (h : p ≠ q) (A : Mat N) :
    ((rot p q c s)ᵀ * A * rot p q c s) p q = c * s * A p p + c * c * A p q - s * s * A q p - s * c * A q q := by
  rw [conj_apply, col_p h, col_q h]
  simp [mulVec_add, Matrix.mulVec_single]
  ring

theorem conj_other {i : Fin N} (h : i ≠ p) (h' : i ≠ q) (A : Mat N) :
    ((rot p q c s)ᵀ * A * rot p q c s) i i = A i i := by
  rw [conj_apply, col_other h h']
  simp [Matrix.mulVec_single]

/-- a rotation which annihilates the entry `p`, `q` diminishes the part outside of the diagonal -/
theorem off_rot {A : Mat N} (hA : Aᵀ = A) (h : p ≠ q) (hcs : c ^ 2 + s ^ 2 = 1)
    (h0 : c * s * (A p p - A q q) + (c ^ 2 - s ^ 2) * A p q = 0) :
    off ((rot p q c s)ᵀ * A * rot p q c s) ^ 2 = off A ^ 2 - 2 * A p q ^ 2 := by
  have hs : A q p = A p q := congrFun (congrFun hA p) q
  rw [off_sq, off_sq, fro_conj (rot_orthogonal h hcs)]
  have key : ∀ f : Fin N → ℝ, ∑ i, f i = f p + (f q + ∑ i ∈ (Finset.univ.erase p).erase q, f i) := fun f => by
    rw [Finset.add_sum_erase _ f (Finset.mem_erase.2 ⟨h.symm, Finset.mem_univ q⟩), Finset.add_sum_erase _ f (Finset.mem_univ p)]
  rw [key, key fun i => A i i ^ 2, conj_pp h, conj_qq h, hs]
  have e : ∑ i ∈ (Finset.univ.erase p).erase q, ((rot p q c s)ᵀ * A * rot p q c s) i i ^ 2 =
      ∑ i ∈ (Finset.univ.erase p).erase q, A i i ^ 2 := Finset.sum_congr rfl fun i hi => by
    rw [Finset.mem_erase, Finset.mem_erase] at hi
    rw [conj_other hi.2.1 hi.1]
  rw [e]
  -- the two by two block
  have h1 : (c * c * A p p - c * s * A p q - s * c * A p q + s * s * A q q) ^ 2 +
      (s * s * A p p + s * c * A p q + c * s * A p q + c * c * A q q) ^ 2 +
      2 * (c * s * (A p p - A q q) + (c ^ 2 - s ^ 2) * A p q) ^ 2 =
      (c ^ 2 + s ^ 2) ^ 2 * (A p p ^ 2 + A q q ^ 2 + 2 * A p q ^ 2) := by ring
  rw [h0, hcs] at h1
  linarith

/-- the largest entry -/
theorem off_le_pivot {A : Mat N} (hA : Aᵀ = A) {x : ℝ} (hx : 0 ≤ x) (h : ∀ i j, i < j → |A i j| ≤ x) : off A ≤ N * x := by
  refine fro_le hx fun i j => ?_
  rcases lt_trichotomy i j with hij | hij | hij
  · rw [Matrix.sub_apply, diagonal_apply_ne _ hij.ne, sub_zero]
    exact h i j hij
  · subst hij
    simpa using hx
  · rw [Matrix.sub_apply, diagonal_apply_ne _ hij.ne', sub_zero, ← hA]
    exact h j i hij

/-- the factor by which a rotation diminishes the part outside of the diagonal -/
noncomputable def shrink (N : ℕ) : ℝ := 1 - 1 / (N : ℝ) ^ 2

theorem off_step {A : Mat N} (hA : Aᵀ = A) (h : p ≠ q) (hcs : c ^ 2 + s ^ 2 = 1)
    (h0 : c * s * (A p p - A q q) + (c ^ 2 - s ^ 2) * A p q = 0) (hp : ∀ i j, i < j → |A i j| ≤ |A p q|) :
    off ((rot p q c s)ᵀ * A * rot p q c s) ≤ shrink N * off A := by
  have hN : (1 : ℝ) ≤ N := by
    have := p.pos
    exact_mod_cast this
  have h1 : 1 / (N : ℝ) ^ 2 ≤ 1 := by
    rw [div_le_one (by positivity)]
    exact one_le_pow₀ hN
  refine le_of_sq_le_sq ?_ (mul_nonneg (by
    unfold shrink
    linarith) (off_nonneg A))
  rw [off_rot hA h hcs h0]
  have h2 := off_le_pivot hA (abs_nonneg _) hp
  have h3 : off A ^ 2 ≤ N ^ 2 * A p q ^ 2 := by
    rw [← sq_abs (A p q), ← mul_pow]
    exact pow_le_pow_left₀ (off_nonneg A) h2 2
  have h4 : off A ^ 2 * (1 / (N : ℝ) ^ 2) ≤ A p q ^ 2 := by
    rw [mul_one_div, div_le_iff₀ (by positivity)]
    linarith
  unfold shrink
  have h5 : 0 ≤ (off A * (1 / (N : ℝ) ^ 2)) ^ 2 := sq_nonneg _
  nlinarith

theorem shrink_nonneg (N : ℕ) : 0 ≤ shrink N := by
  unfold shrink
  rcases Nat.eq_zero_or_pos N with h | h
  · subst h
    simp
  · have hN : (1 : ℝ) ≤ N := by exact_mod_cast h
    have : 1 / (N : ℝ) ^ 2 ≤ 1 := by
      rw [div_le_one (by positivity)]
      exact one_le_pow₀ hN
    linarith

theorem shrink_lt_one {N : ℕ} (h : 0 < N) : shrink N < 1 := by
  have hN : (0 : ℝ) < N := by exact_mod_cast h
  have : 0 < 1 / (N : ℝ) ^ 2 := by positivity
  unfold shrink
  linarith

/-! ## The position of the largest entry -/

theorem mem_above {x : Fin N × Fin N} : x ∈ above N ↔ x.1 < x.2 := by
  have : x ∈ List.finRange N ×ˢ List.finRange N := List.mem_product.2 ⟨List.mem_finRange _, List.mem_finRange _⟩
  simp [above, this]

theorem pivot_some {A : Mat N} {x : Fin N × Fin N} (h : pivot A = some x) : x.1 < x.2 ∧ ∀ i j, i < j → |A i j| ≤ |A x.1 x.2| :=
  ⟨mem_above.1 (List.argmax_mem h), fun i j hij => List.le_of_mem_argmax (f := fun x : Fin N × Fin N => |A x.1 x.2|) (a := (i, j))
    (mem_above.2 hij) h⟩

theorem pivot_none {A : Mat N} (h : pivot A = none) (i j : Fin N) : ¬ i < j := fun hij => by
  have := List.argmax_eq_none.1 h
  have h' : (i, j) ∈ above N := mem_above.2 hij
  rw [this] at h'
  exact absurd h' (List.not_mem_nil)

/-! ## The rotation of the matrix -/

/-- operations without rounding -/
noncomputable def exact : FlOps where
  add := (· + ·)
  sub := (· - ·)
  mul := (· * ·)
  div := (· / ·)
  log := Real.log
  sqrt := Real.sqrt

theorem schur2_exact (app aqq apq : ℝ) : let x := schur2 exact app aqq apq
    x.1 ^ 2 + x.2 ^ 2 = 1 ∧ x.1 * x.2 * (app - aqq) + (x.1 ^ 2 - x.2 ^ 2) * apq = 0 := by
  intro x
  by_cases h : apq = 0
  · have : x = (1, 0) := by
      simp only [x, schur2, if_pos h]
    rw [this, h]
    norm_num
  · set τ : ℝ := (aqq - app) / (2 * apq) with hτ
    set t : ℝ := if 0 ≤ τ then 1 / (τ + Real.sqrt (1 + τ * τ)) else 1 / (τ - Real.sqrt (1 + τ * τ)) with ht
    have hx : x = (1 / Real.sqrt (1 + t * t), t * (1 / Real.sqrt (1 + t * t))) := by
      simp only [x, schur2, if_neg h, exact, ← hτ, ← ht]
    have hsq : Real.sqrt (1 + τ * τ) ^ 2 = 1 + τ * τ := Real.sq_sqrt (by nlinarith [mul_self_nonneg τ])
    have hpos : 1 ≤ Real.sqrt (1 + τ * τ) := by
      rw [Real.one_le_sqrt]
      nlinarith [mul_self_nonneg τ]
    have htt : t ^ 2 + 2 * τ * t - 1 = 0 := by
      rw [ht]
      clear_value τ
      generalize Real.sqrt (1 + τ * τ) = r at *
      split
      · have : τ + r ≠ 0 := by linarith
        field_simp
        linear_combination (-1 : ℝ) * hsq
      · have : τ - r ≠ 0 := by linarith
        field_simp
        linear_combination (-1 : ℝ) * hsq
    have hr : Real.sqrt (1 + t * t) ^ 2 = 1 + t * t := Real.sq_sqrt (by nlinarith [mul_self_nonneg t])
    have hr0 : Real.sqrt (1 + t * t) ≠ 0 := by
      have : 1 ≤ Real.sqrt (1 + t * t) := by
        rw [Real.one_le_sqrt]
        nlinarith [mul_self_nonneg t]
      linarith
    have e : aqq - app = 2 * apq * τ := by
      rw [hτ]
      field_simp
    have e' : app - aqq = -(2 * apq * τ) := by linarith
    rw [hx, e']
    clear_value τ t
    generalize Real.sqrt (1 + t * t) = r at *
    constructor
    · field_simp
      linarith
    · field_simp
      linear_combination (-apq) * htt

end Verif.Reference
