import Verif.Props.Trotter
import Mathlib.Analysis.Matrix.Order

/-! # Traces with two operators between powers of a step, as scalar products -/

set_option autoImplicit false

namespace Verif.Trotter

open Matrix Verif.Fock

variable {m : Type} [Fintype m] [DecidableEq m]

open scoped MatrixOrder in
/-- square root -/
theorem exists_root {S : Matrix m m ℝ} (hS : S.PosDef) : ∃ R : Matrix m m ℝ, Rᵀ = R ∧ R * R = S := by
  refine ⟨CFC.sqrt S, ?_, CFC.sqrt_mul_sqrt_self S hS.posSemidef.nonneg⟩
  have := (CFC.sqrt_nonneg S).posSemidef.isHermitian
  rwa [IsHermitian, conjTranspose_eq_transpose_of_trivial] at this

/-- operators which commute with one factor of the steps, between powers of the steps -/
theorem exists_gram {A h : Matrix m m ℝ} (hA : A.IsSymm) (hh : h.IsSymm) : ∃ R : Matrix m m ℝ, Rᵀ = R ∧
    ∀ (a c : ℕ) (X Y : Matrix m m ℝ), Commute h X → Commute h Y →
      ((NormedSpace.exp (h + h) * NormedSpace.exp A) ^ a * X * (NormedSpace.exp (h + h) * NormedSpace.exp A) ^ c * Y).trace
        = (R ^ (2 * a) * X * R ^ (2 * c) * Y).trace := by
  have hsymm : (NormedSpace.exp h)ᴴ = NormedSpace.exp h := by
    rw [← Matrix.exp_conjTranspose, Matrix.conjTranspose_eq_transpose_of_trivial, hh.eq]
  have hpos : (NormedSpace.exp h * NormedSpace.exp A * NormedSpace.exp h).PosDef := by
    have := (exp_posDef hA).conjTranspose_mul_mul_same (B := NormedSpace.exp h)
      (Matrix.mulVec_injective_of_isUnit (Matrix.isUnit_exp _))
    rwa [hsymm] at this
  obtain ⟨R, hR, hS⟩ := exists_root hpos
  refine ⟨R, hR, fun a c X Y hX hY => ?_⟩
  have hp : ∀ k, R ^ (2 * k) = (NormedSpace.exp h * NormedSpace.exp A * NormedSpace.exp h) ^ k := fun k => by
    rw [pow_mul, pow_two, hS]
  have h3 : NormedSpace.exp (-h) * NormedSpace.exp h = 1 := by
    rw [← Matrix.exp_add_of_commute _ _ (Commute.refl h).neg_left, neg_add_cancel, NormedSpace.exp_zero]
  have hc : ∀ X : Matrix m m ℝ, Commute h X → NormedSpace.exp (-h) * X * NormedSpace.exp h = X := by
    intro X hX
    have : Commute X (NormedSpace.exp h) := hX.symm.exp_right
    rw [mul_assoc, this.eq, ← mul_assoc, h3, one_mul]
  rw [pow_symmetrise, pow_symmetrise, hp, hp]
  set S := NormedSpace.exp h * NormedSpace.exp A * NormedSpace.exp h
  have e : NormedSpace.exp h * S ^ a * NormedSpace.exp (-h) * X * (NormedSpace.exp h * S ^ c * NormedSpace.exp (-h)) * Y
      = NormedSpace.exp h * (S ^ a * (NormedSpace.exp (-h) * X * NormedSpace.exp h) * S ^ c * NormedSpace.exp (-h) * Y) := by
    simp only [mul_assoc]
  rw [e, trace_mul_comm, hc X hX]
  have e' : S ^ a * X * S ^ c * NormedSpace.exp (-h) * Y * NormedSpace.exp h
      = S ^ a * X * S ^ c * (NormedSpace.exp (-h) * Y * NormedSpace.exp h) := by simp only [mul_assoc]
  rw [e', hc Y hY]

variable {R : Matrix m m ℝ} (hR : Rᵀ = R)
include hR

/-- the trace as scalar product -/
theorem trace_scalar (a a' c c' : ℕ) (X Y : Matrix m m ℝ) : (R ^ (a + a') * X * R ^ (c + c') * Yᵀ).trace
    = ∑ i, ∑ j, (R ^ a' * X * R ^ c) i j * (R ^ a * Y * R ^ c') i j := by
  have e : R ^ (a + a') * X * R ^ (c + c') * Yᵀ = R ^ a * (R ^ a' * X * R ^ c * (R ^ c' * Yᵀ)) := by
    rw [pow_add, pow_add]
    simp only [mul_assoc]
  have e' : R ^ a' * X * R ^ c * (R ^ c' * Yᵀ) * R ^ a = R ^ a' * X * R ^ c * (R ^ a * Y * R ^ c')ᵀ := by
    rw [transpose_mul, transpose_mul, transpose_pow, transpose_pow, hR]
    simp only [mul_assoc]
  rw [e, trace_mul_comm, e', trace]
  simp only [diag_apply, mul_apply (M := R ^ a' * X * R ^ c), transpose_apply]

theorem scalar_nonneg (a c : ℕ) (X : Matrix m m ℝ) : 0 ≤ (R ^ (2 * a) * X * R ^ (2 * c) * Xᵀ).trace := by
  rw [two_mul, two_mul, trace_scalar hR]
  exact Finset.sum_nonneg fun i _ => Finset.sum_nonneg fun j _ => mul_self_nonneg _

/-- the logarithm of a sum of traces is convex -/
theorem scalar_convex {ι : Type} (I : Finset ι) (a c : ℕ) (X : ι → Matrix m m ℝ) :
    (∑ t ∈ I, (R ^ (2 * (a + 1)) * X t * R ^ (2 * (c + 1)) * (X t)ᵀ).trace) ^ 2
      ≤ (∑ t ∈ I, (R ^ (2 * (a + 2)) * X t * R ^ (2 * c) * (X t)ᵀ).trace)
        * ∑ t ∈ I, (R ^ (2 * a) * X t * R ^ (2 * (c + 2)) * (X t)ᵀ).trace := by
  have e1 : ∀ t, (R ^ (2 * (a + 1)) * X t * R ^ (2 * (c + 1)) * (X t)ᵀ).trace
      = ∑ k : m × m, (R ^ (a + 2) * X t * R ^ c) k.1 k.2 * (R ^ a * X t * R ^ (c + 2)) k.1 k.2 := fun t => by
    rw [show 2 * (a + 1) = a + (a + 2) by ring, show 2 * (c + 1) = c + (c + 2) by ring, trace_scalar hR, Fintype.sum_prod_type]
  have e2 : ∀ (a c : ℕ) t, (R ^ (2 * a) * X t * R ^ (2 * c) * (X t)ᵀ).trace
      = ∑ k : m × m, (R ^ a * X t * R ^ c) k.1 k.2 ^ 2 := fun a c t => by
    rw [two_mul, two_mul, trace_scalar hR, Fintype.sum_prod_type]
    simp only [sq]
  simp only [e1, e2]
  rw [← Finset.sum_product', ← Finset.sum_product', ← Finset.sum_product']
  exact Finset.sum_mul_sq_le_sq_mul_sq _ _ _

omit [Fintype m] [DecidableEq m] hR in
/-- a sequence which is convex and symmetric decreases up to the middle -/
theorem decreasing {f : ℕ → ℝ} {L : ℕ} (hc : ∀ l, l + 2 ≤ L → 2 * f (l + 1) ≤ f l + f (l + 2))
    (hs : ∀ l ≤ L, f (L - l) = f l) {l : ℕ} (hl : 2 * l + 1 ≤ L) : f (l + 1) ≤ f l := by
  have hd : ∀ k l, l + k + 1 ≤ L → f (l + 1) - f l ≤ f (l + k + 1) - f (l + k) := by
    intro k
    induction k with
    | zero => exact fun l _ => le_rfl
    | succ k ih =>
      intro l h
      have h1 := ih l (by omega)
      have h2 := hc (l + k) (by omega)
      have e : l + (k + 1) = l + k + 1 := rfl
      rw [e]
      linarith
  have h := hd (L - 1 - 2 * l) l (by omega)
  have e1 : l + (L - 1 - 2 * l) + 1 = L - l := by omega
  have e2 : l + (L - 1 - 2 * l) = L - (l + 1) := by omega
  rw [e1, e2, hs l (by omega), hs (l + 1) (by omega)] at h
  linarith

end Verif.Trotter
