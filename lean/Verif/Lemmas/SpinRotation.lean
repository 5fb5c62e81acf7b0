import Verif.Props.Hubbard
import Mathlib.Analysis.SpecialFunctions.Trigonometric.Basic

/-!
# Rotations of the spin

A rotation of the spin by the angle `2 θ` about the y axis has real matrix elements.  It acts on the Fock space by
conjugation with `gamma` of its matrix.
-/

set_option autoImplicit false

namespace Verif.Fock

open Matrix Verif.Lapack Verif.TimeFlow Verif.Measurement

variable {N : ℕ}

/-- matrix of the rotation: it acts in the same way on all sites -/
noncomputable def spinRot (N : ℕ) (θ : ℝ) : Matrix (Mode N) (Mode N) ℝ := Matrix.of fun a b =>
  if a.1 = b.1 then
    match a.2, b.2 with
    | true, true => Real.cos θ
    | false, true => Real.sin θ
    | true, false => -Real.sin θ
    | false, false => Real.cos θ
  else 0

/-- rotated operator -/
noncomputable def turn (θ : ℝ) (X : Op (Mode N)) : Op (Mode N) := gamma (spinRot N θ) * X * gamma (spinRot N θ)ᵀ

theorem sum_modes (f : Mode N → ℝ) (i : Fin N) (hf : ∀ j s, j ≠ i → f (j, s) = 0) :
    ∑ a, f a = f (i, true) + f (i, false) := by
  rw [Fintype.sum_prod_type, Finset.sum_eq_single i]
  · exact Fintype.sum_bool _
  · intro j _ h
    exact Finset.sum_eq_zero fun s _ => hf j s h
  · exact fun h => absurd (Finset.mem_univ _) h

theorem spinRot_mul_transpose (θ : ℝ) : spinRot N θ * (spinRot N θ)ᵀ = 1 := by
  ext ⟨i, s⟩ ⟨j, t⟩
  rw [Matrix.mul_apply, sum_modes _ i (fun k u h => by simp [spinRot, h.symm])]
  have h := Real.cos_sq_add_sin_sq θ
  by_cases hij : i = j
  · subst hij
    cases s <;> cases t <;> simp [spinRot] <;> linarith
  · cases s <;> cases t <;> simp [spinRot, hij, Ne.symm hij]

theorem spinRot_transpose_mul (θ : ℝ) : (spinRot N θ)ᵀ * spinRot N θ = 1 :=
  mul_eq_one_comm.1 (spinRot_mul_transpose θ)

theorem gamma_rot_mul (θ : ℝ) : gamma (spinRot N θ) * gamma (spinRot N θ)ᵀ = 1 := by
  rw [← gamma_mul, spinRot_mul_transpose, gamma_one]

theorem gamma_mul_rot (θ : ℝ) : gamma (spinRot N θ)ᵀ * gamma (spinRot N θ) = 1 := by
  rw [← gamma_mul, spinRot_transpose_mul, gamma_one]

theorem turn_one (θ : ℝ) : turn θ (1 : Op (Mode N)) = 1 := by rw [turn, mul_one, gamma_rot_mul]

theorem turn_mul (θ : ℝ) (X Y : Op (Mode N)) : turn θ (X * Y) = turn θ X * turn θ Y := by
  have h : turn θ X * turn θ Y = gamma (spinRot N θ) * X * (gamma (spinRot N θ)ᵀ * gamma (spinRot N θ)) * Y
      * gamma (spinRot N θ)ᵀ := by
    unfold turn
    noncomm_ring
  rw [h, gamma_mul_rot, mul_one, turn]
  noncomm_ring

theorem turn_add (θ : ℝ) (X Y : Op (Mode N)) : turn θ (X + Y) = turn θ X + turn θ Y := by
  unfold turn
  rw [mul_add, add_mul]

theorem turn_sub (θ : ℝ) (X Y : Op (Mode N)) : turn θ (X - Y) = turn θ X - turn θ Y := by
  unfold turn
  rw [mul_sub, sub_mul]

theorem turn_smul (θ r : ℝ) (X : Op (Mode N)) : turn θ (r • X) = r • turn θ X := by
  unfold turn
  rw [Matrix.mul_smul, Matrix.smul_mul]

theorem turn_sum {α : Type} (θ : ℝ) (s : Finset α) (X : α → Op (Mode N)) : turn θ (∑ a ∈ s, X a) = ∑ a ∈ s, turn θ (X a) := by
  unfold turn
  rw [Finset.mul_sum, Finset.sum_mul]

theorem sum_modes_op (f : Mode N → Op (Mode N)) (i : Fin N) (hf : ∀ j s, j ≠ i → f (j, s) = 0) :
    ∑ a, f a = f (i, true) + f (i, false) := by
  rw [Fintype.sum_prod_type, Finset.sum_eq_single i]
  · exact Fintype.sum_bool _
  · intro j _ h
    exact Finset.sum_eq_zero fun s _ => hf j s h
  · exact fun h => absurd (Finset.mem_univ _) h

theorem turn_cre (θ : ℝ) (a : Mode N) : turn θ (cre a) = ∑ b, spinRot N θ b a • cre b := by
  rw [turn, gamma_cre, Finset.sum_mul]
  refine Finset.sum_congr rfl fun b _ => ?_
  rw [Matrix.smul_mul, mul_assoc, gamma_rot_mul, mul_one]

theorem turn_ann (θ : ℝ) (a : Mode N) : turn θ (ann a) = ∑ b, spinRot N θ b a • ann b := by
  rw [turn, mul_assoc, ann_gamma, Finset.mul_sum]
  refine Finset.sum_congr rfl fun b _ => ?_
  rw [Matrix.mul_smul, ← mul_assoc, gamma_rot_mul, one_mul, Matrix.transpose_apply]

theorem turn_cre_up (θ : ℝ) (i : Fin N) :
    turn θ (cre (i, true)) = Real.cos θ • cre (i, true) + Real.sin θ • cre (i, false) := by
  rw [turn_cre, sum_modes_op _ i (fun j s h => by simp [spinRot, h])]
  simp [spinRot]

theorem turn_cre_down (θ : ℝ) (i : Fin N) :
    turn θ (cre (i, false)) = -Real.sin θ • cre (i, true) + Real.cos θ • cre (i, false) := by
  rw [turn_cre, sum_modes_op _ i (fun j s h => by simp [spinRot, h])]
  simp [spinRot]

theorem turn_ann_up (θ : ℝ) (i : Fin N) :
    turn θ (ann (i, true)) = Real.cos θ • ann (i, true) + Real.sin θ • ann (i, false) := by
  rw [turn_ann, sum_modes_op _ i (fun j s h => by simp [spinRot, h])]
  simp [spinRot]

theorem turn_ann_down (θ : ℝ) (i : Fin N) :
    turn θ (ann (i, false)) = -Real.sin θ • ann (i, true) + Real.cos θ • ann (i, false) := by
  rw [turn_ann, sum_modes_op _ i (fun j s h => by simp [spinRot, h])]
  simp [spinRot]

/-! ## The Hamiltonian does not change -/

theorem cre_sq (a : Mode N) : cre a * cre a = (0 : Op (Mode N)) := by
  have h := cre_anti a a
  rwa [← two_smul ℝ, smul_eq_zero_iff_right (two_ne_zero)] at h

theorem ann_sq (a : Mode N) : ann a * ann a = (0 : Op (Mode N)) := by
  have h := ann_anti a a
  rwa [← two_smul ℝ, smul_eq_zero_iff_right (two_ne_zero)] at h

theorem turn_cre_pair (θ : ℝ) (i : Fin N) : turn θ (cre (i, true) * cre (i, false)) = cre (i, true) * cre (i, false) := by
  rw [turn_mul, turn_cre_up, turn_cre_down]
  have e : (Real.cos θ • cre (i, true) + Real.sin θ • cre (i, false))
        * (-Real.sin θ • cre (i, true) + Real.cos θ • cre (i, false))
      = (Real.cos θ * -Real.sin θ) • (cre (i, true) * cre (i, true))
        + (Real.cos θ * Real.cos θ) • (cre (i, true) * cre (i, false))
        + (Real.sin θ * -Real.sin θ) • (cre (i, false) * cre (i, true))
        + (Real.sin θ * Real.cos θ) • (cre (i, false) * cre (i, false)) := by
    simp only [add_mul, mul_add, Matrix.smul_mul, Matrix.mul_smul, smul_smul]
    module
  have hs : cre (i, false) * cre (i, true) = -(cre (i, true) * cre (i, false)) := eq_neg_of_add_eq_zero_left (cre_anti _ _)
  rw [e, cre_sq, cre_sq, hs]
  have h := Real.cos_sq_add_sin_sq θ
  calc _ = (Real.cos θ ^ 2 + Real.sin θ ^ 2) • (cre (i, true) * cre (i, false)) := by module
    _ = _ := by rw [h, one_smul]

theorem turn_ann_pair (θ : ℝ) (i : Fin N) : turn θ (ann (i, false) * ann (i, true)) = ann (i, false) * ann (i, true) := by
  rw [turn_mul, turn_ann_up, turn_ann_down]
  have e : (-Real.sin θ • ann (i, true) + Real.cos θ • ann (i, false))
        * (Real.cos θ • ann (i, true) + Real.sin θ • ann (i, false))
      = (-Real.sin θ * Real.cos θ) • (ann (i, true) * ann (i, true))
        + (-Real.sin θ * Real.sin θ) • (ann (i, true) * ann (i, false))
        + (Real.cos θ * Real.cos θ) • (ann (i, false) * ann (i, true))
        + (Real.cos θ * Real.sin θ) • (ann (i, false) * ann (i, false)) := by
    simp only [add_mul, mul_add, Matrix.smul_mul, Matrix.mul_smul, smul_smul]
    module
  have hs : ann (i, true) * ann (i, false) = -(ann (i, false) * ann (i, true)) := eq_neg_of_add_eq_zero_left (ann_anti _ _)
  rw [e, ann_sq, ann_sq, hs]
  have h := Real.cos_sq_add_sin_sq θ
  calc _ = (Real.cos θ ^ 2 + Real.sin θ ^ 2) • (ann (i, false) * ann (i, true)) := by module
    _ = _ := by rw [h, one_smul]

theorem num_mul_num (i : Fin N) : num (i, true) * num (i, false)
    = (cre (i, true) * cre (i, false)) * (ann (i, false) * ann (i, true)) := by
  have h : ann (i, true) * cre (i, false) = -(cre (i, false) * ann (i, true)) :=
    eq_neg_of_add_eq_zero_left ((ann_cre _ _).trans (if_neg (by simp)))
  have h' : ann (i, true) * ann (i, false) = -(ann (i, false) * ann (i, true)) := eq_neg_of_add_eq_zero_left (ann_anti _ _)
  rw [num_eq, num_eq]
  calc cre (i, true) * ann (i, true) * (cre (i, false) * ann (i, false))
      = cre (i, true) * (ann (i, true) * cre (i, false)) * ann (i, false) := by noncomm_ring
    _ = -(cre (i, true) * cre (i, false) * (ann (i, true) * ann (i, false))) := by rw [h]; noncomm_ring
    _ = _ := by rw [h']; noncomm_ring

theorem turn_num_up (θ : ℝ) (i : Fin N) : turn θ (num (i, true))
    = Real.cos θ ^ 2 • num (i, true) + Real.sin θ ^ 2 • num (i, false)
      + (Real.sin θ * Real.cos θ) • (cre (i, false) * ann (i, true) + cre (i, true) * ann (i, false)) := by
  rw [num_eq, turn_mul, turn_cre_up, turn_ann_up, num_eq]
  simp only [add_mul, mul_add, Matrix.smul_mul, Matrix.mul_smul, smul_smul]
  module

theorem turn_num_down (θ : ℝ) (i : Fin N) : turn θ (num (i, false))
    = Real.sin θ ^ 2 • num (i, true) + Real.cos θ ^ 2 • num (i, false)
      - (Real.sin θ * Real.cos θ) • (cre (i, false) * ann (i, true) + cre (i, true) * ann (i, false)) := by
  rw [num_eq, turn_mul, turn_cre_down, turn_ann_down, num_eq]
  simp only [add_mul, mul_add, Matrix.smul_mul, Matrix.mul_smul, smul_smul]
  module

/-- the number of electrons on a site -/
theorem turn_total (θ : ℝ) (i : Fin N) : turn θ (num (i, true) + num (i, false)) = num (i, true) + num (i, false) := by
  rw [turn_add, turn_num_up, turn_num_down]
  have h := Real.cos_sq_add_sin_sq θ
  calc _ = (Real.cos θ ^ 2 + Real.sin θ ^ 2) • (num (i, true) + num (i, false)) := by module
    _ = _ := by rw [h, one_smul]

theorem turn_double (θ : ℝ) (i : Fin N) : turn θ (num (i, true) * num (i, false)) = num (i, true) * num (i, false) := by
  rw [num_mul_num, turn_mul, turn_cre_pair, turn_ann_pair]

theorem turn_potOp (θ : ℝ) (v : Fin N → ℝ) : turn θ (potOp v) = potOp v := by
  unfold potOp
  rw [turn_sum]
  exact Finset.sum_congr rfl fun i _ => by rw [turn_smul, turn_total]

theorem turn_repOp (θ : ℝ) (U : Fin N → ℝ) : turn θ (repOp U) = repOp U := by
  unfold repOp
  rw [turn_sum]
  refine Finset.sum_congr rfl fun i _ => ?_
  have e : (num (i, true) - (1 / 2 : ℝ) • (1 : Op (Mode N))) * (num (i, false) - (1 / 2 : ℝ) • 1)
      = num (i, true) * num (i, false) - (1 / 2 : ℝ) • (num (i, true) + num (i, false)) + (1 / 4 : ℝ) • 1 := by
    simp only [sub_mul, mul_sub, Matrix.smul_mul, Matrix.mul_smul, smul_smul, mul_one, one_mul]
    module
  rw [turn_smul, e, turn_add, turn_sub, turn_smul, turn_smul, turn_total, turn_double, turn_one]

theorem turn_fixed_iff (θ : ℝ) (X : Op (Mode N)) : turn θ X = X ↔ Commute (gamma (spinRot N θ)) X := by
  unfold turn Commute SemiconjBy
  constructor
  · intro h
    calc gamma (spinRot N θ) * X = gamma (spinRot N θ) * X * (gamma (spinRot N θ)ᵀ * gamma (spinRot N θ)) := by
          rw [gamma_mul_rot, mul_one]
      _ = gamma (spinRot N θ) * X * gamma (spinRot N θ)ᵀ * gamma (spinRot N θ) := by noncomm_ring
      _ = _ := by rw [h]
  · intro h
    rw [h, mul_assoc, gamma_rot_mul, mul_one]

theorem commute_hopOp (θ : ℝ) (K : Mat N) : Commute (gamma (spinRot N θ)) (hopOp K) := by
  rw [← turn_fixed_iff]
  have e : ∀ s : Bool, ∀ i j : Fin N, turn θ (cre (i, s) * ann (j, s)) = turn θ (cre (i, s)) * turn θ (ann (j, s)) :=
    fun _ _ _ => turn_mul _ _ _
  unfold hopOp
  simp only [turn_sum, turn_add, turn_smul, e, Fintype.sum_bool, turn_cre_up, turn_cre_down, turn_ann_up, turn_ann_down]
  rw [← Finset.sum_add_distrib, ← Finset.sum_add_distrib]
  refine Finset.sum_congr rfl fun i _ => ?_
  rw [← Finset.sum_add_distrib, ← Finset.sum_add_distrib]
  refine Finset.sum_congr rfl fun j _ => ?_
  rw [← smul_add, ← smul_add]
  congr 1
  have h := Real.cos_sq_add_sin_sq θ
  simp only [add_mul, mul_add, Matrix.smul_mul, Matrix.mul_smul, smul_smul]
  calc _ = (Real.cos θ ^ 2 + Real.sin θ ^ 2) • (cre (i, true) * ann (j, true) + cre (i, false) * ann (j, false)) := by module
    _ = _ := by rw [h, one_smul]

theorem commute_repOp (θ : ℝ) (U : Fin N → ℝ) : Commute (gamma (spinRot N θ)) (repOp U) :=
  (turn_fixed_iff θ _).1 (turn_repOp θ U)

theorem commute_potOp (θ : ℝ) (v : Fin N → ℝ) : Commute (gamma (spinRot N θ)) (potOp v) :=
  (turn_fixed_iff θ _).1 (turn_potOp θ v)

theorem commute_exp {m : Type} [Fintype m] [DecidableEq m] {A X : Matrix m m ℝ} (h : Commute A X) (r : ℝ) :
    Commute A (NormedSpace.exp (r • X)) :=
  (h.smul_right r).exp_right

theorem commute_stepOp (θ : ℝ) (K : Mat N) (U : Fin N → ℝ) (dt : ℝ) (v : Fin N → ℝ) :
    Commute (gamma (spinRot N θ)) (stepOp K U dt v) :=
  ((commute_exp (commute_repOp θ U) _).mul_right (commute_exp (commute_potOp θ v) _)).mul_right
    (commute_exp (commute_hopOp θ K) _)

theorem commute_oprod {m : Type} [Fintype m] [DecidableEq m] {A : Matrix m m ℝ} {t : ℕ → Matrix m m ℝ}
    (h : ∀ l, Commute A (t l)) (k : ℕ) : Commute A (oprod t k) := by
  induction k with
  | zero => exact Commute.one_right A
  | succ k ih => exact (h k).mul_right ih

/-- the trace with operators which commute with the rotation does not change if the other ones are rotated -/
theorem trace_turn (θ : ℝ) {V W : Op (Mode N)} (hV : Commute (gamma (spinRot N θ)) V) (hW : Commute (gamma (spinRot N θ)) W)
    (X Y : Op (Mode N)) : (V * turn θ X * W * turn θ Y).trace = (V * X * W * Y).trace := by
  have hV' := (turn_fixed_iff θ V).2 hV
  have hW' := (turn_fixed_iff θ W).2 hW
  have e : V * turn θ X * W * turn θ Y = turn θ (V * X * W * Y) := by
    rw [turn_mul, turn_mul, turn_mul, hV', hW']
  rw [e, turn, Matrix.trace_mul_comm, ← mul_assoc, gamma_mul_rot, one_mul]

/-! ## Special angles -/

theorem turn_z (i : Fin N) : turn (Real.pi / 4) (num (i, true) - num (i, false))
    = cre (i, false) * ann (i, true) + cre (i, true) * ann (i, false) := by
  rw [turn_sub, turn_num_up, turn_num_down, Real.cos_pi_div_four, Real.sin_pi_div_four]
  have h : (√2 / 2 * (√2 / 2) : ℝ) = 1 / 2 := by
    have := Real.mul_self_sqrt (show (0 : ℝ) ≤ 2 by norm_num)
    linarith
  rw [pow_two, h]
  module

theorem turn_flip_up (i : Fin N) : turn (Real.pi / 2) (num (i, true)) = num (i, false) := by
  rw [turn_num_up, Real.cos_pi_div_two, Real.sin_pi_div_two]
  simp

theorem turn_flip_ann (i : Fin N) : turn (Real.pi / 2) (ann (i, true)) = ann (i, false) := by
  rw [turn_ann_up, Real.cos_pi_div_two, Real.sin_pi_div_two]
  simp

theorem turn_flip_cre (i : Fin N) : turn (Real.pi / 2) (cre (i, true)) = cre (i, false) := by
  rw [turn_cre_up, Real.cos_pi_div_two, Real.sin_pi_div_two]
  simp

end Verif.Fock
