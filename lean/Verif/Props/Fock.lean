import Verif.Lemmas.Wick
import Verif.Props.GreensUneq
import Mathlib.Data.Matrix.Block
import Mathlib.LinearAlgebra.Matrix.Block
import Mathlib.Data.Prod.Lex

/-! # Properties C62, C69, C70: the estimators are expectation values of fermion operators -/

set_option autoImplicit false

namespace Verif.Fock

open Matrix Verif.Lapack Verif.TimeFlow Verif.Greens Verif.GreensUneq Verif.Measurement

/-! ## C62: distribution of the occupation numbers -/

section occupation

variable {m : Type} [Fintype m] [LinearOrder m]

/-- weight of the set `S` of occupied modes: the principal minor -/
noncomputable def occWeight (A : Matrix m m ℝ) (S : Finset m) : ℝ :=
  (A.submatrix (fun i : S => i.1) (fun i : S => i.1)).det

theorem trace_diagonal_gamma (A : Matrix m m ℝ) (f : Finset m → ℝ) :
    (diagonal f * gamma A).trace = ∑ S, f S * occWeight A S := by
  rw [Matrix.trace]
  exact Finset.sum_congr rfl fun S _ => by
    rw [Matrix.diag_apply, Matrix.diagonal_mul, gamma_diag]; rfl

/-- C62: the weights add up to `det(1 + A)`; a mode is occupied with weight `1 - G_ii`, and two modes
with the weight of the two-point formula (which for `i = j` is again `1 - G_ii`). -/
theorem occupation_numbers (A : Matrix m m ℝ) :
    ∑ S, occWeight A S = (1 + A).det ∧
    ((1 + A).det ≠ 0 → ∀ i j : m,
      (∑ S with i ∈ S, occWeight A S) / (1 + A).det = 1 - (1 + A)⁻¹ i i ∧
      (∑ S with i ∈ S ∧ j ∈ S, occWeight A S) / (1 + A).det
        = (1 - (1 + A)⁻¹ i i) * (1 - (1 + A)⁻¹ j j)
          + ((if i = j then 1 else 0) - (1 + A)⁻¹ j i) * (1 + A)⁻¹ i j) := by
  refine ⟨?_, fun h i j => ⟨?_, ?_⟩⟩
  · rw [← trace_gamma]
    exact Finset.sum_congr rfl fun S _ => (gamma_diag A S).symm
  · have h1 := wick_dens A h i i
    rw [← num_eq, num, trace_diagonal_gamma] at h1
    rw [div_eq_iff h, mul_comm, Finset.sum_filter]
    rw [if_pos rfl] at h1
    rw [← h1]
    exact Finset.sum_congr rfl fun S _ => by split <;> simp
  · have h1 := four_trace (1 : Matrix m m ℝ) A (by rwa [mul_one]) i i j j
    rw [← num_eq, ← num_eq, gamma_one, mul_one, mul_assoc, Matrix.trace_mul_comm, num, num,
      Matrix.diagonal_mul_diagonal, trace_diagonal_gamma] at h1
    simp only [mul_one, one_mul, if_true] at h1
    rw [div_eq_iff h, mul_comm, Finset.sum_filter]
    have e : (∑ S, (if i ∈ S then (1 : ℝ) else 0) * (if j ∈ S then 1 else 0) * occWeight A S)
        = ∑ S, if i ∈ S ∧ j ∈ S then occWeight A S else 0 := by
      refine Finset.sum_congr rfl fun S _ => ?_
      by_cases h1 : i ∈ S <;> by_cases h2 : j ∈ S <;> simp [h1, h2]
    rw [← e, h1]
    have e2 : ((1 + A)⁻¹ * A) j i = (if i = j then 1 else 0) - (1 + A)⁻¹ j i := by
      have := Matrix.nonsing_inv_mul (1 + A) (isUnit_iff_ne_zero.2 h)
      rw [Matrix.mul_add, mul_one] at this
      rw [eq_sub_of_add_eq' this, Matrix.sub_apply, Matrix.one_apply]
      simp only [eq_comm]
    rw [e2]

/-- non-vacuity: a matrix with two modes and `det(1 + A) ≠ 0` -/
example : (1 + (!![1, 2; 3, 4] : Matrix (Fin 2) (Fin 2) ℝ)).det ≠ 0 := by
  rw [Matrix.det_fin_two]
  norm_num [Matrix.add_apply]

end occupation

/-! ## Operators of both spins -/

variable {N : ℕ}

/-- modes are ordered by site, then by spin -/
instance : LinearOrder (Mode N) :=
  { LinearOrder.lift' (fun x : Mode N => toLex x) toLex.injective with
    toDecidableEq := instDecidableEqProd
    compare_eq_compareOfLessAndEq := fun a b => by
      refine (LinearOrder.compare_eq_compareOfLessAndEq (self := LinearOrder.lift' (fun x : Mode N => toLex x)
        toLex.injective) a b).trans ?_
      congr 1 }

/-- the matrix which acts by `U` on spin up and by `D` on spin down -/
def both (U D : Mat N) : Matrix (Mode N) (Mode N) ℝ := Matrix.of (spinG U D)

theorem both_eq (U D : Mat N) : both U D = blockDiagonal fun s : Bool => if s then U else D := by
  ext a b
  rw [both, Matrix.of_apply, spinG, blockDiagonal_apply]
  split
  · split <;> rfl
  · rfl

theorem both_mul (U D U' D' : Mat N) : both U D * both U' D' = both (U * U') (D * D') := by
  rw [both_eq, both_eq, both_eq, ← blockDiagonal_mul]
  congr 1
  funext s
  cases s <;> rfl

theorem both_one : both (1 : Mat N) 1 = 1 := by
  rw [both_eq, ← blockDiagonal_one]
  congr 1
  funext s
  cases s <;> rfl

theorem both_add (U D U' D' : Mat N) : both U D + both U' D' = both (U + U') (D + D') := by
  rw [both_eq, both_eq, both_eq, ← blockDiagonal_add]
  congr 1
  funext s
  cases s <;> rfl

theorem both_det (U D : Mat N) : (both U D).det = U.det * D.det := by
  rw [both_eq, det_blockDiagonal, Fintype.prod_bool]
  rfl

theorem one_add_both (U D : Mat N) : 1 + both U D = both (1 + U) (1 + D) := by
  rw [← both_one, both_add]

theorem both_inv {U D : Mat N} (hu : (1 + U).det ≠ 0) (hd : (1 + D).det ≠ 0) :
    (1 + both U D)⁻¹ = both (1 + U)⁻¹ (1 + D)⁻¹ := by
  rw [one_add_both]
  refine Matrix.inv_eq_right_inv ?_
  rw [both_mul, Matrix.mul_nonsing_inv _ (isUnit_iff_ne_zero.2 hu),
    Matrix.mul_nonsing_inv _ (isUnit_iff_ne_zero.2 hd), both_one]

/-- the operator `Σ r c†_a c_b` -/
noncomputable def opOf (A : OneBody N) : Op (Mode N) :=
  (A.map fun x => x.1 • (cre x.2.1 * ann x.2.2)).sum

/-- the operator `Σ r c_a c_b` -/
noncomputable def pairOf (A : PairOp N) : Op (Mode N) :=
  (A.map fun x => x.1 • (ann x.2.1 * ann x.2.2)).sum

/-- expectation value of the operators `X` at time `τ` and `Y` at time 0; `W₁` propagates from time 0
to `τ` and `W₂` from `τ` to the end -/
noncomputable def expect (W₂ W₁ X Y : Op (Mode N)) : ℝ := (W₂ * X * W₁ * Y).trace / (W₂ * W₁).trace

/-- the expectation values of pairs for the propagators `A` from time 0 to `τ` and `B` from `τ` to the
end -/
noncomputable def tracePairs (A B : Matrix (Mode N) (Mode N) ℝ) : Pairs N where
  dens a b := expect (gamma B) (gamma A) (cre a * ann b) 1
  dens0 a b := expect (gamma B) (gamma A) 1 (cre a * ann b)
  lesser a b := expect (gamma B) (gamma A) (cre a) (ann b)
  greater a b := expect (gamma B) (gamma A) (ann a) (cre b)

section traces

variable (A B : Matrix (Mode N) (Mode N) ℝ)

theorem total_trace : (gamma B * gamma A).trace = (1 + B * A).det := by rw [gamma_mul', trace_gamma]

variable (h : (1 + B * A).det ≠ 0)
include h

theorem expect_four (a b c d : Mode N) :
    expect (gamma B) (gamma A) (cre a * ann b) (cre c * ann d) = (tracePairs A B).four a b c d := by
  unfold Pairs.four tracePairs expect
  simp only [mul_one, total_trace, four_trace A B h, late_trace A B h, early_trace A B h, lesser_trace A B h,
    greater_trace A B h]
  rw [mul_div_cancel_left₀ _ h, mul_div_cancel_left₀ _ h, mul_div_cancel_left₀ _ h,
    mul_div_cancel_left₀ _ h, mul_div_cancel_left₀ _ h]

theorem expect_pairs (a b c d : Mode N) :
    expect (gamma B) (gamma A) (ann a * ann b) (cre d * cre c)
      = (tracePairs A B).greater a c * (tracePairs A B).greater b d
        - (tracePairs A B).greater a d * (tracePairs A B).greater b c := by
  unfold tracePairs expect
  simp only [total_trace, pair_trace A B h, greater_trace A B h]
  rw [mul_div_cancel_left₀ _ h, mul_div_cancel_left₀ _ h, mul_div_cancel_left₀ _ h,
    mul_div_cancel_left₀ _ h, mul_div_cancel_left₀ _ h]

omit h in
theorem expect_add_left (W₂ W₁ X X' Y : Op (Mode N)) :
    expect W₂ W₁ (X + X') Y = expect W₂ W₁ X Y + expect W₂ W₁ X' Y := by
  unfold expect
  rw [mul_add, add_mul, add_mul, Matrix.trace_add, add_div]

omit h in
theorem expect_add_right (W₂ W₁ X Y Y' : Op (Mode N)) :
    expect W₂ W₁ X (Y + Y') = expect W₂ W₁ X Y + expect W₂ W₁ X Y' := by
  unfold expect
  rw [mul_add, Matrix.trace_add, add_div]

omit h in
theorem expect_smul (W₂ W₁ X Y : Op (Mode N)) (r q : ℝ) :
    expect W₂ W₁ (r • X) (q • Y) = r * q * expect W₂ W₁ X Y := by
  unfold expect
  rw [mul_smul_comm r, smul_mul_assoc, smul_mul_smul_comm, Matrix.trace_smul, smul_eq_mul, mul_div_assoc]

omit h in
theorem expect_zero_left (W₂ W₁ Y : Op (Mode N)) : expect W₂ W₁ 0 Y = 0 := by
  unfold expect
  rw [mul_zero, zero_mul, zero_mul, Matrix.trace_zero, zero_div]

omit h in
theorem expect_zero_right (W₂ W₁ X : Op (Mode N)) : expect W₂ W₁ X 0 = 0 := by
  unfold expect
  rw [mul_zero, Matrix.trace_zero, zero_div]

omit h in
theorem expect_list (W₂ W₁ : Op (Mode N)) {α β : Type} (X : List α) (Y : List β) (f : α → Op (Mode N))
    (g : β → Op (Mode N)) :
    expect W₂ W₁ (X.map f).sum (Y.map g).sum
      = (X.map fun x => (Y.map fun y => expect W₂ W₁ (f x) (g y)).sum).sum := by
  have hY : ∀ V, expect W₂ W₁ V (Y.map g).sum = (Y.map fun y => expect W₂ W₁ V (g y)).sum := by
    intro V
    induction Y with
    | nil => exact expect_zero_right _ _ _
    | cons y Y ih =>
      rw [List.map_cons, List.map_cons, List.sum_cons, List.sum_cons, expect_add_right, ih]
  induction X with
  | nil => exact expect_zero_left _ _ _
  | cons x X ih =>
    rw [List.map_cons, List.map_cons, List.sum_cons, List.sum_cons, expect_add_left, ih, hY]

theorem expect_corr (X Y : OneBody N) :
    expect (gamma B) (gamma A) (opOf X) (opOf Y) = (tracePairs A B).corr X Y := by
  unfold opOf Pairs.corr
  rw [expect_list]
  simp only [expect_smul, expect_four A B h]

omit h in
theorem expect_mean (X : OneBody N) :
    expect (gamma B) (gamma A) (opOf X) 1 = (tracePairs A B).mean X := by
  have := expect_list (gamma B) (gamma A) X [()] (fun x => x.1 • (cre x.2.1 * ann x.2.2)) fun _ => 1
  unfold opOf Pairs.mean
  simp only [List.map_cons, List.map_nil, List.sum_cons, List.sum_nil, add_zero] at this
  rw [this]
  congr 1
  refine List.map_congr_left fun x _ => ?_
  have e := expect_smul (gamma B) (gamma A) (cre x.2.1 * ann x.2.2) 1 x.1 1
  rw [one_smul, mul_one] at e
  exact e

omit h in
theorem pairOf_transpose (X : PairOp N) :
    (pairOf X)ᵀ = (X.map fun x => x.1 • (cre x.2.2 * cre x.2.1)).sum := by
  unfold pairOf
  induction X with
  | nil => simp
  | cons x X ih =>
    rw [List.map_cons, List.map_cons, List.sum_cons, List.sum_cons, Matrix.transpose_add, ih,
      Matrix.transpose_smul, Matrix.transpose_mul, ← cre_transpose, ← cre_transpose, Matrix.transpose_transpose,
      Matrix.transpose_transpose]

theorem expect_pairCorr (X Y : PairOp N) :
    expect (gamma B) (gamma A) (pairOf X) (pairOf Y)ᵀ = (tracePairs A B).pairCorr X Y := by
  rw [pairOf_transpose Y]
  unfold pairOf Pairs.pairCorr
  rw [expect_list]
  simp only [expect_smul, expect_pairs A B h]

end traces

/-! ## C69: the Green's functions -/

theorem Pairs.ext' {P Q : Pairs N} (h1 : ∀ a b, P.dens a b = Q.dens a b) (h2 : ∀ a b, P.dens0 a b = Q.dens0 a b)
    (h3 : ∀ a b, P.lesser a b = Q.lesser a b) (h4 : ∀ a b, P.greater a b = Q.greater a b) : P = Q := by
  cases P
  cases Q
  congr
  · exact funext fun a => funext (h1 a)
  · exact funext fun a => funext (h2 a)
  · exact funext fun a => funext (h3 a)
  · exact funext fun a => funext (h4 a)

/-- C69, equal times: for a product of time step matrices `Au`, `Ad` of both spins, the Green's
functions `(1 + A)⁻¹` are the expectation values `⟨c_a c†_b⟩` with the propagator `Γ(A)` -/
theorem equalTime_is_trace (Au Ad : Mat N) (hu : (1 + Au).det ≠ 0) (hd : (1 + Ad).det ≠ 0) :
    equalTime (1 + Au)⁻¹ (1 + Ad)⁻¹ = tracePairs 1 (both Au Ad) := by
  have h : (1 + both Au Ad * 1).det ≠ 0 := by
    rw [mul_one, one_add_both, both_det]
    exact mul_ne_zero hu hd
  have h' : (1 + both Au Ad).det ≠ 0 := by rwa [mul_one] at h
  have hi := both_inv hu hd
  have e : (1 + both Au Ad)⁻¹ * both Au Ad = 1 - (1 + both Au Ad)⁻¹ := by
    have := Matrix.nonsing_inv_mul (1 + both Au Ad) (isUnit_iff_ne_zero.2 (by rwa [mul_one] at h))
    rw [Matrix.mul_add, mul_one] at this
    exact eq_sub_of_add_eq' this
  refine Pairs.ext' ?_ ?_ ?_ ?_ <;> intro a b <;> simp only [equalTime, tracePairs, expect, total_trace, mul_one]
  · rw [late_trace _ _ h, mul_one, one_mul, mul_div_cancel_left₀ _ h', hi]
    rfl
  · rw [early_trace _ _ h, mul_one, mul_div_cancel_left₀ _ h', hi]
    rfl
  · rw [lesser_trace _ _ h, mul_one, mul_div_cancel_left₀ _ h', e, Matrix.sub_apply, Matrix.one_apply, hi]
    simp only [eq_comm]
    rfl
  · rw [greater_trace _ _ h, mul_one, mul_div_cancel_left₀ _ h', one_mul, hi]
    rfl

/-- C69, unequal times: the Green's functions computed from the time step matrices `Bu`, `Bd` are the
expectation values `⟨c_a(τ) c†_b(0)⟩`, `-⟨c†_b(τ) c_a(0)⟩` and `⟨c_a(τ) c†_b(τ)⟩`, where the
propagators from time 0 to time slice `l` and from there to the end are `Γ` of the products of the
time step matrices. -/
theorem unequalTime_is_trace (Bu Bd : ℕ → Mat N) (L : ℕ) (hu : (1 + prodSeq Bu L).det ≠ 0)
    (hd : (1 + prodSeq Bd L).det ≠ 0) (l : ℕ) (hl : l ≤ L) :
    unequalTime (exactG Bu L) (exactG Bd L) l
      = tracePairs (both (prodSeq Bu l) (prodSeq Bd l)) (both (seg Bu L l) (seg Bd L l)) := by
  have su : seg Bu L l * prodSeq Bu l = prodSeq Bu L := by
    rw [← seg_zero, ← seg_zero, seg_mul Bu (Nat.zero_le _) hl]
  have sd : seg Bd L l * prodSeq Bd l = prodSeq Bd L := by
    rw [← seg_zero, ← seg_zero, seg_mul Bd (Nat.zero_le _) hl]
  set A := both (prodSeq Bu l) (prodSeq Bd l) with hA
  set B := both (seg Bu L l) (seg Bd L l) with hB
  have hBA : B * A = both (prodSeq Bu L) (prodSeq Bd L) := by rw [hA, hB, both_mul, su, sd]
  have hAB : A * B = both (prodSeq Bu l * seg Bu L l) (prodSeq Bd l * seg Bd L l) := by rw [hA, hB, both_mul]
  have h : (1 + B * A).det ≠ 0 := by
    rw [hBA, one_add_both, both_det]
    exact mul_ne_zero hu hd
  have hi : (1 + B * A)⁻¹ = both (1 + prodSeq Bu L)⁻¹ (1 + prodSeq Bd L)⁻¹ := by
    rw [hBA, both_inv hu hd]
  have hi' : (1 + A * B)⁻¹ = both (1 + prodSeq Bu l * seg Bu L l)⁻¹ (1 + prodSeq Bd l * seg Bd L l)⁻¹ := by
    rw [hAB, both_inv]
    · rwa [Matrix.det_one_add_mul_comm, su]
    · rwa [Matrix.det_one_add_mul_comm, sd]
  have h0 : ∀ B : ℕ → Mat N, prodSeq (fun l => B (0 + l)) (L - 0) = prodSeq B L := fun B => seg_zero B L
  refine Pairs.ext' ?_ ?_ ?_ ?_ <;> intro a b <;>
    simp only [unequalTime, tracePairs, expect, total_trace, mul_one]
  · rw [late_trace _ _ h, mul_div_cancel_left₀ _ h, hi']
    rfl
  · rw [early_trace _ _ h, mul_div_cancel_left₀ _ h, hi]
    simp only [exactG, h0, prodSeq, one_mul]
    rfl
  · rw [lesser_trace _ _ h, mul_div_cancel_left₀ _ h, hi, hB, both_mul]
    simp only [exactG]
    by_cases hl0 : l = 0
    · subst hl0
      have e : ∀ B : ℕ → Mat N, (1 + prodSeq B L).det ≠ 0 →
          (1 + prodSeq B L)⁻¹ * seg B L 0 = 1 - (1 + prodSeq B L)⁻¹ := by
        intro B hB
        have := Matrix.nonsing_inv_mul (1 + prodSeq B L) (isUnit_iff_ne_zero.2 hB)
        rw [Matrix.mul_add, mul_one] at this
        rw [seg_zero]
        exact eq_sub_of_add_eq' this
      rw [e Bu hu, e Bd hd]
      simp only [if_true, true_and]
      have e3 := congrFun (congrFun (both_add (1 - (1 + prodSeq Bu L)⁻¹) (1 - (1 + prodSeq Bd L)⁻¹)
        (1 + prodSeq Bu L)⁻¹ (1 + prodSeq Bd L)⁻¹) b) a
      rw [sub_add_cancel, sub_add_cancel, both_one, Matrix.add_apply, Matrix.one_apply] at e3
      rw [sub_eq_iff_eq_add]
      simp only [eq_comm] at e3 ⊢
      exact e3
    · simp only [hl0, false_and, if_false, zero_sub]
      show -spinG _ _ b a = spinG _ _ b a
      unfold spinG
      split
      · split
        · exact neg_neg _
        · exact neg_neg _
      · exact neg_zero
  · rw [greater_trace _ _ h, mul_div_cancel_left₀ _ h, hi, hA, both_mul]
    rfl

/-! ## C70: the estimators -/

/-- C70: the Wick contractions which specify the estimators are expectation values of products of
operators on the Fock space: of two one-body operators, of one, and of a pair operator and the adjoint
of a pair operator. -/
theorem estimators_are_traces (Bu Bd : ℕ → Mat N) (L : ℕ) (hu : (1 + prodSeq Bu L).det ≠ 0)
    (hd : (1 + prodSeq Bd L).det ≠ 0) (l : ℕ) (hl : l ≤ L) :
    let P := unequalTime (exactG Bu L) (exactG Bd L) l
    let W₁ := gamma (both (prodSeq Bu l) (prodSeq Bd l))
    let W₂ := gamma (both (seg Bu L l) (seg Bd L l))
    (∀ X Y : OneBody N, P.corr X Y = expect W₂ W₁ (opOf X) (opOf Y)) ∧
    (∀ X : OneBody N, P.mean X = expect W₂ W₁ (opOf X) 1) ∧
    (∀ X Y : PairOp N, P.pairCorr X Y = expect W₂ W₁ (pairOf X) (pairOf Y)ᵀ) := by
  have h : (1 + both (seg Bu L l) (seg Bd L l) * both (prodSeq Bu l) (prodSeq Bd l)).det ≠ 0 := by
    rw [both_mul, ← seg_zero, ← seg_zero, seg_mul Bu (Nat.zero_le _) hl, seg_mul Bd (Nat.zero_le _) hl,
      seg_zero, seg_zero, one_add_both, both_det]
    exact mul_ne_zero hu hd
  intro P W₁ W₂
  have hP : P = _ := unequalTime_is_trace Bu Bd L hu hd l hl
  rw [hP]
  exact ⟨fun X Y => (expect_corr _ _ h X Y).symm, fun X => (expect_mean _ _ X).symm,
    fun X Y => (expect_pairCorr _ _ h X Y).symm⟩

/-- non-vacuity: two sites with hopping, three time slices -/
example : (1 + prodSeq (fun _ => (!![2, 1; 1, 2] : Mat 2)) 3).det ≠ 0 := by
  simp only [prodSeq, mul_one]
  rw [Matrix.det_fin_two]
  norm_num [Matrix.add_apply, Matrix.mul_apply, Fin.sum_univ_two]

end Verif.Fock
