import Verif.Lemmas.Fock
import Mathlib.LinearAlgebra.Matrix.Charpoly.Coeff
import Mathlib.LinearAlgebra.Trace
import Mathlib.Analysis.Normed.Algebra.MatrixExponential
import Mathlib.Topology.Instances.Matrix

/-!
# Propagators of free fermions

`Γ A` is the operator on the Fock space which replaces every occupied mode `i` by column `i` of `A`.
-/

set_option autoImplicit false
set_option linter.unusedSectionVars false

namespace Verif.Fock

open Matrix

variable {m : Type} [Fintype m] [LinearOrder m]

/-- second quantisation of the matrix `A` -/
noncomputable def gamma (A : Matrix m m ℝ) : Op m :=
  mat (ExteriorAlgebra.map (Matrix.toLin' A)).toLinearMap

theorem gamma_one : gamma (1 : Matrix m m ℝ) = 1 := by
  rw [gamma, Matrix.toLin'_one, ExteriorAlgebra.map_id]
  exact map_one mat

theorem gamma_mul (A B : Matrix m m ℝ) : gamma (A * B) = gamma A * gamma B := by
  rw [gamma, gamma, gamma, ← map_mul, Matrix.toLin'_mul, ← ExteriorAlgebra.map_comp_map]
  rfl

/-- creation operator of a vector -/
noncomputable def creV (v : m → ℝ) : Op m := ∑ i, v i • cre i

theorem mat_wedge (v : m → ℝ) : mat (wedge v) = creV v := by
  unfold creV
  have hv : wedge v = ∑ i, v i • wedge (Pi.single i (1 : ℝ)) := by
    refine LinearMap.ext fun x => ?_
    rw [LinearMap.sum_apply]
    simp only [wedge, LinearMap.smul_apply, LinearMap.mulLeft_apply]
    conv_lhs => rw [← Finset.univ_sum_single v]
    rw [map_sum, Finset.sum_mul]
    refine Finset.sum_congr rfl fun i _ => ?_
    rw [show (Pi.single i (v i) : m → ℝ) = v i • Pi.single i 1 by
      rw [← Pi.single_smul, smul_eq_mul, mul_one], map_smul, smul_mul_assoc]
  rw [hv, map_sum]
  exact Finset.sum_congr rfl fun i _ => by rw [map_smul, mat_gen]

theorem gamma_creV (A : Matrix m m ℝ) (v : m → ℝ) : gamma A * creV v = creV (A *ᵥ v) * gamma A := by
  rw [← mat_wedge, ← mat_wedge, gamma, ← map_mul, ← map_mul]
  congr 1
  refine LinearMap.ext fun x => ?_
  show ExteriorAlgebra.map (toLin' A) (ExteriorAlgebra.ι ℝ v * x)
    = ExteriorAlgebra.ι ℝ (A *ᵥ v) * ExteriorAlgebra.map (toLin' A) x
  rw [map_mul, ExteriorAlgebra.map_apply_ι, Matrix.toLin'_apply]

/-- moving a creation operator through a propagator -/
theorem gamma_cre (A : Matrix m m ℝ) (j : m) : gamma A * cre j = ∑ i, A i j • (cre i * gamma A) := by
  rw [← mat_gen, mat_wedge, gamma_creV, creV, Finset.sum_mul]
  simp

/-- moving an annihilation operator through a propagator -/
theorem ann_gamma (A : Matrix m m ℝ) (i : m) : ann i * gamma A = ∑ j, A i j • (gamma A * ann j) := by
  simp only [← mat_con]
  rw [gamma]
  simp only [← map_mul, ← map_smul]
  rw [← map_sum]
  congr 1
  refine LinearMap.ext fun x => ?_
  rw [LinearMap.sum_apply]
  simp only [LinearMap.smul_apply]
  show con i (ExteriorAlgebra.map (toLin' A) x) = ∑ j, A i j • ExteriorAlgebra.map (toLin' A) (con j x)
  induction x using CliffordAlgebra.left_induction with
  | algebraMap r =>
    have h : ∀ j, con j (algebraMap ℝ (Ext m) r) = 0 := fun j => CliffordAlgebra.contractLeft_algebraMap _ _ _
    have h1 : (ExteriorAlgebra.map (toLin' A)) (algebraMap ℝ (Ext m) r) = algebraMap ℝ (Ext m) r :=
      AlgHom.commutes _ _
    erw [h1, h]
    simp [h]
  | add x y hx hy => simp only [map_add, hx, hy, smul_add, Finset.sum_add_distrib]
  | ι_mul x v hx =>
    have e : ∀ j, con j ((CliffordAlgebra.ι (0 : QuadraticForm ℝ (m → ℝ))) v * x)
      = v j • x - ExteriorAlgebra.ι ℝ v * con j x := fun j => con_ι_mul j v x
    have e2 : (ExteriorAlgebra.map (toLin' A)) ((CliffordAlgebra.ι (0 : QuadraticForm ℝ (m → ℝ))) v * x)
      = ExteriorAlgebra.ι ℝ (A *ᵥ v) * ExteriorAlgebra.map (toLin' A) x := by
      rw [map_mul]
      congr 1
      exact ExteriorAlgebra.map_apply_ι _ _
    erw [e2, con_ι_mul, hx]
    simp only [e, map_sub, map_smul, map_mul, ExteriorAlgebra.map_apply_ι, Matrix.toLin'_apply]
    simp only [smul_sub, Finset.sum_sub_distrib, smul_smul, ← Finset.sum_smul]
    congr 1
    rw [Finset.mul_sum]
    exact Finset.sum_congr rfl fun j _ => by rw [mul_smul_comm]

/-! ## Matrix elements -/

/-- matrix elements between states with the same number of particles are minors -/
theorem gamma_diag (A : Matrix m m ℝ) (S : Finset m) :
    gamma A S S = (A.submatrix (fun i : S => i.1) (fun i : S => i.1)).det := by
  set b := Pi.basisFun ℝ m with hb
  set s : Set.powersetCard m S.card := Set.powersetCard.ofCard rfl with hs
  set e := Set.powersetCard.ofFinEmbEquiv.symm s with he
  have h1 : ExteriorAlgebra.map (toLin' A) (base m S)
      = ((exteriorPower.ιMulti ℝ S.card fun k => A *ᵥ b (e k) : ⋀[ℝ]^S.card (m → ℝ)) : Ext m) := by
    rw [base, ExteriorAlgebra.basis_apply_ofCard b (rfl : S.card = S.card)]
    unfold ExteriorAlgebra.ιMulti_family
    rw [ExteriorAlgebra.map_apply_ιMulti, exteriorPower.ιMulti_apply_coe]
    congr 1
  rw [gamma, mat_apply]
  show (base m).repr (ExteriorAlgebra.map (toLin' A) (base m S)) S = _
  rw [h1, base, Module.Basis.ExteriorAlgebra, Module.Basis.repr_reindex_apply,
    Set.powersetCard.prodEquiv_symm_apply]
  rw [DirectSum.IsInternal.collectedBasis_repr_of_mem _ _ (SetLike.coe_mem _)]
  rw [Subtype.coe_eta, exteriorPower.basis_repr_apply, exteriorPower.ιMultiDual_apply_ιMulti,
    ← Matrix.det_transpose, ← Matrix.det_submatrix_equiv_self (S.orderIsoOfFin rfl).toEquiv]
  congr 1
  ext k l
  simp [e, s, b, Set.powersetCard.ofFinEmbEquiv_symm_apply]

/-- the grand canonical trace of a free propagator -/
theorem trace_gamma (A : Matrix m m ℝ) : (gamma A).trace = (1 + A).det := by
  rw [Matrix.trace]
  simp only [Matrix.diag_apply, gamma_diag]
  have h := (detRowAlternating (n := m) (R := ℝ)).map_add_univ A.row (1 : Matrix m m ℝ).row
  have h2 : (1 + A).det = detRowAlternating (A.row + (1 : Matrix m m ℝ).row) := by
    rw [add_comm]; rfl
  rw [h2]
  refine Eq.trans ?_ h.symm
  refine Finset.sum_congr rfl fun S _ => ?_
  exact (det_piecewise_one_eq_submatrix_det A S).symm

/-- propagators which act on each mode separately -/
theorem gamma_diagonal (d : m → ℝ) : gamma (diagonal d) = diagonal fun S => ∏ i ∈ S, d i := by
  have h : ∀ S : Finset m, ExteriorAlgebra.map (toLin' (diagonal d)) (base m S)
      = (∏ i ∈ S, d i) • base m S := by
    intro S
    induction S using Finset.induction_on_min with
    | empty => simp [base_empty]
    | insert a S h ih =>
      rw [base_insert h, map_mul, ih, gen, ExteriorAlgebra.map_apply_ι, Matrix.toLin'_apply,
        Finset.prod_insert fun ha => lt_irrefl a (h a ha)]
      rw [show diagonal d *ᵥ Pi.single a 1 = d a • (Pi.single a (1 : ℝ)) by
        rw [diagonal_mulVec_single, ← Pi.single_smul, smul_eq_mul]]
      rw [map_smul, smul_mul_assoc, mul_smul_comm, smul_smul]
  ext S T
  rw [gamma, mat_apply]
  show (base m).repr (ExteriorAlgebra.map (toLin' (diagonal d)) (base m T)) S = _
  rw [h, map_smul, Module.Basis.repr_self, Finsupp.smul_apply, Finsupp.single_apply, diagonal_apply]
  by_cases hST : S = T
  · subst hST; simp
  · simp [hST, Ne.symm hST]

/-! ## Exponentials of one-body operators -/

/-- the one-body operator `Σ_ij T_ij c†_i c_j` -/
noncomputable def oneBody (T : Matrix m m ℝ) : Op m := ∑ i, ∑ j, T i j • (cre i * ann j)

theorem oneBody_cre (T : Matrix m m ℝ) (k : m) :
    oneBody T * cre k = cre k * oneBody T + ∑ i, T i k • cre i := by
  have h : ∀ i j, cre i * ann j * cre k = cre k * (cre i * ann j) + if j = k then cre i else 0 := by
    intro i j
    have e1 := ann_cre j k
    have e2 := cre_anti i k
    have e3 : ann j * cre k = (if j = k then 1 else 0) - cre k * ann j := eq_sub_of_add_eq e1
    have e4 : cre i * cre k = -(cre k * cre i) := eq_neg_of_add_eq_zero_left e2
    rw [mul_assoc, e3, mul_sub, ← mul_assoc, e4]
    split <;> noncomm_ring
  unfold oneBody
  rw [Finset.sum_mul, Finset.mul_sum, ← Finset.sum_add_distrib]
  refine Finset.sum_congr rfl fun i _ => ?_
  rw [Finset.sum_mul, Finset.mul_sum]
  simp only [smul_mul_assoc, mul_smul_comm, h, smul_add, Finset.sum_add_distrib]
  congr 1
  simp

set_option backward.isDefEq.respectTransparency false in
theorem exp_hasSum {p : Type} [Fintype p] [DecidableEq p] (A : Matrix p p ℝ) :
    HasSum (fun n : ℕ => (n.factorial : ℝ)⁻¹ • A ^ n) (NormedSpace.exp A) :=
  open scoped Norms.Operator in NormedSpace.exp_series_hasSum_exp' (𝕂 := ℝ) A

theorem exp_intertwine {p q : Type} [Fintype p] [DecidableEq p] [Fintype q] [DecidableEq q]
    (A : Matrix p p ℝ) (B : Matrix q q ℝ) (M : Matrix p q ℝ) (h : A * M = M * B) :
    NormedSpace.exp A * M = M * NormedSpace.exp B := by
  have hn : ∀ n : ℕ, A ^ n * M = M * B ^ n := by
    intro n
    induction n with
    | zero => rw [pow_zero, pow_zero, Matrix.one_mul, Matrix.mul_one]
    | succ n ih => rw [pow_succ, Matrix.mul_assoc, h, ← Matrix.mul_assoc, ih, Matrix.mul_assoc, ← pow_succ]
  have hA := (exp_hasSum A).map (AddMonoidHom.mk' (fun X : Matrix p p ℝ => X * M)
    fun X Y => Matrix.add_mul X Y M) (Continuous.matrix_mul continuous_id continuous_const)
  have hB := (exp_hasSum B).map (AddMonoidHom.mk' (fun X : Matrix q q ℝ => M * X)
    fun X Y => Matrix.mul_add M X Y) (Continuous.matrix_mul continuous_const continuous_id)
  refine hA.unique ?_
  refine HasSum.congr_fun (f := _) hB ?_
  intro n
  simp only [Function.comp_apply, AddMonoidHom.mk'_apply, Matrix.smul_mul, Matrix.mul_smul, hn]

/-- the images of a mode under creation, side by side -/
def creRow (m : Type) [LinearOrder m] : Matrix (Finset m) (m × Finset m) ℝ := Matrix.of fun S x => cre x.1 S x.2

open scoped Kronecker in
theorem creRow_kron_one (T : Matrix m m ℝ) (S : Finset m) (k : m) (R : Finset m) :
    (creRow m * (T ⊗ₖ (1 : Op m))) S (k, R) = (∑ i, T i k • cre i) S R := by
  rw [Matrix.mul_apply, Fintype.sum_prod_type, Matrix.sum_apply]
  refine Finset.sum_congr rfl fun i _ => ?_
  simp only [Matrix.kroneckerMap_apply, Matrix.one_apply, creRow, Matrix.of_apply, Matrix.smul_apply]
  simp [mul_comm]

open scoped Kronecker in
theorem creRow_one_kron (D : Op m) (S : Finset m) (k : m) (R : Finset m) :
    (creRow m * ((1 : Matrix m m ℝ) ⊗ₖ D)) S (k, R) = (cre k * D) S R := by
  rw [Matrix.mul_apply, Fintype.sum_prod_type, Finset.sum_eq_single k]
  · simp [Matrix.kroneckerMap_apply, creRow, Matrix.mul_apply]
  · intro i _ hi
    simp [Matrix.kroneckerMap_apply, Matrix.one_apply_ne hi]
  · simp

theorem mul_creRow (D : Op m) (S : Finset m) (k : m) (R : Finset m) :
    (D * creRow m) S (k, R) = (D * cre k) S R := rfl

theorem map_exp {p q : Type} [Fintype p] [DecidableEq p] [Fintype q] [DecidableEq q]
    (f : Matrix p p ℝ →ₗ[ℝ] Matrix q q ℝ) (A : Matrix p p ℝ) (h : ∀ n : ℕ, f (A ^ n) = f A ^ n) :
    f (NormedSpace.exp A) = NormedSpace.exp (f A) := by
  have h1 := (exp_hasSum A).map f f.continuous_of_finiteDimensional
  have h2 : (f ∘ fun n : ℕ => (n.factorial : ℝ)⁻¹ • A ^ n) = fun n : ℕ => (n.factorial : ℝ)⁻¹ • f A ^ n := by
    funext n
    simp [h]
  rw [h2] at h1
  exact h1.unique (exp_hasSum (f A))

open scoped Kronecker in
theorem exp_kron_one {p q : Type} [Fintype p] [DecidableEq p] [Fintype q] [DecidableEq q]
    (T : Matrix p p ℝ) :
    NormedSpace.exp (T ⊗ₖ (1 : Matrix q q ℝ)) = NormedSpace.exp T ⊗ₖ (1 : Matrix q q ℝ) := by
  refine (map_exp (q := p × q)
    { toFun := fun X => X ⊗ₖ (1 : Matrix q q ℝ)
      map_add' := fun X Y => add_kronecker X Y _
      map_smul' := fun r X => smul_kronecker r X _ } T fun n => ?_).symm
  show (T ^ n) ⊗ₖ (1 : Matrix q q ℝ) = (T ⊗ₖ (1 : Matrix q q ℝ)) ^ n
  induction n with
  | zero => simp
  | succ n ih => rw [pow_succ, pow_succ, ← ih, ← mul_kronecker_mul, Matrix.one_mul]

open scoped Kronecker in
theorem exp_one_kron {p q : Type} [Fintype p] [DecidableEq p] [Fintype q] [DecidableEq q]
    (D : Matrix q q ℝ) :
    NormedSpace.exp ((1 : Matrix p p ℝ) ⊗ₖ D) = (1 : Matrix p p ℝ) ⊗ₖ NormedSpace.exp D := by
  refine (map_exp (q := p × q)
    { toFun := fun X => (1 : Matrix p p ℝ) ⊗ₖ X
      map_add' := fun X Y => kronecker_add _ X Y
      map_smul' := fun r X => kronecker_smul r _ X } D fun n => ?_).symm
  show (1 : Matrix p p ℝ) ⊗ₖ (D ^ n) = ((1 : Matrix p p ℝ) ⊗ₖ D) ^ n
  induction n with
  | zero => simp
  | succ n ih => rw [pow_succ, pow_succ, ← ih, ← mul_kronecker_mul, Matrix.one_mul]

open scoped Kronecker in
/-- the exponential of a one-body operator moves creation operators as the exponential of its matrix -/
theorem exp_oneBody_cre (T : Matrix m m ℝ) (k : m) :
    NormedSpace.exp (oneBody T) * cre k
      = ∑ i, NormedSpace.exp T i k • (cre i * NormedSpace.exp (oneBody T)) := by
  have h : oneBody T * creRow m = creRow m * (T ⊗ₖ (1 : Op m) + (1 : Matrix m m ℝ) ⊗ₖ oneBody T) := by
    ext S ⟨k, R⟩
    rw [Matrix.mul_add, Matrix.add_apply, creRow_kron_one, creRow_one_kron, mul_creRow, oneBody_cre,
      Matrix.add_apply, add_comm]
  have hc : Commute (T ⊗ₖ (1 : Op m)) ((1 : Matrix m m ℝ) ⊗ₖ oneBody T) := by
    show _ * _ = _ * _
    rw [← mul_kronecker_mul, ← mul_kronecker_mul]
    simp
  have he := exp_intertwine _ _ _ h
  rw [Matrix.exp_add_of_commute _ _ hc, exp_kron_one, exp_one_kron, ← Matrix.mul_assoc] at he
  ext S R
  have := congrFun (congrFun he S) (k, R)
  rw [mul_creRow] at this
  rw [this, Matrix.mul_apply, Fintype.sum_prod_type, Finset.sum_eq_single k]
  · simp only [creRow_kron_one]
    simp only [Matrix.kroneckerMap_apply, Matrix.one_apply_eq, one_mul]
    rw [← Matrix.mul_apply, Finset.sum_mul]
    simp only [Matrix.smul_mul]
  · intro i _ hi
    simp [Matrix.kroneckerMap_apply, Matrix.one_apply_ne hi]
  · simp

/-- propagators are determined by how they move creation operators and by the vacuum -/
theorem eq_gamma (W : Op m) (A : Matrix m m ℝ) (hv : ∀ S, W S ∅ = if S = ∅ then 1 else 0)
    (h : ∀ k, W * cre k = ∑ i, A i k • (cre i * W)) : W = gamma A := by
  have hg : ∀ S, gamma A S ∅ = if S = ∅ then 1 else 0 := by
    intro S
    rw [gamma, mat_apply]
    show (base m).repr (ExteriorAlgebra.map (toLin' A) (base m ∅)) S = _
    rw [base_empty, map_one, ← base_empty, Module.Basis.repr_self, Finsupp.single_apply]
    simp only [eq_comm]
  have hcol : ∀ (V : Op m) (a : m) (T : Finset m), (∀ x ∈ T, a < x) → ∀ S,
      V S (insert a T) = (V * cre a) S T := by
    intro V a T ha S
    have haT : a ∉ T := fun h => lt_irrefl a (ha a h)
    rw [Matrix.mul_apply, Finset.sum_eq_single (insert a T)]
    · rw [cre, Matrix.of_apply, if_pos ⟨haT, rfl⟩, before_eq_zero fun x hx => (ha x hx).le, pow_zero,
        mul_one]
    · intro R _ hR
      rw [cre, Matrix.of_apply, if_neg fun h => hR h.2, mul_zero]
    · simp
  suffices ∀ T S, W S T = gamma A S T by
    ext S T
    exact this T S
  intro T
  induction T using Finset.induction_on_min with
  | empty =>
    intro S
    rw [hv, hg]
  | insert a T ha ih =>
    intro S
    rw [hcol W a T ha, hcol (gamma A) a T ha, h, gamma_cre, Matrix.sum_apply, Matrix.sum_apply]
    refine Finset.sum_congr rfl fun i _ => ?_
    rw [Matrix.smul_apply, Matrix.smul_apply, Matrix.mul_apply, Matrix.mul_apply]
    congr 1
    exact Finset.sum_congr rfl fun R _ => by rw [ih]

theorem ann_vac (i : m) (S : Finset m) : ann i S ∅ = 0 := by
  rw [ann, Matrix.of_apply, if_neg]
  simp

theorem oneBody_vac (T : Matrix m m ℝ) (S : Finset m) : oneBody T S ∅ = 0 := by
  unfold oneBody
  simp only [Matrix.sum_apply, Matrix.smul_apply, Matrix.mul_apply, ann_vac, mul_zero,
    Finset.sum_const_zero, smul_zero]

/-- the exponential of a one-body operator is the second quantisation of the exponential of its
matrix -/
theorem exp_oneBody (T : Matrix m m ℝ) :
    NormedSpace.exp (oneBody T) = gamma (NormedSpace.exp T) := by
  refine eq_gamma _ _ ?_ (exp_oneBody_cre T)
  -- the vacuum is an eigenvector
  have h : oneBody T * (Matrix.of fun S (_ : Unit) => if S = ∅ then (1 : ℝ) else 0)
      = (Matrix.of fun S (_ : Unit) => if S = ∅ then (1 : ℝ) else 0) * (0 : Matrix Unit Unit ℝ) := by
    ext S u
    rw [Matrix.mul_zero, Matrix.mul_apply]
    simp [oneBody_vac]
  have he := exp_intertwine _ _ _ h
  intro S
  have := congrFun (congrFun he S) ()
  rw [NormedSpace.exp_zero, Matrix.mul_one, Matrix.mul_apply] at this
  simpa using this

end Verif.Fock
