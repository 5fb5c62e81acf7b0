import Mathlib.Data.Real.Basic
import Mathlib.LinearAlgebra.ExteriorAlgebra.Basis
import Mathlib.LinearAlgebra.CliffordAlgebra.Contraction
import Mathlib.LinearAlgebra.Matrix.ToLin
import Mathlib.Data.Finset.Sort
import Mathlib.Tactic.NoncommRing

/-!
# Fermions on finitely many modes

The operators are matrices in the occupation number basis: the basis vectors are the sets of occupied
modes.  The definitions `cre`, `ann` and `num` are the specification; the exterior algebra is only
used in proofs.
-/

set_option autoImplicit false
set_option linter.unusedSectionVars false

namespace Verif.Fock

open Matrix

variable {m : Type} [Fintype m] [LinearOrder m]

/-- operators on the Fock space of the modes `m`, in the occupation number basis -/
abbrev Op (m : Type) := Matrix (Finset m) (Finset m) ℝ

/-- number of occupied modes before `i` -/
def before (S : Finset m) (i : m) : ℕ := (S.filter (· < i)).card

/-- creation operator: adds the mode `i` with the sign of the occupied modes before it -/
def cre (i : m) : Op m := Matrix.of fun S T => if i ∉ T ∧ S = insert i T then (-1) ^ before T i else 0

/-- annihilation operator: removes the mode `i` -/
def ann (i : m) : Op m := Matrix.of fun S T => if i ∈ T ∧ S = T.erase i then (-1) ^ before T i else 0

/-- number operator -/
def num (i : m) : Op m := Matrix.diagonal fun S => if i ∈ S then 1 else 0

/-! ## Relation to the exterior algebra -/

section exterior

/-- the exterior algebra -/
abbrev Ext (m : Type) := ExteriorAlgebra ℝ (m → ℝ)

/-- basis vectors of the exterior algebra -/
noncomputable def base (m : Type) [Fintype m] [LinearOrder m] : Module.Basis (Finset m) ℝ (Ext m) :=
  (Pi.basisFun ℝ m).ExteriorAlgebra

/-- the generators -/
noncomputable def gen (i : m) : Ext m := ExteriorAlgebra.ι ℝ (Pi.single i 1)

theorem base_eq (S : Finset m) : base m S = (S.sort.map gen).prod := by
  rw [base, ExteriorAlgebra.basis_apply]
  simp only [Set.powersetCard.prodEquiv_symm_apply]
  unfold ExteriorAlgebra.ιMulti_family
  rw [ExteriorAlgebra.ιMulti_apply]
  congr 1
  apply List.ext_getElem
  · simp
  · intro k h1 h2
    simp [gen, Set.powersetCard.ofFinEmbEquiv_symm_apply, Finset.orderEmbOfFin_apply]

theorem base_empty : base m ∅ = 1 := by simp [base_eq]

theorem base_insert {a : m} {S : Finset m} (h : ∀ x ∈ S, a < x) :
    base m (insert a S) = gen a * base m S := by
  rw [base_eq, base_eq, Finset.sort_insert (r := (· ≤ ·)) (fun x hx => (h x hx).le)
    (fun ha => lt_irrefl a (h a ha))]
  simp

theorem gen_sq (a : m) : gen a * gen a = 0 := ExteriorAlgebra.ι_sq_zero _

theorem gen_swap (a b : m) : gen a * gen b = -(gen b * gen a) :=
  eq_neg_of_add_eq_zero_left (ExteriorAlgebra.ι_add_mul_swap _ _)

theorem before_insert_lt {a i : m} {S : Finset m} (h : ∀ x ∈ S, a < x) (hi : a < i) :
    before (insert a S) i = before S i + 1 := by
  unfold before
  rw [Finset.filter_insert, if_pos hi, Finset.card_insert_of_notMem]
  intro hm
  exact lt_irrefl a (h a (Finset.mem_filter.1 hm).1)

theorem before_eq_zero {i : m} {S : Finset m} (h : ∀ x ∈ S, i ≤ x) : before S i = 0 := by
  unfold before
  rw [Finset.card_eq_zero, Finset.filter_eq_empty_iff]
  exact fun x hx => not_lt.2 (h x hx)

theorem gen_mul_base (i : m) (S : Finset m) :
    gen i * base m S = if i ∈ S then 0 else (-1 : ℝ) ^ before S i • base m (insert i S) := by
  induction S using Finset.induction_on_min with
  | empty =>
    rw [base_insert (by simp)]
    simp [before, base_empty]
  | insert a S h ih =>
    rw [base_insert h]
    rcases lt_trichotomy i a with hi | rfl | hi
    · have h' : ∀ x ∈ insert a S, i < x := by
        intro x hx
        rcases Finset.mem_insert.1 hx with rfl | hx
        · exact hi
        · exact hi.trans (h x hx)
      rw [if_neg (fun hm => lt_irrefl i (h' i hm)), before_eq_zero fun x hx => (h' x hx).le, pow_zero,
        one_smul, base_insert h', base_insert h]
    · rw [if_pos (Finset.mem_insert_self _ _), ← mul_assoc, gen_sq, zero_mul]
    · rw [← mul_assoc, gen_swap, neg_mul, mul_assoc, ih]
      by_cases hS : i ∈ S
      · rw [if_pos hS, if_pos (Finset.mem_insert_of_mem hS), mul_zero, neg_zero]
      · have hn : i ∉ insert a S := by simp [hS, hi.ne']
        rw [if_neg hS, if_neg hn, before_insert_lt h hi, Finset.insert_comm, base_insert (a := a)
          (S := insert i S) (by
            intro x hx
            rcases Finset.mem_insert.1 hx with rfl | hx
            · exact hi
            · exact h x hx), mul_smul_comm, pow_succ, mul_neg_one, neg_smul]

/-- contraction with the dual vector of mode `i` -/
noncomputable def con (i : m) : Ext m →ₗ[ℝ] Ext m :=
  CliffordAlgebra.contractLeft ((Pi.basisFun ℝ m).coord i)

theorem con_one (i : m) : con i 1 = 0 := CliffordAlgebra.contractLeft_one _ _

theorem con_ι_mul (i : m) (v : m → ℝ) (x : Ext m) :
    con i (ExteriorAlgebra.ι ℝ v * x) = v i • x - ExteriorAlgebra.ι ℝ v * con i x := by
  refine (CliffordAlgebra.contractLeft_ι_mul (Q := (0 : QuadraticForm ℝ (m → ℝ)))
    ((Pi.basisFun ℝ m).coord i) v x).trans ?_
  rw [Module.Basis.coord_apply, Pi.basisFun_repr]
  rfl

theorem con_gen_mul (i j : m) (x : Ext m) :
    con i (gen j * x) = (if i = j then x else 0) - gen j * con i x := by
  rw [gen, con_ι_mul, Pi.single_apply]
  split <;> simp

theorem con_base (i : m) (S : Finset m) :
    con i (base m S) = if i ∈ S then (-1 : ℝ) ^ before S i • base m (S.erase i) else 0 := by
  induction S using Finset.induction_on_min with
  | empty => simp [base_empty, con_one]
  | insert a S h ih =>
    have ha : a ∉ S := fun ha => lt_irrefl a (h a ha)
    rw [base_insert h, con_gen_mul, ih]
    rcases lt_trichotomy i a with hi | rfl | hi
    · have hS : i ∉ S := fun hm => lt_asymm hi (h i hm)
      rw [if_neg hi.ne, if_neg hS, if_neg (by simp [hS, hi.ne])]
      simp
    · rw [if_pos rfl, if_neg ha, if_pos (Finset.mem_insert_self _ _), Finset.erase_insert ha,
        before_eq_zero (by
          intro x hx
          rcases Finset.mem_insert.1 hx with rfl | hx
          · exact le_rfl
          · exact (h x hx).le)]
      simp
    · rw [if_neg hi.ne']
      by_cases hS : i ∈ S
      · rw [if_pos hS, if_pos (Finset.mem_insert_of_mem hS), before_insert_lt h hi,
          Finset.erase_insert_of_ne hi.ne, base_insert (fun x hx => h x (Finset.mem_of_mem_erase hx)),
          mul_smul_comm, pow_succ, mul_neg_one, neg_smul, zero_sub]
      · rw [if_neg hS, if_neg (by simp [hS, hi.ne'])]
        simp

/-- the matrix of a linear map of the exterior algebra -/
noncomputable def mat : (Ext m →ₗ[ℝ] Ext m) ≃ₐ[ℝ] Op m := LinearMap.toMatrixAlgEquiv (base m)

theorem mat_apply (f : Ext m →ₗ[ℝ] Ext m) (S T : Finset m) : mat f S T = (base m).repr (f (base m T)) S :=
  LinearMap.toMatrixAlgEquiv_apply _ _ _ _

/-- multiplication by a vector -/
noncomputable def wedge (v : m → ℝ) : Ext m →ₗ[ℝ] Ext m := LinearMap.mulLeft ℝ (ExteriorAlgebra.ι ℝ v)

theorem mat_gen (i : m) : mat (wedge (Pi.single i 1)) = cre i := by
  ext S T
  rw [mat_apply, wedge, LinearMap.mulLeft_apply]
  show (base m).repr (gen i * base m T) S = _
  rw [gen_mul_base, cre, Matrix.of_apply]
  by_cases h : i ∈ T
  · simp [h]
  · simp only [h, if_false, not_false_eq_true, true_and, map_smul, Module.Basis.repr_self,
      Finsupp.smul_apply, Finsupp.single_apply, smul_eq_mul]
    by_cases h' : insert i T = S
    · simp [h']
    · rw [if_neg h', if_neg (Ne.symm h'), mul_zero]

theorem mat_con (i : m) : mat (con i) = ann i := by
  ext S T
  rw [mat_apply, con_base, ann, Matrix.of_apply]
  by_cases h : i ∈ T
  · simp only [h, if_true, true_and, map_smul, Module.Basis.repr_self,
      Finsupp.smul_apply, Finsupp.single_apply, smul_eq_mul]
    by_cases h' : T.erase i = S
    · simp [h']
    · rw [if_neg h', if_neg (Ne.symm h'), mul_zero]
  · simp [h]

end exterior

/-! ## Canonical anticommutation relations -/

theorem cre_anti (i j : m) : cre i * cre j + cre j * cre i = 0 := by
  rw [← mat_gen, ← mat_gen, ← map_mul, ← map_mul, ← map_add, map_eq_zero_iff _ mat.injective]
  refine LinearMap.ext fun x => ?_
  show gen i * (gen j * x) + gen j * (gen i * x) = 0
  rw [← mul_assoc, ← mul_assoc, gen_swap i j]
  noncomm_ring

theorem ann_anti (i j : m) : ann i * ann j + ann j * ann i = 0 := by
  rw [← mat_con, ← mat_con, ← map_mul, ← map_mul, ← map_add, map_eq_zero_iff _ mat.injective]
  refine LinearMap.ext fun x => ?_
  show con i (con j x) + con j (con i x) = 0
  rw [con, con, CliffordAlgebra.contractLeft_comm, neg_add_cancel]

theorem ann_cre (i j : m) : ann i * cre j + cre j * ann i = if i = j then 1 else 0 := by
  rw [← mat_gen, ← mat_con, ← map_mul, ← map_mul, ← map_add]
  rw [show (con i * wedge (Pi.single j 1) + wedge (Pi.single j 1) * con i : Ext m →ₗ[ℝ] Ext m)
    = if i = j then 1 else 0 from ?_]
  · split <;> simp
  refine LinearMap.ext fun x => ?_
  show con i (gen j * x) + gen j * con i x = _
  rw [con_gen_mul, sub_add_cancel]
  split <;> rfl

/-- annihilation operators are the adjoints of the creation operators -/
theorem cre_transpose (i : m) : (cre i)ᵀ = ann i := by
  ext S T
  rw [Matrix.transpose_apply, cre, ann, Matrix.of_apply, Matrix.of_apply]
  by_cases h : i ∈ T ∧ S = T.erase i
  · obtain ⟨h, rfl⟩ := h
    rw [if_pos ⟨Finset.notMem_erase _ _, (Finset.insert_erase h).symm⟩, if_pos ⟨h, rfl⟩]
    congr 1
    unfold before
    congr 1
    ext x
    simp only [Finset.mem_filter, Finset.mem_erase]
    constructor
    · rintro ⟨⟨_, h1⟩, h2⟩; exact ⟨h1, h2⟩
    · rintro ⟨h1, h2⟩; exact ⟨⟨h2.ne, h1⟩, h2⟩
  · rw [if_neg h, if_neg]
    rintro ⟨h1, rfl⟩
    exact h ⟨Finset.mem_insert_self _ _, (Finset.erase_insert h1).symm⟩

theorem num_eq (i : m) : num i = cre i * ann i := by
  ext S T
  have hc : (cre i * ann i) = mat (wedge (Pi.single i 1) * con i) := by
    rw [map_mul, mat_gen, mat_con]
  rw [hc, mat_apply]
  show _ = (base m).repr (gen i * con i (base m T)) S
  rw [con_base, num, Matrix.diagonal_apply]
  by_cases h : i ∈ T
  · rw [if_pos h, mul_smul_comm, gen_mul_base, if_neg (Finset.notMem_erase _ _), Finset.insert_erase h]
    have e : before (T.erase i) i = before T i := by
      unfold before
      congr 1
      ext x
      simp only [Finset.mem_filter, Finset.mem_erase]
      constructor
      · rintro ⟨⟨_, h1⟩, h2⟩; exact ⟨h1, h2⟩
      · rintro ⟨h1, h2⟩; exact ⟨⟨h2.ne, h1⟩, h2⟩
    rw [e, smul_smul, ← mul_pow]
    simp only [mul_neg, mul_one, neg_neg, one_pow, one_smul, Module.Basis.repr_self, Finsupp.single_apply]
    by_cases hST : S = T
    · subst hST; simp [h]
    · simp [hST, Ne.symm hST]
  · rw [if_neg h, mul_zero, map_zero, Finsupp.zero_apply]
    by_cases hST : S = T
    · subst hST; simp [h]
    · simp [hST]

end Verif.Fock
