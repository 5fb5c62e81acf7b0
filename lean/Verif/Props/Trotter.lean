import Verif.Lemmas.Trotter
import Verif.Props.ConvergenceProgram
import Mathlib.Analysis.Matrix.Normed
import Mathlib.Analysis.Normed.Algebra.MatrixExponential

set_option autoImplicit false

/-!
# C93: the limit of many time slices
-/

namespace Verif.Trotter

open Matrix NormedSpace Verif.Lapack Verif.Fock Verif.MonteCarlo Verif.Measurement Verif.Lattice

/-! ## Specification -/

/-- expectation value of `X` at the inverse temperature `β` for the Hamiltonian `H` -/
noncomputable def gibbsMean {N : ℕ} (H : Op (Mode N)) (β : ℝ) (X : Op (Mode N)) : ℝ :=
  (exp (-β • H) * X).trace / (exp (-β • H)).trace

/-- expectation value of `X` at the imaginary time `τ` and `Y` at time zero -/
noncomputable def gibbsPair {N : ℕ} (H : Op (Mode N)) (β τ : ℝ) (X Y : Op (Mode N)) : ℝ :=
  (exp (-(β - τ) • H) * X * exp (-τ • H) * Y).trace / (exp (-β • H)).trace

/-- the size of an operator: the sum of its matrix elements -/
noncomputable def size {m : Type} [Fintype m] (X : Matrix m m ℝ) : ℝ := ∑ i, ∑ j, |X i j|

/-! ## Matrices -/

section matrices

variable {m : Type} [Fintype m] [DecidableEq m] [Nonempty m]

attribute [local instance] Matrix.linftyOpNormedRing Matrix.linftyOpNormedAlgebra Matrix.linfty_opNormOneClass

omit [DecidableEq m] [Nonempty m] in
theorem size_nonneg (X : Matrix m m ℝ) : 0 ≤ size X := Finset.sum_nonneg fun _ _ => Finset.sum_nonneg fun _ _ => abs_nonneg _

omit [Nonempty m] in
theorem norm_le_size (X : Matrix m m ℝ) : ‖X‖ ≤ size X := by
  rw [Matrix.linfty_opNorm_def]
  have : ∀ s : Finset m, ((s.sup fun i => ∑ j, ‖X i j‖₊ : NNReal) : ℝ) ≤ ∑ i ∈ s, ∑ j, |X i j| := by
    intro s
    induction s using Finset.cons_induction with
    | empty => simp
    | cons a s ha ih =>
      rw [Finset.sup_cons, Finset.sum_cons, NNReal.coe_max, max_le_iff]
      have h1 : ((∑ j, ‖X a j‖₊ : NNReal) : ℝ) = ∑ j, |X a j| := by push_cast; rfl
      have h2 : 0 ≤ ∑ j, |X a j| := Finset.sum_nonneg fun _ _ => abs_nonneg _
      have h3 : 0 ≤ ∑ i ∈ s, ∑ j, |X i j| := Finset.sum_nonneg fun _ _ => Finset.sum_nonneg fun _ _ => abs_nonneg _
      constructor <;> linarith
  exact this Finset.univ

omit [Nonempty m] in
theorem trace_le (X : Matrix m m ℝ) : |X.trace| ≤ Fintype.card m * ‖X‖ := by
  unfold Matrix.trace
  refine (Finset.abs_sum_le_sum_abs _ _).trans ?_
  have : ∀ i ∈ (Finset.univ : Finset m), |X.diag i| ≤ ‖X‖ := by
    intro i _
    rw [Matrix.linfty_opNorm_def]
    have h1 : ‖X i i‖₊ ≤ ∑ j, ‖X i j‖₊ := Finset.single_le_sum (f := fun j => ‖X i j‖₊) (fun _ _ => zero_le) (Finset.mem_univ i)
    have h2 := Finset.le_sup (f := fun i => ∑ j, ‖X i j‖₊) (Finset.mem_univ i)
    exact_mod_cast h1.trans h2
  refine (Finset.sum_le_sum this).trans ?_
  rw [Finset.sum_const, nsmul_eq_mul, Finset.card_univ]

omit [Nonempty m] in
/-- the trace of the exponential of a symmetric matrix is positive -/
theorem trace_exp_pos [Nonempty m] {A : Matrix m m ℝ} (hA : A.IsSymm) : 0 < (exp A).trace := by
  have e : exp A = (exp ((2 : ℝ)⁻¹ • A))ᵀ * exp ((2 : ℝ)⁻¹ • A) := by
    rw [← Matrix.exp_transpose, Matrix.transpose_smul, hA.eq, ← Matrix.exp_add_of_commute _ _ (Commute.refl _), ← add_smul]
    norm_num
  rw [e, Matrix.trace]
  simp only [Matrix.diag, Matrix.mul_apply, Matrix.transpose_apply]
  have hne : (exp ((2 : ℝ)⁻¹ • A)).det ≠ 0 := by
    have := Matrix.isUnit_exp ((2 : ℝ)⁻¹ • A)
    exact ((Matrix.isUnit_iff_isUnit_det _).1 this).ne_zero
  by_contra hle
  have h0 : ∀ i, 0 ≤ ∑ j, exp ((2 : ℝ)⁻¹ • A) j i * exp ((2 : ℝ)⁻¹ • A) j i :=
    fun i => Finset.sum_nonneg fun _ _ => mul_self_nonneg _
  have h1 : ∑ i, ∑ j, exp ((2 : ℝ)⁻¹ • A) j i * exp ((2 : ℝ)⁻¹ • A) j i = 0 :=
    le_antisymm (not_lt.1 hle) (Finset.sum_nonneg fun i _ => h0 i)
  refine hne ?_
  have h2 : exp ((2 : ℝ)⁻¹ • A) = 0 := by
    ext j i
    have h3 := (Finset.sum_eq_zero_iff_of_nonneg fun i _ => h0 i).1 h1 i (Finset.mem_univ i)
    have h4 := (Finset.sum_eq_zero_iff_of_nonneg fun j _ => mul_self_nonneg _).1 h3 j (Finset.mem_univ j)
    exact mul_self_eq_zero.1 h4
  rw [h2]
  exact Matrix.det_zero

omit [Fintype m] [DecidableEq m] [Nonempty m] in
/-- two quotients with nearby numerators and denominators -/
theorem div_sub_div_le {a a' z z' p q : ℝ} (hz : 0 < z) (hz' : z / 2 ≤ z') (ha : |a' - a| ≤ p) (hq : |z' - z| ≤ q) :
    |a' / z' - a / z| ≤ 2 * (p * z + |a| * q) / z ^ 2 := by
  have h0 : 0 < z' := by linarith
  have e : a' / z' - a / z = ((a' - a) * z + a * (z - z')) / (z' * z) := by
    field_simp
    ring
  have h1 : |(a' - a) * z + a * (z - z')| ≤ p * z + |a| * q := by
    refine (abs_add_le _ _).trans ?_
    rw [abs_mul, abs_mul, abs_of_pos hz, abs_sub_comm z z']
    have := abs_nonneg a
    gcongr
  have h2 : 0 ≤ p * z + |a| * q := (abs_nonneg _).trans h1
  rw [e, abs_div, abs_of_pos (mul_pos h0 hz), div_le_div_iff₀ (mul_pos h0 hz) (by positivity)]
  calc |(a' - a) * z + a * (z - z')| * z ^ 2 ≤ (p * z + |a| * q) * z ^ 2 := by gcongr
    _ = 2 * (p * z + |a| * q) * (z / 2 * z) := by ring
    _ ≤ 2 * (p * z + |a| * q) * (z' * z) := by gcongr

/-- expectation values of the product of many small steps: two operators at different times -/
theorem pair_limit {A B : Matrix m m ℝ} (hA : A.IsSymm) (hB : B.IsSymm) : ∃ (C : ℝ) (n₀ : ℕ), ∀ n ≥ n₀, ∀ k ≤ n,
    ∀ X Y : Matrix m m ℝ,
    |((exp ((n : ℝ)⁻¹ • B) * exp ((n : ℝ)⁻¹ • A)) ^ (n - k) * X * (exp ((n : ℝ)⁻¹ • B) * exp ((n : ℝ)⁻¹ • A)) ^ k * Y).trace
        / ((exp ((n : ℝ)⁻¹ • B) * exp ((n : ℝ)⁻¹ • A)) ^ n).trace
      - (exp ((((n - k : ℕ) : ℝ) / n) • (B + A)) * X * exp (((k : ℝ) / n) • (B + A)) * Y).trace / (exp (B + A)).trace|
      ≤ C * size X * size Y / n := by
  have hz : 0 < (exp (B + A)).trace := trace_exp_pos (hB.add hA)
  set z := (exp (B + A)).trace with hzdef
  set s := ‖A‖ + ‖B‖ with hs
  have s0 : 0 ≤ s := by positivity
  set D := 4 * s ^ 2 * Real.exp s with hD
  have D0 : 0 ≤ D := by positivity
  set E := Real.exp s with hE
  have E0 : 0 < E := Real.exp_pos _
  set d : ℝ := (Fintype.card m : ℝ) with hd
  have d0 : 0 ≤ d := by positivity
  obtain ⟨n₁, hn₁⟩ := exists_nat_gt (2 * d * D / z)
  refine ⟨2 * (d * (D * (E + D) + E * D) * z + d * (E * E) * (d * D)) / z ^ 2, max n₁ 1, fun n hn k hk X Y => ?_⟩
  have hn1 : 0 < n := lt_of_lt_of_le one_pos ((le_max_right _ _).trans hn)
  have n0 : (0 : ℝ) < n := by exact_mod_cast hn1
  have n1 : (1 : ℝ) ≤ n := by exact_mod_cast hn1
  set S := exp ((n : ℝ)⁻¹ • B) * exp ((n : ℝ)⁻¹ • A) with hS
  have hpow : ∀ j ≤ n, ‖S ^ j - exp (((j : ℝ) / n) • (B + A))‖ ≤ D / n := fun j hj => trotter_one A B hn1 hj
  have hW : ∀ j ≤ n, ‖exp (((j : ℝ) / n) • (B + A))‖ ≤ E := by
    intro j hj
    refine (norm_exp_le _).trans (Real.exp_le_exp.2 ?_)
    rw [norm_smul, Real.norm_of_nonneg (by positivity)]
    have h1 : (j : ℝ) / n ≤ 1 := by
      rw [div_le_one n0]
      exact_mod_cast hj
    have h2 := norm_add_le B A
    have h3 : (j : ℝ) / n * ‖B + A‖ ≤ 1 * ‖B + A‖ := by gcongr
    linarith
  have hSn : ∀ j ≤ n, ‖S ^ j‖ ≤ E + D := by
    intro j hj
    have h1 := norm_add_le (S ^ j - exp (((j : ℝ) / n) • (B + A))) (exp (((j : ℝ) / n) • (B + A)))
    rw [sub_add_cancel] at h1
    have h2 : D / n ≤ D := div_le_self D0 n1
    linarith [hpow j hj, hW j hj]
  have hz1 : |(S ^ n).trace - z| ≤ d * D / n := by
    have h1 := hpow n le_rfl
    rw [div_self n0.ne', one_smul] at h1
    rw [hzdef, ← Matrix.trace_sub]
    refine (trace_le _).trans ?_
    rw [mul_div_assoc]
    gcongr
  have hz2 : z / 2 ≤ (S ^ n).trace := by
    have h1 : 2 * d * D / z < n := lt_of_lt_of_le hn₁ (by exact_mod_cast (le_max_left _ _).trans hn)
    have h2 : d * D / n ≤ z / 2 := by
      rw [div_lt_iff₀ hz] at h1
      rw [div_le_iff₀ n0]
      linarith
    have h3 := neg_abs_le ((S ^ n).trace - z)
    linarith
  set W₂ := exp ((((n - k : ℕ) : ℝ) / n) • (B + A)) with hW₂
  set W₁ := exp (((k : ℝ) / n) • (B + A)) with hW₁
  have hx := norm_le_size X
  have hy := norm_le_size Y
  have x0 := size_nonneg X
  have y0 := size_nonneg Y
  have m3 : ∀ {P Q : Matrix m m ℝ} {p q : ℝ}, 0 ≤ p → 0 ≤ q → ‖P‖ ≤ p → ‖Q‖ ≤ q →
      ‖P * X * Q * Y‖ ≤ p * q * (size X * size Y) := by
    intro P Q p q hp hq h1 h2
    calc ‖P * X * Q * Y‖ ≤ ‖P‖ * ‖X‖ * ‖Q‖ * ‖Y‖ :=
          (norm_mul_le _ _).trans (mul_le_mul_of_nonneg_right ((norm_mul_le _ _).trans
            (mul_le_mul_of_nonneg_right (norm_mul_le _ _) (norm_nonneg _))) (norm_nonneg _))
      _ ≤ p * size X * q * size Y := by gcongr
      _ = _ := by ring
  have hnum : |(S ^ (n - k) * X * S ^ k * Y).trace - (W₂ * X * W₁ * Y).trace|
      ≤ d * (D * (E + D) + E * D) / n * (size X * size Y) := by
    rw [← Matrix.trace_sub]
    refine (trace_le _).trans ?_
    have e : S ^ (n - k) * X * S ^ k * Y - W₂ * X * W₁ * Y = (S ^ (n - k) - W₂) * X * S ^ k * Y + W₂ * X * (S ^ k - W₁) * Y := by
      noncomm_ring
    have h1 : ‖(S ^ (n - k) - W₂) * X * S ^ k * Y‖ ≤ D / n * (E + D) * (size X * size Y) :=
      m3 (by positivity) (by positivity) (hpow (n - k) (Nat.sub_le _ _)) (hSn k hk)
    have h2 : ‖W₂ * X * (S ^ k - W₁) * Y‖ ≤ E * (D / n) * (size X * size Y) :=
      m3 (by positivity) (by positivity) (hW (n - k) (Nat.sub_le _ _)) (hpow k hk)
    rw [e]
    calc d * ‖(S ^ (n - k) - W₂) * X * S ^ k * Y + W₂ * X * (S ^ k - W₁) * Y‖
        ≤ d * (D / n * (E + D) * (size X * size Y) + E * (D / n) * (size X * size Y)) := by
          gcongr
          exact (norm_add_le _ _).trans (add_le_add h1 h2)
      _ = _ := by ring
  have ha : |(W₂ * X * W₁ * Y).trace| ≤ d * (E * E) * (size X * size Y) := by
    refine (trace_le _).trans ?_
    have := m3 E0.le E0.le (hW (n - k) (Nat.sub_le _ _)) (hW k hk)
    rw [mul_assoc d]
    exact mul_le_mul_of_nonneg_left this d0
  refine (div_sub_div_le hz hz2 hnum hz1).trans ?_
  have hxy : 0 ≤ size X * size Y := mul_nonneg x0 y0
  calc 2 * (d * (D * (E + D) + E * D) / n * (size X * size Y) * z + |(W₂ * X * W₁ * Y).trace| * (d * D / n)) / z ^ 2
      ≤ 2 * (d * (D * (E + D) + E * D) / n * (size X * size Y) * z + d * (E * E) * (size X * size Y) * (d * D / n)) / z ^ 2 := by
        gcongr
    _ = _ := by ring

omit [Nonempty m] in
/-- the product of the steps in terms of symmetric steps -/
theorem pow_symmetrise (A h : Matrix m m ℝ) (n : ℕ) :
    (exp (h + h) * exp A) ^ n = exp h * (exp h * exp A * exp h) ^ n * exp (-h) := by
  have h1 : exp (h + h) = exp h * exp h := Matrix.exp_add_of_commute _ _ (Commute.refl _)
  have h2 : exp (-h) * exp h = 1 := by
    rw [← Matrix.exp_add_of_commute _ _ (Commute.refl h).neg_left, neg_add_cancel, exp_zero]
  have h3 : exp h * exp (-h) = 1 := by
    rw [← Matrix.exp_add_of_commute _ _ (Commute.refl h).neg_right, add_neg_cancel, exp_zero]
  induction n with
  | zero => simp [h3]
  | succ n ih =>
    rw [pow_succ, ih, pow_succ, h1]
    calc exp h * (exp h * exp A * exp h) ^ n * exp (-h) * (exp h * exp h * exp A)
        = exp h * (exp h * exp A * exp h) ^ n * (exp (-h) * exp h) * (exp h * exp A) := by simp only [mul_assoc]
      _ = exp h * (exp h * exp A * exp h) ^ n * (exp h * exp A) * (exp h * exp (-h)) := by rw [h2, h3, mul_one, mul_one]
      _ = _ := by simp only [mul_assoc]

/-- expectation values of the product of many small steps: a symmetric operator -/
theorem symm_limit {A B : Matrix m m ℝ} (hA : A.IsSymm) (hB : B.IsSymm) : ∃ (C : ℝ) (n₀ : ℕ), ∀ n ≥ n₀,
    ∀ X : Matrix m m ℝ, X.IsSymm →
    |((exp ((n : ℝ)⁻¹ • B) * exp ((n : ℝ)⁻¹ • A)) ^ n * X).trace / ((exp ((n : ℝ)⁻¹ • B) * exp ((n : ℝ)⁻¹ • A)) ^ n).trace
      - (exp (B + A) * X).trace / (exp (B + A)).trace| ≤ C * size X / n ^ 2 := by
  have hz : 0 < (exp (B + A)).trace := trace_exp_pos (hB.add hA)
  set z := (exp (B + A)).trace with hzdef
  set h : Matrix m m ℝ := (2 : ℝ)⁻¹ • B with hh
  have hBh : B = h + h := by
    rw [hh, ← add_smul]
    norm_num
  have hhs : h.IsSymm := hB.smul _
  set s := ‖A‖ + 2 * ‖h‖ with hs
  have s0 : 0 ≤ s := by positivity
  set D := 21 * s ^ 3 * Real.exp (4 * s) with hD
  have D0 : 0 ≤ D := by positivity
  set E := ‖exp (B + A)‖ with hE
  have E0 : 0 ≤ E := norm_nonneg _
  set G := 6 * ‖h‖ ^ 2 * Real.exp (2 * ‖h‖) with hG
  have G0 : 0 ≤ G := by positivity
  set d : ℝ := (Fintype.card m : ℝ) with hd
  have d0 : 0 ≤ d := by positivity
  obtain ⟨n₁, hn₁⟩ := exists_nat_gt (2 * d * D / z)
  refine ⟨2 * (d * ((E + D) * (G / 2) + D) * z + d * E * (d * D)) / z ^ 2, max n₁ 1, fun n hn X hX => ?_⟩
  have hn1 : 0 < n := lt_of_lt_of_le one_pos ((le_max_right _ _).trans hn)
  have n0 : (0 : ℝ) < n := by exact_mod_cast hn1
  have n1 : (1 : ℝ) ≤ n := by exact_mod_cast hn1
  have n2 : (1 : ℝ) ≤ n ^ 2 := one_le_pow₀ n1
  set h' := (n : ℝ)⁻¹ • h with hh'
  set A' := (n : ℝ)⁻¹ • A with hA'
  set S := exp h' * exp A' * exp h' with hS
  have hhs' : h'.IsSymm := hhs.smul _
  have hAs' : A'.IsSymm := hA.smul _
  have hSsym : (S ^ n)ᵀ = S ^ n := by
    rw [Matrix.transpose_pow]
    congr 1
    rw [hS, Matrix.transpose_mul, Matrix.transpose_mul, ← Matrix.exp_transpose, ← Matrix.exp_transpose,
      hAs'.eq, hhs'.eq, mul_assoc]
  have hpow : ‖S ^ n - exp (B + A)‖ ≤ D / n ^ 2 := by
    have := trotter_two A h hn1
    rwa [show A + h + h = B + A by rw [hBh]; abel] at this
  have hSn : ‖S ^ n‖ ≤ E + D := by
    have h1 := norm_add_le (S ^ n - exp (B + A)) (exp (B + A))
    rw [sub_add_cancel] at h1
    have h2 : D / n ^ 2 ≤ D := div_le_self D0 n2
    linarith
  have e1 : exp ((n : ℝ)⁻¹ • B) * exp A' = exp (h' + h') * exp A' := by rw [hBh, smul_add]
  rw [e1, pow_symmetrise]
  have h2 : exp (-h') * exp h' = 1 := by
    rw [← Matrix.exp_add_of_commute _ _ (Commute.refl h').neg_left, neg_add_cancel, exp_zero]
  have t0 : (exp h' * S ^ n * exp (-h')).trace = (S ^ n).trace := by
    rw [mul_assoc, Matrix.trace_mul_comm, mul_assoc, h2, mul_one]
  have t1 : (exp h' * S ^ n * exp (-h') * X).trace = (S ^ n * (exp (-h') * X * exp h')).trace := by
    rw [mul_assoc, mul_assoc, Matrix.trace_mul_comm, mul_assoc]
  have t2 : (S ^ n * (exp (-h') * X * exp h')).trace = (S ^ n * (exp h' * X * exp (-h'))).trace := by
    rw [← Matrix.trace_transpose, Matrix.transpose_mul, hSsym, Matrix.trace_mul_comm, Matrix.transpose_mul, Matrix.transpose_mul,
      hX.eq, ← Matrix.exp_transpose, ← Matrix.exp_transpose, Matrix.transpose_neg, hhs'.eq, mul_assoc]
  have hz1 : |(S ^ n).trace - z| ≤ d * D / n ^ 2 := by
    rw [hzdef, ← Matrix.trace_sub]
    refine (trace_le _).trans ?_
    rw [mul_div_assoc]
    gcongr
  have hz2 : z / 2 ≤ (S ^ n).trace := by
    have h1 : 2 * d * D / z < n := lt_of_lt_of_le hn₁ (by exact_mod_cast (le_max_left _ _).trans hn)
    have h2 : d * D / n ^ 2 ≤ z / 2 := by
      rw [div_lt_iff₀ hz] at h1
      rw [div_le_iff₀ (by positivity)]
      have : z * n ≤ z * n ^ 2 := by
        rw [sq]
        nlinarith [mul_pos hz n0]
      linarith
    have h3 := neg_abs_le ((S ^ n).trace - z)
    linarith
  have hx := norm_le_size X
  have x0 := size_nonneg X
  have hr : ‖exp h' * X * exp (-h') + exp (-h') * X * exp h' - (X + X)‖ ≤ G / n ^ 2 * size X := by
    refine (rotate_two X h').trans ?_
    have hn' : ‖h'‖ = ‖h‖ / n := by
      rw [hh', norm_smul, norm_inv, Real.norm_natCast, div_eq_inv_mul]
    have hle : ‖h‖ / n ≤ ‖h‖ := div_le_self (norm_nonneg _) n1
    rw [hn', div_pow]
    calc 6 * (‖h‖ ^ 2 / n ^ 2) * Real.exp (2 * (‖h‖ / n)) * ‖X‖ ≤ 6 * (‖h‖ ^ 2 / n ^ 2) * Real.exp (2 * ‖h‖) * size X := by
          have := Real.exp_le_exp.2 (mul_le_mul_of_nonneg_left hle (by norm_num : (0 : ℝ) ≤ 2))
          gcongr
      _ = _ := by rw [hG]; ring
  have hnum : |(exp h' * S ^ n * exp (-h') * X).trace - (exp (B + A) * X).trace|
      ≤ d * ((E + D) * (G / 2) + D) / n ^ 2 * size X := by
    have e2 : (exp h' * S ^ n * exp (-h') * X).trace - (exp (B + A) * X).trace
        = (1 / 2) * (S ^ n * (exp h' * X * exp (-h') + exp (-h') * X * exp h' - (X + X))).trace
          + ((S ^ n - exp (B + A)) * X).trace := by
      rw [mul_sub, mul_add, mul_add, sub_mul, Matrix.trace_sub, Matrix.trace_sub, Matrix.trace_add, Matrix.trace_add, ← t2, ← t1]
      ring
    rw [e2]
    refine (abs_add_le _ _).trans ?_
    rw [abs_mul, abs_of_pos (by norm_num : (0 : ℝ) < 1 / 2)]
    have h3 : |(S ^ n * (exp h' * X * exp (-h') + exp (-h') * X * exp h' - (X + X))).trace|
        ≤ d * ((E + D) * (G / n ^ 2 * size X)) := by
      refine (trace_le _).trans ?_
      gcongr
      exact (norm_mul_le _ _).trans (mul_le_mul hSn hr (norm_nonneg _) (by positivity))
    have h4 : |((S ^ n - exp (B + A)) * X).trace| ≤ d * (D / n ^ 2 * size X) := by
      refine (trace_le _).trans ?_
      gcongr
      exact (norm_mul_le _ _).trans (mul_le_mul hpow hx (norm_nonneg _) (by positivity))
    calc _ ≤ 1 / 2 * (d * ((E + D) * (G / n ^ 2 * size X))) + d * (D / n ^ 2 * size X) := by gcongr
      _ = _ := by ring
  have ha : |(exp (B + A) * X).trace| ≤ d * E * size X := by
    refine (trace_le _).trans ?_
    rw [mul_assoc]
    gcongr
    exact (norm_mul_le _ _).trans (mul_le_mul_of_nonneg_left hx E0)
  rw [t0]
  refine (div_sub_div_le hz hz2 hnum hz1).trans ?_
  calc 2 * (d * ((E + D) * (G / 2) + D) / n ^ 2 * size X * z + |(exp (B + A) * X).trace| * (d * D / n ^ 2)) / z ^ 2
      ≤ 2 * (d * ((E + D) * (G / 2) + D) / n ^ 2 * size X * z + d * E * size X * (d * D / n ^ 2)) / z ^ 2 := by gcongr
    _ = _ := by ring

end matrices

/-! ## The Hubbard model -/

section hubbard

variable {N : ℕ}

theorem hopOp_symm {K : Mat N} (hK : K.IsSymm) : (hopOp K).IsSymm := by
  rw [hopOp_eq]
  exact oneBody_symm (both_symm hK)

theorem repOp_symm (U : Fin N → ℝ) : (repOp U).IsSymm := by
  rw [repOp_eq]
  exact Matrix.diagonal_transpose _

theorem stepOp_eq (K : Mat N) (U : Fin N → ℝ) (β : ℝ) (L : ℕ) :
    stepOp K U (β / L) (fun _ => 0) = exp ((L : ℝ)⁻¹ • (-β • repOp U)) * exp ((L : ℝ)⁻¹ • (-β • hopOp K)) := by
  have e : ∀ X : Op (Mode N), (L : ℝ)⁻¹ • (-β • X) = -(β / L) • X := fun X => by
    rw [smul_smul]
    congr 1
    ring
  rw [e, e, stepOp]
  have : potOp (fun _ : Fin N => (0 : ℝ)) = 0 := by simp [potOp]
  rw [this, smul_zero, exp_zero, mul_one]

variable {K : Mat N} (hK : K.IsSymm) (U : Fin N → ℝ) (β : ℝ)
include hK

/-- two operators at different times: the error of `L` time slices is at most of order `1 / L` -/
theorem thermalPair_limit : ∃ (C : ℝ) (L₀ : ℕ), ∀ L ≥ L₀, ∀ l ≤ L, ∀ X Y : Op (Mode N),
    |thermalPair (stepOp K U (β / L) fun _ => 0) L l X Y - gibbsPair (hopOp K + repOp U) β (l * (β / L)) X Y|
      ≤ C * size X * size Y / L := by
  obtain ⟨C, n₀, h⟩ := pair_limit ((hopOp_symm hK).smul (-β)) ((repOp_symm U).smul (-β))
  refine ⟨C, max n₀ 1, fun L hL l hl X Y => ?_⟩
  have h0 : (L : ℝ) ≠ 0 := by
    have : 0 < L := lt_of_lt_of_le one_pos ((le_max_right _ _).trans hL)
    exact_mod_cast this.ne'
  have := h L ((le_max_left _ _).trans hL) l hl X Y
  rw [← stepOp_eq, ← smul_add, add_comm (repOp U), smul_smul, smul_smul] at this
  rw [thermalPair, gibbsPair]
  have e1 : ((L - l : ℕ) : ℝ) / L * -β = -(β - l * (β / L)) := by
    rw [Nat.cast_sub hl]
    field_simp
  have e2 : (l : ℝ) / L * -β = -(l * (β / L)) := by ring
  rwa [e1, e2] at this

/-- one operator: the error of `L` time slices is at most of order `1 / L` -/
theorem thermalMean_limit : ∃ (C : ℝ) (L₀ : ℕ), ∀ L ≥ L₀, ∀ X : Op (Mode N),
    |thermalMean (stepOp K U (β / L) fun _ => 0) L X - gibbsMean (hopOp K + repOp U) β X| ≤ C * size X / L := by
  obtain ⟨C, n₀, h⟩ := thermalPair_limit hK U β
  refine ⟨C * size (1 : Op (Mode N)), n₀, fun L hL X => ?_⟩
  have := h L hL 0 (Nat.zero_le _) X 1
  simp only [thermalPair, gibbsPair, Nat.sub_zero, pow_zero, mul_one, Nat.cast_zero, zero_mul, sub_zero, neg_zero,
    zero_smul, exp_zero] at this
  rw [thermalMean, gibbsMean]
  calc _ ≤ _ := this
    _ = _ := by ring

/-- one symmetric operator: the error of `L` time slices is at most of order `1 / L²` -/
theorem thermalMean_limit_symm : ∃ (C : ℝ) (L₀ : ℕ), ∀ L ≥ L₀, ∀ X : Op (Mode N), X.IsSymm →
    |thermalMean (stepOp K U (β / L) fun _ => 0) L X - gibbsMean (hopOp K + repOp U) β X| ≤ C * size X / L ^ 2 := by
  obtain ⟨C, n₀, h⟩ := symm_limit ((hopOp_symm hK).smul (-β)) ((repOp_symm U).smul (-β))
  refine ⟨C, n₀, fun L hL X hX => ?_⟩
  have := h L hL X hX
  rw [← stepOp_eq, ← smul_add, add_comm (repOp U)] at this
  exact this

end hubbard

/-! ## The operators of the measurements -/

section operators

variable {N : ℕ}

theorem ann_transpose (x : Mode N) : (ann x)ᵀ = cre x := by rw [← cre_transpose, Matrix.transpose_transpose]

theorem bilinear_comm {i j k l : Mode N} (h1 : j ≠ k) (h2 : l ≠ i) : Commute (cre i * ann j) (cre k * ann l) := by
  have e1 : ann j * cre k = -(cre k * ann j) := by
    have := ann_cre j k
    rw [if_neg h1] at this
    exact eq_neg_of_add_eq_zero_left this
  have e2 : ann l * cre i = -(cre i * ann l) := by
    have := ann_cre l i
    rw [if_neg h2] at this
    exact eq_neg_of_add_eq_zero_left this
  have e3 : cre i * cre k = -(cre k * cre i) := eq_neg_of_add_eq_zero_left (cre_anti i k)
  have e4 : ann j * ann l = -(ann l * ann j) := eq_neg_of_add_eq_zero_left (ann_anti j l)
  show cre i * ann j * (cre k * ann l) = cre k * ann l * (cre i * ann j)
  calc cre i * ann j * (cre k * ann l) = cre i * (ann j * cre k) * ann l := by simp only [mul_assoc]
    _ = -(cre i * cre k * (ann j * ann l)) := by rw [e1]; simp only [mul_assoc, mul_neg, neg_mul]
    _ = -(cre k * cre i * (ann l * ann j)) := by rw [e3, e4]; simp
    _ = cre k * (-(cre i * ann l)) * ann j := by simp only [mul_assoc, mul_neg, neg_mul]
    _ = _ := by rw [← e2]; simp only [mul_assoc]

theorem opOf_nOp (sp : Bool) (a : Fin N) : opOf (nOp sp a) = num (a, sp) := by
  simp [opOf, nOp, num_eq]

theorem opOf_zOp (a : Fin N) : opOf (zOp a) = num (a, true) - num (a, false) := by
  simp [opOf, zOp, num_eq, sub_eq_add_neg]

theorem opOf_xOp (a : Fin N) : opOf (xOp a) = cre (a, false) * ann (a, true) + cre (a, true) * ann (a, false) := by
  simp [opOf, xOp]

theorem num_symm (x : Mode N) : (num x).IsSymm := Matrix.diagonal_transpose _

theorem num_comm (x y : Mode N) : Commute (num x) (num y) := by
  show num x * num y = num y * num x
  rw [num, num, Matrix.diagonal_mul_diagonal, Matrix.diagonal_mul_diagonal]
  congr 1
  funext S
  ring

theorem mul_symm {X Y : Op (Mode N)} (hX : X.IsSymm) (hY : Y.IsSymm) (h : Commute X Y) : (X * Y).IsSymm := by
  show (X * Y)ᵀ = X * Y
  rw [Matrix.transpose_mul, hX.eq, hY.eq, h.eq]

theorem xOp_symm (a : Fin N) : (opOf (xOp a)).IsSymm := by
  show (opOf (xOp a))ᵀ = _
  rw [opOf_xOp, Matrix.transpose_add, Matrix.transpose_mul, Matrix.transpose_mul]
  simp only [ann_transpose, cre_transpose]
  rw [add_comm]

theorem xOp_comm (a b : Fin N) : Commute (opOf (xOp a)) (opOf (xOp b)) := by
  by_cases h : a = b
  · rw [h]
  · have hab : ∀ s t : Bool, ((a, s) : Mode N) ≠ (b, t) := fun s t e => h (congrArg Prod.fst e)
    rw [opOf_xOp, opOf_xOp]
    refine Commute.add_left (Commute.add_right ?_ ?_) (Commute.add_right ?_ ?_) <;>
      exact bilinear_comm (hab _ _) (hab _ _).symm

theorem densOp_symm (a : Fin N) (f : EqF) : (densOp a f).IsSymm := by
  cases f <;> simp only [densOp, opOf_nOp]
  case densityU => exact num_symm _
  case densityD => exact num_symm _
  case doubleocc => exact mul_symm (num_symm _) (num_symm _) (num_comm _ _)
  all_goals exact Matrix.isSymm_zero

theorem corrOp_symm (a b : Fin N) (f : EqF) : (corrOp a b f).IsSymm := by
  cases f <;> simp only [corrOp, opOf_nOp, opOf_zOp]
  case uu => exact mul_symm (num_symm _) (num_symm _) (num_comm _ _)
  case dd => exact mul_symm (num_symm _) (num_symm _) (num_comm _ _)
  case ud =>
    exact (mul_symm (num_symm _) (num_symm _) (num_comm _ _)).add (mul_symm (num_symm _) (num_symm _) (num_comm _ _))
  case zz =>
    refine mul_symm ((num_symm _).sub (num_symm _)) ((num_symm _).sub (num_symm _)) ?_
    exact ((num_comm _ _).sub_right (num_comm _ _)).sub_left ((num_comm _ _).sub_right (num_comm _ _))
  case xx => exact mul_symm (xOp_symm _) (xOp_symm _) (xOp_comm _ _)
  all_goals exact Matrix.isSymm_zero

end operators

/-! ## The arrays -/

section arrays

variable {N : ℕ} [NeZero N]

/-- specification: order in `1 / L` of the error of the entries of the equal time arrays -/
def order : EqF → ℕ
  | .densityU | .densityD | .doubleocc | .uu | .dd | .zz | .xx | .ud => 2
  | _ => 1

instance : Finite EqF := by
  refine Finite.of_injective (β := Fin 14) (fun f => match f with
    | .densityU => 0 | .densityD => 1 | .doubleocc => 2 | .grfunU => 3 | .grfunD => 4 | .uu => 5 | .dd => 6 | .ud => 7
    | .ff => 8 | .zz => 9 | .xx => 10 | .scSw => 11 | .scDw => 12 | .scSx => 13) ?_
  intro a b h
  cases a <;> cases b <;> first | rfl | exact absurd h (by decide)

instance : Finite UneqF := by
  refine Finite.of_injective (β := Fin 16) (fun f => match f with
    | .gtau0U => 0 | .g0tauU => 1 | .geqltU => 2 | .gtau0D => 3 | .g0tauD => 4 | .geqltD => 5 | .nn => 6 | .zz => 7
    | .xx => 8 | .scSw => 9 | .scDw => 10 | .scSx => 11 | .jx => 12 | .jy => 13 | .b1g => 14 | .b2g => 15) ?_
  intro a b h
  cases a <;> cases b <;> first | rfl | exact absurd h (by decide)

omit [NeZero N] in
theorem cellAvg_sub_le {n : ℕ} {F G : ℕ → ℝ} {e : ℝ} (he : 0 ≤ e) (h : ∀ c < n, |F c - G c| ≤ e) :
    |cellAvg n F - cellAvg n G| ≤ e := by
  rw [cellAvg, cellAvg, ← sub_div, ← Finset.sum_sub_distrib, abs_div, Nat.abs_cast]
  rcases Nat.eq_zero_or_pos n with rfl | hn
  · simpa using he
  · rw [div_le_iff₀ (by exact_mod_cast hn)]
    refine (Finset.abs_sum_le_sum_abs _ _).trans ?_
    refine (Finset.sum_le_card_nsmul _ _ e fun c hc => h c (Finset.mem_range.1 hc)).trans ?_
    rw [Finset.card_range, nsmul_eq_mul, mul_comm]

variable (N) in
/-- the sizes of the operators are bounded -/
theorem eq_bound (Nx Ny Norb : ℕ) (t : ℤ) : ∃ M : ℝ, 0 ≤ M ∧ (∀ (a : Fin N) f, size (densOp a f) ≤ M) ∧
    (∀ (a b : Fin N) f, size (corrOp a b f) ≤ M) ∧
    (∀ f, ∀ o < Norb, ∀ c < Nx * Ny, ∀ c' < Nx * Ny, size (pairsOp (N := N) Nx Ny t o c c' f) ≤ M) ∧
    ∀ x y : Mode N, size (ann x * cre y) ≤ M := by
  obtain ⟨M₁, h₁⟩ := Finite.exists_le fun x : Fin N × EqF => size (densOp x.1 x.2)
  obtain ⟨M₂, h₂⟩ := Finite.exists_le fun x : Fin N × Fin N × EqF => size (corrOp x.1 x.2.1 x.2.2)
  obtain ⟨M₃, h₃⟩ := Finite.exists_le fun x : EqF × Fin Norb × Fin (Nx * Ny) × Fin (Nx * Ny) =>
    size (pairsOp (N := N) Nx Ny t x.2.1 x.2.2.1 x.2.2.2 x.1)
  obtain ⟨M₄, h₄⟩ := Finite.exists_le fun x : Mode N × Mode N => size (ann x.1 * cre x.2)
  refine ⟨max (max M₁ M₂) (max M₃ M₄), ?_, fun a f => ?_, fun a b f => ?_, fun f o ho c hc c' hc' => ?_, fun x y => ?_⟩
  · exact (size_nonneg _).trans ((h₁ (0, .uu)).trans ((le_max_left _ _).trans (le_max_left _ _)))
  · exact (h₁ (a, f)).trans ((le_max_left _ _).trans (le_max_left _ _))
  · exact (h₂ (a, b, f)).trans ((le_max_right _ _).trans (le_max_left _ _))
  · exact (h₃ (f, ⟨o, ho⟩, ⟨c, hc⟩, ⟨c', hc'⟩)).trans ((le_max_left _ _).trans (le_max_right _ _))
  · exact (h₄ (x, y)).trans ((le_max_right _ _).trans (le_max_right _ _))

/-- statements about nearby expectation values -/
theorem eq_transfer {Nx Ny Norb : ℕ} (hx : 0 < Nx) (hy : 0 < Ny) {s t : ℤ} {M e₁ e₂ : ℝ} (h₁ : 0 ≤ e₁) (h₂ : 0 ≤ e₂)
    (hM : 0 ≤ M ∧ (∀ (a : Fin N) f, size (densOp a f) ≤ M) ∧ (∀ (a b : Fin N) f, size (corrOp a b f) ≤ M) ∧
      (∀ f, ∀ o < Norb, ∀ c < Nx * Ny, ∀ c' < Nx * Ny, size (pairsOp (N := N) Nx Ny t o c c' f) ≤ M) ∧
      ∀ x y : Mode N, size (ann x * cre y) ≤ M) {T T' : Op (Mode N) → ℝ}
    (ht : ∀ X, |T' X - T X| ≤ e₁ * size X) (hs : ∀ X, X.IsSymm → |T' X - T X| ≤ e₂ * size X)
    {R : EqF → ℤ → ℝ → Prop} (hR : EqHolds Nx Ny Norb s t T' R) :
    EqHolds Nx Ny Norb s t T fun f z v => ∃ v', |v' - v| ≤ (if order f = 2 then e₂ else e₁) * M ∧ R f z v' := by
  obtain ⟨m0, m1, m2, m3, m4⟩ := hM
  constructor
  · intro f hf o ho
    refine ⟨_, ?_, hR.dens f hf o ho⟩
    rw [if_pos (by fin_cases hf <;> rfl)]
    exact cellAvg_sub_le (by positivity) fun c _ => (hs _ (densOp_symm _ _)).trans (by gcongr; exact m1 _ _)
  · intro f hf o p ho hp dx dy
    refine ⟨_, ?_, hR.corr f hf o p ho hp dx dy⟩
    rw [if_pos (by fin_cases hf <;> rfl)]
    exact cellAvg_sub_le (by positivity) fun c _ => (hs _ (corrOp_symm _ _ _)).trans (by gcongr; exact m2 _ _ _)
  · intro f hf o ho dx dy
    refine ⟨_, ?_, hR.pair f hf o ho dx dy⟩
    rw [if_neg (by fin_cases hf <;> decide)]
    exact cellAvg_sub_le (by positivity) fun c hc => (ht _).trans (by
      gcongr
      exact m3 f o ho c hc _ (moveCell_lt hx hy s c dx dy))
  · intro a b
    exact ⟨_, (ht _).trans (by rw [if_neg (by decide)]; gcongr; exact m4 _ _), hR.grfunU a b⟩
  · intro a b
    exact ⟨_, (ht _).trans (by rw [if_neg (by decide)]; gcongr; exact m4 _ _), hR.grfunD a b⟩

omit [NeZero N] in
theorem uvalue_bound (x : Fin N × Fin N × UneqF) : ∃ M : ℝ, ∀ (L : ℕ) (T T' : ℕ → Op (Mode N) → Op (Mode N) → ℝ) (e : ℝ),
    0 ≤ e → (∀ l ≤ L, ∀ X Y, |T' l X Y - T l X Y| ≤ e * (size X * size Y)) → ∀ l ≤ L,
    |uvalue T' l x.1 x.2.1 x.2.2 - uvalue T l x.1 x.2.1 x.2.2| ≤ e * M := by
  obtain ⟨a, b, f⟩ := x
  have neg : ∀ u v : ℝ, |-u - -v| = |u - v| := fun u v => by rw [← abs_neg]; congr 1; ring
  have two : ∀ (X Y X' Y' : Op (Mode N)), ∃ M : ℝ, ∀ (L : ℕ) (T T' : ℕ → Op (Mode N) → Op (Mode N) → ℝ) (e : ℝ),
      0 ≤ e → (∀ l ≤ L, ∀ X Y, |T' l X Y - T l X Y| ≤ e * (size X * size Y)) → ∀ l ≤ L,
      |(if l = 0 then T' 0 X Y else -T' l X' Y') - (if l = 0 then T 0 X Y else -T l X' Y')| ≤ e * M := by
    intro X Y X' Y'
    refine ⟨size X * size Y + size X' * size Y', fun L T T' e he h l hl => ?_⟩
    have p1 : 0 ≤ size X * size Y := mul_nonneg (size_nonneg _) (size_nonneg _)
    have p2 : 0 ≤ size X' * size Y' := mul_nonneg (size_nonneg _) (size_nonneg _)
    split
    · exact (h 0 (Nat.zero_le _) X Y).trans (by gcongr; linarith)
    · rw [neg]
      exact (h l hl X' Y').trans (by gcongr; linarith)
  cases f
  case g0tauU => exact two _ _ _ _
  case g0tauD => exact two _ _ _ _
  all_goals first
    | exact ⟨_, fun L T T' e he h l hl => h l hl _ _⟩
    | exact ⟨0, fun L T T' e he h l hl => by simp [uvalue]⟩

theorem upair_bound {Nx Ny Norb : ℕ} {t : ℤ} (x : UneqF × Fin Norb × Fin (Nx * Ny) × Fin (Nx * Ny)) : ∃ M : ℝ,
    ∀ (L : ℕ) (T T' : ℕ → Op (Mode N) → Op (Mode N) → ℝ) (e : ℝ),
    0 ≤ e → (∀ l ≤ L, ∀ X Y, |T' l X Y - T l X Y| ≤ e * (size X * size Y)) → ∀ l ≤ L,
    |upairValue Nx Ny t T' l x.2.1 x.2.2.1 x.2.2.2 x.1 - upairValue Nx Ny t T l x.2.1 x.2.2.1 x.2.2.2 x.1| ≤ e * M := by
  obtain ⟨f, o, c, c'⟩ := x
  have neg : ∀ u v : ℝ, |-u - -v| = |u - v| := fun u v => by rw [← abs_neg]; congr 1; ring
  cases f
  case jx => exact ⟨_, fun L T T' e he h l hl => (neg _ _).trans_le (h l hl _ _)⟩
  case jy => exact ⟨_, fun L T T' e he h l hl => (neg _ _).trans_le (h l hl _ _)⟩
  all_goals first
    | exact ⟨_, fun L T T' e he h l hl => h l hl _ _⟩
    | exact ⟨0, fun L T T' e he h l hl => by simp [upairValue]⟩

variable (N) in
theorem uneq_transfer {Nx Ny : ℕ} (hx : 0 < Nx) (hy : 0 < Ny) (Norb : ℕ) (s t : ℤ) (b1 : Prop) : ∃ M : ℝ, 0 ≤ M ∧
    ∀ (L : ℕ) (T T' : ℕ → Op (Mode N) → Op (Mode N) → ℝ) (e : ℝ), 0 ≤ e →
    (∀ l ≤ L, ∀ X Y, |T' l X Y - T l X Y| ≤ e * (size X * size Y)) → ∀ R : UneqF → ℤ → ℝ → Prop,
    UneqHolds Nx Ny Norb L s t b1 T' R →
    UneqHolds Nx Ny Norb L s t b1 T fun f z v => ∃ v', |v' - v| ≤ e * M ∧ R f z v' := by
  choose M₁ h₁ using uvalue_bound (N := N)
  choose M₂ h₂ using upair_bound (N := N) (Nx := Nx) (Ny := Ny) (Norb := Norb) (t := t)
  obtain ⟨A, hA⟩ := Finite.exists_le M₁
  obtain ⟨B, hB⟩ := Finite.exists_le M₂
  refine ⟨max 0 (max A B), le_max_left _ _, fun L T T' e he h R hR => ⟨?_, ?_⟩⟩
  · intro f hf l o p hl ho hp dx dy
    refine ⟨_, ?_, hR.corr f hf l o p hl ho hp dx dy⟩
    refine cellAvg_sub_le (by positivity) fun c _ => (h₁ (_, _, f) L T T' e he h l hl.le).trans ?_
    gcongr
    exact (hA _).trans ((le_max_left _ _).trans (le_max_right _ _))
  · intro f hf hb l o hl ho dx dy
    refine ⟨_, ?_, hR.pair f hf hb l o hl ho dx dy⟩
    refine cellAvg_sub_le (by positivity) fun c hc =>
      (h₂ (f, ⟨o, ho⟩, ⟨c, hc⟩, ⟨_, moveCell_lt hx hy s c dx dy⟩) L T T' e he h l hl.le).trans ?_
    gcongr
    exact (hB _).trans ((le_max_right _ _).trans (le_max_right _ _))

end arrays

/-! ## The program -/

section program

open MeasureTheory Verif.Main Verif.Progress Verif.Random Verif.Params Verif.TimeFlow

/-- specification: the same parameters with `L` time slices for the inverse temperature `β` -/
noncomputable def withSlices (p : SimParams ℝ) (β : ℝ) (L : ℕ) : SimParams ℝ := { p with L := L, dt := β / L }

instance (p : SimParams ℝ) (β : ℝ) (L : ℕ) [h : NeZero (sites p)] : NeZero (sites (withSlices p β L)) := h

/-- specification: Hamiltonian of the Hubbard model with the parameters of the run -/
noncomputable def hubbardOp (p : SimParams ℝ) : Op (Mode (sites p)) :=
  hopOp (bondMatrix p) + repOp fun i => p.U ((i.val / (p.Nx.toNat * p.Ny.toNat) : ℕ))

/-- C93: what holds for the expectation values with `L` time slices holds for values which differ from the expectation
values in the Hubbard model by at most a constant divided by `L`, and by `L²` for densities, double occupancy and density
and spin correlations at equal times. -/
theorem slices_limit (p : SimParams ℝ) [NeZero (sites p)] (hx : 0 < p.Nx.toNat) (hy : 0 < p.Ny.toNat) (β : ℝ) (s t : ℤ)
    (b1 : Prop) : ∃ (C : ℝ) (L₀ : ℕ), ∀ L ≥ L₀,
    (∀ R : EqF → ℤ → ℝ → Prop, EqHolds p.Nx.toNat p.Ny.toNat p.Norb.toNat s t (thermalMean (hubbardStep (withSlices p β L)) L) R →
      EqHolds p.Nx.toNat p.Ny.toNat p.Norb.toNat s t (gibbsMean (hubbardOp p) β) fun f z v =>
        ∃ v', |v' - v| ≤ C / (L : ℝ) ^ order f ∧ R f z v') ∧
    ∀ R : UneqF → ℤ → ℝ → Prop, UneqHolds p.Nx.toNat p.Ny.toNat p.Norb.toNat L s t b1 (thermalPair (hubbardStep (withSlices p β L)) L) R →
      UneqHolds p.Nx.toNat p.Ny.toNat p.Norb.toNat L s t b1 (fun l => gibbsPair (hubbardOp p) β (l * (β / L))) fun f z v =>
        ∃ v', |v' - v| ≤ C / L ∧ R f z v' := by
  set U : Fin (sites p) → ℝ := fun i => p.U ((i.val / (p.Nx.toNat * p.Ny.toNat) : ℕ)) with hU
  have hK := bondMatrix_symm p
  obtain ⟨C₁, n₁, h₁⟩ := thermalMean_limit hK U β
  obtain ⟨C₂, n₂, h₂⟩ := thermalMean_limit_symm hK U β
  obtain ⟨C₃, n₃, h₃⟩ := thermalPair_limit hK U β
  obtain ⟨M, hM⟩ := eq_bound (sites p) p.Nx.toNat p.Ny.toNat p.Norb.toNat t
  obtain ⟨M', hM', hu⟩ := uneq_transfer (sites p) hx hy p.Norb.toNat s t b1
  set C := max 0 (max C₁ (max C₂ C₃)) with hC
  have c0 : 0 ≤ C := le_max_left _ _
  have c1 : C₁ ≤ C := (le_max_left _ _).trans (le_max_right _ _)
  have c2 : C₂ ≤ C := (le_max_left _ _).trans ((le_max_right _ _).trans (le_max_right _ _))
  have c3 : C₃ ≤ C := (le_max_right _ _).trans ((le_max_right _ _).trans (le_max_right _ _))
  have m0 := hM.1
  refine ⟨C * (M + M'), max n₁ (max n₂ n₃), fun L hL => ⟨fun R hR => ?_, fun R hR => ?_⟩⟩
  · have t1 : ∀ X, |thermalMean (stepOp (bondMatrix p) U (β / L) fun _ => 0) L X - gibbsMean (hubbardOp p) β X| ≤ C / L * size X := by
      intro X
      refine (h₁ L ((le_max_left _ _).trans hL) X).trans ?_
      rw [div_mul_eq_mul_div]
      have := size_nonneg X
      gcongr
    have t2 : ∀ X, X.IsSymm → |thermalMean (stepOp (bondMatrix p) U (β / L) fun _ => 0) L X - gibbsMean (hubbardOp p) β X| ≤ C / L ^ 2 * size X := by
      intro X hX
      refine (h₂ L ((le_max_left _ _).trans ((le_max_right _ _).trans hL)) X hX).trans ?_
      rw [div_mul_eq_mul_div]
      have := size_nonneg X
      gcongr
    refine (eq_transfer hx hy (by positivity) (by positivity) hM t1 t2 hR).mono fun f z v => ?_
    rintro ⟨v', hv, h⟩
    refine ⟨v', hv.trans ?_, h⟩
    have hle : C * M ≤ C * (M + M') := by gcongr; linarith
    have ho : order f = 2 ∨ order f = 1 := by cases f <;> simp [order]
    rcases ho with e | e <;> rw [e]
    · rw [if_pos rfl, div_mul_eq_mul_div]
      gcongr
    · rw [if_neg (by decide), div_mul_eq_mul_div, pow_one]
      gcongr
  · have t3 : ∀ l ≤ L, ∀ X Y, |thermalPair (stepOp (bondMatrix p) U (β / L) fun _ => 0) L l X Y - gibbsPair (hubbardOp p) β (l * (β / L)) X Y| ≤ C / L * (size X * size Y) := by
      intro l hl X Y
      refine (h₃ L ((le_max_right _ _).trans ((le_max_right _ _).trans hL)) l hl X Y).trans ?_
      rw [div_mul_eq_mul_div, mul_assoc]
      have := mul_nonneg (size_nonneg X) (size_nonneg Y)
      gcongr
    refine (hu L _ _ _ (by positivity) t3 R hR).mono fun f z v => ?_
    rintro ⟨v', hv, h⟩
    refine ⟨v', hv.trans ?_, h⟩
    have hle : C * M' ≤ C * (M + M') := by gcongr; linarith
    rw [div_mul_eq_mul_div]
    gcongr

/-- C93 for long runs: for any parameters and inverse temperature there are constants such that, for all numbers of
time slices which are large enough and accepted, the results of long runs with an ideal source tend to values which
differ from the expectation values in the Hubbard model by at most `C / L`, or `C / L²`. -/
theorem program_limit (p : SimParams ℝ) [NeZero (sites p)] (hx : 0 < p.Nx.toNat) (hy : 0 < p.Ny.toNat) (β : ℝ) :
    ∃ (C : ℝ) (L₀ : ℕ), ∀ L ≥ L₀, ∀ {σ : Type} [MeasurableSpace σ] {P : Measure σ} {mc : Machine}, mc.Rounds →
    let q := withSlices p β L
    Admissible q → Guards q → sites q < 2 ^ 31 → p.usePhonons = false →
    ∀ (fnbase : String) (rng : Rng σ), rng.Lawful (sites q) → rng.Ideal (sites q) P →
    ∀ sys : Sys Seed (sites q) MeasData, sysOf mc q = some sys → (∀ s, sys.weight L s (fun _ _ => 1) ≠ 0) →
    (∀ i : Fin (sites q), p.U ((i.val / (p.Nx.toNat * p.Ny.toNat) : ℕ) : ℤ) = 0 ∨
      ∀ l < L, ∀ x : Field L (sites q), sys.weight L (Fock.extend (flipAt l i x)) (fun _ _ => 1)
        ≠ sys.weight L (Fock.extend x) (fun _ _ => 1)) →
    0 ≤ p.nequil → ∀ (X expX : ℕ → Fin (sites q) → ℝ) (cnt : Counters) (maxNsampl : ℕ),
    ∃ R : ℕ → σ → LoopResult (State σ (sites q) MeasData),
      (∀ (n : ℕ) r, simulate (sys.withRng rng) (mkSetup mc q fnbase).ph { (mkSetup mc q fnbase).cfg with nsampl := n }
        (fun _ => false) 0 (freshField rng L (sites q) r).2 (Fock.extend (freshField rng L (sites q) r).1) X expX cnt
        (MeasData.allocate maxNsampl) = some (R n r)) ∧
      (0 < p.neqlt → p.neqlt ≤ L →
        EqHolds p.Nx.toNat p.Ny.toNat p.Norb.toNat p.pbcShift 0 (gibbsMean (hubbardOp p) β) fun f z v =>
          ∃ v', |v' - v| ≤ C / (L : ℝ) ^ order f ∧
            Converges P (fun n (_ : Unit) r => (R n r).state.meas.eq.arr f z / (R n r).state.meas.eq.sign) v') ∧
      (0 < p.nuneqlt →
        UneqHolds p.Nx.toNat p.Ny.toNat p.Norb.toNat L p.pbcShift 0 (p.Nx.toNat = 1 ↔ p.Ny.toNat = 1)
          (fun l => gibbsPair (hubbardOp p) β (l * (β / L))) fun f z v =>
          ∃ v', |v' - v| ≤ C / L ∧
            Converges P (fun n (_ : Unit) r => (R n r).state.meas.uneq.arr f z / (R n r).state.meas.uneq.sign) v') := by
  obtain ⟨C, L₀, h⟩ := slices_limit p hx hy β p.pbcShift 0 (p.Nx.toNat = 1 ↔ p.Ny.toNat = 1)
  refine ⟨C, L₀, fun L hL => ?_⟩
  intro σ _ P mc hmc q hv hg hN hp fnbase rng hlaw hP sys hsys hw hr hnq X expX cnt maxNsampl
  have hLq : q.L.toNat = L := Int.toNat_natCast L
  obtain ⟨R, h1, h2, h3⟩ := program_fresh_converges hmc hv hg hN hp fnbase rng hlaw hP sys hsys
    (fun s => by rw [hLq]; exact hw s) (fun i => (hr i).imp id fun h => by rw [hLq]; exact h) hnq X expX cnt maxNsampl
  refine ⟨R, fun n r => ?_, fun hc hcL => ?_, fun hc => ?_⟩
  · exact h1 n r
  · exact (h L hL).1 _ (h2 hc hcL)
  · exact (h L hL).2 _ (h3 hc)

/-- non-vacuity: the small system satisfies all hypotheses for any even number of time slices and any temperature -/
example (β : ℝ) (hβ : 0 < β) (k : ℕ) : ∃ mc : Machine, mc.Rounds ∧
    let L := 2 * (k + 1)
    let q := withSlices exU β L
    ∃ sys : Sys Seed (sites q) MeasData, Admissible q ∧ Guards q ∧ sites q < 2 ^ 31 ∧ exU.usePhonons = false ∧
    (idealRng (sites q)).Lawful (sites q) ∧ (idealRng (sites q)).Ideal (sites q) (independent (drawDist (sites q))) ∧
    sysOf mc q = some sys ∧ (∀ s, sys.weight L s (fun _ _ => 1) ≠ 0) ∧
    (∀ i : Fin (sites q), exU.U ((i.val / (exU.Nx.toNat * exU.Ny.toNat) : ℕ) : ℤ) = 0 ∨
      ∀ l < L, ∀ x : Field L (sites q), sys.weight L (Fock.extend (flipAt l i x)) (fun _ _ => 1)
        ≠ sys.weight L (Fock.extend x) (fun _ _ => 1)) ∧
    0 ≤ exU.nequil ∧ 0 < exU.neqlt ∧ exU.neqlt ≤ L ∧ 0 < exU.nuneqlt := by
  obtain ⟨mc, hmc⟩ := machine_exists
  refine ⟨mc, hmc, ?_⟩
  intro L q
  have hLpos : (0 : ℝ) < L := by positivity
  have hdt : 0 < β / L := div_pos hβ hLpos
  have hv : Admissible q := by
    have h := exU_admissible
    exact ⟨h.norb, h.nx, h.ny, h.noSelf, h.noDouble, by show (0 : ℤ) < (L : ℕ); omega, h.prodBlen, one_dvd _, h.dvdNwraps,
      h.nwraps, h.itime⟩
  have hg : Guards q := ⟨fun o _ => mul_nonneg hdt.le (by norm_num [q, withSlices, exU, exP]), le_refl 0,
    fun h => Bool.noConfusion h, fun _ => by show (1 : ℤ) ≠ (L : ℕ); omega⟩
  have hN : sites q < 2 ^ 31 := show sites exU < 2 ^ 31 by decide
  obtain ⟨sys, hsys, hok, -⟩ := sys_defined hmc hv hg.U hg.shift hN ""
  have hdiag : ∀ i j, i ≠ j → bondMatrix q i j = 0 := fun i j h => absurd (Subsingleton.elim (α := Fin 1) i j) h
  obtain ⟨ho, hD⟩ := program_describes hv hg sys hsys
  have hLq : q.L.toNat = L := Int.toNat_natCast L
  obtain ⟨-, hr⟩ := atomic_conditions hv hg hdiag (by rw [hLq]; exact even_two_mul _) sys hsys
  refine ⟨sys, hv, hg, hN, rfl, idealRng_lawful _, idealRng_ideal _, hsys, fun s =>
    weight_one_site hmc hv hg rfl sys hsys _ s _ fun _ _ => one_pos, fun i => ?_, by decide, by decide,
    by show (1 : ℤ) ≤ (L : ℕ); omega, by decide⟩
  rcases hr i with h | h
  · left
    show q.U ((i.val / (q.Nx.toNat * q.Ny.toNat) : ℕ) : ℤ) = 0
    rw [← ho i]
    exact (decoupled_iff hD hdt i).1 h
  · exact Or.inr h

end program

end Verif.Trotter
