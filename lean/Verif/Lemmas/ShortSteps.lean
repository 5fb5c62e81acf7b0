import Verif.Lemmas.GenericWeight
import Mathlib.Analysis.SpecialFunctions.Trigonometric.DerivHyp
import Mathlib.Analysis.SpecialFunctions.Exponential
import Mathlib.Analysis.SpecialFunctions.Trigonometric.Series

/-! # Determinants for short time steps -/

set_option autoImplicit false

namespace Verif.TimeFlow

open Matrix Verif.Lapack Set Filter Topology Asymptotics

variable {N : ℕ}

/-- equal up to terms which are small compared to the time step; the second function is bounded -/
structure Near (f g : ℝ → ℝ) : Prop where
  bdd : g =O[𝓝[>] 0] fun _ => (1 : ℝ)
  diff : (fun t => f t - g t) =o[𝓝[>] 0] fun t => t

namespace Near

variable {f f' g g' h : ℝ → ℝ}

theorem time : (fun t : ℝ => t) =O[𝓝[>] 0] fun _ => (1 : ℝ) := by
  refine (Tendsto.isBigO_one ℝ (c := (0 : ℝ)) ?_)
  exact tendsto_id.mono_left nhdsWithin_le_nhds

theorem bdd' (hf : Near f g) : f =O[𝓝[>] 0] fun _ => (1 : ℝ) := by
  have := (hf.diff.isBigO.trans time).add hf.bdd
  simpa using this

theorem refl (hg : g =O[𝓝[>] 0] fun _ => (1 : ℝ)) : Near g g := ⟨hg, by simp⟩

theorem const (c : ℝ) : Near (fun _ => c) fun _ => c := refl (isBigO_const_one ℝ c _)

theorem trans (h1 : Near f g) (h2 : Near g h) : Near f h :=
  ⟨h2.bdd, (h1.diff.add h2.diff).congr_left fun t => by ring⟩

theorem add (h1 : Near f g) (h2 : Near f' g') : Near (fun t => f t + f' t) fun t => g t + g' t :=
  ⟨h1.bdd.add h2.bdd, (h1.diff.add h2.diff).congr_left fun t => by ring⟩

theorem mul (h1 : Near f g) (h2 : Near f' g') : Near (fun t => f t * f' t) fun t => g t * g' t := by
  refine ⟨(h1.bdd.mul h2.bdd).congr_right fun _ => mul_one 1, ?_⟩
  have a := (h1.diff.mul_isBigO h2.bdd').add (h1.bdd.mul_isLittleO h2.diff |>.congr_right fun t => mul_comm _ _)
  exact a.congr (fun t => by ring) fun t => mul_one t

theorem sum {ι : Type} (s : Finset ι) {F G : ι → ℝ → ℝ} (h : ∀ i ∈ s, Near (F i) (G i)) :
    Near (fun t => ∑ i ∈ s, F i t) fun t => ∑ i ∈ s, G i t := by
  classical
  induction s using Finset.induction_on with
  | empty => simpa using const 0
  | insert a s ha ih =>
    simp only [Finset.sum_insert ha]
    exact (h a (Finset.mem_insert_self ..)).add (ih fun i hi => h i (Finset.mem_insert_of_mem hi))

theorem prod {ι : Type} (s : Finset ι) {F G : ι → ℝ → ℝ} (h : ∀ i ∈ s, Near (F i) (G i)) :
    Near (fun t => ∏ i ∈ s, F i t) fun t => ∏ i ∈ s, G i t := by
  classical
  induction s using Finset.induction_on with
  | empty => simpa using const 1
  | insert a s ha ih =>
    simp only [Finset.prod_insert ha]
    exact (h a (Finset.mem_insert_self ..)).mul (ih fun i hi => h i (Finset.mem_insert_of_mem hi))

/-- a difference of the form `t v(t)` where `v` vanishes at zero -/
theorem of_tendsto (hg : g =O[𝓝[>] 0] fun _ => (1 : ℝ)) {v : ℝ → ℝ} (hv : Tendsto v (𝓝[>] 0) (𝓝 0))
    (h : ∀ t, f t = g t + t * v t) : Near f g := by
  refine ⟨hg, ?_⟩
  have a : (fun t => t * v t) =o[𝓝[>] 0] fun t => t * (1 : ℝ) :=
    (isBigO_refl _ _).mul_isLittleO ((isLittleO_one_iff ℝ).2 hv)
  exact a.congr (fun t => by rw [h]; ring) fun t => mul_one t

end Near

/-- all entries -/
def NearMat (F G : ℝ → Mat N) : Prop := ∀ i j, Near (fun t => F t i j) fun t => G t i j

namespace NearMat

variable {F F' G G' H : ℝ → Mat N}

theorem trans (h1 : NearMat F G) (h2 : NearMat G H) : NearMat F H := fun i j => (h1 i j).trans (h2 i j)

theorem add (h1 : NearMat F G) (h2 : NearMat F' G') : NearMat (fun t => F t + F' t) fun t => G t + G' t :=
  fun i j => (h1 i j).add (h2 i j)

theorem mul (h1 : NearMat F G) (h2 : NearMat F' G') : NearMat (fun t => F t * F' t) fun t => G t * G' t := fun i j => by
  simp only [Matrix.mul_apply]
  exact Near.sum _ fun k _ => (h1 i k).mul (h2 k j)

theorem det (h : NearMat F G) : Near (fun t => (F t).det) fun t => (G t).det := by
  simp only [Matrix.det_apply']
  exact Near.sum _ fun σ _ => (Near.const _).mul (Near.prod _ fun i _ => h _ i)

theorem one : NearMat (fun _ => (1 : Mat N)) fun _ => 1 := fun _ _ => Near.const _

attribute [local instance] Matrix.linftyOpNormedRing Matrix.linftyOpNormedAlgebra in
theorem exp (K : Mat N) : NearMat (fun t => NormedSpace.exp (-t • K)) fun t => 1 - t • K := by
  intro i j
  let e : Mat N →L[ℝ] ℝ := LinearMap.toContinuousLinearMap (Matrix.entryLinearMap ℝ ℝ i j)
  have h0 : HasDerivAt (fun t : ℝ => NormedSpace.exp (t • -K)) (NormedSpace.exp ((0 : ℝ) • -K) * -K) 0 :=
    hasDerivAt_exp_smul_const (𝕂 := ℝ) (-K) (0 : ℝ)
  have h1 : HasDerivAt (fun t : ℝ => e (NormedSpace.exp (t • -K))) (e (NormedSpace.exp ((0 : ℝ) • -K) * -K)) 0 :=
    e.hasFDerivAt.comp_hasDerivAt (0 : ℝ) h0
  have h2 := (hasDerivAt_iff_isLittleO.1 h1).mono (nhdsWithin_le_nhds (s := Ioi 0))
  refine ⟨?_, ?_⟩
  · have : (fun t : ℝ => (1 - t • K) i j) = fun t => (1 : Mat N) i j - t * K i j := by
      funext t
      simp
    rw [this]
    refine (isBigO_const_one ℝ _ _).sub ?_
    exact (Near.time.mul (isBigO_const_one ℝ (K i j) _)).congr_right fun _ => mul_one 1
  · refine h2.congr (fun t => ?_) fun t => by simp
    show NormedSpace.exp (t • -K) i j - NormedSpace.exp ((0 : ℝ) • -K) i j - (t - 0) • (NormedSpace.exp ((0 : ℝ) • -K) * -K) i j = _
    rw [zero_smul, NormedSpace.exp_zero, one_mul, smul_neg, ← neg_smul]
    simp
    ring

end NearMat

section expansion

variable {σ : ℕ → Fin N → ℝ} {c : ℝ → Fin N → ℝ}

/-- what the field contributes in the steps before `n` -/
noncomputable def fieldFactor (σ : ℕ → Fin N → ℝ) (c : ℝ → Fin N → ℝ) (n : ℕ) (t : ℝ) (i : Fin N) : ℝ :=
  Real.exp ((∑ l ∈ Finset.range n, σ l i) * c t i)

theorem fieldFactor_tendsto (hc : ∀ i, Tendsto (fun t => c t i) (𝓝[>] 0) (𝓝 0)) (n : ℕ) (i : Fin N) :
    Tendsto (fun t => fieldFactor σ c n t i) (𝓝[>] 0) (𝓝 1) := by
  have := ((hc i).const_mul (∑ l ∈ Finset.range n, σ l i)).rexp
  simpa [fieldFactor] using this

/-- the product of the steps, up to first order -/
theorem product_near (K : Mat N) (hc : ∀ i, Tendsto (fun t => c t i) (𝓝[>] 0) (𝓝 0)) (n : ℕ) :
    NearMat (fun t => prodSeq (fun l => Matrix.diagonal (fun i => Real.exp (σ l i * c t i)) * NormedSpace.exp (-t • K)) n)
      fun t => Matrix.diagonal (fieldFactor σ c n t) - (n * t) • K := by
  have hb : ∀ (m : ℕ) (i j : Fin N), (fun t => (Matrix.diagonal (fieldFactor σ c m t) - (m * t) • K) i j) =O[𝓝[>] 0]
      fun _ => (1 : ℝ) := by
    intro m i j
    have e : (fun t => (Matrix.diagonal (fieldFactor σ c m t) - (m * t) • K) i j)
        = fun t => (if i = j then fieldFactor σ c m t i else 0) - t * (m * K i j) := by
      funext t
      rw [Matrix.sub_apply, Matrix.diagonal_apply, Matrix.smul_apply, smul_eq_mul]
      ring
    rw [e]
    refine IsBigO.sub ?_ ((Near.time.mul (isBigO_const_one ℝ (m * K i j) _)).congr_right fun _ => mul_one 1)
    split
    · exact (fieldFactor_tendsto hc m i).isBigO_one ℝ
    · exact isBigO_const_one ℝ 0 _
  induction n with
  | zero =>
    intro i j
    have e : (fun t => (Matrix.diagonal (fieldFactor σ c 0 t) - ((0 : ℕ) * t) • K) i j) = fun _ => (1 : Mat N) i j := by
      funext t
      rw [show fieldFactor σ c 0 t = 1 from funext fun i => by simp [fieldFactor]]
      simp
    rw [e]
    exact Near.const _
  | succ n ih =>
    have hd : ∀ i, Tendsto (fun t => Real.exp (σ n i * c t i)) (𝓝[>] 0) (𝓝 1) := fun i => by
      simpa using ((hc i).const_mul (σ n i)).rexp
    have hD : NearMat (fun t => Matrix.diagonal fun i => Real.exp (σ n i * c t i))
        fun t => Matrix.diagonal fun i => Real.exp (σ n i * c t i) := by
      intro i j
      refine Near.refl ?_
      by_cases hij : i = j
      · subst hij
        simpa using (hd i).isBigO_one ℝ
      · simpa [hij] using isBigO_const_one ℝ (0 : ℝ) (𝓝[>] (0 : ℝ))
    refine ((hD.mul (NearMat.exp K)).mul ih).trans fun i j => ?_
    have t0 : Tendsto (fun t : ℝ => t) (𝓝[>] 0) (𝓝 0) := tendsto_id.mono_left nhdsWithin_le_nhds
    refine Near.of_tendsto (hb (n + 1) i j) (v := fun t =>
      - (K i j * (Real.exp (σ n i * c t i) * fieldFactor σ c n t j - 1)) - n * K i j * (Real.exp (σ n i * c t i) - 1)
        + t * (n * (K * K) i j) * Real.exp (σ n i * c t i)) ?_ fun t => ?_
    · have h1 := (((hd i).mul (fieldFactor_tendsto (σ := σ) hc n j)).sub_const 1).const_mul (K i j) |>.neg
      have h2 := ((hd i).sub_const 1).const_mul (n * K i j)
      have h3 := (t0.mul_const (n * (K * K) i j)).mul (hd i)
      have := (h1.sub h2).add h3
      simpa using this
    · have e1 : ((Matrix.diagonal fun i => Real.exp (σ n i * c t i)) * (1 - t • K)
          * (Matrix.diagonal (fieldFactor σ c n t) - (n * t) • K)) i j
          = Real.exp (σ n i * c t i) * (((1 - t • K) * Matrix.diagonal (fieldFactor σ c n t)) i j
            - (n * t) * ((1 - t • K) * K) i j) := by
        rw [Matrix.mul_assoc, Matrix.diagonal_mul, Matrix.mul_sub, Matrix.sub_apply, Matrix.mul_smul, Matrix.smul_apply,
          smul_eq_mul]
      refine e1.trans ?_
      rw [Matrix.mul_diagonal, Matrix.sub_mul, Matrix.one_mul, Matrix.smul_mul]
      simp only [Matrix.sub_apply, Matrix.smul_apply, smul_eq_mul, Matrix.diagonal_apply, Matrix.one_apply]
      have e2 : fieldFactor σ c (n + 1) t i = Real.exp (σ n i * c t i) * fieldFactor σ c n t i := by
        unfold fieldFactor
        rw [← Real.exp_add, Finset.sum_range_succ]
        congr 1
        ring
      rw [e2]
      push_cast
      by_cases hij : i = j
      · subst hij
        simp only [if_true]
        ring
      · simp only [if_neg hij]
        ring

/-- the determinant, up to first order -/
theorem det_near (K : Mat N) (hc : ∀ i, Tendsto (fun t => c t i) (𝓝[>] 0) (𝓝 0)) (L : ℕ) :
    Near (fun t => (1 + prodSeq (fun l => Matrix.diagonal (fun i => Real.exp (σ l i * c t i)) * NormedSpace.exp (-t • K)) L).det)
      fun t => (∏ i, (1 + fieldFactor σ c L t i)) * (1 - (L * t / 2) • K).det := by
  have e : ∀ t, (∏ i, (1 + fieldFactor σ c L t i)) * (1 - (L * t / 2) • K).det
      = (Matrix.diagonal (fun i => 1 + fieldFactor σ c L t i) * (1 - (L * t / 2) • K)).det := fun t => by
    rw [Matrix.det_mul, Matrix.det_diagonal]
  simp only [e]
  refine NearMat.det ((NearMat.one.add (product_near K hc L)).trans fun i j => ?_)
  have hf := fieldFactor_tendsto (σ := σ) hc L i
  have t0 : Tendsto (fun t : ℝ => t) (𝓝[>] 0) (𝓝 0) := tendsto_id.mono_left nhdsWithin_le_nhds
  have e2 : ∀ t, (Matrix.diagonal (fun i => 1 + fieldFactor σ c L t i) * (1 - (L * t / 2) • K)) i j
      = (1 + fieldFactor σ c L t i) * ((1 : Mat N) i j - t * (L / 2 * K i j)) := fun t => by
    rw [Matrix.diagonal_mul, Matrix.sub_apply, Matrix.smul_apply, smul_eq_mul]
    ring
  refine Near.of_tendsto (v := fun t => L / 2 * K i j * (fieldFactor σ c L t i - 1)) ?_ ?_ fun t => ?_
  · simp only [e2]
    have := (hf.const_add 1).mul ((t0.mul_const (L / 2 * K i j)).const_sub ((1 : Mat N) i j))
    exact this.isBigO_one ℝ
  · simpa using (hf.sub_const 1).const_mul (L / 2 * K i j)
  · rw [e2]
    show (1 : Mat N) i j + (Matrix.diagonal (fieldFactor σ c L t) i j - (L * t) * K i j) = _
    rw [Matrix.diagonal_apply, Matrix.one_apply]
    split
    · ring
    · ring

end expansion

/-- lower bound for the coupling -/
theorem coupling_sq {t U : ℝ} (h : 0 ≤ t * U) : t * U ≤ Real.arcosh (Real.exp (t * U / 2)) ^ 2 := by
  have h1 : (1 : ℝ) ≤ Real.exp (t * U / 2) := Real.one_le_exp (by positivity)
  have h2 := Real.cosh_le_exp_half_sq (Real.arcosh (Real.exp (t * U / 2)))
  rw [Real.cosh_arcosh h1] at h2
  have := Real.exp_le_exp.1 h2
  linarith

theorem cosh_sub_bound {a b x : ℝ} (hab : |b| < |a|) (hx : 0 ≤ x) :
    (a ^ 2 - b ^ 2) / 2 * x ^ 2 ≤ Real.cosh (a * x) - Real.cosh (b * x) := by
  have e : ∀ a, Real.cosh (a * x) = Real.cosh (|a| * x) := fun a => by
    rw [← Real.cosh_abs (a * x), abs_mul, abs_of_nonneg hx]
  rw [e a, e b, ← sq_abs a, ← sq_abs b]
  generalize |a| = A at *
  have hB := abs_nonneg b
  generalize |b| = B at *
  have e1 : Real.cosh (A * x) - Real.cosh (B * x) = 2 * (Real.sinh ((A + B) * x / 2) * Real.sinh ((A - B) * x / 2)) := by
    have h1 := Real.cosh_add ((A + B) * x / 2) ((A - B) * x / 2)
    have h2 := Real.cosh_sub ((A + B) * x / 2) ((A - B) * x / 2)
    rw [show (A + B) * x / 2 + (A - B) * x / 2 = A * x by ring] at h1
    rw [show (A + B) * x / 2 - (A - B) * x / 2 = B * x by ring] at h2
    linarith
  have p1 : 0 ≤ (A + B) * x / 2 := by
    have : 0 ≤ A + B := by linarith
    positivity
  have p2 : 0 ≤ (A - B) * x / 2 := by
    have : 0 ≤ A - B := by linarith
    positivity
  have := mul_le_mul (Real.self_le_sinh_iff.2 p1) (Real.self_le_sinh_iff.2 p2) p2 (p1.trans (Real.self_le_sinh_iff.2 p1))
  rw [e1]
  nlinarith

/-- the product of the two determinants, as a function of the time step -/
noncomputable def stepWeight (K : Mat N) (U : Fin N → ℝ) (σ : ℕ → Fin N → ℝ) (L : ℕ) (t : ℝ) : ℝ :=
  (1 + prodSeq (fun l => Matrix.diagonal (fun i => Real.exp ((1 * σ l i) * Real.arcosh (Real.exp (t * U i / 2)))) *
    NormedSpace.exp (-t • K)) L).det *
  (1 + prodSeq (fun l => Matrix.diagonal (fun i => Real.exp ((-1 * σ l i) * Real.arcosh (Real.exp (t * U i / 2)))) *
    NormedSpace.exp (-t • K)) L).det

theorem stepWeight_regular (K : Mat N) {U : Fin N → ℝ} (hU : ∀ i, 0 ≤ U i) (σ : ℕ → Fin N → ℝ) (L : ℕ) :
    Regular (stepWeight K U σ L) := by
  have h : ∀ e : ℝ, Regular fun t : ℝ => (1 + prodSeq (fun l => Matrix.diagonal (fun i =>
      Real.exp ((e * σ l i) * Real.arcosh (Real.exp (t * U i / 2)))) * NormedSpace.exp (-t • K)) L).det := fun e =>
    (RegularMat.one.add (RegularMat.prodSeq (fun l => (RegularMat.diagonal fun i =>
      ((Regular.const (e * σ l i)).mul (Regular.coupling (hU i))).exp).mul (RegularMat.exp K)) L)).det
  exact (h 1).mul (h (-1))

theorem stepWeight_zero (K : Mat N) (U : Fin N → ℝ) (σ : ℕ → Fin N → ℝ) (L : ℕ) : stepWeight K U σ L 0 = 4 ^ N := by
  have e : ∀ (e : ℝ) n, prodSeq (fun l => Matrix.diagonal (fun i =>
      Real.exp ((e * σ l i) * Real.arcosh (Real.exp ((0 : ℝ) * U i / 2)))) * NormedSpace.exp (-(0 : ℝ) • K)) n = 1 := by
    intro e n
    induction n with
    | zero => rfl
    | succ n ih =>
      have : prodSeq (fun l => Matrix.diagonal (fun i =>
        Real.exp ((e * σ l i) * Real.arcosh (Real.exp ((0 : ℝ) * U i / 2)))) * NormedSpace.exp (-(0 : ℝ) • K)) (n + 1)
        = _ * _ := rfl
      rw [this, ih]
      simp
  unfold stepWeight
  rw [e, e, one_add_one_eq_two, show (2 : Mat N) = (2 : ℝ) • 1 by rw [two_smul, one_add_one_eq_two], Matrix.det_smul,
    Matrix.det_one, mul_one, ← mul_pow, Fintype.card_fin]
  norm_num

/-- the product, up to first order -/
theorem stepWeight_near (K : Mat N) {U : Fin N → ℝ} (hU : ∀ i, 0 ≤ U i) (σ : ℕ → Fin N → ℝ) (L : ℕ) :
    Near (stepWeight K U σ L) fun t =>
      (∏ i, (2 + 2 * Real.cosh ((∑ l ∈ Finset.range L, σ l i) * Real.arcosh (Real.exp (t * U i / 2))))) *
        (1 - (L * t / 2) • K).det ^ 2 := by
  have hc : ∀ i, Tendsto (fun t => Real.arcosh (Real.exp (t * U i / 2))) (𝓝[>] 0) (𝓝 0) := fun i => by
    have := (Regular.coupling (hU i)).start.tendsto
    simpa using this
  have h := (det_near (σ := fun l i => 1 * σ l i) K hc L).mul (det_near (σ := fun l i => -1 * σ l i) K hc L)
  suffices e : ∀ t, (∏ i, (1 + fieldFactor (fun l i => 1 * σ l i) (fun t i => Real.arcosh (Real.exp (t * U i / 2))) L t i))
      * (1 - (L * t / 2) • K).det * ((∏ i, (1 + fieldFactor (fun l i => -1 * σ l i)
        (fun t i => Real.arcosh (Real.exp (t * U i / 2))) L t i)) * (1 - (L * t / 2) • K).det)
      = (∏ i, (2 + 2 * Real.cosh ((∑ l ∈ Finset.range L, σ l i) * Real.arcosh (Real.exp (t * U i / 2))))) *
        (1 - (L * t / 2) • K).det ^ 2 by
    simp only [e] at h
    exact h
  intro t
  rw [mul_mul_mul_comm, ← Finset.prod_mul_distrib, ← sq]
  congr 1
  refine Finset.prod_congr rfl fun i _ => ?_
  unfold fieldFactor
  rw [← Finset.mul_sum, ← Finset.mul_sum, one_mul, Real.cosh_eq]
  have : Real.exp ((∑ l ∈ Finset.range L, σ l i) * Real.arcosh (Real.exp (t * U i / 2)))
      * Real.exp ((-1 * ∑ l ∈ Finset.range L, σ l i) * Real.arcosh (Real.exp (t * U i / 2))) = 1 := by
    rw [← Real.exp_add]
    simp
  rw [show -1 * (∑ l ∈ Finset.range L, σ l i) * Real.arcosh (Real.exp (t * U i / 2))
    = -((∑ l ∈ Finset.range L, σ l i) * Real.arcosh (Real.exp (t * U i / 2))) by ring] at this ⊢
  linear_combination this

/-- Let the sums of the field over the time steps agree except at one site, where they differ in absolute value and the
interaction does not vanish. Then the products differ for all short time steps. -/
theorem stepWeight_ne (K : Mat N) {U : Fin N → ℝ} (hU : ∀ i, 0 ≤ U i) {σ σ' : ℕ → Fin N → ℝ} {L : ℕ} {i : Fin N}
    (hi : 0 < U i) (hlt : |∑ l ∈ Finset.range L, σ' l i| < |∑ l ∈ Finset.range L, σ l i|)
    (hne : ∀ j, j ≠ i → ∑ l ∈ Finset.range L, σ' l j = ∑ l ∈ Finset.range L, σ l j) :
    ∀ᶠ t : ℝ in 𝓝[>] (0 : ℝ), stepWeight K U σ' L t < stepWeight K U σ L t := by
  set a := ∑ l ∈ Finset.range L, σ l i with ha
  set b := ∑ l ∈ Finset.range L, σ' l i with hb
  have hab : 0 < a ^ 2 - b ^ 2 := by
    have := sq_lt_sq.2 hlt
    linarith
  set c := (a ^ 2 - b ^ 2) * U i / 2 with hc
  have hc0 : 0 < c := by positivity
  have hd := (stepWeight_near K hU σ L).diff.sub (stepWeight_near K hU σ' L).diff
  have hev := hd.def (show 0 < c / 2 by positivity)
  have hdet : Tendsto (fun t : ℝ => (1 - (L * t / 2) • K).det ^ 2) (𝓝[>] 0) (𝓝 1) := by
    have : Continuous fun t : ℝ => (1 - (L * t / 2) • K).det ^ 2 := by
      refine Continuous.pow (Continuous.matrix_det ?_) 2
      fun_prop
    have h := (this.tendsto 0).mono_left (nhdsWithin_le_nhds (s := Ioi 0))
    simpa using h
  have hdet' : ∀ᶠ t : ℝ in 𝓝[>] (0 : ℝ), 1 / 2 < (1 - (L * t / 2) • K).det ^ 2 := hdet.eventually_const_lt (by norm_num)
  filter_upwards [hev, hdet', self_mem_nhdsWithin] with t h1 h2 h3
  have h3 : 0 < t := h3
  set x := Real.arcosh (Real.exp (t * U i / 2)) with hx
  set z := (1 - (L * t / 2) • K).det ^ 2 with hz
  have hx0 : 0 ≤ x := Real.arcosh_nonneg (Real.one_le_exp (by positivity))
  have hx2 : t * U i ≤ x ^ 2 := coupling_sq (by positivity)
  rw [← Finset.mul_prod_erase _ _ (Finset.mem_univ i),
    ← Finset.mul_prod_erase Finset.univ (fun j => 2 + 2 * Real.cosh ((∑ l ∈ Finset.range L, σ' l j) *
      Real.arcosh (Real.exp (t * U j / 2)))) (Finset.mem_univ i)] at h1
  have hR : ∏ j ∈ Finset.univ.erase i, (2 + 2 * Real.cosh ((∑ l ∈ Finset.range L, σ' l j) * Real.arcosh (Real.exp (t * U j / 2))))
      = ∏ j ∈ Finset.univ.erase i, (2 + 2 * Real.cosh ((∑ l ∈ Finset.range L, σ l j) * Real.arcosh (Real.exp (t * U j / 2)))) :=
    Finset.prod_congr rfl fun j hj => by rw [hne j (Finset.mem_erase.1 hj).1]
  rw [hR, ← ha, ← hb, ← hx] at h1
  set R := ∏ j ∈ Finset.univ.erase i, (2 + 2 * Real.cosh ((∑ l ∈ Finset.range L, σ l j) * Real.arcosh (Real.exp (t * U j / 2)))) with hRd
  have hR1 : 1 ≤ R := by
    rw [hRd]
    refine Finset.one_le_prod (fun j _ => ?_)
    have := Real.one_le_cosh ((∑ l ∈ Finset.range L, σ l j) * Real.arcosh (Real.exp (t * U j / 2)))
    linarith
  have hb2 := cosh_sub_bound hlt hx0
  have hct : c * t ≤ Real.cosh (a * x) - Real.cosh (b * x) := by
    refine le_trans ?_ hb2
    rw [hc]
    nlinarith
  rw [Real.norm_eq_abs, Real.norm_eq_abs, abs_of_pos h3] at h1
  have h4 := (abs_le.1 h1).1
  have hzR : 1 / 2 ≤ z * R := by nlinarith
  have hpos : 0 < c * t := by positivity
  have h5 : c * t ≤ 2 * (Real.cosh (a * x) - Real.cosh (b * x)) * (z * R) := by nlinarith
  nlinarith

end Verif.TimeFlow
