import Verif.Props.TimeFlow
import Mathlib.Analysis.SpecialFunctions.Arcosh
import Mathlib.Analysis.Analytic.IsolatedZeros
import Mathlib.Analysis.Normed.Algebra.MatrixExponential
import Mathlib.Analysis.SpecialFunctions.ExpDeriv

/-! # Determinants as functions of the length of the time step -/

set_option autoImplicit false

namespace Verif.TimeFlow

open Matrix Verif.Lapack Set Filter Topology

variable {N : ℕ}

/-- a function of time which is analytic for positive times, continuous at zero from the right -/
structure Regular (f : ℝ → ℝ) : Prop where
  analytic : ∀ t, 0 < t → AnalyticAt ℝ f t
  start : ContinuousWithinAt f (Ioi 0) 0

namespace Regular

variable {f g : ℝ → ℝ}

theorem const (c : ℝ) : Regular fun _ => c := ⟨fun _ _ => analyticAt_const, continuousWithinAt_const⟩

theorem add (hf : Regular f) (hg : Regular g) : Regular fun t => f t + g t :=
  ⟨fun t ht => (hf.analytic t ht).add (hg.analytic t ht), hf.start.add hg.start⟩

theorem mul (hf : Regular f) (hg : Regular g) : Regular fun t => f t * g t :=
  ⟨fun t ht => (hf.analytic t ht).mul (hg.analytic t ht), hf.start.mul hg.start⟩

theorem exp (hf : Regular f) : Regular fun t => Real.exp (f t) :=
  ⟨fun t ht => (hf.analytic t ht).rexp, hf.start.rexp⟩

theorem sum {ι : Type} (s : Finset ι) {F : ι → ℝ → ℝ} (h : ∀ i ∈ s, Regular (F i)) : Regular fun t => ∑ i ∈ s, F i t := by
  classical
  induction s using Finset.induction_on with
  | empty => simpa using const 0
  | insert a s ha ih =>
    simp only [Finset.sum_insert ha]
    exact (h a (Finset.mem_insert_self ..)).add (ih fun i hi => h i (Finset.mem_insert_of_mem hi))

theorem prod {ι : Type} (s : Finset ι) {F : ι → ℝ → ℝ} (h : ∀ i ∈ s, Regular (F i)) : Regular fun t => ∏ i ∈ s, F i t := by
  classical
  induction s using Finset.induction_on with
  | empty => simpa using const 1
  | insert a s ha ih =>
    simp only [Finset.prod_insert ha]
    exact (h a (Finset.mem_insert_self ..)).mul (ih fun i hi => h i (Finset.mem_insert_of_mem hi))

/-- the coupling to the field -/
theorem coupling {U : ℝ} (hU : 0 ≤ U) : Regular fun t => Real.arcosh (Real.exp (t * U / 2)) := by
  rcases hU.eq_or_lt with rfl | hU
  · simpa using const (Real.arcosh 1)
  · refine ⟨fun t ht => ?_, ?_⟩
    · have h1 : 1 < Real.exp (t * U / 2) := Real.one_lt_exp_iff.2 (by positivity)
      refine (Real.analyticAt_arcosh (x := Real.exp (t * U / 2)) h1).comp_of_eq (f := fun t => Real.exp (t * U / 2)) ?_ rfl
      fun_prop
    · have h0 : (1 : ℝ) ≤ Real.exp (0 * U / 2) := by simp
      refine (Real.continuousOn_arcosh _ h0).comp (s := Ioi 0) (f := fun t : ℝ => Real.exp (t * U / 2)) ?_ ?_
      · exact Continuous.continuousWithinAt (by fun_prop)
      · intro t ht
        have ht : 0 < t := ht
        exact Real.one_le_exp (by positivity)

end Regular

/-- all entries -/
def RegularMat (F : ℝ → Mat N) : Prop := ∀ i j, Regular fun t => F t i j

namespace RegularMat

variable {F G : ℝ → Mat N}

theorem one : RegularMat fun _ => (1 : Mat N) := fun _ _ => Regular.const _

theorem add (hF : RegularMat F) (hG : RegularMat G) : RegularMat fun t => F t + G t := fun i j => (hF i j).add (hG i j)

theorem mul (hF : RegularMat F) (hG : RegularMat G) : RegularMat fun t => F t * G t := fun i j => by
  simp only [Matrix.mul_apply]
  exact Regular.sum _ fun k _ => (hF i k).mul (hG k j)

theorem diagonal {d : ℝ → Fin N → ℝ} (h : ∀ i, Regular fun t => d t i) : RegularMat fun t => Matrix.diagonal (d t) := by
  intro i j
  by_cases hij : i = j
  · subst hij
    simpa using h i
  · simpa [hij] using Regular.const 0

theorem det (hF : RegularMat F) : Regular fun t => (F t).det := by
  simp only [Matrix.det_apply']
  exact Regular.sum _ fun σ _ => (Regular.const _).mul (Regular.prod _ fun i _ => hF _ i)

attribute [local instance] Matrix.linftyOpNormedRing Matrix.linftyOpNormedAlgebra in
/-- the exponential of a matrix -/
theorem exp (K : Mat N) : RegularMat fun t => NormedSpace.exp (-t • K) := by
  have h : ∀ t : ℝ, AnalyticAt ℝ (fun t : ℝ => NormedSpace.exp (-t • K)) t := fun t =>
    (NormedSpace.exp_analytic (𝕂 := ℝ) (-t • K)).comp_of_eq (f := fun t : ℝ => -t • K) (by fun_prop) rfl
  intro i j
  let e : Mat N →L[ℝ] ℝ := LinearMap.toContinuousLinearMap (Matrix.entryLinearMap ℝ ℝ i j)
  have h2 : ∀ t : ℝ, AnalyticAt ℝ (fun t : ℝ => (NormedSpace.exp (-t • K)) i j) t := fun t =>
    (e.analyticAt _).comp (h t)
  exact ⟨fun t _ => h2 t, (h2 0).continuousAt.continuousWithinAt⟩

theorem prodSeq {F : ℕ → ℝ → Mat N} (h : ∀ l, RegularMat (F l)) (n : ℕ) :
    RegularMat fun t => TimeFlow.prodSeq (fun l => F l t) n := by
  induction n with
  | zero => exact one
  | succ n ih => exact (h n).mul ih

end RegularMat

/-- a regular function which does not vanish for short times has finitely many zeros in every bounded interval -/
theorem Regular.finite_zeros' {f : ℝ → ℝ} (hf : Regular f) (hev : ∀ᶠ t in 𝓝[>] (0 : ℝ), f t ≠ 0) (T : ℝ) :
    {t | 0 < t ∧ t ≤ T ∧ f t = 0}.Finite := by
  by_contra hinf
  obtain ⟨d, hd, hne⟩ := mem_nhdsGT_iff_exists_Ioo_subset.1 hev
  have hd : 0 < d := hd
  have hsub : {t | 0 < t ∧ t ≤ T ∧ f t = 0} ⊆ Icc d T := by
    rintro t ⟨h1, h2, h3⟩
    exact ⟨not_lt.1 fun h => hne ⟨h1, h⟩ h3, h2⟩
  obtain ⟨x, hx, hacc⟩ := Set.Infinite.exists_accPt_of_subset_isCompact hinf isCompact_Icc hsub
  have hx0 : x ∈ Ioi (0 : ℝ) := lt_of_lt_of_le hd hx.1
  have hfr : ∃ᶠ z in 𝓝[≠] x, f z = 0 := by
    have := accPt_iff_frequently_nhdsNE.1 hacc
    exact this.mono fun z hz => hz.2.2
  have han : AnalyticOnNhd ℝ f (Ioi 0) := fun t ht => hf.analytic t ht
  have hz := han.eqOn_zero_of_preconnected_of_frequently_eq_zero isPreconnected_Ioi hx0 hfr
  exact hne (a := d / 2) ⟨by positivity, by linarith⟩ (hz (show 0 < d / 2 by positivity))

theorem Regular.finite_zeros {f : ℝ → ℝ} (hf : Regular f) (h0 : f 0 ≠ 0) (T : ℝ) : {t | 0 < t ∧ t ≤ T ∧ f t = 0}.Finite :=
  hf.finite_zeros' (hf.start.eventually_ne h0) T

end Verif.TimeFlow
