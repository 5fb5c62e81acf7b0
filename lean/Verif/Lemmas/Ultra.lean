import Verif.Lemmas.Lapack
import Mathlib.Topology.Order.Compact
import Mathlib.Topology.Algebra.Order.LiminfLimsup
import Mathlib.Topology.MetricSpace.Pseudo.Basic
import Mathlib.Topology.Instances.Real.Lemmas
import Mathlib.Topology.Algebra.Monoid
import Mathlib.LinearAlgebra.Matrix.NonsingularInverse

/-!
# Limits of sequences of computations along an ultrafilter

A bounded quantity has a limit along every ultrafilter, and a choice among finitely many alternatives is eventually constant.
Statements "for every `ε` there is a `δ`" follow from limits along all ultrafilters (`eventually_of_ultra`).
-/

set_option autoImplicit false

namespace Verif.Ultra

open Filter Topology Matrix Verif.Lapack

variable {ι : Type} {U : Ultrafilter ι} {N : ℕ}

/-- a bounded quantity has a limit -/
theorem exists_lim {f : ι → ℝ} {b : ℝ} (h : ∀ᶠ t in (U : Filter ι), |f t| ≤ b) : ∃ x, Tendsto f U (𝓝 x) := by
  have hle : ((U.map f : Ultrafilter ℝ) : Filter ℝ) ≤ 𝓟 (Set.Icc (-b) b) := by
    rw [le_principal_iff]
    show f ⁻¹' Set.Icc (-b) b ∈ U
    filter_upwards [h] with t ht
    exact abs_le.1 ht
  obtain ⟨x, -, hx⟩ := isCompact_Icc.ultrafilter_le_nhds (U.map f) hle
  exact ⟨x, hx⟩

/-- a choice among finitely many alternatives is eventually constant -/
theorem exists_const {α : Type} [Finite α] (f : ι → α) : ∃ a, ∀ᶠ t in (U : Filter ι), f t = a := by
  obtain ⟨a, ha⟩ := Ultrafilter.eq_pure_of_finite (U.map f)
  refine ⟨a, ?_⟩
  have : ({a} : Set α) ∈ U.map f := by rw [ha]; exact Ultrafilter.mem_pure.2 rfl
  exact this

/-- what holds eventually along all finer ultrafilters holds eventually -/
theorem eventually_of_ultra {F : Filter ι} {p : ι → Prop} (h : ∀ U : Ultrafilter ι, (U : Filter ι) ≤ F → ∀ᶠ t in (U : Filter ι), p t) :
    ∀ᶠ t in F, p t :=
  mem_iff_ultrafilter.2 fun U hU => h U hU

theorem bounded_of_lim {f : ι → ℝ} {x : ℝ} (h : Tendsto f U (𝓝 x)) : ∀ᶠ t in (U : Filter ι), |f t| ≤ |x| + 1 := by
  have := (h.abs).eventually (gt_mem_nhds (show |x| < |x| + 1 by linarith))
  filter_upwards [this] with t ht
  exact ht.le

/-- a quantity whose distance from a convergent one is small compared to `u → 0` converges -/
theorem lim_of_near {f g : ι → ℝ} {x c : ℝ} {u : ι → ℝ} (hu : Tendsto u U (𝓝 0)) (hg : Tendsto g U (𝓝 x))
    (h : ∀ᶠ t in (U : Filter ι), |f t - g t| ≤ u t * c) : Tendsto f U (𝓝 x) := by
  have h0 : Tendsto (fun t => f t - g t) U (𝓝 0) := by
    rw [tendsto_zero_iff_abs_tendsto_zero]
    have hc : Tendsto (fun t => u t * c) U (𝓝 0) := by simpa using hu.mul_const c
    exact tendsto_of_tendsto_of_tendsto_of_le_of_le' tendsto_const_nhds hc (Eventually.of_forall fun t => abs_nonneg _) h
  have := h0.add hg
  simp only [sub_add_cancel, zero_add] at this
  exact this

/-! ## Matrices -/

variable {m k : ℕ}

/-- entrywise convergence -/
def MLim (U : Ultrafilter ι) (A : ι → Matrix (Fin m) (Fin k) ℝ) (A₀ : Matrix (Fin m) (Fin k) ℝ) : Prop := ∀ i j, Tendsto (fun t => A t i j) U (𝓝 (A₀ i j))

/-- all entries are at most `b` -/
def Below (b : ℝ) (A : Matrix (Fin m) (Fin k) ℝ) : Prop := ∀ i j, |A i j| ≤ b

/-- all entries differ by at most `e` -/
def Near (e : ℝ) (A B : Matrix (Fin m) (Fin k) ℝ) : Prop := ∀ i j, |A i j - B i j| ≤ e

theorem MLim.congr' {A B : ι → Matrix (Fin m) (Fin k) ℝ} {A₀ : Matrix (Fin m) (Fin k) ℝ} (h : MLim U A A₀) (hAB : ∀ᶠ t in (U : Filter ι), A t = B t) : MLim U B A₀ :=
  fun i j => (h i j).congr' (hAB.mono fun t ht => by simp only [ht])

theorem MLim.const (A : Matrix (Fin m) (Fin k) ℝ) : MLim U (fun _ => A) A := fun _ _ => tendsto_const_nhds

theorem MLim.unique {A : ι → Matrix (Fin m) (Fin k) ℝ} {A₀ A₁ : Matrix (Fin m) (Fin k) ℝ} (h : MLim U A A₀) (h' : MLim U A A₁) : A₀ = A₁ := by
  ext i j
  exact tendsto_nhds_unique (h i j) (h' i j)

theorem MLim.mul {l : ℕ} {A : ι → Matrix (Fin m) (Fin l) ℝ} {B : ι → Matrix (Fin l) (Fin k) ℝ} {A₀ : Matrix (Fin m) (Fin l) ℝ}
    {B₀ : Matrix (Fin l) (Fin k) ℝ} (hA : MLim U A A₀) (hB : MLim U B B₀) : MLim U (fun t => A t * B t) (A₀ * B₀) := by
  intro i j
  simp only [Matrix.mul_apply]
  exact tendsto_finsetSum _ fun k _ => (hA i k).mul (hB k j)

theorem MLim.add {A B : ι → Matrix (Fin m) (Fin k) ℝ} {A₀ B₀ : Matrix (Fin m) (Fin k) ℝ} (hA : MLim U A A₀) (hB : MLim U B B₀) :
    MLim U (fun t => A t + B t) (A₀ + B₀) := fun i j => (hA i j).add (hB i j)

theorem MLim.sub {A B : ι → Matrix (Fin m) (Fin k) ℝ} {A₀ B₀ : Matrix (Fin m) (Fin k) ℝ} (hA : MLim U A A₀) (hB : MLim U B B₀) :
    MLim U (fun t => A t - B t) (A₀ - B₀) := fun i j => (hA i j).sub (hB i j)

theorem MLim.transpose {A : ι → Matrix (Fin m) (Fin k) ℝ} {A₀ : Matrix (Fin m) (Fin k) ℝ} (hA : MLim U A A₀) : MLim U (fun t => (A t)ᵀ) A₀ᵀ := fun i j => hA j i

theorem MLim.det {A : ι → Mat N} {A₀ : Mat N} (hA : MLim U A A₀) : Tendsto (fun t => (A t).det) U (𝓝 A₀.det) := by
  simp only [Matrix.det_apply]
  refine tendsto_finsetSum _ fun p _ => ?_
  have : Tendsto (fun t => ∏ i, A t (p i) i) U (𝓝 (∏ i, A₀ (p i) i)) := tendsto_finsetProd _ fun i _ => hA _ _
  exact this.const_smul _

theorem MLim.inv {A : ι → Mat N} {A₀ : Mat N} (hA : MLim U A A₀) (h0 : A₀.det ≠ 0) : MLim U (fun t => (A t)⁻¹) A₀⁻¹ := by
  intro i j
  simp only [Matrix.inv_def, Ring.inverse_eq_inv', Matrix.smul_apply, smul_eq_mul, adjugate_apply]
  refine (hA.det.inv₀ h0).mul (MLim.det fun a b => ?_)
  by_cases h : a = j
  · subst h
    simp only [updateRow_self]
    exact tendsto_const_nhds
  · simp only [updateRow_ne h]
    exact hA a b

/-- a bound for the entries along a convergent sequence -/
noncomputable def bnd (A : Matrix (Fin m) (Fin k) ℝ) : ℝ := ∑ i, ∑ j, |A i j| + 1

theorem one_le_bnd (A : Matrix (Fin m) (Fin k) ℝ) : 1 ≤ bnd A := by
  unfold bnd
  have : 0 ≤ ∑ i, ∑ j, |A i j| := Finset.sum_nonneg fun i _ => Finset.sum_nonneg fun j _ => abs_nonneg _
  linarith

theorem MLim.below {A : ι → Matrix (Fin m) (Fin k) ℝ} {A₀ : Matrix (Fin m) (Fin k) ℝ} (hA : MLim U A A₀) : ∀ᶠ t in (U : Filter ι), Below (bnd A₀) (A t) := by
  unfold Below
  rw [eventually_all]
  intro i
  rw [eventually_all]
  intro j
  filter_upwards [bounded_of_lim (hA i j)] with t ht
  refine ht.trans ?_
  unfold bnd
  have h1 : |A₀ i j| ≤ ∑ j, |A₀ i j| := Finset.single_le_sum (f := fun j => |A₀ i j|) (fun j _ => abs_nonneg _) (Finset.mem_univ j)
  have h2 : ∑ j, |A₀ i j| ≤ ∑ i, ∑ j, |A₀ i j| :=
    Finset.single_le_sum (f := fun i => ∑ j, |A₀ i j|) (fun i _ => Finset.sum_nonneg fun j _ => abs_nonneg _) (Finset.mem_univ i)
  linarith

theorem Below.mono {b c : ℝ} {A : Matrix (Fin m) (Fin k) ℝ} (h : Below b A) (hbc : b ≤ c) : Below c A := fun i j => (h i j).trans hbc

theorem mlim_of_near {A B : ι → Matrix (Fin m) (Fin k) ℝ} {B₀ : Matrix (Fin m) (Fin k) ℝ} {c : ℝ} {u : ι → ℝ} (hu : Tendsto u U (𝓝 0)) (hB : MLim U B B₀)
    (h : ∀ᶠ t in (U : Filter ι), Near (u t * c) (A t) (B t)) : MLim U A B₀ :=
  fun i j => lim_of_near hu (hB i j) (h.mono fun _ ht => ht i j)

/-- bounded matrices have limits -/
theorem exists_mlim {A : ι → Matrix (Fin m) (Fin k) ℝ} {b : ℝ} (h : ∀ᶠ t in (U : Filter ι), Below b (A t)) : ∃ A₀, MLim U A A₀ := by
  choose x hx using fun i j => exists_lim (U := U) (f := fun t => A t i j) (b := b) (h.mono fun t ht => ht i j)
  exact ⟨Matrix.of x, hx⟩

/-- for a null sequence `u`, a bound `b` satisfies `b u ≤ 1` eventually -/
theorem small {u : ι → ℝ} (hu : Tendsto u U (𝓝 0)) (b : ℝ) : ∀ᶠ t in (U : Filter ι), b * u t ≤ 1 := by
  have : Tendsto (fun t => b * u t) U (𝓝 0) := by simpa using hu.const_mul b
  exact (this.eventually (gt_mem_nhds zero_lt_one)).mono fun t ht => ht.le

end Verif.Ultra
