import Mathlib.MeasureTheory.Integral.Marginal
import Mathlib.MeasureTheory.Measure.Lebesgue.Basic
import Mathlib.Analysis.SpecialFunctions.Exp

/-! # Functions that vanish either everywhere or almost nowhere -/

set_option autoImplicit false

namespace Verif.NullSet

open MeasureTheory

/-- identically zero or different from zero almost everywhere -/
def Dich {α : Type*} [MeasurableSpace α] (μ : Measure α) (f : α → ℝ) : Prop :=
  (∀ x, f x = 0) ∨ ∀ᵐ x ∂μ, f x ≠ 0

/-- a set all of whose sections along one coordinate are null is null -/
theorem null_of_sections {ι : Type*} [Fintype ι] [DecidableEq ι] {E : ι → Type*} [∀ i, MeasurableSpace (E i)]
    (μ : ∀ i, Measure (E i)) [∀ i, SigmaFinite (μ i)] (i : ι) {W : Set (∀ i, E i)} (hW : MeasurableSet W)
    (h : ∀ x : ∀ i, E i, μ i {t | Function.update x i t ∈ W} = 0) : Measure.pi μ W = 0 := by
  have h1 : ∫⋯∫⁻_{i}, W.indicator 1 ∂μ ≤ ∫⋯∫⁻_{i}, (fun _ => 0) ∂μ := by
    rw [lmarginal_singleton, lmarginal_singleton]
    intro x
    have hm : MeasurableSet {t | Function.update x i t ∈ W} := (measurable_update x) hW
    have e : (fun t => W.indicator (1 : (∀ i, E i) → ENNReal) (Function.update x i t))
        = {t | Function.update x i t ∈ W}.indicator 1 := by
      funext t
      by_cases ht : Function.update x i t ∈ W
      · rw [Set.indicator_of_mem ht, Set.indicator_of_mem (show t ∈ {t | Function.update x i t ∈ W} from ht)]; rfl
      · rw [Set.indicator_of_notMem ht, Set.indicator_of_notMem (show t ∉ {t | Function.update x i t ∈ W} from ht)]
    show ∫⁻ t, W.indicator (1 : (∀ i, E i) → ENNReal) (Function.update x i t) ∂μ i ≤ _
    rw [e, lintegral_indicator_one hm, h x]
    exact zero_le
  have h2 := lintegral_le_of_lmarginal_le (μ := μ) {i} (measurable_one.indicator hW) measurable_const h1
  rw [lintegral_indicator_one hW, lintegral_zero] at h2
  exact nonpos_iff_eq_zero.1 h2

/-- the property carries over from the coordinates to all of them together -/
theorem dich_pi {ι : Type*} [Fintype ι] [DecidableEq ι] {E : ι → Type*} [∀ i, MeasurableSpace (E i)]
    (μ : ∀ i, Measure (E i)) [∀ i, SigmaFinite (μ i)] (f : (∀ i, E i) → ℝ) (hf : Measurable f)
    (h : ∀ x i, Dich (μ i) fun t => f (Function.update x i t)) : Dich (Measure.pi μ) f := by
  by_cases h0 : ∀ x, f x = 0
  · exact .inl h0
  push Not at h0
  obtain ⟨x0, h0⟩ := h0
  right
  have key : ∀ s : Finset ι, ∀ᵐ x ∂Measure.pi μ, f (s.piecewise x x0) ≠ 0 := by
    intro s
    induction s using Finset.induction_on with
    | empty => exact Filter.Eventually.of_forall fun x => by rw [Finset.piecewise_empty]; exact h0
    | insert i s hi ih =>
      have hpm : ∀ s : Finset ι, Measurable fun x : ∀ i, E i => s.piecewise x x0 := by
        intro s
        refine measurable_pi_lambda _ fun j => ?_
        by_cases hj : j ∈ s
        · simp only [Finset.piecewise_eq_of_mem _ _ _ hj]
          exact measurable_pi_apply j
        · simp only [Finset.piecewise_eq_of_notMem _ _ _ hj]
          exact measurable_const
      have hW : Measure.pi μ {x | f (s.piecewise x x0) ≠ 0 ∧ f ((insert i s).piecewise x x0) = 0} = 0 := by
        refine null_of_sections μ i ?_ fun x => ?_
        · exact ((hf.comp (hpm s)) (measurableSet_singleton 0).compl).inter
            ((hf.comp (hpm (insert i s))) (measurableSet_singleton 0))
        · have e1 : ∀ t, s.piecewise (Function.update x i t) x0 = s.piecewise x x0 := by
            intro t
            refine Finset.piecewise_congr _ (fun j hj => ?_) fun j _ => rfl
            rw [Function.update_of_ne (by rintro rfl; exact hi hj)]
          have e2 : ∀ t, (insert i s).piecewise (Function.update x i t) x0
              = Function.update (s.piecewise x x0) i t := by
            intro t
            rw [Finset.piecewise_insert, e1, Function.update_self]
          simp only [Set.mem_ofPred_eq, e1, e2]
          by_cases hz : f (s.piecewise x x0) = 0
          · simp [hz]
          · have hd := (h (s.piecewise x x0) i).resolve_left fun hall => hz (by
              have : f (Function.update (s.piecewise x x0) i (s.piecewise x x0 i)) = 0 := hall _
              rwa [Function.update_eq_self] at this)
            refine measure_mono_null (fun t ht => ?_) hd
            exact fun hne => hne ht.2
      filter_upwards [ih, measure_eq_zero_iff_ae_notMem.1 hW] with x h1 h2 h3
      exact h2 ⟨h1, h3⟩
  filter_upwards [key Finset.univ] with x hx
  rwa [Finset.piecewise_univ] at hx

/-- a linear function of an exponential -/
theorem dich_exp (a b c : ℝ) : Dich volume fun t : ℝ => a + b * Real.exp (c * t) := by
  by_cases hb : b = 0
  · subst hb
    by_cases ha : a = 0
    · exact .inl fun t => by simp [ha]
    · exact .inr (Filter.Eventually.of_forall fun t => by simpa using ha)
  by_cases hc : c = 0
  · subst hc
    by_cases ha : a + b = 0
    · exact .inl fun t => by simpa using ha
    · exact .inr (Filter.Eventually.of_forall fun t => by simpa using ha)
  right
  have hs : {t : ℝ | ¬ a + b * Real.exp (c * t) ≠ 0}.Subsingleton := by
    intro t ht u hu
    simp only [ne_eq, not_not, Set.mem_ofPred_eq] at ht hu
    have e : b * Real.exp (c * t) = b * Real.exp (c * u) := by linarith
    exact mul_left_cancel₀ hc (Real.exp_injective (mul_left_cancel₀ hb e))
  exact hs.measure_zero volume

theorem Dich.congr {α : Type*} [MeasurableSpace α] {μ : Measure α} {f g : α → ℝ} (h : Dich μ f)
    (e : ∀ x, f x = 0 ↔ g x = 0) : Dich μ g := by
  rcases h with h | h
  · exact .inl fun x => (e x).1 (h x)
  · exact .inr (h.mono fun x hx hg => hx ((e x).2 hg))

theorem Dich.mul {α : Type*} [MeasurableSpace α] {μ : Measure α} {f g : α → ℝ} (hf : Dich μ f) (hg : Dich μ g) :
    Dich μ fun x => f x * g x := by
  rcases hf with hf | hf
  · exact .inl fun x => by simp only [hf x, zero_mul]
  · rcases hg with hg | hg
    · exact .inl fun x => by simp only [hg x, mul_zero]
    · exact .inr (by filter_upwards [hf, hg] with x h1 h2 using mul_ne_zero h1 h2)

end Verif.NullSet
