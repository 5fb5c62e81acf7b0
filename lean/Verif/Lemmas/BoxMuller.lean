import Mathlib.Probability.Distributions.Gaussian.Real
import Mathlib.Analysis.SpecialFunctions.PolarCoord
import Mathlib.MeasureTheory.Function.JacobianOneDim
import Mathlib.Analysis.Real.Pi.Bounds

/-! # The transformation of Box and Muller -/

set_option autoImplicit false

namespace Verif.Random

open MeasureTheory ProbabilityTheory Set
open scoped ENNReal Real

/-- the transformation of two numbers in (0, 1] -/
noncomputable def boxMuller (c u v : ℝ) : ℝ := √(-2 * Real.log u) * Real.sin (c * v)

theorem measurable_boxMuller (c : ℝ) : Measurable fun p : ℝ × ℝ => boxMuller c p.1 p.2 := by
  unfold boxMuller
  fun_prop

theorem exp_image : (fun r : ℝ => Real.exp (-r ^ 2 / 2)) '' Ioi 0 = Ioo 0 1 := by
  ext u
  constructor
  · rintro ⟨r, hr, rfl⟩
    have hr : 0 < r := hr
    refine ⟨Real.exp_pos _, ?_⟩
    rw [show (1 : ℝ) = Real.exp 0 by simp]
    refine Real.exp_lt_exp.2 ?_
    have : 0 < r ^ 2 := by positivity
    linarith
  · rintro ⟨h0, h1⟩
    have hl : 0 < -2 * Real.log u := by
      have := Real.log_neg h0 h1
      linarith
    refine ⟨√(-2 * Real.log u), Real.sqrt_pos.2 hl, ?_⟩
    simp only
    rw [Real.sq_sqrt hl.le, show -(-2 * Real.log u) / 2 = Real.log u by ring, Real.exp_log h0]

/-- the angle -/
theorem lintegral_angle (g : ℝ → ℝ≥0∞) :
    ∫⁻ θ in Ioo (-π) π, g (Real.sin θ) = ENNReal.ofReal (2 * π) * ∫⁻ v in Ioc (0 : ℝ) 1, g (-Real.sin (2 * π * v)) := by
  have hp := Real.pi_pos
  have him : (fun v : ℝ => 2 * π * v - π) '' Ioo 0 1 = Ioo (-π) π := by
    ext θ
    constructor
    · rintro ⟨v, ⟨h0, h1⟩, rfl⟩
      constructor <;> simp only <;> nlinarith
    · rintro ⟨h0, h1⟩
      refine ⟨(θ + π) / (2 * π), ⟨by apply div_pos <;> linarith, ?_⟩, by simp only; field_simp; ring⟩
      rw [div_lt_one (by linarith)]
      linarith
  have hd : ∀ v ∈ Ioo (0 : ℝ) 1, HasDerivWithinAt (fun v : ℝ => 2 * π * v - π) (2 * π) (Ioo 0 1) v := by
    intro v _
    have h := ((hasDerivAt_id v).const_mul (2 * π)).sub_const π
    simp only [id, mul_one] at h
    exact h.hasDerivWithinAt
  have h := lintegral_image_eq_lintegral_abs_deriv_mul measurableSet_Ioo hd
    (fun a _ b _ hab => by simpa [hp.ne'] using hab) (fun θ => g (Real.sin θ))
  rw [him] at h
  rw [h, abs_of_pos (by positivity), lintegral_const_mul' _ _ ENNReal.ofReal_ne_top,
    Measure.restrict_congr_set Ioo_ae_eq_Ioc]
  simp only [Real.sin_sub_pi]

/-- the radius -/
theorem lintegral_radius (g : ℝ → ℝ≥0∞) :
    ∫⁻ r in Ioi (0 : ℝ), ENNReal.ofReal (r * Real.exp (-r ^ 2 / 2)) * g r
      = ∫⁻ u in Ioc (0 : ℝ) 1, g (√(-2 * Real.log u)) := by
  have hd : ∀ r ∈ Ioi (0 : ℝ), HasDerivWithinAt (fun r : ℝ => Real.exp (-r ^ 2 / 2))
      (-(r * Real.exp (-r ^ 2 / 2))) (Ioi 0) r := by
    intro r _
    have h := ((((hasDerivAt_id r).pow 2).neg).div_const 2).exp
    simp only [id, Nat.cast_ofNat, mul_one] at h
    refine (h.congr_deriv ?_).hasDerivWithinAt
    simp only [id, Pi.neg_apply, Pi.pow_apply]
    ring
  have hinj : InjOn (fun r : ℝ => Real.exp (-r ^ 2 / 2)) (Ioi 0) := by
    intro a ha b hb h
    have h := Real.exp_injective h
    have ha : 0 < a := ha
    have hb : 0 < b := hb
    have : a ^ 2 = b ^ 2 := by linarith
    exact (pow_left_inj₀ ha.le hb.le (by norm_num)).1 this
  have h := lintegral_image_eq_lintegral_abs_deriv_mul measurableSet_Ioi hd hinj
    (fun u => g (√(-2 * Real.log u)))
  rw [exp_image] at h
  rw [← Measure.restrict_congr_set Ioo_ae_eq_Ioc, h]
  refine setLIntegral_congr_fun measurableSet_Ioi fun r hr => ?_
  have hr : 0 < r := hr
  rw [abs_neg, abs_of_pos (by positivity), Real.log_exp, show -2 * (-r ^ 2 / 2) = r ^ 2 by ring, Real.sqrt_sq hr.le]

theorem pdf_mul (x y : ℝ) : gaussianPDF 0 1 x * gaussianPDF 0 1 y
    = ENNReal.ofReal ((2 * π)⁻¹ * Real.exp (-(x ^ 2 + y ^ 2) / 2)) := by
  have hp := Real.pi_pos
  rw [gaussianPDF, gaussianPDF, ← ENNReal.ofReal_mul (gaussianPDFReal_nonneg _ _ _), gaussianPDFReal, gaussianPDFReal]
  congr 1
  simp only [NNReal.coe_one, mul_one, sub_zero]
  rw [show (√(2 * π))⁻¹ * Real.exp (-x ^ 2 / 2) * ((√(2 * π))⁻¹ * Real.exp (-y ^ 2 / 2))
    = (√(2 * π) * √(2 * π))⁻¹ * (Real.exp (-x ^ 2 / 2) * Real.exp (-y ^ 2 / 2)) by
      rw [mul_inv]; ring, Real.mul_self_sqrt (by positivity), ← Real.exp_add]
  congr 2
  ring

/-- the integral over a normal variable in polar coordinates -/
theorem lintegral_gauss_polar {f : ℝ → ℝ≥0∞} (hf : Measurable f) :
    ∫⁻ y, f y ∂(gaussianReal 0 1)
      = ∫⁻ u in Ioc (0 : ℝ) 1, ∫⁻ v in Ioc (0 : ℝ) 1, f (-boxMuller (2 * π) u v) := by
  have hp := Real.pi_pos
  have h1 : ∫⁻ y, f y ∂(gaussianReal 0 1) = ∫⁻ p : ℝ × ℝ, gaussianPDF 0 1 p.1 * (gaussianPDF 0 1 p.2 * f p.2) := by
    rw [gaussianReal_of_var_ne_zero _ one_ne_zero, lintegral_withDensity_eq_lintegral_mul _ (measurable_gaussianPDF _ _) hf,
      Measure.volume_eq_prod, lintegral_prod_mul (g := fun y => gaussianPDF 0 1 y * f y)
        (measurable_gaussianPDF _ _).aemeasurable
        ((measurable_gaussianPDF _ _).mul hf).aemeasurable, lintegral_gaussianPDF_eq_one 0 one_ne_zero, one_mul]
    rfl
  rw [h1, ← lintegral_comp_polarCoord_symm, polarCoord_target, Measure.volume_eq_prod, ← Measure.prod_restrict]
  have h2 : ∀ p : ℝ × ℝ, ENNReal.ofReal p.1 •
      (gaussianPDF 0 1 (polarCoord.symm p).1 * (gaussianPDF 0 1 (polarCoord.symm p).2 * f (polarCoord.symm p).2))
      = ENNReal.ofReal p.1 * (ENNReal.ofReal ((2 * π)⁻¹ * Real.exp (-p.1 ^ 2 / 2)) * f (p.1 * Real.sin p.2)) := by
    intro p
    rw [← mul_assoc, pdf_mul, polarCoord_symm_apply, smul_eq_mul]
    simp only
    rw [show (p.1 * Real.cos p.2) ^ 2 + (p.1 * Real.sin p.2) ^ 2
      = p.1 ^ 2 * (Real.cos p.2 ^ 2 + Real.sin p.2 ^ 2) by ring, Real.cos_sq_add_sin_sq, mul_one]
  simp only [h2]
  rw [lintegral_prod]
  swap
  · apply Measurable.aemeasurable
    fun_prop
  refine Eq.trans ?_ (lintegral_radius fun r => ∫⁻ v in Ioc (0 : ℝ) 1, f (-(r * Real.sin (2 * π * v))))
  refine setLIntegral_congr_fun measurableSet_Ioi fun r hr => ?_
  have hr : 0 < r := hr
  simp only
  rw [lintegral_const_mul' _ _ ENNReal.ofReal_ne_top, lintegral_const_mul' _ _ ENNReal.ofReal_ne_top,
    lintegral_angle fun s => f (r * s), ← mul_assoc, ← mul_assoc, ← ENNReal.ofReal_mul hr.le,
    ← ENNReal.ofReal_mul (by positivity)]
  congr 2
  · field_simp
  · simp only [mul_neg]

/-- C100: the transformation gives a normal variable with mean 0 and variance 1 -/
theorem boxMuller_law :
    (((volume.restrict (Ioc (0 : ℝ) 1)).prod (volume.restrict (Ioc (0 : ℝ) 1))).map fun p => boxMuller (2 * π) p.1 p.2)
      = gaussianReal 0 1 := by
  refine Measure.ext_of_lintegral _ fun f hf => ?_
  rw [lintegral_map hf (measurable_boxMuller _),
    lintegral_prod (fun p => f (boxMuller (2 * π) p.1 p.2)) (hf.comp (measurable_boxMuller _)).aemeasurable]
  have h : gaussianReal 0 1 = (gaussianReal 0 1).map fun x => -x := by
    rw [gaussianReal_map_neg, neg_zero]
  rw [h, lintegral_map hf measurable_neg, lintegral_gauss_polar (f := fun x => f (-x)) (hf.comp measurable_neg)]
  simp only [neg_neg]

end Verif.Random
