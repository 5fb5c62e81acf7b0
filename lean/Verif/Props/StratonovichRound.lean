import Mathlib.Analysis.SpecialFunctions.Log.Basic
import Mathlib.Analysis.Complex.Exponential
import Verif.Model.StratonovichRound
import Verif.Props.Stratonovich

/-!
# Accuracy of the tables of `FillStratonovichParameters` in rounded arithmetic

Whatever the rounding, as long as every operation has relative error at most `u`, the tables `expVu`,
`expVd` and `delta[0]` have a relative error of a few `u`, also for arbitrarily small `U*dt`: the
`expm1` of stratonovich.c:26 is what makes this true, and the textbook formula `sqrt(exp(dt*U) - 1)`
loses all digits (`naive_loses_everything`).  `delta[1]` is only accurate in the absolute sense: line 43
subtracts nearly equal numbers, and returns zero for small `U*dt` (`delta1_zero`,
`not_delta1_relative`).
-/

set_option autoImplicit false

namespace Verif.Stratonovich

/-- `a` is a computed value of the nonnegative number `b`, with relative error at most `exp ε - 1` in
either direction -/
def Close (ε a b : ℝ) : Prop := 0 ≤ b ∧ b * Real.exp (-ε) ≤ a ∧ a ≤ b * Real.exp ε

namespace Close

variable {ε δ a b c a' b' : ℝ}

theorem nonneg (h : Close ε a b) : 0 ≤ a :=
  (mul_nonneg h.1 (Real.exp_pos _).le).trans h.2.1

theorem refl (hb : 0 ≤ b) : Close 0 b b := by
  refine ⟨hb, ?_, ?_⟩ <;> simp

theorem mono (h : Close ε a b) (hε : ε ≤ δ) : Close δ a b := by
  refine ⟨h.1, ?_, ?_⟩
  · exact (mul_le_mul_of_nonneg_left (Real.exp_le_exp.2 (neg_le_neg hε)) h.1).trans h.2.1
  · exact h.2.2.trans (mul_le_mul_of_nonneg_left (Real.exp_le_exp.2 hε) h.1)

theorem trans (h : Close ε a b) (k : Close δ b c) : Close (ε + δ) a c := by
  refine ⟨k.1, ?_, ?_⟩
  · refine le_trans ?_ h.2.1
    rw [neg_add, add_comm, Real.exp_add, ← mul_assoc]
    exact mul_le_mul_of_nonneg_right k.2.1 (Real.exp_pos _).le
  · refine h.2.2.trans ?_
    rw [add_comm, Real.exp_add, ← mul_assoc]
    exact mul_le_mul_of_nonneg_right k.2.2 (Real.exp_pos _).le

theorem mul (h : Close ε a b) (k : Close δ a' b') : Close (ε + δ) (a * a') (b * b') := by
  refine ⟨mul_nonneg h.1 k.1, ?_, ?_⟩
  · rw [neg_add, Real.exp_add, mul_mul_mul_comm]
    exact mul_le_mul h.2.1 k.2.1 (mul_nonneg k.1 (Real.exp_pos _).le) h.nonneg
  · rw [Real.exp_add, mul_mul_mul_comm]
    exact mul_le_mul h.2.2 k.2.2 k.nonneg (mul_nonneg h.1 (Real.exp_pos _).le)

theorem add (h : Close ε a b) (k : Close ε a' b') : Close ε (a + a') (b + b') := by
  refine ⟨add_nonneg h.1 k.1, ?_, ?_⟩
  · rw [add_mul]; exact add_le_add h.2.1 k.2.1
  · rw [add_mul]; exact add_le_add h.2.2 k.2.2

theorem inv (h : Close ε a b) (hb : 0 < b) : Close ε (1 / a) (1 / b) := by
  have ha : 0 < a := (mul_pos hb (Real.exp_pos _)).trans_le h.2.1
  refine ⟨(one_div_pos.2 hb).le, ?_, ?_⟩
  · rw [Real.exp_neg, one_div_mul_eq_div, div_eq_mul_inv, ← mul_inv, one_div]
    exact inv_anti₀ ha (h.2.2.trans_eq (mul_comm _ _))
  · have hm : 0 < b * Real.exp (-ε) := mul_pos hb (Real.exp_pos _)
    have := inv_anti₀ hm h.2.1
    rw [mul_inv, Real.exp_neg, inv_inv] at this
    simpa [one_div] using this

theorem sqrt (h : Close (2 * ε) a b) : Close ε (Real.sqrt a) (Real.sqrt b) := by
  have e1 : Real.exp ε = Real.sqrt (Real.exp (2 * ε)) := by
    rw [two_mul, Real.exp_add, Real.sqrt_mul_self (Real.exp_pos _).le]
  have e2 : Real.exp (-ε) = Real.sqrt (Real.exp (-(2 * ε))) := by
    rw [show -(2 * ε) = -ε + -ε by ring, Real.exp_add, Real.sqrt_mul_self (Real.exp_pos _).le]
  refine ⟨Real.sqrt_nonneg _, ?_, ?_⟩
  · rw [e2, ← Real.sqrt_mul h.1]; exact Real.sqrt_le_sqrt h.2.1
  · rw [e1, ← Real.sqrt_mul h.1]; exact Real.sqrt_le_sqrt h.2.2

/-- Exact value with a relative error at most `u` -/
theorem of_round {u : ℝ} (hu : 0 ≤ u) (hu1 : u < 1) (hb : 0 ≤ b) (h : |a - b| ≤ u * |b|) :
    Close (-Real.log (1 - u)) a b := by
  have h1 : 0 < 1 - u := by linarith
  rw [abs_of_nonneg hb] at h
  have hl := (abs_le.1 h).1
  have hr := (abs_le.1 h).2
  refine ⟨hb, ?_, ?_⟩
  · rw [neg_neg, Real.exp_log h1]; nlinarith
  · rw [Real.exp_neg, Real.exp_log h1]
    have : 1 + u ≤ (1 - u)⁻¹ := by
      rw [← one_div, le_div_iff₀ h1]; nlinarith
    nlinarith [mul_le_mul_of_nonneg_left this hb]

/-- What closeness means for the relative error -/
theorem rel (h : Close ε a b) : |a - b| ≤ (Real.exp ε - 1) * b := by
  rw [abs_le]
  refine ⟨?_, by nlinarith [h.2.2]⟩
  have h1 : 2 ≤ Real.exp ε + Real.exp (-ε) := by
    have hp := Real.exp_pos ε
    rw [Real.exp_neg, ← sub_nonneg]
    have : Real.exp ε + (Real.exp ε)⁻¹ - 2 = (Real.exp ε - 1) ^ 2 / Real.exp ε := by
      field_simp; ring
    rw [this]; positivity
  nlinarith [h.2.1, mul_le_mul_of_nonneg_left h1 h.1]

end Close

/-! ## The library functions at a perturbed argument -/

theorem exp_close {ε x x' : ℝ} (h : Close ε x' x) :
    Close (x * (Real.exp ε - 1)) (Real.exp x') (Real.exp x) := by
  have := abs_le.1 (h.rel)
  refine ⟨(Real.exp_pos _).le, ?_, ?_⟩ <;> rw [← Real.exp_add] <;> apply Real.exp_le_exp.2 <;>
    linarith [this.1, this.2]

/-- `expm1` amplifies a factor `c` of its argument by at most `exp (x (c - 1))` -/
theorem expm1_le {x c : ℝ} (hx : 0 ≤ x) (hc : 1 ≤ c) :
    Real.exp (x * c) - 1 ≤ c * Real.exp (x * (c - 1)) * (Real.exp x - 1) := by
  set t := x * (c - 1) with ht
  have ht0 : 0 ≤ t := mul_nonneg hx (by linarith)
  have e : Real.exp (x * c) = Real.exp t * Real.exp x := by rw [← Real.exp_add, ht]; ring_nf
  have hE : 1 + x ≤ Real.exp x := by linarith [Real.add_one_le_exp x]
  have hp := Real.exp_pos t
  have h1 : Real.exp t - 1 ≤ t * Real.exp t := by
    have := Real.add_one_le_exp (-t)
    rw [Real.exp_neg] at this
    have h2 : Real.exp t * (-t + 1) ≤ 1 := by
      calc Real.exp t * (-t + 1) ≤ Real.exp t * (Real.exp t)⁻¹ :=
            mul_le_mul_of_nonneg_left this hp.le
        _ = 1 := mul_inv_cancel₀ hp.ne'
    nlinarith
  have h3 : (c - 1) * Real.exp t * (1 + x) ≤ (c - 1) * Real.exp t * Real.exp x :=
    mul_le_mul_of_nonneg_left hE (mul_nonneg (by linarith) hp.le)
  rw [e]
  have h4 : (c - 1) * Real.exp t * x = t * Real.exp t := by rw [ht]; ring
  nlinarith

theorem expm1_close {ε x x' : ℝ} (hε : 0 ≤ ε) (h : Close ε x' x) :
    Close (ε + x * (Real.exp ε - 1)) (Real.exp x' - 1) (Real.exp x - 1) := by
  have hx := h.1
  have hc : 1 ≤ Real.exp ε := Real.one_le_exp hε
  have hx0 : 0 ≤ Real.exp x - 1 := by linarith [Real.one_le_exp hx]
  refine ⟨hx0, ?_, ?_⟩
  · have hx' : 0 ≤ x * Real.exp (-ε) := mul_nonneg hx (Real.exp_pos _).le
    have key := expm1_le hx' hc
    have e : x * Real.exp (-ε) * Real.exp ε = x := by
      rw [mul_assoc, ← Real.exp_add]; simp
    rw [e] at key
    have hle : x * Real.exp (-ε) * (Real.exp ε - 1) ≤ x * (Real.exp ε - 1) := by
      apply mul_le_mul_of_nonneg_right _ (by linarith)
      have : Real.exp (-ε) ≤ 1 := Real.exp_le_one_iff.2 (by linarith)
      nlinarith
    have hy0 : 0 ≤ Real.exp (x * Real.exp (-ε)) - 1 := by linarith [Real.one_le_exp hx']
    have h2 : Real.exp x - 1 ≤
        Real.exp (ε + x * (Real.exp ε - 1)) * (Real.exp (x * Real.exp (-ε)) - 1) := by
      refine key.trans (mul_le_mul_of_nonneg_right ?_ hy0)
      rw [Real.exp_add]
      exact mul_le_mul_of_nonneg_left (Real.exp_le_exp.2 hle) (Real.exp_pos _).le
    have h3 : Real.exp (x * Real.exp (-ε)) ≤ Real.exp x' := Real.exp_le_exp.2 h.2.1
    rw [Real.exp_neg, ← div_eq_mul_inv, div_le_iff₀ (Real.exp_pos _)]
    refine h2.trans ?_
    rw [mul_comm]
    exact mul_le_mul_of_nonneg_right (by linarith) (Real.exp_pos _).le
  · have key := expm1_le hx hc
    have h3 : Real.exp x' ≤ Real.exp (x * Real.exp ε) := Real.exp_le_exp.2 h.2.2
    rw [Real.exp_add, mul_comm]
    linarith

/-! ## The chain of operations of lines 24-43 -/

/-- log-relative error of one operation -/
noncomputable def opErr (u : ℝ) : ℝ := -Real.log (1 - u)

/-- error of `exp` at the rounded argument: `x = dt*U/2` is only known up to two roundings -/
noncomputable def argErr (u U dt : ℝ) : ℝ := hsX U dt * (Real.exp (2 * opErr u) - 1)

section chain

variable {A : Arith} {u U dt : ℝ}

theorem opErr_nonneg (hu : 0 ≤ u) (hu1 : u < 1) : 0 ≤ opErr u := by
  have := Real.log_nonpos (x := 1 - u) (by linarith) (by linarith)
  unfold opErr; linarith

theorem hsX_nonneg (h : 0 ≤ dt * U) : 0 ≤ hsX U dt := by unfold hsX; nlinarith

theorem argErr_nonneg (hu : 0 ≤ u) (hu1 : u < 1) (h : 0 ≤ dt * U) : 0 ≤ argErr u U dt := by
  have := opErr_nonneg hu hu1
  exact mul_nonneg (hsX_nonneg h) (by linarith [Real.one_le_exp (x := 2 * opErr u) (by linarith)])

/-- The product of two factors of the same sign, each with a relative error, in the form needed for `x`:
`0.5*dt` and `U` may both be negative -/
theorem x_close (hA : A.Accurate u) (hu : 0 ≤ u) (hu1 : u < 1) (h : 0 ≤ dt * U) :
    Close (2 * opErr u) (A.x U dt) (hsX U dt) := by
  have h1 := hA.mul 0.5 dt
  have h2 := hA.mul (A.mul 0.5 dt) U
  have hprod : Close (opErr u) (A.mul 0.5 dt * U) (0.5 * dt * U) := by
    refine Close.of_round hu hu1 (hsX_nonneg h) ?_
    rw [← sub_mul, abs_mul, abs_mul, ← mul_assoc]
    exact mul_le_mul_of_nonneg_right h1 (abs_nonneg _)
  have := (Close.of_round hu hu1 hprod.nonneg h2).trans hprod
  rw [two_mul]; exact this

variable (hA : A.Accurate u) (hu : 0 ≤ u) (hu1 : u < 1) (h : 0 ≤ dt * U)
include hA hu hu1 h

theorem expX_close : Close (opErr u + argErr u U dt) (A.expX U dt) (Real.exp (hsX U dt)) := by
  have hw := opErr_nonneg hu hu1
  exact (Close.of_round hu hu1 (Real.exp_pos _).le (hA.exp (A.x U dt))).trans
    (exp_close (x_close hA hu hu1 h))

theorem expm1X_close :
    Close (3 * opErr u + argErr u U dt) (A.expm1 (A.x U dt)) (Real.exp (hsX U dt) - 1) := by
  have hw := opErr_nonneg hu hu1
  have hx := x_close hA hu hu1 h
  have h0 : 0 ≤ Real.exp (A.x U dt) - 1 := by linarith [Real.one_le_exp hx.nonneg]
  have := (Close.of_round hu hu1 h0 (hA.expm1 (A.x U dt))).trans (expm1_close (by linarith) hx)
  refine this.mono ?_
  unfold argErr opErr; linarith

theorem y_close : Close (6 * opErr u + 2 * argErr u U dt) (A.y U dt) (hsY U dt) := by
  have hw := opErr_nonneg hu hu1
  have hk := argErr_nonneg hu hu1 h
  have h1 : Close (opErr u + argErr u U dt) (A.expX U dt + 1) (Real.exp (hsX U dt) + 1) :=
    (expX_close hA hu hu1 h).add ((Close.refl zero_le_one).mono (by linarith))
  have h2 := (Close.of_round hu hu1 h1.nonneg (hA.add (A.expX U dt) 1)).trans h1
  have h3 := (expm1X_close hA hu hu1 h).mul h2
  refine ((Close.of_round hu hu1 h3.nonneg (hA.mul _ _)).trans h3).mono ?_
  unfold opErr; linarith

theorem sqrtY_close : Close (4 * opErr u + argErr u U dt) (A.sqrtY U dt) (Real.sqrt (hsY U dt)) := by
  have h1 : Close (3 * opErr u + argErr u U dt) (Real.sqrt (A.y U dt)) (Real.sqrt (hsY U dt)) := by
    refine Close.sqrt ((y_close hA hu hu1 h).mono ?_)
    linarith
  refine ((Close.of_round hu hu1 h1.nonneg (hA.sqrt _)).trans h1).mono ?_
  unfold opErr; linarith

theorem pos_close : Close (5 * opErr u + argErr u U dt) (A.pos U dt) (expPos U dt) := by
  have hw := opErr_nonneg hu hu1
  have h1 : Close (4 * opErr u + argErr u U dt) (A.expX U dt + A.sqrtY U dt) (expPos U dt) :=
    ((expX_close hA hu hu1 h).mono (by linarith)).add (sqrtY_close hA hu hu1 h)
  refine ((Close.of_round hu hu1 h1.nonneg (hA.add _ _)).trans h1).mono ?_
  unfold opErr; linarith

theorem neg_close : Close (6 * opErr u + argErr u U dt) (A.neg U dt) (expNeg U dt) := by
  have h1 := (pos_close hA hu hu1 h).inv expPos_pos
  have h2 : |A.neg U dt - 1 / A.pos U dt| ≤ u * |1 / A.pos U dt| := by
    have := hA.div 1.0 (A.pos U dt)
    have e : (1.0 : ℝ) / A.pos U dt = 1 / A.pos U dt := by norm_num
    rwa [e] at this
  have h3 := (Close.of_round hu hu1 h1.nonneg h2).trans h1
  have e : expNeg U dt = 1 / expPos U dt := by unfold expNeg; norm_num
  rw [e]
  refine h3.mono ?_
  unfold opErr; linarith

theorem delta0_close :
    Close (8 * opErr u + 2 * argErr u U dt) (A.delta0 U dt) (delta0 U dt) := by
  have hw := opErr_nonneg hu hu1
  have h1 := (expX_close hA hu hu1 h).mul (sqrtY_close hA hu hu1 h)
  have h2 := (Close.of_round hu hu1 h1.nonneg (hA.mul _ _)).trans h1
  have h3 := ((y_close hA hu hu1 h)).add (h2.mono (by change opErr u + _ ≤ _; linarith))
  have h4 := (Close.of_round hu hu1 h3.nonneg (hA.add _ _)).trans h3
  have h5 := ((Close.refl (b := 2) zero_le_two)).mul h4
  have h6 := (Close.of_round hu hu1 h5.nonneg (hA.mul _ _)).trans h5
  refine h6.mono ?_
  unfold opErr; linarith

/-- The quotient of line 43 before the subtraction -/
theorem recip_close :
    Close (10 * opErr u + 2 * argErr u U dt) (A.div 1.0 (A.add (A.delta0 U dt) 1))
      (1.0 / (delta0 U dt + 1)) := by
  have hw := opErr_nonneg hu hu1
  have hk := argErr_nonneg hu hu1 h
  have hd := delta0_close hA hu hu1 h
  have h1 := hd.add ((Close.refl zero_le_one).mono (by linarith : (0 : ℝ) ≤ _))
  have h2 := (Close.of_round hu hu1 h1.nonneg (hA.add _ _)).trans h1
  have h3 := h2.inv (by linarith [hd.1])
  have e : (1.0 : ℝ) = 1 := by norm_num
  have h4 : |A.div 1.0 (A.add (A.delta0 U dt) 1) - 1 / A.add (A.delta0 U dt) 1| ≤
      u * |1 / A.add (A.delta0 U dt) 1| := by
    have := hA.div 1.0 (A.add (A.delta0 U dt) 1)
    rw [e] at this ⊢; exact this
  have h5 := (Close.of_round hu hu1 h3.nonneg h4).trans h3
  rw [show (1.0 : ℝ) / (delta0 U dt + 1) = 1 / (delta0 U dt + 1) by rw [e]]
  refine h5.mono ?_
  unfold opErr; linarith

theorem delta1_abs :
    |A.delta1 U dt - (1.0 / (delta0 U dt + 1) - 1)| ≤
      (Real.exp (10 * opErr u + 2 * argErr u U dt) - 1) * (1 + u) + u := by
  have hw := opErr_nonneg hu hu1
  have hk := argErr_nonneg hu hu1 h
  have hd := (delta0_close hA hu hu1 h).1
  have hq := (recip_close hA hu hu1 h)
  have hr := hq.rel
  have hs := hA.sub (A.div 1.0 (A.add (A.delta0 U dt) 1)) 1
  have e : (1.0 : ℝ) / (delta0 U dt + 1) = 1 / (delta0 U dt + 1) := by norm_num
  have hq1 : (1.0 : ℝ) / (delta0 U dt + 1) ≤ 1 := by
    rw [e]; exact (div_le_one (by linarith)).2 (by linarith)
  have hE : 0 ≤ Real.exp (10 * opErr u + 2 * argErr u U dt) - 1 := by
    linarith [Real.one_le_exp (x := 10 * opErr u + 2 * argErr u U dt) (by linarith)]
  have hq0 := hq.1
  change |A.sub (A.div 1.0 (A.add (A.delta0 U dt) 1)) 1 - _| ≤ _
  generalize A.div 1.0 (A.add (A.delta0 U dt) 1) = q' at *
  generalize (1.0 : ℝ) / (delta0 U dt + 1) = q at *
  generalize Real.exp (10 * opErr u + 2 * argErr u U dt) - 1 = E at *
  have hr' : |q' - q| ≤ E := hr.trans (mul_le_of_le_one_right hE hq1)
  have h1 : |q' - 1| ≤ E + 1 := by
    have : |q - 1| ≤ 1 := by rw [abs_le]; constructor <;> linarith
    calc |q' - 1| = |(q' - q) + (q - 1)| := by ring_nf
      _ ≤ _ := (abs_add_le _ _).trans (add_le_add hr' this)
  calc |A.sub q' 1 - (q - 1)| = |(A.sub q' 1 - (q' - 1)) + (q' - q)| := by ring_nf
    _ ≤ |A.sub q' 1 - (q' - 1)| + |q' - q| := abs_add_le _ _
    _ ≤ u * (E + 1) + E := add_le_add (hs.trans (mul_le_mul_of_nonneg_left h1 hu)) hr'
    _ = _ := by ring

end chain

/-! ## Explicit constants -/

theorem opErr_le {u : ℝ} (hu : 0 ≤ u) (hu1 : u ≤ 1 / 100) : opErr u ≤ 1.02 * u := by
  have h1 : 0 < 1 - u := by linarith
  have := Real.log_le_sub_one_of_pos (x := (1 - u)⁻¹) (by positivity)
  rw [Real.log_inv] at this
  have h2 : (1 - u)⁻¹ - 1 ≤ 1.02 * u := by
    rw [sub_le_iff_le_add, ← one_div, div_le_iff₀ h1]; nlinarith
  unfold opErr; linarith

theorem argErr_le {u U dt : ℝ} (hu : 0 ≤ u) (hu1 : u ≤ 1 / 100) (h : 0 ≤ dt * U) :
    argErr u U dt ≤ 1.02 * (dt * U) * u := by
  have h1 : 0 < 1 - u := by linarith
  have e : Real.exp (2 * opErr u) = ((1 - u) ^ 2)⁻¹ := by
    unfold opErr
    rw [show 2 * -Real.log (1 - u) = -Real.log (1 - u) + -Real.log (1 - u) by ring, Real.exp_add,
      Real.exp_neg, Real.exp_log h1, pow_two, mul_inv]
  have h2 : ((1 - u) ^ 2)⁻¹ - 1 ≤ 2.04 * u := by
    rw [sub_le_iff_le_add, ← one_div, div_le_iff₀ (by positivity)]
    nlinarith [mul_nonneg hu hu, mul_nonneg (mul_nonneg hu hu) hu]
  have e2 : hsX U dt = dt * U / 2 := by unfold hsX; ring
  unfold argErr
  rw [e, e2]
  nlinarith

theorem exp_sub_one_le {ε : ℝ} (h0 : 0 ≤ ε) (h1 : ε ≤ 1 / 8) : Real.exp ε - 1 ≤ 1.15 * ε := by
  have hp : 0 < 1 - ε := by linarith
  have := Real.add_one_le_exp (-ε)
  rw [Real.exp_neg] at this
  have h2 : Real.exp ε ≤ (1 - ε)⁻¹ := by
    have hq : -ε + 1 = 1 - ε := by ring
    rw [hq] at this
    have := inv_anti₀ hp this
    rwa [inv_inv] at this
  have h3 : (1 - ε)⁻¹ - 1 ≤ 1.15 * ε := by
    rw [sub_le_iff_le_add, ← one_div, div_le_iff₀ hp]; nlinarith
  linarith

/-- **The tables in rounded arithmetic.**  Whenever every operation has relative error at most `u`, for
couplings with `0 ≤ dt*U` the tables are filled, `expVu`, `expVd` and `delta[0]` have relative error at
most `(9 + 3 dt U) u` and `(11 + 3 dt U) u`, and `delta[1]` has absolute error at most `(14 + 3 dt U) u`. -/
theorem fill_accurate {A : Arith} {u dt : ℝ} {Norb : ℕ} {U : ℕ → ℝ} (hA : A.Accurate u) (hu : 0 ≤ u)
    (hu1 : u ≤ 1 / 200) (hU : ∀ o < Norb, 0 ≤ dt * U o) (hS : ∀ o < Norb, dt * U o * u ≤ 1 / 100) :
    ∃ p q : HSParams, A.fill Norb U dt = some p ∧ fill Norb U dt = some q ∧
      ∀ o < Norb,
        (∀ s, |p.expVu s o - q.expVu s o| ≤ (9 + 3 * (dt * U o)) * u * |q.expVu s o|) ∧
        (∀ s, |p.expVd s o - q.expVd s o| ≤ (9 + 3 * (dt * U o)) * u * |q.expVd s o|) ∧
        |p.delta 0 o - q.delta 0 o| ≤ (11 + 3 * (dt * U o)) * u * |q.delta 0 o| ∧
        |p.delta 1 o - q.delta 1 o| ≤ (14 + 3 * (dt * U o)) * u := by
  have hlt : u < 1 := by linarith
  have n1 : ¬ ∃ o < Norb, A.y (U o) dt < 0 := by
    rintro ⟨o, ho, hlt'⟩
    exact absurd (y_close hA hu hlt (hU o ho)).nonneg (not_le.2 hlt')
  have n2 : ¬ ∃ o < Norb, hsY (U o) dt < 0 := by
    rintro ⟨o, ho, hlt'⟩
    exact absurd (y_close hA hu hlt (hU o ho)).1 (not_le.2 hlt')
  refine ⟨_, _, if_neg n1, if_neg n2, fun o ho => ?_⟩
  have h := hU o ho
  have hw0 := opErr_nonneg hu hlt
  have hk0 := argErr_nonneg hu hlt h
  have hw := opErr_le hu (by linarith)
  have hk := argErr_le hu (by linarith) h
  have hs := hS o ho
  have hz : 0 ≤ dt * U o * u := mul_nonneg h hu
  have hp : |A.pos (U o) dt - expPos (U o) dt| ≤ (9 + 3 * (dt * U o)) * u * |expPos (U o) dt| := by
    have c := pos_close hA hu hlt h
    rw [abs_of_nonneg c.1]
    refine c.rel.trans (mul_le_mul_of_nonneg_right ?_ c.1)
    refine (exp_sub_one_le (by linarith) (by nlinarith)).trans ?_
    nlinarith
  have hn : |A.neg (U o) dt - expNeg (U o) dt| ≤ (9 + 3 * (dt * U o)) * u * |expNeg (U o) dt| := by
    have c := neg_close hA hu hlt h
    rw [abs_of_nonneg c.1]
    refine c.rel.trans (mul_le_mul_of_nonneg_right ?_ c.1)
    refine (exp_sub_one_le (by linarith) (by nlinarith)).trans ?_
    nlinarith
  refine ⟨fun s => ?_, fun s => ?_, ?_, ?_⟩
  · by_cases h0 : s = 0
    · simpa [h0] using hn
    · simpa [h0] using hp
  · by_cases h0 : s = 0
    · simpa [h0] using hp
    · simpa [h0] using hn
  · have c := delta0_close hA hu hlt h
    change |A.delta0 (U o) dt - delta0 (U o) dt| ≤ _ * |delta0 (U o) dt|
    rw [abs_of_nonneg c.1]
    refine c.rel.trans (mul_le_mul_of_nonneg_right ?_ c.1)
    refine (exp_sub_one_le (by linarith) (by nlinarith)).trans ?_
    nlinarith
  · have c := delta1_abs hA hu hlt h
    change |A.delta1 (U o) dt - (1.0 / (delta0 (U o) dt + 1) - 1)| ≤ _
    refine c.trans ?_
    have hE := exp_sub_one_le (ε := 10 * opErr u + 2 * argErr u (U o) dt) (by linarith) (by nlinarith)
    have hE2 : Real.exp (10 * opErr u + 2 * argErr u (U o) dt) - 1 ≤
        (11.8 + 2.4 * (dt * U o)) * u := by nlinarith
    nlinarith [mul_le_mul_of_nonneg_right hE2 (by linarith : (0 : ℝ) ≤ 1 + u)]

/-- couplings and a rounding that meet the hypotheses: exact arithmetic is a special case … -/
theorem exact_accurate {u : ℝ} (hu : 0 ≤ u) : Arith.exact.Accurate u := by
  constructor <;> intros <;> simp [Arith.exact] <;> positivity

/-- … for which the model of stratonovich.c is the exact one -/
theorem exact_fill (Norb : ℕ) (U : ℕ → ℝ) (dt : ℝ) :
    Arith.exact.fill Norb U dt = fill Norb U dt := rfl

/-! ## What rounding does to `delta[1]`, and to the formula without `expm1` -/

/-- Exact arithmetic except that sums `d + 1` with `0 ≤ d ≤ u` are rounded to 1 -/
noncomputable def coarseAdd (u : ℝ) : Arith :=
  { Arith.exact with add := fun x y => if y = 1 ∧ 0 ≤ x ∧ x ≤ u then 1 else x + y }

/-- Exact arithmetic except that exponentials in `[1, 1 + u]` are rounded to 1 -/
noncomputable def coarseExp (u : ℝ) : Arith :=
  { Arith.exact with exp := fun x => if 1 ≤ Real.exp x ∧ Real.exp x ≤ 1 + u then 1 else Real.exp x }

theorem coarseAdd_accurate {u : ℝ} (hu : 0 ≤ u) : (coarseAdd u).Accurate u := by
  have h := exact_accurate hu
  refine { h with add := fun x y => ?_ }
  change |(if y = 1 ∧ 0 ≤ x ∧ x ≤ u then 1 else x + y) - (x + y)| ≤ _
  split_ifs with hc
  · obtain ⟨rfl, h0, h1⟩ := hc
    rw [abs_sub_comm, add_sub_cancel_right, abs_of_nonneg h0, abs_of_nonneg (by linarith)]
    nlinarith
  · rw [sub_self, abs_zero]; positivity

theorem coarseExp_accurate {u : ℝ} (hu : 0 ≤ u) : (coarseExp u).Accurate u := by
  have h := exact_accurate hu
  refine { h with exp := fun x => ?_ }
  change |(if 1 ≤ Real.exp x ∧ Real.exp x ≤ 1 + u then 1 else Real.exp x) - Real.exp x| ≤ _
  split_ifs with hc
  · rw [abs_sub_comm, abs_of_nonneg (by linarith [hc.1]), abs_of_pos (Real.exp_pos x)]
    nlinarith [hc.1, hc.2]
  · rw [sub_self, abs_zero]; positivity

/-- **Line 43 for small couplings.**  If the arithmetic rounds `d + 1` to 1 for `0 ≤ d ≤ u` (as
round-to-nearest binary64 does with `u = 2^-53`), `1/1` to 1 and `1 - 1` to 0, then `delta[1]` is stored
as zero as soon as the stored `delta[0]` is at most `u`. -/
theorem delta1_zero {A : Arith} {u U dt : ℝ} (h1 : ∀ d, 0 ≤ d → d ≤ u → A.add d 1 = 1)
    (h2 : A.div 1.0 1 = 1) (h3 : A.sub 1 1 = 0) (hd0 : 0 ≤ A.delta0 U dt) (hd : A.delta0 U dt ≤ u) :
    A.delta1 U dt = 0 := by
  rw [Arith.delta1, h1 _ hd0 hd, h2, h3]

theorem delta0_cont (dt : ℝ) : Continuous fun U => delta0 U dt := by
  unfold delta0 hsY hsX
  fun_prop

theorem small_delta0 {u : ℝ} (hu : 0 < u) : ∃ U, 0 < U ∧ delta0 U 1 ≤ u := by
  have h0 : delta0 0 1 = 0 := by simp [delta0, hsY, hsX]
  have hc := (delta0_cont 1).tendsto 0
  rw [h0] at hc
  have := (hc.eventually (gt_mem_nhds hu)).filter_mono (nhdsWithin_le_nhds (s := Set.Ioi 0))
  obtain ⟨U, hU, hpos⟩ := (this.and self_mem_nhdsWithin).exists
  exact ⟨U, hpos, hU.le⟩

/-- **`delta[1]` has no relative accuracy**: for every `u > 0` there are an arithmetic with relative
error at most `u` and a positive coupling for which line 43 stores zero instead of a negative number. -/
theorem not_delta1_relative {u : ℝ} (hu : 0 < u) (hu1 : u < 1) :
    ∃ (A : Arith) (U dt : ℝ), A.Accurate u ∧ 0 < dt * U ∧ A.delta1 U dt = 0 ∧
      1.0 / (delta0 U dt + 1) - 1 < 0 := by
  obtain ⟨U, hU, hs⟩ := small_delta0 hu
  have hd : 0 < delta0 U 1 := delta0_pos (by linarith)
  refine ⟨coarseAdd u, U, 1, coarseAdd_accurate hu.le, by linarith, ?_, ?_⟩
  · have hx : 0 ≤ hsX U 1 := hsX_nonneg (by linarith)
    have he : 1 ≤ Real.exp (hsX U 1) := Real.one_le_exp hx
    have hy : 0 ≤ hsY U 1 := mul_nonneg (by linarith) (by linarith)
    have ey : (coarseAdd u).y U 1 = hsY U 1 := by
      have : ¬ Real.exp (hsX U 1) ≤ u := by linarith
      change (Real.exp (hsX U 1) - 1) * (if (1 : ℝ) = 1 ∧ 0 ≤ Real.exp (hsX U 1) ∧
        Real.exp (hsX U 1) ≤ u then 1 else Real.exp (hsX U 1) + 1) = _
      rw [if_neg (by tauto)]; rfl
    have ed : (coarseAdd u).delta0 U 1 = delta0 U 1 := by
      change 2 * (if Real.exp (hsX U 1) * Real.sqrt ((coarseAdd u).y U 1) = 1 ∧
        0 ≤ (coarseAdd u).y U 1 ∧ (coarseAdd u).y U 1 ≤ u then 1
        else (coarseAdd u).y U 1 + Real.exp (hsX U 1) * Real.sqrt ((coarseAdd u).y U 1)) = _
      rw [ey, if_neg]
      · rfl
      · rintro ⟨h1, -⟩
        unfold delta0 at hs
        linarith
    refine delta1_zero (u := u) (fun d h0 h1 => ?_) ?_ ?_ ?_ ?_
    · exact if_pos ⟨rfl, h0, h1⟩
    · change (1.0 : ℝ) / 1 = 1; norm_num
    · exact sub_self (1 : ℝ)
    · rw [ed]; exact hd.le
    · rw [ed]; exact hs
  · rw [sub_neg]
    have : (1.0 : ℝ) / (delta0 U 1 + 1) = 1 / (delta0 U 1 + 1) := by norm_num
    rw [this, div_lt_one (by linarith)]; linarith

/-- **Why line 26 uses `expm1`**: computed as `exp(dt*U) - 1`, the radicand is rounded to zero for some
positive coupling, whatever the accuracy `u > 0` of the operations; the tables would then be those of
`U = 0`. -/
theorem naive_loses_everything {u : ℝ} (hu : 0 < u) :
    ∃ (A : Arith) (U dt : ℝ), A.Accurate u ∧ 0 < dt * U ∧ A.sub (A.exp (A.mul dt U)) 1 = 0 ∧
      0 < hsY U dt ∧ 0 < A.y U dt := by
  have hl : 0 < Real.log (1 + u) := Real.log_pos (by linarith)
  have he : Real.exp (Real.log (1 + u)) = 1 + u := Real.exp_log (by linarith)
  have hx : hsX (Real.log (1 + u)) 1 = Real.log (1 + u) / 2 := by unfold hsX; ring
  have h1 : 1 < Real.exp (hsX (Real.log (1 + u)) 1) := Real.one_lt_exp_iff.2 (by linarith)
  refine ⟨coarseExp u, Real.log (1 + u), 1, coarseExp_accurate hu.le, by linarith, ?_, ?_, ?_⟩
  · change (if 1 ≤ Real.exp (1 * Real.log (1 + u)) ∧ Real.exp (1 * Real.log (1 + u)) ≤ 1 + u then 1
      else Real.exp (1 * Real.log (1 + u))) - (1 : ℝ) = 0
    rw [one_mul, he, if_pos ⟨by linarith, le_refl _⟩, sub_self]
  · exact mul_pos (by linarith) (by linarith)
  · change 0 < (Real.exp (hsX (Real.log (1 + u)) 1) - 1) *
      ((if 1 ≤ Real.exp (hsX (Real.log (1 + u)) 1) ∧ Real.exp (hsX (Real.log (1 + u)) 1) ≤ 1 + u
        then 1 else Real.exp (hsX (Real.log (1 + u)) 1)) + 1)
    refine mul_pos (by linarith) ?_
    split_ifs <;> linarith

/-- A case of `fill_accurate` with a rounding that is not exact: two orbitals with couplings 4 and 6,
time step 1/8, `u = 2^-52` -/
example : ∃ p q : HSParams, (coarseExp (2⁻¹ ^ 52)).fill 2 (fun o => if o = 0 then 4 else 6) (1 / 8) = some p ∧
    fill 2 (fun o => if o = 0 then 4 else 6) (1 / 8) = some q ∧
      |p.delta 1 1 - q.delta 1 1| ≤ 17 * 2⁻¹ ^ 52 := by
  have hu : (0 : ℝ) ≤ 2⁻¹ ^ 52 := by positivity
  have hu1 : (2⁻¹ : ℝ) ^ 52 ≤ 1 / 1000 := by norm_num
  obtain ⟨p, q, hp, hq, h⟩ := fill_accurate (Norb := 2) (U := fun o => if o = 0 then 4 else 6)
    (dt := 1 / 8) (coarseExp_accurate hu) hu (by linarith)
    (fun o _ => by split_ifs <;> norm_num)
    (fun o _ => by split_ifs <;> nlinarith)
  refine ⟨p, q, hp, hq, (h 1 (by norm_num)).2.2.2.trans ?_⟩
  refine mul_le_mul_of_nonneg_right ?_ hu
  norm_num

end Verif.Stratonovich
