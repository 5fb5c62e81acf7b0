import Verif.Lemmas.BoxMuller
import Mathlib.Probability.CDF
import Mathlib.MeasureTheory.Integral.IntervalIntegral.Basic
import Mathlib.MeasureTheory.Integral.Prod
import Mathlib.Topology.Order.MonotoneConvergence
import Mathlib.MeasureTheory.Function.LocallyIntegrable

/-! # The transformation of Box and Muller on a grid -/

set_option autoImplicit false

namespace Verif.Random

open MeasureTheory ProbabilityTheory Set intervalIntegral
open scoped Real

theorem integral_const_bounds {h : ℝ → ℝ} (hm : Monotone h) {a b : ℝ} (hab : a ≤ b) :
    h a * (b - a) ≤ ∫ t in a..b, h t ∧ ∫ t in a..b, h t ≤ h b * (b - a) := by
  constructor
  · have h1 := integral_mono_on (f := fun _ => h a) (g := h) (μ := volume) hab intervalIntegrable_const hm.intervalIntegrable
      fun t ht => hm ht.1
    rw [intervalIntegral.integral_const, smul_eq_mul] at h1
    linarith
  · have h1 := integral_mono_on (f := h) (g := fun _ => h b) (μ := volume) hab hm.intervalIntegrable intervalIntegrable_const
      fun t ht => hm ht.2
    rw [intervalIntegral.integral_const, smul_eq_mul] at h1
    linarith

/-- averages of a monotone function over points near those of a grid -/
theorem grid_mono {M : ℕ} (hM : 0 < M) {h : ℝ → ℝ} (hm : Monotone h) (h0 : ∀ t, 0 ≤ h t) (h1 : ∀ t, h t ≤ 1)
    (ξ : ℕ → ℝ) {δ : ℝ} (hξ : ∀ i < M, |ξ i - (i + 1) / M| ≤ δ) :
    |(∑ i ∈ Finset.range M, h (ξ i)) / M - ∫ t in (0 : ℝ)..1, h t| ≤ 1 / M + δ := by
  have hM' : (0 : ℝ) < M := by exact_mod_cast hM
  have hδ : 0 ≤ δ := (abs_nonneg _).trans (hξ 0 hM)
  have ii : ∀ a b : ℝ, IntervalIntegrable h volume a b := fun a b => hm.intervalIntegrable
  have nn : ∀ a b : ℝ, a ≤ b → 0 ≤ ∫ t in a..b, h t := fun a b hab =>
    integral_nonneg hab fun t _ => h0 t
  have le1 : ∀ a b : ℝ, a ≤ b → ∫ t in a..b, h t ≤ b - a := fun a b hab => by
    refine (integral_const_bounds hm hab).2.trans ?_
    nlinarith [h1 b]
  have tele : ∀ c : ℝ, ∑ i ∈ Finset.range M, ∫ t in (c + (i : ℕ) / M)..(c + ((i + 1 : ℕ) : ℝ) / M), h t
      = ∫ t in c..(c + 1), h t := by
    intro c
    have e := sum_integral_adjacent_intervals (a := fun i : ℕ => c + (i : ℝ) / M) (n := M) (f := h) (μ := volume)
      fun k _ => ii _ _
    simp only [Nat.cast_zero, zero_div, add_zero] at e
    rw [div_self hM'.ne'] at e
    exact e
  rw [abs_le]
  constructor
  · have hi : ∀ i ∈ Finset.range M, ∫ t in (-δ + (i : ℕ) / M)..(-δ + ((i + 1 : ℕ) : ℝ) / M), h t ≤ h (ξ i) / M := by
      intro i hi
      have hx := (abs_le.1 (hξ i (Finset.mem_range.1 hi))).1
      have hab : -δ + (i : ℝ) / M ≤ -δ + ((i + 1 : ℕ) : ℝ) / M := by
        push_cast
        rw [add_div]
        have : 0 < 1 / (M : ℝ) := by positivity
        linarith
      refine (integral_const_bounds hm hab).2.trans ?_
      have hle : h (-δ + ((i + 1 : ℕ) : ℝ) / M) ≤ h (ξ i) := hm (by push_cast; linarith)
      rw [show -δ + ((i + 1 : ℕ) : ℝ) / M - (-δ + (i : ℝ) / M) = 1 / M by push_cast; rw [add_div]; ring, mul_one_div]
      gcongr
    have hs := Finset.sum_le_sum hi
    rw [tele (-δ), ← Finset.sum_div] at hs
    have e1 := integral_add_adjacent_intervals (ii (-δ) 0) (ii 0 (-δ + 1))
    have e2 := integral_add_adjacent_intervals (ii 0 (-δ + 1)) (ii (-δ + 1) 1)
    have e3 := nn (-δ) 0 (by linarith)
    have e4 := le1 (-δ + 1) 1 (by linarith)
    have : 0 < 1 / (M : ℝ) := by positivity
    linarith
  · have hi : ∀ i ∈ Finset.range M,
        h (ξ i) / M ≤ ∫ t in (1 / M + δ + (i : ℕ) / M)..(1 / M + δ + ((i + 1 : ℕ) : ℝ) / M), h t := by
      intro i hi
      have hx := (abs_le.1 (hξ i (Finset.mem_range.1 hi))).2
      have hab : 1 / M + δ + (i : ℝ) / M ≤ 1 / M + δ + ((i + 1 : ℕ) : ℝ) / M := by
        push_cast
        rw [add_div _ _ (M : ℝ)]
        have : 0 < 1 / (M : ℝ) := by positivity
        linarith
      refine le_trans ?_ (integral_const_bounds hm hab).1
      have hle : h (ξ i) ≤ h (1 / M + δ + (i : ℝ) / M) := hm (by rw [add_div] at hx; linarith)
      rw [show 1 / M + δ + ((i + 1 : ℕ) : ℝ) / M - (1 / M + δ + (i : ℝ) / M) = 1 / M by push_cast; rw [add_div]; ring,
        mul_one_div]
      gcongr
    have hs := Finset.sum_le_sum hi
    rw [tele (1 / M + δ), ← Finset.sum_div] at hs
    have hc : 0 ≤ 1 / (M : ℝ) + δ := by positivity
    generalize 1 / (M : ℝ) + δ = c at hs hc ⊢
    have e1 := integral_add_adjacent_intervals (ii 0 c) (ii c (c + 1))
    have e2 := integral_add_adjacent_intervals (ii 0 1) (ii 1 (c + 1))
    have e3 := nn 0 c hc
    have e4 := le1 1 (c + 1) (by linarith)
    linarith

open Classical in
/-- 1 or 0 -/
noncomputable def ind (P : Prop) : ℝ := if P then 1 else 0

theorem ind_nonneg (P : Prop) : 0 ≤ ind P := by unfold ind; split <;> norm_num

theorem ind_le_one (P : Prop) : ind P ≤ 1 := by unfold ind; split <;> norm_num

theorem ind_mono {P : ℝ → Prop} (h : ∀ a b, a ≤ b → P a → P b) : Monotone fun t => ind (P t) := by
  intro a b hab
  unfold ind
  simp only
  by_cases ha : P a
  · rw [if_pos ha, if_pos (h a b hab ha)]
  · rw [if_neg ha]
    split <;> norm_num

theorem ind_not (P : Prop) : ind (¬ P) = 1 - ind P := by
  unfold ind
  by_cases h : P <;> simp [h]

/-- average over the points -/
noncomputable def avg (M : ℕ) (ξ : ℕ → ℝ) (f : ℝ → ℝ) : ℝ := (∑ i ∈ Finset.range M, f (ξ i)) / M

/-- `f` is averaged with an error of at most `e` -/
def Close (M : ℕ) (ξ : ℕ → ℝ) (f : ℝ → ℝ) (e : ℝ) : Prop := |avg M ξ f - ∫ t in (0 : ℝ)..1, f t| ≤ e

section
variable {M : ℕ} {ξ : ℕ → ℝ} {δ : ℝ}

theorem close_upper (hM : 0 < M) (hξ : ∀ i < M, |ξ i - (i + 1) / M| ≤ δ) {P : ℝ → Prop}
    (h : ∀ a b, a ≤ b → P a → P b) : Close M ξ (fun t => ind (P t)) (1 / M + δ) :=
  grid_mono hM (ind_mono h) (fun _ => ind_nonneg _) (fun _ => ind_le_one _) ξ hξ

theorem close_one_sub (hM : 0 < M) {f : ℝ → ℝ} (hf : IntervalIntegrable f volume 0 1) {e : ℝ} (h : Close M ξ f e) :
    Close M ξ (fun t => 1 - f t) e := by
  have hM' : (M : ℝ) ≠ 0 := by positivity
  unfold Close avg at *
  rw [integral_sub intervalIntegrable_const hf, Finset.sum_sub_distrib, sub_div, intervalIntegral.integral_const]
  simp only [Finset.sum_const, Finset.card_range, nsmul_eq_mul, mul_one, sub_zero, smul_eq_mul]
  rw [div_self hM', ← abs_neg]
  convert h using 2
  ring

theorem close_lower (hM : 0 < M) (hξ : ∀ i < M, |ξ i - (i + 1) / M| ≤ δ) {P : ℝ → Prop}
    (h : ∀ a b, a ≤ b → P b → P a) : Close M ξ (fun t => ind (P t)) (1 / M + δ) := by
  have hu : ∀ a b, a ≤ b → ¬ P a → ¬ P b := fun a b hab ha hb => ha (h a b hab hb)
  have h1 := close_one_sub hM (ind_mono hu).intervalIntegrable (close_upper hM hξ hu)
  simpa only [ind_not, sub_sub_cancel] using h1

theorem close_congr {f g : ℝ → ℝ} {e : ℝ} (hp : ∀ i < M, f (ξ i) = g (ξ i)) (hi : ∀ t, 0 < t → t ≤ 1 → f t = g t)
    (h : Close M ξ f e) : Close M ξ g e := by
  unfold Close avg at *
  rw [← Finset.sum_congr rfl fun i hi => hp i (Finset.mem_range.1 hi), ← intervalIntegral.integral_congr_ae]
  · exact h
  · refine Filter.Eventually.of_forall fun t ht => ?_
    rw [uIoc_of_le zero_le_one] at ht
    exact hi t ht.1 ht.2

theorem Close.add {f g : ℝ → ℝ} {e e' : ℝ} (hf : IntervalIntegrable f volume 0 1) (hg : IntervalIntegrable g volume 0 1)
    (h : Close M ξ f e) (h' : Close M ξ g e') : Close M ξ (fun t => f t + g t) (e + e') := by
  unfold Close avg at *
  rw [integral_add hf hg, Finset.sum_add_distrib, add_div]
  refine (le_of_eq ?_).trans ((abs_add_le _ _).trans (add_le_add h h'))
  congr 1
  ring

theorem Close.neg {f : ℝ → ℝ} {e : ℝ} (h : Close M ξ f e) : Close M ξ (fun t => -f t) e := by
  unfold Close avg at *
  rw [intervalIntegral.integral_neg, Finset.sum_neg_distrib, neg_div, ← abs_neg]
  convert h using 2
  ring

/-- the radius -/
theorem close_radius (hM : 0 < M) (hξ : ∀ i < M, |ξ i - (i + 1) / M| ≤ δ) (hp : ∀ i < M, 0 < ξ i) (s x : ℝ) :
    Close M ξ (fun u => ind (√(-2 * Real.log u) * s ≤ x)) (1 / M + δ) := by
  have hanti : ∀ a b : ℝ, 0 < a → a ≤ b → √(-2 * Real.log b) ≤ √(-2 * Real.log a) := by
    intro a b ha hab
    apply Real.sqrt_le_sqrt
    have := Real.log_le_log ha hab
    linarith
  rcases le_total 0 s with hs | hs
  · refine close_congr ?_ ?_ (close_upper hM hξ (P := fun u => 0 < u ∧ √(-2 * Real.log u) * s ≤ x) ?_)
    · intro i hi
      simp only [hp i hi, true_and]
    · intro t ht _
      simp only [ht, true_and]
    · rintro a b hab ⟨ha, h⟩
      exact ⟨by linarith, (mul_le_mul_of_nonneg_right (hanti a b ha hab) hs).trans h⟩
  · refine close_congr ?_ ?_ (close_lower hM hξ (P := fun u => 0 < u → √(-2 * Real.log u) * s ≤ x) ?_)
    · intro i hi
      simp only [hp i hi, forall_const]
    · intro t ht _
      simp only [ht, forall_const]
    · intro a b hab h ha
      exact (mul_le_mul_of_nonpos_right (hanti a b ha hab) hs).trans (h (by linarith))

theorem sin_mono_first {a b : ℝ} (ha : -(1 / 4) ≤ a) (hab : a ≤ b) (hb : b ≤ 1 / 4) :
    Real.sin (2 * π * a) ≤ Real.sin (2 * π * b) := by
  have hp := Real.pi_pos
  exact Real.strictMonoOn_sin.monotoneOn ⟨by nlinarith, by nlinarith⟩ ⟨by nlinarith, by nlinarith⟩ (by nlinarith)

theorem sin_mono_second {a b : ℝ} (ha : 1 / 4 ≤ a) (hab : a ≤ b) (hb : b ≤ 3 / 4) :
    Real.sin (2 * π * b) ≤ Real.sin (2 * π * a) := by
  have h := sin_mono_first (a := a - 1 / 2) (b := b - 1 / 2) (by linarith) (by linarith) (by linarith)
  rw [show 2 * π * (a - 1 / 2) = 2 * π * a - π by ring, show 2 * π * (b - 1 / 2) = 2 * π * b - π by ring,
    Real.sin_sub_pi, Real.sin_sub_pi] at h
  linarith

theorem sin_mono_third {a b : ℝ} (ha : 3 / 4 ≤ a) (hab : a ≤ b) (hb : b ≤ 5 / 4) :
    Real.sin (2 * π * a) ≤ Real.sin (2 * π * b) := by
  have h := sin_mono_first (a := a - 1) (b := b - 1) (by linarith) (by linarith) (by linarith)
  rw [show 2 * π * (a - 1) = 2 * π * a - 2 * π by ring, show 2 * π * (b - 1) = 2 * π * b - 2 * π by ring,
    Real.sin_sub_two_pi, Real.sin_sub_two_pi] at h
  exact h

/-- the angle -/
theorem close_angle (hM : 0 < M) (hξ : ∀ i < M, |ξ i - (i + 1) / M| ≤ δ) (hp : ∀ i < M, 0 < ξ i) (hp1 : ∀ i < M, ξ i ≤ 1)
    {r : ℝ} (hr : 0 ≤ r) (x : ℝ) :
    Close M ξ (fun v => ind (r * Real.sin (2 * π * v) ≤ x)) (3 * (1 / M + δ)) := by
  let P1 : ℝ → Prop := fun w => 1 / 4 < w ∨ (-(1 / 4) ≤ w ∧ x < r * Real.sin (2 * π * w))
  let P2 : ℝ → Prop := fun w => 3 / 4 < w ∨ (1 / 4 < w ∧ r * Real.sin (2 * π * w) ≤ x)
  let P3 : ℝ → Prop := fun w => 5 / 4 < w ∨ (3 / 4 < w ∧ x < r * Real.sin (2 * π * w))
  have h1 : ∀ a b, a ≤ b → P1 a → P1 b := by
    rintro a b hab (ha | ⟨ha, h⟩)
    · exact Or.inl (by linarith)
    · rcases lt_or_ge (1 / 4) b with hb | hb
      · exact Or.inl hb
      · exact Or.inr ⟨by linarith, h.trans_le (mul_le_mul_of_nonneg_left (sin_mono_first ha hab hb) hr)⟩
  have h2 : ∀ a b, a ≤ b → P2 a → P2 b := by
    rintro a b hab (ha | ⟨ha, h⟩)
    · exact Or.inl (by linarith)
    · rcases lt_or_ge (3 / 4) b with hb | hb
      · exact Or.inl hb
      · exact Or.inr ⟨by linarith, (mul_le_mul_of_nonneg_left (sin_mono_second ha.le hab hb) hr).trans h⟩
  have h3 : ∀ a b, a ≤ b → P3 a → P3 b := by
    rintro a b hab (ha | ⟨ha, h⟩)
    · exact Or.inl (by linarith)
    · rcases lt_or_ge (5 / 4) b with hb | hb
      · exact Or.inl hb
      · exact Or.inr ⟨by linarith, h.trans_le (mul_le_mul_of_nonneg_left (sin_mono_third ha.le hab hb) hr)⟩
  have i1 := (ind_mono h1).intervalIntegrable (μ := volume) (a := (0 : ℝ)) (b := 1)
  have i2 := (ind_mono h2).intervalIntegrable (μ := volume) (a := (0 : ℝ)) (b := 1)
  have i3 := (ind_mono h3).intervalIntegrable (μ := volume) (a := (0 : ℝ)) (b := 1)
  have c1 := close_upper hM hξ h1
  have c2 := close_upper hM hξ h2
  have c3 := close_upper hM hξ h3
  have c := close_one_sub hM ((i1.add i2.neg).add i3) ((c1.add i1 i2.neg c2.neg).add (i1.add i2.neg) i3 c3)
  have key : ∀ w : ℝ, 0 < w → w ≤ 1 →
      1 - (ind (P1 w) + -ind (P2 w) + ind (P3 w)) = ind (r * Real.sin (2 * π * w) ≤ x) := by
    intro w h0 h1
    have e4 : ¬ (5 / 4 < w) := by linarith
    have e5 : -(1 / 4) ≤ w := by linarith
    have eN : ind (x < r * Real.sin (2 * π * w)) = 1 - ind (r * Real.sin (2 * π * w) ≤ x) := by
      rw [← ind_not]
      congr 1
      exact propext not_le.symm
    have iT : ind True = 1 := if_pos trivial
    have iF : ind False = 0 := if_neg fun h => h
    simp only [P1, P2, P3, e4, e5, false_or, true_and]
    by_cases a1 : 1 / 4 < w
    · by_cases a2 : 3 / 4 < w
      · simp only [a1, a2, true_or, true_and, iT, eN]
        ring
      · simp only [a1, a2, true_or, true_and, false_or, false_and, iT, iF]
        ring
    · have a2 : ¬ 3 / 4 < w := by
        intro h
        linarith
      simp only [a1, a2, false_or, false_and, iF, eN]
      ring
  have c' := close_congr (fun i hi => key (ξ i) (hp i hi) (hp1 i hi)) key c
  rw [show 3 * (1 / (M : ℝ) + δ) = 1 / M + δ + (1 / M + δ) + (1 / M + δ) by ring]
  exact c'

end

/-- the normal distribution as a double integral -/
theorem cdf_eq_integral (x : ℝ) :
    cdf (gaussianReal 0 1) x = ∫ u in (0 : ℝ)..1, ∫ v in (0 : ℝ)..1, ind (boxMuller (2 * π) u v ≤ x) := by
  have hms : MeasurableSet {p : ℝ × ℝ | boxMuller (2 * π) p.1 p.2 ≤ x} :=
    measurableSet_le (measurable_boxMuller _) measurable_const
  rw [cdf_eq_real, ← boxMuller_law, map_measureReal_apply (measurable_boxMuller _) measurableSet_Iic]
  rw [show (fun p : ℝ × ℝ => boxMuller (2 * π) p.1 p.2) ⁻¹' Iic x = {p | boxMuller (2 * π) p.1 p.2 ≤ x} from rfl,
    ← integral_indicator_one hms, integral_prod]
  · rw [integral_of_le zero_le_one]
    congr 1
    funext u
    rw [integral_of_le zero_le_one]
    congr 1
  · exact (integrable_const (1 : ℝ)).indicator hms

theorem measurable_ind (c x : ℝ) : Measurable fun p : ℝ × ℝ => ind (boxMuller c p.1 p.2 ≤ x) := by
  unfold ind
  exact Measurable.ite (measurableSet_le (measurable_boxMuller _) measurable_const) measurable_const measurable_const

/-- C101: on a grid of `M` points in both directions, with errors `δ` and `δ'` of the points and the angle `2 π w`, the
transformation has the distribution function of a normal variable up to `(4 / M + δ + 3 δ')` -/
theorem grid_law {M : ℕ} (hM : 0 < M) (ξ w : ℕ → ℝ) {δ δ' : ℝ} (hξ : ∀ i < M, |ξ i - (i + 1) / M| ≤ δ)
    (hξp : ∀ i < M, 0 < ξ i) (hw : ∀ i < M, |w i - (i + 1) / M| ≤ δ') (hw0 : ∀ i < M, 0 < w i) (hw1 : ∀ i < M, w i ≤ 1)
    (x : ℝ) :
    |(∑ i ∈ Finset.range M, ∑ k ∈ Finset.range M, ind (boxMuller (2 * π) (ξ i) (w k) ≤ x)) / (M : ℝ) ^ 2
      - cdf (gaussianReal 0 1) x| ≤ 4 / M + δ + 3 * δ' := by
  have hM' : (0 : ℝ) < M := by exact_mod_cast hM
  have bdd : ∀ (f : ℝ → ℝ), Measurable f → (∀ t, 0 ≤ f t ∧ f t ≤ 1) → IntervalIntegrable f volume 0 1 := by
    intro f hf hb
    refine (intervalIntegrable_const (c := (1 : ℝ))).mono_fun' hf.aestronglyMeasurable ?_
    refine Filter.Eventually.of_forall fun t => ?_
    simp only [Real.norm_eq_abs, abs_of_nonneg (hb t).1]
    exact (hb t).2
  have mi : ∀ v, Measurable fun u => ind (boxMuller (2 * π) u v ≤ x) := fun v =>
    (measurable_ind (2 * π) x).comp (measurable_id.prodMk measurable_const)
  -- integral over the first variable
  have hA : ∀ k, |avg M ξ (fun u => ind (boxMuller (2 * π) u (w k) ≤ x))
      - ∫ u in (0 : ℝ)..1, ind (boxMuller (2 * π) u (w k) ≤ x)| ≤ 1 / M + δ := fun k =>
    close_radius hM hξ hξp (Real.sin (2 * π * w k)) x
  -- integral over the second
  have hB : ∀ u, |avg M w (fun v => ind (boxMuller (2 * π) u v ≤ x))
      - ∫ v in (0 : ℝ)..1, ind (boxMuller (2 * π) u v ≤ x)| ≤ 3 * (1 / M + δ') := fun u =>
    close_angle hM hw hw0 hw1 (Real.sqrt_nonneg _) x
  have ib : IntervalIntegrable (fun u => avg M w (fun v => ind (boxMuller (2 * π) u v ≤ x))) volume 0 1 := by
    unfold avg
    apply IntervalIntegrable.div_const
    have := IntervalIntegrable.sum (Finset.range M) (μ := volume) (a := (0 : ℝ)) (b := 1)
      (f := fun k u => ind (boxMuller (2 * π) u (w k) ≤ x)) fun k _ => bdd _ (mi _) fun t => ⟨ind_nonneg _, ind_le_one _⟩
    have e : (fun u => ∑ i ∈ Finset.range M, ind (boxMuller (2 * π) u (w i) ≤ x))
        = ∑ i ∈ Finset.range M, fun u => ind (boxMuller (2 * π) u (w i) ≤ x) := by
      funext u
      rw [Finset.sum_apply]
    rw [e]
    exact this
  have ic : IntervalIntegrable (fun u => ∫ v in (0 : ℝ)..1, ind (boxMuller (2 * π) u v ≤ x)) volume 0 1 := by
    refine bdd _ ?_ fun t => ⟨integral_nonneg zero_le_one fun v _ => ind_nonneg _, ?_⟩
    · simp only [integral_of_le (zero_le_one' ℝ)]
      exact ((measurable_ind (2 * π) x).stronglyMeasurable.integral_prod_right (ν := volume.restrict (Ioc (0 : ℝ) 1))).measurable
    · have h := integral_mono_on (f := fun v => ind (boxMuller (2 * π) t v ≤ x)) (g := fun _ => (1 : ℝ)) (zero_le_one' ℝ)
        (bdd _ ((measurable_ind (2 * π) x).comp (measurable_const.prodMk measurable_id))
          fun v => ⟨ind_nonneg _, ind_le_one _⟩) intervalIntegrable_const fun v _ => ind_le_one _
      simpa using h
  have hB' : |∫ u in (0 : ℝ)..1, (avg M w (fun v => ind (boxMuller (2 * π) u v ≤ x))
      - ∫ v in (0 : ℝ)..1, ind (boxMuller (2 * π) u v ≤ x))| ≤ 3 * (1 / M + δ') := by
    have h := norm_integral_le_of_norm_le_const (a := (0 : ℝ)) (b := 1) (C := 3 * (1 / M + δ'))
      (f := fun u => avg M w (fun v => ind (boxMuller (2 * π) u v ≤ x))
        - ∫ v in (0 : ℝ)..1, ind (boxMuller (2 * π) u v ≤ x)) fun u _ => hB u
    simpa using h
  rw [integral_sub ib ic, ← cdf_eq_integral] at hB'
  have e1 : ∫ u in (0 : ℝ)..1, avg M w (fun v => ind (boxMuller (2 * π) u v ≤ x))
      = (∑ k ∈ Finset.range M, ∫ u in (0 : ℝ)..1, ind (boxMuller (2 * π) u (w k) ≤ x)) / M := by
    unfold avg
    rw [intervalIntegral.integral_div, intervalIntegral.integral_finsetSum]
    intro k _
    exact bdd _ (mi _) fun t => ⟨ind_nonneg _, ind_le_one _⟩
  have e2 : (∑ i ∈ Finset.range M, ∑ k ∈ Finset.range M, ind (boxMuller (2 * π) (ξ i) (w k) ≤ x)) / (M : ℝ) ^ 2
      = (∑ k ∈ Finset.range M, avg M ξ (fun u => ind (boxMuller (2 * π) u (w k) ≤ x))) / M := by
    unfold avg
    rw [Finset.sum_comm, ← Finset.sum_div, div_div, ← sq]
  have hA' : |(∑ k ∈ Finset.range M, avg M ξ (fun u => ind (boxMuller (2 * π) u (w k) ≤ x))) / M
      - (∑ k ∈ Finset.range M, ∫ u in (0 : ℝ)..1, ind (boxMuller (2 * π) u (w k) ≤ x)) / M| ≤ 1 / M + δ := by
    rw [← sub_div, ← Finset.sum_sub_distrib, abs_div, abs_of_pos hM', div_le_iff₀ hM']
    refine (Finset.abs_sum_le_sum_abs _ _).trans ((Finset.sum_le_sum fun k _ => hA k).trans (le_of_eq ?_))
    rw [Finset.sum_const, Finset.card_range, nsmul_eq_mul, mul_comm]
  rw [e1] at hB'
  rw [e2]
  have h := (abs_add_le _ _).trans (add_le_add hA' hB')
  rw [sub_add_sub_cancel] at h
  refine h.trans (le_of_eq ?_)
  ring

end Verif.Random
