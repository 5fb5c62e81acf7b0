import Mathlib.MeasureTheory.Integral.Prod
import Mathlib.LinearAlgebra.FiniteDimensional.Basic
import Mathlib.LinearAlgebra.Dimension.Constructions
import Mathlib.MeasureTheory.Integral.Bochner.Basic

/-! # Averages along finite Markov chains

The error of the average of a function over `n` steps of a chain is of the order `1/√n`, if the functions which the chain
leaves invariant are constant. -/

set_option autoImplicit false

namespace Verif.Ergodic

open MeasureTheory

variable {E σ : Type} [Fintype E] [MeasurableSpace E] [DiscreteMeasurableSpace E] [MeasurableSpace σ] {P : Measure σ}
  {step : E → σ → E × σ}

/-- a random step: the state left behind by the source is independent of the new element and distributed as before -/
def Fresh {A B : Type} [MeasurableSpace B] (P : Measure σ) (step : A → σ → B × σ) : Prop :=
  ∀ x, ∃ ν : Measure B, IsProbabilityMeasure ν ∧ MeasurePreserving (step x) P (ν.prod P)

/-- expected value of a function after a step -/
noncomputable def mean {A B : Type} (P : Measure σ) (step : A → σ → B × σ) (f : B → ℝ) (x : A) : ℝ := ∫ r, f (step x r).1 ∂P

/-- sum of a function of old and new element over `n` steps -/
def total (step : E → σ → E × σ) (F : E → E → ℝ) : ℕ → E → σ → ℝ
  | 0, _, _ => 0
  | n + 1, x, r => F x (step x r).1 + total step F n (step x r).1 (step x r).2

/-- element after `n` steps -/
def final (step : E → σ → E × σ) : ℕ → E → σ → E × σ
  | 0, x, r => (x, r)
  | n + 1, x, r => final step n (step x r).1 (step x r).2

omit [MeasurableSpace E] [DiscreteMeasurableSpace E] in
theorem bounded (f : E → ℝ) : ∃ B, 0 ≤ B ∧ ∀ x, |f x| ≤ B :=
  ⟨∑ x, |f x|, Finset.sum_nonneg fun _ _ => abs_nonneg _, fun x =>
    Finset.single_le_sum (f := fun x => |f x|) (fun _ _ => abs_nonneg _) (Finset.mem_univ x)⟩

omit [MeasurableSpace E] [DiscreteMeasurableSpace E] in
theorem bounded₂ (f : E → E → ℝ) : ∃ B, 0 ≤ B ∧ ∀ x y, |f x y| ≤ B := by
  choose B h0 h using fun x => bounded (f x)
  obtain ⟨C, hC, hB⟩ := bounded B
  exact ⟨C, hC, fun x y => (h x y).trans ((le_abs_self _).trans (hB x))⟩

theorem integrable_of_bounded [IsProbabilityMeasure P] {f : σ → ℝ} (hf : Measurable f) {B : ℝ} (h : ∀ r, |f r| ≤ B) :
    Integrable f P :=
  Integrable.of_bound hf.aestronglyMeasurable B (Filter.Eventually.of_forall h)

section fresh

variable {A C : Type} [MeasurableSpace C]

omit [Fintype E] [DiscreteMeasurableSpace E] in
theorem Fresh.measurable {step : A → σ → E × σ} (h : Fresh P step) (x : A) : Measurable (step x) := by
  obtain ⟨ν, -, hν⟩ := h x
  exact hν.measurable

/-- after a step, average first over the state left behind -/
theorem Fresh.integral [IsProbabilityMeasure P] {step : A → σ → E × σ} (h : Fresh P step) {f : E → σ → ℝ}
    (hf : ∀ y, Measurable (f y)) {B : ℝ} (hB : ∀ y r, |f y r| ≤ B) (x : A) :
    ∫ r, f (step x r).1 (step x r).2 ∂P = mean P step (fun y => ∫ r, f y r ∂P) x := by
  obtain ⟨ν, hp, hν⟩ := h x
  have hm : Measurable fun q : E × σ => f q.1 q.2 := measurable_from_prod_countable_right hf
  have hi : Integrable (fun q : E × σ => f q.1 q.2) (ν.prod P) :=
    Integrable.of_bound hm.aestronglyMeasurable B (Filter.Eventually.of_forall fun q => hB q.1 q.2)
  have e1 : ∫ r, f (step x r).1 (step x r).2 ∂P = ∫ q, f q.1 q.2 ∂(ν.prod P) := by
    rw [← hν.map_eq, integral_map hν.measurable.aemeasurable hm.aestronglyMeasurable]
  have hm2 : Measurable fun y => ∫ r, f y r ∂P := Measurable.of_discrete
  have e2 : mean P step (fun y => ∫ r, f y r ∂P) x = ∫ q, (∫ r, f q.1 r ∂P) ∂(ν.prod P) := by
    have hm3 : Measurable fun q : E × σ => ∫ r, f q.1 r ∂P := hm2.comp measurable_fst
    rw [← hν.map_eq, integral_map hν.measurable.aemeasurable hm3.aestronglyMeasurable]
    rfl
  have e3 : ∫ q, (∫ r, f q.1 r ∂P) ∂(ν.prod P) = ∫ y, ∫ r, f y r ∂P ∂ν := by
    rw [integral_fun_fst fun y => ∫ r, f y r ∂P]
    simp
  rw [e1, e2, integral_prod _ hi, e3]

/-- two steps -/
def andThen {A B C σ : Type} (s1 : A → σ → B × σ) (s2 : B → σ → C × σ) (x : A) (r : σ) : C × σ :=
  s2 (s1 x r).1 (s1 x r).2

theorem Fresh.andThen [IsProbabilityMeasure P] {s1 : A → σ → E × σ} {s2 : E → σ → C × σ} (h1 : Fresh P s1)
    (h2 : Fresh P s2) : Fresh P (andThen s1 s2) := by
  intro x
  obtain ⟨ν, hp, hν⟩ := h1 x
  choose κ hκ hs using h2
  have hm : Measurable fun q : E × σ => s2 q.1 q.2 := measurable_from_prod_countable_right fun y => (hs y).measurable
  have hnu : ∀ f : E → ENNReal, ∫⁻ y, f y ∂ν = ∑ y, f y * ν {y} := fun f => lintegral_fintype f
  let ρ : Measure C := Measure.sum fun y => ν {y} • κ y
  have hρ : ∀ s, MeasurableSet s → ρ s = ∑ y, ν {y} * κ y s := by
    intro s hs
    simp [ρ]
  have hprob : IsProbabilityMeasure ρ := by
    constructor
    rw [hρ _ MeasurableSet.univ]
    simp only [measure_univ, mul_one]
    rw [← hp.measure_univ, ← lintegral_one, hnu]
    simp
  refine ⟨ρ, hprob, hm.comp hν.measurable, ?_⟩
  refine (Measure.prod_eq fun s t hs' ht => ?_).symm
  have e : MeasurableSet (s ×ˢ t) := hs'.prod ht
  have hc : Measurable (Ergodic.andThen s1 s2 x) := hm.comp hν.measurable
  rw [Measure.map_apply hc e, hρ s hs']
  have e1 : P ((fun r => s2 (s1 x r).1 (s1 x r).2) ⁻¹' s ×ˢ t) = (ν.prod P) ((fun q : E × σ => s2 q.1 q.2) ⁻¹' s ×ˢ t) := by
    rw [← hν.measure_preimage (hm e).nullMeasurableSet]
    rfl
  refine e1.trans ?_
  rw [Measure.prod_apply (hm e), hnu, Finset.sum_mul]
  refine Finset.sum_congr rfl fun y _ => ?_
  have e2 : P (Prod.mk y ⁻¹' ((fun q : E × σ => s2 q.1 q.2) ⁻¹' s ×ˢ t)) = κ y s * P t := by
    rw [← Measure.prod_prod, ← (hs y).measure_preimage e.nullMeasurableSet]
    rfl
  rw [e2]
  ring

theorem mean_andThen [IsProbabilityMeasure P] {D : Type} [Fintype D] [MeasurableSpace D] [DiscreteMeasurableSpace D]
    {s1 : A → σ → E × σ} {s2 : E → σ → D × σ} (h1 : Fresh P s1)
    (h2 : Fresh P s2) (f : D → ℝ) (x : A) : mean P (andThen s1 s2) f x = mean P s1 (mean P s2 f) x := by
  obtain ⟨B, -, hB⟩ : ∃ B, 0 ≤ B ∧ ∀ y, |f y| ≤ B := ⟨∑ x, |f x|, Finset.sum_nonneg fun _ _ => abs_nonneg _, fun x =>
    Finset.single_le_sum (f := fun x => |f x|) (fun _ _ => abs_nonneg _) (Finset.mem_univ x)⟩
  exact h1.integral (f := fun y r => f (s2 y r).1)
    (fun y => (Measurable.of_discrete (f := f)).comp (measurable_fst.comp (h2.measurable y))) (fun y r => hB _) x

/-- a step which uses one random number -/
theorem Fresh.of_draw [IsProbabilityMeasure P] {Ω : Type} [MeasurableSpace Ω] {ρ : Measure Ω} [IsProbabilityMeasure ρ]
    {d : σ → Ω × σ} (hd : MeasurePreserving d P (ρ.prod P)) {g : A → Ω → C} (hg : ∀ x, Measurable (g x)) :
    Fresh P fun x r => (g x (d r).1, (d r).2) := fun x =>
  ⟨ρ.map (g x), Measure.isProbabilityMeasure_map (hg x).aemeasurable,
    ((Measurable.measurePreserving (hg x) ρ).prod (MeasurePreserving.id P)).comp hd⟩

omit [Fintype E] [MeasurableSpace E] [DiscreteMeasurableSpace E] in
theorem mean_of_draw [IsProbabilityMeasure P] {Ω : Type} [MeasurableSpace Ω] {ρ : Measure Ω} [IsProbabilityMeasure ρ]
    {d : σ → Ω × σ} (hd : MeasurePreserving d P (ρ.prod P)) {g : A → Ω → E} {f : E → ℝ} (x : A)
    (hg : Measurable fun o => f (g x o)) :
    mean P (fun x r => (g x (d r).1, (d r).2)) f x = ∫ o, f (g x o) ∂ρ := by
  have hm : Measurable fun q : Ω × σ => f (g x q.1) := hg.comp measurable_fst
  have e : mean P (fun x r => (g x (d r).1, (d r).2)) f x = ∫ q, f (g x q.1) ∂(ρ.prod P) := by
    rw [← hd.map_eq, integral_map hd.measurable.aemeasurable hm.aestronglyMeasurable]
    rfl
  rw [e, integral_fun_fst fun o => f (g x o)]
  simp

end fresh

theorem total_measurable (h : Fresh P step) (F : E → E → ℝ) (n : ℕ) (x : E) : Measurable (total step F n x) := by
  induction n generalizing x with
  | zero => exact measurable_const
  | succ n ih =>
    have h1 : Measurable fun r => F x (step x r).1 :=
      (Measurable.of_discrete (f := F x)).comp (measurable_fst.comp (h.measurable x))
    have h2 : Measurable fun q : E × σ => total step F n q.1 q.2 := measurable_from_prod_countable_right ih
    exact h1.add (h2.comp (h.measurable x))

omit [Fintype E] [MeasurableSpace E] [DiscreteMeasurableSpace E] [MeasurableSpace σ] in
theorem total_bounded {F : E → E → ℝ} {B : ℝ} (hB : ∀ x y, |F x y| ≤ B) (n : ℕ) (x : E) (r : σ) :
    |total step F n x r| ≤ n * B := by
  induction n generalizing x r with
  | zero => simp [total]
  | succ n ih =>
    unfold total
    refine (abs_add_le _ _).trans ?_
    push_cast
    linarith [hB x (step x r).1, ih (step x r).1 (step x r).2]

/-- sums of functions with mean zero -/
theorem martingale [IsProbabilityMeasure P] (h : Fresh P step) {D : E → E → ℝ} {B : ℝ} (hB : ∀ x y, |D x y| ≤ B)
    (hD : ∀ x, mean P step (D x) x = 0) (n : ℕ) (x : E) :
    ∫ r, total step D n x r ∂P = 0 ∧ ∫ r, total step D n x r ^ 2 ∂P ≤ n * B ^ 2 := by
  induction n generalizing x with
  | zero => simp [total]
  | succ n ih =>
    have hm := total_measurable h D n
    have hs := h.measurable x
    have h1 : Measurable fun r => D x (step x r).1 :=
      (Measurable.of_discrete (f := D x)).comp (measurable_fst.comp hs)
    have h2 : Measurable fun r => total step D n (step x r).1 (step x r).2 :=
      (measurable_from_prod_countable_right (f := fun q : E × σ => total step D n q.1 q.2) hm).comp hs
    have b1 : ∀ r, |D x (step x r).1| ≤ B := fun r => hB _ _
    have b2 : ∀ y r, |total step D n y r| ≤ n * B := fun y r => total_bounded hB n y r
    have hB0 : 0 ≤ B := (abs_nonneg _).trans (hB x x)
    have hn0 : 0 ≤ (n : ℝ) * B := by positivity
    have i1 := integrable_of_bounded (P := P) h1 b1
    have i2 := integrable_of_bounded (P := P) h2 fun r => b2 _ _
    have sq1 : Integrable (fun r => D x (step x r).1 ^ 2) P :=
      integrable_of_bounded (h1.pow_const 2) (B := B ^ 2) fun r => by
        rw [abs_pow]; exact pow_le_pow_left₀ (abs_nonneg _) (b1 r) 2
    have sq2 : Integrable (fun r => total step D n (step x r).1 (step x r).2 ^ 2) P :=
      integrable_of_bounded (h2.pow_const 2) (B := (n * B) ^ 2) fun r => by
        rw [abs_pow]; exact pow_le_pow_left₀ (abs_nonneg _) (b2 _ _) 2
    have hx : Integrable (fun r => D x (step x r).1 * total step D n (step x r).1 (step x r).2) P :=
      integrable_of_bounded (h1.mul h2) (B := B * (n * B)) fun r => by
        rw [abs_mul]; exact mul_le_mul (b1 r) (b2 _ _) (abs_nonneg _) hB0
    have z1 : ∫ r, D x (step x r).1 ∂P = 0 := hD x
    have z2 : ∫ r, total step D n (step x r).1 (step x r).2 ∂P = 0 := by
      rw [h.integral hm b2]
      unfold mean
      simp [fun y => (ih y).1]
    have z3 : ∫ r, D x (step x r).1 * total step D n (step x r).1 (step x r).2 ∂P = 0 := by
      rw [h.integral (f := fun y r => D x y * total step D n y r) (fun y => (hm y).const_mul _) (B := B * (n * B))
        fun y r => by rw [abs_mul]; exact mul_le_mul (hB _ _) (b2 _ _) (abs_nonneg _) hB0]
      unfold mean
      simp [integral_const_mul, fun y => (ih y).1]
    refine ⟨?_, ?_⟩
    · show ∫ r, (D x (step x r).1 + total step D n (step x r).1 (step x r).2) ∂P = 0
      rw [integral_add i1 i2, z1, z2, add_zero]
    · have e : ∀ r, total step D (n + 1) x r ^ 2 = D x (step x r).1 ^ 2
          + 2 * (D x (step x r).1 * total step D n (step x r).1 (step x r).2)
          + total step D n (step x r).1 (step x r).2 ^ 2 := by
        intro r
        show (D x (step x r).1 + total step D n (step x r).1 (step x r).2) ^ 2 = _
        ring
      simp only [e]
      have i12 : Integrable (fun r => D x (step x r).1 ^ 2
          + 2 * (D x (step x r).1 * total step D n (step x r).1 (step x r).2)) P := sq1.add (hx.const_mul 2)
      rw [integral_add i12 sq2, integral_add sq1 (hx.const_mul 2), integral_const_mul, z3]
      have c1 : ∫ r, D x (step x r).1 ^ 2 ∂P ≤ B ^ 2 := by
        refine (integral_mono sq1 (integrable_const (B ^ 2)) fun r => ?_).trans (by simp)
        show D x (step x r).1 ^ 2 ≤ B ^ 2
        rw [← sq_abs]; exact pow_le_pow_left₀ (abs_nonneg _) (b1 r) 2
      have c2 : ∫ r, total step D n (step x r).1 (step x r).2 ^ 2 ∂P ≤ n * B ^ 2 := by
        rw [h.integral (f := fun y r => total step D n y r ^ 2) (fun y => (hm y).pow_const 2) (B := (n * B) ^ 2)
          fun y r => by rw [abs_pow]; exact pow_le_pow_left₀ (abs_nonneg _) (b2 _ _) 2]
        unfold mean
        refine (integral_mono (g := fun _ => n * B ^ 2) (integrable_of_bounded
          ((Measurable.of_discrete (f := fun y => ∫ r, total step D n y r ^ 2 ∂P)).comp (measurable_fst.comp hs))
          fun r => (bounded (fun y => ∫ r, total step D n y r ^ 2 ∂P)).choose_spec.2 _) (integrable_const _) fun r =>
            (ih _).2).trans (by simp)
      push_cast
      linarith

omit [MeasurableSpace E] [DiscreteMeasurableSpace E] in
/-- Poisson's equation: a function with average zero is the change of another one -/
theorem poisson (V : Submodule ℝ (E → ℝ)) (K : (E → ℝ) →ₗ[ℝ] (E → ℝ)) (hV : ∀ f ∈ V, K f ∈ V) (h1 : (fun _ => 1) ∈ V)
    (w : E → ℝ) (hw : ∑ x, w x ≠ 0) (hinv : ∀ f ∈ V, ∑ x, w x * K f x = ∑ x, w x * f x)
    (hconst : ∀ f ∈ V, K f = f → ∃ c, f = fun _ => c) {f : E → ℝ} (hf : f ∈ V) (h0 : ∑ x, w x * f x = 0) :
    ∃ g ∈ V, ∀ x, g x - K g x = f x := by
  let T : V →ₗ[ℝ] V := (LinearMap.id - K).restrict fun f hf => V.sub_mem hf (hV f hf)
  let φ : V →ₗ[ℝ] ℝ := (∑ x, w x • LinearMap.proj x) ∘ₗ V.subtype
  have hφ : ∀ f : V, φ f = ∑ x, w x * f.1 x := fun f => by simp [φ]
  have hle : LinearMap.range T ≤ LinearMap.ker φ := by
    rintro _ ⟨g, rfl⟩
    rw [LinearMap.mem_ker, hφ]
    show ∑ x, w x * (g.1 x - K g.1 x) = 0
    simp only [mul_sub, Finset.sum_sub_distrib]
    rw [hinv g.1 g.2, sub_self]
  have hker : Module.finrank ℝ (LinearMap.ker T) ≤ 1 := by
    refine (Submodule.finrank_mono (t := Submodule.span ℝ {(⟨fun _ => 1, h1⟩ : V)}) ?_).trans
      ((finrank_span_le_card _).trans (by simp))
    intro g hg
    have hg' : (g.1 - K g.1) = 0 := congrArg Subtype.val (LinearMap.mem_ker.1 hg)
    obtain ⟨c, hc⟩ := hconst g.1 g.2 (sub_eq_zero.1 hg').symm
    rw [Submodule.mem_span_singleton]
    refine ⟨c, Subtype.ext ?_⟩
    rw [hc]
    funext x
    simp
  have hφ1 : Module.finrank ℝ (LinearMap.range φ) = 1 := by
    have : LinearMap.range φ = ⊤ := by
      rw [LinearMap.range_eq_top]
      intro c
      refine ⟨(c / ∑ x, w x) • ⟨fun _ => 1, h1⟩, ?_⟩
      rw [map_smul, hφ]
      simp only [mul_one, smul_eq_mul]
      exact div_mul_cancel₀ _ hw
    rw [this, finrank_top, Module.finrank_self]
  have r1 := LinearMap.finrank_range_add_finrank_ker T
  have r2 := LinearMap.finrank_range_add_finrank_ker φ
  have heq : LinearMap.range T = LinearMap.ker φ := Submodule.eq_of_le_of_finrank_le hle (by omega)
  have hmem : (⟨f, hf⟩ : V) ∈ LinearMap.range T := by
    rw [heq, LinearMap.mem_ker, hφ]
    exact h0
  obtain ⟨g, hg⟩ := hmem
  exact ⟨g.1, g.2, fun x => congrFun (congrArg Subtype.val hg) x⟩

theorem mean_linear [IsProbabilityMeasure P] (h : Fresh P step) :
    ∃ K : (E → ℝ) →ₗ[ℝ] (E → ℝ), ∀ f, K f = mean P step f := by
  have hi : ∀ (f : E → ℝ) x, Integrable (fun r => f (step x r).1) P := fun f x =>
    integrable_of_bounded ((Measurable.of_discrete (f := f)).comp (measurable_fst.comp (h.measurable x)))
      fun r => (bounded f).choose_spec.2 _
  refine ⟨⟨⟨mean P step, fun f g => funext fun x => ?_⟩, fun c f => funext fun x => ?_⟩, fun f => rfl⟩
  · exact integral_add (hi f x) (hi g x)
  · exact integral_const_mul c _

omit [Fintype E] [MeasurableSpace E] [DiscreteMeasurableSpace E] [MeasurableSpace σ] in
theorem total_telescope (F : E → E → ℝ) (m : ℝ) (g : E → ℝ) (n : ℕ) (x : E) (r : σ) :
    total step F n x r - n * m = total step (fun x y => F x y - m - g x + g y) n x r + g x - g (final step n x r).1 := by
  induction n generalizing x r with
  | zero => simp [total, final]
  | succ n ih =>
    unfold total final
    have := ih (step x r).1 (step x r).2
    push_cast
    linarith

/-- The second moment of the deviation of a sum over `n` steps from its limit grows at most linearly. -/
theorem second_moment [IsProbabilityMeasure P] (h : Fresh P step) (V : Submodule ℝ (E → ℝ))
    (hV : ∀ f ∈ V, mean P step f ∈ V) (h1 : (fun _ => 1) ∈ V) (w : E → ℝ) (hw : ∑ x, w x ≠ 0)
    (hinv : ∀ f ∈ V, ∑ x, w x * mean P step f x = ∑ x, w x * f x)
    (hconst : ∀ f ∈ V, mean P step f = f → ∃ c, f = fun _ => c) (F : E → E → ℝ)
    (hF : (fun x => mean P step (F x) x) ∈ V) (m : ℝ) (hm : ∑ x, w x * mean P step (F x) x = m * ∑ x, w x) :
    ∃ C, ∀ n x, ∫ r, (total step F n x r - n * m) ^ 2 ∂P ≤ C * (n + 1) := by
  obtain ⟨K, hK⟩ := mean_linear h
  obtain ⟨g, hg, hgK⟩ := poisson V K (fun f hf => by rw [hK]; exact hV f hf) h1 w hw
    (fun f hf => by rw [hK]; exact hinv f hf) (fun f hf hh => hconst f hf (by rw [← hK]; exact hh))
    (f := fun x => mean P step (F x) x - m)
    (V.sub_mem hF (by have := V.smul_mem m h1; simpa [Pi.smul_def] using this))
    (by simp only [mul_sub, Finset.sum_sub_distrib]; rw [hm, ← Finset.sum_mul]; ring)
  let D : E → E → ℝ := fun x y => F x y - m - g x + g y
  obtain ⟨B, hB0, hB⟩ := bounded₂ D
  obtain ⟨G, hG0, hG⟩ := bounded g
  have hi : ∀ (f : E → ℝ) x, Integrable (fun r => f (step x r).1) P := fun f x =>
    integrable_of_bounded ((Measurable.of_discrete (f := f)).comp (measurable_fst.comp (h.measurable x)))
      fun r => (bounded f).choose_spec.2 _
  have hD : ∀ x, mean P step (D x) x = 0 := by
    intro x
    have e := hgK x
    rw [hK] at e
    show ∫ r, (F x (step x r).1 - m - g x + g (step x r).1) ∂P = 0
    have j1 : Integrable (fun r => F x (step x r).1 - m) P := (hi (F x) x).sub (integrable_const m)
    have j2 : Integrable (fun r => F x (step x r).1 - m - g x) P := j1.sub (integrable_const (g x))
    rw [integral_add j2 (hi g x), integral_sub j1 (integrable_const (g x)), integral_sub (hi (F x) x) (integrable_const m)]
    simp only [integral_const, probReal_univ, one_smul]
    unfold mean at e
    linarith
  refine ⟨2 * B ^ 2 + 8 * G ^ 2, fun n x => ?_⟩
  have hmart := (martingale h hB hD n x).2
  have hmeas := total_measurable h D n x
  have hsq : Integrable (fun r => total step D n x r ^ 2) P :=
    integrable_of_bounded (hmeas.pow_const 2) (B := (n * B) ^ 2) fun r => by
      rw [abs_pow]; exact pow_le_pow_left₀ (abs_nonneg _) (total_bounded hB _ _ _) 2
  have hle : ∀ r, (total step F n x r - n * m) ^ 2 ≤ 2 * total step D n x r ^ 2 + 8 * G ^ 2 := by
    intro r
    rw [total_telescope F m g]
    show (total step D n x r + g x - g (final step n x r).1) ^ 2 ≤ _
    have a1 := abs_le.1 (hG x)
    have a2 := abs_le.1 (hG (final step n x r).1)
    nlinarith [sq_nonneg (total step D n x r - (g x - g (final step n x r).1)), a1.1, a1.2, a2.1, a2.2,
      mul_nonneg (by linarith : 0 ≤ 2 * G - (g x - g (final step n x r).1)) (by linarith : 0 ≤ 2 * G + (g x - g (final step n x r).1))]
  have hmF := total_measurable h F n x
  refine (integral_mono_of_nonneg (Filter.Eventually.of_forall fun r => sq_nonneg _)
    ((hsq.const_mul 2).add (integrable_const _)) (Filter.Eventually.of_forall hle)).trans ?_
  show ∫ r, (2 * total step D n x r ^ 2 + 8 * G ^ 2) ∂P ≤ _
  rw [integral_add (hsq.const_mul 2) (integrable_const _), integral_const_mul]
  simp only [integral_const, probReal_univ, one_smul]
  have hn : (0 : ℝ) ≤ n := Nat.cast_nonneg n
  nlinarith [mul_nonneg hn (sq_nonneg G), sq_nonneg B]

/-- the same when the first `k` steps are not counted -/
theorem second_moment_after [IsProbabilityMeasure P] (h : Fresh P step) (F : E → E → ℝ) (m C : ℝ)
    (hC : ∀ n x, ∫ r, (total step F n x r - n * m) ^ 2 ∂P ≤ C * (n + 1)) (k n : ℕ) (x : E) :
    ∫ r, (total step F n (final step k x r).1 (final step k x r).2 - n * m) ^ 2 ∂P ≤ C * (n + 1) := by
  obtain ⟨B, hB0, hB⟩ := bounded₂ F
  have hmeas : ∀ k x, Measurable (final step k x) := by
    intro k
    induction k with
    | zero => exact fun x => measurable_const.prodMk measurable_id
    | succ k ih =>
      intro x
      exact (measurable_from_prod_countable_right (f := fun q : E × σ => final step k q.1 q.2) ih).comp (h.measurable x)
  have hfm : ∀ k x, Measurable fun r => (total step F n (final step k x r).1 (final step k x r).2 - n * m) ^ 2 :=
    fun k x => (((measurable_from_prod_countable_right (f := fun q : E × σ => total step F n q.1 q.2)
      (total_measurable h F n)).comp (hmeas k x)).sub measurable_const).pow_const 2
  have hb : ∀ k x r, |(total step F n (final step k x r).1 (final step k x r).2 - n * m) ^ 2| ≤ (n * B + |n * m|) ^ 2 := by
    intro k x r
    rw [abs_pow]
    refine pow_le_pow_left₀ (abs_nonneg _) ((abs_sub _ _).trans ?_) 2
    have := total_bounded (step := step) hB n (final step k x r).1 (final step k x r).2
    linarith
  induction k generalizing x with
  | zero => exact hC n x
  | succ k ih =>
    have e := h.integral (f := fun y r => (total step F n (final step k y r).1 (final step k y r).2 - n * m) ^ 2)
      (fun y => hfm k y) (fun y r => hb k y r) x
    refine (le_of_eq e).trans ?_
    unfold mean
    refine (integral_mono (g := fun _ => C * (n + 1)) (integrable_of_bounded
      ((Measurable.of_discrete (f := fun y => ∫ r, (total step F n (final step k y r).1 (final step k y r).2 - n * m) ^ 2 ∂P)).comp
        (measurable_fst.comp (h.measurable x)))
      fun r => (bounded (fun y => ∫ r, (total step F n (final step k y r).1 (final step k y r).2 - n * m) ^ 2 ∂P)).choose_spec.2 _)
      (integrable_const _) fun r => ih _).trans (by simp)

omit [Fintype E] [MeasurableSpace E] [DiscreteMeasurableSpace E] [MeasurableSpace σ] in
theorem final_succ (n : ℕ) (x : E) (r : σ) :
    final step (n + 1) x r = step (final step n x r).1 (final step n x r).2 := by
  induction n generalizing x r with
  | zero => rfl
  | succ n ih => exact ih (step x r).1 (step x r).2

omit [Fintype E] [MeasurableSpace E] [DiscreteMeasurableSpace E] [MeasurableSpace σ] in
theorem final_add (k n : ℕ) (x : E) (r : σ) :
    final step (k + n) x r = final step n (final step k x r).1 (final step k x r).2 := by
  induction n with
  | zero => rfl
  | succ n ih => rw [← Nat.add_assoc, final_succ, final_succ, ih]

omit [Fintype E] [MeasurableSpace E] [DiscreteMeasurableSpace E] [MeasurableSpace σ] in
theorem total_succ (F : E → E → ℝ) (n : ℕ) (x : E) (r : σ) : total step F (n + 1) x r
    = total step F n x r + F (final step n x r).1 (step (final step n x r).1 (final step n x r).2).1 := by
  induction n generalizing x r with
  | zero => simp [total, final]
  | succ n ih =>
    show F x (step x r).1 + total step F (n + 1) (step x r).1 (step x r).2 = _
    rw [ih, ← add_assoc]
    rfl

omit [Fintype E] [MeasurableSpace E] [DiscreteMeasurableSpace E] [MeasurableSpace σ] in
theorem total_add (F : E → E → ℝ) (k n : ℕ) (x : E) (r : σ) : total step F (k + n) x r
    = total step F k x r + total step F n (final step k x r).1 (final step k x r).2 := by
  induction n with
  | zero => simp [total]
  | succ n ih => rw [← Nat.add_assoc, total_succ, total_succ, ih, final_add, add_assoc]

theorem final_measurable (h : Fresh P step) (k : ℕ) (x : E) : Measurable (final step k x) := by
  induction k generalizing x with
  | zero => exact measurable_const.prodMk measurable_id
  | succ k ih =>
    exact (measurable_from_prod_countable_right (f := fun q : E × σ => final step k q.1 q.2) ih).comp (h.measurable x)

/-- the probability of large deviations -/
theorem deviation [IsProbabilityMeasure P] (h : Fresh P step) (F : E → E → ℝ) (m C : ℝ)
    (hC : ∀ n x, ∫ r, (total step F n x r - n * m) ^ 2 ∂P ≤ C * (n + 1)) (k n : ℕ) (x : E) (d : ℝ) (hd : 0 < d) :
    P.real {r | d ≤ |total step F n (final step k x r).1 (final step k x r).2 - n * m|} ≤ C * (n + 1) / d ^ 2 := by
  obtain ⟨B, hB0, hB⟩ := bounded₂ F
  have hfm : Measurable fun r => (total step F n (final step k x r).1 (final step k x r).2 - n * m) ^ 2 :=
    (((measurable_from_prod_countable_right (f := fun q : E × σ => total step F n q.1 q.2)
      (total_measurable h F n)).comp (final_measurable h k x)).sub measurable_const).pow_const 2
  have hi : Integrable (fun r => (total step F n (final step k x r).1 (final step k x r).2 - n * m) ^ 2) P :=
    integrable_of_bounded hfm (B := (n * B + |n * m|) ^ 2) fun r => by
      rw [abs_pow]
      refine pow_le_pow_left₀ (abs_nonneg _) ((abs_sub _ _).trans ?_) 2
      have := total_bounded (step := step) hB n (final step k x r).1 (final step k x r).2
      linarith
  have hmk := mul_meas_ge_le_integral_of_nonneg (μ := P) (Filter.Eventually.of_forall fun r => sq_nonneg
    (total step F n (final step k x r).1 (final step k x r).2 - n * m)) hi (d ^ 2)
  have hs : {r | d ≤ |total step F n (final step k x r).1 (final step k x r).2 - n * m|}
      = {r | d ^ 2 ≤ (total step F n (final step k x r).1 (final step k x r).2 - n * m) ^ 2} := by
    ext r
    simp only [Set.mem_ofPred_eq]
    rw [← sq_abs (total step F n _ _ - n * m), pow_le_pow_iff_left₀ hd.le (abs_nonneg _) two_ne_zero]
  rw [hs, le_div_iff₀ (by positivity), mul_comm]
  exact hmk.trans (second_moment_after h F m C hC k n x)

end Verif.Ergodic
