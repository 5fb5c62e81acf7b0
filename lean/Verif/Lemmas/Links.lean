import Verif.Lemmas.MeanErgodic
import Verif.Lemmas.Metropolis
import Mathlib.MeasureTheory.Integral.Prod

/-!
# Functions of the configuration which are invariant under a random step

A step of the simulation maps a configuration and the state of the source of random numbers to a
configuration and a state.  Its use of the source is fair if, given the configuration before the
step, the state left over is distributed as the state before, independently of the new
configuration (`Fair`).  Let `g` be a bounded function of configuration and state which is
invariant under the step.  Then its mean `h` over the states is *linked* to itself: the value of
`h` at the new configuration is its value at the old one, almost surely (`link_of_invariant`).  A
link through two steps splits into links through each of them (`Link.first`, `Link.second`).
-/

set_option autoImplicit false

open MeasureTheory Filter Topology
open scoped ENNReal

namespace Verif.Links

variable {E σ : Type*} [MeasurableSpace E] [MeasurableSpace σ]

/-- given the old configuration, the state left over is independent of the new configuration and
distributed by `P` -/
def Fair (P : Measure σ) (T : E × σ → E × σ) : Prop :=
  ∀ g : E × σ → ℝ≥0∞, Measurable g → ∀ x,
    ∫⁻ r, g (T (x, r)) ∂P = ∫⁻ r, ∫⁻ r', g ((T (x, r)).1, r') ∂P ∂P

/-- mean of a function of the new configuration -/
noncomputable def after (P : Measure σ) (T : E × σ → E × σ) (h : E → ℝ) (x : E) : ℝ :=
  ∫ r, h (T (x, r)).1 ∂P

/-- the value of `h'` at the new configuration is the value of `h` at the old one -/
def Link (μ : Measure E) (P : Measure σ) (T : E × σ → E × σ) (h h' : E → ℝ) : Prop :=
  ∀ᵐ y ∂(μ.prod P), h' (T y).1 = h y.1

variable {μ : Measure E} {P : Measure σ} [IsProbabilityMeasure P]

theorem Fair.id : Fair P (id : E × σ → E × σ) := by
  intro g _ x
  simp only [id_eq]
  rw [lintegral_const, measure_univ, mul_one]

theorem Fair.comp {T₁ T₂ : E × σ → E × σ} (h₁ : Fair P T₁) (h₂ : Fair P T₂) (m₂ : Measurable T₂) :
    Fair P (T₂ ∘ T₁) := by
  intro g hg x
  have a := h₁ (fun y => g (T₂ y)) (hg.comp m₂) x
  simp only [Function.comp_apply]
  rw [a]
  have hbar : Measurable fun z : E => ∫⁻ r', g (z, r') ∂P := hg.lintegral_prod_right'
  have b := h₁ (fun y => ∫⁻ r', g ((T₂ y).1, r') ∂P) (hbar.comp (measurable_fst.comp m₂)) x
  rw [b]
  refine lintegral_congr fun r => ?_
  exact h₂ g hg _

theorem Fair.iterate {T : E × σ → E × σ} (h : Fair P T) (m : Measurable T) (n : ℕ) :
    Fair P T^[n] := by
  induction n with
  | zero => exact Fair.id
  | succ n ih =>
    rw [Function.iterate_succ]
    exact h.comp ih (m.iterate n)

/-- a draw from the source, which decides about the new configuration -/
theorem Fair.draw {Ω : Type*} [MeasurableSpace Ω] {ν : Measure Ω} [IsProbabilityMeasure ν]
    {d : σ → Ω × σ} (hd : MeasurePreserving d P (ν.prod P)) {φ : E → Ω → E}
    (hφ : Measurable fun p : E × Ω => φ p.1 p.2) :
    Fair P fun y : E × σ => (φ y.1 (d y.2).1, (d y.2).2) := by
  intro g hg x
  have hx : Measurable fun o : Ω => φ x o := hφ.comp (measurable_const.prodMk measurable_id)
  have m1 : Measurable fun p : Ω × σ => g (φ x p.1, p.2) :=
    hg.comp ((hx.comp measurable_fst).prodMk measurable_snd)
  have m2 : Measurable fun o : Ω => ∫⁻ r', g (φ x o, r') ∂P := m1.lintegral_prod_right'
  have e1 := hd.lintegral_comp m1
  have e2 := hd.lintegral_comp (m2.comp measurable_fst)
  show ∫⁻ r, g (φ x (d r).1, (d r).2) ∂P = ∫⁻ r, ∫⁻ r', g (φ x (d r).1, r') ∂P ∂P
  refine e1.trans (Eq.trans ?_ e2.symm)
  rw [lintegral_prod _ m1.aemeasurable, lintegral_prod _ (m2.comp measurable_fst).aemeasurable]
  refine lintegral_congr fun o => ?_
  simp only [Function.comp_apply]
  rw [lintegral_const, measure_univ, mul_one]

/-- a draw from the source, which decides about the next step -/
theorem Fair.mix {Ω : Type*} [MeasurableSpace Ω] {ν : Measure Ω} [IsProbabilityMeasure ν]
    {d : σ → Ω × σ} (hd : MeasurePreserving d P (ν.prod P)) {S : Ω → E × σ → E × σ}
    (hS : Measurable fun p : Ω × E × σ => S p.1 p.2) (h : ∀ o, Fair P (S o)) :
    Fair P fun y : E × σ => S (d y.2).1 (y.1, (d y.2).2) := by
  intro g hg x
  have hx : Measurable fun p : Ω × σ => S p.1 (x, p.2) :=
    hS.comp (measurable_fst.prodMk (measurable_const.prodMk measurable_snd))
  have hbar : Measurable fun z : E => ∫⁻ r', g (z, r') ∂P := hg.lintegral_prod_right'
  have m1 : Measurable fun p : Ω × σ => g (S p.1 (x, p.2)) := hg.comp hx
  have m2 : Measurable fun p : Ω × σ => ∫⁻ r', g ((S p.1 (x, p.2)).1, r') ∂P :=
    hbar.comp (measurable_fst.comp hx)
  have e1 := hd.lintegral_comp m1
  have e2 := hd.lintegral_comp m2
  refine e1.trans (Eq.trans ?_ e2.symm)
  rw [lintegral_prod _ m1.aemeasurable, lintegral_prod _ m2.aemeasurable]
  exact lintegral_congr fun o => h o g hg x

/-- almost sure statements about the new configuration and the state left over -/
theorem Fair.ae {T : E × σ → E × σ} (h : Fair P T) (m : Measurable T) {A : Set (E × σ)}
    (hA : MeasurableSet A) {x : E} (hx : ∀ᵐ r ∂P, T (x, r) ∈ A) :
    ∀ᵐ r ∂P, ∀ᵐ r' ∂P, ((T (x, r)).1, r') ∈ A := by
  have hg : Measurable (Aᶜ.indicator (1 : E × σ → ℝ≥0∞)) := measurable_one.indicator hA.compl
  have e := h _ hg x
  have z : ∫⁻ r, Aᶜ.indicator (1 : E × σ → ℝ≥0∞) (T (x, r)) ∂P = 0 := by
    refine (lintegral_eq_zero_iff (hg.comp (m.comp measurable_prodMk_left))).2 ?_
    filter_upwards [hx] with r hr
    simp [hr]
  rw [z] at e
  have hm : Measurable fun z : E => ∫⁻ r', Aᶜ.indicator (1 : E × σ → ℝ≥0∞) (z, r') ∂P :=
    hg.lintegral_prod_right'
  have e' := (lintegral_eq_zero_iff
    (hm.comp (measurable_fst.comp (m.comp measurable_prodMk_left)))).1 e.symm
  filter_upwards [e'] with r hr
  have := (lintegral_eq_zero_iff (hg.comp measurable_prodMk_left)).1 hr
  filter_upwards [this] with r' hr'
  by_contra hcon
  simp [hcon] at hr'

/-- the law of the new configuration and the state left over -/
theorem Fair.law {T : E × σ → E × σ} (h : Fair P T) (m : Measurable T) (x : E) :
    P.map (fun r => T (x, r)) = (P.map fun r => (T (x, r)).1).prod P := by
  have mx : Measurable fun r => T (x, r) := m.comp measurable_prodMk_left
  have mx1 : Measurable fun r => (T (x, r)).1 := measurable_fst.comp mx
  have : IsProbabilityMeasure (P.map fun r => (T (x, r)).1) :=
    Measure.isProbabilityMeasure_map mx1.aemeasurable
  refine Measure.ext_of_lintegral _ fun g hg => ?_
  rw [lintegral_map hg mx, h g hg x, lintegral_prod _ hg.aemeasurable,
    lintegral_map hg.lintegral_prod_right' mx1]

/-- expectation values, for bounded functions -/
theorem Fair.integral {T : E × σ → E × σ} (h : Fair P T) (m : Measurable T) {g : E × σ → ℝ}
    (hg : Measurable g) {C : ℝ} (hC : ∀ y, |g y| ≤ C) (x : E) :
    ∫ r, g (T (x, r)) ∂P = ∫ r, ∫ r', g ((T (x, r)).1, r') ∂P ∂P := by
  have mx : Measurable fun r => T (x, r) := m.comp measurable_prodMk_left
  have mx1 : Measurable fun r => (T (x, r)).1 := measurable_fst.comp mx
  have : IsProbabilityMeasure (P.map fun r => (T (x, r)).1) :=
    Measure.isProbabilityMeasure_map mx1.aemeasurable
  have hi : Integrable g ((P.map fun r => (T (x, r)).1).prod P) :=
    Integrable.of_bound hg.aestronglyMeasurable C (.of_forall hC)
  rw [← integral_map mx.aemeasurable hg.aestronglyMeasurable, h.law m x, integral_prod _ hi,
    integral_map mx1.aemeasurable]
  exact (hg.stronglyMeasurable.integral_prod_right').aestronglyMeasurable

theorem after_measurable {T : E × σ → E × σ} (m : Measurable T) {h : E → ℝ} (hh : Measurable h) :
    Measurable (after P T h) := by
  have : Measurable fun y : E × σ => h (T y).1 := hh.comp (measurable_fst.comp m)
  exact this.stronglyMeasurable.integral_prod_right'.measurable

omit [MeasurableSpace E] in
theorem after_bounded {T : E × σ → E × σ} {h : E → ℝ} {C : ℝ} (hC : ∀ x, |h x| ≤ C) (x : E) :
    |after P T h x| ≤ C := by
  have h1 := norm_integral_le_of_norm_le_const (μ := P) (f := fun r => h (T (x, r)).1) (C := C)
    (.of_forall fun r => hC _)
  simpa [after] using h1

/-- what is known after the first of two steps -/
theorem Link.first {T₁ T₂ : E × σ → E × σ} (m₁ : Measurable T₁) (f₁ : Fair P T₁)
    (m₂ : Measurable T₂) {h h' : E → ℝ} (hh' : Measurable h')
    (hl : Link μ P (T₂ ∘ T₁) h h') : Link μ P T₁ h (after P T₂ h') := by
  have hm : Measurable fun y : E × σ => h' (T₂ y).1 := hh'.comp (measurable_fst.comp m₂)
  have ha := after_measurable (P := P) m₂ hh'
  -- the statement for almost all configurations
  have h1 := Measure.ae_ae_of_ae_prod hl
  have key : ∀ᵐ x ∂μ, ∀ᵐ r ∂P, after P T₂ h' (T₁ (x, r)).1 = h x := by
    filter_upwards [h1] with x hx
    have hA : MeasurableSet {y : E × σ | h' (T₂ y).1 = h x} := hm (measurableSet_singleton (h x))
    have h2 := f₁.ae m₁ hA (x := x) hx
    filter_upwards [h2] with r hr
    unfold after
    have : (fun r' => h' (T₂ ((T₁ (x, r)).1, r')).1) =ᵐ[P] fun _ => h x := hr
    rw [integral_congr_ae this, integral_const, probReal_univ, one_smul]
  -- the set is measurable up to a null set since `h` is, almost everywhere, the mean of `h'`
  have hav : ∀ᵐ x ∂μ, ∫ r, after P T₂ h' (T₁ (x, r)).1 ∂P = h x := by
    filter_upwards [key] with x hx
    have : (fun r => after P T₂ h' (T₁ (x, r)).1) =ᵐ[P] fun _ => h x := hx
    rw [integral_congr_ae this, integral_const, probReal_univ, one_smul]
  have hB : Measurable (after P T₁ (after P T₂ h')) := after_measurable m₁ ha
  have hset : MeasurableSet {y : E × σ | after P T₂ h' (T₁ y).1 =
      after P T₁ (after P T₂ h') y.1} :=
    measurableSet_eq_fun (ha.comp (measurable_fst.comp m₁)) (hB.comp measurable_fst)
  have h3 : ∀ᵐ y ∂(μ.prod P), after P T₂ h' (T₁ y).1 = after P T₁ (after P T₂ h') y.1 := by
    rw [Measure.ae_prod_iff_ae_ae hset]
    filter_upwards [key, hav] with x hx hx'
    filter_upwards [hx] with r hr
    rw [hr, ← hx']
    rfl
  have h4 : ∀ᵐ y ∂(μ.prod P), after P T₁ (after P T₂ h') y.1 = h y.1 :=
    Measure.quasiMeasurePreserving_fst.ae hav
  filter_upwards [h3, h4] with y e1 e2
  rw [e1, e2]

/-- what happens in the second of two steps -/
theorem Link.second {T₁ T₂ : E × σ → E × σ} (p₁ : MeasurePreserving T₁ (μ.prod P) (μ.prod P))
    (f₁ : Fair P T₁) (m₂ : Measurable T₂) {h h' : E → ℝ} (hh' : Measurable h')
    (hl : Link μ P (T₂ ∘ T₁) h h') : Link μ P T₂ (after P T₂ h') h' := by
  have m₁ := p₁.measurable
  have hm : Measurable fun y : E × σ => h' (T₂ y).1 := hh'.comp (measurable_fst.comp m₂)
  have ha := after_measurable (P := P) m₂ hh'
  have hset : MeasurableSet {y : E × σ | h' (T₂ y).1 = after P T₂ h' y.1} :=
    measurableSet_eq_fun hm (ha.comp measurable_fst)
  have hB : MeasurableSet {z : E | ∀ᵐ r' ∂P, h' (T₂ (z, r')).1 = after P T₂ h' z} := by
    have : Measurable fun z : E => ∫⁻ r', {y : E × σ | h' (T₂ y).1 = after P T₂ h' y.1}ᶜ.indicator
        (1 : E × σ → ℝ≥0∞) (z, r') ∂P := (measurable_one.indicator hset.compl).lintegral_prod_right'
    have e : {z : E | ∀ᵐ r' ∂P, h' (T₂ (z, r')).1 = after P T₂ h' z} =
        {z : E | ∫⁻ r', {y : E × σ | h' (T₂ y).1 = after P T₂ h' y.1}ᶜ.indicator
        (1 : E × σ → ℝ≥0∞) (z, r') ∂P = 0} := by
      ext z
      simp only [Set.mem_ofPred_eq]
      refine Iff.trans ?_ (lintegral_eq_zero_iff
        ((measurable_one.indicator hset.compl).comp measurable_prodMk_left)).symm
      refine eventually_congr (.of_forall fun r' => ?_)
      by_cases hc : h' (T₂ (z, r')).1 = after P T₂ h' z
      · simp [hc]
      · simp [hc]
    rw [e]
    exact this (measurableSet_singleton 0)
  have h1 := Measure.ae_ae_of_ae_prod hl
  have key : ∀ᵐ x ∂μ, ∀ᵐ r ∂P, ∀ᵐ r' ∂P,
      h' (T₂ ((T₁ (x, r)).1, r')).1 = after P T₂ h' (T₁ (x, r)).1 := by
    filter_upwards [h1] with x hx
    have hA : MeasurableSet {y : E × σ | h' (T₂ y).1 = h x} := hm (measurableSet_singleton (h x))
    have h2 := f₁.ae m₁ hA (x := x) hx
    filter_upwards [h2] with r hr
    have e : (fun r' => h' (T₂ ((T₁ (x, r)).1, r')).1) =ᵐ[P] fun _ => h x := hr
    have e2 : after P T₂ h' (T₁ (x, r)).1 = h x := by
      unfold after
      rw [integral_congr_ae e, integral_const, probReal_univ, one_smul]
    rw [e2]
    exact hr
  have h3 : ∀ᵐ y ∂(μ.prod P), (T₁ y).1 ∈
      {z : E | ∀ᵐ r' ∂P, h' (T₂ (z, r')).1 = after P T₂ h' z} := by
    exact (Measure.ae_prod_iff_ae_ae ((measurable_fst.comp m₁) hB)).2 key
  have h4 : ∀ᵐ y ∂(μ.prod P), y.1 ∈
      {z : E | ∀ᵐ r' ∂P, h' (T₂ (z, r')).1 = after P T₂ h' z} := by
    have := (ae_map_iff m₁.aemeasurable (measurable_fst hB)).2 h3
    rwa [p₁.map_eq] at this
  have h5 : ∀ᵐ z ∂μ, ∀ᵐ r' ∂P, h' (T₂ (z, r')).1 = after P T₂ h' z := by
    have := Measure.ae_ae_of_ae_prod h4
    filter_upwards [this] with z hz
    exact (eventually_const (f := ae P)).1 hz
  unfold Link
  rw [Measure.ae_prod_iff_ae_ae hset]
  exact h5

/-- The mean of an invariant function is linked to itself. -/
theorem link_of_invariant [IsFiniteMeasure μ] {T : E × σ → E × σ}
    (p : MeasurePreserving T (μ.prod P) (μ.prod P)) (f : Fair P T) {g : E × σ → ℝ}
    (hg : Measurable g) {C : ℝ} (hC : ∀ y, |g y| ≤ C) (hinv : g ∘ T =ᵐ[μ.prod P] g) :
    Link μ P T (fun x => ∫ r, g (x, r) ∂P) (fun x => ∫ r, g (x, r) ∂P) := by
  set h : E → ℝ := fun x => ∫ r, g (x, r) ∂P with hh
  have hm : Measurable h := hg.stronglyMeasurable.integral_prod_right'.measurable
  have hb : ∀ x, |h x| ≤ C := fun x => by
    have h1 := norm_integral_le_of_norm_le_const (μ := P) (f := fun r => g (x, r)) (C := C)
      (.of_forall fun r => hC _)
    simpa using h1
  have hC0 : ∀ x : E, 0 ≤ C := fun x => (abs_nonneg _).trans (hb x)
  have hmT : Measurable fun y : E × σ => h (T y).1 := hm.comp (measurable_fst.comp p.measurable)
  have hm1 : Measurable fun y : E × σ => h y.1 := hm.comp measurable_fst
  have bd : ∀ {F : E × σ → ℝ}, Measurable F → (∀ y, |F y| ≤ C * C) → Integrable F (μ.prod P) :=
    fun hF hFb => Integrable.of_bound hF.aestronglyMeasurable (C * C) (.of_forall hFb)
  have mul_le : ∀ a b : E, |h a * h b| ≤ C * C := fun a b => by
    rw [abs_mul]
    exact mul_le_mul (hb a) (hb b) (abs_nonneg _) (hC0 a)
  have i1 : Integrable (fun y : E × σ => h (T y).1 * h (T y).1) (μ.prod P) :=
    bd (hmT.mul hmT) fun y => mul_le _ _
  have i2 : Integrable (fun y : E × σ => h (T y).1 * h y.1) (μ.prod P) :=
    bd (hmT.mul hm1) fun y => mul_le _ _
  have i3 : Integrable (fun y : E × σ => h y.1 * h y.1) (μ.prod P) :=
    bd (hm1.mul hm1) fun y => mul_le _ _
  have e1 : ∫ y, h (T y).1 * h (T y).1 ∂(μ.prod P) = ∫ y, h y.1 * h y.1 ∂(μ.prod P) := by
    conv_rhs => rw [← p.map_eq]
    exact (integral_map p.measurable.aemeasurable (hm1.mul hm1).aestronglyMeasurable).symm
  have e2 : ∫ y, h (T y).1 * h y.1 ∂(μ.prod P) = ∫ y, h y.1 * h y.1 ∂(μ.prod P) := by
    rw [integral_prod _ i2, integral_prod _ i3]
    refine integral_congr_ae ?_
    filter_upwards [Measure.ae_ae_of_ae_prod hinv] with x hx
    rw [integral_mul_const, integral_const, probReal_univ, one_smul]
    congr 1
    have a := f.integral p.measurable hg hC x
    rw [show (∫ r, h (T (x, r)).1 ∂P) = ∫ r, ∫ r', g ((T (x, r)).1, r') ∂P ∂P from rfl, ← a]
    exact integral_congr_ae hx
  have e3 : ∫ y, (h (T y).1 - h y.1) ^ 2 ∂(μ.prod P) = 0 := by
    have : ∀ y : E × σ, (h (T y).1 - h y.1) ^ 2 =
        h (T y).1 * h (T y).1 - 2 * (h (T y).1 * h y.1) + h y.1 * h y.1 := fun y => by ring
    simp only [this]
    have a := integral_add (i1.sub (i2.const_mul 2)) i3
    have b := integral_sub i1 (i2.const_mul 2)
    simp only [Pi.sub_apply] at a b
    rw [a, b, integral_const_mul, e1, e2]
    ring
  have i4 : Integrable (fun y : E × σ => (h (T y).1 - h y.1) ^ 2) (μ.prod P) := by
    have : ∀ y : E × σ, (h (T y).1 - h y.1) ^ 2 =
        h (T y).1 * h (T y).1 - 2 * (h (T y).1 * h y.1) + h y.1 * h y.1 := fun y => by ring
    simp only [this]
    exact (i1.sub (i2.const_mul 2)).add i3
  have e4 := (integral_eq_zero_iff_of_nonneg (fun y => sq_nonneg _) i4).1 e3
  filter_upwards [e4] with y hy
  have : h (T y).1 - h y.1 = 0 := by simpa using hy
  linarith

end Verif.Links
