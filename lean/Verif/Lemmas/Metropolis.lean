import Mathlib.MeasureTheory.Measure.WithDensity
import Mathlib.MeasureTheory.Measure.Lebesgue.Basic
import Mathlib.MeasureTheory.Measure.Prod
import Mathlib.MeasureTheory.Measure.Haar.Unique

/-! # The Metropolis algorithm preserves its target measure -/

set_option autoImplicit false

namespace Verif.Metropolis

open MeasureTheory ENNReal

/-- uniform numbers in `(0,1]` -/
noncomputable def unit : Measure ℝ := volume.restrict (Set.Ioc 0 1)

instance : IsProbabilityMeasure unit := ⟨by simp [unit]⟩

/-- the probability that a uniform number is less than `r` -/
theorem unit_lt (r : ℝ) : unit {u | u < r} = ENNReal.ofReal (min 1 r) := by
  have hmeas : MeasurableSet {u : ℝ | u < r} := measurableSet_Iio
  unfold unit
  rw [Measure.restrict_apply hmeas]
  by_cases h : r ≤ 1
  · have : {u : ℝ | u < r} ∩ Set.Ioc 0 1 = Set.Ioo 0 r := by
      ext u
      simp only [Set.mem_inter_iff, Set.mem_ofPred_eq, Set.mem_Ioc, Set.mem_Ioo]
      constructor
      · rintro ⟨h1, h2, -⟩; exact ⟨h2, h1⟩
      · rintro ⟨h1, h2⟩; exact ⟨h2, h1, by linarith⟩
    rw [this, Real.volume_Ioo, min_eq_right h, sub_zero]
  · have : {u : ℝ | u < r} ∩ Set.Ioc 0 1 = Set.Ioc 0 1 := by
      ext u
      simp only [Set.mem_inter_iff, Set.mem_ofPred_eq, Set.mem_Ioc]
      constructor
      · rintro ⟨-, h1⟩; exact h1
      · rintro h1; exact ⟨by linarith [h1.2], h1⟩
    rw [this, Real.volume_Ioc, min_eq_left (by linarith), sub_zero]

theorem unit_choice (r : ℝ) (hr : 0 ≤ r) (a b : ℝ≥0∞) :
    ∫⁻ u, (if u < r then a else b) ∂unit
      = ENNReal.ofReal (min 1 r) * a + ENNReal.ofReal (1 - min 1 r) * b := by
  have hm : MeasurableSet {u : ℝ | u < r} := measurableSet_Iio
  have hc : unit {u | u < r}ᶜ = ENNReal.ofReal (1 - min 1 r) := by
    rw [prob_compl_eq_one_sub hm, unit_lt r, ENNReal.ofReal_sub _ (le_min zero_le_one hr), ENNReal.ofReal_one]
  have e : (fun u => if u < r then a else b) = fun u => {u : ℝ | u < r}.indicator (fun _ => a) u
      + {u : ℝ | u < r}ᶜ.indicator (fun _ => b) u := by
    funext u
    by_cases h : u < r
    · simp [h]
    · simp [h]
  rw [e, lintegral_add_left (measurable_const.indicator hm), lintegral_indicator hm, lintegral_indicator hm.compl,
    lintegral_const, lintegral_const, Measure.restrict_apply_univ, Measure.restrict_apply_univ, unit_lt r, hc,
    mul_comm a, mul_comm b]

variable {E Ω σ : Type*} [MeasurableSpace E] [MeasurableSpace Ω] [MeasurableSpace σ]

/-- the measure with density `w` -/
noncomputable def target (m : Measure E) (w : E → ℝ) : Measure E := m.withDensity fun x => ENNReal.ofReal (w x)

/-- the move `T o` is proposed, and accepted if `u` is less than the ratio of the weights -/
noncomputable def move (w : E → ℝ) (T : Ω → E → E) (x : E) (o : Ω) (u : ℝ) : E :=
  if u < w (T o x) / w x then T o x else x

theorem move_measurable {w : E → ℝ} (hw : Measurable w) {T : Ω → E → E} (hT : Measurable fun p : Ω × E => T p.1 p.2) :
    Measurable fun p : E × Ω × ℝ => move w T p.1 p.2.1 p.2.2 := by
  have h1 : Measurable fun p : E × Ω × ℝ => T p.2.1 p.1 :=
    hT.comp ((measurable_fst.comp measurable_snd).prodMk measurable_fst)
  have h2 : MeasurableSet {p : E × Ω × ℝ | p.2.2 < w (T p.2.1 p.1) / w p.1} :=
    measurableSet_lt (measurable_snd.comp measurable_snd) ((hw.comp h1).div (hw.comp measurable_fst))
  exact h1.ite h2 measurable_fst

/-- Moves which preserve `m` and can be undone by equally likely moves, accepted with probability
`min(1, w'/w)`, preserve the measure with density `w`. -/
theorem metropolis (m : Measure E) [SFinite m] (ν : Measure Ω) [IsProbabilityMeasure ν] (w : E → ℝ)
    (hw : Measurable w) (h0 : ∀ x, 0 ≤ w x) (T : Ω → E → E) (hT : Measurable fun p : Ω × E => T p.1 p.2)
    (hm : ∀ o, MeasurePreserving (T o) m m) (ι : Ω → Ω) (hι : MeasurePreserving ι ν ν)
    (hinv : ∀ o x, T (ι o) (T o x) = x) :
    MeasurePreserving (fun p : E × Ω × ℝ => move w T p.1 p.2.1 p.2.2) ((target m w).prod (ν.prod unit))
      (target m w) := by
  have : SFinite (target m w) := by unfold target; infer_instance
  refine ⟨move_measurable hw hT, Measure.ext_of_lintegral _ fun f hf => ?_⟩
  have hW : Measurable fun x => ENNReal.ofReal (w x) := hw.ennreal_ofReal
  -- the probability flow from `x` to `T o x`
  let q : Ω → E → ℝ≥0∞ := fun o x => ENNReal.ofReal (min (w x) (w (T o x)))
  have hq : Measurable fun p : Ω × E => q p.1 p.2 :=
    ((hw.comp measurable_snd).min (hw.comp hT)).ennreal_ofReal
  have hrest : Measurable fun p : Ω × E => ENNReal.ofReal (w p.2 - min (w p.2) (w (T p.1 p.2))) :=
    ((hw.comp measurable_snd).sub ((hw.comp measurable_snd).min (hw.comp hT))).ennreal_ofReal
  have key : ∀ x o, ENNReal.ofReal (w x) * ∫⁻ u, f (move w T x o u) ∂unit
      = q o x * f (T o x) + ENNReal.ofReal (w x - min (w x) (w (T o x))) * f x := by
    intro x o
    have e : ∀ u, f (move w T x o u) = if u < w (T o x) / w x then f (T o x) else f x := by
      intro u
      unfold move
      split <;> rfl
    simp only [e]
    rw [unit_choice _ (div_nonneg (h0 _) (h0 _)), mul_add, ← mul_assoc, ← mul_assoc, ← ENNReal.ofReal_mul (h0 x),
      ← ENNReal.ofReal_mul (h0 x)]
    have e1 : w x * min 1 (w (T o x) / w x) = min (w x) (w (T o x)) := by
      rcases (h0 x).eq_or_lt with h | h
      · rw [← h, zero_mul, min_eq_left (h0 _)]
      · rw [mul_min_of_nonneg _ _ h.le, mul_one, mul_div_cancel₀ _ h.ne']
    rw [mul_sub, mul_one, e1]
  have flow : ∫⁻ o, ∫⁻ x, q o x * f (T o x) ∂m ∂ν = ∫⁻ o, ∫⁻ x, q o x * f x ∂m ∂ν := by
    have e1 : ∀ o, ∫⁻ x, q o x * f (T o x) ∂m = ∫⁻ x, q (ι o) x * f x ∂m := by
      intro o
      have hg : Measurable fun y => q (ι o) y * f y := (hq.comp (measurable_const.prodMk measurable_id)).mul hf
      rw [← (hm o).lintegral_comp hg]
      refine lintegral_congr fun x => ?_
      simp only [q]
      rw [hinv, min_comm]
    simp only [e1]
    have hg : Measurable fun o => ∫⁻ x, q o x * f x ∂m :=
      (hq.mul (hf.comp measurable_snd)).lintegral_prod_right'
    exact hι.lintegral_comp hg
  have hmv := move_measurable (T := T) hw hT
  calc ∫⁻ y, f y ∂((target m w).prod (ν.prod unit)).map (fun p : E × Ω × ℝ => move w T p.1 p.2.1 p.2.2)
      = ∫⁻ x, ∫⁻ o, ∫⁻ u, f (move w T x o u) ∂unit ∂ν ∂target m w := by
        rw [lintegral_map hf hmv]
        refine (lintegral_prod _ (hf.comp hmv).aemeasurable).trans (lintegral_congr fun x => ?_)
        exact lintegral_prod _ ((hf.comp hmv).comp (measurable_const.prodMk measurable_id)).aemeasurable
    _ = ∫⁻ x, ∫⁻ o, ENNReal.ofReal (w x) * ∫⁻ u, f (move w T x o u) ∂unit ∂ν ∂m := by
        have h1 : Measurable fun p : (E × Ω) × ℝ => f (move w T p.1.1 p.1.2 p.2) :=
          hf.comp (hmv.comp ((measurable_fst.comp measurable_fst).prodMk
            ((measurable_snd.comp measurable_fst).prodMk measurable_snd)))
        have h2 : Measurable fun p : E × Ω => ∫⁻ u, f (move w T p.1 p.2 u) ∂unit := h1.lintegral_prod_right'
        unfold target
        rw [lintegral_withDensity_eq_lintegral_mul _ hW h2.lintegral_prod_right']
        refine lintegral_congr fun x => ?_
        exact (lintegral_const_mul _ (h2.comp (measurable_const.prodMk measurable_id))).symm
    _ = ∫⁻ o, ∫⁻ x, q o x * f (T o x) + ENNReal.ofReal (w x - min (w x) (w (T o x))) * f x ∂m ∂ν := by
        simp only [key]
        refine lintegral_lintegral_swap ?_
        exact (((hq.mul (hf.comp hT)).add (hrest.mul (hf.comp measurable_snd))).comp measurable_swap).aemeasurable
    _ = ∫⁻ o, ∫⁻ x, q o x * f x + ENNReal.ofReal (w x - min (w x) (w (T o x))) * f x ∂m ∂ν := by
        have hl : ∀ (g : Ω × E → ℝ≥0∞), Measurable g → ∀ o, Measurable fun x => g (o, x) :=
          fun g hg o => hg.comp (measurable_const.prodMk measurable_id)
        have a1 := fun o => lintegral_add_left (μ := m) (hl _ (hq.mul (hf.comp hT)) o)
          fun x => ENNReal.ofReal (w x - min (w x) (w (T o x))) * f x
        have a2 := fun o => lintegral_add_left (μ := m) (hl _ (hq.mul (hf.comp measurable_snd)) o)
          fun x => ENNReal.ofReal (w x - min (w x) (w (T o x))) * f x
        have b1 := (hq.mul (hf.comp hT)).lintegral_prod_right' (ν := m)
        have b2 := (hq.mul (hf.comp measurable_snd)).lintegral_prod_right' (ν := m)
        simp only [Pi.mul_apply, Function.comp_apply] at a1 a2 b1 b2
        simp only [a1, a2]
        rw [lintegral_add_left b1, lintegral_add_left b2, flow]
    _ = ∫⁻ o, ∫⁻ x, ENNReal.ofReal (w x) * f x ∂m ∂ν := by
        refine lintegral_congr fun o => lintegral_congr fun x => ?_
        simp only [q]
        rw [← add_mul, ← ENNReal.ofReal_add (le_min (h0 _) (h0 _)) (sub_nonneg.2 (min_le_left _ _)), add_sub_cancel]
    _ = ∫⁻ y, f y ∂target m w := by
        rw [lintegral_const, measure_univ, mul_one]
        unfold target
        rw [lintegral_withDensity_eq_lintegral_mul _ hW hf]
        rfl

/-! ## Sources of random numbers -/

/-- choosing one of several maps which preserve a measure preserves it -/
theorem mix {α : Type*} [MeasurableSpace α] (μ : Measure α) [SFinite μ] (ν : Measure Ω) [IsProbabilityMeasure ν]
    (S : Ω → α → α) (hS : Measurable fun p : Ω × α => S p.1 p.2) (h : ∀ o, MeasurePreserving (S o) μ μ) :
    MeasurePreserving (fun p : Ω × α => S p.1 p.2) (ν.prod μ) μ :=
  measurePreserving_snd.comp
    ((MeasurePreserving.id ν).skew_product (g := S) hS (Filter.Eventually.of_forall fun o => (h o).map_eq))

/-- the same with a choice made by a source of random numbers -/
theorem mix_source (μ : Measure E) [SFinite μ] (ν : Measure Ω) [IsProbabilityMeasure ν] (P : Measure σ) [SFinite P]
    (f : σ → Ω × σ) (hf : MeasurePreserving f P (ν.prod P)) (S : Ω → E × σ → E × σ)
    (hS : Measurable fun p : Ω × E × σ => S p.1 p.2) (h : ∀ o, MeasurePreserving (S o) (μ.prod P) (μ.prod P)) :
    MeasurePreserving (fun y : E × σ => S (f y.2).1 (y.1, (f y.2).2)) (μ.prod P) (μ.prod P) := by
  have h1 : MeasurePreserving (Prod.map id f) (μ.prod P) (μ.prod (ν.prod P)) := (MeasurePreserving.id μ).prod hf
  have h2 : MeasurePreserving (fun p : E × Ω × σ => (p.2.1, p.1, p.2.2)) (μ.prod (ν.prod P)) (ν.prod (μ.prod P)) := by
    have a := (measurePreserving_prodAssoc μ ν P).symm
    have b := (Measure.measurePreserving_swap (μ := μ) (ν := ν)).prod (MeasurePreserving.id P)
    have c := measurePreserving_prodAssoc ν μ P
    exact c.comp (b.comp a)
  exact (mix (μ.prod P) ν S hS h).comp (h2.comp h1)

/-- a proposal and its acceptance, with a source of random numbers -/
theorem move_source (m : Measure E) [SFinite m] (ν : Measure Ω) [IsProbabilityMeasure ν] (P : Measure σ) [SFinite P]
    (w : E → ℝ) (hw : Measurable w) (h0 : ∀ x, 0 ≤ w x) (T : Ω → E → E) (hT : Measurable fun p : Ω × E => T p.1 p.2)
    (hm : ∀ o, MeasurePreserving (T o) m m) (ι : Ω → Ω) (hι : MeasurePreserving ι ν ν)
    (hinv : ∀ o x, T (ι o) (T o x) = x) (g : σ → (Ω × ℝ) × σ) (hg : MeasurePreserving g P ((ν.prod unit).prod P)) :
    MeasurePreserving (fun y : E × σ => (move w T y.1 (g y.2).1.1 (g y.2).1.2, (g y.2).2)) ((target m w).prod P)
      ((target m w).prod P) := by
  have : SFinite (target m w) := by unfold target; infer_instance
  have h1 : MeasurePreserving (Prod.map id g) ((target m w).prod P) ((target m w).prod ((ν.prod unit).prod P)) :=
    (MeasurePreserving.id _).prod hg
  have h2 := (measurePreserving_prodAssoc (target m w) (ν.prod unit) P).symm
  have h3 := (metropolis m ν w hw h0 T hT hm ι hι hinv).prod (MeasurePreserving.id P)
  exact h3.comp (h2.comp h1)

/-- a proposal without choice -/
theorem flip_source (m : Measure E) [SFinite m] (P : Measure σ) [SFinite P]
    (w : E → ℝ) (hw : Measurable w) (h0 : ∀ x, 0 ≤ w x) (T : E → E) (hm : MeasurePreserving T m m)
    (hinv : ∀ x, T (T x) = x) (g : σ → ℝ × σ) (hg : MeasurePreserving g P (unit.prod P)) :
    MeasurePreserving (fun y : E × σ => (if (g y.2).1 < w (T y.1) / w y.1 then T y.1 else y.1, (g y.2).2))
      ((target m w).prod P) ((target m w).prod P) := by
  have h1 : MeasurePreserving (Prod.mk ()) unit ((Measure.dirac ()).prod unit) :=
    ⟨measurable_prodMk_left, (Measure.dirac_prod ()).symm⟩
  exact move_source m (Measure.dirac ()) P w hw h0 (fun _ => T) (hm.measurable.comp measurable_snd) (fun _ => hm) id
    (MeasurePreserving.id _) (fun _ => hinv) (fun r => (((), (g r).1), (g r).2))
    ((h1.prod (MeasurePreserving.id P)).comp hg)

/-- two uniform numbers -/
theorem twice (P : Measure σ) [SFinite P] (g : σ → ℝ × σ) (hg : MeasurePreserving g P (unit.prod P)) :
    MeasurePreserving (fun r => (((g r).1, (g (g r).2).1), (g (g r).2).2)) P ((unit.prod unit).prod P) :=
  (measurePreserving_prodAssoc unit unit P).symm.comp (((MeasurePreserving.id unit).prod hg).comp hg)

/-- uniform numbers are symmetric -/
theorem unit_reverse : MeasurePreserving (fun u : ℝ => 1 - u) unit unit := by
  have h := (Measure.measurePreserving_sub_left volume (1 : ℝ)).restrict_preimage
    (s := Set.Ioc 0 1) measurableSet_Ioc
  refine ⟨h.measurable, ?_⟩
  have e : unit = volume.restrict ((fun u : ℝ => 1 - u) ⁻¹' Set.Ioc 0 1) := by
    unfold unit
    have : (fun u : ℝ => 1 - u) ⁻¹' Set.Ioc 0 1 = Set.Ico 0 1 := by
      ext u
      simp only [Set.mem_preimage, Set.mem_Ioc, Set.mem_Ico]
      constructor <;> rintro ⟨h1, h2⟩ <;> constructor <;> linarith
    rw [this]
    exact Measure.restrict_congr_set Ico_ae_eq_Ioc.symm
  conv_lhs => rw [e]
  exact h.map_eq

end Verif.Metropolis
