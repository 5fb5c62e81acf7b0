import Verif.Lemmas.Rigid

/-!
# Averages of functions of the configuration

If only constants are linked to themselves by a step, the averages of every integrable function of
the configuration settle at its mean value.
-/

set_option autoImplicit false

open MeasureTheory Filter Topology Verif.MeanErgodic
open scoped ENNReal

namespace Verif.Links

variable {E σ A : Type*} [MeasurableSpace E] [MeasurableSpace σ] [AddCommGroup A] [Fintype A]
  {μ : Measure E} [IsFiniteMeasure μ] {P : Measure σ} [IsProbabilityMeasure P] {δ : A → E → E}

/-- mean over the changes which do not matter -/
noncomputable def smear (δ : A → E → E) (h : E → ℝ) (x : E) : ℝ :=
  (Fintype.card A : ℝ)⁻¹ * ∑ a, h (δ a x)

omit [MeasurableSpace E] [AddCommGroup A] in
theorem smear_eq [Nonempty A] {h : E → ℝ} (hh : ∀ a x, h (δ a x) = h x) : smear δ h = h := by
  funext x
  unfold smear
  simp only [hh, Finset.sum_const, Finset.card_univ, nsmul_eq_mul]
  have : (Fintype.card A : ℝ) ≠ 0 := by exact_mod_cast Fintype.card_ne_zero
  field_simp

theorem smear_nice (hδ : ∀ a, Measurable (δ a)) (hadd : ∀ a b x, δ a (δ b x) = δ (a + b) x)
    {h : E → ℝ} (hm : Measurable h) {C : ℝ} (hC : ∀ x, |h x| ≤ C) : Nice δ (smear δ h) := by
  refine ⟨?_, ⟨C, fun x => ?_⟩, fun b x => ?_⟩
  · unfold smear
    exact (Finset.measurable_sum _ fun a _ => hm.comp (hδ a)).const_mul _
  · unfold smear
    have hc : (0 : ℝ) < Fintype.card A := by exact_mod_cast Fintype.card_pos
    rw [abs_mul, abs_of_pos (inv_pos.2 hc), inv_mul_le_iff₀ hc]
    refine (Finset.abs_sum_le_sum_abs _ _).trans ?_
    refine (Finset.sum_le_sum fun a _ => hC (δ a x)).trans ?_
    simp
  · unfold smear
    congr 1
    simp only [hadd]
    exact Fintype.sum_equiv (Equiv.addRight b) _ _ fun a => rfl

/-- Functions of the configuration do not correlate with invariant functions. -/
theorem uncorrelated (hδ : ∀ a, MeasurePreserving (δ a) μ μ)
    (hadd : ∀ a b x, δ a (δ b x) = δ (a + b) x) {T' T'' : E × σ → E × σ} (s' : Step μ P δ T')
    (s'' : Step μ P δ T'')
    (hconst : ∀ h, Nice δ h → Link μ P (T'' ∘ T') h h → ∃ c, h =ᵐ[μ] fun _ => c)
    {f : E → ℝ} (hf : Nice δ f) {g : E × σ → ℝ} (hg : Measurable g) {C : ℝ}
    (hC : ∀ y, |g y| ≤ C) (hinv : g ∘ (T'' ∘ T') =ᵐ[μ.prod P] g) :
    μ.real Set.univ * ∫ y, f (T' y).1 * g y ∂(μ.prod P) =
      (∫ x, f x ∂μ) * ∫ y, g y ∂(μ.prod P) := by
  obtain ⟨B, hB⟩ := hf.bdd
  have sT := s'.comp s''
  set h : E → ℝ := fun x => ∫ r, g (x, r) ∂P with hh
  have hm : Measurable h := hg.stronglyMeasurable.integral_prod_right'.measurable
  have hb : ∀ x, |h x| ≤ C := fun x => by
    have h1 := norm_integral_le_of_norm_le_const (μ := P) (f := fun r => g (x, r)) (C := C)
      (.of_forall fun r => hC _)
    simpa using h1
  have bd : ∀ {F : E → ℝ}, Measurable F → ∀ D, (∀ x, |F x| ≤ D) → Integrable F μ :=
    fun hF D hD => Integrable.of_bound hF.aestronglyMeasurable D (.of_forall hD)
  have bdY : ∀ {F : E × σ → ℝ}, Measurable F → ∀ D, (∀ x, |F x| ≤ D) →
      Integrable F (μ.prod P) :=
    fun hF D hD => Integrable.of_bound hF.aestronglyMeasurable D (.of_forall hD)
  have hl : Link μ P (T'' ∘ T') h h := link_of_invariant sT.mp sT.fair hg hC hinv
  have hH := smear_nice (fun a => (hδ a).measurable) hadd hm hb
  have hlH : Link μ P (T'' ∘ T') (smear δ h) (smear δ h) := by
    have each : ∀ a, ∀ᵐ y ∂(μ.prod P), h (δ a ((T'' ∘ T') y).1) = h (δ a y.1) := by
      intro a
      have mp := (hδ a).prod (MeasurePreserving.id P)
      have := mp.quasiMeasurePreserving.ae hl
      filter_upwards [this] with y hy
      have e := sT.comm a y.1 y.2
      rw [show (Prod.map (δ a) id y : E × σ) = (δ a y.1, y.2) from rfl, e] at hy
      exact hy
    have := ae_all_iff.2 each
    filter_upwards [this] with y hy
    unfold smear
    simp only [hy]
  obtain ⟨c, hc⟩ := hconst _ hH hlH
  -- the constant
  have hcomp : ∀ (k : E → ℝ), Measurable k → (∃ D, ∀ x, |k x| ≤ D) →
      ∀ φ : E → ℝ, Measurable φ → (∃ D, ∀ x, |φ x| ≤ D) → (∀ a x, φ (δ a x) = φ x) →
      ∫ x, φ x * k x ∂μ = ∫ x, φ x * smear δ k x ∂μ := by
    rintro k hk ⟨D, hD⟩ φ hφ ⟨D', hD'⟩ hinvφ
    have each : ∀ a, ∫ x, φ x * k (δ a x) ∂μ = ∫ x, φ x * k x ∂μ := by
      intro a
      have : ∀ x, φ x * k (δ a x) = (fun z => φ z * k z) (δ a x) := fun x => by
        simp only [hinvφ]
      simp only [this]
      have e := integral_map (μ := μ) (hδ a).measurable.aemeasurable
        (f := fun z => φ z * k z) (hφ.mul hk).aestronglyMeasurable
      rw [(hδ a).map_eq] at e
      exact e.symm
    have int : ∀ a, Integrable (fun x => φ x * k (δ a x)) μ := fun a =>
      bd (hφ.mul (hk.comp (hδ a).measurable)) (D' * D) fun x => by
        rw [abs_mul]
        exact mul_le_mul (hD' _) (hD _) (abs_nonneg _) ((abs_nonneg _).trans (hD' x))
    have e : ∀ x, φ x * smear δ k x = (Fintype.card A : ℝ)⁻¹ * ∑ a, φ x * k (δ a x) := by
      intro x
      unfold smear
      rw [← Finset.mul_sum]
      ring
    simp only [e]
    rw [integral_const_mul, integral_finsetSum _ fun a _ => int a]
    simp only [each, Finset.sum_const, Finset.card_univ, nsmul_eq_mul]
    have : (Fintype.card A : ℝ) ≠ 0 := by exact_mod_cast Fintype.card_ne_zero
    field_simp
  have hgi : Integrable g (μ.prod P) := bdY hg C hC
  have hcg : μ.real Set.univ * c = ∫ y, g y ∂(μ.prod P) := by
    have a := hcomp h hm ⟨C, hb⟩ (fun _ => 1) measurable_const ⟨1, fun _ => by simp⟩
      fun _ _ => rfl
    simp only [one_mul] at a
    rw [integral_prod _ hgi, show (∫ x, ∫ r, g (x, r) ∂P ∂μ) = ∫ x, h x ∂μ from rfl, a,
      integral_congr_ae hc, integral_const, smul_eq_mul]
  -- move to the time of the measurement
  set k : E → ℝ := after P T'' h with hk
  have hkm : Measurable k := after_measurable s''.mp.measurable hm
  have hkb : ∀ x, |k x| ≤ C := after_bounded hb
  have e1 : ∫ y, f (T' y).1 * g y ∂(μ.prod P) = ∫ x, f x * k x ∂μ := by
    have a1 : ∫ y, f (T' y).1 * g y ∂(μ.prod P) =
        ∫ y, f (T' y).1 * g (T'' (T' y)) ∂(μ.prod P) := by
      refine integral_congr_ae ?_
      filter_upwards [hinv] with y hy
      rw [← hy]
      rfl
    have mF : Measurable fun y : E × σ => f y.1 * g (T'' y) :=
      (hf.meas.comp measurable_fst).mul (hg.comp s''.mp.measurable)
    have a2 : ∫ y, f (T' y).1 * g (T'' (T' y)) ∂(μ.prod P) =
        ∫ y, f y.1 * g (T'' y) ∂(μ.prod P) := by
      have e := integral_map (μ := μ.prod P) s'.mp.measurable.aemeasurable
        (f := fun y : E × σ => f y.1 * g (T'' y)) mF.aestronglyMeasurable
      rw [s'.mp.map_eq] at e
      exact e.symm
    have mi : Integrable (fun y : E × σ => f y.1 * g (T'' y)) (μ.prod P) :=
      bdY mF (B * C) fun y => by
        rw [abs_mul]
        exact mul_le_mul (hB _) (hC _) (abs_nonneg _) ((abs_nonneg _).trans (hB y.1))
    rw [a1, a2, integral_prod _ mi]
    refine integral_congr_ae (.of_forall fun x => ?_)
    simp only
    rw [integral_const_mul, s''.fair.integral s''.mp.measurable hg hC x]
    rfl
  have e2 : smear δ k = after P T'' (smear δ h) := by
    funext x
    have i : ∀ a, Integrable (fun r => h (δ a (T'' (x, r)).1)) P := fun a =>
      Integrable.of_bound ((hm.comp (hδ a).measurable).comp (measurable_fst.comp
        (s''.mp.measurable.comp measurable_prodMk_left))).aestronglyMeasurable C
        (.of_forall fun r => hb _)
    have : ∀ a, k (δ a x) = ∫ r, h (δ a (T'' (x, r)).1) ∂P := fun a => by
      rw [hk]
      unfold after
      simp only [s''.comm]
    unfold smear
    simp only [this]
    unfold after
    rw [integral_const_mul, integral_finsetSum _ fun a _ => i a]
  have e3 : after P T'' (smear δ h) =ᵐ[μ] fun _ => c := by
    have h1 : ∀ᵐ y ∂(μ.prod P), smear δ h y.1 = c := Measure.quasiMeasurePreserving_fst.ae hc
    have h2 := Measure.ae_ae_of_ae_prod (s''.mp.quasiMeasurePreserving.ae h1)
    filter_upwards [h2] with x hx
    unfold after
    have : (fun r => smear δ h (T'' (x, r)).1) =ᵐ[P] fun _ => c := hx
    rw [integral_congr_ae this, integral_const, probReal_univ, one_smul]
  have e4 : ∫ x, f x * k x ∂μ = (∫ x, f x ∂μ) * c := by
    rw [hcomp k hkm ⟨C, hkb⟩ f hf.meas hf.bdd hf.inv, e2, ← integral_mul_const]
    refine integral_congr_ae ?_
    filter_upwards [e3] with x hx
    rw [hx]
  rw [e1, e4, ← hcg]
  ring

/-- The averages of a function of the configuration settle at its mean value. -/
theorem settles (hδ : ∀ a, MeasurePreserving (δ a) μ μ)
    (hadd : ∀ a b x, δ a (δ b x) = δ (a + b) x) {T' T'' : E × σ → E × σ} (s' : Step μ P δ T')
    (s'' : Step μ P δ T'')
    (hconst : ∀ h, Nice δ h → Link μ P (T'' ∘ T') h h → ∃ c, h =ᵐ[μ] fun _ => c)
    (hμ : μ ≠ 0) {f : E → ℝ} (hf : Measurable f) (hi : Integrable f μ)
    (hfδ : ∀ a x, f (δ a x) = f x) :
    Settles (μ.prod P) (T'' ∘ T') (fun y => f (T' y).1) ((∫ x, f x ∂μ) / μ.real Set.univ) := by
  have sT := s'.comp s''
  have hμ' : μ.real Set.univ ≠ 0 := by
    rw [Measure.real, ENNReal.toReal_ne_zero]
    exact ⟨fun h => hμ (Measure.measure_univ_eq_zero.1 h), measure_ne_top _ _⟩
  have hF : Measurable fun y => f (T' y).1 := hf.comp (measurable_fst.comp s'.mp.measurable)
  have hiF : Integrable (fun y => f (T' y).1) (μ.prod P) :=
    s'.mp.integrable_comp_of_integrable (hi.comp_fst P)
  refine settles_clip sT.mp hF hiF
    (cM := fun M => (∫ x, clip M (f x) ∂μ) / μ.real Set.univ) (fun M => ?_) ?_
  · have hn : Nice δ fun x => clip M (f x) :=
      ⟨(measurable_clip M).comp hf, ⟨M, fun x => abs_clip_le M _⟩, fun a x => by rw [hfδ]⟩
    refine settles_bounded sT.mp ((measurable_clip M).comp hF) (C := M)
      (fun y => abs_clip_le M _) ?_
    rintro g hg ⟨D, hD⟩ hinv
    have := uncorrelated hδ hadd s' s'' hconst hn hg hD hinv
    rw [div_mul_eq_mul_div, eq_div_iff hμ', ← this, mul_comm]
    rfl
  · refine Tendsto.div_const ?_ _
    exact tendsto_integral_of_dominated_convergence (fun x => |f x|)
      (fun M => ((measurable_clip M).comp hf).aestronglyMeasurable) hi.abs
      (fun M => .of_forall fun x => abs_clip_le_abs M _) (.of_forall fun x => tendsto_clip _)

/-- It is enough that the function is integrable. -/
theorem settles_integrable (hδ : ∀ a, MeasurePreserving (δ a) μ μ)
    (hadd : ∀ a b x, δ a (δ b x) = δ (a + b) x) {T' T'' : E × σ → E × σ} (s' : Step μ P δ T')
    (s'' : Step μ P δ T'')
    (hconst : ∀ h, Nice δ h → Link μ P (T'' ∘ T') h h → ∃ c, h =ᵐ[μ] fun _ => c)
    (hμ : μ ≠ 0) {f : E → ℝ} (hi : Integrable f μ) (hfδ : ∀ a x, f (δ a x) = f x) :
    Settles (μ.prod P) (T'' ∘ T') (fun y => f (T' y).1) ((∫ x, f x ∂μ) / μ.real Set.univ) := by
  set f' : E → ℝ := smear δ (hi.1.mk f) with hf'
  have hm : Measurable f' := by
    rw [hf']
    unfold smear
    exact (Finset.measurable_sum _ fun a _ =>
      hi.1.stronglyMeasurable_mk.measurable.comp (hδ a).measurable).const_mul _
  have he : f' =ᵐ[μ] f := by
    have each : ∀ a, ∀ᵐ x ∂μ, f (δ a x) = hi.1.mk f (δ a x) := fun a =>
      (hδ a).quasiMeasurePreserving.ae hi.1.ae_eq_mk
    filter_upwards [ae_all_iff.2 each] with x hx
    rw [hf', ← congrFun (smear_eq (δ := δ) hfδ) x]
    unfold smear
    simp only [hx]
  have hinv : ∀ a x, f' (δ a x) = f' x := fun b x => by
    rw [hf']
    unfold smear
    congr 1
    simp only [hadd]
    exact Fintype.sum_equiv (Equiv.addRight b) _ _ fun a => rfl
  have h := settles hδ hadd s' s'' hconst hμ hm (hi.congr he.symm) hinv
  rw [integral_congr_ae he] at h
  refine h.congr (s'.comp s'').mp ?_
  exact s'.mp.quasiMeasurePreserving.ae (Measure.quasiMeasurePreserving_fst.ae he)

end Verif.Links
