import Mathlib.Analysis.InnerProductSpace.MeanErgodic
import Mathlib.MeasureTheory.Function.L2Space
import Mathlib.MeasureTheory.Function.ConvergenceInMeasure
import Mathlib.MeasureTheory.Function.LpSeminorm.CompareExp
import Mathlib.MeasureTheory.Integral.DominatedConvergence
import Mathlib.MeasureTheory.Measure.Decomposition.RadonNikodym

/-!
# Averages along the orbits of a measure preserving map

For a map `T` which preserves a finite measure, the averages of a function `F` over the first `n`
points of an orbit settle, in the mean, if `F` does not correlate with any bounded invariant
function.  This is the mean ergodic theorem, without the assumption that `T` is ergodic: only the
functions which are averaged need to be uncorrelated with the invariant functions.  In the
application `T` is one iteration of the simulation, which acts on the configuration and on the
state of the random number generator together; there may be invariant functions of the state of the
generator, but they do not correlate with functions of the configuration.
-/

set_option autoImplicit false

open MeasureTheory Filter Topology
open scoped ENNReal

namespace Verif.MeanErgodic

variable {Y : Type*} [MeasurableSpace Y] {μ : Measure Y}

/-- The average of `F` over the first `n` points of the orbit of `y`. -/
noncomputable def avg (T : Y → Y) (F : Y → ℝ) (n : ℕ) (y : Y) : ℝ :=
  (n : ℝ)⁻¹ * ∑ k ∈ Finset.range n, F (T^[k] y)

/-- The averages of `F` approach the constant `c` in the mean. -/
def Settles (μ : Measure Y) (T : Y → Y) (F : Y → ℝ) (c : ℝ) : Prop :=
  Tendsto (fun n => eLpNorm (fun y => avg T F n y - c) 1 μ) atTop (𝓝 0)

/-- A function cut off at `± M`. -/
noncomputable def clip (M : ℕ) (v : ℝ) : ℝ := max (-(M : ℝ)) (min v M)

theorem measurable_clip (M : ℕ) : Measurable (clip M) :=
  measurable_const.max (measurable_id.min measurable_const)

theorem abs_clip_le (M : ℕ) (v : ℝ) : |clip M v| ≤ M := by
  have hM : (0 : ℝ) ≤ M := Nat.cast_nonneg M
  rw [abs_le]
  exact ⟨le_max_left _ _, max_le (by linarith) (min_le_right _ _)⟩

theorem abs_clip_le_abs (M : ℕ) (v : ℝ) : |clip M v| ≤ |v| := by
  have hM : (0 : ℝ) ≤ M := Nat.cast_nonneg M
  unfold clip
  rcases le_total v M with h | h
  · rw [min_eq_left h]
    rcases le_total v (-M) with h' | h'
    · rw [max_eq_left h', abs_of_nonpos (by linarith), abs_of_nonpos (by linarith)]; linarith
    · rw [max_eq_right h']
  · rw [min_eq_right h, max_eq_right (by linarith), abs_of_nonneg hM, abs_of_nonneg (by linarith)]
    exact h

theorem clip_eq {M : ℕ} {v : ℝ} (h : |v| ≤ M) : clip M v = v := by
  rw [abs_le] at h
  unfold clip
  rw [min_eq_left h.2, max_eq_right h.1]

theorem tendsto_clip (v : ℝ) : Tendsto (fun M => clip M v) atTop (𝓝 v) := by
  obtain ⟨m, hm⟩ := exists_nat_ge |v|
  refine tendsto_const_nhds.congr' ?_
  filter_upwards [eventually_ge_atTop m] with M hM
  exact (clip_eq (hm.trans (by exact_mod_cast hM))).symm

theorem avg_measurable {T : Y → Y} (hT : Measurable T) {F : Y → ℝ} (hF : Measurable F) (n : ℕ) :
    Measurable (avg T F n) := by
  unfold avg
  exact (Finset.measurable_sum _ fun k _ => hF.comp (hT.iterate k)).const_mul _

variable [IsFiniteMeasure μ]

set_option backward.isDefEq.respectTransparency false in
/-- The mean ergodic theorem for square integrable functions. -/
theorem settles_sq {T : Y → Y} (hT : MeasurePreserving T μ μ) {F : Y → ℝ} (hF : MemLp F 2 μ)
    {c : ℝ}
    (h : ∀ g : Y → ℝ, MemLp g 2 μ → g ∘ T =ᵐ[μ] g → ∫ y, F y * g y ∂μ = c * ∫ y, g y ∂μ) :
    Settles μ T F c := by
  have hU := Lp.compMeasurePreserving_iterate (E := ℝ) (p := 2) hT
  set U : Lp ℝ 2 μ →L[ℝ] Lp ℝ 2 μ :=
    (Lp.compMeasurePreservingₗᵢ ℝ T hT).toContinuousLinearMap with hUdef
  have hUn : ‖U‖ ≤ 1 := LinearIsometry.norm_toContinuousLinearMap_le _
  have hit : ∀ (k : ℕ) (f : Lp ℝ 2 μ), (U^[k] f : Y → ℝ) =ᵐ[μ] f ∘ T^[k] := by
    intro k f
    have e : U^[k] f = Lp.compMeasurePreserving T^[k] (hT.iterate k) f := by
      rw [← hU k]; rfl
    rw [e]
    exact Lp.coeFn_compMeasurePreserving f (hT.iterate k)
  have hlim := U.tendsto_birkhoffAverage_orthogonalProjection hUn (hF.toLp F)
  set cc : Lp ℝ 2 μ := (memLp_const c).toLp (fun _ : Y => c) with hcc
  have hcfix : U cc = cc := by
    apply Lp.ext
    have h1 := hit 1 cc
    simp only [Function.iterate_one] at h1
    have h2 : (cc : Y → ℝ) =ᵐ[μ] fun _ => c := (memLp_const c).coeFn_toLp
    have h3 : (cc : Y → ℝ) ∘ T =ᵐ[μ] fun _ => c :=
      hT.quasiMeasurePreserving.ae_eq_comp h2
    exact h1.trans (h3.trans h2.symm)
  have hproj : (((U.eqLocus (1 : Lp ℝ 2 μ →L[ℝ] Lp ℝ 2 μ)).orthogonalProjectionOnto
      (hF.toLp F) : U.eqLocus (1 : Lp ℝ 2 μ →L[ℝ] Lp ℝ 2 μ)) : Lp ℝ 2 μ) = cc := by
    refine Submodule.eq_starProjection_of_mem_of_inner_eq_zero 
      (K := U.eqLocus (1 : Lp ℝ 2 μ →L[ℝ] Lp ℝ 2 μ)) (u := hF.toLp F) hcfix ?_
    intro w hw
    have hw' : U w = w := hw
    have hg : (w : Y → ℝ) ∘ T =ᵐ[μ] w := by
      have h1 := hit 1 w
      simp only [Function.iterate_one] at h1
      rw [hw'] at h1
      exact h1.symm
    have key := h w (Lp.memLp w) hg
    have hFi : Integrable (fun y => F y * (w : Y → ℝ) y) μ :=
      hF.integrable_mul (Lp.memLp w)
    have hwi : Integrable (w : Y → ℝ) μ := (Lp.memLp w).integrable (by norm_num)
    rw [L2.inner_def]
    have e : (fun y => inner ℝ ((hF.toLp F - cc : Lp ℝ 2 μ) y) ((w : Y → ℝ) y)) =ᵐ[μ]
        fun y => F y * (w : Y → ℝ) y - c * (w : Y → ℝ) y := by
      filter_upwards [Lp.coeFn_sub (hF.toLp F) cc, hF.coeFn_toLp,
        (memLp_const (μ := μ) (p := 2) c).coeFn_toLp] with y h1 h2 h3
      rw [h1, Pi.sub_apply, h2, h3]
      show (w : Y → ℝ) y * (F y - c) = _
      ring
    rw [integral_congr_ae e, integral_sub hFi (hwi.const_mul c), key, integral_const_mul, sub_self]
  rw [hproj] at hlim
  have hnorm := tendsto_iff_norm_sub_tendsto_zero.1 hlim
  have hae : ∀ n, ((birkhoffAverage ℝ U _root_.id n (hF.toLp F) - cc : Lp ℝ 2 μ) : Y → ℝ)
      =ᵐ[μ] fun y => avg T F n y - c := by
    intro n
    have hsum : ∀ m : ℕ, ((∑ k ∈ Finset.range m, U^[k] (hF.toLp F) : Lp ℝ 2 μ) : Y → ℝ) =ᵐ[μ]
        fun y => ∑ k ∈ Finset.range m, F (T^[k] y) := by
      intro m
      induction m with
      | zero =>
        simp only [Finset.range_zero, Finset.sum_empty]
        exact Lp.coeFn_zero ℝ 2 μ
      | succ m ih =>
        have hk : (U^[m] (hF.toLp F) : Y → ℝ) =ᵐ[μ] fun y => F (T^[m] y) :=
          (hit m _).trans ((hT.iterate m).quasiMeasurePreserving.ae_eq_comp hF.coeFn_toLp)
        rw [Finset.sum_range_succ]
        filter_upwards [Lp.coeFn_add (∑ k ∈ Finset.range m, U^[k] (hF.toLp F)) (U^[m] (hF.toLp F)),
          ih, hk] with y h1 h2 h3
        rw [h1, Pi.add_apply, h2, h3, Finset.sum_range_succ]
    have eb : birkhoffAverage ℝ U _root_.id n (hF.toLp F) =
        (n : ℝ)⁻¹ • ∑ k ∈ Finset.range n, U^[k] (hF.toLp F) := rfl
    rw [eb]
    filter_upwards [Lp.coeFn_sub ((n : ℝ)⁻¹ • ∑ k ∈ Finset.range n, U^[k] (hF.toLp F)) cc,
      Lp.coeFn_smul ((n : ℝ)⁻¹) (∑ k ∈ Finset.range n, U^[k] (hF.toLp F)), hsum n,
      (memLp_const (μ := μ) (p := 2) c).coeFn_toLp] with y h1 h2 h3 h4
    rw [h1, Pi.sub_apply, h2, Pi.smul_apply, h3, h4]
    rfl
  have h2 : Tendsto (fun n => eLpNorm (fun y => avg T F n y - c) 2 μ) atTop (𝓝 0) := by
    have e : ∀ n, eLpNorm (fun y => avg T F n y - c) 2 μ =
        ENNReal.ofReal ‖birkhoffAverage ℝ U _root_.id n (hF.toLp F) - cc‖ := by
      intro n
      rw [Lp.norm_def, ENNReal.ofReal_toReal (Lp.eLpNorm_ne_top _)]
      exact (eLpNorm_congr_ae (hae n)).symm
    simp only [e]
    have := ENNReal.tendsto_ofReal hnorm
    rwa [ENNReal.ofReal_zero] at this
  have hb : ∀ n, eLpNorm (fun y => avg T F n y - c) 1 μ ≤
      eLpNorm (fun y => avg T F n y - c) 2 μ *
        μ Set.univ ^ (1 / (1 : ℝ≥0∞).toReal - 1 / (2 : ℝ≥0∞).toReal) := by
    intro n
    refine eLpNorm_le_eLpNorm_mul_rpow_measure_univ (by norm_num) ?_
    exact ((Lp.aestronglyMeasurable _).congr (hae n))
  refine tendsto_of_tendsto_of_tendsto_of_le_of_le tendsto_const_nhds ?_
    (fun n => zero_le) hb
  have hfin : μ Set.univ ^ (1 / (1 : ℝ≥0∞).toReal - 1 / (2 : ℝ≥0∞).toReal) ≠ ∞ :=
    ENNReal.rpow_ne_top_of_nonneg (by norm_num) (measure_ne_top μ _)
  have := ENNReal.Tendsto.mul_const h2 (Or.inr hfin)
  rwa [zero_mul] at this

/-- The same with bounded invariant functions. -/
theorem settles_bounded {T : Y → Y} (hT : MeasurePreserving T μ μ) {F : Y → ℝ}
    (hF : Measurable F) {C : ℝ} (hb : ∀ y, |F y| ≤ C) {c : ℝ}
    (h : ∀ g : Y → ℝ, Measurable g → (∃ M : ℕ, ∀ y, |g y| ≤ M) → g ∘ T =ᵐ[μ] g →
      ∫ y, F y * g y ∂μ = c * ∫ y, g y ∂μ) :
    Settles μ T F c := by
  have hF2 : MemLp F 2 μ := MemLp.of_bound hF.aestronglyMeasurable C (.of_forall hb)
  refine settles_sq hT hF2 fun g hg hinv => ?_
  obtain ⟨g', hg'm, hgg'⟩ := hg.1
  have hgi : Integrable g μ := hg.integrable (by norm_num)
  have hg'm := hg'm.measurable
  have hg'i : Integrable g' μ := hgi.congr hgg'
  have hinv' : g' ∘ T =ᵐ[μ] g' :=
    (hT.quasiMeasurePreserving.ae_eq_comp hgg').symm.trans (hinv.trans hgg')
  have key : ∀ M : ℕ, ∫ y, F y * clip M (g' y) ∂μ = c * ∫ y, clip M (g' y) ∂μ := fun M =>
    h (fun y => clip M (g' y)) ((measurable_clip M).comp hg'm) ⟨M, fun y => abs_clip_le M _⟩
      (hinv'.mono fun y hy => congrArg (clip M) hy)
  have h1 : Tendsto (fun M : ℕ => ∫ y, F y * clip M (g' y) ∂μ) atTop
      (𝓝 (∫ y, F y * g' y ∂μ)) := by
    refine tendsto_integral_of_dominated_convergence (fun y => C * |g' y|)
      (fun M => (hF.mul ((measurable_clip M).comp hg'm)).aestronglyMeasurable)
      (hg'i.abs.const_mul C) (fun M => .of_forall fun y => ?_)
      (.of_forall fun y => (tendsto_clip _).const_mul _)
    rw [Real.norm_eq_abs, abs_mul]
    have hC : 0 ≤ C := (abs_nonneg _).trans (hb y)
    exact mul_le_mul (hb y) (abs_clip_le_abs M _) (abs_nonneg _) hC
  have h2 : Tendsto (fun M : ℕ => c * ∫ y, clip M (g' y) ∂μ) atTop (𝓝 (c * ∫ y, g' y ∂μ)) := by
    refine Tendsto.const_mul c ?_
    refine tendsto_integral_of_dominated_convergence (fun y => |g' y|)
      (fun M => ((measurable_clip M).comp hg'm).aestronglyMeasurable)
      hg'i.abs (fun M => .of_forall fun y => ?_) (.of_forall fun y => tendsto_clip _)
    exact abs_clip_le_abs M _
  have := tendsto_nhds_unique (h1.congr key) h2
  rw [integral_congr_ae (hgg'.mono fun y hy => congrArg (F y * ·) hy : (fun y => F y * g y) =ᵐ[μ]
    fun y => F y * g' y), integral_congr_ae hgg', this]

omit [IsFiniteMeasure μ] [MeasurableSpace Y] in
theorem avg_sub (T : Y → Y) (F G : Y → ℝ) (n : ℕ) (y : Y) :
    avg T (fun y => F y - G y) n y = avg T F n y - avg T G n y := by
  unfold avg
  rw [Finset.sum_sub_distrib, mul_sub]

omit [IsFiniteMeasure μ] in
/-- The averages of a function are not larger, in the mean, than the function. -/
theorem eLpNorm_avg_le {T : Y → Y} (hT : MeasurePreserving T μ μ) {F : Y → ℝ}
    (hF : Measurable F) (n : ℕ) : eLpNorm (avg T F n) 1 μ ≤ eLpNorm F 1 μ := by
  have e : avg T F n = (n : ℝ)⁻¹ • ∑ k ∈ Finset.range n, F ∘ T^[k] := by
    funext y
    simp [avg]
  rw [e, eLpNorm_const_smul]
  have h1 : eLpNorm (∑ k ∈ Finset.range n, F ∘ T^[k]) 1 μ ≤ n * eLpNorm F 1 μ := by
    refine (eLpNorm_sum_le (fun k _ => (hF.comp (hT.measurable.iterate k)).aestronglyMeasurable)
      le_rfl).trans ?_
    have : ∀ k ∈ Finset.range n, eLpNorm (F ∘ T^[k]) 1 μ = eLpNorm F 1 μ := fun k _ =>
      eLpNorm_comp_measurePreserving hF.aestronglyMeasurable (hT.iterate k)
    rw [Finset.sum_congr rfl this]
    simp
  rcases Nat.eq_zero_or_pos n with rfl | hn
  · simp
  refine (mul_le_mul_right h1 _).trans ?_
  rw [← mul_assoc]
  have hn' : (n : ℝ≥0∞) ≠ 0 := by exact_mod_cast hn.ne'
  have e2 : ‖(n : ℝ)⁻¹‖ₑ * n = 1 := by
    rw [Real.enorm_eq_ofReal (by positivity), ENNReal.ofReal_inv_of_pos (by exact_mod_cast hn),
      ENNReal.ofReal_natCast, ENNReal.inv_mul_cancel hn' (ENNReal.natCast_ne_top n)]
  rw [e2, one_mul]

/-- An integrable function settles if the functions cut off do. -/
theorem settles_clip {T : Y → Y} (hT : MeasurePreserving T μ μ) {F : Y → ℝ}
    (hF : Measurable F) (hi : Integrable F μ) {c : ℝ} {cM : ℕ → ℝ}
    (h : ∀ M, Settles μ T (fun y => clip M (F y)) (cM M)) (hc : Tendsto cM atTop (𝓝 c)) :
    Settles μ T F c := by
  have hcl : ∀ M, Measurable fun y => clip M (F y) := fun M => (measurable_clip M).comp hF
  have h1 : Tendsto (fun M => eLpNorm (fun y => F y - clip M (F y)) 1 μ) atTop (𝓝 0) := by
    have hlim : Tendsto (fun M : ℕ => ∫⁻ y, ‖F y - clip M (F y)‖ₑ ∂μ) atTop
        (𝓝 (∫⁻ _, (0 : ℝ≥0∞) ∂μ)) := by
      refine tendsto_lintegral_of_dominated_convergence (fun y => 2 * ‖F y‖ₑ)
        (fun M => (hF.sub (hcl M)).enorm) (fun M => .of_forall fun y => ?_) ?_
        (.of_forall fun y => ?_)
      · refine (enorm_sub_le).trans ?_
        show _ ≤ 2 * ‖F y‖ₑ
        rw [two_mul]
        refine add_le_add_right ?_ _
        rw [Real.enorm_eq_ofReal_abs, Real.enorm_eq_ofReal_abs]
        exact ENNReal.ofReal_le_ofReal (abs_clip_le_abs M _)
      · rw [lintegral_const_mul _ hF.enorm]
        exact ENNReal.mul_ne_top (by norm_num) hi.2.ne
      · have := (tendsto_const_nhds.sub (tendsto_clip (F y)) : Tendsto (fun M : ℕ =>
          F y - clip M (F y)) atTop (𝓝 (F y - F y)))
        rw [sub_self] at this
        simpa using this.enorm
    simpa [eLpNorm_one_eq_lintegral_enorm] using hlim
  have h2 : Tendsto (fun M => eLpNorm (fun _ : Y => cM M - c) 1 μ) atTop (𝓝 0) := by
    have e : ∀ M, eLpNorm (fun _ : Y => cM M - c) 1 μ = ‖cM M - c‖ₑ * μ Set.univ := by
      intro M
      rw [eLpNorm_one_eq_lintegral_enorm, lintegral_const]
    simp only [e]
    have h3 : Tendsto (fun M => ‖cM M - c‖ₑ) atTop (𝓝 0) := by
      have := (hc.sub_const c).enorm
      simpa using this
    have := ENNReal.Tendsto.mul_const h3 (Or.inr (measure_ne_top μ Set.univ))
    rwa [zero_mul] at this
  rw [Settles, ENNReal.tendsto_nhds_zero]
  intro ε hε
  have hε3 : 0 < ε / 3 := ENNReal.div_pos hε.ne' (by norm_num)
  obtain ⟨M, hM1, hM2⟩ := (((ENNReal.tendsto_nhds_zero.1 h1) _ hε3).and
    ((ENNReal.tendsto_nhds_zero.1 h2) _ hε3)).exists
  filter_upwards [(ENNReal.tendsto_nhds_zero.1 (h M)) _ hε3] with n hn
  have e : (fun y => avg T F n y - c) = (avg T (fun y => F y - clip M (F y)) n) +
      ((fun y => avg T (fun y => clip M (F y)) n y - cM M) + fun _ => cM M - c) := by
    funext y
    simp only [Pi.add_apply, avg_sub]
    ring
  rw [e]
  have m1 := (avg_measurable hT.measurable (hF.sub (hcl M)) n).aestronglyMeasurable (μ := μ)
  have m2 := ((avg_measurable hT.measurable (hcl M) n).sub_const (cM M)).aestronglyMeasurable
    (μ := μ)
  have m3 : AEStronglyMeasurable (fun _ : Y => cM M - c) μ := aestronglyMeasurable_const
  refine (eLpNorm_add_le m1 (m2.add m3) le_rfl).trans ?_
  refine (add_le_add_right (eLpNorm_add_le m2 m3 le_rfl) _).trans ?_
  refine (add_le_add ((eLpNorm_avg_le hT (hF.sub (hcl M)) n).trans hM1)
    (add_le_add hn hM2)).trans ?_
  rw [← add_assoc, ENNReal.add_thirds]

omit [IsFiniteMeasure μ] in
theorem avg_aestronglyMeasurable {T : Y → Y} (hT : MeasurePreserving T μ μ) {F : Y → ℝ}
    (hF : AEStronglyMeasurable F μ) (n : ℕ) : AEStronglyMeasurable (avg T F n) μ := by
  unfold avg
  refine AEStronglyMeasurable.const_mul ?_ _
  exact Finset.aestronglyMeasurable_fun_sum _ fun k _ => hF.comp_measurePreserving (hT.iterate k)

omit [IsFiniteMeasure μ] in
/-- Functions which agree almost everywhere have the same averages. -/
theorem Settles.congr {T : Y → Y} (hT : MeasurePreserving T μ μ) {F G : Y → ℝ}
    (hFG : F =ᵐ[μ] G) {c : ℝ} (h : Settles μ T F c) : Settles μ T G c := by
  unfold Settles at h ⊢
  refine h.congr fun n => eLpNorm_congr_ae ?_
  have : ∀ k, ∀ᵐ y ∂μ, F (T^[k] y) = G (T^[k] y) := fun k =>
    (hT.iterate k).quasiMeasurePreserving.ae hFG
  filter_upwards [ae_all_iff.2 this] with y hy
  unfold avg
  simp only [hy]

omit [IsFiniteMeasure μ] in
/-- Averages which settle, settle in probability; so do those which begin elsewhere. -/
theorem Settles.inMeasure {T S : Y → Y} (hT : MeasurePreserving T μ μ)
    (hS : MeasurePreserving S μ μ) {F : Y → ℝ} (hF : AEStronglyMeasurable F μ) {c : ℝ}
    (h : Settles μ T F c) :
    TendstoInMeasure μ (fun n y => avg T F n (S y)) atTop fun _ => c := by
  refine tendstoInMeasure_of_tendsto_eLpNorm (p := 1) (by norm_num)
    (fun n => (avg_aestronglyMeasurable hT hF n).comp_measurePreserving hS)
    aestronglyMeasurable_const ?_
  refine Filter.Tendsto.congr (fun n => ?_) h
  have m := (avg_aestronglyMeasurable hT hF n).sub (aestronglyMeasurable_const (b := c))
  exact (eLpNorm_comp_measurePreserving m hS).symm

omit [IsFiniteMeasure μ] in
theorem Settles.add {T : Y → Y} (hT : MeasurePreserving T μ μ) {F G : Y → ℝ}
    (hF : AEStronglyMeasurable F μ) (hG : AEStronglyMeasurable G μ) {c d : ℝ}
    (h : Settles μ T F c) (h' : Settles μ T G d) : Settles μ T (fun y => F y + G y) (c + d) := by
  have hs : Tendsto (fun n => eLpNorm (fun y => avg T F n y - c) 1 μ +
      eLpNorm (fun y => avg T G n y - d) 1 μ) atTop (𝓝 (0 + 0)) := Tendsto.add h h'
  rw [add_zero] at hs
  refine tendsto_of_tendsto_of_tendsto_of_le_of_le tendsto_const_nhds hs (fun n => zero_le)
    fun n => ?_
  have e : (fun y => avg T (fun y => F y + G y) n y - (c + d)) =
      (fun y => avg T F n y - c) + fun y => avg T G n y - d := by
    funext y
    simp only [Pi.add_apply, avg, Finset.sum_add_distrib, mul_add]
    ring
  show eLpNorm (fun y => avg T (fun y => F y + G y) n y - (c + d)) 1 μ ≤ _
  rw [e]
  exact eLpNorm_add_le ((avg_aestronglyMeasurable hT hF n).sub aestronglyMeasurable_const)
    ((avg_aestronglyMeasurable hT hG n).sub aestronglyMeasurable_const) le_rfl

omit [IsFiniteMeasure μ] in
theorem settles_zero (T : Y → Y) : Settles μ T (fun _ => 0) 0 := by
  have : ∀ n : ℕ, eLpNorm (fun y => avg T (fun _ : Y => (0 : ℝ)) n y - 0) 1 μ = 0 := by
    intro n
    have e : (fun y : Y => avg T (fun _ : Y => (0 : ℝ)) n y - 0) = 0 := by
      funext y; simp [avg]
    rw [e, eLpNorm_zero]
  simp only [Settles, this]
  exact tendsto_const_nhds

omit [IsFiniteMeasure μ] in
theorem Settles.sum {T : Y → Y} (hT : MeasurePreserving T μ μ) {ι : Type*} (s : Finset ι)
    {F : ι → Y → ℝ} {c : ι → ℝ} (hF : ∀ i ∈ s, AEStronglyMeasurable (F i) μ)
    (h : ∀ i ∈ s, Settles μ T (F i) (c i)) :
    Settles μ T (fun y => ∑ i ∈ s, F i y) (∑ i ∈ s, c i) := by
  classical
  induction s using Finset.induction_on with
  | empty => simpa using settles_zero T
  | insert a s ha ih =>
    simp only [Finset.sum_insert ha]
    refine Settles.add hT (hF a (Finset.mem_insert_self a s))
      (Finset.aestronglyMeasurable_fun_sum _ fun i hi => hF i (Finset.mem_insert_of_mem hi))
      (h a (Finset.mem_insert_self a s))
      (ih (fun i hi => hF i (Finset.mem_insert_of_mem hi))
        fun i hi => h i (Finset.mem_insert_of_mem hi))

/-- Convergence in measure carries over to a measure which is absolutely continuous. -/
theorem inMeasure_of_ac {ν : Measure Y} [IsFiniteMeasure ν] (hac : ν ≪ μ) {f : ℕ → Y → ℝ}
    {c : ℝ} (h : TendstoInMeasure μ f atTop fun _ => c) :
    TendstoInMeasure ν f atTop fun _ => c := by
  intro ε hε
  have h1 := h ε hε
  have hd : μ.withDensity (ν.rnDeriv μ) = ν := Measure.withDensity_rnDeriv_eq ν μ hac
  have hfin : ∫⁻ y, ν.rnDeriv μ y ∂μ ≠ ∞ := (Measure.lintegral_rnDeriv_lt_top ν μ).ne
  have h2 := tendsto_setLIntegral_zero hfin h1
  refine tendsto_of_tendsto_of_tendsto_of_le_of_le tendsto_const_nhds h2 (fun n => zero_le)
    fun n => ?_
  show ν _ ≤ _
  conv_lhs => rw [← hd]
  rw [withDensity_apply']

omit [IsFiniteMeasure μ] in
/-- The quotient of two averages which settle. -/
theorem inMeasure_div {f g : ℕ → Y → ℝ} {a b : ℝ} (hb : b ≠ 0)
    (hf : TendstoInMeasure μ f atTop fun _ => a) (hg : TendstoInMeasure μ g atTop fun _ => b) :
    TendstoInMeasure μ (fun n y => f n y / g n y) atTop fun _ => a / b := by
  rw [tendstoInMeasure_iff_dist] at hf hg ⊢
  intro ε hε
  have hcont : ContinuousAt (fun z : ℝ × ℝ => z.1 / z.2) (a, b) :=
    continuousAt_fst.div continuousAt_snd hb
  obtain ⟨δ, hδ, hd⟩ := Metric.continuousAt_iff.1 hcont ε hε
  have hs := (hf δ hδ).add (hg δ hδ)
  rw [add_zero] at hs
  refine tendsto_of_tendsto_of_tendsto_of_le_of_le tendsto_const_nhds hs (fun n => zero_le)
    fun n => ?_
  refine (measure_mono ?_).trans (measure_union_le _ _)
  intro y hy
  by_contra hcon
  have hcon' : dist (f n y) a < δ ∧ dist (g n y) b < δ := by
    simpa [not_or] using hcon
  have := hd (x := (f n y, g n y)) (by rw [Prod.dist_eq]; exact max_lt hcon'.1 hcon'.2)
  exact absurd hy (not_le.2 this)

end Verif.MeanErgodic
