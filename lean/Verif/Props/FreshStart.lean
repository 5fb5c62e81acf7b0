import Verif.Props.AlmostSureProgram
import Verif.Lemmas.DrawSeq

/-! # Properties C80, C81: the initial configuration, and runs from scratch with phonons -/

set_option autoImplicit false

namespace Verif.MonteCarlo

open MeasureTheory ENNReal Verif.Fock Verif.Metropolis Verif.NullSet Verif.DrawSeq Verif.Main Verif.Progress

variable {σ : Type} {N : ℕ} {M : Type} {L : ℕ}

/-! ## Specification -/

/-- one entry of the field -/
noncomputable def coin (rng : Rng σ) (r : σ) : Fin 2 × σ :=
  (if (rng.uniform r).1 < 0.5 then 0 else 1, (rng.uniform r).2)

open Classical in
/-- one phonon coordinate with coupling `g` -/
noncomputable def place (rng : Rng σ) (ph : Phonon) (g : ℝ) (r : σ) : ℝ × σ :=
  if g = 0 then (0, r) else (((rng.uniform r).1 - 0.5) * ph.localBox, (rng.uniform r).2)

open Classical in
/-- initial distribution of a phonon coordinate: zero if it is not coupled, otherwise uniform in an interval of length
`localBox` around zero -/
noncomputable def placeDist (ph : Phonon) (g : ℝ) : Measure ℝ :=
  if g = 0 then Measure.dirac 0 else unit.map fun u => (u - 0.5) * ph.localBox

instance (ph : Phonon) (g : ℝ) : IsProbabilityMeasure (placeDist ph g) := by
  unfold placeDist
  split
  · infer_instance
  · exact Measure.isProbabilityMeasure_map (by fun_prop)

/-! ## Single draws -/

theorem equi_apply {α : Type} [Fintype α] [MeasurableSpace α] [MeasurableSingletonClass α] (x : α) :
    equi α {x} = (Fintype.card α : ℝ≥0∞)⁻¹ := by
  unfold equi
  rw [Measure.smul_apply, Measure.count_singleton, smul_eq_mul, mul_one]

theorem half_measurable : MeasurableSet {u : ℝ | u < 0.5} := measurableSet_lt measurable_id measurable_const

theorem unit_half : unit {u | u < 0.5} = 2⁻¹ := by
  unfold unit
  have e : {u : ℝ | u < 0.5} ∩ Set.Ioc 0 1 = Set.Ioo 0 0.5 := by
    ext u
    simp only [Set.mem_inter_iff, Set.mem_ofPred_eq, Set.mem_Ioc, Set.mem_Ioo]
    constructor
    · rintro ⟨h1, h2, h3⟩
      exact ⟨h2, h1⟩
    · rintro ⟨h1, h2⟩
      exact ⟨h2, h1, by norm_num at h2; linarith⟩
  rw [Measure.restrict_apply half_measurable, e, Real.volume_Ioo]
  rw [sub_zero, show (0.5 : ℝ) = 2⁻¹ by norm_num, ENNReal.ofReal_inv_of_pos two_pos]
  norm_num

theorem coin_unit : MeasurePreserving (fun u : ℝ => if u < 0.5 then (0 : Fin 2) else 1) unit (equi (Fin 2)) := by
  have hm : Measurable fun u : ℝ => if u < 0.5 then (0 : Fin 2) else 1 :=
    Measurable.ite half_measurable measurable_const measurable_const
  refine ⟨hm, Measure.ext_of_singleton fun b => ?_⟩
  rw [Measure.map_apply hm (measurableSet_singleton b), equi_apply, Fintype.card_fin]
  have h0 : (fun u : ℝ => if u < 0.5 then (0 : Fin 2) else 1) ⁻¹' {0} = {u | u < 0.5} := by
    ext u
    by_cases h : u < 0.5 <;> simp [h]
  have h1 : (fun u : ℝ => if u < 0.5 then (0 : Fin 2) else 1) ⁻¹' {1} = {u | u < 0.5}ᶜ := by
    ext u
    by_cases h : u < 0.5 <;> simp [h]
  fin_cases b
  · show unit ((fun u : ℝ => if u < 0.5 then (0 : Fin 2) else 1) ⁻¹' {0}) = _
    rw [h0, unit_half]
    rfl
  · show unit ((fun u : ℝ => if u < 0.5 then (0 : Fin 2) else 1) ⁻¹' {1}) = _
    rw [h1, prob_compl_eq_one_sub half_measurable, unit_half]
    exact ENNReal.one_sub_inv_two

variable [MeasurableSpace σ] {P : Measure σ}

theorem coin_preserving {rng : Rng σ} (hP : rng.Ideal N P) :
    MeasurePreserving (coin rng) P ((equi (Fin 2)).prod P) := by
  have := hP.prob
  exact (coin_unit.prod (MeasurePreserving.id P)).comp hP.uniform

theorem place_preserving {rng : Rng σ} (hP : rng.Ideal N P) (ph : Phonon) (g : ℝ) :
    MeasurePreserving (place rng ph g) P ((placeDist ph g).prod P) := by
  have := hP.prob
  unfold place placeDist
  by_cases hg : g = 0
  · simp only [hg, if_true]
    refine ⟨measurable_const.prodMk measurable_id, ?_⟩
    rw [Measure.dirac_prod]
  · simp only [hg, if_false]
    have h : MeasurePreserving (fun u : ℝ => (u - 0.5) * ph.localBox) unit
        (unit.map fun u => (u - 0.5) * ph.localBox) := ⟨by fun_prop, rfl⟩
    have : SFinite (unit.map fun u => (u - 0.5) * ph.localBox) := inferInstance
    exact (h.prod (MeasurePreserving.id P)).comp hP.uniform

theorem placeDist_ac (ph : Phonon) (g : ℝ) (hbox : g ≠ 0 → ph.localBox ≠ 0) :
    placeDist ph g ≪ if g = 0 then Measure.dirac 0 else volume := by
  unfold placeDist
  by_cases hg : g = 0
  · simp only [hg, if_true]
    exact Measure.AbsolutelyContinuous.rfl
  · simp only [hg, if_false]
    exact (box_quasi _ _ (hbox hg)).absolutelyContinuous

/-! ## The loops -/

omit [MeasurableSpace σ] in
theorem drawField_draws (rng : Rng σ) (n : ℕ) (r : σ) : drawField rng n r
    = (fun k => if k < n then (coin rng (after (fun _ => coin rng) k r)).1 else 0, after (fun _ => coin rng) n r) :=
  fold_draws (fun _ => coin rng) (fun _ => 0) n r

omit [MeasurableSpace σ] in
theorem drawPhonons_draws (rng : Rng σ) (ph : Phonon) (Ncell N L : ℕ) (r : σ) : drawPhonons rng ph Ncell N L r
    = (fun k => if k < L * N then (place rng ph (ph.g (k % N / Ncell))
        (after (fun k => place rng ph (ph.g (k % N / Ncell))) k r)).1 else 0,
      after (fun k => place rng ph (ph.g (k % N / Ncell))) (L * N) r) := by
  rw [← fold_draws]
  unfold drawPhonons
  congr 1
  funext a k
  unfold place
  split <;> rfl

theorem index_lt (l : Fin L) (i : Fin N) : (i : ℕ) + l * N < L * N := by
  have h1 : (l : ℕ) + 1 ≤ L := l.2
  calc (i : ℕ) + l * N < N + l * N := Nat.add_lt_add_right i.2 _
    _ = (l + 1) * N := by ring
    _ ≤ L * N := Nat.mul_le_mul_right _ h1

/-- field and state of the source after the loop of main.c -/
noncomputable def freshField (rng : Rng σ) (L N : ℕ) (r : σ) : Field L N × σ :=
  (fieldOf L (unflat (drawField rng (L * N) r).1), (drawField rng (L * N) r).2)

/-- phonon coordinates and state of the source after the loop of main.c -/
noncomputable def freshPaths (rng : Rng σ) (ph : Phonon) (Ncell L N : ℕ) (r : σ) : Paths L N × σ :=
  (pathsOf L (unflat (drawPhonons rng ph Ncell N L r).1), (drawPhonons rng ph Ncell N L r).2)

omit [MeasurableSpace σ] in
theorem freshField_draws (rng : Rng σ) : freshField rng L N = draws (row (fun _ => coin rng) N) L := by
  funext r
  unfold freshField
  rw [draws_row, drawField_draws]
  refine Prod.ext (funext fun l => funext fun i => ?_) rfl
  simp only [fieldOf, unflat, index_lt l i, if_true]
  rw [Nat.add_comm]

omit [MeasurableSpace σ] in
theorem freshPaths_draws (rng : Rng σ) (ph : Phonon) (Ncell : ℕ) : freshPaths rng ph Ncell L N
    = draws (row (fun k => place rng ph (ph.g (k % N / Ncell))) N) L := by
  funext r
  unfold freshPaths
  rw [draws_row, drawPhonons_draws]
  refine Prod.ext (funext fun l => funext fun i => ?_) rfl
  simp only [pathsOf, unflat, index_lt l i, if_true]
  rw [Nat.add_comm]

/-- distribution of the phonon coordinates at the start -/
noncomputable def pathDist (ph : Phonon) (Ncell L N : ℕ) : Measure (Paths L N) :=
  Measure.pi fun _ => Measure.pi fun i : Fin N => placeDist ph (ph.g (i / Ncell))

theorem equi_pi (n : ℕ) {α : Type} [Fintype α] [DecidableEq α] [MeasurableSpace α] [MeasurableSingletonClass α] [Nonempty α] :
    (Measure.pi fun _ : Fin n => equi α) = equi (Fin n → α) := by
  have := equi_prob α
  refine Measure.ext_of_singleton fun x => ?_
  rw [equi_apply, Measure.pi_singleton]
  simp only [equi_apply, Finset.prod_const, Finset.card_univ, Fintype.card_fin, Fintype.card_pi]
  rw [Nat.cast_pow, ENNReal.inv_pow]

/-- C80: all initial fields are equally likely -/
theorem freshField_preserving {rng : Rng σ} (hP : rng.Ideal N P) :
    MeasurePreserving (freshField rng L N) P ((equi (Field L N)).prod P) := by
  have := hP.prob
  have := equi_prob (Fin 2)
  have := equi_prob (Fin N → Fin 2)
  rw [freshField_draws, ← equi_pi L (α := Fin N → Fin 2)]
  refine draws_preserving _ (fun _ => equi (Fin N → Fin 2)) (fun l => ?_) L
  rw [← equi_pi N (α := Fin 2)]
  exact draws_preserving _ (fun _ => equi (Fin 2)) (fun _ => coin_preserving hP) N

/-- C80: all initial phonon coordinates are independent -/
theorem freshPaths_preserving {rng : Rng σ} (hP : rng.Ideal N P) (ph : Phonon) (Ncell : ℕ) :
    MeasurePreserving (freshPaths rng ph Ncell L N) P ((pathDist ph Ncell L N).prod P) := by
  have := hP.prob
  rw [freshPaths_draws]
  refine draws_preserving _ (fun _ => Measure.pi fun i : Fin N => placeDist ph (ph.g (i / Ncell))) (fun l => ?_) L
  have h := draws_preserving (P := P) (fun k => place rng ph (ph.g ((l * N + k) % N / Ncell)))
    (fun k => placeDist ph (ph.g ((l * N + k) % N / Ncell))) (fun k => place_preserving hP ph _) N
  have e : ∀ k : Fin N, placeDist ph (ph.g ((l * N + k) % N / Ncell)) = placeDist ph (ph.g (k / Ncell)) := fun k => by
    rw [Nat.mul_add_mod_self_right, Nat.mod_eq_of_lt k.2]
  simp only [e] at h
  exact h

/-! ## Runs from scratch -/

open Classical in
theorem place_quasi {rng : Rng σ} (hP : rng.Ideal N P) (ph : Phonon) (g : ℝ) (hbox : g ≠ 0 → ph.localBox ≠ 0) :
    Measure.QuasiMeasurePreserving (place rng ph g) P ((if g = 0 then Measure.dirac 0 else volume : Measure ℝ).prod P) := by
  have := hP.prob
  have : SFinite (if g = 0 then Measure.dirac 0 else volume : Measure ℝ) := by split <;> infer_instance
  exact (place_preserving hP ph g).quasiMeasurePreserving.mono_right
    ((placeDist_ac ph g hbox).prod Measure.AbsolutelyContinuous.rfl)

variable {sys : Sys σ N M} {ph : Phonon}

theorem freshPaths_quasi [NeZero N] (hP : sys.rng.Ideal N P) (hbox : ∀ i, ph.g (sys.orb i) ≠ 0 → ph.localBox ≠ 0) :
    Measure.QuasiMeasurePreserving (freshPaths sys.rng ph sys.Ncell L N) P
      ((pathBase sys ph (Measure.dirac 0) L).prod P) := by
  classical
  have := hP.prob
  rw [freshPaths_draws]
  have hs : ∀ g : ℝ, SigmaFinite (if g = 0 then Measure.dirac 0 else volume : Measure ℝ) := fun g => by
    split <;> infer_instance
  refine draws_quasi _ (fun _ => Measure.pi fun i : Fin N => siteBase sys ph (Measure.dirac 0) i) (fun l => ?_) L
  have h := draws_quasi (P := P) (fun k => place sys.rng ph (ph.g ((l * N + k) % N / sys.Ncell)))
    (fun k => if ph.g ((l * N + k) % N / sys.Ncell) = 0 then Measure.dirac 0 else volume)
    (fun k => place_quasi hP ph _ fun h0 => ?_) N
  · have e : ∀ k : Fin N, (if ph.g ((l * N + k) % N / sys.Ncell) = 0 then Measure.dirac 0 else volume : Measure ℝ)
        = siteBase sys ph (Measure.dirac 0) k := fun k => by
      unfold siteBase Sys.orb
      rw [Nat.mul_add_mod_self_right, Nat.mod_eq_of_lt k.2]
    simp only [e] at h
    exact h
  · exact hbox ⟨(l * N + k) % N, Nat.mod_lt _ (Nat.pos_of_ne_zero (NeZero.ne N))⟩ h0

/-- configuration drawn at a fresh start (main.c:156-159, 199-216), and state of the source -/
noncomputable def fresh (sys : Sys σ N M) (ph : Phonon) (L : ℕ) (r : σ) : Conf L N × σ :=
  (((freshField sys.rng L N r).1, (freshPaths sys.rng ph sys.Ncell L N (freshField sys.rng L N r).2).1),
    (freshPaths sys.rng ph sys.Ncell L N (freshField sys.rng L N r).2).2)

theorem fresh_preserving (hP : sys.rng.Ideal N P) :
    MeasurePreserving (fresh sys ph L) P (((equi (Field L N)).prod (pathDist ph sys.Ncell L N)).prod P) := by
  have := hP.prob
  have := equi_prob (Field L N)
  have : SFinite (pathDist ph sys.Ncell L N) := by unfold pathDist; infer_instance
  exact (measurePreserving_prodAssoc _ _ _).symm.comp
    (((MeasurePreserving.id _).prod (freshPaths_preserving hP ph sys.Ncell)).comp (freshField_preserving hP))

theorem fresh_quasi [NeZero N] (hP : sys.rng.Ideal N P) (hbox : ∀ i, ph.g (sys.orb i) ≠ 0 → ph.localBox ≠ 0) :
    Measure.QuasiMeasurePreserving (fresh sys ph L) P ((confBase sys ph (Measure.dirac 0) L).prod P) := by
  have := hP.prob
  have := equi_prob (Field L N)
  have : SFinite (pathBase sys ph (Measure.dirac 0) L) := by unfold pathBase; infer_instance
  have h1 : Measure.QuasiMeasurePreserving (freshField sys.rng L N) P ((Measure.count : Measure (Field L N)).prod P) :=
    (freshField_preserving hP).quasiMeasurePreserving.mono_right
      (Measure.AbsolutelyContinuous.prod (Measure.smul_absolutelyContinuous) Measure.AbsolutelyContinuous.rfl)
  exact (measurePreserving_prodAssoc _ _ _).symm.quasiMeasurePreserving.comp
    ((QuasiMeasurePreserving.prodMap (Measure.QuasiMeasurePreserving.id _) (freshPaths_quasi hP hbox)).comp h1)

omit [MeasurableSpace σ] in
/-- if no field has weight zero together with all phonon coordinates, almost no configuration has weight zero -/
theorem confWeight_base_ae {rest : Measure ℝ} [SigmaFinite rest] (hw : ∀ s : Field L N, ∃ X, confWeight sys ph L (s, X) ≠ 0) :
    ∀ᵐ x ∂confBase sys ph rest L, confWeight sys ph L x ≠ 0 := by
  have h := measure_eq_zero_iff_ae_notMem.1 (accident_null (sys := sys) (ph := ph) (rest := rest) (L := L))
  filter_upwards [h] with x hx h0
  exact hx ⟨h0, hw x.1⟩

omit [MeasurableSpace σ] in
theorem confBase_ac {rest : Measure ℝ} [SigmaFinite rest] (hw : ∀ s : Field L N, ∃ X, confWeight sys ph L (s, X) ≠ 0) :
    confBase sys ph rest L ≪ confDist sys ph rest L := by
  unfold confDist target
  refine withDensity_absolutelyContinuous' confWeight_measurable.ennreal_ofReal.aemeasurable ?_
  filter_upwards [confWeight_base_ae (sys := sys) (ph := ph) (rest := rest) hw] with x hx
  rw [ne_eq, ENNReal.ofReal_eq_zero, not_le]
  exact lt_of_le_of_ne (confWeight_nonneg x) (Ne.symm hx)

open TimeFlow in
theorem prodSeq_smul (c : ℝ) (B : ℕ → Matrix (Fin N) (Fin N) ℝ) (k : ℕ) :
    prodSeq (fun j => c • B j) k = c ^ k • prodSeq B k := by
  induction k with
  | zero => simp [prodSeq]
  | succ k ih =>
    rw [prodSeq, ih, prodSeq, Matrix.smul_mul, Matrix.mul_smul, smul_smul, pow_succ, mul_comm]

omit [MeasurableSpace σ] in
/-- if all phonons are coupled, every field has a weight for suitable phonon coordinates -/
theorem weight_exists (hL : 0 < L) (hdt : ph.dt ≠ 0) (hg : ∀ i, ph.g (sys.orb i) ≠ 0) (s : ℕ → Fin N → Fin 2) :
    ∃ X, sys.weight L s (sys.expOf ph X) ≠ 0 := by
  have key : ∀ expV : Fin 2 → ℕ → ℝ, ∀ᶠ c in nhds (0 : ℝ), (1 + sys.flow expV L s (fun _ _ => c)).det ≠ 0 := by
    intro expV
    have e : ∀ c : ℝ, sys.flow expV L s (fun _ _ => c) = c ^ L • sys.flow expV L s (fun _ _ => 1) := by
      intro c
      unfold Sys.flow TimeFlow.cyclicProd
      rw [← prodSeq_smul]
      congr 1
      funext j
      unfold Sys.fieldB
      rw [← Matrix.smul_mul]
      congr 1
      ext a b
      by_cases hab : a = b
      · subst hab
        simp [mul_comm]
      · simp [hab]
    refine Filter.Eventually.mono (p := fun c : ℝ => (1 + c ^ L • sys.flow expV L s (fun _ _ => 1)).det ≠ 0) ?_
      fun c h => by rw [e]; exact h
    have hc : Continuous fun c : ℝ => (1 + c ^ L • sys.flow expV L s (fun _ _ => 1)).det :=
      (continuous_const.add ((continuous_pow L).smul continuous_const)).matrix_det
    refine hc.continuousAt.eventually_ne ?_
    rw [zero_pow hL.ne', zero_smul, add_zero, Matrix.det_one]
    exact one_ne_zero
  have h := ((key sys.hs.expVu).and (key sys.hs.expVd)).filter_mono (nhdsWithin_le_nhds (s := Set.Ioi (0 : ℝ)))
  obtain ⟨c, ⟨h1, h2⟩, h3⟩ := (h.and self_mem_nhdsWithin).exists
  refine ⟨fun l i => -Real.log c / (ph.dt * ph.g (sys.orb i)), ?_⟩
  have e : sys.expOf ph (fun l i => -Real.log c / (ph.dt * ph.g (sys.orb i))) = fun _ _ => c := by
    funext l i
    unfold Sys.expOf
    rw [show -ph.dt * ph.g (sys.orb i) * (-Real.log c / (ph.dt * ph.g (sys.orb i))) = Real.log c by
      have := hg i
      field_simp]
    exact Real.exp_log h3
  rw [e]
  unfold Sys.weight
  rw [abs_ne_zero]
  exact mul_ne_zero h1 h2

/-- C81: a run with phonons from scratch is defined with probability one -/
theorem fresh_almost_surely_defined [NeZero N] {cfg : Cfg} {Q : ℕ → M → Prop} (hP : sys.rng.Ideal N P)
    (hok : sys.Ok cfg.prodBlen) (hL : 2 ≤ cfg.L) (hd : cfg.prodBlen ∣ cfg.L) (hp : cfg.usePhonons = true)
    (hQ : Budget sys cfg.L Q)
    (hmu : cfg.nuneqlt > 0 → ∀ (st : State σ N M) n, AtRest sys ph cfg st → Q n st.meas →
      ∃ m, sys.meas.uneq (st.Gu.sgndet * st.Gd.sgndet) st.tsmU st.tsmD st.meas = some m ∧ Q n m)
    (hbox : ∀ i, ph.g (sys.orb i) ≠ 0 → ph.localBox ≠ 0)
    (hw : ∀ s : ℕ → Fin N → Fin 2, ∃ X, sys.weight cfg.L s (sys.expOf ph X) ≠ 0)
    (stop : ℤ → Bool) (it : ℤ) (cnt : Counters) (meas : M) (hq : Q (samples cfg it) meas) :
    ∀ᵐ r ∂P,
      let f := drawField sys.rng (cfg.L * N) r
      let x := drawPhonons sys.rng ph sys.Ncell N cfg.L f.2
      ∃ res, simulate sys ph cfg stop it x.2 (unflat f.1) (unflat x.1)
        (expPhonons ph sys.Ncell cfg.L (unflat x.1)) cnt meas = some res := by
  have := hP.prob
  have hL0 : 0 < cfg.L := by omega
  obtain ⟨G, -, h⟩ := simulate_ae (ph := ph) (rest := Measure.dirac 0) hP hok hL hd hp hQ hmu stop it cnt meas hq
  have hw' : ∀ s : Field cfg.L N, ∃ X, confWeight sys ph cfg.L (s, X) ≠ 0 := fun s => by
    obtain ⟨X, hX⟩ := hw (Fock.extend s)
    refine ⟨pathsOf cfg.L X, ?_⟩
    have e := confWeight_view (sys := sys) (ph := ph) hL0 (Fock.extend s) X
    rw [fieldOf_extend] at e
    rw [e]
    exact mul_ne_zero hX (Real.exp_ne_zero _)
  have hac : (confBase sys ph (Measure.dirac 0) cfg.L).prod P ≪ (confDist sys ph (Measure.dirac 0) cfg.L).prod P :=
    (confBase_ac hw').prod Measure.AbsolutelyContinuous.rfl
  filter_upwards [(fresh_quasi (ph := ph) (L := cfg.L) hP hbox).ae (hac.ae_le h)] with r hr
  obtain ⟨res, e, -⟩ := hr (unflat (drawField sys.rng (cfg.L * N) r).1)
    (unflat (drawPhonons sys.rng ph sys.Ncell N cfg.L (drawField sys.rng (cfg.L * N) r).2).1)
    (expPhonons ph sys.Ncell cfg.L
      (unflat (drawPhonons sys.rng ph sys.Ncell N cfg.L (drawField sys.rng (cfg.L * N) r).2).1)) rfl rfl
    fun l hl i => by
      unfold expPhonons
      rw [if_pos hl]
      rfl
  exact ⟨res, e⟩

open Verif.Measurement Verif.Random Verif.Params in
/-- C81 for accepted parameters within the guards, with phonons coupled to all orbitals, boxes of non-zero width and at
least two slices: if the generator is replaced by an ideal source, the run from scratch is defined with probability one.
No hypothesis on the weights is left. -/
theorem program_fresh_ph {mc : Machine} {p : SimParams ℝ} [NeZero (sites p)] (hmc : mc.Rounds) (hv : Admissible p)
    (hg : Guards p) (hN : sites p < 2 ^ 31) (hp : p.usePhonons = true) (hL : 2 ≤ p.L) (hdt : p.dt ≠ 0)
    (hcoupled : ∀ o : ℕ, o < p.Norb.toNat → p.phonon.g o ≠ 0) (hbox : p.phonon.localBoxWidth ≠ 0) (fnbase : String)
    (rng : Rng σ) (hlaw : rng.Lawful (sites p)) (hP : rng.Ideal (sites p) P) (sys : Sys Seed (sites p) MeasData)
    (hsys : sysOf mc p = some sys) (stop : ℤ → Bool) :
    let su := mkSetup mc p fnbase
    ∀ᵐ r ∂P,
      let f := drawField rng su.LxN r
      let x := drawPhonons rng su.ph su.Ncell (sites p) su.cfg.L f.2
      ∃ res, simulate (sys.withRng rng) su.ph su.cfg stop 0 x.2 (unflat f.1) (unflat x.1)
        (expPhonons su.ph su.Ncell su.cfg.L (unflat x.1)) zeroCounters (MeasData.allocate su.maxNsampl) = some res := by
  intro su
  obtain ⟨sys0, e0, hok0, -, hm⟩ := sys_defined hmc hv hg.U hg.shift hN fnbase
  obtain rfl : sys0 = sys := Option.some.inj (e0.symm.trans hsys)
  have hncell : sys0.Ncell = p.Nx.toNat * p.Ny.toNat := by
    unfold sysOf at hsys
    simp only [Option.bind_eq_bind] at hsys
    obtain ⟨a, -, hsys⟩ := Option.bind_eq_some_iff.1 hsys
    obtain ⟨b, -, hsys⟩ := Option.bind_eq_some_iff.1 hsys
    obtain rfl := Option.some.inj hsys
    rfl
  have hok : (sys0.withRng rng).Ok su.cfg.prodBlen := ⟨hok0.expK, hok0.hs, hlaw, hok0.dvd⟩
  have hL' : 2 ≤ su.cfg.L := by show 2 ≤ p.L.toNat; omega
  have hd : su.cfg.prodBlen ∣ su.cfg.L := toNat_dvd hv.prodBlen hv.l hv.dvdL
  have hP' : (sys0.withRng rng).rng.Ideal (sites p) P := hP
  have hQ : Budget (sys0.withRng rng) su.cfg.L Room := room_budget hv hg hm
  have hq : Room (samples su.cfg 0) (MeasData.allocate su.maxNsampl) := room_start hv (hg.neqlt hp) fnbase 0 _ rfl
  have hgo : ∀ i, su.ph.g ((sys0.withRng rng).orb i) ≠ 0 := fun i => by
    refine hcoupled _ ?_
    show i.val / sys0.Ncell < _
    have h1 := i.2
    unfold sites at h1
    rw [hncell]
    refine Nat.div_lt_of_lt_mul ?_
    calc i.val < _ := h1
      _ = _ := by ring
  have h := fresh_almost_surely_defined (ph := su.ph) hP' hok hL' hd hp hQ
    (fun hn st n hst hm' => room_uneq (sys := sys0.withRng rng) hv hg hn rfl rfl hm st n hst hm') (fun _ _ => hbox)
    (weight_exists (by omega) hdt hgo) stop 0 zeroCounters (MeasData.allocate su.maxNsampl) hq
  have hnc : (sys0.withRng rng).Ncell = su.Ncell := hncell
  rw [hnc] at h
  exact h

/-- non-vacuity: the small system with phonons satisfies all hypotheses -/
example : Params.Admissible exQ ∧ Guards exQ ∧ exQ.usePhonons = true ∧ 2 ≤ exQ.L ∧ exQ.dt ≠ 0 ∧
    (∀ o : ℕ, o < exQ.Norb.toNat → exQ.phonon.g o ≠ 0) ∧ exQ.phonon.localBoxWidth ≠ 0 :=
  ⟨exQ_admissible, exQ_guards, rfl, le_refl _, by norm_num [exQ, exPph, exP], fun _ _ => by norm_num [exQ, exPph, exP],
    by norm_num [exQ, exPph, exP]⟩

end Verif.MonteCarlo
