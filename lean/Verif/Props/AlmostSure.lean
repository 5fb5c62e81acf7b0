import Verif.Props.StationaryPh
import Verif.Lemmas.PhononDefined
import Verif.Lemmas.NullSet

/-! # Property C79: runs with phonons are defined with probability one -/

set_option autoImplicit false

namespace Verif.MonteCarlo

open MeasureTheory ENNReal Verif.Metropolis Verif.Fock Verif.Greens Verif.Progress Verif.NullSet Verif.TimeFlow

variable {σ : Type} {N : ℕ} {M : Type} {sys : Sys σ N M} {ph : Phonon} {rest : Measure ℝ} [SigmaFinite rest]
  {L len l : ℕ} {st : State σ N M}

/-! ## Configurations of weight zero -/

theorem det_scaleRow (A : Matrix (Fin N) (Fin N) ℝ) (i : Fin N) (d : ℝ) :
    (1 + scaleRow i d A).det = ((1 + A).updateRow i (Pi.single i 1)).det + ((1 + A).updateRow i (A i)).det * (1 + d) := by
  have e : 1 + scaleRow i d A = (1 + A).updateRow i (Pi.single i 1 + (1 + d) • A i) := by
    ext a b
    by_cases ha : a = i
    · subst ha
      simp [scaleRow, Matrix.one_apply, Pi.single_apply, eq_comm]
    · simp [scaleRow, ha]
  rw [e, Matrix.det_updateRow_add, Matrix.det_updateRow_smul, mul_comm]

theorem extendX_update (x : Paths L N) (k : Fin L) (r : Fin N → ℝ) (i : Fin N) (t : ℝ) :
    extendX (Function.update x k (Function.update r i t))
      = moveLocal (extendX (Function.update x k (Function.update r i 0))) k i t := by
  funext m j
  unfold moveLocal extendX
  by_cases hm : m = (k : ℕ)
  · subst hm
    simp only [Function.update_self, k.2, dif_pos, Fin.eta]
    by_cases hj : j = i
    · subst hj; simp
    · simp [hj]
  · rw [Function.update_of_ne hm]
    by_cases hL : m < L
    · have : (⟨m, hL⟩ : Fin L) ≠ k := fun h => hm (by rw [← h])
      simp only [hL, dif_pos, Function.update_of_ne this]
    · simp only [hL, dif_neg, not_false_eq_true]

omit [SigmaFinite rest] in
theorem dich_site (i : Fin N) (a b : ℝ) :
    Dich (siteBase sys ph rest i) fun t : ℝ => a + b * Real.exp (-ph.dt * ph.g (sys.orb i) * t) := by
  unfold siteBase
  split
  · rename_i hg
    by_cases h : a + b = 0
    · exact .inl fun t => by simpa [hg] using h
    · exact .inr (Filter.Eventually.of_forall fun t => by simpa [hg] using h)
  · exact dich_exp a b _

/-- as functions of the phonon field, the determinants vanish everywhere or almost nowhere -/
theorem dich_det (expV : Fin 2 → ℕ → ℝ) (s : ℕ → Fin N → Fin 2) :
    Dich (pathBase sys ph rest L) fun x : Paths L N => (1 + sys.flow expV L s (sys.expOf ph (extendX x))).det := by
  have hcont : Continuous fun x : Paths L N => (1 + sys.flow expV L s (sys.expOf ph (extendX x))).det := by
    have hE : ∀ k i, Continuous fun x : Paths L N => sys.expOf ph (extendX x) k i := by
      intro k i
      unfold Sys.expOf
      exact Real.continuous_exp.comp (continuous_const.mul (extendX_continuous k i))
    refine (continuous_const.add ?_).matrix_det
    unfold Sys.flow TimeFlow.cyclicProd
    refine prodSeq_continuous _ (fun k => ?_) L
    unfold Sys.fieldB
    exact Continuous.matrix_mul (Continuous.matrix_diagonal (continuous_pi fun i => continuous_const.mul (hE _ i)))
      continuous_const
  refine dich_pi (fun _ : Fin L => Measure.pi fun i => siteBase sys ph rest i) _ hcont.measurable fun x k => ?_
  have hL : 0 < L := lt_of_le_of_lt (Nat.zero_le _) k.2
  refine dich_pi (fun i : Fin N => siteBase sys ph rest i) _ ?_ fun r i => ?_
  · exact hcont.measurable.comp (measurable_update x)
  · obtain ⟨X0, hX⟩ : ∃ X0, ∀ t, extendX (Function.update x k (Function.update r i t)) = moveLocal X0 k i t :=
      ⟨_, fun t => extendX_update x k r i t⟩
    refine Dich.congr (dich_site i
      ((1 + cyclicProd (sys.fieldB expV s (sys.expOf ph X0)) L (k + 1)).updateRow i (Pi.single i 1)).det
      ((1 + cyclicProd (sys.fieldB expV s (sys.expOf ph X0)) L (k + 1)).updateRow i
        (cyclicProd (sys.fieldB expV s (sys.expOf ph X0)) L (k + 1) i)).det) fun t => ?_
    unfold Sys.flow
    rw [hX, fieldB_moveLocal, ← det_shift _ L hL (k + 1), cyclicProd_scaleRow _ L k k.2, det_scaleRow]
    simp only [add_sub_cancel]

theorem confWeight_dich (s : Field L N) :
    Dich (pathBase sys ph rest L) fun x : Paths L N => confWeight sys ph L (s, x) := by
  refine Dich.congr ((dich_det (sys := sys) (ph := ph) (rest := rest) sys.hs.expVu (Fock.extend s)).mul (dich_det (sys := sys)
      (ph := ph) (rest := rest) sys.hs.expVd (Fock.extend s))) fun x => ?_
  unfold confWeight Sys.fullWeight Sys.weight
  simp only [mul_eq_zero, abs_eq_zero, Real.exp_ne_zero, or_false]

/-- weight zero, although not all phonon fields have weight zero together with this Hubbard-Stratonovich field -/
def Accident (sys : Sys σ N M) (ph : Phonon) (L : ℕ) : Set (Conf L N) :=
  {x | confWeight sys ph L x = 0 ∧ ∃ X, confWeight sys ph L (x.1, X) ≠ 0}

theorem accident_measurable : MeasurableSet (Accident sys ph L) :=
  (confWeight_measurable (measurableSet_singleton 0)).inter
    (measurable_fst (MeasurableSet.of_discrete (s := {s : Field L N | ∃ X, confWeight sys ph L (s, X) ≠ 0})))

theorem accident_null : confBase sys ph rest L (Accident sys ph L) = 0 := by
  unfold confBase
  rw [Measure.measure_prod_null accident_measurable]
  refine Filter.Eventually.of_forall fun s => ?_
  rcases confWeight_dich (sys := sys) (ph := ph) (rest := rest) s with h | h
  · refine measure_mono_null (fun x hx => ?_) measure_empty
    obtain ⟨X, hX⟩ := hx.2
    exact hX (h X)
  · refine measure_mono_null (fun x hx => ?_) h
    exact fun hne => hne hx.1

theorem accident_ac (T : Conf L N → Conf L N) (hT : MeasurePreserving T (confBase sys ph rest L) (confBase sys ph rest L)) :
    ∀ᵐ x ∂confDist sys ph rest L, T x ∉ Accident sys ph L := by
  have h : ∀ᵐ x ∂confBase sys ph rest L, T x ∉ Accident sys ph L :=
    hT.quasiMeasurePreserving.ae (measure_eq_zero_iff_ae_notMem.1 accident_null)
  exact (withDensity_absolutelyContinuous _ _).ae_le h

omit [SigmaFinite rest] in
theorem confWeight_ae : ∀ᵐ x ∂confDist sys ph rest L, confWeight sys ph L x ≠ 0 := by
  unfold confDist target
  rw [ae_withDensity_iff confWeight_measurable.ennreal_ofReal]
  refine Filter.Eventually.of_forall fun x hx h0 => hx ?_
  rw [h0, ENNReal.ofReal_zero]

/-! ## Proposals -/

theorem PhInv.fullWeight_ne (h : PhInv sys ph L len l st) : sys.fullWeight ph L st.s st.X ≠ 0 := by
  have hw : 0 < sys.weight L st.s (sys.expOf ph st.X) :=
    Exact.weight_pos (l := l) ⟨h.inv.up.good, h.inv.down.good⟩ h.pos
  exact (mul_pos hw (Real.exp_pos _)).ne'

/-- a proposal that is not an accident has a weight -/
theorem proposal_ne (hL : 0 < L) (h : PhInv sys ph L len l st) (X : ℕ → Fin N → ℝ)
    (ha : (fieldOf L st.s, pathsOf L X) ∉ Accident sys ph L) : sys.weight L st.s (sys.expOf ph X) ≠ 0 := by
  intro h0
  refine ha ⟨?_, pathsOf L st.X, ?_⟩
  · rw [confWeight_view hL]
    unfold Sys.fullWeight
    rw [h0, zero_mul]
  · show confWeight sys ph L (fieldOf L st.s, pathsOf L st.X) ≠ 0
    rw [confWeight_view hL]
    exact h.fullWeight_ne

section proposals

variable [MeasurableSpace σ] {P : Measure σ}

/-- a proposal chosen at random is no accident -/
theorem chosen_ae {Ω : Type} [MeasurableSpace Ω] [IsProbabilityMeasure P] (ν : Measure Ω) [SFinite ν] (g : σ → Ω)
    (hg : MeasurePreserving g P ν) (T : Ω → Conf L N → Conf L N) (hTm : Measurable fun p : Conf L N × Ω => T p.2 p.1)
    (hT : ∀ o, MeasurePreserving (T o) (confBase sys ph rest L) (confBase sys ph rest L)) :
    ∀ᵐ y ∂(confDist sys ph rest L).prod P, T (g y.2) y.1 ∉ Accident sys ph L := by
  have h1 : ∀ᵐ p ∂(confDist sys ph rest L).prod ν, T p.2 p.1 ∉ Accident sys ph L := by
    have hm : MeasurableSet {p : Conf L N × Ω | T p.2 p.1 ∉ Accident sys ph L} := (hTm accident_measurable.compl)
    rw [Measure.ae_prod_iff_ae_ae hm]
    have hm' : MeasurableSet {p : Conf L N × Ω | T p.2 p.1 ∉ Accident sys ph L} := hm
    rw [Measure.ae_ae_comm hm']
    exact Filter.Eventually.of_forall fun o => accident_ac (T o) (hT o)
  exact ((MeasurePreserving.id (confDist sys ph rest L)).prod hg).quasiMeasurePreserving.ae h1

open Classical in
/-- block updates are defined except on a null set -/
theorem block_ae [NeZero N] (hP : sys.rng.Ideal N P) (hL : 0 < L) :
    ∀ᵐ y ∂(confDist sys ph rest L).prod P, ∀ st : State σ N M, viewPh L st = y → PhInv sys ph L len 0 st →
      ∃ st', blockUpdate sys ph st = some st' := by
  have := hP.prob
  have := equi_prob (Fin N)
  obtain ⟨f, hf, e⟩ := hP.site
  have hg : MeasurePreserving (fun r => ((f r).1, (sys.rng.uniform (f r).2).1)) P ((equi (Fin N)).prod unit) :=
    ((MeasurePreserving.id (equi (Fin N))).prod (measurePreserving_fst.comp hP.uniform)).comp hf
  have h := chosen_ae (sys := sys) (ph := ph) (rest := rest) ((equi (Fin N)).prod unit) _ hg
    (fun o x => if ph.g (sys.orb o.1) = 0 then x else (x.1, x.2 + column o.1 ((o.2 - 0.5) * ph.blockBox))) (by
      have hi : ∀ i : Fin N, Measurable fun p : Conf L N × ℝ =>
          if ph.g (sys.orb i) = 0 then p.1 else (p.1.1, p.1.2 + column i ((p.2 - 0.5) * ph.blockBox)) := by
        intro i
        split
        · exact measurable_fst
        · exact (measurable_fst.comp measurable_fst).prodMk
            ((measurable_snd.comp measurable_fst).add ((column_measurable i _).comp measurable_snd))
      have h2 : Measurable fun q : Fin N × (Conf L N × ℝ) => if ph.g (sys.orb q.1) = 0 then q.2.1
          else (q.2.1.1, q.2.1.2 + column q.1 ((q.2.2 - 0.5) * ph.blockBox)) :=
        measurable_from_prod_countable_right fun i => hi i
      exact h2.comp ((measurable_fst.comp measurable_snd).prodMk
        (measurable_fst.prodMk (measurable_snd.comp measurable_snd)))) fun o => by
      by_cases h0 : ph.g (sys.orb o.1) = 0
      · simp only [if_pos h0]
        exact MeasurePreserving.id _
      · simp only [if_neg h0]
        exact shift_preserves _ (column_support o.1 h0 _)
  filter_upwards [h] with y hy st hv hi
  refine blockUpdate_defined_at hi (e st.rng) fun h0 => proposal_ne hL hi _ ?_
  rw [pathsOf_block]
  rw [← hv] at hy
  have h1 : ¬ ph.g (sys.orb (f st.rng).1) = 0 := h0
  simp only [viewPh, h1, if_false] at hy
  exact hy

open Classical in
/-- flip updates are defined except on a null set -/
theorem flip_ae [NeZero N] (hP : sys.rng.Ideal N P) (hL : 0 < L) :
    ∀ᵐ y ∂(confDist sys ph rest L).prod P, ∀ st : State σ N M, viewPh L st = y → PhInv sys ph L len 0 st →
      ∃ st', flipUpdate sys ph st = some st' := by
  have := hP.prob
  have := equi_prob (Fin N)
  obtain ⟨f, hf, e⟩ := hP.site
  have hg : MeasurePreserving (fun r => (f r).1) P (equi (Fin N)) := measurePreserving_fst.comp hf
  have hT : ∀ i : Fin N, MeasurePreserving (fun x : Conf L N => if ph.g (sys.orb i) = 0 then x
      else mirror i (2 * ph.mu / ph.g (sys.orb i)) x) (confBase sys ph rest L) (confBase sys ph rest L) := by
    intro i
    by_cases h0 : ph.g (sys.orb i) = 0
    · simp only [if_pos h0]
      exact MeasurePreserving.id _
    · simp only [if_neg h0]
      exact mirror_preserves i h0 _
  have h := chosen_ae (sys := sys) (ph := ph) (rest := rest) (equi (Fin N)) _ hg
    (fun i x => if ph.g (sys.orb i) = 0 then x else mirror i (2 * ph.mu / ph.g (sys.orb i)) x)
    (measurable_from_prod_countable_left fun i => (hT i).measurable) hT
  filter_upwards [h] with y hy st hv hi
  refine flipUpdate_defined_at hi (e st.rng) fun h0 => proposal_ne hL hi _ ?_
  rw [pathsOf_mirror]
  rw [← hv] at hy
  have h1 : ¬ ph.g (sys.orb (f st.rng).1) = 0 := h0
  simp only [viewPh, h1, if_false] at hy
  exact hy

end proposals

/-! ## Almost sure steps -/

/-- for almost all values of `v`, the operation `f` is defined; it changes `v` by a map that preserves the measure -/
def Ae {Y α β : Type} [MeasurableSpace Y] (μ : Measure Y) (v : α → Y) (I : α → Prop) (v' : β → Y) (I' : β → Prop)
    (f : α → Option β) : Prop :=
  ∃ G : Y → Y, MeasurePreserving G μ μ ∧
    ∀ᵐ y ∂μ, ∀ a, v a = y → I a → ∃ b, f a = some b ∧ v' b = G y ∧ I' b

section ae

variable {Y α β γ : Type} [MeasurableSpace Y] {μ : Measure Y} {v : α → Y} {I : α → Prop} {v' : β → Y} {I' : β → Prop}
  {v'' : γ → Y} {I'' : γ → Prop}

theorem Ae.comp {f : α → Option β} {g : β → Option γ} (hf : Ae μ v I v' I' f) (hg : Ae μ v' I' v'' I'' g) :
    Ae μ v I v'' I'' fun a => (f a).bind g := by
  obtain ⟨F, hF, h1⟩ := hf
  obtain ⟨G, hG, h2⟩ := hg
  refine ⟨G ∘ F, hG.comp hF, ?_⟩
  filter_upwards [h1, hF.quasiMeasurePreserving.ae h2] with y h1 h2 a hv hi
  obtain ⟨b, e1, e2, e3⟩ := h1 a hv hi
  obtain ⟨c, e4, e5, e6⟩ := h2 b e2 e3
  exact ⟨c, by rw [e1]; exact e4, e5, e6⟩

theorem Ae.congr {f g : α → Option β} (hf : Ae μ v I v' I' f) (h : ∀ a, I a → f a = g a) : Ae μ v I v' I' g := by
  obtain ⟨F, hF, h1⟩ := hf
  refine ⟨F, hF, ?_⟩
  filter_upwards [h1] with y h1 a hv hi
  rw [← h a hi]
  exact h1 a hv hi

theorem Ae.mono {J : α → Prop} {J' : β → Prop} {f : α → Option β} (hf : Ae μ v I v' I' f) (h : ∀ a, J a → I a)
    (h' : ∀ b, I' b → J' b) : Ae μ v J v' J' f := by
  obtain ⟨F, hF, h1⟩ := hf
  refine ⟨F, hF, ?_⟩
  filter_upwards [h1] with y h1 a hv hi
  obtain ⟨b, e1, e2, e3⟩ := h1 a hv (h a hi)
  exact ⟨b, e1, e2, h' b e3⟩

theorem Ae.still {f : α → Option β} (h : ∀ a, I a → ∃ b, f a = some b ∧ v' b = v a ∧ I' b) : Ae μ v I v' I' f :=
  ⟨id, MeasurePreserving.id _, Filter.Eventually.of_forall fun y a hv hi => by
    obtain ⟨b, e1, e2, e3⟩ := h a hi
    exact ⟨b, e1, e2.trans hv, e3⟩⟩

theorem Ae.iterate {f : α → Option α} (hf : Ae μ v I v I f) (n : ℕ) : Ae μ v I v I (iterateM f n) := by
  induction n with
  | zero => exact Ae.still fun a hi => ⟨a, rfl, rfl, hi⟩
  | succ n ih => exact hf.comp ih

end ae

section run

variable [MeasurableSpace σ] {P : Measure σ} {Q : ℕ → M → Prop} {cfg : Cfg}

/-- with the invariant before slice `l` and room for `n` samples -/
def Ready (sys : Sys σ N M) (ph : Phonon) (L len : ℕ) (Q : ℕ → M → Prop) (l n : ℕ) (st : State σ N M) : Prop :=
  PhInv sys ph L len l st ∧ Q n st.meas

theorem phTimeSlice_ae [NeZero N] (hP : sys.rng.Ideal N P) (hok : sys.Ok len) (hL : 2 ≤ L) (hl : l < L)
    (noHS : Bool) (neqlt n : ℕ) (hQ : Budget sys L Q) :
    Ae ((confDist sys ph rest L).prod P) (viewPh L) (Ready sys ph L len Q l (n + hit neqlt l)) (viewPh L)
      (Ready sys ph L len Q (l + 1) n) fun st => phTimeSlice sys ph noHS neqlt st l := by
  have hsh : ∀ r, sys.rng.shuffle N r ≠ none := by
    obtain ⟨f, -, e⟩ := hP.shuffle
    intro r
    rw [e]
    exact Option.some_ne_none _
  obtain ⟨F1, hF1, hv1⟩ := hsSlice_viewPh (ph := ph) (rest := rest) (L := L) (l := l) hP hok hl
  obtain ⟨F2, hF2, hv2⟩ := localSlice_viewPh (ph := ph) (rest := rest) (L := L) (l := l) hP hok hL hl
  refine ⟨F2 ∘ (if noHS then id else F1), hF2.comp (by split; exacts [MeasurePreserving.id _, hF1]),
    Filter.Eventually.of_forall fun y st hv hi => ?_⟩
  obtain ⟨st', e, hq⟩ := phTimeSlice_defined hok hl noHS neqlt n hQ hi.1 hi.2 hsh
  refine ⟨st', e, ?_, (phTimeSlice_inv hok hl noHS neqlt (fun _ => True)
    (fun _ _ _ _ _ _ _ _ _ _ _ _ _ _ _ => trivial) hi.1 trivial e).1, hq⟩
  obtain ⟨st1, st2, e1, hm, hm1, -, e2, -, -, e3⟩ := phTimeSlice_split hok hl noHS neqlt hi.1 e
  have h1 : viewPh L st1 = (if noHS then id else F1) y := by
    rw [← hv]
    cases noHS
    · exact hv1 (MonteCarlo.wrap l st) st1 hm e1
    · rw [← Option.some.inj e1]
      rfl
  have h2 : viewPh L st' = viewPh L (MonteCarlo.updatePhB sys l st2) := by
    unfold measurePh at e3
    split at e3
    · simp only [Option.bind_eq_bind] at e3
      obtain ⟨m1, -, e3⟩ := Option.bind_eq_some_iff.1 e3
      obtain ⟨m2, -, e3⟩ := Option.bind_eq_some_iff.1 e3
      simp only [Option.pure_def, Option.some.injEq] at e3
      rw [← e3]
      rfl
    · rw [← Option.some.inj e3]
  rw [h2, Function.comp_apply, ← h1, ← hv2 st1 st2 hm1 e2]
  rfl

theorem phSlices_ae [NeZero N] (hP : sys.rng.Ideal N P) (hok : sys.Ok len) (hL : 2 ≤ L)
    (noHS : Bool) (neqlt n : ℕ) (hQ : Budget sys L Q) (k : ℕ) (hk : k ≤ L) :
    Ae ((confDist sys ph rest L).prod P) (viewPh L)
      (Ready sys ph L len Q 0 (n + ((List.range k).map (hit neqlt)).sum)) (viewPh L)
      (Ready sys ph L len Q k n) fun st => (List.range k).foldlM (phTimeSlice sys ph noHS neqlt) st := by
  induction k generalizing n with
  | zero => exact Ae.still fun st hi => ⟨st, rfl, rfl, hi⟩
  | succ k ih =>
    refine (((ih (n + hit neqlt k) (by omega)).comp
      (phTimeSlice_ae hP hok hL (show k < L by omega) noHS neqlt n hQ)).mono (fun st hi => ?_) fun _ hi => hi).congr
      fun st _ => ?_
    · rw [List.range_succ, List.map_append, List.sum_append] at hi
      simp only [List.map_cons, List.map_nil, List.sum_cons, List.sum_nil, add_zero] at hi
      rw [add_assoc, add_comm (hit neqlt k)]
      exact hi
    · rw [List.range_succ, List.foldlM_append]
      show _ = Option.bind _ _
      congr 1
      funext st1
      rw [List.foldlM_cons]
      show _ = Option.bind _ _
      show _ = Option.bind (phTimeSlice sys ph noHS neqlt st1 k) fun x => some x
      cases phTimeSlice sys ph noHS neqlt st1 k <;> rfl

theorem phIteration_ae [NeZero N] (hP : sys.rng.Ideal N P) (hok : sys.Ok len) (hL : 2 ≤ L) (noHS : Bool)
    (neqlt n : ℕ) (hQ : Budget sys L Q) :
    Ae ((confDist sys ph rest L).prod P) (viewPh L) (Ready sys ph L len Q 0 (n + L / neqlt)) (viewPh L)
      (Ready sys ph L len Q 0 n) fun st => phIteration sys ph noHS neqlt st := by
  have h1 := phSlices_ae (ph := ph) (rest := rest) hP hok hL noHS neqlt n hQ L le_rfl
  rw [sum_hit] at h1
  obtain ⟨F1, hF1, hv1⟩ := block_viewPh (ph := ph) (rest := rest) (L := L) hP hok
  obtain ⟨F2, hF2, hv2⟩ := flip_viewPh (ph := ph) (rest := rest) (L := L) hP hok
  have h2 : Ae ((confDist sys ph rest L).prod P) (viewPh L) (Ready sys ph L len Q 0 n) (viewPh L)
      (Ready sys ph L len Q 0 n) (blockUpdate sys ph) := by
    refine ⟨F1, hF1, ?_⟩
    filter_upwards [block_ae (sys := sys) (ph := ph) (rest := rest) (L := L) (len := len) hP (by omega)] with y hy st hv hi
    obtain ⟨st', e⟩ := hy st hv hi.1
    obtain ⟨i1, i2⟩ := blockUpdate_inv hok hi.1 e
    exact ⟨st', e, by rw [← hv]; exact hv1 _ _ hi.1 e, i1, by rw [i2]; exact hi.2⟩
  have h3 : Ae ((confDist sys ph rest L).prod P) (viewPh L) (Ready sys ph L len Q 0 n) (viewPh L)
      (Ready sys ph L len Q 0 n) (flipUpdate sys ph) := by
    refine ⟨F2, hF2, ?_⟩
    filter_upwards [flip_ae (sys := sys) (ph := ph) (rest := rest) (L := L) (len := len) hP (by omega)] with y hy st hv hi
    obtain ⟨st', e⟩ := hy st hv hi.1
    obtain ⟨i1, i2⟩ := flipUpdate_inv hok hi.1 e
    exact ⟨st', e, by rw [← hv]; exact hv2 _ _ hi.1 e, i1, by rw [i2]; exact hi.2⟩
  refine (((h1.mono (fun _ hi => hi) fun st hi => ⟨hi.1.next, hi.2⟩).comp (h2.iterate ph.nBlock)).comp
    (h3.iterate ph.nBlock)).congr fun st hi => ?_
  unfold phIteration
  rw [hi.1.inv.up.td.hL]
  exact Option.bind_assoc _ _ _

/-- samples of the iterations from `it` on -/
def samples (cfg : Cfg) (it : ℤ) : ℕ :=
  (cfg.nequil + cfg.nsampl - max it cfg.nequil).toNat * (cfg.L / cfg.neqlt.toNat)

theorem simBody_ae [NeZero N] (hP : sys.rng.Ideal N P) (hok : sys.Ok cfg.prodBlen) (hL : 2 ≤ cfg.L)
    (hp : cfg.usePhonons = true) (hQ : Budget sys cfg.L Q)
    (hmu : cfg.nuneqlt > 0 → ∀ (st : State σ N M) n, AtRest sys ph cfg st → Q n st.meas →
      ∃ m, sys.meas.uneq (st.Gu.sgndet * st.Gd.sgndet) st.tsmU st.tsmD st.meas = some m ∧ Q n m)
    (it : ℤ) (hit : it < cfg.nequil + cfg.nsampl) :
    Ae ((confDist sys ph rest cfg.L).prod P) (viewPh cfg.L) (Ready sys ph cfg.L cfg.prodBlen Q 0 (samples cfg it))
      (viewPh cfg.L) (Ready sys ph cfg.L cfg.prodBlen Q 0 (samples cfg (it + 1))) (simBody sys ph cfg it) := by
  have hsplit : samples cfg it = samples cfg (it + 1) + cfg.L / effNeqlt cfg it := by
    unfold samples effNeqlt
    by_cases hc : it ≥ cfg.nequil
    · rw [if_pos hc, ← Nat.succ_mul]
      congr 1
      omega
    · rw [if_neg hc, show Int.toNat 0 = 0 from rfl, Nat.div_zero, add_zero]
      congr 2
      omega
  have h1 := phIteration_ae (ph := ph) (rest := rest) hP hok hL cfg.noHS (effNeqlt cfg it) (samples cfg (it + 1)) hQ
  rw [← hsplit] at h1
  refine (h1.comp (g := fun st => measureUneq sys cfg it st) (Ae.still (v' := viewPh cfg.L)
    (I' := Ready sys ph cfg.L cfg.prodBlen Q 0 (samples cfg (it + 1))) fun st hi => ?_)).congr fun st _ => ?_
  · unfold measureUneq
    split
    · rename_i hc
      obtain ⟨m, hm, qm⟩ := hmu hc.2.1 st _ (by unfold AtRest; rw [hp]; exact hi.1) hi.2
      rw [hm]
      exact ⟨_, rfl, rfl, ⟨⟨hi.1.inv.up, hi.1.inv.down⟩, hi.1.coh⟩, qm⟩
    · exact ⟨_, rfl, rfl, hi⟩
  · unfold simBody
    rw [hp]
    rfl

theorem simLoop_ae [NeZero N] (hP : sys.rng.Ideal N P) (hok : sys.Ok cfg.prodBlen) (hL : 2 ≤ cfg.L)
    (hp : cfg.usePhonons = true) (hQ : Budget sys cfg.L Q)
    (hmu : cfg.nuneqlt > 0 → ∀ (st : State σ N M) n, AtRest sys ph cfg st → Q n st.meas →
      ∃ m, sys.meas.uneq (st.Gu.sgndet * st.Gd.sgndet) st.tsmU st.tsmD st.meas = some m ∧ Q n m)
    (stop : ℤ → Bool) (k : ℕ) (it : ℤ) (hk : k ≤ (cfg.nequil + cfg.nsampl - it).toNat) (p : Prog) :
    Ae ((confDist sys ph rest cfg.L).prod P) (viewPh cfg.L) (Ready sys ph cfg.L cfg.prodBlen Q 0 (samples cfg it))
      (fun r => viewPh cfg.L (LoopResult.state r)) (fun _ => True) fun st => simLoop (simBody sys ph cfg) stop k it st p := by
  induction k generalizing it p with
  | zero => exact Ae.still fun st _ => ⟨_, rfl, rfl, trivial⟩
  | succ k ih =>
    by_cases hs : stop it = true
    · refine Ae.still fun st _ => ?_
      unfold simLoop
      rw [if_pos hs]
      exact ⟨_, rfl, rfl, trivial⟩
    · refine ((simBody_ae hP hok hL hp hQ hmu it (by omega)).comp (ih (it + 1) (by omega) (update it p))).congr
        fun st _ => ?_
      rw [simLoop, if_neg hs]
      rfl

/-- what can be said about almost all initial configurations -/
theorem simulate_ae [NeZero N] (hP : sys.rng.Ideal N P) (hok : sys.Ok cfg.prodBlen) (hL : 2 ≤ cfg.L)
    (hd : cfg.prodBlen ∣ cfg.L) (hp : cfg.usePhonons = true) (hQ : Budget sys cfg.L Q)
    (hmu : cfg.nuneqlt > 0 → ∀ (st : State σ N M) n, AtRest sys ph cfg st → Q n st.meas →
      ∃ m, sys.meas.uneq (st.Gu.sgndet * st.Gd.sgndet) st.tsmU st.tsmD st.meas = some m ∧ Q n m)
    (stop : ℤ → Bool) (it : ℤ) (cnt : Counters) (meas : M) (hq : Q (samples cfg it) meas) :
    ∃ G : Conf cfg.L N × σ → Conf cfg.L N × σ,
      MeasurePreserving G ((confDist sys ph rest cfg.L).prod P) ((confDist sys ph rest cfg.L).prod P) ∧
      ∀ᵐ y ∂(confDist sys ph rest cfg.L).prod P, ∀ s X expX, fieldOf cfg.L s = y.1.1 → pathsOf cfg.L X = y.1.2 →
        (∀ l < cfg.L, ∀ i, expX l i = sys.expOf ph X l i) →
        ∃ r, simulate sys ph cfg stop it y.2 s X expX cnt meas = some r ∧ viewPh cfg.L r.state = G y := by
  have := hP.prob
  have hL0 : 0 < cfg.L := by omega
  obtain ⟨G, hG, h⟩ := simLoop_ae (rest := rest) hP hok hL hp hQ hmu stop _ it le_rfl
    (update it (start cfg.nequil cfg.nsampl))
  refine ⟨G, hG, ?_⟩
  have hw : ∀ᵐ y ∂(confDist sys ph rest cfg.L).prod P, confWeight sys ph cfg.L y.1 ≠ 0 :=
    Measure.quasiMeasurePreserving_fst.ae confWeight_ae
  filter_upwards [h, hw] with y h hw s X expX hs hx hE
  have hw0 : sys.weight cfg.L s expX ≠ 0 := fun h0 => hw (by
    rw [show y.1 = (fieldOf cfg.L s, pathsOf cfg.L X) from Prod.ext hs.symm hx.symm, confWeight_view hL0]
    unfold Sys.fullWeight
    rw [← weight_congr hL0 (fun _ _ => rfl) fun k hk => funext fun i => hE k hk i, h0, zero_mul])
  obtain ⟨st, e1⟩ := startState_defined_ph hL0 hd hp y.2 _ X _ cnt meas hw0
  have hi := startState_phInv hok hL0 hd hp _ _ _ _ _ _ hE st e1
  obtain ⟨-, f1, f2, f3, -, f4⟩ := startState_frame cfg _ _ _ _ _ _ _ e1
  obtain ⟨r, e2, e3, -⟩ := h st (by
    unfold viewPh
    rw [f2, f3, f4, hs, hx]) ⟨hi, by rw [f1]; exact hq⟩
  exact ⟨r, by unfold simulate; rw [e1]; exact e2, e3⟩

/-- C79: with probability one a run with phonons (and at least two slices) is defined: neither the initial
configuration nor any proposed one has weight zero -/
theorem simulate_almost_surely_defined [NeZero N] (hP : sys.rng.Ideal N P) (hok : sys.Ok cfg.prodBlen) (hL : 2 ≤ cfg.L)
    (hd : cfg.prodBlen ∣ cfg.L) (hp : cfg.usePhonons = true) (hQ : Budget sys cfg.L Q)
    (hmu : cfg.nuneqlt > 0 → ∀ (st : State σ N M) n, AtRest sys ph cfg st → Q n st.meas →
      ∃ m, sys.meas.uneq (st.Gu.sgndet * st.Gd.sgndet) st.tsmU st.tsmD st.meas = some m ∧ Q n m)
    (stop : ℤ → Bool) (it : ℤ) (cnt : Counters) (meas : M) (hq : Q (samples cfg it) meas) :
    ∀ᵐ y ∂(confDist sys ph rest cfg.L).prod P, ∃ r, simulate sys ph cfg stop it y.2 (Fock.extend y.1.1) (extendX y.1.2)
        (sys.expOf ph (extendX y.1.2)) cnt meas = some r := by
  obtain ⟨G, -, h⟩ := simulate_ae (rest := rest) hP hok hL hd hp hQ hmu stop it cnt meas hq
  exact h.mono fun y hy => (hy _ _ _ (fieldOf_extend _) (pathsOf_extendX _) fun _ _ _ => rfl).imp fun r hr => hr.1

/-- C77: if the initial configuration is distributed according to the weights and the random numbers are ideal, then
the final configuration of a run with phonons and at least two slices is distributed according to the weights, and the
final state of the source is independent of it and distributed as at the start -/
theorem simulate_stationary_ph [NeZero N] (hP : sys.rng.Ideal N P) (hok : sys.Ok cfg.prodBlen) (hL : 2 ≤ cfg.L)
    (hd : cfg.prodBlen ∣ cfg.L) (hp : cfg.usePhonons = true) (hQ : Budget sys cfg.L Q)
    (hmu : cfg.nuneqlt > 0 → ∀ (st : State σ N M) n, AtRest sys ph cfg st → Q n st.meas →
      ∃ m, sys.meas.uneq (st.Gu.sgndet * st.Gd.sgndet) st.tsmU st.tsmD st.meas = some m ∧ Q n m)
    (stop : ℤ → Bool) (it : ℤ) (cnt : Counters) (meas : M) (hq : Q (samples cfg it) meas)
    (S : Set (Conf cfg.L N)) (hS : MeasurableSet S) (A : Set σ) (hA : MeasurableSet A) :
    ((confDist sys ph rest cfg.L).prod P) {y | ∃ r, simulate sys ph cfg stop it y.2 (Fock.extend y.1.1) (extendX y.1.2)
        (sys.expOf ph (extendX y.1.2)) cnt meas = some r ∧
        (fieldOf cfg.L r.state.s, pathsOf cfg.L r.state.X) ∈ S ∧ r.state.rng ∈ A}
      = confDist sys ph rest cfg.L S * P A := by
  have := hP.prob
  obtain ⟨G, hG, h⟩ := simulate_ae (ph := ph) (rest := rest) hP hok hL hd hp hQ hmu stop it cnt meas hq
  rw [← Measure.prod_prod, ← hG.measure_preimage (hS.prod hA).nullMeasurableSet]
  refine measure_congr ?_
  filter_upwards [h] with y hy
  obtain ⟨r, e, hv⟩ := hy _ _ _ (fieldOf_extend _) (pathsOf_extendX _) fun _ _ _ => rfl
  refine propext ⟨?_, fun hy => ?_⟩
  · rintro ⟨r', e', hr⟩
    obtain rfl : r = r' := Option.some.inj (e.symm.trans e')
    show G y ∈ S ×ˢ A
    rw [← hv]
    exact hr
  · refine ⟨r, e, ?_⟩
    have hy : G y ∈ S ×ˢ A := hy
    rw [← hv] at hy
    exact hy

end run

end Verif.MonteCarlo
