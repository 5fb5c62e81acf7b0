import Verif.Lemmas.Settle
import Verif.Props.FieldChain
import Verif.Props.FreshStart

/-!
# The sweeps of runs with phonons (C105)

The updates of a sweep as explicit maps of the configuration and the state of the source of random
numbers, and the functions of the configuration which they leave unchanged.
-/

set_option autoImplicit false

namespace Verif.MonteCarlo

open MeasureTheory Verif.Metropolis Verif.Fock Verif.Greens Verif.Progress Verif.Links

variable {σ : Type} {N : ℕ} {M : Type}

/-! ## Entries of the field without effect -/

open Classical in
/-- change of entries of the field at sites on which it does not act -/
noncomputable def vary (sys : Sys σ N M) {L : ℕ} (a : Field L N) (x : Conf L N) : Conf L N :=
  (fun l i => if Decoupled sys i then x.1 l i + a l i else x.1 l i, x.2)

section vary

variable {sys : Sys σ N M} {ph : Phonon} {L l : ℕ}

theorem vary_vary (a b : Field L N) (x : Conf L N) : vary sys a (vary sys b x) = vary sys (a + b) x := by
  unfold vary
  ext1
  · funext l i
    by_cases h : Decoupled sys i
    · simp only [if_pos h, Pi.add_apply]
      rw [add_assoc, add_comm (b l i)]
    · simp only [if_neg h]
  · rfl

theorem vary_involution (a : Field L N) (x : Conf L N) : vary sys a (vary sys a x) = x := by
  rw [vary_vary, show a + a = 0 from funext fun l => funext fun i => (by decide : ∀ b : Fin 2, b + b = 0) _]
  unfold vary
  ext1
  · funext l i
    simp
  · rfl

theorem fieldB_vary (E : ℕ → Fin N → ℝ) (a : Field L N) (x : Conf L N) :
    sys.fieldB sys.hs.expVu (Fock.extend (vary sys a x).1) E = sys.fieldB sys.hs.expVu (Fock.extend x.1) E ∧
    sys.fieldB sys.hs.expVd (Fock.extend (vary sys a x).1) E = sys.fieldB sys.hs.expVd (Fock.extend x.1) E := by
  have key : ∀ expV : Fin 2 → ℕ → ℝ, (∀ i, Decoupled sys i → expV 0 (sys.orb i) = expV 1 (sys.orb i)) →
      sys.fieldB expV (Fock.extend (vary sys a x).1) E = sys.fieldB expV (Fock.extend x.1) E := by
    intro expV he
    funext k
    unfold Sys.fieldB
    congr 2
    funext j
    by_cases hj : Decoupled sys j
    · have hall : ∀ b c : Fin 2, expV b (sys.orb j) = expV c (sys.orb j) := by
        intro b c
        have := he j hj
        fin_cases b <;> fin_cases c <;> first | rfl | exact this | exact this.symm
      rw [hall]
    · congr 2
      unfold Fock.extend vary
      split
      · simp only [if_neg hj]
      · rfl
  exact ⟨key _ fun i h => h.1, key _ fun i h => h.2⟩

theorem confWeight_vary (a : Field L N) (x : Conf L N) : confWeight sys ph L (vary sys a x) = confWeight sys ph L x := by
  unfold confWeight Sys.fullWeight Sys.weight Sys.flow
  rw [(fieldB_vary _ a x).1, (fieldB_vary _ a x).2]
  rfl

theorem flipConf_vary (l : ℕ) (i : Fin N) (a : Field L N) (x : Conf L N) :
    flipConf l i (vary sys a x) = vary sys a (flipConf l i x) := by
  unfold flipConf vary
  ext1
  · simp only [flipAt_apply]
    funext k j
    have : ∀ b c : Fin 2, 1 - (b + c) = 1 - b + c := by decide
    split_ifs <;> first | rfl | exact this _ _
  · rfl

/-- at a site on which the field does not act, reversing an entry is a change without effect -/
theorem flipConf_decoupled {i : Fin N} (h : Decoupled sys i) (l : ℕ) :
    ∃ a : Field L N, ∀ x, flipConf l i x = vary sys a x := by
  refine ⟨fun k j => if (k : ℕ) = l ∧ j = i then 1 else 0, fun x => ?_⟩
  unfold flipConf vary
  ext1
  · simp only [flipAt_apply]
    funext k j
    have h1 : ∀ b : Fin 2, 1 - b = b + 1 := by decide
    by_cases hkj : (k : ℕ) = l ∧ j = i
    · simp only [if_pos hkj]
      rw [hkj.2, if_pos h, h1]
    · simp only [if_neg hkj, add_zero, ite_self]
  · rfl

theorem mirror_vary (i : Fin N) (c : ℝ) (a : Field L N) (x : Conf L N) :
    mirror i c (vary sys a x) = vary sys a (mirror i c x) := rfl

theorem shift_vary (v : Paths L N) (a : Field L N) (x : Conf L N) :
    ((vary sys a x).1, (vary sys a x).2 + v) = vary sys a (x.1, x.2 + v) := rfl

variable {rest : Measure ℝ} [SigmaFinite rest]

theorem vary_base (a : Field L N) :
    MeasurePreserving (vary sys a) (confBase sys ph rest L) (confBase sys ph rest L) := by
  classical
  have h := (count_involution (fun s : Field L N => (vary sys a (s, 0)).1) fun s =>
    congrArg Prod.fst (vary_involution (sys := sys) a (s, 0))).prod
      (MeasurePreserving.id (pathBase sys ph rest L))
  exact h

omit [SigmaFinite rest] in
/-- changes which do not affect the weight preserve the distribution -/
theorem target_preserves {E : Type*} [MeasurableSpace E] {m : Measure E} {w : E → ℝ} (hw : Measurable w) {τ : E → E}
    (hτ : MeasurePreserving τ m m) (h : ∀ x, w (τ x) = w x) :
    MeasurePreserving τ (target m w) (target m w) := by
  refine ⟨hτ.measurable, ?_⟩
  ext s hs
  rw [Measure.map_apply hτ.measurable hs]
  unfold target
  rw [withDensity_apply _ (hτ.measurable hs), withDensity_apply _ hs]
  have := hτ.setLIntegral_comp_preimage hs hw.ennreal_ofReal
  rw [← this]
  simp only [h]

theorem vary_preserves (a : Field L N) :
    MeasurePreserving (vary sys a) (confDist sys ph rest L) (confDist sys ph rest L) :=
  target_preserves confWeight_measurable (vary_base a) (confWeight_vary a)

end vary

/-! ## The updates as maps -/

section maps

/-- Hubbard-Stratonovich updates of a slice, in the order given by the source of random numbers -/
noncomputable def hsMap (sys : Sys σ N M) (ph : Phonon) (L : ℕ) (f : σ → Equiv.Perm (Fin N) × σ) (l : ℕ)
    (y : Conf L N × σ) : Conf L N × σ :=
  ((List.finRange N).map (f y.2).1).foldl (fun y i => mapStep sys ph L (flipConf l i) y) (y.1, (f y.2).2)

/-- local phonon updates of a slice -/
noncomputable def localMap (sys : Sys σ N M) (ph : Phonon) (L : ℕ) (f : σ → Equiv.Perm (Fin N) × σ) (l : ℕ)
    (y : Conf L N × σ) : Conf L N × σ :=
  ((localOrder ((List.finRange N).map (f y.2).1) ph.nLocal).getD []).foldl (localStep sys ph L l) (y.1, (f y.2).2)

/-- updates of a slice -/
noncomputable def sliceMap (sys : Sys σ N M) (ph : Phonon) (L : ℕ) (f : σ → Equiv.Perm (Fin N) × σ) (noHS : Bool)
    (l : ℕ) : Conf L N × σ → Conf L N × σ :=
  localMap sys ph L f l ∘ if noHS then id else hsMap sys ph L f l

/-- updates of the first slices -/
noncomputable def slicesMap (sys : Sys σ N M) (ph : Phonon) (L : ℕ) (f : σ → Equiv.Perm (Fin N) × σ) (noHS : Bool) :
    ℕ → Conf L N × σ → Conf L N × σ
  | 0 => id
  | k + 1 => sliceMap sys ph L f noHS k ∘ slicesMap sys ph L f noHS k

/-- block update -/
noncomputable def blockMap (sys : Sys σ N M) (ph : Phonon) (L : ℕ) (g : σ → Fin N × σ) (y : Conf L N × σ) :
    Conf L N × σ :=
  blockStep sys ph L (g y.2).1 (y.1, (g y.2).2)

/-- flip update -/
noncomputable def mirrorMap (sys : Sys σ N M) (ph : Phonon) (L : ℕ) (g : σ → Fin N × σ) (y : Conf L N × σ) :
    Conf L N × σ :=
  flipStep sys ph L (g y.2).1 (y.1, (g y.2).2)

/-- block and flip updates of an iteration -/
noncomputable def globalMap (sys : Sys σ N M) (ph : Phonon) (L : ℕ) (g : σ → Fin N × σ) :
    Conf L N × σ → Conf L N × σ :=
  (mirrorMap sys ph L g)^[ph.nBlock] ∘ (blockMap sys ph L g)^[ph.nBlock]

/-- updates of an iteration -/
noncomputable def iterMap (sys : Sys σ N M) (ph : Phonon) (L : ℕ) (f : σ → Equiv.Perm (Fin N) × σ)
    (g : σ → Fin N × σ) (noHS : Bool) : Conf L N × σ → Conf L N × σ :=
  globalMap sys ph L g ∘ slicesMap sys ph L f noHS L

end maps

/-! ## The updates are steps -/

section steps

variable {sys : Sys σ N M} {ph : Phonon} {rest : Measure ℝ} [SigmaFinite rest] {L l : ℕ} [MeasurableSpace σ]
  {P : Measure σ} {f : σ → Equiv.Perm (Fin N) × σ} {g : σ → Fin N × σ}

omit [MeasurableSpace σ] in
theorem flipConf_base (hl : l < L) (i : Fin N) :
    MeasurePreserving (flipConf l i) (confBase sys ph rest L) (confBase sys ph rest L) :=
  (count_involution _ (flipAt_flipAt hl i)).prod (MeasurePreserving.id _)

theorem mapStep_step (hP : sys.rng.Ideal N P) {T : Conf L N → Conf L N}
    (hT : MeasurePreserving T (confBase sys ph rest L) (confBase sys ph rest L)) (hinv : ∀ x, T (T x) = x)
    (hc : ∀ a x, T (vary sys a x) = vary sys a (T x)) :
    Step (confDist sys ph rest L) P (vary sys) (mapStep sys ph L T) := by
  have := hP.prob
  exact ⟨mapStep_preserves hP T hT hinv, flipper_fair confWeight_measurable hT.measurable hP.uniform,
    flipper_comm confWeight_vary hc _⟩

theorem shiftStep_step (hP : sys.rng.Ideal N P) (V : ℝ → Paths L N) (hV : Measurable V) (b : ℝ)
    (hneg : ∀ u, V ((u - 0.5) * b) + V ((1 - u - 0.5) * b) = 0)
    (hsup : ∀ s k j, ph.g (sys.orb j) = 0 → V s k j = 0) :
    Step (confDist sys ph rest L) P (vary sys) (shiftStep sys ph L fun u => V ((u - 0.5) * b)) := by
  have := hP.prob
  have hv : Measurable fun u : ℝ => V ((u - 0.5) * b) := hV.comp ((measurable_id.sub_const _).mul_const _)
  refine ⟨shiftStep_preserves hP _ hv hneg fun u => hsup _, ?_, ?_⟩
  · refine shifter_fair (V := fun s x => (x.1, x.2 + V s)) confWeight_measurable ?_ b hP.uniform
    exact (measurable_fst.comp measurable_snd).prodMk
      ((measurable_snd.comp measurable_snd).add (hV.comp measurable_fst))
  · exact shifter_comm (V := fun s x => (x.1, x.2 + V s)) confWeight_vary (fun s a x => shift_vary (V s) a x) b _

omit [MeasurableSpace σ] [SigmaFinite rest] in
theorem spike_measurable' (l : ℕ) (i : Fin N) : Measurable fun s : ℝ => (spike l i s : Paths L N) := by
  refine measurable_pi_lambda _ fun k => measurable_pi_lambda _ fun j => ?_
  unfold spike
  by_cases h : (k : ℕ) = l ∧ j = i
  · simp only [h, and_self, if_true]; fun_prop
  · simp only [h, if_false]; fun_prop

omit [MeasurableSpace σ] [SigmaFinite rest] in
theorem column_measurable' (i : Fin N) : Measurable fun s : ℝ => (column i s : Paths L N) := by
  refine measurable_pi_lambda _ fun k => measurable_pi_lambda _ fun j => ?_
  unfold column
  by_cases h : j = i
  · simp only [h, if_true]; fun_prop
  · simp only [h, if_false]; fun_prop

theorem hsStep_step (hP : sys.rng.Ideal N P) (hl : l < L) (i : Fin N) :
    Step (confDist sys ph rest L) P (vary sys) (mapStep sys ph L (flipConf l i)) :=
  mapStep_step hP (flipConf_base hl i) (fun x => by unfold flipConf; simp only [flipAt_flipAt hl])
    (flipConf_vary l i)

theorem localStep_step (hP : sys.rng.Ideal N P) (l : ℕ) (i : Fin N) :
    Step (confDist sys ph rest L) P (vary sys) fun y => localStep sys ph L l y i := by
  have := hP.prob
  unfold localStep
  by_cases hg : ph.g (sys.orb i) = 0
  · simp only [if_pos hg]
    exact Step.id
  · simp only [if_neg hg]
    exact shiftStep_step hP (spike l i) (spike_measurable' l i) _ (spike_neg l i _) fun s => spike_support l i hg _

theorem blockStep_step (hP : sys.rng.Ideal N P) (i : Fin N) :
    Step (confDist sys ph rest L) P (vary sys) (blockStep sys ph L i) := by
  have := hP.prob
  unfold blockStep
  by_cases hg : ph.g (sys.orb i) = 0
  · simp only [if_pos hg]
    exact Step.id
  · simp only [if_neg hg]
    exact shiftStep_step hP (column i) (column_measurable' i) _ (column_neg i _) fun s => column_support i hg _

theorem flipStep_step (hP : sys.rng.Ideal N P) (i : Fin N) :
    Step (confDist sys ph rest L) P (vary sys) (flipStep sys ph L i) := by
  have := hP.prob
  unfold flipStep
  by_cases hg : ph.g (sys.orb i) = 0
  · simp only [if_pos hg]
    exact Step.id
  · simp only [if_neg hg]
    exact mapStep_step hP (mirror_preserves i hg _) (mirror_mirror i _) (mirror_vary i _)

/-- the orders of the sites are drawn with equal probabilities -/
def Shuffles (P : Measure σ) (f : σ → Equiv.Perm (Fin N) × σ) : Prop :=
  MeasurePreserving f P ((equi (Equiv.Perm (Fin N))).prod P)

/-- the sites are drawn with equal probabilities -/
def Picks (P : Measure σ) (g : σ → Fin N × σ) : Prop := MeasurePreserving g P ((equi (Fin N)).prod P)

theorem hsMap_step (hP : sys.rng.Ideal N P) (hf : Shuffles P f) (hl : l < L) :
    Step (confDist sys ph rest L) P (vary sys) (hsMap sys ph L f l) := by
  have := hP.prob
  have := equi_prob (Equiv.Perm (Fin N))
  have h : ∀ p : Equiv.Perm (Fin N), Step (confDist sys ph rest L) P (vary sys) fun y =>
      ((List.finRange N).map p).foldl (fun y i => mapStep sys ph L (flipConf l i) y) y :=
    fun p => Step.fold (fun i => hsStep_step hP hl i) _
  exact Step.mix hf (measurable_from_prod_countable_right fun p => (h p).mp.measurable) h

theorem localMap_step (hP : sys.rng.Ideal N P) (hf : Shuffles P f) (l : ℕ) :
    Step (confDist sys ph rest L) P (vary sys) (localMap sys ph L f l) := by
  have := hP.prob
  have := equi_prob (Equiv.Perm (Fin N))
  have h : ∀ p : Equiv.Perm (Fin N), Step (confDist sys ph rest L) P (vary sys) fun y =>
      ((localOrder ((List.finRange N).map p) ph.nLocal).getD []).foldl (localStep sys ph L l) y :=
    fun p => Step.fold (fun i => localStep_step hP l i) _
  exact Step.mix hf (measurable_from_prod_countable_right fun p => (h p).mp.measurable) h

theorem sliceMap_step (hP : sys.rng.Ideal N P) (hf : Shuffles P f) (noHS : Bool) (hl : l < L) :
    Step (confDist sys ph rest L) P (vary sys) (sliceMap sys ph L f noHS l) := by
  have := hP.prob
  unfold sliceMap
  refine Step.comp ?_ (localMap_step hP hf l)
  cases noHS
  · exact hsMap_step hP hf hl
  · exact Step.id

theorem slicesMap_step (hP : sys.rng.Ideal N P) (hf : Shuffles P f) (noHS : Bool) {k : ℕ} (hk : k ≤ L) :
    Step (confDist sys ph rest L) P (vary sys) (slicesMap sys ph L f noHS k) := by
  have := hP.prob
  induction k with
  | zero => exact Step.id
  | succ k ih => exact (ih (by omega)).comp (sliceMap_step hP hf noHS (by omega))

theorem blockMap_step [NeZero N] (hP : sys.rng.Ideal N P) (hg : Picks P g) :
    Step (confDist sys ph rest L) P (vary sys) (blockMap sys ph L g) := by
  have := hP.prob
  have := equi_prob (Fin N)
  exact Step.mix hg (measurable_from_prod_countable_right fun p => (blockStep_step (rest := rest) hP p).mp.measurable)
    fun i => blockStep_step hP i

theorem mirrorMap_step [NeZero N] (hP : sys.rng.Ideal N P) (hg : Picks P g) :
    Step (confDist sys ph rest L) P (vary sys) (mirrorMap sys ph L g) := by
  have := hP.prob
  have := equi_prob (Fin N)
  exact Step.mix hg (measurable_from_prod_countable_right fun p => (flipStep_step (rest := rest) hP p).mp.measurable)
    fun i => flipStep_step hP i

theorem globalMap_step [NeZero N] (hP : sys.rng.Ideal N P) (hg : Picks P g) :
    Step (confDist sys ph rest L) P (vary sys) (globalMap sys ph L g) := by
  have := hP.prob
  exact ((blockMap_step hP hg).iterate _).comp ((mirrorMap_step hP hg).iterate _)

theorem iterMap_step [NeZero N] (hP : sys.rng.Ideal N P) (hf : Shuffles P f) (hg : Picks P g) (noHS : Bool) :
    Step (confDist sys ph rest L) P (vary sys) (iterMap sys ph L f g noHS) := by
  have := hP.prob
  exact (slicesMap_step hP hf noHS le_rfl).comp (globalMap_step hP hg)

end steps

/-! ## Functions which the updates leave unchanged -/

section rigid

variable {sys : Sys σ N M} {ph : Phonon} {rest : Measure ℝ} [SigmaFinite rest] {L l : ℕ} [MeasurableSpace σ]
  {P : Measure σ} {f : σ → Equiv.Perm (Fin N) × σ} {g : σ → Fin N × σ}

/-- reversing an entry of the field does not change the function -/
def FlipFree (sys : Sys σ N M) (ph : Phonon) (rest : Measure ℝ) (L l : ℕ) (i : Fin N) (h : Conf L N → ℝ) : Prop :=
  (fun x => h (flipConf l i x)) =ᵐ[confBase sys ph rest L] h

/-- displacing an entry of the phonon field does not change the function -/
def ShiftFree (sys : Sys σ N M) (ph : Phonon) (rest : Measure ℝ) (L l : ℕ) (i : Fin N) (h : Conf L N → ℝ) : Prop :=
  ∀ s, (fun x => h (x.1, x.2 + spike l i s)) =ᵐ[confBase sys ph rest L] h

/-- reversing an entry of the field changes the weight of almost all configurations, except at sites on which the
field does not act -/
def ResponsivePh (sys : Sys σ N M) (ph : Phonon) (rest : Measure ℝ) (L : ℕ) : Prop :=
  ∀ i : Fin N, Decoupled sys i ∨ ∀ l < L, ∀ᵐ x ∂confBase sys ph rest L,
    confWeight sys ph L (flipConf l i x) ≠ confWeight sys ph L x

variable (hpos : ∀ᵐ x ∂confBase sys ph rest L, 0 < confWeight sys ph L x)

include hpos

omit [MeasurableSpace σ] [SigmaFinite rest] in
theorem ae_dist {p : Conf L N → Prop} : (∀ᵐ x ∂confDist sys ph rest L, p x) ↔ ∀ᵐ x ∂confBase sys ph rest L, p x :=
  ae_of_target confWeight_measurable hpos

omit [MeasurableSpace σ] in
theorem flipFree_robust (hl : l < L) (i : Fin N) : Robust (confDist sys ph rest L) (FlipFree sys ph rest L l i) := by
  intro h h' e hh
  have e' : h =ᵐ[confBase sys ph rest L] h' := (ae_dist hpos).1 e
  unfold FlipFree at *
  filter_upwards [hh, e', (flipConf_base hl i).quasiMeasurePreserving.ae e'] with x h1 h2 h3
  rw [← h3, h1, h2]

omit [MeasurableSpace σ] in
theorem shiftFree_robust (i : Fin N) (hg : ph.g (sys.orb i) ≠ 0) :
    Robust (confDist sys ph rest L) (ShiftFree sys ph rest L l i) := by
  intro h h' e hh s
  have e' : h =ᵐ[confBase sys ph rest L] h' := (ae_dist hpos).1 e
  filter_upwards [hh s, e', (shift_preserves (sys := sys) (ph := ph) (rest := rest) (spike l i s)
    (spike_support l i hg s)).quasiMeasurePreserving.ae e'] with x h1 h2 h3
  rw [← h3, h1, h2]

theorem hsStep_rigid (hP : sys.rng.Ideal N P) (hr : ResponsivePh sys ph rest L) (hl : l < L) (i : Fin N) :
    Rigid (confDist sys ph rest L) P (vary sys) (mapStep sys ph L (flipConf l i)) (FlipFree sys ph rest L l i) := by
  have := hP.prob
  intro h h' hh hh' hlink
  rcases hr i with hd | hne
  · obtain ⟨a, ha⟩ := flipConf_decoupled (L := L) hd l
    refine ⟨?_, Filter.Eventually.of_forall fun x => ?_⟩
    · exact (ae_dist hpos).2 (flipper_trivial confWeight_measurable hpos
        (fun x => by rw [ha, confWeight_vary]) hP.uniform (fun x => by rw [ha, hh'.inv]) hlink)
    · show h (flipConf l i x) = h x
      rw [ha, hh.inv]
  · obtain ⟨h1, h2⟩ := flipper_rigid confWeight_measurable hpos (flipConf_base hl i)
      (fun x => by unfold flipConf; simp only [flipAt_flipAt hl]) (hne l hl) hP.uniform hlink
    exact ⟨(ae_dist hpos).2 h1, h2⟩

theorem localStep_rigid (hP : sys.rng.Ideal N P) (hb : ph.localBox ≠ 0) (i : Fin N) (hg : ph.g (sys.orb i) ≠ 0) :
    Rigid (confDist sys ph rest L) P (vary sys) (fun y => localStep sys ph L l y i) (ShiftFree sys ph rest L l i) := by
  have := hP.prob
  intro h h' hh hh' hlink
  unfold localStep at hlink
  simp only [if_neg hg] at hlink
  obtain ⟨h1, h2⟩ := shifter_rigid (V := fun s (x : Conf L N) => (x.1, x.2 + spike l i s)) confWeight_measurable hpos
    ((measurable_fst.comp measurable_snd).prodMk
      ((measurable_snd.comp measurable_snd).add ((spike_measurable' l i).comp measurable_fst)))
    (fun s => shift_preserves _ (spike_support l i hg s))
    (fun x => Prod.ext rfl (by funext k j; simp [spike]))
    (fun s t x => Prod.ext rfl (by
      funext k j
      simp only [spike, Pi.add_apply]
      split <;> ring)) hb hP.uniform hh.meas hh'.meas hlink
  exact ⟨(ae_dist hpos).2 h1, h2⟩

theorem hsMap_rigid (hP : sys.rng.Ideal N P) (hf : Shuffles P f) (hr : ResponsivePh sys ph rest L) (hl : l < L) :
    Rigid (confDist sys ph rest L) P (vary sys) (hsMap sys ph L f l) fun h => ∀ i, FlipFree sys ph rest L l i h := by
  have := hP.prob
  have := equi_prob (Equiv.Perm (Fin N))
  have h : ∀ p : Equiv.Perm (Fin N), Step (confDist sys ph rest L) P (vary sys) fun y =>
      ((List.finRange N).map p).foldl (fun y i => mapStep sys ph L (flipConf l i) y) y :=
    fun p => Step.fold (fun i => hsStep_step hP hl i) _
  refine (Rigid.mix hf (S := fun (p : Equiv.Perm (Fin N)) y => ((List.finRange N).map p).foldl (fun y i => mapStep sys ph L (flipConf l i) y) y)
    (measurable_from_prod_countable_right fun p => (h p).mp.measurable)
    (fun p => by rw [equi_apply]; exact ENNReal.inv_ne_zero.2 (ENNReal.natCast_ne_top _))
    fun p => Rigid.fold (fun i => hsStep_step hP hl i) (fun i => hsStep_rigid hpos hP hr hl i)
      (fun i => flipFree_robust hpos hl i) ((List.finRange N).map p)).mono fun k hk i => ?_
  exact hk 1 i (List.mem_map.2 ⟨i, List.mem_finRange i, rfl⟩)

omit hpos [SigmaFinite rest] [MeasurableSpace σ] in
/-- the first site of the order is visited -/
theorem localOrder_first {i : Fin N} {order : List (Fin N)} {n : ℕ} (h : order[0]? = some i) (hn : 0 < n)
    (hlen : order.length = N) : i ∈ (localOrder order n).getD [] := by
  have : NeZero N := ⟨fun h0 => by have := i.2; omega⟩
  obtain ⟨sites, hs⟩ := localOrder_defined order hlen n
  rw [hs, Option.getD_some]
  obtain ⟨m, rfl⟩ : ∃ m, n = m + 1 := ⟨n - 1, by omega⟩
  unfold localOrder at hs
  rw [List.range_succ_eq_map, List.mapM_cons, Nat.zero_mod, h] at hs
  simp only [Option.bind_eq_bind, Option.bind_some, Option.pure_def] at hs
  obtain ⟨t, -, e⟩ := Option.bind_eq_some_iff.1 hs
  rw [← Option.some.inj e]
  exact List.mem_cons_self

theorem localMap_rigid (hP : sys.rng.Ideal N P) (hf : Shuffles P f) (hb : ph.localBox ≠ 0) (hn : 0 < ph.nLocal)
    (hg : ∀ i, ph.g (sys.orb i) ≠ 0) :
    Rigid (confDist sys ph rest L) P (vary sys) (localMap sys ph L f l) fun h => ∀ i, ShiftFree sys ph rest L l i h := by
  have := hP.prob
  have := equi_prob (Equiv.Perm (Fin N))
  have h : ∀ p : Equiv.Perm (Fin N), Step (confDist sys ph rest L) P (vary sys) fun y =>
      ((localOrder ((List.finRange N).map p) ph.nLocal).getD []).foldl (localStep sys ph L l) y :=
    fun p => Step.fold (fun i => localStep_step hP l i) _
  refine (Rigid.mix hf (S := fun (p : Equiv.Perm (Fin N)) y =>
      ((localOrder ((List.finRange N).map p) ph.nLocal).getD []).foldl (localStep sys ph L l) y)
    (measurable_from_prod_countable_right fun p => (h p).mp.measurable)
    (fun p => by rw [equi_apply]; exact ENNReal.inv_ne_zero.2 (ENNReal.natCast_ne_top _))
    fun p => Rigid.fold (fun i => localStep_step hP l i) (fun i => localStep_rigid hpos hP hb i (hg i))
      (fun i => shiftFree_robust hpos i (hg i)) _).mono fun k hk i => ?_
  refine hk (Equiv.swap ⟨0, Nat.lt_of_le_of_lt (Nat.zero_le _) i.2⟩ i) i (localOrder_first ?_ hn ?_)
  · have h0 : 0 < N := Nat.lt_of_le_of_lt (Nat.zero_le _) i.2
    rw [List.getElem?_map, List.getElem?_eq_getElem (by rw [List.length_finRange]; exact h0)]
    simp
  · rw [List.length_map, List.length_finRange]

/-- a function which the updates of a slice leave unchanged does not depend on the slice -/
theorem sliceMap_rigid (hP : sys.rng.Ideal N P) (hf : Shuffles P f) (hr : ResponsivePh sys ph rest L) {noHS : Bool}
    (hno : noHS = true → ∀ i, Decoupled sys i) (hb : ph.localBox ≠ 0) (hn : 0 < ph.nLocal)
    (hg : ∀ i, ph.g (sys.orb i) ≠ 0) (hl : l < L) :
    Rigid (confDist sys ph rest L) P (vary sys) (sliceMap sys ph L f noHS l) fun h =>
      ∀ i, FlipFree sys ph rest L l i h ∧ ShiftFree sys ph rest L l i h := by
  have := hP.prob
  have h2 := localMap_rigid (l := l) hpos hP hf hb hn hg
  have hrob : Robust (confDist sys ph rest L) fun h => ∀ i, ShiftFree sys ph rest L l i h :=
    fun h h' e hh i => shiftFree_robust hpos i (hg i) _ _ e (hh i)
  unfold sliceMap
  cases noHS
  · exact (Rigid.comp (hsMap_step hP hf hl) (localMap_step hP hf l) (hsMap_rigid hpos hP hf hr hl) h2 hrob).mono
      fun k hk i => ⟨hk.1 i, hk.2 i⟩
  · intro h h' hh hh' hlink
    obtain ⟨e, q⟩ := h2 h h' hh hh' hlink
    refine ⟨e, fun i => ⟨Filter.Eventually.of_forall fun x => ?_, q i⟩⟩
    obtain ⟨a, ha⟩ := flipConf_decoupled (L := L) (hno rfl i) l
    show h (flipConf l i x) = h x
    rw [ha, hh.inv]

theorem slicesMap_rigid (hP : sys.rng.Ideal N P) (hf : Shuffles P f) (hr : ResponsivePh sys ph rest L) {noHS : Bool}
    (hno : noHS = true → ∀ i, Decoupled sys i) (hb : ph.localBox ≠ 0) (hn : 0 < ph.nLocal)
    (hg : ∀ i, ph.g (sys.orb i) ≠ 0) {k : ℕ} (hk : k ≤ L) :
    Rigid (confDist sys ph rest L) P (vary sys) (slicesMap sys ph L f noHS k) fun h =>
      ∀ l < k, ∀ i, FlipFree sys ph rest L l i h ∧ ShiftFree sys ph rest L l i h := by
  have := hP.prob
  induction k with
  | zero => exact Rigid.id.mono fun _ _ l hl => absurd hl (Nat.not_lt_zero l)
  | succ k ih =>
    refine (Rigid.comp (slicesMap_step hP hf noHS (by omega)) (sliceMap_step hP hf noHS (by omega))
      (ih (by omega)) (sliceMap_rigid hpos hP hf hr hno hb hn hg (show k < L by omega))
      fun h h' e hh i => ⟨flipFree_robust hpos (by omega) i _ _ e (hh i).1,
        shiftFree_robust hpos i (hg i) _ _ e (hh i).2⟩).mono fun h hh l hl i => ?_
    rcases Nat.lt_succ_iff_lt_or_eq.1 hl with hl | rfl
    · exact hh.1 l hl i
    · exact hh.2 i

end rigid

/-! ## Functions without dependence on any entry -/

section constant

variable {sys : Sys σ N M} {ph : Phonon} {rest : Measure ℝ} [SigmaFinite rest] {L l : ℕ}

theorem shift_all (hg : ∀ i, ph.g (sys.orb i) ≠ 0) {h : Conf L N → ℝ}
    (hs : ∀ l < L, ∀ i, ShiftFree sys ph rest L l i h) (v : Paths L N) :
    (fun x => h (x.1, x.2 + v)) =ᵐ[confBase sys ph rest L] h := by
  classical
  have key : ∀ s : Finset (Fin L × Fin N), (fun x : Conf L N => h (x.1, x.2 + ∑ p ∈ s, spike p.1 p.2 (v p.1 p.2)))
      =ᵐ[confBase sys ph rest L] h := by
    intro s
    induction s using Finset.induction with
    | empty =>
      refine Filter.Eventually.of_forall fun x => ?_
      show h (x.1, x.2 + _) = _
      rw [Finset.sum_empty, add_zero]
    | insert p s hp ih =>
      have h1 := hs p.1 p.1.2 p.2 (v p.1 p.2)
      have h2 := (shift_preserves (sys := sys) (ph := ph) (rest := rest) (spike p.1 p.2 (v p.1 p.2) : Paths L N)
        (spike_support _ p.2 (hg p.2) _)).quasiMeasurePreserving.ae ih
      filter_upwards [h1, h2] with x h1 h2
      rw [Finset.sum_insert hp, ← add_assoc]
      exact h2.trans h1
  have e : v = ∑ p ∈ (Finset.univ : Finset (Fin L × Fin N)), spike p.1 p.2 (v p.1 p.2) := by
    funext k j
    rw [Finset.sum_apply, Finset.sum_apply, Finset.sum_eq_single (k, j)]
    · simp [spike]
    · rintro ⟨a, b⟩ - hne
      unfold spike
      rw [if_neg]
      rintro ⟨h1, h2⟩
      exact hne (Prod.ext (Fin.ext h1.symm) h2.symm)
    · exact fun h => absurd (Finset.mem_univ _) h
  have := key Finset.univ
  rwa [← e] at this

theorem pathBase_shift (hg : ∀ i, ph.g (sys.orb i) ≠ 0) (v : Paths L N) :
    MeasurePreserving (fun z => v + z) (pathBase sys ph rest L) (pathBase sys ph rest L) := by
  have h1 : ∀ k : Fin L, ∀ i : Fin N, MeasurePreserving (fun z => v k i + z) (siteBase sys ph rest i) (siteBase sys ph rest i) := by
    intro k i
    unfold siteBase
    rw [if_neg (hg i)]
    exact measurePreserving_add_left volume _
  exact measurePreserving_pi _ _ fun k => measurePreserving_pi _ _ fun i => h1 k i

/-- a function of the configuration which does not change when an entry of the fields is changed is constant -/
theorem const_of_moves (hg : ∀ i, ph.g (sys.orb i) ≠ 0) {h : Conf L N → ℝ} (hm : Measurable h)
    (hq : ∀ l < L, ∀ i, FlipFree sys ph rest L l i h ∧ ShiftFree sys ph rest L l i h) :
    ∃ c, h =ᵐ[confBase sys ph rest L] fun _ => c := by
  by_cases h0 : pathBase sys ph rest L = 0
  · refine ⟨0, ?_⟩
    unfold confBase
    rw [h0, Measure.prod_zero]
    rw [Filter.EventuallyEq, ae_zero]
    exact Filter.eventually_bot
  have hne : (ae (pathBase sys ph rest L)).NeBot := ae_neBot.2 h0
  have hshift := fun v => shift_all (sys := sys) (ph := ph) (rest := rest) hg (fun l hl i => (hq l hl i).2) v
  have split : ∀ {p : Conf L N → Prop}, (∀ᵐ x ∂confBase sys ph rest L, p x) →
      ∀ s, ∀ᵐ X ∂pathBase sys ph rest L, p (s, X) := by
    intro p hp s
    unfold confBase at hp
    have := Measure.ae_ae_of_ae_prod hp
    rw [Measure.ae_count_iff] at this
    exact this s
  -- for each field, the function is constant
  have hc : ∀ s : Field L N, ∃ c, ∀ᵐ X ∂pathBase sys ph rest L, h (s, X) = c := by
    intro s
    have h1 : ∀ᵐ v ∂pathBase sys ph rest L, ∀ᵐ X ∂pathBase sys ph rest L, h (s, X + v) = h (s, X) :=
      Filter.Eventually.of_forall fun v => split (hshift v) s
    have hms : MeasurableSet {p : Paths L N × Paths L N | h (s, p.2 + p.1) = h (s, p.2)} :=
      measurableSet_eq_fun (hm.comp (measurable_const.prodMk (measurable_snd.add measurable_fst)))
        (hm.comp (measurable_const.prodMk measurable_snd))
    have h2 := (Measure.ae_ae_comm hms).1 h1
    obtain ⟨X, hX⟩ := h2.exists
    refine ⟨h (s, X), ?_⟩
    have h3 := (pathBase_shift (sys := sys) (ph := ph) (rest := rest) hg (-X)).quasiMeasurePreserving.ae hX
    filter_upwards [h3] with z hz
    rw [← hz, add_neg_cancel_left]
  choose c hc using hc
  obtain ⟨a, ha⟩ := const_of_flips (L := L) (N := N) c fun l hl i s => by
    have h1 := split (hq l hl i).1 s
    obtain ⟨X, e1, e2, e3⟩ := (h1.and ((hc s).and (hc (flipAt l i s)))).exists
    rw [← e2, ← e3]
    exact e1
  refine ⟨a, ?_⟩
  have hms : MeasurableSet {x : Conf L N | h x = a} := hm (measurableSet_singleton a)
  show ∀ᵐ x ∂confBase sys ph rest L, h x = a
  unfold confBase
  rw [Measure.ae_prod_iff_ae_ae hms, Measure.ae_count_iff]
  intro s
  filter_upwards [hc s] with X hX
  rw [hX, ha]

end constant

/-! ## The chain -/

section chain

variable {sys : Sys σ N M} {ph : Phonon} {rest : Measure ℝ} [SigmaFinite rest] {L : ℕ} [MeasurableSpace σ]
  {P : Measure σ} {f : σ → Equiv.Perm (Fin N) × σ} {g : σ → Fin N × σ}

/-- the conditions under which all configurations are reached -/
structure Mobile (sys : Sys σ N M) (ph : Phonon) (rest : Measure ℝ) (L : ℕ) (noHS : Bool) : Prop where
  responsive : ResponsivePh sys ph rest L
  field : noHS = true → ∀ i, Decoupled sys i
  box : ph.localBox ≠ 0
  count : 0 < ph.nLocal
  coupled : ∀ i, ph.g (sys.orb i) ≠ 0
  pos : ∀ᵐ x ∂confBase sys ph rest L, 0 < confWeight sys ph L x

/-- only constant functions are linked to themselves by steps which begin with the updates of all slices -/
theorem constant_link {noHS : Bool} (hm : Mobile sys ph rest L noHS) (hP : sys.rng.Ideal N P) (hf : Shuffles P f)
    {T : Conf L N × σ → Conf L N × σ} (hT : Step (confDist sys ph rest L) P (vary sys) T) (h : Conf L N → ℝ)
    (hh : Nice (vary sys) h) (hl : Link (confDist sys ph rest L) P (T ∘ slicesMap sys ph L f noHS L) h h) :
    ∃ c, h =ᵐ[confDist sys ph rest L] fun _ => c := by
  have := hP.prob
  have s1 := slicesMap_step (ph := ph) (rest := rest) (L := L) hP hf noHS le_rfl
  obtain ⟨-, q⟩ := slicesMap_rigid hm.pos hP hf hm.responsive hm.field hm.box hm.count hm.coupled le_rfl h _ hh
    (hh.after hT) (hl.first s1.mp.measurable s1.fair hT.mp.measurable hh.meas)
  obtain ⟨c, hc⟩ := const_of_moves hm.coupled hh.meas q
  exact ⟨c, (ae_dist hm.pos).2 hc⟩

/-- the updates of the other slices of a sweep, and of the block and flip updates -/
noncomputable def laterMap (sys : Sys σ N M) (ph : Phonon) (L : ℕ) (f : σ → Equiv.Perm (Fin N) × σ) (noHS : Bool)
    (k : ℕ) : ℕ → Conf L N × σ → Conf L N × σ
  | 0 => id
  | n + 1 => sliceMap sys ph L f noHS (k + n) ∘ laterMap sys ph L f noHS k n

omit [MeasurableSpace σ] in
theorem laterMap_comp (noHS : Bool) (k n : ℕ) :
    laterMap sys ph L f noHS k n ∘ slicesMap sys ph L f noHS k = slicesMap sys ph L f noHS (k + n) := by
  induction n with
  | zero => rfl
  | succ n ih =>
    rw [← add_assoc, slicesMap, laterMap, Function.comp_assoc, ih]

theorem laterMap_step (hP : sys.rng.Ideal N P) (hf : Shuffles P f) (noHS : Bool) {k n : ℕ} (hk : k + n ≤ L) :
    Step (confDist sys ph rest L) P (vary sys) (laterMap sys ph L f noHS k n) := by
  have := hP.prob
  induction n with
  | zero => exact Step.id
  | succ n ih => exact (ih (by omega)).comp (sliceMap_step hP hf noHS (by omega))

end chain

end Verif.MonteCarlo
