import Verif.Lemmas.Metropolis
import Verif.Props.Hubbard
import Verif.Props.SimulationInv

/-! # Property C73: sweeps leave the distribution of the configurations invariant -/

set_option autoImplicit false

namespace Verif.MonteCarlo

open MeasureTheory ENNReal Verif.Metropolis Verif.Fock Verif.Greens Verif.Progress

variable {σ : Type} {N : ℕ} {M : Type}

/-! ## Specification -/

instance (α : Type) : MeasurableSpace (Equiv.Perm α) := ⊤

/-- equal probability for all elements of a finite set -/
noncomputable def equi (α : Type) [Fintype α] [MeasurableSpace α] : Measure α :=
  (Fintype.card α : ℝ≥0∞)⁻¹ • Measure.count

/-- An ideal source of random numbers: with a random initial state of the source, the number
returned is uniform in `(0,1]` (all orders and all sites are equally likely), and independent of the state
left behind, which has the same distribution as before. -/
structure Rng.Ideal [MeasurableSpace σ] (rng : Rng σ) (N : ℕ) (P : Measure σ) : Prop where
  prob : IsProbabilityMeasure P
  uniform : MeasurePreserving rng.uniform P (unit.prod P)
  shuffle : ∃ f : σ → Equiv.Perm (Fin N) × σ, MeasurePreserving f P ((equi (Equiv.Perm (Fin N))).prod P) ∧
    ∀ r, rng.shuffle N r = some ((List.finRange N).map (f r).1, (f r).2)
  site : ∃ f : σ → Fin N × σ, MeasurePreserving f P ((equi (Fin N)).prod P) ∧ ∀ r, rng.site N r = some (f r)

/-- the part of the Hubbard-Stratonovich field used by the simulation -/
abbrev Field (L N : ℕ) : Type := Fin L → Fin N → Fin 2

def fieldOf (L : ℕ) (s : ℕ → Fin N → Fin 2) : Field L N := fun l => s l

/-- distribution of the fields (up to normalisation): the weight is the absolute value of the product of the
determinants -/
noncomputable def fieldDist (sys : Sys σ N M) (L : ℕ) : Measure (Field L N) :=
  target Measure.count fun x => sys.weight L (extend x) fun _ _ => 1

/-- sum over the initial fields with their weights of the average over the states of the source -/
noncomputable def expected (sys : Sys σ N M) (L : ℕ) [MeasurableSpace σ] (P : Measure σ) (f : Field L N → σ → ℝ) : ℝ :=
  ∑ x, sys.weight L (extend x) (fun _ _ => 1) * ∫ r, f x r ∂P

/-! ## Proofs -/

theorem equi_prob (α : Type) [Fintype α] [Nonempty α] [MeasurableSpace α] : IsProbabilityMeasure (equi α) := by
  constructor
  unfold equi
  rw [Measure.smul_apply, Measure.count_apply MeasurableSet.univ, Set.encard_univ, ENat.card_eq_coe_fintype_card]
  rw [smul_eq_mul]
  exact ENNReal.inv_mul_cancel (by simp) (by simp)

theorem count_involution {α : Type} [MeasurableSpace α] [DiscreteMeasurableSpace α] (T : α → α)
    (h : ∀ x, T (T x) = x) : MeasurePreserving T Measure.count Measure.count := by
  refine ⟨Measurable.of_discrete, ?_⟩
  ext s hs
  rw [Measure.map_apply Measurable.of_discrete hs, Measure.count_apply (Measurable.of_discrete hs),
    Measure.count_apply hs]
  have : T ⁻¹' s = T '' s := by
    ext x
    constructor
    · intro hx; exact ⟨T x, hx, h x⟩
    · rintro ⟨y, hy, rfl⟩; rw [Set.mem_preimage, h]; exact hy
  rw [this, Function.Injective.encard_image (Function.LeftInverse.injective h)]

variable {sys : Sys σ N M} {L len l : ℕ} {E : ℕ → Fin N → ℝ} {st st' : State σ N M}

theorem extend_fieldOf (s : ℕ → Fin N → Fin 2) (k : ℕ) (hk : k < L) : extend (fieldOf L s) k = s k := by
  simp [Fock.extend, fieldOf, hk]

theorem fieldOf_extend (x : Field L N) : fieldOf L (extend x) = x := by
  funext l
  simp [Fock.extend, fieldOf]

theorem weight_congr {s s' : ℕ → Fin N → Fin 2} {E E' : ℕ → Fin N → ℝ} (hL : 0 < L) (hs : ∀ k < L, s k = s' k)
    (hE : ∀ k < L, E k = E' k) : sys.weight L s E = sys.weight L s' E' := by
  have h : ∀ expV : Fin 2 → ℕ → ℝ, sys.flow expV L s E = sys.flow expV L s' E' := by
    intro expV
    unfold Sys.flow TimeFlow.cyclicProd
    refine TimeFlow.prodSeq_congr fun k hk => ?_
    unfold Sys.fieldB
    rw [hs _ (Nat.mod_lt _ hL), hE _ (Nat.mod_lt _ hL)]
  unfold Sys.weight
  rw [h, h]

/-- the field with one entry reversed -/
def flipAt (l : ℕ) (i : Fin N) (x : Field L N) : Field L N := fieldOf L (flipField (extend x) l i)

theorem flipField_congr {s s' : ℕ → Fin N → Fin 2} (hs : ∀ k < L, s k = s' k) (hl : l < L) (i : Fin N) (k : ℕ)
    (hk : k < L) : flipField s l i k = flipField s' l i k := by
  unfold flipField
  by_cases h : k = l
  · subst h; rw [Function.update_self, Function.update_self, hs _ hl]
  · rw [Function.update_of_ne h, Function.update_of_ne h, hs _ hk]

theorem flipAt_fieldOf (hl : l < L) (i : Fin N) (s : ℕ → Fin N → Fin 2) :
    flipAt l i (fieldOf L s) = fieldOf L (flipField s l i) := by
  funext k
  exact flipField_congr (fun k hk => extend_fieldOf s k hk) hl i k k.2

theorem flipAt_flipAt (hl : l < L) (i : Fin N) (x : Field L N) : flipAt l i (flipAt l i x) = x := by
  unfold flipAt
  conv_lhs => rw [show fieldOf L (flipField (extend (fieldOf L (flipField (extend x) l i))) l i)
    = flipAt l i (fieldOf L (flipField (extend x) l i)) from rfl, flipAt_fieldOf hl, flipField_flipField,
    fieldOf_extend]

/-- what a proposal does with field and source -/
noncomputable def hsStep (sys : Sys σ N M) (L l : ℕ) (y : Field L N × σ) (i : Fin N) : Field L N × σ :=
  (if (sys.rng.uniform y.2).1 < sys.weight L (extend (flipAt l i y.1)) (fun _ _ => 1)
      / sys.weight L (extend y.1) (fun _ _ => 1) then flipAt l i y.1 else y.1, (sys.rng.uniform y.2).2)

/-- field and source of a state -/
def view (L : ℕ) (st : State σ N M) : Field L N × σ := (fieldOf L st.s, st.rng)

theorem hsSite_view (h : Mid sys (fun _ _ => 1) L len l st) (hok : sys.Ok len) (hl : l < L) (i : Fin N) :
    view L (hsSite sys l st i) = hsStep sys L l (view L st) i := by
  have hL : 0 < L := by omega
  obtain ⟨-, hs, -, -⟩ := hs_detailed_balance h hok hl i
  have hr : (hsSite sys l st i).rng = (sys.rng.uniform st.rng).2 := by
    unfold hsSite
    simp only
    split <;> rfl
  unfold hsStep view
  simp only
  rw [hs, hr, flipAt_fieldOf hl,
    weight_congr hL (fun k hk => extend_fieldOf (flipField st.s l i) k hk) (fun _ _ => rfl),
    weight_congr hL (fun k hk => extend_fieldOf st.s k hk) (fun _ _ => rfl)]
  split <;> rfl

theorem hsFold_view (h : Mid sys (fun _ _ => 1) L len l st) (hok : sys.Ok len) (hl : l < L) (order : List (Fin N)) :
    view L (order.foldl (hsSite sys l) st) = order.foldl (hsStep sys L l) (view L st) := by
  induction order generalizing st with
  | nil => rfl
  | cons i order ih => rw [List.foldl_cons, List.foldl_cons, ih (h.hsSite hok hl i), hsSite_view h hok hl]

variable [MeasurableSpace σ] {P : Measure σ}

theorem hsStep_preserves (hP : sys.rng.Ideal N P) (hl : l < L) (i : Fin N) :
    MeasurePreserving (fun y => hsStep sys L l y i) ((fieldDist sys L).prod P) ((fieldDist sys L).prod P) := by
  have := hP.prob
  exact flip_source Measure.count P (fun x => sys.weight L (Fock.extend x) fun _ _ => 1) Measurable.of_discrete (fun _ => abs_nonneg _) (flipAt l i)
    (count_involution _ (flipAt_flipAt hl i)) (flipAt_flipAt hl i) sys.rng.uniform hP.uniform

theorem fold_preserves {α β : Type} [MeasurableSpace α] {μ : Measure α} (f : α → β → α) (bs : List β)
    (hf : ∀ b ∈ bs, MeasurePreserving (fun a => f a b) μ μ) :
    MeasurePreserving (fun a => bs.foldl f a) μ μ := by
  induction bs with
  | nil => exact MeasurePreserving.id μ
  | cons b bs ih => exact (ih fun c hc => hf c (by simp [hc])).comp (hf b (by simp))

/-- all sites of a slice -/
theorem hsSlice_view (hP : sys.rng.Ideal N P) (hok : sys.Ok len) (hl : l < L) :
    ∃ F : Field L N × σ → Field L N × σ,
      MeasurePreserving F ((fieldDist sys L).prod P) ((fieldDist sys L).prod P) ∧
      ∀ st st', Mid sys (fun _ _ => 1) L len l st → hsSlice sys l st = some st' → view L st' = F (view L st) := by
  have := hP.prob
  have := equi_prob (Equiv.Perm (Fin N))
  obtain ⟨f, hf, e⟩ := hP.shuffle
  have : SFinite (fieldDist sys L) := by unfold fieldDist target; infer_instance
  have hS : ∀ p : Equiv.Perm (Fin N), MeasurePreserving
      (fun y => ((List.finRange N).map p).foldl (hsStep sys L l) y) ((fieldDist sys L).prod P)
      ((fieldDist sys L).prod P) := fun p => fold_preserves _ _ fun i _ => hsStep_preserves hP hl i
  refine ⟨_, mix_source (fieldDist sys L) (equi (Equiv.Perm (Fin N))) P f hf
    (fun p y => ((List.finRange N).map p).foldl (hsStep sys L l) y)
    (measurable_from_prod_countable_right fun p => (hS p).measurable) hS, fun st st' h hs => ?_⟩
  unfold hsSlice at hs
  simp only [e, Option.bind_eq_bind, Option.bind_some, Option.pure_def, Option.some.injEq] at hs
  rw [← hs, hsFold_view (st := { st with rng := (f st.rng).2 }) ⟨h.up, h.down⟩ hok hl]
  rfl

/-! ### Families of runs -/

/-- a family of states, one for each initial configuration and initial state `y` of the source: configuration and
source have the distribution `μ`, and the quantity `φ` of the measurement data has the integral `c` -/
def Tracks {Y : Type} [MeasurableSpace Y] (μ : Measure Y) (good : Y → Prop) (v : State σ N M → Y) (φ : M → ℝ)
    (a : Y → State σ N M) (c : ℝ) : Prop :=
  ∃ F : Y → Y, MeasurePreserving F μ μ ∧ (∀ y, good y → v (a y) = F y) ∧
    ∃ g : Y → ℝ, Integrable g μ ∧ (∀ y, good y → φ (a y).meas = g y) ∧ ∫ y, g y ∂μ = c

section tracks

variable {Y : Type} [MeasurableSpace Y] {μ : Measure Y} {good : Y → Prop} {v : State σ N M → Y} {φ : M → ℝ}
  {a b : Y → State σ N M} {c : ℝ}

omit [MeasurableSpace σ] in
theorem Tracks.congr (h : Tracks μ good v φ a c) (hb : ∀ y, good y → v (b y) = v (a y) ∧ (b y).meas = (a y).meas) :
    Tracks μ good v φ b c := by
  obtain ⟨F, hF, hv, g, hg, hm, hi⟩ := h
  exact ⟨F, hF, fun y hy => (hb y hy).1.trans (hv y hy), g, hg, fun y hy => by rw [(hb y hy).2, hm y hy], hi⟩

omit [MeasurableSpace σ] in
/-- an update -/
theorem Tracks.step (h : Tracks μ good v φ a c) {F : Y → Y} (hF : MeasurePreserving F μ μ)
    (hb : ∀ y, good y → v (b y) = F (v (a y)) ∧ (b y).meas = (a y).meas) : Tracks μ good v φ b c := by
  obtain ⟨F', hF', hv, g, hg, hm, hi⟩ := h
  exact ⟨F ∘ F', hF.comp hF', fun y hy => by rw [(hb y hy).1, hv y hy]; rfl, g, hg,
    fun y hy => by rw [(hb y hy).2, hm y hy], hi⟩

omit [MeasurableSpace σ] in
/-- a measurement -/
theorem Tracks.measure (h : Tracks μ good v φ a c) {f : Y → ℝ} (hf : Integrable f μ)
    (hb : ∀ y, good y → v (b y) = v (a y) ∧ φ (b y).meas = φ (a y).meas + f (v (a y))) :
    Tracks μ good v φ b (c + ∫ y, f y ∂μ) := by
  obtain ⟨F, hF, hv, g, hg, hm, hi⟩ := h
  have hf' : Integrable (fun y => f (F y)) μ := (hF.integrable_comp hf.aestronglyMeasurable).2 hf
  refine ⟨F, hF, fun y hy => (hb y hy).1.trans (hv y hy), fun y => g y + f (F y), hg.add hf',
    fun y hy => by rw [(hb y hy).2, hm y hy, hv y hy], ?_⟩
  rw [integral_add hg hf', hi]
  congr 1
  have := integral_map (φ := F) hF.measurable.aemeasurable (f := f) (by rw [hF.map_eq]; exact hf.aestronglyMeasurable)
  rw [hF.map_eq] at this
  exact this.symm

omit [MeasurableSpace σ] [MeasurableSpace Y] in
/-- splitting a composition of partial functions for a family -/
theorem family_bind {α : Type} {f : α → Option α} {g : α → Option α} {a c : Y → α}
    (h : ∀ y, good y → (f (a y)).bind g = some (c y)) :
    ∃ b : Y → α, (∀ y, good y → f (a y) = some (b y)) ∧ ∀ y, good y → g (b y) = some (c y) := by
  refine ⟨fun y => (f (a y)).getD (a y), fun y hy => ?_, fun y hy => ?_⟩
  · obtain ⟨b, e, -⟩ := Option.bind_eq_some_iff.1 (h y hy)
    simp only [e, Option.getD_some]
  · obtain ⟨b, e, e2⟩ := Option.bind_eq_some_iff.1 (h y hy)
    simp only [e, Option.getD_some]
    exact e2

end tracks

/-! ### Sweeps without phonons -/

/-- a quantity of the measurement data to which each equal time measurement after slice `l` adds the number `q l s`
and each unequal time measurement the number `qu s`, which depend on the field only -/
structure Adds (sys : Sys σ N M) (L len : ℕ) (φ : M → ℝ) (q : ℕ → Field L N → ℝ) (qu : Field L N → ℝ) : Prop where
  eq : ∀ (s : ℕ → Fin N → Fin 2) (l : ℕ) (Gu Gd : GreensFn N) (m m' : M), l < L →
    Exact sys L (fun _ _ => 1) s (l + 1) Gu Gd → sys.meas.eq Gu Gd m = some m' → φ m' = φ m + q l (fieldOf L s)
  uneq : ∀ (st : State σ N M) (m' : M), Inv sys (fun _ _ => 1) L len 0 st →
    sys.meas.uneq (st.Gu.sgndet * st.Gd.sgndet) st.tsmU st.tsmD st.meas = some m' →
    φ m' = φ st.meas + qu (fieldOf L st.s)

/-- sum of a function of the field over all fields, with their weights -/
noncomputable def wsum (sys : Sys σ N M) (L : ℕ) (f : Field L N → ℝ) : ℝ :=
  ∑ x : Field L N, sys.weight L (Fock.extend x) (fun _ _ => 1) * f x

omit [MeasurableSpace σ] in
theorem fieldDist_finite : IsFiniteMeasure (fieldDist sys L) := by
  constructor
  unfold fieldDist target
  rw [withDensity_apply _ MeasurableSet.univ, Measure.restrict_univ, lintegral_count, tsum_fintype]
  exact ENNReal.sum_lt_top.2 fun x _ => ENNReal.ofReal_lt_top

theorem integral_field [IsProbabilityMeasure P] (f : Field L N → ℝ) :
    Integrable (fun y : Field L N × σ => f y.1) ((fieldDist sys L).prod P) ∧
    ∫ y, f y.1 ∂((fieldDist sys L).prod P) = wsum sys L f := by
  have hfin : IsFiniteMeasure (fieldDist sys L) := fieldDist_finite
  have hi : Integrable f (fieldDist sys L) := Integrable.of_finite
  refine ⟨hi.comp_fst P, ?_⟩
  rw [integral_fun_fst]
  simp only [probReal_univ, one_smul]
  unfold fieldDist target wsum
  rw [integral_withDensity_eq_integral_toReal_smul₀ Measurable.of_discrete.aemeasurable
    (Filter.Eventually.of_forall fun x => ENNReal.ofReal_lt_top), integral_countable]
  · rw [tsum_fintype]
    refine Finset.sum_congr rfl fun x _ => ?_
    rw [ENNReal.toReal_ofReal (show 0 ≤ sys.weight L (Fock.extend x) (fun _ _ => 1) from abs_nonneg _)]
    simp
  · exact Integrable.of_finite

omit [MeasurableSpace σ] in
theorem hsFold_meas (order : List (Fin N)) (t : State σ N M) : (order.foldl (hsSite sys l) t).meas = t.meas := by
  induction order generalizing t with
  | nil => rfl
  | cons i order ih =>
    rw [List.foldl_cons, ih]
    unfold MonteCarlo.hsSite
    simp only
    split <;> rfl

omit [MeasurableSpace σ] in
/-- the parts of the processing of a time slice -/
theorem hsTimeSlice_split [NeZero N] (hok : sys.Ok len) (hl : l < L) (neqlt : ℕ)
    (h : Inv sys (fun _ _ => 1) L len l st) (hs : hsTimeSlice sys neqlt st l = some st') :
    ∃ st1, hsSlice sys l (MonteCarlo.wrap l st) = some st1 ∧ st1.meas = st.meas ∧
      Inv sys (fun _ _ => 1) L len (l + 1) (MonteCarlo.updateB sys l st1) ∧
      measureEq sys neqlt l (MonteCarlo.updateB sys l st1) = some st' := by
  unfold hsTimeSlice at hs
  simp only [Option.bind_eq_bind] at hs
  obtain ⟨st1, e1, hs⟩ := Option.bind_eq_some_iff.1 hs
  have hi := ((h.wrap hl).hsSlice hok hl e1).updateB hok
  obtain ⟨st2, e2, hs⟩ := Option.bind_eq_some_iff.1 hs
  have h2 := maybeRecompute_eq hi hok e2
  subst h2
  refine ⟨st1, e1, ?_, hi, hs⟩
  unfold hsSlice at e1
  simp only [Option.bind_eq_bind] at e1
  obtain ⟨r, -, e1⟩ := Option.bind_eq_some_iff.1 e1
  simp only [Option.pure_def, Option.some.injEq] at e1
  rw [← e1, hsFold_meas]
  rfl

variable {φ : M → ℝ} {q : ℕ → Field L N → ℝ} {qu : Field L N → ℝ}

/-- what the measurement after slice `l` adds to the integral -/
noncomputable def sliceGain (sys : Sys σ N M) (L neqlt : ℕ) (q : ℕ → Field L N → ℝ) (l : ℕ) : ℝ :=
  if neqlt > 0 ∧ (l + 1) % neqlt = 0 then wsum sys L (q l) else 0

/-- fields of non-zero weight -/
def goodField (sys : Sys σ N M) (L : ℕ) (y : Field L N × σ) : Prop :=
  sys.weight L (Fock.extend y.1) (fun _ _ => 1) ≠ 0

theorem timeSlice_tracks [NeZero N] (hP : sys.rng.Ideal N P) (hok : sys.Ok len) (hl : l < L) (neqlt : ℕ)
    (hq : Adds sys L len φ q qu) {a b : Field L N × σ → State σ N M} {c : ℝ}
    (ha : ∀ y, goodField sys L y → Inv sys (fun _ _ => 1) L len l (a y))
    (hb : ∀ y, goodField sys L y → hsTimeSlice sys neqlt (a y) l = some (b y))
    (h : Tracks ((fieldDist sys L).prod P) (goodField sys L) (view L) φ a c) :
    (∀ y, goodField sys L y → Inv sys (fun _ _ => 1) L len (l + 1) (b y)) ∧
    Tracks ((fieldDist sys L).prod P) (goodField sys L) (view L) φ b (c + sliceGain sys L neqlt q l) := by
  have := hP.prob
  refine ⟨fun y hy => (hsTimeSlice_inv hok hl neqlt (fun _ => True) (fun _ _ _ _ _ _ _ _ _ _ _ _ => trivial)
    (ha y hy) trivial (hb y hy)).1, ?_⟩
  obtain ⟨F, hF, hFv⟩ := hsSlice_view (L := L) (l := l) hP hok hl
  have hsplit : ∃ a1 : Field L N × σ → State σ N M, ∀ y, goodField sys L y →
      hsSlice sys l (MonteCarlo.wrap l (a y)) = some (a1 y) ∧ (a1 y).meas = (a y).meas ∧
      Inv sys (fun _ _ => 1) L len (l + 1) (MonteCarlo.updateB sys l (a1 y)) ∧
      measureEq sys neqlt l (MonteCarlo.updateB sys l (a1 y)) = some (b y) := by
    have : ∀ y, ∃ st1, goodField sys L y →
      hsSlice sys l (MonteCarlo.wrap l (a y)) = some st1 ∧ st1.meas = (a y).meas ∧
      Inv sys (fun _ _ => 1) L len (l + 1) (MonteCarlo.updateB sys l st1) ∧
      measureEq sys neqlt l (MonteCarlo.updateB sys l st1) = some (b y) := by
      intro y
      by_cases hy : goodField sys L y
      · obtain ⟨st1, h1⟩ := hsTimeSlice_split hok hl neqlt (ha y hy) (hb y hy)
        exact ⟨st1, fun _ => h1⟩
      · exact ⟨a y, fun h => absurd h hy⟩
    choose a1 h1 using this
    exact ⟨a1, h1⟩
  obtain ⟨a1, h1⟩ := hsplit
  have ht : Tracks ((fieldDist sys L).prod P) (goodField sys L) (view L) φ
      (fun y => MonteCarlo.updateB sys l (a1 y)) c :=
    h.step hF fun y hy => ⟨hFv (MonteCarlo.wrap l (a y)) (a1 y) ((ha y hy).wrap hl) (h1 y hy).1, (h1 y hy).2.1⟩
  unfold sliceGain
  split
  · rename_i hc
    obtain ⟨hi, he⟩ := integral_field (sys := sys) (P := P) (q l)
    rw [← he]
    refine ht.measure hi fun y hy => ?_
    obtain ⟨-, -, hinv, e⟩ := h1 y hy
    unfold measureEq at e
    rw [if_pos hc] at e
    simp only [Option.bind_eq_bind] at e
    obtain ⟨m, e3, e⟩ := Option.bind_eq_some_iff.1 e
    simp only [Option.pure_def, Option.some.injEq] at e
    rw [← e]
    exact ⟨rfl, hq.eq _ l _ _ _ _ hl ⟨hinv.up.good, hinv.down.good⟩ e3⟩
  · rename_i hc
    rw [add_zero]
    refine ht.congr fun y hy => ?_
    obtain ⟨-, -, -, e⟩ := h1 y hy
    unfold measureEq at e
    rw [if_neg hc] at e
    rw [← Option.some.inj e]
    exact ⟨rfl, rfl⟩

/-- the first `k` slices of a sweep -/
theorem slices_tracks [NeZero N] (hP : sys.rng.Ideal N P) (hok : sys.Ok len) (neqlt : ℕ) (hq : Adds sys L len φ q qu)
    {a : Field L N × σ → State σ N M} {c : ℝ} (ha : ∀ y, goodField sys L y → Inv sys (fun _ _ => 1) L len 0 (a y))
    (h : Tracks ((fieldDist sys L).prod P) (goodField sys L) (view L) φ a c) (k : ℕ) (hk : k ≤ L)
    {b : Field L N × σ → State σ N M}
    (hb : ∀ y, goodField sys L y → (List.range k).foldlM (hsTimeSlice sys neqlt) (a y) = some (b y)) :
    (∀ y, goodField sys L y → Inv sys (fun _ _ => 1) L len k (b y)) ∧
    Tracks ((fieldDist sys L).prod P) (goodField sys L) (view L) φ b
      (c + ∑ l ∈ Finset.range k, sliceGain sys L neqlt q l) := by
  induction k generalizing b with
  | zero =>
    have : ∀ y, goodField sys L y → b y = a y := fun y hy => (Option.some.inj (hb y hy)).symm
    refine ⟨fun y hy => by rw [this y hy]; exact ha y hy, ?_⟩
    rw [Finset.sum_range_zero, add_zero]
    exact h.congr fun y hy => by rw [this y hy]; exact ⟨rfl, rfl⟩
  | succ k ih =>
    have hb' : ∀ y, goodField sys L y → ((List.range k).foldlM (hsTimeSlice sys neqlt) (a y)).bind
        (fun st => hsTimeSlice sys neqlt st k) = some (b y) := by
      intro y hy
      have := hb y hy
      rw [List.range_succ, List.foldlM_append] at this
      obtain ⟨st1, e1, e2⟩ := Option.bind_eq_some_iff.1 this
      rw [List.foldlM_cons] at e2
      obtain ⟨st2, e3, e4⟩ := Option.bind_eq_some_iff.1 e2
      rw [List.foldlM_nil] at e4
      cases e4
      rw [e1]
      exact e3
    obtain ⟨b1, h1, h2⟩ := family_bind (f := fun st => (List.range k).foldlM (hsTimeSlice sys neqlt) st) (g := fun st => hsTimeSlice sys neqlt st k) hb'
    obtain ⟨i1, t1⟩ := ih (by omega) h1
    rw [Finset.sum_range_succ, ← add_assoc]
    exact timeSlice_tracks hP hok (by omega) neqlt hq i1 h2 t1

variable {ph : Phonon} {cfg : Cfg}

/-- what an iteration adds to the integral -/
noncomputable def iterGain (sys : Sys σ N M) (cfg : Cfg) (q : ℕ → Field cfg.L N → ℝ) (qu : Field cfg.L N → ℝ) (it : ℤ) : ℝ :=
  (∑ l ∈ Finset.range cfg.L, sliceGain sys cfg.L (effNeqlt cfg it) q l) +
    if it ≥ cfg.nequil ∧ cfg.nuneqlt > 0 ∧ it.tmod cfg.nuneqlt = 0 then wsum sys cfg.L qu else 0

theorem simBody_tracks [NeZero N] (hP : sys.rng.Ideal N P) (hok : sys.Ok cfg.prodBlen) (hp : cfg.usePhonons = false)
    {q : ℕ → Field cfg.L N → ℝ} {qu : Field cfg.L N → ℝ} (hq : Adds sys cfg.L cfg.prodBlen φ q qu) (it : ℤ)
    {a b : Field cfg.L N × σ → State σ N M} {c : ℝ}
    (ha : ∀ y, goodField sys cfg.L y → Inv sys (fun _ _ => 1) cfg.L cfg.prodBlen 0 (a y))
    (h : Tracks ((fieldDist sys cfg.L).prod P) (goodField sys cfg.L) (view cfg.L) φ a c)
    (hb : ∀ y, goodField sys cfg.L y → simBody sys ph cfg it (a y) = some (b y)) :
    (∀ y, goodField sys cfg.L y → Inv sys (fun _ _ => 1) cfg.L cfg.prodBlen 0 (b y)) ∧
    Tracks ((fieldDist sys cfg.L).prod P) (goodField sys cfg.L) (view cfg.L) φ b (c + iterGain sys cfg q qu it) := by
  have := hP.prob
  have hb' : ∀ y, goodField sys cfg.L y → ((List.range cfg.L).foldlM (hsTimeSlice sys (effNeqlt cfg it)) (a y)).bind
      (fun st => measureUneq sys cfg it st) = some (b y) := by
    intro y hy
    have := hb y hy
    unfold simBody dqmcIteration at this
    rw [hp, (ha y hy).up.td.hL] at this
    exact this
  obtain ⟨b1, h1, h2⟩ := family_bind (f := fun st => (List.range cfg.L).foldlM (hsTimeSlice sys (effNeqlt cfg it)) st)
    (g := fun st => measureUneq sys cfg it st) hb'
  obtain ⟨i1, t1⟩ := slices_tracks hP hok (effNeqlt cfg it) hq ha h cfg.L le_rfl h1
  have i2 : ∀ y, goodField sys cfg.L y → Inv sys (fun _ _ => 1) cfg.L cfg.prodBlen 0 (b1 y) := fun y hy =>
    ⟨(i1 y hy).up.next, (i1 y hy).down.next⟩
  unfold iterGain
  rw [← add_assoc]
  split
  · rename_i hc
    obtain ⟨hi, he⟩ := integral_field (sys := sys) (P := P) qu
    have e : ∀ y, goodField sys cfg.L y → ∃ m, sys.meas.uneq ((b1 y).Gu.sgndet * (b1 y).Gd.sgndet) (b1 y).tsmU
        (b1 y).tsmD (b1 y).meas = some m ∧ b y = { b1 y with meas := m } := by
      intro y hy
      have e := h2 y hy
      unfold measureUneq at e
      rw [if_pos hc] at e
      simp only [Option.bind_eq_bind] at e
      obtain ⟨m, e3, e⟩ := Option.bind_eq_some_iff.1 e
      simp only [Option.pure_def, Option.some.injEq] at e
      exact ⟨m, e3, e.symm⟩
    refine ⟨fun y hy => ?_, ?_⟩
    · obtain ⟨m, -, e⟩ := e y hy
      rw [e]
      exact ⟨(i2 y hy).up, (i2 y hy).down⟩
    · rw [← he]
      refine t1.measure hi fun y hy => ?_
      obtain ⟨m, e1, e⟩ := e y hy
      rw [e]
      exact ⟨rfl, hq.uneq _ _ (i2 y hy) e1⟩
  · rename_i hc
    have e : ∀ y, goodField sys cfg.L y → b y = b1 y := by
      intro y hy
      have e := h2 y hy
      unfold measureUneq at e
      rw [if_neg hc] at e
      exact (Option.some.inj e).symm
    rw [add_zero]
    exact ⟨fun y hy => by rw [e y hy]; exact i2 y hy, t1.congr fun y hy => by rw [e y hy]; exact ⟨rfl, rfl⟩⟩

theorem runs_tracks [NeZero N] (hP : sys.rng.Ideal N P) (hok : sys.Ok cfg.prodBlen) (hp : cfg.usePhonons = false)
    {q : ℕ → Field cfg.L N → ℝ} {qu : Field cfg.L N → ℝ} (hq : Adds sys cfg.L cfg.prodBlen φ q qu) (it : ℤ) (m : ℕ)
    {a b : Field cfg.L N × σ → State σ N M} {c : ℝ}
    (ha : ∀ y, goodField sys cfg.L y → Inv sys (fun _ _ => 1) cfg.L cfg.prodBlen 0 (a y))
    (h : Tracks ((fieldDist sys cfg.L).prod P) (goodField sys cfg.L) (view cfg.L) φ a c)
    (hb : ∀ y, goodField sys cfg.L y → runs (simBody sys ph cfg) it m (a y) = some (b y)) :
    (∀ y, goodField sys cfg.L y → Inv sys (fun _ _ => 1) cfg.L cfg.prodBlen 0 (b y)) ∧
    Tracks ((fieldDist sys cfg.L).prod P) (goodField sys cfg.L) (view cfg.L) φ b
      (c + ∑ j ∈ Finset.range m, iterGain sys cfg q qu (it + j)) := by
  induction m generalizing b with
  | zero =>
    have : ∀ y, goodField sys cfg.L y → b y = a y := fun y hy => (Option.some.inj (hb y hy)).symm
    refine ⟨fun y hy => by rw [this y hy]; exact ha y hy, ?_⟩
    rw [Finset.sum_range_zero, add_zero]
    exact h.congr fun y hy => by rw [this y hy]; exact ⟨rfl, rfl⟩
  | succ m ih =>
    obtain ⟨b1, h1, h2⟩ := family_bind (f := fun st => runs (simBody sys ph cfg) it m st)
      (g := fun st => simBody sys ph cfg (it + m) st) hb
    obtain ⟨i1, t1⟩ := ih h1
    rw [Finset.sum_range_succ, ← add_assoc]
    exact simBody_tracks hP hok hp hq (it + m) i1 t1 h2

/-- number of iterations the loop does -/
def iterations (stop : ℤ → Bool) : ℕ → ℤ → ℕ
  | 0, _ => 0
  | k + 1, it => if stop it then 0 else iterations stop k (it + 1) + 1

theorem simLoop_iterations {S : Type} (body : ℤ → S → Option S) (stop : ℤ → Bool) (k : ℕ) (it : ℤ) (st : S)
    (p : Prog) (r : LoopResult S) (h : simLoop body stop k it st p = some r) :
    runs body it (iterations stop k it) st = some r.state := by
  induction k generalizing it st p with
  | zero => cases h; rfl
  | succ k ih =>
    unfold simLoop at h
    unfold iterations
    by_cases hs : stop it = true
    · rw [if_pos hs] at h ⊢
      cases h
      rfl
    · rw [if_neg hs] at h ⊢
      obtain ⟨st1, e1, h⟩ := Option.bind_eq_some_iff.1 h
      rw [runs_succ', e1]
      exact ih _ _ _ h

/-- C73, C74: the runs of the whole program -/
theorem simulate_tracks [NeZero N] (hP : sys.rng.Ideal N P) (hok : sys.Ok cfg.prodBlen) (hL : 0 < cfg.L)
    (hd : cfg.prodBlen ∣ cfg.L) (hp : cfg.usePhonons = false)
    {q : ℕ → Field cfg.L N → ℝ} {qu : Field cfg.L N → ℝ} (hq : Adds sys cfg.L cfg.prodBlen φ q qu)
    (stop : ℤ → Bool) (it : ℤ) (X expX : ℕ → Fin N → ℝ) (cnt : Counters) (meas : M)
    (R : Field cfg.L N × σ → LoopResult (State σ N M))
    (hR : ∀ y, goodField sys cfg.L y → simulate sys ph cfg stop it y.2 (Fock.extend y.1) X expX cnt meas = some (R y)) :
    Tracks ((fieldDist sys cfg.L).prod P) (goodField sys cfg.L) (view cfg.L) φ (fun y => (R y).state)
      (φ meas * wsum sys cfg.L (fun _ => 1) +
        ∑ j ∈ Finset.range (iterations stop (cfg.nequil + cfg.nsampl - it).toNat it), iterGain sys cfg q qu (it + j)) := by
  have := hP.prob
  have hst : ∃ a : Field cfg.L N × σ → State σ N M, ∀ y, goodField sys cfg.L y →
      startState sys cfg y.2 (Fock.extend y.1) X expX cnt meas = some (a y) ∧
      runs (simBody sys ph cfg) it (iterations stop (cfg.nequil + cfg.nsampl - it).toNat it) (a y)
        = some (R y).state := by
    have : ∀ y, ∃ st, goodField sys cfg.L y →
      startState sys cfg y.2 (Fock.extend y.1) X expX cnt meas = some st ∧
      runs (simBody sys ph cfg) it (iterations stop (cfg.nequil + cfg.nsampl - it).toNat it) st
        = some (R y).state := by
      intro y
      by_cases hy : goodField sys cfg.L y
      · have h := hR y hy
        unfold simulate at h
        simp only [Option.bind_eq_bind] at h
        obtain ⟨st, e1, h⟩ := Option.bind_eq_some_iff.1 h
        exact ⟨st, fun _ => ⟨e1, simLoop_iterations _ _ _ _ _ _ _ h⟩⟩
      · exact ⟨(R y).state, fun h => absurd h hy⟩
    choose a ha using this
    exact ⟨a, ha⟩
  obtain ⟨a, ha⟩ := hst
  refine (runs_tracks hP hok hp hq it _ (fun y hy => startState_inv hok hL hd hp _ _ _ _ _ _ _ (ha y hy).1) ?_
    fun y hy => (ha y hy).2).2
  obtain ⟨hi, he⟩ := integral_field (sys := sys) (P := P) (fun _ : Field cfg.L N => φ meas)
  refine ⟨id, MeasurePreserving.id _, fun y hy => ?_, fun _ => φ meas, hi, fun y hy => ?_, ?_⟩
  · obtain ⟨-, -, e1, -, -, e2⟩ := startState_frame cfg _ _ _ _ _ _ _ (ha y hy).1
    unfold view
    rw [e1, e2, fieldOf_extend]
    rfl
  · rw [(startState_frame cfg _ _ _ _ _ _ _ (ha y hy).1).2.1]
  · rw [he]
    unfold wsum
    rw [Finset.mul_sum]
    exact Finset.sum_congr rfl fun x _ => by ring

/-- C73: if the initial field is distributed according to the weights and the random numbers are ideal, then the
final field of a run without phonons is distributed according to the weights, and the final state of the source is
independent of it and distributed as at the start -/
theorem simulate_stationary [NeZero N] (hP : sys.rng.Ideal N P) (hok : sys.Ok cfg.prodBlen) (hL : 0 < cfg.L)
    (hd : cfg.prodBlen ∣ cfg.L) (hp : cfg.usePhonons = false) (stop : ℤ → Bool) (it : ℤ) (X expX : ℕ → Fin N → ℝ)
    (cnt : Counters) (meas : M) (R : Field cfg.L N → σ → LoopResult (State σ N M))
    (hR : ∀ x r, sys.weight cfg.L (Fock.extend x) (fun _ _ => 1) ≠ 0 →
      simulate sys ph cfg stop it r (Fock.extend x) X expX cnt meas = some (R x r))
    (x' : Field cfg.L N) (A : Set σ) (hA : MeasurableSet A) :
    ∑ x : Field cfg.L N, sys.weight cfg.L (Fock.extend x) (fun _ _ => 1) *
        P.real {r | fieldOf cfg.L (R x r).state.s = x' ∧ (R x r).state.rng ∈ A}
      = sys.weight cfg.L (Fock.extend x') (fun _ _ => 1) * P.real A := by
  have := hP.prob
  obtain ⟨F, hF, hv, -⟩ := simulate_tracks (φ := fun _ => 0) (q := fun _ _ => 0) (qu := fun _ => 0) hP hok hL hd hp
    ⟨fun _ _ _ _ _ _ _ _ _ => by simp, fun _ _ _ _ => by simp⟩ stop it X expX cnt meas (fun y => R y.1 y.2)
    (fun y hy => hR y.1 y.2 hy)
  have hfd : ∀ S : Set (Field cfg.L N × σ), MeasurableSet S → ((fieldDist sys cfg.L).prod P) S
      = ∑ x : Field cfg.L N, ENNReal.ofReal (sys.weight cfg.L (Fock.extend x) (fun _ _ => 1)) * P (Prod.mk x ⁻¹' S) := by
    intro S hS
    rw [Measure.prod_apply hS]
    unfold fieldDist target
    rw [lintegral_withDensity_eq_lintegral_mul _ Measurable.of_discrete Measurable.of_discrete, lintegral_count,
      tsum_fintype]
    rfl
  have h1 := hF.measure_preimage (s := {x'} ×ˢ A) ((measurableSet_singleton _).prod hA).nullMeasurableSet
  have h3 : ((fieldDist sys cfg.L).prod P) ({x'} ×ˢ A)
      = ENNReal.ofReal (sys.weight cfg.L (Fock.extend x') (fun _ _ => 1)) * P A := by
    rw [hfd _ ((measurableSet_singleton _).prod hA), Finset.sum_eq_single x']
    · congr 2
      ext r
      simp
    · intro x _ hx
      have e : Prod.mk x ⁻¹' ({x'} ×ˢ A) = ∅ := by ext r; simp [hx]
      rw [e, measure_empty, mul_zero]
    · simp
  rw [hfd _ (hF.measurable ((measurableSet_singleton _).prod hA)), h3] at h1
  have h2 := congrArg ENNReal.toReal h1
  rw [ENNReal.toReal_sum (fun x _ => ENNReal.mul_ne_top ENNReal.ofReal_ne_top (measure_ne_top _ _)),
    ENNReal.toReal_mul, ENNReal.toReal_ofReal
      (show 0 ≤ sys.weight cfg.L (Fock.extend x') (fun _ _ => 1) from abs_nonneg _)] at h2
  refine Eq.trans ?_ h2
  refine Finset.sum_congr rfl fun x _ => ?_
  rw [ENNReal.toReal_mul, ENNReal.toReal_ofReal
    (show 0 ≤ sys.weight cfg.L (Fock.extend x) (fun _ _ => 1) from abs_nonneg _)]
  by_cases hx : sys.weight cfg.L (Fock.extend x) (fun _ _ => 1) = 0
  · rw [hx, zero_mul, zero_mul]
  · rw [measureReal_def]
    congr 3
    ext r
    have := hv (x, r) hx
    simp only [Set.mem_preimage, ← this, Set.mem_prod, Set.mem_singleton_iff, view]
    rfl

/-- C74: average of a quantity of the measurement data at the end of a run -/
theorem simulate_expected [NeZero N] (hP : sys.rng.Ideal N P) (hok : sys.Ok cfg.prodBlen) (hL : 0 < cfg.L)
    (hd : cfg.prodBlen ∣ cfg.L) (hp : cfg.usePhonons = false)
    {q : ℕ → Field cfg.L N → ℝ} {qu : Field cfg.L N → ℝ} (hq : Adds sys cfg.L cfg.prodBlen φ q qu)
    (stop : ℤ → Bool) (it : ℤ) (X expX : ℕ → Fin N → ℝ)
    (cnt : Counters) (meas : M) (R : Field cfg.L N → σ → LoopResult (State σ N M))
    (hR : ∀ x r, sys.weight cfg.L (Fock.extend x) (fun _ _ => 1) ≠ 0 →
      simulate sys ph cfg stop it r (Fock.extend x) X expX cnt meas = some (R x r)) :
    expected sys cfg.L P (fun x r => φ (R x r).state.meas) = φ meas * wsum sys cfg.L (fun _ => 1) +
        ∑ j ∈ Finset.range (iterations stop (cfg.nequil + cfg.nsampl - it).toNat it), iterGain sys cfg q qu (it + j) := by
  have := hP.prob
  obtain ⟨F, hF, -, g, hg, hm, hi⟩ := simulate_tracks hP hok hL hd hp hq stop it X expX cnt meas (fun y => R y.1 y.2)
    (fun y hy => hR y.1 y.2 hy)
  rw [← hi]
  have hfin : IsFiniteMeasure (fieldDist sys cfg.L) := fieldDist_finite
  rw [integral_prod _ hg]
  unfold expected fieldDist target
  rw [integral_withDensity_eq_integral_toReal_smul₀ Measurable.of_discrete.aemeasurable
    (Filter.Eventually.of_forall fun x => ENNReal.ofReal_lt_top), integral_countable Integrable.of_finite, tsum_fintype]
  refine Finset.sum_congr rfl fun x _ => ?_
  rw [ENNReal.toReal_ofReal (show 0 ≤ sys.weight cfg.L (Fock.extend x) (fun _ _ => 1) from abs_nonneg _)]
  simp only [Measure.real, Measure.count_singleton, ENNReal.toReal_one, smul_eq_mul]
  by_cases hx : sys.weight cfg.L (Fock.extend x) (fun _ _ => 1) = 0
  · rw [hx, zero_mul, zero_mul, mul_zero]
  · rw [one_mul]
    congr 2
    funext r
    exact hm (x, r) hx

end Verif.MonteCarlo
