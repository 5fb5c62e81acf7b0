import Verif.Lemmas.Links

/-!
# Random steps which only link a function to itself

A step is rigid if a link from `h` to `h'` through the step implies that `h` and `h'` agree, and
that `h` is invariant under the proposed change of the configuration.  Metropolis steps are rigid;
so are compositions and random choices of rigid steps.
-/

set_option autoImplicit false

open MeasureTheory Filter Topology Verif.Metropolis Verif.MeanErgodic
open scoped ENNReal

namespace Verif.Links

variable {E σ A : Type*} [MeasurableSpace E] [MeasurableSpace σ]

/-- a step of the simulation: it preserves the distribution, uses the source of random numbers
fairly, and commutes with the changes `δ` of the configuration, which do not matter -/
structure Step (μ : Measure E) (P : Measure σ) (δ : A → E → E) (T : E × σ → E × σ) : Prop where
  mp : MeasurePreserving T (μ.prod P) (μ.prod P)
  fair : Fair P T
  comm : ∀ a x r, T (δ a x, r) = (δ a (T (x, r)).1, (T (x, r)).2)

/-- bounded functions which are not affected by the changes `δ` -/
structure Nice (δ : A → E → E) (h : E → ℝ) : Prop where
  meas : Measurable h
  bdd : ∃ C, ∀ x, |h x| ≤ C
  inv : ∀ a x, h (δ a x) = h x

/-- a link through `T` joins equal functions with the property `Q` -/
def Rigid (μ : Measure E) (P : Measure σ) (δ : A → E → E) (T : E × σ → E × σ)
    (Q : (E → ℝ) → Prop) : Prop :=
  ∀ h h', Nice δ h → Nice δ h' → Link μ P T h h' → h' =ᵐ[μ] h ∧ Q h

/-- properties of functions which do not depend on their values on null sets -/
def Robust (μ : Measure E) (Q : (E → ℝ) → Prop) : Prop := ∀ h h', h =ᵐ[μ] h' → Q h → Q h'

variable {μ : Measure E} {P : Measure σ} [IsProbabilityMeasure P] {δ : A → E → E}

theorem Step.id : Step μ P δ (id : E × σ → E × σ) :=
  ⟨MeasurePreserving.id _, Fair.id, fun _ _ _ => rfl⟩

theorem Step.comp {T₁ T₂ : E × σ → E × σ} (s₁ : Step μ P δ T₁) (s₂ : Step μ P δ T₂) :
    Step μ P δ (T₂ ∘ T₁) :=
  ⟨s₂.mp.comp s₁.mp, s₁.fair.comp s₂.fair s₂.mp.measurable, fun a x r => by
    simp only [Function.comp_apply]
    rw [s₁.comm, s₂.comm]⟩

theorem Step.iterate {T : E × σ → E × σ} (s : Step μ P δ T) (n : ℕ) : Step μ P δ T^[n] := by
  induction n with
  | zero => exact Step.id
  | succ n ih => rw [Function.iterate_succ]; exact s.comp ih

theorem Nice.after {T : E × σ → E × σ} (s : Step μ P δ T) {h : E → ℝ} (hh : Nice δ h) :
    Nice δ (after P T h) := by
  obtain ⟨C, hC⟩ := hh.bdd
  refine ⟨after_measurable s.mp.measurable hh.meas, ⟨C, after_bounded hC⟩, fun a x => ?_⟩
  unfold Links.after
  simp only [s.comm, hh.inv]

theorem Rigid.comp {T₁ T₂ : E × σ → E × σ} (s₁ : Step μ P δ T₁) (s₂ : Step μ P δ T₂)
    {Q₁ Q₂ : (E → ℝ) → Prop} (r₁ : Rigid μ P δ T₁ Q₁) (r₂ : Rigid μ P δ T₂ Q₂)
    (hQ : Robust μ Q₂) : Rigid μ P δ (T₂ ∘ T₁) fun h => Q₁ h ∧ Q₂ h := by
  intro h h' hh hh' hl
  have hk := hh'.after s₂
  obtain ⟨e1, q1⟩ := r₁ _ _ hh hk
    (hl.first s₁.mp.measurable s₁.fair s₂.mp.measurable hh'.meas)
  obtain ⟨e2, q2⟩ := r₂ _ _ hk hh' (hl.second s₁.mp s₁.fair s₂.mp.measurable hh'.meas)
  exact ⟨e2.trans e1, q1, hQ _ _ e1 q2⟩

theorem Rigid.id : Rigid μ P δ (id : E × σ → E × σ) fun _ => True := by
  intro h h' _ _ hl
  refine ⟨?_, trivial⟩
  filter_upwards [Measure.ae_ae_of_ae_prod hl] with x hx
  exact (eventually_const (f := ae P)).1 hx

omit [IsProbabilityMeasure P] in
theorem Rigid.mono {T : E × σ → E × σ} {Q Q' : (E → ℝ) → Prop} (r : Rigid μ P δ T Q)
    (h : ∀ k, Q k → Q' k) : Rigid μ P δ T Q' :=
  fun k k' hk hk' hl => ⟨(r k k' hk hk' hl).1, h _ (r k k' hk hk' hl).2⟩

/-! ## Lists of steps -/

section fold

variable {ι : Type*} {step : E × σ → ι → E × σ}

theorem Step.fold (s : ∀ i, Step μ P δ fun y => step y i) (l : List ι) :
    Step μ P δ fun y => l.foldl step y := by
  induction l with
  | nil => exact Step.id
  | cons i l ih => exact (s i).comp ih

theorem Rigid.fold (s : ∀ i, Step μ P δ fun y => step y i) {Q : ι → (E → ℝ) → Prop}
    (r : ∀ i, Rigid μ P δ (fun y => step y i) (Q i)) (hQ : ∀ i, Robust μ (Q i)) (l : List ι) :
    Rigid μ P δ (fun y => l.foldl step y) fun h => ∀ i ∈ l, Q i h := by
  induction l with
  | nil => exact Rigid.id.mono fun _ _ i hi => absurd hi List.not_mem_nil
  | cons i l ih =>
    refine (Rigid.comp (s i) (Step.fold s l) (r i) ih fun h h' e q j hj => hQ j _ _ e (q j hj)).mono
      fun k hk j hj => ?_
    rcases List.mem_cons.1 hj with rfl | hj
    · exact hk.1
    · exact hk.2 j hj

end fold

/-! ## Random choices -/

section mix

variable {Ω : Type*} [MeasurableSpace Ω] {ν : Measure Ω} [IsProbabilityMeasure ν] {d : σ → Ω × σ}
  {S : Ω → E × σ → E × σ}

theorem Step.mix [SFinite μ] (hd : MeasurePreserving d P (ν.prod P))
    (hS : Measurable fun p : Ω × E × σ => S p.1 p.2) (h : ∀ o, Step μ P δ (S o)) :
    Step μ P δ fun y : E × σ => S (d y.2).1 (y.1, (d y.2).2) :=
  ⟨mix_source μ ν P d hd S hS fun o => (h o).mp, Fair.mix hd hS fun o => (h o).fair,
    fun a x _ => (h _).comm a x _⟩

/-- a link through a random choice is a link through each of the possibilities -/
theorem Rigid.mix [SFinite μ] (hd : MeasurePreserving d P (ν.prod P))
    (hS : Measurable fun p : Ω × E × σ => S p.1 p.2) (hν : ∀ o, ν {o} ≠ 0)
    {Q : Ω → (E → ℝ) → Prop} (h : ∀ o, Rigid μ P δ (S o) (Q o)) [Nonempty Ω] :
    Rigid μ P δ (fun y : E × σ => S (d y.2).1 (y.1, (d y.2).2)) fun k => ∀ o, Q o k := by
  intro k k' hk hk' hl
  have h1 : MeasurePreserving (Prod.map _root_.id d) (μ.prod P) (μ.prod (ν.prod P)) :=
    (MeasurePreserving.id μ).prod hd
  have h2 : MeasurePreserving (fun p : E × Ω × σ => (p.2.1, p.1, p.2.2)) (μ.prod (ν.prod P))
      (ν.prod (μ.prod P)) := by
    have a := (measurePreserving_prodAssoc μ ν P).symm
    have b := (Measure.measurePreserving_swap (μ := μ) (ν := ν)).prod (MeasurePreserving.id P)
    have c := measurePreserving_prodAssoc ν μ P
    exact c.comp (b.comp a)
  have h3 := h2.comp h1
  have hset : MeasurableSet {p : Ω × E × σ | k' (S p.1 p.2).1 = k p.2.1} :=
    measurableSet_eq_fun (hk'.meas.comp (measurable_fst.comp hS))
      (hk.meas.comp (measurable_fst.comp measurable_snd))
  have h4 : ∀ᵐ p ∂(ν.prod (μ.prod P)), k' (S p.1 p.2).1 = k p.2.1 := by
    rw [← h3.map_eq]
    exact (ae_map_iff h3.measurable.aemeasurable hset).2 hl
  have h5 := Measure.ae_ae_of_ae_prod h4
  have h6 : ∀ o, Link μ P (S o) k k' := by
    intro o
    by_contra hcon
    have : ν {o} = 0 := measure_mono_null (t := {o | ¬ ∀ᵐ y ∂(μ.prod P), k' (S o y).1 = k y.1})
      (Set.singleton_subset_iff.2 hcon) h5
    exact hν o this
  exact ⟨(h (Classical.arbitrary Ω) k k' hk hk' (h6 _)).1, fun o => (h o k k' hk hk' (h6 o)).2⟩

end mix

/-! ## Metropolis steps -/

theorem unit_low {ρ : ℝ} (hρ : 0 < ρ) {p : Prop} (h : ∀ᵐ u ∂unit, u < ρ → p) : p := by
  by_contra hp
  have : unit {u | u < ρ} = 0 := measure_mono_null
    (t := {u | ¬ (u < ρ → p)}) (fun u hu hc => hp (hc hu)) h
  rw [unit_lt, ENNReal.ofReal_eq_zero] at this
  have := lt_min one_pos hρ
  linarith

theorem unit_high {ρ : ℝ} (hρ : ρ < 1) {p : Prop} (h : ∀ᵐ u ∂unit, ¬ u < ρ → p) : p := by
  by_contra hp
  have h0 : unit {u | u < ρ}ᶜ = 0 := measure_mono_null
    (t := {u | ¬ (¬ u < ρ → p)}) (fun u hu hc => hp (hc hu)) h
  rw [prob_compl_eq_zero_iff (show MeasurableSet {u : ℝ | u < ρ} from measurableSet_Iio), unit_lt, ENNReal.ofReal_eq_one] at h0
  rw [min_eq_right hρ.le] at h0
  linarith

variable {m : Measure E} {w : E → ℝ}

/-- statements which hold almost everywhere for the distribution hold almost everywhere -/
theorem ae_of_target (hw : Measurable w) (hpos : ∀ᵐ x ∂m, 0 < w x) {p : E → Prop} :
    (∀ᵐ x ∂target m w, p x) ↔ ∀ᵐ x ∂m, p x := by
  unfold target
  rw [ae_withDensity_iff hw.ennreal_ofReal]
  constructor
  · intro h
    filter_upwards [h, hpos] with x hx hx'
    exact hx (by simpa using hx')
  · intro h
    filter_upwards [h] with x hx _
    exact hx

theorem target_ac (hw : Measurable w) (hpos : ∀ᵐ x ∂m, 0 < w x) : m ≪ target m w := by
  intro s hs
  have := (ae_of_target hw hpos (p := fun x => x ∉ s)).1 (measure_eq_zero_iff_ae_notMem.1 hs)
  exact measure_eq_zero_iff_ae_notMem.2 this

/-- a proposed change without choice, and its acceptance -/
noncomputable def flipper (w : E → ℝ) (τ : E → E) (u : σ → ℝ × σ) (y : E × σ) : E × σ :=
  (if (u y.2).1 < w (τ y.1) / w y.1 then τ y.1 else y.1, (u y.2).2)

omit [MeasurableSpace E] [MeasurableSpace σ] in
theorem flipper_comm (hδ : ∀ a x, w (δ a x) = w x) {τ : E → E}
    (hτ : ∀ a x, τ (δ a x) = δ a (τ x)) (u : σ → ℝ × σ) (a : A) (x : E) (r : σ) :
    flipper w τ u (δ a x, r) = (δ a (flipper w τ u (x, r)).1, (flipper w τ u (x, r)).2) := by
  unfold flipper
  simp only [hτ, hδ]
  split <;> rfl

theorem flipper_fair (hw : Measurable w) {τ : E → E} (hτ : Measurable τ)
    {u : σ → ℝ × σ} (hu : MeasurePreserving u P (unit.prod P)) : Fair P (flipper w τ u) := by
  refine Fair.draw hu (φ := fun x o => if o < w (τ x) / w x then τ x else x) ?_
  refine Measurable.ite ?_ (hτ.comp measurable_fst) measurable_fst
  exact measurableSet_lt measurable_snd
    ((hw.comp (hτ.comp measurable_fst)).div (hw.comp measurable_fst))

theorem flipper_link (hw : Measurable w) (hpos : ∀ᵐ x ∂m, 0 < w x) {τ : E → E}
    {u : σ → ℝ × σ} (hu : MeasurePreserving u P (unit.prod P)) {h h' : E → ℝ}
    (hl : Link (target m w) P (flipper w τ u) h h') :
    ∀ᵐ x ∂m, ∀ᵐ o ∂unit, h' (if o < w (τ x) / w x then τ x else x) = h x := by
  have h1 := (ae_of_target hw hpos).1 (Measure.ae_ae_of_ae_prod hl)
  filter_upwards [h1] with x hx
  have hfst : MeasurePreserving (fun r => (u r).1) P unit := measurePreserving_fst.comp hu
  have hset : MeasurableSet {o : ℝ | h' (if o < w (τ x) / w x then τ x else x) = h x} := by
    by_cases ha : h' (τ x) = h x
    · by_cases hb : h' x = h x
      · have : {o : ℝ | h' (if o < w (τ x) / w x then τ x else x) = h x} = Set.univ := by
          ext o
          simp only [Set.mem_ofPred_eq, Set.mem_univ, iff_true]
          split <;> assumption
        rw [this]
        exact MeasurableSet.univ
      · have : {o : ℝ | h' (if o < w (τ x) / w x then τ x else x) = h x} =
            Set.Iio (w (τ x) / w x) := by
          ext o
          simp only [Set.mem_ofPred_eq, Set.mem_Iio]
          split <;> simp_all
        rw [this]
        exact measurableSet_Iio
    · by_cases hb : h' x = h x
      · have : {o : ℝ | h' (if o < w (τ x) / w x then τ x else x) = h x} =
            (Set.Iio (w (τ x) / w x))ᶜ := by
          ext o
          simp only [Set.mem_ofPred_eq, Set.mem_compl_iff, Set.mem_Iio]
          split <;> simp_all
        rw [this]
        exact measurableSet_Iio.compl
      · have : {o : ℝ | h' (if o < w (τ x) / w x then τ x else x) = h x} = ∅ := by
          ext o
          simp only [Set.mem_ofPred_eq, Set.mem_empty_iff_false, iff_false]
          split <;> assumption
        rw [this]
        exact MeasurableSet.empty
  rw [← hfst.map_eq]
  exact (ae_map_iff hfst.measurable.aemeasurable hset).2 hx

/-- changes which change the weight -/
theorem flipper_rigid (hw : Measurable w) (hpos : ∀ᵐ x ∂m, 0 < w x) {τ : E → E}
    (hτ : MeasurePreserving τ m m) (hinv : ∀ x, τ (τ x) = x) (hne : ∀ᵐ x ∂m, w (τ x) ≠ w x)
    {u : σ → ℝ × σ} (hu : MeasurePreserving u P (unit.prod P)) {h h' : E → ℝ}
    (hl : Link (target m w) P (flipper w τ u) h h') :
    h' =ᵐ[m] h ∧ (fun x => h (τ x)) =ᵐ[m] h := by
  have h1 := flipper_link hw hpos hu hl
  have key : ∀ᵐ x ∂m, 0 < w x ∧ 0 < w (τ x) ∧ w (τ x) ≠ w x ∧ (h' (τ x) = h x) ∧
      (w (τ x) < w x → h' x = h x) := by
    filter_upwards [h1, hpos, hτ.quasiMeasurePreserving.ae hpos, hne] with x hx p1 p2 p3
    refine ⟨p1, p2, p3, ?_, fun hlt => ?_⟩
    · refine unit_low (div_pos p2 p1) (hx.mono fun o ho hlt => ?_)
      rwa [if_pos hlt] at ho
    · refine unit_high ((div_lt_one p1).2 hlt) (hx.mono fun o ho hlt => ?_)
      rwa [if_neg hlt] at ho
  have both : ∀ᵐ x ∂m, h' x = h x ∧ h (τ x) = h x := by
    filter_upwards [key, hτ.quasiMeasurePreserving.ae key] with x a b
    rw [hinv] at b
    obtain ⟨-, -, ne, a1, a2⟩ := a
    obtain ⟨-, -, -, b1, b2⟩ := b
    rcases lt_or_gt_of_ne ne with hlt | hgt
    · have := a2 hlt
      exact ⟨this, by rw [← b1, this]⟩
    · have := b2 hgt
      exact ⟨by rw [b1, ← this, a1], by rw [← this, a1]⟩
  exact ⟨both.mono fun x hx => hx.1, both.mono fun x hx => hx.2⟩

/-- changes which never change the weight, and do not matter -/
theorem flipper_trivial (hw : Measurable w) (hpos : ∀ᵐ x ∂m, 0 < w x) {τ : E → E}
    (heq : ∀ x, w (τ x) = w x) {u : σ → ℝ × σ} (hu : MeasurePreserving u P (unit.prod P))
    {h h' : E → ℝ} (hh' : ∀ x, h' (τ x) = h' x) (hl : Link (target m w) P (flipper w τ u) h h') :
    h' =ᵐ[m] h := by
  filter_upwards [flipper_link hw hpos hu hl, hpos] with x hx p
  refine unit_low (ρ := 1) one_pos (hx.mono fun o ho hlt => ?_)
  rwa [heq, div_self p.ne', if_pos hlt, hh'] at ho

/-- a proposed displacement, and its acceptance -/
noncomputable def shifter (w : E → ℝ) (V : ℝ → E → E) (b : ℝ) (u : σ → ℝ × σ) (y : E × σ) : E × σ :=
  (move w (fun o x => V ((o - 0.5) * b) x) y.1 (u y.2).1 (u (u y.2).2).1, (u (u y.2).2).2)

omit [MeasurableSpace E] [MeasurableSpace σ] in
theorem shifter_comm (hδ : ∀ a x, w (δ a x) = w x) {V : ℝ → E → E}
    (hV : ∀ s a x, V s (δ a x) = δ a (V s x)) (b : ℝ) (u : σ → ℝ × σ) (a : A) (x : E) (r : σ) :
    shifter w V b u (δ a x, r) =
      (δ a (shifter w V b u (x, r)).1, (shifter w V b u (x, r)).2) := by
  unfold shifter move
  simp only [hV, hδ]
  split <;> rfl

theorem shifter_fair (hw : Measurable w) {V : ℝ → E → E}
    (hV : Measurable fun p : ℝ × E => V p.1 p.2) (b : ℝ) {u : σ → ℝ × σ}
    (hu : MeasurePreserving u P (unit.prod P)) : Fair P (shifter w V b u) := by
  have hT : Measurable fun p : ℝ × E => V ((p.1 - 0.5) * b) p.2 :=
    hV.comp (((measurable_fst.sub_const _).mul_const _).prodMk measurable_snd)
  refine Fair.draw (twice P u hu)
    (φ := fun x (o : ℝ × ℝ) => move w (fun o x => V ((o - 0.5) * b) x) x o.1 o.2) ?_
  exact move_measurable (T := fun o x => V ((o - 0.5) * b) x) hw hT

/-- displacements -/
theorem shifter_rigid [SFinite m] (hw : Measurable w) (hpos : ∀ᵐ x ∂m, 0 < w x) {V : ℝ → E → E}
    (hV : Measurable fun p : ℝ × E => V p.1 p.2) (hm : ∀ s, MeasurePreserving (V s) m m)
    (h0 : ∀ x, V 0 x = x) (hadd : ∀ s t x, V s (V t x) = V (s + t) x) {b : ℝ} (hb : b ≠ 0)
    {u : σ → ℝ × σ} (hu : MeasurePreserving u P (unit.prod P)) {h h' : E → ℝ}
    (hh : Measurable h) (hh' : Measurable h') (hl : Link (target m w) P (shifter w V b u) h h') :
    h' =ᵐ[m] h ∧ ∀ s, (fun x => h (V s x)) =ᵐ[m] h := by
  have hT : Measurable fun p : ℝ × E => V ((p.1 - 0.5) * b) p.2 :=
    hV.comp (((measurable_fst.sub_const _).mul_const _).prodMk measurable_snd)
  -- the displacements are accepted with positive probability
  have h1 := (ae_of_target hw hpos).1 (Measure.ae_ae_of_ae_prod hl)
  have h2 : ∀ᵐ x ∂m, ∀ᵐ o ∂unit, ∀ᵐ o' ∂unit,
      h' (move w (fun o x => V ((o - 0.5) * b) x) x o o') = h x := by
    filter_upwards [h1] with x hx
    have tw := twice P u hu
    have hfst : MeasurePreserving (fun r => ((u r).1, (u (u r).2).1)) P (unit.prod unit) :=
      measurePreserving_fst.comp tw
    have hmv := move_measurable (T := fun o x => V ((o - 0.5) * b) x) hw hT
    have hset : MeasurableSet {p : ℝ × ℝ |
        h' (move w (fun o x => V ((o - 0.5) * b) x) x p.1 p.2) = h x} :=
      measurableSet_eq_fun (hh'.comp (hmv.comp (measurable_const.prodMk measurable_id)))
        measurable_const
    refine Measure.ae_ae_of_ae_prod (p := fun p : ℝ × ℝ =>
      h' (move w (fun o x => V ((o - 0.5) * b) x) x p.1 p.2) = h x) ?_
    rw [← hfst.map_eq]
    exact (ae_map_iff hfst.measurable.aemeasurable hset).2 hx
  have h3 : ∀ᵐ x ∂m, ∀ᵐ o ∂unit, 0 < w (V ((o - 0.5) * b) x) := by
    have hset : MeasurableSet {p : ℝ × E | 0 < w (V ((p.1 - 0.5) * b) p.2)} :=
      measurableSet_lt measurable_const (hw.comp hT)
    exact (Measure.ae_ae_comm hset).1 (.of_forall fun o => (hm _).quasiMeasurePreserving.ae hpos)
  have h4 : ∀ᵐ x ∂m, ∀ᵐ o ∂unit, h' (V ((o - 0.5) * b) x) = h x := by
    filter_upwards [h2, h3, hpos] with x hx hx3 p
    filter_upwards [hx, hx3] with o ho p'
    refine unit_low (div_pos p' p) (ho.mono fun o' ho' hlt => ?_)
    rwa [move, if_pos hlt] at ho'
  have h5 : ∀ᵐ o ∂unit, ∀ᵐ x ∂m, h' (V ((o - 0.5) * b) x) = h x := by
    have hset : MeasurableSet {p : E × ℝ | h' (V ((p.2 - 0.5) * b) p.1) = h p.1} :=
      measurableSet_eq_fun (hh'.comp (hT.comp measurable_swap)) (hh.comp measurable_fst)
    exact (Measure.ae_ae_comm hset).1 h4
  -- the displacements which leave `h'` invariant
  have sub : ∀ s t : ℝ, (fun x => h' (V s x)) =ᵐ[m] h' → (fun x => h' (V t x)) =ᵐ[m] h' →
      (fun x => h' (V (s + t) x)) =ᵐ[m] h' := by
    intro s t hs ht
    have := (hm t).quasiMeasurePreserving.ae hs
    filter_upwards [this, ht] with x a b
    rw [← hadd, a, b]
  have diff : ∀ s t : ℝ, (∀ᵐ x ∂m, h' (V s x) = h x) → (∀ᵐ x ∂m, h' (V t x) = h x) →
      (fun x => h' (V (t - s) x)) =ᵐ[m] h' := by
    intro s t hs ht
    have h6 := (hm (-s)).quasiMeasurePreserving.ae hs
    have h7 := (hm (-s)).quasiMeasurePreserving.ae ht
    filter_upwards [h6, h7] with x a b
    rw [hadd, add_neg_cancel, h0] at a
    rw [hadd] at b
    rw [sub_eq_add_neg, b, a]
  have vol : ∀ᵐ o : ℝ, o ∈ Set.Ioc (0 : ℝ) 1 → ∀ᵐ x ∂m, h' (V ((o - 0.5) * b) x) = h x := by
    unfold unit at h5
    exact (ae_restrict_iff' measurableSet_Ioc).1 h5
  have small : ∀ s : ℝ, |s / b| < 1 / 4 → (fun x => h' (V s x)) =ᵐ[m] h' := by
    intro s hs
    have vol' : ∀ᵐ o : ℝ, o + s / b ∈ Set.Ioc (0 : ℝ) 1 →
        ∀ᵐ x ∂m, h' (V ((o + s / b - 0.5) * b) x) = h x :=
      (measurePreserving_add_right volume (s / b)).quasiMeasurePreserving.ae vol
    have hne : (volume.restrict (Set.Ioo (1 / 4 : ℝ) (3 / 4))) ≠ 0 := by
      rw [Ne, Measure.restrict_eq_zero, Real.volume_Ioo, ENNReal.ofReal_eq_zero]
      norm_num
    have : (ae (volume.restrict (Set.Ioo (1 / 4 : ℝ) (3 / 4)))).NeBot := ae_neBot.2 hne
    obtain ⟨o, ⟨v1, v2⟩, ho⟩ := ((ae_restrict_of_ae (s := Set.Ioo (1 / 4 : ℝ) (3 / 4))
      (vol.and vol')).and (ae_restrict_mem measurableSet_Ioo)).exists
    rw [abs_lt] at hs
    have a := v1 ⟨by linarith [ho.1], by linarith [ho.2]⟩
    have c := v2 ⟨by linarith [ho.1], by linarith [ho.2]⟩
    have := diff _ _ a c
    have e : (o + s / b - 0.5) * b - (o - 0.5) * b = s := by
      field_simp
      ring
    rwa [e] at this
  have all : ∀ s : ℝ, (fun x => h' (V s x)) =ᵐ[m] h' := by
    intro s
    obtain ⟨n, hn⟩ := exists_nat_gt (4 * |s / b|)
    have hn0 : (0 : ℝ) < n := lt_of_le_of_lt (by positivity) hn
    have hsm := small (s / n) (by
      rw [div_right_comm, abs_div, abs_of_pos hn0, div_lt_iff₀ hn0]
      linarith)
    have mult : ∀ k : ℕ, (fun x => h' (V (k * (s / n)) x)) =ᵐ[m] h' := by
      intro k
      induction k with
      | zero => simp [h0]
      | succ k ih =>
        have := sub _ _ ih hsm
        rwa [show ((k + 1 : ℕ) : ℝ) * (s / n) = k * (s / n) + s / n by push_cast; ring]
    have := mult n
    rwa [mul_div_cancel₀ _ hn0.ne'] at this
  have eq : h' =ᵐ[m] h := by
    have hne : (ae unit).NeBot := ae_neBot.2 (IsProbabilityMeasure.ne_zero unit)
    obtain ⟨o, ho⟩ := h5.exists
    filter_upwards [ho, all ((o - 0.5) * b)] with x a c
    rw [← c, a]
  refine ⟨eq, fun s => ?_⟩
  filter_upwards [all s, eq, (hm s).quasiMeasurePreserving.ae eq] with x a c d
  rw [← d, a, c]

end Verif.Links
