import Verif.Props.RoundedPhMoves
import Verif.Props.AlmostSure

/-!
# Property C123, fourth part: ties have probability zero

A comparison between a random number and an acceptance probability can have different results in exact and in rounded arithmetic
only if both are equal or nearly equal.  Equality has probability zero for every single update, hence for a whole run.
-/

set_option autoImplicit false

namespace Verif.Rounded.Ph

open MeasureTheory Filter Topology Matrix Verif.Lapack Verif.TimeFlow Verif.Greens Verif.Stratonovich Verif.MonteCarlo Verif.Ultra
  Verif.Metropolis

variable {N : ℕ} {σ : Type} {M : Type}

/-! ## Null sets -/

/-- a uniform number is almost never equal to a number chosen independently -/
theorem unit_ne_ae {Y : Type} [MeasurableSpace Y] (μ : Measure Y) [SFinite μ] (g : Y → ℝ) (hg : Measurable g) :
    ∀ᵐ p ∂μ.prod unit, p.2 ≠ g p.1 := by
  have hm : MeasurableSet {p : Y × ℝ | p.2 ≠ g p.1} :=
    (measurableSet_eq_fun measurable_snd (hg.comp measurable_fst)).compl
  rw [Measure.ae_prod_iff_ae_ae hm]
  refine Eventually.of_forall fun y => ?_
  show ∀ᵐ x ∂unit, x ≠ g y
  rw [ae_iff]
  have : {x : ℝ | ¬ x ≠ g y} = {g y} := by ext x; simp
  rw [this]
  unfold unit
  exact measure_singleton _

variable {sys : Sys σ N M} {ph : Phonon} {rest : Measure ℝ} [SigmaFinite rest] {L len l : ℕ}

/-- the comparison of a proposed change without choice is a tie -/
def MapTie (sys : Sys σ N M) (ph : Phonon) (L : ℕ) (T : Conf L N → Conf L N) (y : Conf L N × σ) : Prop :=
  (sys.rng.uniform y.2).1 = confWeight sys ph L (T y.1) / confWeight sys ph L y.1

/-- the comparison of a proposed displacement is a tie -/
def ShiftTie (sys : Sys σ N M) (ph : Phonon) (L : ℕ) (v : ℝ → Paths L N) (y : Conf L N × σ) : Prop :=
  (sys.rng.uniform (sys.rng.uniform y.2).2).1
    = confWeight sys ph L (y.1.1, y.1.2 + v (sys.rng.uniform y.2).1) / confWeight sys ph L y.1

section null

variable [MeasurableSpace σ] {P : Measure σ}

theorem mapTie_ae (hP : sys.rng.Ideal N P) (T : Conf L N → Conf L N) (hT : Measurable T) :
    ∀ᵐ y ∂(confDist sys ph rest L).prod P, ¬ MapTie sys ph L T y := by
  have := hP.prob
  have h := unit_ne_ae (confDist sys ph rest L) (fun x => confWeight sys ph L (T x) / confWeight sys ph L x)
    ((confWeight_measurable.comp hT).div confWeight_measurable)
  have hm : MeasurePreserving (fun y : Conf L N × σ => (y.1, (sys.rng.uniform y.2).1)) ((confDist sys ph rest L).prod P)
      ((confDist sys ph rest L).prod unit) :=
    (MeasurePreserving.id (confDist sys ph rest L)).prod (measurePreserving_fst.comp hP.uniform)
  exact hm.quasiMeasurePreserving.ae h

theorem shiftTie_ae (hP : sys.rng.Ideal N P) (v : ℝ → Paths L N) (hv : Measurable v) :
    ∀ᵐ y ∂(confDist sys ph rest L).prod P, ¬ ShiftTie sys ph L v y := by
  have := hP.prob
  have h := unit_ne_ae ((confDist sys ph rest L).prod unit)
    (fun p : Conf L N × ℝ => confWeight sys ph L (p.1.1, p.1.2 + v p.2) / confWeight sys ph L p.1)
    ((confWeight_measurable.comp ((measurable_fst.comp measurable_fst).prodMk
      ((measurable_snd.comp measurable_fst).add (hv.comp measurable_snd)))).div (confWeight_measurable.comp measurable_fst))
  have h2 : MeasurePreserving (fun r => ((sys.rng.uniform r).1, (sys.rng.uniform (sys.rng.uniform r).2).1)) P (unit.prod unit) :=
    measurePreserving_fst.comp (twice P sys.rng.uniform hP.uniform)
  have hm : MeasurePreserving (fun y : Conf L N × σ =>
      ((y.1, (sys.rng.uniform y.2).1), (sys.rng.uniform (sys.rng.uniform y.2).2).1)) ((confDist sys ph rest L).prod P)
      (((confDist sys ph rest L).prod unit).prod unit) :=
    (measurePreserving_prodAssoc (confDist sys ph rest L) unit unit).symm.comp
      ((MeasurePreserving.id (confDist sys ph rest L)).prod h2)
  exact hm.quasiMeasurePreserving.ae h

/-- the source after a random choice -/
theorem after_choice {A : Type} [Fintype A] [Nonempty A] [MeasurableSpace A] [MeasurableSingletonClass A] [IsProbabilityMeasure P] (f : σ → A × σ)
    (hf : MeasurePreserving f P ((equi A).prod P)) :
    MeasurePreserving (fun y : Conf L N × σ => (y.1, (f y.2).2)) ((confDist sys ph rest L).prod P) ((confDist sys ph rest L).prod P) := by
  have := equi_prob A
  exact (MeasurePreserving.id (confDist sys ph rest L)).prod (measurePreserving_snd.comp hf)

end null

/-- no comparison is a tie while the sites in `order` are updated one after the other -/
def Free {Y : Type} (tie : Fin N → Y → Prop) (step : Y → Fin N → Y) : List (Fin N) → Y → Prop
  | [], _ => True
  | i :: rest, y => ¬ tie i y ∧ Free tie step rest (step y i)

theorem free_ae {Y : Type} [MeasurableSpace Y] {μ : Measure Y} (tie : Fin N → Y → Prop) (step : Y → Fin N → Y)
    (hstep : ∀ i, MeasurePreserving (fun y => step y i) μ μ) (htie : ∀ i, ∀ᵐ y ∂μ, ¬ tie i y) :
    ∀ᵐ y ∂μ, ∀ order, Free tie step order y := by
  rw [ae_all_iff]
  intro order
  induction order with
  | nil => exact Eventually.of_forall fun _ => trivial
  | cons i order ih =>
    filter_upwards [htie i, (hstep i).quasiMeasurePreserving.ae ih] with y h1 h2
    exact ⟨h1, h2⟩

/-! ## Folds over the sites -/

section folds

variable {U : Ultrafilter ℕ} {mlim : Ultrafilter ℕ → (ℕ → M) → M → Prop} {k : ℕ} {q : Prop} {u : ℕ → ℝ}
  {c : ℕ → Comp N M} {at' bt : ℕ → State σ N M} {a : State σ N M}

omit [SigmaFinite rest] in
/-- the quantity compared with the random number is the ratio of the weights -/
theorem hs_ratio (h : PhMid sys ph L len l a) (hok : sys.Ok len) (hl : l < L) (i : Fin N) :
    |MonteCarlo.ratio a.Gu i (sys.hs.delta (a.s l i) (sys.orb i)) * MonteCarlo.ratio a.Gd i (sys.hs.delta (1 - a.s l i) (sys.orb i))|
      = confWeight sys ph L (flipConf l i (viewPh L a).1) / confWeight sys ph L (viewPh L a).1 := by
  have hL : 0 < L := by omega
  unfold viewPh flipConf
  simp only
  rw [flipAt_fieldOf hl, confWeight_view hL, confWeight_view hL]
  unfold Sys.fullWeight
  rw [mul_div_mul_right _ _ (Real.exp_pos _).ne']
  have hW : 0 < sys.weight L a.s (sys.expOf ph a.X) := Exact.weight_pos (l := l + 1) ⟨h.mid.up.good, h.mid.down.good⟩ hL
  obtain ⟨eu, ed⟩ := h.mid.accept_eq hok hl i
  rw [eq_div_iff hW.ne', weight_shift L hL _ _ (l + 1), weight_shift L hL _ _ (l + 1), eu, ed, ← abs_mul]
  congr 1
  ring

/-- the quantity compared with the random number is the ratio of the weights -/
theorem local_ratio (h : PhMid sys ph L len l a) (hL : 2 ≤ L) (hl : l < L) (i : Fin N) (dx : ℝ) :
    |MonteCarlo.ratio a.Gu i (Real.exp (-ph.dt * ph.g (sys.orb i) * dx) - 1) *
        MonteCarlo.ratio a.Gd i (Real.exp (-ph.dt * ph.g (sys.orb i) * dx) - 1)| *
        Real.exp (-ph.dt * MonteCarlo.localEnergyChange sys ph L l a.X i dx)
      = confWeight sys ph L ((viewPh L a).1.1, (viewPh L a).1.2 + spike l i dx) / confWeight sys ph L (viewPh L a).1 := by
  have hL0 : 0 < L := by omega
  unfold viewPh
  simp only
  rw [← pathsOf_moveLocal, confWeight_view hL0, confWeight_view hL0]
  have hW0 : 0 < sys.weight L a.s (sys.expOf ph a.X) :=
    Exact.weight_pos (l := l + 1) ⟨h.mid.up.good, h.mid.down.good⟩ hL0
  have hW : 0 < sys.fullWeight ph L a.s a.X := mul_pos hW0 (Real.exp_pos _)
  have eu := h.mid.up.good.ratio_eq hl i (Real.exp (-ph.dt * ph.g (sys.orb i) * dx) - 1)
  have ed := h.mid.down.good.ratio_eq hl i (Real.exp (-ph.dt * ph.g (sys.orb i) * dx) - 1)
  rw [← fieldB_moveLocal] at eu ed
  rw [eq_div_iff hW.ne']
  unfold Sys.fullWeight
  rw [localEnergyChange_spec sys ph L hL l hl, weight_shift L hL0 _ _ (l + 1),
    weight_shift L hL0 _ _ (l + 1), eu, ed]
  have : ∀ a b c d e f : ℝ, |a * c| * Real.exp (-ph.dt * (e - f)) * (|b * d| * Real.exp (-ph.dt * f))
      = |a * b * (c * d)| * Real.exp (-ph.dt * e) := by
    intro a b c d e f
    rw [show -ph.dt * e = -ph.dt * (e - f) + -ph.dt * f by ring, Real.exp_add,
      show a * b * (c * d) = (a * c) * (b * d) by ring, abs_mul (a * c)]
    ring
  exact this _ _ _ _ _ _

theorem hsFold_stLim (hc : Ctx U mlim sys L len k q u c) (hok : sys.Ok len) (hl : l < L) (order : List (Fin N))
    (h : StLim U mlim L len c l at' a) (ha : PhMid sys ph L len l a)
    (hf : Free (fun i => MapTie sys ph L (flipConf l i)) (fun y i => mapStep sys ph L (flipConf l i) y) order (viewPh L a)) :
    StLim U mlim L len c l (fun t => order.foldl (hsSite (c t) sys l) (at' t)) (order.foldl (MonteCarlo.hsSite sys l) a) := by
  induction order generalizing at' a with
  | nil => exact h
  | cons i order ih =>
    simp only [List.foldl_cons]
    obtain ⟨h1, h2⟩ := hf
    refine ih (hsSite_stLim hc h i l (hok.rng.uniform_pos _) ?_) (ha.hsSite hok hl i) ?_
    · rw [hs_ratio ha hok hl]
      exact h1
    · rw [hsSite_viewPh ha hok hl]
      exact h2

/-- the comparison of a local update is a tie -/
def LocalTie (sys : Sys σ N M) (ph : Phonon) (L l : ℕ) (i : Fin N) (y : Conf L N × σ) : Prop :=
  ph.g (sys.orb i) ≠ 0 ∧ ShiftTie sys ph L (fun u => spike l i ((u - 0.5) * ph.localBox)) y

theorem localFold_stLim (hc : Ctx U mlim sys L len k q u c) (hdt : ph.dt ≠ 0) (hok : sys.Ok len) (hL : 2 ≤ L) (hl : l < L) (order : List (Fin N))
    (h : StLim U mlim L len c l at' a) (ha : PhMid sys ph L len l a)
    (hf : Free (LocalTie sys ph L l) (localStep sys ph L l) order (viewPh L a)) :
    StLim U mlim L len c l (fun t => order.foldl (localSite (c t) sys ph l) (at' t)) (order.foldl (MonteCarlo.localSite sys ph l) a) := by
  induction order generalizing at' a with
  | nil => exact h
  | cons i order ih =>
    simp only [List.foldl_cons]
    obtain ⟨h1, h2⟩ := hf
    refine ih (localSite_stLim hc h hdt i hl ha.mid.up.td.hL (hok.rng.uniform_pos _) ?_) (ha.localSite hok hl i) ?_
    · intro hg
      simp only
      rw [local_ratio ha hL hl]
      exact fun e => h1 ⟨hg, e⟩
    · rw [localSite_viewPh ha hL hl]
      exact h2

theorem rng_stLim (h : StLim U mlim L len c l at' a) (r : σ) : StLim U mlim L len c l (fun t => { at' t with rng := r }) { a with rng := r } :=
  { h with rng := Eventually.of_forall fun _ => rfl }

theorem hsSlice_stLim (hc : Ctx U mlim sys L len k q u c) (hok : sys.Ok len) (hl : l < L)
    (h : StLim U mlim L len c l at' a) (ha : PhMid sys ph L len l a) {b : State σ N M} (hb : MonteCarlo.hsSlice sys l a = some b)
    (hf : ∀ order r, sys.rng.shuffle N a.rng = some (order, r) →
      Free (fun i => MapTie sys ph L (flipConf l i)) (fun y i => mapStep sys ph L (flipConf l i) y) order ((viewPh L a).1, r)) :
    ∃ bt, (∀ᶠ t in (U : Filter ℕ), hsSlice (c t) sys l (at' t) = some (bt t)) ∧ StLim U mlim L len c l bt b := by
  unfold MonteCarlo.hsSlice at hb
  simp only [Option.bind_eq_bind] at hb
  obtain ⟨⟨order, r⟩, e, hb⟩ := Option.bind_eq_some_iff.1 hb
  have hb := Option.some.inj hb
  subst hb
  refine ⟨_, ?_, hsFold_stLim (ph := ph) hc hok hl order (rng_stLim h r) ⟨⟨ha.mid.up, ha.mid.down⟩, ha.coh⟩ (hf order r e)⟩
  filter_upwards [h.rng] with t ht
  unfold hsSlice
  rw [ht, e]
  rfl

theorem localSlice_stLim (hc : Ctx U mlim sys L len k q u c) (hdt : ph.dt ≠ 0) (hok : sys.Ok len) (hL : 2 ≤ L) (hl : l < L)
    (h : StLim U mlim L len c l at' a) (ha : PhMid sys ph L len l a) {b : State σ N M} (hb : MonteCarlo.localSlice sys ph l a = some b)
    (hf : ∀ order sites r, sys.rng.shuffle N a.rng = some (order, r) → localOrder order ph.nLocal = some sites →
      Free (LocalTie sys ph L l) (localStep sys ph L l) sites ((viewPh L a).1, r)) :
    ∃ bt, (∀ᶠ t in (U : Filter ℕ), localSlice (c t) sys ph l (at' t) = some (bt t)) ∧ StLim U mlim L len c l bt b := by
  unfold MonteCarlo.localSlice at hb
  simp only [Option.bind_eq_bind] at hb
  obtain ⟨⟨order, r⟩, e, hb⟩ := Option.bind_eq_some_iff.1 hb
  obtain ⟨sites, e2, hb⟩ := Option.bind_eq_some_iff.1 hb
  have hb := Option.some.inj hb
  subst hb
  refine ⟨_, ?_, localFold_stLim (ph := ph) hc hdt hok hL hl sites (rng_stLim h r) ⟨⟨ha.mid.up, ha.mid.down⟩, ha.coh⟩ (hf order sites r e e2)⟩
  filter_upwards [h.rng] with t ht
  unfold localSlice
  rw [ht, e]
  simp only [Option.bind_eq_bind, Option.bind_some]
  rw [e2]
  rfl

end folds

end Verif.Rounded.Ph
