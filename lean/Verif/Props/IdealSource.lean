import Mathlib.Probability.ProductMeasure
import Verif.Props.Stationary

/-! # Ideal sources of random numbers exist (C73) -/

set_option autoImplicit false

namespace Verif.MonteCarlo

open MeasureTheory ENNReal Verif.Metropolis

variable {A : Type} [MeasurableSpace A]

/-- infinite sequences of independent elements with distribution `ν` -/
noncomputable def independent (ν : Measure A) [IsProbabilityMeasure ν] : Measure (ℕ → A) := Measure.infinitePi fun _ => ν

instance (ν : Measure A) [IsProbabilityMeasure ν] : IsProbabilityMeasure (independent ν) := by
  unfold independent; infer_instance

/-- first element and the others -/
def uncons (r : ℕ → A) : A × (ℕ → A) := (r 0, fun n => r (n + 1))

def cons (y : A × (ℕ → A)) : ℕ → A := fun n => Nat.casesOn n y.1 y.2

theorem cons_measurable : Measurable (cons (A := A)) := by
  refine measurable_pi_lambda _ fun n => ?_
  cases n with
  | zero => exact measurable_fst
  | succ n => exact (measurable_pi_apply n).comp measurable_snd

theorem uncons_measurable : Measurable (uncons (A := A)) :=
  (measurable_pi_apply 0).prodMk (measurable_pi_lambda _ fun n => measurable_pi_apply (n + 1))

theorem cons_preserves (ν : Measure A) [IsProbabilityMeasure ν] :
    MeasurePreserving cons (ν.prod (independent ν)) (independent ν) := by
  refine ⟨cons_measurable, Measure.eq_infinitePi _ fun s t ht => ?_⟩
  classical
  obtain ⟨n, hn⟩ : ∃ n, s ⊆ Finset.range (n + 1) :=
    ⟨s.sup id, fun i hi => Finset.mem_range.2 (Nat.lt_succ_of_le (Finset.le_sup (f := id) hi))⟩
  set u : ℕ → Set A := fun i => if i ∈ s then t i else Set.univ with hu
  have hum : ∀ i, MeasurableSet (u i) := fun i => by
    simp only [hu]; split
    · exact ht i
    · exact MeasurableSet.univ
  have e1 : ∏ i ∈ s, ν (t i) = ∏ i ∈ Finset.range (n + 1), ν (u i) := by
    rw [← Finset.prod_subset hn (f := fun i => ν (u i))]
    · exact Finset.prod_congr rfl fun i hi => by simp only [hu, if_pos hi]
    · intro i _ hi
      simp only [hu, if_neg hi, measure_univ]
  have e2 : Measure.map cons (ν.prod (independent ν)) (Set.pi s t)
      = (ν.prod (independent ν)) (u 0 ×ˢ Set.pi (Finset.range n) fun i => u (i + 1)) := by
    rw [Measure.map_apply cons_measurable (MeasurableSet.pi s.countable_toSet fun i _ => ht i)]
    congr 1
    ext y
    simp only [Set.mem_preimage, Set.mem_pi, Finset.mem_coe, Set.mem_prod, Finset.mem_range]
    constructor
    · intro h
      refine ⟨?_, fun i hi => ?_⟩
      · simp only [hu]
        split
        · rename_i h0; exact h 0 h0
        · trivial
      · simp only [hu]
        split
        · rename_i h0; exact h (i + 1) h0
        · trivial
    · rintro ⟨h0, h⟩ i hi
      cases i with
      | zero =>
        simp only [hu, if_pos hi] at h0
        exact h0
      | succ i =>
        have := h i (by have := Finset.mem_range.1 (hn hi); omega)
        simp only [hu, if_pos hi] at this
        exact this
  rw [e2, e1, Measure.prod_prod, Finset.prod_range_succ', mul_comm]
  congr 1
  exact Measure.infinitePi_pi _ fun i _ => hum (i + 1)

theorem uncons_preserves (ν : Measure A) [IsProbabilityMeasure ν] :
    MeasurePreserving uncons (independent ν) (ν.prod (independent ν)) := by
  refine ⟨uncons_measurable, ?_⟩
  have h := cons_preserves ν
  conv_lhs => rw [← h.map_eq]
  rw [Measure.map_map uncons_measurable cons_measurable]
  have : uncons (A := A) ∘ cons = id := rfl
  rw [this, Measure.map_id]

variable {N : ℕ}

/-- a number in `(0,1]`, an order of the sites and a site -/
abbrev Draw (N : ℕ) : Type := Set.Ioc (0 : ℝ) 1 × Equiv.Perm (Fin N) × Fin N

noncomputable def drawDist (N : ℕ) : Measure (Draw N) :=
  ((volume : Measure ℝ).comap Subtype.val).prod ((equi (Equiv.Perm (Fin N))).prod (equi (Fin N)))

/-- a source which reads a sequence of draws -/
def idealRng (N : ℕ) : Rng (ℕ → Draw N) where
  uniform r := ((r 0).1, fun n => r (n + 1))
  shuffle n r := if h : n = N then some (h ▸ (List.finRange N).map (r 0).2.1, fun n => r (n + 1)) else none
  site n r := if h : n = N then some (h ▸ (r 0).2.2, fun n => r (n + 1)) else none

theorem coe_preserves : MeasurePreserving (Subtype.val : Set.Ioc (0 : ℝ) 1 → ℝ) ((volume : Measure ℝ).comap Subtype.val)
    unit := measurePreserving_subtype_coe measurableSet_Ioc

instance : IsProbabilityMeasure ((volume : Measure ℝ).comap (Subtype.val : Set.Ioc (0 : ℝ) 1 → ℝ)) :=
  ⟨by rw [← Set.preimage_univ (f := (Subtype.val : Set.Ioc (0 : ℝ) 1 → ℝ)),
    coe_preserves.measure_preimage MeasurableSet.univ.nullMeasurableSet, measure_univ]⟩

instance [NeZero N] : IsProbabilityMeasure (drawDist N) := by
  have := equi_prob (Equiv.Perm (Fin N))
  have := equi_prob (Fin N)
  unfold drawDist
  infer_instance

theorem idealRng_lawful (N : ℕ) : (idealRng N).Lawful N where
  uniform_pos r := (r 0).1.2.1
  uniform_le r := (r 0).1.2.2
  perm r l r' h := by
    unfold idealRng at h
    simp only [dif_pos] at h
    cases h
    rw [List.perm_ext_iff_of_nodup ((List.nodup_finRange N).map (r 0).2.1.injective) (List.nodup_finRange N)]
    intro i
    simpa using (r 0).2.1.surjective i

/-- the definition is not empty -/
theorem idealRng_ideal (N : ℕ) [NeZero N] : (idealRng N).Ideal N (independent (drawDist N)) := by
  have := equi_prob (Equiv.Perm (Fin N))
  have := equi_prob (Fin N)
  have h : ∀ {B : Type} [MeasurableSpace B] (f : Draw N → B) (μ : Measure B), MeasurePreserving f (drawDist N) μ →
      MeasurePreserving (fun r : ℕ → Draw N => (f (r 0), fun n => r (n + 1))) (independent (drawDist N))
        (μ.prod (independent (drawDist N))) := by
    intro B _ f μ hf
    have : IsProbabilityMeasure μ := ⟨by
      rw [← hf.measure_preimage MeasurableSet.univ.nullMeasurableSet, Set.preimage_univ, measure_univ]⟩
    exact (hf.prod (MeasurePreserving.id (independent (drawDist N)))).comp (uncons_preserves (drawDist N))
  refine ⟨inferInstance, ?_, ⟨_, h (fun d => d.2.1) _ ?_, fun r => ?_⟩, ⟨_, h (fun d => d.2.2) _ ?_, fun r => ?_⟩⟩
  · exact h (fun d => (d.1 : ℝ)) unit (coe_preserves.comp measurePreserving_fst)
  · exact measurePreserving_fst.comp measurePreserving_snd
  · unfold idealRng
    simp
  · exact measurePreserving_snd.comp measurePreserving_snd
  · unfold idealRng
    simp

end Verif.MonteCarlo
