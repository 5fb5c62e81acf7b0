import Verif.Lemmas.Ergodic
import Verif.Lemmas.FlipChain
import Verif.Props.Reference

/-! # The sweeps of runs without phonons as a Markov chain (C90) -/

set_option autoImplicit false

namespace Verif.MonteCarlo

open MeasureTheory Verif.Metropolis Verif.Fock Verif.Greens Verif.Progress Verif.Ergodic

variable {σ : Type} {N : ℕ} {M : Type}

/-! ## Specification -/

/-- the field does not act on site `i`: its two values have the same effect -/
def Decoupled (sys : Sys σ N M) (i : Fin N) : Prop :=
  sys.hs.expVu 0 (sys.orb i) = sys.hs.expVu 1 (sys.orb i) ∧ sys.hs.expVd 0 (sys.orb i) = sys.hs.expVd 1 (sys.orb i)

/-- reversing an entry of the field changes the weight, except at sites on which the field does not act -/
def Responsive (sys : Sys σ N M) (L : ℕ) : Prop :=
  ∀ i : Fin N, Decoupled sys i ∨ ∀ l < L, ∀ x : Field L N,
    sys.weight L (Fock.extend (flipAt l i x)) (fun _ _ => 1) ≠ sys.weight L (Fock.extend x) (fun _ _ => 1)

/-! ## Proofs -/

section algebra

variable {sys : Sys σ N M} {L l : ℕ}

/-- the weight of a field -/
noncomputable def wt (sys : Sys σ N M) (L : ℕ) (x : Field L N) : ℝ := sys.weight L (Fock.extend x) fun _ _ => 1

theorem flipAt_comm (l l' : ℕ) (i j : Fin N) (x : Field L N) :
    flipAt l i (flipAt l' j x) = flipAt l' j (flipAt l i x) := by
  simp only [flipAt_apply]
  funext k m
  split_ifs <;> rfl

/-- the functions of the field which do not depend on its entries at sites on which it does not act -/
def insensitive (sys : Sys σ N M) (L : ℕ) : Submodule ℝ (Field L N → ℝ) where
  carrier := {f | ∀ l i, Decoupled sys i → ∀ x, f (flipAt l i x) = f x}
  add_mem' ha hb l i h x := by
    rw [Pi.add_apply, Pi.add_apply, ha l i h x, hb l i h x]
  zero_mem' _ _ _ _ := rfl
  smul_mem' c f hf l i h x := by
    rw [Pi.smul_apply, Pi.smul_apply, hf l i h x]

theorem fieldB_reversed {i : Fin N} (h : Decoupled sys i) (l : ℕ) (x : Field L N) :
    sys.fieldB sys.hs.expVu (Fock.extend (flipAt l i x)) (fun _ _ => 1)
      = sys.fieldB sys.hs.expVu (Fock.extend x) (fun _ _ => 1) ∧
    sys.fieldB sys.hs.expVd (Fock.extend (flipAt l i x)) (fun _ _ => 1)
      = sys.fieldB sys.hs.expVd (Fock.extend x) (fun _ _ => 1) := by
  have key : ∀ expV : Fin 2 → ℕ → ℝ, expV 0 (sys.orb i) = expV 1 (sys.orb i) →
      sys.fieldB expV (Fock.extend (flipAt l i x)) (fun _ _ => 1) = sys.fieldB expV (Fock.extend x) (fun _ _ => 1) := by
    intro expV he
    have hall : ∀ b c : Fin 2, expV b (sys.orb i) = expV c (sys.orb i) := by
      intro b c
      fin_cases b <;> fin_cases c <;> first | rfl | exact he | exact he.symm
    funext k
    unfold Sys.fieldB
    congr 2
    funext j
    by_cases hj : j = i
    · subst hj
      rw [hall]
    · congr 2
      unfold Fock.extend
      split
      · rw [flipAt_apply]
        simp [hj]
      · rfl
  exact ⟨key _ h.1, key _ h.2⟩

theorem wt_flip {i : Fin N} (h : Decoupled sys i) (l : ℕ) (x : Field L N) : wt sys L (flipAt l i x) = wt sys L x := by
  unfold wt Sys.weight Sys.flow
  rw [(fieldB_reversed h l x).1, (fieldB_reversed h l x).2]

theorem wt_pos (hw : ∀ x : Field L N, sys.weight L (Fock.extend x) (fun _ _ => 1) ≠ 0) (x : Field L N) : 0 < wt sys L x :=
  lt_of_le_of_ne (abs_nonneg _) (hw x).symm

theorem flipMean_mem (l : ℕ) (i : Fin N) {f : Field L N → ℝ} (hf : f ∈ insensitive sys L) :
    flipMean (wt sys L) (flipAt l i) f ∈ insensitive sys L := by
  intro l' j hj x
  unfold flipMean
  rw [flipAt_comm l l', wt_flip hj, wt_flip hj, hf l' j hj, hf l' j hj]

theorem site_contracts (hw : ∀ x : Field L N, sys.weight L (Fock.extend x) (fun _ _ => 1) ≠ 0) (hr : Responsive sys L)
    (hl : l < L) (i : Fin N) :
    Contracts (wt sys L) (insensitive sys L) (flipMean (wt sys L) (flipAt l i)) {flipAt l i} := by
  refine Contracts.flip (wt_pos hw) (flipAt_flipAt hl i) (fun f hf => flipMean_mem l i hf) ?_
  rcases hr i with h | h
  · exact Or.inr fun f hf x => hf l i h x
  · exact Or.inl fun x => h l hl x

/-- functions which do not change when any entry is reversed are constant -/
theorem const_of_flips (g : Field L N → ℝ) (h : ∀ l < L, ∀ i x, g (flipAt l i x) = g x) : ∃ a, g = fun _ => a := by
  classical
  have key : ∀ (s : Finset (Fin L × Fin N)) (x y : Field L N), (∀ k j, (k, j) ∉ s → x k j = y k j) → g x = g y := by
    intro s
    induction s using Finset.induction with
    | empty =>
      intro x y hxy
      rw [show x = y from funext fun k => funext fun j => hxy k j (Finset.notMem_empty _)]
    | insert p s hp ih =>
      intro x y hxy
      obtain ⟨k0, j0⟩ := p
      by_cases he : x k0 j0 = y k0 j0
      · refine ih x y fun k j hkj => ?_
        by_cases hq : (k, j) = (k0, j0)
        · rw [(Prod.mk.inj hq).1, (Prod.mk.inj hq).2, he]
        · exact hxy k j fun hm => (Finset.mem_insert.1 hm).elim hq hkj
      · rw [← h k0 k0.2 j0 x]
        refine ih _ y fun k j hkj => ?_
        rw [flipAt_apply]
        beta_reduce
        by_cases hq : k.val = k0.val ∧ j = j0
        · rw [if_pos hq, Fin.ext hq.1, hq.2]
          have : ∀ a b : Fin 2, a ≠ b → 1 - a = b := by decide
          exact this _ _ he
        · rw [if_neg hq]
          exact hxy k j fun hm => (Finset.mem_insert.1 hm).elim
            (fun e => hq ⟨congrArg Fin.val (Prod.mk.inj e).1, (Prod.mk.inj e).2⟩) hkj
  exact ⟨g fun _ _ => 0, funext fun x => key Finset.univ _ _ fun k j hkj => absurd (Finset.mem_univ _) hkj⟩

end algebra

section steps

variable [MeasurableSpace σ] {P : Measure σ} {sys : Sys σ N M} {L l : ℕ}

theorem unit_mean (r a b : ℝ) (hr : 0 ≤ r) :
    ∫ u, (if u < r then a else b) ∂unit = min 1 r * a + (1 - min 1 r) * b := by
  have hm : MeasurableSet {u : ℝ | u < r} := measurableSet_Iio
  have e : (fun u : ℝ => if u < r then a else b) = fun u => Set.indicator {u : ℝ | u < r} (fun _ => a - b) u + b := by
    funext u
    by_cases h : u < r
    · rw [if_pos h, Set.indicator_of_mem (by exact h)]
      ring
    · rw [if_neg h, Set.indicator_of_notMem (by exact h)]
      ring
  rw [e, integral_add ((integrable_const _).indicator hm) (integrable_const _), integral_indicator hm, setIntegral_const,
    integral_const, measureReal_def, unit_lt, ENNReal.toReal_ofReal (le_min zero_le_one hr), probReal_univ]
  simp only [smul_eq_mul]
  ring

/-- one proposal -/
noncomputable def siteStep (sys : Sys σ N M) (L l : ℕ) (i : Fin N) (x : Field L N) (r : σ) : Field L N × σ :=
  hsStep sys L l (x, r) i

omit [MeasurableSpace σ] in
theorem siteStep_eq (i : Fin N) : siteStep sys L l i = fun x r =>
    ((fun x u => if u < wt sys L (flipAt l i x) / wt sys L x then flipAt l i x else x) x (sys.rng.uniform r).1,
      (sys.rng.uniform r).2) := rfl

theorem site_fresh (hP : sys.rng.Ideal N P) (i : Fin N) : Ergodic.Fresh P (siteStep sys L l i) := by
  have := hP.prob
  rw [siteStep_eq]
  exact Fresh.of_draw hP.uniform fun x => Measurable.ite measurableSet_Iio measurable_const measurable_const

theorem site_mean (hP : sys.rng.Ideal N P) (hw : ∀ x : Field L N, sys.weight L (Fock.extend x) (fun _ _ => 1) ≠ 0)
    (i : Fin N) (f : Field L N → ℝ) :
    mean P (siteStep sys L l i) f = flipMean (wt sys L) (flipAt l i) f := by
  have := hP.prob
  funext x
  rw [siteStep_eq]
  refine (mean_of_draw hP.uniform
    (g := fun x u => if u < wt sys L (flipAt l i x) / wt sys L x then flipAt l i x else x) x ?_).trans ?_
  · simp only [apply_ite f]
    exact Measurable.ite measurableSet_Iio measurable_const measurable_const
  · simp only [apply_ite f]
    rw [unit_mean _ _ _ (div_nonneg (wt_pos hw _).le (wt_pos hw _).le)]
    rfl

/-- proposals at several sites -/
noncomputable def orderStep (sys : Sys σ N M) (L l : ℕ) (order : List (Fin N)) (x : Field L N) (r : σ) : Field L N × σ :=
  order.foldl (hsStep sys L l) (x, r)

theorem fresh_id [IsProbabilityMeasure P] : Ergodic.Fresh P fun (x : Field L N) (r : σ) => (x, r) := fun x =>
  ⟨Measure.dirac x, inferInstance, measurable_const.prodMk measurable_id, (Measure.dirac_prod x).symm⟩

theorem order_contracts (hP : sys.rng.Ideal N P)
    (hw : ∀ x : Field L N, sys.weight L (Fock.extend x) (fun _ _ => 1) ≠ 0) (hr : Responsive sys L) (hl : l < L)
    (order : List (Fin N)) : Ergodic.Fresh P (orderStep sys L l order) ∧
      Contracts (wt sys L) (insensitive sys L) (mean P (orderStep sys L l order)) {τ | ∃ i ∈ order, τ = flipAt l i} := by
  have := hP.prob
  induction order with
  | nil =>
    refine ⟨fresh_id, ?_⟩
    have e : mean P (orderStep sys L l []) = fun f => f := by
      funext f x
      show ∫ _, f x ∂P = f x
      simp
    have e2 : {τ : Field L N → Field L N | ∃ i ∈ ([] : List (Fin N)), τ = flipAt l i} = ∅ := by
      ext τ
      simp
    rw [e, e2]
    exact Contracts.id
  | cons i order ih =>
    have e : orderStep sys L l (i :: order) = andThen (siteStep sys L l i) (orderStep sys L l order) := rfl
    have e1 : mean P (orderStep sys L l (i :: order))
        = fun f => flipMean (wt sys L) (flipAt l i) (mean P (orderStep sys L l order) f) := by
      funext f x
      rw [e, mean_andThen (site_fresh hP i) ih.1, site_mean hP hw]
    have e2 : {τ : Field L N → Field L N | ∃ j ∈ i :: order, τ = flipAt l j}
        = {flipAt l i} ∪ {τ | ∃ i ∈ order, τ = flipAt l i} := by
      ext τ
      simp
    refine ⟨by rw [e]; exact (site_fresh hP i).andThen ih.1, ?_⟩
    rw [e1, e2]
    exact (site_contracts hw hr hl i).comp ih.2

/-- one time slice; `f` is the choice of the order -/
noncomputable def sliceStep (sys : Sys σ N M) (f : σ → Equiv.Perm (Fin N) × σ) (L l : ℕ) (x : Field L N) (r : σ) :
    Field L N × σ :=
  orderStep sys L l ((List.finRange N).map (f r).1) x (f r).2

instance (α : Type) : DiscreteMeasurableSpace (Equiv.Perm α) := ⟨fun _ => trivial⟩

theorem equi_integral (α : Type) [Fintype α] [MeasurableSpace α] [DiscreteMeasurableSpace α] (g : α → ℝ) :
    ∫ a, g a ∂equi α = ∑ a, (Fintype.card α : ℝ)⁻¹ * g a := by
  unfold equi
  rw [integral_smul_measure, integral_fintype Integrable.of_finite, ← Finset.mul_sum]
  simp

theorem slice_contracts (hP : sys.rng.Ideal N P)
    (hw : ∀ x : Field L N, sys.weight L (Fock.extend x) (fun _ _ => 1) ≠ 0) (hr : Responsive sys L) (hl : l < L)
    {f : σ → Equiv.Perm (Fin N) × σ} (hf : MeasurePreserving f P ((equi (Equiv.Perm (Fin N))).prod P)) :
    Ergodic.Fresh P (sliceStep sys f L l) ∧
      Contracts (wt sys L) (insensitive sys L) (mean P (sliceStep sys f L l)) {τ | ∃ i, τ = flipAt l i} := by
  have := hP.prob
  have := equi_prob (Equiv.Perm (Fin N))
  have e : sliceStep sys f L l = andThen (fun x r => ((fun x p => (x, p)) x (f r).1, (f r).2))
      (fun q r => orderStep sys L l ((List.finRange N).map q.2) q.1 r) := rfl
  have h1 : Ergodic.Fresh P fun (x : Field L N) r => ((fun x p => (x, p)) x (f r).1, (f r).2) :=
    Fresh.of_draw hf fun x => Measurable.of_discrete
  have h2 : Ergodic.Fresh P fun (q : Field L N × Equiv.Perm (Fin N)) r =>
      orderStep sys L l ((List.finRange N).map q.2) q.1 r := fun q =>
    (order_contracts hP hw hr hl ((List.finRange N).map q.2)).1 q.1
  refine ⟨by rw [e]; exact h1.andThen h2, ?_⟩
  have e1 : mean P (sliceStep sys f L l) = fun g x => ∑ p : Equiv.Perm (Fin N),
      (Fintype.card (Equiv.Perm (Fin N)) : ℝ)⁻¹ * mean P (orderStep sys L l ((List.finRange N).map p)) g x := by
    funext g x
    rw [e, mean_andThen h1 h2, mean_of_draw hf _ Measurable.of_discrete, equi_integral]
    rfl
  have e2 : {τ : Field L N → Field L N | ∃ i, τ = flipAt l i}
      = ⋃ p : Equiv.Perm (Fin N), {τ | ∃ i ∈ (List.finRange N).map p, τ = flipAt l i} := by
    ext τ
    simp only [Set.mem_iUnion, Set.mem_ofPred_eq]
    constructor
    · rintro ⟨i, h⟩
      exact ⟨1, i, by simp, h⟩
    · rintro ⟨p, i, -, h⟩
      exact ⟨i, h⟩
  rw [e1, e2]
  refine Contracts.mix (wt_pos hw) (by positivity) ?_ fun p => (order_contracts hP hw hr hl _).2
  rw [Finset.sum_const, Finset.card_univ, nsmul_eq_mul]
  exact mul_inv_cancel₀ (by positivity)

/-! ### The cycle of time slices -/

/-- one time slice; the position in a cycle of iterations is part of the state -/
noncomputable def cycleStep (sys : Sys σ N M) (f : σ → Equiv.Perm (Fin N) × σ) (L m : ℕ) [NeZero m]
    (y : Fin m × Field L N) (r : σ) : (Fin m × Field L N) × σ :=
  ((y.1 + 1, (sliceStep sys f L (y.1.val % L) y.2 r).1), (sliceStep sys f L (y.1.val % L) y.2 r).2)

variable {m : ℕ} [NeZero m]

theorem cycle_fresh (hP : sys.rng.Ideal N P)
    (hw : ∀ x : Field L N, sys.weight L (Fock.extend x) (fun _ _ => 1) ≠ 0) (hr : Responsive sys L) (hL : 0 < L)
    {f : σ → Equiv.Perm (Fin N) × σ} (hf : MeasurePreserving f P ((equi (Equiv.Perm (Fin N))).prod P)) :
    Ergodic.Fresh P (cycleStep sys f L m) := by
  have := hP.prob
  rintro ⟨c, x⟩
  obtain ⟨ν, hν, hs⟩ := (slice_contracts hP hw hr (Nat.mod_lt c.val hL) hf).1 x
  exact ⟨ν.map fun y => (c + 1, y), Measure.isProbabilityMeasure_map Measurable.of_discrete.aemeasurable,
    ((Measurable.measurePreserving Measurable.of_discrete ν).prod (MeasurePreserving.id P)).comp hs⟩

/-- the second moments of sums along the chain -/
theorem chain_second_moment (hP : sys.rng.Ideal N P)
    (hw : ∀ x : Field L N, sys.weight L (Fock.extend x) (fun _ _ => 1) ≠ 0) (hr : Responsive sys L) (hL : 0 < L)
    {f : σ → Equiv.Perm (Fin N) × σ} (hf : MeasurePreserving f P ((equi (Equiv.Perm (Fin N))).prod P)) (hm : L ≤ m)
    (G : ℕ → Field L N → ℝ) (hG : ∀ c, G c ∈ insensitive sys L) (a : ℝ)
    (ha : ∑ c : Fin m, wsum sys L (G c.val) = a * (m * wsum sys L fun _ => 1)) :
    ∃ C, ∀ n y, ∫ r, (total (cycleStep sys f L m) (fun y y' => G y.1.val y'.2) n y r - n * a) ^ 2 ∂P ≤ C * (n + 1) := by
  have := hP.prob
  have hK : ∀ c : Fin m, _ := fun c => (slice_contracts hP hw hr (Nat.mod_lt c.val hL) hf).2
  have hmean : ∀ g : Fin m × Field L N → ℝ, mean P (cycleStep sys f L m) g
      = cycleMean (fun c => mean P (sliceStep sys f L (c.val % L))) g := fun g => rfl
  have hsum : ∑ y : Fin m × Field L N, wt sys L y.2 = m * wsum sys L fun _ => 1 := by
    rw [Fintype.sum_prod_type]
    unfold wsum wt
    simp
  have hpos : 0 < ∑ y : Fin m × Field L N, wt sys L y.2 := by
    refine Finset.sum_pos (fun y _ => wt_pos hw _) ?_
    exact ⟨(0, fun _ _ => 0), Finset.mem_univ _⟩
  refine second_moment (cycle_fresh hP hw hr hL hf) (cycleV m (insensitive sys L)) (fun g hg => ?_)
    (fun c l i _ x => rfl) (fun y => wt sys L y.2) hpos.ne' (fun g hg => ?_) (fun g hg he => ?_) _ ?_ a ?_
  · rw [hmean]
    exact cycle_mem hK hg
  · simp only [hmean]
    exact cycle_sum hK hg
  · rw [hmean] at he
    refine cycle_const hK (fun g _ hall => const_of_flips g fun l hl i x => ?_) hg he
    refine hall ⟨l, by omega⟩ _ ⟨i, ?_⟩ x
    simp only [Nat.mod_eq_of_lt hl]
  · exact fun c => (hK c).mem _ (hG c.val)
  · rw [hsum, ← ha, Fintype.sum_prod_type]
    exact Finset.sum_congr rfl fun c _ => (hK c).sum _ (hG c.val)

end steps

end Verif.MonteCarlo
