import Verif.Props.PathChain
import Mathlib.LinearAlgebra.Matrix.SchurComplement
import Mathlib.Algebra.Polynomial.Roots

/-! # Reversing an entry of the field changes the weight of almost all configurations with phonons (C105) -/

set_option autoImplicit false

namespace Verif.NullSet

open MeasureTheory Polynomial

/-- a quadratic function of an exponential -/
theorem dich_exp2 (a b d c : ℝ) :
    Dich volume fun t : ℝ => a + b * Real.exp (c * t) + d * Real.exp (c * t) ^ 2 := by
  by_cases hc : c = 0
  · subst hc
    by_cases ha : a + b + d = 0
    · exact .inl fun t => by simpa using ha
    · exact .inr (Filter.Eventually.of_forall fun t => by simpa using ha)
  by_cases hp : (C a + C b * X + C d * X ^ 2 : ℝ[X]) = 0
  · left
    intro t
    have := congrArg (eval (Real.exp (c * t))) hp
    simpa using this
  · right
    have hfin : {t : ℝ | ¬ a + b * Real.exp (c * t) + d * Real.exp (c * t) ^ 2 ≠ 0}.Finite := by
      refine ((Polynomial.finite_setOfPred_isRoot hp).preimage (f := fun t : ℝ => Real.exp (c * t)) ?_).subset fun t ht => ?_
      · intro t _ u _ h
        exact mul_left_cancel₀ hc (Real.exp_injective h)
      · show eval (Real.exp (c * t)) _ = 0
        simpa using ht
    exact hfin.measure_zero volume

end Verif.NullSet

namespace Verif.MonteCarlo

open MeasureTheory Verif.Metropolis Verif.Fock Verif.Greens Verif.Progress Verif.Links Verif.NullSet Verif.TimeFlow

variable {σ : Type} {N : ℕ} {M : Type} {sys : Sys σ N M} {ph : Phonon} {rest : Measure ℝ} [SigmaFinite rest] {L l : ℕ}

/-! ## The weights as functions of one coordinate -/

/-- product of the two determinants -/
noncomputable def detPair (sys : Sys σ N M) (ph : Phonon) (L : ℕ) (s : Field L N) (x : Paths L N) : ℝ :=
  (1 + sys.flow sys.hs.expVu L (Fock.extend s) (sys.expOf ph (extendX x))).det *
    (1 + sys.flow sys.hs.expVd L (Fock.extend s) (sys.expOf ph (extendX x))).det

theorem det_affine (expV : Fin 2 → ℕ → ℝ) (s : ℕ → Fin N → Fin 2) (x : Paths L N) (k : Fin L) (r : Fin N → ℝ)
    (i : Fin N) : ∃ a b : ℝ, ∀ t : ℝ,
      (1 + sys.flow expV L s (sys.expOf ph (extendX (Function.update x k (Function.update r i t))))).det
        = a + b * Real.exp (-ph.dt * ph.g (sys.orb i) * t) := by
  have hL : 0 < L := lt_of_le_of_lt (Nat.zero_le _) k.2
  obtain ⟨X0, hX⟩ : ∃ X0, ∀ t, extendX (Function.update x k (Function.update r i t)) = moveLocal X0 k i t :=
    ⟨_, fun t => extendX_update x k r i t⟩
  refine ⟨((1 + cyclicProd (sys.fieldB expV s (sys.expOf ph X0)) L (k + 1)).updateRow i (Pi.single i 1)).det,
    ((1 + cyclicProd (sys.fieldB expV s (sys.expOf ph X0)) L (k + 1)).updateRow i
      (cyclicProd (sys.fieldB expV s (sys.expOf ph X0)) L (k + 1) i)).det, fun t => ?_⟩
  unfold Sys.flow
  rw [hX, fieldB_moveLocal, ← det_shift _ L hL (k + 1), cyclicProd_scaleRow _ L k k.2, det_scaleRow]
  simp only [add_sub_cancel]

theorem det_continuous (expV : Fin 2 → ℕ → ℝ) (s : ℕ → Fin N → Fin 2) :
    Continuous fun x : Paths L N => (1 + sys.flow expV L s (sys.expOf ph (extendX x))).det := by
  have hE : ∀ k i, Continuous fun x : Paths L N => sys.expOf ph (extendX x) k i := by
    intro k i
    unfold Sys.expOf
    exact Real.continuous_exp.comp (continuous_const.mul (extendX_continuous k i))
  refine (continuous_const.add ?_).matrix_det
  unfold Sys.flow TimeFlow.cyclicProd
  refine prodSeq_continuous _ (fun k => ?_) L
  unfold Sys.fieldB
  exact Continuous.matrix_mul (Continuous.matrix_diagonal (continuous_pi fun i => continuous_const.mul (hE _ i)))
    continuous_const

theorem detPair_continuous (s : Field L N) : Continuous (detPair sys ph L s) :=
  (det_continuous _ _).mul (det_continuous _ _)

omit [SigmaFinite rest] in
theorem dich_site2 (i : Fin N) (a b d : ℝ) :
    Dich (siteBase sys ph rest i) fun t : ℝ => a + b * Real.exp (-ph.dt * ph.g (sys.orb i) * t)
      + d * Real.exp (-ph.dt * ph.g (sys.orb i) * t) ^ 2 := by
  unfold siteBase
  split
  · rename_i hg
    by_cases h : a + b + d = 0
    · exact .inl fun t => by simpa [hg] using h
    · exact .inr (Filter.Eventually.of_forall fun t => by simpa [hg] using h)
  · exact dich_exp2 a b d _

/-- two fields with weights that agree for one combination of signs and phonon fields of positive measure agree for all -/
theorem dich_pair (s s' : Field L N) (κ : ℝ) :
    Dich (pathBase sys ph rest L) fun x => detPair sys ph L s x - κ * detPair sys ph L s' x := by
  have hc : Continuous fun x => detPair sys ph L s x - κ * detPair sys ph L s' x :=
    (detPair_continuous s).sub (continuous_const.mul (detPair_continuous s'))
  refine dich_pi (fun _ : Fin L => Measure.pi fun i => siteBase sys ph rest i) _ hc.measurable fun x k => ?_
  refine dich_pi (fun i : Fin N => siteBase sys ph rest i) _ (hc.measurable.comp (measurable_update x)) fun r i => ?_
  obtain ⟨a1, b1, h1⟩ := det_affine (sys := sys) (ph := ph) sys.hs.expVu (Fock.extend s) x k r i
  obtain ⟨a2, b2, h2⟩ := det_affine (sys := sys) (ph := ph) sys.hs.expVd (Fock.extend s) x k r i
  obtain ⟨a3, b3, h3⟩ := det_affine (sys := sys) (ph := ph) sys.hs.expVu (Fock.extend s') x k r i
  obtain ⟨a4, b4, h4⟩ := det_affine (sys := sys) (ph := ph) sys.hs.expVd (Fock.extend s') x k r i
  refine Dich.congr (dich_site2 i (a1 * a2 - κ * (a3 * a4)) (a1 * b2 + b1 * a2 - κ * (a3 * b4 + b3 * a4))
    (b1 * b2 - κ * (b3 * b4))) fun t => ?_
  unfold detPair
  rw [h1, h2, h3, h4]
  constructor <;> intro h <;> linear_combination h

/-- the weights of two fields differ for almost all phonon fields, if they differ for one -/
theorem weights_differ (s s' : Field L N) (h : ∃ x, |detPair sys ph L s x| ≠ |detPair sys ph L s' x|) :
    ∀ᵐ x ∂pathBase sys ph rest L, confWeight sys ph L (s, x) ≠ confWeight sys ph L (s', x) := by
  obtain ⟨x0, h0⟩ := h
  have key : ∀ κ : ℝ, (κ = 1 ∨ κ = -1) → ∀ᵐ x ∂pathBase sys ph rest L, detPair sys ph L s x - κ * detPair sys ph L s' x ≠ 0 := by
    intro κ hκ
    refine (dich_pair (sys := sys) (ph := ph) (rest := rest) s s' κ).resolve_left fun hall => h0 ?_
    rw [sub_eq_zero.1 (hall x0), abs_mul]
    rcases hκ with rfl | rfl <;> simp
  filter_upwards [key 1 (Or.inl rfl), key (-1) (Or.inr rfl)] with x h1 h2 he
  unfold confWeight Sys.fullWeight at he
  have he := mul_right_cancel₀ (Real.exp_ne_zero _) he
  have he : |detPair sys ph L s x| = |detPair sys ph L s' x| := he
  rcases abs_eq_abs.1 he with e | e
  · exact h1 (by rw [e]; ring)
  · exact h2 (by rw [e]; ring)

/-! ## Electrons on one site only -/

/-- a matrix with one nonzero row -/
def oneRow (i : Fin N) (r : Fin N → ℝ) : Matrix (Fin N) (Fin N) ℝ := fun a b => if a = i then r b else 0

theorem det_oneRow (i : Fin N) (r : Fin N → ℝ) : (1 + oneRow i r).det = 1 + r i := by
  have e : oneRow i r = Matrix.replicateCol Unit (Pi.single i (1 : ℝ)) * Matrix.replicateRow Unit r := by
    ext a b
    rw [Matrix.mul_apply]
    by_cases ha : a = i
    · subst ha; simp [oneRow]
    · simp [oneRow, ha]
  rw [e, Matrix.det_one_add_replicateCol_mul_replicateRow]
  simp

theorem prodSeq_oneRow (i : Fin N) (v : ℕ → ℝ) (K : Matrix (Fin N) (Fin N) ℝ) (k : ℕ) :
    prodSeq (fun l => oneRow i fun b => v l * K i b) (k + 1)
      = oneRow i fun b => (∏ l ∈ Finset.range (k + 1), v l) * K i i ^ k * K i b := by
  induction k with
  | zero => simp [prodSeq]
  | succ k ih =>
    rw [prodSeq, ih]
    ext a b
    rw [Matrix.mul_apply]
    unfold oneRow
    by_cases ha : a = i
    · simp only [ha, if_true, mul_ite, mul_zero, Finset.sum_ite_eq', Finset.mem_univ, if_true]
      rw [Finset.prod_range_succ _ (k + 1)]
      ring
    · simp [ha]

theorem flow_single (i : Fin N) (expV : Fin 2 → ℕ → ℝ) (s : ℕ → Fin N → Fin 2) (hL : 0 < L) :
    (1 + sys.flow expV L s fun _ j => if j = i then 1 else 0).det
      = 1 + (∏ l ∈ Finset.range L, expV (s l i) (sys.orb i)) * sys.expK i i ^ L := by
  obtain ⟨k, rfl⟩ : ∃ k, L = k + 1 := ⟨L - 1, by omega⟩
  have e : sys.flow expV (k + 1) s (fun _ j => if j = i then 1 else 0)
      = prodSeq (fun l => oneRow i fun b => expV (s l i) (sys.orb i) * sys.expK i b) (k + 1) := by
    unfold Sys.flow cyclicProd
    refine prodSeq_congr fun l hl => ?_
    rw [Nat.zero_add, Nat.mod_eq_of_lt hl]
    unfold Sys.fieldB oneRow
    ext a b
    rw [Matrix.diagonal_mul]
    by_cases ha : a = i
    · subst ha; simp
    · simp [ha]
  rw [e, prodSeq_oneRow, det_oneRow]
  ring

/-- the value of the pair of determinants when the electrons are on site `i` only -/
noncomputable def lonePair (sys : Sys σ N M) (L : ℕ) (i : Fin N) (s : ℕ → Fin N → Fin 2) : ℝ :=
  (1 + (∏ l ∈ Finset.range L, sys.hs.expVu (s l i) (sys.orb i)) * sys.expK i i ^ L) *
    (1 + (∏ l ∈ Finset.range L, sys.hs.expVd (s l i) (sys.orb i)) * sys.expK i i ^ L)

theorem differ_of_lone (hL : 0 < L) (hdt : ph.dt ≠ 0) (hg : ∀ i, ph.g (sys.orb i) ≠ 0) (i : Fin N) (s s' : Field L N)
    (h : |lonePair sys L i (Fock.extend s)| ≠ |lonePair sys L i (Fock.extend s')|) :
    ∃ x, |detPair sys ph L s x| ≠ |detPair sys ph L s' x| := by
  have hcont : ∀ (expV : Fin 2 → ℕ → ℝ) (s : ℕ → Fin N → Fin 2),
      Continuous fun c : ℝ => (1 + sys.flow expV L s fun _ j => if j = i then 1 else c).det := by
    intro expV s
    refine (continuous_const.add ?_).matrix_det
    unfold Sys.flow TimeFlow.cyclicProd
    refine prodSeq_continuous _ (fun k => ?_) L
    unfold Sys.fieldB
    refine Continuous.matrix_mul (Continuous.matrix_diagonal (continuous_pi fun j => continuous_const.mul ?_)) continuous_const
    by_cases hj : j = i
    · simp only [hj, if_true]; exact continuous_const
    · simp only [hj, if_false]; exact continuous_id
  set F : Field L N → ℝ → ℝ := fun s c =>
    |(1 + sys.flow sys.hs.expVu L (Fock.extend s) fun _ j => if j = i then 1 else c).det *
      (1 + sys.flow sys.hs.expVd L (Fock.extend s) fun _ j => if j = i then 1 else c).det| with hF
  have hFc : ∀ s, Continuous (F s) := fun s => ((hcont _ _).mul (hcont _ _)).abs
  have hne : F s 0 - F s' 0 ≠ 0 := by
    rw [sub_ne_zero]
    simp only [hF, flow_single i _ _ hL]
    exact h
  have hev := (((hFc s).sub (hFc s')).continuousAt.eventually_ne hne).filter_mono
    (nhdsWithin_le_nhds (s := Set.Ioi (0 : ℝ)))
  obtain ⟨c, h1, h2⟩ := (hev.and self_mem_nhdsWithin).exists
  refine ⟨fun _ j => if j = i then 0 else -Real.log c / (ph.dt * ph.g (sys.orb j)), ?_⟩
  have e : ∀ k < L, sys.expOf ph (extendX (fun (_ : Fin L) j => if j = i then 0 else
      -Real.log c / (ph.dt * ph.g (sys.orb j)))) k = fun j => if j = i then 1 else c := by
    intro k hk
    funext j
    unfold Sys.expOf extendX
    simp only [hk, dif_pos]
    by_cases hj : j = i
    · simp [hj]
    · simp only [hj, if_false]
      rw [show -ph.dt * ph.g (sys.orb j) * (-Real.log c / (ph.dt * ph.g (sys.orb j))) = Real.log c by
        have := hg j
        field_simp]
      exact Real.exp_log h2
  have e2 : ∀ s : Field L N, |detPair sys ph L s fun _ j => if j = i then 0 else
      -Real.log c / (ph.dt * ph.g (sys.orb j))| = F s c := by
    intro s
    exact weight_congr (sys := sys) hL (fun _ _ => rfl) e
  rw [e2, e2]
  exact sub_ne_zero.1 h1

/-! ## Even numbers of time steps -/

/-- a product of factors `a` or `a⁻¹` -/
theorem prod_signs {a : ℝ} (ha : 0 < a) (t : Finset ℕ) (v : ℕ → ℝ) (hv : ∀ l, v l = a ∨ v l = a⁻¹) :
    ∃ m : ℤ, ∏ l ∈ t, v l = a ^ m ∧ m % 2 = (t.card : ℤ) % 2 := by
  classical
  induction t using Finset.induction with
  | empty => exact ⟨0, by simp⟩
  | insert l t hl ih =>
    obtain ⟨m, e, hm⟩ := ih
    rw [Finset.prod_insert hl, e, Finset.card_insert_of_notMem hl]
    rcases hv l with h | h
    · exact ⟨1 + m, by rw [h, zpow_add₀ ha.ne', zpow_one], by push_cast; omega⟩
    · exact ⟨-1 + m, by rw [h, zpow_add₀ ha.ne', zpow_neg_one], by push_cast; omega⟩

/-- reversing an entry changes the weight of electrons on the site -/
theorem lone_flip (hL : Even L) (hl : l < L) {i : Fin N} (hc : Stratonovich.Consistent sys.hs (sys.orb i)) (hd : ¬ Decoupled sys i)
    (hK : sys.expK i i ≠ 0) (s : Field L N) :
    |lonePair sys L i (Fock.extend (flipAt l i s))| ≠ |lonePair sys L i (Fock.extend s)| := by
  set o := sys.orb i with ho
  set z := sys.expK i i ^ L with hz
  have hz0 : 0 < z := hL.pow_pos hK
  set a := sys.hs.expVu 0 o with ha
  have ha0 : 0 < a := (hc.pos 0).1
  have ha1 : sys.hs.expVu 1 o = a⁻¹ := by
    have := hc.reciprocal 0
    rw [show (1 : Fin 2) - 0 = 1 from rfl] at this
    exact eq_inv_of_mul_eq_one_right this
  have hne : a ≠ 1 := by
    intro h1
    refine hd ⟨?_, ?_⟩
    · rw [← ho, ← ha, ha1, h1, inv_one]
    · rw [← ho, hc.reversed, hc.reversed]
      rw [show (1 : Fin 2) - 0 = 1 from rfl, show (1 : Fin 2) - 1 = 0 from rfl, ha1, ← ha, h1, inv_one]
  have hv : ∀ b : Fin 2, sys.hs.expVu b o = a ∨ sys.hs.expVu b o = a⁻¹ := by
    intro b
    fin_cases b
    · exact Or.inl rfl
    · exact Or.inr ha1
  have hdn : ∀ b : Fin 2, sys.hs.expVd b o = (sys.hs.expVu b o)⁻¹ := fun b => by
    rw [hc.reversed]
    exact eq_inv_of_mul_eq_one_right (hc.reciprocal b)
  have form : ∀ t : ℕ → Fin N → Fin 2, lonePair sys L i t
      = (1 + (∏ l ∈ Finset.range L, sys.hs.expVu (t l i) o) * z) *
        (1 + (∏ l ∈ Finset.range L, sys.hs.expVu (t l i) o)⁻¹ * z) := by
    intro t
    unfold lonePair
    rw [← ho, ← hz, ← Finset.prod_inv_distrib]
    simp only [hdn]
  -- the other entries at the site
  set w := ∏ k ∈ (Finset.range L).erase l, sys.hs.expVu (Fock.extend s k i) o with hw
  obtain ⟨m, hm, hpar⟩ := prod_signs ha0 ((Finset.range L).erase l) (fun k => sys.hs.expVu (Fock.extend s k i) o) fun k => hv _
  have hmem : l ∈ Finset.range L := Finset.mem_range.2 hl
  rw [Finset.card_erase_of_mem hmem, Finset.card_range] at hpar
  have hw0 : 0 < w := Finset.prod_pos fun k _ => (hc.pos _).1
  have hw1 : w ≠ 1 := by
    rw [hw, hm]
    intro h1
    have hm0 : m ≠ 0 := by
      obtain ⟨n, hn⟩ := hL
      omega
    exact hne ((zpow_eq_one_iff_of_ne_zero₀ hm0).1 h1 |>.resolve_right fun h => by linarith [h.1])
  set v := sys.hs.expVu (Fock.extend s l i) o with hvd
  have hv0 : 0 < v := (hc.pos _).1
  have hv1 : v ≠ 1 := by
    rcases hv (Fock.extend s l i) with h | h
    · rw [hvd, h]; exact hne
    · rw [hvd, h]; exact fun h1 => hne (inv_eq_one.1 h1)
  have e1 : ∏ k ∈ Finset.range L, sys.hs.expVu (Fock.extend s k i) o = v * w :=
    (Finset.mul_prod_erase _ (fun k => sys.hs.expVu (Fock.extend s k i) o) hmem).symm
  have e2 : ∏ k ∈ Finset.range L, sys.hs.expVu (Fock.extend (flipAt l i s) k i) o = v⁻¹ * w := by
    rw [← Finset.mul_prod_erase _ (fun k => sys.hs.expVu (Fock.extend (flipAt l i s) k i) o) hmem]
    have f1 : Fock.extend (flipAt l i s) l i = 1 - Fock.extend s l i := by
      unfold Fock.extend
      simp only [hl, dif_pos, flipAt_apply, and_self, if_true]
    congr 1
    · rw [f1]
      exact eq_inv_of_mul_eq_one_right (hc.reciprocal _)
    · refine Finset.prod_congr rfl fun k hk => ?_
      have hkl : k ≠ l := (Finset.mem_erase.1 hk).1
      congr 1
      unfold Fock.extend
      split
      · simp only [flipAt_apply]
        rw [if_neg fun h => hkl h.1]
      · rfl
  rw [form, form, e1, e2, abs_of_pos (by positivity), abs_of_pos (by positivity)]
  intro h
  have h3 : (v * w + (v * w)⁻¹ - (v⁻¹ * w + (v⁻¹ * w)⁻¹)) * z = 0 := by
    have i1 : v * w * (v * w)⁻¹ = 1 := mul_inv_cancel₀ (by positivity)
    have i2 : v⁻¹ * w * (v⁻¹ * w)⁻¹ = 1 := mul_inv_cancel₀ (by positivity)
    linear_combination -h - z ^ 2 * i1 + z ^ 2 * i2
  have h4 : (v ^ 2 - 1) * (w ^ 2 - 1) = 0 := by
    have := (mul_eq_zero.1 h3).resolve_right hz0.ne'
    field_simp at this
    linear_combination this
  rcases mul_eq_zero.1 h4 with h5 | h5
  · exact hv1 (by nlinarith)
  · exact hw1 (by nlinarith)

/-- C105: with an even number of time steps, reversing an entry of the field changes the weight for almost all phonon
fields, except at sites on which the field does not act -/
theorem responsive_even (hL : Even L) (h0 : 0 < L) (hdt : ph.dt ≠ 0) (hg : ∀ i, ph.g (sys.orb i) ≠ 0)
    (hc : ∀ i, Stratonovich.Consistent sys.hs (sys.orb i)) (hK : ∀ i, sys.expK i i ≠ 0) : ResponsivePh sys ph rest L := by
  intro i
  by_cases hd : Decoupled sys i
  · exact Or.inl hd
  · refine Or.inr fun l hl => ?_
    have hms : MeasurableSet {x : Conf L N | confWeight sys ph L (flipConf l i x) ≠ confWeight sys ph L x} :=
      (measurableSet_eq_fun (confWeight_measurable.comp
        (flipConf_base (sys := sys) (ph := ph) (rest := rest) hl i).measurable) confWeight_measurable).compl
    unfold confBase
    rw [Measure.ae_prod_iff_ae_ae hms]
    refine Filter.Eventually.of_forall fun s => ?_
    exact weights_differ (flipAt l i s) s (differ_of_lone h0 hdt hg i _ _ (lone_flip hL hl (hc i) hd (hK i) s))

end Verif.MonteCarlo
