import Verif.Props.Equidistribution
import Verif.Lemmas.GridLaw

/-! # C101: the distribution of the numbers returned by `Random_GetNormal` -/

set_option autoImplicit false

namespace Verif.Random

open ProbabilityTheory
open scoped Real

/-! ## Rounding -/

/-- rounding of numbers up to `2 ^ (53 + j)` -/
theorem round_error {rnd : ℝ → ℝ} (h : RoundsToNearest rnd) (j : ℤ) (hj : -1074 ≤ j) (a : ℝ) (h0 : 0 ≤ a)
    (h1 : a ≤ 2 ^ (53 + j)) : |rnd a - a| ≤ 2 ^ j / 2 := by
  have hp : (0 : ℝ) < 2 ^ j := by positivity
  set m := round (a / 2 ^ j) with hm
  have hr := abs_sub_round (a / 2 ^ j)
  rw [← hm] at hr
  have hq0 : 0 ≤ a / 2 ^ j := by positivity
  have hq1 : a / 2 ^ j ≤ 2 ^ 53 := by
    rw [div_le_iff₀ hp]
    refine h1.trans (le_of_eq ?_)
    rw [zpow_add₀ (by norm_num)]
    norm_num
  rw [abs_le] at hr
  have hm0 : 0 ≤ m := by
    by_contra hc
    have : (m : ℝ) ≤ -1 := by exact_mod_cast (by omega : m ≤ -1)
    linarith
  have hm1 : m ≤ 2 ^ 53 := by
    by_contra hc
    have : (2 ^ 53 + 1 : ℝ) ≤ m := by exact_mod_cast (by omega : 2 ^ 53 + 1 ≤ m)
    linarith
  have hmem : (m : ℝ) * 2 ^ j ∈ Binary64 := by
    rcases hm1.lt_or_eq with hlt | heq
    · exact ⟨m, j, by rw [abs_of_nonneg hm0]; exact hlt, hj, rfl⟩
    · have : (m : ℝ) * 2 ^ j = 2 ^ (53 + j) := by
        rw [heq, zpow_add₀ (by norm_num)]
        norm_num
      rw [this]
      exact two_zpow_mem _ (by omega)
  refine ((h a).2 _ hmem).trans ?_
  have e : (m : ℝ) * 2 ^ j - a = -((a / 2 ^ j - m) * 2 ^ j) := by
    field_simp
    ring
  rw [e, abs_neg, abs_mul, abs_of_pos hp]
  have : |a / 2 ^ j - m| ≤ 1 / 2 := abs_le.2 hr
  nlinarith

theorem exists_output (w : BitVec 64) : ∃ sd : Seed, (getUint sd).1 = w := by
  obtain ⟨s, hs⟩ := (sixteen_bijective 0).2 fun _ => w
  exact ⟨⟨s, 0⟩, congrFun hs 0⟩

theorem uniformOf_mem {rnd : ℝ → ℝ} (h : RoundsToNearest rnd) (w : BitVec 64) :
    0 < uniformOf rnd w ∧ uniformOf rnd w ≤ 1 := by
  obtain ⟨sd, rfl⟩ := exists_output w
  exact uniform_mem_Ioc rnd h sd

/-- C101: the number returned by `Random_GetUniform` is `(u + 1) / 2^64` up to `2^-52` -/
theorem uniformOf_error {rnd : ℝ → ℝ} (h : RoundsToNearest rnd) (w : BitVec 64) :
    |uniformOf rnd w - (w.toNat + 1) / 2 ^ 64| ≤ 1 / 2 ^ 52 := by
  have hmem := uniformOf_mem h w
  unfold uniformOf at hmem ⊢
  rw [rnd_literal h] at hmem ⊢
  have hw : (w.toNat : ℝ) ≤ 2 ^ 64 := by exact_mod_cast w.isLt.le
  have hw0 : (0 : ℝ) ≤ (w.toNat : ℝ) := Nat.cast_nonneg _
  have hw' : (w.toNat : ℝ) ≤ 2 ^ (53 + 11 : ℤ) := hw.trans (le_of_eq (by norm_num))
  generalize (w.toNat : ℝ) = n at *
  have m0 : (0 : ℝ) ∈ Binary64 := ⟨0, 0, by norm_num, by norm_num, by simp⟩
  have m64 : (2 : ℝ) ^ (64 : ℤ) ∈ Binary64 := two_zpow_mem _ (by norm_num)
  have e1 := round_error h 11 (by norm_num) n hw0 hw'
  have hv0 := le_rnd h m0 hw0
  have hv1 : rnd n ≤ 2 ^ (64 : ℤ) := rnd_le h m64 (hw.trans (le_of_eq (by norm_num)))
  generalize rnd n = v at *
  have e2 : |rnd (v + 1) - (v + 1)| ≤ 2 ^ 10 := by
    rcases le_or_gt (v + 1) (2 ^ (64 : ℤ)) with hle | hgt
    · refine (round_error h 11 (by norm_num) (v + 1) (by linarith) (hle.trans (le_of_eq (by norm_num)))).trans ?_
      norm_num
    · refine ((h (v + 1)).2 _ m64).trans ?_
      rw [abs_le]
      constructor <;> norm_num at * <;> linarith
  have hb0 : 0 ≤ rnd (v + 1) := le_rnd h m0 (by linarith)
  have hb1 : rnd (v + 1) * 2 ^ (-64 : ℤ) ≤ 2 := by
    have h3 := (abs_le.1 e2).2
    have : rnd (v + 1) ≤ 2 ^ 64 * 2 := by norm_num at *; linarith
    calc rnd (v + 1) * 2 ^ (-64 : ℤ) ≤ 2 ^ 64 * 2 * 2 ^ (-64 : ℤ) := by gcongr
      _ = 2 := by norm_num
  generalize rnd (v + 1) = b at *
  -- the last rounding
  have e3 := round_error h (-52) (by norm_num) (b * 2 ^ (-64 : ℤ)) (by positivity) (hb1.trans (le_of_eq (by norm_num)))
  rw [abs_le] at *
  norm_num at *
  constructor <;> linarith [e1.1, e1.2, e2.1, e2.2, e3.1, e3.2]

/-! ## Counting -/

theorem card_pairs {W : Type} [Fintype W] {n : ℕ} (e : Fin n ≃ W) (f : ℕ → W) (hf : ∀ i : Fin n, f i = e i)
    (P : W → W → Prop) :
    (Nat.card {p : W × W // P p.1 p.2} : ℝ) = ∑ i ∈ Finset.range n, ∑ k ∈ Finset.range n, ind (P (f i) (f k)) := by
  classical
  rw [Nat.card_eq_fintype_card, Fintype.card_subtype, Finset.card_filter]
  push_cast
  rw [Fintype.sum_prod_type, ← Fin.sum_univ_eq_sum_range (fun i => ∑ k ∈ Finset.range n, ind (P (f i) (f k))),
    ← e.sum_comp]
  refine Finset.sum_congr rfl fun i _ => ?_
  rw [← Fin.sum_univ_eq_sum_range (fun k => ind (P (f i) (f k))), ← e.sum_comp]
  refine Finset.sum_congr rfl fun k _ => ?_
  rw [hf, hf]
  unfold ind
  congr

/-- sequences whose first two members are given -/
def firstTwo {W : Type} {m : ℕ} (P : W → W → Prop) :
    {o : Fin (m + 2) → W // P (o 0) (o 1)} ≃ {p : W × W // P p.1 p.2} × (Fin m → W) where
  toFun o := (⟨(o.1 0, o.1 1), o.2⟩, fun i => o.1 i.succ.succ)
  invFun q := ⟨Fin.cons q.1.1.1 (Fin.cons q.1.1.2 q.2), q.1.2⟩
  left_inv := by
    rintro ⟨o, ho⟩
    refine Subtype.ext (funext fun i => ?_)
    refine Fin.cases rfl (fun i => ?_) i
    exact Fin.cases rfl (fun i => rfl) i
  right_inv := by
    rintro ⟨⟨⟨a, b⟩, h⟩, t⟩
    rfl

theorem card_firstTwo {W : Type} [Fintype W] {m : ℕ} (P : W → W → Prop) :
    Nat.card {o : Fin (m + 2) → W // P (o 0) (o 1)} = Nat.card {p : W × W // P p.1 p.2} * Nat.card W ^ m := by
  rw [Nat.card_congr (firstTwo P), Nat.card_prod, Nat.card_fun, Nat.card_fin]

/-! ## The theorem -/

/-- the value of `Random_GetNormal` in terms of two words -/
theorem getNormal_eq {rnd : ℝ → ℝ} (h : RoundsToNearest rnd) (sd : Seed) :
    (getNormal rnd sd).1 = some (boxMuller 6.2831853071795864769 (uniformOf rnd (outputAt sd 0)) (uniformOf rnd (outputAt sd 1))) := by
  obtain ⟨h0, h1⟩ := uniform_mem_Ioc rnd h sd
  have h2 : 0 ≤ -2 * Real.log (getUniform rnd sd).1 := by
    have := Real.log_nonpos h0.le h1
    linarith
  unfold getNormal
  simp only [h0, h2, and_self, if_true]
  rfl

/-- C101: over all pairs of words -/
theorem normal_law_words {rnd : ℝ → ℝ} (h : RoundsToNearest rnd) (x : ℝ) :
    |(Nat.card {p : BitVec 64 × BitVec 64 //
        boxMuller 6.2831853071795864769 (uniformOf rnd p.1) (uniformOf rnd p.2) ≤ x} : ℝ) / (2 ^ 64) ^ 2
      - cdf (gaussianReal 0 1) x| ≤ 1 / 2 ^ 49 := by
  have hp := Real.pi_pos
  have hp1 := Real.pi_gt_d20
  have hp2 := Real.pi_lt_d20
  have hc : ∀ u v : ℝ, boxMuller 6.2831853071795864769 u v = boxMuller (2 * π) u (6.2831853071795864769 / (2 * π) * v) := by
    intro u v
    unfold boxMuller
    congr 2
    field_simp
  have hq0 : 0 < 6.2831853071795864769 / (2 * π) := by positivity
  have hq1 : 6.2831853071795864769 / (2 * π) ≤ 1 := by
    rw [div_le_one (by positivity)]
    linarith
  have hq2 : 1 - 1 / 2 ^ 64 ≤ 6.2831853071795864769 / (2 * π) := by
    rw [le_div_iff₀ (by positivity)]
    have : 2 * π ≤ 6.28318530717958647694 := by linarith
    norm_num
    linarith
  generalize 6.2831853071795864769 / (2 * π) = q at hc hq0 hq1 hq2
  simp only [hc]
  have hM : (0 : ℕ) < 2 ^ 64 := by norm_num
  have hcast : ((2 ^ 64 : ℕ) : ℝ) = 2 ^ 64 := by norm_num
  have ht : ∀ i < 2 ^ 64, ((BitVec.ofNat 64 i).toNat : ℝ) = i := by
    intro i hi
    rw [BitVec.toNat_ofNat, Nat.mod_eq_of_lt hi]
  have hcard := card_pairs (W := BitVec 64) (n := 2 ^ 64) ⟨BitVec.ofFin, BitVec.toFin, fun _ => rfl, fun _ => rfl⟩
    (BitVec.ofNat 64) (fun i => by
      apply BitVec.eq_of_toNat_eq
      rw [BitVec.toNat_ofNat, Nat.mod_eq_of_lt i.2]
      rfl)
    (fun a b => boxMuller (2 * π) (uniformOf rnd a) (q * uniformOf rnd b) ≤ x)
  have herr : ∀ i < 2 ^ 64, |uniformOf rnd (BitVec.ofNat 64 i) - (i + 1) / 2 ^ 64| ≤ 1 / 2 ^ 52 := by
    intro i hi
    have := uniformOf_error h (BitVec.ofNat 64 i)
    rw [ht i hi] at this
    exact this
  have hmem : ∀ i, 0 < uniformOf rnd (BitVec.ofNat 64 i) ∧ uniformOf rnd (BitVec.ofNat 64 i) ≤ 1 := fun i =>
    uniformOf_mem h _
  generalize 2 ^ 64 = M at hcard hM hcast ht herr
  rw [hcard]
  have hg := grid_law hM (fun i => uniformOf rnd (BitVec.ofNat 64 i)) (fun k => q * uniformOf rnd (BitVec.ofNat 64 k))
    (δ := 1 / 2 ^ 52) (δ' := 1 / 2 ^ 52 + 1 / 2 ^ 64) (fun i hi => by rw [hcast]; exact herr i hi) (fun i _ => (hmem i).1)
    (fun i hi => by
      rw [hcast]
      have h1 := herr i hi
      obtain ⟨h2, h3⟩ := hmem i
      generalize uniformOf rnd (BitVec.ofNat 64 i) = u at *
      rw [abs_le] at *
      constructor <;> nlinarith)
    (fun i _ => mul_pos hq0 (hmem i).1) (fun i _ => mul_le_one₀ hq1 (hmem i).1.le (hmem i).2) x
  rw [hcast] at hg
  refine hg.trans ?_
  norm_num

/-- C101: the numbers which `Random_GetNormal` returns for all states with a given counter have the distribution function of
a normal variable with mean 0 and variance 1, up to `2^-49` -/
theorem normal_law {rnd : ℝ → ℝ} (h : RoundsToNearest rnd) (p : Fin 16) (x : ℝ) :
    |(Nat.card {s : Fin 16 → BitVec 64 // ∃ y, (getNormal rnd ⟨s, p⟩).1 = some y ∧ y ≤ x} : ℝ) / (2 ^ 64) ^ 16
      - cdf (gaussianReal 0 1) x| ≤ 1 / 2 ^ 49 := by
  have hw := normal_law_words h x
  have h1 : Nat.card {s : Fin 16 → BitVec 64 // ∃ y, (getNormal rnd ⟨s, p⟩).1 = some y ∧ y ≤ x}
      = Nat.card {o : Fin (14 + 2) → BitVec 64 //
          boxMuller 6.2831853071795864769 (uniformOf rnd (o 0)) (uniformOf rnd (o 1)) ≤ x} := by
    refine Nat.card_congr (Equiv.subtypeEquiv (Equiv.ofBijective _ (sixteen_bijective p)) fun s => ?_)
    rw [getNormal_eq h]
    simp only [Option.some.injEq, exists_eq_left', Equiv.ofBijective_apply]
    rfl
  rw [h1, card_firstTwo (fun a b => boxMuller 6.2831853071795864769 (uniformOf rnd a) (uniformOf rnd b) ≤ x)]
  have hW : (Nat.card (BitVec 64) : ℝ) = 2 ^ 64 := by
    rw [Nat.card_eq_fintype_card, Fintype.card_congr (⟨BitVec.toFin, BitVec.ofFin, fun _ => rfl, fun _ => rfl⟩ :
      BitVec 64 ≃ Fin (2 ^ 64)), Fintype.card_fin]
    norm_num
  push_cast
  rw [hW]
  have hpos : (0 : ℝ) < 2 ^ 64 := by positivity
  generalize (2 : ℝ) ^ 64 = M at *
  rw [show M ^ 16 = M ^ 2 * M ^ 14 by ring, mul_div_mul_right _ _ (by positivity)]
  exact hw

theorem ratio_bound {a c T F : ℝ} (h0 : 0 ≤ a) (h1 : a ≤ T) (h2 : a ≤ c + 1) (h3 : c ≤ a) (hT : 2 ^ 64 ≤ T - 1)
    (hF : |a / T - F| ≤ 1 / 2 ^ 49) : |c / (T - 1) - F| ≤ 1 / 2 ^ 48 := by
  have hT1 : 0 < T - 1 := lt_of_lt_of_le (by norm_num) hT
  have hT0 : 0 < T := by linarith
  have hd : |c / (T - 1) - a / T| ≤ 1 / (T - 1) := by
    rw [div_sub_div _ _ hT1.ne' hT0.ne', abs_div, abs_of_pos (mul_pos hT1 hT0), div_le_div_iff₀ (mul_pos hT1 hT0) hT1]
    have : |c * T - (T - 1) * a| ≤ T := by
      rw [abs_le]
      constructor <;> nlinarith
    nlinarith
  have hd2 : 1 / (T - 1) ≤ 1 / 2 ^ 64 := one_div_le_one_div_of_le (by norm_num) hT
  have := (abs_add_le _ _).trans (add_le_add hd hF)
  rw [sub_add_sub_cancel] at this
  refine this.trans ?_
  norm_num at *
  linarith

theorem period_cast : (PrimeCert.period : ℝ) = (2 ^ 64) ^ 16 - 1 := by
  have : PrimeCert.period + 1 = (2 ^ 64) ^ 16 := by decide +kernel
  have := congrArg (Nat.cast : ℕ → ℝ) this
  push_cast at this
  linarith

/-- positions within a period and tuples -/
theorem card_positions_of {V : Type} {n : ℕ} {t : ℕ → V} {z : V} (ht : ∀ k, t k ≠ z)
    (hinj : ∀ k k', k < n → k' < n → t k = t k' → k = k') (hsurj : ∀ v, v ≠ z → ∃ k, k < n ∧ t k = v)
    (Q : V → Prop) (S : Finset V) (hS : ∀ v, v ∈ S ↔ v ≠ z ∧ Q v) :
    Nat.card {k : ℕ // k < n ∧ Q (t k)} = S.card := by
  rw [← Fintype.card_coe, ← Nat.card_eq_fintype_card]
  refine Nat.card_eq_of_bijective (fun k => ⟨t k.1, (hS _).2 ⟨ht _, k.2.2⟩⟩) ⟨?_, ?_⟩
  · intro a b hab
    exact Subtype.ext (hinj _ _ a.2.1 b.2.1 (congrArg Subtype.val hab))
  · rintro ⟨v, hv⟩
    obtain ⟨k, hk, e⟩ := hsurj v ((hS v).1 hv).1
    exact ⟨⟨k, hk, by rw [e]; exact ((hS v).1 hv).2⟩, Subtype.ext e⟩

theorem mem_erase_filter {V : Type} [Fintype V] [DecidableEq V] (Q : V → Prop) [DecidablePred Q] (z v : V) :
    v ∈ (Finset.univ.filter Q).erase z ↔ v ≠ z ∧ Q v := by
  simp

theorem card_positions {sd : Seed} (hsd : sd.NonZero) (Q : (Fin 16 → BitVec 64) → Prop) [DecidablePred Q] :
    Nat.card {k : ℕ // k < PrimeCert.period ∧ Q (tuple sd k)} = ((Finset.univ.filter Q).erase fun _ => 0#64).card :=
  card_positions_of (tuple_ne_zero hsd) (fun _ _ => tuple_inj hsd)
    (fun v hv => let ⟨k, hk, _⟩ := tuple_unique hsd v hv; ⟨k, hk.1, funext hk.2⟩) Q _ (mem_erase_filter Q _)

/-- C101: the same for the states which the generator passes through within a period -/
theorem normal_law_period {rnd : ℝ → ℝ} (h : RoundsToNearest rnd) {sd : Seed} (hsd : sd.NonZero) (x : ℝ) :
    |(Nat.card {k : ℕ // k < PrimeCert.period ∧ ∃ y, (getNormal rnd (stateAt sd k)).1 = some y ∧ y ≤ x} : ℝ)
        / (PrimeCert.period : ℝ) - cdf (gaussianReal 0 1) x| ≤ 1 / 2 ^ 48 := by
  classical
  have hw := normal_law h 0 x
  let Q : (Fin 16 → BitVec 64) → Prop := fun v =>
    boxMuller 6.2831853071795864769 (uniformOf rnd (v 0)) (uniformOf rnd (v 1)) ≤ x
  have h1 : Nat.card {s : Fin 16 → BitVec 64 // ∃ y, (getNormal rnd ⟨s, 0⟩).1 = some y ∧ y ≤ x}
      = (Finset.univ.filter Q).card := by
    rw [← Fintype.card_subtype, ← Nat.card_eq_fintype_card]
    refine Nat.card_congr (Equiv.subtypeEquiv (Equiv.ofBijective _ (sixteen_bijective 0)) fun s => ?_)
    rw [getNormal_eq h]
    simp only [Option.some.injEq, exists_eq_left', Equiv.ofBijective_apply]
    rfl
  have hQ : ∀ k, (∃ y, (getNormal rnd (stateAt sd k)).1 = some y ∧ y ≤ x) ↔ Q (tuple sd k) := by
    intro k
    rw [getNormal_eq h]
    simp only [Option.some.injEq, exists_eq_left', outputAt_stateAt]
    rfl
  simp only [hQ]
  rw [card_positions hsd, period_cast]
  rw [h1] at hw
  refine ratio_bound (Nat.cast_nonneg _) ?_ ?_ ?_ (by norm_num) hw
  · have : (Finset.univ.filter Q).card ≤ Fintype.card (Fin 16 → BitVec 64) := Finset.card_le_univ _
    rw [Fintype.card_fun, Fintype.card_fin, card_word] at this
    exact_mod_cast this
  · have : (Finset.univ.filter Q).card ≤ ((Finset.univ.filter Q).erase fun _ => 0#64).card + 1 :=
      Nat.sub_le_iff_le_add.1 Finset.pred_card_le_card_erase
    exact_mod_cast this
  · have : ((Finset.univ.filter Q).erase fun _ => 0#64).card ≤ (Finset.univ.filter Q).card := Finset.card_erase_le
    exact_mod_cast this

/-- C101: in exact arithmetic and for real variables uniform on (0, 1] the distribution is exactly normal -/
theorem normal_law_real :
    (((MeasureTheory.volume.restrict (Set.Ioc (0 : ℝ) 1)).prod (MeasureTheory.volume.restrict (Set.Ioc (0 : ℝ) 1))).map
      fun p => boxMuller (2 * π) p.1 p.2) = gaussianReal 0 1 := boxMuller_law

example : ∃ rnd, RoundsToNearest rnd := roundsToNearest_exists

end Verif.Random
