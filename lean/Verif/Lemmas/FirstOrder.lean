import Verif.Lemmas.Trotter
import Verif.Lemmas.Ultra
import Mathlib.Analysis.Asymptotics.Lemmas
import Mathlib.Analysis.Matrix.Normed

/-!
# Errors of first order

A family of computed quantities has errors of first order if they are at most a constant times `u`, for `u` small enough.
-/

set_option autoImplicit false

namespace Verif.FirstOrder

open Filter Topology Asymptotics Matrix Verif.Lapack Verif.Ultra

variable {ι : Type} {l : Filter ι} {u : ι → ℝ} {N : ℕ}

/-- the exponential is Lipschitz continuous on bounded sets -/
theorem exp_sub_exp {𝔸 : Type*} [NormedRing 𝔸] [NormedAlgebra ℝ 𝔸] [CompleteSpace 𝔸] [NormOneClass 𝔸] (A B : 𝔸) {s : ℝ}
    (hA : ‖A‖ ≤ s) (hB : ‖B‖ ≤ s) : ‖NormedSpace.exp A - NormedSpace.exp B‖ ≤ ‖A - B‖ * Real.exp s := by
  have h1 := (NormedSpace.exp_series_hasSum_exp' (𝕂 := ℝ) A).sub (NormedSpace.exp_series_hasSum_exp' (𝕂 := ℝ) B)
  have h2 : HasSum (fun n : ℕ => ‖A - B‖ * (((n.factorial : ℝ)⁻¹) • s ^ n)) (‖A - B‖ * Real.exp s) := by
    rw [Real.exp_eq_exp_ℝ]
    exact (NormedSpace.exp_series_hasSum_exp' (𝕂 := ℝ) s).mul_left _
  have h0 := (hasSum_nat_add_iff' 1).2 h1
  simp only [Finset.range_one, Finset.sum_singleton, pow_zero, sub_self, sub_zero] at h0
  rw [← h0.tsum_eq]
  refine tsum_of_norm_bounded h2 fun n => ?_
  rw [← smul_sub, norm_smul, norm_inv, Real.norm_natCast, smul_eq_mul]
  have h3 := Trotter.pow_sub_pow A B hA hB (n + 1)
  rw [Nat.add_sub_cancel] at h3
  have h4 : ((n + 1).factorial : ℝ)⁻¹ * ((n + 1 : ℕ) : ℝ) = (n.factorial : ℝ)⁻¹ := by
    rw [Nat.factorial_succ]
    have : ((n + 1 : ℕ) : ℝ) ≠ 0 := by positivity
    have : (n.factorial : ℝ) ≠ 0 := by positivity
    push_cast
    field_simp
  calc ((n + 1).factorial : ℝ)⁻¹ * ‖A ^ (n + 1) - B ^ (n + 1)‖
      ≤ ((n + 1).factorial : ℝ)⁻¹ * (((n + 1 : ℕ) : ℝ) * ‖A - B‖ * s ^ n) := by gcongr
    _ = ((n + 1).factorial : ℝ)⁻¹ * ((n + 1 : ℕ) : ℝ) * (‖A - B‖ * s ^ n) := by ring
    _ = ‖A - B‖ * ((n.factorial : ℝ)⁻¹ * s ^ n) := by rw [h4]; ring

/-- errors of first order -/
def Lin (l : Filter ι) (u : ι → ℝ) (x a : ι → ℝ) : Prop := (fun t => x t - a t) =O[l] u

/-- bounded quantities -/
def Bd (l : Filter ι) (a : ι → ℝ) : Prop := ∃ b, 1 ≤ b ∧ ∀ᶠ t in l, |a t| ≤ b

/-- errors of first order in every entry -/
def MLin (l : Filter ι) (u : ι → ℝ) (A B : ι → Mat N) : Prop := ∀ i j, Lin l u (fun t => A t i j) fun t => B t i j

/-- matrices with bounded entries -/
def MBd (l : Filter ι) (A : ι → Mat N) : Prop := ∃ b, 1 ≤ b ∧ ∀ᶠ t in l, Below b (A t)

theorem Lin.of_le {x a : ι → ℝ} {c : ℝ} (h : ∀ᶠ t in l, |x t - a t| ≤ c * |u t|) : Lin l u x a := IsBigO.of_bound c h

theorem Lin.refl (x : ι → ℝ) : Lin l u x x := by
  unfold Lin
  simp only [sub_self]
  exact isBigO_zero _ _

theorem Lin.trans {x y z : ι → ℝ} (h : Lin l u x y) (h' : Lin l u y z) : Lin l u x z := by
  have := IsBigO.add h h'
  simp only [sub_add_sub_cancel] at this
  exact this

theorem Lin.symm {x y : ι → ℝ} (h : Lin l u x y) : Lin l u y x := by
  have := IsBigO.neg_left h
  simp only [neg_sub] at this
  exact this

theorem Bd.const (c : ℝ) : Bd l fun _ : ι => c := ⟨max 1 |c|, le_max_left _ _, Eventually.of_forall fun _ => le_max_right _ _⟩

theorem Lin.bd {x a : ι → ℝ} (hu : Tendsto u l (𝓝 0)) (h : Lin l u x a) (ha : Bd l a) : Bd l x := by
  obtain ⟨c, hc⟩ := IsBigO.bound h
  obtain ⟨b, h1, hb⟩ := ha
  refine ⟨b + |c|, by linarith [abs_nonneg c], ?_⟩
  have h2 : ∀ᶠ t in l, |u t| ≤ 1 := by
    have := (hu.abs).eventually (gt_mem_nhds (show |(0 : ℝ)| < 1 by simp))
    exact this.mono fun t ht => ht.le
  filter_upwards [hc, hb, h2] with t h3 h4 h5
  rw [Real.norm_eq_abs, Real.norm_eq_abs] at h3
  have h6 : c * |u t| ≤ |c| := by
    refine (le_abs_self _).trans ?_
    rw [abs_mul, abs_abs]
    exact mul_le_of_le_one_right (abs_nonneg _) h5
  calc |x t| = |(x t - a t) + a t| := by rw [sub_add_cancel]
    _ ≤ |x t - a t| + |a t| := abs_add_le _ _
    _ ≤ b + |c| := by linarith

theorem Bd.mul {a b : ι → ℝ} (ha : Bd l a) (hb : Bd l b) : Bd l fun t => a t * b t := by
  obtain ⟨c, h1, hc⟩ := ha
  obtain ⟨d, h2, hd⟩ := hb
  refine ⟨c * d, by nlinarith, ?_⟩
  filter_upwards [hc, hd] with t h3 h4
  rw [abs_mul]
  exact mul_le_mul h3 h4 (abs_nonneg _) (by linarith)

theorem Bd.add {a b : ι → ℝ} (ha : Bd l a) (hb : Bd l b) : Bd l fun t => a t + b t := by
  obtain ⟨c, h1, hc⟩ := ha
  obtain ⟨d, h2, hd⟩ := hb
  refine ⟨c + d, by linarith, ?_⟩
  filter_upwards [hc, hd] with t h3 h4
  exact (abs_add_le _ _).trans (add_le_add h3 h4)

theorem Bd.sum {κ : Type} (s : Finset κ) {f : κ → ι → ℝ} (h : ∀ k ∈ s, Bd l (f k)) : Bd l fun t => ∑ k ∈ s, f k t := by
  classical
  induction s using Finset.induction_on with
  | empty => simpa using Bd.const (l := l) 0
  | insert a s ha ih =>
    simp only [Finset.sum_insert ha]
    exact (h a (Finset.mem_insert_self _ _)).add (ih fun k hk => h k (Finset.mem_insert_of_mem hk))

theorem Bd.common {a b : ι → ℝ} (ha : Bd l a) (hb : Bd l b) : ∃ c, 1 ≤ c ∧ ∀ᶠ t in l, |a t| ≤ c ∧ |b t| ≤ c := by
  obtain ⟨c, h1, hc⟩ := ha
  obtain ⟨d, h2, hd⟩ := hb
  exact ⟨max c d, le_max_of_le_left h1, hc.and hd |>.mono fun t h => ⟨h.1.trans (le_max_left _ _), h.2.trans (le_max_right _ _)⟩⟩

theorem Lin.add {x y a b : ι → ℝ} (h : Lin l u x a) (h' : Lin l u y b) : Lin l u (fun t => x t + y t) fun t => a t + b t := by
  have := IsBigO.add h h'
  exact this.congr_left fun t => by ring

theorem Lin.sub {x y a b : ι → ℝ} (h : Lin l u x a) (h' : Lin l u y b) : Lin l u (fun t => x t - y t) fun t => a t - b t := by
  have := IsBigO.sub h h'
  exact this.congr_left fun t => by ring

theorem Bd.isBigO {a : ι → ℝ} (h : Bd l a) : a =O[l] fun _ => (1 : ℝ) := by
  obtain ⟨b, -, hb⟩ := h
  exact IsBigO.of_bound b (hb.mono fun t ht => by simpa using ht)

theorem Lin.mul {x y a b : ι → ℝ} (hu : Tendsto u l (𝓝 0)) (h : Lin l u x a) (h' : Lin l u y b) (ha : Bd l a) (hb : Bd l b) :
    Lin l u (fun t => x t * y t) fun t => a t * b t := by
  have hx := h.bd hu ha
  have h1 : (fun t => x t * (y t - b t)) =O[l] fun t => 1 * u t := hx.isBigO.mul h'
  have h2 : (fun t => (x t - a t) * b t) =O[l] fun t => u t * 1 := IsBigO.mul h hb.isBigO
  simp only [one_mul] at h1
  simp only [mul_one] at h2
  exact (h1.add h2).congr_left fun t => by ring

theorem Lin.sum {κ : Type} (s : Finset κ) {f g : κ → ι → ℝ} (h : ∀ k ∈ s, Lin l u (f k) (g k)) :
    Lin l u (fun t => ∑ k ∈ s, f k t) fun t => ∑ k ∈ s, g k t := by
  classical
  induction s using Finset.induction_on with
  | empty => simpa using Lin.refl (l := l) (u := u) fun _ => 0
  | insert a s ha ih =>
    simp only [Finset.sum_insert ha]
    exact (h a (Finset.mem_insert_self _ _)).add (ih fun k hk => h k (Finset.mem_insert_of_mem hk))

/-! ## Matrices -/

theorem MLin.trans {A B C : ι → Mat N} (h : MLin l u A B) (h' : MLin l u B C) : MLin l u A C := fun i j => (h i j).trans (h' i j)

theorem MLin.refl (A : ι → Mat N) : MLin l u A A := fun _ _ => Lin.refl _

theorem MLin.symm {A B : ι → Mat N} (h : MLin l u A B) : MLin l u B A := fun i j => (h i j).symm

theorem mbd_iff {A : ι → Mat N} : MBd l A ↔ ∀ i j, Bd l fun t => A t i j := by
  refine ⟨fun ⟨b, h1, hb⟩ i j => ⟨b, h1, hb.mono fun t ht => ht i j⟩, fun h => ?_⟩
  choose b h1 hb using h
  refine ⟨1 + ∑ i, ∑ j, b i j, ?_, ?_⟩
  · have : 0 ≤ ∑ i, ∑ j, b i j := Finset.sum_nonneg fun i _ => Finset.sum_nonneg fun j _ => by linarith [h1 i j]
    linarith
  · have := eventually_all.2 fun i => eventually_all.2 fun j => hb i j
    filter_upwards [this] with t ht i j
    have h3 : b i j ≤ ∑ j, b i j := Finset.single_le_sum (f := fun j => b i j) (fun j _ => by linarith [h1 i j]) (Finset.mem_univ j)
    have h4 : ∑ j, b i j ≤ ∑ i, ∑ j, b i j :=
      Finset.single_le_sum (f := fun i => ∑ j, b i j) (fun i _ => Finset.sum_nonneg fun j _ => by linarith [h1 i j]) (Finset.mem_univ i)
    linarith [ht i j]

theorem MLin.bd {A B : ι → Mat N} (hu : Tendsto u l (𝓝 0)) (h : MLin l u A B) (hB : MBd l B) : MBd l A :=
  mbd_iff.2 fun i j => (h i j).bd hu (mbd_iff.1 hB i j)

theorem MBd.const (A : Mat N) : MBd l fun _ : ι => A := mbd_iff.2 fun _ _ => Bd.const _

theorem MBd.mul {A B : ι → Mat N} (hA : MBd l A) (hB : MBd l B) : MBd l fun t => A t * B t :=
  mbd_iff.2 fun i j => by
    simp only [Matrix.mul_apply]
    exact Bd.sum _ fun k _ => (mbd_iff.1 hA i k).mul (mbd_iff.1 hB k j)

theorem MBd.transpose {A : ι → Mat N} (hA : MBd l A) : MBd l fun t => (A t)ᵀ := mbd_iff.2 fun i j => mbd_iff.1 hA j i

theorem MLin.transpose {A B : ι → Mat N} (h : MLin l u A B) : MLin l u (fun t => (A t)ᵀ) fun t => (B t)ᵀ := fun i j => h j i

theorem MLin.mul {A B A' B' : ι → Mat N} (hu : Tendsto u l (𝓝 0)) (h : MLin l u A A') (h' : MLin l u B B') (hA : MBd l A')
    (hB : MBd l B') : MLin l u (fun t => A t * B t) fun t => A' t * B' t := fun i j => by
  simp only [Matrix.mul_apply]
  exact Lin.sum _ fun k _ => (h i k).mul hu (h' k j) (mbd_iff.1 hA i k) (mbd_iff.1 hB k j)

theorem MLin.of_near {A B : ι → Mat N} {c : ℝ} (h0 : ∀ t, 0 ≤ u t) (h : ∀ᶠ t in l, Near (u t * c) (A t) (B t)) : MLin l u A B :=
  fun i j => Lin.of_le (c := c) (h.mono fun t ht => by
    rw [abs_of_nonneg (h0 t), mul_comm]
    exact ht i j)

theorem MBd.common {A B : ι → Mat N} (hA : MBd l A) (hB : MBd l B) : ∃ c, 1 ≤ c ∧ ∀ᶠ t in l, Below c (A t) ∧ Below c (B t) := by
  obtain ⟨c, h1, hc⟩ := hA
  obtain ⟨d, h2, hd⟩ := hB
  exact ⟨max c d, le_max_of_le_left h1, hc.and hd |>.mono fun t h => ⟨fun i j => (h.1 i j).trans (le_max_left _ _),
    fun i j => (h.2 i j).trans (le_max_right _ _)⟩⟩

/-- a bound which does not depend on `u` is eventually less than `1 / u` -/
theorem small (hu : Tendsto u l (𝓝 0)) (b : ℝ) : ∀ᶠ t in l, b * u t ≤ 1 := by
  have := (hu.const_mul b).eventually (gt_mem_nhds (show b * 0 < 1 by simp))
  exact this.mono fun t ht => ht.le

section exp

attribute [local instance] Matrix.linftyOpNormedRing Matrix.linftyOpNormedAlgebra Matrix.linfty_opNormOneClass

theorem norm_le_of_below {A : Mat N} {b : ℝ} (hb : 0 ≤ b) (h : Below b A) : ‖A‖ ≤ N * b := by
  rw [Matrix.linfty_opNorm_def]
  have : (Finset.univ.sup fun i => ∑ j, ‖A i j‖₊) ≤ Real.toNNReal (N * b) := by
    refine Finset.sup_le fun i _ => ?_
    rw [← NNReal.coe_le_coe, Real.coe_toNNReal _ (by positivity)]
    push_cast
    calc ∑ j, ‖A i j‖ ≤ ∑ _j : Fin N, b := Finset.sum_le_sum fun j _ => h i j
      _ = N * b := by simp
  have := NNReal.coe_le_coe.2 this
  rwa [Real.coe_toNNReal _ (by positivity)] at this

theorem entry_le_norm (A : Mat N) (i j : Fin N) : |A i j| ≤ ‖A‖ := by
  rw [Matrix.linfty_opNorm_def]
  have h1 : ‖A i j‖₊ ≤ ∑ j, ‖A i j‖₊ := Finset.single_le_sum (f := fun j => ‖A i j‖₊) (fun _ _ => zero_le) (Finset.mem_univ j)
  have h2 := Finset.le_sup (f := fun i => ∑ j, ‖A i j‖₊) (Finset.mem_univ i)
  exact_mod_cast h1.trans h2

/-- exponentials of matrices with errors of first order -/
theorem MLin.exp [NeZero N] {A B : ι → Mat N} (hu : Tendsto u l (𝓝 0)) (h : MLin l u A B) (hB : MBd l B) :
    MLin l u (fun t => NormedSpace.exp (A t)) fun t => NormedSpace.exp (B t) := by
  obtain ⟨b, h1, hb⟩ := (h.bd hu hB).common hB
  have hs : (fun t => ∑ i, ∑ j, |A t i j - B t i j|) =O[l] u := by
    have : Lin l u (fun t => ∑ i, ∑ j, |A t i j - B t i j|) fun _ => ∑ _i : Fin N, ∑ _j : Fin N, (0 : ℝ) :=
      Lin.sum _ fun i _ => Lin.sum _ fun j _ => by
        have := IsBigO.abs_left (h i j)
        exact this.congr_left fun t => (sub_zero _).symm
    exact this.congr_left fun t => by simp
  obtain ⟨c, hc⟩ := hs.bound
  intro i j
  refine Lin.of_le (c := N * c * Real.exp (N * b)) ?_
  filter_upwards [hb, hc] with t h2 h3
  have h0 : 0 ≤ ∑ i, ∑ j, |A t i j - B t i j| := Finset.sum_nonneg fun _ _ => Finset.sum_nonneg fun _ _ => abs_nonneg _
  rw [Real.norm_eq_abs, Real.norm_eq_abs, abs_of_nonneg h0] at h3
  have h4 : Below (∑ i, ∑ j, |A t i j - B t i j|) (A t - B t) := fun i j => by
    have h3 : |A t i j - B t i j| ≤ ∑ j, |A t i j - B t i j| :=
      Finset.single_le_sum (f := fun j => |A t i j - B t i j|) (fun j _ => abs_nonneg _) (Finset.mem_univ j)
    exact h3.trans (Finset.single_le_sum (f := fun i => ∑ j, |A t i j - B t i j|)
      (fun i _ => Finset.sum_nonneg fun j _ => abs_nonneg _) (Finset.mem_univ i))
  have h5 := exp_sub_exp (A t) (B t) (norm_le_of_below (by linarith) h2.1) (norm_le_of_below (by linarith) h2.2)
  have h6 := norm_le_of_below h0 h4
  have h7 := entry_le_norm (NormedSpace.exp (A t) - NormedSpace.exp (B t)) i j
  rw [Matrix.sub_apply] at h7
  calc |NormedSpace.exp (A t) i j - NormedSpace.exp (B t) i j| ≤ ‖A t - B t‖ * Real.exp (N * b) := h7.trans h5
    _ ≤ N * (c * |u t|) * Real.exp (N * b) := by gcongr; exact h6.trans (by gcongr)
    _ = _ := by ring

end exp

end Verif.FirstOrder
