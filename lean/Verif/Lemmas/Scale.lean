import Verif.Lemmas.Ultra
import Mathlib.Order.Filter.Ultrafilter.Basic
import Mathlib.Analysis.SpecialFunctions.Pow.Real
import Mathlib.Tactic.Positivity
import Mathlib.Tactic.Linarith

/-!
# Families of computations with errors of the order of the unit roundoff

Along an ultrafilter, `u` tends to zero faster than any power of `1 / b`.  A quantity is moderate if it is bounded by a power of
`b`, and negligible if it is bounded by `u` times a power of `b`.  The moderate quantities form a ring, the negligible ones an
ideal.  Bounds which hold uniformly follow from statements on all families (`uniform`).
-/

set_option autoImplicit false

namespace Verif

open Filter Topology Matrix Verif.Lapack Verif.Ultra

/-- `u` is small compared to all powers of `1 / b` -/
structure Scale (ι : Type) where
  U : Ultrafilter ι
  u : ι → ℝ
  b : ι → ℝ
  u0 : ∀ t, 0 ≤ u t
  b1 : ∀ t, 1 ≤ b t
  small : ∀ k : ℕ, ∀ᶠ t in (U : Filter ι), u t * (k * b t ^ k) ≤ 1

namespace Scale

/-- bounds -/
def w (k : ℕ) (b : ℝ) : ℝ := k * b ^ k

theorem w_nonneg (k : ℕ) {b : ℝ} (hb : 1 ≤ b) : 0 ≤ w k b := by
  unfold w
  positivity

theorem w_mono {k l : ℕ} (h : k ≤ l) {b : ℝ} (hb : 1 ≤ b) : w k b ≤ w l b := by
  unfold w
  exact mul_le_mul (by exact_mod_cast h) (pow_le_pow_right₀ hb h) (by positivity) (by positivity)

theorem w_add (k l : ℕ) {b : ℝ} (hb : 1 ≤ b) : w k b + w l b ≤ w (k + l) b := by
  unfold w
  have h1 : (k : ℝ) * b ^ k ≤ k * b ^ (k + l) := mul_le_mul_of_nonneg_left (pow_le_pow_right₀ hb (by omega)) (by positivity)
  have h2 : (l : ℝ) * b ^ l ≤ l * b ^ (k + l) := mul_le_mul_of_nonneg_left (pow_le_pow_right₀ hb (by omega)) (by positivity)
  push_cast
  linarith [add_mul (k : ℝ) l (b ^ (k + l))]

theorem w_mul (k l : ℕ) {b : ℝ} (hb : 1 ≤ b) : w k b * w l b ≤ w (k * l + k + l) b := by
  have h1 : w k b * w l b = (k * l : ℕ) * b ^ (k + l) := by
    unfold w
    push_cast
    ring
  rw [h1]
  unfold w
  exact mul_le_mul (by exact_mod_cast (by omega)) (pow_le_pow_right₀ hb (by omega)) (by positivity) (by positivity)

theorem le_w (k : ℕ) {b : ℝ} (hb : 1 ≤ b) : (k : ℝ) ≤ w k b := by
  unfold w
  exact le_mul_of_one_le_right (by positivity) (one_le_pow₀ hb)

variable {ι : Type} (S : Scale ι)

/-- bounded by a power of `b` -/
def Mod (x : ι → ℝ) : Prop := ∃ k : ℕ, ∀ᶠ t in (S.U : Filter ι), |x t| ≤ w k (S.b t)

/-- bounded by `u` times a power of `b` -/
def Neg (x : ι → ℝ) : Prop := ∃ k : ℕ, ∀ᶠ t in (S.U : Filter ι), |x t| ≤ S.u t * w k (S.b t)

/-- equal up to negligible quantities -/
def Sim (x y : ι → ℝ) : Prop := S.Mod y ∧ S.Neg fun t => x t - y t

variable {S} {x y z x' y' : ι → ℝ}

/-! ## Moderate quantities -/

theorem Mod.of_le (k : ℕ) (h : ∀ᶠ t in (S.U : Filter ι), |x t| ≤ k) : S.Mod x :=
  ⟨k, h.mono fun t ht => ht.trans (le_w k (S.b1 t))⟩

theorem Mod.const (c : ℝ) : S.Mod fun _ => c := by
  obtain ⟨k, hk⟩ := exists_nat_ge |c|
  exact Mod.of_le k (Eventually.of_forall fun _ => hk)

theorem Mod.mono (h : S.Mod y) (hxy : ∀ᶠ t in (S.U : Filter ι), |x t| ≤ |y t|) : S.Mod x := by
  obtain ⟨k, hk⟩ := h
  exact ⟨k, hk.mp (hxy.mono fun t h1 h2 => h1.trans h2)⟩

theorem Mod.congr (h : S.Mod y) (hxy : ∀ᶠ t in (S.U : Filter ι), x t = y t) : S.Mod x :=
  h.mono (hxy.mono fun t ht => by rw [ht])

theorem Mod.b : S.Mod S.b := ⟨1, Eventually.of_forall fun t => by
  rw [w, abs_of_pos (by linarith [S.b1 t])]
  simp⟩

theorem Mod.add (hx : S.Mod x) (hy : S.Mod y) : S.Mod fun t => x t + y t := by
  obtain ⟨k, hk⟩ := hx
  obtain ⟨l, hl⟩ := hy
  refine ⟨k + l, ?_⟩
  filter_upwards [hk, hl] with t h1 h2
  exact (abs_add_le _ _).trans ((add_le_add h1 h2).trans (w_add k l (S.b1 t)))

theorem Mod.neg (hx : S.Mod x) : S.Mod fun t => -x t := hx.mono (Eventually.of_forall fun t => by rw [abs_neg])

theorem Mod.sub (hx : S.Mod x) (hy : S.Mod y) : S.Mod fun t => x t - y t := by
  simpa only [sub_eq_add_neg] using hx.add hy.neg

theorem Mod.mul (hx : S.Mod x) (hy : S.Mod y) : S.Mod fun t => x t * y t := by
  obtain ⟨k, hk⟩ := hx
  obtain ⟨l, hl⟩ := hy
  refine ⟨k * l + k + l, ?_⟩
  filter_upwards [hk, hl] with t h1 h2
  rw [abs_mul]
  exact (mul_le_mul h1 h2 (abs_nonneg _) (w_nonneg k (S.b1 t))).trans (w_mul k l (S.b1 t))

theorem Mod.sum {α : Type} (s : Finset α) {f : α → ι → ℝ} (h : ∀ a ∈ s, S.Mod (f a)) : S.Mod fun t => ∑ a ∈ s, f a t := by
  classical
  induction s using Finset.induction_on with
  | empty => simpa using Mod.const 0
  | insert a s ha ih =>
    simp only [Finset.sum_insert ha]
    exact (h a (Finset.mem_insert_self ..)).add (ih fun c hc => h c (Finset.mem_insert_of_mem hc))

theorem Mod.prod {α : Type} (s : Finset α) {f : α → ι → ℝ} (h : ∀ a ∈ s, S.Mod (f a)) : S.Mod fun t => ∏ a ∈ s, f a t := by
  classical
  induction s using Finset.induction_on with
  | empty => simpa using Mod.const 1
  | insert a s ha ih =>
    simp only [Finset.prod_insert ha]
    exact (h a (Finset.mem_insert_self ..)).mul (ih fun c hc => h c (Finset.mem_insert_of_mem hc))

/-! ## Negligible quantities -/

theorem Neg.zero : S.Neg fun _ => 0 := ⟨0, Eventually.of_forall fun t => by simp [w]⟩

theorem Neg.mono (h : S.Neg y) (hxy : ∀ᶠ t in (S.U : Filter ι), |x t| ≤ |y t|) : S.Neg x := by
  obtain ⟨k, hk⟩ := h
  exact ⟨k, hk.mp (hxy.mono fun t h1 h2 => h1.trans h2)⟩

theorem Neg.congr (h : S.Neg y) (hxy : ∀ᶠ t in (S.U : Filter ι), x t = y t) : S.Neg x :=
  h.mono (hxy.mono fun t ht => by rw [ht])

theorem Neg.add (hx : S.Neg x) (hy : S.Neg y) : S.Neg fun t => x t + y t := by
  obtain ⟨k, hk⟩ := hx
  obtain ⟨l, hl⟩ := hy
  refine ⟨k + l, ?_⟩
  filter_upwards [hk, hl] with t h1 h2
  have := mul_le_mul_of_nonneg_left (w_add k l (S.b1 t)) (S.u0 t)
  have := abs_add_le (x t) (y t)
  linarith [mul_add (S.u t) (w k (S.b t)) (w l (S.b t))]

theorem Neg.neg (hx : S.Neg x) : S.Neg fun t => -x t := hx.mono (Eventually.of_forall fun t => by rw [abs_neg])

theorem Neg.mul (hx : S.Neg x) (hy : S.Mod y) : S.Neg fun t => x t * y t := by
  obtain ⟨k, hk⟩ := hx
  obtain ⟨l, hl⟩ := hy
  refine ⟨k * l + k + l, ?_⟩
  filter_upwards [hk, hl] with t h1 h2
  have h3 := mul_le_mul_of_nonneg_left (w_mul k l (S.b1 t)) (S.u0 t)
  have h4 := mul_le_mul h1 h2 (abs_nonneg _) (mul_nonneg (S.u0 t) (w_nonneg k (S.b1 t)))
  rw [abs_mul]
  rw [mul_assoc] at h4
  exact h4.trans h3

/-- an error of at most `u` times a moderate quantity -/
theorem Neg.of_le (hy : S.Mod y) (h : ∀ᶠ t in (S.U : Filter ι), |x t| ≤ S.u t * |y t|) : S.Neg x := by
  obtain ⟨k, hk⟩ := hy
  refine ⟨k, ?_⟩
  filter_upwards [h, hk] with t h1 h2
  exact h1.trans (mul_le_mul_of_nonneg_left h2 (S.u0 t))

theorem Neg.mod (h : S.Neg x) : S.Mod x := by
  obtain ⟨k, hk⟩ := h
  refine Mod.of_le 1 ?_
  filter_upwards [hk, S.small k] with t h1 h2
  push_cast
  exact h1.trans h2

theorem Neg.sum {α : Type} (s : Finset α) {f : α → ι → ℝ} (h : ∀ a ∈ s, S.Neg (f a)) : S.Neg fun t => ∑ a ∈ s, f a t := by
  classical
  induction s using Finset.induction_on with
  | empty => simpa using Neg.zero
  | insert a s ha ih =>
    simp only [Finset.sum_insert ha]
    exact (h a (Finset.mem_insert_self ..)).add (ih fun c hc => h c (Finset.mem_insert_of_mem hc))

/-- negligible quantities are eventually small -/
theorem Neg.small (h : S.Neg x) {e : ℝ} (he : 0 < e) : ∀ᶠ t in (S.U : Filter ι), |x t| ≤ e := by
  obtain ⟨k, hk⟩ := h
  obtain ⟨l, hl⟩ := exists_nat_ge (1 / e)
  filter_upwards [hk, S.small (k * l + k + l)] with t h1 h2
  have h3 := mul_le_mul_of_nonneg_left (w_mul k l (S.b1 t)) (S.u0 t)
  have h4 : (1 / e) ≤ w l (S.b t) := hl.trans (le_w l (S.b1 t))
  have h5 := mul_le_mul_of_nonneg_left h4 (mul_nonneg (S.u0 t) (w_nonneg k (S.b1 t)))
  have h6 : S.u t * w k (S.b t) * (1 / e) ≤ 1 := by
    refine h5.trans ?_
    rw [mul_assoc]
    exact h3.trans h2
  rw [mul_one_div, div_le_one he] at h6
  exact h1.trans h6

/-! ## Equality up to negligible quantities -/

theorem Sim.refl (h : S.Mod x) : S.Sim x x := ⟨h, Neg.zero.congr (Eventually.of_forall fun _ => sub_self _)⟩

theorem Sim.const (c : ℝ) : S.Sim (fun _ => c) fun _ => c := Sim.refl (Mod.const c)

theorem Sim.left (h : S.Sim x y) : S.Mod x := by
  simpa only [add_sub_cancel] using h.1.add h.2.mod

theorem Sim.symm (h : S.Sim x y) : S.Sim y x := ⟨h.left, by simpa only [neg_sub] using h.2.neg⟩

theorem Sim.trans (h : S.Sim x y) (h' : S.Sim y z) : S.Sim x z :=
  ⟨h'.1, by simpa only [sub_add_sub_cancel] using h.2.add h'.2⟩

theorem Sim.congr (h : S.Sim x y) (hx : ∀ᶠ t in (S.U : Filter ι), x' t = x t) (hy : ∀ᶠ t in (S.U : Filter ι), y' t = y t) :
    S.Sim x' y' := by
  refine ⟨h.1.congr hy, h.2.congr ?_⟩
  filter_upwards [hx, hy] with t h1 h2
  rw [h1, h2]

theorem Sim.of_eq (h : S.Mod y) (hx : ∀ᶠ t in (S.U : Filter ι), x t = y t) : S.Sim x y :=
  (Sim.refl h).congr hx (Eventually.of_forall fun _ => rfl)

theorem Sim.add (h : S.Sim x y) (h' : S.Sim x' y') : S.Sim (fun t => x t + x' t) fun t => y t + y' t :=
  ⟨h.1.add h'.1, (h.2.add h'.2).congr (Eventually.of_forall fun t => by ring)⟩

theorem Sim.neg (h : S.Sim x y) : S.Sim (fun t => -x t) fun t => -y t :=
  ⟨h.1.neg, h.2.neg.congr (Eventually.of_forall fun t => by ring)⟩

theorem Sim.sub (h : S.Sim x y) (h' : S.Sim x' y') : S.Sim (fun t => x t - x' t) fun t => y t - y' t := by
  simpa only [sub_eq_add_neg] using h.add h'.neg

theorem Sim.mul (h : S.Sim x y) (h' : S.Sim x' y') : S.Sim (fun t => x t * x' t) fun t => y t * y' t :=
  ⟨h.1.mul h'.1, ((h.2.mul h'.left).add (h'.2.mul h.1)).congr (Eventually.of_forall fun t => by ring)⟩

theorem Sim.sum {α : Type} (s : Finset α) {f g : α → ι → ℝ} (h : ∀ a ∈ s, S.Sim (f a) (g a)) :
    S.Sim (fun t => ∑ a ∈ s, f a t) fun t => ∑ a ∈ s, g a t :=
  ⟨Mod.sum s fun a ha => (h a ha).1, (Neg.sum s fun a ha => (h a ha).2).congr
    (Eventually.of_forall fun _ => (Finset.sum_sub_distrib ..).symm)⟩

theorem Sim.prod {α : Type} (s : Finset α) {f g : α → ι → ℝ} (h : ∀ a ∈ s, S.Sim (f a) (g a)) :
    S.Sim (fun t => ∏ a ∈ s, f a t) fun t => ∏ a ∈ s, g a t := by
  classical
  induction s using Finset.induction_on with
  | empty => simpa using Sim.const 1
  | insert a s ha ih =>
    simp only [Finset.prod_insert ha]
    exact (h a (Finset.mem_insert_self ..)).mul (ih fun c hc => h c (Finset.mem_insert_of_mem hc))

/-- a quantity which is equal to one with a moderate inverse -/
theorem Sim.inv (h : S.Sim x y) (h0 : ∀ᶠ t in (S.U : Filter ι), y t ≠ 0) (hi : S.Mod fun t => (y t)⁻¹) :
    (∀ᶠ t in (S.U : Filter ι), x t ≠ 0) ∧ S.Sim (fun t => (x t)⁻¹) fun t => (y t)⁻¹ := by
  have hn : S.Neg fun t => (x t - y t) * (y t)⁻¹ := h.2.mul hi
  have key : ∀ᶠ t in (S.U : Filter ι), x t ≠ 0 ∧ |(x t)⁻¹| ≤ 2 * |(y t)⁻¹| := by
    filter_upwards [hn.small (show (0 : ℝ) < 1 / 2 by norm_num), h0] with t h1 h2
    have hy : 0 < |y t| := abs_pos.2 h2
    rw [abs_mul, abs_inv, ← div_eq_mul_inv, div_le_iff₀ hy] at h1
    have h3 : |y t| ≤ 2 * |x t| := by
      have := abs_sub_abs_le_abs_sub (y t) (x t)
      rw [abs_sub_comm] at this
      linarith
    have hx : 0 < |x t| := by linarith
    refine ⟨abs_pos.1 hx, ?_⟩
    rw [abs_inv, abs_inv, ← div_eq_mul_inv, inv_eq_one_div, div_le_div_iff₀ hx hy]
    linarith
  have hxi : S.Mod fun t => (x t)⁻¹ := by
    refine ((Mod.const 2).mul hi).mono (key.mono fun t ht => ?_)
    rw [abs_mul, abs_two]
    exact ht.2
  refine ⟨key.mono fun t ht => ht.1, hi, ((h.2.mul hi).mul hxi).neg.congr ?_⟩
  filter_upwards [key, h0] with t h1 h2
  have h1 := h1.1
  field_simp
  ring

/-! ## Relative errors -/

variable (S) in
/-- equal up to a relative error of the order of `u` -/
def Rel (x y : ι → ℝ) : Prop := ∃ k : ℕ, ∀ᶠ t in (S.U : Filter ι), |x t - y t| ≤ k * S.u t * |y t|

theorem smallU (S : Scale ι) (k : ℕ) : ∀ᶠ t in (S.U : Filter ι), k * S.u t ≤ 1 := by
  filter_upwards [S.small k] with t h
  have := mul_le_mul_of_nonneg_left (le_w k (S.b1 t)) (S.u0 t)
  rw [mul_comm]
  exact this.trans h

theorem Rel.refl (x : ι → ℝ) : S.Rel x x := ⟨0, Eventually.of_forall fun t => by simp⟩

theorem Rel.sim (h : S.Rel x y) (hy : S.Mod y) : S.Sim x y := by
  obtain ⟨k, hk⟩ := h
  refine ⟨hy, Neg.of_le ((Mod.const (k : ℝ)).mul hy) (hk.mono fun t ht => ht.trans (le_of_eq ?_))⟩
  rw [abs_mul, Nat.abs_cast]
  ring

theorem Rel.trans (h : S.Rel x y) (h' : S.Rel y z) : S.Rel x z := by
  obtain ⟨k, hk⟩ := h
  obtain ⟨l, hl⟩ := h'
  refine ⟨2 * k + l, ?_⟩
  filter_upwards [hk, hl, smallU S l] with t h1 h2 h3
  have hz := abs_nonneg (z t)
  have h4 : |y t| ≤ 2 * |z t| := by
    have := abs_sub_abs_le_abs_sub (y t) (z t)
    have := mul_le_mul_of_nonneg_right h3 hz
    linarith
  have h5 := mul_le_mul_of_nonneg_left h4 (mul_nonneg (Nat.cast_nonneg k) (S.u0 t) : (0 : ℝ) ≤ k * S.u t)
  have h6 := abs_sub_le (x t) (y t) (z t)
  push_cast
  linarith [show (2 * (k : ℝ) + l) * S.u t * |z t| = k * S.u t * (2 * |z t|) + l * S.u t * |z t| by ring]

theorem Rel.of_le (h : ∀ᶠ t in (S.U : Filter ι), |x t - y t| ≤ S.u t * |y t|) : S.Rel x y :=
  ⟨1, h.mono fun t ht => by simpa using ht⟩

theorem Rel.neg (h : S.Rel x y) : S.Rel (fun t => -x t) fun t => -y t := by
  obtain ⟨k, hk⟩ := h
  refine ⟨k, hk.mono fun t ht => ?_⟩
  rw [abs_neg, ← neg_sub', abs_neg]
  exact ht

theorem Rel.mul (h : S.Rel x y) (h' : S.Rel x' y') : S.Rel (fun t => x t * x' t) fun t => y t * y' t := by
  obtain ⟨k, hk⟩ := h
  obtain ⟨l, hl⟩ := h'
  refine ⟨2 * k + l, ?_⟩
  filter_upwards [hk, hl, smallU S l] with t h1 h2 h3
  have h4 : |x' t| ≤ 2 * |y' t| := by
    have := abs_sub_abs_le_abs_sub (x' t) (y' t)
    have := mul_le_mul_of_nonneg_right h3 (abs_nonneg (y' t))
    linarith
  have e : x t * x' t - y t * y' t = (x t - y t) * x' t + y t * (x' t - y' t) := by ring
  rw [e]
  refine (abs_add_le _ _).trans ?_
  rw [abs_mul, abs_mul, abs_mul]
  have h5 := mul_le_mul h1 h4 (abs_nonneg _) (mul_nonneg (mul_nonneg (Nat.cast_nonneg k) (S.u0 t)) (abs_nonneg _))
  have h6 := mul_le_mul_of_nonneg_left h2 (abs_nonneg (y t))
  push_cast
  linarith [show (2 * (k : ℝ) + l) * S.u t * (|y t| * |y' t|) = k * S.u t * |y t| * (2 * |y' t|) + |y t| * (l * S.u t * |y' t|) by ring]

theorem Rel.inv (h : S.Rel x y) : S.Rel (fun t => (x t)⁻¹) fun t => (y t)⁻¹ := by
  obtain ⟨k, hk⟩ := h
  refine ⟨2 * k, ?_⟩
  filter_upwards [hk, smallU S (2 * k)] with t h1 h3
  push_cast at h3
  rcases eq_or_ne (y t) 0 with h0 | h0
  · rw [h0, abs_zero, mul_zero, sub_zero] at h1
    have : x t = 0 := abs_eq_zero.1 (le_antisymm h1 (abs_nonneg _))
    rw [h0, this]
    simp
  · have hy : 0 < |y t| := abs_pos.2 h0
    have h4 : |y t| ≤ 2 * |x t| := by
      have := abs_sub_abs_le_abs_sub (y t) (x t)
      rw [abs_sub_comm] at this
      have := mul_le_mul_of_nonneg_right h3 hy.le
      linarith [mul_assoc 2 (k : ℝ) (S.u t), mul_assoc 2 ((k : ℝ) * S.u t) |y t|]
    have hx : 0 < |x t| := by linarith
    have e : (x t)⁻¹ - (y t)⁻¹ = -(x t - y t) * ((x t)⁻¹ * (y t)⁻¹) := by
      have := abs_pos.1 hx
      field_simp
      ring
    rw [e, abs_mul, abs_neg, abs_mul, abs_inv, abs_inv]
    have h6 : |x t|⁻¹ ≤ 2 * |y t|⁻¹ := by
      rw [← div_eq_mul_inv, inv_eq_one_div, div_le_div_iff₀ hx hy]
      linarith
    have hyi : 0 ≤ |y t|⁻¹ := by positivity
    have h7 := mul_le_mul h1 (mul_le_mul_of_nonneg_right h6 hyi) (by positivity)
      (mul_nonneg (mul_nonneg (Nat.cast_nonneg k) (S.u0 t)) hy.le)
    refine h7.trans (le_of_eq ?_)
    push_cast
    field_simp

theorem Rel.div (h : S.Rel x y) (h' : S.Rel x' y') : S.Rel (fun t => x t / x' t) fun t => y t / y' t := by
  simpa only [div_eq_mul_inv] using h.mul h'.inv

/-- no cancellation -/
theorem Rel.add (h : S.Rel x y) (h' : S.Rel x' y') (hs : ∀ᶠ t in (S.U : Filter ι), 0 ≤ y t * y' t) :
    S.Rel (fun t => x t + x' t) fun t => y t + y' t := by
  obtain ⟨k, hk⟩ := h
  obtain ⟨l, hl⟩ := h'
  refine ⟨k + l, ?_⟩
  filter_upwards [hk, hl, hs] with t h1 h2 h3
  have e : |y t + y' t| = |y t| + |y' t| := by
    rcases le_total 0 (y t) with a | a <;> rcases le_total 0 (y' t) with c | c
    · rw [abs_of_nonneg a, abs_of_nonneg c, abs_of_nonneg (by linarith)]
    · have : y t * y' t = 0 := le_antisymm (mul_nonpos_of_nonneg_of_nonpos a c) h3
      rcases mul_eq_zero.1 this with h | h <;> simp [h]
    · have : y t * y' t = 0 := le_antisymm (mul_nonpos_of_nonpos_of_nonneg a c) h3
      rcases mul_eq_zero.1 this with h | h <;> simp [h]
    · rw [abs_of_nonpos a, abs_of_nonpos c, abs_of_nonpos (by linarith)]
      ring
  rw [e, add_sub_add_comm]
  refine (abs_add_le _ _).trans ?_
  have h4 : 0 ≤ (k : ℝ) * S.u t * |y' t| := mul_nonneg (mul_nonneg (Nat.cast_nonneg k) (S.u0 t)) (abs_nonneg _)
  have h5 : 0 ≤ (l : ℝ) * S.u t * |y t| := mul_nonneg (mul_nonneg (Nat.cast_nonneg l) (S.u0 t)) (abs_nonneg _)
  push_cast
  linarith [show ((k : ℝ) + l) * S.u t * (|y t| + |y' t|) = k * S.u t * |y t| + l * S.u t * |y' t| + k * S.u t * |y' t| + l * S.u t * |y t| by ring]

theorem Rel.sqrt (h : S.Rel x y) (hy : ∀ᶠ t in (S.U : Filter ι), 0 ≤ y t) :
    S.Rel (fun t => Real.sqrt (x t)) fun t => Real.sqrt (y t) := by
  obtain ⟨k, hk⟩ := h
  refine ⟨k, ?_⟩
  filter_upwards [hk, hy, smallU S k] with t h1 h2 h3
  rw [abs_of_nonneg h2] at h1
  rcases h2.eq_or_lt with e | e
  · rw [← e, mul_zero, sub_zero] at h1
    have : x t = 0 := abs_eq_zero.1 (le_antisymm h1 (abs_nonneg _))
    rw [← e, this]
    simp
  · have hx : 0 ≤ x t := by
      have := neg_abs_le (x t - y t)
      have := mul_le_mul_of_nonneg_right h3 h2
      linarith
    have hsy := Real.sqrt_pos.2 e
    have hsx := Real.sqrt_nonneg (x t)
    rw [abs_of_pos hsy]
    have e1 : x t - y t = (Real.sqrt (x t) - Real.sqrt (y t)) * (Real.sqrt (x t) + Real.sqrt (y t)) := by
      have := Real.mul_self_sqrt hx
      have := Real.mul_self_sqrt h2
      linarith [show (Real.sqrt (x t) - Real.sqrt (y t)) * (Real.sqrt (x t) + Real.sqrt (y t))
        = Real.sqrt (x t) * Real.sqrt (x t) - Real.sqrt (y t) * Real.sqrt (y t) by ring]
    have h4 : |Real.sqrt (x t) - Real.sqrt (y t)| * Real.sqrt (y t) ≤ |x t - y t| := by
      rw [e1, abs_mul]
      exact mul_le_mul_of_nonneg_left (by rw [abs_of_nonneg (by linarith)]; linarith) (abs_nonneg _)
    have h5 : y t = Real.sqrt (y t) * Real.sqrt (y t) := (Real.mul_self_sqrt h2).symm
    have h6 : |Real.sqrt (x t) - Real.sqrt (y t)| * Real.sqrt (y t) ≤ k * S.u t * Real.sqrt (y t) * Real.sqrt (y t) := by
      rw [mul_assoc _ (Real.sqrt (y t)), ← h5]
      exact h4.trans h1
    exact le_of_mul_le_mul_right h6 hsy

theorem Rel.congr (h : S.Rel x y) (hx : ∀ᶠ t in (S.U : Filter ι), x' t = x t) (hy : ∀ᶠ t in (S.U : Filter ι), y' t = y t) :
    S.Rel x' y' := by
  obtain ⟨k, hk⟩ := h
  refine ⟨k, ?_⟩
  filter_upwards [hk, hx, hy] with t h1 h2 h3
  rw [h2, h3]
  exact h1

/-- cases -/
theorem cases (S : Scale ι) (p : ι → Prop) : (∀ᶠ t in (S.U : Filter ι), p t) ∨ ∀ᶠ t in (S.U : Filter ι), ¬ p t := by
  exact (Ultrafilter.em S.U p)

/-! ## Matrices -/

variable {m n l : ℕ}

variable (S) in
def MMod (A : ι → Matrix (Fin m) (Fin n) ℝ) : Prop := ∀ i j, S.Mod fun t => A t i j

variable (S) in
def MSim (A B : ι → Matrix (Fin m) (Fin n) ℝ) : Prop := ∀ i j, S.Sim (fun t => A t i j) fun t => B t i j

variable {A B C A' B' : ι → Matrix (Fin m) (Fin n) ℝ}

theorem MSim.refl (h : S.MMod A) : S.MSim A A := fun i j => Sim.refl (h i j)
theorem MSim.left (h : S.MSim A B) : S.MMod A := fun i j => (h i j).left
theorem MSim.right (h : S.MSim A B) : S.MMod B := fun i j => (h i j).1
theorem MSim.symm (h : S.MSim A B) : S.MSim B A := fun i j => (h i j).symm
theorem MSim.trans (h : S.MSim A B) (h' : S.MSim B C) : S.MSim A C := fun i j => (h i j).trans (h' i j)
theorem MSim.add (h : S.MSim A B) (h' : S.MSim A' B') : S.MSim (fun t => A t + A' t) fun t => B t + B' t :=
  fun i j => (h i j).add (h' i j)
theorem MSim.sub (h : S.MSim A B) (h' : S.MSim A' B') : S.MSim (fun t => A t - A' t) fun t => B t - B' t :=
  fun i j => (h i j).sub (h' i j)
theorem MSim.transpose (h : S.MSim A B) : S.MSim (fun t => (A t)ᵀ) fun t => (B t)ᵀ := fun i j => h j i
theorem MSim.const (M : Matrix (Fin m) (Fin n) ℝ) : S.MSim (fun _ => M) fun _ => M := fun i j => Sim.const (M i j)

theorem MSim.congr (h : S.MSim A B) (hA : ∀ᶠ t in (S.U : Filter ι), A' t = A t) (hB : ∀ᶠ t in (S.U : Filter ι), B' t = B t) :
    S.MSim A' B' := fun i j => (h i j).congr (hA.mono fun t ht => by rw [ht]) (hB.mono fun t ht => by rw [ht])

theorem MSim.mul {X X' : ι → Matrix (Fin m) (Fin l) ℝ} {Y Y' : ι → Matrix (Fin l) (Fin n) ℝ} (h : S.MSim X X') (h' : S.MSim Y Y') :
    S.MSim (fun t => X t * Y t) fun t => X' t * Y' t := fun i j => by
  simp only [Matrix.mul_apply]
  exact Sim.sum _ fun k _ => (h i k).mul (h' k j)

theorem MSim.det {X Y : ι → Mat n} (h : S.MSim X Y) : S.Sim (fun t => (X t).det) fun t => (Y t).det := by
  simp only [Matrix.det_apply, Units.smul_def, zsmul_eq_mul]
  exact Sim.sum _ fun p _ => (Sim.const _).mul (Sim.prod _ fun i _ => h _ _)

/-- the inverse is moderate if that of the determinant is -/
theorem MMod.inv {X : ι → Mat n} (h : S.MMod X) (hd : S.Mod fun t => ((X t).det)⁻¹) : S.MMod fun t => (X t)⁻¹ := fun i j => by
  simp only [Matrix.inv_def, Ring.inverse_eq_inv', Matrix.smul_apply, smul_eq_mul, adjugate_apply]
  refine hd.mul (MSim.det (X := fun t => updateRow (X t) j (Pi.single i 1)) (MSim.refl fun a c => ?_)).1
  by_cases ha : a = j
  · subst ha
    simp only [updateRow_self]
    exact Mod.const _
  · simp only [updateRow_ne ha]
    exact h a c

/-! ## Uniform bounds -/

/-- a statement on all families gives a uniform bound -/
theorem uniform {T : Type} (u b : T → ℝ) (H : T → Prop) (Q : ℕ → T → Prop) (hu : ∀ t, H t → 0 ≤ u t) (hb : ∀ t, H t → 1 ≤ b t)
    (mono : ∀ k l t, H t → k ≤ l → Q k t → Q l t)
    (h : ∀ (f : ℕ → T) (S : Scale ℕ), S.u = u ∘ f → S.b = b ∘ f → (∀ n, H (f n)) → ∃ k, ∀ᶠ n in (S.U : Filter ℕ), Q k (f n)) :
    ∃ k, ∀ t, H t → u t * w k (b t) ≤ 1 → Q k t := by
  by_contra hc
  push Not at hc
  choose f h1 h2 h3 using hc
  have hinf : ∀ k : ℕ, ∀ᶠ n in ((hyperfilter ℕ : Ultrafilter ℕ) : Filter ℕ), k ≤ n := fun k =>
    (Nat.hyperfilter_le_atTop) (eventually_ge_atTop k)
  let S : Scale ℕ :=
    { U := hyperfilter ℕ
      u := u ∘ f
      b := b ∘ f
      u0 := fun n => hu _ (h1 n)
      b1 := fun n => hb _ (h1 n)
      small := fun k => by
        filter_upwards [hinf k] with n hn
        exact (mul_le_mul_of_nonneg_left (w_mono hn (hb _ (h1 n))) (hu _ (h1 n))).trans (h2 n) }
  obtain ⟨k, hk⟩ := h f S rfl rfl h1
  obtain ⟨n, hn1, hn2⟩ := (hk.and (hinf k)).exists
  exact h3 n (mono k n _ (h1 n) hn2 hn1)

end Scale

end Verif
