import Mathlib.Algebra.Polynomial.Eval.Degree
import Mathlib.Algebra.Polynomial.Inductions
import Mathlib.Algebra.Polynomial.Eval.Coeff
import Mathlib.Data.ZMod.Basic
import Mathlib.Data.Nat.Bitwise
import Mathlib.Tactic.IntervalCases

/-!
# Polynomials over the field with two elements as natural numbers

A polynomial is stored with one coefficient in every twelfth bit, so that the product of two
polynomials with up to 4095 coefficients is an ordinary product followed by a mask.
-/

set_option autoImplicit false

namespace Verif.SlotPoly

open Polynomial

/-- distance between coefficients, as a power of two -/
def base : ℕ := 2 ^ 12

/-- the lowest bit of each of `d` slots -/
def mask : ℕ → ℕ
  | 0 => 0
  | d + 1 => 1 + base * mask d

/-- `a` stores a polynomial of degree less than `d` whose coefficients modulo two are those of `F` -/
def Rep (a : ℕ) (F : (ZMod 2)[X]) (d : ℕ) : Prop :=
  ∃ f : ℕ[X], (∀ i, f.coeff i ≤ 1) ∧ (∀ i, d ≤ i → f.coeff i = 0) ∧ f.eval base = a ∧
    f.map (Nat.castRingHom (ZMod 2)) = F

theorem land_step {c c' m k : ℕ} (hc : c < base) (hc' : c' < base) :
    (c + base * m) &&& (c' + base * k) = (c &&& c') + base * (m &&& k) := by
  have h1 : c &&& c' < 2 ^ 12 := lt_of_le_of_lt Nat.and_le_left hc
  apply Nat.eq_of_testBit_eq
  intro i
  rw [Nat.testBit_and, Nat.add_comm c, Nat.add_comm c', Nat.add_comm (c &&& c')]
  unfold base
  rw [Nat.testBit_two_pow_mul_add _ hc, Nat.testBit_two_pow_mul_add _ hc',
    Nat.testBit_two_pow_mul_add _ h1]
  split <;> simp

theorem xor_step {c c' m k : ℕ} (hc : c < base) (hc' : c' < base) :
    (c + base * m) ^^^ (c' + base * k) = (c ^^^ c') + base * (m ^^^ k) := by
  have h1 : c ^^^ c' < 2 ^ 12 := Nat.xor_lt_two_pow hc hc'
  apply Nat.eq_of_testBit_eq
  intro i
  rw [Nat.testBit_xor, Nat.add_comm c, Nat.add_comm c', Nat.add_comm (c ^^^ c')]
  unfold base
  rw [Nat.testBit_two_pow_mul_add _ hc, Nat.testBit_two_pow_mul_add _ hc',
    Nat.testBit_two_pow_mul_add _ h1]
  split <;> simp

theorem eval_split (f : ℕ[X]) : f.eval base = f.coeff 0 + base * (divX f).eval base := by
  conv_lhs => rw [← divX_mul_X_add f]
  simp only [eval_add, eval_mul, eval_X, eval_C]
  ring

theorem base_gt : 1 < base := by decide

/-- masking reduces the coefficients modulo two -/
theorem eval_mask (d : ℕ) : ∀ f : ℕ[X], (∀ i, f.coeff i < base) → (∀ i, d ≤ i → f.coeff i = 0) →
    ∃ g : ℕ[X], (∀ i, g.coeff i = f.coeff i % 2) ∧ g.eval base = f.eval base &&& mask d := by
  induction d with
  | zero =>
    intro f _ h
    refine ⟨0, fun i => ?_, ?_⟩
    · rw [h i (Nat.zero_le _), coeff_zero, Nat.zero_mod]
    · rw [mask, Nat.and_zero, eval_zero]
  | succ d ih =>
    intro f h1 h2
    obtain ⟨g, g1, g2⟩ := ih (divX f) (fun i => by rw [coeff_divX]; exact h1 _)
      (fun i hi => by rw [coeff_divX]; exact h2 _ (by omega))
    refine ⟨g * X + C (f.coeff 0 % 2), fun i => ?_, ?_⟩
    · cases i with
      | zero => simp
      | succ i => rw [coeff_add, coeff_mul_X, coeff_C_succ, g1, coeff_divX, add_zero]
    · rw [eval_split f, mask, land_step (h1 0) base_gt, ← g2, Nat.and_one_is_mod]
      simp only [eval_add, eval_mul, eval_X, eval_C]
      ring

theorem Rep.mask_of {a d : ℕ} {f : ℕ[X]} {F : (ZMod 2)[X]} (h1 : ∀ i, f.coeff i < base)
    (h2 : ∀ i, d ≤ i → f.coeff i = 0) (h3 : f.eval base = a)
    (h4 : f.map (Nat.castRingHom (ZMod 2)) = F) : Rep (a &&& mask d) F d := by
  obtain ⟨g, g1, g2⟩ := eval_mask d f h1 h2
  refine ⟨g, fun i => ?_, fun i hi => ?_, ?_, ?_⟩
  · rw [g1]; omega
  · rw [g1, h2 i hi]
  · rw [g2, h3]
  · rw [← h4]
    ext i
    rw [coeff_map, coeff_map, g1, Nat.coe_castRingHom, ZMod.natCast_mod]

/-- product of polynomials -/
theorem Rep.mul {a b d e : ℕ} {F G : (ZMod 2)[X]} (ha : Rep a F d) (hb : Rep b G e)
    (hd : d < base) : Rep ((a * b) &&& mask (d + e)) (F * G) (d + e) := by
  obtain ⟨f, f1, f2, f3, f4⟩ := ha
  obtain ⟨g, g1, g2, g3, g4⟩ := hb
  refine Rep.mask_of (f := f * g) ?_ ?_ (by rw [eval_mul, f3, g3]) (by rw [Polynomial.map_mul, f4, g4])
  · intro i
    rw [coeff_mul, Finset.Nat.sum_antidiagonal_eq_sum_range_succ_mk]
    calc ∑ k ∈ Finset.range i.succ, f.coeff k * g.coeff (i - k)
        ≤ ∑ k ∈ Finset.range i.succ, if k < d then 1 else 0 := by
          refine Finset.sum_le_sum fun k _ => ?_
          split
          · exact Nat.mul_le_mul (f1 _) (g1 _)
          · rw [f2 k (by omega), zero_mul]
      _ ≤ ∑ k ∈ Finset.range d, 1 := by
          rw [← Finset.sum_filter]
          refine Finset.sum_le_sum_of_subset fun k hk => ?_
          rw [Finset.mem_filter] at hk
          exact Finset.mem_range.2 hk.2
      _ < base := by simpa using hd
  · intro i hi
    rw [coeff_mul]
    refine Finset.sum_eq_zero fun x hx => ?_
    rw [Finset.mem_antidiagonal] at hx
    by_cases h : d ≤ x.1
    · rw [f2 _ h, zero_mul]
    · rw [g2 x.2 (by omega), mul_zero]

theorem xor_eval (d : ℕ) : ∀ f g : ℕ[X], (∀ i, f.coeff i ≤ 1) → (∀ i, g.coeff i ≤ 1) →
    (∀ i, d ≤ i → f.coeff i = 0) → (∀ i, d ≤ i → g.coeff i = 0) →
    ∃ h : ℕ[X], (∀ i, h.coeff i = (f.coeff i + g.coeff i) % 2) ∧
      h.eval base = f.eval base ^^^ g.eval base := by
  induction d with
  | zero =>
    intro f g _ _ h1 h2
    have e1 : f = 0 := by ext i; rw [h1 i (Nat.zero_le _), coeff_zero]
    have e2 : g = 0 := by ext i; rw [h2 i (Nat.zero_le _), coeff_zero]
    refine ⟨0, fun i => ?_, ?_⟩
    · rw [e1, e2]; simp
    · rw [e1, e2]; simp
  | succ d ih =>
    intro f g f1 g1 f2 g2
    obtain ⟨h, h1, h2⟩ := ih (divX f) (divX g) (fun i => by rw [coeff_divX]; exact f1 _)
      (fun i => by rw [coeff_divX]; exact g1 _)
      (fun i hi => by rw [coeff_divX]; exact f2 _ (by omega))
      (fun i hi => by rw [coeff_divX]; exact g2 _ (by omega))
    refine ⟨h * X + C ((f.coeff 0 + g.coeff 0) % 2), fun i => ?_, ?_⟩
    · cases i with
      | zero => simp
      | succ i => rw [coeff_add, coeff_mul_X, coeff_C_succ, h1, coeff_divX, coeff_divX, add_zero]
    · rw [eval_split f, eval_split g, xor_step (lt_of_le_of_lt (f1 0) base_gt)
        (lt_of_le_of_lt (g1 0) base_gt), ← h2]
      simp only [eval_add, eval_mul, eval_X, eval_C]
      have : (f.coeff 0 + g.coeff 0) % 2 = f.coeff 0 ^^^ g.coeff 0 := by
        have a := f1 0
        have b := g1 0
        interval_cases f.coeff 0 <;> interval_cases g.coeff 0 <;> rfl
      rw [← this]
      ring

/-- sum of polynomials -/
theorem Rep.add {a b d : ℕ} {F G : (ZMod 2)[X]} (ha : Rep a F d) (hb : Rep b G d) :
    Rep (a ^^^ b) (F + G) d := by
  obtain ⟨f, f1, f2, f3, f4⟩ := ha
  obtain ⟨g, g1, g2, g3, g4⟩ := hb
  obtain ⟨h, h1, h2⟩ := xor_eval d f g f1 g1 f2 g2
  refine ⟨h, fun i => ?_, fun i hi => ?_, by rw [h2, f3, g3], ?_⟩
  · rw [h1]; omega
  · rw [h1, f2 i hi, g2 i hi]
  · rw [← f4, ← g4]
    ext i
    rw [coeff_add, coeff_map, coeff_map, coeff_map, h1, Nat.coe_castRingHom, ZMod.natCast_mod,
      Nat.cast_add]

/-- more room -/
theorem Rep.mono {a d e : ℕ} {F : (ZMod 2)[X]} (h : Rep a F d) (hde : d ≤ e) : Rep a F e := by
  obtain ⟨f, f1, f2, f3, f4⟩ := h
  exact ⟨f, f1, fun i hi => f2 i (by omega), f3, f4⟩

/-- less room, if the number is small -/
theorem Rep.small {a d : ℕ} {F : (ZMod 2)[X]} (h : Rep a F d) (e : ℕ) (ha : a < base ^ e) :
    Rep a F e := by
  obtain ⟨f, f1, f2, f3, f4⟩ := h
  refine ⟨f, f1, fun i hi => ?_, f3, f4⟩
  by_contra hne
  have : base ^ i ≤ f.eval base := by
    rw [eval_eq_sum, Polynomial.sum_def]
    calc base ^ i ≤ f.coeff i * base ^ i := Nat.le_mul_of_pos_left _ (Nat.pos_of_ne_zero hne)
      _ ≤ _ := Finset.single_le_sum (f := fun n => f.coeff n * base ^ n) (fun _ _ => Nat.zero_le _)
          (mem_support_iff.2 hne)
  have h2 : base ^ e ≤ base ^ i := Nat.pow_le_pow_right (by decide) hi
  omega

/-- everything below the mask stores some polynomial -/
theorem Rep.any (d : ℕ) : ∀ a : ℕ, ∃ F, Rep (a &&& mask d) F d := by
  induction d with
  | zero => exact fun a => ⟨0, 0, by simp, by simp, by simp [mask], by simp⟩
  | succ d ih =>
    intro a
    obtain ⟨F, f, f1, f2, f3, -⟩ := ih (a / base)
    refine ⟨_, f * X + C (a % base &&& 1), fun i => ?_, fun i hi => ?_, ?_, rfl⟩
    · cases i with
      | zero =>
        simp only [coeff_add, mul_coeff_zero, coeff_X_zero, mul_zero, coeff_C_zero, zero_add]
        exact Nat.and_le_right
      | succ i => rw [coeff_add, coeff_mul_X, coeff_C_succ, add_zero]; exact f1 i
    · cases i with
      | zero => omega
      | succ i => rw [coeff_add, coeff_mul_X, coeff_C_succ, add_zero]; exact f2 i (by omega)
    · simp only [eval_add, eval_mul, eval_X, eval_C]
      rw [f3, mask]
      conv_rhs => rw [← Nat.mod_add_div a base]
      rw [land_step (Nat.mod_lt _ (by decide)) base_gt]
      ring

theorem Rep.zero (d : ℕ) : Rep 0 0 d := ⟨0, by simp, by simp, by simp, by simp⟩

theorem Rep.one {d : ℕ} (hd : 0 < d) : Rep 1 1 d := by
  refine ⟨1, fun i => ?_, fun i hi => ?_, by simp, by simp⟩
  · rw [coeff_one]; split <;> omega
  · rw [coeff_one, if_neg (by omega)]

theorem Rep.var {d : ℕ} (hd : 1 < d) : Rep base X d := by
  refine ⟨X, fun i => ?_, fun i hi => ?_, by simp, by simp⟩
  · rw [coeff_X]; split <;> omega
  · rw [coeff_X, if_neg (by omega)]

end Verif.SlotPoly
