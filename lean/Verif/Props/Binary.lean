import Verif.Model.Binary
import Verif.Props.JacobiRun

/-!
# Property C126: the program with binary floating point numbers

`fl_nearest` and `fl_tie` characterise the rounding of IEEE 754.  `program_binary_run`: without phonons, a number of bits proportional
to the logarithm of the number of sweeps is sufficient.  `program_binary_converges_ph`: with phonons, for every length of the run there is
a sufficient number of bits.
-/

set_option autoImplicit false

namespace Verif.Binary

open Matrix Verif.Lapack Verif.Rounded Verif.Reference

/-! ## Specification -/

/-- `m 2^e` with a significand of at most `t` bits -/
def Representable (t : ℕ) (y : ℝ) : Prop := ∃ m e : ℤ, |m| < 2 ^ t ∧ y = m * (2 : ℝ) ^ e

/-- `z` is the number with a significand of `t` bits nearest to `x`; in the case of a tie, its normalised significand is even -/
structure Nearest (t : ℕ) (x z : ℝ) : Prop where
  representable : Representable t z
  le : ∀ y, Representable t y → |z - x| ≤ |y - x|
  tie : ∀ y, Representable t y → y ≠ z → |y - x| = |z - x| → ∃ m e : ℤ, |m| ≤ 2 ^ t ∧ Even m ∧ 2 ^ t ≤ 2 * |m| ∧ z = m * (2 : ℝ) ^ e

/-! ## Rounding to integers -/

theorem roundEven_le (x : ℝ) (n : ℤ) : |(roundEven x : ℝ) - x| ≤ |(n : ℝ) - x| := by
  have h1 := Int.floor_le x
  have h2 := Int.lt_floor_add_one x
  have h3 : (n : ℝ) ≤ ⌊x⌋ ∨ (⌊x⌋ : ℝ) + 1 ≤ n := by
    rcases le_or_gt n ⌊x⌋ with h | h
    · exact Or.inl (by exact_mod_cast h)
    · exact Or.inr (by exact_mod_cast h)
  unfold roundEven
  split_ifs <;> push_cast <;> rcases h3 with h3 | h3 <;> first
    | (rw [abs_of_nonpos (by linarith), abs_of_nonpos (by linarith)]; linarith)
    | (rw [abs_of_nonpos (by linarith), abs_of_nonneg (by linarith)]; linarith)
    | (rw [abs_of_nonneg (by linarith), abs_of_nonpos (by linarith)]; linarith)
    | (rw [abs_of_nonneg (by linarith), abs_of_nonneg (by linarith)]; linarith)

theorem roundEven_half (x : ℝ) : |(roundEven x : ℝ) - x| ≤ 1 / 2 := by
  have h1 := Int.floor_le x
  have h2 := Int.lt_floor_add_one x
  unfold roundEven
  split_ifs <;> push_cast <;> rw [abs_le] <;> constructor <;> linarith

/-- ties -/
theorem roundEven_tie (x : ℝ) {n : ℤ} (hn : n ≠ roundEven x) (h : |(n : ℝ) - x| = |(roundEven x : ℝ) - x|) : Even (roundEven x) := by
  have h1 := Int.floor_le x
  have h2 := Int.lt_floor_add_one x
  have h3 : n < ⌊x⌋ ∨ n = ⌊x⌋ ∨ n = ⌊x⌋ + 1 ∨ ⌊x⌋ + 1 < n := by omega
  have hle := h.le.trans (roundEven_half x)
  obtain ⟨h4, h5⟩ := abs_le.1 hle
  have h6 : x - ⌊x⌋ = 1 / 2 := by
    rcases h3 with h3 | h3 | h3 | h3
    · have : (n : ℝ) + 1 ≤ ⌊x⌋ := by exact_mod_cast h3
      linarith
    · subst h3
      by_contra hne
      rcases lt_or_gt_of_ne hne with hlt | hlt
      · exact hn (by rw [roundEven, if_pos hlt])
      · linarith
    · subst h3
      push_cast at h4 h5
      by_contra hne
      rcases lt_or_gt_of_ne hne with hlt | hlt
      · linarith
      · exact hn (by rw [roundEven, if_neg (by linarith), if_pos hlt])
    · have : (⌊x⌋ : ℝ) + 1 + 1 ≤ n := by exact_mod_cast h3
      linarith
  rw [roundEven, h6, if_neg (lt_irrefl _), if_neg (lt_irrefl _)]
  split
  · exact Int.even_iff.2 ‹_›
  · rw [Int.even_iff]
    omega

/-! ## Rounding to `t` bits -/

variable {t : ℕ} {x y : ℝ}

theorem ulp_pos (t : ℕ) (x : ℝ) : 0 < ulp t x := zpow_pos (by norm_num) _

theorem fl_zero (t : ℕ) : fl t 0 = 0 := by
  simp [fl, roundEven]

theorem mul_dist (t : ℕ) (x r : ℝ) : |r * ulp t x - x| = |r - x / ulp t x| * ulp t x := by
  have h := ulp_pos t x
  have e : r * ulp t x - x = (r - x / ulp t x) * ulp t x := by
    rw [sub_mul, div_mul_cancel₀ x h.ne']
  rw [e, abs_mul, abs_of_pos h]

theorem fl_sub (t : ℕ) (x : ℝ) : |fl t x - x| = |(roundEven (x / ulp t x) : ℝ) - x / ulp t x| * ulp t x :=
  mul_dist t x _

theorem two_pow_log (hx : x ≠ 0) : (2 : ℝ) ^ Int.log 2 |x| ≤ |x| ∧ |x| < (2 : ℝ) ^ (Int.log 2 |x| + 1) := by
  have h1 := Int.zpow_log_le_self (b := 2) (r := |x|) (by norm_num) (abs_pos.2 hx)
  have h2 := Int.lt_zpow_succ_log_self (b := 2) (by norm_num) |x|
  exact ⟨by exact_mod_cast h1, by exact_mod_cast h2⟩

/-- relative error of the rounding -/
theorem fl_relative (t : ℕ) (x : ℝ) : |fl t x - x| ≤ ((2 : ℝ) ^ t)⁻¹ * |x| := by
  by_cases hx : x = 0
  · subst hx
    rw [fl_zero]
    simp
  · rw [fl_sub]
    have h1 := mul_le_mul_of_nonneg_right (roundEven_half (x / ulp t x)) (ulp_pos t x).le
    refine h1.trans ?_
    have h2 : 1 / 2 * ulp t x = ((2 : ℝ) ^ t)⁻¹ * (2 : ℝ) ^ Int.log 2 |x| := by
      rw [ulp, zpow_sub₀ (by norm_num), zpow_add₀ (by norm_num), zpow_one, zpow_natCast]
      field_simp
    rw [h2]
    exact mul_le_mul_of_nonneg_left (two_pow_log hx).1 (by positivity)

theorem abs_div_ulp (hx : x ≠ 0) : |x / ulp t x| < 2 ^ t := by
  rw [abs_div, abs_of_pos (ulp_pos t x), div_lt_iff₀ (ulp_pos t x)]
  have h : (2 : ℝ) ^ t * ulp t x = (2 : ℝ) ^ (Int.log 2 |x| + 1) := by
    rw [ulp, ← zpow_natCast, ← zpow_add₀ (by norm_num)]
    congr 1
    ring
  rw [h]
  exact (two_pow_log hx).2

/-- rounded numbers have significands of `t` bits -/
theorem fl_representable (ht : 1 ≤ t) (x : ℝ) : Representable t (fl t x) := by
  by_cases hx : x = 0
  · exact ⟨0, 0, by simp, by rw [hx, fl_zero]; simp⟩
  · have h1 := abs_div_ulp (t := t) hx
    have h2 : |(roundEven (x / ulp t x) : ℝ)| ≤ 2 ^ t := by
      -- `± 2^t` is not farther than the next integer
      rcases abs_le.1 (roundEven_half (x / ulp t x)) with ⟨h3, h4⟩
      rcases abs_lt.1 h1 with ⟨h5, h6⟩
      have h7 : roundEven (x / ulp t x) < 2 ^ t + 1 := by
        have : (roundEven (x / ulp t x) : ℝ) < ((2 ^ t + 1 : ℤ) : ℝ) := by
          push_cast
          linarith
        exact_mod_cast this
      have h8 : -(2 ^ t + 1) < roundEven (x / ulp t x) := by
        have : ((-(2 ^ t + 1) : ℤ) : ℝ) < (roundEven (x / ulp t x) : ℝ) := by
          push_cast
          linarith
        exact_mod_cast this
      have h9 : |roundEven (x / ulp t x)| ≤ 2 ^ t := abs_le.2 ⟨by omega, by omega⟩
      exact_mod_cast h9
    have h3 : |roundEven (x / ulp t x)| ≤ 2 ^ t := by exact_mod_cast h2
    rcases lt_or_eq_of_le h3 with h | h
    · exact ⟨_, _, h, rfl⟩
    · -- the significand `2^t` is carried over to the exponent
      obtain ⟨s, rfl⟩ : ∃ s, t = s + 1 := ⟨t - 1, by omega⟩
      have hp : (2 : ℤ) ^ s < 2 ^ (s + 1) := by
        rw [pow_succ]
        have : (0 : ℤ) < 2 ^ s := by positivity
        omega
      rcases abs_eq (by positivity : (0 : ℤ) ≤ 2 ^ (s + 1)) |>.1 h with h | h
      · refine ⟨2 ^ s, Int.log 2 |x| + 1 - (s + 1 : ℕ) + 1, ?_, ?_⟩
        · rwa [abs_of_pos (by positivity)]
        · rw [fl, h, zpow_add₀ (by norm_num) _ 1, ulp]
          push_cast
          ring
      · refine ⟨-2 ^ s, Int.log 2 |x| + 1 - (s + 1 : ℕ) + 1, ?_, ?_⟩
        · rwa [abs_neg, abs_of_pos (by positivity)]
        · rw [fl, h, zpow_add₀ (by norm_num) _ 1, ulp]
          push_cast
          ring

theorem fl_le_mul (n : ℤ) : |fl t x - x| ≤ |n * ulp t x - x| := by
  have h := ulp_pos t x
  rw [fl_sub, mul_dist]
  exact mul_le_mul_of_nonneg_right (roundEven_le _ n) h.le

/-- a number with a significand of `t` bits is a multiple of the distance, or not larger than the power of two below `x` -/
theorem representable_cases (hy : Representable t y) : (∃ n : ℤ, y = n * ulp t x) ∨ |y| < (2 : ℝ) ^ Int.log 2 |x| := by
  obtain ⟨m, e, hm, rfl⟩ := hy
  rcases le_or_gt (Int.log 2 |x| + 1 - t) e with h | h
  · left
    obtain ⟨k, hk⟩ := Int.eq_ofNat_of_zero_le (sub_nonneg.2 h)
    refine ⟨m * 2 ^ k, ?_⟩
    rw [ulp, show e = (k : ℤ) + (Int.log 2 |x| + 1 - t) by omega, zpow_add₀ (by norm_num), zpow_natCast]
    push_cast
    ring
  · right
    have h1 : |(m : ℝ)| < 2 ^ t := by
      have : ((|m| : ℤ) : ℝ) < ((2 ^ t : ℤ) : ℝ) := by exact_mod_cast hm
      push_cast at this
      exact this
    rw [abs_mul, abs_of_pos (zpow_pos (by norm_num : (0 : ℝ) < 2) e)]
    calc |(m : ℝ)| * (2 : ℝ) ^ e < 2 ^ t * (2 : ℝ) ^ e := mul_lt_mul_of_pos_right h1 (zpow_pos (by norm_num) e)
      _ = (2 : ℝ) ^ (t + e : ℤ) := by rw [zpow_add₀ (by norm_num), zpow_natCast]
      _ ≤ (2 : ℝ) ^ Int.log 2 |x| := zpow_le_zpow_right₀ (by norm_num) (by omega)

/-- the power of two below `x`, with its sign -/
theorem power_below (ht : 1 ≤ t) (hx : x ≠ 0) : ∃ n : ℤ, |n * ulp t x - x| = |x| - (2 : ℝ) ^ Int.log 2 |x| := by
  obtain ⟨s, rfl⟩ : ∃ s, t = s + 1 := ⟨t - 1, by omega⟩
  have e : (2 : ℝ) ^ s * ulp (s + 1) x = (2 : ℝ) ^ Int.log 2 |x| := by
    rw [ulp, ← zpow_natCast, ← zpow_add₀ (by norm_num)]
    congr 1
    push_cast
    ring
  have h := (two_pow_log hx).1
  rcases lt_or_gt_of_ne hx with h0 | h0
  · refine ⟨-2 ^ s, ?_⟩
    push_cast
    rw [neg_mul, e]
    rw [abs_of_neg h0] at h ⊢
    rw [abs_of_nonneg (by linarith)]
    ring
  · refine ⟨2 ^ s, ?_⟩
    push_cast
    rw [e]
    rw [abs_of_pos h0] at h ⊢
    rw [abs_of_nonpos (by linarith)]
    ring

/-- no number with a significand of `t` bits is closer -/
theorem fl_nearest (ht : 1 ≤ t) (hy : Representable t y) : |fl t x - x| ≤ |y - x| := by
  by_cases hx : x = 0
  · rw [hx, fl_zero]
    simp
  · rcases representable_cases (x := x) hy with ⟨n, rfl⟩ | h
    · exact fl_le_mul n
    · obtain ⟨n, hn⟩ := power_below ht hx
      refine (fl_le_mul n).trans (hn.le.trans ?_)
      have := abs_sub_abs_le_abs_sub x y
      rw [abs_sub_comm y x]
      linarith

/-- if two numbers are equally close, then the significand of the rounded number is even -/
theorem fl_tie (ht : 1 ≤ t) (hy : Representable t y) (hne : y ≠ fl t x) (h : |y - x| = |fl t x - x|) :
    ∃ m e : ℤ, |m| ≤ 2 ^ t ∧ Even m ∧ 2 ^ t ≤ 2 * |m| ∧ fl t x = m * (2 : ℝ) ^ e := by
  have hx : x ≠ 0 := fun h0 => by
    subst h0
    rw [fl_zero, sub_zero, sub_zero, abs_zero, abs_eq_zero] at h
    exact hne (by rw [h, fl_zero])
  have hu := ulp_pos t x
  rcases representable_cases (x := x) hy with ⟨n, rfl⟩ | hlt
  · have h1 : Even (roundEven (x / ulp t x)) := by
      refine roundEven_tie _ (n := n) (fun e => hne (by rw [fl, ← e])) ?_
      rw [mul_dist, fl_sub] at h
      exact mul_right_cancel₀ hu.ne' h
    obtain ⟨s, rfl⟩ : ∃ s, t = s + 1 := ⟨t - 1, by omega⟩
    have e : (2 : ℝ) ^ s * ulp (s + 1) x = (2 : ℝ) ^ Int.log 2 |x| := by
      rw [ulp, ← zpow_natCast, ← zpow_add₀ (by norm_num)]
      congr 1
      push_cast
      ring
    have h2 : (2 : ℝ) ^ s ≤ |x / ulp (s + 1) x| := by
      rw [abs_div, abs_of_pos hu, le_div_iff₀ hu, e]
      exact (two_pow_log hx).1
    have h3 := abs_div_ulp (t := s + 1) hx
    obtain ⟨h4, h5⟩ := abs_le.1 (roundEven_half (x / ulp (s + 1) x))
    set r := roundEven (x / ulp (s + 1) x) with hr
    have h6 : |(r : ℝ)| < 2 ^ (s + 1) + 1 := by
      have := abs_sub_abs_le_abs_sub (r : ℝ) (x / ulp (s + 1) x)
      have := roundEven_half (x / ulp (s + 1) x)
      rw [← hr] at this
      linarith
    have h7 : (2 : ℝ) ^ s - 1 < |(r : ℝ)| := by
      have := abs_sub_abs_le_abs_sub (x / ulp (s + 1) x) (r : ℝ)
      have h8 := roundEven_half (x / ulp (s + 1) x)
      rw [← hr, abs_sub_comm] at h8
      linarith
    have h6' : |r| < 2 ^ (s + 1) + 1 := by exact_mod_cast h6
    have h7' : (2 : ℤ) ^ s - 1 < |r| := by exact_mod_cast h7
    refine ⟨r, _, by omega, h1, ?_, rfl⟩
    rw [pow_succ]
    omega
  · exfalso
    obtain ⟨n, hn⟩ := power_below ht hx
    have h1 := fl_le_mul (t := t) (x := x) n
    have h2 := abs_sub_abs_le_abs_sub x y
    rw [abs_sub_comm x y] at h2
    linarith

/-- numbers with significands of `t` bits are not changed -/
theorem fl_exact (ht : 1 ≤ t) (hy : Representable t y) : fl t y = y := by
  have := fl_nearest ht hy (x := y)
  rw [sub_self, abs_zero] at this
  exact sub_eq_zero.1 (abs_nonpos_iff.1 this)

/-- non-vacuity: with 53 bits, one third is rounded, and one half is not -/
example : fl 53 (1 / 2) = 1 / 2 ∧ fl 53 (1 / 3) ≠ 1 / 3 := by
  refine ⟨fl_exact (by norm_num) ⟨1, -1, by norm_num, by norm_num⟩, fun h => ?_⟩
  obtain ⟨m, e, -, he⟩ := fl_representable (t := 53) (by norm_num) (1 / 3)
  rw [h] at he
  obtain ⟨k, hk⟩ : ∃ k : ℕ, 0 ≤ e + k := ⟨e.natAbs, by omega⟩
  obtain ⟨l, hl⟩ := Int.eq_ofNat_of_zero_le hk
  have h1 : (2 : ℝ) ^ e * 2 ^ k = 2 ^ l := by
    rw [← zpow_natCast, ← zpow_natCast, ← zpow_add₀ (by norm_num), hl]
  have h2 : (2 : ℝ) ^ k = 3 * m * 2 ^ l := by
    rw [← h1]
    linear_combination (3 * 2 ^ k : ℝ) * he
  have h3 : (2 : ℤ) ^ k = 3 * m * 2 ^ l := by exact_mod_cast h2
  have h4 : (3 : ℤ) ∣ 2 ^ k := ⟨m * 2 ^ l, by rw [h3]; ring⟩
  have h5 := (Nat.prime_three.dvd_of_dvd_pow (by exact_mod_cast h4 : 3 ∣ 2 ^ k))
  omega

/-! ## The operations -/

theorem nearest (ht : 1 ≤ t) (x : ℝ) : Nearest t x (fl t x) :=
  ⟨fl_representable ht x, fun _ hy => fl_nearest ht hy, fun _ hy hne h => fl_tie ht hy hne h⟩

/-- all results are rounded to the nearest number -/
theorem scalars_nearest (ht : 1 ≤ t) (x y : ℝ) : Nearest t (x + y) ((scalars t).add x y) ∧ Nearest t (x - y) ((scalars t).sub x y) ∧
    Nearest t (x * y) ((scalars t).mul x y) ∧ Nearest t (x / y) ((scalars t).div x y) ∧
    Nearest t (Real.sqrt x) ((scalars t).sqrt x) ∧ Nearest t (Real.log x) ((scalars t).log x) ∧
    Nearest t (Real.exp x) ((scalars t).exp x) ∧ Nearest t (Real.exp x - 1) ((scalars t).expm1 x) :=
  ⟨nearest ht _, nearest ht _, nearest ht _, nearest ht _, nearest ht _, nearest ht _, nearest ht _, nearest ht _⟩

theorem scalars_relative (t : ℕ) : (scalars t).Relative ((2 : ℝ) ^ t)⁻¹ where
  ops := ⟨fun _ _ => fl_relative t _, fun _ _ => fl_relative t _, fun _ _ => fl_relative t _, fun _ _ => fl_relative t _, fun x => by
    have := fl_relative t (Real.sqrt x)
    rwa [abs_of_nonneg (Real.sqrt_nonneg x)] at this⟩
  exp := fun x => fl_relative t _
  expm1 := fun x => fl_relative t _

/-- the number of rotations is sufficient -/
theorem rotations {N : ℕ} (hN : 0 < N) (t : ℕ) : (1 - 1 / (N : ℝ) ^ 2) ^ (N ^ 2 * t) ≤ ((2 : ℝ) ^ t)⁻¹ := by
  have hN' : (0 : ℝ) < N := by exact_mod_cast hN
  have h1 : (1 - 1 / (N : ℝ) ^ 2) ≤ Real.exp (-(1 / (N : ℝ) ^ 2)) := by
    have := Real.add_one_le_exp (-(1 / (N : ℝ) ^ 2))
    linarith
  have h2 : (1 - 1 / (N : ℝ) ^ 2) ^ (N ^ 2) ≤ 1 / 2 := by
    refine (pow_le_pow_left₀ (shrink_nonneg N) h1 _).trans ?_
    rw [← Real.exp_nat_mul]
    have e : ((N ^ 2 : ℕ) : ℝ) * -(1 / (N : ℝ) ^ 2) = -1 := by
      push_cast
      field_simp
    rw [e, Real.exp_neg, one_div]
    refine inv_anti₀ (by norm_num) ?_
    have := Real.add_one_le_exp (1 : ℝ)
    linarith
  rw [pow_mul]
  refine (pow_le_pow_left₀ (pow_nonneg (shrink_nonneg N) _) h2 t).trans ?_
  rw [one_div, inv_pow]

/-- the number of rotations is small compared to the accuracy -/
theorem bits (N t : ℕ) : ((N ^ 2 * t : ℕ) + 1 : ℝ) * ((2 : ℝ) ^ t)⁻¹ ≤ 2 * (N ^ 2 + 1) * ((2 : ℝ) ^ (t / 2))⁻¹ := by
  have h1 : t + 1 ≤ 2 * 2 ^ (t / 2) := by
    have := Nat.lt_two_pow_self (n := t / 2)
    omega
  have h1' : (t : ℝ) + 1 ≤ 2 * 2 ^ (t / 2) := by exact_mod_cast h1
  have h2 : (2 : ℝ) ^ (t / 2) * 2 ^ (t / 2) ≤ 2 ^ t := by
    rw [← pow_add]
    exact pow_le_pow_right₀ (by norm_num) (by omega)
  have h3 : ((N ^ 2 * t : ℕ) + 1 : ℝ) ≤ (N ^ 2 + 1) * (t + 1) := by
    push_cast
    nlinarith [sq_nonneg (N : ℝ), Nat.cast_nonneg (α := ℝ) t]
  have h4 : ((N ^ 2 * t : ℕ) + 1 : ℝ) ≤ 2 * (N ^ 2 + 1) * 2 ^ (t / 2) := by
    have := mul_le_mul_of_nonneg_left h1' (show (0 : ℝ) ≤ N ^ 2 + 1 by positivity)
    linarith
  rw [mul_inv_le_iff₀ (by positivity)]
  have h5 : (2 : ℝ) ^ (t / 2) ≤ ((2 : ℝ) ^ (t / 2))⁻¹ * 2 ^ t := by
    rw [inv_mul_eq_div, le_div_iff₀ (by positivity)]
    exact h2
  refine h4.trans ?_
  have := mul_le_mul_of_nonneg_left h5 (show (0 : ℝ) ≤ 2 * (N ^ 2 + 1) by positivity)
  linarith

/-! ## Runs without phonons -/

section run

open MeasureTheory Filter Verif.MonteCarlo Verif.Greens Verif.Measurement Verif.Main Verif.Progress Verif.Random Verif.Params Verif.Rough
open Verif.Fock Verif.Stratonovich

/-- The program with binary numbers of `t` bits: `n` sweeps with measurements, where `t` is at least of the order of the number `a` of
bits of the number of all sweeps. -/
def AccurateBinaryRun {p : SimParams ℝ} [NeZero (sites p)] {σ M : Type} [MeasurableSpace σ] (P : Measure σ) (sys : Sys σ (sites p) M)
    (cfg : Cfg) (ms : Arith (sites p) → BlockArith → Meas (sites p) M) (φ ψ : M → ℝ) (T : ℝ) : Prop :=
  ∀ ε : ℝ, 0 < ε → ∃ (C : ℝ) (D : ℕ), 0 < C ∧
    ∀ (a t n : ℕ) (piv : Mat (sites p) → Equiv.Perm (Fin (sites p))), 0 < n → cfg.nequil.toNat + n ≤ 2 ^ a → D * (a + 1) ≤ t →
      let ar := (platform (sites p) t piv).toArith
      ∃ tab, tables p (platform (sites p) t piv) = some tab ∧
        ∀ (s : ℕ → Fin (sites p) → Fin 2) (meas : M), φ meas = 0 → ψ meas = 0 → ∃ v, start ar sys cfg tab s meas = some v ∧
          ∀ pr : Prog, P.real {r | ¬ ∃ R, simLoop (roughBody (numerics ar sys cfg tab (ms ar (refBlocks (scalars t).toFlOps))) sys.rng cfg.L)
              (fun _ => false) (cfg.nequil.toNat + n) 0 ⟨r, s, v⟩ pr = some R ∧
            |φ R.state.num.meas / ψ R.state.num.meas - T| < ε} ≤ C / n

variable {σ : Type} [MeasurableSpace σ] {P : Measure σ} {mc : Machine} {p : SimParams ℝ}

theorem accurateBinaryRun_of_scalar [NeZero (sites p)] {M : Type} {sys : Sys σ (sites p) M} {cfg : Cfg}
    {ms : Arith (sites p) → BlockArith → Meas (sites p) M} {φ ψ : M → ℝ} {T : ℝ} (h : AccurateScalarRun P sys cfg ms φ ψ T) :
    AccurateBinaryRun P sys cfg ms φ ψ T := by
  intro ε hε
  obtain ⟨u₀, C, K, hu₀, hC, H⟩ := h ε hε
  set N := sites p with hN
  obtain ⟨c, hc⟩ := pow_unbounded_of_one_lt (2 * ((N : ℝ) ^ 2 + 1) / u₀) (show (1 : ℝ) < 2 by norm_num)
  rw [div_lt_iff₀ hu₀] at hc
  refine ⟨C, 2 * (K + c) + 2, hC, fun a t n piv hn hq ht => ?_⟩
  refine H ((2 : ℝ) ^ t)⁻¹ (scalars t) (N ^ 2 * t) piv n (scalars_relative t) (rotations (Nat.pos_of_ne_zero (NeZero.ne N)) t) hn ?_
  have hq' : (cfg.nequil.toNat + n : ℝ) ≤ 2 ^ a := by exact_mod_cast hq
  have h1 : (cfg.nequil.toNat + n : ℝ) ^ K ≤ 2 ^ (a * K) := by
    rw [pow_mul]
    exact pow_le_pow_left₀ (by positivity) hq' K
  have h2 : a * K + c ≤ t / 2 := by
    rw [Nat.le_div_iff_mul_le (by norm_num)]
    nlinarith
  have h3 : (2 : ℝ) ^ (a * K) * 2 ^ c ≤ 2 ^ (t / 2) := by
    rw [← pow_add]
    exact pow_le_pow_right₀ (by norm_num) h2
  calc (cfg.nequil.toNat + n : ℝ) ^ K * (((N ^ 2 * t : ℕ) + 1) * ((2 : ℝ) ^ t)⁻¹)
      ≤ 2 ^ (a * K) * (2 * (N ^ 2 + 1) * ((2 : ℝ) ^ (t / 2))⁻¹) := mul_le_mul h1 (bits N t) (by positivity) (by positivity)
    _ ≤ 2 ^ (a * K) * (2 ^ c * u₀ * ((2 : ℝ) ^ (t / 2))⁻¹) := by gcongr
    _ = 2 ^ (a * K) * 2 ^ c * ((2 : ℝ) ^ (t / 2))⁻¹ * u₀ := by ring
    _ ≤ u₀ := by
        refine mul_le_of_le_one_left hu₀.le ?_
        rw [mul_inv_le_iff₀ (by positivity), one_mul]
        exact h3

/-- C126: The whole program without phonons with binary numbers: if the number of bits is at least of the order of the logarithm of the
number of sweeps, then every result of the equal and unequal time measurements comes close to the expectation value in the Hubbard
model. -/
theorem program_binary_run [NeZero (sites p)] (hmc : mc.Rounds) (hv : Admissible p) (hg : Guards p)
    (hN : sites p < 2 ^ 31) (fnbase : String) (rng : Rng σ) (hlaw : rng.Lawful (sites p))
    (hP : rng.Ideal (sites p) P) (sys : Sys Seed (sites p) MeasData) (hsys : sysOf mc p = some sys)
    (hw : ∀ s, sys.weight p.L.toNat s (fun _ _ => 1) ≠ 0)
    (hr : ∀ i : Fin (sites p), p.U ((i.val / (p.Nx.toNat * p.Ny.toNat) : ℕ) : ℤ) = 0 ∨
      ∀ l < p.L.toNat, ∀ x : Field p.L.toNat (sites p),
        sys.weight p.L.toNat (Fock.extend (flipAt l i x)) (fun _ _ => 1)
          ≠ sys.weight p.L.toNat (Fock.extend x) (fun _ _ => 1))
    (hnq : 0 ≤ p.nequil) (hnw : p.nwraps ≤ p.L) (h2 : 2 * p.prodBlen ≤ p.L) :
    let L := p.L.toNat
    let cfg := (mkSetup mc p fnbase).cfg
    let sys' := sys.withRng rng
    let ms := roundMeasAll p.Norb.toNat (p.Nx.toNat * p.Ny.toNat) L (Maps.construct p.Nx.toNat p.Ny.toNat p.pbcShift mc.maps)
      mc.tau mc.green sys.meas
    (0 < p.neqlt → p.neqlt ≤ p.L →
        EqHolds p.Nx.toNat p.Ny.toNat p.Norb.toNat p.pbcShift 0 (thermalMean (hubbardStep p) L) fun f z v =>
          AccurateBinaryRun P sys' cfg ms (fun m => m.eq.arr f z) (fun m => m.eq.sign) v) ∧
      (0 < p.nuneqlt →
        UneqHolds p.Nx.toNat p.Ny.toNat p.Norb.toNat L p.pbcShift 0 (p.Nx.toNat = 1 ↔ p.Ny.toNat = 1)
          (thermalPair (hubbardStep p) L) fun f z v =>
          AccurateBinaryRun P sys' cfg ms (fun m => m.uneq.arr f z) (fun m => m.uneq.sign) v) := by
  intro L cfg sys' ms
  obtain ⟨h3, h4⟩ := program_scalar_run hmc hv hg hN fnbase rng hlaw hP sys hsys hw hr hnq hnw h2
  exact ⟨fun a b => (h3 a b).mono fun f z v h => accurateBinaryRun_of_scalar h,
    fun a => (h4 a).mono fun f z v h => accurateBinaryRun_of_scalar h⟩

/-- non-vacuity: one site with interaction and two time slices, and unequal time measurements in every sweep -/
example : ∃ mc : Machine, ∃ sys : Sys Seed (sites exU) MeasData, mc.Rounds ∧ sysOf mc exU = some sys ∧
    ∃ T, AccurateBinaryRun (independent (drawDist (sites exU))) (sys.withRng (idealRng (sites exU))) (mkSetup mc exU "").cfg
      (roundMeasAll 1 1 2 (Maps.construct 1 1 0 mc.maps) mc.tau mc.green sys.meas)
      (fun m => m.uneq.arr .gtau0U 1) (fun m => m.uneq.sign) T := by
  obtain ⟨mc, hmc⟩ := machine_exists
  obtain ⟨sys, hsys, hok, -⟩ := sys_defined hmc exU_admissible exU_guards.U exU_guards.shift (by decide) ""
  have hdiag : ∀ i j, i ≠ j → bondMatrix exU i j = 0 := fun i j h => absurd (Subsingleton.elim (α := Fin 1) i j) h
  obtain ⟨ho, hD⟩ := program_describes exU_admissible exU_guards sys hsys
  obtain ⟨-, hr⟩ := atomic_conditions exU_admissible exU_guards hdiag (by decide) sys hsys
  have key := (program_binary_run hmc exU_admissible exU_guards (by decide) "" _ (idealRng_lawful _)
    (idealRng_ideal _) sys hsys
    (fun s => weight_one_site hmc exU_admissible exU_guards rfl sys hsys _ s _ fun _ _ => one_pos) (fun i => by
      rcases hr i with h | h
      · left
        rw [← ho i]
        exact (decoupled_iff hD (by norm_num [exU, exP]) i).1 h
      · exact Or.inr h)
    (by decide) (by decide) (by decide)).2 (by decide)
  exact ⟨mc, sys, hmc, hsys, _, key.corr .gtau0U (by simp) 1 0 0 (by decide) (by decide) (by decide) 0 0⟩

end run

end Verif.Binary

namespace Verif.Rounded.Ph

open MeasureTheory Filter Topology Matrix Verif.Lapack Verif.TimeFlow Verif.Greens Verif.Stratonovich Verif.MonteCarlo Verif.Ultra
  Verif.Measurement Verif.Main Verif.Metropolis Verif.DrawSeq Verif.Fock Verif.Progress Verif.Random Verif.Params

variable {σ : Type} [MeasurableSpace σ] {P : Measure σ} {mc : Machine} {p : SimParams ℝ}

/-! ## Runs with phonons -/

open Verif.Reference in
/-- with binary numbers, the quotient of two recorded numbers is reliable: for every tolerance, every long run with sufficiently many bits
for a run of this length gives `v` up to the tolerance, except with a probability below the tolerance -/
def ReliableBits [NeZero (sites p)] (mc : Machine) (fnbase : String) (rng : Rng σ) (P : Measure σ) (sys : Sys Seed (sites p) MeasData)
    (e s : Entry) (v : ℝ) : Prop :=
  ∀ ε : ℝ, 0 < ε → ∃ n₀ : ℕ, ∀ n, n₀ ≤ n → ∃ t₀ : ℕ, ∀ t, t₀ ≤ t → ∀ piv : Mat (sites p) → Equiv.Perm (Fin (sites p)),
    ∀ B : Set σ, MeasurableSet B →
      B ⊆ Off mc fnbase rng sys (Binary.platform (sites p) t piv) (refBlocks (Binary.scalars t).toFlOps) n e s v ε →
      P B ≤ ENNReal.ofReal ε

open Verif.Reference in
theorem binary_elementary (N : ℕ) [NeZero N] : ∃ t₁ : ℕ, ∀ t, t₁ ≤ t → ∀ piv : Mat N → Equiv.Perm (Fin N),
    Elementary ((2 : ℝ) ^ t)⁻¹ (Binary.platform N t piv) (refBlocks (Binary.scalars t).toFlOps) := by
  have ht : Tendsto (fun n : ℕ => (n : ℝ) ^ 2 * (1 / 2 : ℝ) ^ n) atTop (𝓝 0) :=
    tendsto_pow_const_mul_const_pow_of_abs_lt_one 2 (by rw [abs_of_pos] <;> norm_num)
  obtain ⟨M, hM⟩ := eventually_atTop.1 ((ht.eventually (gt_mem_nhds (show (0 : ℝ) < 1 / ((N : ℝ) ^ 2 + 1) ^ 2 by positivity))).and
    (eventually_ge_atTop 1))
  refine ⟨M, fun t h piv => ⟨Binary.scalars t, piv, N ^ 2 * t, Binary.scalars_relative t, fun x _ => Binary.fl_relative t _,
    Binary.rotations (Nat.pos_of_ne_zero (NeZero.ne N)) t, ?_, rfl, rfl⟩⟩
  obtain ⟨h1, h2⟩ := hM t h
  have h2' : (1 : ℝ) ≤ t := by exact_mod_cast h2
  rw [lt_div_iff₀ (by positivity)] at h1
  have h3 : ((N ^ 2 * t : ℕ) + 1 : ℝ) ≤ (N ^ 2 + 1) * t := by
    push_cast
    linarith
  have h4 : ((N ^ 2 * t : ℕ) + 1 : ℝ) ^ 2 ≤ ((N ^ 2 + 1) * t) ^ 2 := pow_le_pow_left₀ (by positivity) h3 2
  have h5 := mul_le_mul_of_nonneg_right h4 (show (0 : ℝ) ≤ ((2 : ℝ) ^ t)⁻¹ by positivity)
  refine h5.trans ?_
  rw [one_div, inv_pow] at h1
  linarith [show (((N : ℝ) ^ 2 + 1) * t) ^ 2 * ((2 : ℝ) ^ t)⁻¹ = (t : ℝ) ^ 2 * ((2 : ℝ) ^ t)⁻¹ * ((N : ℝ) ^ 2 + 1) ^ 2 by ring]

theorem reliableBits_of_elementary [NeZero (sites p)] {fnbase : String} {rng : Rng σ} {sys : Sys Seed (sites p) MeasData} {e s : Entry}
    {v : ℝ} (h : Reliable mc fnbase rng P sys Elementary e s v) : ReliableBits mc fnbase rng P sys e s v := by
  intro ε hε
  obtain ⟨n₀, h⟩ := h ε hε
  refine ⟨n₀, fun n hn => ?_⟩
  obtain ⟨u₀, h0, h⟩ := h n hn
  obtain ⟨t₁, ht⟩ := binary_elementary (sites p)
  obtain ⟨c, hc⟩ := exists_pow_lt_of_lt_one h0 (show (1 / 2 : ℝ) < 1 by norm_num)
  refine ⟨max t₁ c, fun t hle piv => h ((2 : ℝ) ^ t)⁻¹ _ _ ?_ (ht t ((le_max_left _ _).trans hle) piv)⟩
  rw [one_div, inv_pow] at hc
  refine le_trans (inv_anti₀ (by positivity) (pow_le_pow_right₀ (by norm_num) ((le_max_right _ _).trans hle))) hc.le

/-- C126: The whole program with phonons with binary numbers: in long runs with sufficiently many bits, the results are close to the
expectation values in the Hubbard-Holstein model with a probability close to one. -/
theorem program_binary_converges_ph [NeZero (sites p)] (hmc : mc.Rounds) (hv : Admissible p) (hg : Guards p)
    (hN : sites p < 2 ^ 31) (hmv : Movable p) (fnbase : String) (rng : Rng σ) (hlaw : rng.Lawful (sites p))
    (hP : rng.Ideal (sites p) P) (sys : Sys Seed (sites p) MeasData) (hsys : sysOf mc p = some sys) :
    let L := p.L.toNat
    (0 < p.neqlt → p.neqlt ≤ p.L →
      (EqHolds p.Nx.toNat p.Ny.toNat p.Norb.toNat p.pbcShift 0
        (fun X => holsteinMean p (Measure.dirac 0) L 0 (fun _ => 1) X 1) fun f z v =>
        ReliableBits mc fnbase rng P sys (.eq f z) .eqSign v) ∧
      ∀ f ∈ phFields, ∀ o < p.Norb.toNat,
        ReliableBits mc fnbase rng P sys (.ph f o) .phSign
          (phValue p.Norb.toNat (p.Nx.toNat * p.Ny.toNat) L p.dt (fun o => p.phonon.omega o)
            (fun F X => holsteinMean p (Measure.dirac 0) L 0 F X 1) o f)) ∧
    (0 < p.nuneqlt →
      UneqHolds p.Nx.toNat p.Ny.toNat p.Norb.toNat L p.pbcShift 0 (p.Nx.toNat = 1 ↔ p.Ny.toNat = 1)
        (fun l X Y => holsteinMean p (Measure.dirac 0) L l (fun _ => 1) X Y) fun f z v =>
        ReliableBits mc fnbase rng P sys (.uneq f z) .uneqSign v) := by
  intro L
  obtain ⟨h1, h2⟩ := program_scalar_converges_ph hmc hv hg hN hmv fnbase rng hlaw hP sys hsys
  refine ⟨fun hc hcL => ⟨?_, fun f hf o ho => ?_⟩, fun hc => ?_⟩
  · exact (h1 hc hcL).1.mono fun f z v h => reliableBits_of_elementary h
  · exact reliableBits_of_elementary ((h1 hc hcL).2 f hf o ho)
  · exact (h2 hc).mono fun f z v h => reliableBits_of_elementary h

/-- non-vacuity: the small system with phonons satisfies all hypotheses; the density of its first orbital is reliable -/
example : ∃ mc : Machine, ∃ sys : Sys Seed (sites exW) MeasData, ∃ v : ℝ,
    ReliableBits mc "" (idealRng (sites exW)) (independent (drawDist (sites exW))) sys (.eq .densityU 0) .eqSign v := by
  obtain ⟨mc, hmc⟩ := machine_exists
  obtain ⟨sys, hsys, -⟩ := sys_defined hmc exW_admissible exW_guards.U exW_guards.shift (by decide) ""
  have hmv : Movable exW := by
    refine ⟨rfl, by decide, Or.inl (by decide), ?_, fun _ _ => ?_, fun _ _ => ?_, ?_, ?_, ?_⟩ <;> norm_num [exW, exQ, exPph, exP]
  have h := program_binary_converges_ph hmc exW_admissible exW_guards (by decide) hmv "" (idealRng (sites exW)) (idealRng_lawful _)
    (idealRng_ideal _) sys hsys
  exact ⟨mc, sys, _, (h.1 (by decide) (by decide)).1.dens .densityU (by decide) 0 (by decide)⟩

end Verif.Rounded.Ph
