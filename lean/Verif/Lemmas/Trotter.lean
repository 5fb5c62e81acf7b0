import Mathlib.Analysis.Normed.Algebra.Exponential
import Mathlib.Analysis.SpecialFunctions.Exponential
import Mathlib.Tactic.NoncommRing

set_option autoImplicit false

/-!
# The Trotter product formula with error bounds
-/

namespace Verif.Trotter

open NormedSpace
open scoped Nat

variable {𝔸 : Type*} [NormedRing 𝔸] [NormedAlgebra ℝ 𝔸] [CompleteSpace 𝔸] [NormOneClass 𝔸]

/-- Taylor polynomial of the exponential -/
noncomputable def taylor (k : ℕ) (A : 𝔸) : 𝔸 := ∑ j ∈ Finset.range k, ((j ! : ℝ)⁻¹) • A ^ j

theorem exp_sub_taylor (k : ℕ) (A : 𝔸) : ‖exp A - taylor k A‖ ≤ ‖A‖ ^ k * Real.exp ‖A‖ := by
  have h := exp_series_hasSum_exp' (𝕂 := ℝ) A
  have h1 : exp A - taylor k A = ∑' n, (((n + k) ! : ℝ)⁻¹) • A ^ (n + k) := by
    rw [← h.tsum_eq, ← h.summable.sum_add_tsum_nat_add k, taylor, add_sub_cancel_left]
  have h2 : HasSum (fun n : ℕ => ‖A‖ ^ k * (((n ! : ℝ)⁻¹) • ‖A‖ ^ n)) (‖A‖ ^ k * Real.exp ‖A‖) := by
    rw [Real.exp_eq_exp_ℝ]
    exact (exp_series_hasSum_exp' (𝕂 := ℝ) ‖A‖).mul_left _
  rw [h1]
  refine tsum_of_norm_bounded h2 fun n => ?_
  rw [norm_smul, norm_inv, Real.norm_natCast, smul_eq_mul]
  have h3 : ‖A ^ (n + k)‖ ≤ ‖A‖ ^ (n + k) := norm_pow_le _ _
  have h4 : (((n + k) ! : ℕ) : ℝ)⁻¹ ≤ ((n ! : ℕ) : ℝ)⁻¹ :=
    inv_anti₀ (by exact_mod_cast Nat.factorial_pos n) (by exact_mod_cast Nat.factorial_le (by omega))
  calc (((n + k) ! : ℕ) : ℝ)⁻¹ * ‖A ^ (n + k)‖ ≤ ((n ! : ℕ) : ℝ)⁻¹ * ‖A‖ ^ (n + k) := by gcongr
    _ = _ := by rw [pow_add]; ring

theorem norm_exp_le (A : 𝔸) : ‖exp A‖ ≤ Real.exp ‖A‖ := by
  have := exp_sub_taylor 0 A
  simpa [taylor] using this

theorem exp_sub_one (A : 𝔸) : ‖exp A - 1‖ ≤ ‖A‖ * Real.exp ‖A‖ := by
  have := exp_sub_taylor 1 A
  simpa [taylor] using this

theorem exp_sub_two (A : 𝔸) : ‖exp A - (1 + A)‖ ≤ ‖A‖ ^ 2 * Real.exp ‖A‖ := by
  have := exp_sub_taylor 2 A
  simpa [taylor, Finset.sum_range_succ] using this

theorem exp_sub_three (A : 𝔸) : ‖exp A - (1 + A + (2 : ℝ)⁻¹ • (A * A))‖ ≤ ‖A‖ ^ 3 * Real.exp ‖A‖ := by
  have := exp_sub_taylor 3 A
  simpa [taylor, Finset.sum_range_succ, sq] using this

/-- one step of first order -/
theorem step_one (A B : 𝔸) : ‖exp B * exp A - exp (B + A)‖ ≤ 4 * (‖A‖ + ‖B‖) ^ 2 * Real.exp (‖A‖ + ‖B‖) := by
  set a := ‖A‖ with ha
  set b := ‖B‖ with hb
  have a0 : 0 ≤ a := norm_nonneg _
  have b0 : 0 ≤ b := norm_nonneg _
  have hs : ‖B + A‖ ≤ a + b := (norm_add_le _ _).trans (by linarith)
  have e : exp B * exp A - exp (B + A)
      = (exp A - (1 + A)) + B * (exp A - 1) + (exp B - (1 + B)) * exp A - (exp (B + A) - (1 + (B + A))) := by noncomm_ring
  have ea : Real.exp a ≤ Real.exp (a + b) := Real.exp_le_exp.2 (by linarith)
  have eab : Real.exp b * Real.exp a = Real.exp (a + b) := by rw [← Real.exp_add, add_comm]
  have hE := (Real.exp_pos (a + b)).le
  have h1 : ‖exp A - (1 + A)‖ ≤ (a + b) ^ 2 * Real.exp (a + b) :=
    (exp_sub_two A).trans (by gcongr; linarith)
  have h2 : ‖B * (exp A - 1)‖ ≤ (a + b) ^ 2 * Real.exp (a + b) := by
    calc ‖B * (exp A - 1)‖ ≤ b * (a * Real.exp a) := (norm_mul_le _ _).trans (by gcongr; exact exp_sub_one A)
      _ ≤ (a + b) * ((a + b) * Real.exp (a + b)) := by gcongr <;> linarith
      _ = _ := by ring
  have h3 : ‖(exp B - (1 + B)) * exp A‖ ≤ (a + b) ^ 2 * Real.exp (a + b) := by
    calc ‖(exp B - (1 + B)) * exp A‖ ≤ (b ^ 2 * Real.exp b) * Real.exp a :=
          (norm_mul_le _ _).trans (by gcongr; exacts [exp_sub_two B, norm_exp_le A])
      _ = b ^ 2 * Real.exp (a + b) := by rw [mul_assoc, eab]
      _ ≤ _ := by gcongr; linarith
  have h4 : ‖exp (B + A) - (1 + (B + A))‖ ≤ (a + b) ^ 2 * Real.exp (a + b) :=
    (exp_sub_two _).trans (by gcongr)
  rw [e]
  refine (norm_sub_le _ _).trans ?_
  have h5 := norm_add_le (exp A - (1 + A) + B * (exp A - 1)) ((exp B - (1 + B)) * exp A)
  have h6 := norm_add_le (exp A - (1 + A)) (B * (exp A - 1))
  linarith

omit [NormedAlgebra ℝ 𝔸] [CompleteSpace 𝔸] [NormOneClass 𝔸] in
/-- the terms of third and higher order -/
theorem higher_terms (u u2 v v2 : 𝔸) :
    (1 + u + u2) * (1 + v + v2) * (1 + u + u2) - (1 + (v + u + u) + (v2 + v * u + u * v + u * u + (u2 + u2)))
      = (u * v * u + u * v2 + v2 * u + u * u2 + u2 * u + u2 * v + v * u2)
        + (u2 * u2 + u2 * v2 + v2 * u2 + u * v2 * u + u * v * u2 + u2 * v * u)
        + (u2 * v * u2 + u2 * v2 * u + u * v2 * u2) + u2 * v2 * u2 := by noncomm_ring

/-- one step of second order -/
theorem step_two (A h : 𝔸) :
    ‖exp h * exp A * exp h - exp (A + h + h)‖ ≤ 21 * (‖A‖ + 2 * ‖h‖) ^ 3 * Real.exp (4 * (‖A‖ + 2 * ‖h‖)) := by
  set s := ‖A‖ + 2 * ‖h‖ with hsdef
  have a0 : 0 ≤ ‖A‖ := norm_nonneg _
  have b0 : 0 ≤ ‖h‖ := norm_nonneg _
  have s0 : 0 ≤ s := by positivity
  have hA : ‖A‖ ≤ s := by linarith
  have hh : ‖h‖ ≤ s := by linarith
  have hs : ‖A + h + h‖ ≤ s := by
    have := norm_add_le (A + h) h
    have := norm_add_le A h
    linarith
  set u2 : 𝔸 := (2 : ℝ)⁻¹ • (h * h) with hu2
  set v2 : 𝔸 := (2 : ℝ)⁻¹ • (A * A) with hv2
  have n2 : ∀ X : 𝔸, ‖X‖ ≤ s → ‖(2 : ℝ)⁻¹ • (X * X)‖ ≤ s ^ 2 := by
    intro X hX
    rw [norm_smul, norm_inv, Real.norm_ofNat]
    have := norm_mul_le X X
    have h2 : ‖X‖ * ‖X‖ ≤ s * s := by gcongr
    nlinarith [norm_nonneg X, mul_nonneg s0 s0]
  have hu : ‖u2‖ ≤ s ^ 2 := n2 h hh
  have hv : ‖v2‖ ≤ s ^ 2 := n2 A hA
  -- powers of `s` against the exponential
  have E1 : 1 ≤ Real.exp s := Real.one_le_exp s0
  have Es : s ≤ Real.exp s := (by linarith [Real.add_one_le_exp s])
  have E3 : Real.exp s ^ 3 ≤ Real.exp (4 * s) := by
    rw [← Real.exp_nat_mul]
    exact Real.exp_le_exp.2 (by push_cast; linarith)
  have E3' : Real.exp s ≤ Real.exp (4 * s) := Real.exp_le_exp.2 (by linarith)
  have p1 : s ≤ Real.exp (4 * s) := Es.trans E3'
  have p0 : (1 : ℝ) ≤ Real.exp (4 * s) := E1.trans E3'
  have p2 : s ^ 2 ≤ Real.exp (4 * s) := by
    refine le_trans ?_ E3
    calc s ^ 2 ≤ Real.exp s ^ 2 := by gcongr
      _ ≤ Real.exp s ^ 3 := pow_le_pow_right₀ E1 (by norm_num)
  have p3 : s ^ 3 ≤ Real.exp (4 * s) := le_trans (by gcongr) E3
  have m2 : ∀ X Y : 𝔸, ∀ x y : ℝ, 0 ≤ x → ‖X‖ ≤ x → ‖Y‖ ≤ y → ‖X * Y‖ ≤ x * y := fun X Y x y hx hX hY =>
    (norm_mul_le X Y).trans (mul_le_mul hX hY (norm_nonneg _) hx)
  have m3 : ∀ X Y Z : 𝔸, ∀ x y z : ℝ, 0 ≤ x → 0 ≤ y → ‖X‖ ≤ x → ‖Y‖ ≤ y → ‖Z‖ ≤ z → ‖X * Y * Z‖ ≤ x * y * z :=
    fun X Y Z x y z hx hy hX hY hZ => m2 _ _ _ _ (mul_nonneg hx hy) (m2 _ _ _ _ hx hX hY) hZ
  have s2 : 0 ≤ s ^ 2 := by positivity
  set D := s ^ 3 * Real.exp (4 * s) with hD
  have s3 : 0 ≤ s ^ 3 := by positivity
  have d3 : s ^ 3 ≤ D := by rw [hD]; nlinarith
  have d4 : s ^ 4 ≤ D := by rw [hD, pow_succ]; exact mul_le_mul_of_nonneg_left p1 s3
  have d5 : s ^ 5 ≤ D := by rw [hD, show s ^ 5 = s ^ 3 * s ^ 2 by ring]; exact mul_le_mul_of_nonneg_left p2 s3
  have d6 : s ^ 6 ≤ D := by rw [hD, show s ^ 6 = s ^ 3 * s ^ 3 by ring]; exact mul_le_mul_of_nonneg_left p3 s3
  -- the polynomial part
  have hpoly : ‖(1 + h + u2) * (1 + A + v2) * (1 + h + u2) - (1 + (A + h + h) + (v2 + A * h + h * A + h * h + (u2 + u2)))‖
      ≤ 17 * D := by
    rw [higher_terms]
    have t1 : ‖h * A * h‖ ≤ D := (m3 _ _ _ s s s s0 s0 hh hA hh).trans (by linarith [show s * s * s = s ^ 3 by ring])
    have t2 : ‖h * v2‖ ≤ D := (m2 _ _ s (s ^ 2) s0 hh hv).trans (by linarith [show s * s ^ 2 = s ^ 3 by ring])
    have t3 : ‖v2 * h‖ ≤ D := (m2 _ _ (s ^ 2) s s2 hv hh).trans (by linarith [show s ^ 2 * s = s ^ 3 by ring])
    have t4 : ‖h * u2‖ ≤ D := (m2 _ _ s (s ^ 2) s0 hh hu).trans (by linarith [show s * s ^ 2 = s ^ 3 by ring])
    have t5 : ‖u2 * h‖ ≤ D := (m2 _ _ (s ^ 2) s s2 hu hh).trans (by linarith [show s ^ 2 * s = s ^ 3 by ring])
    have t6 : ‖u2 * A‖ ≤ D := (m2 _ _ (s ^ 2) s s2 hu hA).trans (by linarith [show s ^ 2 * s = s ^ 3 by ring])
    have t7 : ‖A * u2‖ ≤ D := (m2 _ _ s (s ^ 2) s0 hA hu).trans (by linarith [show s * s ^ 2 = s ^ 3 by ring])
    have q1 : ‖u2 * u2‖ ≤ D := (m2 _ _ (s ^ 2) (s ^ 2) s2 hu hu).trans (by linarith [show s ^ 2 * s ^ 2 = s ^ 4 by ring])
    have q2 : ‖u2 * v2‖ ≤ D := (m2 _ _ (s ^ 2) (s ^ 2) s2 hu hv).trans (by linarith [show s ^ 2 * s ^ 2 = s ^ 4 by ring])
    have q3 : ‖v2 * u2‖ ≤ D := (m2 _ _ (s ^ 2) (s ^ 2) s2 hv hu).trans (by linarith [show s ^ 2 * s ^ 2 = s ^ 4 by ring])
    have q4 : ‖h * v2 * h‖ ≤ D := (m3 _ _ _ s (s ^ 2) s s0 s2 hh hv hh).trans (by linarith [show s * s ^ 2 * s = s ^ 4 by ring])
    have q5 : ‖h * A * u2‖ ≤ D := (m3 _ _ _ s s (s ^ 2) s0 s0 hh hA hu).trans (by linarith [show s * s * s ^ 2 = s ^ 4 by ring])
    have q6 : ‖u2 * A * h‖ ≤ D := (m3 _ _ _ (s ^ 2) s s s2 s0 hu hA hh).trans (by linarith [show s ^ 2 * s * s = s ^ 4 by ring])
    have r1 : ‖u2 * A * u2‖ ≤ D := (m3 _ _ _ (s ^ 2) s (s ^ 2) s2 s0 hu hA hu).trans (by linarith [show s ^ 2 * s * s ^ 2 = s ^ 5 by ring])
    have r2 : ‖u2 * v2 * h‖ ≤ D := (m3 _ _ _ (s ^ 2) (s ^ 2) s s2 s2 hu hv hh).trans (by linarith [show s ^ 2 * s ^ 2 * s = s ^ 5 by ring])
    have r3 : ‖h * v2 * u2‖ ≤ D := (m3 _ _ _ s (s ^ 2) (s ^ 2) s0 s2 hh hv hu).trans (by linarith [show s * s ^ 2 * s ^ 2 = s ^ 5 by ring])
    have w1 : ‖u2 * v2 * u2‖ ≤ D := (m3 _ _ _ (s ^ 2) (s ^ 2) (s ^ 2) s2 s2 hu hv hu).trans
      (by linarith [show s ^ 2 * s ^ 2 * s ^ 2 = s ^ 6 by ring])
    have add : ∀ {X Y : 𝔸} {x y : ℝ}, ‖X‖ ≤ x → ‖Y‖ ≤ y → ‖X + Y‖ ≤ x + y := fun hX hY => (norm_add_le _ _).trans (add_le_add hX hY)
    refine (add (add (add (add (add (add (add (add (add t1 t2) t3) t4) t5) t6) t7)
      (add (add (add (add (add q1 q2) q3) q4) q5) q6)) (add (add r1 r2) r3)) w1).trans ?_
    linarith
  have hsq : (2 : ℝ)⁻¹ • ((A + h + h) * (A + h + h)) = v2 + A * h + h * A + h * h + (u2 + u2) := by
    rw [hu2, hv2]
    simp only [mul_add, add_mul, smul_add]
    module
  rw [← hsq] at hpoly
  have e : exp h * exp A * exp h - exp (A + h + h)
      = (exp h - (1 + h + u2)) * exp A * exp h + (1 + h + u2) * (exp A - (1 + A + v2)) * exp h
        + (1 + h + u2) * (1 + A + v2) * (exp h - (1 + h + u2))
        + ((1 + h + u2) * (1 + A + v2) * (1 + h + u2)
          - (1 + (A + h + h) + (2 : ℝ)⁻¹ • ((A + h + h) * (A + h + h))))
        - (exp (A + h + h) - (1 + (A + h + h) + (2 : ℝ)⁻¹ • ((A + h + h) * (A + h + h)))) := by
    generalize (2 : ℝ)⁻¹ • ((A + h + h) * (A + h + h)) = z
    noncomm_ring
  have X1 : ∀ X : 𝔸, ‖X‖ ≤ s → ‖exp X‖ ≤ Real.exp s := fun X hX => (norm_exp_le X).trans (Real.exp_le_exp.2 hX)
  have X3 : ∀ X : 𝔸, ‖X‖ ≤ s → ‖exp X - (1 + X + (2 : ℝ)⁻¹ • (X * X))‖ ≤ s ^ 3 * Real.exp s := fun X hX =>
    (exp_sub_three X).trans (by gcongr)
  have XP : ∀ X : 𝔸, ‖X‖ ≤ s → ‖1 + X + (2 : ℝ)⁻¹ • (X * X)‖ ≤ Real.exp s := by
    intro X hX
    have h1 := norm_add_le (1 + X) ((2 : ℝ)⁻¹ • (X * X))
    have h2 := norm_add_le (1 : 𝔸) X
    rw [norm_one] at h2
    have h3 : ‖(2 : ℝ)⁻¹ • (X * X)‖ ≤ s ^ 2 / 2 := by
      rw [norm_smul, norm_inv, Real.norm_ofNat]
      have := m2 X X s s s0 hX hX
      nlinarith
    have := Real.quadratic_le_exp_of_nonneg s0
    linarith
  have D3 : s ^ 3 * Real.exp s * Real.exp s * Real.exp s ≤ D := by
    rw [hD, mul_assoc, mul_assoc]
    refine mul_le_mul_of_nonneg_left (le_trans (le_of_eq ?_) E3) s3
    ring
  have g1 : ‖(exp h - (1 + h + u2)) * exp A * exp h‖ ≤ D :=
    (m3 _ _ _ _ _ _ (by positivity) (by positivity) (X3 h hh) (X1 A hA) (X1 h hh)).trans D3
  have g2 : ‖(1 + h + u2) * (exp A - (1 + A + v2)) * exp h‖ ≤ D :=
    (m3 _ _ _ _ _ _ (by positivity) (by positivity) (XP h hh) (X3 A hA) (X1 h hh)).trans (le_trans (le_of_eq (by ring)) D3)
  have g3 : ‖(1 + h + u2) * (1 + A + v2) * (exp h - (1 + h + u2))‖ ≤ D :=
    (m3 _ _ _ _ _ _ (by positivity) (by positivity) (XP h hh) (XP A hA) (X3 h hh)).trans (le_trans (le_of_eq (by ring)) D3)
  have g4 : ‖exp (A + h + h) - (1 + (A + h + h) + (2 : ℝ)⁻¹ • ((A + h + h) * (A + h + h)))‖ ≤ D :=
    (X3 _ hs).trans (by rw [hD]; gcongr)
  rw [e]
  refine (norm_sub_le _ _).trans ?_
  refine (add_le_add (norm_add_le _ _) le_rfl).trans ?_
  refine (add_le_add (add_le_add (norm_add_le _ _) le_rfl) le_rfl).trans ?_
  refine (add_le_add (add_le_add (add_le_add (norm_add_le _ _) le_rfl) le_rfl) le_rfl).trans ?_
  linarith

omit [NormedAlgebra ℝ 𝔸] [CompleteSpace 𝔸] in
/-- powers of nearby elements -/
theorem pow_sub_pow (X Y : 𝔸) {M : ℝ} (hX : ‖X‖ ≤ M) (hY : ‖Y‖ ≤ M) (n : ℕ) :
    ‖X ^ n - Y ^ n‖ ≤ n * ‖X - Y‖ * M ^ (n - 1) := by
  have hM : 0 ≤ M := (norm_nonneg X).trans hX
  induction n with
  | zero => simp
  | succ n ih =>
    have e : X ^ (n + 1) - Y ^ (n + 1) = X ^ n * (X - Y) + (X ^ n - Y ^ n) * Y := by
      rw [pow_succ, pow_succ]
      noncomm_ring
    rw [e, Nat.add_sub_cancel]
    refine (norm_add_le _ _).trans ?_
    have h1 : ‖X ^ n * (X - Y)‖ ≤ M ^ n * ‖X - Y‖ :=
      (norm_mul_le _ _).trans (mul_le_mul_of_nonneg_right ((norm_pow_le X n).trans (pow_le_pow_left₀ (norm_nonneg _) hX n))
        (norm_nonneg _))
    have h2 : ‖(X ^ n - Y ^ n) * Y‖ ≤ n * ‖X - Y‖ * M ^ n := by
      refine (norm_mul_le _ _).trans ((mul_le_mul ih hY (norm_nonneg _) (by positivity)).trans (le_of_eq ?_))
      cases n with
      | zero => simp
      | succ n => rw [Nat.add_sub_cancel, pow_succ]; ring
    push_cast
    linarith [show ((n : ℝ) + 1) * ‖X - Y‖ * M ^ n = M ^ n * ‖X - Y‖ + n * ‖X - Y‖ * M ^ n by ring]

/-- **Trotter formula**: the error of `k` of `n` steps is of the order `1/n` -/
theorem trotter_one (A B : 𝔸) {n : ℕ} (hn : 0 < n) {k : ℕ} (hk : k ≤ n) :
    ‖(exp ((n : ℝ)⁻¹ • B) * exp ((n : ℝ)⁻¹ • A)) ^ k - exp (((k : ℝ) / n) • (B + A))‖
      ≤ 4 * (‖A‖ + ‖B‖) ^ 2 * Real.exp (‖A‖ + ‖B‖) / n := by
  set s := ‖A‖ + ‖B‖ with hs
  have s0 : 0 ≤ s := by positivity
  have n0 : (0 : ℝ) < n := by exact_mod_cast hn
  have hnorm : ∀ X : 𝔸, ‖(n : ℝ)⁻¹ • X‖ = ‖X‖ / n := fun X => by
    rw [norm_smul, norm_inv, Real.norm_natCast, div_eq_inv_mul]
  have hsn : ‖(n : ℝ)⁻¹ • A‖ + ‖(n : ℝ)⁻¹ • B‖ = s / n := by rw [hnorm, hnorm, hs, add_div]
  have h1 := step_one ((n : ℝ)⁻¹ • A) ((n : ℝ)⁻¹ • B)
  rw [hsn] at h1
  have e : exp (((k : ℝ) / n) • (B + A)) = exp ((n : ℝ)⁻¹ • B + (n : ℝ)⁻¹ • A) ^ k := by
    let _ := NormedAlgebra.restrictScalars ℚ ℝ 𝔸
    rw [← exp_nsmul, ← smul_add, ← Nat.cast_smul_eq_nsmul ℝ, smul_smul, div_eq_mul_inv]
  have hX : ‖exp ((n : ℝ)⁻¹ • B) * exp ((n : ℝ)⁻¹ • A)‖ ≤ Real.exp (s / n) := by
    refine (norm_mul_le _ _).trans ((mul_le_mul (norm_exp_le _) (norm_exp_le _) (norm_nonneg _) (Real.exp_pos _).le).trans ?_)
    rw [← Real.exp_add, ← hsn, add_comm]
  have hY : ‖exp ((n : ℝ)⁻¹ • B + (n : ℝ)⁻¹ • A)‖ ≤ Real.exp (s / n) := by
    refine (norm_exp_le _).trans (Real.exp_le_exp.2 ((norm_add_le _ _).trans ?_))
    rw [← hsn, add_comm]
  rw [e]
  refine (pow_sub_pow _ _ hX hY k).trans ?_
  rcases Nat.eq_zero_or_pos k with rfl | hk0
  · simp only [Nat.cast_zero, zero_mul]
    positivity
  have hkn : (k : ℝ) / n ≤ 1 := by
    rw [div_le_one n0]
    exact_mod_cast hk
  calc k * ‖exp ((n : ℝ)⁻¹ • B) * exp ((n : ℝ)⁻¹ • A) - exp ((n : ℝ)⁻¹ • B + (n : ℝ)⁻¹ • A)‖ * Real.exp (s / n) ^ (k - 1)
      ≤ k * (4 * (s / n) ^ 2 * Real.exp (s / n)) * Real.exp (s / n) ^ (k - 1) := by gcongr
    _ = (k / n) * (4 * s ^ 2 / n) * (Real.exp (s / n) ^ (k - 1) * Real.exp (s / n)) := by
        field_simp
    _ = (k / n) * (4 * s ^ 2 / n) * Real.exp (s * (k / n)) := by
        rw [← pow_succ, Nat.sub_add_cancel hk0, ← Real.exp_nat_mul]
        congr 2
        ring
    _ ≤ 1 * (4 * s ^ 2 / n) * Real.exp (s * 1) := by
        have : s * (k / n) ≤ s * 1 := mul_le_mul_of_nonneg_left hkn s0
        have := Real.exp_le_exp.2 this
        gcongr
    _ = _ := by rw [one_mul, mul_one]; ring

/-- **symmetric Trotter formula**: the error is of the order `1/n²` -/
theorem trotter_two (A h : 𝔸) {n : ℕ} (hn : 0 < n) :
    ‖(exp ((n : ℝ)⁻¹ • h) * exp ((n : ℝ)⁻¹ • A) * exp ((n : ℝ)⁻¹ • h)) ^ n - exp (A + h + h)‖
      ≤ 21 * (‖A‖ + 2 * ‖h‖) ^ 3 * Real.exp (4 * (‖A‖ + 2 * ‖h‖)) / n ^ 2 := by
  set s := ‖A‖ + 2 * ‖h‖ with hs
  have s0 : 0 ≤ s := by positivity
  have n0 : (0 : ℝ) < n := by exact_mod_cast hn
  have hnorm : ∀ X : 𝔸, ‖(n : ℝ)⁻¹ • X‖ = ‖X‖ / n := fun X => by
    rw [norm_smul, norm_inv, Real.norm_natCast, div_eq_inv_mul]
  have hsn : ‖(n : ℝ)⁻¹ • A‖ + 2 * ‖(n : ℝ)⁻¹ • h‖ = s / n := by rw [hnorm, hnorm, hs]; ring
  have h1 := step_two ((n : ℝ)⁻¹ • A) ((n : ℝ)⁻¹ • h)
  rw [hsn] at h1
  have e : exp (A + h + h) = exp ((n : ℝ)⁻¹ • A + (n : ℝ)⁻¹ • h + (n : ℝ)⁻¹ • h) ^ n := by
    let _ := NormedAlgebra.restrictScalars ℚ ℝ 𝔸
    rw [← exp_nsmul, ← smul_add, ← smul_add, ← Nat.cast_smul_eq_nsmul ℝ, smul_smul, mul_inv_cancel₀ n0.ne', one_smul]
  have hX : ‖exp ((n : ℝ)⁻¹ • h) * exp ((n : ℝ)⁻¹ • A) * exp ((n : ℝ)⁻¹ • h)‖ ≤ Real.exp (s / n) := by
    have h2 := norm_exp_le ((n : ℝ)⁻¹ • h)
    have h3 := norm_exp_le ((n : ℝ)⁻¹ • A)
    refine (norm_mul_le _ _).trans ((mul_le_mul ((norm_mul_le _ _).trans (mul_le_mul h2 h3 (norm_nonneg _) (Real.exp_pos _).le)) h2
      (norm_nonneg _) (by positivity)).trans ?_)
    rw [← Real.exp_add, ← Real.exp_add, ← hsn]
    exact Real.exp_le_exp.2 (by linarith)
  have hY : ‖exp ((n : ℝ)⁻¹ • A + (n : ℝ)⁻¹ • h + (n : ℝ)⁻¹ • h)‖ ≤ Real.exp (s / n) := by
    refine (norm_exp_le _).trans (Real.exp_le_exp.2 ((norm_add_le _ _).trans ?_))
    have := norm_add_le ((n : ℝ)⁻¹ • A) ((n : ℝ)⁻¹ • h)
    linarith
  rw [e]
  refine (pow_sub_pow _ _ hX hY n).trans ?_
  calc n * ‖exp ((n : ℝ)⁻¹ • h) * exp ((n : ℝ)⁻¹ • A) * exp ((n : ℝ)⁻¹ • h)
        - exp ((n : ℝ)⁻¹ • A + (n : ℝ)⁻¹ • h + (n : ℝ)⁻¹ • h)‖ * Real.exp (s / n) ^ (n - 1)
      ≤ n * (21 * (s / n) ^ 3 * Real.exp (4 * (s / n))) * Real.exp (s / n) ^ (n - 1) := by gcongr
    _ = (21 * s ^ 3 / n ^ 2) * (Real.exp (4 * (s / n)) * Real.exp (s / n) ^ (n - 1)) := by
        field_simp
    _ = (21 * s ^ 3 / n ^ 2) * Real.exp (s * ((4 + (n - 1)) / n)) := by
        rw [← Real.exp_nat_mul, ← Real.exp_add, Nat.cast_sub hn]
        congr 2
        push_cast
        ring
    _ ≤ (21 * s ^ 3 / n ^ 2) * Real.exp (4 * s) := by
        have h5 : (4 + ((n : ℝ) - 1)) / n ≤ 4 := by
          rw [div_le_iff₀ n0]
          have : (1 : ℝ) ≤ n := by exact_mod_cast hn
          linarith
        have := Real.exp_le_exp.2 (mul_le_mul_of_nonneg_left h5 s0)
        rw [mul_comm s 4] at this
        gcongr
    _ = _ := by ring

/-- rotating an element by a small amount in both directions -/
theorem rotate_two (X h : 𝔸) :
    ‖exp h * X * exp (-h) + exp (-h) * X * exp h - (X + X)‖ ≤ 6 * ‖h‖ ^ 2 * Real.exp (2 * ‖h‖) * ‖X‖ := by
  have b0 : 0 ≤ ‖h‖ := norm_nonneg _
  have x0 : 0 ≤ ‖X‖ := norm_nonneg _
  have E1 : 1 ≤ Real.exp ‖h‖ := Real.one_le_exp b0
  have E2 : Real.exp ‖h‖ * Real.exp ‖h‖ = Real.exp (2 * ‖h‖) := by rw [← Real.exp_add]; ring_nf
  have r1 := exp_sub_two h
  have r2 := exp_sub_two (-h)
  rw [norm_neg] at r2
  have n1 := norm_exp_le h
  have n2 := norm_exp_le (-h)
  rw [norm_neg] at n2
  have l1 : ‖1 + h‖ ≤ Real.exp ‖h‖ := by
    have := norm_add_le (1 : 𝔸) h
    rw [norm_one] at this
    linarith [Real.add_one_le_exp ‖h‖]
  have l2 : ‖1 + -h‖ ≤ Real.exp ‖h‖ := by
    have := norm_add_le (1 : 𝔸) (-h)
    rw [norm_one, norm_neg] at this
    linarith [Real.add_one_le_exp ‖h‖]
  have m3 : ∀ {X Y Z : 𝔸} {x y z : ℝ}, 0 ≤ x → 0 ≤ y → ‖X‖ ≤ x → ‖Y‖ ≤ y → ‖Z‖ ≤ z → ‖X * Y * Z‖ ≤ x * y * z :=
    fun hx hy hX hY hZ => (norm_mul_le _ _).trans (mul_le_mul ((norm_mul_le _ _).trans (mul_le_mul hX hY (norm_nonneg _) hx)) hZ
      (norm_nonneg _) (mul_nonneg hx hy))
  set D := ‖h‖ ^ 2 * Real.exp (2 * ‖h‖) * ‖X‖ with hD
  have e : exp h * X * exp (-h) + exp (-h) * X * exp h - (X + X)
      = (exp h - (1 + h)) * X * exp (-h) + (1 + h) * X * (exp (-h) - (1 + -h))
        + (exp (-h) - (1 + -h)) * X * exp h + (1 + -h) * X * (exp h - (1 + h)) - (h * X * h + h * X * h) := by noncomm_ring
  have g1 : ‖(exp h - (1 + h)) * X * exp (-h)‖ ≤ D :=
    (m3 (by positivity) x0 r1 le_rfl n2).trans (le_of_eq (by rw [hD, ← E2]; ring))
  have g2 : ‖(1 + h) * X * (exp (-h) - (1 + -h))‖ ≤ D :=
    (m3 (by positivity) x0 l1 le_rfl r2).trans (le_of_eq (by rw [hD, ← E2]; ring))
  have g3 : ‖(exp (-h) - (1 + -h)) * X * exp h‖ ≤ D :=
    (m3 (by positivity) x0 r2 le_rfl n1).trans (le_of_eq (by rw [hD, ← E2]; ring))
  have g4 : ‖(1 + -h) * X * (exp h - (1 + h))‖ ≤ D :=
    (m3 (by positivity) x0 l2 le_rfl r1).trans (le_of_eq (by rw [hD, ← E2]; ring))
  have g5 : ‖h * X * h‖ ≤ D := by
    refine (m3 b0 x0 le_rfl le_rfl le_rfl).trans ?_
    have h6 : (1 : ℝ) ≤ Real.exp (2 * ‖h‖) := Real.one_le_exp (by positivity)
    calc ‖h‖ * ‖X‖ * ‖h‖ = ‖h‖ ^ 2 * 1 * ‖X‖ := by ring
      _ ≤ D := by rw [hD]; gcongr
  rw [e]
  refine (norm_sub_le _ _).trans ?_
  refine (add_le_add (norm_add_le _ _) (norm_add_le _ _)).trans ?_
  refine (add_le_add (add_le_add (norm_add_le _ _) le_rfl) le_rfl).trans ?_
  refine (add_le_add (add_le_add (add_le_add (norm_add_le _ _) le_rfl) le_rfl) le_rfl).trans ?_
  linarith

end Verif.Trotter
