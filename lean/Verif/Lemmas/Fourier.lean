import Verif.Model.Fourier
import Mathlib.Algebra.Field.GeomSum
import Mathlib.Algebra.BigOperators.Ring.Finset
import Mathlib.Algebra.BigOperators.Intervals
import Mathlib.Analysis.SpecialFunctions.Trigonometric.Basic

set_option autoImplicit false

namespace Verif.Fourier

open Complex

theorem phase_add (n a b : ℤ) : phase n (a + b) = phase n a * phase n b := by
  unfold phase
  rw [← Complex.exp_add]
  congr 1
  push_cast
  ring

theorem phase_zero (n : ℤ) : phase n 0 = 1 := by
  unfold phase
  simp

theorem phase_mul_self (n a : ℤ) (hn : n ≠ 0) : phase n (n * a) = 1 := by
  unfold phase
  rw [Complex.exp_eq_one_iff]
  refine ⟨a, ?_⟩
  have : (n : ℂ) ≠ 0 := by exact_mod_cast hn
  push_cast
  field_simp

theorem phase_eq_one_iff (n m : ℤ) (hn : n ≠ 0) : phase n m = 1 ↔ n ∣ m := by
  constructor
  · intro h
    unfold phase at h
    rw [Complex.exp_eq_one_iff] at h
    obtain ⟨a, ha⟩ := h
    refine ⟨a, ?_⟩
    have hn' : (n : ℂ) ≠ 0 := by exact_mod_cast hn
    have h2 : (2 * Real.pi * I : ℂ) ≠ 0 := Complex.two_pi_I_ne_zero
    rw [div_eq_iff hn'] at ha
    have h3 : (2 * Real.pi * I : ℂ) * m = (2 * Real.pi * I : ℂ) * (n * a) := by
      rw [ha]
      ring
    have h4 := mul_left_cancel₀ h2 h3
    exact_mod_cast h4
  · rintro ⟨a, rfl⟩
    exact phase_mul_self n a hn

theorem phase_conj (n m : ℤ) : (starRingEnd ℂ) (phase n m) = phase n (-m) := by
  unfold phase
  rw [← Complex.exp_conj]
  congr 1
  simp only [map_div₀, map_mul, Complex.conj_I, Complex.conj_ofReal, map_intCast, map_ofNat]
  push_cast
  ring

/-- phases depend on the residue only -/
theorem phase_congr (n : ℤ) (hn : n ≠ 0) {a b : ℤ} (h : n ∣ a - b) : phase n a = phase n b := by
  obtain ⟨c, hc⟩ := h
  have : a = n * c + b := by omega
  rw [this, phase_add, phase_mul_self n c hn, one_mul]

theorem phase_pow (n m : ℤ) (k : ℕ) : phase n m ^ k = phase n (k * m) := by
  unfold phase
  rw [← Complex.exp_nat_mul]
  congr 1
  push_cast
  ring

/-- orthogonality of the waves -/
theorem phase_sum (n : ℕ) (m : ℤ) (hn : n ≠ 0) :
    ∑ k ∈ Finset.range n, phase n (k * m) = if (n : ℤ) ∣ m then (n : ℂ) else 0 := by
  have hn' : (n : ℤ) ≠ 0 := by exact_mod_cast hn
  have e : ∑ k ∈ Finset.range n, phase n (k * m) = ∑ k ∈ Finset.range n, phase n m ^ k :=
    Finset.sum_congr rfl fun k _ => (phase_pow n m k).symm
  rw [e]
  split
  · rename_i h
    rw [(phase_eq_one_iff n m hn').2 h]
    simp
  · rename_i h
    have h1 : phase n m ≠ 1 := fun h1 => h ((phase_eq_one_iff n m hn').1 h1)
    rw [geom_sum_eq h1, phase_pow, phase_mul_self n m hn', sub_self, zero_div]

/-- a sum over a period does not depend on its start -/
theorem periodic_sum {n : ℕ} {h : ℤ → ℂ} (hp : ∀ x, h (x + n) = h x) (a : ℕ) :
    ∑ x ∈ Finset.range n, h (x + a) = ∑ x ∈ Finset.range n, h x := by
  induction a with
  | zero => simp
  | succ a ih =>
    rw [← ih]
    have e1 : ∑ x ∈ Finset.range n, h (x + (a + 1 : ℕ)) = ∑ x ∈ Finset.range n, h ((x + 1 : ℕ) + a) := by
      refine Finset.sum_congr rfl fun x _ => ?_
      congr 1
      push_cast
      ring
    have e2 := Finset.sum_range_succ (fun x : ℕ => h (x + a)) n
    rw [Finset.sum_range_succ'] at e2
    rw [e1]
    have e3 : h ((n : ℕ) + a) = h ((0 : ℕ) + a) := by
      rw [add_comm ((n : ℕ) : ℤ), hp]
      simp
    rw [e3] at e2
    exact add_right_cancel e2

end Verif.Fourier
