import Verif.Model.Lattice
import Mathlib.Tactic.Ring
import Mathlib.Tactic.Linarith
import Mathlib.Data.Int.ModEq

set_option autoImplicit false

namespace Verif.Lattice

open Verif.Mem

/-- Specification of the lattice: the plane ℤ×ℤ of unit cells, where moving `Nx` steps in x returns
to the same cell and moving `Ny` steps in y is the same as moving `s` steps in x (`pbc_shift`).
`cellOf` is the index (column first) of the cell at the point `(x, y)`. -/
def cellOf (Nx Ny : ℕ) (s x y : ℤ) : ℤ := (x + s * (y / Ny)) % Nx + Nx * (y % Ny)

theorem idx_decomp {Nx : ℕ} (hx : 0 < Nx) {i i' j j' : ℤ} (hi : 0 ≤ i) (hi' : i < Nx) (hj : 0 ≤ i')
    (hj' : i' < Nx) (h : i + Nx * j = i' + Nx * j') : i = i' ∧ j = j' := by
  have h1 : (i + Nx * j) % Nx = i := by
    rw [Int.add_mul_emod_self_left, Int.emod_eq_of_lt hi hi']
  have h2 : (i' + Nx * j') % Nx = i' := by
    rw [Int.add_mul_emod_self_left, Int.emod_eq_of_lt hj hj']
  have h3 : i = i' := by rw [← h1, ← h2, h]
  subst h3
  have : (Nx : ℤ) ≠ 0 := by exact_mod_cast hx.ne'
  exact ⟨rfl, by
    have : (Nx : ℤ) * j = Nx * j' := by linarith
    exact mul_left_cancel₀ ‹(Nx : ℤ) ≠ 0› this⟩

theorem cellOf_nonneg (Nx Ny : ℕ) (hx : 0 < Nx) (hy : 0 < Ny) (s x y : ℤ) :
    0 ≤ cellOf Nx Ny s x y := by
  unfold cellOf
  have h1 := Int.emod_nonneg (x + s * (y / Ny)) (b := Nx) (by exact_mod_cast hx.ne')
  have h2 := Int.emod_nonneg y (b := Ny) (by exact_mod_cast hy.ne')
  positivity

theorem cellOf_lt (Nx Ny : ℕ) (hx : 0 < Nx) (hy : 0 < Ny) (s x y : ℤ) :
    cellOf Nx Ny s x y < (Nx * Ny : ℕ) := by
  unfold cellOf
  have h1 := Int.emod_lt_of_pos (x + s * (y / Ny)) (b := Nx) (by exact_mod_cast hx)
  have h2 := Int.emod_lt_of_pos y (b := Ny) (by exact_mod_cast hy)
  have : (Nx : ℤ) * (y % Ny) ≤ Nx * (Ny - 1) := by
    apply mul_le_mul_of_nonneg_left <;> omega
  push_cast
  nlinarith

theorem cellOf_self (Nx Ny : ℕ) (s i j : ℤ) (hi : 0 ≤ i) (hi' : i < Nx) (hj : 0 ≤ j)
    (hj' : j < Ny) : cellOf Nx Ny s i j = i + Nx * j := by
  unfold cellOf
  rw [Int.ediv_eq_zero_of_lt hj hj', mul_zero, add_zero, Int.emod_eq_of_lt hi hi',
    Int.emod_eq_of_lt hj hj']

/-- coordinates of a cell index -/
theorem exists_coords (Nx Ny : ℕ) (hx : 0 < Nx) (c : ℤ) (hc : 0 ≤ c) (hc' : c < (Nx * Ny : ℕ)) :
    ∃ i j : ℕ, i < Nx ∧ j < Ny ∧ c = i + Nx * j := by
  obtain ⟨n, rfl⟩ := Int.eq_ofNat_of_zero_le hc
  have hn : n < Nx * Ny := by exact_mod_cast hc'
  refine ⟨n % Nx, n / Nx, Nat.mod_lt _ hx, Nat.div_lt_of_lt_mul hn, ?_⟩
  have := Nat.mod_add_div n Nx
  exact_mod_cast this.symm

theorem cellOf_eq_iff (Nx Ny : ℕ) (hx : 0 < Nx) (hy : 0 < Ny) (s x y x' y' : ℤ) :
    cellOf Nx Ny s x y = cellOf Nx Ny s x' y' ↔
      ∃ m n : ℤ, x' = x + Nx * m - s * n ∧ y' = y + Ny * n := by
  have hx0 : (Nx : ℤ) ≠ 0 := by exact_mod_cast hx.ne'
  have hy0 : (Ny : ℤ) ≠ 0 := by exact_mod_cast hy.ne'
  constructor
  · intro h
    unfold cellOf at h
    obtain ⟨h1, h2⟩ := idx_decomp hx (Int.emod_nonneg _ hx0)
      (Int.emod_lt_of_pos _ (by exact_mod_cast hx)) (Int.emod_nonneg _ hx0)
      (Int.emod_lt_of_pos _ (by exact_mod_cast hx)) h
    obtain ⟨m, hm⟩ := Int.ModEq.dvd
      (show (x + s * (y / Ny)) ≡ (x' + s * (y' / Ny)) [ZMOD Nx] from h1)
    refine ⟨m, y' / Ny - y / Ny, by linarith, ?_⟩
    have e1 := Int.emod_add_mul_ediv y Ny
    have e2 := Int.emod_add_mul_ediv y' Ny
    rw [h2] at e1
    linarith
  · rintro ⟨m, n, rfl, rfl⟩
    unfold cellOf
    rw [Int.add_mul_ediv_left _ _ hy0, Int.add_mul_emod_self_left]
    have : x + Nx * m - s * n + s * (y / Ny + n) = x + s * (y / Ny) + Nx * m := by ring
    rw [this, Int.add_mul_emod_self_left]

/-- value of the sum map on coordinates -/
theorem sumMap_apply (Nx Ny : ℕ) (s : ℤ) (hs : 0 ≤ s) (junk : ℤ → ℤ) (i j k l : ℕ)
    (hi : i < Nx) (hj : j < Ny) (hk : k < Nx) (hl : l < Ny) :
    sumMap Nx Ny s junk (((i : ℤ) + Nx * j) + (Nx * Ny : ℕ) * ((k : ℤ) + Nx * l))
      = cellOf Nx Ny s (i + k) (j + l) := by
  have hx : 0 < Nx := by omega
  have hy : 0 < Ny := by omega
  have hval : ∀ i j k l : ℕ, i < Nx → j < Ny → k < Nx → l < Ny →
      Int.tmod ((i : ℤ) + k + (if (j : ℤ) + l < Ny then 0 else s)) Nx + Nx * Int.tmod ((j : ℤ) + l) Ny
        = cellOf Nx Ny s (i + k) (j + l) := by
    intro i j k l hi hj hk hl
    unfold cellOf
    rw [Int.tmod_eq_emod_of_nonneg (by split <;> omega), Int.tmod_eq_emod_of_nonneg (by omega)]
    by_cases h : (j : ℤ) + l < Ny
    · rw [if_pos h, Int.ediv_eq_zero_of_lt (by omega) h, mul_zero]
    · rw [if_neg h]
      have : ((j : ℤ) + l) / Ny = 1 := by
        rw [Int.ediv_eq_iff_of_pos (by exact_mod_cast hy)]
        constructor <;> omega
      rw [this, mul_one]
  unfold sumMap
  apply assignAll_of_mem
  · unfold sumMapWrites
    simp only [mem_forLoop]
    refine ⟨j, hj, i, hi, l, hl, k, hk, ?_⟩
    rw [hval i j k l hi hj hk hl]
    simp
  · intro w hw hwi
    unfold sumMapWrites at hw
    simp only [mem_forLoop] at hw
    obtain ⟨j', hj', i', hi', l', hl', k', hk', hw⟩ := hw
    rw [List.mem_singleton] at hw
    subst hw
    simp only at hwi ⊢
    rw [hval i' j' k' l' hi' hj' hk' hl']
    have hb : ∀ i j : ℕ, i < Nx → j < Ny → (i : ℤ) + Nx * j < (Nx * Ny : ℕ) := by
      intro i j hi hj
      have : i + Nx * j < Nx * Ny := by
        have : Nx * j ≤ Nx * (Ny - 1) := Nat.mul_le_mul_left _ (by omega)
        have h2 : Nx * (Ny - 1) + Nx = Nx * Ny := by
          rw [← Nat.mul_succ]; congr 1; omega
        omega
      exact_mod_cast this
    obtain ⟨h1, h2⟩ := idx_decomp (Nx := Nx * Ny) (Nat.mul_pos hx hy) (by positivity)
      (hb i' j' hi' hj') (by positivity) (hb i j hi hj) hwi
    obtain ⟨h3, h4⟩ := idx_decomp hx (by omega) (by omega) (by omega) (by omega) h1
    obtain ⟨h5, h6⟩ := idx_decomp hx (by omega) (by omega) (by omega) (by omega) h2
    rw [h3, h4, h5, h6]

/-- the sum map adds points of the plane -/
theorem sumMap_cellOf (Nx Ny : ℕ) (hx : 0 < Nx) (hy : 0 < Ny) (s : ℤ) (hs : 0 ≤ s)
    (junk : ℤ → ℤ) (x y x' y' : ℤ) :
    sumMap Nx Ny s junk (cellOf Nx Ny s x y + (Nx * Ny : ℕ) * cellOf Nx Ny s x' y')
      = cellOf Nx Ny s (x + x') (y + y') := by
  have hx0 : (Nx : ℤ) ≠ 0 := by exact_mod_cast hx.ne'
  have hy0 : (Ny : ℤ) ≠ 0 := by exact_mod_cast hy.ne'
  have key : ∀ x y : ℤ, ∃ i j : ℕ, i < Nx ∧ j < Ny ∧ cellOf Nx Ny s x y = (i : ℤ) + Nx * j := by
    intro x y
    exact exists_coords Nx Ny hx _ (cellOf_nonneg Nx Ny hx hy s x y) (cellOf_lt Nx Ny hx hy s x y)
  obtain ⟨i, j, hi, hj, hc⟩ := key x y
  obtain ⟨k, l, hk, hl, hc'⟩ := key x' y'
  rw [hc, hc', sumMap_apply Nx Ny s hs junk i j k l hi hj hk hl]
  have e1 : cellOf Nx Ny s i j = cellOf Nx Ny s x y := by
    rw [hc, cellOf_self] <;> omega
  have e2 : cellOf Nx Ny s k l = cellOf Nx Ny s x' y' := by
    rw [hc', cellOf_self] <;> omega
  obtain ⟨m, n, h1, h2⟩ := (cellOf_eq_iff Nx Ny hx hy s _ _ _ _).1 e1
  obtain ⟨m', n', h3, h4⟩ := (cellOf_eq_iff Nx Ny hx hy s _ _ _ _).1 e2
  rw [cellOf_eq_iff Nx Ny hx hy]
  exact ⟨m + m', n + n', by rw [h1, h3]; ring, by rw [h2, h4]; ring⟩

theorem nn_apply (Nx Ny : ℕ) (f : ℤ → ℤ → ℤ) (junk : ℤ → ℤ) (i j : ℕ)
    (hi : i < Nx) (hj : j < Ny) :
    assignAll junk (nnWrites Nx Ny f) ((i : ℤ) + Nx * j) = f i j := by
  have hx : 0 < Nx := by omega
  apply assignAll_of_mem
  · simp only [nnWrites, mem_forLoop]
    exact ⟨j, hj, i, hi, by simp⟩
  · intro w hw hwi
    simp only [nnWrites, mem_forLoop] at hw
    obtain ⟨j', hj', i', hi', hw⟩ := hw
    rw [List.mem_singleton] at hw
    subst hw
    obtain ⟨h1, h2⟩ := idx_decomp hx (by omega) (by omega) (by omega) (by omega) hwi
    simp only [h1, h2]

theorem nextIdx_eq_emod (n i : ℤ) (h0 : 0 ≤ i) (h1 : i < n) : nextIdx n i = (i + 1) % n := by
  unfold nextIdx
  split
  · rw [Int.emod_eq_of_lt (by omega) (by omega)]
  · have : i + 1 = n := by omega
    rw [this, Int.emod_self]

theorem prevIdx_eq_emod (n i : ℤ) (h0 : 0 ≤ i) (h1 : i < n) : prevIdx n i = (i - 1) % n := by
  unfold prevIdx
  split
  · rw [Int.emod_eq_of_lt (by omega) (by omega)]
  · have : i = 0 := by omega
    subst this
    rw [← Int.add_mul_emod_self_left (0 - 1) n 1, Int.emod_eq_of_lt (by omega) (by omega)]
    omega

end Verif.Lattice
