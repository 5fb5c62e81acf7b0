import Verif.Lemmas.Lattice

set_option autoImplicit false

/-! # Properties C13 and C14: lattice maps -/

namespace Verif.Lattice

/-! ## C13 -/

/-- the cells: indices `0 .. Nx*Ny-1` -/
def IsCell (Nx Ny : ℕ) (c : ℤ) : Prop := 0 ≤ c ∧ c < (Nx * Ny : ℕ)

/-- the coordinate sum of two cells as read by the measurement code:
`latt_sum_map[a + Ncell*b]` -/
def cellAdd (Nx Ny : ℕ) (s : ℤ) (junk : ℤ → ℤ) (a b : ℤ) : ℤ :=
  sumMap Nx Ny s junk (a + (Nx * Ny : ℕ) * b)

theorem exists_point {Nx Ny : ℕ} (hx : 0 < Nx) (s : ℤ) {c : ℤ} (hc : IsCell Nx Ny c) :
    ∃ x y : ℤ, c = cellOf Nx Ny s x y := by
  obtain ⟨i, j, hi, hj, rfl⟩ := exists_coords Nx Ny hx c hc.1 hc.2
  exact ⟨i, j, (cellOf_self _ _ _ _ _ (by omega) (by omega) (by omega) (by omega)).symm⟩

/-- C13: for all lattice sizes and every non-negative `pbc_shift`, the coordinate sum map turns the
set of cells into an abelian group with neutral element 0, and translation by any fixed offset
permutes the cells. -/
theorem sumMap_group (Nx Ny : ℕ) (hx : 0 < Nx) (hy : 0 < Ny) (s : ℤ) (hs : 0 ≤ s)
    (junk : ℤ → ℤ) :
    -- sums are cells again
    (∀ a b, IsCell Nx Ny a → IsCell Nx Ny b → IsCell Nx Ny (cellAdd Nx Ny s junk a b)) ∧
    -- commutative
    (∀ a b, IsCell Nx Ny a → IsCell Nx Ny b →
      cellAdd Nx Ny s junk a b = cellAdd Nx Ny s junk b a) ∧
    -- associative
    (∀ a b c, IsCell Nx Ny a → IsCell Nx Ny b → IsCell Nx Ny c →
      cellAdd Nx Ny s junk (cellAdd Nx Ny s junk a b) c
        = cellAdd Nx Ny s junk a (cellAdd Nx Ny s junk b c)) ∧
    -- cell 0 is neutral
    (∀ a, IsCell Nx Ny a → cellAdd Nx Ny s junk 0 a = a) ∧
    -- every equation `k + a = b` has exactly one solution `k`
    (∀ a b, IsCell Nx Ny a → IsCell Nx Ny b →
      ∃! k, IsCell Nx Ny k ∧ cellAdd Nx Ny s junk k a = b) := by
  have hadd : ∀ x y x' y', cellAdd Nx Ny s junk (cellOf Nx Ny s x y) (cellOf Nx Ny s x' y')
      = cellOf Nx Ny s (x + x') (y + y') := fun x y x' y' =>
    sumMap_cellOf Nx Ny hx hy s hs junk x y x' y'
  have hcell : ∀ x y, IsCell Nx Ny (cellOf Nx Ny s x y) := fun x y =>
    ⟨cellOf_nonneg Nx Ny hx hy s x y, cellOf_lt Nx Ny hx hy s x y⟩
  refine ⟨?_, ?_, ?_, ?_, ?_⟩
  · intro a b ha hb
    obtain ⟨x, y, rfl⟩ := exists_point hx s ha
    obtain ⟨x', y', rfl⟩ := exists_point hx s hb
    rw [hadd]; exact hcell _ _
  · intro a b ha hb
    obtain ⟨x, y, rfl⟩ := exists_point hx s ha
    obtain ⟨x', y', rfl⟩ := exists_point hx s hb
    rw [hadd, hadd, add_comm x, add_comm y]
  · intro a b c ha hb hc
    obtain ⟨x, y, rfl⟩ := exists_point hx s ha
    obtain ⟨x', y', rfl⟩ := exists_point hx s hb
    obtain ⟨x'', y'', rfl⟩ := exists_point hx s hc
    rw [hadd, hadd, hadd, hadd, add_assoc, add_assoc]
  · intro a ha
    obtain ⟨x, y, rfl⟩ := exists_point hx s ha
    have h0 : (0 : ℤ) = cellOf Nx Ny s 0 0 := by unfold cellOf; simp
    conv_lhs => rw [h0]
    rw [hadd, zero_add, zero_add]
  · intro a b ha hb
    obtain ⟨x, y, rfl⟩ := exists_point hx s ha
    obtain ⟨x', y', rfl⟩ := exists_point hx s hb
    refine ⟨cellOf Nx Ny s (x' - x) (y' - y), ⟨hcell _ _, ?_⟩, ?_⟩
    · simp only [hadd, sub_add_cancel]
    · rintro k ⟨hk, hka⟩
      obtain ⟨u, v, rfl⟩ := exists_point hx s hk
      rw [hadd, cellOf_eq_iff Nx Ny hx hy] at hka
      obtain ⟨m, n, h1, h2⟩ := hka
      rw [cellOf_eq_iff Nx Ny hx hy]
      exact ⟨m, n, by linarith, by linarith⟩

/-- C13 (only offset 0 fixes a cell) -/
theorem sumMap_fixed (Nx Ny : ℕ) (hx : 0 < Nx) (hy : 0 < Ny) (s : ℤ) (hs : 0 ≤ s)
    (junk : ℤ → ℤ) (k a : ℤ) (hk : IsCell Nx Ny k) (ha : IsCell Nx Ny a) :
    cellAdd Nx Ny s junk k a = a ↔ k = 0 := by
  obtain ⟨-, -, -, h0, huniq⟩ := sumMap_group Nx Ny hx hy s hs junk
  constructor
  · intro h
    have h0c : IsCell Nx Ny 0 := ⟨le_rfl, by exact_mod_cast Nat.mul_pos hx hy⟩
    exact (huniq a a ha ha).unique ⟨hk, h⟩ ⟨h0c, h0 a ha⟩
  · rintro rfl; exact h0 a ha

/-- C13 (meaning): the coordinate sum is addition of points of the twisted periodic plane. -/
theorem sumMap_is_addition (Nx Ny : ℕ) (hx : 0 < Nx) (hy : 0 < Ny) (s : ℤ) (hs : 0 ≤ s)
    (junk : ℤ → ℤ) (x y x' y' : ℤ) :
    cellAdd Nx Ny s junk (cellOf Nx Ny s x y) (cellOf Nx Ny s x' y')
      = cellOf Nx Ny s (x + x') (y + y') := sumMap_cellOf Nx Ny hx hy s hs junk x y x' y'

/-- non-vacuity: on a 4×3 lattice with shift 1, the top row cell (3,2) plus (2,1) wraps in both
directions and is moved by the shift to (2,0) -/
example : cellOf 4 3 1 3 2 = 11 ∧ cellOf 4 3 1 2 1 = 6 ∧ cellOf 4 3 1 5 3 = 2 ∧
    cellAdd 4 3 1 (fun _ => 99) 11 6 = 2 := by decide

/-! ## C14 -/

theorem nextIdx_range {n i : ℤ} (h0 : 0 ≤ i) (h1 : i < n) : 0 ≤ nextIdx n i ∧ nextIdx n i < n := by
  unfold nextIdx; split <;> omega

theorem prevIdx_range {n i : ℤ} (h0 : 0 ≤ i) (h1 : i < n) : 0 ≤ prevIdx n i ∧ prevIdx n i < n := by
  unfold prevIdx; split <;> omega

theorem next_prev {n i : ℤ} (h0 : 0 ≤ i) (h1 : i < n) : nextIdx n (prevIdx n i) = i := by
  unfold nextIdx prevIdx; split <;> split <;> omega

theorem prev_next {n i : ℤ} (h0 : 0 ≤ i) (h1 : i < n) : prevIdx n (nextIdx n i) = i := by
  unfold nextIdx prevIdx; split <;> split <;> omega

theorem nn_apply' (Nx Ny : ℕ) (f : ℤ → ℤ → ℤ) (junk : ℤ → ℤ) (i j : ℤ) (h0 : 0 ≤ i) (hi : i < Nx)
    (h1 : 0 ≤ j) (hj : j < Ny) :
    Mem.assignAll junk (nnWrites Nx Ny f) (i + Nx * j) = f i j := by
  obtain ⟨i, rfl⟩ := Int.eq_ofNat_of_zero_le h0
  obtain ⟨j, rfl⟩ := Int.eq_ofNat_of_zero_le h1
  exact nn_apply Nx Ny f junk i j (by omega) (by omega)

/-- C14 (true part): the nearest-neighbour maps in x, and those in y, are inverse to each other on
the cells, and map cells to cells. -/
theorem nnMaps_inverse (Nx Ny : ℕ) (hx : 0 < Nx) (junk : ℤ → ℤ) (c : ℤ) (hc : IsCell Nx Ny c) :
    xp1Map Nx Ny junk (xm1Map Nx Ny junk c) = c ∧ xm1Map Nx Ny junk (xp1Map Nx Ny junk c) = c ∧
    yp1Map Nx Ny junk (ym1Map Nx Ny junk c) = c ∧ ym1Map Nx Ny junk (yp1Map Nx Ny junk c) = c ∧
    IsCell Nx Ny (xp1Map Nx Ny junk c) ∧ IsCell Nx Ny (xm1Map Nx Ny junk c) ∧
    IsCell Nx Ny (yp1Map Nx Ny junk c) ∧ IsCell Nx Ny (ym1Map Nx Ny junk c) := by
  obtain ⟨i, j, hi, hj, rfl⟩ := exists_coords Nx Ny hx c hc.1 hc.2
  have i0 : (0 : ℤ) ≤ i := by omega
  have i1 : (i : ℤ) < Nx := by omega
  have j0 : (0 : ℤ) ≤ j := by omega
  have j1 : (j : ℤ) < Ny := by omega
  have hin := nextIdx_range i0 i1
  have hip := prevIdx_range i0 i1
  have hjn := nextIdx_range j0 j1
  have hjp := prevIdx_range j0 j1
  have hcell : ∀ a b : ℤ, 0 ≤ a → a < Nx → 0 ≤ b → b < Ny → IsCell Nx Ny (a + Nx * b) := by
    intro a b ha ha' hb hb'
    have h1 := cellOf_self Nx Ny 0 a b ha ha' hb hb'
    rw [← h1]
    exact ⟨cellOf_nonneg Nx Ny hx (by omega) 0 a b, cellOf_lt Nx Ny hx (by omega) 0 a b⟩
  unfold xp1Map xm1Map yp1Map ym1Map
  simp only [nn_apply' Nx Ny _ junk i j i0 i1 j0 j1, nn_apply' Nx Ny _ junk _ j hin.1 hin.2 j0 j1,
    nn_apply' Nx Ny _ junk _ j hip.1 hip.2 j0 j1, nn_apply' Nx Ny _ junk i _ i0 i1 hjn.1 hjn.2,
    nn_apply' Nx Ny _ junk i _ i0 i1 hjp.1 hjp.2, next_prev i0 i1, prev_next i0 i1,
    next_prev j0 j1, prev_next j0 j1, true_and]
  exact ⟨hcell _ _ hin.1 hin.2 j0 j1, hcell _ _ hip.1 hip.2 j0 j1, hcell _ _ i0 i1 hjn.1 hjn.2,
    hcell _ _ i0 i1 hjp.1 hjp.2⟩

/-- C14 (x direction): the maps in x step to the geometric neighbours for every `pbc_shift`. -/
theorem xMaps_geometric (Nx Ny : ℕ) (s : ℤ) (junk : ℤ → ℤ) (i j : ℤ)
    (hi : 0 ≤ i) (hi' : i < Nx) (hj : 0 ≤ j) (hj' : j < Ny) :
    xp1Map Nx Ny junk (cellOf Nx Ny s i j) = cellOf Nx Ny s (i + 1) j ∧
    xm1Map Nx Ny junk (cellOf Nx Ny s i j) = cellOf Nx Ny s (i - 1) j := by
  rw [cellOf_self Nx Ny s i j hi hi' hj hj']
  unfold xp1Map xm1Map
  simp only [nn_apply' Nx Ny _ junk i j hi hi' hj hj', nextIdx_eq_emod _ _ hi hi',
    prevIdx_eq_emod _ _ hi hi']
  unfold cellOf
  rw [Int.ediv_eq_zero_of_lt hj hj', mul_zero, add_zero, add_zero, Int.emod_eq_of_lt hj hj']
  exact ⟨rfl, rfl⟩

/-- C14_partial (y direction): the maps in y step to the geometric neighbour of the twisted lattice
for all cells exactly when `Nx` divides `pbc_shift`.  The full property (agreement for every
`pbc_shift`) is false, see `yMaps_not_geometric`. -/
theorem yMaps_geometric_partial (Nx Ny : ℕ) (hx : 0 < Nx) (hy : 0 < Ny) (s : ℤ) (junk : ℤ → ℤ) :
    (∀ i j : ℤ, 0 ≤ i → i < Nx → 0 ≤ j → j < Ny →
      yp1Map Nx Ny junk (cellOf Nx Ny s i j) = cellOf Nx Ny s i (j + 1) ∧
      ym1Map Nx Ny junk (cellOf Nx Ny s i j) = cellOf Nx Ny s i (j - 1)) ↔ (Nx : ℤ) ∣ s := by
  have hx0 : (0 : ℤ) < Nx := by exact_mod_cast hx
  have hy0 : (0 : ℤ) < Ny := by exact_mod_cast hy
  constructor
  · intro h
    have h1 := (h 0 (Ny - 1) le_rfl hx0 (by omega) (by omega)).1
    rw [cellOf_self Nx Ny s 0 (Ny - 1) le_rfl hx0 (by omega) (by omega)] at h1
    unfold yp1Map at h1
    rw [nn_apply' Nx Ny _ junk 0 (Ny - 1) le_rfl hx0 (by omega) (by omega),
      nextIdx_eq_emod _ _ (by omega) (by omega)] at h1
    unfold cellOf at h1
    rw [sub_add_cancel, Int.emod_self, Int.ediv_self hy0.ne', mul_one, mul_zero, add_zero,
      zero_add, add_zero] at h1
    exact Int.dvd_of_emod_eq_zero h1.symm
  · rintro ⟨q, rfl⟩ i j hi hi' hj hj'
    rw [cellOf_self Nx Ny _ i j hi hi' hj hj']
    unfold yp1Map ym1Map
    simp only [nn_apply' Nx Ny _ junk i j hi hi' hj hj', nextIdx_eq_emod _ _ hj hj',
      prevIdx_eq_emod _ _ hj hj']
    unfold cellOf
    constructor
    · rw [mul_assoc, Int.add_mul_emod_self_left, Int.emod_eq_of_lt hi hi']
    · rw [mul_assoc, Int.add_mul_emod_self_left, Int.emod_eq_of_lt hi hi']

/-- C14 is false for twisted boundary conditions: on a 4×3 lattice with `pbc_shift = 1` the map
`latt_yp1_map` sends the cell (0,2) to (0,0), while the neighbour used by the hopping matrix and by
the coordinate sum is (1,0). -/
theorem yMaps_not_geometric (junk : ℤ → ℤ) :
    yp1Map 4 3 junk (cellOf 4 3 1 0 2) = cellOf 4 3 1 0 0 ∧
    cellOf 4 3 1 0 (2 + 1) = cellOf 4 3 1 1 0 ∧
    yp1Map 4 3 junk (cellOf 4 3 1 0 2) ≠ cellOf 4 3 1 0 (2 + 1) ∧
    cellAdd 4 3 1 junk (cellOf 4 3 1 0 2) (cellOf 4 3 1 0 1) = cellOf 4 3 1 1 0 := by
  have h : yp1Map 4 3 junk (cellOf 4 3 1 0 2) = 0 := by
    rw [cellOf_self 4 3 1 0 2 (by decide) (by decide) (by decide) (by decide)]
    unfold yp1Map
    rw [nn_apply' 4 3 _ junk 0 2 (by decide) (by decide) (by decide) (by decide)]
    decide
  refine ⟨h.trans (by decide), by decide, by rw [h]; decide, ?_⟩
  rw [sumMap_is_addition 4 3 (by decide) (by decide) 1 (by decide)]
  decide

/-- non-vacuity of `nnMaps_inverse` and `yMaps_geometric_partial` -/
example : IsCell 4 3 11 ∧ ((4 : ℕ) : ℤ) ∣ 8 := ⟨by unfold IsCell; decide, by decide⟩

end Verif.Lattice
