import Verif.Props.Index

set_option autoImplicit false

/-!
# C91, continued: Green's functions at unequal times and the measurements
-/

namespace Verif.Index

theorem domatcopy_safe {f : String} {ln : ℕ} {r c sa lda sb ldb : I} {oa ob : List I}
    (h1 : (Event.access f ln sa oa r c lda).ok) (h2 : (Event.access f ln sb ob r c ldb).ok) :
    Safe (domatcopy f ln r c sa oa lda sb ob ldb) := by
  simp only [domatcopy, safe_cons, safe_nil_iff, and_true]
  exact ⟨h1, h2⟩

/-- what measurements at unequal times need: at least two products of time step matrices, and the block matrix and the
Green's functions can be indexed -/
structure Uneq (n l k : ℤ) : Prop where
  k2 : 2 ≤ k
  nk : n * n * k * k ≤ maxInt
  nl : n * n * l ≤ maxInt

namespace Uneq

variable {n l k : ℤ} (u : Uneq n l k)
include u

theorem sq : n * k * (n * k) ≤ maxInt := by
  have e : n * k * (n * k) = n * n * k * k := by ring
  rw [e]
  exact u.nk

theorem vH {N K : I} (hN : V N n) (hK : V K k) (hn : 1 ≤ n) : V (N * N * K * K) (n * k * (n * k)) := by
  have k2 := u.k2
  have h1 : 0 ≤ n * n := mul_nonneg (by omega) (by omega)
  have h2 : 0 ≤ n * n * k := mul_nonneg h1 (by omega)
  have h3 : n * n * k ≤ n * n * k * k := le_mul_of_one_le_right h2 (by omega)
  have h4 := u.nk
  exact (V_mul (V_mul3 hN hN hK (by omega) (by omega) (by omega) (by omega)) hK h2 (by omega) h4).of_eq (by ring)

theorem v01 {N L : I} (hN : V N n) (hL : V L l) (hn : 1 ≤ n) (hl : 1 ≤ l) : V (N * N * L) (n * n * l) :=
  V_mul3 hN hN hL (by omega) (by omega) hl u.nl

theorem v10 {N L : I} (hN : V N n) (hL : V L l) (hn : 1 ≤ n) (hl : 1 ≤ l) : V (N * L * N) (n * l * n) :=
  V_mul3 hN hL hN (by omega) (by omega) hn (by have := u.nl; rwa [mul_right_comm] at this)

/-- the matrix for a time slice -/
theorem slab {z : ℤ} {N i : I} (hN : V N n) (hi : V i z) (hn : 1 ≤ n) (h0 : 0 ≤ z) (hz : z < l) :
    V (i * N * N) (z * n * n) ∧ 0 ≤ z * n * n ∧ z * n * n + n * n ≤ n * n * l := by
  have h1 : n * n * (z + 1) ≤ n * n * l := mul_le_mul_of_nonneg_left (by omega) (mul_nonneg (by omega) (by omega))
  have e : n * n * (z + 1) = z * n * n + n * n := by ring
  have h2 : 0 ≤ n * n := mul_nonneg (by omega) (by omega)
  have h3 := u.nl
  refine ⟨V_mul3 hi hN hN h0 (by omega) hn (by omega), mul_nonneg (mul_nonneg h0 (by omega)) (by omega), by omega⟩

end Uneq

theorem slab_ok {f : String} {ln : ℕ} {size off N : I} {s b n : ℤ} (hs : V size s) (ho : V off b) (hN : V N n) (hn : 1 ≤ n)
    (hb : 0 ≤ b) (h : b + n * n ≤ s) : (Event.access f ln size [off] N N N).ok := by
  refine ⟨s, b, n, n, n, hs, offset_one ho, hN, hN, hN, by omega, by omega, by omega, fun _ _ => ⟨hb, ?_⟩⟩
  have e : b + (n - 1) + (n - 1) * n = b + n * n - 1 := by ring
  omega

theorem unequalTimeGreens_safe {o x y n l b k : ℤ} (d : Dims o x y n) (t : Slices l b k n) (u : Uneq n l k)
    {N L B H S10 S01 : I} (hN : V N n) (hL : V L l) (hB : V B b) (hH : V H (n * k * (n * k))) (h10 : V S10 (n * l * n))
    (h01 : V S01 (n * n * l)) : Safe (unequalTimeGreens N L B H S10 S01) := by
  have hNN := d.vnn hN
  have n1 := d.n1
  have hK := t.vk hL hB
  have k2 := u.k2
  have l1 := t.l1
  have b1 := t.b1
  have hlm := t.lm
  have hln := t.ln
  have hkl := t.k_le
  have hsq := u.sq
  have hnn0 : 0 ≤ n * n := mul_nonneg (by omega) (by omega)
  have hsz := u.vH hN hK n1
  obtain ⟨d1, d2, d3, d4⟩ := dims_of_sq n1 (show 1 ≤ k by omega) hsq
  have hM : V (L / B * N) (n * k) := (V_mul hK hN (by omega) (by omega) (by rw [mul_comm]; simp only [maxInt]; omega)).of_eq (mul_comm _ _)
  have hK1 : V (L / B - 1) (k - 1) := V_sub hK V_one (by simp only [maxInt]; omega) (by omega)
  have hLN := t.vln hL hN (by omega)
  have l_le_ln : l ≤ l * n := le_mul_of_one_le_right (by omega) n1
  have pred : ∀ z : ℤ, 1 ≤ z → z < l → V ((z : I) - 1) (z - 1) := fun z h1 h2 =>
    V_sub (V_coe z) V_one (by simp only [maxInt]; omega) (by omega)
  have quot : ∀ z : ℤ, 0 ≤ z → z < l → V ((z : I) / B) (z / b) ∧ 0 ≤ z / b ∧ z / b < k := by
    intro z h0 h1
    refine ⟨V_div (V_coe z) hB h0 (by omega) (by omega), Int.ediv_nonneg h0 (by omega), Int.ediv_lt_of_lt_mul (by omega) ?_⟩
    rw [mul_comm, ← t.l_eq]
    exact h1
  have rem : ∀ z : ℤ, 0 ≤ z → z < l → V ((z : I) % B) (z % b) := fun z h0 h1 => V_mod (V_coe z) hB h0 (by omega) (by omega)
  have pos : ∀ z : ℤ, 0 ≤ z → eq (z % b) 0 = false → 1 ≤ z := by
    intro z h0 h1
    simp only [eq, decide_eq_false_iff_not] at h1
    by_contra hc
    have : z = 0 := by omega
    rw [this] at h1
    exact h1 (Int.zero_emod b)
  -- column of the block `z` of `Gtau0`
  have row : ∀ (z : ℤ) {f : String} {ln : ℕ} {i : I}, V i z → 0 ≤ z → z < l → (Event.access f ln S10 [i * N] N N (L * N)).ok := by
    intro z f ln i hi h0 h1
    have h2 : (z + 1) * n ≤ l * n := mul_le_mul_of_nonneg_right (by omega) (by omega)
    rw [add_mul, one_mul] at h2
    have h3 : 0 ≤ z * n := mul_nonneg h0 (by omega)
    exact rect_ok (ro := z * n) (co := 0) (k := n) h10 (by rw [mul_comm l n]) (V_mul hi hN h0 (by omega) (by omega)) hN hN hLN
      (by ring) h3 (by omega) (by omega) (by omega) (by omega) (by omega) (by omega)
  have mul_n : ∀ z : ℤ, 0 ≤ z → z < k → 0 ≤ z * n ∧ z * n + n ≤ n * k := by
    intro z h0 h1
    have := fit (k := 1) n1 (show z + 1 ≤ k by omega)
    rw [one_mul] at this
    exact ⟨mul_nonneg h0 (by omega), this⟩
  simp only [unequalTimeGreens, safe_append, safe_singleton]
  refine ⟨⟨⟨⟨⟨⟨run1_ok' hH hsz (by have := mul_nonneg hnn0 (mul_nonneg (by omega : 0 ≤ k) (by omega : 0 ≤ k)); have e : n * k * (n * k) = n * n * (k * k) := by {ring}; omega),
    safe_loop0 hM fun i hi => safe_singleton.2 ?_⟩, (safe_loop V_zero hK).2 fun z hz hzk => ?_⟩,
    blockCyclicInverse_safe hN hK n1 k2 hsq hH⟩, (safe_loop V_zero hL).2 fun z hz hzl => ?_⟩,
    (safe_loop V_zero hL).2 fun z hz hzl => ?_⟩, (safe_loop V_zero hL).2 fun z hz hzl => ?_⟩
  · obtain ⟨w, hw, hw0, hwm⟩ := hi
    have hr := radix_lt hw0 hwm hw0 hwm
    have e : n * k * w = w * k * n := by ring
    have h1 : 0 ≤ w * k * n := mul_nonneg (mul_nonneg hw0 (by omega)) (by omega)
    exact el_ok hH ⟨w + w * k * n, V_add hw (V_mul3 hw hK hN hw0 (by omega) n1 (by omega)) (by omega) (by omega), by omega, by omega⟩
  · refine safe_append.2 ⟨safe_singleton.2 (el_ok hK ⟨z, V_coe z, hz, hzk⟩), (safe_cond (V_coe z) hK1).2 ⟨fun hc => domatcopy_safe (full_ok hNN hN n1) ?_,
      fun _ => domatcopy_safe (full_ok hNN hN n1) ?_⟩⟩
    · simp only [lt, decide_eq_true_eq] at hc
      have h1 := mul_n z hz hzk
      have h2 := mul_n (z + 1) (by omega) (by omega)
      exact block_ok hH (V_blk hN hM (V_add (V_coe z) V_one (by omega) (by omega)) (V_coe z) (by omega) hz n1 (by omega)
        (blk_le n1 (by omega) hzk hz hsq)) hN hN hM rfl h2.1 h1.1 (by omega) (by omega) h2.2 h1.2 d3
    · have h1 := mul_n (k - 1) (by omega) (by omega)
      exact block_ok hH (V_col hN hM hK1 (by omega) n1 (by omega) (col_le n1 (by omega) (by omega) hsq)) hN hN hM rfl
        (le_refl _) h1.1 (by omega) (by omega) (by omega) h1.2 d3
  · refine (safe_cond (rem z hz hzl) V_zero).2 ⟨fun _ => ?_, fun hc => ?_⟩
    · obtain ⟨q1, q2, q3⟩ := quot z hz hzl
      have h1 := mul_n _ q2 q3
      exact domatcopy_safe (block_ok (ro := z / b * n) (co := 0) hH (V_mul q1 hN q2 (by omega) (by simp only [maxInt]; omega)) hN hN hM (by ring) h1.1
        (le_refl _) (by omega) (by omega) h1.2 (by omega) d3) (row z (V_coe z) hz hzl)
    · have h1 := pos z hz hc
      simp only [safe_cons, safe_nil_iff, and_true]
      exact ⟨el_ok hL ⟨_, pred z h1 hzl, by omega, by omega⟩, full_ok hNN hN n1, row (z - 1) (pred z h1 hzl) (by omega) (by omega),
        row z (V_coe z) hz hzl⟩
  · obtain ⟨s1, s2, s3⟩ := u.slab hN (V_coe z) n1 hz hzl
    refine (safe_cond (rem z hz hzl) V_zero).2 ⟨fun _ => ?_, fun hc => (safe_cond (V_coe z) V_one).2 ⟨fun hc1 => ?_, fun hc1 => ?_⟩⟩
    · obtain ⟨q1, q2, q3⟩ := quot z hz hzl
      have h1 := mul_n _ q2 q3
      refine domatcopy_safe (block_ok (ro := 0) (co := z / b * n) (b := z / b * k * n * n) hH ?_ hN hN hM (by ring) (le_refl _) h1.1 (by omega)
        (by omega) (by omega) h1.2 d3) (slab_ok h01 s1 hN n1 s2 s3)
      have h2 := col_le n1 q3 q2 hsq
      have e : n * k * (z / b) * n = z / b * k * n * n := by ring
      have h3 : 0 ≤ z / b * k := mul_nonneg q2 (by omega)
      have h4 : 0 ≤ z / b * k * n := mul_nonneg h3 (by omega)
      have h5 : z / b * k * n ≤ z / b * k * n * n := le_mul_of_one_le_right h4 n1
      exact V_mul (V_mul3 q1 hK hN q2 (by omega) n1 (by omega)) hN h4 (by omega) (by omega)
    · have h1 := pos z hz hc
      simp only [safe_append, safe_cons, safe_nil_iff, and_true]
      refine ⟨⟨⟨use_ok hNN hnn0, domatcopy_safe ?_ (full_ok hNN hN n1)⟩, safe_loop0 hN fun j hj => safe_singleton.2 (el_ok hNN (d.pair hj hj hN))⟩,
        el_ok hL ⟨_, pred z h1 hzl, by omega, by omega⟩, full_ok hNN hN n1, slab_ok h01 s1 hN n1 s2 s3⟩
      exact block_ok (ro := 0) (co := 0) hH V_zero hN hN hM (by ring) (le_refl _) (le_refl _) (by omega) (by omega) (by omega) (by omega) d3
    · have h1 := pos z hz hc
      obtain ⟨r1, r2, r3⟩ := u.slab hN (pred z h1 hzl) n1 (by omega) (by omega)
      simp only [safe_cons, safe_nil_iff, and_true]
      exact ⟨slab_ok h01 r1 hN n1 r2 r3, el_ok hL ⟨_, pred z h1 hzl, by omega, by omega⟩, full_ok hNN hN n1, slab_ok h01 s1 hN n1 s2 s3⟩
  · obtain ⟨s1, s2, s3⟩ := u.slab hN (V_coe z) n1 hz hzl
    refine (safe_cond (rem z hz hzl) V_zero).2 ⟨fun _ => ?_, fun hc => ?_⟩
    · obtain ⟨q1, q2, q3⟩ := quot z hz hzl
      have h1 := mul_n _ q2 q3
      refine domatcopy_safe (block_ok (ro := z / b * n) (co := z / b * n) (b := (z / b + z / b * k * n) * n) hH ?_ hN hN hM (by ring) h1.1 h1.1
        (by omega) (by omega) h1.2 h1.2 d3) (slab_ok h01 s1 hN n1 s2 s3)
      have h2 := blk_le n1 q3 q3 q2 hsq
      have e : n * k * (z / b) = z / b * k * n := by ring
      rw [e] at h2
      have h4 : 0 ≤ z / b * k * n := mul_nonneg (mul_nonneg q2 (by omega)) (by omega)
      have h5 : z / b + z / b * k * n ≤ (z / b + z / b * k * n) * n := le_mul_of_one_le_right (by omega) n1
      exact V_mul (V_add q1 (V_mul3 q1 hK hN q2 (by omega) n1 (by omega)) (by omega) (by omega)) hN (by omega) (by omega) h2
    · have h1 := pos z hz hc
      obtain ⟨r1, r2, r3⟩ := u.slab hN (pred z h1 hzl) n1 (by omega) (by omega)
      simp only [safe_append, safe_cons, safe_nil_iff, and_true]
      exact ⟨⟨run1_ok h01 s1 hNN hnn0 s2 s3, run1_ok h01 r1 hNN hnn0 r2 r3, el_ok hL ⟨_, pred z h1 hzl, by omega, by omega⟩⟩,
        timeSliceWrap_safe d hN h01 s1 s2 s3⟩

/-! ## the tables of the lattice -/

/-- all entries of the tables for `c` cells are cells -/
structure Tables.Good (t : Tables) (c : ℤ) : Prop where
  sum : ∀ z, 0 ≤ z → z < c * c → 0 ≤ t.sum z ∧ t.sum z < c
  xp1 : ∀ z, 0 ≤ z → z < c → 0 ≤ t.xp1 z ∧ t.xp1 z < c
  xm1 : ∀ z, 0 ≤ z → z < c → 0 ≤ t.xm1 z ∧ t.xm1 z < c
  yp1 : ∀ z, 0 ≤ z → z < c → 0 ≤ t.yp1 z ∧ t.yp1 z < c
  ym1 : ∀ z, 0 ≤ z → z < c → 0 ≤ t.ym1 z ∧ t.ym1 z < c

/-- the tables of the code are good (C13, C14) -/
theorem tables_good {x y sh : ℤ} (hx : 1 ≤ x) (hy : 1 ≤ y) (hs : 0 ≤ sh) (junk : ℤ → ℤ) :
    (tables x y sh junk).Good (x * y) := by
  have hX : 0 < x.toNat := by omega
  have hY : 0 < y.toNat := by omega
  have e : ((x.toNat * y.toNat : ℕ) : ℤ) = x * y := by
    rw [Nat.cast_mul, Int.toNat_of_nonneg (by omega), Int.toNat_of_nonneg (by omega)]
  have hc : 1 ≤ x * y := one_le_mul_of_one_le_of_one_le hx hy
  have hnn := fun z h0 h1 => Lattice.nnMaps_inverse x.toNat y.toNat hX junk z ⟨h0, by rw [e]; exact h1⟩
  refine ⟨fun z h0 h1 => ?_, fun z h0 h1 => ?_, fun z h0 h1 => ?_, fun z h0 h1 => ?_, fun z h0 h1 => ?_⟩
  · have h2 := Int.emod_nonneg z (show x * y ≠ 0 by omega)
    have h3 := Int.emod_lt_of_pos z (show 0 < x * y by omega)
    have h4 : 0 ≤ z / (x * y) := Int.ediv_nonneg h0 (by omega)
    have h5 : z / (x * y) < x * y := Int.ediv_lt_of_lt_mul (by omega) h1
    have := (Lattice.sumMap_group x.toNat y.toNat hX hY sh hs junk).1 (z % (x * y)) (z / (x * y)) ⟨h2, by rw [e]; exact h3⟩
      ⟨h4, by rw [e]; exact h5⟩
    simp only [Lattice.cellAdd, Lattice.IsCell, e, Int.emod_add_mul_ediv] at this
    exact this
  all_goals
    obtain ⟨-, -, -, -, h2, h3, h4, h5⟩ := hnn z h0 h1
    simp only [Lattice.IsCell, e] at h2 h3 h4 h5
  · exact h2
  · exact h3
  · exact h4
  · exact h5

theorem use_Bd {f : String} {ln : ℕ} {v : I} {u : ℤ} (h : Bd v u) : (Event.use f ln v).ok := by
  obtain ⟨w, hw, h0, -⟩ := h
  exact use_ok hw h0

theorem Bd_prev {N i : I} {n : ℤ} (hN : V N n) (hn : 1 ≤ n) (hn' : n ≤ maxInt) (hi : Bd i n) : Bd (sel lt 0 i (i - 1) (N - 1)) n := by
  obtain ⟨x, hx, hx0, hxn⟩ := hi
  refine Bd.sel V_zero hx (fun h => ?_) fun _ => ⟨n - 1, V_sub hN V_one (by simp only [maxInt]; omega) (by omega), by omega, by omega⟩
  simp only [lt, decide_eq_true_eq] at h
  exact ⟨x - 1, V_sub hx V_one (by simp only [maxInt]; omega) (by omega), by omega, by omega⟩

section tables

variable {o x y n sh : ℤ} (d : Dims o x y n) {O X Y S : I}
include d

theorem sumMapEvents_safe (hX : V X x) (hY : V Y y) (hS : V S sh) (hs0 : 0 ≤ sh) (hs : 2 * (x - 1) + sh ≤ maxInt) :
    Safe (sumMapEvents X Y S (X * Y * (X * Y))) := by
  have hC := d.vc hX hY
  have hCC := V_mul hC hC (by have := d.c1; omega) (by have := d.c1; omega) d.cc
  have x1 := d.x1
  have y1 := d.y1
  have hcm := d.small d.c_le_n
  have hyn := le_trans d.y_le_c d.c_le_n
  have hn := d.n_le
  simp only [sumMapEvents]
  refine safe_loop0 hY fun j hj => safe_loop0 hX fun i hi => safe_loop0 hY fun l hl => safe_loop0 hX fun k hk => ?_
  simp only [safe_cons, safe_nil_iff, and_true]
  refine ⟨el_ok hCC (Bd.radix (Bd.radix hi hj hX (by omega)) (Bd.radix hk hl hX (by omega)) hC (by have := d.cc; omega)),
    use_Bd (Bd.radix (n := x) (m := y) ?_ ?_ hX (by omega))⟩
  · obtain ⟨j', hj', hj0, hjy⟩ := hj
    obtain ⟨l', hl', hl0, hly⟩ := hl
    obtain ⟨i', hi', hi0, hix⟩ := hi
    obtain ⟨k', hk', hk0, hkx⟩ := hk
    have hjl : V (j + l) (j' + l') := V_add hj' hl' (by omega) (by simp only [maxInt]; omega)
    have hik : V (i + k) (i' + k') := V_add hi' hk' (by omega) (by omega)
    by_cases hc : j' + l' < y
    · have hv : V (sel lt (j + l) Y 0 S) 0 := by
        have h1 : (j + l).val = some (j' + l') := hjl
        have h2 : Y.val = some y := hY
        simp only [sel, h1, h2, lt, hc, decide_true, if_true]
        exact V_zero
      exact Bd.mod (V_add hik hv (by omega) (by omega)) hX (by omega) (by omega) (by omega)
    · have hv : V (sel lt (j + l) Y 0 S) sh := by
        have h1 : (j + l).val = some (j' + l') := hjl
        have h2 : Y.val = some y := hY
        simp only [sel, h1, h2, lt, hc, decide_false, Bool.false_eq_true, if_false]
        exact hS
      exact Bd.mod (V_add hik hv (by omega) (by omega)) hX (by omega) (by omega) (by omega)
  · obtain ⟨j', hj', hj0, hjy⟩ := hj
    obtain ⟨l', hl', hl0, hly⟩ := hl
    have hjl : V (j + l) (j' + l') := V_add hj' hl' (by omega) (by simp only [maxInt]; omega)
    exact Bd.mod hjl hY (by omega) (by omega) (by simp only [maxInt]; omega)

theorem nnMapEvents_safe (hX : V X x) (hY : V Y y) : Safe (nnMapEvents X Y (X * Y)) := by
  have hC := d.vc hX hY
  have hcm := d.small d.c_le_n
  have hxm := d.small (le_trans d.x_le_c d.c_le_n)
  have hym := d.small (le_trans d.y_le_c d.c_le_n)
  simp only [nnMapEvents]
  refine safe_loop0 hY fun j hj => safe_loop0 hX fun i hi => ?_
  simp only [safe_cons, safe_nil_iff, and_true]
  have h : ∀ {u v : I}, Bd u x → Bd v y → Bd (u + X * v) (x * y) := fun hu hv => Bd.radix hu hv hX (by omega)
  exact ⟨el_ok hC (h hi hj), use_Bd (h (Bd_next hX d.x1 hxm hi) hj), use_Bd (h (Bd_prev hX d.x1 hxm hi) hj),
    use_Bd (h hi (Bd_next hY d.y1 hym hj)), use_Bd (h hi (Bd_prev hY d.y1 hym hj))⟩

theorem allocateMeas_safe (hO : V O o) (hX : V X x) (hY : V Y y) (hS : V S sh) (hs0 : 0 ≤ sh) (hs : 2 * (x - 1) + sh ≤ maxInt) :
    Safe (allocateMeas O X Y S) := by
  have o1 := d.o1
  have c1 := d.c1
  have n1 := d.n1
  have hC := d.vc hX hY
  have hN := d.vn hO hC
  have hNN := d.vnn hN
  have h1 : 0 ≤ n * n := mul_nonneg (by omega) (by omega)
  have h2 : 0 ≤ x * y * (x * y) := mul_nonneg (by omega) (by omega)
  have h3 : 0 ≤ n * o := mul_nonneg (by omega) (by omega)
  simp only [allocateMeas, safe_append, safe_cons, safe_nil_iff, and_true]
  exact ⟨⟨⟨use_ok hO (by omega), use_ok hNN h1, use_ok (V_mul hN hO (by omega) (by omega) (by rw [d.n_eq]; exact d.coo)) h3,
    use_ok hN (by omega), use_ok (V_mul hC hC (by omega) (by omega) d.cc) h2, use_ok hC (by omega)⟩,
    sumMapEvents_safe d hX hY hS hs0 hs⟩, nnMapEvents_safe d hX hY⟩

end tables

/-! ## measurement.c -/

section measure

variable {o x y n : ℤ} (d : Dims o x y n) {t : Tables} (ht : t.Good (x * y)) {O C : I} (hO : V O o) (hC : V C (x * y))
include d hO hC

omit d hO hC in
theorem flatMap_pair {l l' : List I} {f : I → I → List Event} (h : ∀ a ∈ l, ∀ b ∈ l', Safe (f a b)) :
    Safe (l.flatMap fun a => l'.flatMap fun b => f a b) :=
  safe_flatMap.2 fun a ha => safe_flatMap.2 fun b hb => h a ha b hb

omit hO in
/-- the first site of an orbital -/
theorem orb_site {p : I} {w : ℤ} (hp : V p w) (h0 : 0 ≤ w) (h1 : w < o) :
    V (C * p) (x * y * w) ∧ 0 ≤ x * y * w ∧ x * y * w + x * y ≤ n := by
  have c1 := d.c1
  have h2 : x * y * (w + 1) ≤ x * y * o := mul_le_mul_of_nonneg_left (by omega) (by omega)
  rw [mul_add, mul_one, ← d.n_eq] at h2
  have h3 : 0 ≤ x * y * w := mul_nonneg (by omega) h0
  have hn := d.small (le_refl n)
  exact ⟨V_mul hC hp (by omega) h0 (by omega), h3, by omega⟩

include ht

theorem accumulateMeas_safe : Safe (accumulateMeas t O C) := by
  have o1 := d.o1
  have c1 := d.c1
  have n1 := d.n1
  have hN := d.vn hO hC
  have hNN := d.vnn hN
  have hnn := d.nn
  have h1 : 0 ≤ n * n := mul_nonneg (by omega) (by omega)
  have hcm := d.small d.c_le_n
  have hCC := V_mul hC hC (by omega) (by omega) d.cc
  have hcorr : V (C * O * O) (x * y * (o * o)) :=
    (V_mul hN hO (by omega) (by omega) (by rw [d.n_eq]; exact d.coo)).of_eq (by rw [d.n_eq]; ring)
  have hsum : ∀ {k i : I}, Bd k (x * y) → Bd i (x * y) → Bd (k + C * i) (x * y * (x * y)) := fun hk hi =>
    Bd.radix hk hi hC (by have := d.cc; omega)
  simp only [accumulateMeas, safe_append]
  refine ⟨⟨⟨safe_loop0 hO fun a ha => ?_, safe_singleton.2 (run1_ok' hNN hNN h1)⟩, safe_loop0 hO fun a ha => safe_loop0 hO fun b hb =>
    safe_loop0 hC fun i hi => ?_⟩, safe_loop0 hO fun a ha => safe_loop0 hC fun i hi => ?_⟩
  · refine safe_append.2 ⟨safe_loop0 hC fun i hi => safe_singleton.2 ?_, safe_singleton.2 (el_ok hO ha)⟩
    have := d.site' hi ha hC
    exact el_ok hNN (d.pair this this hN)
  · have hio := d.site' hi ha hC
    refine safe_append.2 ⟨safe_singleton.2 (el_ok hNN (d.pair hio hio hN)), safe_loop0 hC fun k hk => ?_⟩
    have hjp := d.site (Bd.get (hsum hk hi) ht.sum (by omega)) hb hC
    simp only [safe_cons, safe_nil_iff, and_true]
    refine ⟨el_ok hCC (hsum hk hi), el_ok hNN (d.pair hjp hjp hN), el_ok hNN (d.pair hio hjp hN), el_ok hNN (d.pair hjp hio hN),
      el_ok hcorr (Bd.radix hk (Bd.radix ha hb hO (by have := d.oo; omega)) hC ?_)⟩
    have := d.coo
    rw [mul_assoc] at this
    omega
  · have g : ∀ {i : I}, Bd i (x * y) → (Bd (get t.xp1 i) (x * y) ∧ Bd (get t.xm1 i) (x * y) ∧ Bd (get t.yp1 i) (x * y) ∧ Bd (get t.ym1 i) (x * y)) :=
      fun hi => ⟨Bd.get hi ht.xp1 (by omega), Bd.get hi ht.xm1 (by omega), Bd.get hi ht.yp1 (by omega), Bd.get hi ht.ym1 (by omega)⟩
    refine safe_append.2 ⟨safe_singleton.2 (el_ok hC hi), safe_loop0 hC fun k hk => ?_⟩
    have hj := Bd.get (hsum hk hi) ht.sum (show x * y ≤ maxInt + 1 by omega)
    have key : ∀ {u v : I} {ln : ℕ}, Bd u (x * y) → Bd v (x * y) →
        (el "measurement.c" ln (C * O * (C * O)) [C * a + C * O * (C * a), u + C * O * v]).ok := by
      intro u v ln hu hv
      obtain ⟨w, hw, hw0, hwo⟩ := ha
      obtain ⟨u', hu', hu0, hux⟩ := hu
      obtain ⟨v', hv', hv0, hvx⟩ := hv
      obtain ⟨e1, e2, e3⟩ := orb_site d hC hw hw0 hwo
      have r1 := radix_lt (x := x * y * w) (y := x * y * w) (n := n) (m := n) e2 (by omega) e2 (by omega)
      have r2 := radix_lt (x := u') (y := v') (n := n) (m := n) hu0 (by omega) hv0 (by omega)
      have r3 := radix_lt (x := x * y * w + u') (y := x * y * w + v') (n := n) (m := n) (by omega) (by omega) (by omega) (by omega)
      have e4 : n * (x * y * w + v') = n * (x * y * w) + n * v' := by ring
      have m1 : 0 ≤ n * (x * y * w) := mul_nonneg (by omega) e2
      have m2 : 0 ≤ n * v' := mul_nonneg (by omega) hv0
      exact el2_ok hNN (V_add e1 (V_mul hN e1 (by omega) e2 (by omega)) r1.1 (by omega))
        (V_add hu' (V_mul hN hv' (by omega) hv0 (by omega)) r2.1 (by omega)) (by omega) (by omega)
    simp only [safe_append, safe_cons, safe_nil_iff, and_true]
    refine ⟨⟨el_ok hCC (hsum hk hi), el_ok hC hj, key hi hj, el_ok hN (d.site' hk ha hC)⟩, flatMap_pair fun u hu v hv => safe_singleton.2 (key ?_ ?_)⟩
    · obtain ⟨g1, g2, g3, g4⟩ := g hi
      simp only [List.mem_cons, List.not_mem_nil, or_false] at hu
      rcases hu with h | h | h | h <;> rw [h] <;> assumption
    · obtain ⟨g1, g2, g3, g4⟩ := g hj
      simp only [List.mem_cons, List.not_mem_nil, or_false] at hv
      rcases hv with h | h | h | h <;> rw [h] <;> assumption

omit ht in
theorem countsMeas_safe : Safe (countsMeas O C) := by
  have o1 := d.o1
  have n1 := d.n1
  have hN := d.vn hO hC
  have hNN := d.vnn hN
  have hcorr := V_mul hN hO (by omega) (by omega) (by rw [d.n_eq]; exact d.coo)
  simp only [countsMeas, safe_append, safe_cons, safe_nil_iff, and_true]
  exact ⟨⟨run1_ok' hO hO (by omega), run1_ok' hNN hNN (mul_nonneg (by omega) (by omega)), run1_ok' hcorr hcorr (mul_nonneg (by omega) (by omega)),
    run1_ok' hN hN (by omega)⟩, safe_loop0 hO fun a ha => safe_singleton.2 (el_ok hO ha)⟩

end measure

section uneq

variable {o x y n l b k : ℤ} (d : Dims o x y n) (ts : Slices l b k n) (u : Uneq n l k) {t : Tables} (ht : t.Good (x * y))
  {O C L B : I} (hO : V O o) (hC : V C (x * y)) (hL : V L l) (hB : V B b)
include d ts u hO hL

omit ts u hO hL in
theorem corr_le (h : n * n * l ≤ maxInt) (hl : 1 ≤ l) : n * o * l ≤ maxInt := by
  have h1 : n * o ≤ n * n := mul_le_mul_of_nonneg_left d.o_le_n (by have := d.n1; omega)
  exact le_trans (mul_le_mul_of_nonneg_right h1 (by omega)) h

omit ts hL in
theorem V_corr (hC : V C (x * y)) (hL : V L l) (hl : 1 ≤ l) : V (C * O * O * L) (n * o * l) ∧ 0 ≤ n * o * l :=
  ⟨V_mul3 (d.vn hO hC) hO hL (by have := d.n1; omega) (by have := d.o1; omega) hl (corr_le d u.nl hl),
    mul_nonneg (mul_nonneg (by have := d.n1; omega) (by have := d.o1; omega)) (by omega)⟩

theorem allocateUneq_safe {X Y S : I} {sh : ℤ} (hX : V X x) (hY : V Y y) (hS : V S sh) (hs0 : 0 ≤ sh)
    (hs : 2 * (x - 1) + sh ≤ maxInt) {K : I} (hK : V K k) : Safe (allocateUneq O X Y S L K) := by
  have c1 := d.c1
  have n1 := d.n1
  have l1 := ts.l1
  have hC := d.vc hX hY
  have hN := d.vn hO hC
  have hH := u.vH hN hK n1
  have hcr := V_corr d u hO hC hL l1
  have hnl := ts.ln
  rw [mul_comm] at hnl
  have h2 : 0 ≤ x * y * (x * y) := mul_nonneg (by omega) (by omega)
  have h3 : 0 ≤ n * k := mul_nonneg (by omega) (by have := ts.k1; omega)
  simp only [allocateUneq, safe_append, safe_cons, safe_nil_iff, and_true]
  exact ⟨⟨⟨use_ok hH (mul_nonneg h3 h3), use_ok hcr.1 hcr.2, use_ok (V_mul hN hL (by omega) (by omega) hnl) (mul_nonneg (by omega) (by omega)),
    use_ok (V_mul hC hC (by omega) (by omega) d.cc) h2, use_ok hC (by omega)⟩,
    sumMapEvents_safe d hX hY hS hs0 hs⟩, nnMapEvents_safe d hX hY⟩

include hC

omit B in
theorem countsUneq_safe : Safe (countsUneq O C L) := by
  have n1 := d.n1
  have l1 := ts.l1
  have hN := d.vn hO hC
  have hcr := V_corr d u hO hC hL l1
  have hnl := ts.ln
  rw [mul_comm] at hnl
  have hNL := V_mul hN hL (by omega) (by omega) hnl
  simp only [countsUneq, safe_cons, safe_nil_iff, and_true]
  exact ⟨run1_ok' hcr.1 hcr.1 hcr.2, run1_ok' hNL hNL (mul_nonneg (by omega) (by omega))⟩

include ht hB

theorem accumulateUneq_safe : Safe (accumulateUneq t O C L B) := by
  have o1 := d.o1
  have c1 := d.c1
  have n1 := d.n1
  have l1 := ts.l1
  have hN := d.vn hO hC
  have hNN := d.vnn hN
  have hK := ts.vk hL hB
  have hcm := d.small d.c_le_n
  have hnm := d.small (le_refl n)
  have hCC := V_mul hC hC (by omega) (by omega) d.cc
  have hcr := V_corr d u hO hC hL l1
  have h10 := u.v10 hN hL n1 l1
  have h01 := u.v01 hN hL n1 l1
  have hnl := ts.ln
  rw [mul_comm] at hnl
  have hNL := V_mul hN hL (by omega) (by omega) hnl
  have unl := u.nl
  have hoo := d.oo
  have e01 : n * n * l = n * (n * l) := by ring
  have e10 : n * l * n = n * (l * n) := by ring
  have e10' : n * (l * n) = n * n * l := by ring
  have ecr : n * o * l = x * y * (o * o * l) := by rw [d.n_eq]; ring
  have hcrl := corr_le d unl l1
  have nonneg1 : 0 ≤ n * l := mul_nonneg (by omega) (by omega)
  have hool : o * o * l ≤ maxInt := by
    have h1 : 0 ≤ o * o * l := mul_nonneg (mul_nonneg (by omega) (by omega)) (by omega)
    have h2 : o * o * l ≤ x * y * (o * o * l) := le_mul_of_one_le_left h1 c1
    omega
  have hsum : ∀ {k i : I}, Bd k (x * y) → Bd i (x * y) → Bd (k + C * i) (x * y * (x * y)) := fun hk hi =>
    Bd.radix hk hi hC (by have := d.cc; omega)
  -- elements of the Green's functions
  have G01 : ∀ {i j z : I} {ln : ℕ}, Bd i n → Bd j n → Bd z l → (el "measurement.c" ln (C * O * (C * O) * L) [i + C * O * (j + C * O * z)]).ok := by
    intro i j z ln hi hj hz
    have h := Bd.radix hi (Bd.radix hj hz hN (by omega)) hN (by omega)
    rw [← e01] at h
    exact el_ok h01 h
  have G10 : ∀ {i j z : I} {ln : ℕ}, Bd i n → Bd j n → Bd z l → (el "measurement.c" ln (C * O * L * (C * O)) [i + C * O * (z + L * j)]).ok := by
    intro i j z ln hi hj hz
    have h := Bd.radix hi (Bd.radix hz hj hL (by rw [mul_comm]; omega)) hN (by omega)
    rw [← e10] at h
    exact el_ok h10 h
  simp only [accumulateUneq, safe_append, safe_cons, safe_nil_iff, and_true]
  refine ⟨⟨⟨use_ok h10 (mul_nonneg nonneg1 (by omega)), use_ok h01 (mul_nonneg (mul_nonneg (by omega) (by omega)) (by omega))⟩,
    unequalTimeGreens_safe d ts u hN hL hB (u.vH hN hK n1) h10 h01⟩, safe_loop0 hL fun z hz => safe_loop0 hO fun a ha => safe_append.2 ⟨?_, ?_⟩⟩
  · refine safe_loop0 hO fun p hp => safe_loop0 hC fun i hi => ?_
    have hio := d.site hi ha hC
    refine safe_append.2 ⟨safe_singleton.2 (G01 hio hio hz), safe_loop0 hC fun q hq => ?_⟩
    have hjp := d.site' (Bd.get (hsum hq hi) ht.sum (by omega)) hp hC
    have hoff : ∀ {q : I}, Bd q (x * y) → Bd (q + C * (a + O * p + O * O * z)) (n * o * l) := by
      intro q hq
      rw [ecr]
      exact Bd.radix hq (Bd.radix (Bd.radix ha hp hO (by omega)) hz (V_mul hO hO (by omega) (by omega) hoo) (by omega)) hC (by omega)
    have hjj := (d.pair hjp hjp hN).mono (show n * n ≤ n * n * l from le_mul_of_one_le_right (mul_nonneg (by omega) (by omega)) l1)
    simp only [safe_cons, safe_nil_iff, and_true]
    exact ⟨el_ok hCC (hsum hq hi), el_ok hcr.1 (hoff hq), G01 hio hjp hz, G10 hio hjp hz, el_ok hcr.1 (hoff ⟨0, V_zero, le_refl _, by omega⟩),
      el_ok h01 hjj, G01 hjp hio hz⟩
  · refine safe_loop0 hC fun i hi => ?_
    have g1 : ∀ {i : I}, Bd i (x * y) → Bd (get t.xp1 i) (x * y) := fun hi => Bd.get hi ht.xp1 (by omega)
    have g2 : ∀ {i : I}, Bd i (x * y) → Bd (get t.xm1 i) (x * y) := fun hi => Bd.get hi ht.xm1 (by omega)
    have g3 : ∀ {i : I}, Bd i (x * y) → Bd (get t.yp1 i) (x * y) := fun hi => Bd.get hi ht.yp1 (by omega)
    have g4 : ∀ {i : I}, Bd i (x * y) → Bd (get t.ym1 i) (x * y) := fun hi => Bd.get hi ht.ym1 (by omega)
    have nine : ∀ {i : I}, Bd i (x * y) → ∀ a ∈ [i, get t.xp1 i, get t.xm1 i, get t.yp1 i, get t.ym1 i, get t.yp1 (get t.xp1 i), get t.ym1 (get t.xp1 i),
        get t.yp1 (get t.xm1 i), get t.ym1 (get t.xm1 i)], Bd a (x * y) := by
      intro i hi a ha
      simp only [List.mem_cons, List.not_mem_nil, or_false] at ha
      rcases ha with h | h | h | h | h | h | h | h | h <;> rw [h]
      exacts [hi, g1 hi, g2 hi, g3 hi, g4 hi, g3 (g1 hi), g4 (g1 hi), g3 (g2 hi), g4 (g2 hi)]
    obtain ⟨w, hw, hw0, hwo⟩ := ha
    obtain ⟨z', hz', hz0, hzl⟩ := hz
    obtain ⟨e1, e2, e3⟩ := orb_site d hC hw hw0 hwo
    refine safe_append.2 ⟨?_, safe_loop0 hC fun q hq => ?_⟩
    · simp only [safe_cons, safe_nil_iff, and_true]
      exact ⟨el_ok hC hi, el_ok hC (g1 hi), el_ok hC (g2 hi)⟩
    have hj := Bd.get (hsum hq hi) ht.sum (show x * y ≤ maxInt + 1 by omega)
    -- a time slice of a site
    have sl := fun v (h0 : 0 ≤ v) (h1 : v < n) => radix_lt (x := v) (y := z') (n := n) (m := l) h0 h1 hz0 hzl
    have sl' := fun v (h0 : 0 ≤ v) (h1 : v < n) => radix_lt (x := z') (y := v) (n := l) (m := n) hz0 hzl h0 h1
    have hnz : V (C * O * z) (n * z') := V_mul hN hz' (by omega) hz0 (by have := sl 0 (le_refl _) (by omega); omega)
    have mz : 0 ≤ n * z' := mul_nonneg (by omega) hz0
    have kT : ∀ {f g : I} {ln : ℕ}, Bd f (x * y) → Bd g (x * y) →
        (el "measurement.c" ln (C * O * L * (C * O)) [C * a + C * O * (z + L * (C * a)), f + C * O * L * g]).ok := by
      intro f g ln hf hg
      obtain ⟨f', hf', hf0, hfx⟩ := hf
      obtain ⟨g', hg', hg0, hgx⟩ := hg
      have s1 := sl' (x * y * w) e2 (by omega)
      have s2 := sl' (x * y * w + g') (by omega) (by omega)
      have r1 := radix_lt (x := x * y * w) (y := z' + l * (x * y * w)) (n := n) (m := l * n) e2 (by omega) s1.1 s1.2
      have r3 := radix_lt (x := x * y * w + f') (y := z' + l * (x * y * w + g')) (n := n) (m := l * n) (by omega) (by omega) s2.1 s2.2
      have e4 : n * (z' + l * (x * y * w + g')) = n * (z' + l * (x * y * w)) + n * l * g' := by ring
      have m1 : 0 ≤ l * (x * y * w) := mul_nonneg (by omega) e2
      have m2 : 0 ≤ n * (z' + l * (x * y * w)) := mul_nonneg (by omega) s1.1
      have m3 : 0 ≤ n * l * g' := mul_nonneg nonneg1 hg0
      have m4 : l * n = n * l := mul_comm _ _
      exact el2_ok h10 (V_add e1 (V_mul hN (V_add hz' (V_mul hL e1 (by omega) e2 (by omega)) s1.1 (by omega)) (by omega) s1.1 (by omega)) r1.1 (by omega))
        (V_add hf' (V_mul hNL hg' nonneg1 hg0 (by omega)) (by omega) (by omega)) (by omega) (by omega)
    have k0 : ∀ {f g : I} {ln : ℕ}, Bd f (x * y) → Bd g (x * y) →
        (el "measurement.c" ln (C * O * (C * O) * L) [C * a + C * O * (C * a + C * O * z), f + C * O * g]).ok := by
      intro f g ln hf hg
      obtain ⟨f', hf', hf0, hfx⟩ := hf
      obtain ⟨g', hg', hg0, hgx⟩ := hg
      have s1 := sl (x * y * w) e2 (by omega)
      have s2 := sl (x * y * w + g') (by omega) (by omega)
      have r1 := radix_lt (x := x * y * w) (y := x * y * w + n * z') (n := n) (m := n * l) e2 (by omega) s1.1 s1.2
      have r3 := radix_lt (x := x * y * w + f') (y := x * y * w + g' + n * z') (n := n) (m := n * l) (by omega) (by omega) s2.1 s2.2
      have e4 : n * (x * y * w + g' + n * z') = n * (x * y * w + n * z') + n * g' := by ring
      have m2 : 0 ≤ n * (x * y * w + n * z') := mul_nonneg (by omega) s1.1
      have m3 : 0 ≤ n * g' := mul_nonneg (by omega) hg0
      exact el2_ok h01 (V_add e1 (V_mul hN (V_add e1 hnz s1.1 (by omega)) (by omega) s1.1 (by omega)) r1.1 (by omega))
        (V_add hf' (V_mul hN hg' (by omega) hg0 (by omega)) (by omega) (by omega)) (by omega) (by omega)
    have k00 : ∀ {f g : I} {ln : ℕ}, Bd f (x * y) → Bd g (x * y) →
        (el "measurement.c" ln (C * O * (C * O) * L) [C * a + C * O * (C * a), f + C * O * g]).ok := by
      intro f g ln hf hg
      obtain ⟨f', hf', hf0, hfx⟩ := hf
      obtain ⟨g', hg', hg0, hgx⟩ := hg
      have hle : n * n ≤ n * n * l := le_mul_of_one_le_right (mul_nonneg (by omega) (by omega)) l1
      have r1 := radix_lt (x := x * y * w) (y := x * y * w) (n := n) (m := n) e2 (by omega) e2 (by omega)
      have r3 := radix_lt (x := x * y * w + f') (y := x * y * w + g') (n := n) (m := n) (by omega) (by omega) (by omega) (by omega)
      have e4 : n * (x * y * w + g') = n * (x * y * w) + n * g' := by ring
      have m2 : 0 ≤ n * (x * y * w) := mul_nonneg (by omega) e2
      have m3 : 0 ≤ n * g' := mul_nonneg (by omega) hg0
      exact el2_ok h01 (V_add e1 (V_mul hN e1 (by omega) e2 (by omega)) r1.1 (by omega))
        (V_add hf' (V_mul hN hg' (by omega) hg0 (by omega)) (by omega) (by omega)) (by omega) (by omega)
    have hsc : Bd (q + (C * a + C * O * z)) (n * l) := by
      obtain ⟨q', hq', hq0, hqx⟩ := hq
      have s1 := sl (x * y * w) e2 (by omega)
      have s2 := sl (x * y * w + q') (by omega) (by omega)
      exact ⟨_, V_add hq' (V_add e1 hnz s1.1 (by omega)) (by omega) (by omega), by omega, by omega⟩
    simp only [safe_append, safe_cons, safe_nil_iff, and_true]
    refine ⟨⟨⟨⟨el_ok hCC (hsum hq hi), el_ok hC hj, el_ok hC (g1 hj), el_ok hC (g2 hj), el_ok hNL hsc⟩,
      flatMap_pair fun f hf g hg => ?_⟩, flatMap_pair fun f hf g hg => safe_singleton.2 (k0 (nine hi f hf) (nine hi g hg))⟩,
      flatMap_pair fun f hf g hg => safe_singleton.2 (k00 (nine hj f hf) (nine hj g hg))⟩
    simp only [safe_cons, safe_nil_iff, and_true]
    exact ⟨kT (nine hi f hf) (nine hj g hg), k0 (nine hj g hg) (nine hi f hf)⟩

end uneq

end Verif.Index
