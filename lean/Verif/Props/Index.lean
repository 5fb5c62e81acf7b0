import Verif.Lemmas.Index
import Verif.Props.Lattice

set_option autoImplicit false

/-!
# C91: all subscripts and sizes stay inside their buffers and in the range of `int`
-/

namespace Verif.Index

theorem safe_nil_iff : Safe [] ↔ True := iff_true_intro safe_nil

/-! ## linalg.c -/

theorem matrixExp_safe {N A R : I} {n : ℤ} (hN : V N n) (hn : 1 ≤ n) (h : n * n ≤ maxInt) (hA : V A (n * n))
    (hR : V R (n * n)) : Safe (matrixExp N A R) := by
  have h0 : 0 ≤ n := by omega
  have hnn : 0 ≤ n * n := mul_nonneg h0 h0
  have hNN := V_mul hN hN h0 h0 h
  simp only [matrixExp, safe_append, safe_cons, safe_nil_iff, and_true]
  refine ⟨⟨⟨⟨⟨use_ok hN h0, use_ok hNN hnn, run1_ok' hNN hNN hnn, run1_ok' hA hNN hnn, full_ok hNN hN hn, run1_ok' hN hN h0⟩,
    ?_⟩, use_ok hNN hnn, run1_ok' hNN hNN hnn⟩, ?_⟩, full_ok hNN hN hn, full_ok hR hN hn⟩
  · refine safe_loop0 hN fun i hi => ?_
    exact safe_singleton.2 (el_ok hN hi)
  · refine safe_loop0 hN fun i hi => ?_
    simp only [safe_cons, safe_nil_iff, and_true]
    refine ⟨el_ok hN hi, ?_⟩
    obtain ⟨x, hx, hx0, hxn⟩ := hi
    have h1 : (x + 1) * n ≤ n * n := mul_le_mul_of_nonneg_right (by omega) h0
    rw [add_mul, one_mul] at h1
    have h2 : 0 ≤ x * n := mul_nonneg hx0 h0
    exact run1_ok hNN (V_mul hx hN hx0 h0 (by omega)) hN h0 h2 (by omega)

theorem matrixProductSequence_safe {N num numA start A R : I} {n k m s : ℤ} (hN : V N n) (hn : 1 ≤ n) (h : n * n ≤ maxInt)
    (hnum : V num k) (hk : 1 ≤ k) (hm : V numA m) (hs : V start s) (hs0 : 0 ≤ s) (hsm : s + k ≤ m) (hA : V A (n * n))
    (hR : V R (n * n)) : Safe (matrixProductSequence N num numA start A R) := by
  have h0 : 0 ≤ n := by omega
  have hnn : 0 ≤ n * n := mul_nonneg h0 h0
  have hNN := V_mul hN hN h0 h0 h
  simp only [matrixProductSequence, safe_append, safe_cons, safe_nil_iff, and_true]
  refine ⟨⟨use_ok hNN hnn, el2_ok hm hs V_zero (by omega) (by omega), run1_ok' hNN hNN hnn, run1_ok' hR hNN hnn,
    run1_ok' hA hNN hnn⟩, (safe_loop V_one hnum).2 fun z hz hzk => ?_⟩
  simp only [safe_cons, safe_nil_iff, and_true]
  exact ⟨el2_ok hm hs (V_coe z) (by omega) (by omega), full_ok hA hN hn, full_ok hNN hN hn, full_ok hR hN hn⟩

section cyclic

variable {N P size : I} {n p : ℤ}

/-- the range of the dimensions if the matrix of all blocks can be indexed -/
theorem dims_of_sq {n p : ℤ} (hn : 1 ≤ n) (hp : 1 ≤ p) (h : n * p * (n * p) ≤ maxInt) :
    n ≤ n * p ∧ p ≤ n * p ∧ 1 ≤ n * p ∧ n * p ≤ 46340 := by
  have h1 : n ≤ n * p := le_mul_of_one_le_right (by omega) hp
  have h2 : p ≤ n * p := le_mul_of_one_le_left (by omega) hn
  refine ⟨h1, h2, by omega, ?_⟩
  by_contra hc
  have h3 : (46341 : ℤ) * 46341 ≤ n * p * (n * p) := mul_le_mul (by omega) (by omega) (by omega) (by omega)
  simp only [maxInt] at h
  omega

/-- `(i + N*j)*n` -/
theorem V_blk (hN : V N n) {M i j : I} {x y q : ℤ} (hM : V M q) (hi : V i x) (hj : V j y) (hx : 0 ≤ x) (hy : 0 ≤ y)
    (hn : 1 ≤ n) (hq : 0 ≤ q) (h : (x + q * y) * n ≤ maxInt) : V ((i + M * j) * N) (x * n + q * (y * n)) := by
  have h1 : 0 ≤ q * y := mul_nonneg hq hy
  have h2 : x + q * y ≤ (x + q * y) * n := le_mul_of_one_le_right (by omega) hn
  exact (V_mul (V_add hi (V_mul hM hj hq hy (by omega)) (by omega) (by omega)) hN (by omega) (by omega) h).of_eq (by ring)

/-- `(1 + N)*i*n` -/
theorem V_diag (hN : V N n) {M i : I} {x q : ℤ} (hM : V M q) (hi : V i x) (hx : 0 ≤ x) (hn : 1 ≤ n) (hq : 0 ≤ q)
    (hq' : q + 1 ≤ maxInt) (h : (1 + q) * x * n ≤ maxInt) : V ((1 + M) * i * N) (x * n + q * (x * n)) :=
  (V_mul3 (V_add V_one hM (by omega) (by omega)) hi hN (by omega) hx hn h).of_eq (by ring)

/-- `N*i*n` -/
theorem V_col (hN : V N n) {M i : I} {x q : ℤ} (hM : V M q) (hi : V i x) (hx : 0 ≤ x) (hn : 1 ≤ n) (hq : 0 ≤ q)
    (h : q * x * n ≤ maxInt) : V (M * i * N) (0 + q * (x * n)) :=
  (V_mul3 hM hi hN hq hx hn h).of_eq (by ring)

/-- offsets of blocks of a matrix with `q` rows are representable -/
theorem blk_le {n p x y : ℤ} (hn : 1 ≤ n) (hx : x < p) (hy : y < p) (hy0 : 0 ≤ y)
    (h : n * p * (n * p) ≤ maxInt) : (x + n * p * y) * n ≤ maxInt := by
  have h1 : x * n ≤ (p - 1) * n := mul_le_mul_of_nonneg_right (by omega) (by omega)
  have h2 : n * p * (y * n) ≤ n * p * ((p - 1) * n) :=
    mul_le_mul_of_nonneg_left (mul_le_mul_of_nonneg_right (by omega) (by omega)) (mul_nonneg (by omega) (by omega))
  have h3 : 0 ≤ n * p * n := mul_nonneg (mul_nonneg (by omega) (by omega)) (by omega)
  have h4 : (p : ℤ) * n ≤ n * p * n := by
    rw [mul_comm p n]
    exact le_mul_of_one_le_right (mul_nonneg (by omega) (by omega)) hn
  have e1 : (x + n * p * y) * n = x * n + n * p * (y * n) := by ring
  have e2 : (p - 1) * n + n * p * ((p - 1) * n) = n * p * (n * p) - n * p * n + p * n - n := by ring
  rw [e1]
  omega

theorem diag_le {n p x : ℤ} (hn : 1 ≤ n) (hx : x < p) (hx0 : 0 ≤ x) (h : n * p * (n * p) ≤ maxInt) :
    (1 + n * p) * x * n ≤ maxInt := by
  have := blk_le hn hx hx hx0 h
  have e : (1 + n * p) * x * n = (x + n * p * x) * n := by ring
  rw [e]
  exact this

theorem col_le {n p x : ℤ} (hn : 1 ≤ n) (hx : x < p) (hx0 : 0 ≤ x) (h : n * p * (n * p) ≤ maxInt) :
    n * p * x * n ≤ maxInt := by
  have := blk_le hn (lt_of_le_of_lt hx0 hx) hx hx0 h
  have e : n * p * x * n = (0 + n * p * x) * n := by ring
  rw [e]
  exact this

/-- `x` blocks fit before block `p` -/
theorem fit {n p x k : ℤ} (hn : 1 ≤ n) (h : x + k ≤ p) : x * n + k * n ≤ n * p := by
  rw [← add_mul, mul_comm n p]
  exact mul_le_mul_of_nonneg_right h (by omega)

theorem blockCyclicQR_safe {tau : I} (hN : V N n) (hP : V P p) (hn : 1 ≤ n) (hp : 2 ≤ p) (h : n * p * (n * p) ≤ maxInt)
    (hs : V size (n * p * (n * p))) (ht : V tau (n * p)) : Safe (blockCyclicQR N P size tau) := by
  obtain ⟨d1, d2, d3, d4⟩ := dims_of_sq hn (by omega) h
  have hM : V (N * P) (n * p) := V_mul hN hP (by omega) (by omega) (by simp only [maxInt]; omega)
  have h2n : V (2 * N) (2 * n) := V_mul V_two hN (by omega) (by omega) (by simp only [maxInt]; omega)
  have hP2 : V (P - 2) (p - 2) := V_sub hP V_two (by simp only [maxInt]; omega) (by simp only [maxInt]; omega)
  have hP1 : V (P - 1) (p - 1) := V_sub hP V_one (by simp only [maxInt]; omega) (by simp only [maxInt]; omega)
  have hmax : n * p + 1 ≤ maxInt := by simp only [maxInt]; omega
  simp only [blockCyclicQR, safe_append, safe_cons, safe_nil_iff, and_true]
  have hsm : ∀ x : ℤ, 0 ≤ x → x < p → 0 ≤ x * n ∧ x * n ≤ maxInt := by
    intro x h0 h1
    have := fit (k := 1) hn (show x + 1 ≤ p by omega)
    exact ⟨mul_nonneg h0 (by omega), by omega⟩
  refine ⟨(safe_loop V_zero hP2).2 fun z hz hzp => ?_, ?_, ?_⟩
  · have hI := V_coe z
    have hI1 : V ((z : I) + 1) (z + 1) := V_add hI V_one (by omega) (by simp only [maxInt]; omega)
    have hd := V_diag hN hM hI hz hn (by omega) hmax (diag_le hn (by omega) hz h)
    have f1 := fit (k := 2) hn (show z + 2 ≤ p by omega)
    have f2 := fit (x := z + 1) (k := 1) hn (show z + 1 + 1 ≤ p by omega)
    have f3 := fit (x := p - 1) (k := 1) hn (show p - 1 + 1 ≤ p by omega)
    have f4 := hsm z hz (by omega)
    have f5 := hsm (z + 1) (by omega) (by omega)
    have f6 := hsm (p - 1) (by omega) (by omega)
    have f7 := fit (k := 1) hn (show z + 1 ≤ p by omega)
    simp only [safe_cons, safe_nil_iff, and_true]
    refine ⟨block_ok hs hd h2n hN hM rfl (by omega) (by omega) (by omega) (by omega) (by omega) (by omega) d3,
      run1_ok ht (V_mul hI hN hz (by omega) f4.2) hN (by omega) (by omega) (by omega),
      block_ok hs hd h2n hN hM rfl (by omega) (by omega) (by omega) (by omega) (by omega) (by omega) d3,
      block_ok hs (V_blk hN hM hI hI1 hz (by omega) hn (by omega) (blk_le hn (by omega) (by omega) (by omega) h)) h2n hN hM
        rfl (by omega) (by omega) (by omega) (by omega) (by omega) (by omega) d3,
      block_ok hs (V_blk hN hM hI hP1 hz (by omega) hn (by omega) (blk_le hn (by omega) (by omega) (by omega) h)) h2n hN hM
        rfl (by omega) (by omega) (by omega) (by omega) (by omega) (by omega) d3⟩
  · have f1 := fit (k := 2) hn (show p - 2 + 2 ≤ p by omega)
    have f4 := hsm (p - 2) (by omega) (by omega)
    exact block_ok hs (V_diag hN hM hP2 (by omega) hn (by omega) hmax (diag_le hn (by omega) (by omega) h)) h2n h2n hM
      rfl (by omega) (by omega) (by omega) (by omega) (by omega) (by omega) d3
  · have f1 := fit (k := 2) hn (show p - 2 + 2 ≤ p by omega)
    have f4 := hsm (p - 2) (by omega) (by omega)
    exact run1_ok ht (V_mul hP2 hN (by omega) (by omega) f4.2) h2n (by omega) (by omega) (by omega)

theorem blockCyclicTri_safe (hN : V N n) (hP : V P p) (hn : 1 ≤ n) (hp : 2 ≤ p) (h : n * p * (n * p) ≤ maxInt)
    (hs : V size (n * p * (n * p))) : Safe (blockCyclicTri N P size) := by
  obtain ⟨d1, d2, d3, d4⟩ := dims_of_sq hn (by omega) h
  have hM : V (N * P) (n * p) := V_mul hN hP (by omega) (by omega) (by simp only [maxInt]; omega)
  have h3n : V (3 * N) (3 * n) := V_mul V_three hN (by omega) (by omega) (by simp only [maxInt]; omega)
  have hmax : n * p + 1 ≤ maxInt := by simp only [maxInt]; omega
  have hsub : ∀ {a : I} {x : ℤ}, V a x → 0 ≤ x → x ≤ 10 → V (P - a) (p - x) := by
    intro a x ha h0 h1
    exact V_sub hP ha (by simp only [maxInt]; omega) (by simp only [maxInt]; omega)
  have hsm : ∀ x : ℤ, 0 ≤ x → x < p → 0 ≤ x * n ∧ x * n ≤ maxInt := by
    intro x h0 h1
    have := fit (k := 1) hn (show x + 1 ≤ p by omega)
    exact ⟨mul_nonneg h0 (by omega), by omega⟩
  have hnm : ∀ {a : I} {x : ℤ}, V a x → 0 ≤ x → x < p → V (N * a) (x * n) := by
    intro a x ha h0 h1
    have := hsm x h0 h1
    exact (V_mul hN ha (by omega) h0 (by rw [mul_comm]; omega)).of_eq (mul_comm _ _)
  simp only [blockCyclicTri]
  refine (safe_cond V_two hP).2 ⟨fun hc => ?_, fun _ => ?_⟩
  · have hp3 : 3 ≤ p := by simp only [lt, decide_eq_true_eq] at hc; omega
    have hP3 := hsub V_three (by omega) (by omega)
    have hP1 := hsub V_one (by omega) (by omega)
    have g1 := fit (x := p - 3) (k := 3) hn (show p - 3 + 3 ≤ p by omega)
    have g2 := hsm (p - 3) (by omega) (by omega)
    have g3 := hsm (p - 1) (by omega) (by omega)
    have g4 := fit (x := p - 1) (k := 1) hn (show p - 1 + 1 ≤ p by omega)
    simp only [safe_append, safe_cons, safe_nil_iff, and_true]
    refine ⟨block_ok hs (V_diag hN hM hP3 (by omega) hn (by omega) hmax (diag_le hn (by omega) (by omega) h)) h3n h3n hM rfl
      (by omega) (by omega) (by omega) (by omega) (by omega) (by omega) d3, (safe_cond V_three hP).2 ⟨fun hc4 => ?_, fun _ => safe_nil⟩⟩
    have hp4 : 4 ≤ p := by simp only [lt, decide_eq_true_eq] at hc4; omega
    have hP4 := hsub V_four (by omega) (by omega)
    have hP41 : V (P - 4 + 1) (p - 4 + 1) := V_add hP4 V_one (by omega) (by simp only [maxInt]; omega)
    simp only [safe_append, safe_cons, safe_nil_iff, and_true]
    refine ⟨⟨block_ok hs (V_diag hN hM hP1 (by omega) hn (by omega) hmax (diag_le hn (by omega) (by omega) h)) hN hN hM rfl
      (by omega) (by omega) (by omega) (by omega) (by omega) (by omega) d3,
      block_ok hs (V_col hN hM hP1 (by omega) hn (by omega) (col_le hn (by omega) (by omega) h)) (hnm hP3 (by omega) (by omega)) hN hM rfl
      (by omega) (by omega) (by omega) (by omega) (by omega) (by omega) d3⟩, (safe_loop V_zero hP41).2 fun z hz hzp => ?_⟩
    have hI := V_coe z
    have hI1 : V ((z : I) + 1) (z + 1) := V_add hI V_one (by omega) (by simp only [maxInt]; omega)
    have hI2 : V ((z : I) + 2) (z + 2) := V_add hI V_two (by omega) (by simp only [maxInt]; omega)
    have hPi : V (P - (z : I) - 2) (p - z - 2) :=
      V_sub (V_sub hP hI (by simp only [maxInt]; omega) (by simp only [maxInt]; omega)) V_two (by simp only [maxInt]; omega)
        (by simp only [maxInt]; omega)
    have f1 := hsm z hz (by omega)
    have f2 := hsm (z + 1) (by omega) (by omega)
    have f3 := hsm (z + 2) (by omega) (by omega)
    have f4 := hsm (p - z - 2) (by omega) (by omega)
    have f5 := fit (x := z) (k := 1) hn (show z + 1 ≤ p by omega)
    have f6 := fit (x := z + 1) (k := 1) hn (show z + 1 + 1 ≤ p by omega)
    have f7 := fit (x := z + 2) (k := p - z - 2) hn (show z + 2 + (p - z - 2) ≤ p by omega)
    have hb : ∀ {i j : I} {x y : ℤ}, V i x → V j y → 0 ≤ x → x < p → 0 ≤ y → y < p →
        V ((i + N * P * j) * N) (x * n + n * p * (y * n)) := fun hi hj h1 h2 h3 h4 =>
      V_blk hN hM hi hj h1 h3 hn (by omega) (blk_le hn h2 h4 h3 h)
    simp only [safe_cons, safe_nil_iff, and_true]
    refine ⟨block_ok hs (V_diag hN hM hI (by omega) hn (by omega) hmax (diag_le hn (by omega) (by omega) h)) hN hN hM rfl
        (by omega) (by omega) (by omega) (by omega) (by omega) (by omega) d3,
      block_ok hs (hb hI hI1 (by omega) (by omega) (by omega) (by omega)) hN hN hM rfl (by omega) (by omega) (by omega) (by omega)
        (by omega) (by omega) d3,
      block_ok hs (hb hI hP1 (by omega) (by omega) (by omega) (by omega)) hN hN hM rfl (by omega) (by omega) (by omega) (by omega)
        (by omega) (by omega) d3,
      block_ok hs (hb hI1 hI2 (by omega) (by omega) (by omega) (by omega)) hN (hnm hPi (by omega) (by omega)) hM rfl (by omega)
        (by omega) (by omega) (by omega) (by omega) (by omega) d3,
      block_ok hs (hb hI hI2 (by omega) (by omega) (by omega) (by omega)) hN (hnm hPi (by omega) (by omega)) hM rfl (by omega)
        (by omega) (by omega) (by omega) (by omega) (by omega) d3,
      block_ok hs (V_diag hN hM hI1 (by omega) hn (by omega) hmax (diag_le hn (by omega) (by omega) h)) hN hN hM rfl
        (by omega) (by omega) (by omega) (by omega) (by omega) (by omega) d3⟩
  · exact safe_singleton.2 (full_ok hs hM d3)

theorem moveStrictlyLower_safe {m k A off lda B ldb : I} {m' k' b q w : ℤ} (hm : V m m') (hk : V k k') (hA : V A (q * q))
    (ho : V off b) (hl : V lda q) (hB : V B (w * w)) (hw : V ldb w) (hkm : k' ≤ m') (hmw : m' ≤ w) (hwm : w * w ≤ maxInt)
    (hq : q * q ≤ maxInt) {ro co : ℤ} (hb : b = ro + q * co) (hro : 0 ≤ ro) (hco : 0 ≤ co) (h1 : ro + m' ≤ q) (h2 : co + k' ≤ q)
    (hm' : m' ≤ 100000) :
    Safe (moveStrictlyLower m k A off lda B ldb) := by
  simp only [moveStrictlyLower]
  refine (safe_loop V_zero hk).2 fun z hz hzk => (safe_loop (V_add (V_coe z) V_one (by omega) (by simp only [maxInt]; omega)) hm).2
    fun y hy hym => ?_
  have hZ : Bd (z : I) k' := ⟨z, V_coe z, hz, hzk⟩
  simp only [safe_cons, safe_nil_iff, and_true]
  refine ⟨el_ok hB (Bd.radix ⟨y, V_coe y, by omega, by omega⟩ (hZ.mono (by omega)) hw (by omega)), ?_⟩
  have e1 := radix_lt (x := y) (y := z) (n := q) (m := q) (by omega) (by omega) (by omega) (by omega)
  have e3 : 0 ≤ q * z := mul_nonneg (by omega) hz
  have e2 := radix_lt (x := ro + y) (y := co + z) (n := q) (m := q) (by omega) (by omega) (by omega) (by omega)
  have e : b + (y + q * z) = ro + y + q * (co + z) := by rw [hb]; ring
  refine el2_ok hA ho (V_add (V_coe y) (V_mul hl (V_coe z) (by omega) hz (by omega)) e1.1 (by omega)) ?_ ?_
  · rw [e]; exact e2.1
  · rw [e]; exact e2.2

theorem blockCyclicRot_safe {tau : I} (hN : V N n) (hP : V P p) (hn : 1 ≤ n) (hp : 2 ≤ p) (h : n * p * (n * p) ≤ maxInt)
    (hs : V size (n * p * (n * p))) (ht : V tau (n * p)) : Safe (blockCyclicRot N P size tau) := by
  obtain ⟨d1, d2, d3, d4⟩ := dims_of_sq hn (by omega) h
  have hM : V (N * P) (n * p) := V_mul hN hP (by omega) (by omega) (by simp only [maxInt]; omega)
  have h2n : V (2 * N) (2 * n) := V_mul V_two hN (by omega) (by omega) (by simp only [maxInt]; omega)
  have d5 : n * 2 ≤ n * p := mul_le_mul_of_nonneg_left hp (by omega)
  have d6 : 2 * n * (2 * n) ≤ maxInt := le_trans (mul_le_mul (by omega) (by omega) (by omega) (by omega)) h
  have hQ : V (4 * N * N) (2 * n * (2 * n)) :=
    (V_mul3 V_four hN hN (by omega) (by omega) hn (by rw [show 4 * n * n = 2 * n * (2 * n) by ring]; exact d6)).of_eq (by ring)
  have hP2 : V (P - 2) (p - 2) := V_sub hP V_two (by simp only [maxInt]; omega) (by simp only [maxInt]; omega)
  have hP3 : V (P - 3) (p - 3) := V_sub hP V_three (by simp only [maxInt]; omega) (by simp only [maxInt]; omega)
  have hP31 : V (P - 3 + 1) (p - 3 + 1) := V_add hP3 V_one (by omega) (by simp only [maxInt]; omega)
  have hmax : n * p + 1 ≤ maxInt := by simp only [maxInt]; omega
  have hsm : ∀ x : ℤ, 0 ≤ x → x < p → 0 ≤ x * n ∧ x * n ≤ maxInt := by
    intro x h0 h1
    have := fit (k := 1) hn (show x + 1 ≤ p by omega)
    exact ⟨mul_nonneg h0 (by omega), by omega⟩
  have g1 := fit (x := p - 2) (k := 2) hn (show p - 2 + 2 ≤ p by omega)
  have g2 := hsm (p - 2) (by omega) (by omega)
  simp only [blockCyclicRot, safe_append, safe_cons, safe_nil_iff, and_true]
  refine ⟨⟨⟨use_ok hQ (mul_nonneg (by omega) (by omega)),
    moveStrictlyLower_safe h2n h2n hs (V_diag hN hM hP2 (by omega) hn (by omega) hmax (diag_le hn (by omega) (by omega) h)) hM hQ h2n
      (le_refl _) (le_refl _) d6 h rfl (by omega) (by omega) (by omega) (by omega) (by omega)⟩,
    block_ok (q := 2 * n) (ro := 0) (co := 0) hQ V_zero h2n h2n h2n (by ring) (by omega) (by omega) (by omega) (by omega) (by omega)
      (by omega) (by omega),
    run1_ok ht (V_mul hP2 hN (by omega) (by omega) g2.2) h2n (by omega) (by omega) (by omega),
    block_ok hs (V_col hN hM hP2 (by omega) hn (by omega) (col_le hn (by omega) (by omega) h)) hM h2n hM rfl
      (by omega) (by omega) (by omega) (by omega) (by omega) (by omega) d3⟩, (safe_loop V_zero hP31).2 fun z hz hzp => ?_⟩
  have hI := V_coe z
  have f1 := fit (k := 2) hn (show z + 2 ≤ p by omega)
  have f2 := hsm z hz (by omega)
  simp only [safe_append, safe_cons, safe_nil_iff, and_true]
  exact ⟨moveStrictlyLower_safe h2n hN hs (V_diag hN hM hI (by omega) hn (by omega) hmax (diag_le hn (by omega) (by omega) h)) hM hQ h2n
      (by omega) (le_refl _) d6 h rfl (by omega) (by omega) (by omega) (by omega) (by omega),
    block_ok (q := 2 * n) (ro := 0) (co := 0) hQ V_zero h2n hN h2n (by ring) (by omega) (by omega) (by omega) (by omega) (by omega)
      (by omega) (by omega),
    run1_ok ht (V_mul hI hN hz (by omega) f2.2) hN (by omega) (by omega) (by omega),
    block_ok hs (V_col hN hM hI (by omega) hn (by omega) (col_le hn (by omega) (by omega) h)) hM h2n hM rfl
      (by omega) (by omega) (by omega) (by omega) (by omega) (by omega) d3⟩

/-- **C91** the inversion of a block cyclic matrix with at least two blocks stays inside the matrix -/
theorem blockCyclicInverse_safe (hN : V N n) (hP : V P p) (hn : 1 ≤ n) (hp : 2 ≤ p) (h : n * p * (n * p) ≤ maxInt)
    (hs : V size (n * p * (n * p))) : Safe (blockCyclicInverse N P size) := by
  obtain ⟨d1, d2, d3, d4⟩ := dims_of_sq hn (by omega) h
  have hM : V (N * P) (n * p) := V_mul hN hP (by omega) (by omega) (by simp only [maxInt]; omega)
  simp only [blockCyclicInverse, safe_append, safe_singleton]
  exact ⟨⟨⟨use_ok hM (by omega), blockCyclicQR_safe hN hP hn hp h hs hM⟩, blockCyclicTri_safe hN hP hn hp h hs⟩,
    blockCyclicRot_safe hN hP hn hp h hs hM⟩

/-- **C91** with a single block, the inversion reads and writes before the matrix -/
theorem blockCyclicInverse_unsafe (hN : V N n) (hP : V P 1) (hn : 1 ≤ n) (h : n * n ≤ maxInt) :
    ¬ Safe (blockCyclicInverse N P size) := by
  intro hsafe
  have hdim : n ≤ 46340 := by
    have := dims_of_sq hn (le_refl 1) (by rwa [mul_one])
    omega
  have hbig : n * n + n ≤ maxInt := by
    have : n * n ≤ 46340 * 46340 := mul_le_mul hdim hdim (by omega) (by omega)
    simp only [maxInt]
    omega
  simp only [blockCyclicInverse, safe_append, blockCyclicQR, safe_cons] at hsafe
  obtain ⟨⟨⟨-, -, h1, -⟩, -⟩, -⟩ := hsafe
  obtain ⟨_, b, r, c, _, _, hb, hr, hc, -, -, -, -, h2⟩ := h1
  have hM : V (N * P) n := (V_mul hN hP (by omega) (by omega) (by simp only [maxInt]; omega)).of_eq (mul_one n)
  have hPm : V (P - 2) (-1) := (V_sub hP V_two (by simp only [maxInt]; omega) (by simp only [maxInt]; omega)).of_eq (by norm_num)
  have h1M : V (1 + N * P) (1 + n) := V_add V_one hM (by omega) (by simp only [maxInt]; omega)
  have hq : V ((1 + N * P) * (P - 2)) (-(1 + n)) := by
    rw [mul_val h1M hPm]
    exact (chk_val (by simp only [maxInt]; omega) (by simp only [maxInt]; omega)).of_eq (by ring)
  have e : -(1 + n) * n = -(n * n + n) := by ring
  have h3 : 0 ≤ n * n := mul_nonneg (by omega) (by omega)
  have hoff : V ((1 + N * P) * (P - 2) * N) (-(n * n + n)) := by
    rw [mul_val hq hN, e]
    exact chk_val (by omega) (by simp only [maxInt]; omega)
  have h2n := V_mul V_two hN (by omega) (by omega) (show 2 * n ≤ maxInt by simp only [maxInt]; omega)
  have hr' := V.unique hr h2n
  have hc' := V.unique hc h2n
  rw [offset_one hoff] at hb
  have hb' := Option.some.inj hb
  have := (h2 (by omega) (by omega)).1
  omega

end cyclic

/-! ## kinetic.c, stratonovich.c -/

theorem Bd_next {N i : I} {n : ℤ} (hN : V N n) (hn : 1 ≤ n) (hn' : n ≤ maxInt) (hi : Bd i n) : Bd (next N i) n := by
  obtain ⟨x, hx, hx0, hxn⟩ := hi
  refine Bd.sel hx (V_sub hN V_one (by simp only [maxInt]; omega) (by omega)) (fun h => ?_) fun _ => ⟨0, V_zero, le_refl _, by omega⟩
  simp only [lt, decide_eq_true_eq] at h
  exact ⟨x + 1, V_add hx V_one (by omega) (by omega), by omega, by omega⟩

/-- the dimensions of the lattice: `o` orbitals, `x` times `y` cells, `n` sites -/
structure Dims (o x y n : ℤ) : Prop where
  o1 : 1 ≤ o
  x1 : 1 ≤ x
  y1 : 1 ≤ y
  n_eq : n = x * y * o
  nn : n * n ≤ maxInt

namespace Dims

variable {o x y n : ℤ} (d : Dims o x y n)
include d

theorem c1 : 1 ≤ x * y := one_le_mul_of_one_le_of_one_le d.x1 d.y1
theorem n1 : 1 ≤ n := by rw [d.n_eq]; exact one_le_mul_of_one_le_of_one_le d.c1 d.o1
theorem n_le : n ≤ 46340 := by
  have := dims_of_sq d.n1 (le_refl 1) (by rw [mul_one]; exact d.nn)
  omega
theorem c_le_n : x * y ≤ n := by
  rw [d.n_eq]
  exact le_mul_of_one_le_right (by have := d.c1; omega) d.o1
theorem o_le_n : o ≤ n := by
  rw [d.n_eq]
  exact le_mul_of_one_le_left (by have := d.o1; omega) d.c1
theorem x_le_c : x ≤ x * y := le_mul_of_one_le_right (by have := d.x1; omega) d.y1
theorem y_le_c : y ≤ x * y := le_mul_of_one_le_left (by have := d.y1; omega) d.x1
theorem cc : x * y * (x * y) ≤ maxInt :=
  le_trans (mul_le_mul d.c_le_n d.c_le_n (by have := d.c1; omega) (by have := d.n1; omega)) d.nn
theorem oo : o * o ≤ maxInt :=
  le_trans (mul_le_mul d.o_le_n d.o_le_n (by have := d.o1; omega) (by have := d.n1; omega)) d.nn
theorem coo : x * y * o * o ≤ maxInt := by
  rw [← d.n_eq]
  exact le_trans (mul_le_mul_of_nonneg_left d.o_le_n (by have := d.n1; omega)) d.nn
theorem co : x * y * o ≤ maxInt := by
  rw [← d.n_eq]
  have := d.n_le
  simp only [maxInt]
  omega
theorem small {z : ℤ} (h : z ≤ n) : z ≤ maxInt := by
  have := d.n_le
  simp only [maxInt]
  omega

theorem vc {X Y : I} (hX : V X x) (hY : V Y y) : V (X * Y) (x * y) :=
  V_mul hX hY (by have := d.x1; omega) (by have := d.y1; omega) (d.small d.c_le_n)
theorem vn {O C : I} (hO : V O o) (hC : V C (x * y)) : V (C * O) n :=
  (V_mul hC hO (by have := d.c1; omega) (by have := d.o1; omega) d.co).of_eq d.n_eq.symm
theorem vn' {O C : I} (hO : V O o) (hC : V C (x * y)) : V (O * C) n :=
  (V_mul hO hC (by have := d.o1; omega) (by have := d.c1; omega) (by rw [mul_comm]; exact d.co)).of_eq (by rw [d.n_eq, mul_comm])
theorem vnn {N : I} (hN : V N n) : V (N * N) (n * n) :=
  V_mul hN hN (by have := d.n1; omega) (by have := d.n1; omega) d.nn

/-- a cell and an orbital give a site -/
theorem site {i p C : I} (hi : Bd i (x * y)) (hp : Bd p o) (hC : V C (x * y)) : Bd (i + p * C) n := by
  rw [d.n_eq]
  exact Bd.radix' hi hp hC (by have := d.co; omega)

theorem site' {i p C : I} (hi : Bd i (x * y)) (hp : Bd p o) (hC : V C (x * y)) : Bd (i + C * p) n := by
  rw [d.n_eq]
  exact Bd.radix hi hp hC (by have := d.co; omega)

theorem orb {i C : I} (hi : Bd i n) (hC : V C (x * y)) : Bd (i / C) o := by
  rw [d.n_eq] at hi
  exact Bd.div hi hC (by have := d.c1; omega) (by have := d.co; omega)

/-- a pair of sites -/
theorem pair {i j N : I} (hi : Bd i n) (hj : Bd j n) (hN : V N n) : Bd (i + N * j) (n * n) :=
  Bd.radix hi hj hN (by have := d.nn; omega)
theorem pair' {i j N : I} (hi : Bd i n) (hj : Bd j n) (hN : V N n) : Bd (i + j * N) (n * n) :=
  Bd.radix' hi hj hN (by have := d.nn; omega)
theorem pair'' {i j N : I} (hi : Bd i n) (hj : Bd j n) (hN : V N n) : Bd (j * N + i) (n * n) :=
  Bd.radix'' hi hj hN (by have := d.nn; omega)

end Dims

theorem kineticExponential_safe {o x y n sh : ℤ} (d : Dims o x y n) {O X Y S : I} (hO : V O o) (hX : V X x) (hY : V Y y)
    (hS : V S sh) (hs0 : 0 ≤ sh) (hs : x - 1 + sh ≤ maxInt) : Safe (kineticExponential O X Y S) := by
  have hC := d.vc hX hY
  have hN := d.vn' hO hC
  have hNN := d.vnn hN
  have h0 : 0 ≤ n * n := mul_nonneg (by have := d.n1; omega) (by have := d.n1; omega)
  have hOO := V_mul hO hO (by have := d.o1; omega) (by have := d.o1; omega) d.oo
  have x1 := d.x1
  have y1 := d.y1
  have hxm := d.small (le_trans d.x_le_c d.c_le_n)
  have hym := d.small (le_trans d.y_le_c d.c_le_n)
  have hcm := d.small d.c_le_n
  simp only [kineticExponential, safe_append, safe_cons, safe_nil_iff, and_true]
  refine ⟨⟨⟨⟨use_ok hNN h0, ?_⟩, ?_⟩, run1_ok' hNN hNN h0, use_ok hNN h0, use_ok hNN h0⟩, matrixExp_safe hN d.n1 d.nn hNN hNN⟩
  · refine safe_loop0 hO fun a ha => safe_loop0 hO fun b hb => safe_loop0 hY fun j hj => safe_loop0 hX fun i hi => ?_
    have hjn := Bd_next hY y1 hym hj
    have hin := Bd_next hX x1 hxm hi
    have his : Bd ((i + sel eq (next Y j) 0 S 0) % X) x := by
      obtain ⟨jn, hjv, -, -⟩ := hjn
      obtain ⟨i', hi', hi0, hix⟩ := hi
      by_cases hj0 : jn = 0
      · have hv : V (sel eq (next Y j) 0 S 0) sh := by
          have h1 : (next Y j).val = some jn := hjv
          have h2 : (0 : I).val = some 0 := rfl
          simp only [sel, h1, h2, hj0, eq]
          exact hS
        exact Bd.mod (V_add hi' hv (by omega) (by omega)) hX (by omega) (by omega) (by omega)
      · have hv : V (sel eq (next Y j) 0 S 0) 0 := by
          have h1 : (next Y j).val = some jn := hjv
          have h2 : (0 : I).val = some 0 := rfl
          simp only [sel, h1, h2, eq, hj0, decide_false, Bool.false_eq_true, if_false]
          exact V_zero
        exact Bd.mod (V_add hi' hv (by omega) (by omega)) hX (by omega) (by omega) (by omega)
    have hisn := Bd_next hX x1 hxm his
    have cell : ∀ {u v : I}, Bd u x → Bd v y → Bd (u + v * X) (x * y) := fun hu hv => Bd.radix' hu hv hX (by omega)
    have A := cell hi hj
    have B := cell hin hj
    have C := cell his hjn
    have D := cell hisn hjn
    have key : ∀ {ln : ℕ} {u v : I}, Bd u (x * y) → Bd v (x * y) →
        Safe [el "kinetic.c" ln (O * (X * Y) * (O * (X * Y))) [(u + a * (X * Y)) + (v + b * (X * Y)) * (O * (X * Y))],
          el "kinetic.c" (ln + 1) (O * (X * Y) * (O * (X * Y))) [(u + a * (X * Y)) * (O * (X * Y)) + (v + b * (X * Y))],
          el "kinetic.c" ln (O * O) [a + b * O]] := by
      intro ln u v hu hv
      have hu' := d.site hu ha hC
      have hv' := d.site hv hb hC
      simp only [safe_cons, safe_nil_iff, and_true]
      exact ⟨el_ok hNN (d.pair' hu' hv' hN), el_ok hNN (d.pair'' hv' hu' hN),
        el_ok hOO (Bd.radix' ha hb hO (by have := d.oo; omega))⟩
    refine safe_flatMap.2 fun q hq => ?_
    simp only [List.mem_cons, List.not_mem_nil, or_false] at hq
    rcases hq with h | h | h | h | h <;> rw [h]
    · exact key A A
    · exact key A B
    · exact key A C
    · exact key A D
    · exact key B C
  · refine safe_loop0 hO fun a ha => safe_loop0 hC fun i hi => ?_
    simp only [safe_cons, safe_nil_iff, and_true]
    have := d.site hi ha hC
    exact ⟨el_ok hNN (d.pair this this hN), el_ok hO ha⟩

theorem fillStratonovich_safe {o : ℤ} {O : I} (hO : V O o) (ho : 0 ≤ o) : Safe (fillStratonovich O) := by
  simp only [fillStratonovich, safe_append, safe_singleton]
  refine ⟨use_ok hO ho, safe_loop0 hO fun i hi => ?_⟩
  simp only [safe_cons, safe_nil_iff, and_true]
  exact ⟨el_ok hO hi, el_ok hO hi⟩

/-! ## time_flow.c -/

/-- the time slices: `l` slices in `k` products of `b` matrices -/
structure Slices (l b k n : ℤ) : Prop where
  b1 : 1 ≤ b
  k1 : 1 ≤ k
  l_eq : l = b * k
  l2 : 2 * l ≤ maxInt + 1
  ln : l * n ≤ maxInt

namespace Slices

variable {l b k n : ℤ} (t : Slices l b k n)
include t

theorem l1 : 1 ≤ l := by rw [t.l_eq]; exact one_le_mul_of_one_le_of_one_le t.b1 t.k1
theorem b_le : b ≤ l := by rw [t.l_eq]; exact le_mul_of_one_le_right (by have := t.b1; omega) t.k1
theorem k_le : k ≤ l := by rw [t.l_eq]; exact le_mul_of_one_le_left (by have := t.k1; omega) t.b1
theorem lm : l ≤ maxInt := by have := t.l1; have := t.l2; simp only [maxInt] at *; omega
theorem vk {L B : I} (hL : V L l) (hB : V B b) : V (L / B) k := by
  refine (V_div hL hB (by have := t.l1; omega) (by have := t.b1; omega) t.lm).of_eq ?_
  rw [t.l_eq]
  exact Int.mul_ediv_cancel_left k (by have := t.b1; omega)
theorem vln {L N : I} (hL : V L l) (hN : V N n) (hn : 0 ≤ n) : V (L * N) (l * n) :=
  V_mul hL hN (by have := t.l1; omega) hn t.ln

/-- an entry of the fields -/
theorem entry {i j N : I} (hi : Bd i n) (hj : Bd j l) (hN : V N n) : Bd (i + j * N) (l * n) := by
  have := Bd.radix' hi hj hN (by have := t.ln; rw [mul_comm]; omega)
  rwa [mul_comm] at this

end Slices

theorem timeStepMatrix_safe {o x y n s b : ℤ} (d : Dims o x y n) {O C S off B : I} (hO : V O o) (hC : V C (x * y)) (hS : V S s)
    (hoff : V off b) (hb0 : 0 ≤ b) (hb : b + n ≤ s) (hB : V B (n * n)) : Safe (timeStepMatrix O C S off B) := by
  have hN := d.vn hO hC
  have hNN := d.vnn hN
  have n1 := d.n1
  have h0 : 0 ≤ n * n := mul_nonneg (by omega) (by omega)
  simp only [timeStepMatrix, safe_append, safe_singleton]
  refine ⟨run1_ok' hB hNN h0, safe_loop0 hN fun i hi => ?_⟩
  simp only [safe_append, safe_cons, safe_nil_iff, and_true]
  have ho := d.orb hi hC
  obtain ⟨z, hz, hz0, hzn⟩ := hi
  have h1 : (z + 1) * n ≤ n * n := mul_le_mul_of_nonneg_right (by omega) (by omega)
  rw [add_mul, one_mul] at h1
  have h2 : 0 ≤ z * n := mul_nonneg hz0 (by omega)
  have hnn := d.nn
  refine ⟨⟨el2_ok hS hoff hz (by omega) (by omega), el_ok hO ho,
    rect_ok (ro := z) (co := 0) (k := n) hB rfl hz V_one hN hN (by ring) hz0 (by omega) (by omega) (by omega) (by omega) (by omega) n1,
    run1_ok hB (V_mul hz hN hz0 (by omega) (by omega)) hN (by omega) h2 (by omega)⟩, safe_loop0 V_two fun σ hσ => ?_⟩
  simp only [safe_cons, safe_nil_iff, and_true]
  refine ⟨el_ok V_two hσ, el_ok V_two ?_⟩
  obtain ⟨w, hw, hw0, hw2⟩ := hσ
  exact ⟨1 - w, V_sub V_one hw (by simp only [maxInt]; omega) (by simp only [maxInt]; omega), by omega, by omega⟩

theorem allocateTimeStep_safe {l b k n : ℤ} (t : Slices l b k n) (hn : 1 ≤ n) (hnn : n * n ≤ maxInt) {N L B : I} (hN : V N n)
    (hL : V L l) (hB : V B b) : Safe (allocateTimeStep N L B) := by
  have hK := t.vk hL hB
  have hNN := V_mul hN hN (by omega) (by omega) hnn
  have h0 : 0 ≤ n * n := mul_nonneg (by omega) (by omega)
  simp only [allocateTimeStep, safe_append, safe_cons, safe_nil_iff, and_true]
  refine ⟨⟨⟨use_ok hL (by have := t.l1; omega), use_ok hK (by have := t.k1; omega)⟩, ?_⟩, ?_⟩
  · refine safe_loop0 hL fun i hi => ?_
    simp only [safe_cons, safe_nil_iff, and_true]
    exact ⟨el_ok hL hi, use_ok hNN h0⟩
  · refine safe_loop0 hK fun i hi => ?_
    simp only [safe_cons, safe_nil_iff, and_true]
    exact ⟨el_ok hK hi, use_ok hNN h0⟩

theorem initTimeStep_safe {o x y n l b k : ℤ} (d : Dims o x y n) (t : Slices l b k n) {O C L B S : I} (hO : V O o)
    (hC : V C (x * y)) (hL : V L l) (hB : V B b) (hS : V S (l * n)) : Safe (initTimeStep O C L B S) := by
  have hN := d.vn hO hC
  have hNN := d.vnn hN
  have n1 := d.n1
  have h0 : 0 ≤ n * n := mul_nonneg (by omega) (by omega)
  have hK := t.vk hL hB
  have hln := t.ln
  have hb1 := t.b1
  have hlm := t.lm
  simp only [initTimeStep, safe_append]
  refine ⟨safe_loop0 hL fun z hz => ?_, safe_loop0 hK fun z hz => ?_⟩
  · simp only [safe_append, safe_cons, safe_nil_iff, and_true]
    refine ⟨⟨el_ok hL hz, run1_ok' hNN hNN h0⟩, ?_⟩
    obtain ⟨w, hw, hw0, hwl⟩ := hz
    have h1 : (w + 1) * n ≤ l * n := mul_le_mul_of_nonneg_right (by omega) (by omega)
    rw [add_mul, one_mul] at h1
    have h2 : 0 ≤ w * n := mul_nonneg hw0 (by omega)
    exact timeStepMatrix_safe d hO hC hS (V_mul hw hN hw0 (by omega) (by omega)) h2 (by omega) hNN
  · simp only [safe_append, safe_cons, safe_nil_iff, and_true]
    refine ⟨⟨el_ok hK hz, run1_ok' hNN hNN h0⟩, ?_⟩
    obtain ⟨w, hw, hw0, hwk⟩ := hz
    have h1 : b * (w + 1) ≤ b * k := mul_le_mul_of_nonneg_left (by omega) (by omega)
    rw [mul_add, mul_one, ← t.l_eq] at h1
    have h2 : 0 ≤ b * w := mul_nonneg (by omega) hw0
    exact matrixProductSequence_safe hN n1 d.nn hB hb1 hL
      ((V_mul hw hB hw0 (by omega) (by rw [mul_comm]; omega)).of_eq (mul_comm _ _)) h2 (by omega) hNN hNN

theorem updateTimeStep_safe {o x y n l b k : ℤ} (d : Dims o x y n) (t : Slices l b k n) {O C L B S z : I} (hO : V O o)
    (hC : V C (x * y)) (hL : V L l) (hB : V B b) (hS : V S (l * n)) (hz : Bd z l) : Safe (updateTimeStep O C L B S z) := by
  have hN := d.vn hO hC
  have hNN := d.vnn hN
  have n1 := d.n1
  have hK := t.vk hL hB
  have hln := t.ln
  have hb1 := t.b1
  have hlm := t.lm
  have hbl := t.b_le
  have hel := el_ok (f := "time_flow.c") (l := 272) hL hz
  obtain ⟨w, hw, hw0, hwl⟩ := hz
  have h1 : (w + 1) * n ≤ l * n := mul_le_mul_of_nonneg_right (by omega) (by omega)
  rw [add_mul, one_mul] at h1
  have h2 : 0 ≤ w * n := mul_nonneg hw0 (by omega)
  have hB1 : V (B - 1) (b - 1) := V_sub hB V_one (by simp only [maxInt]; omega) (by omega)
  simp only [updateTimeStep, safe_append, safe_singleton]
  refine ⟨⟨hel, timeStepMatrix_safe d hO hC hS (V_mul hw hN hw0 (by omega) (by omega)) h2 (by omega) hNN⟩,
    (safe_cond (V_mod hw hB hw0 (by omega) (by omega)) hB1).2 ⟨fun hc => ?_, fun _ => safe_nil⟩⟩
  simp only [eq, decide_eq_true_eq] at hc
  have hwb : b - 1 ≤ w := by
    rw [← hc]
    have := Int.emod_add_mul_ediv w b
    have h3 : 0 ≤ b * (w / b) := mul_nonneg (by omega) (Int.ediv_nonneg hw0 (by omega))
    omega
  have hls : V (z - (B - 1)) (w - (b - 1)) := V_sub hw hB1 (by simp only [maxInt]; omega) (by omega)
  simp only [safe_append, safe_singleton]
  refine ⟨el_ok hK (Bd.div (c := b) ⟨_, hls, by omega, by rw [← t.l_eq]; omega⟩ hB (by omega) (by rw [← t.l_eq]; omega)),
    matrixProductSequence_safe hN n1 d.nn hB hb1 hL hls (by omega) (by omega) hNN hNN⟩

theorem timeFlowMap_safe {o x y n l b k : ℤ} (d : Dims o x y n) (t : Slices l b k n) {N L B sh : I} (hN : V N n)
    (hL : V L l) (hB : V B b) (hsh : Bd sh l) : Safe (timeFlowMap N L B sh) := by
  have hNN := d.vnn hN
  have n1 := d.n1
  have h0 : 0 ≤ n * n := mul_nonneg (by omega) (by omega)
  have hnn := d.nn
  have hnm := d.small (le_refl n)
  have hK := t.vk hL hB
  have hb1 := t.b1
  have hk1 := t.k1
  have hlm := t.lm
  have hl2 := t.l2
  have hkl := t.k_le
  have hps : Bd (sh / B) k := by
    rw [t.l_eq] at hsh
    exact Bd.div hsh hB (by omega) (by rw [← t.l_eq]; omega)
  have col : ∀ {j : I}, Bd j n → ∀ {ln : ℕ}, (run1 "time_flow.c" ln (N * N) (j * N) N).ok := by
    intro j hj ln
    obtain ⟨w, hw, hw0, hwn⟩ := hj
    have h1 : (w + 1) * n ≤ n * n := mul_le_mul_of_nonneg_right (by omega) (by omega)
    rw [add_mul, one_mul] at h1
    have h2 : 0 ≤ w * n := mul_nonneg hw0 (by omega)
    exact run1_ok hNN (V_mul hw hN hw0 (by omega) (by omega)) hN (by omega) h2 (by omega)
  have succ : ∀ {j : I}, Bd j n → ∃ w, V j w ∧ 0 ≤ w ∧ w < n ∧ V (j + 1) (w + 1) := by
    intro j hj
    obtain ⟨w, hw, hw0, hwn⟩ := hj
    exact ⟨w, hw, hw0, hwn, V_add hw V_one (by omega) (by omega)⟩
  simp only [timeFlowMap, safe_append, safe_cons, safe_nil_iff, and_true]
  refine ⟨⟨⟨⟨use_ok hNN h0, use_ok hN (by omega), ?_, run1_ok' hNN hNN h0, run1_ok' hN hN (by omega), full_ok hNN hN n1⟩,
    safe_loop0 hN fun i hi => ?_⟩, safe_loop0 hN fun j hj => ?_⟩, (safe_loop V_one hK).2 fun z hz1 hzk => ?_⟩
  · obtain ⟨w, hw, hw0, hwk⟩ := hps
    exact el_ok hK (Bd.mod hw hK hw0 (by omega) (by omega))
  · simp only [safe_cons, safe_nil_iff, and_true]
    exact ⟨el_ok hN hi, el_ok hNN (d.pair' hi hi hN)⟩
  · simp only [safe_append, safe_singleton]
    obtain ⟨w, hw, hw0, hwn, hw1⟩ := succ hj
    refine ⟨el_ok hN hj, safe_loop0 hw1 fun i hi => safe_loop0 hN fun q hq => ?_⟩
    have hi' := hi.mono (show w + 1 ≤ n by omega)
    simp only [safe_cons, safe_nil_iff, and_true]
    exact ⟨el_ok hNN (d.pair' hi' hq hN), el_ok hN hi', el_ok hNN (d.pair' hi' hj hN)⟩
  · simp only [safe_append, safe_cons, safe_nil_iff, and_true]
    refine ⟨⟨⟨⟨⟨⟨⟨⟨?_, full_ok hNN hN n1, run1_ok' hN hN (by omega)⟩, safe_loop0 hN fun i hi => ?_⟩,
      el_ok hN ⟨0, V_zero, le_refl _, by omega⟩⟩, (safe_loop V_one hN).2 fun i hi1 hin => ?_⟩, safe_loop0 hN fun j hj => ?_⟩,
      safe_loop0 hN fun i hi => ?_⟩, safe_loop0 hN fun j hj => ?_⟩, safe_loop0 hN fun j hj => ?_⟩
    · obtain ⟨w, hw, hw0, hwk⟩ := hps
      exact el_ok hK (Bd.mod (V_add (V_coe z) hw (by omega) (by omega)) hK (by omega) (by omega) (by omega))
    · simp only [safe_cons, safe_nil_iff, and_true]
      exact ⟨el_ok hN hi, col hi⟩
    · simp only [safe_append]
      refine ⟨(safe_loop V_one (V_add (V_coe i) V_one (by omega) (by omega))).2 fun j hj1 hji => ?_, safe_loop0 hN fun q hq => ?_⟩
      · simp only [safe_cons, safe_nil_iff, and_true]
        exact ⟨el_ok hN ⟨j - 1, V_sub (V_coe j) V_one (by simp only [maxInt]; omega) (by omega), by omega, by omega⟩,
          el_ok hN ⟨j, V_coe j, by omega, by omega⟩⟩
      · simp only [safe_cons, safe_nil_iff, and_true]
        exact ⟨el_ok hN hq, el_ok hN ⟨i, V_coe i, by omega, by omega⟩⟩
    · simp only [safe_append, safe_cons, safe_nil_iff, and_true]
      exact ⟨⟨col hj, el_ok hN hj⟩, safe_loop0 hN fun q hq => safe_singleton.2 (col hq)⟩
    · simp only [safe_cons, safe_nil_iff, and_true]
      exact ⟨el_ok hN hi, el_ok hNN (d.pair' hi hi hN)⟩
    · obtain ⟨w, hw, hw0, hwn, hw1⟩ := succ hj
      refine safe_loop0 hw1 fun i hi => ?_
      have hi' := hi.mono (show w + 1 ≤ n by omega)
      simp only [safe_cons, safe_nil_iff, and_true]
      exact ⟨el_ok hNN (d.pair' hi' hj hN), el_ok hN hi'⟩
    · simp only [safe_append, safe_singleton]
      refine ⟨safe_loop0 hN fun i hi => safe_loop0 hN fun q hq => ?_, col hj⟩
      simp only [safe_cons, safe_nil_iff, and_true]
      exact ⟨el_ok hN hi, el_ok hNN (d.pair' hq hj hN)⟩

/-! ## greens_func.c -/

theorem greenConstruct_safe {o x y n l b k : ℤ} (d : Dims o x y n) (t : Slices l b k n) {N L B sh : I} (hN : V N n)
    (hL : V L l) (hB : V B b) (hsh : Bd sh l) : Safe (greenConstruct N L B sh) := by
  have hNN := d.vnn hN
  have n1 := d.n1
  have h0 : 0 ≤ n * n := mul_nonneg (by omega) (by omega)
  simp only [greenConstruct, safe_append, safe_cons, safe_nil_iff, and_true]
  refine ⟨⟨⟨⟨⟨⟨⟨⟨⟨use_ok hNN h0, use_ok hN (by omega)⟩, timeFlowMap_safe d t hN hL hB hsh⟩, run1_ok' hNN hNN h0⟩,
    safe_loop0 hN fun i hi => ?_⟩, full_ok hNN hN n1, run1_ok' hN hN (by omega)⟩, safe_loop0 hN fun i hi => ?_⟩,
    run1_ok' hNN hNN h0, full_ok hNN hN n1, run1_ok' hN hN (by omega)⟩, safe_loop0 hN fun i hi => ?_⟩, full_ok hNN hN n1⟩
  · simp only [safe_cons, safe_nil_iff, and_true]
    exact ⟨el_ok hNN (d.pair' hi hi hN), el_ok hN hi⟩
  · simp only [safe_cons, safe_nil_iff, and_true]
    refine ⟨el_ok hN hi, ?_⟩
    obtain ⟨z, hz, hz0, hzn⟩ := hi
    exact rect_ok (ro := z) (co := 0) (k := n) hNN rfl hz V_one hN hN (by ring) hz0 (by omega) (by omega) (by omega) (by omega)
      (by omega) n1
  · simp only [safe_cons, safe_nil_iff, and_true]
    exact ⟨el_ok hNN (d.pair' hi hi hN), el_ok hN hi⟩

theorem shermanMorrison_safe {o x y n : ℤ} (d : Dims o x y n) {N i : I} (hN : V N n) (hi : Bd i n) :
    Safe (shermanMorrison N i) := by
  have hNN := d.vnn hN
  have n1 := d.n1
  have hnn := d.nn
  simp only [shermanMorrison, safe_append, safe_cons, safe_nil_iff, and_true]
  refine ⟨⟨use_ok hN (by omega), safe_loop0 hN fun j hj => ?_⟩, el_ok hN hi, ?_, run1_ok' hN hN (by omega), full_ok hNN hN n1⟩
  · simp only [safe_cons, safe_nil_iff, and_true]
    exact ⟨el_ok hN hj, el_ok hNN (d.pair' hi hj hN)⟩
  · obtain ⟨w, hw, hw0, hwn⟩ := hi
    have h1 : n * (w + 1) ≤ n * n := mul_le_mul_of_nonneg_left (by omega) (by omega)
    rw [mul_add, mul_one] at h1
    have h2 : 0 ≤ n * w := mul_nonneg (by omega) hw0
    exact run1_ok hNN (V_mul hN hw (by omega) hw0 (by omega)) hN (by omega) h2 (by omega)

theorem timeSliceWrap_safe {o x y n : ℤ} (d : Dims o x y n) {N size off : I} {s b : ℤ} (hN : V N n) (hs : V size s)
    (hoff : V off b) (hb : 0 ≤ b) (h : b + n * n ≤ s) : Safe (timeSliceWrap N size [off]) := by
  have hNN := d.vnn hN
  have n1 := d.n1
  simp only [timeSliceWrap, safe_cons, safe_nil_iff, and_true]
  refine ⟨use_ok hNN (mul_nonneg (by omega) (by omega)), full_ok hNN hN n1, ?_⟩
  refine ⟨s, b, n, n, n, hs, offset_one hoff, hN, hN, hN, by omega, by omega, by omega, fun _ _ => ⟨hb, ?_⟩⟩
  have e : b + (n - 1) + (n - 1) * n = b + n * n - 1 := by ring
  omega

end Verif.Index
