import Verif.Model.BlockCyclic
import Verif.Lemmas.Lapack
import Mathlib.Logic.Equiv.Fin.Basic
import Mathlib.Data.Fintype.BigOperators

/-! # Matrices made of blocks, and their storage in a buffer -/

set_option autoImplicit false

namespace Verif.BlockCyclic

open Matrix Verif.Lapack

variable {n : ℕ}

/-- the matrix with blocks `f i j` -/
def mk (a b : ℕ) (f : ℕ → ℕ → Mat n) : Matrix (Fin (a * n)) (Fin (b * n)) ℝ :=
  Matrix.of fun r c => f r.divNat c.divNat r.modNat c.modNat

/-- block `(i, j)` of a matrix -/
def blk {a b : ℕ} (M : Matrix (Fin (a * n)) (Fin (b * n)) ℝ) (i j : ℕ) : Mat n :=
  if h : i < a ∧ j < b then
    Matrix.of fun r c => M (finProdFinEquiv (⟨i, h.1⟩, r)) (finProdFinEquiv (⟨j, h.2⟩, c))
  else 0

variable {a b c : ℕ}

theorem mk_apply (f : ℕ → ℕ → Mat n) (i : Fin a) (j : Fin b) (r s : Fin n) :
    mk a b f (finProdFinEquiv (i, r)) (finProdFinEquiv (j, s)) = f i j r s := by
  have h1 := finProdFinEquiv.symm_apply_apply (i, r)
  have h2 := finProdFinEquiv.symm_apply_apply (j, s)
  rw [finProdFinEquiv_symm_apply] at h1 h2
  have e1 := (Prod.mk.injEq .. ▸ h1 : _ ∧ _)
  have e2 := (Prod.mk.injEq .. ▸ h2 : _ ∧ _)
  simp only [mk, of_apply, e1.1, e1.2, e2.1, e2.2]

/-- two matrices are equal if their blocks are -/
theorem ext_blocks {M M' : Matrix (Fin (a * n)) (Fin (b * n)) ℝ}
    (h : ∀ (i : Fin a) (j : Fin b) (r s : Fin n),
      M (finProdFinEquiv (i, r)) (finProdFinEquiv (j, s))
        = M' (finProdFinEquiv (i, r)) (finProdFinEquiv (j, s))) : M = M' := by
  ext x y
  obtain ⟨⟨i, r⟩, rfl⟩ := finProdFinEquiv.surjective x
  obtain ⟨⟨j, s⟩, rfl⟩ := finProdFinEquiv.surjective y
  exact h i j r s

theorem mk_congr {f g : ℕ → ℕ → Mat n} (h : ∀ i < a, ∀ j < b, f i j = g i j) : mk a b f = mk a b g :=
  ext_blocks fun i j r s => by rw [mk_apply, mk_apply, h i i.2 j j.2]

theorem blk_mk (f : ℕ → ℕ → Mat n) {i j : ℕ} (hi : i < a) (hj : j < b) :
    blk (mk a b f) i j = f i j := by
  ext r s
  rw [blk, dif_pos ⟨hi, hj⟩, of_apply, mk_apply]

theorem mk_blk (M : Matrix (Fin (a * n)) (Fin (b * n)) ℝ) : mk a b (blk M) = M :=
  ext_blocks fun i j r s => by rw [mk_apply, blk, dif_pos ⟨i.2, j.2⟩, of_apply]

theorem mk_inj {f g : ℕ → ℕ → Mat n} (h : mk a b f = mk a b g) {i j : ℕ} (hi : i < a) (hj : j < b) :
    f i j = g i j := by
  rw [← blk_mk (a := a) (b := b) f hi hj, h, blk_mk g hi hj]

/-- product of block matrices -/
def bmul (b : ℕ) (f g : ℕ → ℕ → Mat n) : ℕ → ℕ → Mat n := fun i j =>
  ∑ k ∈ Finset.range b, f i k * g k j

theorem mk_mul (f g : ℕ → ℕ → Mat n) : mk a b f * mk b c g = mk a c (bmul b f g) := by
  refine ext_blocks fun i j r s => ?_
  rw [Matrix.mul_apply, mk_apply, bmul, Finset.sum_range, Matrix.sum_apply,
    ← Equiv.sum_comp finProdFinEquiv, Fintype.sum_prod_type]
  refine Finset.sum_congr rfl fun k _ => ?_
  rw [Matrix.mul_apply]
  refine Finset.sum_congr rfl fun t _ => ?_
  rw [mk_apply, mk_apply]

theorem mk_transpose (f : ℕ → ℕ → Mat n) : (mk a b f)ᵀ = mk b a fun i j => (f j i)ᵀ :=
  ext_blocks fun i j r s => by rw [Matrix.transpose_apply, mk_apply, mk_apply, Matrix.transpose_apply]

theorem mk_one : mk a a (fun i j => if i = j then (1 : Mat n) else 0) = 1 := by
  refine ext_blocks fun i j r s => ?_
  rw [mk_apply, Matrix.one_apply]
  by_cases hij : i = j
  · subst hij
    rw [if_pos rfl, Matrix.one_apply]
    by_cases hrs : r = s
    · subst hrs; simp
    · simp [hrs]
  · have h1 : ¬ (i : ℕ) = j := fun h => hij (Fin.ext h)
    simp [h1, hij]

theorem mk_add (f g : ℕ → ℕ → Mat n) : mk a b f + mk a b g = mk a b fun i j => f i j + g i j :=
  ext_blocks fun i j r s => by rw [Matrix.add_apply, mk_apply, mk_apply, mk_apply, Matrix.add_apply]

theorem mk_smul (x : ℝ) (f : ℕ → ℕ → Mat n) : x • mk a b f = mk a b fun i j => x • f i j :=
  ext_blocks fun i j r s => by rw [Matrix.smul_apply, mk_apply, mk_apply, Matrix.smul_apply]

/-- upper triangular part of a block matrix -/
def triu (f : ℕ → ℕ → Mat n) : ℕ → ℕ → Mat n := fun i j =>
  if i < j then f i j else if i = j then upper (f i j) else 0

theorem val_lt_iff (i : Fin a) (j : Fin b) (r s : Fin n) :
    ((finProdFinEquiv (i, r)).val ≤ (finProdFinEquiv (j, s)).val)
      ↔ i.val < j.val ∨ (i.val = j.val ∧ r.val ≤ s.val) := by
  simp only [finProdFinEquiv_apply_val]
  have hr := r.2
  have hs := s.2
  rcases lt_trichotomy i.val j.val with h | h | h
  · have : n * (i.val + 1) ≤ n * j.val := Nat.mul_le_mul_left _ h
    rw [Nat.mul_add, Nat.mul_one] at this
    constructor
    · intro _; exact Or.inl h
    · intro _; omega
  · rw [h]
    constructor
    · intro h'; exact Or.inr ⟨rfl, by omega⟩
    · rintro (h' | h')
      · omega
      · omega
  · have : n * (j.val + 1) ≤ n * i.val := Nat.mul_le_mul_left _ h
    rw [Nat.mul_add, Nat.mul_one] at this
    constructor
    · intro _; omega
    · intro _; omega

theorem upper_mk (f : ℕ → ℕ → Mat n) : upper (mk a b f) = mk a b (triu f) := by
  refine ext_blocks fun i j r s => ?_
  rw [mk_apply]
  simp only [upper, of_apply, val_lt_iff, mk_apply, triu]
  rcases lt_trichotomy i.val j.val with h | h | h
  · simp [h]
  · simp only [h, lt_irrefl, false_or, true_and, if_true, if_false, of_apply]
  · have h1 : ¬ i.val < j.val := by omega
    have h2 : ¬ i.val = j.val := by omega
    simp [h1, h2]

/-! ## Buffers -/

/-- the buffer contains the matrix with `p × p` blocks `f` -/
def Rep (p : ℕ) (A : Buf) (f : ℕ → ℕ → Mat n) : Prop :=
  ∀ i < p, ∀ j < p, ∀ r s : Fin n, A ((n * i + r) + n * p * (n * j + s)) = f i j r s

/-- replace `a × b` blocks beginning at `(i₀, j₀)` -/
def patch (f : ℕ → ℕ → Mat n) (i₀ j₀ a b : ℕ) (g : ℕ → ℕ → Mat n) : ℕ → ℕ → Mat n := fun i j =>
  if (i₀ ≤ i ∧ i < i₀ + a) ∧ (j₀ ≤ j ∧ j < j₀ + b) then g (i - i₀) (j - j₀) else f i j

variable {p : ℕ}

theorem Rep.congr {A : Buf} {f g : ℕ → ℕ → Mat n} (h : Rep p A f)
    (hfg : ∀ i < p, ∀ j < p, f i j = g i j) : Rep p A g := fun i hi j hj r s => by
  rw [h i hi j hj, hfg i hi j hj]

theorem fits_block {i₀ j₀ : ℕ} (hi : i₀ + a ≤ p) (hj : j₀ + b ≤ p) {z : ℤ}
    (hz : z = (i₀ + (n * p : ℕ) * j₀) * n) : Fits ((n * p) * (n * p)) z (n * p) (a * n) (b * n) := by
  refine ⟨by rw [hz]; positivity, fun ha hb => ?_⟩
  have h1 : n * i₀ + a * n ≤ n * p := by
    rw [mul_comm a n, ← mul_add]; exact Nat.mul_le_mul_left _ hi
  have h2 : n * j₀ + b * n ≤ n * p := by
    rw [mul_comm b n, ← mul_add]; exact Nat.mul_le_mul_left _ hj
  have h3 : (n * p) * (n * j₀ + (b * n - 1)) ≤ (n * p) * (n * p - 1) := Nat.mul_le_mul_left _ (by omega)
  have h5 : 0 < n * p := by omega
  have h4 : n * i₀ + (a * n - 1) + (n * p) * (n * j₀ + (b * n - 1)) < (n * p) * (n * p) := by
    have h6 : (n * p) * (n * p - 1) + n * p = (n * p) * (n * p) := by
      rw [← Nat.mul_succ]
      congr 1
      omega
    omega
  rw [hz]
  have h7 : ((i₀ : ℤ) + (n * p : ℕ) * j₀) * n + (a * n - 1 : ℕ) + (n * p : ℕ) * (b * n - 1 : ℕ)
      = ((n * i₀ + (a * n - 1) + (n * p) * (n * j₀ + (b * n - 1)) : ℕ) : ℤ) := by
    push_cast
    ring
  rw [h7]
  exact_mod_cast h4

theorem toNat_addr {i₀ j₀ : ℕ} {z : ℤ} (hz : z = (i₀ + (n * p : ℕ) * j₀) * n) :
    z.toNat = n * i₀ + n * p * (n * j₀) := by
  have : z = ((n * i₀ + n * p * (n * j₀) : ℕ) : ℤ) := by
    rw [hz]; push_cast; ring
  rw [this, Int.toNat_natCast]

theorem load_block {A : Buf} {f : ℕ → ℕ → Mat n} (hA : Rep p A f) {i₀ j₀ : ℕ} (a b : ℕ)
    (hi : i₀ + a ≤ p) (hj : j₀ + b ≤ p) {z : ℤ} (hz : z = (i₀ + (n * p : ℕ) * j₀) * n) :
    load ((n * p) * (n * p)) A z (n * p) (a * n) (b * n)
      = some (mk a b fun i j => f (i₀ + i) (j₀ + j)) := by
  rw [load, if_pos (fits_block hi hj hz), toNat_addr hz]
  congr 1
  refine ext_blocks fun i j r s => ?_
  rw [mk_apply, view, of_apply, ← hA (i₀ + i) (by omega) (j₀ + j) (by omega)]
  simp only [finProdFinEquiv_apply_val]
  congr 1
  ring

theorem save_block {A : Buf} {f : ℕ → ℕ → Mat n} (hA : Rep p A f) {i₀ j₀ : ℕ}
    (hi : i₀ + a ≤ p) (hj : j₀ + b ≤ p) {z : ℤ} (hz : z = (i₀ + (n * p : ℕ) * j₀) * n)
    (M : Matrix (Fin (a * n)) (Fin (b * n)) ℝ) :
    ∃ A', save ((n * p) * (n * p)) A z (n * p) M = some A' ∧ Rep p A' (patch f i₀ j₀ a b (blk M)) := by
  refine ⟨_, if_pos (fits_block hi hj hz), ?_⟩
  intro i hi' j hj' r s
  have hr := r.2
  have hs := s.2
  have hR : n * i + r < n * p := by
    have : n * (i + 1) ≤ n * p := Nat.mul_le_mul_left _ hi'
    rw [mul_add, mul_one] at this
    omega
  have h1 : n * i₀ + a * n ≤ n * p := by
    rw [mul_comm a n, ← mul_add]; exact Nat.mul_le_mul_left _ hi
  have hN : 0 < n * p := by omega
  rw [store, toNat_addr hz]
  have cmp : ∀ (x y : ℕ) (t : Fin n), n * y ≤ n * x + t ↔ y ≤ x := by
    intro x y t
    have ht := t.2
    constructor
    · intro h
      by_contra h'
      have : n * (x + 1) ≤ n * y := Nat.mul_le_mul_left _ (by omega)
      rw [mul_add, mul_one] at this
      omega
    · intro h
      have := Nat.mul_le_mul_left n h
      omega
  have key : (n * i₀ + n * p * (n * j₀) ≤ n * i + r + n * p * (n * j + s) ∧
      (n * i + r + n * p * (n * j + s) - (n * i₀ + n * p * (n * j₀))) % (n * p) < a * n ∧
      (n * i + r + n * p * (n * j + s) - (n * i₀ + n * p * (n * j₀))) / (n * p) < b * n)
      ↔ (i₀ ≤ i ∧ i < i₀ + a) ∧ (j₀ ≤ j ∧ j < j₀ + b) := by
    by_cases hc : j₀ ≤ j
    · have hc' := (cmp j j₀ s).2 hc
      obtain ⟨dc, hdc⟩ := Nat.exists_eq_add_of_le hc'
      by_cases hrr : i₀ ≤ i
      · have hr' := (cmp i i₀ r).2 hrr
        obtain ⟨dr, hdr⟩ := Nat.exists_eq_add_of_le hr'
        have e : n * i + r + n * p * (n * j + s) = (n * i₀ + n * p * (n * j₀)) + (dr + n * p * dc) := by
          rw [hdr, hdc]; ring
        rw [e, Nat.add_sub_cancel_left, Nat.add_mul_mod_self_left, Nat.add_mul_div_left _ _ hN,
          Nat.mod_eq_of_lt (by omega), Nat.div_eq_of_lt (by omega)]
        have q1 : dr < a * n ↔ i < i₀ + a := by
          have := cmp i (i₀ + a) r
          rw [mul_add, mul_comm n a] at this
          constructor
          · intro h; by_contra h'; have := this.2 (by omega); omega
          · intro h; by_contra h'; have := this.1 (by omega); omega
        have q2 : 0 + dc < b * n ↔ j < j₀ + b := by
          have := cmp j (j₀ + b) s
          rw [mul_add, mul_comm n b] at this
          constructor
          · intro h; by_contra h'; have := this.2 (by omega); omega
          · intro h; by_contra h'; have := this.1 (by omega); omega
        rw [q1, q2]
        constructor
        · rintro ⟨-, h2, h3⟩; exact ⟨⟨hrr, h2⟩, hc, h3⟩
        · rintro ⟨⟨-, h2⟩, -, h3⟩; exact ⟨by omega, h2, h3⟩
      · refine ⟨fun h => ?_, fun h => absurd h.1.1 hrr⟩
        exfalso
        have hr' : ¬ n * i₀ ≤ n * i + r := fun h' => hrr ((cmp i i₀ r).1 h')
        rcases Nat.eq_zero_or_pos dc with h0 | h0
        · have h2 := h.1
          rw [hdc, h0, add_zero] at h2
          omega
        · obtain ⟨d, rfl⟩ : ∃ d, dc = d + 1 := ⟨dc - 1, by omega⟩
          have e : n * i + r + n * p * (n * j + s)
              = (n * i₀ + n * p * (n * j₀)) + ((n * p + (n * i + r) - n * i₀) + n * p * d) := by
            rw [hdc]
            have : n * i₀ ≤ n * p + (n * i + r) := by omega
            zify [this]
            ring
          have h2 := h.2.1
          rw [e, Nat.add_sub_cancel_left, Nat.add_mul_mod_self_left, Nat.mod_eq_of_lt (by omega)] at h2
          omega
    · refine ⟨fun h => ?_, fun h => absurd h.2.1 hc⟩
      exfalso
      have hc' : ¬ n * j₀ ≤ n * j + s := fun h' => hc ((cmp j j₀ s).1 h')
      have h2 := h.1
      have h3 : n * p * (n * j + s + 1) ≤ n * p * (n * j₀) := Nat.mul_le_mul_left _ (by omega)
      rw [Nat.mul_add _ _ 1, mul_one] at h3
      omega
  rw [patch]
  by_cases hin : (i₀ ≤ i ∧ i < i₀ + a) ∧ (j₀ ≤ j ∧ j < j₀ + b)
  · rw [dif_pos (key.2 hin), if_pos hin, blk, dif_pos ⟨by omega, by omega⟩, of_apply]
    have hr' := (cmp i i₀ r).2 hin.1.1
    have hc' := (cmp j j₀ s).2 hin.2.1
    have hr2 := Nat.mul_le_mul_left n hin.1.1
    have hc2 := Nat.mul_le_mul_left n hin.2.1
    have e : n * i + r + n * p * (n * j + s) - (n * i₀ + n * p * (n * j₀))
        = (n * i + r - n * i₀) + n * p * (n * j + s - n * j₀) := by
      rw [Nat.mul_sub]
      have := Nat.mul_le_mul_left (n * p) hc'
      omega
    congr 1
    · apply Fin.ext
      simp only [finProdFinEquiv_apply_val]
      rw [e, Nat.add_mul_mod_self_left, Nat.mod_eq_of_lt (by omega), Nat.mul_sub]
      omega
    · apply Fin.ext
      simp only [finProdFinEquiv_apply_val]
      rw [e, Nat.add_mul_div_left _ _ hN, Nat.div_eq_of_lt (by omega), Nat.mul_sub]
      omega
  · rw [dif_neg (fun h => hin (key.1 h)), if_neg hin, hA i hi' j hj']

end Verif.BlockCyclic
