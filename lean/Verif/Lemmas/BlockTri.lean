import Verif.Lemmas.BlockQR

/-! # The triangular part of the block cyclic inversion -/

set_option autoImplicit false

namespace Verif.BlockCyclic

open Matrix Verif.Lapack

variable {n p a b c : ℕ}

/-- the entries below the diagonal agree -/
structure SameLower (f g : ℕ → ℕ → Mat n) : Prop where
  off : ∀ x y, y < x → f x y = g x y
  diag : ∀ x, ∀ r s : Fin n, s.val < r.val → f x x r s = g x x r s

theorem SameLower.rfl' (f : ℕ → ℕ → Mat n) : SameLower f f := ⟨fun _ _ _ => rfl, fun _ _ _ _ => rfl⟩

theorem SameLower.trans {f g h : ℕ → ℕ → Mat n} (h1 : SameLower f g) (h2 : SameLower g h) :
    SameLower f h :=
  ⟨fun x y hxy => (h1.off x y hxy).trans (h2.off x y hxy),
    fun x r s hrs => (h1.diag x r s hrs).trans (h2.diag x r s hrs)⟩

/-- the diagonal has no zero -/
def DiagNZ (p : ℕ) (f : ℕ → ℕ → Mat n) : Prop := ∀ i < p, ∀ r, f i i r r ≠ 0

theorem det_triu_ne_zero (f : ℕ → ℕ → Mat n) : (mk a a (triu f)).det ≠ 0 ↔ DiagNZ a f := by
  rw [← upper_mk, det_upper, Finset.prod_ne_zero_iff]
  constructor
  · intro h i hi r
    have := h (finProdFinEquiv (⟨i, hi⟩, r)) (Finset.mem_univ _)
    rwa [mk_apply] at this
  · intro h x _
    obtain ⟨⟨i, r⟩, rfl⟩ := finProdFinEquiv.surjective x
    rw [mk_apply]
    exact h i i.2 r

theorem upper_upper_inv {m : ℕ} (M : Mat m) (h : (upper M).det ≠ 0) :
    upper (upper M)⁻¹ = (upper M)⁻¹ := by
  have h1 : BlockTriangular (upper M) (id : Fin m → Fin m) := by
    intro i j hij
    have : ¬ i.val ≤ j.val := by
      have : j < i := hij
      omega
    rw [upper, of_apply, if_neg this]
  have : Invertible (upper M) := invertibleOfIsUnitDet _ (isUnit_iff_ne_zero.2 h)
  have h2 := blockTriangular_inv_of_blockTriangular h1
  ext i j
  rw [upper, of_apply]
  split
  · rfl
  · rename_i hij
    exact (h2 (by show j < i; omega)).symm

theorem upper_of_ite {m : ℕ} (M M' : Mat m) :
    upper (Matrix.of fun i j : Fin m => if i.val ≤ j.val then M i j else M' i j) = upper M := by
  ext i j
  rw [upper, upper, of_apply, of_apply, of_apply]
  by_cases h : i.val ≤ j.val
  · rw [if_pos h, if_pos h, if_pos h]
  · rw [if_neg h, if_neg h]

theorem dtrtri_block {A : Buf} {f : ℕ → ℕ → Mat n} (hA : Rep p A f) {i : ℕ} (a : ℕ) (ha : i + a ≤ p)
    {z : ℤ} (hz : z = (i + (n * p : ℕ) * i) * n) (hd : ∀ k, i ≤ k → k < i + a → ∀ r, f k k r r ≠ 0) :
    ∃ A' f', dtrtri (a * n) ((n * p) * (n * p)) A z (n * p) = some A' ∧ Rep p A' f' ∧
      (∀ x y, ¬ ((i ≤ x ∧ x < i + a) ∧ (i ≤ y ∧ y < i + a)) → f' x y = f x y) ∧
      SameLower f' f ∧
      mk a a (triu fun r s => f' (i + r) (i + s)) = (mk a a (triu fun r s => f (i + r) (i + s)))⁻¹ := by
  set g : ℕ → ℕ → Mat n := fun r s => f (i + r) (i + s) with hg
  have hdet : (upper (mk a a g)).det ≠ 0 := by
    rw [upper_mk, det_triu_ne_zero]
    exact fun k hk r => hd (i + k) (by omega) (by omega) r
  set M : Mat (a * n) := Matrix.of fun x y : Fin (a * n) =>
    if x.val ≤ y.val then (upper (mk a a g))⁻¹ x y else mk a a g x y with hM
  obtain ⟨A', h1, h2⟩ := save_block hA ha ha hz M
  have hin : ∀ r < a, ∀ s < a, patch f i i a a (blk M) (i + r) (i + s) = blk M r s := by
    intro r hr s hs
    rw [patch, if_pos (by omega), Nat.add_sub_cancel_left, Nat.add_sub_cancel_left]
  have hlow : ∀ (x y : Fin a) (r s : Fin n), ¬ (x.val < y.val ∨ (x.val = y.val ∧ r.val ≤ s.val)) →
      blk M x y r s = g x y r s := by
    intro x y r s hxy
    rw [blk, dif_pos ⟨x.2, y.2⟩, of_apply, hM, of_apply, if_neg (fun h => hxy ((val_lt_iff ..).1 h)),
      mk_apply]
  refine ⟨A', _, ?_, h2, ?_, ⟨?_, ?_⟩, ?_⟩
  · unfold dtrtri
    simp only [Option.bind_eq_bind, load_block hA a a ha ha hz, Option.bind_some]
    rw [if_neg hdet]
    exact h1
  · intro x y hxy
    rw [patch, if_neg hxy]
  · intro x y hxy
    rw [patch]
    split
    · rename_i h
      obtain ⟨r, hr⟩ := Nat.exists_eq_add_of_le h.1.1
      obtain ⟨s, hs⟩ := Nat.exists_eq_add_of_le h.2.1
      subst hr hs
      rw [Nat.add_sub_cancel_left, Nat.add_sub_cancel_left]
      ext u v
      exact hlow ⟨r, by omega⟩ ⟨s, by omega⟩ u v (by simp only; omega)
    · rfl
  · intro x u v huv
    rw [patch]
    split
    · rename_i h
      obtain ⟨r, hr⟩ := Nat.exists_eq_add_of_le h.1.1
      subst hr
      rw [Nat.add_sub_cancel_left]
      exact hlow ⟨r, by omega⟩ ⟨r, by omega⟩ u v (by simp only; omega)
    · rfl
  · rw [← upper_mk, ← upper_mk]
    have : (mk a a fun r s => patch f i i a a (blk M) (i + r) (i + s)) = M := by
      conv_rhs => rw [← mk_blk M]
      exact mk_congr hin
    rw [this, hM, upper_of_ite, upper_upper_inv _ hdet]

theorem dtrmmR_block (m : ℕ) {A : Buf} {f : ℕ → ℕ → Mat n} (hA : Rep p A f) {i x y : ℕ} (hi : i < p)
    (hx : x + m ≤ p) (hy : y < p) {q z : ℤ} (hq : q = (i + (n * p : ℕ) * i) * n)
    (hz : z = (x + (n * p : ℕ) * y) * n) :
    ∃ A' f', dtrmmR (m * n) (1 * n) ((n * p) * (n * p)) A q z (n * p) = some A' ∧ Rep p A' f' ∧
      (∀ r s, (x ≤ r ∧ r < x + m) → s = y → f' r s = f r s * upper (f i i)) ∧
      ∀ r s, ¬ ((x ≤ r ∧ r < x + m) ∧ s = y) → f' r s = f r s := by
  obtain ⟨A', h1, h2⟩ := save_block (a := m) (b := 1) hA hx (by omega) hz
    ((mk m 1 fun r s => f (x + r) (y + s)) * upper (mk 1 1 fun r s => f (i + r) (i + s)))
  refine ⟨A', _, ?_, h2, ?_, ?_⟩
  · unfold dtrmmR
    simp only [Option.bind_eq_bind, load_block hA 1 1 (i₀ := i) (j₀ := i) (by omega) (by omega) hq,
      load_block hA m 1 (i₀ := x) (j₀ := y) hx (by omega) hz, Option.bind_some, h1]
  · intro r s hr hs
    subst hs
    obtain ⟨u, rfl⟩ := Nat.exists_eq_add_of_le hr.1
    rw [patch, if_pos (by omega), Nat.add_sub_cancel_left, Nat.sub_self, upper_mk, mk_mul,
      blk_mk _ (by omega) (by omega), bmul, Finset.sum_range_one]
    simp [triu]
  · intro r s h
    rw [patch, if_neg (by omega)]

theorem dtrmmL_block (alpha : ℝ) {A : Buf} {f : ℕ → ℕ → Mat n} (hA : Rep p A f) {i y : ℕ} (hi : i < p)
    (hy : y < p) {q z : ℤ} (hq : q = (i + (n * p : ℕ) * i) * n) (hz : z = (i + (n * p : ℕ) * y) * n) :
    ∃ A' f', dtrmmL (1 * n) (1 * n) ((n * p) * (n * p)) alpha A q z (n * p) = some A' ∧ Rep p A' f' ∧
      f' i y = alpha • (upper (f i i) * f i y) ∧
      ∀ r s, ¬ (r = i ∧ s = y) → f' r s = f r s := by
  obtain ⟨A', h1, h2⟩ := save_block (a := 1) (b := 1) hA (i₀ := i) (by omega) (by omega) hz
    (alpha • (upper (mk 1 1 fun r s => f (i + r) (i + s)) * mk 1 1 fun r s => f (i + r) (y + s)))
  refine ⟨A', _, ?_, h2, ?_, ?_⟩
  · unfold dtrmmL
    simp only [Option.bind_eq_bind, load_block hA 1 1 (i₀ := i) (j₀ := i) (by omega) (by omega) hq,
      load_block hA 1 1 (i₀ := i) (j₀ := y) (by omega) (by omega) hz, Option.bind_some, h1]
  · rw [patch, if_pos (by omega), Nat.sub_self, Nat.sub_self, upper_mk, mk_mul, mk_smul,
      blk_mk _ (by omega) (by omega), bmul, Finset.sum_range_one]
    simp [triu]
  · intro r s h
    rw [patch, if_neg (by omega)]

theorem dgemmAcc_block (k : ℕ) {A : Buf} {f : ℕ → ℕ → Mat n} (hA : Rep p A f) {i j y : ℕ} (hi : i < p)
    (hj : j < p) (hy : y + k ≤ p) {q r z : ℤ} (hq : q = (i + (n * p : ℕ) * j) * n)
    (hr : r = (j + (n * p : ℕ) * y) * n) (hz : z = (i + (n * p : ℕ) * y) * n) :
    ∃ A' f', dgemmAcc (1 * n) (1 * n) (k * n) ((n * p) * (n * p)) A q r z (n * p) = some A' ∧
      Rep p A' f' ∧
      (∀ s, y ≤ s → s < y + k → f' i s = f i j * f j s + f i s) ∧
      ∀ r s, ¬ (r = i ∧ y ≤ s ∧ s < y + k) → f' r s = f r s := by
  obtain ⟨A', h1, h2⟩ := save_block (a := 1) (b := k) hA (i₀ := i) (by omega) hy hz
    ((mk 1 1 fun r s => f (i + r) (j + s)) * (mk 1 k fun r s => f (j + r) (y + s))
      + mk 1 k fun r s => f (i + r) (y + s))
  refine ⟨A', _, ?_, h2, ?_, ?_⟩
  · unfold dgemmAcc
    simp only [Option.bind_eq_bind, load_block hA 1 1 (i₀ := i) (j₀ := j) (by omega) (by omega) hq,
      load_block hA 1 k (i₀ := j) (j₀ := y) (by omega) hy hr,
      load_block hA 1 k (i₀ := i) (j₀ := y) (by omega) hy hz, Option.bind_some, h1]
  · intro s hs hs'
    obtain ⟨u, rfl⟩ := Nat.exists_eq_add_of_le hs
    rw [patch, if_pos (by omega), Nat.sub_self, Nat.add_sub_cancel_left, mk_mul, mk_add,
      blk_mk _ (by omega) (by omega), bmul, Finset.sum_range_one]
    simp
  · intro r s h
    rw [patch, if_neg (by omega)]

/-! ## The inversion -/

/-- state of the loop when the rows from `i` on have been treated; `g` is the input -/
structure TriInv (p : ℕ) (g : ℕ → ℕ → Mat n) (i : ℕ) (f : ℕ → ℕ → Mat n) : Prop where
  low : SameLower f g
  done : ∀ x, i ≤ x → x < p → ∀ y < p,
    ∑ k ∈ Finset.range p, triu g x k * triu f k y = if x = y then 1 else 0
  todo : ∀ x < i, ∀ y < p, f x y = if y = p - 1 then g x y * upper (f (p - 1) (p - 1)) else g x y

theorem sum_three {M : Type} [AddCommMonoid M] {i j k : ℕ} (hi : i < p) (hj : j < p) (hk : k < p)
    (hij : i ≠ j) (hik : i ≠ k) (hjk : j ≠ k) (g : ℕ → M)
    (hg : ∀ x < p, x ≠ i → x ≠ j → x ≠ k → g x = 0) :
    ∑ x ∈ Finset.range p, g x = g i + (g j + g k) := by
  rw [← Finset.sum_subset (s₁ := {i, j, k})]
  · rw [Finset.sum_insert (by simp [hij, hik]), Finset.sum_pair hjk]
  · intro x hx
    simp only [Finset.mem_insert, Finset.mem_singleton] at hx
    rw [Finset.mem_range]
    omega
  · intro x hx hx'
    simp only [Finset.mem_insert, Finset.mem_singleton, not_or] at hx'
    exact hg x (Finset.mem_range.1 hx) hx'.1 hx'.2.1 hx'.2.2

theorem triu_of_gt (f : ℕ → ℕ → Mat n) {x y : ℕ} (h : y < x) : triu f x y = 0 := by
  rw [triu, if_neg (by omega), if_neg (by omega)]

theorem triu_of_lt (f : ℕ → ℕ → Mat n) {x y : ℕ} (h : x < y) : triu f x y = f x y := by
  rw [triu, if_pos h]

theorem triu_self (f : ℕ → ℕ → Mat n) (x : ℕ) : triu f x x = upper (f x x) := by
  rw [triu, if_neg (by omega), if_pos rfl]

theorem triStep_inv {g : ℕ → ℕ → Mat n} (hg : ∀ x y, x + 1 < y → y < p - 1 → g x y = 0)
    (hd : DiagNZ p g) {i : ℕ} (hi : i + 4 ≤ p) {A : Buf} {f : ℕ → ℕ → Mat n} (hA : Rep p A f)
    (h : TriInv p g (i + 1) f) :
    ∃ A' f', triStep n p A i = some A' ∧ Rep p A' f' ∧ TriInv p g i f' := by
  have hfii : f i i = g i i := by
    rw [h.todo i (by omega) i (by omega), if_neg (by omega)]
  have hq : ((1 + (n * p : ℕ)) * i * n : ℤ) = (i + (n * p : ℕ) * i) * n := by ring
  have hz1 : ((i + (n * p : ℕ) * (p - 1)) * n : ℤ) = (i + (n * p : ℕ) * ((p - 1 : ℕ) : ℤ)) * n := by
    rw [Nat.cast_sub (by omega)]; push_cast; ring
  have hz2 : ((i + (n * p : ℕ) * (i + 1)) * n : ℤ) = (i + (n * p : ℕ) * ((i + 1 : ℕ) : ℤ)) * n := by
    push_cast; ring
  obtain ⟨A1, f1, e1, r1, o1, l1, v1⟩ := dtrtri_block hA 1 (i := i) (by omega) hq (by
    intro k hk hk' r
    have : k = i := by omega
    rw [this, hfii]
    exact hd i (by omega) r)
  obtain ⟨A2, f2, e2, r2, v2, o2⟩ := dtrmmL_block (-1) r1 (i := i) (y := p - 1) (by omega) (by omega)
    hq hz1
  obtain ⟨A3, f3, e3, r3, v3, o3⟩ := dtrmmL_block (-1) r2 (i := i) (y := i + 1) (by omega) (by omega)
    hq hz2
  obtain ⟨A4, f4, e4, r4, v4, o4⟩ := dgemmAcc_block (p - i - 2) r3 (i := i) (j := i + 1) (y := i + 2)
    (by omega) (by omega) (by omega) hz2
    (r := ((i + 1 : ℤ) + (n * p : ℕ) * (i + 2)) * n) (by push_cast; ring)
    (z := ((i : ℤ) + (n * p : ℕ) * (i + 2)) * n) (by push_cast; ring)
  obtain ⟨A5, f5, e5, r5, v5, o5⟩ := dtrmmR_block 1 r4 (i := i + 1) (x := i) (y := i + 1) (by omega)
    (by omega) (by omega) (q := (1 + (n * p : ℕ)) * (i + 1) * n) (by push_cast; ring) hz2
  -- the inverse of the diagonal block
  set D : Mat n := upper (f1 i i) with hD
  have hDi : upper (g i i) * D = 1 := by
    have hdet : (mk 1 1 (triu fun r s => f (i + r) (i + s))).det ≠ 0 := by
      rw [det_triu_ne_zero]
      intro k hk r
      have : k = 0 := by omega
      subst this
      simp only [add_zero, hfii]
      exact hd i (by omega) r
    have e : mk 1 1 (triu fun r s => f (i + r) (i + s)) * mk 1 1 (triu fun r s => f1 (i + r) (i + s))
        = 1 := by
      rw [v1]
      exact Matrix.mul_nonsing_inv _ (isUnit_iff_ne_zero.2 hdet)
    rw [mk_mul, ← mk_one] at e
    have := mk_inj e (i := 0) (j := 0) (by omega) (by omega)
    simp only [bmul, Finset.sum_range_one, triu_self, add_zero, if_true] at this
    rwa [hfii] at this
  -- other rows are unchanged
  have hrow : ∀ x y, x ≠ i → f5 x y = f x y := by
    intro x y hx
    rw [o5 x y (by omega), o4 x y (by omega), o3 x y (by omega), o2 x y (by omega), o1 x y (by omega)]
  have hleft : ∀ y ≤ i, f5 i y = f1 i y := by
    intro y hy
    rw [o5 i y (by omega), o4 i y (by omega), o3 i y (by omega), o2 i y (by omega)]
  have h2ii : f2 i i = f1 i i := o2 i i (by omega)
  have hgi1 : f i (i + 1) = g i (i + 1) := by
    rw [h.todo i (by omega) _ (by omega), if_neg (by omega)]
  -- the block next to the diagonal before the last step
  have hW : f3 i (i + 1) = -(D * g i (i + 1)) := by
    rw [v3, h2ii, o2 i (i + 1) (by omega), o1 i (i + 1) (by omega), hgi1, neg_smul, one_smul]
  have hnext : f5 i (i + 1) = -(D * g i (i + 1)) * upper (f (i + 1) (i + 1)) := by
    rw [v5 i (i + 1) ⟨le_rfl, by omega⟩ rfl, o4 i (i + 1) (by omega), hW, o4 (i + 1) (i + 1) (by omega),
      o3 (i + 1) (i + 1) (by omega), o2 (i + 1) (i + 1) (by omega), o1 (i + 1) (i + 1) (by omega)]
  have hfar : ∀ y, i + 2 ≤ y → y < p → f5 i y = -(D * g i (i + 1)) * f (i + 1) y
      + if y = p - 1 then -(D * (g i y * upper (f (p - 1) (p - 1)))) else 0 := by
    intro y hy hy'
    rw [o5 i y (by omega), v4 y hy (by omega), hW, o3 (i + 1) y (by omega), o2 (i + 1) y (by omega),
      o1 (i + 1) y (by omega), o3 i y (by omega)]
    congr 1
    by_cases hl : y = p - 1
    · subst hl
      rw [v2, if_pos rfl, o1 i (p - 1) (by omega), h.todo i (by omega) _ hy', if_pos rfl, neg_smul,
        one_smul]
    · rw [if_neg hl, o2 i y (by omega), o1 i y (by omega), h.todo i (by omega) _ hy', if_neg hl]
      exact hg i y (by omega) (by omega)
  refine ⟨A5, f5, ?_, r5, ⟨?_, ?_, ?_⟩⟩
  · unfold triStep
    simp only [Option.bind_eq_bind]
    refine (Option.bind_eq_some_iff).2 ⟨_, e1, ?_⟩
    refine (Option.bind_eq_some_iff).2 ⟨_, e2, ?_⟩
    refine (Option.bind_eq_some_iff).2 ⟨_, e3, ?_⟩
    exact (Option.bind_eq_some_iff).2 ⟨_, e4, e5⟩
  · constructor
    · intro x y hxy
      by_cases hx : x = i
      · subst hx
        rw [hleft y (by omega), l1.off x y hxy, h.low.off x y hxy]
      · rw [hrow x y hx, h.low.off x y hxy]
    · intro x r s hrs
      by_cases hx : x = i
      · subst hx
        rw [hleft x le_rfl, l1.diag x r s hrs, h.low.diag x r s hrs]
      · rw [hrow x x hx, h.low.diag x r s hrs]
  · intro x hx hxp y hy
    rcases (by omega : i + 1 ≤ x ∨ x = i) with hx' | rfl
    · rw [← h.done x hx' hxp y hy]
      refine Finset.sum_congr rfl fun k _ => ?_
      rcases lt_or_ge k x with hk | hk
      · rw [triu_of_gt g hk, zero_mul, zero_mul]
      · have : triu f5 k y = triu f k y := by
          rw [triu, triu, hrow k y (by omega)]
        rw [this]
    · rw [sum_three (p := p) (i := x) (j := x + 1) (k := p - 1) (by omega) (by omega) (by omega)
        (by omega) (by omega) (by omega)]
      · have t : ∀ k, k ≠ x → triu f5 k y = triu f k y := fun k hk => by
          rw [triu, triu, hrow k y hk]
        rw [t (x + 1) (by omega), t (p - 1) (by omega), triu_self g x,
          triu_of_lt g (show x < x + 1 by omega), triu_of_lt g (show x < p - 1 by omega)]
        rcases lt_trichotomy y x with h1 | h1 | h1
        · rw [triu_of_gt f5 h1, triu_of_gt f (show y < x + 1 by omega),
            triu_of_gt f (show y < p - 1 by omega), if_neg (by omega)]
          simp
        · subst h1
          rw [triu_self f5, hleft y le_rfl, ← hD, hDi, triu_of_gt f (show y < y + 1 by omega),
            triu_of_gt f (show y < p - 1 by omega), if_pos rfl]
          simp
        · rw [if_neg (by omega), triu_of_lt f5 h1]
          have cancel : ∀ W : Mat n, upper (g x x) * (-(D * W)) = -W := by
            intro W
            rw [Matrix.mul_neg, ← Matrix.mul_assoc, hDi, Matrix.one_mul]
          rcases (by omega : y = x + 1 ∨ x + 2 ≤ y) with rfl | h2
          · rw [hnext, triu_self f, triu_of_gt f (show x + 1 < p - 1 by omega), ← Matrix.mul_assoc,
              cancel]
            simp
          · rw [hfar y h2 hy, triu_of_lt f (show x + 1 < y by omega), Matrix.mul_add,
              ← Matrix.mul_assoc, cancel]
            by_cases hl : y = p - 1
            · subst hl
              rw [if_pos rfl, cancel, triu_self f]
              noncomm_ring
            · rw [if_neg hl, triu_of_gt f (show y < p - 1 by omega)]
              noncomm_ring
      · intro k hk h1 h2 h3
        rcases lt_or_ge k x with h4 | h4
        · rw [triu_of_gt g h4, zero_mul]
        · rw [triu_of_lt g (show x < k by omega), hg x k (by omega) (by omega), zero_mul]
  · intro x hx y hy
    rw [hrow x y (by omega), hrow (p - 1) (p - 1) (by omega)]
    exact h.todo x (by omega) y hy

theorem triLoop_inv {g : ℕ → ℕ → Mat n} (hg : ∀ x y, x + 1 < y → y < p - 1 → g x y = 0)
    (hd : DiagNZ p g) (m : ℕ) (hm : m + 3 ≤ p) {A : Buf} {f : ℕ → ℕ → Mat n} (hA : Rep p A f)
    (h : TriInv p g m f) :
    ∃ A' f', (List.range m).reverse.foldlM (triStep n p) A = some A' ∧ Rep p A' f' ∧
      TriInv p g 0 f' := by
  induction m generalizing A f with
  | zero => exact ⟨A, f, rfl, hA, h⟩
  | succ m ih =>
    obtain ⟨A1, f1, e1, r1, i1⟩ := triStep_inv hg hd (by omega) hA h
    obtain ⟨A2, f2, e2, r2, i2⟩ := ih (by omega) r1 i1
    refine ⟨A2, f2, ?_, r2, i2⟩
    rw [List.range_succ, List.reverse_append, List.reverse_singleton, List.singleton_append,
      List.foldlM_cons, e1]
    exact e2

theorem triInv_mul {g f : ℕ → ℕ → Mat n} (h : TriInv p g 0 f) :
    mk p p (triu g) * mk p p (triu f) = 1 := by
  rw [mk_mul, ← mk_one]
  exact mk_congr fun x hx y hy => h.done x (Nat.zero_le _) hx y hy

theorem triInv_start {g f f' : ℕ → ℕ → Mat n} (hp : 3 ≤ p) (hd : DiagNZ p g)
    (v : mk 3 3 (triu fun r s => f (p - 3 + r) (p - 3 + s))
      = (mk 3 3 (triu fun r s => g (p - 3 + r) (p - 3 + s)))⁻¹)
    (hf : ∀ x y, p - 3 ≤ x → f' x y = f x y) (low : SameLower f' g)
    (todo : ∀ x < p - 3, ∀ y < p,
      f' x y = if y = p - 1 then g x y * upper (f' (p - 1) (p - 1)) else g x y) :
    TriInv p g (p - 3) f' := by
  refine ⟨low, ?_, todo⟩
  have e : mk 3 3 (triu fun r s => g (p - 3 + r) (p - 3 + s))
      * mk 3 3 (triu fun r s => f (p - 3 + r) (p - 3 + s)) = 1 := by
    rw [v]
    refine Matrix.mul_nonsing_inv _ (isUnit_iff_ne_zero.2 ?_)
    rw [det_triu_ne_zero]
    exact fun k hk r => hd (p - 3 + k) (by omega) r
  rw [mk_mul, ← mk_one] at e
  have tri : ∀ (u : ℕ → ℕ → Mat n) r s,
      triu (fun r s => u (p - 3 + r) (p - 3 + s)) r s = triu u (p - 3 + r) (p - 3 + s) := by
    intro u r s
    simp only [triu, add_lt_add_iff_left, add_right_inj]
  intro x hx hxp y hy
  have hp3 : p = p - 3 + 3 := by omega
  have hsum : ∑ k ∈ Finset.range p, triu g x k * triu f' k y
      = ∑ k ∈ Finset.range 3, triu g x (p - 3 + k) * triu f' (p - 3 + k) y := by
    conv_lhs => rw [hp3, Finset.sum_range_add]
    rw [Finset.sum_eq_zero, zero_add]
    intro k hk
    rw [triu_of_gt g (by have := Finset.mem_range.1 hk; omega), zero_mul]
  have hrow : ∀ k, triu f' (p - 3 + k) y = triu f (p - 3 + k) y := fun k => by
    rw [triu, triu, hf _ _ (by omega)]
  rw [hsum]
  rcases lt_or_ge y (p - 3) with h | h
  · rw [if_neg (by omega)]
    refine Finset.sum_eq_zero fun k _ => ?_
    rw [triu_of_gt f' (by omega), mul_zero]
  · obtain ⟨s, rfl⟩ := Nat.exists_eq_add_of_le h
    obtain ⟨r, rfl⟩ := Nat.exists_eq_add_of_le hx
    have := mk_inj e (i := r) (j := s) (by omega) (by omega)
    simp only [bmul, tri] at this
    simp only [hrow, this, add_right_inj]

theorem blockCyclicTri_done {g : ℕ → ℕ → Mat n} (hp : 2 ≤ p)
    (hg : ∀ x y, x + 1 < y → y < p - 1 → g x y = 0) (hd : DiagNZ p g) {A : Buf} (hA : Rep p A g) :
    ∃ A' f', blockCyclicTri n p A = some A' ∧ Rep p A' f' ∧ SameLower f' g ∧
      mk p p (triu g) * mk p p (triu f') = 1 := by
  unfold blockCyclicTri
  by_cases h2 : p ≤ 2
  · obtain ⟨A1, f1, e1, r1, -, l1, v1⟩ := dtrtri_block hA (i := 0) p (by omega) (z := 0) (by simp)
      (fun k _ hk r => hd k (by omega) r)
    refine ⟨A1, f1, ?_, r1, l1, ?_⟩
    · rw [if_pos h2]; exact e1
    · simp only [zero_add] at v1
      rw [v1]
      exact Matrix.mul_nonsing_inv _ (isUnit_iff_ne_zero.2 ((det_triu_ne_zero g).2 hd))
  · obtain ⟨A1, f1, e1, r1, o1, l1, v1⟩ := dtrtri_block hA (i := p - 3) 3 (by omega)
      (z := (1 + (n * p : ℕ)) * (p - 3) * n) (by rw [Nat.cast_sub (by omega)]; push_cast; ring)
      (fun k _ hk r => hd k (by omega) r)
    rw [if_neg h2]
    simp only [Option.bind_eq_bind]
    by_cases h3 : p > 3
    · obtain ⟨A2, f2, e2, r2, v2, o2⟩ := dtrmmR_block (p - 3) r1 (i := p - 1) (x := 0) (y := p - 1)
        (by omega) (by omega) (by omega) (q := (1 + (n * p : ℕ)) * (p - 1) * n)
        (by rw [Nat.cast_sub (by omega)]; push_cast; ring)
        (z := (n * p : ℕ) * (p - 1) * n)
        (by rw [Nat.cast_sub (by omega)]; push_cast; ring)
      have inv : TriInv p g (p - 3) f2 := by
        refine triInv_start (by omega) hd v1 (fun x y hx => o2 x y (by omega)) ?_ ?_
        · constructor
          · intro x y hxy
            by_cases h : (0 ≤ x ∧ x < 0 + (p - 3)) ∧ y = p - 1
            · omega
            · rw [o2 x y h, l1.off x y hxy]
          · intro x r s hrs
            rw [o2 x x (by omega), l1.diag x r s hrs]
        · intro x hx y hy
          by_cases hl : y = p - 1
          · subst hl
            rw [if_pos rfl, v2 x (p - 1) (by omega) rfl, o1 x (p - 1) (by omega),
              o2 (p - 1) (p - 1) (by omega)]
          · rw [if_neg hl, o2 x y (by omega), o1 x y (by omega)]
      obtain ⟨A3, f3, e3, r3, i3⟩ := triLoop_inv hg hd (p - 3) (by omega) r2 inv
      refine ⟨A3, f3, ?_, r3, i3.low, triInv_mul i3⟩
      refine (Option.bind_eq_some_iff).2 ⟨_, e1, ?_⟩
      rw [if_pos h3]
      exact (Option.bind_eq_some_iff).2 ⟨_, e2, e3⟩
    · have hp3 : p = 3 := by omega
      have inv : TriInv p g (p - 3) f1 :=
        triInv_start (by omega) hd v1 (fun _ _ _ => rfl) l1 (fun x hx => absurd hx (by omega))
      have inv0 : TriInv p g 0 f1 := by
        have : p - 3 = 0 := by omega
        rwa [this] at inv
      refine ⟨A1, f1, ?_, r1, l1, triInv_mul inv0⟩
      refine (Option.bind_eq_some_iff).2 ⟨_, e1, ?_⟩
      rw [if_neg h3]
      rfl

end Verif.BlockCyclic
