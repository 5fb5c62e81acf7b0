import Verif.Lemmas.BlockMat

/-! # The QR part of the block cyclic inversion -/

set_option autoImplicit false

namespace Verif.BlockCyclic

open Matrix Verif.Lapack

variable {n p a b c : ℕ}

/-! ## Scalar factors -/

/-- the scalar factors for `b` blocks beginning at block `i` -/
def tauAt (tau : Buf) (i b : ℕ) : Fin (b * n) → ℝ := fun j => tau (i * n + j)

theorem fits_tau {i : ℕ} (h : i + b ≤ p) : Fits (n * p) ((i : ℤ) * n) (n * p) (b * n) 1 := by
  refine ⟨by positivity, fun hb _ => ?_⟩
  have h1 : i * n + b * n ≤ n * p := by
    rw [← add_mul, mul_comm]; exact Nat.mul_le_mul_left _ h
  have h2 : (i : ℤ) * n + (b * n - 1 : ℕ) + (n * p : ℕ) * (1 - 1 : ℕ) = ((i * n + (b * n - 1) : ℕ) : ℤ) := by
    push_cast
    ring
  rw [h2]
  exact_mod_cast (by omega : i * n + (b * n - 1) < n * p)

theorem loadTau_eq (tau : Buf) {i : ℕ} (b : ℕ) (h : i + b ≤ p) :
    loadTau (n * p) tau ((i : ℤ) * n) (b * n) = some (tauAt tau i b) := by
  rw [loadTau, load, if_pos (fits_tau h)]
  rfl

theorem saveTau_eq (tau : Buf) {i : ℕ} (h : i + b ≤ p) (tv : Fin (b * n) → ℝ) :
    ∃ tau', save (n * p) tau ((i : ℤ) * n) (n * p)
        (Matrix.of fun (j : Fin (b * n)) (_ : Fin 1) => tv j) = some tau' ∧
      tauAt tau' i b = tv ∧ ∀ k c, k + c ≤ i → tauAt (n := n) tau' k c = tauAt tau k c := by
  refine ⟨_, if_pos (fits_tau h), ?_, ?_⟩
  · have h1 : i * n + b * n ≤ n * p := by
      rw [← add_mul, mul_comm]; exact Nat.mul_le_mul_left _ h
    funext j
    have hj := j.2
    have : ((i : ℤ) * n).toNat = i * n := by
      rw [← Nat.cast_mul, Int.toNat_natCast]
    rw [tauAt, store, this, dif_pos ⟨by omega, by
      rw [Nat.add_sub_cancel_left, Nat.mod_eq_of_lt (by omega)]; exact hj, by
      rw [Nat.add_sub_cancel_left, Nat.div_eq_of_lt (by omega)]; omega⟩, of_apply]
    congr 1
    apply Fin.ext
    simp only [Nat.add_sub_cancel_left]
    exact Nat.mod_eq_of_lt (by omega)
  · intro k c hk
    funext j
    have hj := j.2
    have : ((i : ℤ) * n).toNat = i * n := by
      rw [← Nat.cast_mul, Int.toNat_natCast]
    have h1 : k * n + c * n ≤ i * n := by
      rw [← add_mul]; exact Nat.mul_le_mul_right _ hk
    rw [tauAt, store, this, dif_neg (by omega), tauAt]

/-! ## The operations on blocks -/

theorem dgeqrf_block (alg : QRAlg (a * n) (b * n)) {A : Buf} (tau : Buf) {f : ℕ → ℕ → Mat n}
    (hA : Rep p A f) {i : ℕ} (ha : i + a ≤ p) (hb : i + b ≤ p) {z : ℤ}
    (hz : z = (i + (n * p : ℕ) * i) * n) :
    ∃ A' tau' F, dgeqrf alg ((n * p) * (n * p)) (n * p) A tau z ((i : ℤ) * n) (n * p) = some (A', tau') ∧
      IsQR (mk a b fun r s => f (i + r) (i + s)) F (tauAt tau' i b) ∧
      Rep p A' (patch f i i a b (blk F)) ∧
      ∀ k c, k + c ≤ i → tauAt (n := n) tau' k c = tauAt tau k c := by
  have h1 := load_block hA a b ha hb hz
  obtain ⟨A', h2, h3⟩ := save_block hA ha hb hz (alg.run (mk a b fun r s => f (i + r) (i + s))).1
  obtain ⟨tau', h4, h5, h6⟩ := saveTau_eq (p := p) tau hb (alg.run (mk a b fun r s => f (i + r) (i + s))).2
  refine ⟨A', tau', _, ?_, ?_, h3, h6⟩
  · unfold dgeqrf
    simp only [Option.bind_eq_bind, h1, Option.bind_some, h2, h4, Option.pure_def]
  · rw [h5]
    exact alg.spec _

theorem dormqrL_block (k : ℕ) {A : Buf} (tau : Buf) {f : ℕ → ℕ → Mat n} (hA : Rep p A f) {i j : ℕ}
    (ha : i + a ≤ p) (hk : i + k ≤ p) (hc : j + c ≤ p) {q z : ℤ} (hq : q = (i + (n * p : ℕ) * i) * n)
    (hz : z = (i + (n * p : ℕ) * j) * n) :
    ∃ A', dormqrL (a * n) (c * n) (k * n) ((n * p) * (n * p)) (n * p) A tau q ((i : ℤ) * n) z (n * p)
        = some A' ∧
      Rep p A' (patch f i j a c (blk ((qMat (mk a k fun r s => f (i + r) (i + s)) (tauAt tau i k))ᵀ
        * mk a c fun r s => f (i + r) (j + s)))) := by
  obtain ⟨A', h, h'⟩ := save_block hA ha hc hz
    ((qMat (mk a k fun r s => f (i + r) (i + s)) (tauAt tau i k))ᵀ * mk a c fun r s => f (i + r) (j + s))
  refine ⟨A', ?_, h'⟩
  unfold dormqrL
  simp only [Option.bind_eq_bind, load_block hA a k ha hk hq, load_block hA a c ha hc hz,
    loadTau_eq tau k hk, Option.bind_some, h]

/-! ## Rotations of two neighbouring blocks -/

/-- identity except for a `2 × 2` block matrix at position `i` -/
def emb (i : ℕ) (Q : Mat (2 * n)) : ℕ → ℕ → Mat n := fun a b =>
  if (i ≤ a ∧ a < i + 2) ∧ (i ≤ b ∧ b < i + 2) then blk Q (a - i) (b - i) else if a = b then 1 else 0

/-- the same as a matrix -/
def E (p i : ℕ) (Q : Mat (2 * n)) : Mat (p * n) := mk p p (emb i Q)

theorem sum_two {M : Type} [AddCommMonoid M] {i : ℕ} (h : i + 2 ≤ p) (g : ℕ → M)
    (hg : ∀ k < p, ¬ (i ≤ k ∧ k < i + 2) → g k = 0) :
    ∑ k ∈ Finset.range p, g k = g i + g (i + 1) := by
  rw [← Finset.sum_subset (s₁ := {i, i + 1})]
  · rw [Finset.sum_pair (by omega)]
  · intro k hk
    simp only [Finset.mem_insert, Finset.mem_singleton] at hk
    rw [Finset.mem_range]
    omega
  · intro k hk hk'
    simp only [Finset.mem_insert, Finset.mem_singleton] at hk'
    exact hg k (Finset.mem_range.1 hk) (by omega)

/-- multiplication from the left changes two rows -/
theorem E_mul {i : ℕ} (hi : i + 2 ≤ p) (Q : Mat (2 * n)) (g : ℕ → ℕ → Mat n) :
    E p i Q * mk p c g = mk p c fun a b =>
      if i ≤ a ∧ a < i + 2 then blk Q (a - i) 0 * g i b + blk Q (a - i) 1 * g (i + 1) b else g a b := by
  rw [E, mk_mul]
  refine mk_congr fun a ha b _ => ?_
  rw [bmul]
  by_cases h : i ≤ a ∧ a < i + 2
  · rw [if_pos h, sum_two hi]
    · simp only [emb, h]
      rw [if_pos ⟨⟨trivial, trivial⟩, by omega⟩, if_pos ⟨⟨trivial, trivial⟩, by omega⟩,
        Nat.sub_self, Nat.add_sub_cancel_left]
    · intro k _ hk
      rw [emb, if_neg (fun h' => hk h'.2), if_neg (by omega), zero_mul]
  · rw [if_neg h, Finset.sum_eq_single a]
    · rw [emb, if_neg (fun h' => h h'.1), if_pos rfl, one_mul]
    · intro k _ hk
      rw [emb, if_neg (fun h' => h h'.1), if_neg (Ne.symm hk), zero_mul]
    · intro h'
      exact absurd (Finset.mem_range.2 ha) h'

/-- multiplication from the right changes two columns -/
theorem mul_E {i : ℕ} (hi : i + 2 ≤ p) (Q : Mat (2 * n)) (g : ℕ → ℕ → Mat n) :
    mk c p g * E p i Q = mk c p fun a b =>
      if i ≤ b ∧ b < i + 2 then g a i * blk Q 0 (b - i) + g a (i + 1) * blk Q 1 (b - i) else g a b := by
  rw [E, mk_mul]
  refine mk_congr fun a _ b hb => ?_
  rw [bmul]
  by_cases h : i ≤ b ∧ b < i + 2
  · rw [if_pos h, sum_two hi]
    · simp only [emb, h]
      rw [if_pos ⟨by omega, ⟨trivial, trivial⟩⟩, if_pos ⟨by omega, ⟨trivial, trivial⟩⟩,
        Nat.sub_self, Nat.add_sub_cancel_left]
    · intro k _ hk
      rw [emb, if_neg (fun h' => hk h'.1), if_neg (by omega), mul_zero]
  · rw [if_neg h, Finset.sum_eq_single b]
    · rw [emb, if_neg (fun h' => h h'.2), if_pos rfl, mul_one]
    · intro k _ hk
      rw [emb, if_neg (fun h' => h h'.2), if_neg hk, mul_zero]
    · intro h'
      exact absurd (Finset.mem_range.2 hb) h'

/-- blocks of a product with a `2 × 2` block matrix -/
theorem blk_mul_mk (Q : Mat (2 * n)) (g : ℕ → ℕ → Mat n) {r s : ℕ} (hr : r < 2) (hs : s < c) :
    blk (Q * mk 2 c g) r s = blk Q r 0 * g 0 s + blk Q r 1 * g 1 s := by
  have h : Q * mk 2 c g = mk 2 c (bmul 2 (blk Q) g) := by
    rw [← mk_mul, mk_blk]
  rw [h, blk_mk _ hr hs, bmul, Finset.sum_range_succ, Finset.sum_range_one]

theorem blk_mk_mul (Q : Mat (2 * n)) (g : ℕ → ℕ → Mat n) {r s : ℕ} (hr : r < c) (hs : s < 2) :
    blk (mk c 2 g * Q) r s = g r 0 * blk Q 0 s + g r 1 * blk Q 1 s := by
  have h : mk c 2 g * Q = mk c 2 (bmul 2 g (blk Q)) := by
    rw [← mk_mul, mk_blk]
  rw [h, blk_mk _ hr hs, bmul, Finset.sum_range_succ, Finset.sum_range_one]

theorem E_transpose (i : ℕ) (Q : Mat (2 * n)) : (E p i Q)ᵀ = E p i Qᵀ := by
  rw [E, E, mk_transpose]
  refine mk_congr fun a _ b _ => ?_
  rw [emb, emb]
  by_cases h : (i ≤ a ∧ a < i + 2) ∧ (i ≤ b ∧ b < i + 2)
  · rw [if_pos h, if_pos ⟨h.2, h.1⟩]
    have := mk_transpose (a := 2) (b := 2) (blk Q)
    rw [mk_blk] at this
    rw [this, blk_mk _ (by omega) (by omega)]
  · rw [if_neg h, if_neg (fun h' => h ⟨h'.2, h'.1⟩)]
    by_cases hab : a = b
    · rw [if_pos hab, if_pos hab.symm, transpose_one]
    · rw [if_neg hab, if_neg (Ne.symm hab), transpose_zero]

theorem E_mul_E_aux {i : ℕ} (Q Q' : Mat (2 * n)) :
    (mk p p fun a b => if i ≤ a ∧ a < i + 2 then blk Q (a - i) 0 * emb i Q' i b
      + blk Q (a - i) 1 * emb i Q' (i + 1) b else emb i Q' a b) = mk p p (emb i (Q * Q')) := by
  refine mk_congr fun a _ b _ => ?_
  by_cases h : i ≤ a ∧ a < i + 2
  · rw [if_pos h]
    by_cases h' : i ≤ b ∧ b < i + 2
    · rw [emb, emb, emb, if_pos ⟨by omega, h'⟩, if_pos ⟨by omega, h'⟩, if_pos ⟨h, h'⟩, Nat.sub_self,
        Nat.add_sub_cancel_left]
      conv_rhs => rw [← mk_blk Q']
      rw [blk_mul_mk _ _ (by omega) (by omega)]
    · have e : ∀ (R : Mat (2 * n)) (x : ℕ), emb i R x b = if x = b then 1 else 0 :=
        fun R x => if_neg fun y => h' y.2
      rw [e, e, e, if_neg (by omega), if_neg (by omega), if_neg (by omega), mul_zero, mul_zero,
        add_zero]
  · have e : ∀ R : Mat (2 * n), emb i R a b = if a = b then 1 else 0 :=
      fun R => if_neg fun y => h y.1
    rw [if_neg h, e, e]

theorem E_mul_E {i : ℕ} (hi : i + 2 ≤ p) (Q Q' : Mat (2 * n)) : E p i Q * E p i Q' = E p i (Q * Q') := by
  have : E p i Q * mk p p (emb i Q') = mk p p (emb i (Q * Q')) := by
    rw [E_mul hi]
    exact E_mul_E_aux Q Q'
  exact this

theorem E_one {i : ℕ} : E p i (1 : Mat (2 * n)) = 1 := by
  have h1 : (1 : Mat (p * n)) = mk p p fun i j => if i = j then (1 : Mat n) else 0 := mk_one.symm
  rw [E, h1]
  refine mk_congr fun a _ b _ => ?_
  rw [emb]
  by_cases h : (i ≤ a ∧ a < i + 2) ∧ (i ≤ b ∧ b < i + 2)
  · rw [if_pos h, ← mk_one, blk_mk _ (by omega) (by omega)]
    by_cases hab : a = b
    · rw [if_pos (by omega), if_pos hab]
    · rw [if_neg (by omega), if_neg hab]
  · rw [if_neg h]

/-! ## The loop of `BlockCyclicQR` -/

/-- rotation number `k`, from the stored reflectors -/
def Qof (f : ℕ → ℕ → Mat n) (tau : Buf) (k : ℕ) : Mat (2 * n) :=
  qMat (mk 2 1 fun r s => f (k + r) (k + s)) (tauAt tau k 1)

/-- the last rotation -/
def Qlast (p : ℕ) (f : ℕ → ℕ → Mat n) (tau : Buf) : Mat (2 * n) :=
  qMat (mk 2 2 fun r s => f (p - 2 + r) (p - 2 + s)) (tauAt tau (p - 2) 2)

/-- product of the first rotations -/
def P (p : ℕ) (f : ℕ → ℕ → Mat n) (tau : Buf) : ℕ → Mat (p * n)
  | 0 => 1
  | k + 1 => P p f tau k * E p k (Qof f tau k)

/-- the matrix after the first `i` columns have been treated -/
def rpart (i : ℕ) (f : ℕ → ℕ → Mat n) : ℕ → ℕ → Mat n := fun a b => if b < i then triu f a b else f a b

/-- the pattern of a block cyclic matrix, with room for the blocks that appear later -/
structure Pattern (p i : ℕ) (f : ℕ → ℕ → Mat n) : Prop where
  below : ∀ a b, a < p → b + 1 < a → f a b = 0
  above : ∀ a b, a + 1 < b → b < p - 1 → f a b = 0
  next : ∀ a, i ≤ a → a + 1 < p - 1 → f a (a + 1) = 0

structure QRInv (p : ℕ) (f₀ : ℕ → ℕ → Mat n) (i : ℕ) (f : ℕ → ℕ → Mat n) (tau : Buf) : Prop where
  eq : mk p p f₀ = P p f tau i * mk p p (rpart i f)
  pattern : Pattern p i f
  good : ∀ k < i, GoodTau (mk 2 1 fun r s => f (k + r) (k + s)) (tauAt tau k 1)

theorem P_congr {f g : ℕ → ℕ → Mat n} {tau tau' : Buf} (i : ℕ)
    (hf : ∀ k < i, ∀ a, f a k = g a k)
    (ht : ∀ k < i, tauAt (n := n) tau k 1 = tauAt tau' k 1) : P p f tau i = P p g tau' i := by
  induction i with
  | zero => rfl
  | succ i ih =>
    rw [P, P, ih (fun k hk => hf k (by omega)) (fun k hk => ht k (by omega))]
    congr 2
    rw [Qof, Qof, ht i (by omega)]
    congr 1
    refine mk_congr fun r _ s hs => ?_
    exact hf (i + s) (by omega) _

theorem qrStep_inv (alg : QRs n) (f₀ : ℕ → ℕ → Mat n) {i : ℕ} (hi : i < p - 2) {A tau : Buf}
    {f : ℕ → ℕ → Mat n} (hA : Rep p A f) (h : QRInv p f₀ i f tau) :
    ∃ A' tau' f', qrStep alg p (A, tau) i = some (A', tau') ∧ Rep p A' f' ∧
      QRInv p f₀ (i + 1) f' tau' := by
  obtain ⟨A1, tau1, F, e1, q1, r1, t1⟩ := dgeqrf_block (a := 2) (b := 1) alg.col tau hA (i := i)
    (by omega) (by omega) (z := (1 + (n * p : ℕ)) * i * n) (by ring)
  obtain ⟨A2, e2, r2⟩ := dormqrL_block (a := 2) (c := 1) 1 tau1 r1 (i := i) (j := i + 1) (by omega)
    (by omega) (by omega) (q := (1 + (n * p : ℕ)) * i * n) (by ring)
    (z := (i + (n * p : ℕ) * (i + 1)) * n) (by push_cast; ring)
  have hF : (mk 2 1 fun r s => patch f i i 2 1 (blk F) (i + r) (i + s)) = F := by
    conv_rhs => rw [← mk_blk F]
    refine mk_congr fun r hr s hs => ?_
    rw [patch, if_pos (by omega), Nat.add_sub_cancel_left, Nat.add_sub_cancel_left]
  rw [hF] at r2
  obtain ⟨A3, e3, r3⟩ := dormqrL_block (a := 2) (c := 1) 1 tau1 r2 (i := i) (j := p - 1) (by omega)
    (by omega) (by omega) (q := (1 + (n * p : ℕ)) * i * n) (by ring)
    (z := (i + (n * p : ℕ) * (p - 1)) * n) (by
      rw [Nat.cast_sub (by omega)]; push_cast; ring)
  set Q : Mat (2 * n) := qMat F (tauAt tau1 i 1) with hQ
  set f1 := patch f i i 2 1 (blk F) with hf1
  set f2 := patch f1 i (i + 1) 2 1 (blk (Qᵀ * mk 2 1 fun r s => f1 (i + r) (i + 1 + s))) with hf2
  have hF2 : (mk 2 1 fun r s => f2 (i + r) (i + s)) = F := by
    rw [← hF]
    refine mk_congr fun r hr s hs => ?_
    rw [hf2, patch, if_neg (by omega)]
  rw [hF2, ← hQ] at r3
  set f3 := patch f2 i (p - 1) 2 1 (blk (Qᵀ * mk 2 1 fun r s => f2 (i + r) (p - 1 + s))) with hf3
  -- columns before `i` are unchanged
  have hcol : ∀ k < i, ∀ x, f3 x k = f x k := by
    intro k hk x
    rw [hf3, patch, if_neg (by omega), hf2, patch, if_neg (by omega), hf1, patch, if_neg (by omega)]
  have hrow : ∀ x y, ¬ (i ≤ x ∧ x < i + 2) → f3 x y = f x y := by
    intro x y hx
    rw [hf3, patch, if_neg (fun h => hx h.1), hf2, patch, if_neg (fun h => hx h.1), hf1, patch,
      if_neg (fun h => hx h.1)]
  have hother : ∀ x y, y ≠ i → y ≠ i + 1 → y ≠ p - 1 → f3 x y = f x y := by
    intro x y h1 h2 h3
    rw [hf3, patch, if_neg (by omega), hf2, patch, if_neg (by omega), hf1, patch, if_neg (by omega)]
  have hF3 : (mk 2 1 fun r s => f3 (i + r) (i + s)) = F := by
    rw [← hF2]
    refine mk_congr fun r hr s hs => ?_
    rw [hf3, patch, if_neg (by omega)]
  have hgood : GoodTau F (tauAt tau1 i 1) := q1.refl
  have hQQ : Q * Qᵀ = 1 := qMat_orthogonal' hgood
  have hQT : Qᵀ * (mk 2 1 fun r s => f (i + r) (i + s)) = upper F := by
    rw [q1.eq, ← Matrix.mul_assoc, qMat_orthogonal hgood, Matrix.one_mul]
  have hQof : Qof f3 tau1 i = Q := by rw [Qof, hF3]
  refine ⟨A3, tau1, f3, ?_, r3, ?_, ?_, ?_⟩
  · unfold qrStep
    simp only [Option.bind_eq_bind]
    refine (Option.bind_eq_some_iff).2 ⟨_, e1, ?_⟩
    simp only
    refine (Option.bind_eq_some_iff).2 ⟨_, e2, ?_⟩
    refine (Option.bind_eq_some_iff).2 ⟨_, e3, rfl⟩
  · rw [h.eq, P, hQof, P_congr (p := p) (f := f3) (g := f) (tau' := tau) i hcol
      (fun k hk => t1 k 1 (by omega)), Matrix.mul_assoc]
    congr 1
    have key : E p i Qᵀ * mk p p (rpart i f) = mk p p (rpart (i + 1) f3) := by
      rw [E_mul (by omega)]
      refine mk_congr fun x hx y hy => ?_
      by_cases hx' : i ≤ x ∧ x < i + 2
      · rw [if_pos hx']
        have hx2 : x - i < 2 := by omega
        rcases lt_trichotomy y i with hy' | hy' | hy'
        · have z1 : ∀ k, i ≤ k → rpart i f k y = 0 := by
            intro k hk
            rw [rpart, if_pos hy', triu, if_neg (by omega), if_neg (by omega)]
          rw [z1 i le_rfl, z1 (i + 1) (by omega), mul_zero, mul_zero, add_zero, rpart,
            if_pos (by omega), triu, if_neg (by omega), if_neg (by omega)]
        · subst hy'
          have := blk_mul_mk (c := 1) Qᵀ (fun r s => f (y + r) (y + s)) hx2 (s := 0) (by omega)
          rw [hQT] at this
          simp only [add_zero] at this
          rw [rpart, rpart, if_neg (by omega), if_neg (by omega), ← this, ← mk_blk F, upper_mk,
            blk_mk _ hx2 (by omega), rpart, if_pos (by omega)]
          rcases (by omega : x = y ∨ x = y + 1) with rfl | rfl
          · rw [triu, if_neg (by omega), if_pos (by omega), triu, if_neg (by omega), if_pos rfl]
            have : f3 x x = blk F 0 0 := by
              have := mk_inj (hF3.trans (mk_blk F).symm) (i := 0) (j := 0) (by omega) (by omega)
              simpa using this
            rw [this, Nat.sub_self]
          · rw [triu, if_neg (by omega), if_neg (by omega), triu, if_neg (by omega), if_neg (by omega)]
        · rw [rpart, rpart, if_neg (by omega), if_neg (by omega), rpart, if_neg (by omega)]
          by_cases h1 : y = i + 1
          · subst h1
            have := blk_mul_mk (c := 1) Qᵀ (fun r s => f1 (i + r) (i + 1 + s)) hx2 (s := 0) (by omega)
            rw [hf3, patch, if_neg (by omega), hf2, patch, if_pos (by omega), Nat.sub_self, this]
            simp only [add_zero]
            rw [hf1, patch, if_neg (by omega), patch, if_neg (by omega)]
          · by_cases h2 : y = p - 1
            · subst h2
              have := blk_mul_mk (c := 1) Qᵀ (fun r s => f2 (i + r) (p - 1 + s)) hx2 (s := 0) (by omega)
              rw [hf3, patch, if_pos (by omega), Nat.sub_self, this]
              simp only [add_zero]
              rw [hf2, patch, if_neg (by omega), patch, if_neg (by omega), hf1, patch,
                if_neg (by omega), patch, if_neg (by omega)]
            · have z1 : f i y = 0 := h.pattern.above i y (by omega) (by omega)
              have z2 : f (i + 1) y = 0 := by
                rcases (by omega : y = i + 2 ∨ i + 2 < y) with rfl | h3
                · exact h.pattern.next (i + 1) (by omega) (by omega)
                · exact h.pattern.above (i + 1) y (by omega) (by omega)
              rw [z1, z2, mul_zero, mul_zero, add_zero, hother x y (by omega) h1 h2]
              rcases (by omega : x = i ∨ x = i + 1) with rfl | rfl
              · exact z1.symm
              · exact z2.symm
      · rw [if_neg hx', rpart, rpart]
        rcases lt_trichotomy y i with hy' | hy' | hy'
        · rw [if_pos hy', if_pos (by omega), triu, triu, hrow x y hx']
        · subst hy'
          rw [if_neg (by omega), if_pos (by omega), triu]
          rcases (by omega : x < y ∨ y + 1 < x) with h1 | h1
          · rw [if_pos h1, hrow x y hx']
          · rw [if_neg (by omega), if_neg (by omega)]
            exact h.pattern.below x y hx h1
        · rw [if_neg (by omega), if_neg (by omega), hrow x y hx']
    rw [← key, ← Matrix.mul_assoc, E_mul_E (by omega), hQQ, E_one, Matrix.one_mul]
  · refine ⟨?_, ?_, ?_⟩
    · intro x y hx hxy
      by_cases hx' : i ≤ x ∧ x < i + 2
      · rw [hcol y (by omega)]
        exact h.pattern.below x y hx hxy
      · rw [hrow x y hx']
        exact h.pattern.below x y hx hxy
    · intro x y hxy hy
      by_cases hx' : i ≤ x ∧ x < i + 2
      · rw [hother x y (by omega) (by omega) (by omega)]
        exact h.pattern.above x y hxy hy
      · rw [hrow x y hx']
        exact h.pattern.above x y hxy hy
    · intro x hx hy
      rw [hother x (x + 1) (by omega) (by omega) (by omega)]
      exact h.pattern.next x (by omega) hy
  · intro k hk
    rcases (by omega : k < i ∨ k = i) with hk' | rfl
    · rw [t1 k 1 (by omega)]
      have : (mk 2 1 fun r s => f3 (k + r) (k + s)) = mk 2 1 fun r s => f (k + r) (k + s) :=
        mk_congr fun r _ s hs => hcol (k + s) (by omega) _
      rw [this]
      exact h.good k hk'
    · rw [hF3]
      exact hgood

theorem qrLoop_inv (alg : QRs n) (f₀ : ℕ → ℕ → Mat n) {A tau : Buf} (hA : Rep p A f₀)
    (h : QRInv p f₀ 0 f₀ tau) (m : ℕ) (hm : m ≤ p - 2) :
    ∃ A' tau' f', (List.range m).foldlM (qrStep alg p) (A, tau) = some (A', tau') ∧ Rep p A' f' ∧
      QRInv p f₀ m f' tau' := by
  induction m with
  | zero => exact ⟨A, tau, f₀, rfl, hA, h⟩
  | succ m ih =>
    obtain ⟨A1, tau1, f1, e1, r1, i1⟩ := ih (by omega)
    obtain ⟨A2, tau2, f2, e2, r2, i2⟩ := qrStep_inv alg f₀ (by omega) r1 i1
    refine ⟨A2, tau2, f2, ?_, r2, i2⟩
    rw [List.range_succ, List.foldlM_append, e1]
    simp only [Option.bind_eq_bind, Option.bind_some, List.foldlM_cons, List.foldlM_nil, e2,
      Option.pure_def]

/-- result of `BlockCyclicQR` -/
structure QRDone (p : ℕ) (f₀ f : ℕ → ℕ → Mat n) (tau : Buf) : Prop where
  eq : mk p p f₀ = (P p f tau (p - 2) * E p (p - 2) (Qlast p f tau)) * mk p p (triu f)
  below : ∀ a b, a < p → b + 1 < a → f a b = 0
  above : ∀ a b, a + 1 < b → b < p - 1 → f a b = 0
  good : ∀ k < p - 2, GoodTau (mk 2 1 fun r s => f (k + r) (k + s)) (tauAt tau k 1)
  goodLast : GoodTau (mk 2 2 fun r s => f (p - 2 + r) (p - 2 + s)) (tauAt tau (p - 2) 2)

/-- the pattern of the input -/
structure Cyclic (p : ℕ) (f : ℕ → ℕ → Mat n) : Prop where
  zero : ∀ a b, a < p → b < p → a ≠ b → a ≠ b + 1 → ¬ (a = 0 ∧ b = p - 1) → f a b = 0

theorem qrInv_start {f₀ : ℕ → ℕ → Mat n} (hf : Cyclic p f₀) (tau : Buf) : QRInv p f₀ 0 f₀ tau := by
  refine ⟨?_, ⟨?_, ?_, ?_⟩, fun k hk => absurd hk (by omega)⟩
  · rw [P, Matrix.one_mul]
    exact mk_congr fun x _ y _ => by rw [rpart, if_neg (by omega)]
  · intro x y hx hxy
    exact hf.zero x y hx (by omega) (by omega) (by omega) (by omega)
  · intro x y hxy hy
    exact hf.zero x y (by omega) (by omega) (by omega) (by omega) (by omega)
  · intro x hx hy
    exact hf.zero x (x + 1) (by omega) (by omega) (by omega) (by omega) (by omega)

/-- the last factorisation -/
theorem qrLast_done (alg : QRAlg (2 * n) (2 * n)) {f₀ f1 : ℕ → ℕ → Mat n} (hp : 2 ≤ p) {A1 tau1 : Buf} (r1 : Rep p A1 f1)
    (i1 : QRInv p f₀ (p - 2) f1 tau1) :
    ∃ A' tau' f', dgeqrf alg (n * p * (n * p)) (n * p) A1 tau1 ((1 + (n * p : ℕ)) * (p - 2) * n) ((p - 2 : ℕ) * n) (n * p)
        = some (A', tau') ∧ Rep p A' f' ∧ QRDone p f₀ f' tau' := by
  obtain ⟨A2, tau2, F, e2, q2, r2, t2⟩ := dgeqrf_block (a := 2) (b := 2) alg tau1 r1 (i := p - 2)
    (by omega) (by omega) (z := (1 + (n * p : ℕ)) * (p - 2) * n) (by
      rw [Nat.cast_sub (by omega)]; push_cast; ring)
  set f2 := patch f1 (p - 2) (p - 2) 2 2 (blk F) with hf2
  have hF2 : (mk 2 2 fun r s => f2 (p - 2 + r) (p - 2 + s)) = F := by
    conv_rhs => rw [← mk_blk F]
    refine mk_congr fun r hr s hs => ?_
    rw [hf2, patch, if_pos (by omega), Nat.add_sub_cancel_left, Nat.add_sub_cancel_left]
  have hother : ∀ x y, ¬ ((p - 2 ≤ x ∧ x < p) ∧ (p - 2 ≤ y ∧ y < p)) → f2 x y = f1 x y := by
    intro x y hxy
    rw [hf2, patch, if_neg (by omega)]
  have hgood : GoodTau F (tauAt tau2 (p - 2) 2) := q2.refl
  have hQl : Qlast p f2 tau2 = qMat F (tauAt tau2 (p - 2) 2) := by rw [Qlast, hF2]
  set Q : Mat (2 * n) := qMat F (tauAt tau2 (p - 2) 2) with hQ
  have hQQ : Q * Qᵀ = 1 := qMat_orthogonal' hgood
  have hQT : Qᵀ * (mk 2 2 fun r s => f1 (p - 2 + r) (p - 2 + s)) = upper F := by
    rw [q2.eq, ← Matrix.mul_assoc, qMat_orthogonal hgood, Matrix.one_mul]
  refine ⟨A2, tau2, f2, ?_, r2, ?_, ?_, ?_, ?_, ?_⟩
  · exact e2
  · rw [i1.eq, hQl, P_congr (p := p) (f := f2) (g := f1) (tau' := tau1) (p - 2)
      (fun k hk x => hother x k (by omega)) (fun k hk => t2 k 1 (by omega)), Matrix.mul_assoc]
    congr 1
    have key : E p (p - 2) Qᵀ * mk p p (rpart (p - 2) f1) = mk p p (triu f2) := by
      rw [E_mul (by omega)]
      refine mk_congr fun x hx y hy => ?_
      by_cases hx' : p - 2 ≤ x ∧ x < p - 2 + 2
      · rw [if_pos hx']
        have hx2 : x - (p - 2) < 2 := by omega
        by_cases hy' : y < p - 2
        · have z1 : ∀ k, p - 2 ≤ k → rpart (p - 2) f1 k y = 0 := by
            intro k hk
            rw [rpart, if_pos hy', triu, if_neg (by omega), if_neg (by omega)]
          rw [z1 _ le_rfl, z1 _ (by omega), mul_zero, mul_zero, add_zero, triu, if_neg (by omega),
            if_neg (by omega)]
        · obtain ⟨s, hs⟩ := Nat.exists_eq_add_of_le (not_lt.1 hy')
          obtain ⟨r, hr⟩ := Nat.exists_eq_add_of_le hx'.1
          have := blk_mul_mk (c := 2) Qᵀ (fun r s => f1 (p - 2 + r) (p - 2 + s)) hx2 (s := s) (by omega)
          rw [hQT] at this
          simp only [add_zero, ← hs] at this
          rw [rpart, rpart, if_neg hy', if_neg hy', ← this, ← mk_blk F, upper_mk,
            blk_mk _ hx2 (by omega)]
          have e := mk_inj (hF2.trans (mk_blk F).symm) (i := r) (j := s) (by omega) (by omega)
          rw [hr, Nat.add_sub_cancel_left, hs, triu, triu, e]
          rcases lt_trichotomy r s with h | h | h
          · rw [if_pos h, if_pos (by omega)]
          · rw [if_neg (by omega), if_pos h, if_neg (by omega), if_pos (by omega)]
          · rw [if_neg (by omega), if_neg (by omega), if_neg (by omega), if_neg (by omega)]
      · rw [if_neg hx', rpart]
        have hf : f2 x y = f1 x y := hother x y (by omega)
        by_cases hy' : y < p - 2
        · rw [if_pos hy', triu, triu, hf]
        · rw [if_neg hy', triu, if_pos (by omega), hf]
    rw [← key, ← Matrix.mul_assoc, E_mul_E (by omega), hQQ, E_one, Matrix.one_mul]
  · intro x y hx hxy
    rw [hother x y (by omega)]
    exact i1.pattern.below x y hx hxy
  · intro x y hxy hy
    rw [hother x y (by omega)]
    exact i1.pattern.above x y hxy hy
  · intro k hk
    have : (mk 2 1 fun r s => f2 (k + r) (k + s)) = mk 2 1 fun r s => f1 (k + r) (k + s) :=
      mk_congr fun r _ s hs => hother _ (k + s) (by omega)
    rw [t2 k 1 (by omega), this]
    exact i1.good k hk
  · rw [hF2]
    exact hgood

theorem blockCyclicQR_done (alg : QRs n) {f₀ : ℕ → ℕ → Mat n} (hp : 2 ≤ p) (hf : Cyclic p f₀)
    {A : Buf} (tau : Buf) (hA : Rep p A f₀) :
    ∃ A' tau' f', blockCyclicQR alg p A tau = some (A', tau') ∧ Rep p A' f' ∧
      QRDone p f₀ f' tau' := by
  obtain ⟨A1, tau1, f1, e1, r1, i1⟩ := qrLoop_inv alg f₀ hA (qrInv_start hf tau) (p - 2) le_rfl
  obtain ⟨A2, tau2, f2, e2, r2, d2⟩ := qrLast_done alg.last hp r1 i1
  refine ⟨A2, tau2, f2, ?_, r2, d2⟩
  unfold blockCyclicQR
  simp only [Option.bind_eq_bind]
  exact (Option.bind_eq_some_iff).2 ⟨_, e1, e2⟩

end Verif.BlockCyclic
