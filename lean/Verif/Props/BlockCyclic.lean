import Verif.Lemmas.BlockRot
import Verif.Lemmas.LapackExists

/-!
# Inversion of block cyclic matrices

C45.
-/

set_option autoImplicit false

namespace Verif.BlockCyclic

open Matrix Verif.Lapack

variable {n p : ℕ}

/-- the blocks of the `n p × n p` matrix in a buffer (column major) -/
def blocks (n p : ℕ) (H : Buf) : ℕ → ℕ → Mat n := fun i j =>
  Matrix.of fun r s => H ((n * i + r) + n * p * (n * j + s))

theorem rep_blocks (H : Buf) : Rep p H (blocks n p H) := fun _ _ _ _ _ _ => rfl

/-- the whole matrix in a buffer -/
abbrev whole (n p : ℕ) (H : Buf) : Matrix (Fin (p * n)) (Fin (p * n)) ℝ :=
  view H 0 (n * p) (p * n) (p * n)

theorem whole_eq {H : Buf} {f : ℕ → ℕ → Mat n} (h : Rep p H f) : whole n p H = mk p p f := by
  refine ext_blocks fun i j r s => ?_
  rw [mk_apply, ← h i i.2 j j.2]
  show H _ = _
  simp only [finProdFinEquiv_apply_val]
  congr 1
  ring

/-- the part after the factorisation -/
theorem inverse_of_qr (hp : 2 ≤ p) {f₀ f1 : ℕ → ℕ → Mat n} (hdet : (mk p p f₀).det ≠ 0) {A1 tau1 : Buf} (r1 : Rep p A1 f1)
    (d1 : QRDone p f₀ f1 tau1) :
    ∃ A2 A3 g, blockCyclicTri n p A1 = some A2 ∧ blockCyclicRot n p A2 tau1 = some A3 ∧ Rep p A3 g ∧ mk p p g = (mk p p f₀)⁻¹ := by
  set O := P p f1 tau1 (p - 2) * E p (p - 2) (Qlast p f1 tau1) with hO
  have hR : (mk p p (triu f1)).det ≠ 0 := by
    intro h0
    apply hdet
    rw [d1.eq, det_mul, h0, mul_zero]
  obtain ⟨A2, f2, e2, r2, s2, v2⟩ := blockCyclicTri_done hp d1.above ((det_triu_ne_zero f1).1 hR) r1
  obtain ⟨A3, g, e3, r3, v3⟩ := blockCyclicRot_done hp d1 s2 r2
  refine ⟨A2, A3, g, e2, e3, r3, ?_⟩
  have orth : Oᵀ * O = 1 := by
    rw [hO, Matrix.transpose_mul, Matrix.mul_assoc, ← Matrix.mul_assoc (P p f1 tau1 (p - 2))ᵀ,
      P_orthogonal (p - 2) (by omega) d1.good, Matrix.one_mul, E_transpose, E_mul_E (by omega),
      Qlast, qMat_orthogonal d1.goodLast, E_one]
  symm
  apply inv_eq_left_inv
  rw [v3, d1.eq, Matrix.mul_assoc, ← Matrix.mul_assoc Oᵀ, orth, Matrix.one_mul]
  exact mul_eq_one_comm.1 v2

theorem inverse_done (alg : QRs n) (hp : 2 ≤ p) {f₀ : ℕ → ℕ → Mat n} (hf : Cyclic p f₀)
    (hdet : (mk p p f₀).det ≠ 0) {H : Buf} (tau : Buf) (hH : Rep p H f₀) :
    ∃ H' g, blockCyclicInverse alg p H tau = some H' ∧ Rep p H' g ∧ mk p p g = (mk p p f₀)⁻¹ := by
  obtain ⟨A1, tau1, f1, e1, r1, d1⟩ := blockCyclicQR_done alg hp hf tau hH
  obtain ⟨A2, A3, g, e2, e3, r3, v3⟩ := inverse_of_qr hp hdet r1 d1
  refine ⟨A3, g, ?_, r3, v3⟩
  unfold blockCyclicInverse
  simp only [Option.bind_eq_bind]
  refine (Option.bind_eq_some_iff).2 ⟨_, e1, ?_⟩
  exact (Option.bind_eq_some_iff).2 ⟨_, e2, e3⟩

/-- C45: for every block size, every number `p ≥ 2` of blocks and every QR factorisation, an invertible
matrix with nonzero blocks on the diagonal, below it and in the upper right corner is replaced by its
inverse. -/
theorem blockCyclicInverse_spec (alg : QRs n) (hp : 2 ≤ p) (H tau : Buf)
    (hcyc : ∀ a b, a < p → b < p → a ≠ b → a ≠ b + 1 → ¬ (a = 0 ∧ b = p - 1) → blocks n p H a b = 0)
    (hdet : (whole n p H).det ≠ 0) :
    ∃ H', blockCyclicInverse alg p H tau = some H' ∧ whole n p H' = (whole n p H)⁻¹ := by
  have hw := whole_eq (rep_blocks (n := n) (p := p) H)
  rw [hw] at hdet
  obtain ⟨H', g, h1, h2, h3⟩ := inverse_done alg hp ⟨hcyc⟩ hdet tau (rep_blocks H)
  exact ⟨H', h1, by rw [whole_eq h2, h3, hw]⟩

/-- non-vacuity: QR factorisations exist, and there are matrices with all three kinds of blocks -/
example : Nonempty (QRs n) :=
  ⟨⟨(qrAlg_exists _ _).some, (qrAlg_exists _ _).some⟩⟩

example (alg : QRs 1) : ∃ H', blockCyclicInverse alg 4
    (fun x => if x % 4 = x / 4 then 2 else if x % 4 = x / 4 + 1 then -1 else if x = 12 then 3 else 0)
    (fun _ => 0) = some H' ∧
    whole 1 4 H' * !![2, 0, 0, 3; -1, 2, 0, 0; 0, -1, 2, 0; 0, 0, -1, 2] = 1 := by
  have e : whole 1 4 (fun x => if x % 4 = x / 4 then 2 else if x % 4 = x / 4 + 1 then -1 else
      if x = 12 then 3 else 0) = !![2, 0, 0, 3; -1, 2, 0, 0; 0, -1, 2, 0; 0, 0, -1, 2] := by
    ext i j
    fin_cases i <;> fin_cases j <;> simp [whole, view]
  have hd : (!![2, 0, 0, 3; -1, 2, 0, 0; 0, -1, 2, 0; 0, 0, -1, 2] : Mat 4).det ≠ 0 := by
    simp [det_succ_row_zero, Fin.sum_univ_succ, Fin.succAbove]
    norm_num
  have hz : ∀ a b, a < 4 → b < 4 → a ≠ b → a ≠ b + 1 → ¬ (a = 0 ∧ b = 4 - 1) →
      blocks 1 4 (fun x => if x % 4 = x / 4 then 2 else if x % 4 = x / 4 + 1 then -1 else
        if x = 12 then 3 else 0) a b = 0 := by
    intro a b ha hb h1 h2 h3
    ext r s
    have hr := r.2
    have hs := s.2
    simp only [blocks, of_apply, Matrix.zero_apply]
    rw [if_neg (by omega), if_neg (by omega), if_neg (by omega)]
  obtain ⟨H', h1, h2⟩ := blockCyclicInverse_spec (p := 4) alg (by norm_num) _ (fun _ => 0) hz
    (by rw [e]; exact hd)
  refine ⟨H', h1, ?_⟩
  rw [h2, e]
  exact Matrix.nonsing_inv_mul _ (isUnit_iff_ne_zero.2 hd)

/-- with a single block the code leaves the arrays (`p - 2` is negative) -/
theorem blockCyclicInverse_one (alg : QRs n) (hn : 0 < n) (H tau : Buf) :
    blockCyclicInverse alg 1 H tau = none := by
  have : ¬ Fits (n * 1 * (n * 1)) ((1 + (n * 1 : ℕ)) * ((1 : ℕ) - 2) * n) (n * 1) (2 * n) (2 * n) := by
    rintro ⟨h, -⟩
    have hn' : (0 : ℤ) < n := by exact_mod_cast hn
    push_cast at h
    nlinarith
  unfold blockCyclicInverse blockCyclicQR dgeqrf load
  simp only [Nat.sub_eq_zero_of_le (show 1 ≤ 2 by norm_num), List.range_zero, List.foldlM_nil,
    if_neg this]
  rfl

end Verif.BlockCyclic
