import Verif.Model.TimeFlow
import Verif.Lemmas.Lapack
import Verif.Props.Stratonovich
import Mathlib.Data.Nat.ModEq

/-! # Properties C21, C22, C24, C25 and the cache part of C23: time step matrices and their products -/

set_option autoImplicit false

namespace Verif.TimeFlow

open Matrix Verif.Stratonovich Verif.Lapack

variable {N : ℕ}

/-! ## Specification -/

/-- time ordered product `A (k-1) ... A 1 A 0` -/
def prodSeq (A : ℕ → Mat N) : ℕ → Mat N
  | 0 => 1
  | k + 1 => A k * prodSeq A k

/-- product of all `L` matrices in cyclic time order, starting with slice `shift` -/
def cyclicProd (B : ℕ → Mat N) (L shift : ℕ) : Mat N := prodSeq (fun l => B ((shift + l) % L)) L

theorem prodSeq_congr {A A' : ℕ → Mat N} {k : ℕ} (h : ∀ l < k, A l = A' l) :
    prodSeq A k = prodSeq A' k := by
  induction k with
  | zero => rfl
  | succ k ih => rw [prodSeq, prodSeq, h k (by omega), ih fun l hl => h l (by omega)]

theorem prodSeq_add (A : ℕ → Mat N) (j k : ℕ) :
    prodSeq A (j + k) = prodSeq (fun l => A (j + l)) k * prodSeq A j := by
  induction k with
  | zero => simp [prodSeq]
  | succ k ih => rw [← add_assoc, prodSeq, prodSeq, ih, Matrix.mul_assoc]

theorem prodSeq_succ' (A : ℕ → Mat N) (k : ℕ) :
    prodSeq A (k + 1) = prodSeq (fun l => A (l + 1)) k * A 0 := by
  rw [add_comm, prodSeq_add]
  simp [prodSeq, add_comm]

theorem prodSeq_blocks (A : ℕ → Mat N) (len k : ℕ) :
    prodSeq A (k * len) = prodSeq (fun m => prodSeq (fun i => A (m * len + i)) len) k := by
  induction k with
  | zero => simp [prodSeq]
  | succ k ih => rw [Nat.succ_mul, prodSeq_add, ih, prodSeq]

/-! ## C22 -/

theorem prodStep_t1 (A : ℕ → Mat N) (st : ProdState N) (i : ℕ) :
    (prodStep A st i).t1 = A i * st.t1 ∧ (prodStep A st i).t1IsRet = !st.t1IsRet := by
  rcases st with ⟨r, w, _ | _⟩ <;> simp [prodStep, ProdState.t1, ProdState.setT2]

theorem foldl_prodStep (A : ℕ → Mat N) (st : ProdState N) (h0 : st.t1 = A 0) (k : ℕ) :
    (((List.range' 1 k).foldl (prodStep A) st).t1 = prodSeq A (k + 1)) ∧
    (((List.range' 1 k).foldl (prodStep A) st).t1IsRet = (st.t1IsRet ^^ decide (k % 2 = 1))) := by
  induction k with
  | zero => simp [prodSeq, h0]
  | succ k ih =>
    rw [List.range'_1_concat, List.foldl_append, List.foldl_cons, List.foldl_nil]
    obtain ⟨h1, h2⟩ := prodStep_t1 A ((List.range' 1 k).foldl (prodStep A) st) (1 + k)
    rw [h1, h2, ih.1, ih.2]
    refine ⟨by rw [add_comm 1 k]; rfl, ?_⟩
    rcases Nat.mod_two_eq_zero_or_one k with h | h
    · rw [show (k + 1) % 2 = 1 by omega, h]; cases st.t1IsRet <;> rfl
    · rw [show (k + 1) % 2 = 0 by omega, h]; cases st.t1IsRet <;> rfl

/-- C22: the result buffer holds `A_{num-1} ... A_1 A_0`, whatever it and the work space held. -/
theorem matrixProductSequence_spec (num : ℕ) (hn : 0 < num) (A : ℕ → Mat N) (ret0 W0 : Mat N) :
    matrixProductSequence num A ret0 W0 = prodSeq A num := by
  unfold matrixProductSequence
  simp only
  set st : ProdState N := { ret := ret0, W := W0, t1IsRet := num % 2 != 0 } with hst
  have h0 : (st.setT1 (A 0)).t1 = A 0 ∧ (st.setT1 (A 0)).t1IsRet = (num % 2 != 0) := by
    unfold ProdState.t1 ProdState.setT1
    rw [hst]
    by_cases h : (num % 2 != 0) = true <;> simp [h]
  obtain ⟨h1, h2⟩ := foldl_prodStep A (st.setT1 (A 0)) h0.1 (num - 1)
  have hret : ((List.range' 1 (num - 1)).foldl (prodStep A) (st.setT1 (A 0))).t1IsRet = true := by
    rw [h2, h0.2]
    rcases Nat.mod_two_eq_zero_or_one num with h | h
    · rw [h, show (num - 1) % 2 = 1 by omega]; rfl
    · rw [h, show (num - 1) % 2 = 0 by omega]; rfl
  rw [show num = num - 1 + 1 by omega, ← h1, ProdState.t1, if_pos]
  · rfl
  · simpa using hret

/-- the order of the factors matters: the reversed product is different in general -/
example : matrixProductSequence 2 (fun i => if i = 0 then !![0, 1; 0, 0] else !![0, 0; 1, 0])
    (0 : Mat 2) 0 = !![0, 0; 0, 1] := by
  rw [matrixProductSequence_spec 2 (by norm_num)]
  ext i j
  fin_cases i <;> fin_cases j <;> simp [prodSeq]

/-! ## C21 -/

/-- orbital tables for spin `up`/`down` -/
theorem timeStepMatrix_eq (Ncell : ℕ) (expK : Mat N) (expV : Fin 2 → ℕ → ℝ) (s : Fin N → Fin 2) :
    timeStepMatrix Ncell expK expV s
      = diagonal (fun i : Fin N => expV (s i) (i / Ncell)) * expK := by
  ext i j
  simp [timeStepMatrix, diagonal_mul]

theorem phononTimeStepMatrix_eq (Ncell : ℕ) (expK : Mat N) (expV : Fin 2 → ℕ → ℝ)
    (s : Fin N → Fin 2) (expX : Fin N → ℝ) :
    phononTimeStepMatrix Ncell expK expV s expX
      = diagonal (fun i : Fin N => expV (s i) (i / Ncell) * expX i) * expK := by
  ext i j
  simp [phononTimeStepMatrix, diagonal_mul]

/-- C21 without phonons: `B = diag(exp V) exp(-dt K)` and the stored inverse is the inverse, for
tables in which reversing the field inverts the exponential (C20) -/
theorem timeStepMatrix_inverse (Ncell : ℕ) (expK invExpK : Mat N) (hK : expK * invExpK = 1)
    (expV : Fin 2 → ℕ → ℝ) (s : Fin N → Fin 2)
    (hV : ∀ i : Fin N, ∀ v, expV v (i / Ncell) * expV (1 - v) (i / Ncell) = 1) :
    timeStepMatrix Ncell expK expV s = diagonal (fun i : Fin N => expV (s i) (i / Ncell)) * expK ∧
    timeStepMatrix Ncell expK expV s * invTimeStepMatrix Ncell invExpK expV s = 1 ∧
    invTimeStepMatrix Ncell invExpK expV s * timeStepMatrix Ncell expK expV s = 1 := by
  have h2 : invTimeStepMatrix Ncell invExpK expV s
      = invExpK * diagonal (fun i : Fin N => expV (1 - s i) (i / Ncell)) := by
    ext i j
    simp [invTimeStepMatrix, mul_diagonal, mul_comm]
  have h : timeStepMatrix Ncell expK expV s * invTimeStepMatrix Ncell invExpK expV s = 1 := by
    rw [timeStepMatrix_eq, h2, Matrix.mul_assoc, ← Matrix.mul_assoc expK, hK, Matrix.one_mul,
      diagonal_mul_diagonal, ← diagonal_one]
    congr 1; ext i; exact hV i (s i)
  exact ⟨timeStepMatrix_eq .., h, mul_eq_one_comm.1 h⟩

/-- C21 with phonons -/
theorem phononTimeStepMatrix_inverse (Ncell : ℕ) (expK invExpK : Mat N) (hK : expK * invExpK = 1)
    (expV : Fin 2 → ℕ → ℝ) (s : Fin N → Fin 2) (expX : Fin N → ℝ)
    (hV : ∀ i : Fin N, ∀ v, expV v (i / Ncell) * expV (1 - v) (i / Ncell) = 1)
    (hX : ∀ i, expX i ≠ 0) :
    phononTimeStepMatrix Ncell expK expV s expX
      = diagonal (fun i : Fin N => expV (s i) (i / Ncell) * expX i) * expK ∧
    phononTimeStepMatrix Ncell expK expV s expX * invPhononTimeStepMatrix Ncell invExpK expV s expX
      = 1 ∧
    invPhononTimeStepMatrix Ncell invExpK expV s expX * phononTimeStepMatrix Ncell expK expV s expX
      = 1 := by
  have h2 : invPhononTimeStepMatrix Ncell invExpK expV s expX
      = invExpK * diagonal (fun i : Fin N => expV (1 - s i) (i / Ncell) / expX i) := by
    ext i j
    simp [invPhononTimeStepMatrix, mul_diagonal, mul_comm]
  have h : phononTimeStepMatrix Ncell expK expV s expX
      * invPhononTimeStepMatrix Ncell invExpK expV s expX = 1 := by
    rw [phononTimeStepMatrix_eq, h2, Matrix.mul_assoc, ← Matrix.mul_assoc expK, hK, Matrix.one_mul,
      diagonal_mul_diagonal, ← diagonal_one]
    congr 1; ext i
    have := hV i (s i)
    have hx := hX i
    field_simp
    linear_combination this
  exact ⟨phononTimeStepMatrix_eq .., h, mul_eq_one_comm.1 h⟩

/-- the tables computed by `FillStratonovichParameters` satisfy the hypothesis of C21 for both
spins -/
theorem fill_reciprocal (Norb Ncell : ℕ) (U : ℕ → ℝ) (dt : ℝ) (p : HSParams)
    (hp : fill Norb U dt = some p) (i : Fin (Norb * Ncell)) (v : Fin 2) :
    p.expVu v (i / Ncell) * p.expVu (1 - v) (i / Ncell) = 1 ∧
    p.expVd v (i / Ncell) * p.expVd (1 - v) (i / Ncell) = 1 := by
  have ho : (i : ℕ) / Ncell < Norb := by
    apply Nat.div_lt_of_lt_mul
    exact lt_of_lt_of_eq i.2 (mul_comm _ _)
  have hc := fill_consistent Norb U dt p hp _ ho
  refine ⟨hc.reciprocal v, ?_⟩
  rw [hc.reversed, hc.reversed, sub_sub_cancel, mul_comm]
  exact hc.reciprocal v

/-- non-vacuity of C21: a 2-site lattice with U = 4 in both field values -/
example : ∃ p, fill 1 (fun _ => 4) (1 / 8) = some p ∧
    timeStepMatrix 2 (1 : Mat 2) p.expVu ![0, 1] * invTimeStepMatrix 2 (1 : Mat 2) p.expVu ![0, 1]
      = 1 := by
  obtain ⟨p, hp⟩ := fill_defined (Norb := 1) (U := fun _ => 4) (dt := 1 / 8)
    (fun _ _ => by norm_num)
  exact ⟨p, hp, (timeStepMatrix_inverse 2 1 1 (Matrix.one_mul 1) p.expVu _
    fun i v => (fill_reciprocal 1 2 _ _ p hp i v).1).2.1⟩

/-! ## C25 -/

/-- `a` has to precede `b`: larger norm, ties in the original order -/
def Before (norms : Fin N → ℝ) (a b : Fin N) : Prop :=
  norms b < norms a ∨ (norms a = norms b ∧ a < b)

theorem insertInner_spec {ι : Type} (norms : ι → ℝ) (i : ι) (j : ℕ) (p : ℕ → ι) :
    ∃ t ≤ j, (∀ a < t, insertInner norms i j p a = p a) ∧ insertInner norms i j p t = i ∧
      (∀ a, t < a → a ≤ j → insertInner norms i j p a = p (a - 1)) ∧
      (∀ a, 0 < t → a + 1 = t → norms i ≤ norms (p a)) ∧
      (∀ a, t ≤ a → a < j → norms (p a) < norms i) := by
  induction j generalizing p with
  | zero =>
    refine ⟨0, le_rfl, fun a h => absurd h (by omega), by simp [insertInner], ?_, ?_, ?_⟩ <;>
      intros <;> omega
  | succ j ih =>
    unfold insertInner
    split
    · rename_i hlt
      obtain ⟨t, ht, h1, h2, h3, h4, h5⟩ := ih (Function.update p (j + 1) (p j))
      refine ⟨t, by omega, ?_, h2, ?_, ?_, ?_⟩
      · intro a ha
        rw [h1 a ha, Function.update_of_ne (by omega)]
      · intro a ha1 ha2
        by_cases h : a ≤ j
        · rw [h3 a ha1 h, Function.update_of_ne (by omega)]
        · have haj : a = j + 1 := by omega
          subst haj
          have : ∀ j' q, j' < j + 1 → insertInner norms i j' q (j + 1) = q (j + 1) := by
            intro j'
            induction j' with
            | zero => intro q _; simp [insertInner]
            | succ k ihk =>
              intro q hk
              unfold insertInner
              split
              · rw [ihk _ (by omega), Function.update_of_ne (by omega)]
              · rw [Function.update_of_ne (by omega)]
          rw [this j _ (by omega)]; simp
      · intro a ht0 ha
        have := h4 a ht0 ha
        rwa [Function.update_of_ne (by omega)] at this
      · intro a ha1 ha2
        by_cases h : a < j
        · have := h5 a ha1 h
          rwa [Function.update_of_ne (by omega)] at this
        · rw [show a = j by omega]; exact hlt
    · rename_i hge
      refine ⟨j + 1, le_rfl, fun a ha => by rw [Function.update_of_ne (by omega)], by simp, ?_, ?_, ?_⟩
      · intro a h1 h2; omega
      · intro a _ ha
        rw [show a = j by omega]; exact not_lt.1 hge
      · intro a h1 h2; omega

/-- state of the sort after the first `k` insertions -/
structure SortInv (norms : Fin N → ℝ) (k : ℕ) (p : ℕ → Fin N) : Prop where
  sorted : ∀ a b, a < b → b < k → Before norms (p a) (p b)
  bound : ∀ a < k, (p a).val < k

theorem before_trans_le {norms : Fin N → ℝ} {a b c : Fin N} (h1 : Before norms a b)
    (h2 : norms c ≤ norms b) (hlt : a < c) : Before norms a c := by
  rcases h1 with h | ⟨h, -⟩
  · exact Or.inl (lt_of_le_of_lt h2 h)
  · rcases lt_or_eq_of_le (h ▸ h2) with h' | h'
    · exact Or.inl h'
    · exact Or.inr ⟨h'.symm, hlt⟩

theorem sortInv_insert (norms : Fin N → ℝ) (i : Fin N) (p : ℕ → Fin N)
    (h : SortInv norms i.val p) : SortInv norms (i.val + 1) (insertInner norms i i.val p) := by
  obtain ⟨t, ht, h1, h2, h3, h4, h5⟩ := insertInner_spec norms i i.val p
  have key : ∀ a, a ≤ i.val → (a < t ∧ insertInner norms i i.val p a = p a) ∨
      (a = t ∧ insertInner norms i i.val p a = i) ∨
      (t < a ∧ insertInner norms i i.val p a = p (a - 1)) := by
    intro a ha
    rcases lt_trichotomy a t with h | h | h
    · exact Or.inl ⟨h, h1 a h⟩
    · exact Or.inr (Or.inl ⟨h, h ▸ h2⟩)
    · exact Or.inr (Or.inr ⟨h, h3 a h ha⟩)
  constructor
  · intro a b hab hb
    rcases key a (by omega) with ⟨ha, ea⟩ | ⟨ha, ea⟩ | ⟨ha, ea⟩ <;>
    rcases key b (by omega) with ⟨hb', eb⟩ | ⟨hb', eb⟩ | ⟨hb', eb⟩ <;> rw [ea, eb]
    · exact h.sorted a b hab (by omega)
    · -- `p a` before `i`
      have hlt : p a < i := Fin.lt_def.2 (h.bound a (by omega))
      by_cases hat : a + 1 = t
      · rcases lt_or_eq_of_le (h4 a (by omega) hat) with h' | h'
        · exact Or.inl h'
        · exact Or.inr ⟨h'.symm, hlt⟩
      · exact before_trans_le (h.sorted a (t - 1) (by omega) (by omega))
          (h4 (t - 1) (by omega) (by omega)) hlt
    · exact h.sorted a (b - 1) (by omega) (by omega)
    · omega
    · omega
    · exact Or.inl (h5 (b - 1) (by omega) (by omega))
    · omega
    · omega
    · exact h.sorted (a - 1) (b - 1) (by omega) (by omega)
  · intro a ha
    rcases key a (by omega) with ⟨ha', ea⟩ | ⟨ha', ea⟩ | ⟨ha', ea⟩ <;> rw [ea]
    · have := h.bound a (by omega); omega
    · omega
    · have := h.bound (a - 1) (by omega); omega

theorem pivotOrder_inv (norms : Fin N → ℝ) (p0 : ℕ → Fin N) :
    SortInv norms N (pivotOrder norms p0) := by
  have main : ∀ k ≤ N, SortInv norms k
      (((List.finRange N).take k).foldl (fun p i => insertInner norms i i.val p) p0) := by
    intro k hk
    induction k with
    | zero => exact ⟨fun _ _ _ h => absurd h (by omega), fun _ h => absurd h (by omega)⟩
    | succ k ih =>
      have hlen : k < (List.finRange N).length := by simpa using hk
      rw [← List.take_concat_get' _ _ hlen, List.foldl_append, List.foldl_cons, List.foldl_nil]
      have hi : (List.finRange N)[k] = ⟨k, hk⟩ := by simp
      rw [hi]
      exact sortInv_insert norms ⟨k, hk⟩ _ (ih (by omega))
  have := main N le_rfl
  rwa [List.take_of_length_le (by simp)] at this

/-- C25: the pivot order is a permutation of the columns, sorted by decreasing norm and stable, for
every previous content of the array. -/
theorem pivotOrder_spec (norms : Fin N → ℝ) (p0 : ℕ → Fin N) :
    ∃ σ : Equiv.Perm (Fin N), (∀ j : Fin N, pivotOrder norms p0 j = σ j) ∧
      ∀ a b : Fin N, a < b → norms (σ b) < norms (σ a) ∨ (norms (σ a) = norms (σ b) ∧ σ a < σ b) := by
  have inv := pivotOrder_inv norms p0
  have hinj : Function.Injective fun j : Fin N => pivotOrder norms p0 j := by
    have aux : ∀ a b : Fin N, a < b → pivotOrder norms p0 a ≠ pivotOrder norms p0 b := by
      intro a b hab h
      rcases inv.sorted a b hab b.2 with h' | ⟨-, h'⟩
      · rw [h] at h'; exact lt_irrefl _ h'
      · rw [h] at h'; exact lt_irrefl _ h'
    intro a b hab
    rcases lt_trichotomy a b with h | h | h
    · exact absurd hab (aux a b h)
    · exact h
    · exact absurd hab.symm (aux b a h)
  refine ⟨Equiv.ofBijective _ (Finite.injective_iff_bijective.1 hinj), fun j => rfl, ?_⟩
  intro a b hab
  exact inv.sorted a b hab b.2

/-- a tie and an inversion: norms 1, 2, 1 give the order 1, 0, 2 -/
example : ∃ σ : Equiv.Perm (Fin 3), (∀ j : Fin 3, pivotOrder ![1, 2, 1] (fun _ => 0) j = σ j) ∧
    σ 0 = 1 ∧ σ 1 = 0 ∧ σ 2 = 2 := by
  obtain ⟨σ, h, h'⟩ := pivotOrder_spec ![1, 2, 1] (fun _ => (0 : Fin 3))
  refine ⟨σ, h, ?_⟩
  have e : ∀ j : Fin 3, pivotOrder ![1, 2, 1] (fun _ => (0 : Fin 3)) j = ![1, 0, 2] j := by
    intro j
    fin_cases j <;>
      simp [pivotOrder, List.finRange_succ, insertInner, Function.update]
  exact ⟨by rw [← h, e]; rfl, by rw [← h, e]; rfl, by rw [← h, e]; rfl⟩

/-! ## C24 -/

theorem diagOf_ne (Q : Mat N) (i : Fin N) : diagOf Q i ≠ 0 := by
  unfold diagOf; split <;> simp_all

theorem diag_scaled (F : Mat N) (G : Mat N) (hG : ∀ i j, i ≤ j → G i j = (1.0 / diagOf F i) * F i j) :
    diagonal (diagOf F) * upper G = upper F := by
  ext i j
  rw [diagonal_mul, upper, upper, of_apply, of_apply]
  by_cases h : i ≤ j
  · rw [if_pos (by simpa using h), if_pos (by simpa using h), hG i j h]
    have := diagOf_ne F i
    field_simp
    norm_num
  · rw [if_neg (by simpa using h), if_neg (by simpa using h), mul_zero]

/-- what a flow represents -/
def Flow.value (f : Flow N) : Mat N := qMat f.Q f.tau * diagonal f.d * f.T

theorem flowInit_spec [NeZero N] (lp : Lapack N) (Bp : Mat N) :
    GoodTau (flowInit lp Bp).Q (flowInit lp Bp).tau ∧ (flowInit lp Bp).value = Bp := by
  have hqr := lp.qrp.spec Bp
  refine ⟨hqr.refl, ?_⟩
  set σ := (lp.qrp.run Bp).2.2 with hσ
  set Q := (lp.qrp.run Bp).1 with hQ
  have hT : (flowInit lp Bp).T
      = (upper (Matrix.of fun i j => (1.0 / diagOf Q i) * Q i j)).submatrix id σ.symm := by
    ext i c
    simp only [flowInit, of_apply, submatrix_apply, id, upper]
    simp only [← hσ, ← hQ, Fin.le_def]
  have hv : (flowInit lp Bp).value
      = qMat Q (lp.qrp.run Bp).2.1 * diagonal (diagOf Q) * (flowInit lp Bp).T := rfl
  have hrow : ∀ (A U : Mat N), A * U.submatrix id σ.symm = (A * U).submatrix id σ.symm := by
    intro A U; ext i j; simp [mul_apply, submatrix_apply]
  rw [hv, hT, hrow, Matrix.mul_assoc, diag_scaled Q (Matrix.of fun i j => (1.0 / diagOf Q i) * Q i j) (fun i j _ => rfl), ← hqr.eq]
  ext i j; simp

theorem flowStep_spec (lp : Lapack N) (f : Flow N) (Bp : Mat N) :
    GoodTau (flowStep lp f Bp).Q (flowStep lp f Bp).tau ∧ (flowStep lp f Bp).value = Bp * f.value := by
  set W : Mat N := Matrix.of fun i j => (Bp * qMat f.Q f.tau) i j * f.d j with hW
  obtain ⟨σ, hσ, -⟩ := pivotOrder_spec (colNorm W) f.jpvt
  have hWd : W = Bp * qMat f.Q f.tau * diagonal f.d := by
    ext i j; rw [mul_diagonal]; rfl
  have hWσ : (Matrix.of fun i j : Fin N => W i (pivotOrder (colNorm W) f.jpvt j))
      = W.submatrix id σ := by
    ext i j; simp [hσ]
  have hTσ : (Matrix.of fun i j : Fin N => f.T (pivotOrder (colNorm W) f.jpvt i) j)
      = f.T.submatrix σ id := by
    ext i j; simp [hσ]
  have hqr := lp.qr.spec (W.submatrix id σ)
  set Q := (lp.qr.run (W.submatrix id σ)).1 with hQ
  set tau := (lp.qr.run (W.submatrix id σ)).2 with htau
  set Q' : Mat N := Matrix.of fun i j => if i ≤ j then Q i j * (1.0 / diagOf Q i) else Q i j with hQ'
  have hlow : ∀ (r : Fin N) (i : Fin N), i.val < r.val → Q r i = Q' r i := by
    intro r i h
    simp only [hQ', of_apply]
    rw [if_neg (not_le.2 (Fin.lt_def.2 h))]
  have hf : flowStep lp f Bp
      = { Q := Q', tau := tau, d := diagOf Q, T := upper Q' * f.T.submatrix σ id,
          jpvt := pivotOrder (colNorm W) f.jpvt } := by
    unfold flowStep
    simp only
    rw [← hW, hWσ, hTσ]
  rw [hf]
  refine ⟨goodTau_congr hlow hqr.refl, ?_⟩
  unfold Flow.value
  simp only
  rw [← qMat_congr tau hlow, Matrix.mul_assoc (qMat Q tau), ← Matrix.mul_assoc (diagonal _),
    diag_scaled Q Q' (fun i j h => by simp only [hQ', of_apply]; rw [if_pos h, mul_comm]),
    ← Matrix.mul_assoc, ← hqr.eq]
  have : W.submatrix id σ * f.T.submatrix σ id = W * f.T := by
    rw [submatrix_mul_equiv]; rfl
  rw [this, hWd]
  simp only [Matrix.mul_assoc]

/-- C24: `Q` is orthogonal and `Q diag(d) T` is the product of the cached matrices in cyclic order
starting at `slice_shift`, for every QR decomposition the library may return. -/
theorem timeFlowMap_spec [NeZero N] (lp : Lapack N) (tsm : TSM N) (hn : 0 < tsm.numBprod)
    (shift : ℕ) :
    let f := timeFlowMap lp tsm shift
    (qMat f.Q f.tau)ᵀ * qMat f.Q f.tau = 1 ∧
    (∀ i, f.tau i = 0 ∨ f.tau i * (houseVec f.Q i ⬝ᵥ houseVec f.Q i) = 2) ∧
    qMat f.Q f.tau * diagonal f.d * f.T
      = prodSeq (fun l => tsm.Bprod ((l + shift / tsm.prodBlen) % tsm.numBprod)) tsm.numBprod := by
  have main : ∀ k, 
      let f := (List.range' 1 k).foldl
        (fun f l => flowStep lp f (tsm.Bprod ((l + shift / tsm.prodBlen) % tsm.numBprod)))
        (flowInit lp (tsm.Bprod (shift / tsm.prodBlen % tsm.numBprod)))
      GoodTau f.Q f.tau ∧ f.value
        = prodSeq (fun l => tsm.Bprod ((l + shift / tsm.prodBlen) % tsm.numBprod)) (k + 1) := by
    intro k
    induction k with
    | zero =>
      obtain ⟨h1, h2⟩ := flowInit_spec lp (tsm.Bprod (shift / tsm.prodBlen % tsm.numBprod))
      refine ⟨h1, ?_⟩
      simp only [List.range'_zero, List.foldl_nil]
      rw [h2]; simp [prodSeq]
    | succ k ih =>
      simp only [List.range'_1_concat, List.foldl_append, List.foldl_cons, List.foldl_nil]
      refine ⟨(flowStep_spec lp _ _).1, ?_⟩
      rw [(flowStep_spec lp _ _).2, ih.2, add_comm 1 k]
      rfl
  obtain ⟨h1, h2⟩ := main (tsm.numBprod - 1)
  refine ⟨qMat_orthogonal h1, h1, ?_⟩
  rw [Nat.sub_add_cancel hn] at h2
  exact h2

/-! ## C23 (the cache) -/

/-- the cached product of block `m` is the product of the current matrices of its slices -/
def FreshAt (tsm : TSM N) (m : ℕ) : Prop :=
  tsm.Bprod m = prodSeq (fun i => tsm.B (m * tsm.prodBlen + i)) tsm.prodBlen

/-- all cached products are fresh -/
def Fresh (tsm : TSM N) : Prop := ∀ m < tsm.numBprod, FreshAt tsm m

/-- the dimensions are consistent -/
structure Dims (tsm : TSM N) : Prop where
  len : 0 < tsm.prodBlen
  num : 0 < tsm.numBprod
  mul : tsm.L = tsm.numBprod * tsm.prodBlen

theorem allocate_dims (L prodBlen : ℕ) (hL : 0 < L) (hd : prodBlen ∣ L) (junk : ℕ → Mat N) :
    Dims (allocate L prodBlen junk) := by
  obtain ⟨k, rfl⟩ := hd
  have hp : 0 < prodBlen := Nat.pos_of_mul_pos_right hL
  have hk : 0 < k := Nat.pos_of_mul_pos_left hL
  refine ⟨hp, ?_, ?_⟩ <;> simp only [allocate]
  · rwa [Nat.mul_div_cancel_left _ hp]
  · rw [Nat.mul_div_cancel_left _ hp, mul_comm]

theorem setProd_fresh (tsm : TSM N) (m : ℕ) (hp : 0 < tsm.prodBlen) (W0 : Mat N) :
    FreshAt (tsm.setProd (m * tsm.prodBlen) W0) m ∧
    (∀ k ≠ m, (tsm.setProd (m * tsm.prodBlen) W0).Bprod k = tsm.Bprod k) := by
  have hdiv : m * tsm.prodBlen / tsm.prodBlen = m := Nat.mul_div_cancel _ hp
  unfold FreshAt TSM.setProd
  simp only [hdiv]
  refine ⟨?_, fun k hk => Function.update_of_ne hk _ _⟩
  rw [Function.update_self, matrixProductSequence_spec _ hp]

theorem initWith_spec (mk mkInv : ℕ → Mat N) (W0 : Mat N) (tsm : TSM N) (hd : Dims tsm) :
    (∀ l < tsm.L, (initWith mk mkInv W0 tsm).B l = mk l ∧ (initWith mk mkInv W0 tsm).invB l = mkInv l)
    ∧ Fresh (initWith mk mkInv W0 tsm) ∧ Dims (initWith mk mkInv W0 tsm) ∧
    (initWith mk mkInv W0 tsm).L = tsm.L ∧ (initWith mk mkInv W0 tsm).prodBlen = tsm.prodBlen ∧
    (initWith mk mkInv W0 tsm).numBprod = tsm.numBprod := by
  -- first loop
  have h1 : ∀ k, let t := (List.range k).foldl (fun t l => TSM.setB t l (mk l) (mkInv l)) tsm
      (∀ l < k, t.B l = mk l ∧ t.invB l = mkInv l) ∧ t.L = tsm.L ∧ t.prodBlen = tsm.prodBlen ∧
      t.numBprod = tsm.numBprod := by
    intro k
    induction k with
    | zero => simp
    | succ k ih =>
      simp only [List.range_succ, List.foldl_append, List.foldl_cons, List.foldl_nil]
      obtain ⟨ih1, ih2⟩ := ih
      refine ⟨fun l hl => ?_, ih2⟩
      by_cases h : l = k
      · subst h; simp [TSM.setB]
      · simp only [TSM.setB, Function.update_of_ne h]
        exact ih1 l (by omega)
  obtain ⟨hB, hL, hp, hn⟩ := h1 tsm.L
  unfold initWith
  simp only
  set t1 := (List.range tsm.L).foldl (fun t l => TSM.setB t l (mk l) (mkInv l)) tsm with ht1
  have hp1 : 0 < t1.prodBlen := by rw [hp]; exact hd.len
  -- second loop
  have h2 : ∀ k, let t := (List.range k).foldl (fun t l => TSM.setProd t (l * t.prodBlen) W0) t1
      (t.B = t1.B ∧ t.invB = t1.invB ∧ t.L = t1.L ∧ t.prodBlen = t1.prodBlen ∧
        t.numBprod = t1.numBprod) ∧ ∀ m < k, FreshAt t m := by
    intro k
    induction k with
    | zero => simp
    | succ k ih =>
      simp only [List.range_succ, List.foldl_append, List.foldl_cons, List.foldl_nil]
      obtain ⟨ih1, ih2⟩ := ih
      set t := (List.range k).foldl (fun t l => TSM.setProd t (l * t.prodBlen) W0) t1
      refine ⟨ih1, fun m hm => ?_⟩
      have hpt : 0 < t.prodBlen := by rw [ih1.2.2.2.1]; exact hp1
      obtain ⟨hs1, hs2⟩ := setProd_fresh t k hpt W0
      by_cases h : m = k
      · subst h; exact hs1
      · unfold FreshAt
        rw [hs2 m h]
        exact ih2 m (by omega)
  obtain ⟨⟨hB2, hI2, hL2, hp2, hn2⟩, hF⟩ := h2 t1.numBprod
  set t2 := (List.range t1.numBprod).foldl (fun t l => TSM.setProd t (l * t.prodBlen) W0) t1
  refine ⟨fun l hl => ?_, fun m hm => hF m (by rwa [hn2] at hm), ⟨?_, ?_, ?_⟩, ?_, ?_, ?_⟩
  · rw [hB2, hI2]; exact hB l hl
  · rw [hp2]; exact hp1
  · rw [hn2, hn]; exact hd.num
  · rw [hL2, hn2, hp2, hL, hn, hp]; exact hd.mul
  · rw [hL2, hL]
  · rw [hp2, hp]
  · rw [hn2, hn]

/-- effect of an update of slice `l`: only the matrices of slice `l` change; if `l` is the last
slice of its block the block becomes fresh; other blocks stay fresh -/
theorem updateWith_spec (mk mkInv : ℕ → Mat N) (W0 : Mat N) (l : ℕ) (tsm : TSM N) (hp : 0 < tsm.prodBlen) :
    let t := updateWith mk mkInv W0 l tsm
    (t.B = Function.update tsm.B l (mk l)) ∧ (t.invB = Function.update tsm.invB l (mkInv l)) ∧
    (t.L = tsm.L ∧ t.prodBlen = tsm.prodBlen ∧ t.numBprod = tsm.numBprod) ∧
    (∀ m, m ≠ l / tsm.prodBlen → FreshAt tsm m → FreshAt t m) ∧
    (l % tsm.prodBlen = tsm.prodBlen - 1 → FreshAt t (l / tsm.prodBlen)) := by
  have hsl : l % tsm.prodBlen = tsm.prodBlen - 1 →
      l - (tsm.prodBlen - 1) = (l / tsm.prodBlen) * tsm.prodBlen := by
    intro h
    have := Nat.div_add_mod l tsm.prodBlen
    rw [h] at this
    rw [mul_comm]; omega
  have hblock : ∀ m, m ≠ l / tsm.prodBlen → ∀ i < tsm.prodBlen, m * tsm.prodBlen + i ≠ l := by
    intro m hm i hi h
    apply hm
    rw [← h, Nat.add_div_of_dvd_right (dvd_mul_left _ _), Nat.mul_div_cancel _ hp,
      Nat.div_eq_of_lt hi, add_zero]
  have hother : ∀ m, m ≠ l / tsm.prodBlen → FreshAt tsm m →
      tsm.Bprod m = prodSeq (fun i => Function.update tsm.B l (mk l) (m * tsm.prodBlen + i))
        tsm.prodBlen := by
    intro m hm hf
    rw [hf]
    exact prodSeq_congr fun i hi => by rw [Function.update_of_ne (hblock m hm i hi)]
  set t0 : TSM N := tsm.setB l (mk l) (mkInv l) with ht0
  by_cases h : l % tsm.prodBlen = tsm.prodBlen - 1
  · have e : updateWith mk mkInv W0 l tsm = t0.setProd (l / tsm.prodBlen * tsm.prodBlen) W0 := by
      rw [← hsl h]; exact if_pos h
    rw [e]
    obtain ⟨hs1, hs2⟩ := setProd_fresh t0 (l / tsm.prodBlen) hp W0
    refine ⟨rfl, rfl, ⟨rfl, rfl, rfl⟩, fun m hm hf => ?_, fun _ => hs1⟩
    unfold FreshAt
    exact (hs2 m hm).trans (hother m hm hf)
  · have e : updateWith mk mkInv W0 l tsm = t0 := if_neg h
    rw [e]
    exact ⟨rfl, rfl, ⟨rfl, rfl, rfl⟩, hother, fun h' => absurd h' h⟩

theorem mod_block {len num m i sh : ℕ} (hi : i < len) :
    ((m + sh) % num) * len + i = (sh * len + (m * len + i)) % (num * len) := by
  rw [show sh * len + (m * len + i) = i + len * (m + sh) by ring, mul_comm num len,
    Nat.mod_mul, Nat.add_mul_mod_self_left, Nat.mod_eq_of_lt hi, Nat.add_mul_div_left _ _ (by omega),
    Nat.div_eq_of_lt hi, zero_add]
  ring

/-- with fresh products, the product of the blocks is the product of all slices in cyclic order -/
theorem cyclic_of_fresh (tsm : TSM N) (hd : Dims tsm) (hf : Fresh tsm) (sh : ℕ) :
    prodSeq (fun l => tsm.Bprod ((l + sh) % tsm.numBprod)) tsm.numBprod
      = cyclicProd tsm.B tsm.L (sh * tsm.prodBlen) := by
  unfold cyclicProd
  rw [hd.mul, prodSeq_blocks]
  refine prodSeq_congr fun m hm => ?_
  rw [hf _ (Nat.mod_lt _ hd.num)]
  exact prodSeq_congr fun i hi => by rw [mod_block hi]

/-- C24 with fresh caches: the flow map is the product of all time step matrices starting at
`slice_shift` -/
theorem timeFlowMap_cyclic [NeZero N] (lp : Lapack N) (tsm : TSM N) (hd : Dims tsm) (hf : Fresh tsm)
    (shift : ℕ) (hs : tsm.prodBlen ∣ shift) :
    let f := timeFlowMap lp tsm shift
    (qMat f.Q f.tau)ᵀ * qMat f.Q f.tau = 1 ∧
    qMat f.Q f.tau * diagonal f.d * f.T = cyclicProd tsm.B tsm.L shift := by
  obtain ⟨h1, -, h3⟩ := timeFlowMap_spec lp tsm hd.num shift
  refine ⟨h1, ?_⟩
  rw [h3, cyclic_of_fresh tsm hd hf, Nat.div_mul_cancel hs]

/-- non-vacuity: matrices can be initialised so that the hypotheses hold -/
example (lp : Lapack 2) (mk mkInv : ℕ → Mat 2) :
    let tsm := initWith mk mkInv 0 (allocate 6 3 fun _ => 0)
    let f := timeFlowMap lp tsm 3
    qMat f.Q f.tau * diagonal f.d * f.T = mk 2 * (mk 1 * (mk 0 * (mk 5 * (mk 4 * (mk 3 * 1))))) := by
  have hd := allocate_dims (N := 2) 6 3 (by norm_num) (by norm_num) fun _ => 0
  obtain ⟨hB, hF, hD, hL, hp, -⟩ := initWith_spec mk mkInv 0 _ hd
  have h := (timeFlowMap_cyclic lp _ hD hF 3 (by rw [hp]; exact dvd_refl _)).2
  simp only at h ⊢
  have hb : ∀ l < 6, (initWith mk mkInv 0 (allocate 6 3 fun _ => (0 : Mat 2))).B l = mk l :=
    fun l hl => (hB l hl).1
  rw [h, hL, cyclicProd, show (allocate 6 3 fun _ => (0 : Mat 2)).L = 6 from rfl]
  generalize (initWith mk mkInv 0 (allocate 6 3 fun _ => (0 : Mat 2))).B = B at hb
  simp [prodSeq, hb]

end Verif.TimeFlow
