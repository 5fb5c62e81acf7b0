import Verif.Model.Greens
import Verif.Props.TimeFlow

/-! # Properties C26 to C29: equal time Green's functions -/

set_option autoImplicit false

namespace Verif.Greens

open Matrix Verif.Lapack Verif.TimeFlow

variable {N : ℕ}

/-! ## C26, C27 -/

/-- the number represented by a determinant record -/
noncomputable def DetRec.value (r : DetRec) : ℝ := r.sgndet * Real.exp r.logdet

theorem foldl_value (step : DetRec → Fin N → DetRec) (c : Fin N → ℝ)
    (h : ∀ r i, (step r i).value = r.value * c i)
    (hs : ∀ r i, (step r i).sgndet = r.sgndet ∨ (step r i).sgndet = -r.sgndet) (r : DetRec) :
    ((List.finRange N).foldl step r).value = r.value * ∏ i, c i ∧
    (((List.finRange N).foldl step r).sgndet = r.sgndet ∨
      ((List.finRange N).foldl step r).sgndet = -r.sgndet) := by
  rw [Fin.prod_univ_def]
  generalize List.finRange N = l
  induction l generalizing r with
  | nil => simp
  | cons i l ih =>
    rw [List.foldl_cons, List.map_cons, List.prod_cons, ← mul_assoc, ← h]
    refine ⟨(ih _).1, ?_⟩
    rcases (ih (step r i)).2 with h1 | h1 <;> rcases hs r i with h2 | h2 <;> rw [h1, h2] <;> simp

theorem value_log (r : DetRec) (t : ℝ) (ht : t ≠ 0) :
    (if t < 0 then ({ logdet := r.logdet - Real.log (-t), sgndet := -r.sgndet } : DetRec)
      else { logdet := r.logdet - Real.log t, sgndet := r.sgndet }).value = r.value * t⁻¹ := by
  unfold DetRec.value
  split
  · rename_i h
    simp only
    rw [Real.exp_sub, Real.exp_log (by linarith)]
    push_cast
    field_simp
  · rename_i h
    have : 0 < t := lt_of_le_of_ne (not_lt.1 h) (Ne.symm ht)
    simp only
    rw [Real.exp_sub, Real.exp_log this]
    field_simp

theorem detStepU_value (F : Mat N) (ipiv : Fin N → Fin N) (hF : ∀ i, F i i ≠ 0) (r : DetRec)
    (i : Fin N) :
    (detStepU F ipiv r i).value = r.value * ((F i i)⁻¹ * if ipiv i ≠ i then -1 else 1) := by
  have h := value_log r (F i i) (hF i)
  rw [← mul_assoc, ← h]
  unfold detStepU
  by_cases ht : F i i < 0 <;> by_cases hp : ipiv i ≠ i <;>
    simp [ht, hp, DetRec.value]

theorem detStepD_value (d : Fin N → ℝ) (r : DetRec) (i : Fin N) :
    (detStepD d r i).value = r.value * if |d i| > 1.0 then 1.0 / d i else 1.0 := by
  by_cases hd : |d i| ≤ 1.0
  · rw [if_neg (not_lt.2 hd)]
    simp only [detStepD, if_pos hd]
    norm_num
  · have hd' : |d i| > 1.0 := not_le.1 hd
    have hne : d i ≠ 0 := by
      intro h0
      rw [h0, abs_zero] at hd
      norm_num at hd
    have h := value_log r (d i) hne
    rw [if_pos hd', show (1.0 : ℝ) / d i = (d i)⁻¹ by norm_num, ← h]
    unfold detStepD
    by_cases ht : d i < 0 <;> simp [ht, hd, DetRec.value]

theorem detStepTau_value (tau : Fin N → ℝ) (r : DetRec) (i : Fin N) :
    (detStepTau tau r i).value = r.value * if 0 < tau i then -1 else 1 := by
  unfold detStepTau
  by_cases ht : 0 < tau i <;> simp [ht, DetRec.value]

/-- the splitting of the scales: `1 + Q D T = Q D_b (D_b^{-1} Q^T + D_s T)` -/
theorem split_scales (Q T : Mat N) (d : Fin N → ℝ) (hQ : Qᵀ * Q = 1) :
    let Db : Mat N := diagonal fun i => if |d i| > 1.0 then 1.0 / d i else 1.0
    let Ds : Mat N := Matrix.of fun i j => if |d i| ≤ 1.0 then d i * T i j else T i j
    ∃ Dbig : Mat N, Db * Dbig = 1 ∧ 1 + Q * diagonal d * T = Q * Dbig * (Ds + Db * Qᵀ) := by
  intro Db Ds
  refine ⟨diagonal fun i => if |d i| > 1.0 then d i else 1.0, ?_, ?_⟩
  · rw [diagonal_mul_diagonal, ← diagonal_one]
    congr 1; ext i
    split
    · rename_i h
      have hne : d i ≠ 0 := by intro h0; rw [h0, abs_zero] at h; norm_num at h
      field_simp; norm_num
    · norm_num
  · have h1 : (diagonal fun i => if |d i| > 1.0 then d i else 1.0) * Ds = diagonal d * T := by
      ext i j
      rw [diagonal_mul, diagonal_mul]
      simp only [Ds, of_apply]
      by_cases h : |d i| ≤ 1.0
      · rw [if_neg (not_lt.2 h), if_pos h]; norm_num
      · rw [if_pos (not_le.1 h), if_neg h]
    have h2 : (diagonal fun i => if |d i| > 1.0 then d i else 1.0) * Db = 1 := by
      rw [diagonal_mul_diagonal, ← diagonal_one]
      congr 1; ext i
      split
      · rename_i h
        have hne : d i ≠ 0 := by intro h0; rw [h0, abs_zero] at h; norm_num at h
        field_simp; norm_num
      · norm_num
    rw [Matrix.mul_add, Matrix.mul_assoc Q _ Ds, h1, Matrix.mul_assoc Q _ (Db * Qᵀ),
      ← Matrix.mul_assoc _ Db, h2, Matrix.one_mul, mul_eq_one_comm.1 hQ, ← Matrix.mul_assoc, add_comm]

/-- C26 and C27: if `1 + A` is invertible, `A` being the product of the cached matrices in cyclic
order, then `GreenConstruct` yields `(1 + A)⁻¹` and its determinant; otherwise it hits a zero pivot. -/
theorem greenConstruct_spec [NeZero N] (lp : Lapack N) (tsm : TSM N) (hn : 0 < tsm.numBprod)
    (shift : ℕ) (A : Mat N)
    (hA : A = prodSeq (fun l => tsm.Bprod ((l + shift / tsm.prodBlen) % tsm.numBprod)) tsm.numBprod) :
    ((1 + A).det ≠ 0 → ∃ g, greenConstruct lp tsm shift = some g ∧ g.mat = (1 + A)⁻¹ ∧
      g.sgndet * Real.exp g.logdet = (1 + A)⁻¹.det ∧ (g.sgndet = 1 ∨ g.sgndet = -1)) ∧
    ((1 + A).det = 0 → greenConstruct lp tsm shift = none) := by
  obtain ⟨hQ, htau, hQDT⟩ := timeFlowMap_spec lp tsm hn shift
  unfold greenConstruct
  simp only at hQ htau hQDT ⊢
  set f := timeFlowMap lp tsm shift with hf
  rw [← hA] at hQDT
  obtain ⟨Dbig, hDb, hsplit⟩ := split_scales (qMat f.Q f.tau) f.T f.d hQ
  rw [hQDT] at hsplit
  set Db : Mat N := diagonal fun i => if |f.d i| > 1.0 then 1.0 / f.d i else 1.0 with hDbdef
  set Ds : Mat N := Matrix.of fun i j => if |f.d i| ≤ 1.0 then f.d i * f.T i j else f.T i j
  set G0 := Db * (qMat f.Q f.tau)ᵀ with hG0
  have hlu := lp.lu.spec (Ds + G0)
  set F := (lp.lu.run (Ds + G0)).1 with hF
  set ipiv := (lp.lu.run (Ds + G0)).2 with hipiv
  have hdetT := det_lu F ipiv _ hlu
  -- determinants
  have hG0inv : G0 * (qMat f.Q f.tau * Dbig) = 1 := by
    rw [hG0, Matrix.mul_assoc, ← Matrix.mul_assoc _ (qMat _ _), hQ, Matrix.one_mul, hDb]
  have hdetG0 : G0.det * (qMat f.Q f.tau * Dbig).det = 1 := by
    rw [← det_mul, hG0inv, det_one]
  have hdet1 : (1 + A).det = (qMat f.Q f.tau * Dbig).det * (Ds + G0).det := by
    rw [← det_mul, ← hsplit]
  have hpiv : (∏ i, if ipiv i ≠ i then (-1 : ℝ) else 1) ≠ 0 := by
    rw [Finset.prod_ne_zero_iff]; intro i _; split <;> norm_num
  have hzero : (1 + A).det = 0 ↔ ∃ i, F i i = 0 := by
    rw [hdet1, hdetT, mul_eq_zero, or_iff_right (right_ne_zero_of_mul_eq_one hdetG0),
      mul_eq_zero, or_iff_right hpiv, Finset.prod_eq_zero_iff]
    simp
  constructor
  · intro hne
    have hdiag : ∀ i, F i i ≠ 0 := by
      intro i hi; exact hne (hzero.2 ⟨i, hi⟩)
    rw [if_neg (by rintro ⟨i, hi⟩; exact hdiag i hi)]
    have hinv : (Ds + G0)⁻¹ * G0 = (1 + A)⁻¹ := by
      rw [hsplit, Matrix.mul_inv_rev, inv_eq_left_inv hG0inv]
    refine ⟨_, rfl, ?_, ?_, ?_⟩
    · simp only
      rw [dgetrs_eq F ipiv (Ds + G0) G0 hlu, hinv]
    · obtain ⟨v1, -⟩ := foldl_value (detStepU F ipiv) _ (detStepU_value F ipiv hdiag)
        (fun r i => by unfold detStepU; simp only; split <;> split <;> simp)
        { logdet := 0.0, sgndet := 1 }
      obtain ⟨v2, -⟩ := foldl_value (detStepD f.d) _ (detStepD_value f.d)
        (fun r i => by unfold detStepD; simp only; split <;> [skip; split] <;> simp)
        ((List.finRange N).foldl (detStepU F ipiv) { logdet := 0.0, sgndet := 1 })
      obtain ⟨v3, -⟩ := foldl_value (detStepTau f.tau) _ (detStepTau_value f.tau)
        (fun r i => by unfold detStepTau; split <;> simp)
        ((List.finRange N).foldl (detStepD f.d)
          ((List.finRange N).foldl (detStepU F ipiv) { logdet := 0.0, sgndet := 1 }))
      have v0 : ({ logdet := 0.0, sgndet := 1 } : DetRec).value = 1 := by
        simp only [DetRec.value]; norm_num
      rw [v2, v1, v0] at v3
      change DetRec.value _ = _
      rw [v3, ← hinv, det_mul, det_nonsing_inv, Ring.inverse_eq_inv', hdetT, hG0, det_mul,
        det_transpose, det_qMat htau, hDbdef, det_diagonal, Finset.prod_mul_distrib, mul_inv,
        Finset.prod_inv_distrib]
      have hp2 : (∏ i, if ipiv i ≠ i then (-1 : ℝ) else 1)⁻¹ = ∏ i, if ipiv i ≠ i then (-1 : ℝ) else 1 := by
        rw [← Finset.prod_inv_distrib]
        refine Finset.prod_congr rfl fun i _ => ?_
        split <;> norm_num
      rw [hp2]; ring
    · have s1 := (foldl_value (detStepU F ipiv) _ (detStepU_value F ipiv hdiag)
        (fun r i => by unfold detStepU; simp only; split <;> split <;> simp)
        { logdet := 0.0, sgndet := 1 }).2
      have s2 := (foldl_value (detStepD f.d) _ (detStepD_value f.d)
        (fun r i => by unfold detStepD; simp only; split <;> [skip; split] <;> simp)
        ((List.finRange N).foldl (detStepU F ipiv) { logdet := 0.0, sgndet := 1 })).2
      have s3 := (foldl_value (detStepTau f.tau) _ (detStepTau_value f.tau)
        (fun r i => by unfold detStepTau; split <;> simp)
        ((List.finRange N).foldl (detStepD f.d)
          ((List.finRange N).foldl (detStepU F ipiv) { logdet := 0.0, sgndet := 1 }))).2
      simp only
      rcases s3 with h3 | h3 <;> rcases s2 with h2 | h2 <;> rcases s1 with h1 | h1 <;>
        rw [h3, h2, h1] <;> simp
  · intro h0
    rw [if_pos (hzero.1 h0)]

/-- C26 and C27 with fresh caches: `A` is the product of all time step matrices starting at slice
`shift`. -/
theorem greenConstruct_cyclic [NeZero N] (lp : Lapack N) (tsm : TSM N) (hd : Dims tsm)
    (hf : Fresh tsm) (shift : ℕ) (hs : tsm.prodBlen ∣ shift)
    (hne : (1 + cyclicProd tsm.B tsm.L shift).det ≠ 0) :
    ∃ g, greenConstruct lp tsm shift = some g ∧ g.mat = (1 + cyclicProd tsm.B tsm.L shift)⁻¹ ∧
      g.sgndet * Real.exp g.logdet = (1 + cyclicProd tsm.B tsm.L shift)⁻¹.det ∧
      (g.sgndet = 1 ∨ g.sgndet = -1) :=
  (greenConstruct_spec lp tsm hd.num shift _ (by
    rw [cyclic_of_fresh tsm hd hf, Nat.div_mul_cancel hs])).1 hne

/-- the sign and the logarithm are determined by the determinant -/
theorem det_record_unique {s : ℤ} {x d : ℝ} (h : s * Real.exp x = d) (hs : s = 1 ∨ s = -1) :
    x = Real.log |d| ∧ ((s : ℝ) = SignType.sign d) := by
  have he := Real.exp_pos x
  rcases hs with rfl | rfl
  · have hd : d = Real.exp x := by rw [← h]; simp
    subst hd
    rw [abs_of_pos he, Real.log_exp, sign_pos he]; simp
  · have hd : d = -Real.exp x := by rw [← h]; simp
    subst hd
    rw [abs_neg, abs_of_pos he, Real.log_exp, sign_neg (by linarith)]; simp

/-! ## C28 -/

/-- multiply row `i` by `1 + delta` -/
def scaleRow (i : Fin N) (delta : ℝ) (A : Mat N) : Mat N :=
  Matrix.of fun a b => if a = i then (1 + delta) * A a b else A a b

theorem scaleRow_eq (i : Fin N) (delta : ℝ) (A : Mat N) :
    1 + scaleRow i delta A
      = (1 + A) + replicateCol Unit (delta • (Pi.single i (1 : ℝ) : Fin N → ℝ)) * replicateRow Unit (A i) := by
  rw [← vecMulVec_eq]
  ext a b
  simp only [scaleRow, Matrix.add_apply, of_apply, vecMulVec_apply, Pi.smul_apply, smul_eq_mul,
    Pi.single_apply]
  split
  · rename_i h; subst h; ring
  · ring

/-- C28, determinant: the ratio is `1 + (1 - G_ii) delta` -/
theorem det_ratio (A : Mat N) (h : (1 + A).det ≠ 0) (i : Fin N) (delta : ℝ) :
    (1 + scaleRow i delta A).det = (1 + (1 - (1 + A)⁻¹ i i) * delta) * (1 + A).det := by
  have hu : IsUnit (1 + A).det := IsUnit.mk0 _ h
  have hAG : A * (1 + A)⁻¹ = 1 - (1 + A)⁻¹ := by
    rw [eq_sub_iff_add_eq]
    have := Matrix.mul_nonsing_inv (1 + A) hu
    rwa [add_mul, Matrix.one_mul, add_comm] at this
  rw [scaleRow_eq, det_add_replicateCol_mul_replicateRow hu]
  have e : (1 + replicateRow Unit (A i) * (1 + A)⁻¹
      * replicateCol Unit (delta • (Pi.single i (1 : ℝ) : Fin N → ℝ)) : Matrix Unit Unit ℝ).det = 1 + (1 - (1 + A)⁻¹ i i) * delta := by
    rw [det_unique]
    have : (replicateRow Unit (A i) * (1 + A)⁻¹) default i = (A * (1 + A)⁻¹) i i := by
      simp [mul_apply]
    simp only [Matrix.add_apply, one_apply_eq]
    rw [mul_apply]
    simp only [replicateCol_apply, Pi.smul_apply, Pi.single_apply, smul_eq_mul, mul_ite, mul_one,
      mul_zero, Finset.sum_ite_eq', Finset.mem_univ, if_true]
    rw [this, hAG]
    simp [Matrix.sub_apply]
  rw [e, mul_comm]

/-- C28: the update turns `(1 + A)⁻¹` into the inverse for the changed row -/
theorem shermanMorrison_spec (A : Mat N) (h : (1 + A).det ≠ 0) (i : Fin N) (delta : ℝ)
    (hr : 1 + (1 - (1 + A)⁻¹ i i) * delta ≠ 0) :
    shermanMorrison delta i (1 + A)⁻¹ = (1 + scaleRow i delta A)⁻¹ := by
  have hu : IsUnit (1 + A).det := IsUnit.mk0 _ h
  set G := (1 + A)⁻¹ with hG
  have hMG : (1 + A) * G = 1 := Matrix.mul_nonsing_inv _ hu
  have hAG : A * G = 1 - G := by
    rw [eq_sub_iff_add_eq]
    rwa [add_mul, Matrix.one_mul, add_comm] at hMG
  set c : Fin N → ℝ := fun j => if j = i then G i j - 1.0 else G i j with hc
  set k : ℝ := delta / (1.0 - delta * c i) with hk
  have hci : c i = G i i - 1 := by simp only [hc, if_true]; norm_num
  have hden : 1.0 - delta * c i ≠ 0 := by
    rw [hci]; intro h0; apply hr; norm_num at h0; linarith
  have hkd : k * (1 - delta * c i) = delta := by
    rw [hk]; norm_num at hden ⊢; exact div_mul_cancel₀ _ hden
  have hrow : ∀ b, (A * G) i b = - c b := by
    intro b
    rw [hAG, Matrix.sub_apply, one_apply]
    by_cases hb : b = i
    · subst hb; rw [hci]; simp
    · rw [if_neg (Ne.symm hb)]; simp only [hc, if_neg hb]; ring
  have hSM : shermanMorrison delta i G = G + k • vecMulVec (fun a => G a i) c := by
    ext a b
    simp only [shermanMorrison, of_apply, Matrix.add_apply, Matrix.smul_apply, vecMulVec_apply,
      smul_eq_mul, hk, hc]
    ring
  symm
  apply inv_eq_right_inv
  rw [scaleRow_eq, ← vecMulVec_eq, hSM]
  -- the four products
  have p2 : (1 + A) * vecMulVec (fun a => G a i) c = vecMulVec (Pi.single i 1) c := by
    ext a b
    have := congrFun (congrFun hMG a) i
    rw [mul_apply] at this ⊢
    simp only [vecMulVec_apply, ← mul_assoc, ← Finset.sum_mul]
    rw [this, one_apply, Pi.single_apply]
  have p3 : vecMulVec (delta • Pi.single i (1 : ℝ)) (A i) * G
      = -delta • vecMulVec (Pi.single i (1 : ℝ)) c := by
    ext a b
    have := hrow b
    rw [mul_apply] at this ⊢
    simp only [vecMulVec_apply, mul_assoc, ← Finset.mul_sum, this, Matrix.smul_apply, Pi.smul_apply,
      smul_eq_mul]
    ring
  have p4 : vecMulVec (delta • Pi.single i (1 : ℝ)) (A i) * vecMulVec (fun a => G a i) c
      = (-(delta * c i)) • vecMulVec (Pi.single i (1 : ℝ)) c := by
    ext a b
    have := hrow i
    rw [mul_apply] at this ⊢
    simp only [vecMulVec_apply, Matrix.smul_apply, Pi.smul_apply, smul_eq_mul]
    have e : ∀ x, delta * (Pi.single i (1 : ℝ) : Fin N → ℝ) a * A i x * (G x i * c b)
        = delta * (Pi.single i (1 : ℝ) : Fin N → ℝ) a * c b * (A i x * G x i) := fun x => by ring
    rw [Finset.sum_congr rfl fun x _ => e x, ← Finset.mul_sum, this]
    ring
  rw [add_mul, mul_add, mul_add, hMG, mul_smul_comm, mul_smul_comm, p2, p3, p4, smul_smul,
    add_assoc, ← add_smul, ← add_smul]
  have : k + (-delta + k * -(delta * c i)) = 0 := by linear_combination hkd
  rw [this, zero_smul, add_zero]

/-- non-vacuity of C28: scaling a row of a 2×2 matrix -/
example : ∃ A : Mat 2, (1 + A).det ≠ 0 ∧ 1 + (1 - (1 + A)⁻¹ 0 0) * 3 ≠ 0 := by
  refine ⟨1, ?_, ?_⟩
  · rw [← two_smul ℝ (1 : Mat 2), det_smul]; norm_num
  · have : (1 + (1 : Mat 2))⁻¹ = (1 / 2 : ℝ) • 1 := by
      apply inv_eq_right_inv
      rw [← two_smul ℝ (1 : Mat 2), smul_mul_smul_comm]; norm_num
    rw [this]; norm_num

/-! ## C29 -/

theorem cyclicProd_mod (B : ℕ → Mat N) (L shift : ℕ) :
    cyclicProd B L (shift % L) = cyclicProd B L shift :=
  prodSeq_congr fun l _ => by rw [Nat.mod_add_mod]

/-- moving the first factor of the product to the other end -/
theorem cyclicProd_succ (B : ℕ → Mat N) (L l : ℕ) :
    cyclicProd B L (l + 1) * B (l % L) = B (l % L) * cyclicProd B L l := by
  cases L with
  | zero => simp [cyclicProd, prodSeq]
  | succ L =>
    have e1 : cyclicProd B (L + 1) l
        = prodSeq (fun i => B ((l + 1 + i) % (L + 1))) L * B (l % (L + 1)) := by
      unfold cyclicProd
      rw [prodSeq_succ']
      simp only [add_zero]
      congr 1
      exact prodSeq_congr fun i _ => by rw [show l + (i + 1) = l + 1 + i by ring]
    have e2 : cyclicProd B (L + 1) (l + 1)
        = B (l % (L + 1)) * prodSeq (fun i => B ((l + 1 + i) % (L + 1))) L := by
      unfold cyclicProd
      rw [prodSeq]
      rw [show l + 1 + L = l + (L + 1) by ring, Nat.add_mod_right]
    rw [e1, e2, Matrix.mul_assoc]

theorem wrap_conj (A A' B invB : Mat N) (hB : B * invB = 1) (h : A' * B = B * A) :
    timeSliceWrap B invB (1 + A)⁻¹ = (1 + A')⁻¹ ∧ (1 + A').det = (1 + A).det := by
  have hinv : invB = B⁻¹ := (inv_eq_right_inv hB).symm
  have hB' : invB * B = 1 := mul_eq_one_comm.1 hB
  have hA' : 1 + A' = B * (1 + A) * invB := by
    have : A' = B * A * invB := by rw [← h, Matrix.mul_assoc, hB, Matrix.mul_one]
    rw [Matrix.mul_add, Matrix.mul_one, Matrix.add_mul, hB, ← this]
  have hBinv : invB⁻¹ = B := inv_eq_right_inv hB'
  constructor
  · rw [hA', timeSliceWrap, Matrix.mul_inv_rev, Matrix.mul_inv_rev, hBinv, ← hinv, Matrix.mul_assoc]
  · rw [hA', det_mul, det_mul, mul_comm B.det, mul_assoc, ← det_mul, hB, det_one, mul_one]

/-- C29: wrapping with the matrices of slice `l` turns the Green's function of the product starting
at slice `l` into the one starting at slice `l+1` (modulo `L`), without changing the determinant. -/
theorem timeSliceWrap_spec (B invB : ℕ → Mat N) (L l : ℕ) (hl : l < L) (hB : B l * invB l = 1) :
    timeSliceWrap (B l) (invB l) (1 + cyclicProd B L l)⁻¹ = (1 + cyclicProd B L ((l + 1) % L))⁻¹ ∧
    (1 + cyclicProd B L ((l + 1) % L)).det = (1 + cyclicProd B L l).det := by
  have h := cyclicProd_succ B L l
  rw [Nat.mod_eq_of_lt hl] at h
  rw [cyclicProd_mod]
  exact wrap_conj _ _ _ _ hB h

/-- non-vacuity of C29: the product depends on the starting slice -/
example : cyclicProd (fun l => if l = 0 then !![1, 1; 0, 1] else (!![1, 0; 1, 1] : Mat 2)) 2 0
    ≠ cyclicProd (fun l => if l = 0 then !![1, 1; 0, 1] else (!![1, 0; 1, 1] : Mat 2)) 2 1 := by
  intro h
  have := congrFun (congrFun h 0) 0
  simp [cyclicProd, prodSeq] at this

end Verif.Greens
