import Verif.Lemmas.Lapack
import Mathlib.Tactic.FieldSimp
import Mathlib.Data.Fin.Tuple.Basic

/-! # The LAPACK contracts can be satisfied: Householder QR and pivoted LU exist -/

set_option autoImplicit false

namespace Verif.Lapack

open Matrix

variable {m n : ℕ}

/-! ## QR -/

/-- one Householder vector -/
theorem householder (x : Fin m → ℝ) (k : Fin m) (hx : ∃ r, k < r ∧ x r ≠ 0) :
    ∃ (v : Fin m → ℝ) (tau : ℝ), (∀ r < k, v r = 0) ∧ v k = 1 ∧ tau * (v ⬝ᵥ v) = 2 ∧
      (∀ r, k < r → x r - tau * (v ⬝ᵥ x) * v r = 0) ∧ ∀ r, |v r| ≤ 1 := by
  obtain ⟨r0, hr0, hxr0⟩ := hx
  set S : ℝ := ∑ r ∈ Finset.univ.filter (fun r => k < r), x r ^ 2 with hS
  have hSpos : 0 < S := by
    apply lt_of_lt_of_le (pow_pos (abs_pos.2 hxr0) 2)
    rw [sq_abs]
    exact Finset.single_le_sum (f := fun r => x r ^ 2) (fun r _ => sq_nonneg _)
      (Finset.mem_filter.2 ⟨Finset.mem_univ _, hr0⟩)
  obtain ⟨β, hβ2, hβx⟩ : ∃ β : ℝ, β ^ 2 = x k ^ 2 + S ∧ x k * β ≤ 0 := by
    have hs : Real.sqrt (x k ^ 2 + S) ^ 2 = x k ^ 2 + S := Real.sq_sqrt (by positivity)
    have hp := Real.sqrt_nonneg (x k ^ 2 + S)
    rcases le_total 0 (x k) with h | h
    · exact ⟨-Real.sqrt (x k ^ 2 + S), by rw [neg_sq, hs], by rw [mul_neg]; exact neg_nonpos.2 (mul_nonneg h hp)⟩
    · exact ⟨Real.sqrt (x k ^ 2 + S), hs, mul_nonpos_of_nonpos_of_nonneg h hp⟩
  have hβ0 : β ≠ 0 := by
    rintro rfl
    nlinarith [sq_nonneg (x k)]
  have hne : x k - β ≠ 0 := by
    intro h
    have : x k = β := by linarith
    rw [← this] at hβ2; linarith
  have hne' : β - x k ≠ 0 := fun h => hne (by linarith)
  set v : Fin m → ℝ := fun r => if r < k then 0 else if r = k then 1 else x r / (x k - β) with hv
  -- sums over the rows split at k
  have hsplit : ∀ f : Fin m → ℝ, (∀ r < k, f r = 0) →
      ∑ r, f r = f k + ∑ r ∈ Finset.univ.filter (fun r => k < r), f r := by
    intro f hf
    rw [← Finset.sum_filter_add_sum_filter_not Finset.univ (fun r => k < r), add_comm]
    congr 1
    apply Finset.sum_eq_single_of_mem k (by simp)
    intro b hb hbk
    apply hf
    simp only [Finset.mem_filter, Finset.mem_univ, true_and, not_lt] at hb
    exact lt_of_le_of_ne hb hbk
  have hvk : v k = 1 := by simp [hv]
  have hvlt : ∀ r < k, v r = 0 := fun r hr => by simp [hv, hr]
  have hvgt : ∀ r, k < r → v r = x r / (x k - β) := fun r hr => by
    simp [hv, hr.not_gt, hr.ne']
  have hvv : v ⬝ᵥ v = 1 + S / (x k - β) ^ 2 := by
    unfold dotProduct
    rw [hsplit _ (fun r hr => by rw [hvlt r hr, zero_mul]), hvk, mul_one, hS, Finset.sum_div]
    congr 1
    refine Finset.sum_congr rfl fun r hr => ?_
    rw [hvgt r (Finset.mem_filter.1 hr).2]
    field_simp
  have hvx : v ⬝ᵥ x = x k + S / (x k - β) := by
    unfold dotProduct
    rw [hsplit _ (fun r hr => by rw [hvlt r hr, zero_mul]), hvk, one_mul, hS, Finset.sum_div]
    congr 1
    refine Finset.sum_congr rfl fun r hr => ?_
    rw [hvgt r (Finset.mem_filter.1 hr).2]
    field_simp
  have hvx' : v ⬝ᵥ x = -β := by
    rw [hvx, show S = β ^ 2 - x k ^ 2 by linarith]
    field_simp
    ring
  refine ⟨v, (β - x k) / β, hvlt, hvk, ?_, ?_, ?_⟩
  · rw [hvv, show S = β ^ 2 - x k ^ 2 by linarith]
    field_simp
    ring
  · intro r hr
    rw [hvx', hvgt r hr]
    field_simp
    ring
  · intro r
    rcases lt_trichotomy r k with h | h | h
    · rw [hvlt r h, abs_zero]
      exact zero_le_one
    · rw [h, hvk, abs_one]
    · rw [hvgt r h, abs_div, div_le_one (abs_pos.2 hne), ← sq_le_sq]
      have : x r ^ 2 ≤ S := Finset.single_le_sum (f := fun r => x r ^ 2) (fun r _ => sq_nonneg _)
        (Finset.mem_filter.2 ⟨Finset.mem_univ _, h⟩)
      nlinarith [sq_nonneg (x k)]

/-- elementary reflector of an explicit vector -/
def refl (v : Fin m → ℝ) (tau : ℝ) : Matrix (Fin m) (Fin m) ℝ := 1 - tau • vecMulVec v v

theorem refl_mul_self (v : Fin m → ℝ) (tau : ℝ) (h : tau = 0 ∨ tau * (v ⬝ᵥ v) = 2) :
    refl v tau * refl v tau = 1 := by
  unfold refl
  rw [sub_mul, mul_sub, mul_sub, one_mul, one_mul, mul_one, smul_mul_smul_comm, vecMulVec_mul_self,
    smul_smul]
  rcases h with h0 | h2
  · rw [h0]; simp
  · have : tau * tau * (v ⬝ᵥ v) = 2 * tau := by rw [mul_assoc, h2]; ring
    rw [this]; module

theorem refl_mul_apply (v : Fin m → ℝ) (tau : ℝ) (R : Matrix (Fin m) (Fin n) ℝ) (r : Fin m)
    (c : Fin n) : (refl v tau * R) r c = R r c - tau * (v ⬝ᵥ fun r => R r c) * v r := by
  unfold refl
  rw [Matrix.sub_mul, Matrix.one_mul, Matrix.sub_apply, Matrix.smul_mul, Matrix.smul_apply, mul_apply, dotProduct,
    smul_eq_mul]
  simp only [vecMulVec_apply, mul_assoc, ← Finset.mul_sum]
  ring

/-- a decomposition with bounded vectors, as computed by LAPACK -/
theorem qr_exists_bounded (A : Matrix (Fin m) (Fin n) ℝ) :
    ∃ F tau, IsQR A F tau ∧ ∀ (i : Fin n) (r : Fin m), i.val < r.val → |F r i| ≤ 1 := by
  have main : ∀ k ≤ n, ∃ (V : Fin n → Fin m → ℝ) (tau : Fin n → ℝ) (R : Matrix (Fin m) (Fin n) ℝ),
      (∀ i r, r.val < i.val → V i r = 0) ∧ (∀ i r, r.val = i.val → V i r = 1) ∧
      (∀ i, (tau i = 0 ∨ tau i * (V i ⬝ᵥ V i) = 2) ∧ ∀ r, |V i r| ≤ 1) ∧
      (∀ (c : Fin n) (r : Fin m), c.val < k → c.val < r.val → R r c = 0) ∧
      A = (((List.finRange n).take k).map fun i => refl (V i) (tau i)).prod * R := by
    intro k hk
    induction k with
    | zero =>
      refine ⟨fun i r => if r.val = i.val then 1 else 0, fun _ => 0, A, ?_, ?_, ?_, ?_, ?_⟩
      · intro i r h; simp [h.ne]
      · intro i r h; simp [h]
      · intro i
        refine ⟨Or.inl rfl, fun r => ?_⟩
        beta_reduce
        split <;> simp
      · intro c r h; omega
      · simp
    | succ k ih =>
      obtain ⟨V, tau, R, h0, h1, h2, h3, h4⟩ := ih (by omega)
      have hlen : k < (List.finRange n).length := by simpa using hk
      set kk : Fin n := ⟨k, hk⟩ with hkk
      have hget : (List.finRange n)[k] = kk := by simp [hkk]
      have hmem : ∀ i ∈ (List.finRange n).take k, i ≠ kk := by
        intro i hi h
        rw [List.mem_take_iff_getElem] at hi
        obtain ⟨j, hj, hij⟩ := hi
        have : i.val = j := by rw [← hij]; simp
        rw [h] at this
        simp [hkk] at this
        omega
      -- a new reflector
      obtain ⟨v, t, hv0, hv1, ht, hz⟩ : ∃ (v : Fin m → ℝ) (t : ℝ), (∀ r, r.val < k → v r = 0) ∧
          (∀ r, r.val = k → v r = 1) ∧ ((t = 0 ∨ t * (v ⬝ᵥ v) = 2) ∧ ∀ r, |v r| ≤ 1) ∧
          ∀ r, k < r.val → R r kk - t * (v ⬝ᵥ fun r => R r kk) * v r = 0 := by
        by_cases hx : ∃ r : Fin m, k < r.val ∧ R r kk ≠ 0
        · obtain ⟨r, hr, hne⟩ := hx
          obtain ⟨v, t, a1, a2, a3, a4, a5⟩ := householder (fun r => R r kk) ⟨k, by omega⟩
            ⟨r, Fin.lt_def.2 hr, hne⟩
          exact ⟨v, t, fun r hr => a1 r (Fin.lt_def.2 hr), fun r hr => by
            rw [← a2]; congr 1; exact Fin.ext hr, ⟨Or.inr a3, a5⟩, fun r hr => a4 r (Fin.lt_def.2 hr)⟩
        · push Not at hx
          refine ⟨fun r => if r.val = k then 1 else 0, 0, fun r h => by simp [h.ne],
            fun r h => by simp [h], ⟨Or.inl rfl, fun r => by beta_reduce; split <;> simp⟩, fun r hr => by rw [hx r hr]; simp⟩
      refine ⟨Function.update V kk v, Function.update tau kk t, refl v t * R, ?_, ?_, ?_, ?_, ?_⟩
      · intro i r hr
        by_cases hi : i = kk
        · subst hi; rw [Function.update_self]; exact hv0 r hr
        · rw [Function.update_of_ne hi]; exact h0 i r hr
      · intro i r hr
        by_cases hi : i = kk
        · subst hi; rw [Function.update_self]; exact hv1 r hr
        · rw [Function.update_of_ne hi]; exact h1 i r hr
      · intro i
        by_cases hi : i = kk
        · subst hi; rw [Function.update_self, Function.update_self]; exact ht
        · rw [Function.update_of_ne hi, Function.update_of_ne hi]; exact h2 i
      · intro c r hc hr
        rw [refl_mul_apply]
        by_cases hck : c = kk
        · subst hck; exact hz r hr
        · have hck' : c.val < k := by
            have : c.val ≠ k := fun h => hck (Fin.ext h)
            omega
          rw [h3 c r hck' hr]
          have : (v ⬝ᵥ fun r => R r c) = 0 := by
            unfold dotProduct
            refine Finset.sum_eq_zero fun s _ => ?_
            by_cases hs : s.val < k
            · rw [hv0 s hs, zero_mul]
            · simp only [h3 c s hck' (by omega), mul_zero]
          rw [this]; ring
      · rw [← List.take_concat_get' _ _ hlen, List.map_append, List.prod_append, hget]
        simp only [List.map_cons, List.map_nil, List.prod_cons, List.prod_nil, mul_one,
          Function.update_self]
        have hcongr : ((List.finRange n).take k).map
            (fun i => refl (Function.update V kk v i) (Function.update tau kk t i))
            = ((List.finRange n).take k).map fun i => refl (V i) (tau i) := by
          refine List.map_congr_left fun i hi => ?_
          rw [Function.update_of_ne (hmem i hi), Function.update_of_ne (hmem i hi)]
        rw [hcongr, Matrix.mul_assoc, ← Matrix.mul_assoc (refl v t), refl_mul_self v t ht.1,
          Matrix.one_mul]
        exact h4
  obtain ⟨V, tau, R, h0, h1, h2, h3, h4⟩ := main n le_rfl
  rw [List.take_of_length_le (by simp)] at h4
  set F : Matrix (Fin m) (Fin n) ℝ := Matrix.of fun r c => if r.val ≤ c.val then R r c else V c r
    with hF
  have hv : ∀ i, houseVec F i = V i := by
    intro i; ext r
    unfold houseVec
    by_cases ha : r.val < i.val
    · rw [if_pos ha, h0 i r ha]
    · rw [if_neg ha]
      by_cases hb : r.val = i.val
      · rw [if_pos hb, h1 i r hb]
      · rw [if_neg hb, hF, of_apply, if_neg (by omega)]
  refine ⟨F, tau, ⟨fun i => by rw [hv]; exact (h2 i).1, ?_⟩, fun i r hr => by
    rw [hF, of_apply, if_neg (by omega)]; exact (h2 i).2 r⟩
  have hq : qMat F tau = ((List.finRange n).map fun i => refl (V i) (tau i)).prod := by
    unfold qMat reflector refl
    simp only [hv]
  have hu : upper F = R := by
    ext r c
    simp only [upper, of_apply, hF]
    by_cases h : r.val ≤ c.val
    · rw [if_pos h, if_pos h]
    · rw [if_neg h, h3 c r c.2 (by omega)]
  rw [hq, hu]
  exact h4

theorem qr_exists (A : Matrix (Fin m) (Fin n) ℝ) : ∃ F tau, IsQR A F tau := by
  obtain ⟨F, tau, h, -⟩ := qr_exists_bounded A
  exact ⟨F, tau, h⟩

/-- a `dgeqrf` exists -/
theorem qrAlg_exists (m n : ℕ) : Nonempty (QRAlg m n) := by
  choose F tau h using fun A : Matrix (Fin m) (Fin n) ℝ => qr_exists A
  exact ⟨⟨fun A => (F A, tau A), h⟩⟩

/-- a `dgeqp3` exists -/
theorem qrpAlg_exists (n : ℕ) : Nonempty (QRPAlg n) := by
  obtain ⟨q⟩ := qrAlg_exists n n
  exact ⟨⟨fun A => ((q.run A).1, (q.run A).2, 1), fun A => q.spec A⟩⟩

/-! ## LU -/

/-- block diagonal matrix with a leading 1 -/
def embed (M : Mat n) : Mat (n + 1) :=
  Matrix.of fun i j => Fin.cases (if j = 0 then 1 else 0) (fun i' => Fin.cases 0 (fun j' => M i' j') j) i

@[simp] theorem embed_zero_zero (M : Mat n) : embed M 0 0 = 1 := rfl
@[simp] theorem embed_zero_succ (M : Mat n) (j : Fin n) : embed M 0 j.succ = 0 := by simp [embed]
@[simp] theorem embed_succ_zero (M : Mat n) (i : Fin n) : embed M i.succ 0 = 0 := rfl
@[simp] theorem embed_succ_succ (M : Mat n) (i j : Fin n) : embed M i.succ j.succ = M i j := rfl

theorem embed_mul (M M' : Mat n) : embed (M * M') = embed M * embed M' := by
  ext i j
  rw [mul_apply, Fin.sum_univ_succ]
  refine Fin.cases ?_ (fun i => ?_) i <;> refine Fin.cases ?_ (fun j => ?_) j <;> simp [mul_apply]

theorem embed_one : embed (1 : Mat n) = 1 := by
  ext i j
  refine Fin.cases ?_ (fun i => ?_) i <;> refine Fin.cases ?_ (fun j => ?_) j <;>
    simp [one_apply, Fin.succ_ne_zero, (Fin.succ_ne_zero _).symm]

theorem embed_swap (i j : Fin n) :
    embed ((Equiv.swap i j).permMatrix ℝ) = (Equiv.swap i.succ j.succ).permMatrix ℝ := by
  have hs : ∀ a : Fin n, Equiv.swap i.succ j.succ a.succ = (Equiv.swap i j a).succ := by
    intro a
    rw [Equiv.swap_apply_def, Equiv.swap_apply_def]
    simp only [Fin.succ_inj]
    split
    · rfl
    · split <;> rfl
  have h0 : Equiv.swap i.succ j.succ 0 = 0 :=
    Equiv.swap_apply_of_ne_of_ne (Fin.succ_ne_zero _).symm (Fin.succ_ne_zero _).symm
  ext a b
  refine Fin.cases ?_ (fun a => ?_) a <;> refine Fin.cases ?_ (fun b => ?_) b <;>
    simp [Equiv.Perm.permMatrix, PEquiv.toMatrix_apply, hs, h0, Fin.succ_ne_zero,
      (Fin.succ_ne_zero _).symm]

theorem embed_list_prod {ι : Type} (H : ι → Mat n) (l : List ι) :
    embed ((l.map H).prod) = (l.map fun i => embed (H i)).prod := by
  induction l with
  | nil => simp [embed_one]
  | cons i l ih => rw [List.map_cons, List.prod_cons, embed_mul, ih, List.map_cons, List.prod_cons]

theorem pivMat_succ (p : Fin (n + 1)) (ipiv : Fin n → Fin n) :
    pivMat (Fin.cons p fun i => (ipiv i).succ : Fin (n + 1) → Fin (n + 1))
      = (Equiv.swap 0 p).permMatrix ℝ * embed (pivMat ipiv) := by
  unfold pivMat
  rw [List.finRange_succ, List.map_cons, List.prod_cons, Fin.cons_zero, embed_list_prod, List.map_map]
  congr 2
  refine List.map_congr_left fun i _ => ?_
  simp [embed_swap]

theorem swap_mul_self (p q : Fin n) :
    (Equiv.swap p q).permMatrix ℝ * (Equiv.swap p q).permMatrix ℝ = 1 := by
  rw [← permMatrix_mul, Equiv.swap_mul_self, permMatrix_one]

theorem lu_exists : ∀ (n : ℕ) (A : Mat n),
    ∃ (F : Mat n) (ipiv : Fin n → Fin n), A = pivMat ipiv * unitLower F * upper F
  | 0, A => ⟨A, id, by ext i; exact i.elim0⟩
  | n + 1, A => by
    -- choose a pivot
    obtain ⟨p, hp⟩ : ∃ p : Fin (n + 1), A p 0 = 0 → ∀ i, A i 0 = 0 := by
      by_cases h : ∃ p, A p 0 ≠ 0
      · obtain ⟨p, hp⟩ := h
        exact ⟨p, fun h => absurd h hp⟩
      · push Not at h
        exact ⟨0, fun _ => h⟩
    set A' : Mat (n + 1) := (Equiv.swap 0 p).permMatrix ℝ * A with hA'
    have hAA' : A = (Equiv.swap 0 p).permMatrix ℝ * A' := by
      rw [hA', ← Matrix.mul_assoc, swap_mul_self, Matrix.one_mul]
    have hA'0 : ∀ i j, A' i j = A (Equiv.swap 0 p i) j := by
      intro i j
      rw [hA', PEquiv.toMatrix_toPEquiv_mul]; rfl
    -- multipliers
    set l : Fin n → ℝ := fun i => A' i.succ 0 / A' 0 0 with hl
    have hla : ∀ i, l i * A' 0 0 = A' i.succ 0 := by
      intro i
      by_cases ha : A' 0 0 = 0
      · have hz : ∀ i, A i 0 = 0 := hp (by rw [hA'0, Equiv.swap_apply_left] at ha; exact ha)
        rw [ha, mul_zero, hA'0, hz]
      · rw [hl]; exact div_mul_cancel₀ _ ha
    set S : Mat n := Matrix.of fun i j => A' i.succ j.succ - l i * A' 0 j.succ with hS
    obtain ⟨F', ipiv', hF'⟩ := lu_exists n S
    have hPu : IsUnit (pivMat ipiv').det := isUnit_det_pivMat ipiv'
    set l' : Fin n → ℝ := (pivMat ipiv')⁻¹ *ᵥ l with hl'
    have hPl : pivMat ipiv' *ᵥ l' = l := by
      rw [hl', mulVec_mulVec, mul_nonsing_inv _ hPu, one_mulVec]
    set F : Mat (n + 1) := Matrix.of fun i j =>
      Fin.cases (A' 0 j) (fun i' => Fin.cases (l' i') (fun j' => F' i' j') j) i with hF
    have f00 : ∀ j, F 0 j = A' 0 j := fun j => rfl
    have fs0 : ∀ i : Fin n, F i.succ 0 = l' i := fun i => rfl
    have fss : ∀ i j : Fin n, F i.succ j.succ = F' i j := fun i j => rfl
    refine ⟨F, Fin.cons p fun i => (ipiv' i).succ, ?_⟩
    rw [pivMat_succ, Matrix.mul_assoc, Matrix.mul_assoc]
    rw [hAA']
    congr 1
    rw [← Matrix.mul_assoc]
    -- the product of the first two factors
    have hL : ∀ i j, (embed (pivMat ipiv') * unitLower F) i j =
        Fin.cases (if j = 0 then 1 else 0)
          (fun i' => Fin.cases (l i') (fun j' => (pivMat ipiv' * unitLower F') i' j') j) i := by
      intro i j
      rw [mul_apply, Fin.sum_univ_succ]
      refine Fin.cases ?_ (fun i => ?_) i <;> refine Fin.cases ?_ (fun j => ?_) j
      · simp [unitLower]
      · simp [unitLower, Fin.succ_ne_zero, (Fin.succ_ne_zero _).symm]
      · have := congrFun hPl i
        simp only [mulVec, dotProduct] at this
        simp [unitLower, fs0, this]
      · simp [unitLower, fss, mul_apply, (Fin.succ_ne_zero _).symm, Fin.succ_inj]
    have hL00 : (embed (pivMat ipiv') * unitLower F) 0 0 = 1 := by rw [hL]; rfl
    have hL0s : ∀ j : Fin n, (embed (pivMat ipiv') * unitLower F) 0 j.succ = 0 := by
      intro j; rw [hL]; simp
    have hLs0 : ∀ i : Fin n, (embed (pivMat ipiv') * unitLower F) i.succ 0 = l i := by
      intro i; rw [hL]; rfl
    have hLss : ∀ i j : Fin n, (embed (pivMat ipiv') * unitLower F) i.succ j.succ
        = (pivMat ipiv' * unitLower F') i j := by
      intro i j; rw [hL]; rfl
    have u0 : ∀ j, upper F 0 j = A' 0 j := by intro j; simp [upper, f00]
    have us0 : ∀ i : Fin n, upper F i.succ 0 = 0 := by intro i; simp [upper]
    have uss : ∀ i j : Fin n, upper F i.succ j.succ = upper F' i j := by
      intro i j; simp [upper, fss]
    ext i j
    rw [mul_apply, Fin.sum_univ_succ]
    refine Fin.cases ?_ (fun i => ?_) i
    · simp [hL00, hL0s, u0]
    · refine Fin.cases ?_ (fun j => ?_) j
      · simp [hLs0, us0, u0, hla]
      · have := congrFun (congrFun hF' i) j
        rw [mul_apply] at this
        simp only [hLs0, hLss, u0, uss, ← this, hS, of_apply]
        ring

/-- a `dgetrf` exists -/
theorem luAlg_exists (n : ℕ) : Nonempty (LUAlg n) := by
  choose F ipiv h using fun A : Mat n => lu_exists n A
  exact ⟨⟨fun A => (F A, ipiv A), h⟩⟩

/-- the contracts assumed of LAPACK can be satisfied for every size -/
theorem lapack_exists (N : ℕ) : Nonempty (Verif.Lapack N) := by
  obtain ⟨a⟩ := qrAlg_exists N N
  obtain ⟨b⟩ := qrpAlg_exists N
  obtain ⟨c⟩ := luAlg_exists N
  exact ⟨⟨a, b, c⟩⟩

end Verif.Lapack
