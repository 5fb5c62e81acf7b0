import Verif.Props.ReferenceBlas
import Verif.Lemmas.Ultra

/-! # Property C120, third part: linear systems in rounded arithmetic -/

set_option autoImplicit false

namespace Verif.Reference

open Filter Matrix Verif.Lapack Verif.Rounded Verif.Scale

/-! ## Pivots -/

theorem foldl_max {n : ℕ} (x : Fin n → ℝ) (is : List (Fin n)) (p : Fin n) :
    |x p| ≤ |x (open Classical in is.foldl (fun p i => if |x p| < |x i| then i else p) p)| ∧
    ∀ i ∈ is, |x i| ≤ |x (open Classical in is.foldl (fun p i => if |x p| < |x i| then i else p) p)| := by
  induction is generalizing p with
  | nil => simp
  | cons a is ih =>
    simp only [List.foldl_cons, List.mem_cons, forall_eq_or_imp]
    by_cases h : |x p| < |x a|
    · rw [if_pos h]
      exact ⟨h.le.trans (ih a).1, (ih a).1, (ih a).2⟩
    · rw [if_neg h]
      exact ⟨(ih p).1, (not_lt.1 h).trans (ih p).1, (ih p).2⟩

/-- the index of an entry of maximal absolute value -/
theorem idamax_spec {n : ℕ} (x : Fin (n + 1) → ℝ) (i : Fin (n + 1)) : |x i| ≤ |x (idamax x)| :=
  (foldl_max x (List.finRange (n + 1)) 0).2 i (List.mem_finRange i)

theorem foldl_swap {n : ℕ} (ipiv : Fin n → Fin n) (is : List (Fin n)) (x : Fin n → ℝ) :
    (is.map fun i => (Equiv.swap i (ipiv i)).permMatrix ℝ).prod *ᵥ is.foldl (fun x i => x ∘ Equiv.swap i (ipiv i)) x = x := by
  induction is generalizing x with
  | nil => simp
  | cons a is ih =>
    simp only [List.map_cons, List.prod_cons, List.foldl_cons]
    rw [← mulVec_mulVec, ih, PEquiv.toMatrix_toPEquiv_mulVec]
    ext i
    simp

/-- the row interchanges undo the permutation -/
theorem pivMat_laswp {n : ℕ} (ipiv : Fin n → Fin n) (x : Fin n → ℝ) : pivMat ipiv *ᵥ laswp ipiv x = x :=
  foldl_swap ipiv (List.finRange n) x

theorem laswp_le {n : ℕ} (ipiv : Fin n → Fin n) {x : Fin n → ℝ} {c : ℝ} (h : ∀ i, |x i| ≤ c) (i : Fin n) : |laswp ipiv x i| ≤ c := by
  unfold laswp
  generalize List.finRange n = is
  induction is generalizing x with
  | nil => exact h i
  | cons a is ih => exact ih fun i => h _

/-! ## The packed format -/

/-- one step of the elimination -/
def packLU {n : ℕ} (a : Fin (n + 1) → ℝ) (l : Fin n → ℝ) (F : Mat n) : Mat (n + 1) :=
  Matrix.of fun i j => Fin.cases (a j) (fun i' => Fin.cases (l i') (fun j' => F i' j') j) i

theorem packLU_mul {n : ℕ} (a : Fin (n + 1) → ℝ) (l l' : Fin n → ℝ) (F : Mat n) (ipiv : Fin n → Fin n) (hl : pivMat ipiv *ᵥ l' = l) :
    (∀ j, (embed (pivMat ipiv) * unitLower (packLU a l' F) * upper (packLU a l' F)) 0 j = a j) ∧
    (∀ i : Fin n, (embed (pivMat ipiv) * unitLower (packLU a l' F) * upper (packLU a l' F)) i.succ 0 = l i * a 0) ∧
    ∀ i j : Fin n, (embed (pivMat ipiv) * unitLower (packLU a l' F) * upper (packLU a l' F)) i.succ j.succ =
      l i * a j.succ + (pivMat ipiv * unitLower F * upper F) i j := by
  have f00 : ∀ j, packLU a l' F 0 j = a j := fun j => rfl
  have fs0 : ∀ i : Fin n, packLU a l' F i.succ 0 = l' i := fun i => rfl
  have fss : ∀ i j : Fin n, packLU a l' F i.succ j.succ = F i j := fun i j => rfl
  have hL : ∀ i j, (embed (pivMat ipiv) * unitLower (packLU a l' F)) i j =
      Fin.cases (if j = 0 then 1 else 0) (fun i' => Fin.cases (l i') (fun j' => (pivMat ipiv * unitLower F) i' j') j) i := by
    intro i j
    rw [mul_apply, Fin.sum_univ_succ]
    refine Fin.cases ?_ (fun i => ?_) i <;> refine Fin.cases ?_ (fun j => ?_) j
    · simp [unitLower]
    · simp [unitLower, Fin.succ_ne_zero, (Fin.succ_ne_zero _).symm]
    · have := congrFun hl i
      simp only [mulVec, dotProduct] at this
      simp [unitLower, fs0, this]
    · simp [unitLower, fss, mul_apply, (Fin.succ_ne_zero _).symm, Fin.succ_inj]
  have hL00 : (embed (pivMat ipiv) * unitLower (packLU a l' F)) 0 0 = 1 := by rw [hL]; rfl
  have hL0s : ∀ j : Fin n, (embed (pivMat ipiv) * unitLower (packLU a l' F)) 0 j.succ = 0 := by intro j; rw [hL]; simp
  have hLs0 : ∀ i : Fin n, (embed (pivMat ipiv) * unitLower (packLU a l' F)) i.succ 0 = l i := by intro i; rw [hL]; rfl
  have hLss : ∀ i j : Fin n, (embed (pivMat ipiv) * unitLower (packLU a l' F)) i.succ j.succ = (pivMat ipiv * unitLower F) i j := by
    intro i j; rw [hL]; rfl
  have u0 : ∀ j, upper (packLU a l' F) 0 j = a j := by intro j; simp [upper, f00]
  have us0 : ∀ i : Fin n, upper (packLU a l' F) i.succ 0 = 0 := by intro i; simp [upper]
  have uss : ∀ i j : Fin n, upper (packLU a l' F) i.succ j.succ = upper F i j := by intro i j; simp [upper, fss]
  refine ⟨fun j => ?_, fun i => ?_, fun i j => ?_⟩ <;> rw [mul_apply, Fin.sum_univ_succ]
  · simp [hL00, hL0s, u0]
  · simp [hLs0, us0, u0]
  · rw [Matrix.mul_apply (M := pivMat ipiv * unitLower F)]
    simp only [hLs0, hLss, u0, uss]

/-! ## The decomposition -/

variable {ι : Type} {S : Scale ι} {op : ι → FlOps}

theorem MMod.upper {m n : ℕ} {F : ι → Matrix (Fin m) (Fin n) ℝ} (h : S.MMod F) : S.MMod fun t => Lapack.upper (F t) := fun i j => by
  simp only [Lapack.upper, of_apply]
  split
  · exact h i j
  · exact Mod.const 0

theorem MMod.unitLower {n : ℕ} {F : ι → Mat n} (h : S.MMod F) : S.MMod fun t => Lapack.unitLower (F t) := fun i j => by
  simp only [Lapack.unitLower, of_apply]
  split
  · exact h i j
  · exact Mod.const _

theorem MMod.pivMat {n : ℕ} (ipiv : ι → Fin n → Fin n) : S.MMod fun t => Lapack.pivMat (ipiv t) := fun i j => by
  obtain ⟨p, hp⟩ := Ultra.exists_const (U := S.U) ipiv
  exact (Mod.const (Lapack.pivMat p i j)).congr (hp.mono fun t ht => by simp only [ht])

section decomposition

variable (h : Ops S op)
include h

theorem getrf_spec (n : ℕ) : ∀ A : ι → Mat n, S.MMod A → (S.MMod fun t => (getrf (op t).toOps n (A t)).1) ∧
    S.MSim (fun t => pivMat (getrf (op t).toOps n (A t)).2 * unitLower (getrf (op t).toOps n (A t)).1 *
      upper (getrf (op t).toOps n (A t)).1) A := by
  induction n with
  | zero => exact fun A _ => ⟨fun i => i.elim0, fun i => i.elim0⟩
  | succ n ih =>
    intro A hA
    set p : ι → Fin (n + 1) := fun t => idamax fun i => A t i 0 with hp
    obtain ⟨p₀, hp₀⟩ := Ultra.exists_const (U := S.U) p
    set A' : ι → Mat (n + 1) := fun t => Matrix.of fun i j => A t (Equiv.swap 0 (p t) i) j with hA'
    have mA' : S.MMod A' := fun i j => (hA (Equiv.swap 0 p₀ i) j).congr (hp₀.mono fun t ht => by simp only [hA', of_apply, ht])
    have hmax : ∀ t i, |A' t i 0| ≤ |A' t 0 0| := fun t i => by
      simp only [hA', of_apply, Equiv.swap_apply_left]
      exact idamax_spec (fun i => A t i 0) _
    -- multipliers
    set l : ι → Fin n → ℝ := fun t i => open Classical in
      if A' t 0 0 = 0 then A' t i.succ 0 else (op t).div (A' t i.succ 0) (A' t 0 0) with hl
    have key : ∀ t i, (A' t 0 0 ≠ 0 → |l t i - A' t i.succ 0 / A' t 0 0| ≤ S.u t) ∧ (A' t 0 0 = 0 → l t i = 0) ∧
        |l t i * A' t 0 0 - A' t i.succ 0| ≤ S.u t * |A' t i.succ 0| := fun t i => by
      by_cases h0 : A' t 0 0 = 0
      · have h1 := hmax t i.succ
        rw [h0, abs_zero] at h1
        have h2 : A' t i.succ 0 = 0 := abs_eq_zero.1 (le_antisymm h1 (abs_nonneg _))
        have h3 : l t i = 0 := by simp only [hl, if_pos h0, h2]
        refine ⟨fun h => absurd h0 h, fun _ => h3, ?_⟩
        rw [h3, h2]
        simp
      · have h1 : |l t i - A' t i.succ 0 / A' t 0 0| ≤ S.u t * |A' t i.succ 0 / A' t 0 0| := by
          simp only [hl, if_neg h0]
          exact (h t).div _ _
        have h2 : 0 < |A' t 0 0| := abs_pos.2 h0
        refine ⟨fun _ => h1.trans ?_, fun h => absurd h h0, ?_⟩
        · rw [abs_div]
          exact mul_le_of_le_one_right (S.u0 t) ((div_le_one h2).2 (hmax t i.succ))
        · have h3 := mul_le_mul_of_nonneg_right h1 h2.le
          rw [← abs_mul, sub_mul, div_mul_cancel₀ _ h0, mul_assoc, ← abs_mul, div_mul_cancel₀ _ h0] at h3
          exact h3
    have hl2 : ∀ᶠ t in (S.U : Filter ι), ∀ i, |l t i| ≤ 2 := by
      filter_upwards [smallU S 1] with t ht i
      by_cases h0 : A' t 0 0 = 0
      · rw [(key t i).2.1 h0]
        norm_num
      · have h1 := (key t i).1 h0
        have h2 : |A' t i.succ 0 / A' t 0 0| ≤ 1 := by
          rw [abs_div]
          exact (div_le_one (abs_pos.2 h0)).2 (hmax t i.succ)
        have h3 := abs_add_le (l t i - A' t i.succ 0 / A' t 0 0) (A' t i.succ 0 / A' t 0 0)
        rw [sub_add_cancel] at h3
        push_cast at ht
        linarith
    have ml : ∀ i, S.Mod fun t => l t i := fun i => Mod.of_le 2 (hl2.mono fun t ht => by exact_mod_cast ht i)
    -- the remaining block
    set C : ι → Mat n := fun t => Matrix.of fun i j => (op t).sub (A' t i.succ j.succ) ((op t).mul (l t i) (A' t 0 j.succ)) with hC
    have sC : ∀ i j, S.Sim (fun t => C t i j) fun t => A' t i.succ j.succ - l t i * A' t 0 j.succ := fun i j =>
      sim_sub h (Sim.refl (mA' _ _)) (sim_mul h (Sim.refl (ml i)) (Sim.refl (mA' _ _)))
    obtain ⟨hF, hQ⟩ := ih C fun i j => (sC i j).left
    set rest := fun t => getrf (op t).toOps n (C t) with hrest
    have e1 : ∀ t, (getrf (op t).toOps (n + 1) (A t)).1 = packLU (A' t 0) (laswp (rest t).2 (l t)) (rest t).1 := fun t => rfl
    have e2 : ∀ t, (getrf (op t).toOps (n + 1) (A t)).2 = Fin.cons (p t) fun i => ((rest t).2 i).succ := fun t => rfl
    refine ⟨fun i j => ?_, ?_⟩
    · simp only [e1]
      refine Fin.cases ?_ (fun i => ?_) i
      · exact mA' 0 j
      · refine Fin.cases ?_ (fun j => ?_) j
        · exact Mod.of_le 2 (hl2.mono fun t ht => by exact_mod_cast laswp_le _ ht i)
        · exact hF i j
    · have hM : S.MSim (fun t => embed (pivMat (rest t).2) * unitLower (packLU (A' t 0) (laswp (rest t).2 (l t)) (rest t).1) *
          upper (packLU (A' t 0) (laswp (rest t).2 (l t)) (rest t).1)) A' := by
        have hm := fun t => packLU_mul (A' t 0) (l t) (laswp (rest t).2 (l t)) (rest t).1 (rest t).2 (pivMat_laswp _ _)
        intro i j
        refine Fin.cases ?_ (fun i => ?_) i
        · exact Sim.of_eq (mA' 0 j) (Eventually.of_forall fun t => (hm t).1 j)
        · refine Fin.cases ?_ (fun j => ?_) j
          · refine ⟨mA' _ _, Neg.of_le (mA' i.succ 0) (Eventually.of_forall fun t => ?_)⟩
            beta_reduce
            rw [(hm t).2.1 i]
            exact (key t i).2.2
          · have h1 := (Sim.refl ((ml i).mul (mA' 0 j.succ))).add ((hQ i j).trans (sC i j))
            refine h1.congr (Eventually.of_forall fun t => (hm t).2.2 i j) (Eventually.of_forall fun t => ?_)
            ring
      intro i j
      refine (hM (Equiv.swap 0 p₀ i) j).congr (hp₀.mono fun t ht => ?_) (hp₀.mono fun t ht => ?_)
      · beta_reduce
        rw [e1, e2, pivMat_succ, Matrix.mul_assoc, Matrix.mul_assoc, PEquiv.toMatrix_toPEquiv_mul, ht, Matrix.mul_assoc]
        rfl
      · simp only [hA', of_apply, ht, Equiv.swap_apply_self]

/-! ## Substitution -/

theorem solveL_spec (n : ℕ) : ∀ (F : ι → Mat n) (g : ι → Fin n → ℝ), S.MMod F → (∀ i, S.Mod fun t => g t i) →
    (∀ i, S.Mod fun t => solveL (op t).toOps n (F t) (g t) i) ∧
    ∀ i, S.Sim (fun t => (unitLower (F t) *ᵥ solveL (op t).toOps n (F t) (g t)) i) fun t => g t i := by
  induction n with
  | zero => exact fun F g _ _ => ⟨fun i => i.elim0, fun i => i.elim0⟩
  | succ n ih =>
    intro F g hF hg
    have s1 : ∀ r : Fin n, S.Sim (fun t => (op t).sub (g t r.succ) ((op t).mul (g t 0) (F t r.succ 0)))
        fun t => g t r.succ - g t 0 * F t r.succ 0 := fun r =>
      sim_sub h (Sim.refl (hg _)) (sim_mul h (Sim.refl (hg _)) (Sim.refl (hF _ _)))
    obtain ⟨h1, h2⟩ := ih (fun t => (F t).submatrix Fin.succ Fin.succ)
      (fun t r => (op t).sub (g t r.succ) ((op t).mul (g t 0) (F t r.succ 0))) (fun i j => hF _ _) fun r => (s1 r).left
    refine ⟨fun i => Fin.cases (hg 0) (fun i => h1 i) i, fun i => ?_⟩
    refine Fin.cases ?_ (fun i => ?_) i
    · refine Sim.of_eq (hg 0) (Eventually.of_forall fun t => ?_)
      simp [mulVec, dotProduct, unitLower, solveL]
    · have h3 := (Sim.refl ((hF i.succ 0).mul (hg 0))).add ((h2 i).trans (s1 i))
      refine h3.congr (Eventually.of_forall fun t => ?_) (Eventually.of_forall fun t => ?_)
      · simp [mulVec, dotProduct, Fin.sum_univ_succ, unitLower, solveL, Fin.succ_inj]
      · ring

theorem solveU_spec (n : ℕ) : ∀ (F : ι → Mat n) (g : ι → Fin n → ℝ), S.MMod F → (∀ i, S.Mod fun t => g t i) →
    (∀ i, (∀ᶠ t in (S.U : Filter ι), F t i i ≠ 0) ∧ S.Mod fun t => (F t i i)⁻¹) →
    (∀ i, S.Mod fun t => solveU (op t).toOps n (F t) (g t) i) ∧
    ∀ i, S.Sim (fun t => (upper (F t) *ᵥ solveU (op t).toOps n (F t) (g t)) i) fun t => g t i := by
  induction n with
  | zero => exact fun F g _ _ _ => ⟨fun i => i.elim0, fun i => i.elim0⟩
  | succ n ih =>
    intro F g hF hg hd
    set x : ι → ℝ := fun t => (op t).div (g t (Fin.last n)) (F t (Fin.last n) (Fin.last n)) with hx
    have sx : S.Sim x fun t => g t (Fin.last n) / F t (Fin.last n) (Fin.last n) := (rel_div h).sim (by
      simpa only [div_eq_mul_inv] using (hg (Fin.last n)).mul (hd (Fin.last n)).2)
    have s1 : ∀ r : Fin n, S.Sim (fun t => (op t).sub (g t r.castSucc) ((op t).mul (x t) (F t r.castSucc (Fin.last n))))
        fun t => g t r.castSucc - x t * F t r.castSucc (Fin.last n) := fun r =>
      sim_sub h (Sim.refl (hg _)) (sim_mul h (Sim.refl sx.left) (Sim.refl (hF _ _)))
    obtain ⟨h1, h2⟩ := ih (fun t => (F t).submatrix Fin.castSucc Fin.castSucc)
      (fun t r => (op t).sub (g t r.castSucc) ((op t).mul (x t) (F t r.castSucc (Fin.last n)))) (fun i j => hF _ _)
      (fun r => (s1 r).left) fun i => hd i.castSucc
    have e0 : ∀ t, solveU (op t).toOps (n + 1) (F t) (g t) (Fin.last n) = x t := fun t => by simp [solveU, hx]
    have e1 : ∀ t (i : Fin n), solveU (op t).toOps (n + 1) (F t) (g t) i.castSucc =
        solveU (op t).toOps n ((F t).submatrix Fin.castSucc Fin.castSucc)
          (fun r => (op t).sub (g t r.castSucc) ((op t).mul (x t) (F t r.castSucc (Fin.last n)))) i := fun t i => by
      simp [solveU, hx]
    refine ⟨fun i => ?_, fun i => ?_⟩
    · refine Fin.lastCases ?_ (fun i => ?_) i
      · simp only [e0]
        exact sx.left
      · simp only [e1]
        exact h1 i
    · refine Fin.lastCases ?_ (fun i => ?_) i
      · refine ((Sim.refl (hF (Fin.last n) (Fin.last n))).mul sx).congr (Eventually.of_forall fun t => ?_)
          ((hd (Fin.last n)).1.mono fun t ht => ?_)
        · simp only [mulVec, dotProduct, Fin.sum_univ_castSucc, e0]
          rw [Finset.sum_eq_zero fun k _ => ?_, zero_add]
          · simp [upper]
          · simp [upper]
        · field_simp
      · have h3 := ((h2 i).trans (s1 i)).add (Sim.refl ((hF i.castSucc (Fin.last n)).mul sx.left))
        refine h3.congr (Eventually.of_forall fun t => ?_) (Eventually.of_forall fun t => ?_)
        · simp [mulVec, dotProduct, Fin.sum_univ_castSucc, e0, e1, upper, Fin.le_last]
        · ring

/-! ## Linear systems -/

theorem getrs_spec {n c : ℕ} {A : ι → Mat n} {G : ι → Matrix (Fin n) (Fin c) ℝ} (hA : S.MMod A) (hG : S.MMod G)
    (h0 : ∀ᶠ t in (S.U : Filter ι), (A t).det ≠ 0) (hd : S.Mod fun t => ((A t).det)⁻¹) :
    S.MSim (fun t => A t * getrs (op t).toOps (getrf (op t).toOps n (A t)).1 (getrf (op t).toOps n (A t)).2 (G t)) G := by
  obtain ⟨mF, hQ⟩ := getrf_spec h n A hA
  set F := fun t => (getrf (op t).toOps n (A t)).1 with hF
  set ip := fun t => (getrf (op t).toOps n (A t)).2 with hip
  have mP : S.MMod fun t => pivMat (ip t) := MMod.pivMat ip
  -- the diagonal of the upper triangle
  obtain ⟨d0, d1⟩ := hQ.det.inv h0 hd
  have edet : ∀ t, (pivMat (ip t) * unitLower (F t) * upper (F t)).det = (pivMat (ip t)).det * ∏ i, F t i i := fun t => by
    rw [det_mul, det_mul, det_unitLower, mul_one, det_upper]
  have hdiag : ∀ i, (∀ᶠ t in (S.U : Filter ι), F t i i ≠ 0) ∧ S.Mod fun t => (F t i i)⁻¹ := fun i => by
    refine ⟨d0.mono fun t ht hz => ht ?_, ?_⟩
    · rw [edet, Finset.prod_eq_zero (f := fun i => F t i i) (Finset.mem_univ i) hz, mul_zero]
    · have h1 := d1.left.mul ((MSim.det (MSim.refl mP)).1.mul (Mod.prod (Finset.univ.erase i) fun j _ => mF j j))
      refine h1.congr (d0.mono fun t ht => ?_)
      beta_reduce at ht ⊢
      rw [edet] at ht ⊢
      rw [← Finset.mul_prod_erase _ _ (Finset.mem_univ i)] at ht ⊢
      have a1 := left_ne_zero_of_mul ht
      have a2 := left_ne_zero_of_mul (right_ne_zero_of_mul ht)
      have a3 := right_ne_zero_of_mul (right_ne_zero_of_mul ht)
      field_simp
  set X := fun t => getrs (op t).toOps (F t) (ip t) (G t) with hX
  have mg : ∀ r j, S.Mod fun t => laswp (ip t) (fun i => G t i j) r := fun r j => by
    obtain ⟨k, hk⟩ := Ultra.exists_const (U := S.U) ip
    have h1 : S.Mod fun t => ∑ i, |G t i j| := Mod.sum _ fun i _ => (hG i j).mono (Eventually.of_forall fun t => by rw [abs_abs])
    refine h1.mono (Eventually.of_forall fun t => ?_)
    rw [abs_of_nonneg (a := ∑ i, |G t i j|) (Finset.sum_nonneg fun i _ => abs_nonneg _)]
    exact laswp_le (ip t) (fun i => Finset.single_le_sum (f := fun i => |G t i j|) (fun i _ => abs_nonneg _) (Finset.mem_univ i)) r
  set g : ι → Matrix (Fin n) (Fin c) ℝ := fun t => Matrix.of fun r j => laswp (ip t) (fun i => G t i j) r with hg
  set Y : ι → Matrix (Fin n) (Fin c) ℝ := fun t => Matrix.of fun i j => solveL (op t).toOps n (F t) (laswp (ip t) fun i => G t i j) i with hY
  have sL := fun j => solveL_spec h n F (fun t => laswp (ip t) fun i => G t i j) mF fun r => mg r j
  have sU := fun j => solveU_spec h n F (fun t => solveL (op t).toOps n (F t) (laswp (ip t) fun i => G t i j)) mF (sL j).1 hdiag
  have mX : S.MMod X := fun i j => (sU j).1 i
  have h1 : S.MSim (fun t => unitLower (F t) * Y t) g := fun i j => (sL j).2 i
  have h2 : S.MSim (fun t => upper (F t) * X t) Y := fun i j => (sU j).2 i
  have h3 : S.MSim (fun t => pivMat (ip t) * (unitLower (F t) * (upper (F t) * X t))) fun t => pivMat (ip t) * g t :=
    (MSim.refl mP).mul (((MSim.refl (MMod.unitLower mF)).mul h2).trans h1)
  have h4 := (hQ.symm.mul (MSim.refl mX)).trans (h3.congr (Eventually.of_forall fun t => by
    rw [Matrix.mul_assoc, Matrix.mul_assoc]) (Eventually.of_forall fun _ => rfl))
  refine h4.congr (Eventually.of_forall fun _ => rfl) (Eventually.of_forall fun t => ?_)
  ext i j
  exact (congrFun (pivMat_laswp (ip t) fun i => G t i j) i).symm

/-! ## Inversion of triangular matrices -/

theorem trtri_mul (n : ℕ) : ∀ M : ι → Mat n, S.MMod M →
    (∀ i, (∀ᶠ t in (S.U : Filter ι), M t i i ≠ 0) ∧ S.Mod fun t => (M t i i)⁻¹) →
    (S.MMod fun t => trtri (op t).toOps n (M t)) ∧ S.MSim (fun t => upper (trtri (op t).toOps n (M t)) * upper (M t)) fun _ => 1 := by
  induction n with
  | zero => exact fun M _ _ => ⟨fun i => i.elim0, fun i => i.elim0⟩
  | succ n ih =>
    intro M hM hd
    obtain ⟨h1, h2⟩ := ih (fun t => (M t).submatrix Fin.castSucc Fin.castSucc) (fun i j => hM _ _) fun i => hd i.castSucc
    set X := fun t => trtri (op t).toOps n ((M t).submatrix Fin.castSucc Fin.castSucc) with hX
    set d := fun t => (op t).div 1 (M t (Fin.last n) (Fin.last n)) with hdd
    have sd : S.Sim d fun t => 1 / M t (Fin.last n) (Fin.last n) := (rel_div h).sim (by
      simpa only [one_div] using (hd (Fin.last n)).2)
    set s : ι → Fin n → ℝ := fun t i => dotOn (op t).toOps ((List.finRange n).filter fun k => i ≤ k) 0 (X t i)
      fun k => M t k.castSucc (Fin.last n) with hs
    have ss : ∀ i, S.Sim (fun t => s t i) fun t => ∑ k, upper (X t) i k * M t k.castSucc (Fin.last n) := fun i => by
      refine (sim_dotOn h _ (Sim.const 0) (f := fun t => X t i) (g := fun t k => M t k.castSucc (Fin.last n))
        (fun k _ => Sim.refl (h1 i k)) fun k _ => Sim.refl (hM _ _)).congr (Eventually.of_forall fun _ => rfl)
        (Eventually.of_forall fun t => ?_)
      rw [sum_filter_finRange, zero_add]
      refine Finset.sum_congr rfl fun k _ => ?_
      simp only [upper, of_apply, ← Fin.le_def]
      split <;> simp
    have ell : ∀ t, trtri (op t).toOps (n + 1) (M t) (Fin.last n) (Fin.last n) = d t := fun t => by simp [trtri, hdd]
    have elc : ∀ t (j : Fin n), trtri (op t).toOps (n + 1) (M t) (Fin.last n) j.castSucc = M t (Fin.last n) j.castSucc :=
      fun t j => by simp [trtri]
    have ecl : ∀ t (i : Fin n), trtri (op t).toOps (n + 1) (M t) i.castSucc (Fin.last n) = (op t).mul (-(d t)) (s t i) :=
      fun t i => by simp [trtri, hdd, hs, hX]
    have ecc : ∀ t (i j : Fin n), trtri (op t).toOps (n + 1) (M t) i.castSucc j.castSucc = X t i j := fun t i j => by simp [trtri, hX]
    have sm : ∀ i, S.Sim (fun t => (op t).mul (-(d t)) (s t i)) fun t => -(1 / M t (Fin.last n) (Fin.last n)) *
        ∑ k, upper (X t) i k * M t k.castSucc (Fin.last n) := fun i => sim_mul h sd.neg (ss i)
    refine ⟨fun i j => ?_, fun i j => ?_⟩
    · refine Fin.lastCases ?_ (fun i => ?_) i <;> refine Fin.lastCases ?_ (fun j => ?_) j
      · simp only [ell]
        exact sd.left
      · simp only [elc]
        exact hM _ _
      · simp only [ecl]
        exact (sm i).left
      · simp only [ecc]
        exact h1 i j
    · refine Fin.lastCases ?_ (fun i => ?_) i <;> refine Fin.lastCases ?_ (fun j => ?_) j
      · refine (sd.mul (Sim.refl (hM (Fin.last n) (Fin.last n)))).congr (Eventually.of_forall fun t => ?_)
          ((hd (Fin.last n)).1.mono fun t ht => ?_)
        · beta_reduce
          rw [mul_apply, Fin.sum_univ_castSucc, Finset.sum_eq_zero fun k _ => ?_, zero_add]
          · simp [upper, ell]
          · simp [upper]
        · beta_reduce
          rw [one_apply_eq]
          field_simp
      · refine (Sim.const 0).congr (Eventually.of_forall fun t => ?_) (Eventually.of_forall fun t => ?_)
        · beta_reduce
          rw [mul_apply, Fin.sum_univ_castSucc, Finset.sum_eq_zero fun k _ => ?_, zero_add]
          · simp [upper]
          · simp [upper]
        · beta_reduce
          rw [one_apply_ne (Fin.castSucc_lt_last j).ne']
      · have s1 : S.Sim (fun t => ∑ k, upper (X t) i k * M t k.castSucc (Fin.last n)) _ := Sim.refl (ss i).1
        have s2 := s1.add ((sm i).mul (Sim.refl (hM (Fin.last n) (Fin.last n))))
        refine s2.congr (Eventually.of_forall fun t => ?_) ((hd (Fin.last n)).1.mono fun t ht => ?_)
        · beta_reduce
          rw [mul_apply, Fin.sum_univ_castSucc]
          simp [upper, ecc, ecl, Fin.le_last]
        · beta_reduce
          rw [one_apply_ne (Fin.castSucc_lt_last i).ne]
          field_simp
          ring
      · refine (h2 i j).congr (Eventually.of_forall fun t => ?_) (Eventually.of_forall fun t => ?_)
        · beta_reduce
          rw [mul_apply, Fin.sum_univ_castSucc, mul_apply]
          simp [upper, ecc, hX]
        · simp [one_apply]

theorem trtri_spec {n : ℕ} {M : ι → Mat n} (hM : S.MMod M) (h0 : ∀ᶠ t in (S.U : Filter ι), (upper (M t)).det ≠ 0)
    (hd : S.Mod fun t => ((upper (M t)).det)⁻¹) :
    S.MSim (fun t => upper (trtri (op t).toOps n (M t))) fun t => (upper (M t))⁻¹ := by
  have hdiag : ∀ i, (∀ᶠ t in (S.U : Filter ι), M t i i ≠ 0) ∧ S.Mod fun t => (M t i i)⁻¹ := fun i => by
    refine ⟨h0.mono fun t ht hz => ht ?_, ?_⟩
    · rw [det_upper, Finset.prod_eq_zero (f := fun i => M t i i) (Finset.mem_univ i) hz]
    · refine (hd.mul (Mod.prod (Finset.univ.erase i) fun j _ => hM j j)).congr (h0.mono fun t ht => ?_)
      rw [det_upper] at ht ⊢
      rw [← Finset.mul_prod_erase _ _ (Finset.mem_univ i)] at ht ⊢
      have a2 := left_ne_zero_of_mul ht
      have a3 := right_ne_zero_of_mul ht
      field_simp
  obtain ⟨-, h2⟩ := trtri_mul h n M hM hdiag
  have h3 := h2.mul (MSim.refl ((MMod.upper hM).inv hd))
  refine h3.congr (h0.mono fun t ht => ?_) (Eventually.of_forall fun t => (Matrix.one_mul _).symm)
  rw [Matrix.mul_assoc, mul_nonsing_inv _ (isUnit_iff_ne_zero.2 ht), Matrix.mul_one]

end decomposition

end Verif.Reference
