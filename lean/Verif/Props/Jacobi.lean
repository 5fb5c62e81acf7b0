import Verif.Lemmas.Jacobi
import Verif.Props.ReferenceRun

/-!
# Property C125: Jacobi's method is an accurate eigenvalue decomposition

`jacobi_accurate`: in an arithmetic with relative errors of at most `u`, the results of Jacobi's method with sufficiently many
rotations are close to those of an exact diagonalisation of a matrix close to the given one, as properties C115, C121 and C124
require of `dsyev`.
-/

set_option autoImplicit false

namespace Verif.Reference

open Filter Matrix Verif.Lapack Verif.Rounded Verif.Scale Verif.Ultra

variable {N : ℕ}

/-! ## The rotation in rounded arithmetic -/

section rotation

variable {ι : Type} {S : Scale ι} {op : ι → FlOps}

theorem sign_of_rel {x y : ι → ℝ} (h : S.Rel x y) : ∀ᶠ t in (S.U : Filter ι), (0 ≤ x t ↔ 0 ≤ y t) := by
  obtain ⟨k, hk⟩ := h
  filter_upwards [hk, S.smallU (2 * k)] with t h1 h2
  push_cast at h2
  have h3 : |x t - y t| ≤ 1 / 2 * |y t| := h1.trans (mul_le_mul_of_nonneg_right (by linarith) (abs_nonneg _))
  obtain ⟨h4, h5⟩ := abs_le.1 h3
  constructor
  · intro hx
    by_contra hy
    push Not at hy
    rw [abs_of_neg hy] at h5
    linarith
  · intro hy
    rw [abs_of_nonneg hy] at h4
    linarith

theorem rel_schur2 (h : Ops S op) (a d e : ι → ℝ) :
    S.Rel (fun t => (schur2 (op t) (a t) (d t) (e t)).1) (fun t => (schur2 exact (a t) (d t) (e t)).1) ∧
      S.Rel (fun t => (schur2 (op t) (a t) (d t) (e t)).2) (fun t => (schur2 exact (a t) (d t) (e t)).2) := by
  rcases S.cases fun t => e t = 0 with he | he
  · have h1 : ∀ f : ι → FlOps, ∀ᶠ t in (S.U : Filter ι), schur2 (f t) (a t) (d t) (e t) = (1, 0) := fun f =>
      he.mono fun t ht => by rw [schur2, if_pos ht]
    exact ⟨(Rel.refl fun _ => (1 : ℝ)).congr ((h1 op).mono fun t ht => by rw [ht]) ((h1 fun _ => exact).mono fun t ht => by rw [ht]),
      (Rel.refl fun _ => (0 : ℝ)).congr ((h1 op).mono fun t ht => by rw [ht]) ((h1 fun _ => exact).mono fun t ht => by rw [ht])⟩
  · have hτ : S.Rel (fun t => (op t).div ((op t).sub (d t) (a t)) ((op t).mul 2 (e t))) fun t => (d t - a t) / (2 * e t) :=
      (rel_div h).trans ((rel_sub h).div (rel_mul h))
    have hr : S.Rel (fun t => (op t).sqrt ((op t).add 1 ((op t).mul ((op t).div ((op t).sub (d t) (a t)) ((op t).mul 2 (e t)))
        ((op t).div ((op t).sub (d t) (a t)) ((op t).mul 2 (e t))))))
        fun t => Real.sqrt (1 + (d t - a t) / (2 * e t) * ((d t - a t) / (2 * e t))) :=
      (rel_sqrt h).trans (((rel_add h).trans ((Rel.refl fun _ => (1 : ℝ)).add ((rel_mul h).trans (hτ.mul hτ))
        (Eventually.of_forall fun t => by
          rw [one_mul]
          exact mul_self_nonneg _))).sqrt (Eventually.of_forall fun t => add_nonneg zero_le_one (mul_self_nonneg _)))
    have ht : S.Rel (fun t =>
        if 0 ≤ (op t).div ((op t).sub (d t) (a t)) ((op t).mul 2 (e t)) then
          (op t).div 1 ((op t).add ((op t).div ((op t).sub (d t) (a t)) ((op t).mul 2 (e t)))
            ((op t).sqrt ((op t).add 1 ((op t).mul ((op t).div ((op t).sub (d t) (a t)) ((op t).mul 2 (e t)))
              ((op t).div ((op t).sub (d t) (a t)) ((op t).mul 2 (e t)))))))
        else (op t).div 1 ((op t).sub ((op t).div ((op t).sub (d t) (a t)) ((op t).mul 2 (e t)))
            ((op t).sqrt ((op t).add 1 ((op t).mul ((op t).div ((op t).sub (d t) (a t)) ((op t).mul 2 (e t)))
              ((op t).div ((op t).sub (d t) (a t)) ((op t).mul 2 (e t))))))))
        fun t => if 0 ≤ (d t - a t) / (2 * e t) then 1 / ((d t - a t) / (2 * e t) +
            Real.sqrt (1 + (d t - a t) / (2 * e t) * ((d t - a t) / (2 * e t))))
          else 1 / ((d t - a t) / (2 * e t) - Real.sqrt (1 + (d t - a t) / (2 * e t) * ((d t - a t) / (2 * e t)))) := by
      have hs := sign_of_rel hτ
      rcases S.cases fun t => 0 ≤ (d t - a t) / (2 * e t) with h0 | h0
      · refine ((rel_div h).trans ((Rel.refl fun _ => (1 : ℝ)).div ((rel_add h).trans (hτ.add hr ?_)))).congr ?_ ?_
        · exact h0.mono fun t ht => mul_nonneg ht (Real.sqrt_nonneg _)
        · filter_upwards [hs, h0] with t h1 h2
          rw [if_pos (h1.2 h2)]
        · exact h0.mono fun t ht => by rw [if_pos ht]
      · have hsub := (hτ.add hr.neg (h0.mono fun t ht => mul_nonneg_of_nonpos_of_nonpos (not_le.1 ht).le
          (neg_nonpos.2 (Real.sqrt_nonneg _))))
        refine ((rel_div h).trans ((Rel.refl fun _ => (1 : ℝ)).div ((rel_sub h).trans (hsub.congr
          (Eventually.of_forall fun t => sub_eq_add_neg _ _) (Eventually.of_forall fun t => sub_eq_add_neg _ _))))).congr ?_ ?_
        · filter_upwards [hs, h0] with t h1 h2
          rw [if_neg fun h3 => h2 (h1.1 h3)]
        · exact h0.mono fun t ht => by rw [if_neg ht]
    have hc := (rel_div h (x := fun _ => 1)).trans ((Rel.refl fun _ => (1 : ℝ)).div ((rel_sqrt h).trans (((rel_add h).trans
      ((Rel.refl fun _ => (1 : ℝ)).add ((rel_mul h).trans (ht.mul ht)) (Eventually.of_forall fun t => by
          rw [one_mul]
          exact mul_self_nonneg _))).sqrt (Eventually.of_forall fun t => add_nonneg zero_le_one (mul_self_nonneg _)))))
    refine ⟨hc.congr (he.mono fun t ht => ?_) (he.mono fun t ht => ?_),
      ((rel_mul h).trans (ht.mul hc)).congr (he.mono fun t ht => ?_) (he.mono fun t ht => ?_)⟩
    · rw [schur2, if_neg ht]
    · rw [schur2, if_neg ht]
      rfl
    · rw [schur2, if_neg ht]
    · rw [schur2, if_neg ht]
      rfl

theorem schur2_le (a d e : ℝ) : |(schur2 exact a d e).1| ≤ 1 ∧ |(schur2 exact a d e).2| ≤ 1 := by
  have := (schur2_exact a d e).1
  constructor <;> refine abs_le_one_iff_mul_self_le_one.2 ?_ <;> nlinarith [sq_nonneg (schur2 exact a d e).1, sq_nonneg (schur2 exact a d e).2]

theorem sim_rot (p q : Fin N) {c c₀ s s₀ : ι → ℝ} (hc : S.Sim c c₀) (hs : S.Sim s s₀) :
    S.MSim (fun t => rot p q (c t) (s t)) fun t => rot p q (c₀ t) (s₀ t) := fun i j => by
  simp only [rot, of_apply]
  split_ifs
  · exact hc
  · exact hs.neg
  · exact Sim.const 0
  · exact hs
  · exact hc
  · exact Sim.const 0
  · exact Sim.const 1
  · exact Sim.const 0

end rotation

/-- the rotation in exact arithmetic -/
noncomputable def rotExact (p q : Fin N) (A : Mat N) : Mat N :=
  rot p q (schur2 exact (A p p) (A q q) (A p q)).1 (schur2 exact (A p p) (A q q) (A p q)).2

theorem step_near (N : ℕ) (p q : Fin N) : ∃ K₀ : ℕ, ∀ K ≥ K₀, ∀ (op : FlOps) (u b : ℝ) (X : Mat N × Mat N), op.Relative u → 1 ≤ b →
    (Below b X.1 ∧ Below b X.2) → u * w K b ≤ 1 →
    let cs := schur2 op (X.1 p p) (X.1 q q) (X.1 p q)
    let J := rot p q cs.1 cs.2
    Near (u * w K b) (gemmAcc op.toOps (gemmAcc op.toOps Jᵀ X.1 0) J 0) ((rotExact p q X.1)ᵀ * X.1 * rotExact p q X.1) ∧
      Near (u * w K b) (gemmAcc op.toOps X.2 J 0) (X.2 * rotExact p q X.1) := by
  refine itemP (X := Mat N × Mat N) (fun b X => Below b X.1 ∧ Below b X.2) (fun K op u b X =>
    let cs := schur2 op (X.1 p p) (X.1 q q) (X.1 p q)
    let J := rot p q cs.1 cs.2
    Near (u * w K b) (gemmAcc op.toOps (gemmAcc op.toOps Jᵀ X.1 0) J 0) ((rotExact p q X.1)ᵀ * X.1 * rotExact p q X.1) ∧
      Near (u * w K b) (gemmAcc op.toOps X.2 J 0) (X.2 * rotExact p q X.1)) ?_ ?_
  · intro k l op u b X hu hb hkl hq
    have := mul_le_mul_of_nonneg_left (w_mono hkl hb) hu
    exact ⟨Near.mono hq.1 this, Near.mono hq.2 this⟩
  · intro S op X ho hP
    have hA : S.MMod fun n => (X n).1 := mmod_of_below fun n => (hP n).1
    have hV : S.MMod fun n => (X n).2 := mmod_of_below fun n => (hP n).2
    obtain ⟨hc, hs⟩ := rel_schur2 ho (fun n => (X n).1 p p) (fun n => (X n).1 q q) fun n => (X n).1 p q
    have hc' := hc.sim (Mod.of_le 1 (Eventually.of_forall fun n => by
      push_cast
      exact (schur2_le _ _ _).1))
    have hs' := hs.sim (Mod.of_le 1 (Eventually.of_forall fun n => by
      push_cast
      exact (schur2_le _ _ _).2))
    have hJ := sim_rot p q hc' hs'
    have h0 : S.MMod fun _ : ℕ => (0 : Mat N) := (MSim.const 0).left
    have h1 := (sim_gemmAcc ho hJ.transpose.left hA h0).congr (Eventually.of_forall fun _ => rfl)
      (Eventually.of_forall fun n => (add_zero _).symm)
    have h2 := (sim_gemmAcc ho h1.left hJ.left h0).congr (Eventually.of_forall fun _ => rfl)
      (Eventually.of_forall fun n => (add_zero _).symm)
    have h3 := h2.trans ((h1.trans (hJ.transpose.mul (MSim.refl hA))).mul hJ)
    have h4 := ((sim_gemmAcc ho hV hJ.left h0).congr (Eventually.of_forall fun _ => rfl)
      (Eventually.of_forall fun n => (add_zero _).symm)).trans ((MSim.refl hV).mul hJ)
    obtain ⟨k, hk⟩ := near_of_sim h3
    obtain ⟨l, hl⟩ := near_of_sim h4
    refine ⟨k + l, ?_⟩
    filter_upwards [hk, hl] with n e1 e2
    exact ⟨Near.mono e1 (mul_le_mul_of_nonneg_left (w_mono (by omega) (S.b1 n)) (S.u0 n)),
      Near.mono e2 (mul_le_mul_of_nonneg_left (w_mono (by omega) (S.b1 n)) (S.u0 n))⟩

theorem step_near_all (N : ℕ) : ∃ K₀ : ℕ, ∀ K ≥ K₀, ∀ (p q : Fin N) (op : FlOps) (u b : ℝ) (X : Mat N × Mat N), op.Relative u → 1 ≤ b →
    (Below b X.1 ∧ Below b X.2) → u * w K b ≤ 1 →
    let cs := schur2 op (X.1 p p) (X.1 q q) (X.1 p q)
    let J := rot p q cs.1 cs.2
    Near (u * w K b) (gemmAcc op.toOps (gemmAcc op.toOps Jᵀ X.1 0) J 0) ((rotExact p q X.1)ᵀ * X.1 * rotExact p q X.1) ∧
      Near (u * w K b) (gemmAcc op.toOps X.2 J 0) (X.2 * rotExact p q X.1) := by
  choose k hk using fun p q => step_near N p q
  refine ⟨∑ p, ∑ q, k p q, fun K hK p q => hk p q K (le_trans ?_ hK)⟩
  exact (Finset.single_le_sum (f := fun q => k p q) (fun _ _ => Nat.zero_le _) (Finset.mem_univ q)).trans
    (Finset.single_le_sum (f := fun p => ∑ q, k p q) (fun _ _ => Nat.zero_le _) (Finset.mem_univ p))

/-! ## Many rotations -/

theorem mirror_near {X Y : Mat N} {η : ℝ} (h : Near η X Y) (hY : Yᵀ = Y) : Near η (mirror X) Y := fun i j => by
  simp only [mirror, of_apply]
  split
  · exact h i j
  · have : Y i j = Y j i := congrFun (congrFun hY j) i
    rw [this]
    exact h j i

theorem mirror_symm (X : Mat N) : (mirror X)ᵀ = mirror X := by
  ext i j
  simp only [mirror, transpose_apply, of_apply]
  rcases lt_trichotomy i j with h | h | h
  · rw [if_neg (not_le.2 h), if_pos h.le]
  · rw [h]
  · rw [if_pos h.le, if_neg (not_le.2 h)]

/-- after `m` rotations -/
structure After (A₀ : Mat N) (X : Mat N × Mat N) (x δ : ℝ) : Prop where
  symm : X.1ᵀ = X.1
  small : off X.1 ≤ x
  orth : ∃ V : Mat N, Vᵀ * V = 1 ∧ fro (X.2 - V) ≤ δ ∧ fro (X.1 - Vᵀ * A₀ * V) ≤ δ

theorem rotExact_orthogonal {p q : Fin N} (h : p ≠ q) (A : Mat N) : (rotExact p q A)ᵀ * rotExact p q A = 1 :=
  rot_orthogonal h (schur2_exact _ _ _).1

theorem After.step {A₀ : Mat N} {X : Mat N × Mat N} {x δ η B : ℝ} {op : FlOps} (h : After A₀ X x δ) (hδ : δ ≤ 1)
    (hB : fro A₀ + 1 ≤ B) (hB2 : 2 ≤ B) (hη : 0 ≤ η) (hx : 0 ≤ x)
    (hs : ∀ (p q : Fin N) (X : Mat N × Mat N), Below B X.1 → Below B X.2 →
      let cs := schur2 op (X.1 p p) (X.1 q q) (X.1 p q)
      let J := rot p q cs.1 cs.2
      Near η (gemmAcc op.toOps (gemmAcc op.toOps Jᵀ X.1 0) J 0) ((rotExact p q X.1)ᵀ * X.1 * rotExact p q X.1) ∧
        Near η (gemmAcc op.toOps X.2 J 0) (X.2 * rotExact p q X.1)) :
    After A₀ (jacobiStep op X) (shrink N * x + N * η) (δ + N * η) := by
  obtain ⟨hsym, hoff, V, hV, h1, h2⟩ := h
  have hNη : 0 ≤ N * η := by positivity
  rcases hp : pivot X.1 with _ | ⟨p, q⟩
  · have e : jacobiStep op X = X := by
      rw [jacobiStep, hp]
    rw [e]
    have h0 : off X.1 = 0 := le_antisymm (by
      have := off_le_pivot hsym le_rfl fun i j hij => absurd hij (pivot_none hp i j)
      rwa [mul_zero] at this) (off_nonneg _)
    exact ⟨hsym, by
      rw [h0]
      exact add_nonneg (mul_nonneg (shrink_nonneg N) hx) hNη, V, hV, by linarith, by linarith⟩
  · obtain ⟨hpq, hmax⟩ := pivot_some hp
    have hne : p ≠ q := ne_of_lt hpq
    have hbA : Below B X.1 := fun i j => by
      have e := fro_add (X.1 - Vᵀ * A₀ * V) (Vᵀ * A₀ * V)
      rw [sub_add_cancel, fro_conj hV] at e
      linarith [entry_le_fro X.1 i j]
    have hbV : Below B X.2 := fun i j => by
      have e := entry_le_fro (X.2 - V) i j
      have hVij : |V i j| ≤ 1 := by
        have e2 : (Vᵀ * V) j j = 1 := by rw [hV, Matrix.one_apply_eq]
        rw [mul_apply] at e2
        have e3 := Finset.single_le_sum (f := fun k => Vᵀ j k * V k j) (fun k _ => mul_self_nonneg (V k j)) (Finset.mem_univ i)
        rw [e2] at e3
        exact abs_le_one_iff_mul_self_le_one.2 e3
      rw [Matrix.sub_apply] at e
      have e4 := abs_add_le (X.2 i j - V i j) (V i j)
      rw [sub_add_cancel] at e4
      linarith
    obtain ⟨n1, n2⟩ := hs p q X hbA hbV
    have hQ := rotExact_orthogonal hne X.1
    have hsymQ : ((rotExact p q X.1)ᵀ * X.1 * rotExact p q X.1)ᵀ = (rotExact p q X.1)ᵀ * X.1 * rotExact p q X.1 := by
      rw [transpose_mul, transpose_mul, transpose_transpose, hsym, Matrix.mul_assoc]
    have n1' := mirror_near n1 hsymQ
    have e : jacobiStep op X = (mirror (gemmAcc op.toOps (gemmAcc op.toOps (rot p q (schur2 op (X.1 p p) (X.1 q q) (X.1 p q)).1
        (schur2 op (X.1 p p) (X.1 q q) (X.1 p q)).2)ᵀ X.1 0) (rot p q (schur2 op (X.1 p p) (X.1 q q) (X.1 p q)).1
        (schur2 op (X.1 p p) (X.1 q q) (X.1 p q)).2) 0), gemmAcc op.toOps X.2 (rot p q (schur2 op (X.1 p p) (X.1 q q) (X.1 p q)).1
        (schur2 op (X.1 p p) (X.1 q q) (X.1 p q)).2) 0) := by
      rw [jacobiStep, hp]
    have f1 : fro ((jacobiStep op X).1 - (rotExact p q X.1)ᵀ * X.1 * rotExact p q X.1) ≤ N * η := by
      rw [e]
      exact fro_le hη n1'
    have f2 : fro ((jacobiStep op X).2 - X.2 * rotExact p q X.1) ≤ N * η := by
      rw [e]
      exact fro_le hη n2
    refine ⟨?_, ?_, V * rotExact p q X.1, ?_, ?_, ?_⟩
    · rw [e]
      exact mirror_symm _
    · have g1 := off_le_add (jacobiStep op X).1 ((rotExact p q X.1)ᵀ * X.1 * rotExact p q X.1)
      have g2 : off ((rotExact p q X.1)ᵀ * X.1 * rotExact p q X.1) ≤ shrink N * off X.1 :=
        off_step hsym hne (schur2_exact _ _ _).1 (schur2_exact _ _ _).2 hmax
      have g3 := mul_le_mul_of_nonneg_left hoff (shrink_nonneg N)
      linarith
    · rw [transpose_mul, Matrix.mul_assoc, ← Matrix.mul_assoc Vᵀ, hV, Matrix.one_mul, hQ]
    · have : (jacobiStep op X).2 - V * rotExact p q X.1 = ((jacobiStep op X).2 - X.2 * rotExact p q X.1) + (X.2 - V) * rotExact p q X.1 := by
        rw [Matrix.sub_mul]
        abel
      rw [this]
      have g := fro_add ((jacobiStep op X).2 - X.2 * rotExact p q X.1) ((X.2 - V) * rotExact p q X.1)
      rw [fro_mul_right hQ] at g
      linarith
    · have : (jacobiStep op X).1 - (V * rotExact p q X.1)ᵀ * A₀ * (V * rotExact p q X.1) =
          ((jacobiStep op X).1 - (rotExact p q X.1)ᵀ * X.1 * rotExact p q X.1) +
            (rotExact p q X.1)ᵀ * (X.1 - Vᵀ * A₀ * V) * rotExact p q X.1 := by
        rw [Matrix.mul_sub, Matrix.sub_mul, transpose_mul]
        simp only [Matrix.mul_assoc]
        abel
      rw [this]
      have g := fro_add ((jacobiStep op X).1 - (rotExact p q X.1)ᵀ * X.1 * rotExact p q X.1)
        ((rotExact p q X.1)ᵀ * (X.1 - Vᵀ * A₀ * V) * rotExact p q X.1)
      rw [fro_conj hQ] at g
      linarith

theorem After.start (A₀ : Mat N) (h : A₀ᵀ = A₀) : After A₀ (A₀, 1) (off A₀) 0 := by
  have h0 : fro (0 : Mat N) = 0 := by
    simp [fro]
  refine ⟨h, le_rfl, 1, ?_, ?_, ?_⟩
  · rw [transpose_one, Matrix.mul_one]
  · rw [sub_self, h0]
  · rw [transpose_one, Matrix.one_mul, Matrix.mul_one, sub_self, h0]

theorem After.iterate {A₀ : Mat N} {η B : ℝ} {op : FlOps} (hA : A₀ᵀ = A₀) (hB : fro A₀ + 1 ≤ B) (hB2 : 2 ≤ B) (hη : 0 ≤ η)
    (hs : ∀ (p q : Fin N) (X : Mat N × Mat N), Below B X.1 → Below B X.2 →
      let cs := schur2 op (X.1 p p) (X.1 q q) (X.1 p q)
      let J := rot p q cs.1 cs.2
      Near η (gemmAcc op.toOps (gemmAcc op.toOps Jᵀ X.1 0) J 0) ((rotExact p q X.1)ᵀ * X.1 * rotExact p q X.1) ∧
        Near η (gemmAcc op.toOps X.2 J 0) (X.2 * rotExact p q X.1)) (m : ℕ) (hm : m * (N * η) ≤ 1) :
    After A₀ ((jacobiStep op)^[m] (A₀, 1)) (shrink N ^ m * off A₀ + m * (N * η)) (m * (N * η)) := by
  have hNη : 0 ≤ N * η := by positivity
  induction m with
  | zero =>
    have := After.start A₀ hA
    simpa using this
  | succ m ih =>
    push_cast at hm ⊢
    have hm' : m * (N * η) ≤ 1 := by linarith
    have h := (ih hm').step hm' hB hB2 hη (add_nonneg (mul_nonneg (pow_nonneg (shrink_nonneg N) m) (off_nonneg A₀))
      (by positivity)) hs
    rw [Function.iterate_succ_apply']
    refine ⟨h.symm, h.small.trans ?_, ?_⟩
    · have h1 : shrink N ≤ 1 := by
        unfold shrink
        have : 0 ≤ 1 / (N : ℝ) ^ 2 := by positivity
        linarith
      have h2 : shrink N * (m * (N * η)) ≤ m * (N * η) := mul_le_of_le_one_left (by positivity) h1
      rw [pow_succ]
      linarith [mul_assoc (shrink N) (shrink N ^ m) (off A₀), mul_comm (shrink N) (shrink N ^ m)]
    · obtain ⟨V, h1, h2, h3⟩ := h.orth
      exact ⟨V, h1, by linarith, by linarith⟩

theorem fro_neg (A : Mat N) : fro (-A) = fro A := by
  simp [fro]

/-- C125: Jacobi's method in rounded arithmetic: with relative errors of at most `u` and so many rotations that the part outside of
the diagonal is reduced by the factor `u`, the computed eigenvectors are close to an orthogonal matrix which diagonalises a matrix
close to the given one up to the computed eigenvalues. -/
theorem jacobi_accurate (N : ℕ) : ∃ K₀ : ℕ, ∀ K ≥ K₀, ∀ (op : FlOps) (u e : ℝ) (m : ℕ), op.Relative u → shrink N ^ m ≤ u → 0 ≤ e →
    K * ((m + 1) * u) ≤ e ^ K → ∀ (b : ℝ) (A : Mat N), 1 ≤ b → b * e ≤ 1 → Below b A →
      ∃ V : Mat N, Vᵀ * V = 1 ∧ Near (e * b ^ K) (jacobi op m A).1 V ∧
        Near (e * b ^ K) (V * diagonal (jacobi op m A).2 * Vᵀ) (symm A) := by
  obtain ⟨k, hk⟩ := step_near_all N
  refine ⟨N + (2 * N + 1) * (k * (N + 2) ^ k) + k + 1, fun K hK op u e m ho hm he hKe b A hb hbe hA => ?_⟩
  have hu := ho.nonneg
  have hb0 : 0 ≤ b := by linarith
  have hKR : (N + (2 * N + 1) * (k * (N + 2) ^ k) : ℝ) ≤ K := by
    have : N + (2 * N + 1) * (k * (N + 2) ^ k) ≤ K := by omega
    exact_mod_cast this
  -- the bound on the total error
  set E : ℝ := K * ((m + 1) * u) * b ^ K with hE
  have hE1 : E ≤ 1 := by
    have h1 : (b * e) ^ K ≤ 1 := pow_le_one₀ (mul_nonneg hb0 he) hbe
    rw [mul_pow, mul_comm] at h1
    exact (mul_le_mul_of_nonneg_right hKe (by positivity)).trans h1
  have hEe : E ≤ e * b ^ K := by
    have he1 : e ≤ 1 := by nlinarith
    exact mul_le_mul_of_nonneg_right (hKe.trans (pow_le_of_le_one he he1 (by omega))) (by positivity)
  set B : ℝ := (N + 2) * b with hBdef
  set η : ℝ := u * w k B with hηdef
  have hη0 : 0 ≤ η := mul_nonneg hu (w_nonneg k (by nlinarith [Nat.cast_nonneg (α := ℝ) N]))
  have hηle : η ≤ u * (k * (N + 2) ^ k) * b ^ K := by
    have h1 : b ^ k ≤ b ^ K := pow_le_pow_right₀ hb (by omega)
    have h2 : η = u * (k * (N + 2) ^ k) * b ^ k := by
      rw [hηdef, w, hBdef, mul_pow]
      ring
    rw [h2]
    exact mul_le_mul_of_nonneg_left h1 (by positivity)
  have hsum : (m + 1) * (u * N * b ^ K) + (m + 1) * ((2 * N + 1) * (u * (k * (N + 2) ^ k) * b ^ K)) ≤ E := by
    have h1 := mul_le_mul_of_nonneg_right hKR (show 0 ≤ ((m : ℝ) + 1) * u * b ^ K by positivity)
    rw [hE]
    linarith [show (N + (2 * N + 1) * (k * (N + 2) ^ k) : ℝ) * (((m : ℝ) + 1) * u * b ^ K) =
      (m + 1) * (u * N * b ^ K) + (m + 1) * ((2 * N + 1) * (u * (k * (N + 2) ^ k) * b ^ K)) by ring,
      show (K : ℝ) * (((m : ℝ) + 1) * u * b ^ K) = K * ((m + 1) * u) * b ^ K by ring]
  have hsum' : (m + 1) * (u * N * b ^ K) + (m + 1) * ((2 * N + 1) * η) ≤ E := by
    have := mul_le_mul_of_nonneg_left hηle (show 0 ≤ ((m : ℝ) + 1) * (2 * N + 1) by positivity)
    linarith [mul_assoc ((m : ℝ) + 1) (2 * N + 1) η, mul_assoc ((m : ℝ) + 1) (2 * N + 1) (u * (k * (N + 2) ^ k) * b ^ K)]
  have t1 : 0 ≤ (m + 1) * (u * N * b ^ K) := by positivity
  have t2 : 0 ≤ (m : ℝ) * η := by positivity
  have t3 : 0 ≤ (m : ℝ) * (N * η) := by positivity
  have t4 : 0 ≤ (N : ℝ) * η := by positivity
  have hsmall : u * w k B ≤ 1 := by
    rw [← hηdef]
    nlinarith
  have hmη : m * (N * η) ≤ 1 := by nlinarith
  have hmη2 : 2 * (m * (N * η)) + u * (N * b) ≤ E := by
    have h1 : u * (N * b) ≤ (m + 1) * (u * N * b ^ K) := by
      have h2 : b ≤ b ^ K := le_self_pow₀ hb (by omega)
      have h3 : u * N * b ≤ u * N * b ^ K := mul_le_mul_of_nonneg_left h2 (by positivity)
      have h4 : u * N * b ^ K ≤ (m + 1) * (u * N * b ^ K) := le_mul_of_one_le_left (by positivity) (by
        have := Nat.cast_nonneg (α := ℝ) m
        linarith)
      linarith [mul_assoc u (N : ℝ) b]
    nlinarith
  -- the rotations
  have hfro : fro (mirror A) ≤ N * b := fro_le hb0 fun i j => by
    simp only [mirror, of_apply]
    split <;> exact hA _ _
  have hN0 : (0 : ℝ) ≤ N := Nat.cast_nonneg N
  have hB1 : fro (mirror A) + 1 ≤ B := by
    rw [hBdef]
    linarith
  have hB2 : 2 ≤ B := by
    rw [hBdef]
    nlinarith
  have h := After.iterate (op := op) (η := η) (mirror_symm A) hB1 hB2 hη0 (fun p q X h1 h2 =>
    hk k le_rfl p q op u B X ho (by linarith) ⟨h1, h2⟩ hsmall) m hmη
  obtain ⟨V, hV, h1, h2⟩ := h.orth
  have hoff : off ((jacobiStep op)^[m] (mirror A, 1)).1 ≤ u * (N * b) + m * (N * η) := by
    refine h.small.trans (add_le_add_left (mul_le_mul hm ((off_le_fro _).trans hfro) (off_nonneg _) hu) _)
  have hVV : V * Vᵀ = 1 := mul_eq_one_comm.1 hV
  refine ⟨V, hV, fun i j => ?_, fun i j => ?_⟩
  · have := entry_le_fro (((jacobiStep op)^[m] (mirror A, 1)).2 - V) i j
    rw [Matrix.sub_apply] at this
    have t5 : 0 ≤ u * (N * b) := by positivity
    exact this.trans (by linarith)
  · set X := (jacobiStep op)^[m] (mirror A, 1) with hX
    have e1 : V * diagonal X.1.diag * Vᵀ - mirror A =
        V * (-(X.1 - diagonal X.1.diag) + (X.1 - Vᵀ * mirror A * V)) * Vᵀ := by
      have e2 : V * (Vᵀ * mirror A * V) * Vᵀ = mirror A := by
        simp only [Matrix.mul_assoc, hVV, Matrix.mul_one]
        rw [← Matrix.mul_assoc, hVV, Matrix.one_mul]
      have e3 : -(X.1 - diagonal X.1.diag) + (X.1 - Vᵀ * mirror A * V) = diagonal X.1.diag - Vᵀ * mirror A * V := by abel
      rw [e3, Matrix.mul_sub, Matrix.sub_mul, e2]
    have e4 := entry_le_fro (V * diagonal X.1.diag * Vᵀ - mirror A) i j
    rw [e1, fro_conj' hV, ← e1] at e4
    have e5 := fro_add (-(X.1 - diagonal X.1.diag)) (X.1 - Vᵀ * mirror A * V)
    rw [fro_neg] at e5
    rw [Matrix.sub_apply] at e4
    have e6 : fro (X.1 - diagonal X.1.diag) = off X.1 := rfl
    exact e4.trans (by linarith)

/-! ## The library with Jacobi's method -/

/-- the scalar operations and library functions -/
structure Scalars extends FlOps where
  exp : ℝ → ℝ
  expm1 : ℝ → ℝ

/-- relative errors of at most `u` -/
structure Scalars.Relative (sc : Scalars) (u : ℝ) : Prop where
  ops : sc.toFlOps.Relative u
  exp : ∀ x, |sc.exp x - Real.exp x| ≤ u * |Real.exp x|
  expm1 : ∀ x, |sc.expm1 x - (Real.exp x - 1)| ≤ u * |Real.exp x - 1|

/-- the library with `m` rotations of Jacobi's method as `dsyev` -/
noncomputable def jacobiLib (N : ℕ) (sc : Scalars) (m : ℕ) : Lib N :=
  { sc with
    syev := jacobi sc.toFlOps m }

theorem FlOps.Relative.mono {op : FlOps} {u e : ℝ} (h : op.Relative u) (hu : u ≤ e) : op.Relative e where
  add := fun x y => (h.add x y).trans (mul_le_mul_of_nonneg_right hu (abs_nonneg _))
  sub := fun x y => (h.sub x y).trans (mul_le_mul_of_nonneg_right hu (abs_nonneg _))
  mul := fun x y => (h.mul x y).trans (mul_le_mul_of_nonneg_right hu (abs_nonneg _))
  div := fun x y => (h.div x y).trans (mul_le_mul_of_nonneg_right hu (abs_nonneg _))
  sqrt := fun x => (h.sqrt x).trans (mul_le_mul_of_nonneg_right hu (Real.sqrt_nonneg _))

/-- the library with Jacobi's method meets the requirements of property C121 -/
theorem jacobiLib_relative (N : ℕ) : ∃ K : ℕ, K ≠ 0 ∧ ∀ (sc : Scalars) (u e : ℝ) (m : ℕ), sc.Relative u → shrink N ^ m ≤ u → 0 ≤ e →
    e ≤ 1 → K * ((m + 1) * u) ≤ e ^ K → u ≤ e ∧ (jacobiLib N sc m).Relative K e := by
  obtain ⟨K₀, h⟩ := jacobi_accurate N
  refine ⟨K₀ + 1, by omega, fun sc u e m hs hm he he1 hK => ?_⟩
  have hu := hs.ops.nonneg
  have hue : u ≤ e := by
    have h1 : e ^ (K₀ + 1) ≤ e := pow_le_of_le_one he he1 (by omega)
    have h2 : u ≤ ((K₀ + 1 : ℕ) : ℝ) * ((m + 1) * u) := by
      have h3 : u ≤ (m + 1) * u := le_mul_of_one_le_left hu (by
        have := Nat.cast_nonneg (α := ℝ) m
        linarith)
      have h4 : (m + 1) * u ≤ ((K₀ + 1 : ℕ) : ℝ) * ((m + 1) * u) := le_mul_of_one_le_left (by positivity) (by
        push_cast
        have := Nat.cast_nonneg (α := ℝ) K₀
        linarith)
      linarith
    linarith
  have E : ∀ {a b : ℝ}, a ≤ u * |b| → a ≤ e * |b| := fun h => h.trans (mul_le_mul_of_nonneg_right hue (abs_nonneg _))
  exact ⟨hue, hs.ops.mono hue, fun x => E (hs.exp x), fun x => E (hs.expm1 x), h (K₀ + 1) (by omega) sc.toFlOps u e m hs.ops hm he hK⟩

/-- non-vacuity: a symmetric matrix with two rows in an arithmetic with relative errors of `2⁻⁵³` -/
example : ∃ op : FlOps, op.Relative (2 ^ (-53 : ℤ)) ∧ op.add 1 1 ≠ 2 ∧
    ∃ m : ℕ, shrink 2 ^ m ≤ (2 : ℝ) ^ (-53 : ℤ) ∧ ((m : ℝ) + 1) ^ 2 * 2 ^ (-53 : ℤ) ≤ 1 := by
  refine ⟨flOpsSqrt fun x => (1 + 2 ^ (-53 : ℤ)) * x, flOpsSqrt_relative fun x => ?_, ?_, 200, ?_, ?_⟩
  · rw [show ((1 + 2 ^ (-53 : ℤ)) * x - x : ℝ) = 2 ^ (-53 : ℤ) * x by ring, abs_mul, abs_of_pos (by positivity)]
  · show ((1 + 2 ^ (-53 : ℤ)) * (1 + 1) : ℝ) ≠ 2
    norm_num
  · norm_num [shrink]
  · norm_num

end Verif.Reference
