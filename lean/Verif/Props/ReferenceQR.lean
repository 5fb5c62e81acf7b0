import Verif.Props.ReferenceBlas
import Mathlib.Analysis.SpecialFunctions.Pow.Real

/-! # Property C120, second part: Householder's decomposition in rounded arithmetic -/

set_option autoImplicit false

namespace Verif.Reference

open Filter Matrix Verif.Lapack Verif.Rounded Verif.Scale

/-! ## The exact reflection -/

section exact

variable {m : ℕ} (α : ℝ) (x : Fin m → ℝ)

open Classical in
/-- the multiple of the unit vector -/
noncomputable def exBeta : ℝ := if 0 ≤ α then -Real.sqrt (α * α + ∑ r, x r * x r) else Real.sqrt (α * α + ∑ r, x r * x r)

theorem sum_sq_nonneg : 0 ≤ ∑ r, x r * x r := Finset.sum_nonneg fun r _ => mul_self_nonneg (x r)

theorem exBeta_sq : exBeta α x * exBeta α x = α * α + ∑ r, x r * x r := by
  have h : 0 ≤ α * α + ∑ r, x r * x r := add_nonneg (mul_self_nonneg α) (sum_sq_nonneg x)
  unfold exBeta
  split
  · rw [neg_mul_neg, Real.mul_self_sqrt h]
  · rw [Real.mul_self_sqrt h]

theorem exBeta_sign : 0 ≤ exBeta α x * -α := by
  have hs := Real.sqrt_nonneg (α * α + ∑ r, x r * x r)
  unfold exBeta
  split
  · rename_i h
    rw [neg_mul_neg]
    exact mul_nonneg hs h
  · rename_i h
    exact mul_nonneg hs (by linarith)

variable {α x} (h0 : ∑ r, x r * x r ≠ 0)
include h0

theorem exBeta_ne : exBeta α x ≠ 0 := fun h => by
  have := exBeta_sq α x
  rw [h, mul_zero] at this
  have h1 := (sum_sq_nonneg x).lt_of_ne' h0
  nlinarith [mul_self_nonneg α]

theorem exDiff_ne : α - exBeta α x ≠ 0 := fun h => by
  have e : α = exBeta α x := by linarith
  have := exBeta_sq α x
  rw [← e] at this
  exact h0 (by linarith)

theorem exVec_le (r : Fin m) : |x r / (α - exBeta α x)| ≤ 1 := by
  have hne := exDiff_ne h0 (α := α)
  rw [abs_div, div_le_one (abs_pos.2 hne), ← sq_le_sq]
  have h1 : x r * x r ≤ ∑ r, x r * x r := Finset.single_le_sum (f := fun r => x r * x r) (fun r _ => mul_self_nonneg _) (Finset.mem_univ r)
  have h2 := exBeta_sq α x
  have h3 := exBeta_sign α x
  nlinarith [mul_self_nonneg α]

theorem exTau_le : |(exBeta α x - α) / exBeta α x| ≤ 2 := by
  have hne := exBeta_ne h0 (α := α)
  rw [abs_div, div_le_iff₀ (abs_pos.2 hne)]
  have h2 := exBeta_sq α x
  have h1 : |α| ≤ |exBeta α x| := by
    rw [← sq_le_sq]
    nlinarith [sum_sq_nonneg x]
  have := abs_sub (exBeta α x) α
  linarith

theorem exDot : α + ∑ r, x r / (α - exBeta α x) * x r = -exBeta α x := by
  have hne := exDiff_ne h0 (α := α)
  have e : ∑ r, x r / (α - exBeta α x) * x r = (∑ r, x r * x r) / (α - exBeta α x) := by
    rw [Finset.sum_div]
    exact Finset.sum_congr rfl fun r _ => by ring
  rw [e, show ∑ r, x r * x r = exBeta α x * exBeta α x - α * α by linarith [exBeta_sq α x]]
  field_simp
  ring

theorem exNorm : (exBeta α x - α) / exBeta α x * (1 + ∑ r, x r / (α - exBeta α x) * (x r / (α - exBeta α x))) = 2 := by
  have hne := exDiff_ne h0 (α := α)
  have hb := exBeta_ne h0 (α := α)
  have e : ∑ r, x r / (α - exBeta α x) * (x r / (α - exBeta α x)) = (∑ r, x r * x r) / (α - exBeta α x) ^ 2 := by
    rw [Finset.sum_div]
    exact Finset.sum_congr rfl fun r _ => by rw [div_mul_div_comm, sq]
  rw [e, show ∑ r, x r * x r = exBeta α x * exBeta α x - α * α by linarith [exBeta_sq α x]]
  field_simp
  ring

end exact

/-! ## The computed reflection -/

variable {ι : Type} {S : Scale ι} {op : ι → FlOps}

theorem Rel.eq_zero {x y : ι → ℝ} (h : S.Rel x y) : ∀ᶠ t in (S.U : Filter ι), x t = 0 ↔ y t = 0 := by
  obtain ⟨k, hk⟩ := h
  filter_upwards [hk, smallU S (2 * k)] with t h1 h2
  push_cast at h2
  constructor
  · intro e
    rw [e, zero_sub, abs_neg] at h1
    have h3 : (2 * k * S.u t) * |y t| ≤ 1 * |y t| := mul_le_mul_of_nonneg_right h2 (abs_nonneg _)
    have h4 := abs_nonneg (y t)
    exact abs_eq_zero.1 (by linarith [show (2 * k * S.u t) * |y t| = 2 * (k * S.u t * |y t|) by ring])
  · intro e
    rw [e, abs_zero, mul_zero, sub_zero] at h1
    exact abs_eq_zero.1 (le_antisymm h1 (abs_nonneg _))

section computed

variable (h : Ops S op)
include h

theorem rel_dotOn_sq {β : Type} (ks : List β) {z z₀ : ι → ℝ} (hz : S.Rel z z₀) (hz0 : ∀ t, 0 ≤ z₀ t) (f : ι → β → ℝ) :
    S.Rel (fun t => dotOn (op t).toOps ks (z t) (f t) (f t)) fun t => z₀ t + (ks.map fun k => f t k * f t k).sum := by
  induction ks generalizing z z₀ with
  | nil =>
    simp only [dotOn, List.foldl_nil, List.map_nil, List.sum_nil, add_zero]
    exact hz
  | cons k ks ih =>
    have h1 : S.Rel (fun t => (op t).add (z t) ((op t).mul (f t k) (f t k))) fun t => z₀ t + f t k * f t k :=
      (rel_add h).trans (hz.add (rel_mul h) (Eventually.of_forall fun t => mul_nonneg (hz0 t) (mul_self_nonneg _)))
    refine (ih h1 fun t => add_nonneg (hz0 t) (mul_self_nonneg _)).congr (Eventually.of_forall fun _ => rfl)
      (Eventually.of_forall fun t => ?_)
    rw [List.map_cons, List.sum_cons, add_assoc]

variable {m : ℕ} {α : ι → ℝ} {x : ι → Fin m → ℝ}

theorem rel_nrm2 (x : ι → Fin m → ℝ) : S.Rel (fun t => nrm2 (op t) (x t)) fun t => Real.sqrt (∑ r, x t r * x t r) := by
  have h1 := rel_dotOn_sq h (List.finRange m) (Rel.refl fun _ => 0) (fun _ => le_refl _) x
  refine (rel_sqrt h).trans ((h1.sqrt (Eventually.of_forall fun t => ?_)).congr (Eventually.of_forall fun _ => rfl)
    (Eventually.of_forall fun t => ?_))
  · rw [zero_add, sum_finRange]
    exact sum_sq_nonneg _
  · rw [zero_add, sum_finRange]

/-- what is needed of a computed reflection: a reflection up to errors which maps the column to a multiple of the unit vector -/
structure Reflection (S : Scale ι) (α : ι → ℝ) (x : ι → Fin m → ℝ) (β : ι → ℝ) (v : ι → Fin m → ℝ) (tau : ι → ℝ) : Prop where
  beta : S.Mod β
  norm : ∃ k : ℕ, ∀ᶠ t in (S.U : Filter ι), tau t = 0 ∨ |tau t * (1 + ∑ r, v t r * v t r) - 2| ≤ k * S.u t
  vec : ∀ᶠ t in (S.U : Filter ι), ∀ r, |v t r| ≤ 2
  scalar : S.Mod tau
  first : S.Sim (fun t => α t - tau t * (α t + ∑ r, v t r * x t r)) β
  rest : ∀ r, S.Sim (fun t => x t r - tau t * (α t + ∑ r, v t r * x t r) * v t r) fun _ => 0

theorem larfg_spec (hα : S.Mod α) (hx : ∀ r, S.Mod fun t => x t r) :
    Reflection S α x (fun t => (larfg (op t) (α t) (x t)).1) (fun t => (larfg (op t) (α t) (x t)).2.1)
      fun t => (larfg (op t) (α t) (x t)).2.2 := by
  classical
  have hn := rel_nrm2 h x
  have hz := Rel.eq_zero hn
  have hsz : ∀ t, Real.sqrt (∑ r, x t r * x t r) = 0 ↔ ∑ r, x t r * x t r = 0 := fun t => Real.sqrt_eq_zero (sum_sq_nonneg _)
  rcases cases S fun t => ∑ r, x t r * x t r = 0 with h0 | h0
  · -- nothing to do
    have key : ∀ᶠ t in (S.U : Filter ι), larfg (op t) (α t) (x t) = (α t, x t, 0) ∧ ∀ r, x t r = 0 := by
      filter_upwards [h0, hz] with t h1 h2
      refine ⟨?_, fun r => ?_⟩
      · unfold larfg
        exact if_pos (h2.2 ((hsz t).2 h1))
      · exact mul_self_eq_zero.1 ((Finset.sum_eq_zero_iff_of_nonneg fun r _ => mul_self_nonneg (x t r)).1 h1 r (Finset.mem_univ r))
    refine ⟨hα.congr (key.mono fun t ht => by rw [ht.1]), ⟨0, key.mono fun t ht => Or.inl (by rw [ht.1])⟩,
      key.mono fun t ht r => ?_, (Mod.const 0).congr (key.mono fun t ht => by rw [ht.1]),
      (Sim.refl hα).congr (key.mono fun t ht => ?_) (key.mono fun t ht => by rw [ht.1]),
      fun r => (Sim.const 0).congr (key.mono fun t ht => ?_) (Eventually.of_forall fun _ => rfl)⟩
    · rw [ht.1]
      dsimp only
      rw [ht.2 r, abs_zero]
      norm_num
    · rw [ht.1]
      simp
    · rw [ht.1]
      simp [ht.2 r]
  · -- the computed quantities
    have hs : S.Rel (fun t => (op t).sqrt ((op t).add ((op t).mul (α t) (α t)) ((op t).mul (nrm2 (op t) (x t)) (nrm2 (op t) (x t)))))
        fun t => Real.sqrt (α t * α t + ∑ r, x t r * x t r) := by
      refine (rel_sqrt h).trans (Rel.sqrt ((rel_add h).trans ?_) (Eventually.of_forall fun t => add_nonneg (mul_self_nonneg _) (sum_sq_nonneg _)))
      refine Rel.add (rel_mul h) (((rel_mul h).trans (hn.mul hn)).congr (Eventually.of_forall fun _ => rfl)
        (Eventually.of_forall fun t => (Real.mul_self_sqrt (sum_sq_nonneg _)).symm))
        (Eventually.of_forall fun t => mul_nonneg (mul_self_nonneg _) (sum_sq_nonneg _))
    set s : ι → ℝ := fun t => (op t).sqrt ((op t).add ((op t).mul (α t) (α t)) ((op t).mul (nrm2 (op t) (x t)) (nrm2 (op t) (x t)))) with hsdef
    set β : ι → ℝ := fun t => if 0 ≤ α t then -s t else s t with hβdef
    have hβ : S.Rel β fun t => exBeta (α t) (x t) := by
      obtain ⟨k, hk⟩ := hs
      refine ⟨k, hk.mono fun t ht => ?_⟩
      rw [hβdef]
      unfold exBeta
      dsimp only
      split
      · rw [abs_neg, ← neg_sub', abs_neg]
        exact ht
      · exact ht
    have hd : S.Rel (fun t => (op t).sub (β t) (α t)) fun t => exBeta (α t) (x t) - α t :=
      (rel_sub h).trans ((hβ.add (Rel.refl fun t => -α t) (Eventually.of_forall fun t => exBeta_sign _ _)).congr
        (Eventually.of_forall fun t => sub_eq_add_neg _ _) (Eventually.of_forall fun t => sub_eq_add_neg _ _))
    have hd' : S.Rel (fun t => (op t).sub (α t) (β t)) fun t => α t - exBeta (α t) (x t) :=
      (rel_sub h).trans (((hβ.add (Rel.refl fun t => -α t) (Eventually.of_forall fun t => exBeta_sign _ _)).neg).congr
        (Eventually.of_forall fun t => by ring) (Eventually.of_forall fun t => by ring))
    have ht : S.Rel (fun t => (op t).div ((op t).sub (β t) (α t)) (β t)) fun t => (exBeta (α t) (x t) - α t) / exBeta (α t) (x t) :=
      (rel_div h).trans (hd.div hβ)
    have hv : ∀ r, S.Rel (fun t => (op t).mul ((op t).div 1 ((op t).sub (α t) (β t))) (x t r)) fun t => x t r / (α t - exBeta (α t) (x t)) :=
      fun r => (rel_mul h).trans ((((rel_div h).trans ((Rel.refl fun _ => 1).div hd')).mul (Rel.refl fun t => x t r)).congr
        (Eventually.of_forall fun _ => rfl) (Eventually.of_forall fun t => by ring))
    have key : ∀ᶠ t in (S.U : Filter ι), larfg (op t) (α t) (x t) = (β t, fun r => (op t).mul ((op t).div 1 ((op t).sub (α t) (β t))) (x t r),
        (op t).div ((op t).sub (β t) (α t)) (β t)) := by
      filter_upwards [h0, hz] with t h1 h2
      unfold larfg
      exact if_neg fun e => h1 ((hsz t).1 (h2.1 e))
    -- exact bounds
    have mv : ∀ r, S.Mod fun t => x t r / (α t - exBeta (α t) (x t)) := fun r =>
      Mod.of_le 1 (h0.mono fun t ht => by exact_mod_cast exVec_le ht r)
    have mt : S.Mod fun t => (exBeta (α t) (x t) - α t) / exBeta (α t) (x t) :=
      Mod.of_le 2 (h0.mono fun t ht => by exact_mod_cast exTau_le ht)
    have mb : S.Mod fun t => exBeta (α t) (x t) := by
      have hq : S.Mod fun t => α t * α t + ∑ r, x t r * x t r + 1 :=
        ((hα.mul hα).add (Mod.sum _ fun r _ => (hx r).mul (hx r))).add (Mod.const 1)
      refine hq.mono (Eventually.of_forall fun t => ?_)
      have h1 := exBeta_sq (α t) (x t)
      have h2 : 0 ≤ α t * α t + ∑ r, x t r * x t r := add_nonneg (mul_self_nonneg _) (sum_sq_nonneg _)
      rw [abs_of_nonneg (by linarith : 0 ≤ α t * α t + ∑ r, x t r * x t r + 1), ← h1]
      nlinarith [abs_mul_abs_self (exBeta (α t) (x t)), mul_self_nonneg (|exBeta (α t) (x t)| - 1), abs_nonneg (exBeta (α t) (x t))]
    have sv := fun r => (hv r).sim (mv r)
    have st := ht.sim mt
    have sb := hβ.sim mb
    have sdot : S.Sim (fun t => α t + ∑ r, (larfg (op t) (α t) (x t)).2.1 r * x t r) fun t => -exBeta (α t) (x t) := by
      refine ((Sim.refl hα).add (Sim.sum Finset.univ fun r _ => (sv r).mul (Sim.refl (hx r)))).congr
        (key.mono fun t hk => by rw [hk]) (h0.mono fun t ht => (exDot ht).symm)
    have st' : S.Sim (fun t => (larfg (op t) (α t) (x t)).2.2) _ := st.congr (key.mono fun t hk => by rw [hk]) (Eventually.of_forall fun _ => rfl)
    have sv' : ∀ r, S.Sim (fun t => (larfg (op t) (α t) (x t)).2.1 r) _ := fun r =>
      (sv r).congr (key.mono fun t hk => by rw [hk]) (Eventually.of_forall fun _ => rfl)
    refine ⟨sb.left.congr (key.mono fun t hk => by rw [hk]), ?_, ?_, st'.left, ?_, fun r => ?_⟩
    · -- relative errors only
      have hsum : S.Rel (fun t => ∑ r, (op t).mul ((op t).div 1 ((op t).sub (α t) (β t))) (x t r) * (op t).mul ((op t).div 1 ((op t).sub (α t) (β t))) (x t r))
          fun t => ∑ r, x t r / (α t - exBeta (α t) (x t)) * (x t r / (α t - exBeta (α t) (x t))) := by
        have : ∀ s : Finset (Fin m), S.Rel (fun t => ∑ r ∈ s, (op t).mul ((op t).div 1 ((op t).sub (α t) (β t))) (x t r) * (op t).mul ((op t).div 1 ((op t).sub (α t) (β t))) (x t r))
            fun t => ∑ r ∈ s, x t r / (α t - exBeta (α t) (x t)) * (x t r / (α t - exBeta (α t) (x t))) := by
          intro s
          induction s using Finset.induction_on with
          | empty => simpa using Rel.refl fun _ => (0 : ℝ)
          | insert a s ha ih =>
            simp only [Finset.sum_insert ha]
            exact ((hv a).mul (hv a)).add ih (Eventually.of_forall fun t =>
              mul_nonneg (mul_self_nonneg _) (Finset.sum_nonneg fun r _ => mul_self_nonneg _))
        exact this Finset.univ
      obtain ⟨k, hk⟩ := ht.mul ((Rel.refl fun _ => 1).add hsum (Eventually.of_forall fun t =>
        mul_nonneg zero_le_one (Finset.sum_nonneg fun r _ => mul_self_nonneg _)))
      refine ⟨2 * k, ?_⟩
      filter_upwards [hk, key, h0] with t h1 h2 h3
      right
      rw [exNorm h3, abs_two] at h1
      rw [h2]
      push_cast
      linarith
    · have : ∀ r, ∀ᶠ t in (S.U : Filter ι), |(larfg (op t) (α t) (x t)).2.1 r| ≤ 2 := fun r => by
        filter_upwards [(sv' r).2.small one_pos, h0] with t h1 h2
        have h3 := exVec_le (α := α t) h2 r
        have := abs_sub_abs_le_abs_sub ((larfg (op t) (α t) (x t)).2.1 r) (x t r / (α t - exBeta (α t) (x t)))
        linarith
      exact eventually_all.2 this
    · have sb' : S.Sim (fun t => exBeta (α t) (x t)) fun t => (larfg (op t) (α t) (x t)).1 :=
        sb.symm.congr (Eventually.of_forall fun _ => rfl) (key.mono fun t hk => by rw [hk])
      refine Sim.trans (((Sim.refl hα).sub (st'.mul sdot)).congr (Eventually.of_forall fun _ => rfl) (h0.mono fun t ht => ?_)) sb'
      have hb := exBeta_ne ht (α := α t)
      field_simp
      ring
    · refine ((Sim.refl (hx r)).sub ((st'.mul sdot).mul (sv' r))).congr (Eventually.of_forall fun _ => rfl) (h0.mono fun t ht => ?_)
      have hb := exBeta_ne ht (α := α t)
      have hne := exDiff_ne ht (α := α t)
      field_simp
      ring

end computed

/-! ## The packed format -/

section packed

variable {m k : ℕ}

/-- one step of the decomposition -/
def pack (β : ℝ) (v : Fin m → ℝ) (b : Fin k → ℝ) (F : Matrix (Fin m) (Fin k) ℝ) : Matrix (Fin (m + 1)) (Fin (k + 1)) ℝ :=
  Matrix.of fun i j => Fin.cases (Fin.cases β (fun j => b j) j) (fun i => Fin.cases (v i) (fun j => F i j) j) i

variable (β : ℝ) (v : Fin m → ℝ) (b : Fin k → ℝ) (F : Matrix (Fin m) (Fin k) ℝ)

@[simp] theorem pack_zero_zero : pack β v b F 0 0 = β := rfl
@[simp] theorem pack_zero_succ (j : Fin k) : pack β v b F 0 j.succ = b j := rfl
@[simp] theorem pack_succ_zero (i : Fin m) : pack β v b F i.succ 0 = v i := rfl
@[simp] theorem pack_succ_succ (i : Fin m) (j : Fin k) : pack β v b F i.succ j.succ = F i j := rfl

theorem houseVec_pack_zero : houseVec (pack β v b F) 0 = Fin.cons 1 v := by
  ext r
  refine Fin.cases ?_ (fun r => ?_) r
  · simp [houseVec]
  · simp [houseVec]

theorem houseVec_pack_succ (i : Fin k) : houseVec (pack β v b F) i.succ = Fin.cons 0 (houseVec F i) := by
  ext r
  refine Fin.cases ?_ (fun r => ?_) r
  · simp [houseVec]
  · simp [houseVec]

theorem embed_refl (v : Fin m → ℝ) (tau : ℝ) : embed (Lapack.refl v tau) = Lapack.refl (Fin.cons 0 v) tau := by
  ext i j
  refine Fin.cases ?_ (fun i => ?_) i <;> refine Fin.cases ?_ (fun j => ?_) j <;>
    simp [Lapack.refl, vecMulVec_apply, one_apply, Fin.succ_ne_zero, (Fin.succ_ne_zero _).symm, Fin.succ_inj]

theorem qMat_pack (tau : ℝ) (taus : Fin k → ℝ) :
    qMat (pack β v b F) (Fin.cons tau taus) = Lapack.refl (Fin.cons 1 v) tau * embed (qMat F taus) := by
  unfold qMat
  rw [List.finRange_succ, List.map_cons, List.prod_cons, embed_list_prod, List.map_map]
  congr 1
  · show Lapack.refl (houseVec _ 0) _ = _
    rw [houseVec_pack_zero, Fin.cons_zero]
  · congr 1
    refine List.map_congr_left fun i _ => ?_
    show Lapack.refl (houseVec _ i.succ) _ = embed (Lapack.refl _ _)
    rw [houseVec_pack_succ, Fin.cons_succ, embed_refl]

theorem embed_mul_zero (Q : Mat m) (R : Matrix (Fin (m + 1)) (Fin k) ℝ) (j : Fin k) : (embed Q * R) 0 j = R 0 j := by
  rw [mul_apply, Fin.sum_univ_succ]
  simp

theorem embed_mul_succ (Q : Mat m) (R : Matrix (Fin (m + 1)) (Fin k) ℝ) (i : Fin m) (j : Fin k) :
    (embed Q * R) i.succ j = ∑ r, Q i r * R r.succ j := by
  rw [mul_apply, Fin.sum_univ_succ]
  simp

theorem reflects_pack {e : ℝ} {tau : ℝ} {taus : Fin k → ℝ} (h0 : tau = 0 ∨ |tau * (1 + ∑ r, v r * v r) - 2| ≤ e)
    (hv : ∀ r, |v r| ≤ 2) (h : Reflects e F taus) : Reflects e (pack β v b F) (Fin.cons tau taus) := by
  intro i
  refine Fin.cases ⟨?_, fun r hr => ?_⟩ (fun i => ⟨?_, fun r hr => ?_⟩) i
  · rw [houseVec_pack_zero, Fin.cons_zero]
    simpa [dotProduct, Fin.sum_univ_succ] using h0
  · obtain ⟨r, rfl⟩ := Fin.exists_succ_eq.2 (show r ≠ 0 by rintro rfl; simp at hr)
    exact hv r
  · rw [houseVec_pack_succ, Fin.cons_succ]
    simpa [dotProduct, Fin.sum_univ_succ] using (h i).1
  · obtain ⟨r, rfl⟩ := Fin.exists_succ_eq.2 (show r ≠ 0 by rintro rfl; simp at hr)
    exact (h i).2 r (by simpa using hr)

end packed

/-! ## The decomposition -/

section decomposition

variable (h : Ops S op)
include h

theorem geqrf_spec (k : ℕ) : ∀ (m : ℕ) (A : ι → Matrix (Fin m) (Fin k) ℝ), S.MMod A →
    (∃ K : ℕ, ∀ᶠ t in (S.U : Filter ι), Reflects (K * S.u t) (geqrf (op t) k m (A t)).1 (geqrf (op t) k m (A t)).2) ∧
    S.MSim (fun t => qMat (geqrf (op t) k m (A t)).1 (geqrf (op t) k m (A t)).2 * upper (geqrf (op t) k m (A t)).1) A := by
  induction k with
  | zero => exact fun m A _ => ⟨⟨0, Eventually.of_forall fun t i => i.elim0⟩, fun i j => j.elim0⟩
  | succ k ih =>
    intro m A hA
    cases m with
    | zero => exact ⟨⟨0, Eventually.of_forall fun t i => ⟨Or.inl rfl, fun r => r.elim0⟩⟩, fun i => i.elim0⟩
    | succ m =>
      have hr := larfg_spec h (hA 0 0) (x := fun t r => A t r.succ 0) fun r => hA r.succ 0
      set g : ι → ℝ × (Fin m → ℝ) × ℝ := fun t => larfg (op t) (A t 0 0) fun r => A t r.succ 0 with hg
      set v : ι → Fin (m + 1) → ℝ := fun t => Fin.cons 1 (g t).2.1 with hv
      set H : ι → Mat (m + 1) := fun t => Lapack.refl (v t) (g t).2.2 with hH
      set B : ι → Matrix (Fin (m + 1)) (Fin k) ℝ := fun t =>
        (applyRefl (op t).toOps 0 (v t) (g t).2.2 ((A t).submatrix id Fin.succ)ᵀ)ᵀ with hB
      -- moderate quantities
      have mv : ∀ j, S.Mod fun t => v t j := fun j => by
        refine Fin.cases ?_ (fun r => ?_) j
        · exact Mod.const 1
        · exact Mod.of_le 2 (hr.vec.mono fun t ht => by exact_mod_cast ht r)
      have mt : S.Mod fun t => (g t).2.2 := hr.scalar
      have mH : S.MMod H := fun i j => by
        have := (Mod.const ((1 : Mat (m + 1)) i j) (S := S)).sub (mt.mul ((mv i).mul (mv j)))
        simpa only [hH, Lapack.refl, Matrix.sub_apply, Matrix.smul_apply, vecMulVec_apply, smul_eq_mul] using this
      -- the other columns
      have hBs : S.MSim B fun t => H t * (A t).submatrix id Fin.succ := by
        have h1 := (sim_applyRefl h 0 mv (fun t j hj => absurd hj (Nat.not_lt_zero _)) mt
          (MSim.refl (A := fun t => ((A t).submatrix id (Fin.succ : Fin k → Fin (k + 1)))ᵀ) fun i j => hA j i.succ)).transpose
        refine h1.congr (Eventually.of_forall fun _ => rfl) (Eventually.of_forall fun t => ?_)
        show _ = ((_)ᵀ * Lapack.refl (v t) (g t).2.2)ᵀ
        rw [transpose_mul, transpose_transpose]
        congr 1
        rw [Lapack.refl, transpose_sub, transpose_one, transpose_smul, transpose_vecMulVec]
        rfl
      obtain ⟨⟨K, hK⟩, hQ⟩ := ih m (fun t => (B t).submatrix Fin.succ id) fun i j => hBs.left i.succ j
      set rest := fun t => geqrf (op t) k m ((B t).submatrix Fin.succ id) with hrest
      have e1 : ∀ t, (geqrf (op t) (k + 1) (m + 1) (A t)).1 = pack (g t).1 (g t).2.1 (B t 0) (rest t).1 := fun t => rfl
      have e2 : ∀ t, (geqrf (op t) (k + 1) (m + 1) (A t)).2 = Fin.cons (g t).2.2 (rest t).2 := fun t => rfl
      obtain ⟨K', hK'⟩ := hr.norm
      refine ⟨⟨K + K', ?_⟩, ?_⟩
      · filter_upwards [hK, hK', hr.vec] with t h1 h2 h3
        rw [e1, e2]
        have hu := S.u0 t
        have hp1 : (0 : ℝ) ≤ K * S.u t := mul_nonneg (Nat.cast_nonneg K) hu
        have hp2 : (0 : ℝ) ≤ K' * S.u t := mul_nonneg (Nat.cast_nonneg K') hu
        refine reflects_pack _ _ _ _ (h2.imp id fun h2 => h2.trans ?_) h3 (h1.mono ?_)
        · push_cast
          linarith
        · push_cast
          linarith
      · -- after the first reflection
        have hM : S.MSim (fun t => embed (qMat (rest t).1 (rest t).2) * upper (pack (g t).1 (g t).2.1 (B t 0) (rest t).1))
            fun t => H t * A t := by
          have eH : ∀ t (c : Fin (k + 1)) (i : Fin (m + 1)), (H t * A t) i c = A t i c - (g t).2.2 * (v t ⬝ᵥ fun r => A t r c) * v t i :=
            fun t c i => refl_mul_apply _ _ _ _ _
          have eC : ∀ t, (v t ⬝ᵥ fun r => A t r 0) = A t 0 0 + ∑ r, (g t).2.1 r * A t r.succ 0 := fun t => by
            simp [hv, dotProduct, Fin.sum_univ_succ]
          intro i j
          refine Fin.cases ?_ (fun i => ?_) i <;> refine Fin.cases ?_ (fun j => ?_) j
          · refine hr.first.symm.congr (Eventually.of_forall fun t => ?_) (Eventually.of_forall fun t => ?_)
            · beta_reduce
              rw [embed_mul_zero]
              simp [upper, hg]
            · beta_reduce
              rw [eH, eC, show v t 0 = 1 from rfl, mul_one]
          · refine (hBs 0 j).congr (Eventually.of_forall fun t => ?_) (Eventually.of_forall fun t => ?_)
            · beta_reduce
              rw [embed_mul_zero]
              simp [upper]
            · rfl
          · refine (hr.rest i).symm.congr (Eventually.of_forall fun t => ?_) (Eventually.of_forall fun t => ?_)
            · beta_reduce
              rw [embed_mul_succ]
              refine Finset.sum_eq_zero fun r _ => ?_
              simp [upper]
            · beta_reduce
              rw [eH, eC, show v t i.succ = (g t).2.1 i from rfl]
          · refine ((hQ i j).trans (hBs i.succ j)).congr (Eventually.of_forall fun t => ?_) (Eventually.of_forall fun t => ?_)
            · beta_reduce
              rw [embed_mul_succ, mul_apply]
              refine Finset.sum_congr rfl fun r _ => ?_
              simp [upper, hrest]
            · rfl
        have h1 := (MSim.refl mH).mul hM
        -- the reflection twice
        have h2 : S.MSim (fun t => H t * H t) fun _ => 1 := by
          have hn : S.Neg fun t => (g t).2.2 * ((g t).2.2 * (v t ⬝ᵥ v t) - 2) := by
            refine Neg.of_le (y := fun t => K' * (g t).2.2) ((Mod.const _).mul mt) (hK'.mono fun t ht => ?_)
            have e : v t ⬝ᵥ v t = 1 + ∑ r, (g t).2.1 r * (g t).2.1 r := by simp [hv, dotProduct, Fin.sum_univ_succ]
            rw [e, abs_mul, abs_mul, Nat.abs_cast]
            rcases ht with ht | ht
            · rw [show (g t).2.2 = 0 from ht]
              simp
            · have := mul_le_mul_of_nonneg_left ht (abs_nonneg (g t).2.2)
              linarith
          intro i j
          refine ⟨Mod.const _, (hn.mul ((mv i).mul (mv j))).congr (Eventually.of_forall fun t => ?_)⟩
          simp only [hH]
          rw [refl_mul_apply]
          simp only [Lapack.refl, Matrix.sub_apply, Matrix.smul_apply, vecMulVec_apply, smul_eq_mul, dotProduct, mul_sub, Finset.sum_sub_distrib]
          have e3 : ∑ x, v t x * (1 : Mat (m + 1)) x j = v t j := by
            rw [Finset.sum_eq_single j (fun x _ hx => by rw [one_apply_ne hx, mul_zero]) (by simp), one_apply_eq, mul_one]
          have e4 : ∑ x, v t x * ((g t).2.2 * (v t x * v t j)) = (∑ x, v t x * v t x) * (g t).2.2 * v t j := by
            rw [Finset.sum_mul, Finset.sum_mul]
            exact Finset.sum_congr rfl fun x _ => by ring
          rw [e3, e4]
          ring
        have h3 := h2.mul (MSim.refl hA)
        have h4 := h1.trans (h3.congr (Eventually.of_forall fun t => (Matrix.mul_assoc _ _ _).symm) (Eventually.of_forall fun t => rfl))
        refine h4.congr (Eventually.of_forall fun t => ?_) (Eventually.of_forall fun t => (Matrix.one_mul _).symm)
        rw [e1, e2, qMat_pack, Matrix.mul_assoc]

end decomposition

end Verif.Reference
