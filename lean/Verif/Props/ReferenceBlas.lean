import Verif.Model.Reference
import Verif.Lemmas.Scale
import Verif.Lemmas.LapackExists
import Verif.Props.RoundedBlocks

/-! # Property C120, first part: loops and reflections in rounded arithmetic -/

set_option autoImplicit false

namespace Verif.Reference

open Filter Matrix Verif.Lapack Verif.Rounded Verif.Scale

/-! ## Specification -/

/-- the results of the operations have relative errors of at most `u` -/
structure FlOps.Relative (op : FlOps) (u : ℝ) : Prop where
  add : ∀ x y, |op.add x y - (x + y)| ≤ u * |x + y|
  sub : ∀ x y, |op.sub x y - (x - y)| ≤ u * |x - y|
  mul : ∀ x y, |op.mul x y - x * y| ≤ u * |x * y|
  div : ∀ x y, |op.div x y - x / y| ≤ u * |x / y|
  sqrt : ∀ x, |op.sqrt x - Real.sqrt x| ≤ u * Real.sqrt x

/-! ## Single operations -/

variable {ι : Type} {S : Scale ι} {op : ι → FlOps} {x y x' y' : ι → ℝ}

/-- a family of operations -/
def Ops (S : Scale ι) (op : ι → FlOps) : Prop := ∀ t, (op t).Relative (S.u t)

section single

variable (h : Ops S op)
include h

theorem rel_add : S.Rel (fun t => (op t).add (x t) (y t)) fun t => x t + y t :=
  Rel.of_le (Eventually.of_forall fun t => (h t).add _ _)

theorem rel_sub : S.Rel (fun t => (op t).sub (x t) (y t)) fun t => x t - y t :=
  Rel.of_le (Eventually.of_forall fun t => (h t).sub _ _)

theorem rel_mul : S.Rel (fun t => (op t).mul (x t) (y t)) fun t => x t * y t :=
  Rel.of_le (Eventually.of_forall fun t => (h t).mul _ _)

theorem rel_div : S.Rel (fun t => (op t).div (x t) (y t)) fun t => x t / y t :=
  Rel.of_le (Eventually.of_forall fun t => (h t).div _ _)

theorem rel_sqrt : S.Rel (fun t => (op t).sqrt (x t)) fun t => Real.sqrt (x t) :=
  Rel.of_le (Eventually.of_forall fun t => by
    rw [abs_of_nonneg (Real.sqrt_nonneg _)]
    exact (h t).sqrt _)

theorem sim_add (hx : S.Sim x y) (hx' : S.Sim x' y') : S.Sim (fun t => (op t).add (x t) (x' t)) fun t => y t + y' t :=
  ((rel_add h).sim (hx.add hx').left).trans (hx.add hx')

theorem sim_sub (hx : S.Sim x y) (hx' : S.Sim x' y') : S.Sim (fun t => (op t).sub (x t) (x' t)) fun t => y t - y' t :=
  ((rel_sub h).sim (hx.sub hx').left).trans (hx.sub hx')

theorem sim_mul (hx : S.Sim x y) (hx' : S.Sim x' y') : S.Sim (fun t => (op t).mul (x t) (x' t)) fun t => y t * y' t :=
  ((rel_mul h).sim (hx.mul hx').left).trans (hx.mul hx')

/-! ## Sums of products -/

theorem sim_dotOn {α : Type} (ks : List α) {z z₀ : ι → ℝ} {f g f₀ g₀ : ι → α → ℝ} (hz : S.Sim z z₀)
    (hf : ∀ k ∈ ks, S.Sim (fun t => f t k) fun t => f₀ t k) (hg : ∀ k ∈ ks, S.Sim (fun t => g t k) fun t => g₀ t k) :
    S.Sim (fun t => dotOn (op t).toOps ks (z t) (f t) (g t)) fun t => z₀ t + (ks.map fun k => f₀ t k * g₀ t k).sum := by
  induction ks generalizing z z₀ with
  | nil =>
    simp only [dotOn, List.foldl_nil, List.map_nil, List.sum_nil, add_zero]
    exact hz
  | cons k ks ih =>
    have h1 := sim_add h hz (sim_mul h (hf k (List.mem_cons_self ..)) (hg k (List.mem_cons_self ..)))
    have h2 := ih h1 (fun i hi => hf i (List.mem_cons_of_mem _ hi)) fun i hi => hg i (List.mem_cons_of_mem _ hi)
    refine h2.congr (Eventually.of_forall fun _ => rfl) (Eventually.of_forall fun t => ?_)
    rw [List.map_cons, List.sum_cons, add_assoc]

omit h in
theorem sum_filter_finRange {n : ℕ} (p : Fin n → Prop) [DecidablePred p] (f : Fin n → ℝ) :
    (((List.finRange n).filter fun k => p k).map f).sum = ∑ k, if p k then f k else 0 := by
  rw [← List.sum_toFinset f ((List.nodup_finRange n).filter _), List.toFinset_filter, List.toFinset_finRange,
    ← Finset.sum_filter]
  simp

omit h in
theorem sum_finRange {n : ℕ} (f : Fin n → ℝ) : ((List.finRange n).map f).sum = ∑ k, f k := by
  rw [← List.sum_toFinset f (List.nodup_finRange n), List.toFinset_finRange]

/-! ## BLAS -/

variable {m l c : ℕ}

theorem sim_gemmAcc {X : ι → Matrix (Fin m) (Fin l) ℝ} {Y : ι → Matrix (Fin l) (Fin c) ℝ} {Z : ι → Matrix (Fin m) (Fin c) ℝ}
    (hX : S.MMod X) (hY : S.MMod Y) (hZ : S.MMod Z) :
    S.MSim (fun t => gemmAcc (op t).toOps (X t) (Y t) (Z t)) fun t => X t * Y t + Z t := fun i j => by
  refine (sim_dotOn h (List.finRange l) (Sim.refl (hZ i j)) (f := fun t => X t i) (g := fun t k => Y t k j)
    (fun k _ => Sim.refl (hX i k)) fun k _ => Sim.refl (hY k j)).congr (Eventually.of_forall fun _ => rfl)
    (Eventually.of_forall fun t => ?_)
  beta_reduce
  rw [Matrix.add_apply, mul_apply, sum_finRange, add_comm]

theorem sim_trmm {T : ι → Mat m} {B : ι → Matrix (Fin m) (Fin c) ℝ} (hT : S.MMod T) (hB : S.MMod B) :
    S.MSim (fun t => trmm (op t).toOps (T t) (B t)) fun t => upper (T t) * B t := fun i j => by
  refine (sim_dotOn h _ (Sim.const 0) (f := fun t => T t i) (g := fun t k => B t k j)
    (fun k _ => Sim.refl (hT i k)) fun k _ => Sim.refl (hB k j)).congr (Eventually.of_forall fun _ => rfl)
    (Eventually.of_forall fun t => ?_)
  beta_reduce
  rw [mul_apply, sum_filter_finRange, zero_add]
  refine Finset.sum_congr rfl fun k _ => ?_
  simp only [upper, of_apply, Fin.le_def]
  split <;> simp

theorem sim_trmmL {α : ι → ℝ} {T : ι → Mat m} {B : ι → Matrix (Fin m) (Fin c) ℝ} (hα : S.Mod α) (hT : S.MMod T) (hB : S.MMod B) :
    S.MSim (fun t => trmmL (op t).toOps (α t) (T t) (B t)) fun t => α t • (upper (T t) * B t) := fun i j => by
  refine (sim_dotOn h _ (Sim.const 0) (f := fun t => T t i) (g := fun t k => (op t).mul (α t) (B t k j))
    (g₀ := fun t k => α t * B t k j) (fun k _ => Sim.refl (hT i k)) fun k _ => sim_mul h (Sim.refl hα) (Sim.refl (hB k j))).congr
    (Eventually.of_forall fun _ => rfl) (Eventually.of_forall fun t => ?_)
  beta_reduce
  rw [Matrix.smul_apply, mul_apply, sum_filter_finRange, zero_add, smul_eq_mul, Finset.mul_sum]
  refine Finset.sum_congr rfl fun k _ => ?_
  simp only [upper, of_apply, Fin.le_def]
  split <;> ring

theorem sim_trmmR {T : ι → Mat c} {B : ι → Matrix (Fin m) (Fin c) ℝ} (hT : S.MMod T) (hB : S.MMod B) :
    S.MSim (fun t => trmmR (op t).toOps (B t) (T t)) fun t => B t * upper (T t) := fun i j => by
  refine (sim_dotOn h _ (Sim.const 0) (f := fun t => B t i) (g := fun t k => T t k j)
    (fun k _ => Sim.refl (hB i k)) fun k _ => Sim.refl (hT k j)).congr (Eventually.of_forall fun _ => rfl)
    (Eventually.of_forall fun t => ?_)
  beta_reduce
  rw [mul_apply, sum_filter_finRange, zero_add]
  refine Finset.sum_congr rfl fun k _ => ?_
  simp only [upper, of_apply, Fin.le_def]
  split <;> simp

theorem sim_ger {α : ι → ℝ} {v : ι → Fin m → ℝ} {w : ι → Fin c → ℝ} {A : ι → Matrix (Fin m) (Fin c) ℝ} (hα : S.Mod α)
    (hv : ∀ i, S.Mod fun t => v t i) (hw : ∀ i, S.Mod fun t => w t i) (hA : S.MMod A) :
    S.MSim (fun t => ger (op t).toOps (α t) (v t) (w t) (A t)) fun t => A t + α t • vecMulVec (v t) (w t) := fun i j => by
  refine (sim_add h (Sim.refl (hA i j)) (sim_mul h (Sim.refl (hv i)) (sim_mul h (Sim.refl hα) (Sim.refl (hw j))))).congr
    (Eventually.of_forall fun _ => rfl) (Eventually.of_forall fun t => ?_)
  beta_reduce
  rw [Matrix.add_apply, Matrix.smul_apply, vecMulVec_apply, smul_eq_mul]
  ring

/-! ## Reflections -/

omit h in
theorem mul_refl_apply (C : Matrix (Fin m) (Fin c) ℝ) (v : Fin c → ℝ) (tau : ℝ) (r : Fin m) (j : Fin c) :
    (C * Lapack.refl v tau) r j = C r j - tau * (∑ k, C r k * v k) * v j := by
  unfold Lapack.refl
  rw [Matrix.mul_sub, Matrix.mul_one, Matrix.sub_apply, Matrix.mul_smul, Matrix.smul_apply, mul_apply, smul_eq_mul]
  simp only [vecMulVec_apply, ← mul_assoc, ← Finset.sum_mul]

theorem sim_applyRefl (i : ℕ) {v : ι → Fin c → ℝ} {tau : ι → ℝ} {C C₀ : ι → Matrix (Fin m) (Fin c) ℝ}
    (hv : ∀ j, S.Mod fun t => v t j) (hv0 : ∀ t j, j.val < i → v t j = 0) (ht : S.Mod tau) (hC : S.MSim C C₀) :
    S.MSim (fun t => applyRefl (op t).toOps i (v t) (tau t) (C t)) fun t => C₀ t * Lapack.refl (v t) (tau t) := fun r j => by
  by_cases hj : j.val < i
  · refine (hC r j).congr (Eventually.of_forall fun t => ?_) (Eventually.of_forall fun t => ?_)
    · simp only [applyRefl, of_apply, if_pos hj]
    · beta_reduce
      rw [mul_refl_apply, hv0 t j hj, mul_zero, sub_zero]
  · have hd := sim_dotOn h ((List.finRange c).filter fun k => i ≤ k.val) (Sim.const 0) (f := fun t => C t r) (g := v)
      (f₀ := fun t => C₀ t r) (fun k _ => hC r k) fun k _ => Sim.refl (hv k)
    refine (sim_sub h (hC r j) (sim_mul h (sim_mul h (Sim.refl ht) hd) (Sim.refl (hv j)))).congr
      (Eventually.of_forall fun t => ?_) (Eventually.of_forall fun t => ?_)
    · simp only [applyRefl, of_apply, if_neg hj]
    · beta_reduce
      rw [mul_refl_apply, sum_filter_finRange, zero_add]
      have e : ∀ k, (if i ≤ k.val then C₀ t r k * v t k else 0) = C₀ t r k * v t k := fun k => by
        split
        · rfl
        · rw [hv0 t k (by omega), mul_zero]
      simp only [e]

/-- vectors and scalar factors of reflections are moderate -/
def ReflMod {c k : ℕ} (S : Scale ι) (F : ι → Matrix (Fin c) (Fin k) ℝ) (tau : ι → Fin k → ℝ) : Prop :=
  ∀ i, (S.Mod fun t => tau t i) ∧ ∀ r, i.val < r.val → S.Mod fun t => F t r i

omit h in
theorem ReflMod.vec {k : ℕ} {F : ι → Matrix (Fin c) (Fin k) ℝ} {tau : ι → Fin k → ℝ} (hF : ReflMod S F tau) (i : Fin k) (r : Fin c) :
    S.Mod fun t => houseVec (F t) i r := by
  unfold houseVec
  by_cases h1 : r.val < i.val
  · simp only [if_pos h1]
    exact Mod.const 0
  · simp only [if_neg h1]
    by_cases h2 : r.val = i.val
    · simp only [if_pos h2]
      exact Mod.const 1
    · simp only [if_neg h2]
      exact (hF i).2 r (by omega)

theorem sim_fold {k : ℕ} {F : ι → Matrix (Fin c) (Fin k) ℝ} {tau : ι → Fin k → ℝ} (hF : ReflMod S F tau) (is : List (Fin k))
    {C C₀ : ι → Matrix (Fin m) (Fin c) ℝ} (hC : S.MSim C C₀) :
    S.MSim (fun t => is.foldl (fun C i => applyRefl (op t).toOps i.val (houseVec (F t) i) (tau t i) C) (C t))
      fun t => C₀ t * (is.map (reflector (F t) (tau t))).prod := by
  induction is generalizing C C₀ with
  | nil =>
    refine hC.congr (Eventually.of_forall fun _ => rfl) (Eventually.of_forall fun t => ?_)
    rw [List.map_nil, List.prod_nil, Matrix.mul_one]
  | cons i is ih =>
    have h1 := sim_applyRefl h i.val (hF.vec i) (fun t j hj => by simp only [houseVec, if_pos hj]) (hF i).1 hC
    refine (ih h1).congr (Eventually.of_forall fun _ => rfl) (Eventually.of_forall fun t => ?_)
    rw [List.map_cons, List.prod_cons, ← Matrix.mul_assoc]
    rfl

theorem sim_ormqr {k : ℕ} {F : ι → Matrix (Fin c) (Fin k) ℝ} {tau : ι → Fin k → ℝ} (hF : ReflMod S F tau)
    {C : ι → Matrix (Fin m) (Fin c) ℝ} (hC : S.MMod C) :
    S.MSim (fun t => ormqr (op t).toOps (F t) (tau t) (C t)) fun t => C t * qMat (F t) (tau t) :=
  sim_fold h hF (List.finRange k) (MSim.refl hC)

omit h in
theorem qMat_transpose {k : ℕ} (F : Matrix (Fin c) (Fin k) ℝ) (tau : Fin k → ℝ) :
    (qMat F tau)ᵀ = ((List.finRange k).reverse.map (reflector F tau)).prod := by
  unfold qMat
  rw [Matrix.transpose_list_prod, List.map_map, ← List.map_reverse]
  congr 2
  ext i : 1
  rw [Function.comp_apply, reflector, transpose_sub, transpose_one, transpose_smul, transpose_vecMulVec]

theorem sim_ormqrT {k : ℕ} {F : ι → Matrix (Fin c) (Fin k) ℝ} {tau : ι → Fin k → ℝ} (hF : ReflMod S F tau)
    {C : ι → Matrix (Fin m) (Fin c) ℝ} (hC : S.MMod C) :
    S.MSim (fun t => ormqrT (op t).toOps (F t) (tau t) (C t)) fun t => C t * (qMat (F t) (tau t))ᵀ := by
  simp only [qMat_transpose]
  exact sim_fold h hF (List.finRange k).reverse (MSim.refl hC)

theorem sim_ormqrL {k : ℕ} {F : ι → Matrix (Fin m) (Fin k) ℝ} {tau : ι → Fin k → ℝ} (hF : ReflMod S F tau)
    {C : ι → Matrix (Fin m) (Fin c) ℝ} (hC : S.MMod C) :
    S.MSim (fun t => ormqrL (op t).toOps (F t) (tau t) (C t)) fun t => (qMat (F t) (tau t))ᵀ * C t := by
  have := (sim_ormqr h hF (C := fun t => (C t)ᵀ) fun i j => hC j i).transpose
  refine this.congr (Eventually.of_forall fun _ => rfl) (Eventually.of_forall fun t => ?_)
  rw [transpose_mul, transpose_transpose]

end single

end Verif.Reference
