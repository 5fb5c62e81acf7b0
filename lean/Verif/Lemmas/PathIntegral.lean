import Verif.Props.Hubbard
import Verif.Props.StationaryPh
import Mathlib.MeasureTheory.Integral.Pi
import Mathlib.Analysis.SpecialFunctions.Gaussian.GaussianIntegral

/-! # Integrals over the phonon coordinates -/

set_option autoImplicit false

namespace Verif.MonteCarlo

open MeasureTheory Verif.Fock Verif.TimeFlow Verif.GreensUneq Verif.Measurement

variable {σ : Type} {N : ℕ} {M : Type} {L : ℕ}

/-! ## Functions which grow at most exponentially -/

/-- sum of the absolute values of all coordinates -/
noncomputable def size (x : Paths L N) : ℝ := ∑ l, ∑ i, |x l i|

theorem size_nonneg (x : Paths L N) : 0 ≤ size x := Finset.sum_nonneg fun _ _ => Finset.sum_nonneg fun _ _ => abs_nonneg _

theorem coord_le_size (x : Paths L N) (l : Fin L) (i : Fin N) : |x l i| ≤ size x :=
  (Finset.single_le_sum (f := fun i => |x l i|) (fun _ _ => abs_nonneg _) (Finset.mem_univ i)).trans
    (Finset.single_le_sum (f := fun l => ∑ i, |x l i|) (fun _ _ => Finset.sum_nonneg fun _ _ => abs_nonneg _) (Finset.mem_univ l))

/-- continuous functions that grow at most exponentially -/
structure Tame (f : Paths L N → ℝ) : Prop where
  cont : Continuous f
  bound : ∃ C a : ℝ, 0 ≤ C ∧ 0 ≤ a ∧ ∀ x, |f x| ≤ C * Real.exp (a * size x)

theorem Tame.const (c : ℝ) : Tame fun _ : Paths L N => c :=
  ⟨continuous_const, |c|, 0, abs_nonneg _, le_rfl, fun x => by simp⟩

theorem Tame.mul {f g : Paths L N → ℝ} (hf : Tame f) (hg : Tame g) : Tame fun x => f x * g x := by
  obtain ⟨C, a, hC, ha, h⟩ := hf.bound
  obtain ⟨D, b, hD, hb, h'⟩ := hg.bound
  refine ⟨hf.cont.mul hg.cont, C * D, a + b, mul_nonneg hC hD, add_nonneg ha hb, fun x => ?_⟩
  rw [abs_mul, add_mul, Real.exp_add]
  calc |f x| * |g x| ≤ (C * Real.exp (a * size x)) * (D * Real.exp (b * size x)) :=
        mul_le_mul (h x) (h' x) (abs_nonneg _) (mul_nonneg hC (Real.exp_pos _).le)
    _ = _ := by ring

theorem Tame.add {f g : Paths L N → ℝ} (hf : Tame f) (hg : Tame g) : Tame fun x => f x + g x := by
  obtain ⟨C, a, hC, ha, h⟩ := hf.bound
  obtain ⟨D, b, hD, hb, h'⟩ := hg.bound
  refine ⟨hf.cont.add hg.cont, C + D, a + b, add_nonneg hC hD, add_nonneg ha hb, fun x => ?_⟩
  have h1 : Real.exp (a * size x) ≤ Real.exp ((a + b) * size x) :=
    Real.exp_le_exp.2 (mul_le_mul_of_nonneg_right (by linarith) (size_nonneg x))
  have h2 : Real.exp (b * size x) ≤ Real.exp ((a + b) * size x) :=
    Real.exp_le_exp.2 (mul_le_mul_of_nonneg_right (by linarith) (size_nonneg x))
  calc |f x + g x| ≤ |f x| + |g x| := abs_add_le _ _
    _ ≤ C * Real.exp (a * size x) + D * Real.exp (b * size x) := add_le_add (h x) (h' x)
    _ ≤ C * Real.exp ((a + b) * size x) + D * Real.exp ((a + b) * size x) :=
        add_le_add (mul_le_mul_of_nonneg_left h1 hC) (mul_le_mul_of_nonneg_left h2 hD)
    _ = _ := by ring

theorem Tame.smul {f : Paths L N → ℝ} (hf : Tame f) (c : ℝ) : Tame fun x => c * f x := (Tame.const c).mul hf

theorem Tame.sum {ι : Type} (t : Finset ι) {f : ι → Paths L N → ℝ} (hf : ∀ i ∈ t, Tame (f i)) :
    Tame fun x => ∑ i ∈ t, f i x := by
  classical
  induction t using Finset.induction_on with
  | empty => simpa using Tame.const 0
  | insert i t hi ih =>
    simp only [Finset.sum_insert hi]
    exact (hf i (Finset.mem_insert_self _ _)).add (ih fun j hj => hf j (Finset.mem_insert_of_mem hj))

theorem Tame.prod {ι : Type} (t : Finset ι) {f : ι → Paths L N → ℝ} (hf : ∀ i ∈ t, Tame (f i)) :
    Tame fun x => ∏ i ∈ t, f i x := by
  classical
  induction t using Finset.induction_on with
  | empty => simpa using Tame.const 1
  | insert i t hi ih =>
    simp only [Finset.prod_insert hi]
    exact (hf i (Finset.mem_insert_self _ _)).mul (ih fun j hj => hf j (Finset.mem_insert_of_mem hj))

theorem Tame.pow {f : Paths L N → ℝ} (hf : Tame f) (k : ℕ) : Tame fun x => f x ^ k := by
  induction k with
  | zero => simpa using Tame.const 1
  | succ k ih =>
    simp only [pow_succ]
    exact ih.mul hf

theorem extendX_le (x : Paths L N) (l : ℕ) (i : Fin N) : |extendX x l i| ≤ size x := by
  unfold extendX
  split
  · exact coord_le_size x _ i
  · rw [abs_zero]
    exact size_nonneg x

theorem Tame.coord (l : ℕ) (i : Fin N) : Tame fun x : Paths L N => extendX x l i :=
  ⟨extendX_continuous l i, 1, 1, zero_le_one, zero_le_one, fun x => by
    rw [one_mul, one_mul]
    have := Real.add_one_le_exp (size x)
    linarith [extendX_le x l i]⟩

theorem Tame.exp (c : ℝ) (l : ℕ) (i : Fin N) : Tame fun x : Paths L N => Real.exp (c * extendX x l i) :=
  ⟨Real.continuous_exp.comp (continuous_const.mul (extendX_continuous l i)), 1, |c|, zero_le_one, abs_nonneg _, fun x => by
    rw [one_mul, abs_of_pos (Real.exp_pos _)]
    refine Real.exp_le_exp.2 ((le_abs_self _).trans ?_)
    rw [abs_mul]
    exact mul_le_mul_of_nonneg_left (extendX_le x l i) (abs_nonneg _)⟩

/-- matrices with such entries -/
def TameM {m n : Type} (A : Paths L N → Matrix m n ℝ) : Prop := ∀ i j, Tame fun x => A x i j

theorem TameM.const {m n : Type} (A : Matrix m n ℝ) : TameM fun _ : Paths L N => A := fun i j => Tame.const (A i j)

theorem TameM.mul {m n p : Type} [Fintype n] {A : Paths L N → Matrix m n ℝ} {B : Paths L N → Matrix n p ℝ} (hA : TameM A)
    (hB : TameM B) : TameM fun x => A x * B x := fun i j => by
  simp only [Matrix.mul_apply]
  exact Tame.sum _ fun k _ => (hA i k).mul (hB k j)

theorem TameM.trace {m : Type} [Fintype m] {A : Paths L N → Matrix m m ℝ} (hA : TameM A) : Tame fun x => (A x).trace := by
  unfold Matrix.trace
  exact Tame.sum _ fun i _ => hA i i

theorem TameM.diagonal {m : Type} [DecidableEq m] {a : Paths L N → m → ℝ} (ha : ∀ i, Tame fun x => a x i) :
    TameM fun x => Matrix.diagonal (a x) := fun i j => by
  by_cases h : i = j
  · subst h
    simpa using ha i
  · simpa [h] using Tame.const 0

theorem TameM.oprod {m : Type} [Fintype m] [DecidableEq m] {A : ℕ → Paths L N → Matrix m m ℝ} (hA : ∀ k, TameM (A k)) (k : ℕ) :
    TameM fun x => Fock.oprod (fun j => A j x) k := by
  induction k with
  | zero => exact TameM.const 1
  | succ k ih => exact (hA k).mul ih

/-! ## Integrability -/

variable {sys : Sys σ N M} {ph : Phonon} {rest : Measure ℝ}

/-- all exponentials are integrable (for instance a bounded random variable) -/
def Light (rest : Measure ℝ) : Prop := ∀ a, Integrable (fun t => Real.exp (a * |t|)) rest

theorem Light.dirac (c : ℝ) : Light (Measure.dirac c) := fun a => integrable_dirac (by simp)

theorem integrable_gauss {b : ℝ} (hb : 0 < b) (a : ℝ) : Integrable fun t : ℝ => Real.exp (a * |t| - b * t ^ 2) := by
  refine ((integrable_exp_neg_mul_sq (half_pos hb)).const_mul (Real.exp (a ^ 2 / (2 * b)))).mono'
    (Continuous.aestronglyMeasurable (by fun_prop)) (Filter.Eventually.of_forall fun t => ?_)
  rw [Real.norm_of_nonneg (Real.exp_pos _).le, ← Real.exp_add]
  refine Real.exp_le_exp.2 ?_
  have h : 0 ≤ b / 2 * (|t| - a / b) ^ 2 := by positivity
  have e : b / 2 * (|t| - a / b) ^ 2 = b / 2 * t ^ 2 - a * |t| + a ^ 2 / (2 * b) := by
    rw [sub_sq, sq_abs]
    field_simp
  linarith

theorem energy_ge (x : Paths L N) :
    ∑ l, ∑ i, ph.omega (sys.orb i) ^ 2 * x l i ^ 2 / 2 ≤ sys.energy ph L (extendX x) := by
  unfold Sys.energy pathEnergy
  rw [Finset.sum_comm]
  refine Finset.sum_le_sum fun i _ => ?_
  rw [← Fin.sum_univ_eq_sum_range (fun l => ph.omega (sys.orb i) ^ 2 * extendX x l i ^ 2 / 2 +
    ((extendX x ((l + 1) % L) i - extendX x l i) / ph.dt) ^ 2 / 2) L]
  refine Finset.sum_le_sum fun l _ => ?_
  have e : extendX x l i = x l i := by simp [extendX]
  rw [e]
  have : 0 ≤ ((extendX x ((l + 1) % L) i - x l i) / ph.dt) ^ 2 / 2 := by positivity
  linarith

theorem energy_continuous : Continuous fun x : Paths L N => sys.energy ph L (extendX x) := by
  unfold Sys.energy pathEnergy
  refine continuous_finsetSum _ fun i _ => continuous_finsetSum _ fun l _ => ?_
  have h1 := extendX_continuous (L := L) (N := N) l i
  have h2 := extendX_continuous (L := L) (N := N) ((l + 1) % L) i
  exact ((continuous_const.mul (h1.pow 2)).div_const _).add ((((h2.sub h1).div_const _).pow 2).div_const _)

/-- the factors of the bound -/
theorem siteBase_integrable (hr : Light rest) (hdt : 0 < ph.dt)
    (hom : ∀ i, ph.g (sys.orb i) ≠ 0 → ph.omega (sys.orb i) ≠ 0) (a : ℝ) (i : Fin N) :
    Integrable (fun t : ℝ => Real.exp (a * |t| - ph.dt * (ph.omega (sys.orb i) ^ 2 * t ^ 2 / 2))) (siteBase sys ph rest i) := by
  unfold siteBase
  split
  · refine (hr a).mono' (Continuous.aestronglyMeasurable (by fun_prop)) (Filter.Eventually.of_forall fun t => ?_)
    rw [Real.norm_of_nonneg (Real.exp_pos _).le]
    refine Real.exp_le_exp.2 ?_
    have : 0 ≤ ph.dt * (ph.omega (sys.orb i) ^ 2 * t ^ 2 / 2) := by positivity
    linarith
  · rename_i hg
    have h := integrable_gauss (b := ph.dt * ph.omega (sys.orb i) ^ 2 / 2)
      (by have := pow_pos (abs_pos.2 (hom i hg)) 2; rw [sq_abs] at this; positivity) a
    refine h.congr (Filter.Eventually.of_forall fun t => ?_)
    show Real.exp _ = Real.exp _
    congr 1
    ring

instance [SigmaFinite rest] (i : Fin N) : SigmaFinite (siteBase sys ph rest i) := by
  unfold siteBase
  split <;> infer_instance

/-- functions of at most exponential growth are integrable with respect to the weight of the phonons -/
theorem Tame.integrable [SigmaFinite rest] (hr : Light rest) (hdt : 0 < ph.dt)
    (hom : ∀ i, ph.g (sys.orb i) ≠ 0 → ph.omega (sys.orb i) ≠ 0) {f : Paths L N → ℝ} (hf : Tame f) :
    Integrable (fun x => f x * Real.exp (-ph.dt * sys.energy ph L (extendX x))) (pathBase sys ph rest L) := by
  obtain ⟨C, a, hC, ha, h⟩ := hf.bound
  have hi : Integrable (fun x : Paths L N => ∏ l, ∏ i, Real.exp (a * |x l i| - ph.dt * (ph.omega (sys.orb i) ^ 2 * x l i ^ 2 / 2)))
      (pathBase sys ph rest L) :=
    Integrable.fintype_prod (f := fun (_ : Fin L) (y : Fin N → ℝ) => ∏ i, Real.exp (a * |y i| - ph.dt * (ph.omega (sys.orb i) ^ 2 * y i ^ 2 / 2)))
      fun _ => Integrable.fintype_prod (f := fun i t => Real.exp (a * |t| - ph.dt * (ph.omega (sys.orb i) ^ 2 * t ^ 2 / 2)))
        fun i => siteBase_integrable hr hdt hom a i
  refine (hi.const_mul C).mono' (Continuous.aestronglyMeasurable
    (hf.cont.mul (Real.continuous_exp.comp (continuous_const.mul energy_continuous)))) (Filter.Eventually.of_forall fun x => ?_)
  rw [Real.norm_eq_abs, abs_mul, abs_of_pos (Real.exp_pos _)]
  have e : ∏ l, ∏ i, Real.exp (a * |x l i| - ph.dt * (ph.omega (sys.orb i) ^ 2 * x l i ^ 2 / 2))
      = Real.exp (a * size x) * Real.exp (-ph.dt * ∑ l, ∑ i, ph.omega (sys.orb i) ^ 2 * x l i ^ 2 / 2) := by
    simp only [← Real.exp_sum, Finset.sum_sub_distrib, ← Finset.mul_sum]
    rw [← Real.exp_add, neg_mul, ← sub_eq_add_neg]
    rfl
  rw [e]
  calc |f x| * Real.exp (-ph.dt * sys.energy ph L (extendX x))
      ≤ (C * Real.exp (a * size x)) * Real.exp (-ph.dt * ∑ l, ∑ i, ph.omega (sys.orb i) ^ 2 * x l i ^ 2 / 2) := by
        refine mul_le_mul (h x) (Real.exp_le_exp.2 ?_) (Real.exp_pos _).le (mul_nonneg hC (Real.exp_pos _).le)
        rw [neg_mul, neg_mul, neg_le_neg_iff]
        exact mul_le_mul_of_nonneg_left (energy_ge x) hdt.le
    _ = _ := by ring

/-! ## Traces -/

/-- the trace for a field and a path, with the operators `X` at slice `l` and `Y` at slice 0 -/
noncomputable def fieldTrace (sys : Sys σ N M) (ph : Phonon) (L l : ℕ) (X Y : Op (Mode N)) (s : Field L N) (x : Paths L N) : ℝ :=
  let E := sys.expOf ph (extendX x)
  let Bu := sys.fieldB sys.hs.expVu (Fock.extend s) E
  let Bd := sys.fieldB sys.hs.expVd (Fock.extend s) E
  (gamma (both (seg Bu L l) (seg Bd L l)) * X * gamma (both (prodSeq Bu l) (prodSeq Bd l)) * Y).trace

theorem fieldOp_tame (l : ℕ) (a : Fin N → Fin 2) :
    TameM fun x : Paths L N => fieldOp sys (sys.expOf ph (extendX x)) l a := by
  unfold fieldOp Sys.fieldB
  simp only [← both_mul, ← gamma_mul', gamma_both_diagonal]
  refine TameM.mul (TameM.diagonal fun S => Tame.prod _ fun i _ => ?_) (TameM.const _)
  have h : ∀ c : ℝ, Tame fun x : Paths L N => c * sys.expOf ph (extendX x) l i := fun c => (Tame.exp _ l i).smul c
  refine Tame.mul ?_ ?_
  · split
    · exact h _
    · exact Tame.const 1
  · split
    · exact h _
    · exact Tame.const 1

theorem fieldTrace_tame (l : ℕ) (X Y : Op (Mode N)) (s : Field L N) : Tame (fieldTrace sys ph L l X Y s) := by
  unfold fieldTrace
  simp only [seg, ← oprod_gamma, ← fieldOp_extend]
  refine TameM.trace (TameM.mul (TameM.mul (TameM.mul ?_ (TameM.const X)) ?_) (TameM.const Y))
  · exact TameM.oprod (A := fun j x => fieldOp sys (sys.expOf ph (extendX x)) (l + j) (Fock.extend s (l + j)))
      (fun j => fieldOp_tame _ _) (L - l)
  · exact TameM.oprod (A := fun j x => fieldOp sys (sys.expOf ph (extendX x)) j (Fock.extend s j))
      (fun j => fieldOp_tame _ _) l

end Verif.MonteCarlo
