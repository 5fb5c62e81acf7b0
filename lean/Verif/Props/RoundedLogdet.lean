import Verif.Props.RoundedSteps
import Verif.Props.ReferenceLU
import Mathlib.Analysis.SpecialFunctions.Log.Deriv

/-! # Property C123, first part: the logarithm of the determinant in rounded arithmetic -/

set_option autoImplicit false

namespace Verif.Rounded

open Filter Topology Matrix Verif.Lapack Verif.TimeFlow Verif.Greens Verif.Stratonovich Verif.MonteCarlo Verif.Ultra

variable {N : ℕ}

/-! ## Specification -/

/-- the logarithm has an error of at most `u b` for arguments between `1 / b` and `b` -/
def Ops.LogWithin (op : Ops) (u : ℝ) : Prop :=
  ∀ b x, 1 ≤ b → b * u ≤ 1 → 1 ≤ b * x → x ≤ b → |op.log x - Real.log x| ≤ u * b

/-- the multipliers of the elimination are bounded, because the pivot is the largest entry of its column -/
def Arith.Pivoted (ar : Arith N) : Prop := ∀ (A : Mat N) i j, j < i → |(ar.getrf A).1 i j| ≤ 2

/-- the textbook elimination chooses pivots which are large enough -/
theorem getrf_pivoted {op : Ops} {u : ℝ} (hu : u ≤ 1) (hdiv : ∀ x y, |op.div x y - x / y| ≤ u * |x / y|) (n : ℕ) (A : Mat n)
    (i j : Fin n) (h : j < i) : |(Reference.getrf op n A).1 i j| ≤ 2 := by
  induction n with
  | zero => exact i.elim0
  | succ n ih =>
    obtain ⟨i, rfl⟩ : ∃ i' : Fin n, i = i'.succ := Fin.exists_succ_eq.2 (Fin.pos_iff_ne_zero.1 (lt_of_le_of_lt (Fin.zero_le j) h)) |>.imp
      fun _ h => h.symm
    rw [Reference.getrf]
    simp only [of_apply, Fin.cases_succ]
    refine Fin.cases ?_ (fun j' => ?_) j (motive := fun j => j < i.succ → |(Fin.cases _ _ j : ℝ)| ≤ 2) h
    · intro _
      refine Reference.laswp_le _ (fun k => ?_) i
      have hm : ∀ m, |A m 0| ≤ |A (Reference.idamax fun i => A i 0) 0| := fun m => Reference.idamax_spec (fun i => A i 0) m
      simp only [Equiv.swap_apply_left]
      set p := Reference.idamax fun i => A i 0
      split
      · rename_i h0
        have := hm (Equiv.swap 0 p k.succ)
        rw [h0, abs_zero] at this
        linarith
      · rename_i h0
        have h1 : |A (Equiv.swap 0 p k.succ) 0 / A p 0| ≤ 1 := by
          rw [abs_div]
          exact (div_le_one (abs_pos.2 h0)).2 (hm _)
        have h2 := hdiv (A (Equiv.swap 0 p k.succ) 0) (A p 0)
        have h3 := abs_add_le (op.div (A (Equiv.swap 0 p k.succ) 0) (A p 0) - A (Equiv.swap 0 p k.succ) 0 / A p 0)
          (A (Equiv.swap 0 p k.succ) 0 / A p 0)
        rw [sub_add_cancel] at h3
        have h4 : u * |A (Equiv.swap 0 p k.succ) 0 / A p 0| ≤ 1 := by
          rcases le_total 0 u with h | h
          · nlinarith [abs_nonneg (A (Equiv.swap 0 p k.succ) 0 / A p 0)]
          · nlinarith [abs_nonneg (A (Equiv.swap 0 p k.succ) 0 / A p 0)]
        linarith
    · intro hj
      exact ih _ i j' (by simpa using hj)

/-! ## Limits -/

section limits

variable {ι : Type} {U : Ultrafilter ι} {ar : ι → Arith N} {k : ℕ} {u : ι → ℝ}

theorem log_lim {op : ι → Ops} (hu : Tendsto u U (𝓝 0)) (hl : ∀ᶠ t in (U : Filter ι), (op t).LogWithin (u t)) {x : ι → ℝ} {x₀ : ℝ}
    (hx : Tendsto x U (𝓝 x₀)) (h0 : 0 < x₀) : Tendsto (fun t => (op t).log (x t)) U (𝓝 (Real.log x₀)) := by
  have hp : 0 ≤ 2 / |x₀| := by positivity
  refine lim_of_near (c := |x₀| + 2 / |x₀| + 1) hu (hx.log h0.ne') ?_
  filter_upwards [hl, bounded_of_lim hx, away hx h0.ne', hx.eventually (lt_mem_nhds h0), small hu (|x₀| + 2 / |x₀| + 1)] with t a b c d e
  have h1 := abs_nonneg x₀
  rw [abs_of_pos d] at b c
  exact a _ _ (by linarith) e (c.trans (mul_le_mul_of_nonneg_right (by linarith) d.le)) (by linarith)

/-- the pivots of convergent matrices converge -/
theorem Along.pivots (h : Along U ar k u) (hp : ∀ᶠ t in (U : Filter ι), (ar t).Pivoted) {S : ι → Mat N} {S₀ : Mat N} (hS : MLim U S S₀)
    (hdet : S₀.det ≠ 0) : ∃ w : Fin N → ℝ, (∀ i, Tendsto (fun t => ((ar t).getrf (S t)).1 i i) U (𝓝 (w i))) ∧ |∏ i, w i| = |S₀.det| := by
  have hq : 0 ≤ 2 / |S₀.det| := by positivity
  have s1 := one_le_bnd S₀
  have hP : MLim U (fun t => pivMat ((ar t).getrf (S t)).2 * unitLower ((ar t).getrf (S t)).1 * upper ((ar t).getrf (S t)).1) S₀ := by
    refine mlim_of_near (c := (bnd S₀ + 2 / |S₀.det|) ^ k) h.null hS ?_
    filter_upwards [h.within, hS.below, away hS.det hdet, small h.null (bnd S₀ + 2 / |S₀.det|)] with t a b c d
    exact a.getrf _ _ (by linarith) d (b.mono (by linarith)) (c.trans (mul_le_mul_of_nonneg_right (by linarith) (abs_nonneg _)))
  obtain ⟨ip, hip⟩ := exists_const (U := U) fun t => ((ar t).getrf (S t)).2
  obtain ⟨L₀, hL⟩ := exists_mlim (U := U) (A := fun t => unitLower ((ar t).getrf (S t)).1) (b := 2) (hp.mono fun t ht i j => by
    simp only [unitLower, of_apply]
    split
    · rename_i hij
      exact ht (S t) i j hij
    · split <;> norm_num)
  have hL1 : L₀.det = 1 := by
    refine tendsto_nhds_unique hL.det (tendsto_const_nhds.congr fun t => ?_)
    exact (det_unitLower _).symm
  have hpd : (pivMat ip).det ≠ 0 := by
    rw [det_pivMat]
    refine Finset.prod_ne_zero_iff.2 fun i _ => ?_
    split <;> norm_num
  have hPL : MLim U (fun t => pivMat ((ar t).getrf (S t)).2 * unitLower ((ar t).getrf (S t)).1) (pivMat ip * L₀) := by
    refine MLim.mul (MLim.congr' (MLim.const _) (hip.mono fun t ht => ?_)) hL
    rw [ht]
  have hU : MLim U (fun t => upper ((ar t).getrf (S t)).1) ((pivMat ip * L₀)⁻¹ * S₀) := by
    have hne : (pivMat ip * L₀).det ≠ 0 := by rw [det_mul, hL1, mul_one]; exact hpd
    refine ((hPL.inv hne).mul hP).congr' ?_
    filter_upwards [hPL.det.eventually_ne hne] with t ht
    rw [← Matrix.mul_assoc, Matrix.nonsing_inv_mul _ (IsUnit.mk0 _ ht), Matrix.one_mul]
  have hw : ∀ i, Tendsto (fun t => ((ar t).getrf (S t)).1 i i) U (𝓝 (((pivMat ip * L₀)⁻¹ * S₀) i i)) := by
    intro i
    refine (hU i i).congr fun t => ?_
    simp [upper]
  refine ⟨_, hw, ?_⟩
  have h1 : Tendsto (fun t => |∏ i, ((ar t).getrf (S t)).1 i i|) U (𝓝 |∏ i, ((pivMat ip * L₀)⁻¹ * S₀) i i|) :=
    (tendsto_finsetProd _ fun i _ => hw i).abs
  refine tendsto_nhds_unique h1 (hP.det.abs.congr fun t => ?_)
  rw [det_lu _ _ _ rfl, abs_mul]
  have : |∏ i, (if ((ar t).getrf (S t)).2 i ≠ i then (-1 : ℝ) else 1)| = 1 := by
    rw [Finset.abs_prod]
    refine Finset.prod_eq_one fun i _ => ?_
    split <;> norm_num
  rw [this, one_mul]

theorem foldU_lim (h : OpsAlong U (fun t => (ar t).toOps) u) (hl : ∀ᶠ t in (U : Filter ι), (ar t).toOps.LogWithin (u t))
    {F : ι → Mat N} {ip : ι → Fin N → Fin N} {w : Fin N → ℝ} (hw : ∀ i, Tendsto (fun t => F t i i) U (𝓝 (w i))) (h0 : ∀ i, w i ≠ 0)
    (is : List (Fin N)) {r : ι → DetRec} {a : ℝ} (hr : Tendsto (fun t => (r t).logdet) U (𝓝 a)) :
    Tendsto (fun t => (is.foldl (detStepU (ar t) (F t) (ip t)) (r t)).logdet) U (𝓝 (a - (is.map fun i => Real.log |w i|).sum)) := by
  induction is generalizing r a with
  | nil => simpa using hr
  | cons i is ih =>
    simp only [List.foldl_cons, List.map_cons, List.sum_cons]
    rw [← sub_sub]
    refine ih (r := fun t => detStepU (ar t) (F t) (ip t) (r t) i) ?_
    refine (h.sub hr (log_lim h.null hl (hw i).abs (abs_pos.2 (h0 i)))).congr fun t => ?_
    unfold detStepU
    have e : (if F t i i < 0 then -F t i i else F t i i) = |F t i i| := by
      split
      · rename_i hneg
        exact (abs_of_neg hneg).symm
      · rename_i hneg
        exact (abs_of_nonneg (not_lt.1 hneg)).symm
    simp only [e]
    split <;> split <;> rfl

theorem foldD_lim (h : OpsAlong U (fun t => (ar t).toOps) u) (hl : ∀ᶠ t in (U : Filter ι), (ar t).toOps.LogWithin (u t))
    {d : ι → Fin N → ℝ} {w : Fin N → ℝ} {le : Fin N → Bool} (hle : ∀ᶠ t in (U : Filter ι), ∀ i, (|d t i| ≤ 1.0 ↔ le i = true))
    (hw : ∀ i, Tendsto (fun t => d t i) U (𝓝 (w i))) (h0 : ∀ i, w i ≠ 0)
    (is : List (Fin N)) {r : ι → DetRec} {a : ℝ} (hr : Tendsto (fun t => (r t).logdet) U (𝓝 a)) :
    Tendsto (fun t => (is.foldl (detStepD (ar t) (d t)) (r t)).logdet) U
      (𝓝 (a - (is.map fun i => Real.log |if le i then 1 else w i|).sum)) := by
  induction is generalizing r a with
  | nil => simpa using hr
  | cons i is ih =>
    simp only [List.foldl_cons, List.map_cons, List.sum_cons]
    rw [← sub_sub]
    refine ih (r := fun t => detStepD (ar t) (d t) (r t) i) ?_
    by_cases hi : le i = true
    · simp only [if_pos hi, abs_one, Real.log_one, sub_zero]
      refine hr.congr' ?_
      filter_upwards [hle] with t ht
      unfold detStepD
      rw [if_pos ((ht i).2 hi)]
    · simp only [if_neg hi]
      refine (h.sub hr (log_lim h.null hl (hw i).abs (abs_pos.2 (h0 i)))).congr' ?_
      filter_upwards [hle] with t ht
      unfold detStepD
      have e : (if d t i < 0 then -d t i else d t i) = |d t i| := by
        split
        · rename_i hneg
          exact (abs_of_neg hneg).symm
        · rename_i hneg
          exact (abs_of_nonneg (not_lt.1 hneg)).symm
      rw [if_neg fun h => hi ((ht i).1 h)]
      simp only [e]
      split <;> rfl

theorem foldTau_logdet (tau : Fin N → ℝ) (is : List (Fin N)) (r : DetRec) : (is.foldl (detStepTau tau) r).logdet = r.logdet := by
  induction is generalizing r with
  | nil => rfl
  | cons i is ih =>
    rw [List.foldl_cons, ih]
    unfold detStepTau
    split <;> rfl

/-- C123: where the flow converges to `A` with `1 + A` invertible, the logarithm computed by `GreenConstruct` converges to that of the
absolute value of the determinant of `(1 + A)⁻¹` -/
theorem logdet_lim [NeZero N] (h : Along U ar k u) (hl : ∀ᶠ t in (U : Filter ι), (ar t).toOps.LogWithin (u t))
    (hp : ∀ᶠ t in (U : Filter ι), (ar t).Pivoted) {tsm : ι → TSM N} {sh : ℕ} {Q : Mat N} {d : Fin N → ℝ} {T : Mat N}
    (hf : FlowLim U u (fun t => timeFlowMap (ar t) (tsm t) sh) Q d T) (hne : (1 + Q * diagonal d * T).det ≠ 0)
    {g : ι → GreensFn N} (hg : ∀ᶠ t in (U : Filter ι), greenConstruct (ar t) (tsm t) sh = some (g t)) :
    Tendsto (fun t => (g t).logdet) U (𝓝 (-Real.log |(1 + Q * diagonal d * T).det|)) := by
  classical
  set f : ι → Flow N := fun t => timeFlowMap (ar t) (tsm t) sh with hfdef
  obtain ⟨le, hle'⟩ := exists_const (U := U) fun t => fun i : Fin N => decide (|(f t).d i| ≤ 1.0)
  have hle : ∀ᶠ t in (U : Filter ι), ∀ i, (|(f t).d i| ≤ 1.0 ↔ le i = true) := by
    filter_upwards [hle'] with t ht i
    rw [← ht]
    simp
  obtain ⟨-, hsplit⟩ := split_any Q T d hf.orth hf.ne le
  set Db₀ : Mat N := diagonal fun i => if le i then 1 else 1 / d i with hDb₀
  set Ds₀ : Mat N := Matrix.of fun i j => if le i then d i * T i j else T i j with hDs₀
  set Dbig : Mat N := diagonal fun i => if le i then 1 else d i with hDbig
  have hDbl : MLim U (fun t => diagonal fun i => if |(f t).d i| > 1.0 then (ar t).div 1.0 ((f t).d i) else 1.0) Db₀ := by
    intro i j
    rw [hDb₀]
    by_cases hij : i = j
    · subst hij
      simp only [diagonal_apply_eq]
      by_cases hi : le i = true
      · simp only [if_pos hi]
        refine one_lim.congr' ?_
        filter_upwards [hle] with t ht
        rw [if_neg (not_lt.2 ((ht i).2 hi))]
      · simp only [if_neg hi]
        refine (h.ops.div one_lim (hf.scale i) (hf.ne i)).congr' ?_
        filter_upwards [hle] with t ht
        rw [if_pos (not_le.1 fun h => hi ((ht i).1 h))]
    · simp only [diagonal_apply_ne _ hij]
      exact tendsto_const_nhds
  set G : ι → Mat N := fun t => (ar t).ormqrT (f t).Q (f t).tau
    (diagonal fun i => if |(f t).d i| > 1.0 then (ar t).div 1.0 ((f t).d i) else 1.0) with hGdef
  have hG : MLim U G (Db₀ * Qᵀ) := h.ormqrT hf.refl hf.q hDbl
  have hTl : ∀ i j, Tendsto (fun t => if |(f t).d i| ≤ 1.0 then (ar t).mul ((f t).d i) ((f t).T i j) else (f t).T i j) U
      (𝓝 (Ds₀ i j)) := by
    intro i j
    simp only [hDs₀, of_apply]
    by_cases hi : le i = true
    · simp only [if_pos hi]
      refine (h.ops.mul (hf.scale i) (hf.tri i j)).congr' ?_
      filter_upwards [hle] with t ht
      rw [if_pos ((ht i).2 hi)]
    · simp only [if_neg hi]
      refine (hf.tri i j).congr' ?_
      filter_upwards [hle] with t ht
      rw [if_neg fun h => hi ((ht i).1 h)]
  set S : ι → Mat N := fun t => Matrix.of fun i j => (ar t).add
    ((Matrix.of fun i j => if |(f t).d i| ≤ 1.0 then (ar t).mul ((f t).d i) ((f t).T i j) else (f t).T i j : Mat N) i j) (G t i j)
    with hSdef
  have hS : MLim U S (Ds₀ + Db₀ * Qᵀ) := by
    intro i j
    rw [Matrix.add_apply]
    exact h.ops.add (hTl i j) (hG i j)
  have hdet1 := congrArg Matrix.det hsplit
  rw [det_mul, det_mul] at hdet1
  have hSdet : (Ds₀ + Db₀ * Qᵀ).det ≠ 0 := by
    intro h0
    rw [h0, mul_zero] at hdet1
    exact hne hdet1
  obtain ⟨w, hw, hwd⟩ := h.pivots hp hS hSdet
  have hw0 : ∀ i, w i ≠ 0 := by
    intro i hi
    rw [Finset.prod_eq_zero (Finset.mem_univ i) hi, abs_zero] at hwd
    exact hSdet (abs_eq_zero.1 hwd.symm)
  have hQd : |Q.det| = 1 := by
    have := congrArg Matrix.det hf.orth
    rw [det_mul, det_transpose, det_one] at this
    have h2 : |Q.det| * |Q.det| = 1 := by rw [abs_mul_abs_self]; exact this
    nlinarith [abs_nonneg Q.det]
  have h1 := foldU_lim h.ops hl (F := fun t => ((ar t).getrf (S t)).1) (ip := fun t => ((ar t).getrf (S t)).2) hw hw0 (List.finRange N)
    (r := fun _ => { logdet := 0.0, sgndet := 1 }) (a := 0) (by norm_num)
  have h2 := foldD_lim h.ops hl hle hf.scale hf.ne (List.finRange N) h1
  have hval : 0 - ((List.finRange N).map fun i => Real.log |w i|).sum - ((List.finRange N).map fun i => Real.log |if le i then 1 else d i|).sum
      = -Real.log |(1 + Q * diagonal d * T).det| := by
    have e1 : ∀ x : Fin N → ℝ, (∀ i, x i ≠ 0) → ((List.finRange N).map fun i => Real.log |x i|).sum = Real.log |∏ i, x i| := by
      intro x hx
      rw [Finset.abs_prod, Real.log_prod fun i _ => (abs_pos.2 (hx i)).ne', ← List.ofFn_eq_map, List.sum_ofFn]
    rw [e1 w hw0, e1 (fun i => if le i then 1 else d i) (fun i => by
      split
      · norm_num
      · exact hf.ne i), hwd, hdet1, abs_mul, abs_mul, hQd, one_mul]
    have hbd : Dbig.det = ∏ i, if le i then 1 else d i := by rw [hDbig, det_diagonal]
    rw [← hbd, Real.log_mul _ (abs_pos.2 hSdet).ne']
    · ring
    · refine (abs_pos.2 fun h0 => ?_).ne'
      rw [h0, mul_zero, zero_mul] at hdet1
      exact hne hdet1
  rw [hval] at h2
  refine h2.congr' ?_
  filter_upwards [hg] with t ht
  unfold greenConstruct at ht
  simp only at ht
  split at ht
  · exact absurd ht (by simp)
  · have := Option.some.inj ht
    rw [← this]
    simp only [foldTau_logdet]
    rfl

end limits

end Verif.Rounded
